import Verif.Blossom.Round

/-!
# Pairings of events and the radii they pay for
-/

namespace Verif.SB

open Verif Verif.Graph Verif.CE Verif.Mem Verif.Spec
open Verif.Sch (Res)

variable {g : MGraph} {T L : Finset Nat} {ch : Nat → List Nat} {t : Int} {s : FS}

/-! ## Descendants -/

/-- The region `r` and all regions below it. -/
def below (L : Finset Nat) (ch : Nat → List Nat) (r : Nat) : Finset Nat := L.filter fun R => r ∈ ch R

/-- The sum of the radii of `r` and all regions below it. -/
def bsum (s : FS) (L : Finset Nat) (ch : Nat → List Nat) (t : Int) (r : Nat) : Int := ∑ R ∈ below L ch r, y s t R

open Classical in
/-- The sum of the radii of the regions around event `a` up to `r`. -/
noncomputable def up (s : FS) (L : Finset Nat) (ch : Nat → List Nat) (t : Int) (r a : Nat) : Int :=
  ∑ R ∈ (below L ch r).filter (fun R => InR s ch R a), y s t R

theorem mem_below {r R : Nat} : R ∈ below L ch r ↔ R ∈ L ∧ r ∈ ch R := by simp [below]

namespace BGeo

theorem self_below (h : BGeo g T L ch t s) {r : Nat} (hr : r ∈ L) : r ∈ below L ch r := mem_below.2 ⟨hr, h.forest.self_mem hr⟩

theorem kid_par (h : BGeo g T L ch t s) {r c : Nat} (hr : r ∈ L) (hc : c ∈ kidsOf s r) : c ∈ L ∧ par s c = some r ∧ ch c = c :: ch r := by
  obtain ⟨h1, h2⟩ := (h.kids.mem r hr c).1 hc
  exact ⟨h1, h2, (h.forest.step c h1 r h2).2⟩

theorem kid_below (h : BGeo g T L ch t s) {r c R : Nat} (hr : r ∈ L) (hc : c ∈ kidsOf s r) (hR : R ∈ below L ch c) : R ∈ below L ch r ∧ R ≠ r := by
  obtain ⟨h1, h2, h3⟩ := h.kid_par hr hc
  obtain ⟨h4, h5⟩ := mem_below.1 hR
  have hrc : r ∈ ch c := by rw [h3]; exact List.mem_cons_of_mem _ (h.forest.self_mem hr)
  refine ⟨mem_below.2 ⟨h4, h.forest.trans h4 h5 hrc⟩, ?_⟩
  rintro rfl
  have := h.forest.antisymm hr h5 hrc
  subst this
  have := h.forest.nodup hr
  rw [h3] at this
  exact (List.nodup_cons.1 this).1 (h.forest.self_mem hr)

theorem below_cases (h : BGeo g T L ch t s) {r R : Nat} (hr : r ∈ L) (hR : R ∈ below L ch r) : R = r ∨ ∃ c ∈ kidsOf s r, R ∈ below L ch c := by
  obtain ⟨h1, h2⟩ := mem_below.1 hR
  by_cases hne : r = R
  · exact .inl hne.symm
  · obtain ⟨c, k1, k2, k3⟩ := h.forest.via_child h1 h2 hne
    exact .inr ⟨c, (h.kids.mem r hr c).2 ⟨k2, k3⟩, mem_below.2 ⟨h1, k1⟩⟩

theorem below_disj (h : BGeo g T L ch t s) {r c d R : Nat} (hr : r ∈ L) (hc : c ∈ kidsOf s r) (hd : d ∈ kidsOf s r) (h1 : R ∈ below L ch c) (h2 : R ∈ below L ch d) :
    c = d :=
  h.forest.child_unique (mem_below.1 h1).1 (mem_below.1 h1).2 (mem_below.1 h2).2 (h.kid_par hr hc).2.1 (h.kid_par hr hd).2.1

theorem below_eq (h : BGeo g T L ch t s) {r : Nat} (hr : r ∈ L) : below L ch r = insert r ((kidsOf s r).toFinset.biUnion (below L ch)) := by
  ext R
  simp only [Finset.mem_insert, Finset.mem_biUnion, List.mem_toFinset]
  constructor
  · exact fun hR => h.below_cases hr hR
  · rintro (rfl | ⟨c, hc, hR⟩)
    · exact h.self_below hr
    · exact (h.kid_below hr hc hR).1

theorem bsum_eq (h : BGeo g T L ch t s) {r : Nat} (hr : r ∈ L) : bsum s L ch t r = y s t r + ((kidsOf s r).map (bsum s L ch t)).sum := by
  unfold bsum
  rw [h.below_eq hr, Finset.sum_insert, Finset.sum_biUnion]
  · rw [List.sum_toFinset _ (h.kids.nodup r hr)]
  · intro c hc d hd hne
    refine Finset.disjoint_left.2 fun R h1 h2 => hne (h.below_disj hr (List.mem_toFinset.1 hc) (List.mem_toFinset.1 hd) h1 h2)
  · intro hm
    obtain ⟨c, hc, hR⟩ := Finset.mem_biUnion.1 hm
    exact (h.kid_below hr (List.mem_toFinset.1 hc) hR).2 rfl

theorem inR_up (h : BGeo g T L ch t s) {r R a : Nat} (hin : InR s ch r a) (hR : R ∈ ch r) : InR s ch R a := by
  obtain ⟨q, hq, hr⟩ := hin
  exact ⟨q, hq, h.forest.trans (h.occ a q hq).1 hr hR⟩

theorem inR_total (h : BGeo g T L ch t s) {r R a : Nat} (h1 : InR s ch r a) (h2 : InR s ch R a) : r ∈ ch R ∨ R ∈ ch r := by
  obtain ⟨q, hq, hr⟩ := h1
  obtain ⟨q', hq', hR⟩ := h2
  rw [hq, Option.some.injEq] at hq'
  subst hq'
  exact h.forest.total (h.occ a q hq).1 hr hR

theorem inR_kid_unique (h : BGeo g T L ch t s) {r c d a : Nat} (hr : r ∈ L) (hc : c ∈ kidsOf s r) (hd : d ∈ kidsOf s r) (h1 : InR s ch c a) (h2 : InR s ch d a) : c = d := by
  obtain ⟨q, hq, hr1⟩ := h1
  obtain ⟨q', hq', hR⟩ := h2
  rw [hq, Option.some.injEq] at hq'
  subst hq'
  exact h.forest.child_unique (h.occ a q hq).1 hr1 hR (h.kid_par hr hc).2.1 (h.kid_par hr hd).2.1

theorem up_kid (h : BGeo g T L ch t s) {r c a : Nat} (hr : r ∈ L) (hc : c ∈ kidsOf s r) (hin : InR s ch c a) : up s L ch t r a = y s t r + up s L ch t c a := by
  classical
  obtain ⟨h1, h2, h3⟩ := h.kid_par hr hc
  have hrc : r ∈ ch c := by rw [h3]; exact List.mem_cons_of_mem _ (h.forest.self_mem hr)
  have : (below L ch r).filter (fun R => InR s ch R a) = insert r ((below L ch c).filter (fun R => InR s ch R a)) := by
    ext R
    simp only [Finset.mem_filter, Finset.mem_insert]
    constructor
    · rintro ⟨k1, k2⟩
      rcases h.below_cases hr k1 with e | ⟨d, hd, hR⟩
      · exact .inl e
      · have hda := h.inR_up k2 (mem_below.1 hR).2
        have := h.inR_kid_unique hr hc hd hin hda
        subst this
        exact .inr ⟨hR, k2⟩
    · rintro (rfl | ⟨k1, k2⟩)
      · exact ⟨h.self_below hr, h.inR_up hin hrc⟩
      · exact ⟨(h.kid_below hr hc k1).1, k2⟩
  unfold up
  rw [this, Finset.sum_insert]
  intro hm
  exact (h.kid_below hr hc (Finset.mem_filter.1 hm).1).2 rfl

/-- Events lie in regions without children. -/
theorem event_leaf (h : BGeo g T L ch t s) {a q : Nat} (ha : a ∈ T) (hq : (s.node a).arr = some q) : kidsOf s q = [] ∧ (s.node a).rho = 0 ∧ ∃ l, (s.reg q).shell = a :: l := by
  obtain ⟨r, l, e1, e2, e3, e4, -⟩ := h.event a ha
  rw [hq, Option.some.injEq] at e1
  subst e1
  exact ⟨by unfold kidsOf; rw [e2]; rfl, e4, l, e3⟩

theorem inR_cases (h : BGeo g T L ch t s) {r a : Nat} (hr : r ∈ L) (ha : a ∈ T) (hin : InR s ch r a) :
    (kidsOf s r = [] ∧ (s.node a).arr = some r) ∨ ∃ c ∈ kidsOf s r, InR s ch c a := by
  obtain ⟨q, hq, hrq⟩ := hin
  have hqL := (h.occ a q hq).1
  rcases h.below_cases hr (mem_below.2 ⟨hqL, hrq⟩) with e | ⟨c, hc, hR⟩
  · subst e
    exact .inl ⟨(h.event_leaf ha hq).1, hq⟩
  · exact .inr ⟨c, hc, q, hq, (mem_below.1 hR).2⟩

theorem below_leaf (h : BGeo g T L ch t s) {r : Nat} (hr : r ∈ L) (hk : kidsOf s r = []) : below L ch r = {r} := by
  rw [h.below_eq hr, hk]; simp

theorem up_leaf (h : BGeo g T L ch t s) {r a : Nat} (hr : r ∈ L) (hk : kidsOf s r = []) (hin : InR s ch r a) : up s L ch t r a = bsum s L ch t r := by
  classical
  unfold up bsum
  rw [h.below_leaf hr hk, Finset.filter_true_of_mem]
  intro R hR
  rw [Finset.mem_singleton.1 hR]; exact hin

/-- A region without children holds one event. -/
theorem leaf_unique (h : BGeo g T L ch t s) {r a b : Nat} (hr : r ∈ L) (hk : kidsOf s r = []) (ha : a ∈ T) (hb : b ∈ T) (h1 : InR s ch r a) (h2 : InR s ch r b) : a = b := by
  have key : ∀ x, x ∈ T → InR s ch r x → ∃ l, (s.reg r).shell = x :: l := by
    intro x hx hin
    rcases h.inR_cases hr hx hin with ⟨-, k⟩ | ⟨c, hc, -⟩
    · exact (h.event_leaf hx k).2.2
    · rw [hk] at hc; cases hc
  obtain ⟨l, e1⟩ := key a ha h1
  obtain ⟨l', e2⟩ := key b hb h2
  rw [e1] at e2
  exact (List.cons.inj e2).1

theorem leaf_exists (h : BGeo g T L ch t s) {r : Nat} (hr : r ∈ L) (hk : kidsOf s r = []) : ∃ a ∈ T, InR s ch r a := by
  obtain ⟨a, l, e, ha⟩ := h.seed r hr (by unfold kidsOf at hk; exact List.map_eq_nil_iff.1 hk)
  exact ⟨a, ha, r, h.shell r hr a (by rw [e]; simp), h.forest.self_mem hr⟩

open Classical in
theorem pot_event (h : BGeo g T L ch t s) {a : Nat} (ha : a ∈ T) (R : Nat) : pot s ch t R (some a) = if InR s ch R a then y s t R else 0 := by
  obtain ⟨q, l, e1, -, -, e2, -⟩ := h.event a ha
  rw [pot_arr e1, e2]
  by_cases hR : R ∈ ch q
  · rw [if_pos hR, if_pos (show InR s ch R a from ⟨q, e1, hR⟩)]
    simp
  · rw [if_neg hR, if_neg]
    rintro ⟨q', hq', h'⟩
    rw [e1, Option.some.injEq] at hq'
    exact hR (hq' ▸ h')

/-- The distance from an event to the boundary. -/
theorem D_up_none (h : BGeo g T L ch t s) {r a : Nat} (ha : a ∈ T) (hp : par s r = none) (hin : InR s ch r a) : D s L ch t (some a) none = up s L ch t r a := by
  classical
  have hr := h.inR_live hin
  show rad s L ch t a = _
  rw [h.rad_sum]
  simp only [h.pot_event ha]
  rw [← Finset.sum_filter]
  unfold up
  refine Finset.sum_congr ?_ (fun _ _ => rfl)
  ext R
  simp only [Finset.mem_filter, mem_below]
  constructor
  · rintro ⟨k1, k2⟩
    refine ⟨⟨k1, ?_⟩, k2⟩
    rcases h.inR_total hin k2 with k | k
    · exact k
    · rw [h.chain_root hr hp, List.mem_singleton] at k
      rw [k]; exact h.forest.self_mem hr
  · rintro ⟨⟨k1, k2⟩, k3⟩
    exact ⟨k1, k3⟩

/-- The distance between events in different regions with the same parent. -/
theorem D_up (h : BGeo g T L ch t s) {r m a b : Nat} (ha : a ∈ T) (hb : b ∈ T) (hne : r ≠ m) (hp : par s r = par s m) (h1 : InR s ch r a) (h2 : InR s ch m b) :
    D s L ch t (some a) (some b) = up s L ch t r a + up s L ch t m b := by
  classical
  have hr := h.inR_live h1
  have hm := h.inR_live h2
  have hrest : ∀ R, R ≠ r → R ≠ m → (R ∈ ch r ↔ R ∈ ch m) := by
    intro R k1 k2
    rcases h.forest.cases hr with ⟨e1, e2⟩ | ⟨p, e1, e2, e3⟩
    · rw [e2, h.chain_root hm (hp ▸ e1)]
      simp [k1, k2]
    · rw [e3, (h.forest.step m hm p (hp ▸ e1)).2]
      simp [k1, k2]
  have hrm : r ∉ ch m := by
    intro hx
    rcases h.forest.cases hm with ⟨e1, e2⟩ | ⟨p, e1, e2, e3⟩
    · rw [e2, List.mem_singleton] at hx; exact hne hx
    · rw [e3] at hx
      rcases List.mem_cons.1 hx with k | k
      · exact hne k
      · have := h.forest.nodup hr
        rw [(h.forest.step r hr p (hp.trans e1)).2] at this
        exact (List.nodup_cons.1 this).1 k
  have hmr : m ∉ ch r := by
    intro hx
    rcases h.forest.cases hr with ⟨e1, e2⟩ | ⟨p, e1, e2, e3⟩
    · rw [e2, List.mem_singleton] at hx; exact hne hx.symm
    · rw [e3] at hx
      rcases List.mem_cons.1 hx with k | k
      · exact hne k.symm
      · have := h.forest.nodup hm
        rw [(h.forest.step m hm p (hp.symm.trans e1)).2] at this
        exact (List.nodup_cons.1 this).1 k
  unfold up
  rw [Finset.sum_filter, Finset.sum_filter]
  unfold below
  rw [Finset.sum_filter, Finset.sum_filter, ← Finset.sum_add_distrib]
  unfold D dist
  refine Finset.sum_congr rfl fun R hR => ?_
  rw [h.pot_event ha, h.pot_event hb]
  have hy := h.ypos R hR
  by_cases c1 : r ∈ ch R
  · have c2 : m ∉ ch R := by
      intro c2
      rcases h.forest.total hR c1 c2 with k | k
      · exact hrm k
      · exact hmr k
    have c3 : ¬ InR s ch R b := by
      intro c3
      rcases h.inR_total h2 c3 with k | k
      · exact c2 k
      · exact hrm (h.forest.trans hm k c1)
    rw [if_pos c1, if_neg c2, if_neg c3]
    split <;> simp [abs_of_nonneg, hy]
  · by_cases c2 : m ∈ ch R
    · have c3 : ¬ InR s ch R a := by
        intro c3
        rcases h.inR_total h1 c3 with k | k
        · exact c1 k
        · exact hmr (h.forest.trans hr k c2)
      rw [if_neg c1, if_pos c2, if_neg c3]
      split <;> simp [abs_of_nonneg, hy]
    · rw [if_neg c1, if_neg c2]
      have : InR s ch R a ↔ InR s ch R b := by
        have hRr : R ≠ r := fun e => c1 (e ▸ h.forest.self_mem hR)
        have hRm : R ≠ m := fun e => c2 (e ▸ h.forest.self_mem hR)
        constructor
        · intro k
          exact h.inR_up h2 ((hrest R hRr hRm).1 ((h.inR_total h1 k).resolve_left c1))
        · intro k
          exact h.inR_up h1 ((hrest R hRr hRm).2 ((h.inR_total h2 k).resolve_left c2))
      simp only [this]
      simp

/-- Every region holds an odd number of events. -/
theorem odd_events (h : BGeo g T L ch t s) (hc : Cyc (view g T L ch t s)) {r : Nat} (hr : r ∈ L) (S : Nat → Finset Nat) (hS : ∀ r x, x ∈ S r ↔ x ∈ T ∧ InR s ch r x) :
    (S r).card % 2 = 1 := by
  suffices H : ∀ n r, r ∈ L → (below L ch r).card ≤ n → (S r).card % 2 = 1 from H _ r hr (le_refl _)
  intro n
  induction n with
  | zero =>
    intro r hr hn
    have := Finset.card_pos.2 ⟨r, h.self_below hr⟩
    omega
  | succ n ih =>
    intro r hr hn
    rcases hc r hr with hk | ⟨k1, k2, -⟩
    · have hk' : kidsOf s r = [] := by unfold kidsOf; rw [show (s.reg r).children = [] from hk]; rfl
      obtain ⟨a, ha, hin⟩ := h.leaf_exists hr hk'
      have : S r = {a} := by
        ext x
        rw [hS, Finset.mem_singleton]
        constructor
        · rintro ⟨l1, l2⟩; exact h.leaf_unique hr hk' l1 ha l2 hin
        · rintro rfl; exact ⟨ha, hin⟩
      rw [this]; rfl
    · have e : S r = (kidsOf s r).toFinset.biUnion S := by
        ext x
        simp only [Finset.mem_biUnion, List.mem_toFinset, hS]
        constructor
        · rintro ⟨l1, l2⟩
          rcases h.inR_cases hr l1 l2 with ⟨l3, -⟩ | ⟨c, hc, l3⟩
          · have : (s.reg r).children = [] := by unfold kidsOf at l3; exact List.map_eq_nil_iff.1 l3
            have k2' : 3 ≤ (s.reg r).children.length := k2
            rw [this] at k2'; simp at k2'
          · exact ⟨c, hc, l1, l3⟩
        · rintro ⟨c, hc, l1, l2⟩
          exact ⟨l1, h.inR_up l2 (by rw [(h.kid_par hr hc).2.2]; exact List.mem_cons_of_mem _ (h.forest.self_mem hr))⟩
      have hlen : (kidsOf s r).length % 2 = 1 := by unfold kidsOf; rw [List.length_map]; exact k1
      rw [e, Finset.card_biUnion]
      · rw [List.sum_toFinset _ (h.kids.nodup r hr)]
        have hall : ∀ c ∈ kidsOf s r, (S c).card % 2 = 1 := by
          intro c hc
          refine ih c (h.kid_par hr hc).1 ?_
          have hlt : (below L ch c).card < (below L ch r).card := by
            refine Finset.card_lt_card ⟨fun R hR => (h.kid_below hr hc hR).1, fun hsub => ?_⟩
            exact (h.kid_below hr hc (hsub (h.self_below hr))).2 rfl
          omega
        generalize kidsOf s r = l at hall hlen
        have key : ∀ l : List Nat, (∀ c ∈ l, (S c).card % 2 = 1) → (l.map fun c => (S c).card).sum % 2 = l.length % 2 := by
          intro l
          induction l with
          | nil => intro _; rfl
          | cons c l ih =>
            intro hl
            have h1 := hl c (by simp)
            have h2 := ih (fun d hd => hl d (List.mem_cons_of_mem _ hd))
            simp only [List.map_cons, List.sum_cons, List.length_cons]
            omega
        rw [key l hall, hlen]
      · intro c hc d hd hne
        refine Finset.disjoint_left.2 fun x l1 l2 => hne ?_
        exact h.inR_kid_unique hr (List.mem_toFinset.1 hc) (List.mem_toFinset.1 hd) ((hS c x).1 l1).2 ((hS d x).1 l2).2

end BGeo

/-! ## Pairings -/

/-- The events that a match edge joins. -/
def edgeEnds (e : CompressedEdge) : List Nat := e.locFrom.toList ++ e.locTo.toList

/-- The match edges `es` join exactly the events with `P` along tight walks; the lengths add up to `w`, and all are edges with `K`. -/
structure Matches (g : MGraph) (T L : Finset Nat) (ch : Nat → List Nat) (t : Int) (s : FS) (K : CompressedEdge → Prop) (P : Nat → Prop) (w : Int) (es : List CompressedEdge) : Prop where
  nodup : (es.flatMap edgeEnds).Nodup
  mem : ∀ x, x ∈ es.flatMap edgeEnds ↔ x ∈ T ∧ P x
  tight : ∀ e ∈ es, ∃ a, e.locFrom = some a ∧ Tight g s L ch t a e.locTo e.obsMask
  len : (es.map fun e => D s L ch t e.locFrom e.locTo).sum = w
  kind : ∀ e ∈ es, K e

namespace Matches

variable {K K' : CompressedEdge → Prop} {P P' : Nat → Prop} {w w' : Int} {es es' : List CompressedEdge}

theorem nil (hP : ∀ x ∈ T, ¬ P x) : Matches g T L ch t s K P 0 [] :=
  ⟨by simp, fun x => by simpa using hP x, by simp, rfl, by simp⟩

theorem congr (h : Matches g T L ch t s K P w es) (hP : ∀ x ∈ T, P x ↔ P' x) (hw : w = w') : Matches g T L ch t s K P' w' es :=
  ⟨h.nodup, fun x => by rw [h.mem]; exact and_congr_right fun hx => hP x hx, h.tight, hw ▸ h.len, h.kind⟩

theorem mono (h : Matches g T L ch t s K P w es) (hK : ∀ e, K e → K' e) : Matches g T L ch t s K' P w es :=
  ⟨h.nodup, h.mem, h.tight, h.len, fun e he => hK e (h.kind e he)⟩

theorem append (h : Matches g T L ch t s K P w es) (h' : Matches g T L ch t s K P' w' es') (hd : ∀ x ∈ T, P x → ¬ P' x) :
    Matches g T L ch t s K (fun x => P x ∨ P' x) (w + w') (es ++ es') := by
  refine ⟨?_, ?_, ?_, ?_, ?_⟩
  · rw [List.flatMap_append, List.nodup_append]
    refine ⟨h.nodup, h'.nodup, ?_⟩
    rintro a ha b hb rfl
    exact hd a ((h.mem a).1 ha).1 ((h.mem a).1 ha).2 ((h'.mem a).1 hb).2
  · intro x
    rw [List.flatMap_append, List.mem_append, h.mem, h'.mem]
    tauto
  · intro e he
    rcases List.mem_append.1 he with he | he
    · exact h.tight e he
    · exact h'.tight e he
  · rw [List.map_append, List.sum_append, h.len, h'.len]
  · intro e he
    rcases List.mem_append.1 he with he | he
    · exact h.kind e he
    · exact h'.kind e he

theorem perm (h : Matches g T L ch t s K P w es) (hp : es.Perm es') : Matches g T L ch t s K P w es' :=
  ⟨(hp.flatMap_right _).nodup_iff.1 h.nodup, fun x => by rw [← (hp.flatMap_right edgeEnds).mem_iff]; exact h.mem x,
    fun e he => h.tight e (hp.mem_iff.2 he), by rw [← h.len]; exact ((hp.map _).sum_eq).symm, fun e he => h.kind e (hp.mem_iff.2 he)⟩

theorem pair {e : CompressedEdge} {a b : Nat} (h1 : e.locFrom = some a) (h2 : e.locTo = some b) (ha : a ∈ T) (hb : b ∈ T) (hne : a ≠ b)
    (ht : Tight g s L ch t a (some b) e.obsMask) (hk : K e) : Matches g T L ch t s K (fun x => x = a ∨ x = b) (D s L ch t (some a) (some b)) [e] := by
  have he : edgeEnds e = [a, b] := by simp [edgeEnds, h1, h2]
  refine ⟨by simp [he, hne], ?_, ?_, by simp [h1, h2], by simpa using hk⟩
  · intro x
    simp only [List.flatMap_cons, List.flatMap_nil, List.append_nil, he, List.mem_cons, List.not_mem_nil, or_false]
    constructor
    · rintro (rfl | rfl)
      · exact ⟨ha, .inl rfl⟩
      · exact ⟨hb, .inr rfl⟩
    · exact fun h => h.2
  · intro e' he'
    rw [List.mem_singleton] at he'
    subst he'
    exact ⟨a, h1, by rw [h2]; exact ht⟩

theorem single {e : CompressedEdge} {a : Nat} (h1 : e.locFrom = some a) (h2 : e.locTo = none) (ha : a ∈ T) (ht : Tight g s L ch t a none e.obsMask) (hk : K e) :
    Matches g T L ch t s K (fun x => x = a) (D s L ch t (some a) none) [e] := by
  have he : edgeEnds e = [a] := by simp [edgeEnds, h1, h2]
  refine ⟨by simp [he], ?_, ?_, by simp [h1, h2], by simpa using hk⟩
  · intro x
    simp only [List.flatMap_cons, List.flatMap_nil, List.append_nil, he, List.mem_singleton]
    constructor
    · rintro rfl; exact ⟨ha, rfl⟩
    · exact fun h => h.2
  · intro e' he'
    rw [List.mem_singleton] at he'
    subst he'
    exact ⟨a, h1, by rw [h2]; exact ht⟩

end Matches

/-- The combined observables of match edges. -/
def maskOf (es : List CompressedEdge) : ObsInt := es.foldr (fun e m => e.obsMask ^^^ m) 0

theorem maskOf_append (es es' : List CompressedEdge) : maskOf (es ++ es') = maskOf es ^^^ maskOf es' := by
  induction es with
  | nil => simp [maskOf]
  | cons e es ih =>
    have : maskOf (e :: es ++ es') = e.obsMask ^^^ maskOf (es ++ es') := rfl
    rw [this, ih]
    show _ = (e.obsMask ^^^ maskOf es) ^^^ maskOf es'
    rw [BitVec.xor_assoc]

/-- The walks of a pairing of all events form a correction. -/
theorem Matches.walks {es : List CompressedEdge} {T' : Finset Nat} (ht : ∀ e ∈ es, ∃ a, e.locFrom = some a ∧ Tight g s L ch t a e.locTo e.obsMask)
    (hnd : (es.flatMap edgeEnds).Nodup) (hmem : ∀ x, x ∈ es.flatMap edgeEnds ↔ x ∈ T') :
    ∃ ws, Corrects g T' ws ∧ totalObs g ws = maskOf es ∧ totalWeight g ws = (es.map fun e => D s L ch t e.locFrom e.locTo).sum := by
  have key : ∃ ws, (∀ e ∈ ws, (entry g e).isSome) ∧ (∀ x, totalEnds g x ws % 2 = (es.flatMap edgeEnds).count x % 2) ∧ totalObs g ws = maskOf es ∧
      totalWeight g ws = (es.map fun e => D s L ch t e.locFrom e.locTo).sum := by
    clear hnd hmem
    induction es with
    | nil => exact ⟨[], by simp, fun x => by simp [totalEnds], rfl, rfl⟩
    | cons e es ih =>
      obtain ⟨ws, k1, k2, k3, k4⟩ := ih (fun e he => ht e (List.mem_cons_of_mem _ he))
      obtain ⟨a, ha, vs, l1, l2, l3⟩ := ht e (by simp)
      refine ⟨vs ++ ws, ?_, ?_, ?_, ?_⟩
      · intro e' he'
        rcases List.mem_append.1 he' with h | h
        · exact walk_slots l1 e' h
        · exact k1 e' h
      · intro x
        rw [totalEnds_append, List.flatMap_cons, List.count_append]
        have h1 := walk_ends l1 x
        have h2 := k2 x
        have h3 : (edgeEnds e).count x = (if a = x then 1 else 0) + (if e.locTo = some x then 1 else 0) := by
          unfold edgeEnds
          rw [ha, List.count_append]
          congr 1
          · simp [List.count_singleton]
          · cases e.locTo with
            | none => simp
            | some b => simp [List.count_singleton]
        omega
      · rw [totalObs_append, l3, k3]; rfl
      · rw [totalWeight_append, l2, k4, List.map_cons, List.sum_cons, ha]
  obtain ⟨ws, k1, k2, k3, k4⟩ := key
  refine ⟨ws, ⟨k1, ?_⟩, k3, k4⟩
  intro x
  rw [k2, ← hmem]
  by_cases hx : x ∈ es.flatMap edgeEnds
  · rw [List.count_eq_one_of_mem hnd hx]; simp [hx]
  · rw [List.count_eq_zero_of_not_mem hx]; simp [hx]

/-- The radii bound the weight of every correction from below. -/
theorem Geo.bound (h : Geo g T L ch t s) (hc : Cyc (view g T L ch t s)) {es : List Slot} (hes : Corrects g T es) : ∑ R ∈ L, y s t R ≤ totalWeight g es := by
  classical
  refine certificate (p := pot s ch t) (T := T) (fun _ _ => rfl) (fun R hR u => ⟨h.pot_nonneg hR u, h.pot_le hR u⟩) ?_ ?_ h.flow hes
  · intro R _ a ha
    rw [h.pot_event ha]
    split
    · exact .inr rfl
    · exact .inl rfl
  · intro R hR hy
    refine Eq.trans ?_ (h.toBGeo.odd_events hc hR (fun r => T.filter fun a => InR s ch r a) (fun r x => by simp))
    congr 2
    refine Finset.filter_congr fun a ha => ?_
    rw [h.pot_event ha]
    split
    · rename_i hin; simp [hin]
    · rename_i hin; simp only [hin, iff_false]; omega

end Verif.SB
