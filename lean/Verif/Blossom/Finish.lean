import Verif.Blossom.Extract
import Verif.Blossom.Round

/-!
# Extraction of the whole matching

When the queue is empty and no alternating tree is left, all regions are matched.  Extraction then frees everything, and yields a
correction whose weight is the sum of the radii of all regions, which bounds the weight of every correction from below.
-/

namespace Verif.SB

open Verif Verif.Graph Verif.CE Verif.Mem Verif.Spec Verif.Track
open Verif.Sch (Res)

variable {g : MGraph} {T L : Finset Nat} {ch : Nat → List Nat} {t : Int} {s0 : MS}

/-- Nothing is left of earlier decoding. -/
structure Clean (s : MS) : Prop where
  nodes : ∀ n, s.fl.node n = .blank
  regs : AInv ∅ s.fl.regs
  alts : AInv ∅ s.alts
  quiet : Quiet s.fl.w

/-- All top regions are matched. -/
structure Done (g : MGraph) (T L : Finset Nat) (ch : Nat → List Nat) (t : Int) (s : MS) : Prop where
  geo : Geo g T L ch t s.fl
  cyc : Cyc (view g T L ch t s.fl)
  still : ∀ r ∈ L, sl s.fl r = 0
  matched : ∀ r ∈ L, par s.fl r = none → Matched (view g T L ch t s.fl) s.ralt s.mate r
  regs : AInv L s.fl.regs
  quiet : Quiet s.fl.w

/-- The state after extracting the regions `S`. -/
structure XAll (L S : Finset Nat) (ch : Nat → List Nat) (s0 s : MS) : Prop where
  ok : XOk s0.fl s0.alts (L \ S) s
  sub : S ⊆ L
  closed : ∀ q ∈ L, ∀ r ∈ ch q, q ∈ S ↔ r ∈ S
  mclosed : ∀ r ∈ L, par s0.fl r = none → ∀ m, (s0.mate r).region = some m → (r ∈ S ↔ m ∈ S)
  mate : ∀ r ∈ L, par s0.fl r = none → r ∉ S → s.mate r = s0.mate r
  blank : ∀ n q, (s0.fl.node n).arr = some q → q ∈ S → s.fl.node n = .blank
  same : ∀ n, (∀ q, (s0.fl.node n).arr = some q → q ∉ S) → s.fl.node n = s0.fl.node n

theorem XAll.start (h : Done g T L ch t s0) : XAll L ∅ ch s0 s0 :=
  ⟨⟨fun _ => rfl, fun _ => rfl, fun _ => rfl, rfl, by simpa using h.regs, h.quiet, rfl⟩, by simp, by simp, by simp, fun _ _ _ _ => rfl, by simp, fun _ _ => rfl⟩

theorem below_root (h0 : BGeo g T L ch t s0.fl) {r : Nat} (hp : par s0.fl r = none) {q x : Nat} (hq : q ∈ L) (hx : x ∈ ch q) :
    q ∈ below L ch r ↔ x ∈ below L ch r := by
  have hxL := h0.forest.mem_live hq hx
  rw [mem_below, mem_below]
  constructor
  · rintro ⟨-, h⟩
    refine ⟨hxL, ?_⟩
    obtain ⟨z, hz, hz'⟩ := h0.forest.exists_root hxL
    have := h0.forest.root_unique hq h hp (h0.forest.trans hq hx hz) hz'
    rw [this]; exact hz
  · rintro ⟨-, h⟩
    exact ⟨hq, h0.forest.trans hq hx h⟩

/-- Edges that extraction may choose: match edges of top regions and edges of blossom cycles. -/
def Chosen (s0 : MS) (L : Finset Nat) (e : CompressedEdge) : Prop := CycEdge s0.fl L e ∨ ∃ r ∈ L, par s0.fl r = none ∧ (s0.mate r).edge = e

/-- What extraction yields for the regions `S`. -/
structure Result (g : MGraph) (T L : Finset Nat) (ch : Nat → List Nat) (t : Int) (s0 : MS) (S : Finset Nat) (x : Extract) : Prop where
  mask : x.mask = maskOf x.edges
  weight : x.weight = ∑ R ∈ S, y s0.fl t R
  pairs : Matches g T L ch t s0.fl (Chosen s0 L) (fun z => ∃ q ∈ S, (s0.fl.node z).arr = some q) x.weight x.edges

theorem extractOne_spec (hd : Done g T L ch t s0) {s : MS} {S : Finset Nat} (hx : XAll L S ch s0 s) {x : Extract} (hr : Result g T L ch t s0 S x)
    {r : Nat} (hrL : r ∈ L) (hrp : par s0.fl r = none) (hrS : r ∉ S) :
    ∃ s' S' z, extract s.extractDepth s r = .ok (s', z) ∧ XAll L S' ch s0 s' ∧ S ⊆ S' ∧ r ∈ S' ∧ Result g T L ch t s0 S' (x.add z) ∧
      z.mask = maskOf z.edges ∧ Matches g T L ch t s0.fl (Chosen s0 L) (fun v => InR s0.fl ch r v ∨ InO s0.fl ch (s0.mate r).region v) z.weight z.edges ∧
      z.weight = bsum s0.fl L ch t r + bsumO s0.fl L ch t (s0.mate r).region ∧
      ∃ es, z.edges.Perm ((s0.mate r).edge :: es) ∧ ∀ e ∈ es, CycEdge s0.fl L e := by
  have h0 := hd.geo.toBGeo
  have hM := hd.matched r hrL hrp
  obtain ⟨mm, e, hme⟩ : ∃ mm e, s0.mate r = ⟨mm, e⟩ := ⟨_, _, rfl⟩
  have hch : Chosen s0 L e := .inr ⟨r, hrL, hrp, by rw [hme]⟩
  have hms : s.mate r = ⟨mm, e⟩ := by rw [hx.mate r hrL hrp hrS, hme]
  have hroots : ∀ r', r' ∈ L → par s0.fl r' = none → r ≠ r' → Disjoint (below L ch r) (below L ch r') := by
    intro r' _ hp' hne
    refine Finset.disjoint_left.2 fun q h1 h2 => hne ?_
    exact h0.forest.root_unique (mem_below.1 h1).1 (mem_below.1 h1).2 hrp (mem_below.1 h2).2 hp'
  obtain ⟨a, hend, hmm', hT⟩ : ∃ a, Ends s0.fl T L ch r mm e a ∧
      (∀ m, mm = some m → m ∈ L ∧ par s0.fl m = none ∧ m ≠ r ∧ s0.mate m = ⟨some r, e.reversed⟩) ∧
      Matches g T L ch t s0.fl (Chosen s0 L) (fun z => z = a ∨ some z = e.locTo) (up s0.fl L ch t r a + upO s0.fl L ch t mm e.locTo) [e] := by
    rcases hM.mate with ⟨h1, h2⟩ | ⟨m, h1, h2, h3, -, -, h4, h5⟩
    · rw [hme] at h1 h2
      simp only at h1 h2
      subst h1
      obtain ⟨a, l1, l2, l3, l4, l5⟩ := h2
      refine ⟨a, ⟨l1, l3, l4, .inl ⟨rfl, l2⟩⟩, (fun m h => by cases h), ?_⟩
      refine (Matches.single l1 l2 l3 l5 hch).congr (fun z _ => by rw [l2]; simp) ?_
      rw [h0.D_up_none l3 hrp l4]
      simp [upO]
    · rw [hme] at h1 h4 h5
      simp only at h1 h4 h5
      subst h1
      obtain ⟨a, b, l1, l2, l3, l4, l5, l6, l7⟩ := h5
      have hdj := hroots m h3.1 h3.2 (Ne.symm h2)
      refine ⟨a, ⟨l1, l3, l5, .inr ⟨m, b, rfl, l2, l4, l6, hdj⟩⟩, ?_, ?_⟩
      · intro m' hm'
        rw [Option.some.injEq] at hm'
        subst hm'
        exact ⟨h3.1, h3.2, h2, h4⟩
      · have hab : a ≠ b := by rintro rfl; exact inR_disj h0 hdj l5 l6
        refine (Matches.pair l1 l2 l3 l4 hab l7 hch).congr (fun z _ => by rw [l2]; simp) ?_
        rw [h0.D_up l3 l4 (Ne.symm h2) (by rw [hrp]; exact h3.2.symm) l5 l6, l2]
        simp [upO]
  obtain ⟨hea, haT, hin, hmmE⟩ := hend
  -- fresh regions
  have hfresh : ∀ r', r' ∈ L → par s0.fl r' = none → r' ∉ S → below L ch r' ⊆ L \ S := by
    intro r' _ hp' hS q hq
    rw [mem_below] at hq
    rw [Finset.mem_sdiff]
    exact ⟨hq.1, fun h => hS ((hx.closed q hq.1 r' hq.2).1 h)⟩
  have hmS : ∀ m, mm = some m → m ∉ S := by
    intro m hm h
    exact hrS ((hx.mclosed r hrL hrp m (by rw [hme]; exact hm)).2 h)
  have hΛ : below L ch r ∪ belowO L ch mm ⊆ L \ S := by
    intro q hq
    rcases Finset.mem_union.1 hq with hq | hq
    · exact hfresh r hrL hrp hrS hq
    · cases mm with
      | none => simp [belowO] at hq
      | some m =>
        obtain ⟨m1, m2, -, -⟩ := hmm' m rfl
        exact hfresh m m1 m2 (hmS m rfl) hq
  have hcard : (below L ch r ∪ belowO L ch mm).card ≤ s.fl.depth := by
    rw [hx.ok.depth]
    exact (Finset.card_le_card (hΛ.trans Finset.sdiff_subset)).trans h0.card
  obtain ⟨s', z, es, e1, hX, k1, k2, k3, k4⟩ := extract_spec h0 hd.cyc hd.still s.extractDepth s (L \ S) r mm e a hx.ok hms
    (by
      intro m hm
      obtain ⟨m1, m2, -, m3⟩ := hmm' m hm
      rw [hx.mate m m1 m2 (hmS m hm)]; exact m3) ⟨hea, haT, hin, hmmE⟩ hΛ (by unfold MS.extractDepth; omega)
  have hbO : ∀ q, q ∈ belowO L ch mm ↔ ∃ m, mm = some m ∧ q ∈ below L ch m := by
    intro q
    cases mm with
    | none => simp [belowO]
    | some m => simp [belowO]
  have hInB : ∀ n, (InR s0.fl ch r n ∨ InO s0.fl ch mm n) ↔ ∃ q ∈ below L ch r ∪ belowO L ch mm, (s0.fl.node n).arr = some q := by
    intro n
    constructor
    · rintro (⟨q, h1, h2⟩ | ⟨m, hm, q, h1, h2⟩)
      · exact ⟨q, Finset.mem_union_left _ (mem_below.2 ⟨(h0.occ n q h1).1, h2⟩), h1⟩
      · exact ⟨q, Finset.mem_union_right _ ((hbO q).2 ⟨m, hm, mem_below.2 ⟨(h0.occ n q h1).1, h2⟩⟩), h1⟩
    · rintro ⟨q, h1, h2⟩
      rcases Finset.mem_union.1 h1 with h1 | h1
      · exact .inl ⟨q, h2, (mem_below.1 h1).2⟩
      · obtain ⟨m, hm, h1⟩ := (hbO q).1 h1
        exact .inr ⟨m, hm, q, h2, (mem_below.1 h1).2⟩
  have hdjS : Disjoint S (below L ch r ∪ belowO L ch mm) := Finset.disjoint_left.2 fun q h1 h2 => (Finset.mem_sdiff.1 (hΛ h2)).2 h1
  have hdjm : Disjoint (below L ch r) (belowO L ch mm) := by
    refine Finset.disjoint_left.2 fun q h1 h2 => ?_
    obtain ⟨m, hm, h3⟩ := (hbO q).1 h2
    obtain ⟨m1, m2, m3, -⟩ := hmm' m hm
    exact Finset.disjoint_left.1 (hroots m m1 m2 (Ne.symm m3)) h1 h3
  have hz : Matches g T L ch t s0.fl (Chosen s0 L) (fun v => InR s0.fl ch r v ∨ InO s0.fl ch mm v) z.weight z.edges := by
    have h5 := hT.append (k4.mono fun _ h => .inl h) (by
      rintro v - h3 ⟨-, h4, h5⟩
      rcases h3 with h3 | h3
      · exact h4 h3
      · exact h5 h3)
    refine (h5.perm k3.symm).congr ?_ (by rw [k2]; omega)
    intro v _
    constructor
    · rintro ((rfl | hv) | ⟨h, -⟩)
      · exact .inl hin
      · rcases hmmE with ⟨-, h⟩ | ⟨m, b, h, h', -, h'', -⟩
        · rw [h] at hv; cases hv
        · rw [h', Option.some.injEq] at hv
          subst hv
          exact .inr ⟨m, h, h''⟩
      · exact h
    · intro h
      by_cases v1 : v = a
      · exact .inl (.inl v1)
      · by_cases v2 : some v = e.locTo
        · exact .inl (.inr v2)
        · exact .inr ⟨h, v1, v2⟩
  refine ⟨s', S ∪ (below L ch r ∪ belowO L ch mm), z, e1, ⟨?_, ?_, ?_, ?_, ?_, ?_, ?_⟩, Finset.subset_union_left,
    Finset.mem_union_right _ (Finset.mem_union_left _ (h0.self_below hrL)), ⟨Extract.add_ok hr.mask k1, ?_, ?_⟩,
    k1, by rw [hme]; exact hz, by rw [hme]; exact k2, es, by rw [hme]; exact k3, k4.kind⟩
  · have := hX.ok
    rwa [sdiff_sdiff_left] at this
  · exact Finset.union_subset hx.sub (hΛ.trans Finset.sdiff_subset)
  · intro q hq q' hq'
    rw [Finset.mem_union, Finset.mem_union, Finset.mem_union, Finset.mem_union, hx.closed q hq q' hq', below_root h0 hrp hq hq', hbO, hbO]
    refine or_congr Iff.rfl (or_congr Iff.rfl ⟨?_, ?_⟩)
    · rintro ⟨m, hm, h⟩; exact ⟨m, hm, (below_root h0 (hmm' m hm).2.1 hq hq').1 h⟩
    · rintro ⟨m, hm, h⟩; exact ⟨m, hm, (below_root h0 (hmm' m hm).2.1 hq hq').2 h⟩
  · intro r' hr' hp' m' hm'
    have hroot : ∀ p q, p ∈ L → par s0.fl p = none → (p ∈ below L ch q ↔ p = q) := by
      intro p q hp hpp
      rw [mem_below]
      have : ch p = [p] := by
        rcases h0.forest.cases hp with ⟨-, h⟩ | ⟨w, h, -⟩
        · exact h
        · rw [hpp] at h; cases h
      rw [this]
      simp [hp, eq_comm]
    -- the partner
    obtain ⟨hm'L, hm'p, hm'r⟩ : m' ∈ L ∧ par s0.fl m' = none ∧ (s0.mate m').region = some r' := by
      rcases (hd.matched r' hr' hp').mate with ⟨h1, -⟩ | ⟨m, h1, -, h3, -, -, h4, -⟩
      · rw [h1] at hm'; cases hm'
      · rw [h1, Option.some.injEq] at hm'
        subst hm'
        exact ⟨h3.1, h3.2, by rw [h4]⟩
    rw [Finset.mem_union, Finset.mem_union, Finset.mem_union, Finset.mem_union, hx.mclosed r' hr' hp' m' hm', hroot r' r hr' hp', hroot m' r hm'L hm'p, hbO, hbO]
    refine or_congr Iff.rfl ⟨?_, ?_⟩
    · rintro (rfl | ⟨m, hm, h⟩)
      · rw [hme] at hm'
        exact .inr ⟨m', hm', h0.self_below hm'L⟩
      · rw [hroot r' m hr' hp'] at h
        subst h
        rw [(hmm' r' hm).2.2.2, Option.some.injEq] at hm'
        exact .inl hm'.symm
    · rintro (rfl | ⟨m, hm, h⟩)
      · rw [hme] at hm'r
        exact .inr ⟨r', hm'r, h0.self_below hr'⟩
      · rw [hroot m' m hm'L hm'p] at h
        subst h
        rw [(hmm' m' hm).2.2.2, Option.some.injEq] at hm'r
        exact .inl hm'r.symm
  · intro r' hr' hp' hS'
    rw [Finset.mem_union, not_or] at hS'
    rw [hX.mate r' hS'.2, hx.mate r' hr' hp' hS'.1]
  · intro n q hq hqS
    by_cases h5 : InR s0.fl ch r n ∨ InO s0.fl ch mm n
    · exact hX.blank n h5
    · rw [hX.same n h5]
      refine hx.blank n q hq ((Finset.mem_union.1 hqS).resolve_right fun h => h5 ((hInB n).2 ⟨q, h, hq⟩))
  · intro n hn
    rw [hX.same n (fun h => by
      obtain ⟨q, h1, h2⟩ := (hInB n).1 h
      exact hn q h2 (Finset.mem_union_right _ h1))]
    exact hx.same n (fun q hq h => hn q hq (Finset.mem_union_left _ h))
  · show x.weight + z.weight = _
    rw [Finset.sum_union hdjS, Finset.sum_union hdjm, hr.weight, k2]
    cases mm with
    | none => simp [belowO, bsumO, bsum]
    | some m => simp [belowO, bsumO, bsum]
  · refine (hr.pairs.append hz ?_).congr ?_ rfl
    · rintro v - ⟨q, h1, h2⟩ h3
      obtain ⟨q', h4, h5⟩ := (hInB v).1 h3
      rw [h2, Option.some.injEq] at h5
      subst h5
      exact Finset.disjoint_left.1 hdjS h1 h4
    · intro v _
      rw [hInB]
      simp only [Finset.mem_union]
      constructor
      · rintro (⟨q, h1, h2⟩ | ⟨q, h1, h2⟩)
        · exact ⟨q, .inl h1, h2⟩
        · exact ⟨q, .inr h1, h2⟩
      · rintro ⟨q, h1 | h1, h2⟩
        · exact .inl ⟨q, h1, h2⟩
        · exact .inr ⟨q, h1, h2⟩

theorem extractAll_step (hd : Done g T L ch t s0) (ns : List Nat) : ∀ {s : MS} {S : Finset Nat} (_ : XAll L S ch s0 s) {x : Extract} (_ : Result g T L ch t s0 S x),
    ∃ s' S' x', extractAll s ns x = .ok (s', x') ∧ XAll L S' ch s0 s' ∧ S ⊆ S' ∧ Result g T L ch t s0 S' x' ∧
      ∀ n ∈ ns, ∀ q, (s0.fl.node n).arr = some q → q ∈ S' := by
  have h0 := hd.geo.toBGeo
  induction ns with
  | nil => intro s S hx x hr; exact ⟨s, S, x, rfl, hx, fun _ h => h, hr, by simp⟩
  | cons n ns ih =>
    intro s S hx x hr
    cases harr : (s.fl.node n).arr with
    | none =>
      obtain ⟨s', S', x', e1, h1, h2, h3, h4⟩ := ih hx hr
      refine ⟨s', S', x', ?_, h1, h2, h3, ?_⟩
      · rw [extractAll, harr]; exact e1
      · intro n' hn' q hq
        rcases List.mem_cons.1 hn' with rfl | hn'
        · by_contra hcon
          rw [hx.same n' (fun q' hq' => by rw [hq, Option.some.injEq] at hq'; subst hq'; exact fun h => hcon (h2 h)), hq] at harr
          cases harr
        · exact h4 n' hn' q hq
    | some q =>
      have hn : ∀ q', (s0.fl.node n).arr = some q' → q' ∉ S := by
        intro q' hq' hS
        rw [hx.blank n q' hq' hS] at harr
        cases harr
      have hsame := hx.same n hn
      rw [hsame] at harr
      have htop := h0.otop n q harr
      have hqL := (h0.occ n q harr).1
      obtain ⟨ht1, ht2⟩ := h0.top q hqL
      have htL := h0.forest.mem_live hqL ht1
      obtain ⟨s1, S1, z, e1, h1, h2, h3, h4, -⟩ := extractOne_spec hd hx hr htL ht2 (fun h => hn q harr ((hx.closed q hqL _ ht1).2 h))
      obtain ⟨s', S', x', e2, k1, k2, k3, k4⟩ := ih h1 h4
      refine ⟨s', S', x', ?_, k1, fun _ h => k2 (h2 h), k3, ?_⟩
      · rw [extractAll, hsame, harr, htop]
        simp only [deref, Res.bind]
        rw [e1]
        exact e2
      · intro n' hn' q' hq'
        rcases List.mem_cons.1 hn' with rfl | hn'
        · rw [harr, Option.some.injEq] at hq'
          subst hq'
          exact k2 ((h1.closed q hqL _ ht1).2 h3)
        · exact k4 n' hn' q' hq'

/-- The match edge stands for a walk of weight `d` between its ends that crosses the observables of its mask. -/
def PathOf (g : MGraph) (e : CompressedEdge) (d : Int) : Prop :=
  ∃ a vs, e.locFrom = some a ∧ Walk g a e.locTo vs ∧ totalWeight g vs = d ∧ totalObs g vs = e.obsMask

/-- Extraction from a list of nodes that includes all detection events. -/
theorem extractAll_spec (hd : Done g T L ch t s0) (halts : AInv ∅ s0.alts) {ns : List Nat} (hT : ∀ a ∈ T, a ∈ ns) :
    ∃ s' x, extractAll s0 ns Extract.zero = .ok (s', x) ∧ Clean s' ∧ (x.edges.flatMap edgeEnds).Nodup ∧ (∀ v, v ∈ x.edges.flatMap edgeEnds ↔ v ∈ T) ∧
      (∃ d : CompressedEdge → Int, (∀ e ∈ x.edges, PathOf g e (d e)) ∧ (x.edges.map d).sum = x.weight) ∧ x.mask = maskOf x.edges ∧
      (∃ ws, Corrects g T ws ∧ totalObs g ws = x.mask ∧ totalWeight g ws = x.weight) ∧ (∀ ws, Corrects g T ws → x.weight ≤ totalWeight g ws) ∧
      x.weight = ∑ R ∈ L, y s0.fl t R ∧
      (∀ e ∈ x.edges, Chosen s0 L e) ∧ ∀ e ∈ x.edges, ∃ a, e.locFrom = some a ∧ Tight g s0.fl L ch t a e.locTo e.obsMask := by
  have h0 := hd.geo.toBGeo
  obtain ⟨s', S, x, e1, h1, -, h3, h4⟩ := extractAll_step hd ns (XAll.start hd) (x := Extract.zero)
    ⟨rfl, by simp [Extract.zero], (Matches.nil (by simp)).congr (fun _ _ => Iff.rfl) rfl⟩
  have hS : S = L := by
    refine Finset.Subset.antisymm h1.sub ?_
    -- by induction from the root down
    intro q hq
    obtain ⟨r, hr, hrp⟩ := h0.forest.exists_root hq
    have hrL := h0.forest.mem_live hq hr
    rw [h1.closed q hq r hr]
    -- the root holds an event
    obtain ⟨a, haT, harr⟩ : ∃ a ∈ T, InR s0.fl ch r a := by
      rcases (hd.matched r hrL hrp).mate with ⟨-, a, -, -, h5, h6, -⟩ | ⟨m, -, -, -, -, -, -, a, b, -, -, h5, -, h6, -⟩
      · exact ⟨a, h5, h6⟩
      · exact ⟨a, h5, h6⟩
    obtain ⟨q', hq', hrq'⟩ := harr
    exact (h1.closed q' (h0.occ a q' hq').1 r hrq').1 (h4 a (hT a haT) q' hq')
  subst hS
  have hall : ∀ a ∈ T, ∃ q ∈ S, (s0.fl.node a).arr = some q := by
    intro a ha
    obtain ⟨q, l, h5, -⟩ := h0.event a ha
    exact ⟨q, (h0.occ a q h5).1, h5⟩
  have hmem : ∀ v, v ∈ x.edges.flatMap edgeEnds ↔ v ∈ T := by
    intro v
    rw [h3.pairs.mem]
    exact ⟨fun h => h.1, fun h => ⟨h, hall v h⟩⟩
  refine ⟨s', x, e1, ⟨?_, ?_, ?_, h1.ok.quiet⟩, h3.pairs.nodup, hmem, ?_, h3.mask, ?_, ?_, h3.weight, h3.pairs.kind, h3.pairs.tight⟩
  · intro n
    cases harr : (s0.fl.node n).arr with
    | none =>
      rw [h1.same n (by rw [harr]; intro q h; cases h)]
      exact h0.empty n harr
    | some q => exact h1.blank n q harr (h0.occ n q harr).1
  · simpa using h1.ok.regs
  · rw [h1.ok.alts]; exact halts
  · refine ⟨fun e => D s0.fl S ch t e.locFrom e.locTo, ?_, h3.pairs.len⟩
    intro e he
    obtain ⟨a, h5, vs, h6, h7, h8⟩ := h3.pairs.tight e he
    exact ⟨a, vs, h5, h6, by rw [h7, ← h5], h8⟩
  · obtain ⟨ws, w1, w2, w3⟩ := Matches.walks h3.pairs.tight h3.pairs.nodup hmem
    exact ⟨ws, w1, by rw [w2, h3.mask], by rw [w3, h3.pairs.len]⟩
  · intro ws hws
    rw [h3.weight]
    exact hd.geo.bound hd.cyc hws

/-! ## The end of the loop -/

theorem Quiet.of_idle {w : World Owner} (hw : WInv w) (h : w.step .deliver = some (.idle, w)) : Quiet w := by
  refine ⟨hw, ?_⟩
  by_contra hne
  obtain ⟨out, w', h1, -, -, -, h2, -⟩ := deliver_spec w hw hne
  rw [h, Option.some.injEq, Prod.mk.injEq] at h1
  rcases h2 with ⟨h2, -⟩ | ⟨o, h2, -⟩
  · rw [h2] at h1; cases h1.1
  · rw [h2] at h1; cases h1.1

theorem Done.of_ok {s : MS} {ach : Nat → List Nat} (h : SOk g T L ch t (fun _ => False) s ∅ ach) (hd : s.fl.w.step .deliver = some (.idle, s.fl.w)) : Done g T L ch t s := by
  have hm : ∀ r ∈ L, par s.fl r = none → Matched (view g T L ch t s.fl) s.ralt s.mate r := by
    intro r hr hp
    rcases h.m.tops.cover r ⟨hr, hp⟩ (fun h => h) with ⟨a, ha, -⟩ | h
    · cases ha
    · exact h
  refine ⟨h.fl.geo, h.cyc, ?_, hm, h.regs, Quiet.of_idle h.fl.sched.winv hd⟩
  intro r hr
  by_cases hp : par s.fl r = none
  · exact (hm r hr hp).still
  · exact h.fl.geo.still r hr hp

end Verif.SB
