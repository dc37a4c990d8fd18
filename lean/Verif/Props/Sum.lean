import Verif.Props.Laws

/-!
# C92: the returned weight is the weight of the returned edges
-/

namespace Verif.Props.Sum

open Verif Verif.SB Verif.UG Verif.Obj Verif.Dbl Verif.ObjD Verif.Session Verif.Sim Verif.World
open Verif.Props.Session Verif.Props.Simulate Verif.Props.World Verif.Props.Laws
open Verif.Props.Edges (Completes)
open Verif.Sch (Res)

/-! ## Specification -/

/-- The least weight of a link that `decode_to_edges_array` shows as `e`; all boundary nodes are the same. -/
def Lightest (N : Net) (e : Nat × Option Nat) (w : ℚ) : Prop := IsLeast {x | ∃ l ∈ N.links, shown N l = s(some e.1, e.2) ∧ x = l.weight} w

/-- One of the lists of edges in a run, without correlations: for network `N` and detection events `F`. -/
def Listed {R : Source} (scenes : List (Room R × Command)) (rs : List Result) (N : Net) (F : Nat → Prop) (es : List (Nat × Option Nat)) : Prop :=
  ∃ (k : Nat) (room : Room R) (x : Nat) (t : Thing) (z : Syn.Arr), scenes[k]? = some (room, .act x (.stmt (.decodeToEdgesArray z false))) ∧ rs[k]? = some (.out (.reply (.edges es))) ∧
    room.things x = some t ∧ N = t.net ∧ F = Fires z

/-- No two links are shown in the same way, and none is from a node to itself or inside the boundary. -/
def Distinct (N : Net) : Prop := (N.links.map (shown N)).Nodup ∧ ∀ l ∈ N.links, ¬ (shown N l).IsDiag

/-- Weights and lists of edges for the same network and the same events (boundary nodes do not matter): if no weight is negative, or if the links are shown in different ways, the weight is the
sum of the weights of the edges, up to two times the `s` of C88, which is 0 if all weights are integers. -/
def AddsUp {R : Source} (scenes : List (Room R × Command)) (rs : List Result) : Prop :=
  ∀ (N : Net) (F F' : Nat → Prop) (q s : ℚ) (es : List (Nat × Option Nat)), Seen scenes rs N F q s → Listed scenes rs N F' es → (∀ x, x ∉ N.boundary → (F x ↔ F' x)) →
    (∀ l ∈ N.links, 0 ≤ l.weight) ∨ Distinct N → ∃ ws, List.Forall₂ (Lightest N) es ws ∧ |q - ws.sum| ≤ 2 * s

/-! ## Lemmas -/

section
variable {N : Net}

/-- A node as it is shown. -/
def face (N : Net) (v : Nat) : Option Nat := if v ∈ N.boundary then none else some v

theorem face_iff {x : Nat} (hx : x ∉ N.boundary) (v : Nat) : face N v = some x ↔ v = x := by
  unfold face
  split_ifs with h
  · exact ⟨fun e => (by cases e), fun e => (hx (e ▸ h)).elim⟩
  · exact Option.some_inj

theorem bind_iff {x : Nat} (hx : x ∉ N.boundary) (b : Option Nat) : b.bind (face N) = some x ↔ b = some x := by
  cases b with
  | none => simp
  | some v => rw [Option.bind_some, face_iff hx, Option.some_inj]

theorem shown_eq (l : Link) : shown N l = s(face N l.a, l.b.bind (face N)) := rfl

theorem ends_face {x : Nat} (hx : x ∉ N.boundary) (l : Link) : Laws.ends l x = (if face N l.a = some x then 1 else 0) + (if l.b.bind (face N) = some x then 1 else 0) := by
  unfold Laws.ends
  simp only [face_iff hx, bind_iff hx]

theorem ends_shown {x : Nat} (hx : x ∉ N.boundary) {l l' : Link} (h : shown N l = shown N l') : Laws.ends l x = Laws.ends l' x := by
  rw [shown_eq, shown_eq, Sym2.eq_iff] at h
  rw [ends_face hx, ends_face hx]
  rcases h with ⟨h1, h2⟩ | ⟨h1, h2⟩
  · rw [h1, h2]
  · rw [h1, h2, add_comm]

theorem ends_diag {x : Nat} (hx : x ∉ N.boundary) {l : Link} (h : (shown N l).IsDiag) : Laws.ends l x % 2 = 0 := by
  rw [shown_eq, Sym2.mk_isDiag_iff] at h
  rw [ends_face hx, h]
  split_ifs <;> rfl

/-- How link `i` is shown. -/
def sh (N : Net) (i : Fin N.links.length) : Sym2 (Option Nat) := shown N N.links[i]

/-- The weight of link `i`. -/
def wt (N : Net) (i : Fin N.links.length) : ℚ := N.links[i].weight

/-- How often link `i` ends at `x`. -/
def at' (N : Net) (x : Nat) (i : Fin N.links.length) : Nat := Laws.ends N.links[i] x

/-- For each way a link of the network is shown, the lightest link. -/
theorem pick_of (N : Net) : ∃ pick : Sym2 (Option Nat) → Option (Fin N.links.length), ∀ (j : Fin N.links.length), ∃ i, pick (sh N j) = some i ∧ sh N i = sh N j ∧
    ∀ i' : Fin N.links.length, sh N i' = sh N j → wt N i ≤ wt N i' := by
  classical
  have key : ∀ z, ∃ o : Option (Fin N.links.length), (∃ j : Fin N.links.length, sh N j = z) →
      ∃ i, o = some i ∧ sh N i = z ∧ ∀ i' : Fin N.links.length, sh N i' = z → wt N i ≤ wt N i' := by
    intro z
    by_cases h : ∃ j : Fin N.links.length, sh N j = z
    · obtain ⟨i, hi, hm⟩ := Finset.exists_min_image (Finset.univ.filter fun j : Fin N.links.length => sh N j = z) (wt N)
        (by obtain ⟨j, hj⟩ := h; exact ⟨j, by simp [hj]⟩)
      exact ⟨some i, fun _ => ⟨i, rfl, (Finset.mem_filter.1 hi).2, fun i' hi' => hm i' (by simp [hi'])⟩⟩
    · exact ⟨none, fun h' => absurd h' h⟩
  choose pick hpick using key
  exact ⟨pick, fun j => hpick _ ⟨j, rfl⟩⟩

/-- The lightest links for a set of ways in which links are shown, and what they cost. -/
theorem chosen {Z : Finset (Sym2 (Option Nat))} (pick : Sym2 (Option Nat) → Fin N.links.length) (h : ∀ z ∈ Z, sh N (pick z) = z) {M : Type} [AddCommMonoid M]
    (f : Fin N.links.length → M) : ∑ i ∈ Z.image pick, f i = ∑ z ∈ Z, f (pick z) :=
  Finset.sum_image fun a ha b hb e => by rw [← h a ha, ← h b hb, e]

theorem sum_parity {α : Type} (Z : Finset α) (f g : α → Nat) (h : ∀ z ∈ Z, f z % 2 = g z % 2) : (∑ z ∈ Z, f z) % 2 = (∑ z ∈ Z, g z) % 2 := by
  rw [Finset.sum_nat_mod, Finset.sum_nat_mod (f := g), Finset.sum_congr rfl h]

/-- From a set of links and what is shown of it: the lightest links shown cost no more, and no less than some explanation. -/
theorem lightest_of {C : N.Links} {F : Nat → Prop} (hC : Explained C F) {es : List (Nat × Option Nat)} (hl : Lists es C) (h0 : ∀ l ∈ N.links, 0 ≤ l.weight) :
    ∃ ws, List.Forall₂ (Lightest N) es ws ∧ ws.sum ≤ cost C ∧ ∃ D : N.Links, Explained D F ∧ cost D ≤ ws.sum := by
  classical
  have hw : ∀ i : Fin N.links.length, 0 ≤ wt N i := fun i => h0 _ (List.getElem_mem _)
  by_cases hne : Nonempty (Fin N.links.length)
  swap
  · have hC0 : C = ∅ := Finset.eq_empty_of_forall_notMem fun i _ => hne ⟨i⟩
    have he : es = [] := by
      cases es with
      | nil => rfl
      | cons e es =>
        obtain ⟨j, -⟩ := (hl.2 _).1 (List.mem_cons_self ..)
        exact absurd ⟨j⟩ hne
    subst he
    exact ⟨[], .nil, by simp [hC0, cost], C, hC, by simp [hC0, cost]⟩
  obtain ⟨pick', hp'⟩ := pick_of N
  let pick : Sym2 (Option Nat) → Fin N.links.length := fun z => (pick' z).getD hne.some
  have hp : ∀ j : Fin N.links.length, sh N (pick (sh N j)) = sh N j ∧
      ∀ i' : Fin N.links.length, sh N i' = sh N j → wt N (pick (sh N j)) ≤ wt N i' := by
    intro j
    obtain ⟨i, e, h1, h2⟩ := hp' j
    have : pick (sh N j) = i := by simp [pick, e]
    rw [this]
    exact ⟨h1, h2⟩
  let see : Nat × Option Nat → Sym2 (Option Nat) := fun e => s(some e.1, e.2)
  -- the ways that are listed
  let Z := (es.map see).toFinset
  have hZ : ∀ z, z ∈ Z ↔ ∃ j ∈ C, ¬ (sh N j).IsDiag ∧ sh N j = z := fun z => by rw [List.mem_toFinset]; exact hl.2 z
  have hZp : ∀ z ∈ Z, sh N (pick z) = z := fun z hz => by
    obtain ⟨j, -, -, rfl⟩ := (hZ z).1 hz
    exact (hp j).1
  have hsum : ((es.map see).map fun z => wt N (pick z)).sum = ∑ z ∈ Z, wt N (pick z) := (List.sum_toFinset _ hl.1).symm
  refine ⟨(es.map see).map fun z => wt N (pick z), ?_, ?_, ?_⟩
  · rw [List.map_map, List.forall₂_map_right_iff, List.forall₂_same]
    intro e he
    obtain ⟨j, -, -, hj⟩ := (hl.2 (see e)).1 (List.mem_map_of_mem he)
    change sh N j = see e at hj
    refine ⟨⟨_, List.getElem_mem _, ?_, rfl⟩, ?_⟩
    · have := (hp j).1
      rw [hj] at this
      exact this
    · rintro x ⟨l, hm, hs, rfl⟩
      obtain ⟨i, hi, rfl⟩ := List.getElem_of_mem hm
      have := (hp j).2 ⟨i, hi⟩ (hs.trans hj.symm)
      rw [hj] at this
      exact this
  · rw [hsum]
    have h1 : ∑ z ∈ Z, wt N (pick z) ≤ ∑ z ∈ Z, ∑ i ∈ C with sh N i = z, wt N i := by
      refine Finset.sum_le_sum fun z hz => ?_
      obtain ⟨j, hj, -, e⟩ := (hZ z).1 hz
      refine le_trans (b := wt N j) ?_ (Finset.single_le_sum (f := wt N) (fun i _ => hw i) (Finset.mem_filter.2 ⟨hj, e⟩))
      have := (hp j).2 j rfl
      change wt N (pick (sh N j)) ≤ _ at this
      rw [e] at this
      exact this
    refine h1.trans ?_
    have h2 : ∑ z ∈ Z, ∑ i ∈ C with sh N i = z, wt N i = ∑ i ∈ C with sh N i ∈ Z, wt N i := by
      rw [← Finset.sum_fiberwise_of_maps_to (s := C.filter fun i => sh N i ∈ Z) (t := Z) (g := sh N) (fun i hi => (Finset.mem_filter.1 hi).2)]
      refine Finset.sum_congr rfl fun z hz => Finset.sum_congr ?_ fun _ _ => rfl
      ext i
      simp only [Finset.mem_filter]
      exact ⟨fun h => ⟨⟨h.1, h.2.symm ▸ hz⟩, h.2⟩, fun h => ⟨h.1.1, h.2⟩⟩
    rw [h2]
    exact Finset.sum_le_sum_of_subset_of_nonneg (Finset.filter_subset _ _) fun i _ _ => hw i
  · -- those that occur an odd number of times
    let O := Z.filter fun z => (C.filter fun i => sh N i = z).card % 2 = 1
    have hOp : ∀ z ∈ O, sh N (pick z) = z := fun z hz => hZp z (Finset.mem_filter.1 hz).1
    refine ⟨O.image pick, fun x hx => ?_, ?_⟩
    · rw [hC x hx]
      have e1 : degreeAt (N := N) (O.image pick) x = ∑ z ∈ O, at' N x (pick z) := chosen pick hOp (at' N x)
      have e2 : degreeAt C x = ∑ z ∈ C.image (sh N), ∑ i ∈ C with sh N i = z, at' N x i :=
        (Finset.sum_fiberwise_of_maps_to (s := C) (t := C.image (sh N)) (g := sh N) (fun i hi => Finset.mem_image_of_mem _ hi) _).symm
      have hsub : O ⊆ C.image (sh N) := fun z hz => by
        obtain ⟨j, hj, -, e⟩ := (hZ z).1 (Finset.mem_filter.1 hz).1
        exact Finset.mem_image.2 ⟨j, hj, e⟩
      have e3 : ∑ z ∈ O, at' N x (pick z) = ∑ z ∈ C.image (sh N), if z ∈ O then at' N x (pick z) else 0 := by
        rw [← Finset.sum_filter]
        congr 1
        ext z
        simp only [Finset.mem_filter]
        exact ⟨fun h => ⟨hsub h, h⟩, fun h => h.2⟩
      rw [e1, e2, e3, sum_parity]
      intro z hz
      obtain ⟨j, hj, rfl⟩ := Finset.mem_image.1 hz
      have e4 : ∑ i ∈ C with sh N i = sh N j, at' N x i = (C.filter fun i => sh N i = sh N j).card * at' N x j := by
        rw [← smul_eq_mul, ← Finset.sum_const]
        exact Finset.sum_congr rfl fun i hi => ends_shown hx (Finset.mem_filter.1 hi).2
      have e5 : at' N x (pick (sh N j)) = at' N x j := ends_shown hx (hp j).1
      rw [e4, e5]
      by_cases hd : (sh N j).IsDiag
      · have h1 : at' N x j % 2 = 0 := ends_diag hx hd
        split_ifs <;> simp [Nat.mul_mod, h1]
      · have hjZ : sh N j ∈ Z := (hZ _).2 ⟨j, hj, hd, rfl⟩
        by_cases ho : (C.filter fun i => sh N i = sh N j).card % 2 = 1
        · rw [if_pos (Finset.mem_filter.2 ⟨hjZ, ho⟩), Nat.mul_mod, ho, one_mul, Nat.mod_mod]
        · have hn : sh N j ∉ O := fun h => ho (Finset.mem_filter.1 h).2
          rw [if_neg hn, Nat.mul_mod, (Nat.mod_two_eq_zero_or_one _).resolve_right ho]
          simp
    · rw [hsum]
      have : cost (N := N) (O.image pick) = ∑ z ∈ O, wt N (pick z) := chosen pick hOp (wt N)
      rw [this]
      exact Finset.sum_le_sum_of_subset_of_nonneg (Finset.filter_subset _ _) fun z _ _ => hw _

/-- The same if links are shown in different ways. -/
theorem distinct_of {C : N.Links} {es : List (Nat × Option Nat)} (hl : Lists es C) (hd : Distinct N) : ∃ ws, List.Forall₂ (Lightest N) es ws ∧ ws.sum = cost C := by
  classical
  have hinj : ∀ i j : Fin N.links.length, sh N i = sh N j → i = j := by
    intro i j e
    have := List.nodup_iff_injective_get.1 hd.1 (a₁ := ⟨i, by simp⟩) (a₂ := ⟨j, by simp⟩) (by simpa [sh] using e)
    simpa [Fin.ext_iff] using this
  have hex : ∀ e ∈ es, ∃ j ∈ C, sh N j = s(some e.1, e.2) := by
    intro e he
    obtain ⟨j, hj, -, h⟩ := (hl.2 _).1 (List.mem_map_of_mem (f := fun e : Nat × Option Nat => s(some e.1, e.2)) he)
    exact ⟨j, hj, h⟩
  let see : Nat × Option Nat → Sym2 (Option Nat) := fun e => s(some e.1, e.2)
  have hfun : ∀ z, ∃ w : ℚ, ∀ j : Fin N.links.length, sh N j = z → w = wt N j := by
    intro z
    by_cases h : ∃ j : Fin N.links.length, sh N j = z
    · obtain ⟨j, hj⟩ := h
      exact ⟨wt N j, fun i hi => by rw [hinj i j (hi.trans hj.symm)]⟩
    · exact ⟨0, fun j hj => absurd ⟨j, hj⟩ h⟩
  choose w hw using hfun
  refine ⟨(es.map see).map w, ?_, ?_⟩
  · rw [List.map_map, List.forall₂_map_right_iff, List.forall₂_same]
    intro e he
    obtain ⟨j, -, hj⟩ := hex e he
    have hwj : w (see e) = wt N j := hw _ j hj
    refine ⟨⟨_, List.getElem_mem _, hj, hwj⟩, ?_⟩
    rintro x ⟨l, hm, hs, rfl⟩
    obtain ⟨i, hi, rfl⟩ := List.getElem_of_mem hm
    have : (⟨i, hi⟩ : Fin N.links.length) = j := hinj _ _ (hs.trans hj.symm)
    show w (see e) ≤ wt N ⟨i, hi⟩
    rw [this, hwj]
  · rw [← List.sum_toFinset _ hl.1]
    have e1 : (es.map see).toFinset = C.image (sh N) := by
      ext z
      rw [List.mem_toFinset, Finset.mem_image]
      refine (hl.2 z).trans ⟨fun ⟨j, h1, _, h2⟩ => ⟨j, h1, h2⟩, fun ⟨j, h1, h2⟩ => ⟨j, h1, hd.2 _ (List.getElem_mem _), h2⟩⟩
    rw [e1, Finset.sum_image fun i _ j _ e => hinj i j e]
    exact Finset.sum_congr rfl fun i _ => hw _ i rfl

theorem cheap_off {F : Nat → Prop} {u s : ℚ} {C : N.Links} (hu : StepOf N u) (hC : Cheap u F C) (hs : Off N s) : ∀ C' : N.Links, Explained C' F → cost C ≤ cost C' + s := by
  intro C' h'
  have h4 := hC.2 C' h'
  change cost C ≤ cost C' + _ ∧ (_ → cost C ≤ cost C') at h4
  have hcard : ∀ C : N.Links, (C.card : ℚ) ≤ N.links.length := fun C => by
    have := Finset.card_le_univ C
    rw [Fintype.card_fin] at this
    exact_mod_cast this
  rcases hs with ⟨hw, rfl⟩ | ⟨hw, m, hm1, hm2, rfl⟩
  · rw [add_zero]
    exact h4.2 hw
  · obtain ⟨hw', -⟩ | ⟨-, m', hm1', hm2', hu⟩ := hu
    · exact absurd hw' hw
    have hmm : |m| = |m'| := le_antisymm (hm2' m hm1) (hm2 m' hm1')
    rw [hmm, ← hu]
    have hu0 : 0 ≤ u := by rw [hu]; positivity
    have a1 := mul_le_mul_of_nonneg_right (hcard C) hu0
    have a3 := mul_le_mul_of_nonneg_right (hcard C') hu0
    have a0 : (0 : ℚ) ≤ N.links.length * u := by positivity
    have a4 := h4.1
    push_cast at a4
    have : ((C.card : ℚ) + C'.card) * (1 / 2 + 1 / 2 ^ 27) * u ≤ N.links.length * (3 / 2 + 1 / 2 ^ 24) * u := by nlinarith
    have hpos : (0 : ℚ) ≤ 1 / 2 ^ 1074 := by positivity
    linarith

end

section
variable {R : Source}

theorem adds_up {A : Arithmetic} {scenes : List (Room R × Command)} {rs : List Result} (hr : List.Forall₂ (fun (m : Room R × Command) r => RightCommand A m.1 m.2 r) scenes rs) :
    AddsUp scenes rs := by
  intro N F F' q s es h ⟨k, room, x, t, z, h1, h2, ht, hN, hF⟩ hFF h0
  have hL := seen_least hr h
  obtain ⟨-, -, -, -, -, -, -, hs⟩ := h
  have h3 : RightCommand A room (.act x (.stmt (.decodeToEdgesArray z false))) (.out (.reply (.edges es))) := by
    have h6 := List.forall₂_iff_get.1 hr
    obtain ⟨i1, e1⟩ := List.getElem?_eq_some_iff.1 h1
    obtain ⟨i2, e2⟩ := List.getElem?_eq_some_iff.1 h2
    have := h6.2 k i1 i2
    rw [List.get_eq_getElem, List.get_eq_getElem, e1, e2] at this
    exact this
  simp only [RightCommand, ht] at h3
  obtain ⟨out, e, h3⟩ := h3
  cases e
  obtain ⟨r, e, h3⟩ := h3
  cases e
  subst hN hF
  rcases h3 with ⟨-, -, u, hu, ρ, C, es', hρ, hC, hl, e⟩ | ⟨e, -⟩
  · cases e
    have hρ : ρ = fun j => t.net.links[j].weight := funext (by simpa [Weighed] using hρ)
    subst hρ
    have same : ∀ D : t.net.Links, Explained D F ↔ Explained D (Fires z) := fun D => forall₂_congr fun x hx => by rw [hFF x hx]
    obtain ⟨ws, a1, a2, D, a3, a4⟩ : ∃ ws, List.Forall₂ (Lightest t.net) es ws ∧ ws.sum ≤ cost C ∧ ∃ D : t.net.Links, Explained D (Fires z) ∧ cost D ≤ ws.sum := by
      rcases h0 with h0 | h0
      · exact lightest_of hC.1 hl h0
      · obtain ⟨ws, a1, a2⟩ := distinct_of hl h0
        exact ⟨ws, a1, a2.le, C, hC.1, a2.ge⟩
    obtain ⟨⟨C1, b1, b2⟩, b3⟩ := hL
    have b4 := b3 D ((same D).2 a3)
    have b5 := cheap_off hu hC hs C1 ((same C1).1 b1)
    have hs0 : 0 ≤ s := by
      rcases hs with ⟨-, rfl⟩ | ⟨-, m, -, -, rfl⟩
      · exact le_refl _
      · positivity
    exact ⟨ws, a1, abs_le.2 ⟨by linarith, by linarith⟩⟩
  · cases e

/-! ## C92 -/

/-- C92: in every proper program with any number of objects, the weight that is returned is the sum of the weights of the edges that are returned for the same syndrome. -/
theorem C92_program (A : Arithmetic) (st : R.State) (prog : List Command) (scenes : List (Room R × Command)) (hs : Story A (Room.empty st) prog scenes) :
    ∃ rs w, Completes (fun f => World.run A f (World.empty st) prog) (.ok (rs, w)) ∧ AddsUp scenes rs := by
  obtain ⟨rs, w, h1, h2⟩ := C87_program A st prog scenes hs
  exact ⟨rs, w, h1, adds_up h2⟩

/-- C92 for the library as compiled, with its 32-bit wrapped radius. -/
theorem C92_program_int32 (A : Arithmetic) (st : R.State) (prog : List Command) (scenes : List (Room R × Command)) (hs : Story A (Room.empty st) prog scenes)
    (hn : ∀ m ∈ scenes, ∀ x a t, m.2 = .act x a → m.1.things x = some t → AsksLine t.known (m.1.line t a) → t.net.Small) :
    ∃ rs w, Completes (fun f => World.run (W := int32) A f (World.empty st) prog) (.ok (rs, w)) ∧ AddsUp scenes rs := by
  obtain ⟨rs, w, h1, h2⟩ := C87_program_int32 A st prog scenes hs hn
  exact ⟨rs, w, h1, adds_up h2⟩

end

/-! ## Example -/

/-- Two objects from the same check matrix; one is asked for the weight, the other for the edges. -/
def pairProg : List Command := [
  .make 0 (.matrix repCall),
  .make 1 (.matrix repCall),
  .act 0 (.stmt (.decode (.d1 [1, 1]) true false)),
  .act 1 (.stmt (.decodeToEdgesArray (.d1 [1, 1]) false))]

theorem pair_good {R : Source} (st : R.State) : Good plain (Room.empty st) pairProg := by
  refine good_make rep_made (by decide) ?_
  refine good_make rep_made (by decide) ?_
  refine good_act (N' := repNet) (t := ⟨repNet, false, True, False⟩) (by simp) trivial (rep_ready false) rfl (by decide +kernel) (by decide) fun _ _ => ?_
  exact good_act (N' := repNet) (t := ⟨repNet, false, True, False⟩) (by simp) trivial (rep_ready false) rfl (by decide +kernel) (by decide) fun _ _ _ => ⟨[], rfl, fun m hm => by cases hm⟩

example {R : Source} (st : R.State) : ∃ scenes, Story plain (Room.empty st) pairProg scenes ∧ (∃ rs w, Completes (fun f => World.run plain f (World.empty st) pairProg) (.ok (rs, w)) ∧ AddsUp scenes rs) ∧
    ∃ rs w, Completes (fun f => World.run (W := int32) plain f (World.empty st) pairProg) (.ok (rs, w)) ∧ AddsUp scenes rs := by
  obtain ⟨scenes, h1, h2⟩ := pair_good st fun x t h => by cases h
  exact ⟨scenes, h1, C92_program plain st pairProg scenes h1, C92_program_int32 plain st pairProg scenes h1 fun m hm x a t _ ht _ => .inl (h2 m hm x t ht)⟩

/-- The other conditions hold for this network: integers, no negative weights, few links; and `(0, 1)` is an edge of weight 1. -/
example : Off repNet 0 ∧ (∀ l ∈ repNet.links, 0 ≤ l.weight) ∧ repNet.links.length < 2 ^ 29 ∧ Lightest repNet (0, some 1) 1 := by
  have h : Whole repNet := by
    have : ∀ w ∈ repNet.numbers, ((w.num : ℤ) : ℚ) = w := by decide +kernel
    exact fun w hw => ⟨w.num, this w hw⟩
  refine ⟨.inl ⟨h, rfl⟩, by decide +kernel, by decide, ⟨⟨0, some 1, {1}, 1, 1 / 10, ∅⟩, by simp [repNet], by decide, rfl⟩, ?_⟩
  rintro x ⟨l, hl, -, rfl⟩
  have : ∀ l ∈ repNet.links, 1 ≤ l.weight := by decide +kernel
  exact this l hl

/-- Networks with negative weights are also covered. -/
example : Distinct net1 ∧ ∃ l ∈ net1.links, l.weight < 0 := ⟨⟨by decide +kernel, by decide +kernel⟩, by decide +kernel⟩

/-- What the two calls give: weight 1, and the edge between the two detectors. -/
def told {R : Source} : Option (Res (List Result × World.World R)) → Option (ℚ × List (Nat × Option Nat))
  | some (.ok ([_, _, .out (.reply (.pair _ (.num q))), .out (.reply (.edges es))], _)) => some (q, es)
  | _ => none

example : told (World.run plain 12 (World.empty (R := ⟨Unit, fun _ => (), fun s a _ => (a, s)⟩) ()) pairProg) = some (1, [(0, some 1)]) := by decide +kernel

end Verif.Props.Sum
