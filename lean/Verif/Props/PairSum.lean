import Verif.Props.Sum

/-!
# C93: the weights of the matched pairs add up to the returned weight
-/

namespace Verif.Props.PairSum

open Verif Verif.SB Verif.UG Verif.Obj Verif.Dbl Verif.ObjD Verif.Session Verif.Sim Verif.World
open Verif.Props.Session Verif.Props.Simulate Verif.Props.World Verif.Props.Laws Verif.Props.Sum
open Verif.Props.Edges (Completes)
open Verif.Sch (Res)

/-! ## Specification -/

/-- One of the arrays of `decode_to_matched_dets_array` in a run: for network `N` and detection events `F`; -1 stands for the boundary. -/
def Matched {R : Source} (scenes : List (Room R × Command)) (rs : List Result) (N : Net) (F : Nat → Prop) (pairs : List (Nat × Option Nat)) : Prop :=
  ∃ (k : Nat) (room : Room R) (x : Nat) (t : Thing) (z : Syn.Arr), scenes[k]? = some (room, .act x (.stmt (.matchedArray z))) ∧
    rs[k]? = some (.out (.reply (.pairs (pairs.map fun p => ((p.1 : Int), p.2.elim (-1) fun b => (b : Int)))))) ∧ room.things x = some t ∧ N = t.net ∧ F = Fires z

/-- The weight for a syndrome is the sum of the weights for the single pairs, up to three times the `s` of C88 for each of these weights; `s` is 0 if all weights are integers.  What happens
at boundary nodes does not matter. -/
def PairsAddUp {R : Source} (scenes : List (Room R × Command)) (rs : List Result) : Prop :=
  ∀ (N : Net) (F F' : Nat → Prop) (q s : ℚ) (pairs : List (Nat × Option Nat)) (w : Nat × Option Nat → ℚ), Matched scenes rs N F' pairs → Seen scenes rs N F q s →
    (∀ x, x ∉ N.boundary → (F x ↔ F' x)) →
    (∀ p ∈ pairs, ∃ E : Nat → Prop, Seen scenes rs N E (w p) s ∧ ∀ x, x ∉ N.boundary → (E x ↔ x = p.1 ∨ p.2 = some x)) →
    |q - (pairs.map w).sum| ≤ 3 * (pairs.length + 1) * s

/-! ## Lemmas -/

section
variable {N : Net}

theorem row_inj : Function.Injective rowOf := by
  rintro ⟨a, b⟩ ⟨a', b'⟩ h
  simp only [rowOf, Prod.mk.injEq, Nat.cast_inj] at h
  obtain ⟨rfl, h⟩ := h
  cases b <;> cases b' <;> simp at h ⊢ <;> omega

theorem off_nonneg {s : ℚ} (hs : Off N s) : 0 ≤ s := by
  rcases hs with ⟨-, rfl⟩ | ⟨-, m, -, -, rfl⟩
  · exact le_refl _
  · positivity

/-- A weight is near the cost of a cheap explanation. -/
theorem near_of {F F' : Nat → Prop} {u s q : ℚ} {C : N.Links} (hu : StepOf N u) (hs : Off N s) (hq : Least N F s q) (hC : Cheap u F' C) (hF : ∀ x, x ∉ N.boundary → (F x ↔ F' x)) :
    |q - cost C| ≤ 2 * s := by
  have same : ∀ D : N.Links, Explained D F ↔ Explained D F' := fun D => forall₂_congr fun x hx => by rw [hF x hx]
  obtain ⟨⟨C1, b1, b2⟩, b3⟩ := hq
  have b4 := b3 C ((same C).2 hC.1)
  have b5 := cheap_off hu hC hs C1 ((same C1).1 b1)
  have := off_nonneg hs
  exact abs_le.2 ⟨by linarith, by linarith⟩

theorem sums_near {α : Type} (ps : List α) (f g : α → ℚ) (e : ℚ) (h : ∀ p ∈ ps, |f p - g p| ≤ e) : |(ps.map f).sum - (ps.map g).sum| ≤ ps.length * e := by
  induction ps with
  | nil => simp
  | cons p ps ih =>
    have h1 := abs_le.1 (h p (List.mem_cons_self ..))
    have h2 := abs_le.1 (ih fun p hp => h p (List.mem_cons_of_mem _ hp))
    simp only [List.map_cons, List.sum_cons, List.length_cons, Nat.cast_add, Nat.cast_one]
    exact abs_le.2 ⟨by linarith [h1.1, h2.1], by linarith [h1.2, h2.2]⟩

theorem sum_card {α : Type} (ps : List α) (D : α → N.Links) : (ps.map fun p => (D p).card).sum ≤ ps.length * N.links.length := by
  induction ps with
  | nil => simp
  | cons p ps ih =>
    have := Finset.card_le_univ (D p)
    rw [Fintype.card_fin] at this
    simp only [List.map_cons, List.sum_cons, List.length_cons]
    rw [Nat.add_mul]
    omega

/-- What `Paired` allows is within `s` for each of the explanations. -/
theorem within {u s : ℚ} (hu : StepOf N u) (hs : Off N s) (hw : ¬ Whole N) {k : Nat} {n : Nat} (h : n ≤ (k + 1) * N.links.length) : (n : ℚ) * (1 / 2 + 1 / 2 ^ 27) * u ≤ (k + 1) * s := by
  rcases hs with ⟨hw', -⟩ | ⟨-, m, hm1, hm2, rfl⟩
  · exact absurd hw' hw
  obtain ⟨hw', -⟩ | ⟨-, m', hm1', hm2', hu⟩ := hu
  · exact absurd hw' hw
  have hmm : |m| = |m'| := le_antisymm (hm2' m hm1) (hm2 m' hm1')
  rw [hmm, ← hu]
  have hu0 : 0 ≤ u := by rw [hu]; positivity
  have h1 : (n : ℚ) ≤ (k + 1) * N.links.length := by exact_mod_cast h
  have h2 : (n : ℚ) * u ≤ (k + 1) * N.links.length * u := mul_le_mul_of_nonneg_right h1 hu0
  have h3 : (0 : ℚ) ≤ (k + 1) * N.links.length * u := by positivity
  have h4 : (0 : ℚ) ≤ (k + 1) * (1 / 2 ^ 1074) := by positivity
  have e : ((k : ℚ) + 1) * (N.links.length * (3 / 2 + 1 / 2 ^ 24) * u + 1 / 2 ^ 1074) = (3 / 2 + 1 / 2 ^ 24) * ((k + 1) * N.links.length * u) + (k + 1) * (1 / 2 ^ 1074) := by ring
  rw [e]
  have e' : (n : ℚ) * (1 / 2 + 1 / 2 ^ 27) * u = (1 / 2 + 1 / 2 ^ 27) * (n * u) := by ring
  rw [e']
  generalize (n : ℚ) * u = a at *
  generalize ((k : ℚ) + 1) * N.links.length * u = b at *
  generalize ((k : ℚ) + 1) * (1 / 2 ^ 1074) = c at *
  linarith

theorem pairs_core {F F' : Nat → Prop} {u s q : ℚ} {pairs : List (Nat × Option Nat)} {w : Nat × Option Nat → ℚ} (hu : StepOf N u) (hs : Off N s) (hp : Paired (N := N) u F' pairs)
    (hq : Least N F s q) (hF : ∀ x, x ∉ N.boundary → (F x ↔ F' x)) (hw : ∀ p ∈ pairs, ∃ E : Nat → Prop, Least N E s (w p) ∧ ∀ x, x ∉ N.boundary → (E x ↔ x = p.1 ∨ p.2 = some x)) :
    |q - (pairs.map w).sum| ≤ 3 * (pairs.length + 1) * s := by
  obtain ⟨D, d1, C, c1, c2, c3⟩ := hp.each
  have h1 := near_of hu hs hq c1 hF
  have h2 := sums_near pairs w (fun p => cost (D p)) (2 * s) fun p hp => by
    obtain ⟨E, e1, e2⟩ := hw p hp
    refine near_of hu hs e1 (d1 p hp) fun x hx => (e2 x hx).trans ?_
    simp [Session.ends, eq_comm]
  have h3 : |cost C - (pairs.map fun p => cost (D p)).sum| ≤ (pairs.length + 1) * s := by
    by_cases hW : Whole N
    · rw [c3 hW, sub_self, abs_zero]
      exact mul_nonneg (by positivity) (off_nonneg hs)
    · refine c2.trans (within hu hs hW ?_)
      have := Finset.card_le_univ C
      rw [Fintype.card_fin] at this
      have := sum_card pairs D
      rw [Nat.add_mul]
      omega
  have h1 := abs_le.1 h1
  have h2 := abs_le.1 h2
  have h3 := abs_le.1 h3
  have e : 3 * ((pairs.length : ℚ) + 1) * s = 2 * s + (pairs.length + 1) * s + pairs.length * (2 * s) := by ring
  rw [e]
  exact abs_le.2 ⟨by linarith [h1.1, h2.2, h3.1], by linarith [h1.2, h2.1, h3.2]⟩

end

section
variable {R : Source}

theorem pairs_add_up {A : Arithmetic} {scenes : List (Room R × Command)} {rs : List Result} (hr : List.Forall₂ (fun (m : Room R × Command) r => RightCommand A m.1 m.2 r) scenes rs) :
    PairsAddUp scenes rs := by
  intro N F F' q s pairs w ⟨k, room, x, t, z, h1, h2, ht, hN, hF⟩ h hFF hw
  have hL := seen_least hr h
  obtain ⟨-, -, -, -, -, -, -, hs⟩ := h
  have h3 : RightCommand A room (.act x (.stmt (.matchedArray z))) (.out (.reply (.pairs (pairs.map fun p => ((p.1 : Int), p.2.elim (-1) fun b => (b : Int)))))) := by
    have h6 := List.forall₂_iff_get.1 hr
    obtain ⟨i1, e1⟩ := List.getElem?_eq_some_iff.1 h1
    obtain ⟨i2, e2⟩ := List.getElem?_eq_some_iff.1 h2
    have := h6.2 k i1 i2
    rw [List.get_eq_getElem, List.get_eq_getElem, e1, e2] at this
    exact this
  simp only [RightCommand, ht] at h3
  obtain ⟨out, e, h3⟩ := h3
  cases e
  obtain ⟨r, e, h3⟩ := h3
  cases e
  subst hN hF
  rcases h3 with ⟨-, u, hu, rows, hp, e⟩ | ⟨e, -⟩
  · have e' : pairs.map rowOf = rows.map rowOf := by
      have := Reply.pairs.inj e
      rw [← this]
      refine List.map_congr_left fun p _ => ?_
      obtain ⟨a, b⟩ := p
      cases b <;> rfl
    have : pairs = rows := List.map_injective_iff.2 row_inj e'
    subst this
    exact pairs_core hu hs hp hL hFF fun p hp => by
      obtain ⟨E, e1, e2⟩ := hw p hp
      exact ⟨E, seen_least hr e1, e2⟩
  · cases e

/-! ## C93 -/

/-- C93: in every proper program with any number of objects, the weight for a syndrome is the sum of the weights for its matched pairs. -/
theorem C93_program (A : Arithmetic) (st : R.State) (prog : List Command) (scenes : List (Room R × Command)) (hs : Story A (Room.empty st) prog scenes) :
    ∃ rs w, Completes (fun f => World.run A f (World.empty st) prog) (.ok (rs, w)) ∧ PairsAddUp scenes rs := by
  obtain ⟨rs, w, h1, h2⟩ := C87_program A st prog scenes hs
  exact ⟨rs, w, h1, pairs_add_up h2⟩

/-- C93 for the library as compiled, with its 32-bit wrapped radius. -/
theorem C93_program_int32 (A : Arithmetic) (st : R.State) (prog : List Command) (scenes : List (Room R × Command)) (hs : Story A (Room.empty st) prog scenes)
    (hn : ∀ m ∈ scenes, ∀ x a t, m.2 = .act x a → m.1.things x = some t → AsksLine t.known (m.1.line t a) → t.net.Small) :
    ∃ rs w, Completes (fun f => World.run (W := int32) A f (World.empty st) prog) (.ok (rs, w)) ∧ PairsAddUp scenes rs := by
  obtain ⟨rs, w, h1, h2⟩ := C87_program_int32 A st prog scenes hs hn
  exact ⟨rs, w, h1, pairs_add_up h2⟩

end

/-! ## Example -/

/-- A repetition code with four checks; links to the boundary at both ends. -/
def chain : Net := ⟨4, [⟨0, none, {0}, 1, 1 / 10, ∅⟩, ⟨0, some 1, {1}, 3, 1 / 10, ∅⟩, ⟨1, some 2, {2}, 1, 1 / 10, ∅⟩, ⟨2, some 3, {3}, 3, 1 / 10, ∅⟩, ⟨3, none, {4}, 1, 1 / 10, ∅⟩], ∅, 5⟩

/-- Build it; ask for the pairs of all four events; the weight; the weights of the pairs. -/
def chainProg : List Command := [
  .make 0 (.matrix {}),
  .act 0 (.stmt (.addBoundaryEdge 0 { faultIds := .int 0, prob := some (1 / 10) })),
  .act 0 (.stmt (.addEdge 0 1 { faultIds := .int 1, prob := some (1 / 10), weight := .fin 3 })),
  .act 0 (.stmt (.addEdge 1 2 { faultIds := .int 2, prob := some (1 / 10) })),
  .act 0 (.stmt (.addEdge 2 3 { faultIds := .int 3, prob := some (1 / 10), weight := .fin 3 })),
  .act 0 (.stmt (.addBoundaryEdge 3 { faultIds := .int 4, prob := some (1 / 10) })),
  .act 0 (.stmt (.matchedArray (.d1 [1, 1, 1, 1]))),
  .act 0 (.stmt (.decode (.d1 [1, 1, 1, 1]) true false)),
  .act 0 (.stmt (.decode (.d1 [1, 0, 0, 0]) true false)),
  .act 0 (.stmt (.decode (.d1 [0, 1, 1, 0]) true false)),
  .act 0 (.stmt (.decode (.d1 [0, 0, 0, 1]) true false))]

/-- What they give. -/
def told {R : Source} : Option (Res (List Result × World.World R)) → Option (List (Int × Int) × List ℚ)
  | some (.ok (rs, _)) => match rs.drop 6 with
    | .out (.reply (.pairs ps)) :: rest => some (ps, rest.filterMap fun
      | .out (.reply (.pair _ (.num q))) => some q
      | _ => none)
    | _ => none
  | _ => none

/-- Three pairs, two of them with the boundary; weight 3; and the weights of the pairs. -/
example : told (World.run plain 30 (World.empty (R := ⟨Unit, fun _ => (), fun s a _ => (a, s)⟩) ()) chainProg) = some ([(0, -1), (1, 2), (3, -1)], [3, 1, 1, 1]) := by decide +kernel

/-- The first `k` links. -/
def part (n k : Nat) : Net := ⟨n, chain.links.take k, ∅, k⟩

theorem chain_fine : (part 4 5).Fine := fine_of (by decide +kernel) (by decide +kernel) (by decide +kernel) (by decide +kernel) (by decide +kernel) (by decide +kernel) (by decide +kernel)

theorem chain_steps :
    afterLine plain.mergeW Net.empty (.stmt (.addBoundaryEdge 0 { faultIds := .int 0, prob := some (1 / 10) })) = part 1 1 ∧
    afterLine plain.mergeW (part 1 1) (.stmt (.addEdge 0 1 { faultIds := .int 1, prob := some (1 / 10), weight := .fin 3 })) = part 2 2 ∧
    afterLine plain.mergeW (part 2 2) (.stmt (.addEdge 1 2 { faultIds := .int 2, prob := some (1 / 10) })) = part 3 3 ∧
    afterLine plain.mergeW (part 3 3) (.stmt (.addEdge 2 3 { faultIds := .int 3, prob := some (1 / 10), weight := .fin 3 })) = part 4 4 ∧
    afterLine plain.mergeW (part 4 4) (.stmt (.addBoundaryEdge 3 { faultIds := .int 4, prob := some (1 / 10) })) = part 4 5 := by decide +kernel

theorem chain_good {R : Source} (st : R.State) : Good plain (Room.empty st) chainProg := by
  refine good_make (t := ⟨Net.empty, false, True, False⟩) (.inl ⟨rfl, rfl, rfl⟩) (by decide) ?_
  refine good_act (N' := part 1 1) (t := ⟨Net.empty, false, True, False⟩) (by simp) trivial (by intro h; cases h) chain_steps.1 (by decide +kernel) (by decide) fun q _ => ?_
  refine good_act (N' := part 2 2) (t := ⟨part 1 1, false, True, q⟩) (by simp) trivial (by intro h; cases h) chain_steps.2.1 (by decide +kernel) (by decide) fun q _ => ?_
  refine good_act (N' := part 3 3) (t := ⟨part 2 2, false, True, q⟩) (by simp) trivial (by intro h; cases h) chain_steps.2.2.1 (by decide +kernel) (by decide) fun q _ => ?_
  refine good_act (N' := part 4 4) (t := ⟨part 3 3, false, True, q⟩) (by simp) trivial (by intro h; cases h) chain_steps.2.2.2.1 (by decide +kernel) (by decide) fun q _ => ?_
  refine good_act (N' := part 4 5) (t := ⟨part 4 4, false, True, q⟩) (by simp) trivial (by intro h; cases h) chain_steps.2.2.2.2 (by decide +kernel) (by decide) fun q _ => ?_
  refine good_act (N' := part 4 5) (t := ⟨part 4 5, false, True, q⟩) (by simp) trivial chain_fine rfl (by decide +kernel) (by decide) fun q _ => ?_
  refine good_act (N' := part 4 5) (t := ⟨part 4 5, false, True, q⟩) (by simp) trivial (ready_plain chain_fine) rfl (by decide +kernel) (by decide) fun q _ => ?_
  refine good_act (N' := part 4 5) (t := ⟨part 4 5, false, True, q⟩) (by simp) trivial (ready_plain chain_fine) rfl (by decide +kernel) (by decide) fun q _ => ?_
  refine good_act (N' := part 4 5) (t := ⟨part 4 5, false, True, q⟩) (by simp) trivial (ready_plain chain_fine) rfl (by decide +kernel) (by decide) fun q _ => ?_
  exact good_act (N' := part 4 5) (t := ⟨part 4 5, false, True, q⟩) (by simp) trivial (ready_plain chain_fine) rfl (by decide +kernel) (by decide) fun _ _ _ => ⟨[], rfl, fun m hm => by cases hm⟩

example {R : Source} (st : R.State) : ∃ scenes, Story plain (Room.empty st) chainProg scenes ∧
    (∃ rs w, Completes (fun f => World.run plain f (World.empty st) chainProg) (.ok (rs, w)) ∧ PairsAddUp scenes rs) ∧
    ∃ rs w, Completes (fun f => World.run (W := int32) plain f (World.empty st) chainProg) (.ok (rs, w)) ∧ PairsAddUp scenes rs := by
  obtain ⟨scenes, h1, h2⟩ := chain_good st fun x t h => by cases h
  exact ⟨scenes, h1, C93_program plain st chainProg scenes h1, C93_program_int32 plain st chainProg scenes h1 fun m hm x a t _ ht _ => .inl (h2 m hm x t ht)⟩

/-- All weights are integers and there are few links; so the sum is exact. -/
example : Off (part 4 5) 0 ∧ (part 4 5).links.length < 2 ^ 29 := by
  have : ∀ w ∈ (part 4 5).numbers, ((w.num : ℤ) : ℚ) = w := by decide +kernel
  exact ⟨.inl ⟨fun w hw => ⟨w.num, this w hw⟩, rfl⟩, by decide⟩

end Verif.Props.PairSum
