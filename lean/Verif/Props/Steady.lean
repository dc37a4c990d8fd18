import Verif.Props.Only

/-!
# C99: small errors in the weights do not change the answer
-/

namespace Verif.Props.Steady

open Verif Verif.SB Verif.UG Verif.Obj Verif.Dbl Verif.ObjD Verif.Session Verif.Sim Verif.World
open Verif.Props.Session Verif.Props.Simulate Verif.Props.World Verif.Props.Laws Verif.Props.Sum Verif.Props.Below Verif.Props.Clear Verif.Props.Only
open Verif.Props.Edges (Completes)
open Verif.Sch (Res)

/-! ## Specification -/

/-- The same links (`φ`: in another order), with weights that differ by at most `d` in total. -/
def Perturbed {N N' : Net} (φ : Fin N.links.length ≃ Fin N'.links.length) (d : ℚ) : Prop :=
  (∀ i, tips N'.links[φ i] = tips N.links[i]) ∧ (∀ i, N'.links[φ i].faults = N.links[i].faults) ∧ N'.boundary = N.boundary ∧ ∑ i, |N'.links[φ i].weight - N.links[i].weight| ≤ d

/-- If `E` is the only best explanation for the true weights (in `N`) with margin `m`, all replies about the network `N'` of the object are about `E`.  `s` as in C88: 0 if all weights are integers. -/
def Steady {R : Source} (scenes : List (Room R × Command)) (rs : List Result) : Prop :=
  ∀ (N N' : Net) (φ : Fin N.links.length ≃ Fin N'.links.length) (F F' : Nat → Prop) (s d m : ℚ) (E : N.Links), Off N' s → Only m F E → Perturbed φ d → d + s ≤ m → (∀ x, x ∉ N.boundary → (F x ↔ F' x)) →
    (∀ packed out, Foreseen scenes rs N' F' packed out → ∀ k, k < N'.ids → (Bit packed out k ↔ count E k % 2 = 1)) ∧
    (∀ es, Listed scenes rs N' F' es → Session.Lists (N := N') es (E.map φ.toEmbedding)) ∧
    ∀ q, Seen scenes rs N' F' q s → |q - ∑ i ∈ E, N'.links[φ i].weight| ≤ s

/-! ## Lemmas -/

section
variable {N N' : Net} {φ : Fin N.links.length ≃ Fin N'.links.length} {d : ℚ} {F F' : Nat → Prop}

theorem degree_moved (h : ∀ i, tips N'.links[φ i] = tips N.links[i]) (C : N.Links) (x : Nat) : degreeAt (N := N') (C.map φ.toEmbedding) x = degreeAt C x := by
  rw [degreeAt_eq, degreeAt_eq, Finset.sum_map]
  exact Finset.sum_congr rfl fun i _ => ends_same (h i) x

theorem count_moved (h : ∀ i, N'.links[φ i].faults = N.links[i].faults) (C : N.Links) (k : Nat) : count (N := N') (C.map φ.toEmbedding) k = count C k := by
  unfold count
  rw [Finset.filter_map, Finset.card_map]
  congr 1
  refine Finset.filter_congr fun i _ => ?_
  show k ∈ N'.links[φ i].faults ↔ _
  rw [h]

/-- Two sets change by at most `d` against each other. -/
theorem drift {n : Nat} (a b : Fin n → ℚ) (h : ∑ i, |b i - a i| ≤ d) (C D : Finset (Fin n)) : (∑ i ∈ D, a i - ∑ i ∈ C, a i) - d ≤ ∑ i ∈ D, b i - ∑ i ∈ C, b i := by
  have e : ∀ f : Fin n → ℚ, ∀ S : Finset (Fin n), ∑ i ∈ S, f i = ∑ i, if i ∈ S then f i else 0 := fun f S => by simp
  rw [e a D, e a C, e b D, e b C]
  have key : ∑ i, ((((if i ∈ D then a i else 0) - (if i ∈ C then a i else 0)) - |b i - a i|)) ≤ ∑ i, ((if i ∈ D then b i else 0) - (if i ∈ C then b i else 0)) := by
    refine Finset.sum_le_sum fun i _ => ?_
    have h1 := neg_abs_le (b i - a i)
    have h2 := le_abs_self (b i - a i)
    have h3 := abs_nonneg (b i - a i)
    split_ifs <;> linarith
  simp only [Finset.sum_sub_distrib] at key
  linarith

theorem only_moved (hp : Perturbed φ d) (hF : ∀ x, x ∉ N.boundary → (F x ↔ F' x)) {s m : ℚ} (hm : d + s ≤ m) {E : N.Links} (hE : Only m F E) : Only (N := N') s F' (E.map φ.toEmbedding) := by
  obtain ⟨ht, hf, hb, hd⟩ := hp
  have moved : ∀ C : N.Links, Explained (N := N') (C.map φ.toEmbedding) F' ↔ Explained C F := fun C => by
    unfold Explained
    rw [hb]
    exact forall₂_congr fun x hx => by rw [degree_moved ht, hF x hx]
  have costs : ∀ C : N.Links, cost (N := N') (C.map φ.toEmbedding) = ∑ i ∈ C, N'.links[φ i].weight := fun C => Finset.sum_map _ _ _
  refine ⟨(moved E).2 hE.1, fun D hD hne => ?_⟩
  obtain ⟨C, rfl⟩ : ∃ C : N.Links, D = C.map φ.toEmbedding := ⟨D.map φ.symm.toEmbedding, by rw [Finset.map_map]; ext x; simp⟩
  have h1 := hE.2 C ((moved C).1 hD) fun h => hne (by rw [h])
  have h2 := drift (fun i => N.links[i].weight) (fun i => N'.links[φ i].weight) hd E C
  rw [costs, costs]
  unfold cost at h1
  linarith

end

section
variable {R : Source}

theorem steady {A : Arithmetic} {scenes : List (Room R × Command)} {rs : List Result} (hr : List.Forall₂ (fun (m : Room R × Command) r => RightCommand A m.1 m.2 r) scenes rs) : Steady scenes rs := by
  intro N N' φ F F' s d m E hs hE hp hm hF
  obtain ⟨h1, h2, h3⟩ := about_it hr N' F' s _ hs (only_moved hp hF hm hE)
  refine ⟨fun packed out h k hk => ?_, h2, fun q h => ?_⟩
  · rw [bit_iff (h1 packed out h) hk, count_moved hp.2.1]
  · have e : cost (N := N') (E.map φ.toEmbedding) = ∑ i ∈ E, N'.links[φ i].weight := Finset.sum_map _ _ _
    rw [← e]
    exact h3 q h

/-! ## C99 -/

/-- C99: in every proper program with any number of objects, small errors in the weights do not change the answers. -/
theorem C99_program (A : Arithmetic) (st : R.State) (prog : List Command) (scenes : List (Room R × Command)) (hs : Story A (Room.empty st) prog scenes) :
    ∃ rs w, Completes (fun f => World.run A f (World.empty st) prog) (.ok (rs, w)) ∧ Steady scenes rs := by
  obtain ⟨rs, w, h1, h2⟩ := C87_program A st prog scenes hs
  exact ⟨rs, w, h1, steady h2⟩

/-- C99 for the library as compiled, with its 32-bit wrapped radius. -/
theorem C99_program_int32 (A : Arithmetic) (st : R.State) (prog : List Command) (scenes : List (Room R × Command)) (hs : Story A (Room.empty st) prog scenes)
    (hn : ∀ m ∈ scenes, ∀ x a t, m.2 = .act x a → m.1.things x = some t → AsksLine t.known (m.1.line t a) → t.net.Small) :
    ∃ rs w, Completes (fun f => World.run (W := int32) A f (World.empty st) prog) (.ok (rs, w)) ∧ Steady scenes rs := by
  obtain ⟨rs, w, h1, h2⟩ := C87_program_int32 A st prog scenes hs hn
  exact ⟨rs, w, h1, steady h2⟩

end

/-! ## Example -/

/-- `pairProg` asks one object for prediction and weight, another for the edges. -/
example {R : Source} (st : R.State) : ∃ scenes, Story plain (Room.empty st) pairProg scenes ∧ (∃ rs w, Completes (fun f => World.run plain f (World.empty st) pairProg) (.ok (rs, w)) ∧ Steady scenes rs) ∧
    ∃ rs w, Completes (fun f => World.run (W := int32) plain f (World.empty st) pairProg) (.ok (rs, w)) ∧ Steady scenes rs := by
  obtain ⟨scenes, h1, h2⟩ := pair_good st fun x t h => by cases h
  exact ⟨scenes, h1, C99_program plain st pairProg scenes h1, C99_program_int32 plain st pairProg scenes h1 fun m hm x a t _ ht _ => .inl (h2 m hm x t ht)⟩

/-- The true weights are 1, 6/5 and 9/10. -/
def trueNet : Net := ⟨2, [⟨0, none, {0}, 1, 1 / 10, ∅⟩, ⟨0, some 1, {1}, 6 / 5, 1 / 10, ∅⟩, ⟨1, none, {2}, 9 / 10, 1 / 10, ∅⟩], ∅, 3⟩

/-- The link between the two detectors. -/
def trueMiddle : trueNet.Links := {⟨1, by decide⟩}

/-- The objects of this program have weights 1 instead: an error of 3/10 in total, and the margin is more than 1/2. -/
example : Perturbed (N := trueNet) (N' := repNet) (Equiv.refl (Fin 3)) (3 / 10) ∧ Only (1 / 2) (Fires (.d1 [1, 1])) trueMiddle ∧ (3 / 10 : ℚ) + 0 ≤ 1 / 2 := by
  refine ⟨⟨?_, ?_, rfl, ?_⟩, ⟨fun x _ => ?_, fun D hD h => ?_⟩, by norm_num⟩
  · show ∀ i : Fin 3, tips (repNet.links[i]'i.2) = tips (trueNet.links[i]'i.2)
    decide
  · show ∀ i : Fin 3, (repNet.links[i]'i.2).faults = (trueNet.links[i]'i.2).faults
    decide +kernel
  · show ∑ i : Fin 3, |(repNet.links[i]'i.2).weight - (trueNet.links[i]'i.2).weight| ≤ 3 / 10
    decide +kernel
  · rcases x with _ | _ | x
    · simp only [Fires]; decide +kernel
    · simp only [Fires]; decide +kernel
    · have h1 : degreeAt trueMiddle (x + 2) = 0 := by
        refine Finset.sum_eq_zero fun i _ => ?_
        have : ∀ i : Fin 3, (trueNet.links[i]'i.2).a < 2 ∧ ∀ v, (trueNet.links[i]'i.2).b = some v → v < 2 := by decide
        obtain ⟨h1, h2⟩ := this i
        rw [if_neg (by omega), if_neg fun h => by have := h2 _ h; omega, Nat.add_zero]
      rw [h1]
      simp [Fires]
  · have key : ∀ C : trueNet.Links, degreeAt C 0 % 2 = 1 → degreeAt C 1 % 2 = 1 → C ≠ trueMiddle → cost trueMiddle + 1 / 2 < cost C := by decide +kernel
    exact key D ((hD 0 (by simp [trueNet])).1 (by simp [Fires])) ((hD 1 (by simp [trueNet])).1 (by simp [Fires])) h

end Verif.Props.Steady
