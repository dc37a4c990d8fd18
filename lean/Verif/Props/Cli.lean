import Verif.Cli

/-!
# C44: the command line tools follow the decoder
-/

namespace Verif.Props.Cli

open Verif.Cli

/-! ## Specification -/

/-- Where the recorded observables come from: the separate file if given, otherwise the input itself. -/
def recorded (shots : List Shot) (obsIn : Option (List (List Bool))) : List (List Bool) :=
  match obsIn with
  | some os => os
  | none => shots.map (·.obs)

/-- Number of positions at which the prediction differs from the recorded observables. -/
def mistakes (dec : List Nat → List Bool) (shots : List Shot) (rec : List (List Bool)) : Nat :=
  ((shots.map fun s => dec s.hits).zip rec).countP fun x => decide (x.1 ≠ x.2)

/-- The full statement about `count_mistakes`: for inputs of the right shape the counts are right, and the call fails exactly
when no observables are supplied or they end early. -/
def C44_statement : Prop :=
  ∀ (numObs : Nat) (dec : List Nat → List Bool) (appended : Bool) (shots : List Shot) (obsIn : Option (List (List Bool))),
    (∀ h, (dec h).length = numObs) → (∀ r ∈ recorded shots obsIn, r.length = if obsIn.isSome || appended then numObs else 0) →
    countMistakes numObs dec appended shots obsIn =
      if (appended || obsIn.isSome) && decide (shots.length ≤ (recorded shots obsIn).length) then
        some (mistakes dec shots (recorded shots obsIn), shots.length)
      else none

/-! ## Helpers -/

theorem mask_inj (a b : List Bool) (h : a.length = b.length) :
    a.foldr (fun b acc => 2 * acc + b.toNat) 0 = b.foldr (fun b acc => 2 * acc + b.toNat) 0 → a = b := by
  induction a generalizing b with
  | nil => cases b with
    | nil => simp
    | cons _ _ => simp at h
  | cons x a ih =>
    cases b with
    | nil => simp at h
    | cons y b =>
      intro he
      simp only [List.foldr_cons] at he
      have hx : x.toNat < 2 := by cases x <;> simp
      have hy : y.toNat < 2 := by cases y <;> simp
      have h1 : x = y := by
        have : x.toNat = y.toNat := by omega
        cases x <;> cases y <;> simp_all
      subst h1
      rw [ih b (by simpa using h) (by omega)]

theorem mask64_inj (a b : List Bool) (h : a.length = b.length) (h64 : a.length ≤ 64) : mask64 a = mask64 b ↔ a = b := by
  constructor
  · intro he
    unfold mask64 at he
    rw [List.take_of_length_le h64, List.take_of_length_le (h ▸ h64)] at he
    exact mask_inj a b h he
  · rintro rfl; rfl

theorem xor_zero (n : Nat) (l : List Bool) (h : l.length = n) : xorInto (List.replicate n false) l = l := by
  subst h
  induction l with
  | nil => rfl
  | cons x l ih =>
    simp only [List.length_cons, List.replicate_succ, xorInto, List.zipWith_cons_cons, Bool.false_bne, List.cons.injEq, true_and]
    exact ih

theorem mapM_range (l : List Bool) (k : Nat) (h : k ≤ l.length) :
    (List.range k).mapM (fun k => l[k]?) = some (l.take k) := by
  induction k with
  | zero => simp
  | succ k ih =>
    rw [List.range_succ, List.mapM_append, ih (by omega)]
    have hk : l[k]? = some l[k] := List.getElem?_eq_getElem (by omega)
    have h1 : l.take (k + 1) = l.take k ++ [l[k]] := by rw [List.take_add_one, hk]; rfl
    rw [h1]
    simp only [List.mapM_cons, List.mapM_nil, hk]
    rfl

theorem record_ok (l : List Bool) (n : Nat) (h : l.length = n) : record n l = some l := by
  unfold record
  rw [mapM_range l n (by omega), List.take_of_length_le (by omega)]

/-! ## Properties -/

/-- C44 (`predict`): one record per shot, in order, equal to the decoder's prediction, for every list of shots. -/
theorem C44_predict (numObs : Nat) (dec : List Nat → List Bool) (hdec : ∀ h, (dec h).length = numObs) (shots : List Shot) :
    predict numObs dec shots = some (shots.map fun s => dec s.hits) := by
  unfold predict
  induction shots with
  | nil => rfl
  | cons s rest ih =>
    simp only [predictLoop]
    rw [xor_zero numObs _ (hdec s.hits), record_ok _ _ (hdec s.hits), hdec, ih]
    rfl

theorem countLoop_spec (numObs : Nat) (h64 : numObs ≤ 64) (dec : List Nat → List Bool) (hdec : ∀ h, (dec h).length = numObs)
    (shots : List Shot) (obsIn : Option (List (List Bool))) (hrec : ∀ r ∈ recorded shots obsIn, r.length = numObs) (m k : Nat) :
    countLoop numObs dec m k shots obsIn =
      if shots.length ≤ (recorded shots obsIn).length then
        some (m + mistakes dec shots (recorded shots obsIn), k + shots.length)
      else none := by
  induction shots generalizing obsIn m k with
  | nil => cases obsIn <;> simp [countLoop, mistakes]
  | cons s rest ih =>
    have cond : ∀ o : List Bool, o.length = numObs → (mask64 o ≠ decode64 numObs dec s.hits ↔ dec s.hits ≠ o) := by
      intro o ho
      rw [decode64, if_pos h64, Ne, mask64_inj _ _ (ho.trans (hdec _).symm) (ho ▸ h64)]
      exact ⟨fun h e => h e.symm, fun h e => h e.symm⟩
    cases obsIn with
    | none =>
      have hr : ∀ r ∈ recorded rest none, r.length = numObs := by
        intro r hr; exact hrec r (by simp only [recorded, List.map_cons, List.mem_cons] at hr ⊢; exact Or.inr hr)
      simp only [countLoop]
      rw [ih none hr]
      have := cond s.obs (hrec _ (by simp [recorded]))
      simp only [recorded, List.length_map, Nat.le_refl, if_true, List.length_cons, List.map_cons, mistakes, List.zip_cons_cons,
        List.countP_cons]
      by_cases hc : dec s.hits ≠ s.obs
      · rw [if_pos (this.2 hc)]; simp [hc]; omega
      · rw [if_neg (fun h => hc (this.1 h))]; simp [hc]; omega
    | some os =>
      cases os with
      | nil => simp [countLoop, recorded]
      | cons o os =>
        have hr : ∀ r ∈ recorded rest (some os), r.length = numObs := by
          intro r hr; exact hrec r (by simp only [recorded, List.mem_cons] at hr ⊢; exact Or.inr hr)
        simp only [countLoop]
        rw [ih (some os) hr]
        have := cond o (hrec _ (by simp [recorded]))
        simp only [recorded, List.length_cons, mistakes, List.map_cons, List.zip_cons_cons, List.countP_cons,
          Nat.add_le_add_iff_right]
        by_cases hl : rest.length ≤ os.length
        · simp only [hl, if_true]
          by_cases hc : dec s.hits ≠ o
          · rw [if_pos (this.2 hc)]; simp [hc]; omega
          · rw [if_neg (fun h => hc (this.1 h))]; simp [hc]; omega
        · simp only [hl, if_false]

/-- C44 (`count_mistakes`) for at most 64 observables (what is missing: more than 64
observables, and the failure when there is no source of observables; the statement is false there). -/
theorem C44_count_partial (numObs : Nat) (h64 : numObs ≤ 64) (dec : List Nat → List Bool)
    (hdec : ∀ h, (dec h).length = numObs) (appended : Bool) (shots : List Shot) (obsIn : Option (List (List Bool)))
    (hrec : ∀ r ∈ recorded shots obsIn, r.length = numObs) :
    countMistakes numObs dec appended shots obsIn =
      if shots.length ≤ (recorded shots obsIn).length then
        some (mistakes dec shots (recorded shots obsIn), shots.length)
      else none := by
  unfold countMistakes
  simp only [Bool.and_false, Bool.false_eq_true, if_false]
  rw [countLoop_spec numObs h64 dec hdec shots obsIn hrec 0 0]
  simp

/-- More than 64 observables: a shot whose recorded observables differ from the prediction is not counted. -/
theorem C44_statement_false_many_observables : ∃ (numObs : Nat) (dec : List Nat → List Bool) (shots : List Shot),
    (∀ h, (dec h).length = numObs) ∧ (∀ r ∈ recorded shots none, r.length = numObs) ∧
    mistakes dec shots (recorded shots none) = 1 ∧ countMistakes numObs dec true shots none = some (0, 1) :=
  ⟨65, fun _ => List.replicate 65 false, [⟨[], List.replicate 64 false ++ [true]⟩],
    by intro h; simp, by decide, by decide, by decide⟩

/-- More than 64 observables: a correctly predicted shot is counted as a mistake. -/
theorem C44_statement_false_overcount : ∃ (numObs : Nat) (dec : List Nat → List Bool) (shots : List Shot),
    (∀ h, (dec h).length = numObs) ∧ (∀ r ∈ recorded shots none, r.length = numObs) ∧
    mistakes dec shots (recorded shots none) = 0 ∧ countMistakes numObs dec true shots none = some (1, 1) :=
  ⟨65, fun _ => true :: List.replicate 64 false, [⟨[], true :: List.replicate 64 false⟩],
    by intro h; simp, by decide, by decide, by decide⟩

/-- Without any source of observables the tool does not fail, but compares with all zeros. -/
theorem C44_statement_false_no_source :
    countMistakes 1 (fun _ => [true]) false [⟨[], []⟩] none = some (1, 1) := by decide

/-- The full statement is false. -/
theorem C44_statement_false : ¬ C44_statement := by
  intro h
  obtain ⟨n, dec, shots, h1, h2, h3, h4⟩ := C44_statement_false_many_observables
  have := h n dec true shots none h1 (by simpa using h2)
  rw [h4, h3] at this
  simp [recorded] at this

/-- A run with two shots and one mistake. -/
example : countMistakes 2 (fun h => [h.length == 1, false]) true [⟨[3], [true, false]⟩, ⟨[], [true, false]⟩] none = some (1, 2) := by
  decide

end Verif.Props.Cli
