import Verif.Blossom.Geo

/-!
# Invariant of the flooder, II: collisions and wake-up times
-/

namespace Verif.SB

open Verif Verif.Graph Verif.CE Verif.Vary Verif.Track Verif.Spec Verif.Mem
open Verif.Sch (Res better)

/-- When the radii around `u` and around the other end of `nb` start to overlap (`none`: never, or they do not collide). -/
def coll (s : FS) (u : Nat) (nb : Nbr) : Option Int :=
  match nb.target with
  | none => if (localRadius s u).slope = 1 then some (nb.weight - (localRadius s u).yIntercept) else none
  | some v =>
    if (s.node u).top = (s.node v).top ∨ (localRadius s u).slope = -1 ∨ (localRadius s v).slope = -1 ∨
        (localRadius s u).slope + (localRadius s v).slope = 0 then none
    else some ((nb.weight - (localRadius s u).yIntercept - (localRadius s v).yIntercept) /
      ((localRadius s u).slope + (localRadius s v).slope))

/-- Scanning neighbours for the earliest time. -/
def pick (f : Nbr → Option Int) : Nat → List Nbr → Option (Nat × Int) → Option (Nat × Int)
  | _, [], best => best
  | i, n :: ns, best => pick f (i + 1) ns (match f n with | none => best | some t => better best i t)

theorem isGrowing_iff {v : Varying} (h : v.Valid) : v.isGrowing = true ↔ v.slope = 1 := by
  rcases valid_cases v h with ⟨a, b, c⟩ | ⟨a, b, c⟩ | ⟨a, b, c⟩ <;> simp [Varying.isGrowing, a, c]

theorem isShrinking_iff {v : Varying} (h : v.Valid) : v.isShrinking = true ↔ v.slope = -1 := by
  rcases valid_cases v h with ⟨a, b, c⟩ | ⟨a, b, c⟩ | ⟨a, b, c⟩ <;> simp [Varying.isShrinking, b, c]

theorem slope_three {v : Varying} (h : v.Valid) : v.slope = 1 ∨ v.slope = -1 ∨ v.slope = 0 := by
  rcases valid_cases v h with ⟨a, b, c⟩ | ⟨a, b, c⟩ | ⟨a, b, c⟩ <;> simp [c]

theorem scanIdle_eq {s : FS} (hv : ∀ n, (localRadius s n).Valid) {u : Nat} (hu : (localRadius s u).slope = 0)
    (htop : ∀ v, (s.node u).top = (s.node v).top → (localRadius s v).slope = 0)
    (l : List Nbr) : ∀ (i : Nat) (best : Option (Nat × Int)), (∀ (k : Nat) (n : Nbr), l[k]? = some n → n.target = none → i + k = 0) →
      scanIdle s (localRadius s u) i l best = .ok (pick (coll s u) i l best) := by
  induction l with
  | nil => intro i best _; rfl
  | cons n ns ih =>
    intro i best hb
    have hb' : ∀ (k : Nat) (m : Nbr), ns[k]? = some m → m.target = none → i + 1 + k = 0 := fun k m hk hm => by
      have := hb (k + 1) m (by simpa using hk) hm
      omega
    have hc := hb 0 n (by simp)
    simp only [scanIdle, pick, coll]
    cases ht : n.target with
    | none =>
      have : i = 0 := by have := hc ht; omega
      simp only [this, if_true, hu]
      rw [ih _ _ (by rw [this] at hb'; exact hb')]
      simp
    | some v =>
      simp only [hu, zero_add]
      rcases slope_three (hv v) with h1 | h1 | h1
      · have : (localRadius s v).isGrowing = true := (isGrowing_iff (hv v)).2 h1
        simp only [this, if_true]
        rw [ih _ _ hb']
        have hne : (s.node u).top ≠ (s.node v).top := fun e => by have := htop v e; omega
        simp [h1, hne]
      · have : (localRadius s v).isGrowing = false := by rw [Bool.eq_false_iff, ne_eq, isGrowing_iff (hv v)]; omega
        simp [this, h1]
        exact ih _ _ hb'
      · have : (localRadius s v).isGrowing = false := by rw [Bool.eq_false_iff, ne_eq, isGrowing_iff (hv v)]; omega
        simp [this, h1]
        exact ih _ _ hb'

theorem scanGrowing_eq {s : FS} (hv : ∀ n, (localRadius s n).Valid) {u : Nat} (hu : (localRadius s u).slope = 1)
    (l : List Nbr) : ∀ (i : Nat) (best : Option (Nat × Int)), (∀ (k : Nat) (n : Nbr), l[k]? = some n → n.target = none → i + k = 0) →
      scanGrowing s u (localRadius s u) i l best = .ok (pick (coll s u) i l best) := by
  induction l with
  | nil => intro i best _; rfl
  | cons n ns ih =>
    intro i best hb
    have hb' : ∀ (k : Nat) (m : Nbr), ns[k]? = some m → m.target = none → i + 1 + k = 0 := fun k m hk hm => by
      have := hb (k + 1) m (by simpa using hk) hm
      omega
    have hc := hb 0 n (by simp)
    simp only [scanGrowing, pick, coll]
    cases ht : n.target with
    | none =>
      have : i = 0 := by have := hc ht; omega
      simp only [this, if_true, hu]
      rw [ih _ _ (by rw [this] at hb'; exact hb')]
    | some v =>
      simp only [hu]
      by_cases htop : (s.node u).top = (s.node v).top
      · simp only [htop, true_or, if_true]
        exact ih _ _ hb'
      · simp only [htop, false_or]
        rcases slope_three (hv v) with h1 | h1 | h1
        · have h2 : (localRadius s v).isGrowing = true := (isGrowing_iff (hv v)).2 h1
          have h3 : (localRadius s v).isShrinking = false := by rw [Bool.eq_false_iff, ne_eq, isShrinking_iff (hv v)]; omega
          simp only [h2, h3, if_true]
          simp [h1]
          exact ih _ _ hb'
        · have h3 : (localRadius s v).isShrinking = true := by rw [isShrinking_iff (hv v)]; omega
          simp only [h3, if_true]
          rw [ih _ _ hb']
          simp [h1]
        · have h2 : (localRadius s v).isGrowing = false := by rw [Bool.eq_false_iff, ne_eq, isGrowing_iff (hv v)]; omega
          have h3 : (localRadius s v).isShrinking = false := by rw [Bool.eq_false_iff, ne_eq, isShrinking_iff (hv v)]; omega
          simp only [h2, h3]
          simp [h1]
          exact ih _ _ hb'

/-- What scanning returns: an entry with the earliest time. -/
theorem pick_spec (f : Nbr → Option Int) (l : List Nbr) : ∀ (i : Nat) (best : Option (Nat × Int)),
    (pick f i l best = none → best = none ∧ ∀ (k : Nat) (n : Nbr), l[k]? = some n → f n = none) ∧
    (∀ j τ, pick f i l best = some (j, τ) →
      (best = some (j, τ) ∨ ∃ (k : Nat) (n : Nbr), l[k]? = some n ∧ j = i + k ∧ f n = some τ) ∧
      (∀ j' τ', best = some (j', τ') → τ ≤ τ') ∧
      (∀ (k : Nat) (n : Nbr) (τ' : Int), l[k]? = some n → f n = some τ' → τ ≤ τ')) := by
  induction l with
  | nil =>
    intro i best
    refine ⟨fun h => ⟨h, by simp⟩, fun j τ h => ?_⟩
    simp only [pick] at h
    subst h
    refine ⟨.inl rfl, ?_, by simp⟩
    intro j' τ' h
    cases h
    exact le_refl _
  | cons n ns ih =>
    intro i best
    simp only [pick]
    obtain ⟨i1, i2⟩ := ih (i + 1) (match f n with | none => best | some t => better best i t)
    constructor
    · intro h
      obtain ⟨a, b⟩ := i1 h
      cases hf : f n with
      | none =>
        rw [hf] at a
        refine ⟨a, fun k m hk => ?_⟩
        cases k with
        | zero => simp at hk; subst hk; exact hf
        | succ k => exact b k m (by simpa using hk)
      | some τ =>
        rw [hf] at a
        simp only [better] at a
        split at a
        · cases a
        · split at a <;> cases a
    · intro j τ h
      obtain ⟨a, b, c⟩ := i2 j τ h
      cases hf : f n with
      | none =>
        rw [hf] at a b
        refine ⟨?_, b, ?_⟩
        · rcases a with a | ⟨k, m, h1, h2, h3⟩
          · exact .inl a
          · exact .inr ⟨k + 1, m, by simpa using h1, by omega, h3⟩
        · intro k m τ' hk hm
          cases k with
          | zero => simp at hk; subst hk; rw [hf] at hm; cases hm
          | succ k => exact c k m τ' (by simpa using hk) hm
      | some σ =>
        rw [hf] at a b
        have hbet : (best = none ∧ better best i σ = some (i, σ)) ∨ ∃ j' τ', best = some (j', τ') ∧
            ((σ < τ' ∧ better best i σ = some (i, σ)) ∨ (τ' ≤ σ ∧ better best i σ = some (j', τ'))) := by
          cases best with
          | none => exact .inl ⟨rfl, rfl⟩
          | some x =>
            obtain ⟨j', τ'⟩ := x
            refine .inr ⟨j', τ', rfl, ?_⟩
            by_cases hlt : σ < τ'
            · exact .inl ⟨hlt, by simp [better, hlt]⟩
            · exact .inr ⟨by omega, by simp [better, hlt]⟩
        have hle : τ ≤ σ ∧ ∀ j' τ', best = some (j', τ') → τ ≤ τ' := by
          rcases hbet with ⟨e1, e2⟩ | ⟨j', τ', e1, ⟨e2, e3⟩ | ⟨e2, e3⟩⟩
          · refine ⟨b _ _ e2, fun j' τ' h => by rw [e1] at h; cases h⟩
          · have := b _ _ e3
            exact ⟨this, fun j'' τ'' h => by rw [e1] at h; cases h; omega⟩
          · have := b _ _ e3
            exact ⟨by omega, fun j'' τ'' h => by rw [e1] at h; cases h; omega⟩
        refine ⟨?_, hle.2, ?_⟩
        · rcases a with a | ⟨k, m, h1, h2, h3⟩
          · have hcase : better best i σ = some (i, σ) ∨ better best i σ = best := by
              rcases hbet with ⟨e1, e2⟩ | ⟨j', τ', e1, ⟨e2, e3⟩ | ⟨e2, e3⟩⟩
              · exact .inl e2
              · exact .inl e3
              · exact .inr (e3.trans e1.symm)
            rcases hcase with e | e
            · simp only [e] at a
              cases a
              exact .inr ⟨0, n, by simp, rfl, hf⟩
            · simp only [e] at a
              exact .inl a
          · exact .inr ⟨k + 1, m, by simpa using h1, by omega, h3⟩
        · intro k m τ' hk hm
          cases k with
          | zero => simp at hk; subst hk; rw [hf] at hm; cases hm; exact hle.1
          | succ k => exact c k m τ' (by simpa using hk) hm

namespace BGeo

variable {g : MGraph} {T L : Finset Nat} {ch : Nat → List Nat} {t : Int} {s : FS}

/-- `findNext` finds the earliest collision. -/
theorem findNext_spec (h : BGeo g T L ch t s) (hg : Proper g) {u : Nat} (hu : (localRadius s u).slope ≠ -1) :
    (findNext g s u = .ok none ∧ ∀ i n, entry g (u, i) = some n → coll s u n = none) ∨
    (∃ i n τ, findNext g s u = .ok (some (i, τ)) ∧ entry g (u, i) = some n ∧ coll s u n = some τ ∧
      ∀ i n τ', entry g (u, i) = some n → coll s u n = some τ' → τ ≤ τ') := by
  have hb : ∀ (k : Nat) (n : Nbr), (adj g u)[k]? = some n → n.target = none → 0 + k = 0 := fun k n hk hn => by
    have := hg.bfirst u k n (by rw [entry_eq]; exact hk) hn
    omega
  have hfn : findNext g s u = .ok (pick (coll s u) 0 (adj g u) none) := by
    unfold findNext
    rcases slope_three (h.local_valid u) with h1 | h1 | h1
    · have := (isGrowing_iff (h.local_valid u)).2 h1
      simp only [this, if_true]
      exact scanGrowing_eq h.local_valid h1 _ _ _ hb
    · exact absurd h1 hu
    · have : (localRadius s u).isGrowing = false := by rw [Bool.eq_false_iff, ne_eq, isGrowing_iff (h.local_valid u)]; omega
      simp only [this]
      refine scanIdle_eq h.local_valid h1 ?_ _ _ _ hb
      intro v hv
      cases htu : (s.node u).top with
      | none => exact local_slope_none (hv ▸ htu)
      | some r =>
        rw [local_slope (hv ▸ htu)]
        rw [local_slope htu] at h1
        exact h1
  obtain ⟨p1, p2⟩ := pick_spec (coll s u) (adj g u) 0 none
  simp only [entry_eq]
  cases hp : pick (coll s u) 0 (adj g u) none with
  | none =>
    left
    rw [hfn, hp]
    exact ⟨rfl, (p1 hp).2⟩
  | some x =>
    obtain ⟨i, τ⟩ := x
    right
    obtain ⟨a, -, c⟩ := p2 i τ hp
    rcases a with a | ⟨k, n, a1, a2, a3⟩
    · cases a
    · rw [zero_add] at a2
      subst a2
      exact ⟨i, n, τ, by rw [hfn, hp], a1, a3, c⟩

/-- The intercept of the local radius. -/
theorem local_intercept (h : BGeo g T L ch t s) (n : Nat) :
    (localRadius s n).yIntercept = rad s L ch t n - (localRadius s n).slope * t := by
  rw [h.rad_local n, distanceAt_eq]; omega

end BGeo

namespace Geo

variable {g : MGraph} {T L : Finset Nat} {ch : Nat → List Nat} {t : Int} {s : FS}

/-- A collision happens now or later, and within the weight of the edge. -/
theorem coll_window (h : Geo g T L ch t s) (hg : Proper g) {u i : Nat} {n : Nbr} {τ : Int} (he : entry g (u, i) = some n)
    (hc : coll s u n = some τ) : t ≤ τ ∧ τ < t + 2 ^ 31 := by
  have hw := hg.small u i n he
  have hf := h.flow u i n he
  have hru := h.rad_nonneg u
  unfold coll at hc
  cases ht : n.target with
  | none =>
    rw [ht] at hf
    simp only [ht] at hc
    split at hc
    · rename_i h1
      cases hc
      rw [h.local_intercept, h1]
      have : D s L ch t (some u) none = rad s L ch t u := rfl
      omega
    · cases hc
  | some v =>
    rw [ht] at hf
    simp only [ht] at hc
    have hrv := h.rad_nonneg v
    split at hc
    · cases hc
    · rename_i hno
      push Not at hno
      obtain ⟨h1, h2, h3, h4⟩ := hno
      cases hc
      rw [h.D_apart (.inr h1)] at hf
      rw [h.local_intercept u, h.local_intercept v]
      rcases slope_three (h.local_valid u) with a | a | a <;> rcases slope_three (h.local_valid v) with b | b | b <;>
        rw [a, b] <;> simp only [a, b] at h2 h3 h4 <;> omega

end Geo

/-- Wake-up times: every collision between nodes outside `X` is covered by a wish of one of its ends, and every shrinking region
outside `Y` wants to be woken exactly when its last node leaves. -/
structure Sched (g : MGraph) (L : Finset Nat) (X Y : Nat → Prop) (s : FS) : Prop where
  winv : WInv s.w
  colls : ∀ u i n τ, entry g (u, i) = some n → coll s u n = some τ → ¬ X u → (∀ v, n.target = some v → ¬ X v) →
    ∃ t', t' ≤ τ ∧ (want s (.inl u) = some t' ∨ ∃ v, n.target = some v ∧ want s (.inl v) = some t')
  nodeWant : ∀ u τ, ¬ X u → want s (.inl u) = some τ → (localRadius s u).slope ≠ -1
  regWant : ∀ r, (r ∈ L ∧ par s r = none ∧ sl s r = -1 ∧ ¬ Y r → want s (.inr r) = some (shrinkTime s r)) ∧
    (¬ (r ∈ L ∧ par s r = none ∧ sl s r = -1 ∧ ¬ Y r) → want s (.inr r) = none)

/-! ## Trackers -/

theorem wish_spec (s : FS) (hw : WInv s.w) (o : Owner) (τ : Int) (h1 : s.now ≤ τ) (h2 : τ < s.now + 2 ^ 31) :
    ∃ w', s.wish o τ = { s with w := w' } ∧ WInv w' ∧ w'.q.cur = s.w.q.cur ∧
      (absW w').want = Function.update (absW s.w).want o (some τ) := by
  obtain ⟨w', e, a, b, c⟩ := step_set s.w hw o τ h1 h2
  refine ⟨w', ?_, a, b, by rw [c]⟩
  unfold FS.wish wishO
  rw [e]

theorem noWish_spec (s : FS) (hw : WInv s.w) (o : Owner) :
    ∃ w', s.noWish o = { s with w := w' } ∧ WInv w' ∧ w'.q.cur = s.w.q.cur ∧
      (absW w').want = Function.update (absW s.w).want o none := by
  obtain ⟨w', e, a, b, c⟩ := step_unset s.w hw o
  refine ⟨w', ?_, a, b, by rw [c]⟩
  unfold FS.noWish noWishO
  rw [e]

/-- A fresh tracker wants nothing. -/
theorem clearTracker_spec (s : FS) (hw : WInv s.w) (o : Owner) :
    ∃ w', s.clearTracker o = { s with w := w' } ∧ WInv w' ∧ w'.q.cur = s.w.q.cur ∧
      (absW w').want = Function.update (absW s.w).want o none := by
  refine ⟨_, rfl, ⟨hw.queue, ?_, ?_⟩, rfl, ?_⟩
  · intro o' h'
    simp only at h' ⊢
    by_cases ho : o' = o
    · subst ho; simp at h'
    · rw [Function.update_of_ne ho] at h' ⊢; exact hw.queued o' h'
  · intro o' h'
    simp only at h' ⊢
    by_cases ho : o' = o
    · subst ho; simp at h'
    · rw [Function.update_of_ne ho] at h' ⊢; exact hw.desired o' h'
  · funext o'
    unfold absW
    simp only
    by_cases ho : o' = o
    · subst ho; simp
    · rw [Function.update_of_ne ho, Function.update_of_ne ho]

/-- Wishes are not in the past. -/
theorem want_ge (s : FS) {o : Owner} {τ : Int} (h : want s o = some τ) : s.now ≤ τ := by
  unfold want absW at h
  simp only at h
  split at h
  · cases h; exact ft_ge _ _
  · cases h

namespace Sched

variable {g : MGraph} {L : Finset Nat} {X Y : Nat → Prop} {s : FS}

theorem mono (h : Sched g L X Y s) {X' : Nat → Prop} (hX : ∀ u, X u → X' u) : Sched g L X' Y s :=
  ⟨h.winv, fun u i n τ a b c d => h.colls u i n τ a b (fun x => c (hX u x)) (fun v hv x => d v hv (hX v x)),
    fun u τ a b => h.nodeWant u τ (fun x => a (hX u x)) b, h.regWant⟩

theorem congrX (h : Sched g L X Y s) {X' : Nat → Prop} (hX : ∀ u, X u ↔ X' u) : Sched g L X' Y s := h.mono fun u => (hX u).1

theorem congrY (h : Sched g L X Y s) {Y' : Nat → Prop} (hY : ∀ r, r ∈ L → par s r = none → sl s r = -1 → (Y r ↔ Y' r)) :
    Sched g L X Y' s := by
  refine ⟨h.winv, h.colls, h.nodeWant, fun r => ?_⟩
  have := h.regWant r
  by_cases hc : r ∈ L ∧ par s r = none ∧ sl s r = -1
  · have e := hY r hc.1 hc.2.1 hc.2.2
    refine ⟨fun a => this.1 ⟨a.1, a.2.1, a.2.2.1, fun x => a.2.2.2 (e.1 x)⟩, fun a => this.2 fun b => a ⟨b.1, b.2.1, b.2.2.1, ?_⟩⟩
    exact fun x => b.2.2.2 (e.2 x)
  · exact ⟨fun a => absurd ⟨a.1, a.2.1, a.2.2.1⟩ hc, fun _ => this.2 fun b => hc ⟨b.1, b.2.1, b.2.2.1⟩⟩

end Sched

theorem coll_symm {g : MGraph} (hg : Proper g) {s : FS} {u i v : Nat} {n : Nbr} (he : entry g (u, i) = some n)
    (hv : n.target = some v) : ∃ j n', entry g (v, j) = some n' ∧ n'.target = some u ∧ coll s v n' = coll s u n := by
  obtain ⟨-, j, n', e1, e2, e3, -⟩ := hg.sym u i n v he hv
  refine ⟨j, n', e1, e2, ?_⟩
  unfold coll
  simp only [hv, e2, e3]
  have hc : ((s.node v).top = (s.node u).top ∨ (localRadius s v).slope = -1 ∨ (localRadius s u).slope = -1 ∨
      (localRadius s v).slope + (localRadius s u).slope = 0) ↔ ((s.node u).top = (s.node v).top ∨ (localRadius s u).slope = -1 ∨
      (localRadius s v).slope = -1 ∨ (localRadius s u).slope + (localRadius s v).slope = 0) := by
    constructor
    · rintro (a | a | a | a)
      · exact .inl a.symm
      · exact .inr (.inr (.inl a))
      · exact .inr (.inl a)
      · exact .inr (.inr (.inr (by omega)))
    · rintro (a | a | a | a)
      · exact .inl a.symm
      · exact .inr (.inr (.inl a))
      · exact .inr (.inl a)
      · exact .inr (.inr (.inr (by omega)))
  simp only [hc]
  congr 2
  congr 1
  · omega
  · omega

/-- Setting a wish that covers all collisions of `u`. -/
theorem Sched.setWish {g : MGraph} {L : Finset Nat} {X Y : Nat → Prop} {s : FS} (hg : Proper g) (h : Sched g L X Y s) {u : Nat}
    {w' : World Owner} {o : Option Int} (hw : WInv w') (hwant : (absW w').want = Function.update (absW s.w).want (.inl u) o)
    (hsl : (localRadius s u).slope ≠ -1)
    (hcov : ∀ i n τ, entry g (u, i) = some n → coll s u n = some τ → ∃ t', o = some t' ∧ t' ≤ τ) :
    Sched g L (fun v => X v ∧ v ≠ u) Y { s with w := w' } := by
  have hwu : want { s with w := w' } (.inl u) = o := by unfold want; rw [hwant]; simp
  have hwo : ∀ x, x ≠ .inl u → want { s with w := w' } x = want s x := fun x hx => by
    unfold want; rw [hwant, Function.update_of_ne hx]
  refine ⟨hw, ?_, ?_, ?_⟩
  · intro a i n τ he hc hXa hXv
    have hc' : coll s a n = some τ := hc
    by_cases hau : a = u
    · subst hau
      obtain ⟨t', e1, e2⟩ := hcov i n τ he hc'
      exact ⟨t', e2, .inl (hwu.trans e1)⟩
    · by_cases hvu : n.target = some u
      · obtain ⟨j, n', f1, -, f3⟩ := coll_symm (s := s) hg he hvu
        obtain ⟨t', e1, e2⟩ := hcov j n' τ f1 (f3.trans hc')
        exact ⟨t', e2, .inr ⟨u, hvu, hwu.trans e1⟩⟩
      · have hv' : ∀ v, n.target = some v → v ≠ u := fun v hv e => hvu (e ▸ hv)
        obtain ⟨t', e1, e2⟩ := h.colls a i n τ he hc' (fun x => hXa ⟨x, hau⟩) (fun v hv x => hXv v hv ⟨x, hv' v hv⟩)
        refine ⟨t', e1, ?_⟩
        rcases e2 with e2 | ⟨v, e2, e3⟩
        · left; rw [hwo _ (by simpa using hau)]; exact e2
        · right; refine ⟨v, e2, ?_⟩; rw [hwo _ (by simpa using hv' v e2)]; exact e3
  · intro a τ hX ha
    by_cases hau : a = u
    · subst hau; exact hsl
    · rw [hwo _ (by simpa using hau)] at ha
      exact h.nodeWant a τ (fun x => hX ⟨x, hau⟩) ha
  · intro r
    rw [hwo _ (by simp)]
    exact h.regWant r

namespace Geo

variable {g : MGraph} {T L : Finset Nat} {ch : Nat → List Nat} {t : Int} {s : FS}

/-- `reschedule_events_at_detector_node` covers the collisions of its node. -/
theorem reschedule_spec (h : Geo g T L ch t s) (hg : Proper g) (ht : s.now = t) {X Y : Nat → Prop} (hs : Sched g L X Y s) {u : Nat}
    (hu : (localRadius s u).slope ≠ -1) :
    ∃ w', reschedule g s u = .ok { s with w := w' } ∧ w'.q.cur = s.w.q.cur ∧
      Sched g L (fun v => X v ∧ v ≠ u) Y { s with w := w' } := by
  unfold reschedule
  rcases h.findNext_spec hg hu with ⟨e1, e2⟩ | ⟨i, n, τ, e1, e2, e3, e4⟩
  · rw [e1]
    obtain ⟨w', a, b, c, d⟩ := noWish_spec s hs.winv (.inl u)
    refine ⟨w', by simp only [Res.bind, a], c, hs.setWish hg b d hu ?_⟩
    intro i n τ he hc
    rw [e2 i n he] at hc; cases hc
  · rw [e1]
    have hwin := h.coll_window hg e2 e3
    obtain ⟨w', a, b, c, d⟩ := wish_spec s hs.winv (.inl u) τ (by omega) (by omega)
    refine ⟨w', by simp only [Res.bind, a], c, hs.setWish hg b d hu ?_⟩
    intro i n τ' he hc
    exact ⟨τ, rfl, e4 i n τ' he hc⟩

theorem rescheduleAll_spec (hg : Proper g) {Y : Nat → Prop} (ns : List Nat) :
    ∀ {s : FS} {X : Nat → Prop}, Geo g T L ch t s → s.now = t → Sched g L X Y s → (∀ u ∈ ns, (localRadius s u).slope ≠ -1) →
    ∃ w', rescheduleAll g s ns = .ok { s with w := w' } ∧ w'.q.cur = s.w.q.cur ∧
      Sched g L (fun v => X v ∧ v ∉ ns) Y { s with w := w' } := by
  induction ns with
  | nil => intro s X h ht hs hn; exact ⟨s.w, rfl, rfl, hs.congrX (by simp)⟩
  | cons u us ih =>
    intro s X h ht hs hn
    obtain ⟨w1, a1, b1, c1⟩ := h.reschedule_spec hg ht hs (hn u (by simp))
    obtain ⟨w2, a2, b2, c2⟩ := ih (h.withW w1) (by unfold FS.now at ht ⊢; simp only [b1]; exact ht) c1 (fun v hv => hn v (by simp [hv]))
    refine ⟨w2, ?_, b2.trans b1, c2.congrX ?_⟩
    · unfold rescheduleAll at a2 ⊢
      rw [List.foldlM_cons, a1]
      exact a2
    · intro v; simp only [List.mem_cons, not_or]; tauto

end Geo

end Verif.SB
