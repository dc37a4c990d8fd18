import Verif.Spec.Route
import Verif.TrackerWork
import Verif.Props.EdgeMarks
import Mathlib.Algebra.Ring.Int.Parity
import Mathlib.Order.WellFounded
import Mathlib.Tactic.Ring
import Mathlib.Data.Finset.Card
import Mathlib.Data.Finset.Range

/-!
# Invariants of the search flooder

Helper lemmas for `Verif.Props.Search`.
-/

namespace Verif.Sch

open Verif Verif.Graph Verif.Track Verif.Spec Verif.Props.EdgeMarks

/-- The graphs for which the search is meant: simple, with even weights that fit the 32-bit time window. -/
structure Good (g : SGraph) : Prop where
  simple : Simple g
  even : ∀ u i n, nbr g u i = some n → Even n.weight
  small : ∀ u i n, nbr g u i = some n → n.weight < 2 ^ 31

/-- When the event along neighbour `n` of `u` happens. -/
def ev (toB : Bool) (reached : Nat → Option Nat) (dist : Nat → Int) (u : Nat) (n : SNbr) : Option Int :=
  match n.target with
  | none => if toB then some (dist u + n.weight) else none
  | some v =>
    if reached v = reached u then none
    else if reached v = none then some (dist u + n.weight)
    else some ((n.weight + dist u + dist v) / 2)

/-- The first of the earliest events. -/
def pick (f : SNbr → Option Int) : Nat → List SNbr → Option (Nat × Int) → Option (Nat × Int)
  | _, [], best => best
  | i, n :: ns, best =>
    match f n with
    | none => pick f (i + 1) ns best
    | some t => pick f (i + 1) ns (better best i t)

/-- The state of the search, apart from the queue. -/
structure Core (g : SGraph) (S : Nat → Prop) (toB : Bool) (reached : Nat → Option Nat) (dist : Nat → Int) (cur : Int)
    (want : Nat → Option Int) : Prop where
  clock : 0 ≤ cur
  src : ∀ a, S a → reached a = some a ∧ dist a = 0
  reach : ∀ u a, reached u = some a → S a ∧ u < g.nodes.length ∧ 0 ≤ dist u ∧ dist u ≤ cur ∧ Even (dist u)
  wants : ∀ u t, want u = some t → reached u ≠ none ∧ cur ≤ t
  opn : ∀ u i n v, reached u ≠ none → nbr g u i = some n → n.target = some v → reached v = none →
    ∃ t, want u = some t ∧ t ≤ dist u + n.weight
  meet : ∀ u i n v, reached u ≠ none → nbr g u i = some n → n.target = some v → reached v ≠ none → reached v ≠ reached u →
    ∃ t, (want u = some t ∨ want v = some t) ∧ 2 * t ≤ dist u + dist v + n.weight
  lip : ∀ u i n v, reached u ≠ none → nbr g u i = some n → n.target = some v → reached v ≠ none → dist v ≤ dist u + n.weight
  bnd : toB = true → ∀ u i n, reached u ≠ none → nbr g u i = some n → n.target = none →
    ∃ t, want u = some t ∧ t ≤ dist u + n.weight

/-! ## The scan -/

theorem scan_eq {g : SGraph} (hg : Good g) (s : SS) (u : Nat) (hu : Even (s.dist u))
    (hev : ∀ v, s.reached v ≠ none → Even (s.dist v)) (l : List SNbr) :
    ∀ (k : Nat) (full : List SNbr) (best : Option (Nat × Int)), g.nodes[u]? = some full → l = full.drop k →
      scan s u k l best = .ok (pick (ev s.toBoundary s.reached s.dist u) k l best) := by
  induction l with
  | nil => intro k full best _ _; rfl
  | cons n ns ih =>
    intro k full best hfull hdrop
    have hk : full[k]? = some n := by
      have : (full.drop k)[0]? = some n := by rw [← hdrop]; rfl
      rwa [List.getElem?_drop, Nat.add_zero] at this
    have hdrop' : ns = full.drop (k + 1) := by
      rw [← List.tail_drop, ← hdrop]; rfl
    have hslot : nbr g u k = some n := mem_slot.2 ⟨full, hfull, hk⟩
    have hih := fun b => ih (k + 1) full b hfull hdrop'
    have hsimp : s.w.q.cur + (n.weight : Int) - (s.w.q.cur - s.dist u) = s.dist u + n.weight := by omega
    cases ht : n.target with
    | none =>
      have hk0 : k = 0 := hg.simple.bfirst u k n hslot ht
      simp only [scan, pick, ev, ht, hk0, if_true]
      rw [hk0] at hih
      cases hb : s.toBoundary with
      | true => simp only [if_true]; rw [hsimp]; have := hih (better best 0 (s.dist u + n.weight)); rw [hb] at this; exact this
      | false => simp only [Bool.false_eq_true, if_false]; have := hih best; rw [hb] at this; exact this
    | some v =>
      simp only [scan, pick, ev, ht]
      by_cases h1 : s.reached v = s.reached u
      · simp only [if_pos h1]; exact hih best
      · by_cases h2 : s.reached v = none
        · simp only [if_neg h1, if_pos h2]; rw [hsimp]; exact hih _
        · simp only [if_neg h1, if_neg h2]
          have hw : Even (n.weight : Int) := by
            have := hg.even u k n hslot
            exact_mod_cast this
          obtain ⟨a, ha⟩ := hw
          obtain ⟨b, hb⟩ := hu
          obtain ⟨c, hc⟩ := hev v h2
          have : s.w.q.cur + Int.tdiv (n.weight - (s.w.q.cur - s.dist u) - (s.w.q.cur - s.dist v)) 2 =
              (n.weight + s.dist u + s.dist v) / 2 := by
            have e1 : (n.weight : Int) - (s.w.q.cur - s.dist u) - (s.w.q.cur - s.dist v) = 2 * (a + b + c - s.w.q.cur) := by
              rw [ha, hb, hc]; ring
            have e2 : (n.weight : Int) + s.dist u + s.dist v = 2 * (a + b + c) := by rw [ha, hb, hc]; ring
            rw [e1, e2, Int.mul_tdiv_cancel_left _ (by omega), Int.mul_ediv_cancel_left _ (by omega)]
            ring
          rw [this]
          exact hih _

theorem findNext_eq {g : SGraph} (hg : Good g) (s : SS) (u : Nat) (hu : Even (s.dist u)) (hul : u < g.nodes.length)
    (hev : ∀ v, s.reached v ≠ none → Even (s.dist v)) :
    findNext g s u = .ok (pick (ev s.toBoundary s.reached s.dist u) 0 g.nodes[u] none) := by
  unfold findNext
  rw [List.getElem?_eq_getElem hul]
  exact scan_eq hg s u hu hev _ 0 _ none (List.getElem?_eq_getElem hul) (by simp)

theorem better_spec (best : Option (Nat × Int)) (i : Nat) (t : Int) :
    ∃ j t', better best i t = some (j, t') ∧ t' ≤ t ∧ (∀ j' t'', best = some (j', t'') → t' ≤ t'') ∧
      ((j, t') = (i, t) ∨ best = some (j, t')) := by
  unfold better
  cases best with
  | none => exact ⟨i, t, rfl, le_refl _, by simp, .inl rfl⟩
  | some b =>
    obtain ⟨j, t'⟩ := b
    by_cases h : t < t'
    · exact ⟨i, t, by simp [h], le_refl _, by rintro j' t'' ⟨⟩; omega, .inl rfl⟩
    · exact ⟨j, t', by simp [h], by omega, by rintro j' t'' ⟨⟩; omega, .inr rfl⟩

theorem pick_spec (f : SNbr → Option Int) (l : List SNbr) : ∀ (k : Nat) (best : Option (Nat × Int)),
    (∀ (j : Nat) (n : SNbr) (T : Int), l[j]? = some n → f n = some T → ∃ i t, pick f k l best = some (i, t) ∧ t ≤ T) ∧
    (∀ j T, best = some (j, T) → ∃ i t, pick f k l best = some (i, t) ∧ t ≤ T) ∧
    (∀ i t, pick f k l best = some (i, t) → best = some (i, t) ∨ ∃ (j : Nat) (n : SNbr), i = k + j ∧ l[j]? = some n ∧ f n = some t) := by
  induction l with
  | nil =>
    intro k best
    refine ⟨by simp, ?_, ?_⟩
    · intro j T h; exact ⟨j, T, h, le_refl _⟩
    · intro i t h; exact .inl h
  | cons n ns ih =>
    intro k best
    cases hf : f n with
    | none =>
      obtain ⟨h1, h2, h3⟩ := ih (k + 1) best
      simp only [pick, hf]
      refine ⟨?_, h2, ?_⟩
      · intro j m T hj hT
        cases j with
        | zero => simp at hj; subst hj; rw [hf] at hT; cases hT
        | succ j => exact h1 j m T (by simpa using hj) hT
      · intro i t hp
        rcases h3 i t hp with h | ⟨j, m, hj, hm, hfm⟩
        · exact .inl h
        · exact .inr ⟨j + 1, m, by omega, by simpa using hm, hfm⟩
    | some T0 =>
      obtain ⟨h1, h2, h3⟩ := ih (k + 1) (better best k T0)
      obtain ⟨j0, t0, hb, hb1, hb2, hb3⟩ := better_spec best k T0
      obtain ⟨i1, t1, hp1, ht1⟩ := h2 j0 t0 hb
      simp only [pick, hf]
      refine ⟨?_, ?_, ?_⟩
      · intro j m T hj hT
        cases j with
        | zero =>
          simp at hj; subst hj; rw [hf] at hT; cases hT
          exact ⟨i1, t1, hp1, by omega⟩
        | succ j => exact h1 j m T (by simpa using hj) hT
      · intro j T hbest
        have := hb2 j T hbest
        exact ⟨i1, t1, hp1, by omega⟩
      · intro i t hp
        rcases h3 i t hp with h | ⟨j, m, hj, hm, hfm⟩
        · rw [hb] at h
          cases h
          rcases hb3 with h | h
          · cases h
            exact .inr ⟨0, n, by omega, by simp, hf⟩
          · exact .inl h
        · exact .inr ⟨j + 1, m, by omega, by simpa using hm, hfm⟩

/-- The earliest event of a node. -/
def next (g : SGraph) (toB : Bool) (reached : Nat → Option Nat) (dist : Nat → Int) (u : Nat) : Option (Nat × Int) :=
  match g.nodes[u]? with
  | none => none
  | some l => pick (ev toB reached dist u) 0 l none

theorem next_covers (g : SGraph) (toB : Bool) (reached : Nat → Option Nat) (dist : Nat → Int) (u i : Nat) (n : SNbr) (T : Int)
    (hs : nbr g u i = some n) (hT : ev toB reached dist u n = some T) :
    ∃ i' t, next g toB reached dist u = some (i', t) ∧ t ≤ T := by
  obtain ⟨l, hl, hi⟩ := mem_slot.1 hs
  unfold next
  rw [hl]
  exact (pick_spec _ l 0 none).1 i n T hi hT

theorem next_is (g : SGraph) (toB : Bool) (reached : Nat → Option Nat) (dist : Nat → Int) (u i : Nat) (t : Int)
    (h : next g toB reached dist u = some (i, t)) : ∃ n, nbr g u i = some n ∧ ev toB reached dist u n = some t := by
  unfold next at h
  cases hl : g.nodes[u]? with
  | none => rw [hl] at h; cases h
  | some l =>
    rw [hl] at h
    rcases (pick_spec _ l 0 none).2.2 i t h with h | ⟨j, n, hj, hn, hf⟩
    · cases h
    · exact ⟨n, mem_slot.2 ⟨l, hl, by rw [hj, Nat.zero_add]; exact hn⟩, hf⟩

/-! ## Steps of the core -/

section core
variable {g : SGraph} {S : Nat → Prop} {toB : Bool} {reached : Nat → Option Nat} {dist : Nat → Int} {cur : Int}
  {want : Nat → Option Int}

theorem Core.advance (h : Core g S toB reached dist cur want) (cur' : Int) (h1 : cur ≤ cur')
    (h2 : ∀ u t, want u = some t → cur' ≤ t) : Core g S toB reached dist cur' want where
  clock := by have := h.clock; omega
  src := h.src
  reach u a hu := by obtain ⟨p1, p2, p3, p4, p5⟩ := h.reach u a hu; exact ⟨p1, p2, p3, by omega, p5⟩
  wants u t hu := ⟨(h.wants u t hu).1, h2 u t hu⟩
  opn := h.opn
  meet := h.meet
  lip := h.lip
  bnd := h.bnd

/-- No event is overdue. -/
theorem Core.ev_ge (h : Core g S toB reached dist cur want) (u i : Nat) (n : SNbr) (hu : reached u ≠ none)
    (hs : nbr g u i = some n) (T : Int) (hT : ev toB reached dist u n = some T) : cur ≤ T := by
  unfold ev at hT
  cases ht : n.target with
  | none =>
    simp only [ht] at hT
    split at hT
    · rename_i hb
      cases hT
      obtain ⟨t, h1, h2⟩ := h.bnd hb u i n hu hs ht
      have := (h.wants u t h1).2
      omega
    · cases hT
  | some v =>
    simp only [ht] at hT
    split at hT
    · cases hT
    · rename_i hne
      split at hT
      · rename_i hv
        cases hT
        obtain ⟨t, h1, h2⟩ := h.opn u i n v hu hs ht hv
        have := (h.wants u t h1).2
        omega
      · rename_i hv
        cases hT
        obtain ⟨t, h1, h2⟩ := h.meet u i n v hu hs ht hv hne
        have : cur ≤ t := by
          rcases h1 with h1 | h1
          · exact (h.wants u t h1).2
          · exact (h.wants v t h1).2
        omega

/-- `x` is early enough for all events of `u`. -/
def Covers (g : SGraph) (toB : Bool) (reached : Nat → Option Nat) (dist : Nat → Int) (u : Nat) (x : Option Int) : Prop :=
  ∀ i n T, nbr g u i = some n → ev toB reached dist u n = some T → ∃ t, x = some t ∧ t ≤ T

theorem next_Covers (g : SGraph) (toB : Bool) (reached : Nat → Option Nat) (dist : Nat → Int) (u : Nat) :
    Covers g toB reached dist u ((next g toB reached dist u).map (·.2)) := by
  intro i n T hs hT
  obtain ⟨i', t, h1, h2⟩ := next_covers g toB reached dist u i n T hs hT
  exact ⟨t, by rw [h1]; rfl, h2⟩

theorem Core.cur_Covers (h : Core g S toB reached dist cur want) (u : Nat) (hu : reached u ≠ none) :
    Covers g toB reached dist u (some cur) := by
  intro i n T hs hT
  exact ⟨cur, rfl, h.ev_ge u i n hu hs T hT⟩

/-- A node may change its wish to anything early enough. -/
theorem Core.rewish (h : Core g S toB reached dist cur want) (u : Nat) (hu : reached u ≠ none) (x : Option Int)
    (hx : Covers g toB reached dist u x) (hge : ∀ t, x = some t → cur ≤ t) (hg : Good g) :
    Core g S toB reached dist cur (Function.update want u x) where
  clock := h.clock
  src := h.src
  reach := h.reach
  wants v t hv := by
    by_cases hvu : v = u
    · subst hvu; rw [Function.update_self] at hv; exact ⟨hu, hge t hv⟩
    · rw [Function.update_of_ne hvu] at hv; exact h.wants v t hv
  opn v i n v' hv hs ht hv' := by
    by_cases hvu : v = u
    · subst hvu
      rw [Function.update_self]
      refine hx i n _ hs ?_
      unfold ev
      simp only [ht]
      rw [if_neg (fun h' => hv (h'.symm.trans hv')), if_pos hv']
    · rw [Function.update_of_ne hvu]; exact h.opn v i n v' hv hs ht hv'
  meet v i n v' hv hs ht hv' hne := by
    by_cases hvu : v = u
    · subst hvu
      obtain ⟨t, h1, h2⟩ := hx i n ((n.weight + dist v + dist v') / 2) hs (by
        unfold ev
        simp only [ht]
        rw [if_neg hne, if_neg hv'])
      refine ⟨t, .inl (by rw [Function.update_self]; exact h1), by omega⟩
    · by_cases hvu' : v' = u
      · -- the event is the same seen from the other side
        subst hvu'
        obtain ⟨-, j, n', hs', ht', hw, -⟩ := hg.simple.sym v i n v' hs ht
        obtain ⟨t, h1, h2⟩ := hx j n' ((n'.weight + dist v' + dist v) / 2) hs' (by
          unfold ev
          simp only [ht']
          rw [if_neg (Ne.symm hne), if_neg hv])
        refine ⟨t, .inr (by rw [Function.update_self]; exact h1), by rw [hw] at h2; omega⟩
      · obtain ⟨t, h1, h2⟩ := h.meet v i n v' hv hs ht hv' hne
        refine ⟨t, ?_, h2⟩
        rw [Function.update_of_ne hvu, Function.update_of_ne hvu']
        exact h1
  lip := h.lip
  bnd hb v i n hv hs ht := by
    by_cases hvu : v = u
    · subst hvu
      rw [Function.update_self]
      refine hx i n _ hs ?_
      unfold ev
      simp only [ht]
      rw [if_pos hb]
    · rw [Function.update_of_ne hvu]; exact h.bnd hb v i n hv hs ht

/-- A node is reached at the current time. -/
theorem Core.reachNode (h : Core g S toB reached dist cur want) (hg : Good g) (z a : Nat) (S' : Nat → Prop)
    (hz : reached z = none) (hzl : z < g.nodes.length) (hcur : Even cur) (ha : S' a) (hS : ∀ b, S b → S' b)
    (hS' : ∀ b, S' b → S b ∨ (b = z ∧ a = z ∧ cur = 0))
    (x : Option Int) (hx : Covers g toB (Function.update reached z (some a)) (Function.update dist z cur) z x)
    (hge : ∀ t, x = some t → cur ≤ t) :
    Core g S' toB (Function.update reached z (some a)) (Function.update dist z cur) cur (Function.update want z x) := by
  have hwz : want z = none := by
    cases hw : want z with
    | none => rfl
    | some t => exact absurd hz (h.wants z t hw).1
  have hloop : ∀ v i n, nbr g v i = some n → n.target = some v → False := fun v i n hs ht => (hg.simple.sym v i n v hs ht).1 rfl
  refine ⟨h.clock, ?_, ?_, ?_, ?_, ?_, ?_, ?_⟩
  · intro b hb
    rcases hS' b hb with hb | ⟨rfl, rfl, h0⟩
    · have hbz : b ≠ z := by
        rintro rfl
        rw [(h.src b hb).1] at hz
        cases hz
      rw [Function.update_of_ne hbz, Function.update_of_ne hbz]
      exact h.src b hb
    · rw [Function.update_self, Function.update_self]
      exact ⟨rfl, h0⟩
  · intro v b hv
    by_cases hvz : v = z
    · subst hvz
      rw [Function.update_self] at hv ⊢
      cases hv
      exact ⟨ha, hzl, h.clock, le_refl _, hcur⟩
    · rw [Function.update_of_ne hvz] at hv ⊢
      obtain ⟨p1, p2⟩ := h.reach v b hv
      exact ⟨hS b p1, p2⟩
  · intro v t hv
    by_cases hvz : v = z
    · subst hvz
      rw [Function.update_self] at hv ⊢
      exact ⟨by simp, hge t hv⟩
    · rw [Function.update_of_ne hvz] at hv ⊢
      exact h.wants v t hv
  · intro v i n v' hv hs ht hv'
    have hv'z : v' ≠ z := by
      rintro rfl; rw [Function.update_self] at hv'; cases hv'
    by_cases hvz : v = z
    · subst hvz
      rw [Function.update_self, Function.update_self]
      obtain ⟨t, h1, h2⟩ := hx i n (cur + n.weight) hs (by
        unfold ev
        simp only [ht]
        rw [hv', Function.update_self, if_neg (by simp), if_pos rfl, Function.update_self])
      exact ⟨t, h1, h2⟩
    · rw [Function.update_of_ne hv'z] at hv'
      rw [Function.update_of_ne hvz] at hv
      rw [Function.update_of_ne hvz, Function.update_of_ne hvz]
      exact h.opn v i n v' hv hs ht hv'
  · intro v i n v' hv hs ht hv' hne
    by_cases hvz : v = z
    · subst hvz
      have hv'z : v' ≠ v := by rintro rfl; exact hloop _ _ _ hs ht
      obtain ⟨t, h1, h2⟩ := hx i n _ hs (by
        unfold ev
        simp only [ht]
        rw [if_neg hne, if_neg hv'])
      exact ⟨t, .inl (by rw [Function.update_self]; exact h1), by omega⟩
    · by_cases hv'z : v' = z
      · subst hv'z
        obtain ⟨-, j, n', hs', ht', hw, -⟩ := hg.simple.sym v i n v' hs ht
        obtain ⟨t, h1, h2⟩ := hx j n' _ hs' (by
          unfold ev
          simp only [ht']
          rw [if_neg (Ne.symm hne), if_neg hv])
        exact ⟨t, .inr (by rw [Function.update_self]; exact h1), by rw [hw] at h2; omega⟩
      · rw [Function.update_of_ne hvz] at hv hne ⊢
        rw [Function.update_of_ne hv'z] at hv' hne ⊢
        rw [Function.update_of_ne hvz, Function.update_of_ne hv'z]
        exact h.meet v i n v' hv hs ht hv' hne
  · intro v i n v' hv hs ht hv'
    by_cases hvz : v = z
    · subst hvz
      have hv'z : v' ≠ v := by rintro rfl; exact hloop _ _ _ hs ht
      rw [Function.update_self, Function.update_of_ne hv'z]
      rw [Function.update_of_ne hv'z] at hv'
      obtain ⟨b, hb⟩ := Option.ne_none_iff_exists'.1 hv'
      have := (h.reach v' b hb).2.2.2.1
      omega
    · rw [Function.update_of_ne hvz] at hv ⊢
      by_cases hv'z : v' = z
      · subst hv'z
        rw [Function.update_self]
        -- the clock has not passed the time at which `v` would have reached it
        obtain ⟨t, h1, h2⟩ := h.opn v i n v' hv hs ht hz
        have := (h.wants v t h1).2
        omega
      · rw [Function.update_of_ne hv'z] at hv' ⊢
        exact h.lip v i n v' hv hs ht hv'
  · intro hb v i n hv hs ht
    by_cases hvz : v = z
    · subst hvz
      rw [Function.update_self]
      refine hx i n _ hs ?_
      unfold ev
      simp only [ht]
      rw [if_pos hb]
    · rw [Function.update_of_ne hvz] at hv
      rw [Function.update_of_ne hvz, Function.update_of_ne hvz]
      exact h.bnd hb v i n hv hs ht

end core

/-! ## Wishes -/

theorem wish_spec (w : World Nat) (hw : WInv w) (u : Nat) (t : Int) (h1 : w.q.cur ≤ t) (h2 : t < w.q.cur + 2 ^ 31) :
    WInv (wish w u t) ∧ (wish w u t).q.cur = w.q.cur ∧ (absW (wish w u t)).want = Function.update (absW w).want u (some t) ∧
      ∀ v, v ≠ u → (wish w u t).tr v = w.tr v := by
  obtain ⟨w', e1, e2, e3, e4⟩ := step_set w hw u t h1 h2
  have hw' : wish w u t = w' := by unfold wish; rw [e1]
  rw [hw']
  refine ⟨e2, e3, by rw [e4], ?_⟩
  intro v hv
  simp only [World.step, Option.some.injEq, Prod.mk.injEq, true_and] at e1
  rw [← e1]
  simp only [Function.update_of_ne hv]

theorem noWish_spec (w : World Nat) (hw : WInv w) (u : Nat) :
    WInv (noWish w u) ∧ (noWish w u).q.cur = w.q.cur ∧ (absW (noWish w u)).want = Function.update (absW w).want u none ∧
      ∀ v, v ≠ u → (noWish w u).tr v = w.tr v := by
  obtain ⟨w', e1, e2, e3, e4⟩ := step_unset w hw u
  have hw' : noWish w u = w' := by unfold noWish; rw [e1]
  rw [hw']
  refine ⟨e2, e3, by rw [e4], ?_⟩
  intro v hv
  simp only [World.step, Option.some.injEq, Prod.mk.injEq, true_and] at e1
  rw [← e1]
  simp only [Function.update_of_ne hv]

/-- A delivery does not touch the trackers that were never used. -/
theorem deliver_tr (w w' : World Nat) (out : AlarmOut Nat) (h : w.step .deliver = some (out, w')) (u : Nat) (hu : w.tr u = {}) :
    w'.tr u = {} := by
  simp only [World.step] at h
  split at h
  · cases h
  · cases h; exact hu
  · rename_i e q' hd
    by_cases he : e.payload = u
    · have hdec : dequeueDecision (w.tr e.payload) e q' = (false, {}, q') := by
        rw [he, hu]; rfl
      rw [hdec] at h
      simp only [Bool.false_eq_true, if_false, Option.some.injEq, Prod.mk.injEq] at h
      rw [← h.2, ← he]
      simp
    · split at h <;> (cases h; simp only; rw [Function.update_of_ne (fun h => he h.symm)]; exact hu)

theorem findNext_next {g : SGraph} (hg : Good g) (s : SS) (u : Nat) (hu : Even (s.dist u)) (hul : u < g.nodes.length)
    (hev : ∀ v, s.reached v ≠ none → Even (s.dist v)) :
    findNext g s u = .ok (next g s.toBoundary s.reached s.dist u) := by
  rw [findNext_eq hg s u hu hul hev]
  unfold next
  rw [List.getElem?_eq_getElem hul]

/-- Events are not further away than the longest edge. -/
theorem ev_lt {g : SGraph} (hg : Good g) (toB : Bool) (reached : Nat → Option Nat) (dist : Nat → Int) (cur : Int)
    (u : Nat) (hu : dist u ≤ cur) (hd : ∀ v, reached v ≠ none → dist v ≤ cur) (i : Nat) (n : SNbr) (hs : nbr g u i = some n) (T : Int)
    (hT : ev toB reached dist u n = some T) : T < cur + 2 ^ 31 := by
  have hw := hg.small u i n hs
  have hw' : (n.weight : Int) < 2 ^ 31 := by exact_mod_cast hw
  unfold ev at hT
  split at hT
  · split at hT
    · cases hT; omega
    · cases hT
  · split at hT
    · cases hT
    · split at hT
      · cases hT; omega
      · rename_i hv
        cases hT
        have := hd _ hv
        omega

theorem reschedule_spec {g : SGraph} (hg : Good g) (s : SS) (hw : WInv s.w) (u : Nat) (hu : s.reached u ≠ none)
    (hul : u < g.nodes.length) (hev : ∀ v, s.reached v ≠ none → Even (s.dist v)) (hd : ∀ v, s.reached v ≠ none → s.dist v ≤ s.w.q.cur)
    (hge : ∀ i n T, nbr g u i = some n → ev s.toBoundary s.reached s.dist u n = some T → s.w.q.cur ≤ T) :
    ∃ w', reschedule g s u = .ok { s with w := w' } ∧ WInv w' ∧ w'.q.cur = s.w.q.cur ∧
      (absW w').want = Function.update (absW s.w).want u ((next g s.toBoundary s.reached s.dist u).map (·.2)) ∧
      ∀ v, v ≠ u → w'.tr v = s.w.tr v := by
  unfold reschedule
  rw [findNext_next hg s u (hev u hu) hul hev]
  cases hn : next g s.toBoundary s.reached s.dist u with
  | none =>
    obtain ⟨a, b, c, d⟩ := noWish_spec s.w hw u
    exact ⟨_, rfl, a, b, c, d⟩
  | some x =>
    obtain ⟨i, t⟩ := x
    obtain ⟨n, hs, hT⟩ := next_is g _ _ _ u i t hn
    obtain ⟨a, b, c, d⟩ := wish_spec s.w hw u t (hge i n t hs hT) (ev_lt hg _ _ _ _ u (hd u hu) hd i n hs t hT)
    exact ⟨_, rfl, a, b, c, d⟩

/-! ## The state invariant -/

/-- The predecessor chain from `u` to its source `a`. -/
inductive Trace (g : SGraph) (reached pred : Nat → Option Nat) (dist : Nat → Int) : Nat → Nat → List (Nat × Nat) → Prop where
  | source (a : Nat) (h : reached a = some a) (hp : pred a = none) (hd : dist a = 0) (hl : a < g.nodes.length) :
      Trace g reached pred dist a a []
  | step {u i v a : Nat} {n : SNbr} {es : List (Nat × Nat)} (hr : reached u = some a) (hp : pred u = some i)
      (hs : nbr g u i = some n) (ht : n.target = some v) (hd : dist u = n.weight + dist v) (h : Trace g reached pred dist v a es) :
      Trace g reached pred dist u a ((u, i) :: es)

structure SInv (g : SGraph) (S : Nat → Prop) (s : SS) (want : Nat → Option Int) : Prop where
  w : WInv s.w
  core : Core g S s.toBoundary s.reached s.dist s.w.q.cur want
  trace : ∀ u a, s.reached u = some a → ∃ es, Trace g s.reached s.pred s.dist u a es
  clean : ∀ u, u ∉ s.reachedNodes → s.reached u = none ∧ s.pred u = none ∧ s.w.tr u = {}

theorem Trace.mono {g : SGraph} {reached pred : Nat → Option Nat} {dist : Nat → Int} {u a : Nat} {es : List (Nat × Nat)}
    (h : Trace g reached pred dist u a es) (z : Nat) (hz : reached z = none) (x p : Option Nat) (d : Int) :
    Trace g (Function.update reached z x) (Function.update pred z p) (Function.update dist z d) u a es := by
  have hne : ∀ v b, reached v = some b → v ≠ z := by
    rintro v b hv rfl
    rw [hv] at hz
    cases hz
  induction h with
  | source a h hp hd hl =>
    have := hne a a h
    exact .source a (by rw [Function.update_of_ne this]; exact h) (by rw [Function.update_of_ne this]; exact hp)
      (by rw [Function.update_of_ne this]; exact hd) hl
  | @step u i v a n es hr hp hs ht hd hT ih =>
    have hu := hne u a hr
    have hv : v ≠ z := by
      cases hT with
      | source _ h _ _ _ => exact hne _ _ h
      | step hr _ _ _ _ _ => exact hne _ _ hr
    exact .step (by rw [Function.update_of_ne hu]; exact hr) (by rw [Function.update_of_ne hu]; exact hp) hs ht
      (by rw [Function.update_of_ne hu, Function.update_of_ne hv]; exact hd) ih

/-- Events of a node reached now are not overdue. -/
theorem Core.new_ev_ge {g : SGraph} {S : Nat → Prop} {toB : Bool} {reached : Nat → Option Nat} {dist : Nat → Int} {cur : Int}
    {want : Nat → Option Int} (h : Core g S toB reached dist cur want) (hg : Good g) (z a : Nat) (hz : reached z = none) (i : Nat)
    (n : SNbr) (T : Int) (hs : nbr g z i = some n)
    (hT : ev toB (Function.update reached z (some a)) (Function.update dist z cur) z n = some T) : cur ≤ T := by
  unfold ev at hT
  rw [Function.update_self] at hT
  split at hT
  · split at hT
    · cases hT; omega
    · cases hT
  · rename_i v ht
    obtain ⟨hvz, j, n', hs', ht', hw, -⟩ := hg.simple.sym z i n v hs ht
    rw [Function.update_of_ne hvz, Function.update_of_ne hvz] at hT
    split at hT
    · cases hT
    · split at hT
      · cases hT; omega
      · rename_i hv
        cases hT
        obtain ⟨t, h1, h2⟩ := h.opn v j n' z hv hs' ht' hz
        have := (h.wants v t h1).2
        rw [hw] at h2
        omega

/-- A node is reached at the current time, in the full state. -/
theorem SInv.reachNode {g : SGraph} {S : Nat → Prop} {s : SS} {want : Nat → Option Int} (h : SInv g S s want) (hg : Good g)
    (z a : Nat) (S' : Nat → Prop) (hz : s.reached z = none) (hzl : z < g.nodes.length) (hcur : Even s.w.q.cur) (ha : S' a)
    (hS : ∀ b, S b → S' b) (hS' : ∀ b, S' b → S b ∨ (b = z ∧ a = z ∧ s.w.q.cur = 0)) (p : Option Nat)
    (htr : ∃ es, Trace g (Function.update s.reached z (some a)) (Function.update s.pred z p) (Function.update s.dist z s.w.q.cur) z a es) :
    ∃ w', reschedule g { s with reached := Function.update s.reached z (some a), pred := Function.update s.pred z p,
                                dist := Function.update s.dist z s.w.q.cur, reachedNodes := s.reachedNodes ++ [z] } z =
        .ok { s with reached := Function.update s.reached z (some a), pred := Function.update s.pred z p,
                     dist := Function.update s.dist z s.w.q.cur, reachedNodes := s.reachedNodes ++ [z], w := w' } ∧
      w'.q.cur = s.w.q.cur ∧
      (∃ x, (absW w').want = Function.update (absW s.w).want z x ∧
        SInv g S' { s with reached := Function.update s.reached z (some a), pred := Function.update s.pred z p,
                           dist := Function.update s.dist z s.w.q.cur, reachedNodes := s.reachedNodes ++ [z], w := w' }
          (Function.update want z x)) := by
  have hd : ∀ v, Function.update s.reached z (some a) v ≠ none →
      Function.update s.dist z s.w.q.cur v ≤ s.w.q.cur ∧ Even (Function.update s.dist z s.w.q.cur v) := by
    intro v hv
    by_cases hvz : v = z
    · subst hvz; rw [Function.update_self]; exact ⟨le_refl _, hcur⟩
    · rw [Function.update_of_ne hvz] at hv ⊢
      obtain ⟨b, hb⟩ := Option.ne_none_iff_exists'.1 hv
      obtain ⟨-, -, -, p4, p5⟩ := h.core.reach v b hb
      exact ⟨p4, p5⟩
  obtain ⟨w', e1, e2, e3, e4, e5⟩ := reschedule_spec hg
    { s with reached := Function.update s.reached z (some a), pred := Function.update s.pred z p,
             dist := Function.update s.dist z s.w.q.cur, reachedNodes := s.reachedNodes ++ [z] } h.w z
    (by simp) hzl (fun v hv => (hd v hv).2) (fun v hv => (hd v hv).1)
    (fun i n T hs hT => h.core.new_ev_ge hg z a hz i n T hs hT)
  refine ⟨w', e1, e3, _, e4, e2, ?_, ?_, ?_⟩
  · simp only at e3 e4 ⊢
    rw [e3]
    refine h.core.reachNode hg z a S' hz hzl hcur ha hS hS' _ (next_Covers _ _ _ _ _) ?_
    intro t ht
    rw [Option.map_eq_some_iff] at ht
    obtain ⟨⟨i, t'⟩, hx, rfl⟩ := ht
    obtain ⟨n, hs, hT⟩ := next_is _ _ _ _ _ _ _ hx
    exact h.core.new_ev_ge hg z a hz i n _ hs hT
  · intro v b hv
    simp only at hv ⊢
    by_cases hvz : v = z
    · subst hvz
      rw [Function.update_self] at hv
      cases hv
      exact htr
    · rw [Function.update_of_ne hvz] at hv
      obtain ⟨es, hes⟩ := h.trace v b hv
      exact ⟨es, hes.mono z hz _ _ _⟩
  · intro v hv
    simp only [List.mem_append, List.mem_singleton, not_or] at hv ⊢
    obtain ⟨hv1, hvz⟩ := hv
    rw [Function.update_of_ne hvz, Function.update_of_ne hvz, e5 v hvz]
    exact h.clean v hv1

end Verif.Sch
