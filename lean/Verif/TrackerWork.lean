import Verif.Tracker
import Mathlib.Algebra.BigOperators.Group.Multiset.Basic
import Mathlib.Algebra.Order.BigOperators.Group.Multiset

/-!
# Deliveries that wake nobody cannot go on forever

A measure for arbitrary (also infinite) owner types, used for loops that process events until somebody is woken.
-/

namespace Verif.Track

open Verif Verif.Cyc Verif.RadixHeap Verif.Spec

/-- An event counts twice if its owner would re-enqueue it. -/
def weightOf {ι : Type} (tr : ι → Tracker) (e : Event ι) : Nat := if mismatched (tr e.payload) then 2 else 1

/-- Number of further deliveries that can happen without new wishes, at most. -/
def pending {ι : Type} (w : World ι) : Nat := ((content w.q.buckets).map (weightOf w.tr)).sum

theorem pending_mk {ι : Type} (tr : ι → Tracker) (q : Queue ι) :
    pending ⟨tr, q⟩ = ((content q.buckets).map (weightOf tr)).sum := rfl

theorem sum_le {ι : Type} (s : Multiset (Event ι)) (f g : Event ι → Nat) (h : ∀ e ∈ s, f e ≤ g e) :
    (s.map f).sum ≤ (s.map g).sum := Multiset.sum_map_le_sum_map f g h

/-- A delivery that wakes nobody reduces the number of further deliveries. -/
theorem silent_pending {ι : Type} [DecidableEq ι] (w w' : World ι) (hw : WInv w) (h : w.step .deliver = some (.silent, w')) :
    pending w' < pending w := by
  by_cases h0 : content w.q.buckets = 0
  · rw [(deliver_idle w hw h0).1] at h
    simp at h
  obtain ⟨e, q', d1, d2, d3, -, -, -⟩ := dequeue_spec hw.queue h0
  obtain ⟨v, o⟩ := e
  have hbefore : pending w = weightOf w.tr ⟨v, o⟩ + ((content q'.buckets).map (weightOf w.tr)).sum := by
    unfold pending
    rw [d3, Multiset.map_cons, Multiset.sum_cons]
  have hone : ∀ e, 1 ≤ weightOf w.tr e := by intro e; unfold weightOf; split <;> omega
  simp only [World.step, d1, dequeueDecision] at h
  by_cases hstale : (!(w.tr o).hasQueued || v != (w.tr o).queued) = true
  · simp only [hstale, if_true, Bool.false_eq_true, if_false, Function.update_eq_self, Option.some.injEq, Prod.mk.injEq, true_and] at h
    subst h
    rw [hbefore, pending_mk]
    have := hone ⟨v, o⟩
    omega
  · have hst : (w.tr o).hasQueued = true ∧ v = (w.tr o).queued := by simpa using hstale
    simp only [hstale, Bool.false_eq_true, if_false] at h
    -- other owners' events keep their weight, the owner's do not get heavier
    have hle : ∀ tr', mismatched tr' = false → ((content q'.buckets).map (weightOf (Function.update w.tr o tr'))).sum ≤
        ((content q'.buckets).map (weightOf w.tr)).sum := by
      intro tr' hm
      refine sum_le _ _ _ ?_
      intro e _
      unfold weightOf
      by_cases ho : e.payload = o
      · rw [ho, Function.update_self, hm]
        simp only [Bool.false_eq_true, if_false]
        split <;> omega
      · rw [Function.update_of_ne ho]
    by_cases hnd : (w.tr o).hasDesired = true
    · simp only [hnd, Bool.not_true, Bool.false_eq_true, if_false] at h
      by_cases hdv : v = (w.tr o).desired
      · simp only [hdv, bne_self_eq_false, Bool.false_eq_true, if_false, if_true, Option.some.injEq, Prod.mk.injEq, reduceCtorEq,
          false_and] at h
      · have hbne : (v != (w.tr o).desired) = true := by simpa using hdv
        simp only [hbne, if_true, Bool.false_eq_true, if_false, Option.some.injEq, Prod.mk.injEq, true_and] at h
        subst h
        obtain ⟨a1, a2, a3⟩ := hw.desired o hnd
        have c1 : content (q'.enqueue ⟨(w.tr o).desired, o⟩).buckets = ⟨(w.tr o).desired, o⟩ ::ₘ content q'.buckets :=
          content_push ..
        rw [hbefore, pending_mk, c1, Multiset.map_cons, Multiset.sum_cons]
        have hm : mismatched (w.tr o) = true := by
          unfold mismatched
          rw [hnd, hst.1, ← hst.2]
          simpa using fun hh => hdv hh.symm
        have h2 : weightOf w.tr ⟨v, o⟩ = 2 := by unfold weightOf; rw [hm]; rfl
        have hm' : mismatched { desired := (w.tr o).desired, queued := (w.tr o).desired, hasDesired := (w.tr o).hasDesired, hasQueued := true } = false := by
          simp [mismatched]
        rw [hnd] at hm'
        have h3 : weightOf (Function.update w.tr o { desired := (w.tr o).desired, queued := (w.tr o).desired, hasDesired := true, hasQueued := true })
            ⟨(w.tr o).desired, o⟩ = 1 := by
          unfold weightOf; rw [Function.update_self, hm']; rfl
        have := hle _ hm'
        rw [h2, h3]
        omega
    · have hnd' : (w.tr o).hasDesired = false := by simpa using hnd
      simp only [hnd', Bool.not_false, if_true, Bool.false_eq_true, if_false, Option.some.injEq, Prod.mk.injEq, true_and] at h
      subst h
      rw [hbefore, pending_mk]
      have := hle { desired := (w.tr o).desired, queued := (w.tr o).queued, hasDesired := false, hasQueued := false } (by simp [mismatched])
      have := hone ⟨v, o⟩
      omega

end Verif.Track
