import Verif.RadixHeap
import Verif.Spec.Alarm

/-!
# Queued event trackers

Model of `pm::QueuedEventTracker`,
`/repo/src/pymatching/sparse_blossom/tracker/queued_event_tracker.h` lines 29-93, together with the
event queue it enqueues into and an arbitrary family of owners (detector nodes, shrinking regions,
search nodes: the payload of a `FloodCheckEvent`).
-/

namespace Verif.Track

open Verif Verif.Cyc Verif.RadixHeap Verif.Spec

/-- `QueuedEventTracker` fields (queued_event_tracker.h:30-33). -/
structure Tracker where
  desired : CycTime := 0#32
  queued : CycTime := 0#32
  hasDesired : Bool := false
  hasQueued : Bool := false

/-- `set_desired_event` (queued_event_tracker.h:45-54). -/
def setDesired {ι : Type} (tr : Tracker) (ev : Event ι) (q : Queue ι) : Tracker × Queue ι :=
  let tr1 := { tr with hasDesired := true, desired := ev.time }
  if !tr1.hasQueued || gt tr1.queued ev.time then
    ({ tr1 with queued := ev.time, hasQueued := true }, q.enqueue ev)
  else (tr1, q)

/-- `set_no_desired_event` (queued_event_tracker.h:57-59). -/
def setNone (tr : Tracker) : Tracker := { tr with hasDesired := false }

/-- `dequeue_decision` (queued_event_tracker.h:66-92). -/
def dequeueDecision {ι : Type} (tr : Tracker) (ev : Event ι) (q : Queue ι) : Bool × Tracker × Queue ι :=
  if !tr.hasQueued || ev.time != tr.queued then (false, tr, q)
  else
    let tr1 := { tr with hasQueued := false }
    if !tr1.hasDesired then (false, tr1, q)
    else if ev.time != tr1.desired then
      (false, { tr1 with hasQueued := true, queued := tr1.desired }, q.enqueue { ev with time := tr1.desired })
    else (true, { tr1 with hasDesired := false }, q)

/-- The trackers of all owners and the shared queue. -/
structure World (ι : Type) where
  tr : ι → Tracker
  q : Queue ι

/-- Fresh trackers and an empty queue. -/
def World.init (ι : Type) (clock : Int) : World ι := ⟨fun _ => {}, Queue.init ι clock⟩

/-- One operation.  `deliver` is `queue.dequeue()` followed by `dequeue_decision` of the event's owner
(as in graph_flooder.cc:254-278 `dequeue_valid` and search_flooder.cc:140-148).  `none` = undefined
behaviour. -/
def World.step {ι : Type} [DecidableEq ι] (w : World ι) : AlarmOp ι → Option (AlarmOut ι × World ι)
  | .set o t =>
    let (tr', q') := setDesired (w.tr o) ⟨ofTime t, o⟩ w.q
    some (.unit, ⟨Function.update w.tr o tr', q'⟩)
  | .unset o => some (.unit, { w with tr := Function.update w.tr o (setNone (w.tr o)) })
  | .deliver =>
    match w.q.dequeue with
    | .ub => none
    | .ok none q' => some (.idle, { w with q := q' })
    | .ok (some e) q' =>
      let (b, tr', q'') := dequeueDecision (w.tr e.payload) e q'
      some (if b then .ring e.payload q'.cur else .silent, ⟨Function.update w.tr e.payload tr', q''⟩)

/-! ## Invariant and abstraction -/

/-- The full time a 32-bit value stands for at clock `cur`. -/
def ft (cur : Int) (v : CycTime) : Int := cur + ((v - ofTime cur).toNat : Int)

theorem ft_eq {α : Type} (cur : Int) (e : Event α) : fullTime cur e = ft cur e.time := rfl

theorem ft_ofTime (cur t : Int) (h1 : cur ≤ t) (h2 : t < cur + 4294967296) : ft cur (ofTime t) = t :=
  fullTime_ofTime cur t () h1 h2

theorem ofTime_ft (cur : Int) (v : CycTime) : ofTime (ft cur v) = v :=
  (fullTime_spec cur (⟨v, ()⟩ : Event Unit)).2

theorem ft_ge (cur : Int) (v : CycTime) : cur ≤ ft cur v :=
  (fullTime_spec cur (⟨v, ()⟩ : Event Unit)).1

theorem ft_advance (cur cur' : Int) (v : CycTime) (h1 : cur ≤ cur') (h2 : cur' ≤ ft cur v) :
    ft cur' v = ft cur v :=
  fullTime_advance cur cur' (⟨v, ()⟩ : Event Unit) h1 h2

/-- The invariant: the queue is well formed; a tracker that thinks it has an event queued really has
one; a tracker with a desire has an event queued at or before the desired time. -/
structure WInv {ι : Type} (w : World ι) : Prop where
  queue : Inv w.q
  queued : ∀ o, (w.tr o).hasQueued = true → (⟨(w.tr o).queued, o⟩ : Event ι) ∈ content w.q.buckets
  desired : ∀ o, (w.tr o).hasDesired = true → (w.tr o).hasQueued = true ∧
    ft w.q.cur (w.tr o).queued ≤ ft w.q.cur (w.tr o).desired ∧
    ft w.q.cur (w.tr o).desired < w.q.cur + 2147483648

/-- Abstract reading: what each owner wants. -/
def absW {ι : Type} (w : World ι) : Alarm ι :=
  ⟨w.q.cur, fun o => if (w.tr o).hasDesired then some (ft w.q.cur (w.tr o).desired) else none⟩

theorem winv_init (ι : Type) (clock : Int) : WInv (World.init ι clock) :=
  ⟨inv_init ι clock, by intro o h; simp [World.init] at h, by intro o h; simp [World.init] at h⟩

theorem step_set {ι : Type} [DecidableEq ι] (w : World ι) (hw : WInv w) (o : ι) (t : Int)
    (h1 : w.q.cur ≤ t) (h2 : t < w.q.cur + 2 ^ 31) :
    ∃ w', w.step (.set o t) = some (.unit, w') ∧ WInv w' ∧ w'.q.cur = w.q.cur ∧
      absW w' = ⟨w.q.cur, Function.update (absW w).want o (some t)⟩ := by
  have hft : ft w.q.cur (ofTime t) = t := ft_ofTime _ _ h1 (by omega)
  simp only [World.step, setDesired]
  by_cases hc : (!(w.tr o).hasQueued || gt (w.tr o).queued (ofTime t)) = true
  · simp only [hc, if_true]
    obtain ⟨i1, c1⟩ := inv_enqueue hw.queue ⟨ofTime t, o⟩ (by rw [ft_eq]; simp only; rw [hft]; omega)
    refine ⟨_, rfl, ⟨i1, ?_, ?_⟩, rfl, ?_⟩
    · intro o' h'
      simp only at h' ⊢
      rw [c1]
      by_cases ho : o' = o
      · subst ho
        simp
      · rw [Function.update_of_ne ho] at h' ⊢
        exact Multiset.mem_cons_of_mem (hw.queued o' h')
    · intro o' h'
      simp only at h' ⊢
      have hcur : (w.q.enqueue ⟨ofTime t, o⟩).cur = w.q.cur := rfl
      rw [hcur]
      by_cases ho : o' = o
      · subst ho
        simp only [Function.update_self, le_refl, true_and]
        rw [hft]; omega
      · rw [Function.update_of_ne ho] at h' ⊢
        exact hw.desired o' h'
    · unfold absW
      have hcur : (w.q.enqueue ⟨ofTime t, o⟩).cur = w.q.cur := rfl
      simp only [hcur, Alarm.mk.injEq, true_and]
      funext o'
      by_cases ho : o' = o
      · subst ho; simp [hft]
      · simp [Function.update_of_ne ho]
  · have hc' : (w.tr o).hasQueued = true ∧ gt (w.tr o).queued (ofTime t) = false := by
      simpa using hc
    simp only [hc, Bool.false_eq_true, if_false]
    refine ⟨_, rfl, ⟨hw.queue, ?_, ?_⟩, rfl, ?_⟩
    · intro o' h'
      simp only at h' ⊢
      by_cases ho : o' = o
      · subst ho
        simp only [Function.update_self] at h' ⊢
        exact hw.queued o' hc'.1
      · rw [Function.update_of_ne ho] at h' ⊢
        exact hw.queued o' h'
    · intro o' h'
      simp only at h' ⊢
      by_cases ho : o' = o
      · subst ho
        simp only [Function.update_self] at h' ⊢
        refine ⟨hc'.1, ?_, by rw [hft]; omega⟩
        have hmem := hw.queued o' hc'.1
        have hwin := hw.queue.window' hmem
        rw [ft_eq] at hwin
        simp only at hwin
        rw [hft]
        have hg := hc'.2
        rw [gt_eq_lt, ← ofTime_ft w.q.cur (w.tr o').queued, Bool.eq_false_iff, ne_eq, lt_iff] at hg
        have := ft_ge w.q.cur (w.tr o').queued
        omega
      · rw [Function.update_of_ne ho] at h' ⊢
        exact hw.desired o' h'
    · unfold absW
      simp only [Alarm.mk.injEq, true_and]
      funext o'
      by_cases ho : o' = o
      · subst ho; simp [hft]
      · simp [Function.update_of_ne ho]

theorem step_unset {ι : Type} [DecidableEq ι] (w : World ι) (hw : WInv w) (o : ι) :
    ∃ w', w.step (.unset o) = some (.unit, w') ∧ WInv w' ∧ w'.q.cur = w.q.cur ∧
      absW w' = ⟨w.q.cur, Function.update (absW w).want o none⟩ := by
  refine ⟨_, rfl, ⟨hw.queue, ?_, ?_⟩, rfl, ?_⟩
  · intro o' h'
    simp only at h' ⊢
    by_cases ho : o' = o
    · subst ho
      simp only [Function.update_self, setNone] at h' ⊢
      exact hw.queued o' h'
    · rw [Function.update_of_ne ho] at h' ⊢
      exact hw.queued o' h'
  · intro o' h'
    simp only at h' ⊢
    by_cases ho : o' = o
    · subst ho
      simp [setNone] at h'
    · rw [Function.update_of_ne ho] at h' ⊢
      exact hw.desired o' h'
  · unfold absW
    simp only [Alarm.mk.injEq, true_and]
    funext o'
    by_cases ho : o' = o
    · subst ho; simp [setNone]
    · simp [Function.update_of_ne ho]

/-- Trackers whose desire differs from what is queued (a deferred re-enqueue is due). -/
def mismatched (tr : Tracker) : Bool := tr.hasDesired && tr.hasQueued && tr.desired != tr.queued

/-- Number of further deliveries that can happen without new wishes. -/
def work {ι : Type} [Fintype ι] (w : World ι) : Nat :=
  Multiset.card (content w.q.buckets) + (Finset.univ.filter fun o => mismatched (w.tr o)).card

theorem deliver_idle {ι : Type} [DecidableEq ι] (w : World ι) (hw : WInv w)
    (h0 : content w.q.buckets = 0) :
    w.step .deliver = some (.idle, w) ∧ ∀ o, (absW w).want o = none := by
  constructor
  · simp only [World.step, dequeue_empty hw.queue h0]
  · intro o
    unfold absW
    simp only
    by_cases hd : (w.tr o).hasDesired = true
    · exfalso
      have := hw.queued o (hw.desired o hd).1
      rw [h0] at this
      simp at this
    · simp [hd]

/-- Everything the delivery of one event does. -/
theorem deliver_spec {ι : Type} [DecidableEq ι] (w : World ι) (hw : WInv w)
    (h0 : content w.q.buckets ≠ 0) :
    ∃ out w', w.step .deliver = some (out, w') ∧ WInv w' ∧ w.q.cur ≤ w'.q.cur ∧
      (∀ o t, (absW w).want o = some t → w'.q.cur ≤ t) ∧
      ((out = .silent ∧ absW w' = ⟨w'.q.cur, (absW w).want⟩) ∨
       (∃ o, out = .ring o w'.q.cur ∧ (absW w).want o = some w'.q.cur ∧
          absW w' = ⟨w'.q.cur, Function.update (absW w).want o none⟩)) ∧
      (∀ [Fintype ι], work w' < work w) := by
  obtain ⟨e, q', d1, d2, d3, d4, d5, d6⟩ := dequeue_spec hw.queue h0
  obtain ⟨v, o⟩ := e
  have hadv : ∀ f ∈ content w.q.buckets, ft q'.cur f.time = ft w.q.cur f.time := fun f hf =>
    ft_advance _ _ _ d6 (d5 f hf)
  -- every queued and desired time is at or after the new clock
  have hq_ge : ∀ o', (w.tr o').hasQueued = true → q'.cur ≤ ft w.q.cur (w.tr o').queued := fun o' h' =>
    d5 _ (hw.queued o' h')
  have hd_ge : ∀ o', (w.tr o').hasDesired = true → q'.cur ≤ ft w.q.cur (w.tr o').desired := fun o' h' =>
    le_trans (hq_ge o' (hw.desired o' h').1) (hw.desired o' h').2.1
  have hq_adv : ∀ o', (w.tr o').hasQueued = true →
      ft q'.cur (w.tr o').queued = ft w.q.cur (w.tr o').queued := fun o' h' =>
    ft_advance _ _ _ d6 (hq_ge o' h')
  have hd_adv : ∀ o', (w.tr o').hasDesired = true →
      ft q'.cur (w.tr o').desired = ft w.q.cur (w.tr o').desired := fun o' h' =>
    ft_advance _ _ _ d6 (hd_ge o' h')
  have hv : ft w.q.cur v = q'.cur := by rw [d4]; rfl
  have hwant : ∀ o' t, (absW w).want o' = some t → q'.cur ≤ t := by
    intro o' t ht
    unfold absW at ht
    simp only at ht
    by_cases hd : (w.tr o').hasDesired = true
    · simp only [hd, if_true, Option.some.injEq] at ht
      rw [← ht]; exact hd_ge o' hd
    · simp [hd] at ht
  -- events other than the delivered one stay
  have hstay : ∀ o', (w.tr o').hasQueued = true → ¬ (o' = o ∧ (w.tr o').queued = v) →
      (⟨(w.tr o').queued, o'⟩ : Event ι) ∈ content q'.buckets := by
    intro o' h' hne
    have hm := hw.queued o' h'
    rw [d3, Multiset.mem_cons] at hm
    rcases hm with hm | hm
    · simp only [Event.mk.injEq] at hm
      exact absurd ⟨hm.2, hm.1⟩ hne
    · exact hm
  have hdes : ∀ o', (w.tr o').hasDesired = true → (w.tr o').hasQueued = true ∧
      ft q'.cur (w.tr o').queued ≤ ft q'.cur (w.tr o').desired ∧
      ft q'.cur (w.tr o').desired < q'.cur + 2147483648 := by
    intro o' h'
    obtain ⟨a1, a2, a3⟩ := hw.desired o' h'
    rw [hq_adv o' a1, hd_adv o' h']
    exact ⟨a1, a2, by omega⟩
  have hcard : Multiset.card (content w.q.buckets) = Multiset.card (content q'.buckets) + 1 := by
    rw [d3, Multiset.card_cons]
  have habs : ∀ (trs : ι → Tracker) (q2 : Queue ι), q2.cur = q'.cur →
      (∀ o', (trs o').hasDesired = (w.tr o').hasDesired ∧ (trs o').desired = (w.tr o').desired) →
      absW ⟨trs, q2⟩ = ⟨q'.cur, (absW w).want⟩ := by
    intro trs q2 hc hsame
    unfold absW
    simp only [hc, Alarm.mk.injEq, true_and]
    funext o'
    rw [(hsame o').1, (hsame o').2]
    by_cases hd : (w.tr o').hasDesired = true
    · simp only [hd, if_true]; rw [hd_adv o' hd]
    · simp [hd]
  simp only [World.step, d1, dequeueDecision]
  by_cases hstale : (!(w.tr o).hasQueued || v != (w.tr o).queued) = true
  · -- stale event: ignored
    simp only [hstale, if_true]
    refine ⟨.silent, ⟨w.tr, q'⟩, by simp, ⟨d2, ?_, hdes⟩, d6, hwant,
      Or.inl ⟨rfl, habs w.tr q' rfl fun _ => ⟨rfl, rfl⟩⟩, ?_⟩
    · intro o' h'
      refine hstay o' h' ?_
      rintro ⟨rfl, hqv⟩
      simp only at h'
      simp [h', hqv] at hstale
    · intro _
      unfold work
      simp only
      omega
  · simp only [hstale, Bool.false_eq_true, if_false]
    have hst : (w.tr o).hasQueued = true ∧ v = (w.tr o).queued := by
      simpa using hstale
    by_cases hnd : (w.tr o).hasDesired = true
    · simp only [hnd, Bool.not_true, Bool.false_eq_true, if_false]
      by_cases hdv : v = (w.tr o).desired
      · -- accepted
        simp only [hdv, bne_self_eq_false, Bool.false_eq_true, if_false, if_true]
        have hwo : (absW w).want o = some q'.cur := by
          unfold absW
          simp only [hnd, if_true]
          rw [← hdv, hv]
        refine ⟨_, _, rfl, ⟨d2, ?_, ?_⟩, d6, hwant, Or.inr ⟨o, rfl, hwo, ?_⟩, ?_⟩
        · intro o' h'
          simp only at h' ⊢
          by_cases ho : o' = o
          · subst ho; simp at h'
          · rw [Function.update_of_ne ho] at h' ⊢
            exact hstay o' h' (fun hh => ho hh.1)
        · intro o' h'
          simp only at h' ⊢
          by_cases ho : o' = o
          · subst ho; simp at h'
          · rw [Function.update_of_ne ho] at h' ⊢
            exact hdes o' h'
        · unfold absW
          simp only [Alarm.mk.injEq, true_and]
          funext o'
          by_cases ho : o' = o
          · subst ho; simp
          · simp only [Function.update_of_ne ho]
            by_cases hd : (w.tr o').hasDesired = true
            · simp only [hd, if_true]; rw [hd_adv o' hd]
            · simp [hd]
        · intro _
          unfold work
          simp only
          have : (Finset.univ.filter fun o' => mismatched (Function.update w.tr o
              { desired := (w.tr o).desired, queued := (w.tr o).queued, hasDesired := false, hasQueued := false } o') = true) ⊆
              (Finset.univ.filter fun o' => mismatched (w.tr o') = true) := by
            intro o' h'
            simp only [Finset.mem_filter, Finset.mem_univ, true_and] at h' ⊢
            by_cases ho : o' = o
            · subst ho; simp [mismatched] at h'
            · rwa [Function.update_of_ne ho] at h'
          have := Finset.card_le_card this
          omega
      · -- deferred re-enqueue at the desired time
        have hbne : (v != (w.tr o).desired) = true := by simpa using hdv
        simp only [hbne, if_true]
        obtain ⟨a1, a2, a3⟩ := hdes o hnd
        obtain ⟨i1, c1⟩ := inv_enqueue d2 ⟨(w.tr o).desired, o⟩ (by rw [ft_eq]; exact a3)
        refine ⟨_, _, rfl, ⟨i1, ?_, ?_⟩, d6, hwant, Or.inl ⟨by simp, ?_⟩, ?_⟩
        · intro o' h'
          simp only at h' ⊢
          rw [c1]
          by_cases ho : o' = o
          · subst ho; simp
          · rw [Function.update_of_ne ho] at h' ⊢
            exact Multiset.mem_cons_of_mem (hstay o' h' (fun hh => ho hh.1))
        · intro o' h'
          have hcur : (q'.enqueue ⟨(w.tr o).desired, o⟩).cur = q'.cur := rfl
          simp only at h' ⊢
          rw [hcur]
          by_cases ho : o' = o
          · subst ho
            simp only [Function.update_self, le_refl, true_and]
            exact a3
          · rw [Function.update_of_ne ho] at h' ⊢
            exact hdes o' h'
        · refine habs _ _ rfl ?_
          intro o'
          by_cases ho : o' = o
          · subst ho; simp [hnd]
          · simp [Function.update_of_ne ho]
        · intro _
          unfold work
          simp only [c1, Multiset.card_cons]
          have hss : (Finset.univ.filter fun o' => mismatched (Function.update w.tr o
              { desired := (w.tr o).desired, queued := (w.tr o).desired, hasDesired := true, hasQueued := true } o') = true) ⊂
              (Finset.univ.filter fun o' => mismatched (w.tr o') = true) := by
            rw [Finset.ssubset_iff_of_subset]
            · refine ⟨o, ?_, ?_⟩
              · have hm : mismatched (w.tr o) = true := by
                  unfold mismatched
                  rw [hnd, hst.1, ← hst.2]
                  simpa using fun hh => hdv hh.symm
                exact Finset.mem_filter.2 ⟨Finset.mem_univ _, hm⟩
              · simp [mismatched]
            · intro o' h'
              simp only [Finset.mem_filter, Finset.mem_univ, true_and] at h' ⊢
              by_cases ho : o' = o
              · subst ho; simp [mismatched] at h'
              · rwa [Function.update_of_ne ho] at h'
          have := Finset.card_lt_card hss
          simp only [hnd] at *
          omega
    · -- nothing desired any more
      have hnd' : (w.tr o).hasDesired = false := by simpa using hnd
      simp only [hnd', Bool.not_false, if_true, Bool.false_eq_true, if_false]
      refine ⟨_, _, rfl, ⟨d2, ?_, ?_⟩, d6, hwant, Or.inl ⟨rfl, ?_⟩, ?_⟩
      · intro o' h'
        simp only at h' ⊢
        by_cases ho : o' = o
        · subst ho; simp at h'
        · rw [Function.update_of_ne ho] at h' ⊢
          exact hstay o' h' (fun hh => ho hh.1)
      · intro o' h'
        simp only at h' ⊢
        by_cases ho : o' = o
        · subst ho; simp at h'
        · rw [Function.update_of_ne ho] at h' ⊢
          exact hdes o' h'
      · refine habs _ _ rfl ?_
        intro o'
        by_cases ho : o' = o
        · subst ho; simp [hnd']
        · simp [Function.update_of_ne ho]
      · intro _
        unfold work
        simp only
        have : (Finset.univ.filter fun o' => mismatched (Function.update w.tr o
            { desired := (w.tr o).desired, queued := (w.tr o).queued, hasDesired := false, hasQueued := false } o') = true) ⊆
            (Finset.univ.filter fun o' => mismatched (w.tr o') = true) := by
          intro o' h'
          simp only [Finset.mem_filter, Finset.mem_univ, true_and] at h' ⊢
          by_cases ho : o' = o
          · subst ho; simp [mismatched] at h'
          · rwa [Function.update_of_ne ho] at h'
        have := Finset.card_le_card this
        simp only [hnd'] at *
        omega

end Verif.Track
