import Verif.Tracker

/-!
# Properties of wake-up tracking (C05, C06)
-/

namespace Verif.Props.Tracker

open Verif Verif.Cyc Verif.RadixHeap Verif.Spec Verif.Track

/-- A sequence of operations; `none` is undefined behaviour. -/
def run {ι : Type} [DecidableEq ι] (w : World ι) :
    List (AlarmOp ι) → Option (List (AlarmOut ι) × World ι)
  | [] => some ([], w)
  | op :: ops =>
    match w.step op with
    | none => none
    | some (o, w') =>
      match run w' ops with
      | none => none
      | some (os, w'') => some (o :: os, w'')

/-- Every requested time lies in `[clock, clock + 2^31)` when it is requested. -/
def Legal {ι : Type} [DecidableEq ι] (w : World ι) : List (AlarmOp ι) → Prop
  | [] => True
  | op :: ops =>
    (∀ o t, op = AlarmOp.set o t → w.q.cur ≤ t ∧ t < w.q.cur + 2 ^ 31) ∧
    ∀ out w', w.step op = some (out, w') → Legal w' ops

theorem step_refines {ι : Type} [DecidableEq ι] (w : World ι) (hw : WInv w) (op : AlarmOp ι)
    (hl : ∀ o t, op = AlarmOp.set o t → w.q.cur ≤ t ∧ t < w.q.cur + 2 ^ 31) :
    ∃ out w', w.step op = some (out, w') ∧ WInv w' ∧ Alarm.Step (absW w) op out (absW w') := by
  cases op with
  | set o t =>
    obtain ⟨h1, h2⟩ := hl o t rfl
    obtain ⟨w', s1, s2, s3, s4⟩ := step_set w hw o t h1 h2
    refine ⟨_, w', s1, s2, ?_⟩
    rw [s4]
    exact Alarm.Step.set (absW w) o t h1 h2
  | unset o =>
    obtain ⟨w', s1, s2, s3, s4⟩ := step_unset w hw o
    refine ⟨_, w', s1, s2, ?_⟩
    rw [s4]
    exact Alarm.Step.unset (absW w) o
  | deliver =>
    by_cases h0 : content w.q.buckets = 0
    · obtain ⟨s1, s2⟩ := deliver_idle w hw h0
      exact ⟨_, w, s1, hw, Alarm.Step.idle _ s2⟩
    · obtain ⟨out, w', s1, s2, s3, s4, s5, _⟩ := deliver_spec w hw h0
      refine ⟨out, w', s1, s2, ?_⟩
      rcases s5 with ⟨rfl, ha⟩ | ⟨o, rfl, hwant, ha⟩
      · rw [ha]
        exact Alarm.Step.silent _ _ s3 s4
      · rw [ha]
        exact Alarm.Step.ring _ o _ s3 hwant s4

theorem run_refines {ι : Type} [DecidableEq ι] (ops : List (AlarmOp ι)) :
    ∀ w : World ι, WInv w → Legal w ops →
      ∃ os w', run w ops = some (os, w') ∧ WInv w' ∧ Alarm.Run (absW w) ops os (absW w') := by
  induction ops with
  | nil => intro w hw _; exact ⟨[], w, rfl, hw, Alarm.Run.nil _⟩
  | cons op ops ih =>
    intro w hw hl
    obtain ⟨o, w1, h1, h2, h3⟩ := step_refines w hw op hl.1
    obtain ⟨os, w', r1, r2, r3⟩ := ih w1 h2 (hl.2 o w1 h1)
    exact ⟨o :: os, w', by simp only [run, h1, r1], r2, Alarm.Run.cons h3 r3⟩

/-- C05 (safety).  Every legal interleaving of wishes, cancellations and event deliveries of any number of
owners behaves like a set of alarm clocks: the clock never passes a wish, an owner is woken exactly at
its current wish, and the queue is empty only when nobody wants to be woken. -/
theorem C05_trackers_refine_alarm_clocks {ι : Type} [DecidableEq ι] (clock : Int)
    (ops : List (AlarmOp ι)) (hl : Legal (World.init ι clock) ops) :
    ∃ os w', run (World.init ι clock) ops = some (os, w') ∧
      Alarm.Run ⟨clock, fun _ => none⟩ ops os (absW w') := by
  obtain ⟨os, w', h1, _, h3⟩ := run_refines ops _ (winv_init ι clock) hl
  exact ⟨os, w', h1, h3⟩

/-- A legal history in which a wish is postponed, then brought forward, with two owners. -/
example : Legal (World.init Bool 0)
    [.set true 10, .set true 20, .set false 15, .set true 5, .unset false] := by
  refine ⟨?_, ?_⟩
  · rintro o t ⟨⟩; simp [World.init, Queue.init]
  rintro out w' h
  simp only [World.step, setDesired, World.init, Queue.init, Option.some.injEq, Prod.mk.injEq] at h
  obtain ⟨-, rfl⟩ := h
  refine ⟨by rintro o t ⟨⟩; simp [Queue.enqueue], ?_⟩
  rintro out w' h
  have hl : ∀ (w : World Bool), w.q.cur = 0 → ∀ o t out w', w.step (.set o t) = some (out, w') →
      w'.q.cur = 0 := by
    intro w hw o t out w' h
    simp only [World.step, setDesired, Option.some.injEq, Prod.mk.injEq] at h
    obtain ⟨-, rfl⟩ := h
    split <;> simpa [Queue.enqueue] using hw
  have c1 := hl _ (by simp [Queue.enqueue]) _ _ _ _ h
  refine ⟨by rintro o t ⟨⟩; simp [c1], ?_⟩
  rintro out w'' h
  have c2 := hl _ c1 _ _ _ _ h
  refine ⟨by rintro o t ⟨⟩; simp [c2], ?_⟩
  rintro out w''' h
  refine ⟨by rintro o t ⟨⟩, fun _ _ _ => trivial⟩

/-- The wake-ups in a list of outputs. -/
def rings {ι : Type} : List (AlarmOut ι) → List (ι × Int)
  | [] => []
  | .ring o t :: os => (o, t) :: rings os
  | _ :: os => rings os

theorem drain {ι : Type} [DecidableEq ι] [Fintype ι] (n : Nat) :
    ∀ w : World ι, WInv w → work w ≤ n →
    ∃ k os w', run w (List.replicate k .deliver) = some (os, w') ∧ WInv w' ∧
      content w'.q.buckets = 0 ∧
      (∀ o t, (o, t) ∈ rings os ↔ (absW w).want o = some t) ∧ (rings os).Nodup ∧
      ((rings os).map Prod.snd).Pairwise (· ≤ ·) := by
  induction n with
  | zero =>
    intro w hw hn
    have h0 : content w.q.buckets = 0 := by
      unfold work at hn
      exact Multiset.card_eq_zero.1 (by omega)
    refine ⟨0, [], w, rfl, hw, h0, ?_, by simp [rings], by simp [rings]⟩
    intro o t
    simp [rings, (deliver_idle w hw h0).2 o]
  | succ n ih =>
    intro w hw hn
    by_cases h0 : content w.q.buckets = 0
    · refine ⟨0, [], w, rfl, hw, h0, ?_, by simp [rings], by simp [rings]⟩
      intro o t
      simp [rings, (deliver_idle w hw h0).2 o]
    · obtain ⟨out, w1, s1, s2, s3, s4, s5, s6⟩ := deliver_spec w hw h0
      obtain ⟨k, os, w', r1, r2, r3, r4, r5, r6⟩ := ih w1 s2 (by have := s6; omega)
      refine ⟨k + 1, out :: os, w', ?_, r2, r3, ?_, ?_, ?_⟩
      · simp only [List.replicate_succ, run, s1, r1]
      · intro o t
        rcases s5 with ⟨rfl, ha⟩ | ⟨o1, rfl, hwant, ha⟩
        · simp only [rings]
          rw [r4, ha]
        · simp only [rings, List.mem_cons, Prod.mk.injEq]
          rw [r4, ha]
          by_cases ho : o = o1
          · subst ho
            simp only [true_and, Function.update_self, reduceCtorEq, or_false, hwant, Option.some.injEq]
            exact eq_comm
          · simp [ho, Function.update_of_ne ho]
      · rcases s5 with ⟨rfl, ha⟩ | ⟨o1, rfl, hwant, ha⟩
        · simpa [rings] using r5
        · simp only [rings, List.nodup_cons]
          refine ⟨?_, r5⟩
          rw [r4, ha]
          simp
      · rcases s5 with ⟨rfl, ha⟩ | ⟨o1, rfl, hwant, ha⟩
        · simpa [rings] using r6
        · simp only [rings, List.map_cons, List.pairwise_cons]
          refine ⟨?_, r6⟩
          intro t ht
          simp only [List.mem_map, Prod.exists, exists_eq_right] at ht
          obtain ⟨o, ho⟩ := ht
          rw [r4, ha] at ho
          simp only at ho
          by_cases hoo : o = o1
          · subst hoo; simp at ho
          · rw [Function.update_of_ne hoo] at ho
            exact s4 o t ho

/-- C05 (liveness).  After any legal history, processing the queue to exhaustion (finitely many
deliveries) wakes every owner that has a wish exactly once, at exactly the wished time and in order of
time, and wakes nobody else. -/
theorem C05_no_wakeup_lost {ι : Type} [DecidableEq ι] [Fintype ι] (clock : Int)
    (ops : List (AlarmOp ι)) (hl : Legal (World.init ι clock) ops) :
    ∃ os w', run (World.init ι clock) ops = some (os, w') ∧
      ∃ k os' w'', run w' (List.replicate k .deliver) = some (os', w'') ∧
        w''.step .deliver = some (.idle, w'') ∧
        (∀ o t, (o, t) ∈ rings os' ↔ (absW w').want o = some t) ∧ (rings os').Nodup ∧
        ((rings os').map Prod.snd).Pairwise (· ≤ ·) := by
  obtain ⟨os, w', h1, h2, _⟩ := run_refines ops _ (winv_init ι clock) hl
  obtain ⟨k, os', w'', r1, r2, r3, r4, r5, r6⟩ := drain (work w') w' h2 le_rfl
  exact ⟨os, w', h1, k, os', w'', r1, (deliver_idle w'' r2 r3).1, r4, r5, r6⟩

/-- C06.  After any legal history, when the next queued event is one of owner `o` at time `t`, it is
accepted iff `o` currently wishes to be woken at exactly `t`; an accepted wake-up clears the wish, a
refused one leaves all wishes as they were. -/
theorem C06_accept_iff_desired {ι : Type} [DecidableEq ι] (clock : Int)
    (ops : List (AlarmOp ι)) (hl : Legal (World.init ι clock) ops) (os : List (AlarmOut ι))
    (w : World ι) (hrun : run (World.init ι clock) ops = some (os, w))
    (e : Event ι) (q' : Queue ι) (hd : w.q.dequeue = .ok (some e) q') :
    ∃ out w', w.step .deliver = some (out, w') ∧
      (out = .ring e.payload q'.cur ↔ (absW w).want e.payload = some q'.cur) ∧
      (out ≠ .ring e.payload q'.cur → out = .silent ∧ (absW w').want = (absW w).want) ∧
      (out = .ring e.payload q'.cur → (absW w').want = Function.update (absW w).want e.payload none) := by
  obtain ⟨os1, w1, h1, h2, _⟩ := run_refines ops _ (winv_init ι clock) hl
  rw [hrun] at h1
  simp only [Option.some.injEq, Prod.mk.injEq] at h1
  obtain ⟨-, rfl⟩ := h1
  have h0 : content w.q.buckets ≠ 0 := by
    intro h0
    rw [dequeue_empty h2.queue h0] at hd
    simp at hd
  obtain ⟨e1, q1, d1, d2, d3, d4, d5, d6⟩ := dequeue_spec h2.queue h0
  rw [hd] at d1
  simp only [DeqResult.ok.injEq, Option.some.injEq] at d1
  obtain ⟨rfl, rfl⟩ := d1
  obtain ⟨out, w', s1, s2, s3, s4, s5, _⟩ := deliver_spec w h2 h0
  have hcur : w'.q.cur = q'.cur := by
    have hs := s1
    simp only [World.step, hd, dequeueDecision, Option.some.injEq, Prod.mk.injEq] at hs
    obtain ⟨-, rfl⟩ := hs
    simp only
    split
    · rfl
    · split
      · rfl
      · split <;> rfl
  have hpay : ∀ o, out = .ring o w'.q.cur → o = e.payload := by
    intro o ho
    have hs := s1
    simp only [World.step, hd, Option.some.injEq, Prod.mk.injEq] at hs
    obtain ⟨hs, -⟩ := hs
    rw [ho] at hs
    split at hs
    · simp only [AlarmOut.ring.injEq] at hs; exact hs.1.symm
    · simp at hs
  rw [hcur] at s5 hpay
  refine ⟨out, w', s1, ⟨?_, ?_⟩, ?_, ?_⟩
  · rintro rfl
    rcases s5 with ⟨hc, _⟩ | ⟨o, ho, hwant, _⟩
    · simp at hc
    · simp only [AlarmOut.ring.injEq, and_true] at ho
      rw [ho]; exact hwant
  · intro hwant
    -- the wish is at the clock, so the queued time is the clock too
    have hdes : (w.tr e.payload).hasDesired = true := by
      by_contra hc
      simp [absW, hc] at hwant
    simp only [absW, hdes, if_true, Option.some.injEq] at hwant
    obtain ⟨a1, a2, a3⟩ := h2.desired _ hdes
    have hqge : q'.cur ≤ ft w.q.cur (w.tr e.payload).queued := d5 _ (h2.queued _ a1)
    have hev : ft w.q.cur e.time = q'.cur := by rw [d4]; rfl
    have hq : (w.tr e.payload).queued = e.time := by
      rw [← ofTime_ft w.q.cur (w.tr e.payload).queued, ← ofTime_ft w.q.cur e.time]
      congr 1
      omega
    have hde : (w.tr e.payload).desired = e.time := by
      rw [← ofTime_ft w.q.cur (w.tr e.payload).desired, ← ofTime_ft w.q.cur e.time]
      congr 1
      omega
    have hs := s1
    simp only [World.step, hd, dequeueDecision, a1, hdes, hq, hde, Option.some.injEq, Prod.mk.injEq] at hs
    obtain ⟨hs, -⟩ := hs
    rw [← hs]
    simp
  · intro hne
    rcases s5 with ⟨rfl, ha⟩ | ⟨o, ho, _, _⟩
    · exact ⟨rfl, by rw [ha]⟩
    · exact absurd (by rw [ho, hpay o ho]) hne
  · rintro rfl
    rcases s5 with ⟨hc, _⟩ | ⟨o, ho, hwant, ha⟩
    · simp at hc
    · simp only [AlarmOut.ring.injEq, and_true] at ho
      rw [ha, ho]

/-- The hypotheses of `C06_accept_iff_desired` are met by the one-wish history. -/
example : Legal (World.init Bool 0) [.set true 10] ∧
    ∃ os w e q', run (World.init Bool 0) [.set true 10] = some (os, w) ∧
      w.q.dequeue = .ok (some e) q' := by
  have hl : Legal (World.init Bool 0) [.set true 10] :=
    ⟨by rintro o t ⟨⟩; simp [World.init, Queue.init], fun _ _ _ => trivial⟩
  refine ⟨hl, ?_⟩
  obtain ⟨os, w, h1, h2, _⟩ := run_refines _ _ (winv_init Bool 0) hl
  have hq : (w.tr true).hasQueued = true := by
    simp only [run, World.step, setDesired, World.init, Option.some.injEq, Prod.mk.injEq] at h1
    obtain ⟨-, rfl⟩ := h1
    simp
  have hm := h2.queued true hq
  obtain ⟨e, q', d, _⟩ := dequeue_spec h2.queue (by rintro h; rw [h] at hm; simp at hm)
  exact ⟨os, w, e, q', h1, d⟩

end Verif.Props.Tracker
