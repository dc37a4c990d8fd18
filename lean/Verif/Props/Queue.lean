import Verif.RadixHeap
import Verif.Spec.Queue

/-!
# Properties of the event queue and of cyclic times (C01 - C04)
-/

namespace Verif.Props.Queue

open Verif Verif.Cyc Verif.RadixHeap Verif.Spec

/-! ## C02: cyclic times -/

/-- C02 (comparison).  For full times less than `2^31` apart, the cyclic comparisons of their 32-bit
truncations are the ordinary comparisons. -/
theorem C02_cyclic_compare (a b : Int) (h1 : a - b < 2 ^ 31) (h2 : b - a < 2 ^ 31) :
    (lt (ofTime a) (ofTime b) = true ↔ a < b) ∧ (le (ofTime a) (ofTime b) = true ↔ a ≤ b) ∧
    (gt (ofTime a) (ofTime b) = true ↔ b < a) ∧ (ge (ofTime a) (ofTime b) = true ↔ b ≤ a) ∧
    (ofTime a = ofTime b ↔ a = b) := by
  rw [gt_eq_lt, ge_eq_le, lt_iff, lt_iff, le_iff, le_iff, ofTime_eq_iff]
  omega

/-- C02 (widening).  A truncated time is recovered exactly from any reference whose distance is
below `2^31` (one more on the high side). -/
theorem C02_widen_recovers (t r : Int) (h1 : r - t < 2 ^ 31) (h2 : t - r ≤ 2 ^ 31) :
    widen (ofTime t) r = t := by
  apply widen_ofTime <;> omega

/-- C02 (sharpness).  At distance exactly `2^31` behind, widening gives a different time, so the window
in `C02_widen_recovers` cannot be enlarged. -/
theorem C02_widen_window_sharp (r : Int) : widen (ofTime (r - 2 ^ 31)) r = r + 2 ^ 31 := by
  have h : ofTime (r - 2 ^ 31) = ofTime (r + 2 ^ 31) := by
    rw [ofTime_eq_iff]; omega
  rw [h]
  apply widen_ofTime <;> omega

/-- The hypotheses hold across a wrap of the 32-bit counter. -/
example : (4294967290 : Int) - 4294967300 < 2 ^ 31 ∧ (4294967300 : Int) - 4294967290 < 2 ^ 31 ∧
    (ofTime 4294967300).toNat < (ofTime 4294967290).toNat ∧
    lt (ofTime 4294967290) (ofTime 4294967300) = true := by
  decide

/-! ## C01 and C03: the queue refines the priority queue specification -/

/-- What one operation of the modelled queue returns: the 32-bit time and payload of the returned event
together with the queue's clock after the call. -/
inductive COut (α : Type) where
  | unit
  | empty
  | event (v : CycTime) (a : α) (clock : Int)

/-- One operation of the modelled queue; `none` is undefined behaviour. -/
def step {α : Type} (q : Queue α) : QOp α → Option (COut α × Queue α)
  | .enq t a => some (.unit, q.enqueue ⟨ofTime t, a⟩)
  | .deq =>
    match q.dequeue with
    | .ub => none
    | .ok none q' => some (.empty, q')
    | .ok (some e) q' => some (.event e.time e.payload q'.cur, q')
  | .clear => q.clear.map fun q' => (.unit, q')
  | .reset => q.reset.map fun q' => (.unit, q')

/-- A sequence of operations of the modelled queue. -/
def run {α : Type} (q : Queue α) : List (QOp α) → Option (List (COut α) × Queue α)
  | [] => some ([], q)
  | op :: ops =>
    match step q op with
    | none => none
    | some (o, q') =>
      match run q' ops with
      | none => none
      | some (os, q'') => some (o :: os, q'')

/-- A history is legal when every enqueued time lies in `[clock, clock + 2^31)` at that moment. -/
def Legal {α : Type} (q : Queue α) : List (QOp α) → Prop
  | [] => True
  | op :: ops =>
    (∀ t a, op = QOp.enq t a → q.cur ≤ t ∧ t < q.cur + 2 ^ 31) ∧
    ∀ o q', step q op = some (o, q') → Legal q' ops

/-- The abstract reading of a concrete output; an event whose 32-bit time is not the truncation of the
clock has no abstract reading. -/
def absOut {α : Type} : COut α → Option (QOut α)
  | .unit => some .unit
  | .empty => some .empty
  | .event v a clock => if v = ofTime clock then some (.event clock a) else none

/-- The abstract reading of the modelled queue. -/
def absQ {α : Type} (q : Queue α) : PQ α :=
  ⟨q.cur, (content q.buckets).map fun e => (fullTime q.cur e, e.payload)⟩

theorem step_refines {α : Type} [DecidableEq α] (q : Queue α) (hq : Inv q) (op : QOp α)
    (hl : ∀ t a, op = QOp.enq t a → q.cur ≤ t ∧ t < q.cur + 2 ^ 31) :
    ∃ o q' o', step q op = some (o, q') ∧ absOut o = some o' ∧ PQ.Step (absQ q) op o' (absQ q') ∧
      Inv q' := by
  cases op with
  | enq t a =>
    obtain ⟨h1, h2⟩ := hl t a rfl
    have hft : fullTime q.cur (⟨ofTime t, a⟩ : Event α) = t :=
      fullTime_ofTime q.cur t a h1 (by omega)
    obtain ⟨hi, hc⟩ := inv_enqueue hq ⟨ofTime t, a⟩ (by rw [hft]; omega)
    refine ⟨.unit, _, .unit, rfl, rfl, ?_, hi⟩
    have : absQ (q.enqueue ⟨ofTime t, a⟩) = ⟨(absQ q).clock, (t, a) ::ₘ (absQ q).items⟩ := by
      unfold absQ
      rw [hc, Multiset.map_cons]
      show PQ.mk q.cur ((fullTime q.cur (⟨ofTime t, a⟩ : Event α), a) ::ₘ _) = _
      rw [hft]
      rfl
    rw [this]
    exact PQ.Step.enq _ _ _ h1 h2
  | deq =>
    by_cases hc : content q.buckets = 0
    · refine ⟨.empty, q, .empty, ?_, rfl, ?_, hq⟩
      · simp only [step, dequeue_empty hq hc]
      · exact PQ.Step.deqEmpty _ (by simp [absQ, hc])
    · obtain ⟨e, q', h1, h2, h3, h4, h5, h6⟩ := dequeue_spec hq hc
      have hadv : ∀ f ∈ content q.buckets, fullTime q'.cur f = fullTime q.cur f := fun f hf =>
        fullTime_advance _ _ f h6 (h5 f hf)
      refine ⟨.event e.time e.payload q'.cur, q', .event q'.cur e.payload, ?_, ?_, ?_, h2⟩
      · simp only [step, h1]
      · simp only [absOut]
        rw [h4, (fullTime_spec q.cur e).2]
        simp
      · have hitems : (absQ q).items = (q'.cur, e.payload) ::ₘ (absQ q').items := by
          simp only [absQ]
          rw [h3, Multiset.map_cons, ← h4]
          congr 1
          refine Multiset.map_congr rfl fun f hf => ?_
          rw [hadv f (by rw [h3]; simp [hf])]
        have : absQ q' = ⟨q'.cur, (absQ q).items.erase (q'.cur, e.payload)⟩ := by
          rw [hitems, Multiset.erase_cons_head]
          rfl
        rw [this]
        refine PQ.Step.deq _ _ _ (by rw [hitems]; simp) ?_
        intro x hx
        simp only [absQ, Multiset.mem_map] at hx
        obtain ⟨f, hf, rfl⟩ := hx
        exact h5 f hf
  | clear =>
    obtain ⟨q', h1, h2, h3, h4⟩ := clear_spec hq
    refine ⟨.unit, q', .unit, by simp [step, h1], rfl, ?_, h2⟩
    have : absQ q' = ⟨(absQ q).clock, 0⟩ := by
      unfold absQ
      rw [h3, h4]
      rfl
    rw [this]
    exact PQ.Step.clear _
  | reset =>
    obtain ⟨q', h1, h2, h3, h4⟩ := clear_spec hq
    refine ⟨.unit, { q' with cur := 0 }, .unit, by simp [step, Queue.reset, h1], rfl, ?_, ?_⟩
    · have : absQ { q' with cur := 0 } = ⟨0, 0⟩ := by
        unfold absQ
        simp only [h3]
        rfl
      rw [this]
      exact PQ.Step.reset _
    · refine inv_of_empty ?_ h3
      have := h2.num_eq
      rw [h3] at this
      exact this

/-- C01.  Every legal history of the event queue, from any starting clock, runs without undefined
behaviour and is a run of the abstract monotone priority queue with the same outputs: each dequeue
returns an item of minimal time and moves the clock to that time. -/
theorem C01_queue_refines_priority_queue {α : Type} [DecidableEq α] (clock : Int) (ops : List (QOp α))
    (hl : Legal (Queue.init α clock) ops) :
    ∃ os q' os', run (Queue.init α clock) ops = some (os, q') ∧ os.map absOut = os'.map some ∧
      PQ.Run ⟨clock, 0⟩ ops os' (absQ q') := by
  have gen : ∀ (ops : List (QOp α)) (q : Queue α), Inv q → Legal q ops →
      ∃ os q' os', run q ops = some (os, q') ∧ os.map absOut = os'.map some ∧
        PQ.Run (absQ q) ops os' (absQ q') := by
    intro ops
    induction ops with
    | nil => intro q _ _; exact ⟨[], q, [], rfl, rfl, PQ.Run.nil _⟩
    | cons op ops ih =>
      intro q hq hl
      obtain ⟨o, q1, o', h1, h2, h3, h4⟩ := step_refines q hq op hl.1
      obtain ⟨os, q', os', r1, r2, r3⟩ := ih q1 h4 (hl.2 o q1 h1)
      exact ⟨o :: os, q', o' :: os', by simp only [run, h1, r1], by simp [h2, r2], PQ.Run.cons h3 r3⟩
  have h := gen ops (Queue.init α clock) (inv_init α clock) hl
  have : absQ (Queue.init α clock) = ⟨clock, 0⟩ := by
    unfold absQ
    rw [content_init]
    rfl
  rwa [this] at h

/-- A legal history of length 4 whose events straddle the 32-bit wrap. -/
example : Legal (Queue.init String 4294967290)
    [.enq 4294967300 "b", .enq 4294967293 "a", .deq, .deq] := by
  refine ⟨?_, ?_⟩
  · rintro t a ⟨⟩; simp [Queue.init]
  · rintro o q' h
    simp only [step, Option.some.injEq, Prod.mk.injEq] at h
    obtain ⟨-, rfl⟩ := h
    refine ⟨?_, ?_⟩
    · rintro t a ⟨⟩; simp [Queue.init, Queue.enqueue]
    · rintro o q' h
      refine ⟨by simp, ?_⟩
      intro o q'' h
      exact ⟨by simp, fun _ _ _ => trivial⟩

/-- Clock monotonicity of abstract runs without `reset`: deliveries never happen before the clock. -/
theorem run_times {α : Type} [DecidableEq α] {p p' : PQ α} {ops : List (QOp α)} {os : List (QOut α)}
    (h : PQ.Run p ops os p') (hp : ∀ x ∈ p.items, p.clock ≤ x.1) (hno : onlyEnqDeq ops) :
    (∀ t ∈ deliveryTimes os, p.clock ≤ t) ∧ (deliveryTimes os).Pairwise (· ≤ ·) := by
  induction h with
  | nil p => simp [deliveryTimes]
  | cons hs hr ih =>
    rename_i p p1 p2 op o ops os
    have hno' : onlyEnqDeq ops := fun x hx => hno x (by simp [hx])
    cases hs with
    | enq t a h1 h2 =>
      have := ih (by
        intro x hx
        simp only [Multiset.mem_cons] at hx
        rcases hx with rfl | hx
        · exact h1
        · exact hp x hx) hno'
      simpa [deliveryTimes] using this
    | deqEmpty hz =>
      simpa [deliveryTimes] using ih hp hno'
    | deq t a hmem hmin =>
      have := ih (by
        intro x hx
        exact hmin x (Multiset.mem_of_mem_erase hx)) hno'
      have h0 := hp _ hmem
      simp only [deliveryTimes, List.mem_cons, forall_eq_or_imp, List.pairwise_cons]
      exact ⟨⟨h0, fun t' ht' => le_trans h0 (this.1 t' ht')⟩, this.1, this.2⟩
    | clear =>
      rcases hno _ (List.mem_cons_self) with ⟨t, a, h⟩ | h <;> simp at h
    | reset =>
      rcases hno _ (List.mem_cons_self) with ⟨t, a, h⟩ | h <;> simp at h

/-- C01 (order).  In a legal history of enqueues and dequeues the delivered times never decrease. -/
theorem C01_delivery_times_sorted {α : Type} [DecidableEq α] (clock : Int) (ops : List (QOp α))
    (hl : Legal (Queue.init α clock) ops) (hno : onlyEnqDeq ops) :
    ∃ os q' os', run (Queue.init α clock) ops = some (os, q') ∧ os.map absOut = os'.map some ∧
      (deliveryTimes os').Pairwise (· ≤ ·) := by
  obtain ⟨os, q', os', h1, h2, h3⟩ := C01_queue_refines_priority_queue clock ops hl
  exact ⟨os, q', os', h1, h2, (run_times h3 (by simp) hno).2⟩

/-- Conservation in the abstract queue. -/
theorem run_conserves {α : Type} [DecidableEq α] {p p' : PQ α} {ops : List (QOp α)} {os : List (QOut α)}
    (h : PQ.Run p ops os p') (hno : onlyEnqDeq ops) :
    p.items + enqueuedItems ops = deliveredItems os + p'.items := by
  induction h with
  | nil p => simp [enqueuedItems, deliveredItems]
  | cons hs hr ih =>
    rename_i p p1 p2 op o ops os
    have ih := ih (fun x hx => hno x (by simp [hx]))
    cases hs with
    | enq t a h1 h2 =>
      simp only [enqueuedItems, deliveredItems] at *
      rw [← ih, Multiset.add_cons, Multiset.cons_add]
    | deqEmpty hz =>
      simpa [enqueuedItems, deliveredItems] using ih
    | deq t a hmem hmin =>
      simp only [enqueuedItems, deliveredItems] at *
      rw [Multiset.cons_add, ← ih, ← Multiset.cons_add, Multiset.cons_erase hmem]
    | clear =>
      rcases hno _ (List.mem_cons_self) with ⟨t, a, h⟩ | h <;> simp at h
    | reset =>
      rcases hno _ (List.mem_cons_self) with ⟨t, a, h⟩ | h <;> simp at h

/-- C03 (conservation).  At the end of every legal history of enqueues and dequeues, the events put in
are exactly the events delivered plus the events still pending, with multiplicity; and `size()` is the
number pending. -/
theorem C03_nothing_lost_or_duplicated {α : Type} [DecidableEq α] (clock : Int) (ops : List (QOp α))
    (hl : Legal (Queue.init α clock) ops) (hno : onlyEnqDeq ops) :
    ∃ os q' os', run (Queue.init α clock) ops = some (os, q') ∧ os.map absOut = os'.map some ∧
      enqueuedItems ops = deliveredItems os' + (absQ q').items ∧
      q'.num = Multiset.card (absQ q').items := by
  have gen : ∀ (ops : List (QOp α)) (q : Queue α), Inv q → Legal q ops → ∀ os q', run q ops = some (os, q') → Inv q' := by
    intro ops
    induction ops with
    | nil => intro q hq _ os q' h; simp only [run, Option.some.injEq, Prod.mk.injEq] at h; exact h.2 ▸ hq
    | cons op ops ih =>
      intro q hq hl os q' h
      obtain ⟨o, q1, o', h1, h2, h3, h4⟩ := step_refines q hq op hl.1
      simp only [run, h1] at h
      cases hr : run q1 ops with
      | none => simp [hr] at h
      | some r =>
        simp only [hr, Option.some.injEq, Prod.mk.injEq] at h
        exact ih q1 h4 (hl.2 o q1 h1) r.1 q' (by rw [hr, ← h.2])
  obtain ⟨os, q', os', h1, h2, h3⟩ := C01_queue_refines_priority_queue clock ops hl
  refine ⟨os, q', os', h1, h2, ?_, ?_⟩
  · have := run_conserves h3 hno
    simpa using this
  · have := (gen ops _ (inv_init α clock) hl os q' h1).num_eq
    simpa [absQ] using this

/-- C03 (clear).  After any legal history, `clear()` empties the queue without undefined behaviour and
keeps the clock; a following dequeue reports 'no event'. -/
theorem C03_clear_empties {α : Type} [DecidableEq α] (clock : Int) (ops : List (QOp α))
    (hl : Legal (Queue.init α clock) ops) :
    ∃ os q', run (Queue.init α clock) ops = some (os, q') ∧
      ∃ q'', q'.clear = some q'' ∧ q''.num = 0 ∧ (absQ q'').items = 0 ∧ q''.cur = q'.cur ∧
        q''.dequeue = .ok none q'' := by
  have gen : ∀ (ops : List (QOp α)) (q : Queue α), Inv q → Legal q ops → ∃ os q', run q ops = some (os, q') ∧ Inv q' := by
    intro ops
    induction ops with
    | nil => intro q hq _; exact ⟨[], q, rfl, hq⟩
    | cons op ops ih =>
      intro q hq hl
      obtain ⟨o, q1, o', h1, h2, h3, h4⟩ := step_refines q hq op hl.1
      obtain ⟨os, q', r1, r2⟩ := ih q1 h4 (hl.2 o q1 h1)
      exact ⟨o :: os, q', by simp only [run, h1, r1], r2⟩
  obtain ⟨os, q', h1, h2⟩ := gen ops _ (inv_init α clock) hl
  obtain ⟨q'', c1, c2, c3, c4⟩ := clear_spec h2
  refine ⟨os, q', h1, q'', c1, ?_, by simp [absQ, c3], c4, dequeue_empty c2 c3⟩
  have := c2.num_eq
  rw [c3] at this
  exact this

/-! ## C04: listing the pending events -/

/-- C04, full statement: in every queue reachable from the default-constructed one, the snapshot has as
many entries as events pending. -/
def C04_statement : Prop :=
  ∀ ops : List (QOp Unit), Legal (Queue.init Unit 0) ops →
    ∀ os q', run (Queue.init Unit 0) ops = some (os, q') → q'.toVector.length = q'.num

/-- The witness: clock `2^31 - 1`, one event at `2^31`; it goes to bucket 32. -/
theorem C04_witness_bucket : bucketFor 2147483647 (ofTime 2147483648) = 32 := by
  apply Fin.ext
  unfold bucketFor
  simp only
  have : (ofTime 2147483648 ^^^ ofTime 2147483647).toNat = 2 ^ 32 - 1 := by decide
  rw [this]
  show Nat.size (2 ^ 32 - 1) = 32
  apply le_antisymm
  · rw [Nat.size_le]; norm_num
  · rw [← not_lt, ← Nat.le_pred_iff_lt (by norm_num), Nat.size_le]; norm_num

/-- C04 is false: after delivering an event at `2^31 - 1`, an event enqueued for `2^31` is pending but
not listed. -/
theorem C04_snapshot_can_miss_events : ¬ C04_statement := by
  intro h
  -- the queue after the first enqueue
  have hf : fullTime 0 (⟨ofTime 2147483647, ()⟩ : Event Unit) = 2147483647 :=
    fullTime_ofTime 0 2147483647 () (by decide) (by decide)
  obtain ⟨i1, c1⟩ := inv_enqueue (inv_init Unit 0) ⟨ofTime 2147483647, ()⟩
    (by show fullTime 0 _ < _; rw [hf]; decide)
  rw [content_init] at c1
  have s1 : step (Queue.init Unit 0) (.enq 2147483647 ()) =
      some (.unit, (Queue.init Unit 0).enqueue ⟨ofTime 2147483647, ()⟩) := rfl
  generalize hq1 : (Queue.init Unit 0).enqueue ⟨ofTime 2147483647, ()⟩ = q1 at *
  have hcur1 : q1.cur = 0 := by rw [← hq1]; rfl
  -- the queue after the dequeue
  obtain ⟨e, q2, d1, d2, d3, d4, d5, d6⟩ := dequeue_spec i1 (by rw [c1]; simp)
  rw [c1] at d3
  have he : e = ⟨ofTime 2147483647, ()⟩ := by
    have : e ∈ ({⟨ofTime 2147483647, ()⟩} : Multiset (Event Unit)) := by
      have h0 : e ∈ (⟨ofTime 2147483647, ()⟩ ::ₘ 0 : Multiset (Event Unit)) := by rw [d3]; simp
      simpa using h0
    simpa using this
  have hc2 : content q2.buckets = 0 := by
    have hcard := congrArg Multiset.card d3
    simp only [Multiset.card_cons, Multiset.card_zero] at hcard
    exact Multiset.card_eq_zero.1 (by omega)
  have hcur2 : q2.cur = 2147483647 := by rw [d4, hcur1, he, hf]
  have s2 : step q1 .deq = some (.event e.time e.payload q2.cur, q2) := by simp only [step, d1]
  -- the queue after the second enqueue
  have s3 : step q2 (.enq 2147483648 ()) = some (.unit, q2.enqueue ⟨ofTime 2147483648, ()⟩) := rfl
  have hlegal : Legal (Queue.init Unit 0) [.enq 2147483647 (), .deq, .enq 2147483648 ()] := by
    refine ⟨?_, ?_⟩
    · rintro t a ⟨⟩; simp [Queue.init]
    · intro o q hs
      rw [s1] at hs
      simp only [Option.some.injEq, Prod.mk.injEq] at hs
      obtain ⟨-, rfl⟩ := hs
      refine ⟨by simp, ?_⟩
      intro o q hs
      rw [s2] at hs
      simp only [Option.some.injEq, Prod.mk.injEq] at hs
      obtain ⟨-, rfl⟩ := hs
      refine ⟨?_, fun _ _ _ => trivial⟩
      rintro t a ⟨⟩
      rw [hcur2]; decide
  have hrun : run (Queue.init Unit 0) [.enq 2147483647 (), .deq, .enq 2147483648 ()] =
      some ([.unit, .event e.time e.payload q2.cur, .unit], q2.enqueue ⟨ofTime 2147483648, ()⟩) := by
    simp only [run, s1, s2, s3]
  have hq := h _ hlegal _ _ hrun
  have hf3 : fullTime q2.cur (⟨ofTime 2147483648, ()⟩ : Event Unit) = 2147483648 := by
    rw [hcur2]; exact fullTime_ofTime _ 2147483648 () (by decide) (by decide)
  obtain ⟨i3, c3⟩ := inv_enqueue d2 ⟨ofTime 2147483648, ()⟩ (by rw [hf3, hcur2]; decide)
  have h32 : (q2.enqueue ⟨ofTime 2147483648, ()⟩).buckets 32 ≠ [] := by
    have hm := i3.mem_bucket (e := ⟨ofTime 2147483648, ()⟩) (by rw [c3]; simp)
    have : (q2.enqueue ⟨ofTime 2147483648, ()⟩).cur = 2147483647 := hcur2
    rw [this, C04_witness_bucket] at hm
    exact List.ne_nil_of_mem hm
  have hcard := congrArg Multiset.card (toVector_content (q2.enqueue ⟨ofTime 2147483648, ()⟩))
  rw [← i3.num_eq, Multiset.card_add, Multiset.coe_card, Multiset.coe_card, hq] at hcard
  have := List.length_pos_of_ne_nil h32
  omega

/-- C04 (partial).  Whenever no pending event is on the other side of a multiple of `2^31` from the
clock, the snapshot lists every pending event exactly once, sorted by time.  Missing for the full
claim: events in the last bucket (see `C04_snapshot_can_miss_events`). -/
theorem C04_snapshot_complete_partial {α : Type} (q : Queue α) (h : Inv q)
    (hside : ∀ x ∈ (absQ q).items, x.1 / 2 ^ 31 = q.cur / 2 ^ 31) :
    (q.toVector.map fun e => (fullTime q.cur e, e.payload) : Multiset (Int × α)) = (absQ q).items ∧
    (q.toVector.map fun e => fullTime q.cur e).Pairwise (· ≤ ·) := by
  have h32 : q.buckets 32 = [] := by
    rw [List.eq_nil_iff_forall_not_mem]
    intro e he
    have hm : e ∈ content q.buckets := mem_content.2 ⟨32, he⟩
    have h1 := hside (fullTime q.cur e, e.payload) (by
      simp only [absQ, Multiset.mem_map]
      exact ⟨e, hm, rfl⟩)
    have h2 := (bucket_le_iff (h.window' hm) 31 le_rfl).2 h1
    rw [h.bucket 32 e he] at h2
    exact absurd h2 (by decide)
  have hc := toVector_content q
  rw [h32] at hc
  simp only [Multiset.coe_nil, add_zero] at hc
  refine ⟨?_, ?_⟩
  · rw [← Multiset.map_coe, hc]; rfl
  · rw [List.pairwise_map]
    exact toVector_sorted h

/-- The hypotheses of `C04_snapshot_complete_partial` hold for a queue with two pending events. -/
example : Inv ((Queue.init Unit 0).enqueue ⟨ofTime 7, ()⟩ |>.enqueue ⟨ofTime 3, ()⟩) ∧
    ∀ x ∈ (absQ ((Queue.init Unit 0).enqueue ⟨ofTime 7, ()⟩ |>.enqueue ⟨ofTime 3, ()⟩)).items,
      x.1 / 2 ^ 31 = 0 / 2 ^ 31 := by
  have i1 := inv_enqueue (inv_init Unit 0) ⟨ofTime 7, ()⟩ (by decide)
  have i2 := inv_enqueue i1.1 ⟨ofTime 3, ()⟩ (by decide)
  refine ⟨i2.1, ?_⟩
  intro x hx
  simp only [absQ, i2.2, i1.2, content_init, Multiset.map_cons, Multiset.mem_cons, Multiset.map_zero,
    Multiset.notMem_zero, or_false] at hx
  rcases hx with rfl | rfl <;> decide

/-- C01 (validation).  With validation on, an enqueue is rejected exactly when the event is before the
clock (for events within half a cycle of the clock). -/
theorem C01_validation_rejects_past {α : Type} (q : Queue α) (t : Int) (a : α)
    (h1 : q.cur - t < 2 ^ 31) (h2 : t - q.cur < 2 ^ 31) :
    (q.enqueueValidated ⟨ofTime t, a⟩ = none ↔ t < q.cur) := by
  unfold Queue.enqueueValidated
  have := (C02_cyclic_compare t q.cur h2 h1).1
  simp only
  by_cases hc : t < q.cur
  · simp [this.2 hc, hc]
  · have h' : lt (ofTime t) (ofTime q.cur) = false := by
      rw [Bool.eq_false_iff]
      intro hh
      exact hc (this.1 hh)
    simp [h', hc]

end Verif.Props.Queue
