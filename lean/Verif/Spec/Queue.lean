import Mathlib.Data.Multiset.AddSub
import Mathlib.Algebra.Order.Group.Multiset

/-!
# Specification of a monotone priority queue

Nothing here mentions buckets, 32-bit values or counters.
-/

namespace Verif.Spec

/-- An abstract priority queue: a clock and a multiset of (time, payload). -/
structure PQ (α : Type) where
  clock : Int
  items : Multiset (Int × α)

/-- What a user can do with the queue. -/
inductive QOp (α : Type) where
  | enq (t : Int) (a : α)
  | deq
  | clear
  | reset

/-- What a user sees: nothing, 'queue was empty', or an event. -/
inductive QOut (α : Type) where
  | unit
  | empty
  | event (t : Int) (a : α)

/-- The allowed behaviours.  Enqueueing is legal within `[clock, clock + 2^31)`; dequeueing returns
*some* item of minimal time and moves the clock to that time. -/
inductive PQ.Step {α : Type} [DecidableEq α] : PQ α → QOp α → QOut α → PQ α → Prop where
  | enq (p : PQ α) (t : Int) (a : α) (h1 : p.clock ≤ t) (h2 : t < p.clock + 2 ^ 31) :
      Step p (.enq t a) .unit ⟨p.clock, (t, a) ::ₘ p.items⟩
  | deqEmpty (p : PQ α) (h : p.items = 0) : Step p .deq .empty p
  | deq (p : PQ α) (t : Int) (a : α) (h : (t, a) ∈ p.items) (hmin : ∀ x ∈ p.items, t ≤ x.1) :
      Step p .deq (.event t a) ⟨t, p.items.erase (t, a)⟩
  | clear (p : PQ α) : Step p .clear .unit ⟨p.clock, 0⟩
  | reset (p : PQ α) : Step p .reset .unit ⟨0, 0⟩

/-- A run of the abstract queue producing a list of outputs. -/
inductive PQ.Run {α : Type} [DecidableEq α] : PQ α → List (QOp α) → List (QOut α) → PQ α → Prop where
  | nil (p : PQ α) : Run p [] [] p
  | cons {p p' p'' : PQ α} {op : QOp α} {o : QOut α} {ops : List (QOp α)} {os : List (QOut α)} :
      PQ.Step p op o p' → Run p' ops os p'' → Run p (op :: ops) (o :: os) p''

/-- The items a list of operations puts in. -/
def enqueuedItems {α : Type} : List (QOp α) → Multiset (Int × α)
  | [] => 0
  | .enq t a :: ops => (t, a) ::ₘ enqueuedItems ops
  | _ :: ops => enqueuedItems ops

/-- The items a list of outputs delivered. -/
def deliveredItems {α : Type} : List (QOut α) → Multiset (Int × α)
  | [] => 0
  | .event t a :: os => (t, a) ::ₘ deliveredItems os
  | _ :: os => deliveredItems os

/-- The delivery times, in order of delivery. -/
def deliveryTimes {α : Type} : List (QOut α) → List Int
  | [] => []
  | .event t _ :: os => t :: deliveryTimes os
  | _ :: os => deliveryTimes os

/-- Operation lists without `clear`/`reset`. -/
def onlyEnqDeq {α : Type} (ops : List (QOp α)) : Prop :=
  ∀ op ∈ ops, (∃ t a, op = QOp.enq t a) ∨ op = QOp.deq

end Verif.Spec
