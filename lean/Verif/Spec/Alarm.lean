import Mathlib.Logic.Function.Basic

/-!
# Specification of wake-up tracking: a set of alarm clocks

Each owner may want to be woken at one time.  Nothing here mentions queued events.
-/

namespace Verif.Spec

/-- The current time and what each owner wants. -/
structure Alarm (ι : Type) where
  clock : Int
  want : ι → Option Int

inductive AlarmOp (ι : Type) where
  /-- owner `o` asks to be woken at `t` (replacing any earlier wish) -/
  | set (o : ι) (t : Int)
  /-- owner `o` no longer wants to be woken -/
  | unset (o : ι)
  /-- take the next event from the queue and process it -/
  | deliver

inductive AlarmOut (ι : Type) where
  | unit
  /-- the queue was empty -/
  | idle
  /-- an event was processed, nobody was woken -/
  | silent
  /-- owner `o` was woken at time `t` -/
  | ring (o : ι) (t : Int)

/-- Allowed behaviours.  `idle` only if nobody wants anything; `silent` may advance the clock but never
past a wish; `ring` wakes an owner exactly at its wish, which is the earliest wish of all. -/
inductive Alarm.Step {ι : Type} [DecidableEq ι] : Alarm ι → AlarmOp ι → AlarmOut ι → Alarm ι → Prop where
  | set (a : Alarm ι) (o : ι) (t : Int) (h1 : a.clock ≤ t) (h2 : t < a.clock + 2 ^ 31) :
      Step a (.set o t) .unit ⟨a.clock, Function.update a.want o (some t)⟩
  | unset (a : Alarm ι) (o : ι) : Step a (.unset o) .unit ⟨a.clock, Function.update a.want o none⟩
  | idle (a : Alarm ι) (h : ∀ o, a.want o = none) : Step a .deliver .idle a
  | silent (a : Alarm ι) (c : Int) (h1 : a.clock ≤ c) (h2 : ∀ o t, a.want o = some t → c ≤ t) :
      Step a .deliver .silent ⟨c, a.want⟩
  | ring (a : Alarm ι) (o : ι) (t : Int) (h1 : a.clock ≤ t) (h : a.want o = some t)
      (hmin : ∀ o' t', a.want o' = some t' → t ≤ t') :
      Step a .deliver (.ring o t) ⟨t, Function.update a.want o none⟩

/-- A run producing a list of outputs. -/
inductive Alarm.Run {ι : Type} [DecidableEq ι] :
    Alarm ι → List (AlarmOp ι) → List (AlarmOut ι) → Alarm ι → Prop where
  | nil (a : Alarm ι) : Run a [] [] a
  | cons {a a' a'' : Alarm ι} {op : AlarmOp ι} {o : AlarmOut ι} {ops : List (AlarmOp ι)}
      {os : List (AlarmOut ι)} :
      Alarm.Step a op o a' → Run a' ops os a'' → Run a (op :: ops) (o :: os) a''

end Verif.Spec
