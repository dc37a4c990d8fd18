import Verif.Arena

/-!
# Property of the region/tree-node allocator (C09)
-/

namespace Verif.Props.Arena

open Verif.Mem

/-! ## Specification: a client that holds a multiset of live objects -/

/-- A client call.  `alloc m`: an allocation during which `malloc`, if called, returns `m`. -/
inductive Op where
  | alloc (m : Nat)
  | del (p : Nat)
deriving DecidableEq

/-- What the client observes together with its own bookkeeping: arena, live objects. -/
structure World where
  arena : Arena
  live : Multiset Nat

/-- One client call.  Result `none` for a call that breaks the contract: deleting something that is not
live, or a `malloc` that returns memory that is already in use. -/
def step (w : World) : Op → Option World
  | .alloc m =>
    if m ∈ w.arena.allocated then none
    else some ⟨(w.arena.alloc m).1, (w.arena.alloc m).2 ::ₘ w.live⟩
  | .del p => if p ∈ w.live then some ⟨w.arena.del p, w.live.erase p⟩ else none

/-- A history of client calls. -/
def run (w : World) : List Op → Option World
  | [] => some w
  | o :: os => (step w o).bind (run · os)

/-- A fresh arena and a client without objects. -/
def start : World := ⟨Arena.empty, 0⟩

def numAllocs (os : List Op) : Nat := os.countP (fun o => match o with | .alloc _ => true | .del _ => false)
def numDels (os : List Op) : Nat := os.countP (fun o => match o with | .alloc _ => false | .del _ => true)

theorem run_inv {w w' : World} {os : List Op} (h : run w os = some w') (hi : Inv w.arena w.live) :
    Inv w'.arena w'.live ∧ w'.live.card + numDels os = w.live.card + numAllocs os := by
  induction os generalizing w with
  | nil =>
    simp only [run, Option.some.injEq] at h
    subst h
    exact ⟨hi, by simp [numDels, numAllocs]⟩
  | cons o os ih =>
    simp only [run, Option.bind_eq_some_iff] at h
    obtain ⟨w1, h1, h2⟩ := h
    cases o with
    | alloc m =>
      by_cases hm : m ∈ w.arena.allocated
      · simp [step, hm] at h1
      · simp only [step, hm, if_false, Option.some.injEq] at h1
        subst h1
        obtain ⟨h3, h4⟩ := ih h2 (inv_alloc hi hm).1
        refine ⟨h3, ?_⟩
        simp only [Multiset.card_cons] at h4
        simp only [numDels, numAllocs, List.countP_cons] at h4 ⊢
        simp; omega
    | del p =>
      by_cases hp : p ∈ w.live
      · simp only [step, hp, if_true, Option.some.injEq] at h1
        subst h1
        obtain ⟨h3, h4⟩ := ih h2 (inv_del hi hp)
        refine ⟨h3, ?_⟩
        have := Multiset.card_erase_add_one hp
        simp only [numDels, numAllocs, List.countP_cons] at h4 ⊢
        simp; omega
      · simp [step, hp] at h1

/-- C09.  After any contract-respecting history, an allocation never returns an object that is live,
whatever (unused) address `malloc` would provide. -/
theorem C09_alloc_never_aliases {os : List Op} {w : World} (h : run start os = some w) (m : Nat)
    (hm : m ∉ w.arena.allocated) : (w.arena.alloc m).2 ∉ w.live ∧ w.live.Nodup := by
  obtain ⟨hi, -⟩ := run_inv h inv_empty
  refine ⟨(inv_alloc hi hm).2, ?_⟩
  have hn : (w.arena.allocated : Multiset Nat).Nodup := Multiset.coe_nodup.2 hi.nodup
  rw [hi.split] at hn
  exact (Multiset.nodup_add.1 hn).1

/-- C09.  The number of live objects is allocations minus deletions, and it is what the decoder computes
from the sizes of the two lists to decide whether alternating-tree nodes are left over
(mwpm_decoding.cc:138-145). -/
theorem C09_live_count {os : List Op} {w : World} (h : run start os = some w) :
    w.live.card + numDels os = numAllocs os ∧
    w.arena.allocated.length = w.live.card + w.arena.available.length ∧
    (w.arena.allocated.length ≠ w.arena.available.length ↔ w.live ≠ 0) := by
  obtain ⟨hi, hc⟩ := run_inv h inv_empty
  have h1 : w.live.card + numDels os = numAllocs os := by simpa [start] using hc
  have h2 : w.arena.allocated.length = w.live.card + w.arena.available.length := by
    have := congrArg Multiset.card hi.split
    simpa using this
  refine ⟨h1, h2, ?_⟩
  rw [h2, ← Multiset.card_pos]
  omega

/-- C09.  Storage released by a deletion is reused first: the next allocation returns it without asking
`malloc` for memory. -/
theorem C09_reuse {os : List Op} {w : World} (_h : run start os = some w) (p m : Nat) :
    ((w.arena.del p).alloc m).2 = p ∧ ((w.arena.del p).alloc m).1 = w.arena := by
  rw [alloc_cons (l := w.arena.available) (x := p) rfl]
  exact ⟨rfl, rfl⟩

/-- C09.  Destroying the arena runs the destructor of exactly the live objects, once each, and frees each
`malloc`ed block exactly once. -/
theorem C09_destructor {os : List Op} {w : World} (h : run start os = some w) :
    (w.arena.destroy.1 : Multiset Nat) = w.live ∧
    (w.arena.destroy.2 : Multiset Nat) = (w.arena.allocated : Multiset Nat) ∧ w.arena.destroy.2.Nodup :=
  destroy_spec (run_inv h inv_empty).1

/-- The contract is needed: a second deletion of the same object makes two later allocations return the
same address. -/
theorem C09_double_delete_aliases (m p m1 m2 : Nat) :
    let a := (((Arena.empty.alloc m).1.del p).del p)
    let r1 := a.alloc m1
    let r2 := r1.1.alloc m2
    r1.2 = r2.2 := by
  simp [Arena.empty, Arena.alloc, Arena.del]

/-- A non-trivial history satisfies the hypotheses (two live objects, one reused block). -/
example : ∃ w, run start [.alloc 7, .alloc 3, .del 7, .alloc 9, .alloc 11] = some w ∧
    w.live = {11, 7, 3} ∧ 5 ∉ w.arena.allocated :=
  ⟨_, rfl, by decide, by decide⟩

end Verif.Props.Arena
