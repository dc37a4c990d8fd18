import Mathlib.Tactic.Abel
import Mathlib.Algebra.Order.Group.Multiset
import Mathlib.Data.Multiset.Sort
import Mathlib.Data.List.Sort
import Mathlib.Data.List.Count

/-!
# The arena allocator

Models `/repo/src/pymatching/sparse_blossom/arena.h`.  An object is identified by its address (`Nat`).
`malloc` is an oracle: the address it returns is an argument of the allocating operation.  The
constructor and destructor of the element type are not modelled, only *which* objects they are called on.
-/

namespace Verif.Mem

/-- `struct Arena` (arena.h:28-31).  The back of a `std::vector` is the end of the list. -/
structure Arena where
  allocated : List Nat
  available : List Nat
deriving Repr, DecidableEq

/-- `Arena()` (arena.h:32-33). -/
def Arena.empty : Arena := ⟨[], []⟩

/-- `alloc_unconstructed` (arena.h:38-47); `m` is the address returned by `malloc` if it is called. -/
def Arena.alloc (a : Arena) (m : Nat) : Arena × Nat :=
  let a := if a.available.isEmpty then ⟨a.allocated ++ [m], a.available ++ [m]⟩ else a
  match a.available.getLast? with
  | some r => (⟨a.allocated, a.available.dropLast⟩, r)
  | none => (a, m)   -- not reachable: `available` is non-empty here (`alloc_ne_none`)

/-- `del` (arena.h:55-58). -/
def Arena.del (a : Arena) (p : Nat) : Arena := ⟨a.allocated, a.available ++ [p]⟩

/-- The merge loop of `~Arena` (arena.h:69-77) on the two sorted vectors, returning the objects whose
destructor is called. -/
def destructLoop : List Nat → List Nat → List Nat
  | [], _ => []
  | f :: fs, [] => f :: destructLoop fs []
  | f :: fs, n :: ns => if n = f then destructLoop fs ns else f :: destructLoop fs (n :: ns)

/-- `~Arena` (arena.h:60-83): objects destructed, then addresses freed. -/
def Arena.destroy (a : Arena) : List Nat × List Nat :=
  let toFree := a.allocated.mergeSort (· ≤ ·)
  let notInUse := a.available.mergeSort (· ≤ ·)
  (destructLoop toFree notInUse, toFree)

/-- The second match arm in `alloc` is dead code. -/
theorem alloc_ne_none (a : Arena) (m : Nat) :
    (if a.available.isEmpty then (⟨a.allocated ++ [m], a.available ++ [m]⟩ : Arena) else a).available.getLast? ≠ none := by
  split
  · simp
  · rename_i h
    intro hn
    rw [List.getLast?_eq_none_iff] at hn
    simp [hn] at h

/-- Connection to the client's live objects: the allocated addresses are distinct and split into live and available. -/
structure Inv (a : Arena) (live : Multiset Nat) : Prop where
  nodup : a.allocated.Nodup
  split : (a.allocated : Multiset Nat) = live + (a.available : Multiset Nat)

theorem inv_empty : Inv Arena.empty 0 := ⟨by simp [Arena.empty], by simp [Arena.empty]⟩

theorem alloc_nil {a : Arena} (h : a.available = []) (m : Nat) :
    a.alloc m = (⟨a.allocated ++ [m], []⟩, m) := by
  simp [Arena.alloc, h]

theorem alloc_cons {a : Arena} {l : List Nat} {x : Nat} (h : a.available = l ++ [x]) (m : Nat) :
    a.alloc m = (⟨a.allocated, l⟩, x) := by
  have : a.available.isEmpty = false := by rw [h]; cases l <;> rfl
  simp [Arena.alloc, h]

theorem inv_alloc {a : Arena} {live : Multiset Nat} (hi : Inv a live) {m : Nat} (hm : m ∉ a.allocated) :
    Inv (a.alloc m).1 ((a.alloc m).2 ::ₘ live) ∧ (a.alloc m).2 ∉ live := by
  rcases List.eq_nil_or_concat a.available with h | ⟨l, x, h⟩
  · have hs : (a.allocated : Multiset Nat) = live := by have := hi.split; simpa [h] using this
    rw [alloc_nil h]
    refine ⟨⟨?_, ?_⟩, ?_⟩
    · exact List.nodup_append.2 ⟨hi.nodup, by simp, by
        rintro a ha b hb rfl
        simp at hb; subst hb; exact hm ha⟩
    · show ((a.allocated ++ [m] : List Nat) : Multiset Nat) = m ::ₘ live + ((List.nil : List Nat) : Multiset Nat)
      rw [← Multiset.coe_add, hs, Multiset.coe_nil, Multiset.add_zero, Multiset.coe_singleton,
        Multiset.add_comm, Multiset.singleton_add]
    · rw [← hs]; simpa using hm
  · rw [List.concat_eq_append] at h
    rw [alloc_cons h]
    have hs := hi.split
    rw [h, ← Multiset.coe_add, Multiset.coe_singleton] at hs
    refine ⟨⟨hi.nodup, ?_⟩, ?_⟩
    · show (a.allocated : Multiset Nat) = x ::ₘ live + (l : Multiset Nat)
      rw [hs, ← Multiset.singleton_add]; abel
    · intro hx
      have hn : (a.allocated : Multiset Nat).Nodup := Multiset.coe_nodup.2 hi.nodup
      rw [hs] at hn
      exact Multiset.disjoint_left.1 (Multiset.nodup_add.1 hn).2.2 hx (by simp)

theorem inv_del {a : Arena} {live : Multiset Nat} (hi : Inv a live) {p : Nat} (hp : p ∈ live) :
    Inv (a.del p) (live.erase p) := by
  refine ⟨hi.nodup, ?_⟩
  show (a.allocated : Multiset Nat) = live.erase p + ((a.available ++ [p] : List Nat) : Multiset Nat)
  rw [hi.split, ← Multiset.coe_add, Multiset.coe_singleton]
  conv_lhs => rw [← Multiset.cons_erase hp, ← Multiset.singleton_add]
  abel

theorem destructLoop_nil (fs : List Nat) : destructLoop fs [] = fs := by
  induction fs with
  | nil => rfl
  | cons f fs ih => simp [destructLoop, ih]

/-- On sorted lists with the second a sub-multiset of the first, the loop returns the difference. -/
theorem destructLoop_spec (fs ns : List Nat) (hf : fs.Pairwise (· ≤ ·)) (hn : ns.Pairwise (· ≤ ·))
    (hd : fs.Nodup) (hs : (ns : Multiset Nat) ≤ (fs : Multiset Nat)) :
    (destructLoop fs ns : Multiset Nat) + (ns : Multiset Nat) = (fs : Multiset Nat) := by
  induction fs generalizing ns with
  | nil =>
    have : ns = [] := by
      have h := Multiset.card_le_card hs
      simpa using h
    simp [this, destructLoop]
  | cons f fs ih =>
    cases ns with
    | nil => simp [destructLoop_nil]
    | cons n ns =>
      by_cases h : n = f
      · subst h
        simp only [destructLoop, if_true]
        rw [List.pairwise_cons] at hf hn
        rw [List.nodup_cons] at hd
        have := ih ns hf.2 hn.2 hd.2 (by simpa [← Multiset.cons_coe] using hs)
        rw [← Multiset.cons_coe, ← Multiset.cons_coe, ← this, Multiset.add_cons]
      · simp only [destructLoop, if_neg h]
        rw [List.pairwise_cons] at hf
        rw [List.nodup_cons] at hd
        have hsub : ((n :: ns : List Nat) : Multiset Nat) ≤ (fs : Multiset Nat) := by
          have hmem : n ∈ fs := by
            have : n ∈ f :: fs := by
              have := Multiset.mem_of_le hs (a := n) (by simp)
              simpa using this
            rcases List.mem_cons.1 this with h' | h'
            · exact absurd h' h
            · exact h'
          have hlt : f ∉ n :: ns := by
            intro hmem'
            have hle : n ≤ f := by
              rcases List.mem_cons.1 hmem' with h' | h'
              · omega
              · exact (List.pairwise_cons.1 hn).1 f h'
            have := hf.1 n hmem
            omega
          rw [← Multiset.cons_coe f fs] at hs
          exact (Multiset.le_cons_of_notMem (by simpa using hlt)).1 hs
        have := ih (n :: ns) hf.2 hn hd.2 hsub
        rw [← Multiset.cons_coe, ← Multiset.cons_coe, ← Multiset.cons_coe] at *
        rw [← this, Multiset.cons_add]

theorem destroy_spec {a : Arena} {live : Multiset Nat} (hi : Inv a live) :
    (a.destroy.1 : Multiset Nat) = live ∧ (a.destroy.2 : Multiset Nat) = (a.allocated : Multiset Nat) ∧
      a.destroy.2.Nodup := by
  have p1 := List.mergeSort_perm a.allocated (fun x y => decide (x ≤ y))
  have p2 := List.mergeSort_perm a.available (fun x y => decide (x ≤ y))
  have s1 : (a.allocated.mergeSort (· ≤ ·)).Pairwise (· ≤ ·) := by
    have := List.pairwise_mergeSort (le := fun x y : Nat => decide (x ≤ y)) (by intro a b c; simp; omega) (by intro a b; simp; omega) a.allocated
    simpa using this
  have s2 : (a.available.mergeSort (· ≤ ·)).Pairwise (· ≤ ·) := by
    have := List.pairwise_mergeSort (le := fun x y : Nat => decide (x ≤ y)) (by intro a b c; simp; omega) (by intro a b; simp; omega) a.available
    simpa using this
  have e1 : ((a.allocated.mergeSort (· ≤ ·) : List Nat) : Multiset Nat) = a.allocated := Multiset.coe_eq_coe.2 p1
  have e2 : ((a.available.mergeSort (· ≤ ·) : List Nat) : Multiset Nat) = a.available := Multiset.coe_eq_coe.2 p2
  have hd : (a.allocated.mergeSort (· ≤ ·)).Nodup := p1.nodup_iff.2 hi.nodup
  refine ⟨?_, e1, hd⟩
  have := destructLoop_spec _ _ s1 s2 hd (by rw [e1, e2, hi.split]; exact Multiset.le_add_left _ _)
  rw [e1, e2, hi.split] at this
  exact add_right_cancel this

end Verif.Mem
