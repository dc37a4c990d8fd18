import Verif.Blossom.Geo

/-!
# Renaming of objects: arenas, trackers and the queue

Used for C32: a run on a used decoder simulates the run on a fresh one.  This file relates results, arenas, trackers and queues.
-/

namespace Verif.SB

open Verif Verif.Graph Verif.CE Verif.Vary Verif.Track Verif.Spec Verif.Mem Verif.RadixHeap Verif.Cyc
open Verif.Sch (Res better)

/-! ## Results -/

/-- If the first call returns, so does the second, and the results are related. -/
def RelRes {α β : Type} (P : α → β → Prop) (x : Res α) (y : Res β) : Prop := ∀ a, x = .ok a → ∃ b, y = .ok b ∧ P a b

section
variable {α β γ δ : Type} {P : α → β → Prop} {Q : γ → δ → Prop}

theorem RelRes.pure {a : α} {b : β} (h : P a b) : RelRes P (.ok a) (.ok b) := by
  rintro a' ⟨⟩
  exact ⟨b, rfl, h⟩

theorem RelRes.ub {y : Res β} : RelRes P .ub y := by
  rintro a ⟨⟩

theorem RelRes.throws {y : Res β} : RelRes P .throws y := by
  rintro a ⟨⟩

theorem RelRes.bind {x : Res α} {y : Res β} {f : α → Res γ} {f' : β → Res δ} (h : RelRes P x y) (hf : ∀ a b, P a b → RelRes Q (f a) (f' b)) :
    RelRes Q (x.bind f) (y.bind f') := by
  cases x with
  | ub => exact .ub
  | throws => exact .throws
  | ok a =>
    obtain ⟨b, rfl, hb⟩ := h a rfl
    exact hf a b hb

/-- As `bind`, remembering where the first result comes from. -/
theorem RelRes.bind' {x : Res α} {y : Res β} {f : α → Res γ} {f' : β → Res δ} (h : RelRes P x y) (hf : ∀ a b, x = .ok a → P a b → RelRes Q (f a) (f' b)) :
    RelRes Q (x.bind f) (y.bind f') := by
  cases x with
  | ub => exact .ub
  | throws => exact .throws
  | ok a =>
    obtain ⟨b, rfl, hb⟩ := h a rfl
    exact hf a b rfl hb

theorem RelRes.mono {P' : α → β → Prop} {x : Res α} {y : Res β} (h : RelRes P x y) (hp : ∀ a b, P a b → P' a b) : RelRes P' x y := by
  intro a ha
  obtain ⟨b, h1, h2⟩ := h a ha
  exact ⟨b, h1, hp _ _ h2⟩

theorem RelRes.refl {x y : Res α} (h : x = y) : RelRes (fun a b => a = b) x y := by
  subst h
  intro a ha
  exact ⟨a, ha, rfl⟩

theorem RelRes.foldlM {σ : α → β → Prop} {f : α → γ → Res α} {f' : β → δ → Res β} (hf : ∀ a b c d, σ a b → Q c d → RelRes σ (f a c) (f' b d)) :
    ∀ {l : List γ} {l' : List δ} {a : α} {b : β}, List.Forall₂ Q l l' → σ a b → RelRes σ (l.foldlM f a) (l'.foldlM f' b) := by
  intro l
  induction l with
  | nil => intro l' a b hl hs; cases hl; exact .pure hs
  | cons c l ih =>
    intro l' a b hl hs
    cases hl with
    | cons hc hl => exact RelRes.bind (hf _ _ _ _ hs hc) fun a b h => ih hl h

theorem foldl_rel {σ : α → β → Prop} {f : α → γ → α} {f' : β → δ → β} (hf : ∀ a b c d, σ a b → Q c d → σ (f a c) (f' b d)) :
    ∀ {l : List γ} {l' : List δ} {a : α} {b : β}, List.Forall₂ Q l l' → σ a b → σ (l.foldl f a) (l'.foldl f' b) := by
  intro l
  induction l with
  | nil => intro l' a b hl hs; cases hl; exact hs
  | cons c l ih =>
    intro l' a b hl hs
    cases hl with
    | cons hc hl => simp only [List.foldl_cons]; exact ih hl (hf _ _ _ _ hs hc)

theorem forall₂_map_left {φ : γ → δ} {D : γ → Prop} {l : List γ} (h : ∀ x ∈ l, D x) : List.Forall₂ (fun c d => D c ∧ d = φ c) l (l.map φ) := by
  induction l with
  | nil => exact .nil
  | cons a l ih => exact .cons ⟨h a (by simp), rfl⟩ (ih fun x hx => h x (by simp [hx]))

theorem forall₂_same {l : List γ} : List.Forall₂ (fun c d => c = d) l l := by
  induction l with
  | nil => exact .nil
  | cons a l ih => exact .cons rfl ih

end

/-! ## Renamings -/

/-- A renaming of the numbers below `k`. -/
structure Rn where
  f : Nat → Nat
  k : Nat
  inj : ∀ i < k, ∀ j < k, f i = f j → i = j

namespace Rn

/-- The empty renaming. -/
def zero : Rn := ⟨id, 0, by omega⟩

/-- `R'` extends `R`. -/
structure Le (R R' : Rn) : Prop where
  k : R.k ≤ R'.k
  f : ∀ i < R.k, R'.f i = R.f i

theorem Le.refl (R : Rn) : Le R R := ⟨le_refl _, fun _ _ => rfl⟩

theorem Le.trans {R R' R'' : Rn} (h : Le R R') (h' : Le R' R'') : Le R R'' :=
  ⟨h.k.trans h'.k, fun i hi => (h'.f i (by have := h.k; omega)).trans (h.f i hi)⟩

/-- The pointer is null or renamed. -/
def Ok (R : Rn) (o : Option Nat) : Prop := ∀ x, o = some x → x < R.k

def Oks (R : Rn) (l : List (Nat × CompressedEdge)) : Prop := ∀ x ∈ l, x.1 < R.k

def OkP (R : Rn) (o : Option (Nat × CompressedEdge)) : Prop := ∀ x, o = some x → x.1 < R.k

/-- The renamed pointer. -/
def o (R : Rn) (x : Option Nat) : Option Nat := x.map R.f

def l (R : Rn) (x : List (Nat × CompressedEdge)) : List (Nat × CompressedEdge) := x.map fun p => (R.f p.1, p.2)

def p (R : Rn) (x : Option (Nat × CompressedEdge)) : Option (Nat × CompressedEdge) := x.map fun p => (R.f p.1, p.2)

variable {R R' : Rn}

@[simp] theorem o_none : R.o none = none := rfl
@[simp] theorem o_some {x : Nat} : R.o (some x) = some (R.f x) := rfl
@[simp] theorem l_nil : R.l [] = [] := rfl
@[simp] theorem l_cons {x : Nat × CompressedEdge} {xs : List (Nat × CompressedEdge)} : R.l (x :: xs) = (R.f x.1, x.2) :: R.l xs := rfl
@[simp] theorem l_append {xs ys : List (Nat × CompressedEdge)} : R.l (xs ++ ys) = R.l xs ++ R.l ys := by simp [l]
@[simp] theorem l_length {xs : List (Nat × CompressedEdge)} : (R.l xs).length = xs.length := by simp [l]
@[simp] theorem l_isEmpty {xs : List (Nat × CompressedEdge)} : (R.l xs).isEmpty = xs.isEmpty := by simp [l]
@[simp] theorem p_none : R.p none = none := rfl
@[simp] theorem p_some {x : Nat × CompressedEdge} : R.p (some x) = some (R.f x.1, x.2) := rfl

theorem l_fst {xs : List (Nat × CompressedEdge)} : (R.l xs).map (·.1) = (xs.map (·.1)).map R.f := by simp [l]

theorem l_get {xs : List (Nat × CompressedEdge)} {i : Nat} : (R.l xs)[i]? = R.p xs[i]? := by simp [l, p]

theorem Ok.none : R.Ok none := by rintro x ⟨⟩
theorem Ok.some {x : Nat} (h : x < R.k) : R.Ok (some x) := by rintro y ⟨⟩; exact h
theorem OkP.none : R.OkP none := by rintro x ⟨⟩
theorem OkP.some {x : Nat × CompressedEdge} (h : x.1 < R.k) : R.OkP (some x) := by rintro y ⟨⟩; exact h
theorem Oks.nil : R.Oks [] := by simp [Oks]
theorem Oks.append {xs ys : List (Nat × CompressedEdge)} (h : R.Oks xs) (h' : R.Oks ys) : R.Oks (xs ++ ys) := by
  intro x hx
  rcases List.mem_append.1 hx with hx | hx
  · exact h x hx
  · exact h' x hx

theorem Oks.get {xs : List (Nat × CompressedEdge)} (h : R.Oks xs) {i : Nat} : R.OkP xs[i]? := by
  intro x hx
  exact h x (List.mem_of_getElem? hx)

theorem o_inj {x y : Option Nat} (hx : R.Ok x) (hy : R.Ok y) : R.o x = R.o y ↔ x = y := by
  cases x with
  | none => cases y <;> simp
  | some a =>
    cases y with
    | none => simp
    | some b =>
      simp only [o_some, Option.some.injEq]
      exact ⟨R.inj a (hx a rfl) b (hy b rfl), fun h => by rw [h]⟩

theorem f_inj {x y : Nat} (hx : x < R.k) (hy : y < R.k) : R.f x = R.f y ↔ x = y := ⟨R.inj x hx y hy, fun h => by rw [h]⟩

theorem Le.o (h : Le R R') {x : Option Nat} (hx : R.Ok x) : R'.o x = R.o x := by
  cases x with
  | none => rfl
  | some a => simp only [o_some, h.f a (hx a rfl)]

theorem Le.ok (h : Le R R') {x : Option Nat} (hx : R.Ok x) : R'.Ok x := fun y hy => lt_of_lt_of_le (hx y hy) h.k

theorem Le.l (h : Le R R') {x : List (Nat × CompressedEdge)} (hx : R.Oks x) : R'.l x = R.l x := by
  unfold Rn.l
  exact List.map_congr_left fun y hy => by rw [h.f _ (hx y hy)]

theorem Le.oks (h : Le R R') {x : List (Nat × CompressedEdge)} (hx : R.Oks x) : R'.Oks x := fun y hy => lt_of_lt_of_le (hx y hy) h.k

theorem Le.p (h : Le R R') {x : Option (Nat × CompressedEdge)} (hx : R.OkP x) : R'.p x = R.p x := by
  cases x with
  | none => rfl
  | some a => simp only [p_some, h.f a.1 (hx a rfl)]

theorem Le.okP (h : Le R R') {x : Option (Nat × CompressedEdge)} (hx : R.OkP x) : R'.OkP x := fun y hy => lt_of_lt_of_le (hx y hy) h.k

/-- One more name. -/
def push (R : Rn) (x : Nat) (hx : ∀ i < R.k, R.f i ≠ x) : Rn where
  f := Function.update R.f R.k x
  k := R.k + 1
  inj := by
    intro i hi j hj
    by_cases h1 : i = R.k <;> by_cases h2 : j = R.k
    · intro _; omega
    · subst h1
      rw [Function.update_self, Function.update_of_ne h2]
      intro e; exact absurd e.symm (hx j (by omega))
    · subst h2
      rw [Function.update_self, Function.update_of_ne h1]
      intro e; exact absurd e (hx i (by omega))
    · rw [Function.update_of_ne h1, Function.update_of_ne h2]
      exact R.inj i (by omega) j (by omega)

theorem push_le (R : Rn) (x : Nat) (hx : ∀ i < R.k, R.f i ≠ x) : Le R (R.push x hx) :=
  ⟨Nat.le_succ _, fun i hi => by simp only [push]; rw [Function.update_of_ne (by omega)]⟩

end Rn

/-! ## Arenas -/

/-- The free list of the used arena is an old part followed by the renamed free list of the fresh arena. -/
structure ArSim (R : Rn) (a2 a1 : Arena) : Prop where
  len : a2.allocated.length = R.k
  av : ∀ i ∈ a2.available, i < R.k
  im : ∀ i < R.k, R.f i < a1.allocated.length
  base : ∃ b : List Nat, a1.available = b ++ a2.available.map R.f ∧ b.Nodup ∧ (∀ x ∈ b, x < a1.allocated.length ∧ ∀ i < R.k, R.f i ≠ x) ∧
    a1.allocated.length = b.length + R.k

theorem ArSim.le {R : Rn} {a2 a1 : Arena} (h : ArSim R a2 a1) : a2.allocated.length ≤ a1.allocated.length := by
  obtain ⟨b, -, -, -, e⟩ := h.base
  have := h.len
  omega

/-- Both arenas are empty or both are not. -/
theorem ArSim.lens {R : Rn} {a2 a1 : Arena} (h : ArSim R a2 a1) : a1.allocated.length = a1.available.length ↔ a2.allocated.length = a2.available.length := by
  obtain ⟨b, e1, -, -, e2⟩ := h.base
  have := h.len
  rw [e1]
  simp
  omega

theorem ArSim.del {R : Rn} {a2 a1 : Arena} (h : ArSim R a2 a1) {i : Nat} (hi : i < R.k) : ArSim R (a2.del i) (a1.del (R.f i)) := by
  obtain ⟨b, e1, e2, e3, e4⟩ := h.base
  refine ⟨h.len, ?_, h.im, b, ?_, e2, e3, e4⟩
  · intro j hj
    rcases List.mem_append.1 hj with hj | hj
    · exact h.av j hj
    · rw [List.mem_singleton.1 hj]; exact hi
  · simp [Arena.del, e1]

theorem alloc_nil {a : Arena} (h : a.available = []) (m : Nat) : a.alloc m = (⟨a.allocated ++ [m], []⟩, m) := by
  simp [Arena.alloc, h]

theorem alloc_snoc {a : Arena} {l : List Nat} {x : Nat} (h : a.available = l ++ [x]) (m : Nat) : a.alloc m = (⟨a.allocated, l⟩, x) := by
  simp [Arena.alloc, h]

theorem ArSim.alloc {R : Rn} {a2 a1 : Arena} (h : ArSim R a2 a1) :
    ∃ R' : Rn, R.Le R' ∧ ArSim R' (a2.alloc a2.allocated.length).1 (a1.alloc a1.allocated.length).1 ∧
      (a2.alloc a2.allocated.length).2 < R'.k ∧ R'.f (a2.alloc a2.allocated.length).2 = (a1.alloc a1.allocated.length).2 ∧
      ∀ i < R'.k, i < R.k ∨ i = (a2.alloc a2.allocated.length).2 := by
  obtain ⟨b, e1, e2, e3, e4⟩ := h.base
  rcases List.eq_nil_or_concat' a2.available with h2 | ⟨l, i, h2⟩
  · rw [alloc_nil h2]
    rw [h2, List.map_nil, List.append_nil] at e1
    rcases List.eq_nil_or_concat' b with hb | ⟨b', x, hb⟩
    · subst hb
      rw [alloc_nil e1]
      have hx : ∀ i < R.k, R.f i ≠ a1.allocated.length := fun i hi => by have := h.im i hi; omega
      refine ⟨R.push _ hx, R.push_le _ hx, ⟨?_, by simp, ?_, [], by simp, by simp, by simp, ?_⟩, ?_, ?_, ?_⟩
      · simp [Rn.push, h.len]
      · intro i hi
        simp only [Rn.push, List.length_append, List.length_singleton]
        by_cases hk : i = R.k
        · subst hk; rw [Function.update_self]; omega
        · rw [Function.update_of_ne hk]
          have := h.im i (by simp only [Rn.push] at hi; omega)
          omega
      · simp [Rn.push]; simpa using e4
      · simp [Rn.push, h.len]
      · simp [Rn.push, h.len]
      · intro i hi
        simp only [Rn.push] at hi
        have := h.len
        simp only
        omega
    · subst hb
      rw [alloc_snoc e1]
      have hx : ∀ i < R.k, R.f i ≠ x := (e3 x (by simp)).2
      have hd := List.nodup_append.1 e2
      refine ⟨R.push _ hx, R.push_le _ hx, ⟨?_, by simp, ?_, b', by simp, hd.1, ?_, ?_⟩, ?_, ?_, ?_⟩
      · simp [Rn.push, h.len]
      · intro i hi
        simp only [Rn.push]
        by_cases hk : i = R.k
        · subst hk; rw [Function.update_self]; exact (e3 x (by simp)).1
        · rw [Function.update_of_ne hk]
          exact h.im i (by simp only [Rn.push] at hi; omega)
      · intro z hz
        refine ⟨(e3 z (by simp [hz])).1, fun i hi => ?_⟩
        simp only [Rn.push]
        by_cases hk : i = R.k
        · subst hk; rw [Function.update_self]
          exact fun e => hd.2.2 z hz x (by simp) e.symm
        · rw [Function.update_of_ne hk]
          exact (e3 z (by simp [hz])).2 i (by simp only [Rn.push] at hi; omega)
      · simp [Rn.push]; simp at e4; omega
      · simp [Rn.push, h.len]
      · simp [Rn.push, h.len]
      · intro i hi
        simp only [Rn.push] at hi
        have := h.len
        simp only
        omega
  · rw [alloc_snoc h2]
    rw [h2, List.map_append, ← List.append_assoc] at e1
    rw [alloc_snoc e1]
    refine ⟨R, .refl R, ⟨h.len, ?_, h.im, b, rfl, e2, e3, e4⟩, ?_, rfl, fun i hi => .inl hi⟩
    · intro j hj; exact h.av j (by rw [h2]; simp [hj])
    · exact h.av i (by rw [h2]; simp)

/-! ## Trackers and queue -/

/-- Equal trackers, except for times whose flag is off. -/
structure TrSim (a b : Tracker) : Prop where
  hd : b.hasDesired = a.hasDesired
  hq : b.hasQueued = a.hasQueued
  d : a.hasDesired = true → b.desired = a.desired
  q : a.hasQueued = true → b.queued = a.queued

theorem TrSim.refl (a : Tracker) : TrSim a a := ⟨rfl, rfl, fun _ => rfl, fun _ => rfl⟩

/-- The renamed event. -/
def evMap {ι κ : Type} (φ : ι → κ) (e : Event ι) : Event κ := ⟨e.time, φ e.payload⟩

/-- The queues agree entry by entry. -/
structure QSim {ι κ : Type} (φ : ι → κ) (D : ι → Prop) (q2 : Queue ι) (q1 : Queue κ) : Prop where
  cur : q1.cur = q2.cur
  num : q1.num = q2.num
  bk : ∀ b, q1.buckets b = (q2.buckets b).map (evMap φ)
  dom : ∀ b, ∀ e ∈ q2.buckets b, D e.payload

section
variable {ι κ : Type} {φ : ι → κ} {D : ι → Prop} {q2 : Queue ι} {q1 : Queue κ}

theorem QSim.enqueue (h : QSim φ D q2 q1) {e : Event ι} (he : D e.payload) : QSim φ D (q2.enqueue e) (q1.enqueue (evMap φ e)) := by
  refine ⟨h.cur, by simp [Queue.enqueue, h.num], ?_, ?_⟩
  · intro b
    simp only [Queue.enqueue, pushBucket, evMap, h.cur]
    by_cases hb : b = bucketFor q2.cur e.time
    · subst hb; simp only [Function.update_self, h.bk]; simp [evMap]
    · simp only [Function.update_of_ne hb, h.bk]
  · intro b x hx
    simp only [Queue.enqueue, pushBucket] at hx
    by_cases hb : b = bucketFor q2.cur e.time
    · subst hb
      simp only [Function.update_self, List.mem_append, List.mem_singleton] at hx
      rcases hx with hx | rfl
      · exact h.dom _ x hx
      · exact he
    · rw [Function.update_of_ne hb] at hx
      exact h.dom b x hx

theorem minTime_map (l : List (Event ι)) : ∀ m, minTime (l.map (evMap φ)) m = minTime l m := by
  induction l with
  | nil => intro m; rfl
  | cons e l ih => intro m; simp only [List.map_cons, minTime, evMap]; exact ih _

theorem redistribute_sim {cur : Int} {src : Fin 33} (l : List (Event ι)) : ∀ {b2 : Fin 33 → List (Event ι)} {b1 : Fin 33 → List (Event κ)},
    (∀ b, b1 b = (b2 b).map (evMap φ)) → (∀ b, ∀ e ∈ b2 b, D e.payload) → (∀ e ∈ l, D e.payload) → ∀ {b2'}, redistribute cur src l b2 = some b2' →
    ∃ b1', redistribute cur src (l.map (evMap φ)) b1 = some b1' ∧ (∀ b, b1' b = (b2' b).map (evMap φ)) ∧ (∀ b, ∀ e ∈ b2' b, D e.payload) := by
  induction l with
  | nil =>
    intro b2 b1 h1 h2 _ b2' e
    simp only [redistribute, Option.some.injEq] at e
    subst e
    exact ⟨b1, rfl, h1, h2⟩
  | cons e l ih =>
    intro b2 b1 h1 h2 h3 b2' h
    simp only [redistribute] at h
    simp only [List.map_cons, redistribute]
    have ht : (evMap φ e).time = e.time := rfl
    rw [ht]
    split at h
    · cases h
    · rename_i hne
      rw [if_neg hne]
      refine ih ?_ ?_ (fun x hx => h3 x (by simp [hx])) h
      · intro b
        simp only [pushBucket]
        by_cases hb : b = bucketFor cur e.time
        · subst hb; simp only [Function.update_self, h1]; simp
        · simp only [Function.update_of_ne hb, h1]
      · intro b x hx
        simp only [pushBucket] at hx
        by_cases hb : b = bucketFor cur e.time
        · subst hb
          simp only [Function.update_self, List.mem_append, List.mem_singleton] at hx
          rcases hx with hx | rfl
          · exact h2 _ x hx
          · exact h3 _ (by simp)
        · rw [Function.update_of_ne hb] at hx
          exact h2 b x hx

theorem QSim.first (h : QSim φ D q2 q1) : firstNonEmpty q1.buckets = firstNonEmpty q2.buckets := by
  unfold firstNonEmpty
  congr 1
  funext b
  rw [h.bk b]
  simp

theorem QSim.refill (h : QSim φ D q2 q1) {q2' : Queue ι} (e : q2.refill = some q2') : ∃ q1', q1.refill = some q1' ∧ QSim φ D q2' q1' := by
  unfold Queue.refill at e ⊢
  rw [h.first]
  have h0 : (q1.buckets 0).isEmpty = (q2.buckets 0).isEmpty := by rw [h.bk]; simp
  rw [h0]
  split at e
  · rename_i hc
    rw [if_pos hc]
    cases hf : firstNonEmpty q2.buckets with
    | none => rw [hf] at e; cases e
    | some b =>
      rw [hf] at e
      simp only at e ⊢
      split at e
      · rename_i hb
        rw [if_pos hb]
        cases e
        refine ⟨_, rfl, by simp [h.cur], h.num, ?_, ?_⟩
        · intro c
          simp only
          by_cases h1 : c = 1
          · subst h1; simp only [Function.update_self, h.bk]
          · rw [Function.update_of_ne h1, Function.update_of_ne h1]
            by_cases h2 : c = 0
            · subst h2; simp only [Function.update_self, h.bk]
            · rw [Function.update_of_ne h2, Function.update_of_ne h2, h.bk]
        · intro c x hx
          simp only at hx
          by_cases h1 : c = 1
          · subst h1; rw [Function.update_self] at hx; exact h.dom _ x hx
          · rw [Function.update_of_ne h1] at hx
            by_cases h2 : c = 0
            · subst h2; rw [Function.update_self] at hx; exact h.dom _ x hx
            · rw [Function.update_of_ne h2] at hx; exact h.dom _ x hx
      · rename_i hb
        rw [if_neg hb, h.bk b]
        cases hl : q2.buckets b with
        | nil => rw [hl] at e; cases e
        | cons x xs =>
          rw [hl] at e
          simp only [List.map_cons] at e ⊢
          have ht : (evMap φ x).time = x.time := rfl
          rw [minTime_map, ht, h.cur]
          cases hr : redistribute (widen (minTime xs x.time) q2.cur) b (x :: xs) q2.buckets with
          | none => rw [hr] at e; cases e
          | some bs =>
            rw [hr] at e
            cases e
            obtain ⟨b1', k1, k2, k3⟩ := redistribute_sim (φ := φ) (D := D) (x :: xs) h.bk h.dom (by intro y hy; exact h.dom b y (by rw [hl]; exact hy)) hr
            rw [List.map_cons] at k1
            rw [k1]
            refine ⟨_, rfl, rfl, h.num, ?_, ?_⟩
            · intro c
              simp only
              by_cases h1 : c = b
              · subst h1; simp only [Function.update_self, List.map_nil]
              · rw [Function.update_of_ne h1, Function.update_of_ne h1, k2]
            · intro c y hy
              simp only at hy
              by_cases h1 : c = b
              · subst h1; rw [Function.update_self] at hy; cases hy
              · rw [Function.update_of_ne h1] at hy; exact k3 c y hy
  · rename_i hc
    rw [if_neg hc]
    cases e
    exact ⟨q1, rfl, h⟩

theorem QSim.dequeue (h : QSim φ D q2 q1) {o : Option (Event ι)} {q2' : Queue ι} (e : q2.dequeue = .ok o q2') :
    ∃ q1', q1.dequeue = .ok (o.map (evMap φ)) q1' ∧ QSim φ D q2' q1' ∧ ∀ x, o = some x → D x.payload := by
  unfold Queue.dequeue at e ⊢
  rw [h.num]
  split at e
  · rename_i hn
    rw [if_pos hn]
    cases e
    exact ⟨q1, rfl, h, by rintro x ⟨⟩⟩
  · rename_i hn
    rw [if_neg hn]
    cases hr : q2.refill with
    | none => rw [hr] at e; cases e
    | some q =>
      obtain ⟨q', k1, k2⟩ := h.refill hr
      rw [hr] at e
      rw [k1]
      simp only at e ⊢
      rw [k2.bk, List.getLast?_map]
      cases hl : (q.buckets 0).getLast? with
      | none => rw [hl] at e; cases e
      | some x =>
        rw [hl] at e
        simp only [Option.map_some] at e ⊢
        cases e
        refine ⟨_, rfl, ⟨k2.cur, by simp [k2.num], ?_, ?_⟩, ?_⟩
        · intro c
          simp only
          by_cases h1 : c = 0
          · subst h1; simp only [Function.update_self, List.map_dropLast]
          · rw [Function.update_of_ne h1, Function.update_of_ne h1, k2.bk]
        · intro c y hy
          simp only at hy
          by_cases h1 : c = 0
          · subst h1; rw [Function.update_self] at hy; exact k2.dom _ y (List.mem_of_mem_dropLast hy)
          · rw [Function.update_of_ne h1] at hy; exact k2.dom _ y hy
        · rintro y ⟨⟩
          exact k2.dom 0 x (List.mem_of_getLast? hl)

/-- Trackers and queue agree up to renaming. -/
structure WSim (φ : ι → κ) (D : ι → Prop) (w2 : World ι) (w1 : World κ) : Prop where
  tr : ∀ o, D o → TrSim (w2.tr o) (w1.tr (φ o))
  q : QSim φ D w2.q w1.q

variable [DecidableEq ι] [DecidableEq κ] {w2 : World ι} {w1 : World κ}

theorem WSim.upd (h : WSim φ D w2 w1) (hi : ∀ a, D a → ∀ b, D b → φ a = φ b → a = b) {o : ι} (ho : D o) {t2 t1 : Tracker} (ht : TrSim t2 t1)
    {q2 : Queue ι} {q1 : Queue κ} (hq : QSim φ D q2 q1) :
    WSim φ D ⟨Function.update w2.tr o t2, q2⟩ ⟨Function.update w1.tr (φ o) t1, q1⟩ := by
  refine ⟨?_, hq⟩
  intro o' ho'
  simp only
  by_cases e : o' = o
  · subst e; simp only [Function.update_self]; exact ht
  · rw [Function.update_of_ne e, Function.update_of_ne (fun e' => e (hi _ ho' _ ho e'))]
    exact h.tr o' ho'

omit [DecidableEq ι] [DecidableEq κ] in
theorem setDesired_sim {t2 t1 : Tracker} (h : TrSim t2 t1) {q2 : Queue ι} {q1 : Queue κ} (hq : QSim φ D q2 q1) {e : Event ι} (he : D e.payload) :
    TrSim (setDesired t2 e q2).1 (setDesired t1 (evMap φ e) q1).1 ∧ QSim φ D (setDesired t2 e q2).2 (setDesired t1 (evMap φ e) q1).2 := by
  have ht : (evMap φ e).time = e.time := rfl
  obtain ⟨d, u, a, b⟩ := t2
  obtain ⟨d', u', a', b'⟩ := t1
  obtain ⟨h1, h2, h3, h4⟩ := h
  simp only at h1 h2 h3 h4
  subst h1 h2
  cases b'
  · simp only [setDesired, Bool.not_false, Bool.true_or, if_true, ht]
    exact ⟨⟨rfl, rfl, fun _ => rfl, fun _ => rfl⟩, hq.enqueue he⟩
  · have := h4 rfl
    subst this
    simp only [setDesired, ht]
    split
    · exact ⟨⟨rfl, rfl, fun _ => rfl, fun _ => rfl⟩, hq.enqueue he⟩
    · exact ⟨⟨rfl, rfl, fun _ => rfl, fun _ => rfl⟩, hq⟩

omit [DecidableEq ι] [DecidableEq κ] in
theorem dequeueDecision_sim {t2 t1 : Tracker} (h : TrSim t2 t1) {q2 : Queue ι} {q1 : Queue κ} (hq : QSim φ D q2 q1) {e : Event ι} (he : D e.payload) :
    (dequeueDecision t1 (evMap φ e) q1).1 = (dequeueDecision t2 e q2).1 ∧
    TrSim (dequeueDecision t2 e q2).2.1 (dequeueDecision t1 (evMap φ e) q1).2.1 ∧
    QSim φ D (dequeueDecision t2 e q2).2.2 (dequeueDecision t1 (evMap φ e) q1).2.2 := by
  have ht : (evMap φ e).time = e.time := rfl
  have h0 := h
  obtain ⟨d, u, a, b⟩ := t2
  obtain ⟨d', u', a', b'⟩ := t1
  obtain ⟨h1, h2, h3, h4⟩ := h
  simp only at h1 h2 h3 h4
  subst h1 h2
  cases b'
  · simp only [dequeueDecision, Bool.not_false, Bool.true_or, if_true]
    exact ⟨trivial, h0, hq⟩
  · have := h4 rfl
    subst this
    simp only [dequeueDecision, ht]
    split
    · exact ⟨rfl, h0, hq⟩
    · cases a'
      · simp only [Bool.not_false, if_true]
        exact ⟨trivial, ⟨rfl, rfl, by simp, by simp⟩, hq⟩
      · have := h3 rfl
        subst this
        simp only [Bool.not_true, Bool.false_eq_true, if_false]
        split
        · exact ⟨rfl, ⟨rfl, rfl, fun _ => rfl, fun _ => rfl⟩, hq.enqueue (e := ⟨_, e.payload⟩) he⟩
        · exact ⟨rfl, ⟨rfl, rfl, by simp, by simp⟩, hq⟩

theorem WSim.set (h : WSim φ D w2 w1) (hi : ∀ a, D a → ∀ b, D b → φ a = φ b → a = b) {o : ι} (ho : D o) (t : Int) :
    ∃ w2' w1', w2.step (.set o t) = some (.unit, w2') ∧ w1.step (.set (φ o) t) = some (.unit, w1') ∧ WSim φ D w2' w1' := by
  have h1 := setDesired_sim (h.tr o ho) h.q (e := ⟨ofTime t, o⟩) ho
  exact ⟨_, _, rfl, rfl, h.upd hi ho h1.1 h1.2⟩

theorem WSim.unset (h : WSim φ D w2 w1) (hi : ∀ a, D a → ∀ b, D b → φ a = φ b → a = b) {o : ι} (ho : D o) :
    ∃ w2' w1', w2.step (.unset o) = some (.unit, w2') ∧ w1.step (.unset (φ o)) = some (.unit, w1') ∧ WSim φ D w2' w1' := by
  have h1 := h.tr o ho
  exact ⟨_, _, rfl, rfl, h.upd hi ho (t2 := setNone (w2.tr o)) (t1 := setNone (w1.tr (φ o))) ⟨rfl, h1.hq, by simp [setNone], h1.q⟩ h.q⟩

/-- The renamed outcome of a delivery. -/
def outMap (φ : ι → κ) : AlarmOut ι → AlarmOut κ
  | .unit => .unit
  | .idle => .idle
  | .silent => .silent
  | .ring o t => .ring (φ o) t

theorem WSim.deliver (h : WSim φ D w2 w1) (hi : ∀ a, D a → ∀ b, D b → φ a = φ b → a = b) {out : AlarmOut ι} {w2' : World ι}
    (e : w2.step .deliver = some (out, w2')) :
    ∃ w1', w1.step .deliver = some (outMap φ out, w1') ∧ WSim φ D w2' w1' ∧ ∀ o t, out = .ring o t → D o := by
  simp only [World.step] at e ⊢
  cases hd : w2.q.dequeue with
  | ub => rw [hd] at e; cases e
  | ok ev q =>
    obtain ⟨q', k1, k2, k3⟩ := h.q.dequeue hd
    rw [hd] at e
    rw [k1]
    cases ev with
    | none =>
      cases e
      exact ⟨_, rfl, ⟨h.tr, k2⟩, by rintro o t ⟨⟩⟩
    | some x =>
      have hx := k3 x rfl
      have h1 := h.tr _ hx
      simp only [Option.map_some] at e ⊢
      have hp : (evMap φ x).payload = φ x.payload := rfl
      rw [hp]
      obtain ⟨d1, d2, d3⟩ := dequeueDecision_sim (t2 := w2.tr x.payload) (t1 := w1.tr (φ x.payload)) h1 k2 hx
      rw [d1, k2.cur]
      cases e
      refine ⟨_, ?_, h.upd hi hx d2 d3, ?_⟩
      · split <;> rfl
      · intro o t ho
        split at ho
        · cases ho; exact hx
        · cases ho

end

end Verif.SB
