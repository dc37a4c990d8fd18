import Verif.Blossom.Self

/-!
# Alternating trees (C27, C28)

Statements about the pointer structure of alternating trees: nodes with an inner and an outer region, parent and child pointers with edges.
-/

namespace Verif.Props.AltTrees

open Verif Verif.CE Verif.Mem Verif.SB
open Verif.Sch (Res)

/-! ## Specification -/

/-- The nodes `A` form trees: pointers to parents and to children agree, there are no cycles, the roots are the nodes without inner
region, regions belong to one node only, and outer regions point back to their node. -/
structure Trees (s : MS) (A : Finset Nat) : Prop where
  child : ∀ a ∈ A, ∀ c e, (c, e) ∈ (s.alt a).children ↔ c ∈ A ∧ (s.alt c).parent = some (a, e.reversed)
  once : ∀ a ∈ A, ((s.alt a).children.map (·.1)).Nodup
  parent : ∀ a ∈ A, ∀ p e, (s.alt a).parent = some (p, e) → p ∈ A
  acyclic : ∃ depth : Nat → Nat, ∀ a ∈ A, ∀ p e, (s.alt a).parent = some (p, e) → depth p < depth a
  root : ∀ a ∈ A, (s.alt a).parent = none ↔ (s.alt a).inner = none
  back : ∀ a ∈ A, s.ralt (s.alt a).outer = some a
  inner : ∀ a ∈ A, ∀ b ∈ A, ∀ i, (s.alt a).inner = some i → (s.alt b).inner = some i → a = b
  apart : ∀ a ∈ A, ∀ b ∈ A, ∀ i, (s.alt a).inner = some i → i ≠ (s.alt b).outer
  room : A.card ≤ s.altDepth

/-- `y` is `x` or an ancestor of `x`. -/
def Above (s : MS) : Nat → Nat → Prop := Relation.ReflTransGen fun x y => ∃ e, (s.alt x).parent = some (y, e)

/-- Two nodes in the same tree. -/
def SameTree (s : MS) (x y : Nat) : Prop := ∃ r, Above s x r ∧ Above s y r

/-- The edges of the trees, between regions, in both directions: from the inner to the outer region of a node, and from the inner region to
the outer region of the parent. -/
def TreeEdge (alt : Nat → ANode) (A : Finset Nat) (e : CompressedEdge) (r r' : Nat) : Prop :=
  ∃ x ∈ A, ∃ i, (alt x).inner = some i ∧
    ((e = (alt x).i2o ∧ r = i ∧ r' = (alt x).outer) ∨ (e = (alt x).i2o.reversed ∧ r = (alt x).outer ∧ r' = i) ∨
     ∃ p pe, (alt x).parent = some (p, pe) ∧
      ((e = pe ∧ r = i ∧ r' = (alt p).outer) ∨ (e = pe.reversed ∧ r = (alt p).outer ∧ r' = i)))

/-- A walk along edges of `R`: every region is left by the edge beside it, the last edge leads to `r'`. -/
def Walk (R : CompressedEdge → Nat → Nat → Prop) : Nat → List (Nat × CompressedEdge) → Nat → Prop
  | r, [], r' => r = r'
  | r, (x, e) :: l, r' => x = r ∧ ∃ q, R e r q ∧ Walk R q l r'

/-- `c` is the most recent common ancestor of `a` and `b`. -/
def Recent (s : MS) (a b c : Nat) : Prop := Above s a c ∧ Above s b c ∧ ∀ d, Above s a d → Above s b d → Above s c d

/-- The nodes on the paths from `a` and `b` up to `c`, without `c`. -/
def OnPaths (s : MS) (a b c x : Nat) : Prop := (Above s a x ∨ Above s b x) ∧ ¬ Above s c x

/-! ## Lemmas -/

/-- The ancestors, `n` steps up. -/
def up (par : Nat → Option Nat) : Nat → Nat → List Nat
  | 0, x => [x]
  | n + 1, x => match par x with | none => [x] | some p => x :: up par n p

theorem forest_of_depth {A : Finset Nat} {par : Nat → Option Nat} (hcl : ∀ a ∈ A, ∀ p, par a = some p → p ∈ A) {d : Nat → Nat}
    (hd : ∀ a ∈ A, ∀ p, par a = some p → d p < d a) : Forest A par (fun x => up par (d x) x) := by
  have key : ∀ n m x, x ∈ A → d x ≤ n → d x ≤ m → up par n x = up par m x := by
    intro n
    induction n with
    | zero =>
      intro m x hx h _
      cases hp : par x with
      | none => cases m <;> simp [up, hp]
      | some p => have := hd x hx p hp; omega
    | succ n ih =>
      intro m x hx h h'
      cases hp : par x with
      | none => cases m <;> simp [up, hp]
      | some p =>
        have h1 := hd x hx p hp
        obtain ⟨k, rfl⟩ : ∃ k, m = k + 1 := ⟨m - 1, by omega⟩
        simp only [up, hp]
        rw [ih k p (hcl x hx p hp) (by omega) (by omega)]
  constructor
  · intro r _ hp
    cases hdr : d r with
    | zero => simp [up]
    | succ k => simp [up, hp]
  · intro r hr p hp
    have h1 := hd r hr p hp
    obtain ⟨k, hk⟩ : ∃ k, d r = k + 1 := ⟨d r - 1, by omega⟩
    refine ⟨hcl r hr p hp, ?_⟩
    simp only [hk, up, hp]
    rw [key k (d p) p (hcl r hr p hp) (by omega) (le_refl _)]

/-- The edges of the trees and further edges `X`, as a view of the regions. -/
def treeView (s : MS) (A : Finset Nat) (X : CompressedEdge → Nat → Nat → Prop) : View := by
  classical
  exact { live := fun _ => True, top := fun _ => True, sl := fun r => if ∃ a ∈ A, (s.alt a).inner = some r then -1 else 1,
          lk := fun e r r' => TreeEdge s.alt A e r r' ∨ X e r r' ∨ X e.reversed r' r, blk := fun _ _ => False, kids := fun _ => [], ev := fun _ => True, has := fun _ _ => False }

theorem treeEdge_symm {alt : Nat → ANode} {A : Finset Nat} {e : CompressedEdge} {r r' : Nat} (h : TreeEdge alt A e r r') : TreeEdge alt A e.reversed r' r := by
  obtain ⟨x, hx, i, hi, h⟩ := h
  refine ⟨x, hx, i, hi, ?_⟩
  rcases h with ⟨rfl, rfl, rfl⟩ | ⟨rfl, rfl, rfl⟩ | ⟨p, pe, hp, ⟨rfl, rfl, rfl⟩ | ⟨rfl, rfl, rfl⟩⟩
  · exact .inr (.inl ⟨rfl, rfl, rfl⟩)
  · exact .inl ⟨rfl, rfl, rfl⟩
  · exact .inr (.inr ⟨p, _, hp, .inr ⟨rfl, rfl, rfl⟩⟩)
  · exact .inr (.inr ⟨p, _, hp, .inl ⟨rfl, rfl, rfl⟩⟩)

theorem treeView_sym (s : MS) (A : Finset Nat) (X : CompressedEdge → Nat → Nat → Prop) : (treeView s A X).Sym := fun _ _ _ h => by
  rcases h with h | h | h
  · exact .inl (treeEdge_symm h)
  · exact .inr (.inr (by simpa [reversed_reversed] using h))
  · exact .inr (.inl h)

theorem epar_iff {alt : Nat → ANode} {a p : Nat} : epar alt ∅ a = some p ↔ ∃ e, (alt a).parent = some (p, e) := by
  unfold epar
  cases (alt a).parent with
  | none => simp
  | some q => obtain ⟨q, e⟩ := q; simp

theorem Trees.shape {s : MS} {A : Finset Nat} (h : Trees s A) (X : CompressedEdge → Nat → Nat → Prop) :
    ∃ ach, Shape (treeView s A X) s.alt A ach ∅ ∧ Nodes (treeView s A X) s.alt s.ralt A (fun _ => False) := by
  obtain ⟨d, hd⟩ := h.acyclic
  have hF := forest_of_depth (A := A) (par := epar s.alt ∅) (fun a ha p hp => by obtain ⟨e, he⟩ := epar_iff.1 hp; exact h.parent a ha p e he)
    (fun a ha p hp => by obtain ⟨e, he⟩ := epar_iff.1 hp; exact hd a ha p e he)
  have hsome : ∀ c ∈ A, ∀ p e, (s.alt c).parent = some (p, e) → ∃ i, (s.alt c).inner = some i := by
    intro c hc p e hp
    cases hi : (s.alt c).inner with
    | some i => exact ⟨i, rfl⟩
    | none => rw [(h.root c hc).2 hi] at hp; cases hp
  have hin : ∀ a ∈ A, ∀ i, (s.alt a).inner = some i → (treeView s A X).sl i = -1 := by
    intro a ha i hi
    exact if_pos ⟨a, ha, hi⟩
  have hout : ∀ a ∈ A, (treeView s A X).sl (s.alt a).outer = 1 := by
    intro a ha
    exact if_neg fun ⟨b, hb, hi⟩ => h.apart b hb a ha _ hi rfl
  refine ⟨_, ⟨hF, ⟨?_, h.once⟩, fun a ha c e hc => ((h.child a ha c e).1 hc).2, ?_, fun a ha _ hp => (h.root a ha).1 hp⟩,
    ⟨fun a ha => ⟨trivial, h.back a ha⟩, fun a ha => by rw [hout a ha]; decide, fun a ha _ => hout a ha, ?_, h.inner⟩⟩
  · intro a ha c
    unfold akids
    constructor
    · intro hc
      obtain ⟨⟨c, e⟩, h1, rfl⟩ := List.mem_map.1 hc
      obtain ⟨h2, h3⟩ := (h.child a ha c e).1 h1
      exact ⟨h2, epar_iff.2 ⟨_, h3⟩⟩
    · rintro ⟨h1, h2⟩
      obtain ⟨e, he⟩ := epar_iff.1 h2
      exact List.mem_map.2 ⟨(c, e.reversed), (h.child a ha c _).2 ⟨h1, he⟩, rfl⟩
  · intro a ha c e hc
    obtain ⟨h1, h2⟩ := (h.child a ha c e).1 hc
    obtain ⟨i, hi⟩ := hsome c h1 _ _ h2
    exact ⟨i, hi, .inl ⟨c, h1, i, hi, .inr (.inr ⟨a, _, h2, .inr ⟨rfl, rfl, rfl⟩⟩)⟩⟩
  · intro a ha i hi
    exact ⟨trivial, hin a ha i hi, .inl ⟨a, ha, i, hi, .inl ⟨rfl, rfl, rfl⟩⟩⟩

theorem Trees.of_shape {s : MS} {A : Finset Nat} {V : View} {ach : Nat → List Nat} {E : Nat → Prop} (h : Shape V s.alt A ach ∅) (hN : Nodes V s.alt s.ralt A E)
    (hr : A.card ≤ s.altDepth) : Trees s A := by
  refine ⟨?_, h.kids.nodup, ?_, ⟨fun x => (ach x).length, ?_⟩, ?_, fun a ha => (hN.outer a ha).2, hN.inj, fun a ha b hb i hi => hN.inner_outer ha hb hi, hr⟩
  · intro a ha c e
    constructor
    · intro hc
      exact ⟨((h.kids.mem a ha c).1 (List.mem_map.2 ⟨_, hc, rfl⟩)).1, h.edge a ha c e hc⟩
    · rintro ⟨h1, h2⟩
      exact (h.child h1 (by simp) h2).2.1
  · intro a ha p e hp
    exact (h.child ha (by simp) hp).1
  · intro a ha p e hp
    simp only [(h.forest.step a ha p (epar_iff.2 ⟨e, hp⟩)).2, List.length_cons]
    omega
  · intro a ha
    refine ⟨h.root a ha (by simp), fun hi => ?_⟩
    cases hp : (s.alt a).parent with
    | none => rfl
    | some q =>
      obtain ⟨-, -, i, h1, -⟩ := h.child ha (by simp) hp
      rw [hi] at h1; cases h1

theorem above_iff {s : MS} {A : Finset Nat} {ach : Nat → List Nat} (hF : Forest A (epar s.alt ∅) ach) {x y : Nat} (hx : x ∈ A) : y ∈ ach x ↔ Above s x y := by
  constructor
  · refine hF.induct (Q := fun x => y ∈ ach x → Above s x y) ?_ ?_ hx
    · intro r hr hp hy
      rw [hF.root r hr hp, List.mem_singleton] at hy
      rw [hy]; exact .refl
    · intro r hr p hp hpar ih hy
      rw [(hF.step r hr p hpar).2, List.mem_cons] at hy
      rcases hy with rfl | hy
      · exact .refl
      · exact .head (epar_iff.1 hpar) (ih hy)
  · intro h
    induction h with
    | refl => exact hF.self_mem hx
    | @tail b c _ h2 ih =>
      have hb := hF.mem_live hx ih
      obtain ⟨hc, e⟩ := hF.step b hb c (epar_iff.2 h2)
      exact hF.trans hx ih (by rw [e]; exact List.mem_cons_of_mem _ (hF.self_mem hc))

theorem rotated_edges {alt : Nat → ANode} {A : Finset Nat} {a p : Nat} {pe : CompressedEdge} (ha : a ∈ A) (hp : p ∈ A) (hne : a ≠ p)
    (h1 : (alt a).parent = some (p, pe)) (h2 : (alt p).inner = none) (e : CompressedEdge) (r r' : Nat) :
    TreeEdge (rotated alt a p pe) A e r r' ↔ TreeEdge alt A e r r' := by
  have ea : (rotated alt a p pe a).inner = none := by simp [rotated]
  have ep : (rotated alt a p pe p).inner = (alt a).inner ∧ (rotated alt a p pe p).i2o = pe ∧ (rotated alt a p pe p).parent = some (a, (alt a).i2o) := by
    simp [rotated, Ne.symm hne]
  have ex : ∀ x, x ≠ a → x ≠ p → rotated alt a p pe x = alt x := fun x h3 h4 => by simp [rotated, h3, h4]
  constructor
  · rintro ⟨x, hx, i, hi, h⟩
    by_cases hxa : x = a
    · subst hxa; rw [ea] at hi; cases hi
    · by_cases hxp : x = p
      · subst hxp
        rw [ep.1] at hi
        rw [ep.2.1, ep.2.2] at h
        simp only [rotated_outer] at h
        refine ⟨a, ha, i, hi, ?_⟩
        rcases h with h | h | ⟨q, qe, hq, h⟩
        · exact .inr (.inr ⟨x, pe, h1, .inl h⟩)
        · exact .inr (.inr ⟨x, pe, h1, .inr h⟩)
        · cases hq
          exact h.elim .inl (fun h => .inr (.inl h))
      · simp only [rotated_outer] at h
        rw [ex x hxa hxp] at hi h
        exact ⟨x, hx, i, hi, h⟩
  · rintro ⟨x, hx, i, hi, h⟩
    by_cases hxa : x = a
    · subst hxa
      refine ⟨p, hp, i, by rw [ep.1]; exact hi, ?_⟩
      rw [ep.2.1, ep.2.2]
      simp only [rotated_outer]
      rcases h with h | h | ⟨q, qe, hq, h⟩
      · exact .inr (.inr ⟨x, _, rfl, .inl h⟩)
      · exact .inr (.inr ⟨x, _, rfl, .inr h⟩)
      · rw [h1] at hq; cases hq
        exact h.elim .inl (fun h => .inr (.inl h))
    · by_cases hxp : x = p
      · subst hxp; rw [h2] at hi; cases hi
      · refine ⟨x, hx, i, ?_, ?_⟩
        · rw [ex x hxa hxp]; exact hi
        · simp only [rotated_outer]; rw [ex x hxa hxp]; exact h

theorem becomeRoot_edges {V : View} {A : Finset Nat} (hV : V.Sym) (f : Nat) : ∀ (s : MS) (E : Nat → Prop) (a : Nat), Nodes V s.alt s.ralt A E →
    ∀ ach, Shape V s.alt A ach ∅ → a ∈ A → (ach a).length ≤ f → ∀ s', becomeRoot f s a = .ok s' →
    ∀ e r r', TreeEdge s'.alt A e r r' ↔ TreeEdge s.alt A e r r' := by
  induction f with
  | zero => intro s E a _ ach _ _ _ s' hs'; cases hs'
  | succ f ih =>
    intro s E a hN ach h ha hlen s' hs' e r r'
    cases hpar : (s.alt a).parent with
    | none =>
      simp only [becomeRoot, hpar] at hs'
      cases hs'
      exact Iff.rfl
    | some pp =>
      obtain ⟨p, pe⟩ := pp
      have hpara : epar s.alt ∅ a = some p := epar_iff.2 ⟨pe, hpar⟩
      obtain ⟨hpA, hch⟩ := h.forest.step a ha p hpara
      have hl : (ach p).length ≤ f := by rw [hch] at hlen; simpa using hlen
      obtain ⟨alt1, ach1, e1, h1, hN1, hp1, hout, -⟩ := becomeRoot_spec hV f s E p hN ach h hpA hl
      have hap : a ∉ ach p := by
        have := h.forest.nodup ha
        rw [hch] at this
        exact (List.nodup_cons.1 this).1
      have hne : a ≠ p := by rintro rfl; exact hap (h.forest.self_mem hpA)
      have ea : alt1 a = s.alt a := hout a hap
      simp only [becomeRoot, hpar, e1, Res.bind] at hs'
      rw [rotateUp_eq _ hne] at hs'
      cases hs'
      rw [← ih s E p hN ach h hpA hl _ e1 e r r']
      exact rotated_edges ha hpA hne (by show (alt1 a).parent = _; rw [ea]; exact hpar) (h1.root p hpA (by simp) hp1) e r r'

/-! ## Re-rooting -/

/-- C27.  Making any node of an alternating tree the root succeeds; the nodes form trees as before, with the same edges (and the same
observables on them); the chosen node is a root, from which all nodes of its tree can be reached; other trees are not touched. -/
theorem C27_become_root (s : MS) (A : Finset Nat) (h : Trees s A) (a : Nat) (ha : a ∈ A) :
    ∃ s', becomeRoot (s.altDepth + 1) s a = .ok s' ∧ Trees s' A ∧ (s'.alt a).parent = none ∧
      (∀ e r r', TreeEdge s'.alt A e r r' ↔ TreeEdge s.alt A e r r') ∧
      (∀ x ∈ A, SameTree s x a → Above s' x a) ∧ (∀ x ∈ A, ¬ SameTree s x a → s'.alt x = s.alt x) ∧
      (∀ x, (s'.alt x).outer = (s.alt x).outer) := by
  obtain ⟨ach, hS, hN⟩ := h.shape fun _ _ _ => False
  have hl : (ach a).length ≤ s.altDepth + 1 := by have := hS.forest.length_le ha; have := h.room; omega
  obtain ⟨alt', ach', e1, h1, h2, h3, h4, h5, -, h6, -⟩ := becomeRoot_spec (treeView_sym s A _) _ s _ a hN ach hS ha hl
  refine ⟨_, e1, Trees.of_shape h1 h2 h.room, h3, becomeRoot_edges (treeView_sym s A _) _ s _ a hN ach hS ha hl _ e1, ?_, ?_, h5⟩
  · rintro x hx ⟨r, hr1, hr2⟩
    rw [← above_iff hS.forest hx] at hr1
    rw [← above_iff hS.forest ha] at hr2
    have h7 := h6 x hx
    rw [if_pos (by rw [← hS.forest.rootOf_chain hx hr1, ← hS.forest.rootOf_chain ha hr2])] at h7
    rw [← above_iff (s := { s with alt := alt' }) h1.forest hx]
    exact ((h1.forest.rootOf_iff hx).1 h7).1
  · intro x hx hno
    refine h4 x fun hxa => hno ⟨x, .refl, (above_iff hS.forest ha).1 hxa⟩

/-! ## Common ancestors and pruning -/

theorem recent_iff {s : MS} {A : Finset Nat} {ach : Nat → List Nat} (hF : Forest A (epar s.alt ∅) ach) {a b c : Nat} {p1 p2 rest : List Nat} (ha : a ∈ A) (hb : b ∈ A)
    (hm : Meet ach a b c p1 p2 rest) : Recent s a b c ∧ ∀ x, x ∈ p1 ++ p2 ↔ OnPaths s a b c x := by
  have hc : c ∈ A := hF.mem_live ha (by rw [hm.left]; simp)
  have ec := hF.chain_split ha hm.left
  have hnd1 := hF.nodup ha
  rw [hm.left] at hnd1
  have hnd2 := hF.nodup hb
  rw [hm.right] at hnd2
  have k : ∀ x, (Above s a x ↔ x ∈ p1 ∨ Above s c x) ∧ (Above s b x ↔ x ∈ p2 ∨ Above s c x) := by
    intro x
    rw [← above_iff hF ha, ← above_iff hF hb, ← above_iff hF hc, hm.left, hm.right, ec, List.mem_append, List.mem_append]
    exact ⟨Iff.rfl, Iff.rfl⟩
  have hd1 : ∀ x ∈ p1, ¬ Above s c x := by
    intro x hx h
    rw [← above_iff hF hc, ec] at h
    exact (List.disjoint_of_nodup_append hnd1) hx h
  have hd2 : ∀ x ∈ p2, ¬ Above s c x := by
    intro x hx h
    rw [← above_iff hF hc, ec] at h
    exact (List.disjoint_of_nodup_append hnd2) hx h
  refine ⟨⟨(k c).1.2 (.inr .refl), (k c).2.2 (.inr .refl), ?_⟩, ?_⟩
  · intro d h1 h2
    rcases (k d).1.1 h1 with h1 | h1
    · rcases (k d).2.1 h2 with h2 | h2
      · exact absurd h2 (hm.disj d h1)
      · exact h2
    · exact h1
  · intro x
    unfold OnPaths
    rw [(k x).1, (k x).2, List.mem_append]
    constructor
    · rintro (h | h)
      · exact ⟨.inl (.inl h), hd1 x h⟩
      · exact ⟨.inr (.inl h), hd2 x h⟩
    · rintro ⟨(h | h) | (h | h), hn⟩
      · exact .inl h
      · exact absurd h hn
      · exact .inr h
      · exact absurd h hn

theorem above_antisymm {s : MS} {A : Finset Nat} {ach : Nat → List Nat} (hF : Forest A (epar s.alt ∅) ach) {x y : Nat} (hx : x ∈ A)
    (h1 : Above s x y) (h2 : Above s y x) : x = y := by
  have hy : y ∈ A := hF.mem_live hx ((above_iff hF hx).2 h1)
  exact hF.antisymm hy ((above_iff hF hy).2 h2) ((above_iff hF hx).2 h1)

theorem meet_of_recent {s : MS} {A : Finset Nat} {ach : Nat → List Nat} (hF : Forest A (epar s.alt ∅) ach) {a b c : Nat} (ha : a ∈ A) (hb : b ∈ A)
    (h : Recent s a b c) : ∃ p1 p2 rest, Meet ach a b c p1 p2 rest := by
  obtain ⟨h1, h2, h3⟩ := h
  obtain ⟨p1, r1, e1⟩ := List.append_of_mem ((above_iff hF ha).2 h1)
  obtain ⟨p2, r2, e2⟩ := List.append_of_mem ((above_iff hF hb).2 h2)
  have k1 := hF.chain_split ha e1
  have k2 := hF.chain_split hb e2
  rw [k1, List.cons.injEq] at k2
  obtain ⟨-, rfl⟩ := k2
  refine ⟨p1, p2, r1, e1, e2, ?_⟩
  intro x hx1 hx2
  have hc : c ∈ A := hF.mem_live ha (by rw [e1]; simp)
  have hx := h3 x ((above_iff hF ha).1 (by rw [e1]; exact List.mem_append_left _ hx1)) ((above_iff hF hb).1 (by rw [e2]; exact List.mem_append_left _ hx2))
  have hnd := hF.nodup ha
  rw [e1] at hnd
  rw [← above_iff hF hc, k1] at hx
  exact (List.disjoint_of_nodup_append hnd) hx1 hx

/-- C28.  The search for a common ancestor of two nodes finds the most recent one, or none if the nodes are in different trees; it changes
nothing but marks. -/
theorem C28_common_ancestor (s : MS) (A : Finset Nat) (h : Trees s A) (hclean : ∀ x ∈ A, (s.alt x).visited = false) (a b : Nat) (ha : a ∈ A) (hb : b ∈ A)
    (hne : a ≠ b) :
    ∃ vis : Nat → Bool, ∃ r, mrca s a b = .ok ({ s with alt := fun x => { s.alt x with visited := vis x } }, r) ∧
      (∀ c, r = some c ↔ Recent s a b c) ∧ (r = none ↔ ¬ SameTree s a b) := by
  obtain ⟨ach, hS, hN⟩ := h.shape fun _ _ _ => False
  have hF := hS.forest
  obtain ⟨alt', hv, hres⟩ := mrca_spec s hF ha hb hne h.room hclean
  have ealt : alt' = fun x => { s.alt x with visited := (alt' x).visited } := by
    funext x
    obtain ⟨k1, k2, k3, k4, k5⟩ := hv x
    cases hx : alt' x with
    | mk i o io p c v =>
      rw [hx] at k1 k2 k3 k4 k5
      simp only at k1 k2 k3 k4 k5
      rw [k1, k2, k3, k4, k5]
  refine ⟨fun x => (alt' x).visited, ?_⟩
  rw [← ealt]
  rcases hres with ⟨e, hr, -⟩ | ⟨c, p1, p2, rest, e, hm, -⟩
  · have hno : ¬ SameTree s a b := by
      rintro ⟨r, h1, h2⟩
      rw [← above_iff hF ha] at h1
      rw [← above_iff hF hb] at h2
      exact hr (by rw [← hF.rootOf_chain ha h1, ← hF.rootOf_chain hb h2])
    refine ⟨none, e, ?_, by simpa using hno⟩
    intro c
    constructor
    · intro h; cases h
    · intro h; exact absurd ⟨c, h.1, h.2.1⟩ hno
  · have hrec := (recent_iff hF ha hb hm).1
    refine ⟨some c, e, ?_, ?_⟩
    · intro d
      constructor
      · rintro ⟨⟩; exact hrec
      · intro hd
        have hcA : c ∈ A := hF.mem_live ha (by rw [hm.left]; simp)
        rw [above_antisymm hF hcA (hrec.2.2 d hd.1 hd.2.1) (hd.2.2 c hrec.1 hrec.2.1)]
    · simp only [reduceCtorEq, false_iff, not_not]
      exact ⟨c, hrec.1, hrec.2.1⟩

theorem walk_of_chain {V : View} {R : CompressedEdge → Nat → Nat → Prop} (l : List (Nat × CompressedEdge)) : ∀ {r r' : Nat}, Chain V r l r' →
    (∀ e x y, V.lk e x y → R e x y) → Walk R r l r' := by
  induction l with
  | nil => intro r r' h _; exact h
  | cons p l ih =>
    intro r r' h hR
    obtain ⟨x, e⟩ := p
    obtain ⟨h1, q, h2, h3⟩ := h
    exact ⟨h1, q, hR _ _ _ h2, ih h3 hR⟩

/-- C28.  When an edge `e` joins two nodes `a`, `b` of a tree, pruning the two paths up to the most recent common ancestor `c` succeeds.
The removed nodes are those on the paths below `c`; every other node keeps its regions and parent and loses exactly the removed children.
The orphans are exactly the nodes that lost their parent, each once, with the edge to it.  The pruned paths and `e` are a closed walk of odd
length through the outer region of `c` and the regions of the removed nodes, each once. -/
theorem C28_prune (s : MS) (A : Finset Nat) (h : Trees s A) (a b c : Nat) (ha : a ∈ A) (hb : b ∈ A) (hne : a ≠ b) (hc : Recent s a b c) (e : CompressedEdge) :
    ∃ s1 s2 o1 o2 q1 q2, prune c true (s.altDepth + 1) s a ([], []) = .ok (s1, (o1, q1)) ∧
      prune c false (s1.altDepth + 1) s1 b ([], []) = .ok (s2, (o2, q2)) ∧
      -- the nodes that stay
      (∀ x ∈ A, ¬ OnPaths s a b c x → (s2.alt x).inner = (s.alt x).inner ∧ (s2.alt x).outer = (s.alt x).outer ∧ (s2.alt x).i2o = (s.alt x).i2o ∧
        (s2.alt x).parent = (s.alt x).parent ∧ ((s2.alt x).children.map (·.1)).Nodup ∧
        ∀ k f, (k, f) ∈ (s2.alt x).children ↔ (k, f) ∈ (s.alt x).children ∧ ¬ OnPaths s a b c k) ∧
      -- the orphans
      ((o1 ++ o2).map (·.1)).Nodup ∧
      (∀ k f, (k, f) ∈ o1 ++ o2 ↔ k ∈ A ∧ ¬ OnPaths s a b c k ∧ ∃ p, OnPaths s a b c p ∧ (s.alt k).parent = some (p, f.reversed)) ∧
      -- the arena and the regions
      (AInv A s.alts → ∃ A', AInv A' s2.alts ∧ ∀ x, x ∈ A' ↔ x ∈ A ∧ ¬ OnPaths s a b c x) ∧
      (∀ r, (∃ x, OnPaths s a b c x ∧ r ∈ nregs s.alt x) → s2.ralt r = none) ∧
      (∀ r, (¬ ∃ x, OnPaths s a b c x ∧ r ∈ nregs s.alt x) → s2.ralt r = s.ralt r) ∧
      -- the cycle
      ∀ cyc, cyc = q2 ++ q1.reverse ++ [((s.alt a).outer, e)] →
        Walk (fun f r r' => TreeEdge s.alt A f r r' ∨ (f = e ∧ r = (s.alt a).outer ∧ r' = (s.alt b).outer) ∨
            (f = e.reversed ∧ r = (s.alt b).outer ∧ r' = (s.alt a).outer)) (s.alt b).outer cyc (s.alt b).outer ∧
        cyc.length % 2 = 1 ∧ 3 ≤ cyc.length ∧ (cyc.map (·.1)).Nodup ∧
        ∀ r, r ∈ cyc.map (·.1) ↔ r = (s.alt c).outer ∨ ∃ x, OnPaths s a b c x ∧ r ∈ nregs s.alt x := by
  obtain ⟨ach, hS, hN⟩ := h.shape fun f r r' => f = e ∧ r = (s.alt a).outer ∧ r' = (s.alt b).outer
  have hF := hS.forest
  obtain ⟨p1, p2, rest, hm⟩ := meet_of_recent hF ha hb hc
  have hon := (recent_iff hF ha hb hm).2
  obtain ⟨s1, s2, o1, o2, q1, q2, A', ach', Z, e1, e2, -, -, hko, hral, hA', -, hps, hAr, hS2, hN2, -, hZ, hnd, hoA, horph, hring, hwalk⟩ :=
    pruneBoth_spec (treeView_sym s A _) hN hS h.room ha hb hne hm (e := e) (.inr (.inl ⟨rfl, rfl, rfl⟩))
  have hlive : ∀ x, x ∈ A' ↔ x ∈ A ∧ ¬ OnPaths s a b c x := fun x => by rw [hA' x, hon x]
  have hreg : ∀ r, r ∈ (p1 ++ p2).flatMap (nregs s.alt) ↔ ∃ x, OnPaths s a b c x ∧ r ∈ nregs s.alt x := by
    intro r
    rw [List.mem_flatMap]
    exact exists_congr fun x => by rw [hon]
  -- an orphan has lost its parent
  have hlost : ∀ k f, (k, f) ∈ o1 ++ o2 → ∃ p, OnPaths s a b c p ∧ (s.alt k).parent = some (p, f.reversed) := by
    intro k f hk
    obtain ⟨x, hx, i, hi, hl⟩ := horph k f hk
    have hkA' := hoA k (List.mem_map.2 ⟨_, hk, rfl⟩)
    obtain ⟨hkA, hkp⟩ := (hlive k).1 hkA'
    have hxA := (hps x hx).1
    rw [hon] at hx
    rcases hl with ⟨z, hz, j, hj, hl⟩ | ⟨-, -, hl⟩ | ⟨-, hl, -⟩
    · rcases hl with ⟨-, hl, -⟩ | ⟨-, hl1, hl2⟩ | ⟨p, pe, hp, ⟨-, hl, -⟩ | ⟨hl0, hl1, hl2⟩⟩
      · exact absurd hl.symm (h.apart z hz x hxA j hj)
      · subst hl2
        have hzk := h.inner z hz k hkA i hj hi
        have hxz := hN.outer_inj hxA hz hl1
        rw [hxz, hzk] at hx
        exact absurd hx hkp
      · exact absurd hl.symm (h.apart z hz x hxA j hj)
      · subst hl2
        have hzk := h.inner z hz k hkA i hj hi
        subst hzk
        have hpA := h.parent z hz p pe hp
        have hxz := hN.outer_inj hxA hpA hl1
        subst hxz
        exact ⟨x, hx, by rw [hp, hl0, reversed_reversed]⟩
    · exact absurd hl (h.apart k hkA b hb i hi)
    · exact absurd hl (h.apart k hkA a ha i hi)
  have hZmem : ∀ k, k ∈ Z ↔ k ∈ A' ∧ ∃ p f, OnPaths s a b c p ∧ (s.alt k).parent = some (p, f) := by
    intro k
    rw [hZ, List.mem_toFinset]
    constructor
    · intro hk
      obtain ⟨⟨k, f⟩, h1, rfl⟩ := List.mem_map.1 hk
      obtain ⟨p, h2, h3⟩ := hlost k f h1
      exact ⟨hoA k hk, p, _, h2, h3⟩
    · rintro ⟨hk, p, f, hp, hpar⟩
      by_contra hcon
      rw [← List.mem_toFinset, ← hZ] at hcon
      have := (hS2.child hk hcon (by rw [hko.parent]; exact hpar)).1
      exact ((hlive p).1 this).2 hp
  refine ⟨s1, s2, o1, o2, q1, q2, e1, e2, ?_, hnd, ?_, fun hA => ⟨A', hAr hA, hlive⟩, ?_, ?_, ?_⟩
  · intro x hx hxp
    have hxA' := (hlive x).2 ⟨hx, hxp⟩
    refine ⟨hko.inner x, hko.outer x, hko.i2o x, hko.parent x, hS2.kids.nodup x hxA', ?_⟩
    intro k f
    rw [h.child x hx k f]
    constructor
    · intro hk
      have h1 := (hS2.kids.mem x hxA' k).1 (List.mem_map.2 ⟨_, hk, rfl⟩)
      have h2 := hS2.edge x hxA' k f hk
      rw [hko.parent] at h2
      obtain ⟨h3, h4⟩ := (hlive k).1 h1.1
      exact ⟨⟨h3, h2⟩, h4⟩
    · rintro ⟨⟨h1, h2⟩, h3⟩
      have hkA' := (hlive k).2 ⟨h1, h3⟩
      have hkZ : k ∉ Z := by
        intro hk
        obtain ⟨-, p, f', hp, hpar⟩ := (hZmem k).1 hk
        rw [h2] at hpar
        cases hpar
        exact hxp hp
      have := (hS2.child hkA' hkZ (by rw [hko.parent]; exact h2)).2.1
      rwa [reversed_reversed] at this
  · intro k f
    constructor
    · intro hk
      obtain ⟨h1, h2⟩ := (hlive k).1 (hoA k (List.mem_map.2 ⟨_, hk, rfl⟩))
      exact ⟨h1, h2, hlost k f hk⟩
    · rintro ⟨h1, h2, p, h3, h4⟩
      have hkZ := (hZmem k).2 ⟨(hlive k).2 ⟨h1, h2⟩, p, _, h3, h4⟩
      rw [hZ, List.mem_toFinset] at hkZ
      obtain ⟨⟨k', f'⟩, h5, h6⟩ := List.mem_map.1 hkZ
      simp only at h6
      subst h6
      obtain ⟨p', -, h7⟩ := hlost k' f' h5
      rw [h4] at h7
      simp only [Option.some.injEq, Prod.mk.injEq] at h7
      have : f = f' := by rw [← reversed_reversed f, h7.2, reversed_reversed]
      rw [this]; exact h5
  · intro r hr
    rw [hral, if_pos ((hreg r).2 hr)]
  · intro r hr
    rw [hral, if_neg (fun hx => hr ((hreg r).1 hx))]
  · rintro cyc rfl
    refine ⟨?_, hring.odd, hring.three, hring.nodup, ?_⟩
    · refine walk_of_chain _ hwalk ?_
      rintro f x y (hl | hl | ⟨hl1, hl2, hl3⟩)
      · exact .inl hl
      · exact .inr (.inl hl)
      · exact .inr (.inr ⟨by rw [← hl1, reversed_reversed], hl3, hl2⟩)
    · intro r
      rw [hring.mem]
      exact or_congr Iff.rfl (exists_congr fun x => by rw [hon])

/-! ## An example: a tree with root 0, its children 1 and 2, and their children 3 and 4 -/

/-- The edge between two detection events with observable `o`. -/
def exEdge (m n : Nat) (o : ObsInt) : CompressedEdge := ⟨some m, some n, o⟩

def exNode : Nat → ANode
  | 0 => ⟨none, 10, .cleared, none, [(1, exEdge 0 1 5), (2, exEdge 0 3 0)], false⟩
  | 1 => ⟨some 11, 12, exEdge 1 2 1, some (0, exEdge 1 0 5), [(3, exEdge 2 5 0)], false⟩
  | 2 => ⟨some 13, 14, exEdge 3 4 0, some (0, exEdge 3 0 0), [(4, exEdge 4 7 2)], false⟩
  | 3 => ⟨some 15, 16, exEdge 5 6 0, some (1, exEdge 5 2 0), [], false⟩
  | 4 => ⟨some 17, 18, exEdge 7 8 3, some (2, exEdge 7 4 2), [], false⟩
  | _ => ⟨none, 0, .cleared, none, [], false⟩

def exState : MS :=
  { MS.init with alt := exNode, alts := ⟨[0, 1, 2, 3, 4], []⟩,
                 ralt := fun r => if r = 10 then some 0 else if r = 12 then some 1 else if r = 14 then some 2 else if r = 16 then some 3 else if r = 18 then some 4 else none }

theorem ex_trees : Trees exState {0, 1, 2, 3, 4} := by
  have hall : ∀ a ∈ ({0, 1, 2, 3, 4} : Finset Nat), a = 0 ∨ a = 1 ∨ a = 2 ∨ a = 3 ∨ a = 4 := by simp
  have hrev : ∀ {x y : CompressedEdge}, x.reversed = y ↔ x = y.reversed := by
    intro x y
    constructor
    · rintro rfl; rw [reversed_reversed]
    · rintro rfl; rw [reversed_reversed]
  refine ⟨?_, ?_, ?_, ⟨fun x => if x = 0 then 0 else if x ≤ 2 then 1 else 2, ?_⟩, ?_, ?_, ?_, ?_, ?_⟩
  · intro a ha c e
    constructor
    · intro hc
      rcases hall a ha with rfl | rfl | rfl | rfl | rfl <;> simp [exState, exNode] at hc
      · rcases hc with ⟨rfl, rfl⟩ | ⟨rfl, rfl⟩ <;> decide
      · obtain ⟨rfl, rfl⟩ := hc; decide
      · obtain ⟨rfl, rfl⟩ := hc; decide
    · rintro ⟨hc, h⟩
      rcases hall c hc with rfl | rfl | rfl | rfl | rfl <;> simp [exState, exNode] at h <;> obtain ⟨rfl, h⟩ := h <;>
        rw [eq_comm, hrev] at h <;> subst h <;> decide
  · decide
  · intro a ha p e hp
    rcases hall a ha with rfl | rfl | rfl | rfl | rfl <;> simp [exState, exNode] at hp <;> obtain ⟨rfl, -⟩ := hp <;> decide
  · intro a ha p e hp
    rcases hall a ha with rfl | rfl | rfl | rfl | rfl <;> simp [exState, exNode] at hp <;> obtain ⟨rfl, -⟩ := hp <;> decide
  · decide
  · decide
  · intro a ha b hb i h1 h2
    rcases hall a ha with rfl | rfl | rfl | rfl | rfl <;> simp [exState, exNode] at h1 <;> subst h1 <;>
      rcases hall b hb with rfl | rfl | rfl | rfl | rfl <;> simp [exState, exNode] at h2 <;> rfl
  · intro a ha b hb i h1
    rcases hall a ha with rfl | rfl | rfl | rfl | rfl <;> simp [exState, exNode] at h1 <;> subst h1 <;>
      rcases hall b hb with rfl | rfl | rfl | rfl | rfl <;> simp [exState, exNode]
  · decide

/-- Node 3 becomes the root: the parents along the path are reversed, and the regions move along. -/
example : ∃ s', becomeRoot (exState.altDepth + 1) exState 3 = .ok s' ∧ (s'.alt 3).parent = none ∧ (s'.alt 3).inner = none ∧ (s'.alt 3).outer = 16 ∧
    (s'.alt 1).parent = some (3, exEdge 5 6 0) ∧ (s'.alt 1).inner = some 15 ∧ (s'.alt 1).i2o = exEdge 5 2 0 ∧
    (s'.alt 0).parent = some (1, exEdge 1 2 1) ∧ (s'.alt 0).inner = some 11 ∧ s'.alt 4 = exState.alt 4 := by
  exact ⟨_, rfl, by decide +kernel, by decide +kernel, by decide +kernel, by decide +kernel, by decide +kernel, by decide +kernel, by decide +kernel, by decide +kernel, rfl⟩

example := C27_become_root exState _ ex_trees 3 (by decide)

theorem ex_parent {x y : Nat} (h : ∃ e, (exState.alt x).parent = some (y, e)) : (x = 1 ∧ y = 0) ∨ (x = 2 ∧ y = 0) ∨ (x = 3 ∧ y = 1) ∨ (x = 4 ∧ y = 2) := by
  obtain ⟨e, he⟩ := h
  match x, he with
  | 0, he => simp [exState, exNode] at he
  | 1, he => simp [exState, exNode] at he; omega
  | 2, he => simp [exState, exNode] at he; omega
  | 3, he => simp [exState, exNode] at he; omega
  | 4, he => simp [exState, exNode] at he; omega
  | n + 5, he => simp [exState, exNode] at he

theorem ex_above {x y : Nat} (h : Above exState x y) : x = y ∨ y = 0 ∨ (x = 3 ∧ y = 1) ∨ (x = 4 ∧ y = 2) := by
  induction h with
  | refl => exact .inl rfl
  | tail _ h ih => have := ex_parent h; omega

theorem ex_recent : Recent exState 1 2 0 := by
  refine ⟨.single ⟨_, rfl⟩, .single ⟨_, rfl⟩, ?_⟩
  intro d h1 h2
  have k1 := ex_above h1
  have k2 := ex_above h2
  have : d = 0 := by omega
  rw [this]; exact .refl

example := C28_common_ancestor exState _ ex_trees (by decide) 1 2 (by decide) (by decide) (by decide)
example := C28_prune exState _ ex_trees 1 2 0 (by decide) (by decide) (by decide) ex_recent (exEdge 2 4 7)

/-- An edge between the outer regions of nodes 1 and 2: nodes 3 and 4 are orphans, the cycle has five regions. -/
example : ∃ s1 s2 o1 o2 q1 q2, prune 0 true (exState.altDepth + 1) exState 1 ([], []) = .ok (s1, (o1, q1)) ∧
    prune 0 false (s1.altDepth + 1) s1 2 ([], []) = .ok (s2, (o2, q2)) ∧ o1 ++ o2 = [(3, exEdge 2 5 0), (4, exEdge 4 7 2)] ∧
    (q2 ++ q1.reverse ++ [(12, exEdge 2 4 7)]) = [(14, exEdge 4 3 0), (13, exEdge 3 0 0), (10, exEdge 0 1 5), (11, exEdge 1 2 1), (12, exEdge 2 4 7)] ∧
    (s2.alt 0).children = [] := by
  exact ⟨_, _, _, _, _, _, rfl, rfl, by decide +kernel, by decide +kernel, by decide +kernel⟩

end Verif.Props.AltTrees
