import Verif.Blossom.Correlated
import Verif.Blossom.Twin

/-!
# Changing the weights of a built graph

Helper lemmas for `Verif.Props.Correlated`: a graph whose weights are changed as a function of the ends of the edges is the graph that the
insertions with changed weights build.
-/

namespace Verif.SB

open Verif Verif.Graph Verif.CE Verif.Spec Verif.Props.Graph
open Verif.Sch (Res)

/-- How weights change: a function of the two ends of an edge and its absolute weight. -/
abbrev Change := Sym2 (Option Nat) → Nat → Nat

/-- The insertion with changed weight; negative weights stay. -/
def reop (ρ : Change) : EdgeIns → EdgeIns
  | .edge u v w o => .edge u v (if w < 0 then w else (ρ s(some u, some v) w.toNat : Nat)) o
  | .bdry u w o => .bdry u (if w < 0 then w else (ρ s(some u, none) w.toNat : Nat)) o

/-- Negative weights are not changed. -/
def Keeps (ρ : Change) (op : EdgeIns) : Prop := op.w < 0 → ρ (endsOf op) op.w.natAbs = op.w.natAbs

/-- The matching graph with changed weights. -/
def mapM (ρ : Change) (g : MGraph) : MGraph :=
  { g with nodes := g.nodes.mapIdx fun u l => l.map fun n => { n with weight := ρ s(some u, n.target) n.weight } }

/-- The search graph with changed weights. -/
def mapS (ρ : Change) (sg : SGraph) : SGraph :=
  { sg with nodes := sg.nodes.mapIdx fun u l => l.map fun n => { n with weight := ρ s(some u, n.target) n.weight } }

theorem new_neg (ρ : Change) (z : Sym2 (Option Nat)) (w : Int) : (if w < 0 then w else (ρ z w.toNat : Nat)) < 0 ↔ w < 0 := by
  split
  · rfl
  · constructor
    · intro h; omega
    · intro h; contradiction

theorem new_abs {ρ : Change} {z : Sym2 (Option Nat)} {w : Int} (h : w < 0 → ρ z w.natAbs = w.natAbs) :
    (if w < 0 then w else (ρ z w.toNat : Nat)).natAbs = ρ z w.natAbs := by
  split
  · rename_i hw; exact (h hw).symm
  · rename_i hw
    rw [Int.natAbs_natCast]
    congr 1
    omega

theorem mapIdx_modify {α β : Type} (l : List α) (f : Nat → α → β) (k : α → α) (k' : β → β) (u : Nat) (h : ∀ x, f u (k x) = k' (f u x)) :
    (l.modify u k).mapIdx f = (l.mapIdx f).modify u k' := by
  apply List.ext_getElem
  · simp
  · intro i h1 h2
    simp only [List.getElem_mapIdx, List.getElem_modify]
    split
    · rename_i e; subst e; exact h _
    · rfl

theorem push_mapM (ρ : Change) (nodes : List (List Nbr)) (u : Nat) (x : Nbr) :
    (pushBack nodes u x).mapIdx (fun u l => l.map fun n => { n with weight := ρ s(some u, n.target) n.weight }) =
      pushBack (nodes.mapIdx fun u l => l.map fun n => { n with weight := ρ s(some u, n.target) n.weight }) u
        { x with weight := ρ s(some u, x.target) x.weight } :=
  mapIdx_modify _ _ _ _ _ fun l => by simp

theorem push_mapS (ρ : Change) (nodes : List (List SNbr)) (u : Nat) (x : SNbr) :
    (pushBackS nodes u x).mapIdx (fun u l => l.map fun n => { n with weight := ρ s(some u, n.target) n.weight }) =
      pushBackS (nodes.mapIdx fun u l => l.map fun n => { n with weight := ρ s(some u, n.target) n.weight }) u
        { x with weight := ρ s(some u, x.target) x.weight } :=
  mapIdx_modify _ _ _ _ _ fun l => by simp

theorem reop_w (ρ : Change) (op : EdgeIns) : (reop ρ op).w = if op.w < 0 then op.w else (ρ (endsOf op) op.w.toNat : Nat) := by
  cases op <;> rfl

theorem reop_obs (ρ : Change) (op : EdgeIns) : (reop ρ op).obs = op.obs := by cases op <;> rfl

theorem reop_incidence (ρ : Change) (op : EdgeIns) (x : Nat) : (reop ρ op).incidence x = op.incidence x := by cases op <;> rfl

theorem reop_ends (ρ : Change) (op : EdgeIns) : endsOf (reop ρ op) = endsOf op := by cases op <;> rfl

theorem reop_loop (ρ : Change) (op : EdgeIns) : IsLoop (reop ρ op) ↔ IsLoop op := by cases op <;> exact Iff.rfl

theorem reop_pair (ρ : Change) (op : EdgeIns) : pairOf (reop ρ op) = pairOf op := by cases op <;> rfl

theorem noteEdge_mapM (ρ : Change) (g : MGraph) (u v : Nat) {w w' : Int} (o : List Nat) (h : w' < 0 ↔ w < 0) (h' : w < 0 → w' = w) :
    (mapM ρ g).noteNegEdge u v w' o = mapM ρ (g.noteNegEdge u v w o) := by
  unfold MGraph.noteNegEdge
  by_cases hw : w < 0
  · rw [if_pos hw, if_pos (h.2 hw), h' hw]; rfl
  · rw [if_neg hw, if_neg (fun k => hw (h.1 k))]

theorem noteBdry_mapM (ρ : Change) (g : MGraph) (u : Nat) {w w' : Int} (o : List Nat) (h : w' < 0 ↔ w < 0) (h' : w < 0 → w' = w) :
    (mapM ρ g).noteNegBoundary u w' o = mapM ρ (g.noteNegBoundary u w o) := by
  unfold MGraph.noteNegBoundary
  by_cases hw : w < 0
  · rw [if_pos hw, if_pos (h.2 hw), h' hw]; rfl
  · rw [if_neg hw, if_neg (fun k => hw (h.1 k))]

theorem exec_mapM (ρ : Change) (g : MGraph) (op : EdgeIns) (hk : Keeps ρ op) : exec (mapM ρ g) (reop ρ op) = (exec g op).map (mapM ρ) := by
  have hlen : (mapM ρ g).nodes.length = g.nodes.length := by simp [mapM]
  cases op with
  | edge u v w o =>
    have hk : w < 0 → ρ s(some u, some v) w.natAbs = w.natAbs := hk
    have ha := new_abs hk
    have hn := new_neg ρ s(some u, some v) w
    have he := noteEdge_mapM ρ g u v (w' := if w < 0 then w else (ρ s(some u, some v) w.toNat : Nat)) o hn (fun h => if_pos h)
    simp only [exec, reop, MGraph.addEdge, hlen, he]
    by_cases h1 : max u v + 1 > g.nodes.length
    · simp [h1]
    · simp only [h1, if_false]
      by_cases h2 : u = v
      · simp [h2]
      · simp only [h2, if_false]
        rw [show (mapM ρ (g.noteNegEdge u v w o)).numObs = (g.noteNegEdge u v w o).numObs from rfl]
        cases hm : obsMask (g.noteNegEdge u v w o).numObs o with
        | none => simp
        | some m =>
          simp only [Option.map_some, Option.some.injEq]
          rw [ha]
          unfold mapM
          simp only [push_mapM]
          rw [Sym2.eq_swap (a := some v)]
  | bdry u w o =>
    have hk : w < 0 → ρ s(some u, none) w.natAbs = w.natAbs := hk
    have ha := new_abs hk
    have hn := new_neg ρ s(some u, none) w
    have he := noteBdry_mapM ρ g u (w' := if w < 0 then w else (ρ s(some u, none) w.toNat : Nat)) o hn (fun h => if_pos h)
    simp only [exec, reop, MGraph.addBoundaryEdge, he]
    have hget : (mapM ρ g).nodes[u]? = (g.nodes[u]?).map fun l => l.map fun n => { n with weight := ρ s(some u, n.target) n.weight } := by
      simp only [mapM, List.getElem?_mapIdx]
    rw [hget, show (mapM ρ g).numObs = g.numObs from rfl]
    cases hl : g.nodes[u]? with
    | none => simp
    | some l =>
      simp only [Option.map_some]
      cases hm : obsMask g.numObs o with
      | none => simp
      | some m =>
        simp only
        have hb : hasBoundary (l.map fun n => { n with weight := ρ s(some u, n.target) n.weight }) = hasBoundary l := by
          cases l <;> rfl
        rw [hb]
        by_cases h3 : hasBoundary l = true
        · simp [h3]
        · simp only [h3, if_false, Option.map_some, Option.some.injEq, Bool.false_eq_true]
          rw [ha]
          unfold mapM
          simp only
          congr 1
          refine (mapIdx_modify _ _ _ _ _ fun l => ?_).symm
          simp

theorem run_mapM (ρ : Change) (ops : List EdgeIns) : ∀ (g : MGraph), (∀ op ∈ ops, Keeps ρ op) → run (mapM ρ g) (ops.map (reop ρ)) = (run g ops).map (mapM ρ) := by
  induction ops with
  | nil => intro g _; rfl
  | cons op ops ih =>
    intro g h
    simp only [List.map_cons, run, exec_mapM ρ g op (h op (by simp))]
    cases exec g op with
    | none => rfl
    | some g' => exact ih g' (fun x hx => h x (by simp [hx]))

theorem mapM_empty (ρ : Change) (n m : Nat) : mapM ρ (MGraph.empty n m) = MGraph.empty n m := by
  unfold mapM MGraph.empty
  simp only
  congr 1
  apply List.ext_getElem <;> simp

theorem runS_mapS (ρ : Change) (ops : List EdgeIns) : ∀ (sg : SGraph), (∀ op ∈ ops, Keeps ρ op) →
    runS (mapS ρ sg) (ops.map (reop ρ)) = (runS sg ops).map (mapS ρ) := by
  induction ops with
  | nil => intro g _; rfl
  | cons op ops ih =>
    intro sg h
    have ih := fun sg => ih sg (fun x hx => h x (by simp [hx]))
    have hk := h op (by simp)
    have hlen : (mapS ρ sg).nodes.length = sg.nodes.length := by simp [mapS]
    cases op with
    | edge u v w o =>
      have hk : w < 0 → ρ s(some u, some v) w.natAbs = w.natAbs := hk
      have ha := new_abs hk
      have hn := new_neg ρ s(some u, some v) w
      simp only [List.map_cons, reop, runS, SGraph.addEdge, hlen]
      by_cases h1 : max u v + 1 > sg.nodes.length
      · simp [h1]
      · simp only [h1, if_false]
        by_cases h2 : u = v
        · simp only [h2, if_true]; exact ih sg
        · simp only [h2, if_false]
          rw [← ih]
          congr 1
          rw [ha]
          unfold mapS
          simp only [push_mapS, hn]
          rw [Sym2.eq_swap (a := some v)]
    | bdry u w o =>
      have hk : w < 0 → ρ s(some u, none) w.natAbs = w.natAbs := hk
      have ha := new_abs hk
      have hn := new_neg ρ s(some u, none) w
      simp only [List.map_cons, reop, runS, SGraph.addBoundaryEdge, hlen]
      by_cases h1 : u ≥ sg.nodes.length
      · simp [h1]
      · simp only [h1, if_false]
        rw [← ih]
        congr 1
        rw [ha]
        unfold mapS
        simp only [hn]
        congr 1
        refine (mapIdx_modify _ _ _ _ _ fun l => ?_).symm
        simp

theorem mapS_empty (ρ : Change) (n : Nat) : mapS ρ (SGraph.empty n) = SGraph.empty n := by
  unfold mapS SGraph.empty
  simp only
  congr 1
  apply List.ext_getElem <;> simp

/-! ## Memories -/

theorem withM_eq (g : MGraph) (ρ : Change) (m : RW.Mem)
    (h : ∀ u k n, entry g (u, k) = some n → m (u, k) = ρ s(some u, n.target) n.weight) : withM g m = mapM ρ g := by
  unfold withM mapM
  congr 1
  apply List.ext_getElem
  · simp
  · intro u h1 h2
    simp only [List.getElem_mapIdx]
    apply List.ext_getElem
    · simp
    · intro k h3 h4
      simp only [List.getElem_mapIdx, List.getElem_map]
      rw [h u k]
      rw [entry_bind]
      simp only [List.length_mapIdx] at h1 h3
      rw [List.getElem?_eq_getElem h1, Option.bind_some, List.getElem?_eq_getElem]

theorem withS_eq (sg : SGraph) (ρ : Change) (m : RW.Mem)
    (h : ∀ u k n, Sch.nbr sg u k = some n → m (u, k) = ρ s(some u, n.target) n.weight) : withS sg m = mapS ρ sg := by
  unfold withS mapS
  congr 1
  apply List.ext_getElem
  · simp
  · intro u h1 h2
    simp only [List.getElem_mapIdx]
    apply List.ext_getElem
    · simp
    · intro k h3 h4
      simp only [List.getElem_mapIdx, List.getElem_map]
      rw [h u k]
      unfold Sch.nbr
      simp only [List.length_mapIdx] at h1 h3
      rw [List.getElem?_eq_getElem h1, Option.bind_some, List.getElem?_eq_getElem]

theorem memM_entry {g : MGraph} {u k : Nat} {n : Nbr} (h : entry g (u, k) = some n) : memM g (u, k) = n.weight := by
  rw [entry_bind] at h
  simp only [memM, h]

theorem memS_nbr {sg : SGraph} {u k : Nat} {n : SNbr} (h : Sch.nbr sg u k = some n) : memS sg (u, k) = n.weight := by
  unfold Sch.nbr at h
  simp only [memS, h]

theorem mapIdx_self {α : Type} (l : List α) : l.mapIdx (fun _ x => x) = l := by
  apply List.ext_getElem <;> simp

theorem mapM_id (g : MGraph) : mapM (fun _ w => w) g = g := by
  unfold mapM
  simp [mapIdx_self]

theorem mapS_id (sg : SGraph) : mapS (fun _ w => w) sg = sg := by
  unfold mapS
  simp [mapIdx_self]

theorem withM_mem (g : MGraph) : withM g (memM g) = g := by
  rw [withM_eq g (fun _ w => w) _ (fun u k n h => memM_entry h), mapM_id]

theorem withS_mem (sg : SGraph) : withS sg (memS sg) = sg := by
  rw [withS_eq sg (fun _ w => w) _ (fun u k n h => memS_nbr h), mapS_id]

/-! ## Slots and rules -/

/-- The neighbour lists: no neighbour twice, every edge at both ends, no self-loops. -/
structure Fair (A : Adj) : Prop where
  nodup : ∀ (u : Nat) (l : List (Option Nat)), A[u]? = some l → l.Nodup
  sym : ∀ (u v : Nat) (l : List (Option Nat)), A[u]? = some l → some v ∈ l → v ≠ u ∧ ∃ l', A[v]? = some l' ∧ some u ∈ l'

/-- Slot `k` of node `u` leads to `t`. -/
def At (A : Adj) (u k : Nat) (t : Option Nat) : Prop := ∃ l, A[u]? = some l ∧ l[k]? = some t

theorem slotOf_ok {A : Adj} (hA : Fair A) {u k : Nat} {t : Option Nat} : slotOf A u t = .ok k ↔ At A u k t := by
  unfold slotOf At
  cases hl : A[u]? with
  | none => simp
  | some l =>
    simp only [Option.some.injEq, exists_eq_left']
    cases hi : l.findIdx? (· == t) with
    | none =>
      simp only [reduceCtorEq, false_iff]
      intro hk
      rw [List.findIdx?_eq_none_iff] at hi
      have := hi t (List.mem_of_getElem? hk)
      simp at this
    | some i =>
      obtain ⟨h1, h2, -⟩ := List.findIdx?_eq_some_iff_getElem.1 hi
      simp only [beq_iff_eq] at h2
      simp only [Res.ok.injEq]
      constructor
      · rintro rfl
        rw [List.getElem?_eq_getElem h1, h2]
      · intro hk
        obtain ⟨h3, h4⟩ := List.getElem?_eq_some_iff.1 hk
        exact (List.Nodup.getElem_inj_iff (hA.nodup u l hl)).1 (h2.trans h4.symm)

theorem At.unique {A : Adj} (hA : Fair A) {u k k' : Nat} {t : Option Nat} (h : At A u k t) (h' : At A u k' t) : k = k' := by
  have := ((slotOf_ok hA).2 h).symm.trans ((slotOf_ok hA).2 h')
  simpa using this

theorem At.target {A : Adj} {u k : Nat} {t t' : Option Nat} (h : At A u k t) (h' : At A u k t') : t = t' := by
  obtain ⟨l, h1, h2⟩ := h
  obtain ⟨l', h3, h4⟩ := h'
  rw [h1] at h3; cases h3
  rw [h2] at h4; exact Option.some.inj h4

theorem At.back {A : Adj} (hA : Fair A) {u k v : Nat} (h : At A u k (some v)) : v ≠ u ∧ ∃ j, At A v j (some u) := by
  obtain ⟨l, h1, h2⟩ := h
  obtain ⟨h3, l', h4, h5⟩ := hA.sym u v l h1 (List.mem_of_getElem? h2)
  obtain ⟨j, h6⟩ := List.getElem?_of_mem h5
  exact ⟨h3, j, l', h4, h6⟩

open Classical in
/-- The other cell of an edge. -/
noncomputable def twinOf (A : Adj) (p : RW.Addr) : Option RW.Addr :=
  if h : ∃ q : RW.Addr, At A p.1 p.2 (some q.1) ∧ At A q.1 q.2 (some p.1) then some h.choose else none

theorem twinOf_some {A : Adj} (hA : Fair A) {p q : RW.Addr} : twinOf A p = some q ↔ At A p.1 p.2 (some q.1) ∧ At A q.1 q.2 (some p.1) := by
  unfold twinOf
  split
  · rename_i h
    have hs := h.choose_spec
    rw [Option.some.injEq]
    constructor
    · rintro rfl; exact hs
    · rintro ⟨h1, h2⟩
      have e1 : (h.choose).1 = q.1 := Option.some.inj (hs.1.target h1)
      have e2 : (h.choose).2 = q.2 := by
        have h3 := hs.2
        rw [e1] at h3
        exact h3.unique hA h2
      exact Prod.ext e1 e2
  · rename_i h
    simp only [reduceCtorEq, false_iff]
    exact fun hq => h ⟨q, hq⟩

theorem twinOf_none {A : Adj} (hA : Fair A) {p : RW.Addr} (h : At A p.1 p.2 none) : twinOf A p = none := by
  cases e : twinOf A p with
  | none => rfl
  | some q =>
    have := ((twinOf_some hA).1 e).1.target h
    cases this

/-- The cells of the edges as pairs. -/
noncomputable def pairing {A : Adj} (hA : Fair A) : RW.Pairing where
  twin := twinOf A
  symm p q h := by
    rw [twinOf_some hA] at h ⊢
    exact ⟨h.2, h.1⟩
  ne p h := by
    rw [twinOf_some hA] at h
    exact (h.1.back hA).1 rfl

/-- The two ends of the edge that a rule is about. -/
def ruleEnds (r : RW.ImpliedWeight) : Sym2 (Option Nat) := s(some r.edge0.1, r.edge1.map (·.1))

section Rules

open Verif.UG Verif.Conv

variable {K : Type} [Field K] [LinearOrder K] [FloorRing K]

/-- The two ends of the edge that an implied weight is for. -/
def impliedEnds (r : Implied K) : Sym2 (Option Nat) := s(some r.node1, r.node2)

/-- The implied weight in the units of the decoder. -/
def impliedWeight (k : K) (r : Implied K) : Nat := (disc (k / 2) r.weight).natAbs

/-- What a converted rule is. -/
structure Converted (A : Adj) (k : K) (r : Implied K) (x : RW.ImpliedWeight) : Prop where
  ok : x.edge1 = twinOf A x.edge0
  ends : ruleEnds x = impliedEnds r
  weight : x.weight = impliedWeight k r
  at0 : At A r.node1 x.edge0.2 r.node2
  hits : ∀ u i t, At A u i t → (((u, i) = x.edge0 ∨ some (u, i) = x.edge1) ↔ ruleEnds x = s(some u, t))

theorem convertRule_spec {A : Adj} (hA : Fair A) {k : K} {r : Implied K} {x : RW.ImpliedWeight} (h : convertRule A k r = .ok x) : Converted A k r x := by
  unfold convertRule at h
  cases hi : slotOf A r.node1 r.node2 with
  | ub => rw [hi] at h; cases h
  | throws => rw [hi] at h; cases h
  | ok i =>
    rw [hi] at h
    have hat := (slotOf_ok hA).1 hi
    simp only [Res.bind] at h
    cases hr : r.node2 with
    | none =>
      rw [hr] at h hat
      simp only [Res.ok.injEq] at h
      subst h
      refine ⟨(twinOf_none hA hat).symm, by simp [ruleEnds, impliedEnds, hr], rfl, by rw [hr]; exact hat, ?_⟩
      intro u j t ht
      simp only [Prod.mk.injEq, reduceCtorEq, or_false, ruleEnds, Option.map_none]
      constructor
      · rintro ⟨rfl, rfl⟩
        rw [hat.target ht]
      · intro e
        rw [Sym2.eq_iff] at e
        rcases e with ⟨e1, e2⟩ | ⟨e1, e2⟩
        · cases e1; subst e2
          exact ⟨rfl, ht.unique hA hat⟩
        · cases e2
    | some v =>
      rw [hr] at h hat
      simp only at h
      cases hj : slotOf A v (some r.node1) with
      | ub => rw [hj] at h; cases h
      | throws => rw [hj] at h; cases h
      | ok j =>
        rw [hj] at h
        simp only [Res.ok.injEq] at h
        subst h
        have hat' := (slotOf_ok hA).1 hj
        refine ⟨((twinOf_some hA).2 ⟨hat, hat'⟩).symm, by simp [ruleEnds, impliedEnds, hr], rfl, by rw [hr]; exact hat, ?_⟩
        intro u l t ht
        simp only [Prod.mk.injEq, Option.some.injEq, ruleEnds, Option.map_some]
        constructor
        · rintro (⟨rfl, rfl⟩ | ⟨rfl, rfl⟩)
          · rw [hat.target ht]
          · rw [← hat'.target ht]; exact Sym2.eq_swap
        · intro e
          rw [Sym2.eq_iff] at e
          rcases e with ⟨e1, e2⟩ | ⟨e1, e2⟩
          · cases e1; subst e2
            exact .inl ⟨rfl, ht.unique hA hat⟩
          · cases e2; subst e1
            exact .inr ⟨rfl, ht.unique hA hat'⟩

theorem mapRes_ok {α β : Type} {f : α → Res β} : ∀ {l : List α} {bs : List β}, mapRes f l = .ok bs ↔ List.Forall₂ (fun a b => f a = .ok b) l bs := by
  intro l
  induction l with
  | nil => intro bs; simp [mapRes, eq_comm]
  | cons a l ih =>
    intro bs
    unfold mapRes
    cases ha : f a with
    | ub => simp [Res.bind, List.forall₂_cons_left_iff, ha]
    | throws => simp [Res.bind, List.forall₂_cons_left_iff, ha]
    | ok b =>
      cases hl : mapRes f l with
      | ub =>
        simp only [Res.bind, List.forall₂_cons_left_iff, ha, reduceCtorEq, false_iff]
        rintro ⟨b', u', -, h2, -⟩
        rw [ih.2 h2] at hl; cases hl
      | throws =>
        simp only [Res.bind, List.forall₂_cons_left_iff, ha, reduceCtorEq, false_iff]
        rintro ⟨b', u', -, h2, -⟩
        rw [ih.2 h2] at hl; cases hl
      | ok bs' =>
        simp only [Res.bind, List.forall₂_cons_left_iff, ha, Res.ok.injEq]
        constructor
        · rintro rfl; exact ⟨b, bs', rfl, ih.1 hl, rfl⟩
        · rintro ⟨b', u', rfl, h2, rfl⟩
          have := ih.2 h2
          rw [hl] at this; cases this; rfl

/-- The implied weights of an insertion. -/
def impliedOf : Conv.Ins K → List (Implied K)
  | .edge _ _ _ _ im => im
  | .bdry _ _ _ im => im

/-- The table has the implied weights of each edge in its slots. -/
def Linked (t : Table K) (g : MGraph) (D : List (Conv.Ins K)) : Prop :=
  t.length = g.nodes.length ∧ ∀ (u : Nat) (h : u < t.length) (h' : u < g.nodes.length), List.Forall₂ (fun im (n : Nbr) => ∃ i ∈ D, impliedOf i = im ∧
    ¬ IsLoop (Props.Convert.toGraphIns i) ∧ endsOf (Props.Convert.toGraphIns i) = s(some u, n.target)) t[u] g.nodes[u]

theorem linked_mono {t : Table K} {g g' : MGraph} {D D' : List (Conv.Ins K)} (hn : g'.nodes = g.nodes) (hD : ∀ i ∈ D, i ∈ D') (h : Linked t g D) :
    Linked t g' D' := by
  obtain ⟨h1, h2⟩ := h
  refine ⟨by rw [hn]; exact h1, fun u a b => ?_⟩
  have b' : u < g.nodes.length := by rw [← hn]; exact b
  have : g'.nodes[u] = g.nodes[u] := by simp only [hn]
  rw [this]
  exact (h2 u a b').imp fun x y ⟨i, k1, k2⟩ => ⟨i, hD i k1, k2⟩

theorem linked_push {t : Table K} {g g' : MGraph} {D : List (Conv.Ins K)} {u : Nat} {im : List (Implied K)} {n : Nbr} {i : Conv.Ins K} (hi : i ∈ D)
    (h : Linked t g D) (hn : g'.nodes = pushBack g.nodes u n) (h1 : impliedOf i = im) (h2 : ¬ IsLoop (Props.Convert.toGraphIns i))
    (h3 : endsOf (Props.Convert.toGraphIns i) = s(some u, n.target)) : Linked (t.modify u (· ++ [im])) g' D := by
  obtain ⟨k1, k2⟩ := h
  refine ⟨by rw [hn]; simpa [pushBack] using k1, fun x a b => ?_⟩
  have a' : x < t.length := by simpa using a
  have b' : x < g.nodes.length := by rw [← k1]; exact a'
  have e : g'.nodes[x] = (pushBack g.nodes u n)[x]'(by simpa [pushBack] using b') := by simp only [hn]
  rw [e]
  simp only [pushBack, List.getElem_modify]
  split
  · rename_i hx
    subst hx
    exact forall2_snoc (k2 u a' b') ⟨i, hi, h1, h2, h3⟩
  · exact k2 x a' b'

theorem linked_exec {t : Table K} {g g' : MGraph} {D : List (Conv.Ins K)} (i : Conv.Ins K) (h : Linked t g D)
    (he : exec g (Props.Convert.toGraphIns i) = some g') : Linked (note t i) g' (D ++ [i]) := by
  have hD : Linked t g (D ++ [i]) := linked_mono rfl (by simp +contextual) h
  cases i with
  | edge u v w o im =>
    simp only [Props.Convert.toGraphIns, exec, MGraph.addEdge] at he
    split at he
    · rename_i g1 h1
      cases he
      split at h1
      · cases h1
      split at h1
      · rename_i huv
        simp only [Ins.ok.injEq] at h1
        subst h1
        simp only [note, huv, if_true]
        rw [huv] at hD
        exact linked_mono (noteNegEdge_nodes ..).1 (fun i hi => hi) hD
      · rename_i huv
        simp only [note, huv, if_false]
        split at h1
        · cases h1
        · simp only [Ins.ok.injEq] at h1
          subst h1
          have hn := (noteNegEdge_nodes g u v w o).1
          refine linked_push (i := .edge u v w o im) (n := ⟨some u, w.natAbs, _⟩) (g := { g.noteNegEdge u v w o with nodes := pushBack (g.noteNegEdge u v w o).nodes u ⟨some v, w.natAbs, _⟩ })
            (by simp) ?_ rfl rfl huv (by simp [endsOf, Props.Convert.toGraphIns, Sym2.eq_swap])
          exact linked_push (i := .edge u v w o im) (g := g) (by simp) hD (by rw [hn]) rfl huv rfl
    · cases he
  | bdry u w o im =>
    simp only [Props.Convert.toGraphIns, exec, MGraph.addBoundaryEdge] at he
    split at he
    · rename_i g1 h1
      cases he
      split at h1
      · cases h1
      split at h1
      · cases h1
      split at h1
      · cases h1
      simp only [Ins.ok.injEq] at h1
      subst h1
      have hn := (noteNegBoundary_nodes g u w o).1
      obtain ⟨k1, k2⟩ := hD
      refine ⟨by simpa [note, hn] using k1, fun x a b => ?_⟩
      have a' : x < t.length := by simpa [note] using a
      have b' : x < g.nodes.length := by rw [← k1]; exact a'
      simp only [note, List.getElem_modify, hn]
      split
      · rename_i hx
        subst hx
        exact .cons ⟨.bdry u w o im, by simp, rfl, fun h => h, rfl⟩ (k2 u a' b')
      · exact k2 x a' b'
    · cases he

theorem linked_run {n m : Nat} {ins : List (Conv.Ins K)} {g : MGraph}
    (h : run (MGraph.empty n m) (ins.map Props.Convert.toGraphIns) = some g) : Linked (table n ins) g ins := by
  have key : ∀ (ins D : List (Conv.Ins K)) (t : Table K) (g0 : MGraph), Linked t g0 D → run g0 (ins.map Props.Convert.toGraphIns) = some g →
      Linked (ins.foldl note t) g (D ++ ins) := by
    intro ins
    induction ins with
    | nil => intro D t g0 h0 hr; cases hr; simpa using h0
    | cons i is ih =>
      intro D t g0 h0 hr
      simp only [List.map_cons, run] at hr
      cases he : exec g0 (Props.Convert.toGraphIns i) with
      | none => rw [he] at hr; cases hr
      | some g1 =>
        rw [he] at hr
        have := ih (D ++ [i]) (note t i) g1 (linked_exec i h0 he) hr
        simpa using this
  have := key ins [] (List.replicate n []) _ ⟨by simp [MGraph.empty], by simp [MGraph.empty]⟩ h
  rw [List.nil_append] at this
  exact this

end Rules

end Verif.SB
