import Verif.Blossom.Wide
import Verif.Blossom.Link
import Verif.SearchPath

/-!
# The matching graph and the search graph have the same edges

Helper lemmas for `Verif.Props.Edges`: the search graph built by the same insertions has the same neighbour lists, and walks in the one are
routes in the other.
-/

namespace Verif.SB

open Verif Verif.Graph Verif.CE Verif.Spec Verif.Props.Graph Verif.Props.NegWeights
open Verif.Sch (Res nbr Good)

variable {numNodes numObs : Nat} {ops : List EdgeIns} {g : MGraph} {sg : SGraph}

/-- The entry of the search graph for an edge as seen from a node. -/
def sEntry (r : Option Nat × Int × List Nat) : SNbr := ⟨r.1, r.2.1.natAbs, r.2.2, r.2.1 < 0⟩

/-- The entry of `negative_weight_edges` for an insertion. -/
def negEdge : EdgeIns → Option (Nat × Option Nat)
  | .edge u v w _ => if u = v then .none else if w < 0 then .some (u, .some v) else .none
  | .bdry u w _ => if w < 0 then .some (u, .none) else .none

/-- The search graph after the insertions `ops`. -/
structure Twin (numNodes : Nat) (sg : SGraph) (ops : List EdgeIns) : Prop where
  len : sg.nodes.length = numNodes
  adj : ∀ x (hx : x < sg.nodes.length), sg.nodes[x] = (ops.filterMap (seenBdry x) ++ ops.filterMap (seenFrom x)).map sEntry
  neg : sg.negEdges = ops.filterMap negEdge

theorem twin_edge (h : Twin numNodes sg ops) (u v : Nat) (w : Int) (o : List Nat) {sg' : SGraph} (he : sg.addEdge u v w o = .ok sg') :
    Twin numNodes sg' (ops ++ [.edge u v w o]) := by
  unfold SGraph.addEdge at he
  split at he
  · cases he
  split at he
  · rename_i huv
    cases he
    subst huv
    refine ⟨h.len, ?_, ?_⟩
    · intro x hx
      rw [h.adj x hx]
      simp [List.filterMap_append, seenBdry, seenFrom]
    · rw [h.neg]; simp [List.filterMap_append, negEdge]
  · rename_i huv
    simp only [Ins.ok.injEq] at he
    subst he
    refine ⟨by simp [pushBackS, h.len], ?_, ?_⟩
    · intro x hx
      have hx' : x < sg.nodes.length := by simpa [pushBackS] using hx
      have hsb : ((ops ++ [EdgeIns.edge u v w o]).filterMap (seenBdry x)) = ops.filterMap (seenBdry x) := by
        simp [List.filterMap_append, seenBdry]
      rw [hsb]
      simp only [pushBackS, List.getElem_modify, h.adj x hx']
      by_cases hxv : v = x
      · have hux : ¬ u = x := fun h => huv (h.trans hxv.symm)
        have : ((ops ++ [EdgeIns.edge u v w o]).filterMap (seenFrom x)) = ops.filterMap (seenFrom x) ++ [(some u, w, o)] := by
          simp [List.filterMap_append, seenFrom, hux, hxv]
        rw [this, if_pos hxv, if_neg hux]
        simp [sEntry]
      · by_cases hux : u = x
        · have : ((ops ++ [EdgeIns.edge u v w o]).filterMap (seenFrom x)) = ops.filterMap (seenFrom x) ++ [(some v, w, o)] := by
            have huv' : ¬ x = v := fun h => hxv h.symm
            simp [List.filterMap_append, seenFrom, hux, huv']
          rw [this, if_neg hxv, if_pos hux]
          simp [sEntry]
        · have : ((ops ++ [EdgeIns.edge u v w o]).filterMap (seenFrom x)) = ops.filterMap (seenFrom x) := by
            simp [List.filterMap_append, seenFrom, hux, hxv, huv]
          rw [this, if_neg hxv, if_neg hux]
    · rw [List.filterMap_append, ← h.neg]
      by_cases hw : w < 0 <;> simp [negEdge, huv, hw]

theorem twin_bdry (h : Twin numNodes sg ops) (u : Nat) (w : Int) (o : List Nat) {sg' : SGraph} (he : sg.addBoundaryEdge u w o = .ok sg')
    (hone : ops.filterMap (seenBdry u) = []) : Twin numNodes sg' (ops ++ [.bdry u w o]) := by
  unfold SGraph.addBoundaryEdge at he
  split at he
  · cases he
  · simp only [Ins.ok.injEq] at he
    subst he
    refine ⟨by simp [h.len], ?_, ?_⟩
    · intro x hx
      have hx' : x < sg.nodes.length := by simpa using hx
      have hsf : ((ops ++ [EdgeIns.bdry u w o]).filterMap (seenFrom x)) = ops.filterMap (seenFrom x) := by
        simp [List.filterMap_append, seenFrom]
      rw [hsf]
      simp only [List.getElem_modify, h.adj x hx']
      by_cases hux : u = x
      · subst hux
        simp [List.filterMap_append, seenBdry, hone, sEntry]
      · simp [List.filterMap_append, seenBdry, hux]
    · rw [List.filterMap_append, ← h.neg]
      by_cases hw : w < 0 <;> simp [negEdge, hw]

theorem twin_run {more : List EdgeIns} : ∀ {sg sg' : SGraph} {ops : List EdgeIns}, Twin numNodes sg ops → runS sg more = .some sg' →
    (∀ x, ((ops ++ more).filterMap (seenBdry x)).length ≤ 1) → Twin numNodes sg' (ops ++ more) := by
  induction more with
  | nil => intro sg sg' ops h hr _; cases hr; simpa using h
  | cons i is ih =>
    intro sg sg' ops h hr hone
    rw [show ops ++ i :: is = (ops ++ [i]) ++ is by simp] at hone ⊢
    cases i with
    | edge u v w o =>
      simp only [runS] at hr
      split at hr
      · exact ih (twin_edge h u v w o (by assumption)) hr hone
      · cases hr
    | bdry u w o =>
      simp only [runS] at hr
      split at hr
      · refine ih (twin_bdry h u w o (by assumption) ?_) hr hone
        have := hone u
        simp only [List.filterMap_append, List.length_append, List.filterMap_cons, seenBdry, if_true, List.length_cons, List.filterMap_nil,
          List.length_nil] at this
        exact List.length_eq_zero_iff.1 (by omega)
      · cases hr

theorem twin_of_runs (h : run (MGraph.empty numNodes numObs) ops = .some g) (hs : runS (SGraph.empty numNodes) ops = .some sg) :
    Twin numNodes sg ops := by
  have h0 : Twin numNodes (SGraph.empty numNodes) [] := ⟨by simp [SGraph.empty], by simp [SGraph.empty], rfl⟩
  have := twin_run h0 hs (by simpa using (C13_adjacency numNodes numObs ops g h).2.1)
  simpa using this

/-- If the matching graph can be built, so can the search graph. -/
theorem runS_exists (h : run (MGraph.empty numNodes numObs) ops = .some g) : ∃ sg, runS (SGraph.empty numNodes) ops = .some sg := by
  have hr := fun op hop => in_range (op := op) h hop
  rw [(C13_adjacency numNodes numObs ops g h).1] at hr
  clear h
  have key : ∀ (ops : List EdgeIns) (sg : SGraph), sg.nodes.length = numNodes → (∀ op ∈ ops, Within numNodes op) → ∃ sg', runS sg ops = .some sg' := by
    intro ops
    induction ops with
    | nil => intro sg _ _; exact ⟨sg, rfl⟩
    | cons i is ih =>
      intro sg hl hw
      have hi := hw i (by simp)
      cases i with
      | edge u v w o =>
        obtain ⟨h1, h2⟩ := hi
        have : ∃ sg', sg.addEdge u v w o = .ok sg' ∧ sg'.nodes.length = numNodes := by
          unfold SGraph.addEdge
          rw [if_neg (by omega)]
          split
          · exact ⟨_, rfl, hl⟩
          · exact ⟨_, rfl, by simp [pushBackS, hl]⟩
        obtain ⟨sg', e1, e2⟩ := this
        simp only [runS, e1]
        exact ih sg' e2 (fun op hop => hw op (by simp [hop]))
      | bdry u w o =>
        have hi : u < numNodes := hi
        have : ∃ sg', sg.addBoundaryEdge u w o = .ok sg' ∧ sg'.nodes.length = numNodes := by
          unfold SGraph.addBoundaryEdge
          rw [if_neg (by omega)]
          exact ⟨_, rfl, by simp [hl]⟩
        obtain ⟨sg', e1, e2⟩ := this
        simp only [runS, e1]
        exact ih sg' e2 (fun op hop => hw op (by simp [hop]))
  exact key ops _ (by simp [SGraph.empty]) hr

/-- The two ends of an inserted edge, unordered (`none`: the boundary). -/
def endsOf : EdgeIns → Sym2 (Option Nat)
  | .edge u v _ _ => s(.some u, .some v)
  | .bdry u _ _ => s(.some u, .none)

/-- What an entry of the search graph says about an inserted edge. -/
structure SlotIn (sg : SGraph) (e : Nat × Nat) (n : SNbr) (op : EdgeIns) : Prop where
  slot : nbr sg e.1 e.2 = .some n
  noloop : ¬ IsLoop op
  weight : (n.weight : Int) = |op.w|
  obs : n.obs = op.obs
  ends : s(.some e.1, n.target) = endsOf op

theorem entry_bind {u i : Nat} : entry g (u, i) = (g.nodes[u]?).bind fun l => l[i]? := by
  unfold entry
  cases g.nodes[u]? <;> rfl

theorem seen_slotIn {u i : Nat} {op : EdgeIns} {r : Option Nat × Int × List Nat} (hs : nbr sg u i = .some (sEntry r))
    (h : seenBdry u op = .some r ∨ seenFrom u op = .some r) : SlotIn sg (u, i) (sEntry r) op := by
  cases op with
  | bdry u' w o =>
    rcases h with h | h
    · simp only [seenBdry] at h
      split at h
      · rename_i hu
        subst hu
        cases h
        exact ⟨hs, fun h => h, Int.natCast_natAbs w, rfl, rfl⟩
      · cases h
    · cases h
  | edge a b w o =>
    rcases h with h | h
    · cases h
    · simp only [seenFrom] at h
      split at h
      · cases h
      rename_i hab
      split at h
      · rename_i hu
        subst hu
        cases h
        exact ⟨hs, hab, Int.natCast_natAbs w, rfl, rfl⟩
      split at h
      · rename_i hu
        subst hu
        cases h
        exact ⟨hs, hab, Int.natCast_natAbs w, rfl, Sym2.eq_swap⟩
      · cases h

/-- A slot of the search graph is one of the matching graph, for the same insertion. -/
theorem twin_slot (h : run (MGraph.empty numNodes numObs) ops = .some g) (ht : Twin numNodes sg ops) {u i : Nat} {n : SNbr}
    (hn : nbr sg u i = .some n) :
    ∃ m op, entry g (u, i) = .some m ∧ m.target = n.target ∧ m.weight = n.weight ∧ op ∈ ops ∧ SlotOf numObs g (u, i) op ∧ SlotIn sg (u, i) n op := by
  obtain ⟨hlen, -, hadj⟩ := C13_adjacency numNodes numObs ops g h
  obtain ⟨l, h1, h2⟩ := Props.EdgeMarks.mem_slot.1 hn
  obtain ⟨hu, rfl⟩ := List.getElem?_eq_some_iff.1 h1
  have hug : u < g.nodes.length := by rw [hlen, ← ht.len]; exact hu
  rw [ht.adj u hu, List.getElem?_map, Option.map_eq_some_iff] at h2
  obtain ⟨r, h3, rfl⟩ := h2
  obtain ⟨hi, rfl⟩ := List.getElem?_eq_some_iff.1 h3
  have hf := hadj u hug
  have hi' : i < g.nodes[u].length := by rw [hf.length_eq]; exact hi
  have hrep := hf.get (i := i) hi' hi
  simp only [List.get_eq_getElem] at hrep
  have he : entry g (u, i) = .some g.nodes[u][i] := by
    rw [entry_bind, List.getElem?_eq_getElem hug, Option.bind_some, List.getElem?_eq_getElem hi']
  have hmem := List.getElem_mem (l := ops.filterMap (seenBdry u) ++ ops.filterMap (seenFrom u)) hi
  rw [List.mem_append, List.mem_filterMap, List.mem_filterMap] at hmem
  have : ∃ op ∈ ops, seenBdry u op = .some ((ops.filterMap (seenBdry u) ++ ops.filterMap (seenFrom u))[i]) ∨
      seenFrom u op = .some ((ops.filterMap (seenBdry u) ++ ops.filterMap (seenFrom u))[i]) := by
    rcases hmem with ⟨op, k1, k2⟩ | ⟨op, k1, k2⟩
    · exact ⟨op, k1, .inl k2⟩
    · exact ⟨op, k1, .inr k2⟩
  obtain ⟨op, k1, k2⟩ := this
  exact ⟨_, op, he, hrep.1, hrep.2.1, k1, seen_slot he hrep k2, seen_slotIn hn k2⟩

/-- A slot of the matching graph is one of the search graph. -/
theorem slot_twin (h : run (MGraph.empty numNodes numObs) ops = .some g) (ht : Twin numNodes sg ops) {u i : Nat} {m : Nbr}
    (hm : entry g (u, i) = .some m) : ∃ n, nbr sg u i = .some n ∧ n.target = m.target ∧ n.weight = m.weight := by
  obtain ⟨hlen, -, hadj⟩ := C13_adjacency numNodes numObs ops g h
  obtain ⟨hu, hi, rfl⟩ := (entry_run h).1 hm
  have hus : u < sg.nodes.length := by rw [ht.len, ← hlen]; exact hu
  have hf := hadj u hu
  have hi' : i < (ops.filterMap (seenBdry u) ++ ops.filterMap (seenFrom u)).length := by rw [← hf.length_eq]; exact hi
  have hrep := hf.get (i := i) hi hi'
  simp only [List.get_eq_getElem] at hrep
  refine ⟨sEntry _, Props.EdgeMarks.mem_slot.2 ⟨_, List.getElem?_eq_getElem hus, ?_⟩, hrep.1.symm, hrep.2.1.symm⟩
  rw [ht.adj u hus, List.getElem?_map, List.getElem?_eq_getElem hi', Option.map_some]

/-- An inserted edge has a slot in the search graph at each of its ends. -/
theorem op_twin (h : run (MGraph.empty numNodes numObs) ops = .some g) (ht : Twin numNodes sg ops) {op : EdgeIns} (hop : op ∈ ops) {u : Nat}
    (hu : u < numNodes) {r : Option Nat × Int × List Nat} (hs : seenBdry u op = .some r ∨ seenFrom u op = .some r) :
    ∃ i, nbr sg u i = .some (sEntry r) := by
  have hus : u < sg.nodes.length := by rw [ht.len]; exact hu
  have hmem : r ∈ ops.filterMap (seenBdry u) ++ ops.filterMap (seenFrom u) := by
    rw [List.mem_append, List.mem_filterMap, List.mem_filterMap]
    rcases hs with hs | hs
    · exact .inl ⟨op, hop, hs⟩
    · exact .inr ⟨op, hop, hs⟩
  obtain ⟨i, hi, rfl⟩ := List.getElem_of_mem hmem
  refine ⟨i, Props.EdgeMarks.mem_slot.2 ⟨_, List.getElem?_eq_getElem hus, ?_⟩⟩
  rw [ht.adj u hus, List.getElem?_map, List.getElem?_eq_getElem hi, Option.map_some]

theorem good_of_run (h : run (MGraph.empty numNodes numObs) ops = .some g) (ht : Twin numNodes sg ops) (hg : Proper g) : Good sg := by
  refine ⟨⟨?_, ?_, ?_⟩, ?_, ?_⟩
  · intro u l hl
    obtain ⟨hu, rfl⟩ := List.getElem?_eq_some_iff.1 hl
    obtain ⟨hlen, -, hadj⟩ := C13_adjacency numNodes numObs ops g h
    have hug : u < g.nodes.length := by rw [hlen, ← ht.len]; exact hu
    have hf := hadj u hug
    have hnd := hg.nodup u _ (List.getElem?_eq_getElem hug)
    rw [ht.adj u hu]
    have heq : g.nodes[u].map (·.target) = ((ops.filterMap (seenBdry u) ++ ops.filterMap (seenFrom u)).map sEntry).map (·.target) := by
      generalize g.nodes[u] = l at hf
      generalize ops.filterMap (seenBdry u) ++ ops.filterMap (seenFrom u) = l' at hf
      induction hf with
      | nil => rfl
      | cons h1 _ ih => simp only [List.map_cons, ih, h1.1, sEntry]
    rw [← heq]
    exact hnd
  · intro u i n hn h0
    obtain ⟨m, op, k1, k2, -⟩ := twin_slot h ht hn
    exact hg.bfirst u i m k1 (k2.trans h0)
  · intro u i n v hn hv
    obtain ⟨m, op, k1, k2, -, hop, -, k6⟩ := twin_slot h ht hn
    obtain ⟨hvu, -⟩ := hg.sym u i m v k1 (k2.trans hv)
    refine ⟨hvu, ?_⟩
    have hends := k6.ends
    rw [hv] at hends
    have hr := in_range h hop
    rw [(C13_adjacency numNodes numObs ops g h).1] at hr
    cases op with
    | bdry a w o =>
      simp only [endsOf, Sym2.eq_iff] at hends
      rcases hends with ⟨-, h⟩ | ⟨h, -⟩ <;> cases h
    | edge a b w o =>
      have hab : ¬ a = b := k6.noloop
      simp only [endsOf, Sym2.eq_iff, Option.some.injEq] at hends
      obtain ⟨hra, hrb⟩ := hr
      have hw : n.weight = w.natAbs := by
        have := k6.weight
        simp only [EdgeIns.w] at this
        rw [← Int.natCast_natAbs] at this
        exact_mod_cast this
      rcases hends with ⟨rfl, rfl⟩ | ⟨rfl, rfl⟩
      · have hs : seenFrom v (.edge u v w o) = .some (.some u, w, o) := by simp [seenFrom, hab]
        obtain ⟨j, hj⟩ := op_twin h ht hop hrb (.inr hs)
        exact ⟨j, _, hj, rfl, hw.symm, k6.obs.symm⟩
      · have hs : seenFrom v (.edge v u w o) = .some (.some u, w, o) := by simp [seenFrom, hab]
        obtain ⟨j, hj⟩ := op_twin h ht hop hra (.inr hs)
        exact ⟨j, _, hj, rfl, hw.symm, k6.obs.symm⟩
  · intro u i n hn
    obtain ⟨m, op, k1, -, k2, -⟩ := twin_slot h ht hn
    rw [← k2, Nat.even_iff]
    exact hg.even u i m k1
  · intro u i n hn
    obtain ⟨m, op, k1, -, k2, -⟩ := twin_slot h ht hn
    rw [← k2]
    exact hg.small u i m k1

/-- Walks of the matching graph are routes of the search graph. -/
theorem walk_route (h : run (MGraph.empty numNodes numObs) ops = .some g) (ht : Twin numNodes sg ops) {u : Nat} {t : Option Nat} {es : List Slot}
    (hw : Walk g u t es) (hu : u < numNodes) : ∃ W : Nat, Route sg u t es W ∧ (W : Int) = totalWeight g es := by
  induction hw with
  | here u => exact ⟨0, .here u (by rw [ht.len]; exact hu), rfl⟩
  | @step u i v n t es he hv w ih =>
    obtain ⟨n', h1, h2, h3⟩ := slot_twin h ht he
    have hvl : v < numNodes := by
      obtain ⟨m, op, k1, -, -, hop, -, k6⟩ := twin_slot h ht h1
      have hr := in_range h hop
      rw [(C13_adjacency numNodes numObs ops g h).1] at hr
      have := k6.ends
      rw [h2, hv] at this
      cases op with
      | bdry a w o =>
        simp only [endsOf, Sym2.eq_iff] at this
        rcases this with ⟨-, h⟩ | ⟨h, -⟩ <;> cases h
      | edge a b w o =>
        simp only [endsOf, Sym2.eq_iff, Option.some.injEq] at this
        rcases this with ⟨rfl, rfl⟩ | ⟨rfl, rfl⟩
        exacts [hr.2, hr.1]
    obtain ⟨W, h4, h5⟩ := ih hvl
    refine ⟨_, .step h1 (h2.trans hv) h4, ?_⟩
    rw [totalWeight] at h5 ⊢
    rw [List.map_cons, List.sum_cons]
    simp only [slotWeight, he] at h5 ⊢
    push_cast
    rw [h5, h3]
  | @exit u i n he hv =>
    obtain ⟨n', h1, h2, h3⟩ := slot_twin h ht he
    refine ⟨_, .exit h1 (h2.trans hv), ?_⟩
    simp only [totalWeight, List.map_cons, List.map_nil, List.sum_cons, List.sum_nil, slotWeight, he, h3]
    omega

/-- Routes of the search graph are walks of the matching graph. -/
theorem route_walk (h : run (MGraph.empty numNodes numObs) ops = .some g) (ht : Twin numNodes sg ops) {u : Nat} {t : Option Nat}
    {es : List (Nat × Nat)} {W : Nat} (r : Route sg u t es W) : Walk g u t es ∧ totalWeight g es = W := by
  induction r with
  | here u _ => exact ⟨.here u, rfl⟩
  | @step u i v W n t es hn hv r ih =>
    obtain ⟨m, op, k1, k2, k3, -⟩ := twin_slot h ht hn
    refine ⟨.step k1 (k2.trans hv) ih.1, ?_⟩
    have := ih.2
    rw [totalWeight] at this ⊢
    rw [List.map_cons, List.sum_cons, this]
    simp only [slotWeight, k1]
    push_cast
    rw [k3]
  | @exit u i n hn hv =>
    obtain ⟨m, op, k1, k2, k3, -⟩ := twin_slot h ht hn
    refine ⟨.exit k1 (k2.trans hv), ?_⟩
    simp only [totalWeight, List.map_cons, List.map_nil, List.sum_cons, List.sum_nil, slotWeight, k1, k3]
    omega

end Verif.SB
