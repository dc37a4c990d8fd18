import Verif.Props.Answers

/-!
# C60: shortest paths on the user's graph

What `get_nodes_on_shortest_path_from_source` returns, in terms of the edges of the user's graph, at any time in the history of an object, and exactly when
its behaviour is defined.
-/

namespace Verif.Props.Paths

open Verif Verif.Graph Verif.SB Verif.UG Verif.Conv Verif.Obj
open Verif.Props.Correlated Verif.Props.Shots Verif.Props.Edges Verif.Props.EndToEnd Verif.Props.UserEdges Verif.Props.UserGraph Verif.Props.Decode
open Verif.Props.Object Verif.Props.Answers
open Verif.Sch (Res SS Fresh nbr)
open Verif.Spec (Route IsDistance)
open Verif.Props.Graph (seenBdry seenFrom)

variable {K : Type} [Field K] [LinearOrder K] [IsStrictOrderedRing K] [FloorRing K]

/-! ## Specification -/

/-- The edge joins the two detectors. -/
def Joins (g : UGraph K) (u v : Nat) (e : UEdge K) : Prop :=
  u ∉ g.boundary ∧ v ∉ g.boundary ∧ u ≠ v ∧ ((e.node1 = u ∧ e.node2 = some v) ∨ (e.node1 = v ∧ e.node2 = some u))

/-- A path from detector `u` to the target (`none`: the boundary) that visits the detectors `ns`.  Weights count in absolute value. -/
inductive Trail (g : UGraph K) (scale : K) : Nat → Option Nat → List Nat → Int → Prop where
  | here {u : Nat} (h : u < g.nodes.length) (hb : u ∉ g.boundary) : Trail g scale u (some u) [u] 0
  | step {u v : Nat} {t : Option Nat} {ns : List Nat} {W : Int} {e : UEdge K} (he : e ∈ g.edges) (hj : Joins g u v e) (r : Trail g scale v t ns W) :
      Trail g scale u t (u :: ns) (|rounded scale e| + W)
  | exit {u : Nat} {e : UEdge K} (he : e ∈ g.edges) (hl : Leaves g u e) : Trail g scale u none [u] |rounded scale e|

/-- The nodes of a path of least weight. -/
def Shortest (g : UGraph K) (scale : K) (u : Nat) (t : Option Nat) (ns : List Nat) : Prop :=
  ∃ W, Trail g scale u t ns W ∧ ∀ ns' W', Trail g scale u t ns' W' → W ≤ W'

/-- The virtual boundary or a boundary node. -/
def AtBoundary (g : UGraph K) (x : Option Nat) : Prop := x = none ∨ ∃ b, x = some b ∧ b ∈ g.boundary

/-- What the answer to a path query means: the nodes of a shortest path between two detectors, or between a detector and the boundary; an exception if both
ends are at the boundary. -/
def MeansPath (g : UGraph K) (scale : K) (src dst : Option Nat) (a : Answer K) : Prop :=
  (∃ u v ns, src = some u ∧ dst = some v ∧ u ≠ v ∧ a = .nodes ns ∧ Shortest g scale u (some v) ns) ∨
  (∃ u ns, src = some u ∧ AtBoundary g dst ∧ a = .nodes ns ∧ Shortest g scale u none ns) ∨
  (∃ v ns, AtBoundary g src ∧ dst = some v ∧ a = .nodes ns.reverse ∧ Shortest g scale v none ns) ∨
  (AtBoundary g src ∧ AtBoundary g dst ∧ a = .exception)

/-- The ends of the query are two different detectors on a path, a detector with a path to the boundary and the boundary, or both at the boundary. -/
def Connected (g : UGraph K) (src dst : Option Nat) : Prop :=
  (∃ u v scale ns W, src = some u ∧ dst = some v ∧ u ≠ v ∧ Trail g scale u (some v) ns W) ∨
  (∃ u scale ns W, src = some u ∧ AtBoundary g dst ∧ Trail g scale u none ns W) ∨
  (∃ v scale ns W, AtBoundary g src ∧ dst = some v ∧ Trail g scale v none ns W) ∨
  (AtBoundary g src ∧ AtBoundary g dst)

/-! ## Lemmas -/

omit [Field K] [LinearOrder K] [IsStrictOrderedRing K] [FloorRing K] in
theorem seen_two {g : UGraph K} {e : UEdge K} {u v : Nat} (h : s(some u, some v) = seenAs g e) (hne : u ≠ v) : Joins g u v e := by
  unfold seenAs at h
  rw [Sym2.eq_iff] at h
  cases h2 : e.node2 with
  | none => simp [h2] at h
  | some b =>
    simp only [h2, Option.bind_some] at h
    by_cases ha : e.node1 ∈ g.boundary <;> by_cases hb : b ∈ g.boundary <;> simp only [ha, hb, if_true, if_false, Option.some.injEq, reduceCtorEq, and_false, false_and, or_false, false_or] at h
    rcases h with ⟨rfl, rfl⟩ | ⟨rfl, rfl⟩
    · exact ⟨ha, hb, hne, .inl ⟨rfl, h2⟩⟩
    · exact ⟨hb, ha, hne, .inr ⟨rfl, h2⟩⟩

omit [Field K] [LinearOrder K] [IsStrictOrderedRing K] [FloorRing K] in
theorem seen_one {g : UGraph K} {e : UEdge K} {u : Nat} (h : s(some u, none) = seenAs g e) : Leaves g u e := by
  unfold seenAs at h
  rw [Sym2.eq_iff] at h
  cases h2 : e.node2 with
  | none =>
    by_cases ha : e.node1 ∈ g.boundary
    · simp [h2, ha] at h
    · simp [h2, ha] at h
      subst h
      exact ⟨ha, .inl ⟨rfl, .inl h2⟩⟩
  | some b =>
    simp only [h2, Option.bind_some] at h
    by_cases ha : e.node1 ∈ g.boundary <;> by_cases hb : b ∈ g.boundary <;> simp [ha, hb] at h
    · subst h
      exact ⟨hb, .inr ⟨h2, ha⟩⟩
    · subst h
      exact ⟨ha, .inl ⟨rfl, .inr ⟨b, h2, hb⟩⟩⟩

omit [Field K] [LinearOrder K] [IsStrictOrderedRing K] [FloorRing K] in
theorem joins_seen {g : UGraph K} {e : UEdge K} {u v : Nat} (h : Joins g u v e) : seenAs g e = s(some u, some v) := by
  obtain ⟨h1, h2, -, ⟨h3, h4⟩ | ⟨h3, h4⟩⟩ := h
  · simp [seenAs, h3, h4, h1, h2]
  · simp [seenAs, h3, h4, h1, h2, Sym2.eq_swap]

omit [Field K] [LinearOrder K] [IsStrictOrderedRing K] [FloorRing K] in
theorem leaves_seen {g : UGraph K} {e : UEdge K} {u : Nat} (h : Leaves g u e) : seenAs g e = s(some u, none) := by
  obtain ⟨h1, ⟨h3, h4 | ⟨v, h4, h5⟩⟩ | ⟨h3, h4⟩⟩ := h
  · simp [seenAs, h3, h4, h1]
  · simp [seenAs, h3, h4, h1, h5]
  · simp [seenAs, h3, h4, h1, Sym2.eq_swap]

/-- Routes of the search graph are paths of the user's graph. -/
theorem route_trail {g : UGraph K} {d : Decoder K} {ins : List (Conv.Ins K)} {c : K} {φ : Fin (opsOf ins).length → Fin g.edges.length}
    (hW : Whole g d ins c φ) {u : Nat} {t : Option Nat} {es : List (Nat × Nat)} {W : Nat} (r : Route d.sg u t es W) (ht : ∀ v, t = some v → v ∉ g.boundary) :
    Trail g d.P.scale u t (es.map (·.1) ++ t.toList) W := by
  have hT := twin_of_runs hW.built.matching hW.built.search
  induction r with
  | here u h =>
    exact .here (by rw [← hT.len]; exact h) (ht u rfl)
  | @step u i v W n t es h hv r ih =>
    obtain ⟨m, op, -, -, -, hop, -, k⟩ := twin_slot hW.built.matching hT h
    obtain ⟨j, hj, rfl⟩ := List.getElem_of_mem hop
    have h1 := hW.origin.ends ⟨j, hj⟩
    have h2 := hW.origin.w ⟨j, hj⟩
    have h3 := k.ends
    have h4 := k.weight
    simp only [Fin.getElem_fin] at h1 h2
    rw [h1, hv] at h3
    rw [h2] at h4
    have hne : u ≠ v := by
      intro e
      subst e
      have := k.noloop
      have h5 := k.ends
      rw [hv] at h5
      cases ho : (opsOf ins)[j] with
      | edge a b w o =>
        rw [ho] at this h5
        simp only [endsOf, Sym2.eq_iff, Option.some.injEq] at h5
        rcases h5 with ⟨rfl, rfl⟩ | ⟨rfl, rfl⟩ <;> exact this rfl
      | bdry a w o =>
        rw [ho] at h5
        simp [endsOf] at h5
    have := Trail.step (g := g) (scale := d.P.scale) (List.getElem_mem (φ ⟨j, hj⟩).2) (seen_two h3 hne) (ih ht)
    unfold rounded at this
    rw [hW.half, ← h4] at this
    rw [Nat.cast_add]
    exact this
  | @exit u i n h hv =>
    obtain ⟨m, op, -, -, -, hop, -, k⟩ := twin_slot hW.built.matching hT h
    obtain ⟨j, hj, rfl⟩ := List.getElem_of_mem hop
    have h1 := hW.origin.ends ⟨j, hj⟩
    have h2 := hW.origin.w ⟨j, hj⟩
    have h3 := k.ends
    have h4 := k.weight
    simp only [Fin.getElem_fin] at h1 h2
    rw [h1, hv] at h3
    rw [h2] at h4
    have := Trail.exit (g := g) (scale := d.P.scale) (List.getElem_mem (φ ⟨j, hj⟩).2) (seen_one h3)
    unfold rounded at this
    rw [hW.half, ← h4] at this
    exact this

/-- A kept edge to the boundary is not heavier in absolute value than the others. -/
theorem kept_least {g : UGraph K} {c : K} (hc : 0 < c) (hN : NoGain g) {i j : Fin g.edges.length} {u : Nat} (hi : Leaves g u g.edges[i]) (hj : Leaves g u g.edges[j])
    (hle : disc c g.edges[i].weight ≤ disc c g.edges[j].weight) : |disc c g.edges[i].weight| ≤ |disc c g.edges[j].weight| := by
  by_cases hij : i = j
  · rw [hij]
  · have h1 := hN.pair i j hij u hi hj
    have h2 := (Discretise.C19_monotone_odd c hc (-g.edges[i].weight) g.edges[j].weight).1 (by linarith)
    rw [(Discretise.C19_monotone_odd c hc 0 g.edges[i].weight).2.1] at h2
    rw [abs_le]
    have h3 := le_abs_self (disc c g.edges[j].weight)
    omega

/-- Paths of the user's graph are routes of the search graph, with the same weight (or less, if they end at the boundary). -/
theorem trail_route {g : UGraph K} {d : Decoder K} {ins : List (Conv.Ins K)} {c : K} {φ : Fin (opsOf ins).length → Fin g.edges.length}
    (hW : Whole g d ins c φ) (hlen : ∀ e ∈ g.edges, e.node1 < g.nodes.length ∧ ∀ v, e.node2 = some v → v < g.nodes.length) {scale : K} {u : Nat} {t : Option Nat} {ns : List Nat} {W : Int} (r : Trail g scale u t ns W) :
    ∃ es W', Route d.sg u t es W' ∧ (scale = d.P.scale → (t = none → NoGain g) → (W' : Int) ≤ W) := by
  have hT := twin_of_runs hW.built.matching hW.built.search
  induction r with
  | @here u h hb => exact ⟨[], 0, .here u (by rw [hT.len]; exact h), fun _ _ => le_refl _⟩
  | @step u v t ns W e he hj r ih =>
    obtain ⟨es, W', h1, h2⟩ := ih
    obtain ⟨j, hjl, rfl⟩ := List.getElem_of_mem he
    have hb : Between g g.edges[(⟨j, hjl⟩ : Fin g.edges.length)] := by
      obtain ⟨a1, a2, -, ⟨a3, a4⟩ | ⟨a3, a4⟩⟩ := hj
      · exact ⟨by rw [Fin.getElem_fin, a3]; exact a1, v, a4, a2⟩
      · exact ⟨by rw [Fin.getElem_fin, a3]; exact a2, u, a4, a1⟩
    obtain ⟨i, hi⟩ := hW.origin.hit _ hb
    have h3 := hW.origin.ends i
    have h4 := hW.origin.w i
    simp only [hi, Fin.getElem_fin] at h3 h4
    rw [joins_seen hj] at h3
    have hul : u < g.nodes.length := by
      have := hlen _ he
      obtain ⟨-, -, -, ⟨a3, a4⟩ | ⟨a3, a4⟩⟩ := hj
      · rw [← a3]; exact this.1
      · exact this.2 u a4
    have hs : ∃ o, seenFrom u (opsOf ins)[i.1] = some (some v, (opsOf ins)[i.1].w, o) := by
      have hne := hj.2.2.1
      cases ho : (opsOf ins)[i.1] with
      | edge a b w o =>
        rw [ho] at h3
        simp only [endsOf, Sym2.eq_iff, Option.some.injEq] at h3
        rcases h3 with ⟨rfl, rfl⟩ | ⟨rfl, rfl⟩
        · exact ⟨o, by simp [seenFrom, hne, Props.Graph.EdgeIns.w]⟩
        · exact ⟨o, by simp [seenFrom, hne, hne.symm, Props.Graph.EdgeIns.w]⟩
      | bdry a w o =>
        rw [ho] at h3
        simp [endsOf] at h3
    obtain ⟨o, hs⟩ := hs
    obtain ⟨k, hk⟩ := op_twin hW.built.matching hT (List.getElem_mem i.2) hul (.inr hs)
    refine ⟨(u, k) :: es, _, .step hk rfl h1, fun e1 e2 => ?_⟩
    have := h2 e1 e2
    rw [h4] at *
    simp only [sEntry, rounded, e1, hW.half, Nat.cast_add, Int.natCast_natAbs]
    omega
  | @exit u e he hl =>
    obtain ⟨j, hjl, rfl⟩ := List.getElem_of_mem he
    obtain ⟨i, hi1, hi2⟩ := hW.origin.least ⟨j, hjl⟩ u hl
    have h3 := hW.origin.ends i
    have h4 := hW.origin.w i
    rw [leaves_seen hi1] at h3
    simp only [Fin.getElem_fin] at h3 h4
    have hul : u < g.nodes.length := by
      have := hlen _ he
      obtain ⟨-, ⟨a3, a4⟩ | ⟨a3, a4⟩⟩ := hl
      · rw [← a3]; exact this.1
      · exact this.2 u a3
    have hs : ∃ o, seenBdry u (opsOf ins)[i.1] = some (none, (opsOf ins)[i.1].w, o) := by
      cases ho : (opsOf ins)[i.1] with
      | edge a b w o =>
        rw [ho] at h3
        simp [endsOf] at h3
      | bdry a w o =>
        rw [ho] at h3
        simp [endsOf] at h3
        subst h3
        exact ⟨o, by simp [seenBdry, Props.Graph.EdgeIns.w]⟩
    obtain ⟨o, hs⟩ := hs
    obtain ⟨k, hk⟩ := op_twin hW.built.matching hT (List.getElem_mem i.2) hul (.inl hs)
    refine ⟨[(u, k)], _, .exit hk rfl, fun e1 e2 => ?_⟩
    have := kept_least hW.pos (e2 rfl) hi1 hl hi2
    simp only [Fin.getElem_fin] at this
    simp only [sEntry, rounded, e1, hW.half, Int.natCast_natAbs, h4]
    exact this

omit [Field K] [LinearOrder K] [IsStrictOrderedRing K] [FloorRing K] in
theorem ends_in {g : UGraph K} (hw : WF g) : ∀ e ∈ g.edges, e.node1 < g.nodes.length ∧ ∀ v, e.node2 = some v → v < g.nodes.length := by
  intro e he
  obtain ⟨i, hi, rfl⟩ := List.getElem_of_mem he
  obtain ⟨n, h1, -⟩ := hw.fwd1 i hi
  have h2 := (List.getElem?_eq_some_iff.1 h1).1
  refine ⟨h2, fun v hv => ?_⟩
  by_cases hne : v = g.edges[i].node1
  · rw [hne]; exact h2
  · obtain ⟨n', h3, -⟩ := hw.fwd2 i hi v hv hne
    exact (List.getElem?_eq_some_iff.1 h3).1

omit [Field K] [LinearOrder K] [IsStrictOrderedRing K] [FloorRing K] in
theorem is_bnd {g : UGraph K} (hB : Props.Convert.BndOk g) (x : Option Nat) :
    (AtBoundary g x ∧ Sch.isBnd (g.nodes.map (·.isBoundary)) x = .ok true) ∨
    (∃ u, x = some u ∧ u ∉ g.boundary ∧ u < g.nodes.length ∧ (g.nodes.map (·.isBoundary))[u]? = some false) ∨
    (∃ u, x = some u ∧ u ∉ g.boundary ∧ g.nodes.length ≤ u ∧ Sch.isBnd (g.nodes.map (·.isBoundary)) x = .ub) := by
  cases x with
  | none => exact .inl ⟨.inl rfl, rfl⟩
  | some u =>
    by_cases hu : u < g.nodes.length
    · have hn : g.nodes[u]? = some g.nodes[u] := List.getElem?_eq_getElem hu
      have h1 := hB.2 u _ hn
      have h2 : (g.nodes.map (·.isBoundary))[u]? = some g.nodes[u].isBoundary := by rw [List.getElem?_map, hn, Option.map_some]
      by_cases hb : u ∈ g.boundary
      · refine .inl ⟨.inr ⟨u, rfl, hb⟩, ?_⟩
        simp only [Sch.isBnd, h2, h1.2 hb]
      · refine .inr (.inl ⟨u, rfl, hb, hu, ?_⟩)
        rw [h2]
        cases h3 : g.nodes[u].isBoundary with
        | false => rfl
        | true => exact absurd (h1.1 h3) hb
    · refine .inr (.inr ⟨u, rfl, fun h => hu (hB.1 u h), by omega, ?_⟩)
      simp only [Sch.isBnd, List.getElem?_map, List.getElem?_eq_none (Nat.le_of_not_lt hu), Option.map_none]

omit [Field K] [LinearOrder K] [IsStrictOrderedRing K] [FloorRing K] in
theorem not_at {g : UGraph K} {u : Nat} (h : u ∉ g.boundary) : ¬ AtBoundary g (some u) := by
  rintro (h' | ⟨b, h', hb⟩)
  · cases h'
  · cases h'; exact h hb

omit [IsStrictOrderedRing K] in
theorem trail_src {g : UGraph K} {scale : K} {u : Nat} {t : Option Nat} {ns : List Nat} {W : Int} (r : Trail g scale u t ns W) : u ∉ g.boundary := by
  cases r with
  | here h hb => exact hb
  | step he hj r => exact hj.1
  | exit he hl => exact hl.1

omit [IsStrictOrderedRing K] in
theorem trail_target {g : UGraph K} {scale : K} {u : Nat} {t : Option Nat} {ns : List Nat} {W : Int} (r : Trail g scale u t ns W) :
    ∀ v, t = some v → v ∉ g.boundary ∧ v < g.nodes.length := by
  induction r with
  | here h hb => intro v hv; cases hv; exact ⟨hb, h⟩
  | step he hj r ih => exact ih
  | exit he hl => intro v hv; cases hv

omit [IsStrictOrderedRing K] in
theorem trail_dst {g : UGraph K} {scale : K} {u v : Nat} {ns : List Nat} {W : Int} (r : Trail g scale u (some v) ns W) : v ∉ g.boundary :=
  (trail_target r v rfl).1

omit [IsStrictOrderedRing K] in
theorem trail_dst_lt {g : UGraph K} {scale : K} {u v : Nat} {ns : List Nat} {W : Int} (r : Trail g scale u (some v) ns W) : v < g.nodes.length :=
  (trail_target r v rfl).2

omit [IsStrictOrderedRing K] in
theorem trail_lt {g : UGraph K} (hlen : ∀ e ∈ g.edges, e.node1 < g.nodes.length ∧ ∀ v, e.node2 = some v → v < g.nodes.length) {scale : K} {u : Nat} {t : Option Nat}
    {ns : List Nat} {W : Int} (r : Trail g scale u t ns W) : u < g.nodes.length := by
  cases r with
  | here h hb => exact h
  | step he hj r =>
    obtain ⟨-, -, -, ⟨a3, a4⟩ | ⟨a3, a4⟩⟩ := hj
    · rw [← a3]; exact (hlen _ he).1
    · exact (hlen _ he).2 u a4
  | exit he hl =>
    obtain ⟨-, ⟨a3, a4⟩ | ⟨a3, a4⟩⟩ := hl
    · rw [← a3]; exact (hlen _ he).1
    · exact (hlen _ he).2 u a3

/-- The answer of a new object, if the ends are connected. -/
theorem path_means {g : UGraph K} (hw : WF g) (hB : Props.Convert.BndOk g) (hcov : Covered g) {without : Bool} {d1 : Decoder K}
    (h1 : toMwpm g without true = some d1) (src dst : Option Nat) :
    (Connected g src dst ∧ ∃ a, Fresh1 g without (.path src dst) a ∧ ((AtBoundary g src ∨ AtBoundary g dst → NoGain g) →
      MeansPath g d1.P.scale src dst a)) ∨
    (¬ Connected g src dst ∧ Completes (fun f => (Object.of g without).ask f (.path src dst)) .ub) := by
  have hs := solid hw hB hcov h1
  obtain ⟨ins, c, φ, hW⟩ := whole hw hB hcov h1
  obtain ⟨p, d, s, e, hh, hsr⟩ := decoderFor_held hw hB h1 hs (inv_of g without) true
  have hsg := (stand_in h1 hs hh.ready).2.1 (hsr rfl)
  have hg1 : p.graph.nodes = g.nodes := by obtain ⟨b, h⟩ := hh.same; rw [h]
  have w1 : withS d.sg d.st.ws.mem = d1.sg := by rw [hh.ready.rest.search, withS_mem, hsg]
  have fresh := hh.ready.rest.full.ss
  have hbl : (g.nodes.map (·.isBoundary)).length = d1.sg.nodes.length := by rw [List.length_map, hs.slen]
  have hlen := ends_in hw
  -- what the object answers
  have good : ∀ l s', Completes (fun f => Sch.nodesOnPath d1.sg f d.st.full.ss (g.nodes.map (·.isBoundary)) src dst) (.ok (l, s')) →
      Fresh1 g without (.path src dst) (.nodes l) := by
    rintro l s' ⟨N, hN⟩
    exact ⟨{ p with cache := some { d with st := { d.st with full := { d.st.full with ss := s' } } } }, N, fun f hf => by
      have := hN f hf
      simp only at this
      simp only [Object.ask, e, w1, hg1, this]⟩
  have bad : Completes (fun f => Sch.nodesOnPath d1.sg f d.st.full.ss (g.nodes.map (·.isBoundary)) src dst) .ub →
      Completes (fun f => (Object.of g without).ask f (.path src dst)) .ub := by
    rintro ⟨N, hN⟩
    exact ⟨N, fun f hf => by
      have := hN f hf
      simp only at this
      simp only [Object.ask, e, w1, hg1, this]⟩
  have exc : (∀ f, Sch.nodesOnPath d1.sg f d.st.full.ss (g.nodes.map (·.isBoundary)) src dst = some .throws) →
      Fresh1 g without (.path src dst) .exception := by
    intro hN
    exact ⟨p, 0, fun f hf => by simp only [Object.ask, e, w1, hg1, hN f]⟩
  -- one search
  have short : ∀ {u : Nat} {t : Option Nat} {es : List (Nat × Nat)} {W : Nat}, Route d1.sg u t es W → IsDistance d1.sg u t W → (∀ v, t = some v → v ∉ g.boundary) →
      (t = none → NoGain g) → Shortest g d1.P.scale u t (es.map (·.1) ++ t.toList) := by
    intro u t es W r hd ht hN
    refine ⟨W, route_trail hW r ht, fun ns' W' tr => ?_⟩
    obtain ⟨es', W'', h2, h3⟩ := trail_route hW hlen tr
    have := hd.2 _ _ h2
    have := h3 rfl hN
    omega
  have out : ∀ {u : Nat} {b : Bool}, Sch.isBnd (g.nodes.map (·.isBoundary)) (some u) = .ok b → u < g.nodes.length := by
    intro u b h
    simp only [Sch.isBnd] at h
    split at h
    · cases h
    · rename_i b' hb'
      have := (List.getElem?_eq_some_iff.mp hb').1
      rwa [List.length_map] at this
  rcases is_bnd hB src with ⟨a1, a2⟩ | ⟨u, rfl, a1, a2, a3⟩ | ⟨u, rfl, a1, a2, a3⟩
  · rcases is_bnd hB dst with ⟨b1, b2⟩ | ⟨v, rfl, b1, b2, b3⟩ | ⟨v, rfl, b1, b2, b3⟩
    · refine .inl ⟨.inr (.inr (.inr ⟨a1, b1⟩)), .exception, exc fun f => ?_, fun _ => .inr (.inr (.inr ⟨a1, b1, rfl⟩))⟩
      simp only [Sch.nodesOnPath, a2, b2]
    · have hb2 : Sch.isBnd (g.nodes.map (·.isBoundary)) (some v) = .ok false := by simp only [Sch.isBnd, b3]
      rcases Props.Search.search_outcome hs.good d.st.full.ss fresh v none (by rw [hs.slen]; exact b2) (fun _ h => (by cases h)) with
        ⟨-, N, es, es', W, s', k1, k2, k3, -, k5⟩ | ⟨k1, N, k5⟩
      · have htr := route_trail hW k2 (fun _ h => (by cases h))
        refine .inl ⟨.inr (.inr (.inl ⟨v, _, _, _, a1, rfl, htr⟩)), _, good (es.map (·.1)).reverse s' ⟨N, fun f hf => ?_⟩, fun hN => ?_⟩
        · simp only [Sch.nodesOnPath, a2, hb2, Sch.nodesFrom, (k5 f hf).1, Res.bind, Option.toList_none, List.append_nil]
        · have := short k2 k3 (fun _ h => (by cases h)) (fun _ => hN (.inl a1))
          rw [Option.toList_none, List.append_nil] at this
          exact .inr (.inr (.inl ⟨v, _, a1, rfl, rfl, this⟩))
      · refine .inr ⟨?_, bad ⟨N, fun f hf => ?_⟩⟩
        · have no : ∀ scale ns W, ¬ Trail g scale v none ns W := by
            intro scale ns W tr
            obtain ⟨es, W', h2, -⟩ := trail_route hW hlen tr
            rcases k1 with k1 | k1
            · cases k1
            · exact k1 ⟨_, _, h2⟩
          rintro (⟨u, v', sc, ns, W, q1, q2, q3, tr⟩ | ⟨u, sc, ns, W, q1, q2, tr⟩ | ⟨v', sc, ns, W, q1, q2, tr⟩ | ⟨q1, q2⟩)
          · exact not_at (trail_src tr) (q1 ▸ a1)
          · exact not_at b1 q2
          · cases q2; exact no _ _ _ tr
          · exact not_at b1 q2
        · simp only [Sch.nodesOnPath, a2, hb2, Sch.nodesFrom, (k5 f hf).1, Res.bind]
    · refine .inr ⟨?_, bad ⟨0, fun f _ => ?_⟩⟩
      · rintro (⟨u, v', sc, ns, W, q1, q2, q3, tr⟩ | ⟨u, sc, ns, W, q1, q2, tr⟩ | ⟨v', sc, ns, W, q1, q2, tr⟩ | ⟨q1, q2⟩)
        · exact not_at (trail_src tr) (q1 ▸ a1)
        · exact not_at b1 q2
        · cases q2
          have := trail_lt hlen tr
          omega
        · exact not_at b1 q2
      · simp only [Sch.nodesOnPath, a2, b3]
  · have ha2 : Sch.isBnd (g.nodes.map (·.isBoundary)) (some u) = .ok false := by simp only [Sch.isBnd, a3]
    rcases is_bnd hB dst with ⟨b1, b2⟩ | ⟨v, rfl, b1, b2, b3⟩ | ⟨v, rfl, b1, b2, b3⟩
    · rcases Props.Search.search_outcome hs.good d.st.full.ss fresh u none (by rw [hs.slen]; exact a2) (fun _ h => (by cases h)) with
        ⟨-, N, es, es', W, s', k1, k2, k3, -, k5⟩ | ⟨k1, N, k5⟩
      · have htr := route_trail hW k2 (fun _ h => (by cases h))
        refine .inl ⟨.inr (.inl ⟨u, _, _, _, rfl, b1, htr⟩), _, good (es.map (·.1)) s' ⟨N, fun f hf => ?_⟩, fun hN => ?_⟩
        · simp only [Sch.nodesOnPath, ha2, b2, if_true, Sch.nodesFrom, (k5 f hf).1, Res.bind, Option.toList_none, List.append_nil]
        · have := short k2 k3 (fun _ h => (by cases h)) (fun _ => hN (.inr b1))
          rw [Option.toList_none, List.append_nil] at this
          exact .inr (.inl ⟨u, _, rfl, b1, rfl, this⟩)
      · refine .inr ⟨?_, bad ⟨N, fun f hf => ?_⟩⟩
        · rintro (⟨u', v', sc, ns, W, q1, q2, q3, tr⟩ | ⟨u', sc, ns, W, q1, q2, tr⟩ | ⟨v', sc, ns, W, q1, q2, tr⟩ | ⟨q1, q2⟩)
          · exact not_at (trail_dst tr) (q2 ▸ b1)
          · cases q1
            obtain ⟨es, W', h2, -⟩ := trail_route hW hlen tr
            rcases k1 with k1 | k1
            · cases k1
            · exact k1 ⟨_, _, h2⟩
          · exact not_at a1 q1
          · exact not_at a1 q1
        · simp only [Sch.nodesOnPath, ha2, b2, if_true, Sch.nodesFrom, (k5 f hf).1, Res.bind]
    · have hb2 : Sch.isBnd (g.nodes.map (·.isBoundary)) (some v) = .ok false := by simp only [Sch.isBnd, b3]
      rcases Props.Search.search_outcome hs.good d.st.full.ss fresh u (some v) (by rw [hs.slen]; exact a2) (fun _ h => (by cases h; rw [hs.slen]; exact b2)) with
        ⟨k0, N, es, es', W, s', k1, k2, k3, -, k5⟩ | ⟨k1, N, k5⟩
      · have hne : u ≠ v := fun h => k0 (by rw [h])
        have hvb : ∀ x, some v = some x → x ∉ g.boundary := fun x h => (by cases h; exact b1)
        have htr := route_trail hW k2 hvb
        refine .inl ⟨.inl ⟨u, v, _, _, _, rfl, rfl, hne, htr⟩, _, good (es.map (·.1) ++ [v]) s' ⟨N, fun f hf => ?_⟩, fun hN => ?_⟩
        · simp only [Sch.nodesOnPath, ha2, hb2, Bool.false_eq_true, if_false, Sch.nodesFrom, (k5 f hf).1, Res.bind, Option.toList_some]
        · exact .inl ⟨u, v, _, rfl, rfl, hne, rfl, short k2 k3 hvb (fun h => (by cases h))⟩
      · refine .inr ⟨?_, bad ⟨N, fun f hf => ?_⟩⟩
        · rintro (⟨u', v', sc, ns, W, q1, q2, q3, tr⟩ | ⟨u', sc, ns, W, q1, q2, tr⟩ | ⟨v', sc, ns, W, q1, q2, tr⟩ | ⟨q1, q2⟩)
          · cases q1; cases q2
            obtain ⟨es, W', h2, -⟩ := trail_route hW hlen tr
            rcases k1 with k1 | k1
            · cases k1; exact q3 rfl
            · exact k1 ⟨_, _, h2⟩
          · exact not_at b1 q2
          · exact not_at a1 q1
          · exact not_at a1 q1
        · simp only [Sch.nodesOnPath, ha2, hb2, Bool.false_eq_true, if_false, Sch.nodesFrom, (k5 f hf).1, Res.bind]
    · refine .inr ⟨?_, bad ⟨0, fun f _ => ?_⟩⟩
      · rintro (⟨u', v', sc, ns, W, q1, q2, q3, tr⟩ | ⟨u', sc, ns, W, q1, q2, tr⟩ | ⟨v', sc, ns, W, q1, q2, tr⟩ | ⟨q1, q2⟩)
        · cases q2
          have := trail_dst_lt tr
          omega
        · exact not_at b1 q2
        · exact not_at a1 q1
        · exact not_at a1 q1
      · simp only [Sch.nodesOnPath, ha2, b3]
  · refine .inr ⟨?_, bad ⟨0, fun f _ => ?_⟩⟩
    · rintro (⟨u', v', sc, ns, W, q1, q2, q3, tr⟩ | ⟨u', sc, ns, W, q1, q2, tr⟩ | ⟨v', sc, ns, W, q1, q2, tr⟩ | ⟨q1, q2⟩)
      · cases q1
        have := trail_lt hlen tr
        omega
      · cases q1
        have := trail_lt hlen tr
        omega
      · exact not_at a1 q1
      · exact not_at a1 q1
    · simp only [Sch.nodesOnPath, a3]

/-! ## Theorems -/

/-- C60.  In any history of modifications and questions on one object, every path query that has defined behaviour on a new object returns the nodes of a
path of least (rounded, absolute) weight between its ends in the graph of that moment, in order from source to destination; it raises if both ends are at
the boundary. -/
theorem C60_any_time (mergeW : K → K → K) (without : Bool) (g0 : UGraph K) (hw : WF g0) (hB : Props.Convert.BndOk g0) (ops : List (Op K))
    (hp : Object.Proper mergeW without g0 False ops) :
    ∃ as o, Completes (fun f => (Object.of g0 without).history mergeW f ops) (.ok (as, o)) ∧
      List.Forall₂ (fun (p : UGraph K × Query) a => ∀ src dst, p.2 = .path src dst → (AtBoundary p.1 src ∨ AtBoundary p.1 dst → NoGain p.1) →
        ∃ scale, Scale p.1 scale ∧ MeansPath p.1 scale src dst a) (questions mergeW g0 ops) as := by
  obtain ⟨as, o, h1, h2⟩ := C54_as_new mergeW without g0 hw hB ops hp
  refine ⟨as, o, h1, ?_⟩
  rw [List.forall₂_iff_get] at h2 ⊢
  refine ⟨h2.1, fun i hi hi' src dst he hN => ?_⟩
  obtain ⟨k1, k2, ⟨d1, hd⟩, k4, k5, -⟩ := asked ops g0 False hw hB hp _ (List.get_mem _ ⟨i, hi⟩)
  have h3 := h2.2 i hi hi'
  rw [he] at h3
  obtain ⟨ins, c, φ, hW⟩ := whole k1 k2 k4 hd
  rcases path_means k1 k2 k4 hd src dst with ⟨-, b, hb, hm⟩ | ⟨-, f1, hub⟩
  · rw [fresh1_unique h3 hb]
    exact ⟨d1.P.scale, ⟨c, hW.norm, hW.twice⟩, hm hN⟩
  · obtain ⟨o', f2, h4⟩ := h3
    have e1 := hub _ (le_max_left f1 f2)
    have e2 := h4 _ (le_max_right f1 f2)
    simp only at e1 e2
    rw [e1] at e2
    cases e2

/-- C60 (when it is defined).  If a decoder can be built, a path query may be asked exactly if the graph connects its ends by a path through detectors and the
ends are different (or both are at the boundary, which raises).  Otherwise the call has undefined behaviour (C26). -/
theorem C60_defined {g : UGraph K} (hw : WF g) (hB : Props.Convert.BndOk g) (hcov : Covered g) {without : Bool}
    (hb : ∃ d, toMwpm g without true = some d) (src dst : Option Nat) :
    (Askable g without (.path src dst) ↔ Connected g src dst) ∧
    (¬ Connected g src dst → Completes (fun f => (Object.of g without).ask f (.path src dst)) .ub) := by
  obtain ⟨d1, h1⟩ := hb
  rcases path_means hw hB hcov h1 src dst with ⟨hc, b, hb, hm⟩ | ⟨hc, f1, hub⟩
  · exact ⟨⟨fun _ => hc, fun _ => ⟨⟨d1, h1⟩, hcov, ⟨b, hb⟩, fun h => (by cases h)⟩⟩, fun h => absurd hc h⟩
  · refine ⟨⟨fun h => ?_, fun h => absurd h hc⟩, fun _ => ⟨f1, hub⟩⟩
    obtain ⟨a, o', f2, h4⟩ := h.fits
    have e1 := hub _ (le_max_left f1 f2)
    have e2 := h4 _ (le_max_right f1 f2)
    simp only at e1 e2
    rw [e1] at e2
    cases e2

/-- The history of C54 asks for a path between two connected detectors. -/
example : (sample2, Query.path (some 0) (some 1)) ∈ questions (fun a _ => a) (UGraph.new 0 1) sampleOps ∧ Connected sample2 (some 0) (some 1) := by
  refine ⟨?_, .inl ⟨0, 1, 1, _, _, rfl, rfl, by decide, .step (e := sample2.edges[0]'(by decide +kernel)) (List.getElem_mem _) ?_ (.here (by decide +kernel) (by decide +kernel))⟩⟩
  · show _ ∈ [(sample1, Query.decode false [0]), (sample2, .edges true [0, 1]), (sample2, .batch false true true 2 [[1, 1], [0, 1]]),
      (sample2, .pairs [1]), (sample2, .path (some 0) (some 1))]
    simp
  · exact ⟨by decide +kernel, by decide +kernel, by decide, by decide +kernel⟩

/-- A query from a detector to itself is not defined. -/
example : ¬ Connected sample2 (some 0) (some 0) := by
  have hb : (0 : Nat) ∉ sample2.boundary := by decide +kernel
  rintro (⟨u, v, sc, ns, W, q1, q2, q3, tr⟩ | ⟨u, sc, ns, W, q1, q2, tr⟩ | ⟨v, sc, ns, W, q1, q2, tr⟩ | ⟨q1, q2⟩)
  · cases q1; cases q2; exact q3 rfl
  · exact not_at hb q2
  · exact not_at hb q1
  · exact not_at hb q1

end Verif.Props.Paths
