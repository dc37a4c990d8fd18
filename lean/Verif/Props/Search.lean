import Verif.SearchPath

/-!
# Shortest paths (C25, C26)

`Route`, `IsDistance`: see `Verif.Spec.Route`.  `Fresh` describes a flooder between two searches (its queue empty, no node
reached); `Good` the graphs of the decoder (no parallel edges or self-loops, even weights below `2^31`; all weights are even
by construction, C19).
-/

namespace Verif.Props.Search

open Verif Verif.Graph Verif.Track Verif.Spec Verif.Sch Verif.Props.EdgeMarks

/-- What `run_until_collision` and everything after it deliver, in both situations. -/
theorem search_outcome {g : SGraph} (hg : Good g) (s : SS) (hs : Fresh s) (src : Nat) (dst : Option Nat) (hsrc : src < g.nodes.length)
    (hdst : ∀ d, dst = some d → d < g.nodes.length) :
    (dst ≠ some src ∧ ∃ N es es' W s', Fresh s' ∧ Route g src dst es W ∧ IsDistance g src dst W ∧
      (es'.map (undirected g)).Perm (es.map (undirected g)) ∧
      ∀ fuel, N ≤ fuel → pathFromSource g fuel s src dst = some (.ok (es, s')) ∧ pathFromMiddle g fuel s src dst = some (.ok (es', s'))) ∨
    ((dst = some src ∨ ¬ ∃ es W, Route g src dst es W) ∧ ∃ N, ∀ fuel, N ≤ fuel →
      pathFromSource g fuel s src dst = some .ub ∧ pathFromMiddle g fuel s src dst = some .ub) := by
  obtain ⟨N, s', o, h1, h2, want, hinv, h3⟩ := run_stops hg s hs src dst hsrc hdst
  rcases h3 with ⟨rfl, hw⟩ | ⟨u, i, rfl, hc⟩
  · right
    constructor
    · by_contra hcon
      simp only [not_or, not_not] at hcon
      obtain ⟨hne, es, W, r⟩ := hcon
      obtain ⟨hsrc1, -⟩ := hinv.core.src src (.inl rfl)
      obtain ⟨c1, c2⟩ := hinv.core.closed hw r (by rw [hsrc1]; simp)
      cases dst with
      | none => rw [c2 rfl] at h2; simp at h2
      | some d =>
        have := c1 d rfl
        rw [hsrc1, (hinv.core.src d (.inr rfl)).1] at this
        exact hne this
    · refine ⟨N, fun fuel hf => ?_⟩
      unfold pathFromSource pathFromMiddle
      rw [h1 fuel hf]
      exact ⟨rfl, rfl⟩
  · left
    obtain ⟨hne, p, q, t1, es, W, t2, t3, t4, t5⟩ := collision_path hg src dst s' hinv h2 u i hc
    obtain ⟨s'', r1, r2⟩ := reset_fresh hinv
    refine ⟨hne, max N (p.length + q.length + 1), es, _, W, s'', r2, t3, ⟨⟨es, t3⟩, t5⟩, t4, ?_⟩
    intro fuel hf
    unfold pathFromSource pathFromMiddle
    rw [h1 fuel (by omega)]
    simp only [t1 fuel (by omega), Res.bind, t2, r1]
    exact ⟨trivial, trivial⟩

/-- C25.  The search between two connected detectors (or from a detector to the boundary) terminates and hands out, in order,
the edges of a route from the source to the target whose weight is least among all such routes; afterwards the flooder is
ready for the next search. -/
theorem C25_shortest_path {g : SGraph} (hg : Good g) (s : SS) (hs : Fresh s) (src : Nat) (dst : Option Nat)
    (hne : dst ≠ some src) (es0 : List (Nat × Nat)) (W0 : Nat) (hroute : Route g src dst es0 W0)
    (hdst : ∀ d, dst = some d → d < g.nodes.length) (hsrc : src < g.nodes.length) :
    ∃ N es W s', Route g src dst es W ∧ IsDistance g src dst W ∧ Fresh s' ∧
      ∀ fuel, N ≤ fuel → pathFromSource g fuel s src dst = some (.ok (es, s')) := by
  rcases search_outcome hg s hs src dst hsrc hdst with ⟨-, N, es, es', W, s', h1, h2, h3, h4, h5⟩ | ⟨h, -⟩
  · exact ⟨N, es, W, s', h2, h3, h1, fun fuel hf => (h5 fuel hf).1⟩
  · rcases h with h | h
    · exact absurd h hne
    · exact absurd ⟨es0, W0, hroute⟩ h

/-- C25 (used by the edge-level decoder).  The variant that starts handing out edges in the middle delivers each edge of such
a route exactly once, in some order and direction. -/
theorem C25_from_middle {g : SGraph} (hg : Good g) (s : SS) (hs : Fresh s) (src : Nat) (dst : Option Nat)
    (hne : dst ≠ some src) (es0 : List (Nat × Nat)) (W0 : Nat) (hroute : Route g src dst es0 W0)
    (hdst : ∀ d, dst = some d → d < g.nodes.length) (hsrc : src < g.nodes.length) :
    ∃ N es es' W s', Route g src dst es W ∧ IsDistance g src dst W ∧ Fresh s' ∧
      (es'.map (undirected g)).Perm (es.map (undirected g)) ∧
      ∀ fuel, N ≤ fuel → pathFromMiddle g fuel s src dst = some (.ok (es', s')) := by
  rcases search_outcome hg s hs src dst hsrc hdst with ⟨-, N, es, es', W, s', h1, h2, h3, h4, h5⟩ | ⟨h, -⟩
  · exact ⟨N, es, es', W, s', h2, h3, h1, h4, fun fuel hf => (h5 fuel hf).2⟩
  · rcases h with h | h
    · exact absurd h hne
    · exact absurd ⟨es0, W0, hroute⟩ h

/-- C25 (nodes).  The list of nodes between two different detectors is that of a shortest route, starting with the source and
ending with the destination. -/
theorem C25_nodes {g : SGraph} (hg : Good g) (s : SS) (hs : Fresh s) (bnd : List Bool) (hlen : bnd.length = g.nodes.length)
    (src dst : Nat) (hsrc : bnd[src]? = some false) (hdst : bnd[dst]? = some false)
    (hne : dst ≠ src) (es0 : List (Nat × Nat)) (W0 : Nat) (hroute : Route g src (some dst) es0 W0) :
    ∃ N es W s', Route g src (some dst) es W ∧ IsDistance g src (some dst) W ∧ Fresh s' ∧
      ∀ fuel, N ≤ fuel → nodesOnPath g fuel s bnd (some src) (some dst) = some (.ok (es.map (·.1) ++ [dst], s')) := by
  have hlt : ∀ d, bnd[d]? = some false → d < g.nodes.length := by
    intro d hd
    rw [← hlen]
    exact (List.getElem?_eq_some_iff.1 hd).1
  obtain ⟨N, es, W, s', h1, h2, h3, h4⟩ := C25_shortest_path hg s hs src (some dst) (by simpa using hne) es0 W0 hroute
    (fun d hd => by cases hd; exact hlt dst hdst) (hlt src hsrc)
  refine ⟨N, es, W, s', h1, h2, h3, ?_⟩
  intro fuel hf
  have hb : isBnd bnd (some src) = .ok false := by simp only [isBnd, hsrc]
  have hbd : isBnd bnd (some dst) = .ok false := by simp only [isBnd, hdst]
  simp only [nodesOnPath, hb, hbd, nodesFrom, Bool.false_eq_true, if_false, h4 fuel hf, Res.bind, Option.toList_some]

/-- C25 (nodes, boundary).  Towards the boundary (the virtual one or any boundary node) the list is that of a shortest route to
the boundary and stops at the last detector; from the boundary it is the reverse. -/
theorem C25_nodes_boundary {g : SGraph} (hg : Good g) (s : SS) (hs : Fresh s) (bnd : List Bool) (hlen : bnd.length = g.nodes.length)
    (src : Nat) (hsrc : bnd[src]? = some false) (b : Option Nat) (hbb : b = none ∨ ∃ x, b = some x ∧ bnd[x]? = some true)
    (es0 : List (Nat × Nat)) (W0 : Nat) (hroute : Route g src none es0 W0) :
    ∃ N es W s', Route g src none es W ∧ IsDistance g src none W ∧ Fresh s' ∧
      ∀ fuel, N ≤ fuel → nodesOnPath g fuel s bnd (some src) b = some (.ok (es.map (·.1), s')) ∧
        nodesOnPath g fuel s bnd b (some src) = some (.ok ((es.map (·.1)).reverse, s')) := by
  have hlt : src < g.nodes.length := by rw [← hlen]; exact (List.getElem?_eq_some_iff.1 hsrc).1
  obtain ⟨N, es, W, s', h1, h2, h3, h4⟩ := C25_shortest_path hg s hs src none (by simp) es0 W0 hroute (by simp) hlt
  refine ⟨N, es, W, s', h1, h2, h3, ?_⟩
  intro fuel hf
  have hb : isBnd bnd (some src) = .ok false := by simp only [isBnd, hsrc]
  have hbd : isBnd bnd b = .ok true := by
    rcases hbb with rfl | ⟨x, rfl, hx⟩
    · rfl
    · simp only [isBnd, hx]
  constructor
  · simp only [nodesOnPath, hb, hbd, nodesFrom, if_true, h4 fuel hf, Res.bind, Option.toList_none, List.append_nil]
  · simp only [nodesOnPath, hb, hbd, nodesFrom, h4 fuel hf, Res.bind, Option.toList_none, List.append_nil]

/-- C26, the full statement: a path query never has undefined behaviour, whatever the two nodes are. -/
def C26_statement : Prop :=
  ∀ (g : SGraph) (bnd : List Bool) (s : SS) (src dst : Option Nat) (fuel : Nat), Good g → bnd.length = g.nodes.length → Fresh s →
    nodesOnPath g fuel s bnd src dst ≠ some .ub

/-- C26 (what the code does).  The search has undefined behaviour exactly when source and destination coincide or are not
connected: the loop runs out of events and the null collision edge is dereferenced. -/
theorem C26_undefined_iff {g : SGraph} (hg : Good g) (s : SS) (hs : Fresh s) (src : Nat) (dst : Option Nat)
    (hsrc : src < g.nodes.length) (hdst : ∀ d, dst = some d → d < g.nodes.length) :
    ∃ N, ∀ fuel, N ≤ fuel →
      ((pathFromSource g fuel s src dst = some .ub ↔ (dst = some src ∨ ¬ ∃ es W, Route g src dst es W)) ∧
       (pathFromMiddle g fuel s src dst = some .ub ↔ (dst = some src ∨ ¬ ∃ es W, Route g src dst es W))) := by
  rcases search_outcome hg s hs src dst hsrc hdst with ⟨hne, N, es, es', W, s', h1, h2, h3, h4, h5⟩ | ⟨h, N, h5⟩
  · refine ⟨N, fun fuel hf => ?_⟩
    obtain ⟨e1, e2⟩ := h5 fuel hf
    have hno : ¬ (dst = some src ∨ ¬ ∃ es W, Route g src dst es W) := by
      rintro (h | h)
      · exact hne h
      · exact h ⟨es, W, h2⟩
    rw [e1, e2]
    exact ⟨⟨fun h => by simp at h, fun h => absurd h hno⟩, ⟨fun h => by simp at h, fun h => absurd h hno⟩⟩
  · refine ⟨N, fun fuel hf => ?_⟩
    obtain ⟨e1, e2⟩ := h5 fuel hf
    rw [e1, e2]
    exact ⟨⟨fun _ => h, fun _ => rfl⟩, ⟨fun _ => h, fun _ => rfl⟩⟩

theorem fresh_init : Fresh SS.init := ⟨fun _ => rfl, fun _ => rfl, rfl, rfl⟩

/-- Two detectors without any edge. -/
def exApart : SGraph := ⟨[[], []], []⟩

theorem good_exApart : Good exApart := by
  have hno : ∀ u i, nbr exApart u i = none := by
    intro u i
    unfold nbr exApart
    rcases u with _ | _ | u <;> simp
  refine ⟨⟨?_, ?_, ?_⟩, ?_, ?_⟩
  · intro u l hl
    have : l = [] := by
      have := List.mem_of_getElem? hl
      simp [exApart] at this
      exact this
    subst this
    simp
  all_goals (intro u i n; rw [hno]; intros; contradiction)

/-- C26, refuted: asking for the path between two detectors that are not connected (also, a node index that is too large). -/
theorem C26_statement_false : ¬ C26_statement := by
  intro h
  obtain ⟨N, hN⟩ := C26_undefined_iff good_exApart SS.init fresh_init 0 (some 1) (by decide) (by rintro _ ⟨⟩; decide)
  have hno : ¬ ∃ es W, Route exApart 0 (some 1) es W := by
    rintro ⟨es, W, r⟩
    cases r with
    | step hs _ _ => simp [nbr, exApart] at hs
  have := (hN N (le_refl _)).1.2 (.inr hno)
  refine h exApart [false, false] SS.init (some 0) (some 1) N good_exApart rfl fresh_init ?_
  simp [nodesOnPath, isBnd, nodesFrom, this, Res.bind]

/-- C26, the part that holds: between existing, different, connected detectors, or towards the boundary from a detector
connected to it, a query does not have undefined behaviour; and two boundary nodes are rejected with an exception. -/
theorem C26_paths_partial {g : SGraph} (hg : Good g) (s : SS) (hs : Fresh s) (bnd : List Bool) (hlen : bnd.length = g.nodes.length) :
    (∀ src dst, isBnd bnd src = .ok true → isBnd bnd dst = .ok true → ∀ fuel, nodesOnPath g fuel s bnd src dst = some .throws) ∧
    (∀ src dst es0 W0, bnd[src]? = some false → bnd[dst]? = some false → dst ≠ src →
      Route g src (some dst) es0 W0 → ∃ N, ∀ fuel, N ≤ fuel →
        ∃ l s', nodesOnPath g fuel s bnd (some src) (some dst) = some (.ok (l, s'))) ∧
    (∀ src b es0 W0, bnd[src]? = some false → (b = none ∨ ∃ x, b = some x ∧ bnd[x]? = some true) →
      Route g src none es0 W0 → ∃ N, ∀ fuel, N ≤ fuel →
        ∃ l l' s', nodesOnPath g fuel s bnd (some src) b = some (.ok (l, s')) ∧
          nodesOnPath g fuel s bnd b (some src) = some (.ok (l', s'))) := by
  refine ⟨?_, ?_, ?_⟩
  · intro src dst h1 h2 fuel
    simp only [nodesOnPath, h1, h2]
  · intro src dst es0 W0 h1 h2 h3 r
    obtain ⟨N, es, W, s', -, -, -, h⟩ := C25_nodes hg s hs bnd hlen src dst h1 h2 h3 es0 W0 r
    exact ⟨N, fun fuel hf => ⟨_, _, h fuel hf⟩⟩
  · intro src b es0 W0 h1 h2 r
    obtain ⟨N, es, W, s', -, -, -, h⟩ := C25_nodes_boundary hg s hs bnd hlen src h1 b h2 es0 W0 r
    exact ⟨N, fun fuel hf => ⟨_, _, _, h fuel hf⟩⟩

/-! ## The hypotheses hold for a real graph -/

theorem good_exGraph : Good exGraph := by
  have hslots : ∀ u i n, nbr exGraph u i = some n → n.weight = 4 ∨ n.weight = 2 := by
    intro u i n h
    obtain ⟨l, hl, hi⟩ := mem_slot.1 h
    have h1 := List.mem_of_getElem? hl
    have h2 := List.mem_of_getElem? hi
    simp only [exGraph, List.mem_cons, List.not_mem_nil, or_false] at h1
    rcases h1 with rfl | rfl | rfl <;> simp only [List.mem_cons, List.not_mem_nil, or_false] at h2 <;>
      rcases h2 with rfl | rfl | rfl <;> simp
  refine ⟨exGraph_simple.1, ?_, ?_⟩
  · intro u i n h
    rcases hslots u i n h with h | h <;> rw [h] <;> decide
  · intro u i n h
    rcases hslots u i n h with h | h <;> rw [h] <;> decide

example : ∃ N es W s', Route exGraph 2 none es W ∧ IsDistance exGraph 2 none W ∧ Fresh s' ∧
    ∀ fuel, N ≤ fuel → pathFromSource exGraph fuel SS.init 2 none = some (.ok (es, s')) :=
  C25_shortest_path good_exGraph SS.init fresh_init 2 none (by simp) [(2, 0), (0, 0)] 6
    (.step (n := ⟨some 0, 2, [], true⟩) rfl rfl (.exit (n := ⟨none, 4, [], false⟩) rfl rfl)) (by simp) (by decide)

end Verif.Props.Search
