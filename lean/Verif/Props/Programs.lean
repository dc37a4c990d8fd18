import Verif.Programs
import Verif.Props.DemRules

/-!
# C77, C78, C81: programs that load graphs at any point
-/

namespace Verif.Props.Programs

open Verif Verif.SB Verif.UG Verif.Obj Verif.Dbl Verif.ConvD Verif.ObjD Verif.Session Verif.Prog
open Verif.Props.UserEdges Verif.Props.UserGraph Verif.Props.Answers
open Verif.Props.Object Verif.Props.Double Verif.Props.DoubleHistory
open Verif.Props.Dem (components)
open Verif.Props.MatrixDecode (Problem)
open Verif.Props.Python (Describes)
open Verif.Props.Session (Link Net Clean netOf Stands Right Allowed Asks ProperProgram moments program_core stmt_core Works checked_of sizes_of)
open Verif.Props.MatrixSession (matrixNet matrix_stands)
open Verif.Props.DemSession (demNet dem_stands)
open Verif.Props.DemRules (Once corrNet corr_stands)
open Verif.Props.Edges (Completes)
open Verif.Sch (Res)
open Verif.Api (strategyOf)

/-! ## Specification -/

/-- The fault ids that the value of an attribute stands for; `none`: it stands for nothing. -/
def meant : Ids → Option (Finset Nat)
  | .int n => if n = -1 then some ∅ else if 0 ≤ n then some {n.toNat} else none
  | .set s => if ∀ x ∈ s, 0 ≤ x then some (s.image Int.toNat) else none
  | .other => none

/-- The fault ids of an edge, under one of two names, but not both. -/
def faultsOf (a : Attrs) : Option (Finset Nat) :=
  match a.faultIds, a.qubitId with
  | none, none => some ∅
  | some i, none => meant i
  | none, some i => meant i
  | some _, some _ => none

/-- Adding edges to a network, one after the other (see `Net.add` of C69); with a warning if there is one.  `none`: an exception. -/
def addAll (mergeW : ℚ → ℚ → ℚ) : Net → Bool → List (Int × Int × Attrs) → Option (Net × Bool)
  | N, warned, [] => some (N, warned)
  | N, warned, (u, v, a) :: es =>
    match faultsOf a with
    | none => none
    | some F =>
      if u < 0 ∨ v < 0 then none
      else
        match N.add mergeW u.toNat (some v.toNat) F { weight := a.weight.getD (.fin 1), prob := a.prob, strategy := "smallest-weight" } with
        | (N', .nothing) => addAll mergeW N' warned es
        | (N', .warned) => addAll mergeW N' true es
        | _ => none

/-- The network of a graph. -/
def graphNet (mergeW : ℚ → ℚ → ℚ) (x : Graph) (minIds : Option Int) : Option (Net × Bool) :=
  if 0 ≤ minIds.getD 0 ∧ ∀ b ∈ x.boundary, 0 ≤ b then
    addAll mergeW ⟨max x.numNodes ((x.boundary.image Int.toNat).sup (· + 1)), [], x.boundary.image Int.toNat, (minIds.getD 0).toNat⟩ false x.edges
  else none

/-- The link of an edge of a graph.  An edge without weight has weight 1. -/
structure Stated (e : Int × Int × Attrs) (l : Link) : Prop where
  fst : e.1 = l.a
  snd : ∃ v : Nat, e.2.1 = v ∧ l.b = some v
  faults : faultsOf e.2.2 = some l.faults
  weight : (e.2.2.weight = none ∧ l.weight = 1) ∨ e.2.2.weight = some (.fin l.weight)
  prob : l.prob = e.2.2.prob.getD (-1)
  light : |l.weight| ≤ 2 ^ 24 - 1
  rules : l.rules = ∅

/-- No weight is NaN. -/
def NoNaN (x : Graph) : Prop := ∀ e ∈ x.edges, e.2.2.weight ≠ some .nan

/-- What loading should give: a network, perhaps with a warning; or an exception (`none`). -/
def Gives (A : Dem.Arith ℚ) (mergeW : ℚ → ℚ → ℚ) (lg : ℚ → ℚ) : Source → Option (Net × Bool) → Prop
  | .graph x minIds, r => NoNaN x ∧ r = graphNet mergeW x minIds
  | .matrix c, r => ∃ (P : Problem ℚ) (s : Strategy), Describes c P ∧ strategyOf c.mergeStrategy = some s ∧ (∀ i, (P.col i).length ≤ 2) ∧ (∀ i, (P.fault i).Nodup) ∧
      r = (matrixNet mergeW P c.virtualBoundary s).map (·, false)
  | .dem m false, r => (∀ e ∈ m.errors, 0 ≤ e.p ∧ e.p < 1) ∧ (∀ e ∈ m.errors, ∀ c ∈ components e, c.2.Nodup) ∧ r = (demNet mergeW lg m).map (·, false)
  | .dem m true, r => (∀ e ∈ m.errors, ∀ c ∈ components e, c.2.Nodup) ∧ (∀ e ∈ m.errors, Once e) ∧ r = (corrNet A mergeW lg m).map (·, false)

/-- The program may be executed, starting with network `N`: statements are allowed as in C69, and loads are given what they can read.  `limit`: a condition on the networks that are asked
about. -/
def Proper (A : Dem.Arith ℚ) (mergeW : ℚ → ℚ → ℚ) (lg : ℚ → ℚ) (limit : Net → Prop) : Net → Prop → List Line → Prop
  | _, _, [] => True
  | N, asked, .stmt s :: prog => Allowed N asked s ∧ (Asks s → limit N) ∧
    Proper A mergeW lg limit (N.after mergeW s).1 ((Asks s ∨ asked) ∧ (N.after mergeW s).1.links = N.links ∧ (N.after mergeW s).1.boundary = N.boundary) prog
  | N, asked, .load src :: prog =>
    (∃ N' w, Gives A mergeW lg src (some (N', w)) ∧ Proper A mergeW lg limit N' False prog) ∨ (Gives A mergeW lg src none ∧ Proper A mergeW lg limit N asked prog)

/-- What is loaded refuses questions with correlations. -/
def _root_.Verif.Prog.Source.without : Source → Bool
  | .dem _ corr => !corr
  | _ => false

/-- The program has these replies, and they are right: a statement does what it should with the network of that moment, and gets the right reply; loading replaces the network, or raises and
leaves it as it was.  `wo`: questions with correlations are refused. -/
inductive Went (A : Dem.Arith ℚ) (mergeW : ℚ → ℚ → ℚ) (lg : ℚ → ℚ) : Bool → Net → List Line → List Reply → Prop where
  | nil {wo : Bool} {N : Net} : Went A mergeW lg wo N [] []
  | stmt {wo : Bool} {N : Net} {s : Stmt} {prog : List Line} {r : Reply} {rs : List Reply} (hr : Right mergeW wo N s r) (h : Went A mergeW lg wo (N.after mergeW s).1 prog rs) :
    Went A mergeW lg wo N (.stmt s :: prog) (r :: rs)
  | loaded {wo : Bool} {N N' : Net} {w : Bool} {src : Source} {prog : List Line} {rs : List Reply} (hg : Gives A mergeW lg src (some (N', w)))
    (h : Went A mergeW lg src.without N' prog rs) : Went A mergeW lg wo N (.load src :: prog) ((if w then .warned else .nothing) :: rs)
  | refused {wo : Bool} {N : Net} {src : Source} {prog : List Line} {rs : List Reply} (hg : Gives A mergeW lg src none) (h : Went A mergeW lg wo N prog rs) :
    Went A mergeW lg wo N (.load src :: prog) (.raised :: rs)

/-! ## Lemmas -/

theorem sizes_ids (i : Ids) : (i.toSet.bind toSizes) = (meant i).map (·.sort (· ≤ ·)) := by
  cases i with
  | int n =>
    rw [show meant (.int n) = Session.meant (.int n) from rfl, ← sizes_of]
    simp only [Ids.toSet, faultSet, Option.bind_some]
    by_cases h : n = -1 <;> simp [h]
  | set s => rw [show meant (.set s) = Session.meant (.set s) from rfl, ← sizes_of]; rfl
  | other => rfl

theorem sizes_attrs (a : Attrs) : (a.ids.bind toSizes) = (faultsOf a).map (·.sort (· ≤ ·)) := by
  unfold Attrs.ids faultsOf
  cases a.faultIds with
  | none =>
    cases a.qubitId with
    | none => simp [toSizes]
    | some q => exact sizes_ids q
  | some f =>
    cases a.qubitId with
    | none => exact sizes_ids f
    | some q => rfl

/-- The loop over the edges builds the network. -/
theorem edges_core (mergeW : ℚ → ℚ → ℚ) : ∀ (es : List (Int × Int × Attrs)) (g : UGraph ℚ) (w : Bool), WF g → Props.Convert.BndOk g → Clean g →
    (∀ e ∈ es, e.2.2.weight ≠ some .nan) →
    (∃ N w' g', addAll mergeW (netOf g) w es = some (N, w') ∧ loadEdges mergeW g w es = .graph g' w' false ∧ WF g' ∧ Props.Convert.BndOk g' ∧ Clean g' ∧ netOf g' = N) ∨
    (addAll mergeW (netOf g) w es = none ∧ loadEdges mergeW g w es = .raised) := by
  intro es
  induction es with
  | nil => exact fun g w hw hB hc _ => .inl ⟨_, _, _, rfl, rfl, hw, hB, hc, rfl⟩
  | cons e es ih =>
    intro g w hw hB hc hn
    obtain ⟨u, v, a⟩ := e
    have hs := sizes_attrs a
    unfold addAll loadEdges
    cases hF : faultsOf a with
    | none =>
      right
      rw [hF] at hs
      refine ⟨rfl, ?_⟩
      cases hi : a.ids with
      | none => rfl
      | some ids =>
        rw [hi, Option.bind_some, Option.map_none] at hs
        simp only [hs]
    | some F =>
      rw [hF] at hs
      obtain ⟨ids, hi, hs⟩ := Option.bind_eq_some_iff.1 hs
      simp only [hi, hs]
      unfold Api.addEdge
      by_cases hneg : u < 0 ∨ v < 0
      · right
        rw [if_pos hneg, if_pos hneg]
        exact ⟨rfl, rfl⟩
      · rw [if_neg hneg, if_neg hneg]
        have hna : a.weight.getD (.fin 1) ≠ .nan := by
          have := hn _ (List.mem_cons_self ..)
          simp only at this
          cases h : a.weight with
          | none => simp
          | some x => rw [h] at this; simpa using this
        obtain ⟨o', k1, k2, k3, k4⟩ := checked_of mergeW (o := ⟨g, none, false⟩) hw hc u.toNat (some v.toNat) F
          { weight := a.weight.getD (.fin 1), prob := a.prob, strategy := "smallest-weight" } hna
        have hgood : WF o'.graph ∧ Props.Convert.BndOk o'.graph := by
          rcases k4 with rfl | ⟨x, s, rfl⟩
          · exact ⟨hw, hB⟩
          · exact ⟨wf_exec mergeW hw _, Props.Convert.bndOk_exec mergeW hB _⟩
        simp only at k1 k2
        change answerOf _ (Api.checked g _ _ fun x s => g.addEdge mergeW u.toNat v.toNat (F.sort (· ≤ ·)) x (a.prob.getD (-1)) s) = _ at k1
        generalize Api.checked g (a.weight.getD (.fin 1)) "smallest-weight" (fun x s => g.addEdge mergeW u.toNat v.toNat (F.sort (· ≤ ·)) x (a.prob.getD (-1)) s) = X at k1 ⊢
        generalize hA : (netOf g).add mergeW u.toNat (some v.toNat) F { weight := a.weight.getD (.fin 1), prob := a.prob, strategy := "smallest-weight" } = A at k1 k2 ⊢
        obtain ⟨N1, r⟩ := A
        have hn' : ∀ e ∈ es, e.2.2.weight ≠ some .nan := fun e he => hn e (by simp [he])
        cases X with
        | nanStored => cases k1
        | graph g1 r1 =>
          cases r1 <;> simp only [answerOf, Option.some.injEq, Prod.mk.injEq] at k1 <;> obtain ⟨rfl, rfl⟩ := k1 <;> simp only at k2 k3 hgood ⊢
          · rw [← k2]; exact ih g1 w hgood.1 hgood.2 k3 hn'
          · rw [← k2]; exact ih g1 true hgood.1 hgood.2 k3 hn'
          · exact .inr ⟨trivial, trivial⟩

theorem graph_stands (mergeW : ℚ → ℚ → ℚ) (x : Graph) (minIds : Option Int) (hn : NoNaN x) :
    (∃ N w g, graphNet mergeW x minIds = some (N, w) ∧ loadGraph mergeW x minIds = .graph g w false ∧ Stands N false False g (ObjectD.of g false)) ∨
    (graphNet mergeW x minIds = none ∧ loadGraph mergeW x minIds = .raised) := by
  unfold graphNet loadGraph
  by_cases h0 : minIds.getD 0 < 0
  · right
    rw [if_pos h0, if_neg fun h => absurd h0 (not_lt.2 h.1)]
    exact ⟨rfl, rfl⟩
  rw [if_neg h0]
  unfold toSizes
  by_cases hb : ∀ b ∈ x.boundary, 0 ≤ b
  · rw [if_pos hb, if_pos ⟨not_lt.1 h0, hb⟩]
    simp only
    generalize hg : (UGraph.new x.numNodes (minIds.getD 0).toNat : UGraph ℚ).setBoundary ((x.boundary.image Int.toNat).sort (· ≤ ·)) = g0
    have hw : WF g0 := by rw [← hg]; exact wf_exec (fun a _ => a) (wf_new _ _) (.setBoundary _)
    have hB : Props.Convert.BndOk g0 := by rw [← hg]; exact Props.Convert.bndOk_exec (fun a _ => a) (Props.Convert.bndOk_new _ _) (.setBoundary _)
    have hc : Clean g0 := by rw [← hg]; intro e he; cases he
    have hN : netOf g0 = ⟨max x.numNodes ((x.boundary.image Int.toNat).sup (· + 1)), [], x.boundary.image Int.toNat, (minIds.getD 0).toNat⟩ := by
      rw [← hg]
      simp [netOf, UGraph.setBoundary, Session.mark_len, UGraph.new]
    rw [← hN]
    rcases edges_core mergeW x.edges g0 false hw hB hc hn with ⟨N, w, g, h1, h2, h3, h4, h5, h6⟩ | h
    · exact .inl ⟨N, w, g, h1, h2, h3, h4, h5, h6, invD_of _ _, fun h => by cases h⟩
    · exact .inr h
  · right
    rw [if_neg hb, if_neg fun h => hb h.2]
    exact ⟨rfl, rfl⟩

/-- Loading from any source. -/
theorem source_stands (A : Dem.Arith ℚ) (mergeW : ℚ → ℚ → ℚ) (lg : ℚ → ℚ) (src : Source) :
    (∀ N w, Gives A mergeW lg src (some (N, w)) → ∃ g, src.fetch mergeW lg A = .graph g w src.without ∧ Stands N src.without False g (ObjectD.of g src.without)) ∧
    (Gives A mergeW lg src none → src.fetch mergeW lg A = .raised) := by
  cases src with
  | graph x minIds =>
    refine ⟨fun N w h => ?_, fun h => ?_⟩ <;> obtain ⟨hn, h⟩ := h <;> rcases graph_stands mergeW x minIds hn with ⟨N', w', g, h1, h2, h3⟩ | ⟨h1, h2⟩ <;> rw [h1] at h <;> cases h
    · exact ⟨g, h2, h3⟩
    · exact h2
  | matrix c =>
    refine ⟨fun N w h => ?_, fun h => ?_⟩ <;> obtain ⟨P, s, hd, hs, h2, hF, h⟩ := h <;> obtain ⟨a, hg, rfl, hv, hload⟩ := Python.arguments_of hd hs <;>
      rcases matrix_stands hg h2 hF mergeW with ⟨N', g, h3, h4, h5⟩ | ⟨h3, h4⟩ <;> rw [← hv, h3] at h <;> cases h
    · exact ⟨g, by simp only [Source.without, Source.fetch, (hload mergeW).1, h4], h5⟩
    · simp only [Source.fetch, (hload mergeW).1, h4]
  | dem m corr =>
    cases corr with
    | false =>
      refine ⟨fun N w h => ?_, fun h => ?_⟩ <;> obtain ⟨hp, hn, h⟩ := h <;> obtain ⟨N', h1, h2⟩ := dem_stands mergeW lg m (fun e he => (hp e he).1) hn <;> rw [h1] at h <;> cases h
      exact ⟨_, rfl, h2⟩
    | true =>
      refine ⟨fun N w h => ?_, fun h => ?_⟩ <;> obtain ⟨hn, ho, h⟩ := h <;> rcases corr_stands A mergeW lg m hn ho with ⟨N', g, h1, h2, h3⟩ | ⟨h1, h2⟩ <;> rw [h1] at h <;> cases h
      · exact ⟨g, by simp [Source.fetch, Source.without, h2], h3⟩
      · simp [Source.fetch, h2]

theorem lines_core [W : Width] (A : Dem.Arith ℚ) (mergeW : ℚ → ℚ → ℚ) (lg : ℚ → ℚ) {limit : Net → Prop} (hlimit : ∀ N s, (Asks s → limit N) → Works N s) :
    ∀ (prog : List Line) (N : Net) (wo : Bool) (asked : Prop) (g : UGraph ℚ) (o : ObjectD), Stands N wo asked g o → Proper A mergeW lg limit N asked prog →
      ∃ rs o', Completes (fun f => Prog.run mergeW lg A f o prog) (.ok (rs, o')) ∧ Went A mergeW lg wo N prog rs := by
  intro prog
  induction prog with
  | nil => intro N wo asked g o _ _; exact ⟨[], o, ⟨0, fun f _ => rfl⟩, .nil⟩
  | cons l prog ih =>
    intro N wo asked g o hs hp
    cases l with
    | stmt s =>
      obtain ⟨ha, hl, hp⟩ := hp
      obtain ⟨r, o', g', ⟨f1, c1⟩, h2, h3⟩ := stmt_core mergeW hs ha (hlimit N s hl)
      obtain ⟨rs, o'', ⟨f2, c2⟩, hall⟩ := ih _ _ _ g' o' h2 hp
      refine ⟨r :: rs, o'', ⟨max f1 f2, fun f hf => ?_⟩, .stmt h3 hall⟩
      have e1 := c1 f (le_trans (le_max_left _ _) hf)
      have e2 := c2 f (le_trans (le_max_right _ _) hf)
      simp only at e1 e2
      simp only [Prog.run, Prog.exec, e1, e2, Res.bind]
    | load src =>
      obtain ⟨q1, q2⟩ := source_stands A mergeW lg src
      rcases hp with ⟨N', w, hg, hp⟩ | ⟨hg, hp⟩
      · obtain ⟨g', h2, h3⟩ := q1 N' w hg
        obtain ⟨rs, o'', ⟨f2, c2⟩, hall⟩ := ih _ _ _ _ _ h3 hp
        refine ⟨_, o'', ⟨f2, fun f hf => ?_⟩, .loaded hg hall⟩
        have e2 := c2 f hf
        simp only at e2
        simp only [Prog.run, Prog.exec, h2, e2, Res.bind]
      · obtain ⟨rs, o'', ⟨f2, c2⟩, hall⟩ := ih _ _ _ _ _ hs hp
        refine ⟨_, o'', ⟨f2, fun f hf => ?_⟩, .refused hg hall⟩
        have e2 := c2 f hf
        simp only at e2
        simp only [Prog.run, Prog.exec, q2 hg, e2, Res.bind]

/-! ## Theorems -/

/-- C77: `load_from_networkx` or `load_from_rustworkx`, followed by any proper program.  If the graph has a network, the object stands for it, and the program gets right replies, about
the network of that moment (see C69); otherwise an exception is raised. -/
theorem C77_program (mergeW : ℚ → ℚ → ℚ) (x : Graph) (minIds : Option Int) (hn : NoNaN x) :
    (graphNet mergeW x minIds = none ∧ loadGraph mergeW x minIds = .raised) ∨
    ∃ N w g, graphNet mergeW x minIds = some (N, w) ∧ loadGraph mergeW x minIds = .graph g w false ∧
      ∀ prog, ProperProgram mergeW N False prog → ∃ replies o, Completes (fun f => Session.run mergeW f (ObjectD.of g false) prog) (.ok (replies, o)) ∧
        List.Forall₂ (fun (m : Net × Stmt) r => Right mergeW false m.1 m.2 r) (moments mergeW N prog) replies := by
  rcases graph_stands mergeW x minIds hn with ⟨N, w, g, h1, h2, h3⟩ | h
  · exact .inr ⟨N, w, g, h1, h2, fun prog hp => program_core (W := unbounded) mergeW prog _ _ _ _ _ h3 hp fun m _ => Session.works_of m.1 m.2⟩
  · exact .inl h

/-- C77 for the library as compiled, with its 32-bit wrapped radius. -/
theorem C77_program_int32 (mergeW : ℚ → ℚ → ℚ) (x : Graph) (minIds : Option Int) (hn : NoNaN x) :
    (graphNet mergeW x minIds = none ∧ loadGraph mergeW x minIds = .raised) ∨
    ∃ N w g, graphNet mergeW x minIds = some (N, w) ∧ loadGraph mergeW x minIds = .graph g w false ∧
      ∀ prog, ProperProgram mergeW N False prog → (∀ m ∈ moments mergeW N prog, Asks m.2 → m.1.Small) →
        ∃ replies o, Completes (fun f => Session.run (W := int32) mergeW f (ObjectD.of g false) prog) (.ok (replies, o)) ∧
          List.Forall₂ (fun (m : Net × Stmt) r => Right mergeW false m.1 m.2 r) (moments mergeW N prog) replies := by
  rcases graph_stands mergeW x minIds hn with ⟨N, w, g, h1, h2, h3⟩ | h
  · exact .inr ⟨N, w, g, h1, h2, fun prog hp hs => program_core (W := int32) mergeW prog _ _ _ _ _ h3 hp fun m hm => Session.works_small (hs m hm)⟩
  · exact .inl h

/-- C77: a graph without parallel edges, in which no weight is too large, has a network: it consists of the links of the edges, in their order.  It has as many nodes and fault ids as are
needed, and not less than the graph and the argument `min_num_fault_ids` say. -/
theorem C77_simple (mergeW : ℚ → ℚ → ℚ) (x : Graph) (minIds : Option Int) {ls : List Link} (hls : List.Forall₂ Stated x.edges ls)
    (hpar : ls.Pairwise fun l l' => ¬ l.Joins l'.a l'.b) (hb : ∀ b ∈ x.boundary, 0 ≤ b) (hm : ∀ k, minIds = some k → 0 ≤ k) :
    ∃ N, graphNet mergeW x minIds = some (N, false) ∧ N.links = ls ∧ (∀ k : Nat, k ∈ N.boundary ↔ (k : Int) ∈ x.boundary) ∧
      (∀ k, N.nodes ≤ k ↔ x.numNodes ≤ k ∧ (∀ b ∈ x.boundary, b < k) ∧ ∀ l ∈ ls, l.a < k ∧ ∀ v, l.b = some v → v < k) ∧
      ∀ k, N.ids ≤ k ↔ (∀ n, minIds = some n → n ≤ k) ∧ ∀ l ∈ ls, ∀ f ∈ l.faults, f < k := by
  have hm0 : 0 ≤ minIds.getD 0 := by
    cases minIds with
    | none => simp
    | some k => exact hm k rfl
  have key : ∀ (es : List (Int × Int × Attrs)) (ls : List Link), List.Forall₂ Stated es ls → ∀ (N : Net), (∀ l ∈ ls, ∀ l' ∈ N.links, ¬ l'.Joins l.a l.b) →
      (ls.Pairwise fun l l' => ¬ l.Joins l'.a l'.b) →
      ∃ N', addAll mergeW N false es = some (N', false) ∧ N'.links = N.links ++ ls ∧ N'.boundary = N.boundary ∧
        (∀ k, N'.nodes ≤ k ↔ N.nodes ≤ k ∧ ∀ l ∈ ls, l.a < k ∧ ∀ v, l.b = some v → v < k) ∧
        ∀ k, N'.ids ≤ k ↔ N.ids ≤ k ∧ ∀ l ∈ ls, ∀ f ∈ l.faults, f < k := by
    intro es ls h
    induction h with
    | nil => intro N _ _; exact ⟨N, rfl, by simp, rfl, by simp, by simp⟩
    | @cons e l es ls hel _ ih =>
      intro N hN hp
      obtain ⟨u, v, a⟩ := e
      obtain ⟨h1, ⟨v', h2, h2'⟩, h3, h4, h5, h6, h7⟩ := hel
      simp only at h1 h2 h3 h4 h5
      subst h1 h2
      have hnew : ¬ ∃ l' ∈ N.links, l'.Joins l.a l.b := by
        rintro ⟨l', h, h'⟩
        exact hN l (by simp) l' h h'
      have hadd : N.add mergeW l.a l.b l.faults { weight := a.weight.getD (.fin 1), prob := a.prob, strategy := "smallest-weight" } =
          ({ N with nodes := max N.nodes (UserGraph.top l.a l.b + 1), links := N.links ++ [l], ids := max N.ids (l.faults.sup (· + 1)) }, .nothing) := by
        have hw : a.weight.getD (.fin 1) = .fin l.weight := by
          rcases h4 with ⟨h, h'⟩ | h <;> simp [h]
          exact h'.symm
        simp only [Net.add, hw, if_neg (not_lt.2 h6), show strategyOf "smallest-weight" = some .smallestWeight by decide, ← h5, Net.place]
        rw [if_neg hnew, ← h7]
      obtain ⟨N', k1, k2, k3, k4, k5⟩ := ih { N with nodes := max N.nodes (UserGraph.top l.a l.b + 1), links := N.links ++ [l], ids := max N.ids (l.faults.sup (· + 1)) } (by
        intro l1 hl1 l2 hl2
        rcases List.mem_append.1 hl2 with h | h
        · exact hN l1 (by simp [hl1]) l2 h
        · rw [List.mem_singleton.1 h]
          exact (List.pairwise_cons.1 hp).1 l1 hl1) (List.pairwise_cons.1 hp).2
      refine ⟨N', ?_, by rw [k2]; simp, k3, fun k => ?_, fun k => ?_⟩
      · unfold addAll
        have hneg : ¬ ((l.a : Int) < 0 ∨ (v' : Int) < 0) := by omega
        simp only [h3, if_neg hneg, Int.toNat_natCast, ← h2', hadd]
        exact k1
      · rw [k4]
        simp only [max_le_iff, List.forall_mem_cons, h2', UserGraph.top]
        constructor
        · rintro ⟨⟨p1, p2⟩, p3⟩
          exact ⟨p1, ⟨by omega, fun w hw => by cases hw; omega⟩, p3⟩
        · rintro ⟨p1, ⟨p2, p2'⟩, p3⟩
          have := p2' _ rfl
          exact ⟨⟨p1, by omega⟩, p3⟩
      · rw [k5]
        simp only [max_le_iff, List.forall_mem_cons, Finset.sup_le_iff, Nat.succ_le_iff]
        tauto
  obtain ⟨N, k1, k2, k3, k4, k5⟩ := key x.edges ls hls ⟨max x.numNodes ((x.boundary.image Int.toNat).sup (· + 1)), [], x.boundary.image Int.toNat, (minIds.getD 0).toNat⟩
    (fun _ _ _ h => by cases h) hpar
  refine ⟨N, ?_, k2, fun k => ?_, fun k => ?_, fun k => ?_⟩
  · unfold graphNet
    rw [if_pos ⟨hm0, hb⟩]
    exact k1
  · rw [k3]
    simp only [Finset.mem_image]
    constructor
    · rintro ⟨b, h, rfl⟩
      rw [Int.toNat_of_nonneg (hb b h)]
      exact h
    · exact fun h => ⟨_, h, by simp⟩
  · rw [k4]
    simp only [max_le_iff, Finset.sup_le_iff, Finset.mem_image]
    constructor
    · rintro ⟨⟨p1, p2⟩, p3⟩
      refine ⟨p1, fun b hbb => ?_, p3⟩
      have := p2 b.toNat ⟨b, hbb, rfl⟩
      have := hb b hbb
      omega
    · rintro ⟨p1, p2, p3⟩
      refine ⟨⟨p1, ?_⟩, p3⟩
      rintro _ ⟨b, hbb, rfl⟩
      have := p2 b hbb
      have := hb b hbb
      omega
  · rw [k5]
    constructor
    · rintro ⟨p1, p2⟩
      refine ⟨fun n hn => ?_, p2⟩
      subst hn
      simp only [Option.getD_some] at p1 hm0
      omega
    · rintro ⟨p1, p2⟩
      refine ⟨?_, p2⟩
      cases hmi : minIds with
      | none => simp
      | some n =>
        have := p1 n hmi
        simp only [Option.getD_some]
        omega

/-- C78: a program that loads graphs from any sources between other statements, from `Matching()` on.  If it is proper, it ends without undefined behaviour, and all its replies are right:
a load that succeeds replaces the network, one that raises leaves it as it was. -/
theorem C78_program (A : Dem.Arith ℚ) (mergeW : ℚ → ℚ → ℚ) (lg : ℚ → ℚ) (prog : List Line) (hp : Proper A mergeW lg (fun _ => True) Net.empty False prog) :
    ∃ replies o, Completes (fun f => Prog.run mergeW lg A f Session.new prog) (.ok (replies, o)) ∧ Went A mergeW lg false Net.empty prog replies :=
  lines_core (W := unbounded) A mergeW lg (fun N s _ => Session.works_of N s) prog _ _ _ _ _ Session.stands_new hp

/-- C78 for the library as compiled, with its 32-bit wrapped radius: whenever the program asks, the network is small enough. -/
theorem C78_program_int32 (A : Dem.Arith ℚ) (mergeW : ℚ → ℚ → ℚ) (lg : ℚ → ℚ) (prog : List Line) (hp : Proper A mergeW lg Net.Small Net.empty False prog) :
    ∃ replies o, Completes (fun f => Prog.run (W := int32) mergeW lg A f Session.new prog) (.ok (replies, o)) ∧ Went A mergeW lg false Net.empty prog replies :=
  lines_core (W := int32) A mergeW lg (fun _ _ h => Session.works_small h) prog _ _ _ _ _ Session.stands_new hp

/-! ## Examples -/

/-- A graph with a weight and fault ids left out, a node far off, and an old attribute name. -/
def chain : Graph :=
  ⟨3, {2}, [(0, 1, { faultIds := some (.int 0), weight := some (.fin 2), prob := some (1 / 10) }), (1, 2, { qubitId := some (.set {1, 4}) }), (5, 0, { faultIds := some (.int (-1)) })]⟩

def chainLinks : List Link := [⟨0, some 1, {0}, 2, 1 / 10, ∅⟩, ⟨1, some 2, {1, 4}, 1, -1, ∅⟩, ⟨5, some 0, ∅, 1, -1, ∅⟩]

/-- One with an edge that is too heavy, one with both attributes. -/
def heavy : Graph := ⟨2, ∅, [(0, 1, { weight := some (.fin (2 ^ 30)) })]⟩
def both : Graph := ⟨2, ∅, [(0, 1, { faultIds := some (.int 0), qubitId := some (.int 0) })]⟩

example : graphNet (fun a _ => a) chain none = some (⟨6, chainLinks, {2}, 5⟩, false) ∧ graphNet (fun a _ => a) heavy (some 7) = some (⟨2, [], ∅, 7⟩, true) ∧
    graphNet (fun a _ => a) both none = none := by decide +kernel

theorem chain_stated : List.Forall₂ Stated chain.edges chainLinks := by
  refine .cons ⟨rfl, ⟨1, rfl, rfl⟩, by decide +kernel, .inr rfl, rfl, ?_, rfl⟩ (.cons ⟨rfl, ⟨2, rfl, rfl⟩, by decide +kernel, .inl ⟨rfl, rfl⟩, rfl, ?_, rfl⟩
    (.cons ⟨rfl, ⟨0, rfl, rfl⟩, by decide +kernel, .inl ⟨rfl, rfl⟩, rfl, ?_, rfl⟩ .nil)) <;> norm_num [abs_le]

theorem chain_nan : NoNaN chain := by
  intro e he
  simp only [chain, List.mem_cons, List.not_mem_nil, or_false] at he
  rcases he with rfl | rfl | rfl <;> simp

theorem heavy_nan : NoNaN heavy := by
  intro e he
  simp only [heavy, List.mem_cons, List.not_mem_nil, or_false] at he
  rcases he with rfl
  simp

theorem both_nan : NoNaN both := by
  intro e he
  simp only [both, List.mem_cons, List.not_mem_nil, or_false] at he
  rcases he with rfl
  simp

example := C77_program (fun a _ => a) chain none chain_nan
example := C77_program_int32 (fun a _ => a) chain none chain_nan
example (mergeW : ℚ → ℚ → ℚ) := C77_simple mergeW chain (some 3) chain_stated (by decide +kernel) (by decide +kernel) (by rintro _ ⟨⟩; decide)

/-- A program that loads a graph, asks, tries to load another one that is refused, asks again, loads a check matrix, asks, modifies, loads a detector error model, and asks. -/
def loads : List Line := [
  .load (.graph chain none),
  .stmt (.decode (.d1 [1, 0, 0, 0, 0]) true false),
  .load (.graph both none),
  .stmt (.decodeToEdgesArray (.d1 [0, 1, 0, 0, 0]) false),
  .load (.matrix (MatrixSession.twoCall "keep-original")),
  .stmt (.decode (.d1 [1]) false false),
  .stmt (.addEdge 0 2 { weight := .fin (-4) }),
  .load (.dem Arithmetic.sampleD false),
  .stmt (.decode (.d1 [1, 1]) true false)]

theorem loads_proper : Proper .exact (fun a _ => a) (fun p => if p = 1 / 10 then 2 else 1) Net.Small Net.empty False loads := by
  have hc : (⟨6, chainLinks, {2}, 5⟩ : Net).Ready false :=
    Session.ready_plain (Session.fine_of (by decide +kernel) (by decide +kernel) (by decide +kernel) (by decide +kernel) (by decide +kernel) (by decide +kernel) (by decide +kernel))
  refine .inl ⟨⟨6, chainLinks, {2}, 5⟩, false, ⟨chain_nan, by decide +kernel⟩, hc, fun _ => .inl (by decide), .inr ⟨⟨both_nan, by decide +kernel⟩, hc, fun _ => .inl (by decide), ?_⟩⟩
  refine .inl ⟨⟨2, [⟨0, some 1, {0}, 1, -1, ∅⟩], {1}, 2⟩, false, ⟨MatrixSession.twoProblem, .keepOriginal, MatrixSession.two_describes _, rfl, MatrixSession.two_cols, MatrixSession.two_faults,
    by decide +kernel⟩, Session.ready_plain (Session.fine_of (by decide +kernel) (by decide +kernel) (by decide +kernel) (by decide +kernel) (by decide +kernel) (by decide +kernel) (by decide +kernel)), fun _ => .inl (by decide), ?_⟩
  refine ⟨(by simp : Api.Dbl.fin (-4 : ℚ) ≠ .nan), fun h => h.elim, ?_⟩
  refine .inl ⟨⟨2, [⟨0, none, {0}, 2, 1 / 10, ∅⟩, ⟨0, some 1, ∅, 1, 13 / 50, ∅⟩, ⟨1, none, ∅, 2, 1 / 10, ∅⟩], ∅, 1⟩, false, ⟨DemSession.sampleD_probs, DemSession.sampleD_nodup, by decide +kernel⟩,
    Session.ready_plain (Session.fine_of (by decide +kernel) (by decide +kernel) (by decide +kernel) (by decide +kernel) (by decide +kernel) (by decide +kernel) (by decide +kernel)), fun _ => .inl (by decide), trivial⟩

example := C78_program_int32 _ _ _ loads loads_proper

example : Proper .exact (fun a _ => a) (fun p => if p = 1 / 10 then 2 else 1) (fun _ => True) Net.empty False [.load (.graph heavy (some 7)), .stmt (.look .numFaultIds)] :=
  .inl ⟨⟨2, [], ∅, 7⟩, true, ⟨heavy_nan, by decide +kernel⟩, trivial, fun _ => trivial, trivial⟩

/-- A program that asks with correlations: the model of C81 is loaded without them, which makes the question be refused, then with them; then one that is refused is loaded, which changes
nothing. -/
example : Proper .exact (fun a _ => a) DemRules.easy Net.Small Net.empty False [
    .load (.dem DemRules.three false),
    .stmt (.decode (.d1 [1, 1, 1]) true true),
    .load (.dem DemRules.three true),
    .stmt (.decode (.d1 [1, 1, 1]) true true),
    .load (.dem ⟨[⟨3 / 5, [.det 0]⟩], 1, 0⟩ true),
    .stmt (.decodeToEdgesArray (.d1 [1, 0, 1]) true)] := by
  have hr := DemRules.three_ready
  refine .inl ⟨⟨3, [⟨0, none, {0}, 3, 19 / 50, ∅⟩, ⟨2, some 1, ∅, 3, 1 / 10, ∅⟩, ⟨1, none, ∅, 3, 1 / 4, ∅⟩], ∅, 1⟩, false,
    ⟨by decide +kernel, DemRules.three_nodup, by decide +kernel⟩,
    ⟨Session.fine_of (by decide +kernel) (by decide +kernel) (by decide +kernel) (by decide +kernel) (by decide +kernel) (by decide +kernel) (by decide +kernel), fun _ => by decide +kernel⟩,
    fun _ => .inl (by decide), ?_⟩
  refine .inl ⟨DemRules.threeNet, false, ⟨DemRules.three_nodup, DemRules.three_once, by rw [DemRules.three_net]; rfl⟩, hr, fun _ => .inl (by decide), ?_⟩
  exact .inr ⟨⟨by decide +kernel, by decide +kernel, by decide +kernel⟩, hr, fun _ => .inl (by decide), trivial⟩

end Verif.Props.Programs
