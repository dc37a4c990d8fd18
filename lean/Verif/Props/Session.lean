import Verif.Session
import Verif.Props.ConditionedD
import Verif.Props.PairsD
import Verif.Props.CheckMatrix
import Verif.Props.Syndrome
import Verif.Props.ObsMask

/-!
# C69, C71, C72: programs in Python
-/

namespace Verif.Props.Session

open Verif Verif.SB Verif.UG Verif.Obj Verif.Dbl Verif.ConvD Verif.ObjD Verif.Session
open Verif.Props.UserEdges Verif.Props.UserGraph Verif.Props.Answers Verif.Props.EndToEnd
open Verif.Props.Object Verif.Props.Double Verif.Props.Discretise Verif.Props.DoubleHistory
open Verif.Props.UserGraph (Call)
open Verif.Props.Edges (Completes)
open Verif.Session (Stmt Look Reply EdgeArgs FaultIds run)
open Verif.Sch (Res)
open Verif.Api (strategyOf)

/-! ## Specification -/

/-- A rule for decoding with correlations: a weight for the link between node `a` and node `b`, or the boundary (`none`). -/
structure Rule where
  a : Nat
  b : Option Nat
  weight : ℚ
deriving DecidableEq

/-- A link between node `a` and node `b`, or the boundary (`none`).  `rules`: what follows for other links if this one is part of the explanation (see `choices`). -/
structure Link where
  a : Nat
  b : Option Nat
  faults : Finset Nat
  weight : ℚ
  prob : ℚ
  rules : Finset Rule
deriving DecidableEq

/-- A network: nodes `0, ..., nodes - 1`, some of which are boundary nodes; links; and fault ids `0, ..., ids - 1`. -/
structure Net where
  nodes : Nat
  links : List Link
  boundary : Finset Nat
  ids : Nat

/-- The link has the given ends. -/
def Link.Joins (l : Link) (a : Nat) (b : Option Nat) : Prop := (l.a = a ∧ l.b = b) ∨ (l.b = some a ∧ b = some l.a)

instance (l : Link) (a : Nat) (b : Option Nat) : Decidable (l.Joins a b) := by unfold Link.Joins; infer_instance

/-- The fault ids that an argument stands for; `none`: it stands for nothing. -/
def meant : FaultIds → Option (Finset Nat)
  | .absent => some ∅
  | .int n => if n = -1 then some ∅ else if 0 ≤ n then some {n.toNat} else none
  | .set s => if ∀ x ∈ s, 0 ≤ x then some (s.image Int.toNat) else none

/-- `add_edge` also knows the fault ids under the name `qubit_id`, but not both. -/
def meantBy (a : EdgeArgs) : Option (Finset Nat) :=
  match a.qubitId, a.faultIds with
  | none, f => meant f
  | some q, .absent => meant q
  | some _, _ => none

/-- The number is a probability. -/
def IsProb (p : ℚ) : Prop := 0 ≤ p ∧ p ≤ 1

instance (p : ℚ) : Decidable (IsProb p) := by unfold IsProb; infer_instance

/-- The probability that just one of two independent errors occurs; -1 if the probability of one of them is not known. -/
def oneOfTwo (p q : ℚ) : ℚ := if IsProb p ∧ IsProb q then p * (1 - q) + q * (1 - p) else -1

/-- The link that results if `l` is added where there already is the link `old`. -/
def combine (mergeW : ℚ → ℚ → ℚ) (old l : Link) : Strategy → Link
  | .disallow => old
  | .keepOriginal => old
  | .smallestWeight => if l.weight < old.weight then { old with faults := l.faults, weight := l.weight, prob := l.prob } else old
  | .replace => { old with faults := l.faults, weight := l.weight, prob := l.prob }
  | .independent => { old with weight := mergeW l.weight old.weight, prob := oneOfTwo old.prob l.prob }

/-- Adding a link. -/
def Net.place (mergeW : ℚ → ℚ → ℚ) (N : Net) (l : Link) (s : Strategy) : Net × Reply :=
  if ∃ l' ∈ N.links, l'.Joins l.a l.b then
    if s = .disallow then (N, .raised)
    else ({ N with links := N.links.map fun l' => if l'.Joins l.a l.b then combine mergeW l' l s else l' }, .nothing)
  else ({ N with nodes := max N.nodes (top l.a l.b + 1), links := N.links ++ [l], ids := max N.ids (l.faults.sup (· + 1)) }, .nothing)

/-- Adding a link with the weight and the strategy of the arguments. -/
def Net.add (mergeW : ℚ → ℚ → ℚ) (N : Net) (a : Nat) (b : Option Nat) (faults : Finset Nat) (args : EdgeArgs) : Net × Reply :=
  match args.weight with
  | .fin w =>
    if 2 ^ 24 - 1 < |w| then (N, .warned)
    else
      match strategyOf args.strategy with
      | none => (N, .raised)
      | some s => N.place mergeW ⟨a, b, faults, w, args.prob.getD (-1), ∅⟩ s
  | _ => (N, .warned)

/-- What a statement does to the network, and what it replies (questions: nothing here). -/
def Net.after (mergeW : ℚ → ℚ → ℚ) (N : Net) : Stmt → Net × Reply
  | .addEdge u v args =>
    match meantBy args with
    | none => (N, .raised)
    | some F => if u < 0 ∨ v < 0 then (N, .raised) else N.add mergeW u.toNat (some v.toNat) F args
  | .addBoundaryEdge u args =>
    match meant args.faultIds with
    | none => (N, .raised)
    | some F => if u < 0 then (N, .raised) else N.add mergeW u.toNat none F args
  | .setBoundaryNodes s =>
    if ∀ x ∈ s, 0 ≤ x then ({ N with nodes := max N.nodes ((s.image Int.toNat).sup (· + 1)), boundary := s.image Int.toNat }, .nothing) else (N, .raised)
  | .ensureNumFaultIds n => if 0 ≤ n then ({ N with ids := max N.ids n.toNat }, .nothing) else (N, .raised)
  | _ => (N, .nothing)

/-- A set of links. -/
abbrev Net.Links (N : Net) := Finset (Fin N.links.length)

section
variable {N : Net}

/-- How many chosen links end at `x`. -/
def degreeAt (C : N.Links) (x : Nat) : Nat := ∑ i ∈ C, ((if N.links[i].a = x then 1 else 0) + (if N.links[i].b = some x then 1 else 0))

/-- The links explain the detection events: they end an odd number of times exactly at those nodes, apart from boundary nodes, where there is an event. -/
def Explained (C : N.Links) (fires : Nat → Prop) : Prop := ∀ x, x ∉ N.boundary → (fires x ↔ degreeAt C x % 2 = 1)

/-- The sum of the weights. -/
def cost (C : N.Links) : ℚ := ∑ i ∈ C, N.links[i].weight

/-- How many chosen links have the fault id `k`. -/
def count (C : N.Links) (k : Nat) : Nat := (C.filter fun i => k ∈ N.links[i].faults).card

/-- All weights, also those of the rules. -/
def Net.numbers (N : Net) : Finset ℚ := N.links.toFinset.biUnion fun l => insert l.weight (l.rules.image Rule.weight)

/-- All weights are integers. -/
def Whole (N : Net) : Prop := ∀ w ∈ N.numbers, IsInt w

/-- The rounding step. -/
def StepOf (N : Net) (u : ℚ) : Prop :=
  (Whole N ∧ u = 1) ∨ (¬ Whole N ∧ ∃ m ∈ N.numbers, (∀ w ∈ N.numbers, |w| ≤ |m|) ∧ u = |m| / (2 ^ 24 - 1))

/-- An explanation that no other beats by more than about half a step per link, for the given weights of the links; by nothing at all if all weights are integers. -/
def CheapFor (u : ℚ) (weights : Fin N.links.length → ℚ) (fires : Nat → Prop) (C : N.Links) : Prop :=
  Explained C fires ∧ ∀ C' : N.Links, Explained C' fires →
    ∑ i ∈ C, weights i ≤ ∑ i ∈ C', weights i + (C.card + C'.card : ℕ) * (1 / 2 + 1 / 2 ^ 27) * u ∧ (Whole N → ∑ i ∈ C, weights i ≤ ∑ i ∈ C', weights i)

/-- The same for the weights that the links have. -/
def Cheap (u : ℚ) (fires : Nat → Prop) (C : N.Links) : Prop := CheapFor u (fun i => N.links[i].weight) fires C

/-- The returned weight. -/
def CostsFor (u : ℚ) (weights : Fin N.links.length → ℚ) (C : N.Links) (x : Double) : Prop :=
  ∃ q, x = .num q ∧ |q - ∑ i ∈ C, weights i| ≤ C.card * (1 / 2 + 1 / 2 ^ 25) * u + 1 / 2 ^ 1074 ∧ (Whole N → N.links.length < 2 ^ 29 → q = ∑ i ∈ C, weights i)

/-- A link as `decode_to_edges_array` shows it: boundary nodes and the virtual boundary are all the same. -/
def shown (N : Net) (l : Link) : Sym2 (Option Nat) :=
  s(if l.a ∈ N.boundary then none else some l.a, l.b.bind fun v => if v ∈ N.boundary then none else some v)

/-- The weights that link `j` may have in the second pass if `C` is the explanation found in the first: its own, and those that the rules of the links of `C` have for it.  (Links
from a node to itself, or inside the boundary, do not count.) -/
def choices (N : Net) (C : N.Links) (j : Fin N.links.length) : Set ℚ :=
  {x | x = N.links[j].weight ∨ ∃ i ∈ C, ¬ (shown N N.links[i]).IsDiag ∧ ∃ r ∈ N.links[i].rules, s(some r.a, r.b) = shown N N.links[j] ∧ x = |r.weight|}

/-- The weights for which the answer is the cheapest explanation: those of the links; with correlations, for each link the least of the choices that it has after a first pass. -/
def Weighed (u : ℚ) (fires : Nat → Prop) (corr : Bool) (weights : Fin N.links.length → ℚ) : Prop :=
  if corr then ∃ C : N.Links, Cheap u fires C ∧ ∀ j, IsLeast (choices N C j) (weights j) else ∀ j, weights j = N.links[j].weight

/-- The array tells for each fault id whether an odd number of the links has it. -/
def Tells (C : N.Links) (row : List (BitVec 8)) : Prop :=
  row.length = N.ids ∧ ∀ k, k < N.ids → row[k]? = some (if count C k % 2 = 1 then 1#8 else 0#8)

/-- The array lists the links, each once; links from a node to itself are left out, and so are those inside the boundary. -/
def Lists (es : List (Nat × Option Nat)) (C : N.Links) : Prop :=
  (es.map fun e => s(some e.1, e.2)).Nodup ∧ ∀ z, z ∈ es.map (fun e => s(some e.1, e.2)) ↔ ∃ j ∈ C, ¬ (shown N N.links[j]).IsDiag ∧ shown N N.links[j] = z

end

/-- The one or two events of a pair. -/
def ends (p : Nat × Option Nat) : List Nat := p.1 :: p.2.toList

/-- The pairs contain every event once, apart from those at boundary nodes.  Each pair alone is explained by some links in a cheap way, and together these cost what a cheap
explanation of all events costs, up to about half a step per link; exactly that if all weights are integers. -/
structure Paired {N : Net} (u : ℚ) (fires : Nat → Prop) (rows : List (Nat × Option Nat)) : Prop where
  once : (rows.flatMap ends).Nodup
  all : ∀ x, x ∈ rows.flatMap ends ↔ fires x ∧ x ∉ N.boundary
  each : ∃ D : Nat × Option Nat → N.Links, (∀ p ∈ rows, Cheap u (· ∈ ends p) (D p)) ∧ ∃ C : N.Links, Cheap u fires C ∧
    |cost C - (rows.map fun p => cost (D p)).sum| ≤ ((C.card + (rows.map fun p => (D p).card).sum : ℕ) : ℚ) * (1 / 2 + 1 / 2 ^ 27) * u ∧
    (Whole N → cost C = (rows.map fun p => cost (D p)).sum)

/-- A row of the array: -1 for the boundary. -/
def rowOf (p : Nat × Option Nat) : Int × Int :=
  (p.1, match p.2 with
    | none => -1
    | some b => b)

/-- The dictionary maps the two events of a pair to each other, and an event that is paired with the boundary to `None`. -/
def Mates (rows : List (Nat × Option Nat)) (d : Nat → Option (Option Nat)) : Prop :=
  ∀ a, (d a = some none ↔ (a, none) ∈ rows) ∧ ∀ b, d a = some (some b) ↔ (a, some b) ∈ rows ∨ (b, some a) ∈ rows

/-- Number of detectors. -/
def Net.detectors (N : Net) : Nat := N.nodes - N.boundary.card

/-- The array has a shape that fits the network. -/
def Shaped (N : Net) : Syn.Arr → Prop
  | .d1 z => N.detectors ≤ z.length ∧ z.length ≤ N.detectors + N.boundary.card
  | .d2 r c _ => r * c = N.detectors
  | .other => False

/-- The array has an event at node `x`; two-dimensional arrays are read column by column. -/
def Fires : Syn.Arr → Nat → Prop
  | .d1 z, x => ∃ v, z[x]? = some v ∧ v ≠ 0
  | .d2 r c z, x => ∃ i j, i < r ∧ j < c ∧ x = j * r + i ∧ z i j ≠ 0
  | .other, _ => False

/-- An array of shots has a number of columns that fits the network; `packed`: eight nodes per column. -/
def ShotsShaped (N : Net) (packed : Bool) (cols : Nat) : Prop :=
  if packed then N.detectors ≤ 8 * cols ∧ 8 * cols < N.nodes + 8 else N.detectors ≤ cols ∧ cols ≤ N.nodes

/-- The shot has an event at node `x`. -/
def ShotFires (packed : Bool) (row : List (BitVec 8)) (x : Nat) : Prop :=
  if packed then ∃ b, row[x / 8]? = some b ∧ b.getLsbD (x % 8) = true else ∃ b, row[x]? = some b ∧ b ≠ 0

/-- The row of predictions tells for each fault id whether an odd number of the links has it; `packed`: in one bit. -/
def TellsIn {N : Net} (packed : Bool) (C : N.Links) (out : List (BitVec 8)) : Prop :=
  if packed then out.length = (N.ids + 7) / 8 ∧ ∀ k, k < 8 * out.length → ∃ b, out[k / 8]? = some b ∧ (b.getLsbD (k % 8) = true ↔ k < N.ids ∧ count C k % 2 = 1)
  else Tells C out

/-- The reply to `get_edge_data` or `get_boundary_edge_data`: fault ids, weight and probability of the link. -/
def Data (N : Net) (a : Nat) (b : Option Nat) (r : Reply) : Prop :=
  (∃ l ∈ N.links, l.Joins a b ∧ r = .data l.faults l.weight l.prob) ∨ (r = .raised ∧ ∀ l ∈ N.links, ¬ l.Joins a b)

/-- The number of nodes that are not boundary nodes. -/
def Net.inner (N : Net) : Nat := ((Finset.range N.nodes).filter (· ∉ N.boundary)).card

/-- A number of things. -/
def counted (n : Nat) (thing : String) : String := toString n ++ " " ++ thing ++ (if n = 1 then "" else "s")

/-- What one sees when looking at the object. -/
def Sees (N : Net) : Look → Reply → Prop
  | .hasEdge u v, r => if 0 ≤ u ∧ 0 ≤ v then r = .bool (decide (∃ l ∈ N.links, l.Joins u.toNat (some v.toNat))) else r = .raised
  | .hasBoundaryEdge u, r => if 0 ≤ u then r = .bool (decide (∃ l ∈ N.links, l.Joins u.toNat none)) else r = .raised
  | .getEdgeData u v, r => if 0 ≤ u ∧ 0 ≤ v then Data N u.toNat (some v.toNat) r else r = .raised
  | .getBoundaryEdgeData u, r => if 0 ≤ u then Data N u.toNat none r else r = .raised
  | .edges, r => r = .edgeList (N.links.map fun l => (l.a, l.b, l.faults, l.weight, if IsProb l.prob then l.prob else -1))
  | .boundary, r => r = .nodes N.boundary
  | .numFaultIds, r => r = .number N.ids
  | .numNodes, r => r = .number N.nodes
  | .numEdges, r => r = .number N.links.length
  | .numDetectors, r => r = .number N.inner
  | .repr, r => r = .text ("<pymatching.Matching object with " ++ counted N.inner "detector" ++ ", " ++ counted N.boundary.card "boundary node" ++ ", and " ++
      counted N.links.length "edge" ++ ">")

/-- A reply is right.  `without`: the object was loaded from a detector error model without correlations; then questions with correlations are refused. -/
def Right (mergeW : ℚ → ℚ → ℚ) (without : Bool) (N : Net) : Stmt → Reply → Prop
  | .decode z rw corr, r =>
    (Shaped N z ∧ ¬ (corr = true ∧ without = true) ∧ ∃ u, StepOf N u ∧ ∃ (ρ : _) (C : N.Links) (row : _) (x : _),
      Weighed u (Fires z) corr ρ ∧ CheapFor u ρ (Fires z) C ∧ Tells C row ∧ CostsFor u ρ C x ∧ r = if rw then .pair row x else .array row) ∨
    (r = .raised ∧ (Shaped N z → (corr = true ∧ without = true) ∨ ∀ C : N.Links, ¬ Explained C (Fires z)))
  | .decodeToEdgesArray z corr, r =>
    (Shaped N z ∧ ¬ (corr = true ∧ without = true) ∧ ∃ u, StepOf N u ∧ ∃ (ρ : _) (C : N.Links) (es : _),
      Weighed u (Fires z) corr ρ ∧ CheapFor u ρ (Fires z) C ∧ Lists es C ∧ r = .edges es) ∨
    (r = .raised ∧ (Shaped N z → (corr = true ∧ without = true) ∨ ∀ C : N.Links, ¬ Explained C (Fires z)))
  | .decodeBatch ps pp rw corr cols rows, r =>
    (ShotsShaped N ps cols ∧ (corr = true ∧ without = true → rows = []) ∧ ∃ u, StepOf N u ∧ ∃ outs ws, outs.length = rows.length ∧ ws.length = rows.length ∧
      List.Forall₂ (fun row (y : List (BitVec 8) × Double) => ∃ (ρ : _) (C : N.Links),
        Weighed u (ShotFires ps row) corr ρ ∧ CheapFor u ρ (ShotFires ps row) C ∧ TellsIn pp C y.1 ∧ CostsFor u ρ C y.2) rows (outs.zip ws) ∧
      r = if rw then .rowsAndWeights outs ws else .rows outs) ∨
    (r = .raised ∧ (ShotsShaped N ps cols → (corr = true ∧ without = true) ∨ ∃ row ∈ rows, ∀ C : N.Links, ¬ Explained C (ShotFires ps row)))
  | .matchedArray z, r =>
    (Shaped N z ∧ ∃ u, StepOf N u ∧ ∃ rows, Paired (N := N) u (Fires z) rows ∧ r = .pairs (rows.map rowOf)) ∨
    (r = .raised ∧ (Shaped N z → (∃ l ∈ N.links, l.weight < 0) ∨ ∀ C : N.Links, ¬ Explained C (Fires z)))
  | .matchedDict z, r =>
    (Shaped N z ∧ ∃ u, StepOf N u ∧ ∃ rows d, Paired (N := N) u (Fires z) rows ∧ Mates rows d ∧ r = .mates d) ∨
    (r = .raised ∧ (Shaped N z → (∃ l ∈ N.links, l.weight < 0) ∨ ∀ C : N.Links, ¬ Explained C (Fires z)))
  | .look l, r => Sees N l r
  | s, r => r = (N.after mergeW s).2

/-- The link connects node `x`, which is not a boundary node, to the boundary. -/
def Link.Leaves (N : Net) (x : Nat) (l : Link) : Prop :=
  x ∉ N.boundary ∧ ((l.a = x ∧ (l.b = none ∨ ∃ v, l.b = some v ∧ v ∈ N.boundary)) ∨ (l.b = some x ∧ l.a ∈ N.boundary))

/-- The network may be asked about: fault ids are covered (see C18: replacing a link does not make room for new fault ids), weights are in range, two links
from one node to the boundary do not gain from being taken together, and no link inside the boundary has negative weight (see C49).  Rules are for links between two different nodes
that are not boundary nodes, or between such a node and the boundary. -/
structure Net.Fine (N : Net) : Prop where
  few : N.links.length < 2 ^ 38
  covered : ∀ l ∈ N.links, ∀ k ∈ l.faults, k < N.ids
  le : ∀ w ∈ N.numbers, |w| ≤ 2 ^ 24 - 1
  big : Whole N ∨ ∃ w ∈ N.numbers, 1 / 2 ^ 998 ≤ |w|
  pair : ∀ i j : Fin N.links.length, i ≠ j → ∀ x, N.links[i].Leaves N x → N.links[j].Leaves N x → 0 ≤ N.links[i].weight + N.links[j].weight
  outside : ∀ l ∈ N.links, l.a ∈ N.boundary → (∀ v, l.b = some v → v ∈ N.boundary) → 0 ≤ l.weight
  rules : ∀ l ∈ N.links, ∀ r ∈ l.rules, r.a ∉ N.boundary ∧ (∀ v, r.b = some v → v ∉ N.boundary ∧ v ≠ r.a) ∧ ∃ l' ∈ N.links, l'.Joins r.a r.b ∧ 0 ≤ l'.weight * r.weight

/-- The network may be asked about; with correlations (`corr`), no weight may be negative. -/
def Net.Ready (N : Net) (corr : Bool) : Prop := N.Fine ∧ (corr = true → ∀ l ∈ N.links, 0 ≤ l.weight)

/-- It is a question. -/
def Asks : Stmt → Prop
  | .decode .. => True
  | .decodeBatch .. => True
  | .decodeToEdgesArray .. => True
  | .matchedArray .. => True
  | .matchedDict .. => True
  | _ => False

/-- The condition on a statement: no NaN; `ensure_num_fault_ids` does not raise the number of fault ids while a decoder is cached (`asked`); networks that are asked
about are ready, and arrays of shots have events only at nodes of the network. -/
def Allowed (N : Net) (asked : Prop) : Stmt → Prop
  | .addEdge _ _ a => a.weight ≠ .nan
  | .addBoundaryEdge _ a => a.weight ≠ .nan
  | .setBoundaryNodes _ => True
  | .ensureNumFaultIds n => asked → n ≤ N.ids
  | .look _ => True
  | .decode _ _ corr => N.Ready corr
  | .decodeToEdgesArray _ corr => N.Ready corr
  | .decodeBatch ps _ _ corr _ rows => N.Ready corr ∧ ∀ row ∈ rows, ∀ x, ShotFires ps row x → x < N.nodes
  | _ => N.Fine

/-- The condition on a program.  `asked`: a question was asked, and links and boundary were not changed since. -/
def ProperProgram (mergeW : ℚ → ℚ → ℚ) : Net → Prop → List Stmt → Prop
  | _, _, [] => True
  | N, asked, s :: prog => Allowed N asked s ∧
    ProperProgram mergeW (N.after mergeW s).1 ((Asks s ∨ asked) ∧ (N.after mergeW s).1.links = N.links ∧ (N.after mergeW s).1.boundary = N.boundary) prog

/-- The statements, each with the network at that moment. -/
def moments (mergeW : ℚ → ℚ → ℚ) : Net → List Stmt → List (Net × Stmt)
  | _, [] => []
  | N, s :: prog => (N, s) :: moments mergeW (N.after mergeW s).1 prog

/-- `Matching()`. -/
def Net.empty : Net := ⟨0, [], ∅, 0⟩

/-! ## Lemmas: building -/

/-- What the network keeps of an edge. -/
def toLink (e : UEdge ℚ) : Link := ⟨e.node1, e.node2, e.obs.toFinset, e.weight, e.prob, (e.implied.map fun r => (⟨r.node1, r.node2, r.weight⟩ : Rule)).toFinset⟩

/-- What the network keeps of a graph. -/
def netOf (g : UGraph ℚ) : Net := ⟨g.nodes.length, g.edges.map toLink, g.boundary, g.numObs⟩

/-- The edges list each fault id once. -/
def Clean (g : UGraph ℚ) : Prop := ∀ e ∈ g.edges, e.obs.Nodup

theorem joins_iff (e : UEdge ℚ) (u : Nat) (t : Option Nat) : (toLink e).Joins u t ↔ e.key = key u t := by
  unfold UEdge.key
  rw [← samePair_iff_key]
  unfold Link.Joins samePair toLink
  constructor
  · rintro (⟨h1, h2⟩ | ⟨h1, h2⟩)
    · exact .inl ⟨h1.symm, h2.symm⟩
    · exact .inr ⟨h2, h1⟩
  · rintro (⟨h1, h2⟩ | ⟨h1, h2⟩)
    · exact .inl ⟨h1.symm, h2.symm⟩
    · exact .inr ⟨h2, h1⟩

theorem combine_of (mergeW : ℚ → ℚ → ℚ) {e e' : UEdge ℚ} {u : Nat} {t : Option Nat} {obs : List Nat} (hobs : obs.Nodup) {w p : ℚ} {s : Strategy} {b : Bool}
    (h : mergeData mergeW e obs w p s = some (e', b)) : combine mergeW (toLink e) ⟨u, t, obs.toFinset, w, p, ∅⟩ s = toLink e' ∧ (b = false → e' = e) ∧
      (e.obs.Nodup → e'.obs.Nodup) := by
  cases s with
  | disallow => cases h
  | keepOriginal => cases h; exact ⟨rfl, fun _ => rfl, id⟩
  | smallestWeight =>
    simp only [mergeData] at h
    split at h
    · rename_i hge
      cases h
      refine ⟨?_, fun _ => rfl, id⟩
      show (if w < e.weight then _ else _) = _
      rw [if_neg (not_lt.2 hge)]
    · rename_i hlt
      cases h
      refine ⟨?_, fun h => (by cases h), fun _ => hobs⟩
      show (if w < e.weight then _ else _) = _
      rw [if_pos (not_le.1 hlt)]
      simp [toLink]
  | replace =>
    cases h
    exact ⟨by simp [combine, toLink], fun h => (by cases h), fun _ => hobs⟩
  | independent =>
    cases h
    refine ⟨?_, fun h => (by cases h), id⟩
    simp only [combine, toLink, validProb, Bool.and_eq_true, decide_eq_true_eq]
    congr 1
    show oneOfTwo e.prob p = _
    unfold oneOfTwo
    by_cases h1 : IsProb e.prob ∧ IsProb p
    · have h2 : (0 ≤ e.prob ∧ e.prob ≤ 1) ∧ 0 ≤ p ∧ p ≤ 1 := h1
      rw [if_pos h1, if_pos h2]
      ring
    · have h2 : ¬ ((0 ≤ e.prob ∧ e.prob ≤ 1) ∧ 0 ≤ p ∧ p ≤ 1) := h1
      rw [if_neg h1, if_neg h2]

theorem bump_sup (l : List Nat) : ∀ n : Nat, bumpObs n l = max n (l.toFinset.sup (· + 1)) := by
  induction l with
  | nil => intro n; simp [bumpObs]
  | cons a l ih =>
    intro n
    show bumpObs (if a + 1 > n then a + 1 else n) l = _
    rw [ih, List.toFinset_cons, Finset.sup_insert]
    show max _ _ = max n (max (a + 1) _)
    split <;> omega

/-- Adding an edge does to the network what it should. -/
theorem place_of (mergeW : ℚ → ℚ → ℚ) {g : UGraph ℚ} (hw : WF g) (hc : Clean g) (u : Nat) (t : Option Nat) {obs : List Nat} (hobs : obs.Nodup) (w p : ℚ) (s : Strategy) :
    let r := UserGraph.exec mergeW g (.add u t obs w p s)
    Clean r.1 ∧ (netOf g).place mergeW ⟨u, t, obs.toFinset, w, p, ∅⟩ s = (netOf r.1, if r.2 = true then .nothing else .raised) := by
  intro r
  have hnodes := exec_add_nodes mergeW g u t obs w p s
  have hbnd := CheckMatrix.exec_add_boundary mergeW g u t obs w p s
  rcases add_cases mergeW hw u t obs w p s with ⟨g', h1, h2, h3, h4, h5, -⟩ | ⟨ei, hei, hk, h⟩
  · have e1 : r = (g', true) := h1
    rw [e1]
    rw [h1] at hnodes hbnd
    simp only at hnodes hbnd
    constructor
    · intro e he
      rw [h3, List.mem_append, List.mem_singleton] at he
      rcases he with he | rfl
      · exact hc e he
      · exact hobs
    · have hno : ¬ ∃ l' ∈ (netOf g).links, l'.Joins u t := by
        rintro ⟨l', hl, hj⟩
        obtain ⟨e, he, rfl⟩ := List.mem_map.1 hl
        obtain ⟨i, hi, rfl⟩ := List.getElem_of_mem he
        exact h4 i hi ((joins_iff _ _ _).1 hj)
      unfold Net.place
      rw [if_neg hno]
      simp only [netOf, hnodes, h3, hbnd, h5, bump_sup, List.map_append, List.map_cons, List.map_nil]
      simp [toLink]
  · have hex : ∃ l' ∈ (netOf g).links, l'.Joins u t := ⟨toLink g.edges[ei], List.mem_map_of_mem (List.getElem_mem hei), (joins_iff _ _ _).2 hk⟩
    have hr : r = g.mergeEdge mergeW ei obs w p s := h
    unfold UGraph.mergeEdge at hr
    rw [List.getElem?_eq_getElem hei] at hr
    simp only at hr
    unfold Net.place
    rw [if_pos hex]
    cases hm : mergeData mergeW g.edges[ei] obs w p s with
    | none =>
      have hs : s = .disallow := by
        cases s with
        | disallow => rfl
        | smallestWeight => simp only [mergeData] at hm; split at hm <;> cases hm
        | _ => cases hm
      rw [hm] at hr
      simp only at hr
      rw [hr, if_pos hs]
      exact ⟨hc, rfl⟩
    | some x =>
      obtain ⟨e', b⟩ := x
      have hs : s ≠ .disallow := by rintro rfl; cases hm
      obtain ⟨k1, k2, k3⟩ := combine_of mergeW (u := u) (t := t) hobs hm
      rw [if_neg hs]
      have hset : (g.edges.map toLink).map (fun l' => if l'.Joins u t then combine mergeW l' ⟨u, t, obs.toFinset, w, p, ∅⟩ s else l') = (g.edges.set ei e').map toLink := by
        apply List.ext_getElem
        · simp
        · intro i h1 h2
          simp only [List.getElem_map, List.getElem_set]
          by_cases hi : ei = i
          · subst hi
            rw [if_pos ((joins_iff _ _ _).2 hk), if_pos rfl, k1]
          · rw [if_neg hi, if_neg]
            intro hj
            have := (joins_iff _ _ _).1 hj
            exact hi (hw.uniq ei i hei (by simpa using h1) (hk.trans this.symm))
      have hmem : ∀ e ∈ g.edges.set ei e', e.obs.Nodup := by
        intro e he
        rcases List.mem_or_eq_of_mem_set he with he | rfl
        · exact hc e he
        · exact k3 (hc _ (List.getElem_mem hei))
      rw [hm] at hr
      cases b with
      | false =>
        simp only at hr
        rw [hr]
        rw [k2 rfl, List.set_getElem_self] at hset
        exact ⟨hc, Prod.ext (congrArg (fun l => Net.mk g.nodes.length l g.boundary g.numObs) hset) rfl⟩
      | true =>
        simp only at hr
        rw [hr]
        exact ⟨hmem, Prod.ext (congrArg (fun l => Net.mk g.nodes.length l g.boundary g.numObs) hset) rfl⟩

theorem mark_len (b : List Nat) (nodes : List UNode) : (b.foldl markBoundary nodes).length = max nodes.length (b.toFinset.sup (· + 1)) := by
  induction b generalizing nodes with
  | nil => simp
  | cons a b ih =>
    rw [List.foldl_cons, ih, List.toFinset_cons, Finset.sup_insert]
    have : (markBoundary nodes a).length = max nodes.length (a + 1) := by simp [markBoundary, grow_len]
    rw [this]
    show max _ _ = max _ (max (a + 1) _)
    omega

theorem sizes_of (f : FaultIds) : toSizes (faultSet f) = (meant f).map (·.sort (· ≤ ·)) := by
  cases f with
  | absent => simp [faultSet, meant, toSizes]
  | int n =>
    simp only [faultSet, meant]
    by_cases h : n = -1
    · simp [h, toSizes]
    · rw [if_neg h, if_neg h]
      unfold toSizes
      by_cases h0 : 0 ≤ n
      · rw [if_pos (by simpa using h0), if_pos h0]
        simp
      · rw [if_neg (by simpa using h0), if_neg h0]
        rfl
  | set S =>
    show toSizes S = (meant (.set S)).map _
    simp only [meant, toSizes]
    by_cases h : ∀ x ∈ S, 0 ≤ x
    · rw [if_pos h, if_pos h]; rfl
    · rw [if_neg h, if_neg h]; rfl

theorem sizes_oneOf (a : EdgeArgs) : (match oneOf a.faultIds a.qubitId with | none => none | some ids => toSizes (faultSet ids)) = (meantBy a).map (·.sort (· ≤ ·)) := by
  unfold meantBy
  cases hq : a.qubitId with
  | none => simp only [oneOf]; exact sizes_of _
  | some q =>
    cases hf : a.faultIds with
    | absent => simp only [oneOf]; exact sizes_of _
    | _ => rfl

theorem answer_of (o : ObjectD) (r : UGraph ℚ × Bool) :
    answerOf o (.graph r.1 (if r.2 = true then .returned else .raised)) = some (if r.2 = true then .nothing else .raised, { o with graph := r.1 }) := by
  obtain ⟨r1, b⟩ := r
  cases b <;> rfl

/-- The checks of the C++ part. -/
theorem checked_of (mergeW : ℚ → ℚ → ℚ) {o : ObjectD} (hw : WF o.graph) (hc : Clean o.graph) (u : Nat) (t : Option Nat) (F : Finset Nat) (a : EdgeArgs) (hn : a.weight ≠ .nan) :
    ∃ o', answerOf o (Api.checked o.graph a.weight a.strategy fun x s => UserGraph.exec mergeW o.graph (.add u t (F.sort (· ≤ ·)) x (a.prob.getD (-1)) s)) =
      some (((netOf o.graph).add mergeW u t F a).2, o') ∧ netOf o'.graph = ((netOf o.graph).add mergeW u t F a).1 ∧ Clean o'.graph ∧
      (o' = o ∨ ∃ x s, o' = o.modify mergeW (.add u t (F.sort (· ≤ ·)) x (a.prob.getD (-1)) s)) := by
  unfold Api.checked Net.add
  cases hx : a.weight with
  | nan => exact absurd hx hn
  | inf b => exact ⟨o, rfl, rfl, hc, .inl rfl⟩
  | fin x =>
    have hmax : ((Api.maxUserWeight : ℕ) : ℚ) = 2 ^ 24 - 1 := by norm_num [Api.maxUserWeight]
    have hheavy : Api.tooHeavy (.fin x) = decide (2 ^ 24 - 1 < |x|) := by
      simp only [Api.tooHeavy, hmax]
    rw [hheavy]
    simp only
    by_cases h : (2 ^ 24 - 1 : ℚ) < |x|
    · rw [if_pos (by simpa using h), if_pos h]
      exact ⟨o, rfl, rfl, hc, .inl rfl⟩
    · rw [if_neg (by simpa using h), if_neg h]
      cases hs : strategyOf a.strategy with
      | none => exact ⟨o, rfl, rfl, hc, .inl rfl⟩
      | some s =>
        obtain ⟨k1, k2⟩ := place_of mergeW hw hc u t (obs := F.sort (· ≤ ·)) (Finset.sort_nodup ..) x (a.prob.getD (-1)) s
        rw [Finset.sort_toFinset] at k2
        simp only
        rw [k2]
        refine ⟨o.modify mergeW (.add u t (F.sort (· ≤ ·)) x (a.prob.getD (-1)) s), ?_, rfl, k1, .inr ⟨x, s, rfl⟩⟩
        exact answer_of o _

/-- A statement that is not a question. -/
theorem build_of [W : Width] (mergeW : ℚ → ℚ → ℚ) (f : Nat) {o : ObjectD} (hw : WF o.graph) (hc : Clean o.graph) {s : Stmt} {asked : Prop} (ha : Allowed (netOf o.graph) asked s)
    (hs : ¬ Asks s) (hl : ∀ l, s ≠ .look l) :
    ∃ o', Session.exec mergeW f o s = some (.ok (((netOf o.graph).after mergeW s).2, o')) ∧ netOf o'.graph = ((netOf o.graph).after mergeW s).1 ∧ Clean o'.graph ∧
      (o' = o ∨ ∃ c, o' = o.modify mergeW c ∧ (asked → ∀ n, c = .setMinNumObs n → n ≤ o.graph.numObs)) := by
  cases s with
  | addEdge u v a =>
    simp only [Session.exec, Session.addEdge, Net.after]
    have h := sizes_oneOf a
    cases hm : meantBy a with
    | none =>
      refine ⟨o, ?_, rfl, hc, .inl rfl⟩
      rw [hm] at h
      cases ho : oneOf a.faultIds a.qubitId with
      | none => rfl
      | some ids =>
        rw [ho] at h
        simp only [Option.map_none] at h
        simp only [h]
        rfl
    | some F =>
      rw [hm] at h
      cases ho : oneOf a.faultIds a.qubitId with
      | none => rw [ho] at h; cases h
      | some ids =>
        rw [ho] at h
        simp only [Option.map_some] at h
        simp only [h]
        unfold Api.addEdge
        by_cases hn : u < 0 ∨ v < 0
        · rw [if_pos hn, if_pos hn]
          exact ⟨o, rfl, rfl, hc, .inl rfl⟩
        · rw [if_neg hn, if_neg hn]
          obtain ⟨o', k1, k2, k3, k4⟩ := checked_of mergeW hw hc u.toNat (some v.toNat) F a ha
          refine ⟨o', ?_, k2, k3, ?_⟩
          · exact congrArg (Option.map Res.ok) k1
          · rcases k4 with k4 | ⟨x, s, k4⟩
            · exact .inl k4
            · exact .inr ⟨_, k4, fun _ n hn => (by cases hn)⟩
  | addBoundaryEdge u a =>
    simp only [Session.exec, Session.addBoundaryEdge, Net.after, sizes_of]
    cases hm : meant a.faultIds with
    | none => exact ⟨o, rfl, rfl, hc, .inl rfl⟩
    | some F =>
      simp only [Option.map_some]
      unfold Api.addBoundaryEdge
      by_cases hn : u < 0
      · rw [if_pos hn, if_pos hn]
        exact ⟨o, rfl, rfl, hc, .inl rfl⟩
      · rw [if_neg hn, if_neg hn]
        obtain ⟨o', k1, k2, k3, k4⟩ := checked_of mergeW hw hc u.toNat none F a ha
        refine ⟨o', ?_, k2, k3, ?_⟩
        · exact congrArg (Option.map Res.ok) k1
        · rcases k4 with k4 | ⟨x, s, k4⟩
          · exact .inl k4
          · exact .inr ⟨_, k4, fun _ n hn => (by cases hn)⟩
  | setBoundaryNodes S =>
    simp only [Session.exec, Session.setBoundaryNodes, Net.after, toSizes]
    by_cases h : ∀ x ∈ S, 0 ≤ x
    · rw [if_pos h, if_pos h]
      refine ⟨_, rfl, ?_, hc, .inr ⟨.setBoundary ((S.image Int.toNat).sort (· ≤ ·)), rfl, fun _ n hn => (by cases hn)⟩⟩
      simp [netOf, UGraph.setBoundary, mark_len]
    · rw [if_neg h, if_neg h]
      exact ⟨o, rfl, rfl, hc, .inl rfl⟩
  | ensureNumFaultIds n =>
    simp only [Session.exec, Session.ensureNumFaultIds, Net.after]
    by_cases h : 0 ≤ n
    · rw [if_neg (not_lt.2 h), if_pos h]
      refine ⟨_, rfl, ?_, hc, .inr ⟨.setMinNumObs n.toNat, rfl, ?_⟩⟩
      · simp only [netOf, UGraph.setMinNumObs]
        congr 1
        split <;> omega
      · intro hk m hm
        cases hm
        have := ha hk
        simp only [netOf] at this
        omega
    · rw [if_pos (not_le.1 h), if_neg h]
      exact ⟨o, rfl, rfl, hc, .inl rfl⟩
  | look l => exact absurd rfl (hl l)
  | _ => exact absurd trivial hs

/-- Looking at the object. -/
theorem sees_of {g : UGraph ℚ} (hw : WF g) (hB : Props.Convert.BndOk g) (l : Look) : Sees (netOf g) l (Session.look g l) := by
  have hdata : ∀ u t, Data (netOf g) u t (Session.dataOf (g.getEdge u t)) := by
    intro u t
    cases h : g.getEdge u t with
    | none =>
      refine .inr ⟨rfl, fun l' hl' hj => ?_⟩
      obtain ⟨e, he, rfl⟩ := List.mem_map.1 hl'
      obtain ⟨i, hi, rfl⟩ := List.getElem_of_mem he
      have := (getEdge_iff hw u t _).2 ⟨i, hi, rfl, (joins_iff _ _ _).1 hj⟩
      rw [h] at this
      cases this
    | some e =>
      obtain ⟨i, hi, rfl, hk⟩ := (getEdge_iff hw u t e).1 h
      exact .inl ⟨toLink g.edges[i], List.mem_map_of_mem (List.getElem_mem hi), (joins_iff _ _ _).2 hk, rfl⟩
  have hhas : ∀ u t, g.hasEdge u t = decide (∃ l ∈ (netOf g).links, l.Joins u t) := by
    intro u t
    rw [hasEdge_eq hw, Bool.eq_iff_iff, decide_eq_true_eq]
    rcases hdata u t with ⟨l, hl, hj, h⟩ | ⟨h, hno⟩
    · refine ⟨fun _ => ⟨l, hl, hj⟩, fun _ => ?_⟩
      cases hg : g.getEdge u t with
      | none => rw [hg] at h; cases h
      | some e => rfl
    · refine ⟨fun hs => ?_, fun ⟨l, hl, hj⟩ => absurd hj (hno l hl)⟩
      cases hg : g.getEdge u t with
      | none => rw [hg] at hs; cases hs
      | some e => rw [hg] at h; cases h
  have hdet : g.numDetectors = (netOf g).inner := by
    unfold UGraph.numDetectors Net.inner netOf
    rw [Finset.filter_not, Finset.filter_mem_eq_inter, Finset.inter_eq_right.2 (fun x hx => Finset.mem_range.2 (hB.1 _ hx)), Finset.card_sdiff_of_subset
      (fun x hx => Finset.mem_range.2 (hB.1 _ hx)), Finset.card_range]
  have hcnt : ∀ n s, counted n s = toString n ++ " " ++ s ++ Session.plural n := by
    intro n s
    unfold counted Session.plural
    by_cases h : n = 1 <;> simp [h]
  cases l with
  | hasEdge u v =>
    simp only [Sees, Session.look]
    by_cases h : u < 0 ∨ v < 0
    · rw [if_pos h, if_neg (by omega)]
    · rw [if_neg h, if_pos (by omega), hhas]
  | hasBoundaryEdge u =>
    simp only [Sees, Session.look]
    by_cases h : u < 0
    · rw [if_pos h, if_neg (by omega)]
    · rw [if_neg h, if_pos (by omega), hhas]
  | getEdgeData u v =>
    simp only [Sees, Session.look]
    by_cases h : u < 0 ∨ v < 0
    · rw [if_pos h, if_neg (by omega)]
    · rw [if_neg h, if_pos (by omega)]
      exact hdata _ _
  | getBoundaryEdgeData u =>
    simp only [Sees, Session.look]
    by_cases h : u < 0
    · rw [if_pos h, if_neg (by omega)]
    · rw [if_neg h, if_pos (by omega)]
      exact hdata _ _
  | edges =>
    simp only [Sees, Session.look, netOf, List.map_map]
    congr 1
    refine List.map_congr_left fun e _ => ?_
    simp only [Function.comp]
    by_cases h : e.prob < 0 ∨ e.prob > 1
    · have hn : ¬ IsProb (toLink e).prob := by
        rintro ⟨h1, h2⟩
        simp only [toLink] at h1 h2
        rcases h with h | h <;> linarith
      rw [if_pos h, if_neg hn]
      rfl
    · have hp : IsProb (toLink e).prob := by
        push Not at h
        exact h
      rw [if_neg h, if_pos hp]
      rfl
  | numDetectors => simp only [Sees, Session.look, hdet]
  | numEdges => simp [Sees, Session.look, netOf]
  | repr =>
    have he : (netOf g).links.length = g.edges.length := by simp [netOf]
    simp only [Sees, Session.look, hcnt, ← hdet, he]
    simp only [netOf, String.append_assoc]
    rfl
  | _ => rfl

/-! ## Lemmas: sets of links -/

section
variable {g : UGraph ℚ}

/-- The links of the network are the edges of the graph. -/
def same (g : UGraph ℚ) : Fin g.edges.length ≃ Fin (netOf g).links.length := finCongr (by simp [netOf])

theorem link_at (i : Fin g.edges.length) : (netOf g).links[same g i] = toLink g.edges[i] := by
  simp only [netOf, Fin.getElem_fin, List.getElem_map]
  rfl

/-- The set of links of a set of edges. -/
def up (C : Choice g) : (netOf g).Links := C.map (same g).toEmbedding

theorem up_surj (D : (netOf g).Links) : ∃ C : Choice g, up C = D := by
  refine ⟨D.map (same g).symm.toEmbedding, ?_⟩
  unfold up
  rw [Finset.map_map]
  convert Finset.map_refl
  ext
  simp

theorem up_card (C : Choice g) : (up C).card = C.card := Finset.card_map _

theorem up_degree (C : Choice g) (x : Nat) : degreeAt (up C) x = EndToEnd.degree C x := by
  unfold degreeAt up EndToEnd.degree
  rw [Finset.sum_map]
  refine Finset.sum_congr rfl fun i _ => ?_
  show (if (netOf g).links[same g i].a = x then 1 else 0) + (if (netOf g).links[same g i].b = some x then 1 else 0) = _
  rw [link_at]
  rfl

theorem up_cost (C : Choice g) : cost (up C) = trueWeight C := by
  unfold cost up trueWeight
  rw [Finset.sum_map]
  refine Finset.sum_congr rfl fun i _ => ?_
  show (netOf g).links[same g i].weight = _
  rw [link_at]
  rfl

theorem up_count (hc : Clean g) (C : Choice g) (k : Nat) : count (up C) k = EndToEnd.crossed C k := by
  unfold count up EndToEnd.crossed
  rw [Finset.card_filter, Finset.sum_map]
  refine Finset.sum_congr rfl fun i _ => ?_
  show (if k ∈ (netOf g).links[same g i].faults then 1 else 0) = _
  rw [link_at]
  have hn := hc g.edges[i] (List.getElem_mem _)
  show (if k ∈ g.edges[i].obs.toFinset then 1 else 0) = _
  by_cases h : k ∈ g.edges[i].obs
  · rw [if_pos (List.mem_toFinset.2 h), List.count_eq_one_of_mem hn h]
  · rw [if_neg (fun h' => h (List.mem_toFinset.1 h')), List.count_eq_zero_of_not_mem h]

theorem up_explained (C : Choice g) {fires : Nat → Prop} {events : List Nat} (h : ∀ x, x ∈ events ↔ fires x) : Explained (up C) fires ↔ EndToEnd.Explains C events := by
  unfold Explained EndToEnd.Explains
  refine forall_congr' fun x => ?_
  rw [up_degree, ← h]
  rfl

theorem weights_of (g : UGraph ℚ) (w : ℚ) : w ∈ (netOf g).numbers ↔ w ∈ allWeights g := by
  unfold Net.numbers allWeights netOf
  simp [toLink, eq_comm]

theorem whole_iff : Whole (netOf g) ↔ ∀ w ∈ allWeights g, IsInt w := by
  unfold Whole
  simp only [weights_of]

theorem step_up {u : ℚ} (h : Step g u) : StepOf (netOf g) u := by
  unfold StepOf
  simp only [whole_iff, weights_of]
  rcases h with h | ⟨⟨w, hw, hi⟩, h⟩
  · exact .inl h
  · exact .inr ⟨fun h => hi (h w hw), h⟩

/-- The weights of the links, for weights of the edges. -/
def over (ρ : Fin g.edges.length → ℚ) (j : Fin (netOf g).links.length) : ℚ := ρ ((same g).symm j)

theorem over_same (ρ : Fin g.edges.length → ℚ) (i : Fin g.edges.length) : over ρ (same g i) = ρ i := by
  unfold over
  rw [Equiv.symm_apply_apply]

theorem over_sum (ρ : Fin g.edges.length → ℚ) (C : Choice g) : ∑ j ∈ up C, over ρ j = ∑ i ∈ C, ρ i := by
  unfold up
  rw [Finset.sum_map]
  exact Finset.sum_congr rfl fun i _ => over_same ρ i

theorem over_own : over (fun i : Fin g.edges.length => g.edges[i].weight) = fun j => (netOf g).links[j].weight := by
  funext j
  obtain ⟨i, rfl⟩ := (same g).surjective j
  rw [over_same, link_at]
  rfl

theorem cheapFor_up {u : ℚ} {fires : Nat → Prop} {events : List Nat} (he : ∀ x, x ∈ events ↔ fires x) {ρ : Fin g.edges.length → ℚ} {C : Choice g}
    (h : ConditionedD.GoodFor u ρ events C) : CheapFor u (over ρ) fires (up C) := by
  refine ⟨(up_explained C he).2 h.1, fun D hD => ?_⟩
  obtain ⟨C', rfl⟩ := up_surj D
  obtain ⟨h1, h2⟩ := h.2 C' ((up_explained C' he).1 hD)
  rw [over_sum, over_sum, up_card, up_card, whole_iff]
  exact ⟨h1, h2⟩

theorem cheap_up {u : ℚ} {fires : Nat → Prop} {events : List Nat} (he : ∀ x, x ∈ events ↔ fires x) {C : Choice g} (h : Good u events C) :
    Cheap u fires (up C) := by
  unfold Cheap
  rw [← over_own]
  exact cheapFor_up he h

theorem choices_up (C : Choice g) (i : Fin g.edges.length) : choices (netOf g) (up C) (same g i) = ConditionedD.optionsD g C i := by
  ext x
  unfold choices ConditionedD.optionsD
  simp only [Set.mem_ofPred_eq]
  rw [link_at]
  refine or_congr Iff.rfl ⟨?_, ?_⟩
  · rintro ⟨j, hj, h1, r, hr, h2, h3⟩
    obtain ⟨k, hk, rfl⟩ := Finset.mem_map.1 hj
    change ¬ (shown (netOf g) (netOf g).links[same g k]).IsDiag at h1
    change r ∈ ((netOf g).links[same g k]).rules at hr
    rw [link_at] at h1 hr
    obtain ⟨r', hr', rfl⟩ := List.mem_map.1 (List.mem_toFinset.1 hr)
    exact ⟨k, hk, h1, r', hr', h2, h3⟩
  · rintro ⟨k, hk, h1, r, hr, h2, h3⟩
    refine ⟨same g k, Finset.mem_map_of_mem _ hk, ?_, ⟨r.node1, r.node2, r.weight⟩, ?_, h2, h3⟩
    · rw [link_at]; exact h1
    · rw [link_at]; exact List.mem_toFinset.2 (List.mem_map.2 ⟨r, hr, rfl⟩)

theorem weighed_up {u : ℚ} {fires : Nat → Prop} {events : List Nat} (he : ∀ x, x ∈ events ↔ fires x) {ρ : Fin g.edges.length → ℚ} {C : Choice g} (h : Good u events C)
    (hρ : ConditionedD.SecondD g C ρ) : Weighed u fires true (over ρ) := by
  unfold Weighed
  rw [if_pos rfl]
  refine ⟨up C, cheap_up he h, fun j => ?_⟩
  obtain ⟨i, rfl⟩ := (same g).surjective j
  rw [choices_up, over_same]
  exact hρ i

theorem tells_up (hc : Clean g) {C : Choice g} {row : List (BitVec 8)} (h : Says C row) : Tells (up C) row := by
  refine ⟨h.1, fun k hk => ?_⟩
  rw [up_count hc]
  exact h.2 k hk

theorem costsFor_up {u : ℚ} {ρ : Fin g.edges.length → ℚ} {C : Choice g} {x : Double} (h : ConditionedD.CloseFor u ρ C x) : CostsFor u (over ρ) (up C) x := by
  obtain ⟨q, h1, h2, h3⟩ := h
  refine ⟨q, h1, by rw [over_sum, up_card]; exact h2, fun hw hl => ?_⟩
  rw [over_sum]
  exact h3 (whole_iff.1 hw) (by simpa [netOf] using hl)

theorem costs_up {u : ℚ} {C : Choice g} {x : Double} (h : CloseTo u C x) : CostsFor u (fun j => (netOf g).links[j].weight) (up C) x := by
  rw [← over_own]
  exact costsFor_up h

theorem none_up {fires : Nat → Prop} {events : List Nat} (he : ∀ x, x ∈ events ↔ fires x) (h : ∀ C : Choice g, ¬ EndToEnd.Explains C events) (D : (netOf g).Links) :
    ¬ Explained D fires := by
  obtain ⟨C, rfl⟩ := up_surj D
  rw [up_explained C he]
  exact h C

theorem lists_up {es : List (Nat × Option Nat)} {C : Choice g} (h : Returned es C) : Lists es (up C) := by
  refine ⟨h.1, fun z => (h.2 z).trans ?_⟩
  constructor
  · rintro ⟨j, hj, h1, h2⟩
    refine ⟨same g j, Finset.mem_map_of_mem _ hj, ?_, ?_⟩
    · rw [link_at]; exact h1
    · rw [link_at]; exact h2
  · rintro ⟨j, hj, h1, h2⟩
    obtain ⟨i, hi, rfl⟩ := Finset.mem_map.1 hj
    change ¬ (shown (netOf g) (netOf g).links[same g i]).IsDiag at h1
    change shown (netOf g) (netOf g).links[same g i] = z at h2
    rw [link_at] at h1 h2
    exact ⟨i, hi, h1, h2⟩

theorem fine_usable (hw : WF g) (h : (netOf g).Fine) : Usable g where
  rules := fun e he i hi => by
    obtain ⟨-, -, l', hl', hj, h0⟩ := h.rules (toLink e) (List.mem_map_of_mem he) ⟨i.node1, i.node2, i.weight⟩ (List.mem_toFinset.2 (List.mem_map.2 ⟨i, hi, rfl⟩))
    obtain ⟨e', he', rfl⟩ := List.mem_map.1 hl'
    obtain ⟨n, hn, rfl⟩ := List.getElem_of_mem he'
    exact ⟨g.edges[n], (getEdge_iff hw _ _ _).2 ⟨n, hn, rfl, (joins_iff _ _ _).1 hj⟩, h0⟩
  le := fun w hw => h.le w ((weights_of g w).2 hw)
  big := by
    have := h.big
    simpa only [whole_iff, weights_of] using this

theorem fine_targeted (h : (netOf g).Fine) : Buildable.Targeted g := by
  intro e he r hr
  obtain ⟨h1, h2, l', hl', hj, -⟩ := h.rules (toLink e) (List.mem_map_of_mem he) ⟨r.node1, r.node2, r.weight⟩ (List.mem_toFinset.2 (List.mem_map.2 ⟨r, hr, rfl⟩))
  obtain ⟨e', he', rfl⟩ := List.mem_map.1 hl'
  exact ⟨h1, h2, e', he', (joins_iff _ _ _).1 hj⟩

theorem fine_covered (h : (netOf g).Fine) : Covered g := fun e he k hk =>
  h.covered (toLink e) (List.mem_map_of_mem he) k (List.mem_toFinset.2 hk)

theorem fine_noGain (h : (netOf g).Fine) : NoGain g where
  pair := by
    intro i j hij u hi hj
    have := h.pair (same g i) (same g j) (fun e => hij ((same g).injective e)) u
    rw [link_at, link_at] at this
    exact this hi hj
  outside := fun i hi => h.outside (toLink g.edges[i]) (List.mem_map_of_mem (List.getElem_mem _)) hi.1 hi.2

theorem shaped_iff (hB : Props.Convert.BndOk g) (z : Syn.Arr) :
    (Syn.toEvents g.numDetectors g.boundary.card z = none ∧ ¬ Shaped (netOf g) z) ∨
    ∃ events, Syn.toEvents g.numDetectors g.boundary.card z = some events ∧ Shaped (netOf g) z ∧ EventsOk g events ∧ ∀ x, x ∈ events ↔ Fires z x := by
  have hcard : g.numDetectors + g.boundary.card = g.nodes.length := by
    have hsub : g.boundary ⊆ Finset.range g.nodes.length := fun x hx => Finset.mem_range.2 (hB.1 x hx)
    have := Finset.card_le_card hsub
    rw [Finset.card_range] at this
    unfold UGraph.numDetectors
    omega
  cases z with
  | other => exact .inl ⟨rfl, id⟩
  | d1 z =>
    obtain ⟨h1, h2⟩ := Syndrome.C37_one_dim g.numDetectors g.boundary.card z
    cases he : Syn.toEvents g.numDetectors g.boundary.card (.d1 z) with
    | none => exact .inl ⟨rfl, h1.1 he⟩
    | some events =>
      obtain ⟨k1, k2⟩ := h2 events he
      have hsh : g.numDetectors ≤ z.length ∧ z.length ≤ g.numDetectors + g.boundary.card := by
        by_contra h
        rw [h1.2 h] at he
        cases he
      refine .inr ⟨events, rfl, hsh, ⟨k1.imp fun h => Nat.ne_of_lt h, fun d hd => ?_⟩, k2⟩
      obtain ⟨x, hx, -⟩ := (k2 d).1 hd
      have := (List.getElem?_eq_some_iff.1 hx).1
      omega
  | d2 r c z =>
    obtain ⟨h1, h2⟩ := Syndrome.C37_two_dim g.numDetectors g.boundary.card r c z
    cases he : Syn.toEvents g.numDetectors g.boundary.card (.d2 r c z) with
    | none => exact .inl ⟨rfl, h1.1 he⟩
    | some events =>
      obtain ⟨k1, k2, k3⟩ := h2 events he
      have hsh : r * c = g.numDetectors := by
        by_contra h
        rw [h1.2 h] at he
        cases he
      refine .inr ⟨events, rfl, hsh, ⟨k1.imp fun h => Nat.ne_of_lt h, fun d hd => ?_⟩, fun x => ?_⟩
      · have := k2 d hd
        omega
      · constructor
        · intro hx
          have hlt : x < r * c := by rw [hsh]; exact k2 x hx
          have hr : 0 < r := Nat.pos_of_ne_zero (by rintro rfl; simp at hlt)
          have e : x = x / r * r + x % r := by rw [Nat.mul_comm]; exact (Nat.div_add_mod x r).symm
          have hi := Nat.mod_lt x hr
          have hj : x / r < c := Nat.div_lt_of_lt_mul hlt
          exact ⟨x % r, x / r, hi, hj, e, (k3 _ _ hi hj).1 (by rw [← e]; exact hx)⟩
        · rintro ⟨i, j, hi, hj, rfl, h⟩
          exact (k3 i j hi hj).2 h

end

/-! ## Lemmas: programs -/

theorem shots_iff (g : UGraph ℚ) (ps : Bool) (cols : Nat) : ShotsShaped (netOf g) ps cols ↔ Obs.shapeOk ps cols g.numDetectors g.nodes.length = true := by
  unfold ShotsShaped Obs.shapeOk Net.detectors netOf UGraph.numDetectors
  cases ps <;> simp [Obs.numBytes, Obs.shiftRight3] <;> omega

theorem fires_iff (ps : Bool) (row : List (BitVec 8)) (x : Nat) : x ∈ readRow ps row ↔ ShotFires ps row x := by
  cases ps
  · exact (ObsMask.C34_unpacked_events row).1 x
  · exact (ObsMask.C34_packed_events row).1 x

theorem tells_in {N : Net} {C : N.Links} {row out : List (BitVec 8)} {pp : Bool} (h : Tells C row) (hs : Stored pp row out) : TellsIn pp C out := by
  cases pp
  · rw [show out = row from hs]
    exact h
  · have hbits : ObsMask.IsBits row := by
      intro b hb
      obtain ⟨k, hk, rfl⟩ := List.getElem_of_mem hb
      have := h.2 k (h.1 ▸ hk)
      rw [List.getElem?_eq_getElem hk, Option.some_inj] at this
      rw [this]
      split
      · exact .inr rfl
      · exact .inl rfl
    obtain ⟨out', h1, h2, h3⟩ := ObsMask.C34_packed_predictions row hbits
    have e : Obs.packRow row = some out := hs
    rw [h1, Option.some_inj] at e
    subst e
    refine ⟨by rw [h2, h.1], fun k hk => ?_⟩
    obtain ⟨b, hb, hiff⟩ := h3 k hk
    refine ⟨b, hb, hiff.trans ?_⟩
    by_cases hlt : k < N.ids
    · rw [h.2 k hlt]
      by_cases ho : count C k % 2 = 1
      · simp [hlt, ho]
      · simp [ho]
    · rw [List.getElem?_eq_none (by rw [h.1]; omega)]
      simp [hlt]

theorem rows_in {N : Net} {u : ℚ} {ps pp corr : Bool} {raws outs : List (List (BitVec 8))} (h : List.Forall₂ (Stored pp) raws outs) : ∀ {rows : List (List (BitVec 8))} {ws : List Double},
    List.Forall₂ (fun row (y : List (BitVec 8) × Double) => ∃ (ρ : _) (C : N.Links), Weighed u (ShotFires ps row) corr ρ ∧ CheapFor u ρ (ShotFires ps row) C ∧ Tells C y.1 ∧ CostsFor u ρ C y.2) rows (raws.zip ws) →
    List.Forall₂ (fun row (y : List (BitVec 8) × Double) => ∃ (ρ : _) (C : N.Links), Weighed u (ShotFires ps row) corr ρ ∧ CheapFor u ρ (ShotFires ps row) C ∧ TellsIn pp C y.1 ∧ CostsFor u ρ C y.2) rows (outs.zip ws) := by
  induction h with
  | nil => intro rows ws h; cases h; exact .nil
  | cons h1 h2 ih =>
    intro rows ws h
    cases ws with
    | nil => cases h; exact .nil
    | cons w ws =>
      cases h with
      | cons k1 k2 =>
        obtain ⟨ρ, C, c0, c1, c2, c3⟩ := k1
        exact .cons ⟨ρ, C, c0, c1, tells_in c2 h1, c3⟩ (ih k2)

/-- The object stands for the network; `without`: it was loaded without correlations. -/
structure Stands (N : Net) (without : Bool) (asked : Prop) (g : UGraph ℚ) (o : ObjectD) : Prop where
  wf : WF g
  bnd : Props.Convert.BndOk g
  clean : Clean g
  net : netOf g = N
  inv : InvD g without o
  flag : o.graph.needsUpdating = false → asked

theorem stands_new : Stands Net.empty false False (UGraph.new 0 0) Session.new :=
  ⟨wf_new 0 0, Props.Convert.bndOk_new 0 0, fun e he => (by cases he), rfl, invD_of _ _, fun h => by cases h⟩

theorem netOf_but {g g' : UGraph ℚ} (h : SameBut g g') : netOf g' = netOf g ∧ (Clean g' ↔ Clean g) ∧ (WF g' ↔ WF g) := by
  obtain ⟨b, rfl⟩ := h
  exact ⟨rfl, Iff.rfl, ⟨fun h => ⟨h.fwd1, h.fwd2, h.back, h.uniq⟩, fun h => ⟨h.fwd1, h.fwd2, h.back, h.uniq⟩⟩⟩

/-- The question that a statement asks. -/
def queryOf (g : UGraph ℚ) : Stmt → Option Query
  | .decode z _ corr => (Syn.toEvents g.numDetectors g.boundary.card z).map (.decode corr)
  | .decodeBatch ps pp _ corr cols rows => some (.batch ps pp corr cols rows)
  | .decodeToEdgesArray z corr => (Syn.toEvents g.numDetectors g.boundary.card z).map (.edges corr)
  | .matchedArray z => (Syn.toEvents g.numDetectors g.boundary.card z).map .pairs
  | .matchedDict z => (Syn.toEvents g.numDetectors g.boundary.card z).map .pairs
  | _ => none

theorem askable_of {g : UGraph ℚ} (hw : WF g) (hB : Props.Convert.BndOk g) (hf : (netOf g).Fine) {wo : Bool} {q : Query} (ha : correlations q = true → NonNeg g)
    (hq : ∀ c, Fits (intGraph c g) wo q) : AskableD g wo q :=
  ⟨fine_usable hw hf, C65_builds_rules hw hB (fine_covered hf) (fine_usable hw hf) (fine_targeted hf) wo, fine_covered hf, fun c _ => hq c, ha⟩

theorem nonneg_of {g : UGraph ℚ} (h : ∀ l ∈ (netOf g).links, 0 ≤ l.weight) : NonNeg g := fun e he => h (toLink e) (List.mem_map_of_mem he)

/-- A question about a fine network. -/
theorem question_first [W : Width] {g : UGraph ℚ} {o : ObjectD} {N : Net} {wo : Bool} {asked : Prop} (hs : Stands N wo asked g o) (hf : N.Fine) {q : Query}
    (ha : correlations q = true → NonNeg g) (hq : ∀ c, Fits (intGraph c g) wo q) (hone : ∀ k c, Const g k c → AskOne (intGraph c g) wo q) :
    ∃ a o', Completes (fun f => o.ask f q) (.ok (a, o')) ∧ Stands N wo True g o' ∧ FirstAnswer g wo q a := by
  obtain ⟨hw, hB, hc, rfl, hi, -⟩ := hs
  have hA := askable_of hw hB hf ha hq
  obtain ⟨k, c, h⟩ := const_of hA.usable.rules hA.usable.le hA.usable.big
  obtain ⟨a, o1, c1, hi1, hfr, hfr'⟩ := askD_one hw hB hA.covered h hA.builds (hone k c h) hi
  exact ⟨_, o1, c1, ⟨hw, hB, hc, rfl, hi1, fun _ => trivial⟩, ask_int hw hB hA.covered h hA.builds hfr, k, c, a, h, askable_int hA h, hfr', rfl⟩

theorem few_of {g : UGraph ℚ} (hf : (netOf g).Fine) : g.edges.length < 2 ^ 38 := by
  have := hf.few
  simpa [netOf] using this

/-- The answer to a question with or without correlations. -/
def MeansB (g : UGraph ℚ) (wo corr : Bool) (q : Query) (a : Answer Double) : Prop :=
  if corr then ConditionedD.MeantD g wo q a else ∃ u, Step g u ∧ MeansD g u q a

theorem question_of [W : Width] {g : UGraph ℚ} {o : ObjectD} {N : Net} {wo : Bool} {asked : Prop} (hs : Stands N wo asked g o) {corr : Bool} (hf : N.Ready corr) {q : Query}
    (ha : About corr q) (hq : ∀ c, Fits (intGraph c g) wo q) (hone : ∀ k c, Const g k c → AskOne (intGraph c g) wo q) :
    ∃ a o', Completes (fun f => o.ask f q) (.ok (a, o')) ∧ Stands N wo True g o' ∧ MeansB g wo corr q a := by
  obtain ⟨hf, hpos⟩ := hf
  have hcorr : correlations q = corr := by cases q <;> first | exact ha | cases ha
  obtain ⟨a, o1, c1, h1, h2⟩ := question_first hs hf (q := q) (fun h => nonneg_of (by rw [hs.net]; exact hpos (hcorr ▸ h))) hq hone
  obtain ⟨hw, hB, hc, rfl, hi, -⟩ := hs
  refine ⟨a, o1, c1, h1, ?_⟩
  unfold MeansB
  cases corr with
  | true =>
    rw [if_pos rfl]
    exact ConditionedD.meant_first hw hB h2 ha (few_of hf)
  | false =>
    rw [if_neg (by decide)]
    exact means_first hw hB h2 ha (fine_noGain hf) (few_of hf)

theorem question_pairs [W : Width] {g : UGraph ℚ} {o : ObjectD} {N : Net} {wo : Bool} {asked : Prop} (hs : Stands N wo asked g o) (hf : N.Fine) {events : List Nat}
    (hq : ∀ c, Fits (intGraph c g) wo (.pairs events)) (hone : ∀ k c, Const g k c → AskOne (intGraph c g) wo (.pairs events)) :
    ∃ a o', Completes (fun f => o.ask f (.pairs events)) (.ok (a, o')) ∧ Stands N wo True g o' ∧ ∃ u, Step g u ∧ PairsD.MeansPairsD g u events a := by
  obtain ⟨a, o1, c1, h1, h2⟩ := question_first hs hf (q := .pairs events) (fun h => by cases h) hq hone
  obtain ⟨hw, hB, hc, rfl, hi, -⟩ := hs
  exact ⟨a, o1, c1, h1, PairsD.pairs_first hw hB h2 (fine_noGain hf)⟩

theorem completes_ask [W : Width] {o : ObjectD} {q : Query} {a : Answer Double} {o' : ObjectD} (h : Completes (fun f => o.ask f q) (.ok (a, o'))) (rw : Bool) :
    Completes (fun f => Session.ask o f q rw) (.ok (valueOf rw a, o')) := by
  obtain ⟨f0, h⟩ := h
  refine ⟨f0, fun f hf => ?_⟩
  have := h f hf
  simp only at this
  simp only [Session.ask, this]

/-- The pair of a row. -/
def pairOf (e : CE.CompressedEdge) : Nat × Option Nat := (e.locFrom.getD 0, e.locTo)

theorem ends_of {e : CE.CompressedEdge} (h : e.locFrom.isSome) : ends (pairOf e) = Pairs.partners e := by
  obtain ⟨a, ha⟩ := Option.isSome_iff_exists.1 h
  simp [ends, pairOf, Pairs.partners, ha]

theorem flat_ends {ps : List CE.CompressedEdge} (h : ∀ e ∈ ps, e.locFrom.isSome) : (ps.map pairOf).flatMap ends = ps.flatMap Pairs.partners := by
  induction ps with
  | nil => rfl
  | cons e ps ih =>
    rw [List.map_cons, List.flatMap_cons, List.flatMap_cons, ends_of (h e (by simp)), ih fun e he => h e (by simp [he])]

/-- Rows with the same ends are the same row. -/
theorem same_row {ps : List CE.CompressedEdge} (h : ∀ e ∈ ps, e.locFrom.isSome) (hn : (ps.flatMap Pairs.partners).Nodup) {e e' : CE.CompressedEdge} (he : e ∈ ps) (he' : e' ∈ ps)
    (hp : pairOf e = pairOf e') : e = e' := by
  induction ps with
  | nil => cases he
  | cons a ps ih =>
    rw [List.flatMap_cons, List.nodup_append'] at hn
    have key : ∀ {x y}, x ∈ a :: ps → y ∈ ps → x = a → pairOf x = pairOf y → False := by
      rintro x y hx hy rfl hxy
      obtain ⟨v, hv⟩ := Option.isSome_iff_exists.1 (h x (by simp))
      have h1 : v ∈ Pairs.partners x := by simp [Pairs.partners, hv]
      have h2 : v ∈ Pairs.partners y := by
        rw [← ends_of (h y (by simp [hy])), ← hxy, ends_of (h x (by simp))]
        exact h1
      exact hn.2.2 h1 (List.mem_flatMap.2 ⟨y, hy, h2⟩)
    rcases List.mem_cons.1 he with e1 | e1 <;> rcases List.mem_cons.1 he' with e2 | e2
    · rw [e1, e2]
    · exact (key he e2 e1 hp).elim
    · exact (key he' e1 e2 hp.symm).elim
    · exact ih (fun e he => h e (by simp [he])) hn.2.1 e1 e2

theorem paired_up {g : UGraph ℚ} {u : ℚ} {fires : Nat → Prop} {events : List Nat} (he : ∀ x, x ∈ events ↔ fires x) {ps : List CE.CompressedEdge}
    (h : PairsD.MatchedD g u events ps) : Paired (N := netOf g) u fires (ps.map pairOf) := by
  classical
  obtain ⟨h1, h2, h3, D, hD, C, hC, hs1, hs2⟩ := h
  have hflat := flat_ends h3
  -- the explanation of a pair
  have hP : ∃ E : Nat × Option Nat → Choice g, ∀ e ∈ ps, E (pairOf e) = D e := by
    refine ⟨fun p => if hp : ∃ e ∈ ps, pairOf e = p then D hp.choose else ∅, fun e he => ?_⟩
    have hp : ∃ e' ∈ ps, pairOf e' = pairOf e := ⟨e, he, rfl⟩
    simp only
    rw [dif_pos hp, same_row h3 h1 hp.choose_spec.1 he hp.choose_spec.2]
  obtain ⟨E, hE⟩ := hP
  have m1 : ((ps.map pairOf).map fun p => cost (up (E p))) = ps.map fun e => trueWeight (D e) := by
    rw [List.map_map]
    exact List.map_congr_left fun e he => by simp only [Function.comp, hE e he, up_cost]
  have m2 : ((ps.map pairOf).map fun p => (up (E p)).card) = ps.map fun e => (D e).card := by
    rw [List.map_map]
    exact List.map_congr_left fun e he => by simp only [Function.comp, hE e he, up_card]
  refine ⟨by rw [hflat]; exact h1, fun x => ?_, fun p => up (E p), ?_, up C, cheap_up he hC, ?_, ?_⟩
  · rw [hflat, h2 x, he]
    rfl
  · intro p hp
    obtain ⟨e, hee, rfl⟩ := List.mem_map.1 hp
    simp only [hE e hee]
    exact cheap_up (fun x => by rw [ends_of (h3 e hee)]) (hD e hee)
  · rw [m1, m2, up_cost, up_card]
    exact hs1
  · intro hW
    rw [m1, up_cost]
    exact hs2 (whole_iff.1 hW)

theorem array_of {ps : List CE.CompressedEdge} (h : ∀ e ∈ ps, e.locFrom.isSome) : SB.matchedArray ps = some ((ps.map pairOf).map rowOf) := by
  induction ps with
  | nil => rfl
  | cons e ps ih =>
    obtain ⟨a, ha⟩ := Option.isSome_iff_exists.1 (h e (by simp))
    simp only [SB.matchedArray, ha, ih fun e he => h e (by simp [he]), Option.map_some, List.map_cons, pairOf, rowOf, Option.getD_some]
    cases e.locTo <;> rfl

theorem mem_pairs {ps : List CE.CompressedEdge} (h : ∀ e ∈ ps, e.locFrom.isSome) (a : Nat) (t : Option Nat) :
    (a, t) ∈ ps.map pairOf ↔ ∃ e ∈ ps, e.locFrom = some a ∧ e.locTo = t := by
  rw [List.mem_map]
  constructor
  · rintro ⟨e, he, hp⟩
    obtain ⟨b, hb⟩ := Option.isSome_iff_exists.1 (h e he)
    simp only [pairOf, hb, Option.getD_some, Prod.mk.injEq] at hp
    exact ⟨e, he, by rw [hb, hp.1], hp.2⟩
  · rintro ⟨e, he, h1, h2⟩
    exact ⟨e, he, by simp [pairOf, h1, h2]⟩

theorem dict_of {ps : List CE.CompressedEdge} (h : ∀ e ∈ ps, e.locFrom.isSome) (hn : (ps.flatMap Pairs.partners).Nodup) :
    ∃ d, SB.matchedDict (fun _ => none) ps = some d ∧ Mates (ps.map pairOf) d := by
  obtain ⟨d, d1, d2, d3, d4, d5⟩ := Decode.matchedDict_spec ps (fun _ => none) h hn (fun _ _ => rfl)
  have hin : ∀ e ∈ ps, ∀ v, (e.locFrom = some v ∨ e.locTo = some v) → v ∈ ps.flatMap edgeEnds := by
    intro e he v hv
    rw [List.mem_flatMap]
    refine ⟨e, he, ?_⟩
    unfold edgeEnds
    rcases hv with hv | hv <;> simp [hv]
  refine ⟨d, d1, fun a => ⟨?_, fun b => ?_⟩⟩
  · rw [mem_pairs h]
    by_cases ha : a ∈ ps.flatMap edgeEnds
    · exact d4 a ha
    · rw [d2 a ha]
      exact ⟨fun h => (by cases h), fun ⟨e, he, h1, _⟩ => absurd (hin e he a (.inl h1)) ha⟩
  · rw [mem_pairs h, mem_pairs h]
    by_cases ha : a ∈ ps.flatMap edgeEnds
    · rw [d5 a ha]
      constructor
      · rintro ⟨e, he, h1 | h1⟩
        exacts [.inl ⟨e, he, h1⟩, .inr ⟨e, he, h1⟩]
      · rintro (⟨e, he, h1⟩ | ⟨e, he, h1⟩)
        exacts [⟨e, he, .inl h1⟩, ⟨e, he, .inr h1⟩]
    · rw [d2 a ha]
      refine ⟨fun h => (by cases h), ?_⟩
      rintro (⟨e, he, h1⟩ | ⟨e, he, h1⟩)
      · exact absurd (hin e he a (.inl h1.1)) ha
      · exact absurd (hin e he a (.inr h1.2)) ha

theorem completes_pairs [W : Width] {o : ObjectD} {events : List Nat} {a : Answer Double} {o' : ObjectD} (h : Completes (fun f => o.ask f (.pairs events)) (.ok (a, o')))
    {dict : Bool} {r : Reply} (hr : Session.pairsOf dict a = some r) : Completes (fun f => Session.askPairs o f events dict) (.ok (r, o')) := by
  obtain ⟨f0, h⟩ := h
  refine ⟨f0, fun f hf => ?_⟩
  have := h f hf
  simp only at this
  simp only [Session.askPairs, this, hr]

theorem raised_up {g : UGraph ℚ} {fires : Nat → Prop} {events : List Nat} (he : ∀ x, x ∈ events ↔ fires x)
    (h : (∃ e ∈ g.edges, e.weight < 0) ∨ ∀ C : Choice g, ¬ EndToEnd.Explains C events) :
    (∃ l ∈ (netOf g).links, l.weight < 0) ∨ ∀ D : (netOf g).Links, ¬ Explained D fires := by
  rcases h with ⟨e, h1, h2⟩ | h
  · exact .inl ⟨toLink e, List.mem_map_of_mem h1, h2⟩
  · exact .inr (none_up he h)

/-- The answer to a question about one array of events. -/
theorem single_up {g : UGraph ℚ} {wo corr : Bool} {fires : Nat → Prop} {events : List Nat} (he : ∀ x, x ∈ events ↔ fires x) {q : Query} {α : Type} {mk : α → Answer Double}
    {P : (C : Choice g) → α → Prop} {B : (u : ℚ) → (Fin g.edges.length → ℚ) → (C : Choice g) → α → Prop} {a : Answer Double} (hM : MeansB g wo corr q a)
    (h1 : ∀ u, MeansD g u q a → (∃ y, a = mk y ∧ ∃ C : Choice g, Good u events C ∧ P C y ∧ B u (fun i => g.edges[i].weight) C y) ∨ (a = .exception ∧ ∀ C : Choice g, ¬ EndToEnd.Explains C events))
    (h2 : ∀ u, ConditionedD.MeansC g u q a → (∃ y, a = mk y ∧ ∃ (C : Choice g) (ρ : _), ConditionedD.Found u events ρ C ∧ P C y ∧ B u ρ C y) ∨
      (a = .exception ∧ ∀ C : Choice g, ¬ EndToEnd.Explains C events))
    (h3 : Conditioned.Refused q a → a = .exception) :
    (¬ (corr = true ∧ wo = true) ∧ ∃ u, StepOf (netOf g) u ∧ ∃ ρ C y, Weighed u fires corr (over ρ) ∧ CheapFor u (over ρ) fires (up C) ∧ P C y ∧ B u ρ C y ∧ a = mk y) ∨
    (a = .exception ∧ ((corr = true ∧ wo = true) ∨ ∀ C : (netOf g).Links, ¬ Explained C fires)) := by
  unfold MeansB at hM
  cases corr with
  | false =>
    rw [if_neg (by decide)] at hM
    obtain ⟨u, hu, hM⟩ := hM
    rcases h1 u hM with ⟨y, e, C, k1, k2, k3⟩ | ⟨e, hno⟩
    · refine .inl ⟨fun h => (by cases h.1), u, step_up hu, _, C, y, ?_, ?_, k2, k3, e⟩
      · unfold Weighed
        rw [if_neg (by decide), over_own]
        exact fun _ => rfl
      · rw [over_own]
        exact cheap_up he k1
    · exact .inr ⟨e, .inr (none_up he hno)⟩
  | true =>
    rw [if_pos rfl] at hM
    unfold ConditionedD.MeantD at hM
    cases wo with
    | true =>
      rw [if_pos rfl] at hM
      exact .inr ⟨h3 hM, .inl ⟨rfl, rfl⟩⟩
    | false =>
      rw [if_neg (by decide)] at hM
      obtain ⟨u, hu, hM⟩ := hM
      rcases h2 u hM with ⟨y, e, C, ρ, ⟨⟨C1, k0, k0'⟩, k1⟩, k2, k3⟩ | ⟨e, hno⟩
      · exact .inl ⟨fun h => (by cases h.2), u, step_up hu, ρ, C, y, weighed_up he k0 k0', cheapFor_up he k1, k2, k3, e⟩
      · exact .inr ⟨e, .inr (none_up he hno)⟩

/-- What is needed of the decoder for the question of a statement. -/
def Works [W : Width] (N : Net) (s : Stmt) : Prop :=
  ∀ g, WF g → Props.Convert.BndOk g → netOf g = N → N.Fine → ∀ q, queryOf g s = some q → (correlations q = true → NonNeg g) → ∀ wo, (∀ c, Fits (intGraph c g) wo q) →
    ∀ k c, Const g k c → AskOne (intGraph c g) wo q

/-- A statement that asks a question. -/
theorem asks_of [W : Width] (mergeW : ℚ → ℚ → ℚ) {g : UGraph ℚ} {o : ObjectD} {N : Net} {wo : Bool} {asked : Prop} (hs : Stands N wo asked g o) {s : Stmt} (ha : Allowed N asked s)
    (has : Asks s) (hw : Works N s) : ∃ r o', Completes (fun f => Session.exec mergeW f o s) (.ok (r, o')) ∧ Stands N wo True g o' ∧ Right mergeW wo N s r := by
  have hdet : o.graph.numDetectors = g.numDetectors ∧ o.graph.boundary = g.boundary := by
    obtain ⟨b, e⟩ := hs.inv.same
    rw [e]
    exact ⟨rfl, rfl⟩
  have hstay : Stands N wo True g o := ⟨hs.wf, hs.bnd, hs.clean, hs.net, hs.inv, fun _ => trivial⟩
  have hpos : ∀ {corr : Bool} {q : Query}, N.Ready corr → correlations q = corr → correlations q = true → NonNeg g :=
    fun h1 h2 h3 => nonneg_of (by rw [hs.net]; exact h1.2 (h2 ▸ h3))
  cases s with
  | decode z rw corr =>
    simp only [Session.exec, hdet.1, hdet.2]
    rcases shaped_iff hs.bnd z with ⟨h1, h2⟩ | ⟨events, h1, h2, h3, h4⟩
    · rw [h1]
      rw [hs.net] at h2
      exact ⟨_, o, ⟨0, fun f _ => rfl⟩, hstay, .inr ⟨rfl, fun h => absurd h h2⟩⟩
    · have hq : queryOf g (.decode z rw corr) = some (.decode corr events) := by simp [queryOf, h1]
      obtain ⟨a, o', c1, hs', hM⟩ := question_of hs ha (q := .decode corr events) rfl (fun _ => h3) (hw g hs.wf hs.bnd hs.net ha.1 _ hq (hpos ha rfl) _ (fun _ => h3))
      rw [h1]
      refine ⟨_, o', completes_ask c1 rw, hs', ?_⟩
      obtain rfl := hs.net
      rcases single_up h4 hM (mk := fun y : List (BitVec 8) × Double => .predictions y.1 y.2) (P := fun C y => Says C y.1)
        (B := fun u ρ C y => ConditionedD.CloseFor u ρ C y.2)
        (fun u h => by
          rcases h with ⟨row, x, h, C, k⟩ | h
          · exact .inl ⟨(row, x), h, C, k⟩
          · exact .inr h)
        (fun u h => by
          rcases h with ⟨row, x, h, C, ρ, k⟩ | h
          · exact .inl ⟨(row, x), h, C, ρ, k⟩
          · exact .inr h) id with ⟨k0, u, hu, ρ, C, y, k1, k2, k3, k4, rfl⟩ | ⟨rfl, hno⟩
      · exact .inl ⟨h2, k0, u, hu, over ρ, up C, y.1, y.2, k1, k2, tells_up hs.clean k3, costsFor_up k4, rfl⟩
      · exact .inr ⟨rfl, fun _ => hno⟩
  | decodeToEdgesArray z corr =>
    simp only [Session.exec, hdet.1, hdet.2]
    rcases shaped_iff hs.bnd z with ⟨h1, h2⟩ | ⟨events, h1, h2, h3, h4⟩
    · rw [h1]
      rw [hs.net] at h2
      exact ⟨_, o, ⟨0, fun f _ => rfl⟩, hstay, .inr ⟨rfl, fun h => absurd h h2⟩⟩
    · have hq : queryOf g (.decodeToEdgesArray z corr) = some (.edges corr events) := by simp [queryOf, h1]
      obtain ⟨a, o', c1, hs', hM⟩ := question_of hs ha (q := .edges corr events) rfl (fun _ => h3) (hw g hs.wf hs.bnd hs.net ha.1 _ hq (hpos ha rfl) _ (fun _ => h3))
      rw [h1]
      refine ⟨_, o', completes_ask c1 false, hs', ?_⟩
      obtain rfl := hs.net
      rcases single_up h4 hM (mk := fun y : List (Nat × Option Nat) => .edges y) (P := fun C y => Returned y C) (B := fun _ _ _ _ => True)
        (fun u h => by
          rcases h with ⟨es, h, C, k1, k2⟩ | h
          · exact .inl ⟨es, h, C, k1, k2, trivial⟩
          · exact .inr h)
        (fun u h => by
          rcases h with ⟨es, h, C, ρ, k1, k2⟩ | h
          · exact .inl ⟨es, h, C, ρ, k1, k2, trivial⟩
          · exact .inr h) id with ⟨k0, u, hu, ρ, C, y, k1, k2, k3, -, rfl⟩ | ⟨rfl, hno⟩
      · exact .inl ⟨h2, k0, u, hu, over ρ, up C, y, k1, k2, lists_up k3, rfl⟩
      · exact .inr ⟨rfl, fun _ => hno⟩
  | decodeBatch ps pp rw corr cols rows =>
    simp only [Session.exec]
    have hnodes : o.graph.nodes.length = g.nodes.length := by
      obtain ⟨b, e⟩ := hs.inv.same
      rw [e]
    by_cases hsh : Obs.shapeOk ps cols g.numDetectors g.nodes.length = true
    · have hfit : ∀ c, Fits (intGraph c g) wo (.batch ps pp corr cols rows) := fun c _ row hr d hd => by
        have := ha.2 row hr d ((fires_iff ps row d).1 hd)
        rw [← hs.net] at this
        exact this
      obtain ⟨a, o', c1, hs', hM⟩ := question_of hs ha.1 (q := .batch ps pp corr cols rows) rfl hfit (hw g hs.wf hs.bnd hs.net ha.1.1 _ rfl (hpos ha.1 rfl) _ hfit)
      refine ⟨_, o', completes_ask c1 rw, hs', ?_⟩
      obtain rfl := hs.net
      have hsh' := (shots_iff g ps cols).2 hsh
      have hstep : ∃ u, StepOf (netOf g) u := by
        have hu := fine_usable hs.wf ha.1.1
        obtain ⟨k, c, hk⟩ := const_of hu.rules hu.le hu.big
        exact ⟨_, step_up (step_of hk)⟩
      unfold MeansB at hM
      cases corr with
      | false =>
        rw [if_neg (by decide)] at hM
        obtain ⟨u, hu, hM⟩ := hM
        rcases hM with ⟨raws, outs, ws, rfl, k1, k2, k3, k4⟩ | ⟨rfl, hno⟩
        · refine .inl ⟨hsh', fun h => (by cases h.1), u, step_up hu, outs, ws, by rw [← k1.length_eq, k2], k3, rows_in k1 (k4.imp ?_), rfl⟩
          rintro row y ⟨C, h1, h2, h3⟩
          refine ⟨_, up C, ?_, cheap_up (fires_iff ps row) h1, tells_up hs.clean h2, costs_up h3⟩
          unfold Weighed
          rw [if_neg (by decide)]
          exact fun _ => rfl
        · refine .inr ⟨rfl, fun _ => .inr ?_⟩
          rcases hno with h | ⟨row, hr, h⟩
          · rw [hsh] at h; cases h
          · exact ⟨row, hr, none_up (fires_iff ps row) h⟩
      | true =>
        rw [if_pos rfl] at hM
        unfold ConditionedD.MeantD at hM
        cases wo with
        | true =>
          rw [if_pos rfl] at hM
          rcases hM with rfl | ⟨rfl, rfl⟩
          · exact .inr ⟨rfl, fun _ => .inl ⟨rfl, rfl⟩⟩
          · obtain ⟨u, hu⟩ := hstep
            exact .inl ⟨hsh', fun _ => rfl, u, hu, [], [], rfl, rfl, .nil, rfl⟩
        | false =>
          rw [if_neg (by decide)] at hM
          obtain ⟨u, hu, hM⟩ := hM
          rcases hM with ⟨raws, outs, ws, rfl, k1, k2, k3, k4⟩ | ⟨rfl, hno⟩
          · refine .inl ⟨hsh', fun h => (by cases h.2), u, step_up hu, outs, ws, by rw [← k1.length_eq, k2], k3, rows_in k1 (k4.imp ?_), rfl⟩
            rintro row y ⟨C, ρ, ⟨⟨C1, h0, h0'⟩, h1⟩, h2, h3⟩
            exact ⟨over ρ, up C, weighed_up (fires_iff ps row) h0 h0', cheapFor_up (fires_iff ps row) h1, tells_up hs.clean h2, costsFor_up h3⟩
          · refine .inr ⟨rfl, fun _ => .inr ?_⟩
            rcases hno with h | ⟨row, hr, h⟩
            · rw [hsh] at h; cases h
            · exact ⟨row, hr, none_up (fires_iff ps row) h⟩
    · refine ⟨.raised, o, ⟨0, fun f _ => ?_⟩, hstay, .inr ⟨rfl, fun h => ?_⟩⟩
      · have hr : refuses o.graph (.batch ps pp corr cols rows) = true := by
          simp only [refuses, hdet.1, hnodes]
          simpa using hsh
        simp only [Session.ask, ObjectD.ask, hr, if_true]
        rfl
      · rw [← hs.net] at h
        exact absurd ((shots_iff g ps cols).1 h) hsh
  | matchedArray z =>
    simp only [Session.exec, hdet.1, hdet.2]
    rcases shaped_iff hs.bnd z with ⟨h1, h2⟩ | ⟨events, h1, h2, h3, h4⟩
    · rw [h1]
      rw [hs.net] at h2
      exact ⟨_, o, ⟨0, fun f _ => rfl⟩, hstay, .inr ⟨rfl, fun h => absurd h h2⟩⟩
    · have hq : queryOf g (.matchedArray z) = some (.pairs events) := by simp [queryOf, h1]
      obtain ⟨a, o', c1, hs', u, hu, hM⟩ := question_pairs hs ha (events := events) (fun _ => h3) (hw g hs.wf hs.bnd hs.net ha _ hq (fun h => by cases h) _ (fun _ => h3))
      rw [h1]
      obtain rfl := hs.net
      rcases hM with ⟨ps, rfl, hM⟩ | ⟨rfl, hno⟩
      · refine ⟨_, o', completes_pairs c1 (dict := false) (r := .pairs ((ps.map pairOf).map rowOf)) ?_, hs', .inl ⟨h2, u, step_up hu, _, paired_up h4 hM, rfl⟩⟩
        simp [Session.pairsOf, array_of hM.first]
      · exact ⟨_, o', completes_pairs c1 (dict := false) rfl, hs', .inr ⟨rfl, fun _ => raised_up h4 hno⟩⟩
  | matchedDict z =>
    simp only [Session.exec, hdet.1, hdet.2]
    rcases shaped_iff hs.bnd z with ⟨h1, h2⟩ | ⟨events, h1, h2, h3, h4⟩
    · rw [h1]
      rw [hs.net] at h2
      exact ⟨_, o, ⟨0, fun f _ => rfl⟩, hstay, .inr ⟨rfl, fun h => absurd h h2⟩⟩
    · have hq : queryOf g (.matchedDict z) = some (.pairs events) := by simp [queryOf, h1]
      obtain ⟨a, o', c1, hs', u, hu, hM⟩ := question_pairs hs ha (events := events) (fun _ => h3) (hw g hs.wf hs.bnd hs.net ha _ hq (fun h => by cases h) _ (fun _ => h3))
      rw [h1]
      obtain rfl := hs.net
      rcases hM with ⟨ps, rfl, hM⟩ | ⟨rfl, hno⟩
      · obtain ⟨d, k1, k2⟩ := dict_of hM.first hM.once
        refine ⟨_, o', completes_pairs c1 (dict := true) (r := .mates d) ?_, hs', .inl ⟨h2, u, step_up hu, _, d, paired_up h4 hM, k2, rfl⟩⟩
        simp [Session.pairsOf, k1]
      · exact ⟨_, o', completes_pairs c1 (dict := true) rfl, hs', .inr ⟨rfl, fun _ => raised_up h4 hno⟩⟩
  | _ => exact absurd has id

theorem stmt_steps [W : Width] (mergeW : ℚ → ℚ → ℚ) {s : Stmt} {N : Net} {wo : Bool} {asked : Prop} {g : UGraph ℚ} {o : ObjectD} (hs : Stands N wo asked g o) (ha : Allowed N asked s)
    (hw : Works N s) : ∃ r o' g', Completes (fun f => Session.exec mergeW f o s) (.ok (r, o')) ∧
      Stands (N.after mergeW s).1 wo ((Asks s ∨ asked) ∧ (N.after mergeW s).1.links = N.links ∧ (N.after mergeW s).1.boundary = N.boundary) g' o' ∧ Right mergeW wo N s r ∧
      (g' = g ∨ ∃ c, g' = (UserGraph.exec mergeW g c).1) := by
  by_cases has : Asks s
  · obtain ⟨r, o', h1, h2, h3⟩ := asks_of mergeW hs ha has hw
    have e : (N.after mergeW s).1 = N := by cases s <;> first | rfl | exact absurd has id
    rw [e]
    exact ⟨r, o', g, h1, ⟨h2.wf, h2.bnd, h2.clean, h2.net, h2.inv, fun _ => ⟨.inl has, rfl, rfl⟩⟩, h3, .inl rfl⟩
  · by_cases hl : ∃ l, s = .look l
    · obtain ⟨l, rfl⟩ := hl
      obtain ⟨hwf, hB, hc, rfl, hi, hfl⟩ := hs
      refine ⟨Session.look g l, o, g, ⟨0, fun f _ => ?_⟩, ⟨hwf, hB, hc, rfl, hi, fun h => ⟨.inr (hfl h), rfl, rfl⟩⟩, sees_of hwf hB l, .inl rfl⟩
      obtain ⟨b, e⟩ := hi.same
      simp only [Session.exec, e]
      cases l <;> rfl
    have hl : ∀ l, s ≠ .look l := fun l h => hl ⟨l, h⟩
    obtain ⟨hwf, hB, hc, rfl, hi, hfl⟩ := hs
    obtain ⟨n1, n2, n3⟩ := netOf_but hi.same
    rw [← n1] at ha
    obtain ⟨o', k1, k2, k3, k4⟩ := build_of mergeW 0 (n3.2 hwf) (n2.2 hc) ha has hl
    have k1 : ∀ f, Session.exec mergeW f o s = some (.ok (((netOf g).after mergeW s).2, o')) := by
      intro f
      rw [← n1, ← k1]
      cases s <;> first | rfl | exact absurd trivial has | exact absurd rfl (hl _)
    rw [n1] at k2
    refine ⟨((netOf g).after mergeW s).2, o', ?_⟩
    have hright : Right mergeW wo (netOf g) s ((netOf g).after mergeW s).2 := by
      cases s <;> first | rfl | exact absurd trivial has | exact absurd rfl (hl _)
    rcases k4 with rfl | ⟨c, rfl, hk⟩
    · refine ⟨g, ⟨0, fun f _ => k1 f⟩, ?_, hright, .inl rfl⟩
      rw [← k2, n1]
      exact ⟨hwf, hB, hc, rfl, hi, fun h => ⟨.inr (hfl h), rfl, rfl⟩⟩
    · have hk' : asked → ∀ n, c = .setMinNumObs n → n ≤ g.numObs := by
        intro h n hn
        have := hk h n hn
        obtain ⟨b, e⟩ := hi.same
        rw [e] at this
        exact this
      obtain ⟨m1, m2⟩ := modify_invD mergeW hwf hi hfl hk'
      obtain ⟨p1, p2, p3⟩ := netOf_but m1.same
      refine ⟨(UserGraph.exec mergeW g c).1, ⟨0, fun f _ => k1 f⟩, ?_, hright, .inr ⟨c, rfl⟩⟩
      rw [← k2, p1]
      exact ⟨wf_exec mergeW hwf c, Props.Convert.bndOk_exec mergeW hB c, p2.1 k3, rfl, m1, fun h => by
        obtain ⟨q1, q2, q3, q4⟩ := m2 h
        exact ⟨.inr q1, by simp only [netOf, q3], q4⟩⟩

theorem stmt_core [W : Width] (mergeW : ℚ → ℚ → ℚ) {s : Stmt} {N : Net} {wo : Bool} {asked : Prop} {g : UGraph ℚ} {o : ObjectD} (hs : Stands N wo asked g o) (ha : Allowed N asked s)
    (hw : Works N s) : ∃ r o' g', Completes (fun f => Session.exec mergeW f o s) (.ok (r, o')) ∧
      Stands (N.after mergeW s).1 wo ((Asks s ∨ asked) ∧ (N.after mergeW s).1.links = N.links ∧ (N.after mergeW s).1.boundary = N.boundary) g' o' ∧ Right mergeW wo N s r := by
  obtain ⟨r, o', g', h1, h2, h3, -⟩ := stmt_steps mergeW hs ha hw
  exact ⟨r, o', g', h1, h2, h3⟩

theorem program_core [W : Width] (mergeW : ℚ → ℚ → ℚ) : ∀ (prog : List Stmt) (N : Net) (wo : Bool) (asked : Prop) (g : UGraph ℚ) (o : ObjectD), Stands N wo asked g o →
    ProperProgram mergeW N asked prog → (∀ m ∈ moments mergeW N prog, Works m.1 m.2) →
    ∃ rs o', Completes (fun f => run mergeW f o prog) (.ok (rs, o')) ∧ List.Forall₂ (fun (m : Net × Stmt) r => Right mergeW wo m.1 m.2 r) (moments mergeW N prog) rs := by
  intro prog
  induction prog with
  | nil => intro N wo asked g o _ _ _; exact ⟨[], o, ⟨0, fun f _ => rfl⟩, .nil⟩
  | cons s prog ih =>
    intro N wo asked g o hs hp hw
    obtain ⟨ha, hp⟩ := hp
    obtain ⟨r, o', g', ⟨f1, c1⟩, h2, h3⟩ := stmt_core mergeW hs ha (hw _ (List.mem_cons_self ..))
    obtain ⟨rs, o'', ⟨f2, c2⟩, hall⟩ := ih _ _ _ g' o' h2 hp (fun m hm => hw m (List.mem_cons_of_mem _ hm))
    refine ⟨r :: rs, o'', ⟨max f1 f2, fun f hf => ?_⟩, .cons h3 hall⟩
    have e1 := c1 f (le_trans (le_max_left _ _) hf)
    have e2 := c2 f (le_trans (le_max_right _ _) hf)
    simp only at e1 e2
    simp only [Session.run, e1, e2, Res.bind]

/-! ## Theorems -/

/-- Small enough for the 32-bit radius of the compiled library (see C61). -/
def Net.Small (N : Net) : Prop := N.nodes ≤ 65 ∨ Whole N ∧ ∃ M : Nat, (∀ l ∈ N.links, |l.weight| ≤ M) ∧ M * N.nodes ≤ 2 ^ 30

theorem works_of (N : Net) (s : Stmt) : Works (W := unbounded) N s := by
  intro g hw hB hN hf q _ ha wo hq k c hk o hi
  rw [← hN] at hf
  obtain ⟨a, o', q1, q2, q3⟩ := ask_one (int_wf hw) (int_bnd hB) (askable_int (askable_of hw hB hf ha hq) hk) hi
  exact ⟨a, o', q1, q2, q3, q3⟩

theorem works_small {N : Net} {s : Stmt} (hn : Asks s → N.Small) : Works (W := int32) N s := by
  intro g hw hB hN hf q hq0 ha wo hq k c hk o hi
  have hsm : N.Small := hn (by
    cases s <;> first | exact trivial | cases hq0)
  rw [← hN] at hsm hf
  have hA := askable_int (askable_of hw hB hf ha hq) hk
  have hnear : Narrow.Near (intGraph c g) := C65_near hw (fine_usable hw hf) (by
    rcases hsm with h | ⟨h1, M, h2, h3⟩
    · exact .inl h
    · exact .inr ⟨whole_iff.1 h1, M, fun e he => h2 (toLink e) (List.mem_map_of_mem he), h3⟩) c hk.norm
  obtain ⟨a, o', q1, q2, q3⟩ := ask_one (int_wf hw) (int_bnd hB) hA hi
  exact ⟨a, o', (Narrow.ask_agree (int_wf hw) (int_bnd hB) hnear hA hi).completes q1, q2,
    (Narrow.fresh1_int32 (int_wf hw) (int_bnd hB) hnear hA a).2 q3, q3⟩

/-- C69: a Python program of statements on one `Matching` object, from `Matching()` on.  If it is proper, it ends without undefined behaviour.  Statements that build the graph
do to it what they should, or raise or warn as they should; questions get right replies, about the network of that moment. -/
theorem C69_program (mergeW : ℚ → ℚ → ℚ) (prog : List Stmt) (hp : ProperProgram mergeW Net.empty False prog) :
    ∃ replies o, Completes (fun f => Session.run mergeW f Session.new prog) (.ok (replies, o)) ∧
      List.Forall₂ (fun (m : Net × Stmt) r => Right mergeW false m.1 m.2 r) (moments mergeW Net.empty prog) replies := by
  exact program_core (W := unbounded) mergeW prog _ _ _ _ _ stands_new hp fun m _ => works_of m.1 m.2

/-- C69 for the library as compiled, with its 32-bit wrapped radius: if the networks asked about are small enough. -/
theorem C69_program_int32 (mergeW : ℚ → ℚ → ℚ) (prog : List Stmt) (hp : ProperProgram mergeW Net.empty False prog)
    (hn : ∀ m ∈ moments mergeW Net.empty prog, Asks m.2 → m.1.Small) :
    ∃ replies o, Completes (fun f => Session.run (W := int32) mergeW f Session.new prog) (.ok (replies, o)) ∧
      List.Forall₂ (fun (m : Net × Stmt) r => Right mergeW false m.1 m.2 r) (moments mergeW Net.empty prog) replies := by
  exact program_core (W := int32) mergeW prog _ _ _ _ _ stands_new hp fun m hm => works_small (hn m hm)

/-- The statement gives no NaN as a weight. -/
def NoNan : Stmt → Prop
  | .addEdge _ _ a => a.weight ≠ .nan
  | .addBoundaryEdge _ a => a.weight ≠ .nan
  | _ => True

theorem proper_of {mergeW : ℚ → ℚ → ℚ} {prog : List Stmt} (ha : ∀ s ∈ prog, ¬ Asks s) (hn : ∀ s ∈ prog, NoNan s) :
    ∀ (N : Net) (asked : Prop), ¬ asked → ProperProgram mergeW N asked prog := by
  induction prog with
  | nil => exact fun _ _ _ => trivial
  | cons s prog ih =>
    intro N asked h
    have hs := ha s (by simp)
    refine ⟨?_, ih (fun s hs => ha s (by simp [hs])) (fun s hs => hn s (by simp [hs])) _ _ fun h' => h'.1.elim hs h⟩
    have := hn s (by simp)
    cases s <;> first | exact this | exact trivial | exact fun h' => absurd h' h | exact absurd trivial hs

/-- C71: a program that builds a graph from `Matching()` on and looks at it, without any condition but that no weight is NaN.  It ends without undefined behaviour; each statement
that looks at the object reports what the statements before have built, and each other statement does, raises or warns as it should. -/
theorem C71_inspection [W : Width] (mergeW : ℚ → ℚ → ℚ) (prog : List Stmt) (ha : ∀ s ∈ prog, ¬ Asks s) (hn : ∀ s ∈ prog, NoNan s) :
    ∃ replies o, Completes (fun f => Session.run mergeW f Session.new prog) (.ok (replies, o)) ∧
      List.Forall₂ (fun (m : Net × Stmt) r => Right mergeW false m.1 m.2 r) (moments mergeW Net.empty prog) replies := by
  refine program_core mergeW prog _ _ _ _ _ stands_new (proper_of ha hn _ _ id) ?_
  intro m hm g _ _ _ _ q hq
  have hm2 : ∀ (prog : List Stmt) (N : Net), m ∈ moments mergeW N prog → m.2 ∈ prog := by
    intro prog
    induction prog with
    | nil => intro N h; cases h
    | cons s prog ih =>
      intro N h
      rcases List.mem_cons.1 h with rfl | h
      · exact List.mem_cons_self ..
      · exact List.mem_cons_of_mem _ (ih _ h)
  have := ha _ (hm2 _ _ hm)
  cases hs : m.2 <;> rw [hs] at hq this <;> first | exact absurd trivial this | cases hq

/-- The statement only looks at the object. -/
def isLook : Stmt → Bool
  | .look _ => true
  | _ => false

/-- The replies to the statements that do more than look. -/
def others (prog : List Stmt) (replies : List Reply) : List Reply := ((prog.zip replies).filter fun x => !isLook x.1).map Prod.snd

/-- C71: looking changes nothing.  With all statements that look left out, any program, proper or not, from any object on, ends the same way, with the same replies to the
other statements. -/
theorem C71_harmless [W : Width] (mergeW : ℚ → ℚ → ℚ) (f : Nat) (prog : List Stmt) : ∀ o : ObjectD,
    Session.run mergeW f o (prog.filter fun s => !isLook s) = (Session.run mergeW f o prog).map fun x => x.bind fun y => .ok (others prog y.1, y.2) := by
  induction prog with
  | nil => exact fun _ => rfl
  | cons s prog ih =>
    intro o
    cases hl : isLook s with
    | true =>
      obtain ⟨l, rfl⟩ : ∃ l, s = .look l := by cases s <;> first | exact ⟨_, rfl⟩ | cases hl
      rw [List.filter_cons_of_neg (by simp [hl]), ih o]
      simp only [Session.run, Session.exec]
      cases Session.run mergeW f o prog with
      | none => rfl
      | some x => cases x <;> rfl
    | false =>
      rw [List.filter_cons_of_pos (by simp [hl])]
      simp only [Session.run]
      cases Session.exec mergeW f o s with
      | none => rfl
      | some x =>
        cases x with
        | ub => rfl
        | throws => rfl
        | ok y =>
          simp only [ih y.2]
          cases Session.run mergeW f y.2 prog with
          | none => rfl
          | some x => cases x <;> simp [Res.bind, others, hl]

/-- No two links join the same nodes. -/
def Net.Simple (N : Net) : Prop := N.links.Pairwise fun l l' => ∀ a b, ¬ (l.Joins a b ∧ l'.Joins a b)

theorem joins_self (l : Link) : l.Joins l.a l.b := .inl ⟨rfl, rfl⟩

theorem joins_trans {l l' : Link} {a : Nat} {b : Option Nat} (h1 : l.Joins a b) (h2 : l'.Joins a b) : l.Joins l'.a l'.b := by
  rcases h2 with ⟨rfl, rfl⟩ | ⟨h3, rfl⟩
  · exact h1
  · rcases h1 with ⟨rfl, h⟩ | ⟨h, h'⟩
    · exact .inr ⟨h, h3⟩
    · rw [h3]
      exact .inl ⟨(Option.some.inj h').symm, h⟩

theorem combine_ends (mergeW : ℚ → ℚ → ℚ) (old l : Link) (s : Strategy) (a : Nat) (b : Option Nat) : (combine mergeW old l s).Joins a b ↔ old.Joins a b := by
  unfold combine
  split
  · rfl
  · rfl
  · split <;> rfl
  · rfl
  · rfl

theorem simple_place (mergeW : ℚ → ℚ → ℚ) {N : Net} (h : N.Simple) (l : Link) (s : Strategy) : (N.place mergeW l s).1.Simple := by
  unfold Net.place
  split
  · split
    · exact h
    · refine List.pairwise_map.2 (h.imp fun {l1 l2} hh a b => ?_)
      have : ∀ l' : Link, (if l'.Joins l.a l.b then combine mergeW l' l s else l').Joins a b ↔ l'.Joins a b := by
        intro l'
        split
        · exact combine_ends ..
        · rfl
      rw [this, this]
      exact hh a b
  · rename_i hno
    refine List.pairwise_append.2 ⟨h, List.pairwise_singleton .., ?_⟩
    intro l1 h1 l2 h2 a b hab
    obtain rfl := List.mem_singleton.1 h2
    exact hno ⟨l1, h1, joins_trans hab.1 hab.2⟩

theorem simple_after (mergeW : ℚ → ℚ → ℚ) {N : Net} (h : N.Simple) (s : Stmt) : (N.after mergeW s).1.Simple := by
  have hadd : ∀ a b F args, (N.add mergeW a b F args).1.Simple := by
    intro a b F args
    unfold Net.add
    split
    · split
      · exact h
      · split
        · exact h
        · exact simple_place mergeW h _ _
    · exact h
  unfold Net.after
  split
  · split
    · exact h
    · split
      · exact h
      · exact hadd ..
  · split
    · exact h
    · split
      · exact h
      · exact hadd ..
  · split <;> exact h
  · split <;> exact h
  · exact h

/-- C71: at any time in any program, at most one link joins two given nodes, or a given node and the boundary.  So `edges()`, `has_edge` and `get_edge_data` speak of the same link. -/
theorem C71_one_link (mergeW : ℚ → ℚ → ℚ) (prog : List Stmt) : ∀ N : Net, N.Simple → ∀ m ∈ moments mergeW N prog, m.1.Simple := by
  induction prog with
  | nil => intro N _ m hm; cases hm
  | cons s prog ih =>
    intro N h m hm
    rcases List.mem_cons.1 hm with rfl | hm
    · exact h
    · exact ih _ (simple_after mergeW h s) m hm

/-- The network after a program. -/
def Net.afterAll (mergeW : ℚ → ℚ → ℚ) (N : Net) (prog : List Stmt) : Net := prog.foldl (fun N s => (N.after mergeW s).1) N

theorem moments_append (mergeW : ℚ → ℚ → ℚ) (prog : List Stmt) (s : Stmt) : ∀ N : Net,
    moments mergeW N (prog ++ [s]) = moments mergeW N prog ++ [(N.afterAll mergeW prog, s)] := by
  induction prog with
  | nil => exact fun _ => rfl
  | cons t prog ih => intro N; simp only [List.cons_append, moments, ih]; rfl

theorem forall2_last {α β : Type} {R : α → β → Prop} {l : List α} {a : α} {rs : List β} (h : List.Forall₂ R (l ++ [a]) rs) : ∃ rs' r, rs = rs' ++ [r] ∧ R a r := by
  induction l generalizing rs with
  | nil =>
    cases h with
    | cons h1 h2 => cases h2; exact ⟨[], _, rfl, h1⟩
  | cons b l ih =>
    cases h with
    | cons h1 h2 =>
      obtain ⟨rs', r, rfl, h3⟩ := ih h2
      exact ⟨_ :: rs', r, rfl, h3⟩

/-- C72: if a proper program ends with `decode_to_matched_dets_array`, then the last reply is an array of pairs that contain every event once, apart from those at boundary nodes.
Each pair is explained by some links in a cheap way, and together they cost what a cheap explanation of all events costs (`Paired`).  Or else an exception was raised: then the
array does not fit the network, a weight is negative, or nothing explains the events. -/
theorem C72_pairs (mergeW : ℚ → ℚ → ℚ) (prog : List Stmt) (z : Syn.Arr) (hp : ProperProgram mergeW Net.empty False (prog ++ [.matchedArray z])) :
    ∃ N, N = Net.empty.afterAll mergeW prog ∧ ∃ replies r o, Completes (fun f => Session.run mergeW f Session.new (prog ++ [.matchedArray z])) (.ok (replies ++ [r], o)) ∧
      ((∃ u, StepOf N u ∧ ∃ rows, Paired (N := N) u (Fires z) rows ∧ r = .pairs (rows.map rowOf)) ∨
       (r = .raised ∧ (Shaped N z → (∃ l ∈ N.links, l.weight < 0) ∨ ∀ C : N.Links, ¬ Explained C (Fires z)))) := by
  obtain ⟨rs, o, h1, h2⟩ := C69_program mergeW _ hp
  rw [moments_append] at h2
  obtain ⟨rs', r, rfl, h3⟩ := forall2_last h2
  refine ⟨_, rfl, rs', r, o, h1, ?_⟩
  rcases h3 with ⟨-, h⟩ | h
  · exact .inl h
  · exact .inr h

/-- C72 for the library as compiled. -/
theorem C72_pairs_int32 (mergeW : ℚ → ℚ → ℚ) (prog : List Stmt) (z : Syn.Arr) (hp : ProperProgram mergeW Net.empty False (prog ++ [.matchedArray z]))
    (hn : ∀ m ∈ moments mergeW Net.empty (prog ++ [.matchedArray z]), Asks m.2 → m.1.Small) :
    ∃ N, N = Net.empty.afterAll mergeW prog ∧ ∃ replies r o, Completes (fun f => Session.run (W := int32) mergeW f Session.new (prog ++ [.matchedArray z])) (.ok (replies ++ [r], o)) ∧
      ((∃ u, StepOf N u ∧ ∃ rows, Paired (N := N) u (Fires z) rows ∧ r = .pairs (rows.map rowOf)) ∨
       (r = .raised ∧ (Shaped N z → (∃ l ∈ N.links, l.weight < 0) ∨ ∀ C : N.Links, ¬ Explained C (Fires z)))) := by
  obtain ⟨rs, o, h1, h2⟩ := C69_program_int32 mergeW _ hp hn
  rw [moments_append] at h2
  obtain ⟨rs', r, rfl, h3⟩ := forall2_last h2
  refine ⟨_, rfl, rs', r, o, h1, ?_⟩
  rcases h3 with ⟨-, h⟩ | h
  · exact .inl h
  · exact .inr h

theorem array_some {ps : List CE.CompressedEdge} : ∀ {P : List (Int × Int)}, SB.matchedArray ps = some P → ∀ e ∈ ps, e.locFrom.isSome := by
  induction ps with
  | nil => intro P _ e he; cases he
  | cons a ps ih =>
    intro P h e he
    cases ha : a.locFrom with
    | none => simp [SB.matchedArray, ha] at h
    | some x =>
      rcases List.mem_cons.1 he with rfl | he
      · rw [ha]; rfl
      · cases hr : SB.matchedArray ps with
        | none => simp [SB.matchedArray, ha, hr] at h
        | some Q => exact ih hr e he

/-- C72: `decode_to_matched_dets_dict` says the same as `decode_to_matched_dets_array`, at any object, proper or not: if the array is returned and contains no event twice, then the
dictionary would have been returned instead, with the same pairs, and the object would be the same afterwards. -/
theorem C72_same_pairs [W : Width] (mergeW : ℚ → ℚ → ℚ) (f : Nat) (o o' : ObjectD) (z : Syn.Arr) (P : List (Int × Int))
    (h : Session.exec mergeW f o (.matchedArray z) = some (.ok (.pairs P, o'))) :
    ∃ rows, P = rows.map rowOf ∧ ((rows.flatMap ends).Nodup → ∃ d, Session.exec mergeW f o (.matchedDict z) = some (.ok (.mates d, o')) ∧ Mates rows d) := by
  simp only [Session.exec] at h ⊢
  cases hz : Syn.toEvents o.graph.numDetectors o.graph.boundary.card z with
  | none => rw [hz] at h; simp at h
  | some events =>
    rw [hz] at h
    simp only [Session.askPairs] at h ⊢
    cases ha : o.ask f (.pairs events) with
    | none => rw [ha] at h; cases h
    | some x =>
      rw [ha] at h
      cases x with
      | ub => cases h
      | throws => cases h
      | ok y =>
        obtain ⟨a, o1⟩ := y
        cases a <;> simp [Session.pairsOf] at h
        rename_i ps
        cases hm : SB.matchedArray ps with
        | none => rw [hm] at h; simp at h
        | some Q =>
          rw [hm] at h
          simp only [Option.map_some, Option.some.injEq, Sch.Res.ok.injEq, Prod.mk.injEq, Reply.pairs.injEq] at h
          obtain ⟨rfl, rfl⟩ := h
          have hs := array_some hm
          refine ⟨ps.map pairOf, Option.some.inj (hm.symm.trans (array_of hs)), fun hn => ?_⟩
          rw [flat_ends hs] at hn
          obtain ⟨d, h1, h2⟩ := dict_of hs hn
          exact ⟨d, by simp [Session.pairsOf, h1], h2⟩

/-- The number of fault ids after one statement on `Matching()`. -/
def idsAfter (s : Stmt) : Option Nat :=
  match Session.exec (fun a _ => a) 0 Session.new s with
  | some (.ok (_, o)) => some o.graph.numObs
  | _ => none

/-- The older name `qubit_id` of the fault ids is understood by `add_edge`, but silently dropped by `add_boundary_edge`. -/
theorem C69_boundary_qubit_id_dropped : idsAfter (.addEdge 0 1 { qubitId := some (.int 3) }) = some 4 ∧ idsAfter (.addBoundaryEdge 0 { qubitId := some (.int 3) }) = some 0 := by
  decide +kernel

/-! ## Examples -/

instance (N : Net) (x : Nat) (l : Link) : Decidable (l.Leaves N x) :=
  decidable_of_iff (x ∉ N.boundary ∧ ((l.a = x ∧ (∀ v ∈ l.b.toList, v ∈ N.boundary)) ∨ (l.b = some x ∧ l.a ∈ N.boundary))) (by
    unfold Link.Leaves
    cases l.b <;> simp)

theorem fine_of {N : Net} (few : N.links.length < 2 ^ 38) (covered : ∀ l ∈ N.links, ∀ k ∈ l.faults, k < N.ids) (le : ∀ w ∈ N.numbers, |w| ≤ 2 ^ 24 - 1)
    (big : ∃ w ∈ N.numbers, 1 ≤ |w|)
    (pair : ∀ i j : Fin N.links.length, i ≠ j → ∀ x ∈ N.links[i].a :: N.links[i].b.toList, N.links[i].Leaves N x → N.links[j].Leaves N x → 0 ≤ N.links[i].weight + N.links[j].weight)
    (outside : ∀ l ∈ N.links, l.a ∈ N.boundary → (∀ v ∈ l.b.toList, v ∈ N.boundary) → 0 ≤ l.weight)
    (rules : ∀ l ∈ N.links, ∀ r ∈ l.rules, r.a ∉ N.boundary ∧ (∀ v ∈ r.b.toList, v ∉ N.boundary ∧ v ≠ r.a) ∧ ∃ l' ∈ N.links, l'.Joins r.a r.b ∧ 0 ≤ l'.weight * r.weight) : N.Fine where
  few := few
  covered := covered
  le := le
  big := by
    obtain ⟨l, hl, h⟩ := big
    refine .inr ⟨l, hl, le_trans ?_ h⟩
    exact div_le_one_of_le₀ (one_le_pow₀ (by norm_num)) (by positivity)
  pair := fun i j hij x h1 h2 => pair i j hij x (by
    rcases h1.2 with ⟨h, -⟩ | ⟨h, -⟩
    · rw [← h]; exact List.mem_cons_self ..
    · rw [h]; simp) h1 h2
  outside := fun l hl h1 h2 => outside l hl h1 (fun v hv => h2 v (by simpa using hv))
  rules := fun l hl r hr => by
    obtain ⟨h1, h2, h3⟩ := rules l hl r hr
    exact ⟨h1, fun v hv => h2 v (by simp [hv]), h3⟩

theorem ready_plain {N : Net} (h : N.Fine) : N.Ready false := ⟨h, fun h => by cases h⟩

/-- A program. -/
def sampleProg : List Stmt := [
  .addEdge 0 1 { faultIds := .int 0, weight := .fin (-1 / 4) },
  .addBoundaryEdge 1 { weight := .fin 4 },
  .addBoundaryEdge 0 { faultIds := .set {1}, weight := .fin (3 / 2) },
  .decode (.d1 [1, 0]) true false,
  .addEdge 1 2 { qubitId := some (.int 2), weight := .fin (7 / 3) },
  .setBoundaryNodes {2},
  .addEdge 0 1 { weight := .fin 1 },
  .addEdge 0 2 { weight := .fin (2 ^ 30) },
  .decodeBatch false true false false 2 [[1, 1], [0, 1]],
  .ensureNumFaultIds 2,
  .decodeToEdgesArray (.d2 2 1 fun _ _ => 1) false]

/-- The network before the first question, and that before the others. -/
def net1 : Net := ⟨2, [⟨0, some 1, {0}, -1 / 4, -1, ∅⟩, ⟨1, none, ∅, 4, -1, ∅⟩, ⟨0, none, {1}, 3 / 2, -1, ∅⟩], ∅, 2⟩
def net2 : Net := ⟨3, [⟨0, some 1, {0}, -1 / 4, -1, ∅⟩, ⟨1, none, ∅, 4, -1, ∅⟩, ⟨0, none, {1}, 3 / 2, -1, ∅⟩, ⟨1, some 2, {2}, 7 / 3, -1, ∅⟩], {2}, 3⟩

theorem net1_fine : net1.Fine := fine_of (by decide +kernel) (by decide +kernel) (by decide +kernel) (by decide +kernel) (by decide +kernel) (by decide +kernel) (by decide +kernel)
theorem net2_fine : net2.Fine := fine_of (by decide +kernel) (by decide +kernel) (by decide +kernel) (by decide +kernel) (by decide +kernel) (by decide +kernel) (by decide +kernel)

deriving instance DecidableEq for Net

theorem proper_step {mergeW : ℚ → ℚ → ℚ} {N N' : Net} {asked : Prop} {s : Stmt} {prog : List Stmt} (h : (N.after mergeW s).1 = N') (ha : Allowed N asked s)
    (hp : ∀ asked, ProperProgram mergeW N' asked prog) : ProperProgram mergeW N asked (s :: prog) := ⟨ha, by rw [h]; exact hp _⟩

/-- It meets the conditions of C69, also of the version with 32-bit radii. -/
theorem sample_proper : ProperProgram (fun a _ => a) Net.empty False sampleProg := by
  refine proper_step (N' := ⟨2, [⟨0, some 1, {0}, -1 / 4, -1, ∅⟩], ∅, 1⟩) (by decide +kernel) (fun h => by cases h) fun _ => ?_
  refine proper_step (N' := ⟨2, [⟨0, some 1, {0}, -1 / 4, -1, ∅⟩, ⟨1, none, ∅, 4, -1, ∅⟩], ∅, 1⟩) (by decide +kernel) (fun h => by cases h) fun _ => ?_
  refine proper_step (N' := net1) (by decide +kernel) (fun h => by cases h) fun _ => ?_
  refine proper_step (N' := net1) rfl (ready_plain net1_fine) fun _ => ?_
  refine proper_step (N' := ⟨3, net2.links, ∅, 3⟩) (by decide +kernel) (fun h => by cases h) fun _ => ?_
  refine proper_step (N' := net2) (by decide +kernel) trivial fun _ => ?_
  refine proper_step (N' := net2) (by decide +kernel) (fun h => by cases h) fun _ => ?_
  refine proper_step (N' := net2) (by decide +kernel) (fun h => by cases h) fun _ => ?_
  refine proper_step (N' := net2) rfl ⟨ready_plain net2_fine, ?_⟩ fun _ => ?_
  · intro row hr x hx
    have : ∀ row ∈ [[1#8, 1#8], [0#8, 1#8]], ∀ x ∈ readRow false row, x < 3 := by decide +kernel
    exact this row hr x ((fires_iff false row x).2 hx)
  refine proper_step (N' := net2) (by decide +kernel) (fun _ => by decide +kernel) fun _ => ?_
  exact proper_step (N' := net2) rfl (ready_plain net2_fine) fun _ => trivial

theorem sample_small : ∀ m ∈ moments (fun a _ => a) Net.empty sampleProg, Asks m.2 → m.1.Small := by
  have h : ∀ N ∈ (moments (fun a _ => a) Net.empty sampleProg).map Prod.fst, N.nodes ≤ 65 := by decide +kernel
  exact fun m hm _ => .inl (h m.1 (List.mem_map_of_mem hm))

/-- A program that looks at what it builds: an edge added twice with independent errors, a probability that is none, and edges that do not exist. -/
def lookProg : List Stmt := [
  .addEdge 0 1 { faultIds := .int 0, weight := .fin 2, prob := some (1 / 10) },
  .addEdge 1 0 { weight := .fin 2, prob := some (1 / 10), strategy := "independent" },
  .addBoundaryEdge 1 { faultIds := .set {1, 2}, weight := .fin 4, prob := some 7 },
  .setBoundaryNodes {2},
  .look .edges,
  .look (.getBoundaryEdgeData 1),
  .look (.getEdgeData 1 2),
  .look (.hasEdge 1 0),
  .look .numDetectors,
  .look .repr]

instance : DecidablePred Asks := fun s => by unfold Asks; cases s <;> infer_instance
instance : DecidablePred NoNan := fun s => by unfold NoNan; cases s <;> infer_instance

example := C71_inspection (W := int32) (fun a _ => a) lookProg (by decide +kernel) (by decide +kernel)
example := C71_one_link (fun a _ => a) lookProg Net.empty List.Pairwise.nil

/-- The network that is looked at. -/
example : ((moments (fun a _ => a) Net.empty lookProg).map Prod.fst)[4]? =
    some ⟨3, [⟨0, some 1, {0}, 2, 18 / 100, ∅⟩, ⟨1, none, {1, 2}, 4, 7, ∅⟩], {2}, 3⟩ := by decide +kernel

/-- A program that asks for matched pairs. -/
def pairsProg : List Stmt := [
  .addEdge 0 1 { faultIds := .int 0, weight := .fin (1 / 4) },
  .addBoundaryEdge 1 { weight := .fin 4 },
  .addBoundaryEdge 0 { faultIds := .set {1}, weight := .fin (3 / 2) },
  .matchedArray (.d1 [1, 0]),
  .look .numEdges,
  .matchedDict (.d1 [1, 1]),
  .matchedDict .other]

def net3 : Net := ⟨2, [⟨0, some 1, {0}, 1 / 4, -1, ∅⟩, ⟨1, none, ∅, 4, -1, ∅⟩, ⟨0, none, {1}, 3 / 2, -1, ∅⟩], ∅, 2⟩

theorem net3_fine : net3.Fine := fine_of (by decide +kernel) (by decide +kernel) (by decide +kernel) (by decide +kernel) (by decide +kernel) (by decide +kernel) (by decide +kernel)

theorem pairs_proper : ProperProgram (fun a _ => a) Net.empty False pairsProg := by
  refine proper_step (N' := ⟨2, [⟨0, some 1, {0}, 1 / 4, -1, ∅⟩], ∅, 1⟩) (by decide +kernel) (fun h => by cases h) fun _ => ?_
  refine proper_step (N' := ⟨2, [⟨0, some 1, {0}, 1 / 4, -1, ∅⟩, ⟨1, none, ∅, 4, -1, ∅⟩], ∅, 1⟩) (by decide +kernel) (fun h => by cases h) fun _ => ?_
  refine proper_step (N' := net3) (by decide +kernel) (fun h => by cases h) fun _ => ?_
  refine proper_step (N' := net3) rfl net3_fine fun _ => ?_
  refine proper_step (N' := net3) rfl trivial fun _ => ?_
  refine proper_step (N' := net3) rfl net3_fine fun _ => ?_
  exact proper_step (N' := net3) rfl net3_fine fun _ => trivial

example := C69_program _ pairsProg pairs_proper

theorem pairs_proper' : ProperProgram (fun a _ => a) Net.empty False (pairsProg.take 3 ++ [.matchedArray (.d1 [1, 1])]) := by
  refine proper_step (N' := ⟨2, [⟨0, some 1, {0}, 1 / 4, -1, ∅⟩], ∅, 1⟩) (by decide +kernel) (fun h => by cases h) fun _ => ?_
  refine proper_step (N' := ⟨2, [⟨0, some 1, {0}, 1 / 4, -1, ∅⟩, ⟨1, none, ∅, 4, -1, ∅⟩], ∅, 1⟩) (by decide +kernel) (fun h => by cases h) fun _ => ?_
  refine proper_step (N' := net3) (by decide +kernel) (fun h => by cases h) fun _ => ?_
  exact proper_step (N' := net3) rfl net3_fine fun _ => trivial

example := C72_pairs _ _ _ pairs_proper'
example := C72_pairs_int32 _ _ _ pairs_proper' (by
  have h : ∀ N ∈ (moments (fun a _ => a) Net.empty (pairsProg.take 3 ++ [.matchedArray (.d1 [1, 1])])).map Prod.fst, N.nodes ≤ 65 := by decide +kernel
  exact fun m hm _ => .inl (h m.1 (List.mem_map_of_mem hm)))

/-- There, an array is returned, so that C72_same_pairs applies. -/
example : ∃ f o rows, Session.run (fun a _ => a) f Session.new (pairsProg.take 3 ++ [.matchedArray (.d1 [1, 1])]) = some (.ok (rows, o)) ∧ ∃ P, rows.getLast? = some (.pairs P) := by
  obtain ⟨N, rfl, rs, r, o, ⟨f, h1⟩, ⟨u, -, rows, -, rfl⟩ | ⟨rfl, h2⟩⟩ := C72_pairs _ _ _ pairs_proper'
  · exact ⟨f, o, _, h1 f le_rfl, _, List.getLast?_concat ..⟩
  · have hN : Net.empty.afterAll (fun a _ => a) (pairsProg.take 3) = net3 := by decide +kernel
    rw [hN] at h2
    rcases h2 (by unfold Shaped; decide +kernel) with ⟨l, hl, h⟩ | h
    · have : ∀ l ∈ net3.links, ¬ l.weight < 0 := by decide +kernel
      exact absurd h (this l hl)
    · refine absurd ?_ (h {⟨0, by decide +kernel⟩})
      intro x hx
      have e : degreeAt (N := net3) {⟨0, by decide +kernel⟩} x = (if 0 = x then 1 else 0) + (if some 1 = some x then 1 else 0) := by
        unfold degreeAt
        rw [Finset.sum_singleton]
        rfl
      rw [e]
      rcases x with _ | _ | x
      · simp [Fires]
      · simp [Fires]
      · simp [Fires]
example := C69_program _ sampleProg sample_proper
example := C69_program_int32 _ sampleProg sample_proper sample_small

end Verif.Props.Session
