import Verif.World
import Verif.Props.Simulate

/-!
# C87: several objects and one random source

Programs with any number of `Matching` objects, made in any of the usual ways, that sample from the global generator.
-/

namespace Verif.Props.World

open Verif Verif.SB Verif.UG Verif.Obj Verif.Dbl Verif.ConvD Verif.ObjD Verif.Session Verif.Sim Verif.World
open Verif.Props.Session Verif.Props.Simulate
open Verif.Props.MatrixSession (matrixNet matrixLinks)
open Verif.Props.MatrixDecode (Problem)
open Verif.Props.DemSession (demNet)
open Verif.Props.DemRules (corrNet)
open Verif.Props.Object (SameBut)
open Verif.Props.Edges (Completes)
open Verif.Api (strategyOf)
open Verif.Sch (Res)

/-! ## Specification -/

section
variable (R : Source)

/-- The state after `n` random numbers between 0 and 1. -/
def later (st : R.State) : Nat → R.State
  | 0 => st
  | n + 1 => (R.between (later st n) 0 1).2

/-- The random numbers between 0 and 1 from a state on. -/
def stream (st : R.State) (i : Nat) : ℚ := (R.between (later R st i) 0 1).1

/-- The line with its random numbers, for a network with `E` links: a sample takes the next `E` numbers. -/
def lineOf (E : Nat) (st : R.State) : Act → Line
  | .stmt s => .stmt s
  | .sample => .sample (stream R st)
  | .trial corr => .trial (stream R st) corr
  | .trials n corr => .trials ((List.range n).map fun i j => stream R st (E * i + j)) corr

/-- How many random numbers the line takes. -/
def used (E : Nat) : Act → Nat
  | .stmt _ => 0
  | .sample => E
  | .trial _ => E
  | .trials n _ => E * n

/-- What an object is at a moment: its network, whether it was loaded without correlations, whether all links always had a probability, and whether a question was asked since its links or its
boundary were changed. -/
structure Thing where
  net : Net
  without : Bool
  known : Prop
  asked : Prop

/-- All things by name, and the state of the source. -/
structure Room where
  things : Nat → Option Thing
  state : R.State

/-- All links have a probability, whenever a link has been placed. -/
def Through (mergeW : ℚ → ℚ → ℚ) (s : Strategy) : Net → List Link → Prop
  | _, [] => True
  | N, l :: ls => Known (N.place mergeW l s).1 ∧ Through mergeW s (N.place mergeW l s).1 ls

/-- What a constructor makes; `none`: an exception. -/
def Made (A : Arithmetic) : Ctor → Option Thing → Prop
  | .matrix c, t =>
    (c.checkMatrix = none ∧ c.H = none ∧ t = some ⟨Net.empty, false, True, False⟩) ∨
    ∃ (P : Problem ℚ) (s : Strategy), Python.Describes c P ∧ strategyOf c.mergeStrategy = some s ∧ (∀ i, (P.col i).length ≤ 2) ∧ (∀ i, (P.fault i).Nodup) ∧
      t = (matrixNet A.mergeW P c.virtualBoundary s).map fun N =>
        ⟨N, false, Through A.mergeW s ⟨P.rows * P.reps, [], ∅, P.faults⟩ (matrixLinks P c.virtualBoundary), False⟩
  | .model m, t => (∀ e ∈ m.errors, 0 ≤ e.p ∧ e.p < 1) ∧ (∀ e ∈ m.errors, ∀ c ∈ Dem.components e, c.2.Nodup) ∧
      t = (demNet A.mergeW A.lg m).map fun N => ⟨N, true, True, False⟩
  | .correlated m, t => (∀ e ∈ m.errors, 0 ≤ e.p ∧ e.p < 1) ∧ (∀ e ∈ m.errors, ∀ c ∈ Dem.components e, c.2.Nodup) ∧ (∀ e ∈ m.errors, DemRules.Once e) ∧
      t = (corrNet A.joint A.mergeW A.lg m).map fun N => ⟨N, false, True, False⟩

/-- A thing after a line. -/
def Thing.after (mergeW : ℚ → ℚ → ℚ) (t : Thing) (l : Line) : Thing :=
  ⟨afterLine mergeW t.net l, t.without, t.known ∧ Known (afterLine mergeW t.net l),
    (AsksLine t.known l ∨ t.asked) ∧ (afterLine mergeW t.net l).links = t.net.links ∧ (afterLine mergeW t.net l).boundary = t.net.boundary⟩

variable {R}

/-- The line of a thing. -/
def Room.line (room : Room R) (t : Thing) (a : Act) : Line := lineOf R t.net.links.length room.state a

/-- The room after a command.  Random numbers are taken only by samples, and only if all links always had a probability. -/
def Next (A : Arithmetic) (room : Room R) : Command → Room R → Prop
  | .make x c, room' => ∃ t, Made A c t ∧ room' = match t with
      | none => room
      | some t => { room with things := Function.update room.things x (some t) }
  | .act x a, room' => match room.things x with
      | none => room' = room
      | some t => room'.things = Function.update room.things x (some (t.after A.mergeW (room.line t a))) ∧
          (t.known → room'.state = later R room.state (used t.net.links.length a)) ∧ (¬ t.known → room'.state = room.state)
  | .setSeed n, room' => room'.things = room.things ∧ room'.state = if 0 ≤ n ∧ n < 2 ^ 32 then R.seed (BitVec.ofInt 32 n) else room.state
  | .randomize e, room' => room'.things = room.things ∧ room'.state = R.seed e
  | .randFloat a b, room' => room'.things = room.things ∧ room'.state = (R.between room.state a b).2

/-- The condition on a command. -/
def AllowedCommand (room : Room R) : Command → Prop
  | .act x a => ∀ t, room.things x = some t → AllowedLine t.net t.known t.asked (room.line t a)
  | _ => True

/-- What a command gives is right. -/
def RightCommand (A : Arithmetic) (room : Room R) : Command → Result → Prop
  | .make _ c, r => ∃ t, Made A c t ∧ r = if t.isSome then .done else .raised
  | .act x a, r => match room.things x with
      | none => r = .raised
      | some t => ∃ out, r = .out out ∧ RightLine A.mergeW t.without t.net t.known (room.line t a) out
  | .setSeed n, r => r = if 0 ≤ n ∧ n < 2 ^ 32 then .done else .raised
  | .randomize _, r => r = .done
  | .randFloat a b, r => r = .number (R.between room.state a b).1

/-- The commands of a proper program, each with the room at that moment. -/
def Story (A : Arithmetic) : Room R → List Command → List (Room R × Command) → Prop
  | _, [], scenes => scenes = []
  | room, c :: prog, scenes => AllowedCommand room c ∧ ∃ room' rest, scenes = (room, c) :: rest ∧ Next A room c room' ∧ Story A room' prog rest

/-- No objects yet. -/
def Room.empty (st : R.State) : Room R := ⟨fun _ => none, st⟩

/-- No objects yet. -/
def World.empty (st : R.State) : World R := ⟨fun _ => none, st⟩

end

/-! ## Lemmas: the source -/

section
variable {R : Source}

theorem later_add (st : R.State) (m n : Nat) : later R st (m + n) = later R (later R st m) n := by
  induction n with
  | zero => rfl
  | succ n ih =>
    show (R.between (later R st (m + n)) 0 1).2 = _
    rw [ih]
    rfl

theorem stream_add (st : R.State) (m n : Nat) : stream R st (m + n) = stream R (later R st m) n := by
  unfold stream
  rw [later_add]

theorem noise_eq (st : R.State) (es : List (UEdge ℚ)) : ∀ (i : Nat) (err syn : List Bool),
    noiseFrom R (later R st i) es err syn = (noiseLoop (stream R st) i es err syn).map fun r => (r, later R st (i + es.length)) := by
  induction es with
  | nil => intro i err syn; rfl
  | cons e es ih =>
    intro i err syn
    have e1 : i + (e :: es).length = i + 1 + es.length := by simp only [List.length_cons]; omega
    rw [e1]
    simp only [noiseFrom, noiseLoop]
    show (if stream R st i < e.prob then (applyEdge e err syn).bind fun x => noiseFrom R (later R st (i + 1)) es x.1 x.2 else noiseFrom R (later R st (i + 1)) es err syn) = _
    split
    · cases applyEdge e err syn with
      | none => rfl
      | some x => simp only [Option.bind_some]; exact ih (i + 1) x.1 x.2
    · exact ih (i + 1) err syn

theorem sample_eq (g : UGraph ℚ) (st : R.State) :
    sampleFrom R g st = (g.sample (stream R st)).map fun r => (r, if g.allProbs then later R st g.edges.length else st) := by
  unfold sampleFrom UGraph.sample UGraph.addNoise
  cases hp : g.allProbs with
  | false => rfl
  | true =>
    have h := noise_eq (R := R) st g.edges 0 (List.replicate g.numObs false) (List.replicate g.nodes.length false)
    rw [Nat.zero_add] at h
    change noiseFrom R st _ _ _ = _ at h
    rw [h]
    simp only [Bool.not_true, Bool.false_eq_true, if_false, if_true]
    cases noiseLoop (stream R st) 0 g.edges (List.replicate g.numObs false) (List.replicate g.nodes.length false) with
    | none => rfl
    | some x =>
      simp only [Option.map_some]
      split <;> rfl

theorem samples_eq (g : UGraph ℚ) : ∀ (n : Nat) (st : R.State),
    samplesFrom R g n st = (samples g ((List.range n).map fun i j => stream R st (g.edges.length * i + j))).map fun r => (r, if g.allProbs then later R st (g.edges.length * n) else st) := by
  intro n
  induction n with
  | zero => intro st; simp [samplesFrom, samples, later]
  | succ n ih =>
    intro st
    rw [List.range_succ_eq_map, List.map_cons, List.map_map]
    simp only [samplesFrom, samples]
    have h0 : (fun j => stream R st (g.edges.length * 0 + j)) = stream R st := by funext j; simp
    rw [h0, sample_eq]
    cases hs : g.sample (stream R st) with
    | none => rfl
    | some x =>
      have hx : x = none → g.allProbs = false := by
        rintro rfl
        unfold UGraph.sample at hs
        cases hp : g.allProbs with
        | false => rfl
        | true =>
          rw [hp] at hs
          simp at hs
      cases x with
      | none => simp [hx rfl]
      | some s =>
        have hp : g.allProbs = true := by
          unfold UGraph.sample at hs
          cases hp : g.allProbs with
          | true => rfl
          | false =>
            rw [hp] at hs
            cases hs
        simp only [Option.map_some, hp, if_true]
        rw [ih (later R st g.edges.length)]
        have h1 : ((fun i j => stream R st (g.edges.length * i + j)) ∘ Nat.succ) = fun i j => stream R (later R st g.edges.length) (g.edges.length * i + j) := by
          funext i j
          simp only [Function.comp]
          rw [← stream_add]
          congr 1
          rw [Nat.succ_eq_add_one, Nat.mul_add]
          omega
        have h2 : later R (later R st g.edges.length) (g.edges.length * n) = later R st (g.edges.length * (n + 1)) := by
          rw [← later_add]
          congr 1
          rw [Nat.mul_add]
          omega
        rw [h1, h2]
        cases samples g ((List.range n).map fun i j => stream R (later R st g.edges.length) (g.edges.length * i + j)) with
        | none => rfl
        | some l => simp [hp]

theorem act_eq [W : Width] (mergeW : ℚ → ℚ → ℚ) (f : Nat) (o : ObjectD) (st : R.State) (a : Act) :
    act R mergeW f o st a = (Sim.exec mergeW f o (lineOf R o.graph.edges.length st a)).map fun r =>
      r.bind fun x => .ok (x, if o.graph.allProbs then later R st (used o.graph.edges.length a) else st) := by
  cases a with
  | stmt s =>
    have : (if o.graph.allProbs then later R st 0 else st) = st := by split <;> rfl
    simp only [act, lineOf, used, Sim.exec, this]
  | sample =>
    simp only [act, lineOf, used, Sim.exec, sample_eq]
    cases o.graph.sample (stream R st) with
    | none => rfl
    | some x => cases x <;> rfl
  | trial corr =>
    simp only [act, lineOf, used, Sim.exec, sample_eq]
    cases o.graph.sample (stream R st) with
    | none => rfl
    | some x => cases x <;> rfl
  | trials n corr =>
    simp only [act, lineOf, used, Sim.exec, samples_eq]
    cases samples o.graph ((List.range n).map fun i j => stream R st (o.graph.edges.length * i + j)) with
    | none => rfl
    | some x => cases x <;> rfl

end

/-! ## Lemmas: constructors -/

theorem through_calls (mergeW : ℚ → ℚ → ℚ) (s : Strategy) {cs : List (UserGraph.Call ℚ)} {ls : List Link} (h : List.Forall₂ (MatrixSession.Adds s) cs ls) :
    ∀ {g : UGraph ℚ}, WF g → Clean g → (g.allProbs = true → Known (netOf g)) →
      ((UserGraph.run mergeW g cs).allProbs = true ↔ g.allProbs = true ∧ Through mergeW s (netOf g) ls) ∧ ((UserGraph.run mergeW g cs).allProbs = true → Known (netOf (UserGraph.run mergeW g cs))) := by
  induction h with
  | nil => exact fun _ _ hk => ⟨⟨fun h => ⟨h, trivial⟩, fun h => h.1⟩, hk⟩
  | @cons c l cs ls hcl _ ih =>
    intro g hw hc hk
    obtain ⟨h5, obs, h3, h4, rfl⟩ := hcl
    obtain ⟨k1, k2⟩ := place_of mergeW hw hc l.a l.b h3 l.weight l.prob s
    rw [h4] at k2
    have hl : (⟨l.a, l.b, l.faults, l.weight, l.prob, ∅⟩ : Link) = l := by rw [← h5]
    rw [hl] at k2
    have hN : (Net.place mergeW (netOf g) l s).1 = netOf (UserGraph.exec mergeW g (.add l.a l.b obs l.weight l.prob s)).1 := by rw [k2]
    have hf := flag_step mergeW hw (fun h => (known_iff g).1 (hk h)) (.add l.a l.b obs l.weight l.prob s)
    rw [← known_iff] at hf
    obtain ⟨j1, j2⟩ := ih (UserGraph.wf_exec mergeW hw _) k1 fun h => (hf.1 h).2
    refine ⟨?_, j2⟩
    show (UserGraph.run mergeW _ cs).allProbs = true ↔ _
    rw [j1, hf]
    simp only [Through]
    rw [hN]
    tauto

theorem matrix_known {P : Problem ℚ} {a : CM.Args ℚ} (hg : MatrixDecode.Given P a) (h2 : ∀ c, (P.col c).length ≤ 2) (hF : ∀ c, (P.fault c).Nodup) (mergeW : ℚ → ℚ → ℚ)
    {g : UGraph ℚ} (h : CM.loadCheckMatrix mergeW a = .ok g) :
    (g.allProbs = true ↔ Through mergeW a.strategy ⟨P.rows * P.reps, [], ∅, P.faults⟩ (matrixLinks P a.virtualBoundary)) ∧ (g.allProbs = true → Known (netOf g)) := by
  have hl := CheckMatrix.C23_load mergeW (MatrixDecode.fits hg) (by
    intro c hc
    obtain ⟨i, rfl⟩ := List.mem_ofFn.1 hc
    exact h2 i) (MatrixDecode.time_data hg)
  have hall := List.rel_append (MatrixSession.space_adds hg hF) (MatrixSession.time_adds hg)
  have hN0 : netOf (UGraph.new (a.H.numRows * a.reps) a.F.numRows) = ⟨P.rows * P.reps, [], ∅, P.faults⟩ := by
    simp [netOf, UGraph.new, hg.rows, hg.reps, hg.faults]
  obtain ⟨k1, k2⟩ := through_calls mergeW a.strategy hall (g := UGraph.new (a.H.numRows * a.reps) a.F.numRows) (wf_new _ _) (fun e he => by cases he) (fun _ => (known_iff _).2 fun e he => by cases he)
  rw [hN0] at k1
  rw [hl] at h
  split at h
  · cases h
    unfold CheckMatrix.meaning
    rw [CheckMatrix.run_append]
    have hb : ∀ (g : UGraph ℚ) (cs : List (UserGraph.Call ℚ)), (∀ c ∈ cs, ∃ b, c = .setBoundary b) → (UserGraph.run mergeW g cs).allProbs = g.allProbs ∧ (UserGraph.run mergeW g cs).edges = g.edges := by
      intro g cs
      induction cs generalizing g with
      | nil => exact fun _ => ⟨rfl, rfl⟩
      | cons c cs ih =>
        intro hcs
        obtain ⟨b, rfl⟩ := hcs c (List.mem_cons_self ..)
        obtain ⟨i1, i2⟩ := ih (g.setBoundary b) fun c hc => hcs c (List.mem_cons_of_mem _ hc)
        exact ⟨i1, i2⟩
    obtain ⟨b1, b2⟩ := hb (UserGraph.run mergeW (UGraph.new (a.H.numRows * a.reps) a.F.numRows)
      (CheckMatrix.spaceCalls a.H.numRows a.reps a.virtualBoundary a.strategy (CheckMatrix.columnsOf a (List.ofFn P.col) (List.ofFn P.fault)) ++
        CheckMatrix.timeCalls a.H.numRows a.reps a.strategy ((List.ofFn P.timelike).zip (List.ofFn P.misprob))))
      (CheckMatrix.boundaryCalls a.H.numRows a.reps a.virtualBoundary (List.ofFn P.col)) (by
        intro c hc
        unfold CheckMatrix.boundaryCalls at hc
        split at hc
        · exact ⟨_, List.mem_singleton.1 hc⟩
        · cases hc)
    rw [b1, known_iff, b2, ← known_iff]
    exact ⟨k1.trans ⟨fun h => h.2, fun h => ⟨rfl, h⟩⟩, k2⟩
  · cases h

/-- The object is the thing. -/
def Is (t : Thing) (o : ObjectD) : Prop := ∃ g, Stands t.net t.without t.asked g o ∧ (g.allProbs = true ↔ t.known) ∧ (t.known → Known t.net)

/-- The constructor gives the thing. -/
def Gives (A : Arithmetic) (c : Ctor) : Option Thing → Prop
  | none => construct A c = .raise
  | some t => ∃ o, construct A c = .ok o ∧ Is t o

theorem made_is {A : Arithmetic} {c : Ctor} {t : Option Thing} (h : Made A c t) : World.Gives A c t := by
  cases c with
  | matrix c =>
    rcases h with ⟨h1, h2, rfl⟩ | ⟨P, s, h1, h2, h3, h4, rfl⟩
    · refine ⟨Session.new, ?_, _, stands_new, ⟨fun _ => trivial, fun _ => rfl⟩, fun _ l hl => by cases hl⟩
      simp only [construct, Py.construct, h1, h2]
      rfl
    · obtain ⟨a, hg, rfl, hv, hload⟩ := Python.arguments_of h1 h2
      obtain ⟨l1, l2⟩ := hload A.mergeW
      rw [← hv]
      rcases MatrixSession.matrix_stands hg h3 h4 A.mergeW with ⟨N, g, k1, k2, k3⟩ | ⟨k1, k2⟩
      · obtain ⟨j1, j2⟩ := matrix_known hg h3 h4 A.mergeW k2
        rw [k1]
        refine ⟨ObjectD.of g false, by simp only [construct, l2, k2], g, k3, j1, fun h => ?_⟩
        have := j2 (j1.2 h)
        rwa [k3.net] at this
      · rw [k1]
        show construct A (.matrix c) = .raise
        simp only [construct, l2, k2]
  | model m =>
    obtain ⟨h1, h2, rfl⟩ := h
    obtain ⟨N, k1, k2⟩ := DemSession.dem_stands A.mergeW A.lg m (fun e he => (h1 e he).1) h2
    obtain ⟨k3, k4⟩ := load_sure A.mergeW m h1 h2 A.lg k1
    rw [k1]
    exact ⟨_, rfl, _, k2, ⟨fun _ => trivial, fun _ => k3⟩, fun _ => k4⟩
  | correlated m =>
    obtain ⟨h1, h2, h3, rfl⟩ := h
    rcases DemRules.corr_stands A.joint A.mergeW A.lg m h2 h3 with ⟨N, g, k1, k2, k3⟩ | ⟨k1, k2⟩
    · obtain ⟨k4, k5⟩ := corr_sure A.mergeW m h1 h2 A.lg A.joint k2
      rw [k3.net] at k5
      rw [k1]
      exact ⟨ObjectD.of g false, by simp only [construct, k2], g, k3, ⟨fun _ => trivial, fun _ => k4⟩, fun _ => k5⟩
    · rw [k1]
      show construct A (.correlated m) = .raise
      simp only [construct, k2]

/-! ## Lemmas: programs -/

section
variable {R : Source}

/-- The world is the room. -/
structure Same (room : Room R) (w : World R) : Prop where
  state : w.state = room.state
  things : ∀ x, Option.Rel Is (room.things x) (w.objs x)

/-- The questions of a command work. -/
def WorksCommand [W : Width] (room : Room R) : Command → Prop
  | .act x a => ∀ t, room.things x = some t → WorksLine t.net t.known (room.line t a)
  | _ => True

theorem rel_update {room : Nat → Option Thing} {objs : Nat → Option ObjectD} (h : ∀ x, Option.Rel Is (room x) (objs x)) (x : Nat) {t : Thing} {o : ObjectD} (hto : Is t o) (y : Nat) :
    Option.Rel Is (Function.update room x (some t) y) (Function.update objs x (some o) y) := by
  by_cases e : y = x
  · subst e
    simpa using Option.Rel.some hto
  · rw [Function.update_of_ne e, Function.update_of_ne e]
    exact h y

theorem command_core [W : Width] (A : Arithmetic) {room : Room R} {w : World R} (hs : Same room w) {c : Command} (ha : AllowedCommand room c) (hw : WorksCommand room c) {room' : Room R}
    (hn : Next A room c room') : ∃ r w', Completes (fun f => World.exec A f w c) (.ok (r, w')) ∧ Same room' w' ∧ RightCommand A room c r := by
  cases c with
  | make x c =>
    obtain ⟨t, h1, rfl⟩ := hn
    have h2 := made_is h1
    cases t with
    | none =>
      have h3 : construct A c = .raise := h2
      exact ⟨.raised, w, ⟨0, fun f _ => by simp only [World.exec, h3]⟩, hs, none, h1, rfl⟩
    | some t =>
      obtain ⟨o, h3, h4⟩ := h2
      refine ⟨.done, { w with objs := Function.update w.objs x (some o) }, ⟨0, fun f _ => by simp only [World.exec, h3]⟩, ⟨hs.state, rel_update hs.things x h4⟩, some t, h1, rfl⟩
  | act x a =>
    have hx := hs.things x
    simp only [Next] at hn
    simp only [RightCommand]
    cases ht : room.things x with
    | none =>
      rw [ht] at hx hn
      simp only at hn
      subst hn
      cases ho : w.objs x with
      | some o => rw [ho] at hx; cases hx
      | none => exact ⟨.raised, w, ⟨0, fun f _ => by simp only [World.exec, ho]⟩, hs, rfl⟩
    | some t =>
      rw [ht] at hx hn
      cases ho : w.objs x with
      | none => rw [ho] at hx; cases hx
      | some o =>
        rw [ho] at hx
        obtain ⟨g, k1, k2, k3⟩ : Is t o := by cases hx; assumption
        obtain ⟨n1, n2, n3⟩ := hn
        obtain ⟨out, o', g', ⟨f0, c0⟩, k5, k6, k7⟩ := line_core A.mergeW k1 k2 k3 (ha t ht) (hw t ht)
        have hb : SameBut g o.graph := k1.inv.same
        have hE : o.graph.edges.length = t.net.links.length := by
          obtain ⟨b, hb⟩ := hb
          rw [hb, ← k1.net]
          simp [netOf]
        have hP : o.graph.allProbs = g.allProbs := by
          obtain ⟨b, hb⟩ := hb
          rw [hb]
        refine ⟨.out out, ⟨Function.update w.objs x (some o'), room'.state⟩, ⟨f0, fun f hf => ?_⟩, ⟨rfl, fun y => ?_⟩, out, rfl, k7⟩
        · have e1 := c0 f hf
          simp only at e1
          have e2 : (if o.graph.allProbs then later R w.state (used o.graph.edges.length a) else w.state) = room'.state := by
            rw [hP, hE, hs.state]
            by_cases hk : t.known
            · rw [if_pos (k2.2 hk), n2 hk]
            · rw [if_neg fun h => hk (k2.1 h), n3 hk]
          simp only [World.exec, ho, act_eq, e2]
          unfold Room.line at e1
          rw [hE, hs.state, e1]
          rfl
        · rw [n1]
          exact rel_update hs.things x (t := t.after A.mergeW (room.line t a)) ⟨g', k5, k6, fun h => And.right h⟩ y
  | setSeed n =>
    obtain ⟨h1, h2⟩ := hn
    by_cases hn : 0 ≤ n ∧ n < 2 ^ 32
    · rw [if_pos hn] at h2
      refine ⟨.done, { w with state := R.seed (BitVec.ofInt 32 n) }, ⟨0, fun f _ => by simp only [World.exec, if_pos hn]⟩, ⟨h2.symm, fun x => ?_⟩, ?_⟩
      · rw [h1]; exact hs.things x
      · simp only [RightCommand, if_pos hn]
    · rw [if_neg hn] at h2
      refine ⟨.raised, w, ⟨0, fun f _ => by simp only [World.exec, if_neg hn]⟩, ⟨hs.state.trans h2.symm, fun x => ?_⟩, ?_⟩
      · rw [h1]; exact hs.things x
      · simp only [RightCommand, if_neg hn]
  | randomize e =>
    obtain ⟨h1, h2⟩ := hn
    exact ⟨.done, { w with state := R.seed e }, ⟨0, fun f _ => rfl⟩, ⟨h2.symm, fun x => by rw [h1]; exact hs.things x⟩, rfl⟩
  | randFloat a b =>
    obtain ⟨h1, h2⟩ := hn
    refine ⟨.number (R.between w.state a b).1, { w with state := (R.between w.state a b).2 }, ⟨0, fun f _ => rfl⟩, ⟨?_, fun x => by rw [h1]; exact hs.things x⟩, ?_⟩
    · rw [h2, ← hs.state]
    · show _ = _
      rw [hs.state]

theorem story_core [W : Width] (A : Arithmetic) : ∀ (prog : List Command) (room : Room R) (w : World R) (scenes : List (Room R × Command)), Same room w → Story A room prog scenes →
    (∀ m ∈ scenes, WorksCommand m.1 m.2) →
    ∃ rs w', Completes (fun f => World.run A f w prog) (.ok (rs, w')) ∧ List.Forall₂ (fun (m : Room R × Command) r => RightCommand A m.1 m.2 r) scenes rs := by
  intro prog
  induction prog with
  | nil => rintro room w scenes - rfl -; exact ⟨[], w, ⟨0, fun f _ => rfl⟩, .nil⟩
  | cons c prog ih =>
    rintro room w scenes hs ⟨ha, room', rest, rfl, hn, hst⟩ hw
    obtain ⟨r, w', ⟨f1, c1⟩, h2, h3⟩ := command_core A hs ha (hw _ (List.mem_cons_self ..)) hn
    obtain ⟨rs, w'', ⟨f2, c2⟩, hall⟩ := ih room' w' rest h2 hst fun m hm => hw m (List.mem_cons_of_mem _ hm)
    refine ⟨r :: rs, w'', ⟨max f1 f2, fun f hf => ?_⟩, .cons h3 hall⟩
    have e1 := c1 f (le_trans (le_max_left _ _) hf)
    have e2 := c2 f (le_trans (le_max_right _ _) hf)
    simp only at e1 e2
    simp only [World.run, e1, e2, Res.bind]

/-! ## Theorems -/

/-- C87: a Python program with any number of `Matching` objects.  If it is proper, it ends without undefined behaviour, and each command gives what it should: about the object's own network at
that moment, with the random numbers at the current position of the one generator. -/
theorem C87_program (A : Arithmetic) (st : R.State) (prog : List Command) (scenes : List (Room R × Command)) (hs : Story A (Room.empty st) prog scenes) :
    ∃ rs w, Completes (fun f => World.run A f (World.empty st) prog) (.ok (rs, w)) ∧ List.Forall₂ (fun (m : Room R × Command) r => RightCommand A m.1 m.2 r) scenes rs :=
  story_core (W := unbounded) A prog _ _ scenes ⟨rfl, fun _ => .none⟩ hs fun m _ => by
    unfold WorksCommand
    split
    · exact fun t _ => worksLine_of _ _ _
    · trivial

/-- C87 for the library as compiled, with its 32-bit wrapped radius: if the networks asked about are small enough. -/
theorem C87_program_int32 (A : Arithmetic) (st : R.State) (prog : List Command) (scenes : List (Room R × Command)) (hs : Story A (Room.empty st) prog scenes)
    (hn : ∀ m ∈ scenes, ∀ x a t, m.2 = .act x a → m.1.things x = some t → AsksLine t.known (m.1.line t a) → t.net.Small) :
    ∃ rs w, Completes (fun f => World.run (W := int32) A f (World.empty st) prog) (.ok (rs, w)) ∧ List.Forall₂ (fun (m : Room R × Command) r => RightCommand A m.1 m.2 r) scenes rs :=
  story_core (W := int32) A prog _ _ scenes ⟨rfl, fun _ => .none⟩ hs fun m hm => by
    have := hn m hm
    unfold WorksCommand
    split
    · rename_i x a e
      exact fun t ht => worksLine_small (this x a t e ht)
    · trivial

/-- C87: after `set_seed(n)`, what a program gives does not depend on the state of the generator before. -/
theorem C87_seed [W : Width] (A : Arithmetic) (f : Nat) (objs : Nat → Option ObjectD) (st st' : R.State) {n : Int} (hn : 0 ≤ n ∧ n < 2 ^ 32) (prog : List Command) :
    World.run A f ⟨objs, st⟩ (.setSeed n :: prog) = World.run A f ⟨objs, st'⟩ (.setSeed n :: prog) := by
  simp only [World.run, World.exec, if_pos hn]

theorem sampled_unique {N : Net} {draw : Nat → ℚ} {s s' : Sample} (h : Sampled N draw s) (h' : Sampled N draw s') : s = s' := by
  refine Prod.ext (List.ext_getElem? fun k => ?_) (List.ext_getElem? fun k => ?_)
  · by_cases hk : k < N.ids
    · rw [h.noise k hk, h'.noise k hk]
    · rw [List.getElem?_eq_none (by rw [h.ids]; omega), List.getElem?_eq_none (by rw [h'.ids]; omega)]
  · by_cases hk : k < N.nodes
    · rw [h.syndrome k hk, h'.syndrome k hk]
    · rw [List.getElem?_eq_none (by rw [h.nodes]; omega), List.getElem?_eq_none (by rw [h'.nodes]; omega)]

/-- C87: equal networks at equal states of the generator get equal samples, whatever the objects are called, however they were made, and whatever was asked before. -/
theorem C87_determined (A A' : Arithmetic) {room room' : Room R} {x y : Nat} {t t' : Thing} (hx : room.things x = some t) (hy : room'.things y = some t') (hN : t.net = t'.net)
    (hk : t.known ↔ t'.known) (hst : room.state = room'.state) {r r' : Result} (h : RightCommand A room (.act x .sample) r) (h' : RightCommand A' room' (.act y .sample) r') : r = r' := by
  simp only [RightCommand, hx, hy] at h h'
  obtain ⟨out, rfl, h⟩ := h
  obtain ⟨out', rfl, h'⟩ := h'
  simp only [Room.line, lineOf, RightLine, hN, hst, hk] at h h'
  rcases h with ⟨h1, s, h2, rfl⟩ | ⟨h1, rfl⟩ <;> rcases h' with ⟨h3, s', h4, rfl⟩ | ⟨h3, rfl⟩
  · rw [sampled_unique h2 h4]
  · exact absurd h1 h3
  · exact absurd h3 h1
  · rfl

/-! ## Theorem: objects do not disturb each other -/

/-- The command may matter for object `x`: all but making other objects and statements on other objects that do not sample. -/
def Concerns (x : Nat) : Command → Bool
  | .make y _ => y = x
  | .act y (.stmt _) => y = x
  | _ => true

/-- C87: leaving out statements on other objects, and other objects that are made, changes nothing for the remaining commands on object `x`.  (Samples on other objects are not left out: they take
random numbers.) -/
theorem C87_apart [W : Width] (A : Arithmetic) (f x : Nat) (prog : List Command) (ho : ∀ c ∈ prog, Concerns x c = true → ∀ y a, c = .act y a → y = x) :
    ∀ (w v : World R) (rs : List Result) (w' : World R), w.objs x = v.objs x → w.state = v.state → World.run A f w prog = some (.ok (rs, w')) →
      ∃ v', World.run A f v (prog.filter (Concerns x)) = some (.ok (((prog.zip rs).filter fun m => Concerns x m.1).map Prod.snd, v')) ∧ w'.objs x = v'.objs x ∧ w'.state = v'.state := by
  induction prog with
  | nil =>
    intro w v rs w' h1 h2 h3
    simp only [World.run, Option.some.injEq, Res.ok.injEq, Prod.mk.injEq] at h3
    obtain ⟨rfl, rfl⟩ := h3
    exact ⟨v, rfl, h1, h2⟩
  | cons c prog ih =>
    intro w v rs w' h1 h2 h3
    have ih := ih fun c hc => ho c (List.mem_cons_of_mem _ hc)
    have ho := ho c (List.mem_cons_self ..)
    simp only [World.run] at h3
    cases he : World.exec A f w c with
    | none => rw [he] at h3; cases h3
    | some y =>
      rw [he] at h3
      cases y with
      | ub => cases h3
      | throws => cases h3
      | ok y =>
        obtain ⟨r, w1⟩ := y
        simp only at h3
        cases hr : World.run A f w1 prog with
        | none => rw [hr] at h3; cases h3
        | some z =>
          rw [hr] at h3
          cases z with
          | ub => cases h3
          | throws => cases h3
          | ok z =>
            obtain ⟨rs1, w2⟩ := z
            simp only [Res.bind, Option.some.injEq, Res.ok.injEq, Prod.mk.injEq] at h3
            obtain ⟨rfl, rfl⟩ := h3
            by_cases hc : Concerns x c = true
            · have key : ∃ v1, World.exec A f v c = some (.ok (r, v1)) ∧ w1.objs x = v1.objs x ∧ w1.state = v1.state := by
                cases c with
                | make y c =>
                  have hy : y = x := by simpa [Concerns] using hc
                  subst hy
                  simp only [World.exec] at he ⊢
                  cases hk : construct A c with
                  | ok o =>
                    rw [hk] at he
                    simp only [Option.some.injEq, Res.ok.injEq, Prod.mk.injEq] at he
                    obtain ⟨rfl, rfl⟩ := he
                    exact ⟨_, rfl, by simp, h2⟩
                  | raise =>
                    rw [hk] at he
                    simp only [Option.some.injEq, Res.ok.injEq, Prod.mk.injEq] at he
                    obtain ⟨rfl, rfl⟩ := he
                    exact ⟨_, rfl, h1, h2⟩
                  | ub => rw [hk] at he; cases he
                | act y a =>
                  have hy : y = x := ho hc y a rfl
                  subst hy
                  simp only [World.exec] at he ⊢
                  rw [← h1, ← h2]
                  cases hk : w.objs y with
                  | none =>
                    rw [hk] at he
                    simp only [Option.some.injEq, Res.ok.injEq, Prod.mk.injEq] at he
                    obtain ⟨rfl, rfl⟩ := he
                    exact ⟨_, rfl, h1, h2⟩
                  | some o =>
                    rw [hk] at he
                    simp only at he ⊢
                    cases hq : act R A.mergeW f o w.state a with
                    | none => rw [hq] at he; cases he
                    | some q =>
                      rw [hq] at he
                      cases q with
                      | ub => cases he
                      | throws => cases he
                      | ok q =>
                        simp only [Res.bind, Option.some.injEq, Res.ok.injEq, Prod.mk.injEq] at he
                        obtain ⟨rfl, rfl⟩ := he
                        exact ⟨_, rfl, by simp, rfl⟩
                | setSeed n =>
                  simp only [World.exec] at he ⊢
                  split at he <;> simp only [Option.some.injEq, Res.ok.injEq, Prod.mk.injEq] at he <;> obtain ⟨rfl, rfl⟩ := he
                  · rename_i hn
                    exact ⟨{ v with state := R.seed (BitVec.ofInt 32 n) }, by rw [if_pos hn], h1, rfl⟩
                  · rename_i hn
                    exact ⟨v, by rw [if_neg hn], h1, h2⟩
                | randomize e =>
                  simp only [World.exec, Option.some.injEq, Res.ok.injEq, Prod.mk.injEq] at he
                  obtain ⟨rfl, rfl⟩ := he
                  exact ⟨_, rfl, h1, rfl⟩
                | randFloat a b =>
                  simp only [World.exec, Option.some.injEq, Res.ok.injEq, Prod.mk.injEq] at he
                  obtain ⟨rfl, rfl⟩ := he
                  exact ⟨{ v with state := (R.between v.state a b).2 }, by simp only [World.exec, h2], h1, by rw [h2]⟩
              obtain ⟨v1, e1, e2, e3⟩ := key
              obtain ⟨v', k1, k2, k3⟩ := ih w1 v1 rs1 w2 e2 e3 hr
              refine ⟨v', ?_, k2, k3⟩
              simp only [List.filter_cons, hc, if_true, World.run, e1, k1, Res.bind, List.zip_cons_cons, List.map_cons]
            · have key : w1.objs x = w.objs x ∧ w1.state = w.state := by
                cases c with
                | make y c =>
                  have hy : x ≠ y := fun e => hc (by simp [Concerns, e])
                  simp only [World.exec] at he
                  cases hk : construct A c with
                  | ok o =>
                    rw [hk] at he
                    simp only [Option.some.injEq, Res.ok.injEq, Prod.mk.injEq] at he
                    obtain ⟨-, rfl⟩ := he
                    exact ⟨Function.update_of_ne hy _ _, rfl⟩
                  | raise =>
                    rw [hk] at he
                    simp only [Option.some.injEq, Res.ok.injEq, Prod.mk.injEq] at he
                    obtain ⟨-, rfl⟩ := he
                    exact ⟨rfl, rfl⟩
                  | ub => rw [hk] at he; cases he
                | act y a =>
                  cases a with
                  | stmt s =>
                    have hy : x ≠ y := fun e => hc (by simp [Concerns, e])
                    simp only [World.exec] at he
                    cases hk : w.objs y with
                    | none =>
                      rw [hk] at he
                      simp only [Option.some.injEq, Res.ok.injEq, Prod.mk.injEq] at he
                      obtain ⟨-, rfl⟩ := he
                      exact ⟨rfl, rfl⟩
                    | some o =>
                      rw [hk] at he
                      simp only [World.act] at he
                      cases hq : put Out.reply (Session.exec A.mergeW f o s) with
                      | none => rw [hq] at he; cases he
                      | some q =>
                        rw [hq] at he
                        cases q with
                        | ub => cases he
                        | throws => cases he
                        | ok q =>
                          simp only [Option.map_some, Res.bind, Option.some.injEq, Res.ok.injEq, Prod.mk.injEq] at he
                          obtain ⟨-, rfl⟩ := he
                          exact ⟨Function.update_of_ne hy _ _, rfl⟩
                  | sample => exact absurd rfl hc
                  | trial corr => exact absurd rfl hc
                  | trials n corr => exact absurd rfl hc
                | setSeed n => exact absurd rfl hc
                | randomize e => exact absurd rfl hc
                | randFloat a b => exact absurd rfl hc
              obtain ⟨v', k1, k2, k3⟩ := ih w1 v rs1 w2 (key.1.trans h1) (key.2.trans h2) hr
              refine ⟨v', ?_, k2, k3⟩
              simp only [List.filter_cons, hc, List.zip_cons_cons]
              simpa using k1

end

/-! ## Examples -/

section
variable {R : Source} {A : Arithmetic}

instance (N : Net) : Decidable (Known N) := by unfold Known IsProb; infer_instance

instance (mergeW : ℚ → ℚ → ℚ) (s : Strategy) : ∀ (N : Net) (ls : List Link), Decidable (Through mergeW s N ls)
  | _, [] => isTrue trivial
  | N, l :: ls => by
    have := instDecidableThrough mergeW s (N.place mergeW l s).1 ls
    unfold Through
    infer_instance

/-- All networks are small. -/
def Few (room : Room R) : Prop := ∀ x t, room.things x = some t → t.net.nodes ≤ 65

theorem few_update {room : Room R} (h : Few room) (x : Nat) {t : Thing} (ht : t.net.nodes ≤ 65) (st : R.State) : Few ⟨Function.update room.things x (some t), st⟩ := by
  intro y t' h'
  by_cases e : y = x
  · subst e
    simp at h'
    rw [← h']
    exact ht
  · have h' : Function.update room.things x (some t) y = some t' := h'
    rw [Function.update_of_ne e] at h'
    exact h y t' h'

/-- The program is proper from this room on. -/
def Good (A : Arithmetic) (room : Room R) (prog : List Command) : Prop := Few room → ∃ scenes, Story A room prog scenes ∧ ∀ m ∈ scenes, Few m.1

theorem good_cons {room room' : Room R} {c : Command} {prog : List Command} (ha : AllowedCommand room c) (hn : Next A room c room') (hf : Few room → Few room') (h : Good A room' prog) :
    Good A room (c :: prog) := by
  intro hr
  obtain ⟨scenes, h1, h2⟩ := h (hf hr)
  exact ⟨(room, c) :: scenes, ⟨ha, room', scenes, rfl, hn, h1⟩, fun m hm => (List.mem_cons.1 hm).elim (fun e => e ▸ hr) (h2 m)⟩

theorem good_state {room : Room R} {c : Command} {prog : List Command} (hc : (∃ n, c = .setSeed n) ∨ (∃ e, c = .randomize e) ∨ ∃ a b, c = .randFloat a b)
    (h : ∀ st : R.State, Good A (⟨room.things, st⟩ : Room R) prog) : Good A room (c :: prog) := by
  rcases hc with ⟨n, rfl⟩ | ⟨e, rfl⟩ | ⟨a, b, rfl⟩
  · exact good_cons (room' := ⟨room.things, if 0 ≤ n ∧ n < 2 ^ 32 then R.seed (BitVec.ofInt 32 n) else room.state⟩) trivial ⟨rfl, rfl⟩ (fun h => h) (h _)
  · exact good_cons (room' := ⟨room.things, R.seed e⟩) trivial ⟨rfl, rfl⟩ (fun h => h) (h _)
  · exact good_cons (room' := ⟨room.things, (R.between room.state a b).2⟩) trivial ⟨rfl, rfl⟩ (fun h => h) (h _)

theorem good_make {room : Room R} {x : Nat} {c : Ctor} {t : Thing} {prog : List Command} (h : Made A c (some t)) (ht : t.net.nodes ≤ 65)
    (hs : Good A ⟨Function.update room.things x (some t), room.state⟩ prog) : Good A room (.make x c :: prog) :=
  good_cons trivial ⟨some t, h, rfl⟩ (fun hr => few_update hr x ht _) hs

theorem good_act {room : Room R} {x : Nat} {a : Act} {t : Thing} {N' : Net} {prog : List Command} (ht : room.things x = some t) (hk : t.known)
    (ha : AllowedLine t.net t.known t.asked (room.line t a)) (hN : afterLine A.mergeW t.net (room.line t a) = N') (hK : Known N') (hs : N'.nodes ≤ 65)
    (h : ∀ (asked : Prop) (st : R.State), Good A (⟨Function.update room.things x (some ⟨N', t.without, True, asked⟩), st⟩ : Room R) prog) : Good A room (.act x a :: prog) := by
  refine good_cons (room' := ⟨Function.update room.things x (some (t.after A.mergeW (room.line t a))), later R room.state (used t.net.links.length a)⟩) ?_ ?_ (fun hr => few_update hr x ?_ _) ?_
  · intro t' ht'
    rw [ht] at ht'
    cases ht'
    exact ha
  · simp only [Next]
    rw [ht]
    exact ⟨rfl, fun _ => rfl, fun h => absurd hk h⟩
  · show (afterLine A.mergeW t.net (room.line t a)).nodes ≤ 65
    rw [hN]
    exact hs
  · have e : t.known ∧ Known (afterLine A.mergeW t.net (room.line t a)) ↔ True := by rw [hN]; simp [hk, hK]
    have := h ((AsksLine t.known (room.line t a) ∨ t.asked) ∧ (afterLine A.mergeW t.net (room.line t a)).links = t.net.links ∧ (afterLine A.mergeW t.net (room.line t a)).boundary = t.net.boundary)
      (later R room.state (used t.net.links.length a))
    unfold Thing.after
    rw [propext e, hN]
    rw [hN] at this
    exact this

end

/-- `Matching([[1, 1, 0], [0, 1, 1]], error_probabilities=0.1, use_virtual_boundary_node=True)`. -/
def repCall : Py.Call ℚ where
  checkMatrix := some (Py.dense 2 3 fun i j => if i = j ∨ i + 1 = j then 1 else 0)
  errorProbabilities := .array [1 / 10, 1 / 10, 1 / 10]
  virtualBoundary := true

def repProblem : Problem ℚ where
  rows := 2
  faults := 3
  n := 3
  reps := 1
  col := ![[0], [0, 1], [1]]
  fault := ![[0], [1], [2]]
  weight := fun _ => 1
  prob := ![1 / 10, 1 / 10, 1 / 10]
  timelike := fun _ => 1
  misprob := fun _ => -1

theorem rep_describes : Python.Describes repCall repProblem where
  matrix := ⟨_, .inl rfl, rfl, by simp only [Py.dense]; decide, by simp only [Py.dense]; decide⟩
  weights := .inl ⟨rfl, rfl⟩
  probs := ⟨rfl, fun _ => by simp [repCall]⟩
  reps := .inr ⟨rfl, rfl⟩
  time := fun h => absurd h (by decide)
  faults := .inl ⟨rfl, rfl, by decide⟩

def repNet : Net := ⟨2, [⟨0, none, {0}, 1, 1 / 10, ∅⟩, ⟨0, some 1, {1}, 1, 1 / 10, ∅⟩, ⟨1, none, {2}, 1, 1 / 10, ∅⟩], ∅, 3⟩

def demoNet : Net := ⟨2, [⟨0, none, {0}, 2, 1 / 10, ∅⟩, ⟨0, some 1, ∅, 1, 13 / 50, ∅⟩, ⟨1, none, ∅, 2, 1 / 10, ∅⟩], ∅, 1⟩

/-- An arithmetic in which networks are easy to compute. -/
def plain : Arithmetic := ⟨fun a _ => a, fun p => if p = 1 / 10 then 2 else 1, .exact⟩

theorem rep_made : Made plain (.matrix repCall) (some ⟨repNet, false, True, False⟩) := by
  refine .inr ⟨repProblem, .smallestWeight, rep_describes, rfl, ?_, ?_, ?_⟩
  · show ∀ i : Fin 3, ((![[0], [0, 1], [1]] : Fin 3 → List Nat) i).length ≤ 2
    decide
  · show ∀ i : Fin 3, ((![[0], [1], [2]] : Fin 3 → List Nat) i).Nodup
    decide
  · have h1 : matrixNet plain.mergeW repProblem repCall.virtualBoundary .smallestWeight = some repNet := by decide +kernel
    have h2 : Through plain.mergeW .smallestWeight ⟨repProblem.rows * repProblem.reps, [], ∅, repProblem.faults⟩ (matrixLinks repProblem repCall.virtualBoundary) := by decide +kernel
    rw [h1, Option.map_some, eq_true h2]

theorem demo_made : Made plain (.model Arithmetic.sampleD) (some ⟨demoNet, true, True, False⟩) := by
  refine ⟨DemSession.sampleD_probs, DemSession.sampleD_nodup, ?_⟩
  have h1 : demNet plain.mergeW plain.lg Arithmetic.sampleD = some demoNet := by decide +kernel
  rw [h1, Option.map_some]

theorem rep_ready (corr : Bool) : repNet.Ready corr :=
  ⟨fine_of (by decide +kernel) (by decide +kernel) (by decide +kernel) (by decide +kernel) (by decide +kernel) (by decide +kernel) (by decide +kernel), fun _ => by decide +kernel⟩

theorem demo_ready (corr : Bool) : demoNet.Ready corr :=
  ⟨fine_of (by decide +kernel) (by decide +kernel) (by decide +kernel) (by decide +kernel) (by decide +kernel) (by decide +kernel) (by decide +kernel), fun _ => by decide +kernel⟩

/-- A check matrix, a detector error model and an empty object, used in turn. -/
def several : List Command := [
  .make 0 (.matrix repCall),
  .make 1 (.model Arithmetic.sampleD),
  .setSeed 7,
  .act 0 .sample,
  .act 1 (.stmt (.look .numEdges)),
  .act 1 (.trial false),
  .randFloat 2 5,
  .act 0 (.trials 2 true),
  .make 2 (.matrix {}),
  .act 2 .sample,
  .act 1 (.trials 3 false),
  .setSeed (-1),
  .randomize 5]

theorem several_good {R : Source} (st : R.State) : Good plain (Room.empty st) several := by
  refine good_make rep_made (by decide) ?_
  refine good_make demo_made (by decide) ?_
  refine good_state (.inl ⟨7, rfl⟩) fun _ => ?_
  refine good_act (N' := repNet) (by simp; rfl) trivial (fun _ => (rep_ready false).1.covered) rfl (by decide +kernel) (by decide) fun _ _ => ?_
  refine good_act (N' := demoNet) (by simp; rfl) trivial trivial rfl (by decide +kernel) (by decide) fun _ _ => ?_
  refine good_act (N' := demoNet) (by simp; rfl) trivial (fun _ => demo_ready false) rfl (by decide +kernel) (by decide) fun _ _ => ?_
  refine good_state (.inr (.inr ⟨2, 5, rfl⟩)) fun _ => ?_
  refine good_act (N' := repNet) (by simp; rfl) trivial (fun _ => rep_ready true) rfl (by decide +kernel) (by decide) fun _ _ => ?_
  refine good_make (.inl ⟨rfl, rfl, rfl⟩) (by decide) ?_
  refine good_act (N' := Net.empty) (by simp; rfl) trivial (fun _ l hl => by cases hl) rfl (by decide +kernel) (by decide) fun _ _ => ?_
  refine good_act (N' := demoNet) (by simp; rfl) trivial (fun _ => demo_ready false) rfl (by decide +kernel) (by decide) fun _ _ => ?_
  refine good_state (.inl ⟨-1, rfl⟩) fun _ => ?_
  exact good_state (.inr (.inl ⟨5, rfl⟩)) fun _ _ => ⟨[], rfl, fun m hm => by cases hm⟩

example {R : Source} (st : R.State) : ∃ scenes, Story plain (Room.empty st) several scenes ∧
    (∃ rs w, Completes (fun f => World.run plain f (World.empty st) several) (.ok (rs, w)) ∧ List.Forall₂ (fun (m : Room R × Command) r => RightCommand plain m.1 m.2 r) scenes rs) ∧
    ∃ rs w, Completes (fun f => World.run (W := int32) plain f (World.empty st) several) (.ok (rs, w)) ∧ List.Forall₂ (fun (m : Room R × Command) r => RightCommand plain m.1 m.2 r) scenes rs := by
  obtain ⟨scenes, h1, h2⟩ := several_good st fun x t h => by cases h
  exact ⟨scenes, h1, C87_program plain st several scenes h1, C87_program_int32 plain st several scenes h1 fun m hm x a t _ ht _ => .inl (h2 m hm x t ht)⟩

example {R : Source} [W : Width] (f : Nat) (objs : Nat → Option ObjectD) (st st' : R.State) := C87_seed plain f objs st st' (n := 7) (by decide) several

/-- A room with only the repetition code. -/
def alone {R : Source} (st : R.State) (y : Nat) (asked : Prop) : Room R := ⟨fun x => if x = y then some ⟨repNet, false, True, asked⟩ else none, st⟩

/-- Two rooms in which the repetition code has different names. -/
example {R : Source} (st : R.State) {r r' : Result} (h : RightCommand plain (alone st 0 False) (.act 0 .sample) r) (h' : RightCommand plain (alone st 3 True) (.act 3 .sample) r') : r = r' :=
  C87_determined plain plain (room := alone st 0 False) (room' := alone st 3 True) (t := ⟨repNet, false, True, False⟩) (t' := ⟨repNet, false, True, True⟩) (if_pos rfl) (if_pos rfl) rfl Iff.rfl rfl h h'

/-- The program that C87_apart is applied to: statements on object 1 between samples on object 0. -/
example : ∀ c ∈ [Command.make 0 (.matrix repCall), .make 1 (.model Arithmetic.sampleD), .act 0 .sample, .act 1 (.stmt (.decode (.d1 [1, 1]) true false)), .setSeed 3, .act 0 (.trial true)],
    Concerns 0 c = true → ∀ y a, c = .act y a → y = 0 := by
  intro c hc hcon y a e
  subst e
  simp at hc
  rcases hc with ⟨h, -⟩ | ⟨rfl, rfl⟩ | ⟨h, -⟩
  · exact h
  · simp [Concerns] at hcon
  · exact h

end Verif.Props.World
