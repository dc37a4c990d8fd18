import Verif.Props.Agree
import Verif.Props.AgreeWide
import Verif.Props.Trace

/-!
# C89 in programs with more than 64 fault ids
-/

namespace Verif.Props.AgreeProgram

open Verif Verif.SB Verif.Props.Session
open Verif.Props.Edges (Completes completes_unique)
open Verif.Session (Stmt run)
open Verif.Props.Trace (Idle idle_of completes_cons run_append start_of after_idle)
open Verif.Sch (Res)

/-! ## Specification -/

/-- The replies to `decode` and to `decode_to_edges_array` describe one set of links, or both are exceptions. -/
def OneView (N : Net) (r r' : Session.Reply) : Prop :=
  (∃ row es, r = .array row ∧ r' = .edges es ∧ Agree.Agree N row es) ∨ (r = .raised ∧ r' = .raised)

/-- In a program that first builds and then only asks and looks: every `decode(z)` and every `decode_to_edges_array(z)` of the second part. -/
def Views (N : Net) (questions : List Stmt) (replies : List Session.Reply) : Prop :=
  ∀ (i j : Nat) (z : Syn.Arr) (r r' : Session.Reply), questions[i]? = some (.decode z false false) → questions[j]? = some (.decodeToEdgesArray z false) →
    replies[i]? = some r → replies[j]? = some r' → OneView N r r'

/-! ## Lemmas: one object -/

section
open Verif.Graph Verif.CE Verif.UG Verif.Conv Verif.Obj Verif.Props.Correlated Verif.Props.Shots Verif.Props.EndToEnd Verif.Props.UserEdges Verif.Props.UserGraph Verif.Props.Decode
open Verif.Props.Object Verif.Props.Answers

variable {K : Type} [Field K] [LinearOrder K] [IsStrictOrderedRing K] [FloorRing K]
variable {g : UGraph K}

theorem both_new (hw : WF g) (hB : Props.Convert.BndOk g) {without : Bool} {d1 : Decoder K} (h1 : toMwpm g without true = some d1) (hs : Solid g d1) (hcov : Covered g)
    (hbig : 64 < g.numObs) {events : List Nat} (hev : EventsOk g events) :
    ∃ a b, Fresh1 (W := unbounded) g without (.decode false events) a ∧ Fresh1 (W := unbounded) g without (.edges false events) b ∧
      ((∃ row w es, ∃ C : Choice g, a = .predictions row w ∧ b = .edges es ∧ row.length = g.numObs ∧
        (∀ k, k < g.numObs → row[k]? = some (if EndToEnd.crossed C k % 2 = 1 then 1#8 else 0#8)) ∧ Returned es C) ∨ (a = .exception ∧ b = .exception)) := by
  obtain ⟨ins, c, φ, hW⟩ := whole hw hB hcov h1
  obtain ⟨p, d, s, e, hh, hsr⟩ := decoderFor_held hw hB h1 hs (inv_of g without) true
  obtain ⟨-, -, st1, r1, k1⟩ := stand_in h1 hs hh.ready
  have hv : Valid d1.P.mg events := ⟨hev.1, by rw [hs.len]; exact hev.2⟩
  obtain ⟨r, st', e1, e2, -⟩ := plain_told hW.built hs.quiet r1 hv
    (promise_obs _ _ d1.P.bnd d1.P.mask events (buf := List.replicate g.numObs 0#8) (by simp) 0) (fun a => Reply.predictions a.1 a.2)
  obtain ⟨q, st'', e3, e4, -⟩ := plain_told hW.built hs.quiet r1 hv (promise_edges _ _ d1.P.bnd d1.P.mask events) Reply.edges
  obtain ⟨st, e5, -⟩ := k1 (.obs false events (List.replicate g.numObs 0#8) 0) r st' (fun h => (by cases h)) e2 e1
  obtain ⟨st2, ⟨f0, e6⟩, -⟩ := k1 (.edges false events) q st'' (fun _ => hsr rfl) e4 e3
  have hf := CliRun.fresh_of hw hB h1 hs hh.ready (corr := false) (fun h => (by cases h)) (fun h => (by cases h)) hev e5
  have m1 : withM d1.P.mg st1.wg.mem = d1.P.mg := by rw [r1.matching]; exact withM_mem _
  have m2 : withS d1.sg st1.ws.mem = d1.sg := by rw [r1.search]; exact withS_mem _
  rcases Agree.both_spec (bnd := d1.P.bnd) hW.built hbig hs.quiet r1.full hv (List.length_replicate (n := g.numObs) (a := 0#8)) 0 with
    ⟨F1, F2, buf, es, x, h2, h3, h4, -, h5, h6⟩ | ⟨F1, F2, h2, h3, -⟩
  · have a1 := completes_unique e1 (Agree.tell_ok (plain_ok (g := d1.P.mg) (sg := d1.sg) (st := st1)
      (call := fun f g' sg F => decodeObs g' sg d1.P.bnd d1.P.mask f F events (List.replicate g.numObs 0#8) 0) (by rw [m1, m2]; exact h2)))
    have a2 := completes_unique e3 (Agree.tell_ok (plain_ok (g := d1.P.mg) (sg := d1.sg) (st := st1)
      (call := fun f g sg F => decodeEdges g sg d1.P.bnd f F events) (by rw [m1, m2]; exact h3)))
    cases a1
    cases a2
    refine ⟨_, .edges es, hf, ⟨{ p with cache := some { d with st := st2 } }, f0, fun f hf => ?_⟩, .inl ⟨buf, _, es, lift hW.origin.inj x, rfl, rfl, h4, fun k hk => ?_, returned_lift hW.origin h5⟩⟩
    · have := e6 f hf
      simp only at this
      simp only [Object.ask, e, Object.call, this]
    · rw [h6, lift_crossed hW.origin, List.getElem?_replicate, if_pos hk]
      simp [parity]
  · have a1 := completes_unique e1 (Agree.tell_throws (plain_throws (g := d1.P.mg) (sg := d1.sg) (st := st1)
      (call := fun f g' sg F => decodeObs g' sg d1.P.bnd d1.P.mask f F events (List.replicate g.numObs 0#8) 0) (by rw [m1, m2]; exact h2)))
    have a2 := completes_unique e3 (Agree.tell_throws (plain_throws (g := d1.P.mg) (sg := d1.sg) (st := st1)
      (call := fun f g sg F => decodeEdges g sg d1.P.bnd f F events) (by rw [m1, m2]; exact h3)))
    cases a1
    cases a2
    refine ⟨_, .exception, hf, ⟨{ p with cache := some { d with st := st2 } }, f0, fun f hf => ?_⟩, .inr ⟨rfl, rfl⟩⟩
    have := e6 f hf
    simp only at this
    simp only [Object.ask, e, Object.call, this]

end

section
open Verif.UG Verif.Obj Verif.Dbl Verif.ConvD Verif.ObjD Verif.Props.UserEdges Verif.Props.UserGraph Verif.Props.Object Verif.Props.Double Verif.Props.DoubleHistory
open Verif.Session (valueOf)

/-- Two questions about the same graph, asked of two objects that stand for it. -/
theorem views_of [W : Width] (mergeW : ℚ → ℚ → ℚ) {g : UGraph ℚ} {N : Net} {wo : Bool} {asked asked' : Prop} {o1 o2 : ObjectD} (h1 : Stands N wo asked g o1) (h2 : Stands N wo asked' g o2)
    (hbig : 64 < N.ids) {z : Syn.Arr} (ha : Allowed N asked (.decode z false false)) (hw : Works N (.decode z false false)) (hw' : Works N (.decodeToEdgesArray z false))
    {r1 r2 : Session.Reply} {p1 p2 : ObjectD} (c1 : Completes (fun f => Session.exec mergeW f o1 (.decode z false false)) (.ok (r1, p1)))
    (c2 : Completes (fun f => Session.exec mergeW f o2 (.decodeToEdgesArray z false)) (.ok (r2, p2))) : OneView N r1 r2 := by
  have hdet : ∀ {a o}, Stands N wo a g o → o.graph.numDetectors = g.numDetectors ∧ o.graph.boundary = g.boundary := by
    intro a o hs
    obtain ⟨b, e⟩ := hs.inv.same
    rw [e]
    exact ⟨rfl, rfl⟩
  simp only [Session.exec, (hdet h1).1, (hdet h1).2] at c1
  simp only [Session.exec, (hdet h2).1, (hdet h2).2] at c2
  rcases shaped_iff h1.bnd z with ⟨k1, k2⟩ | ⟨events, k1, k2, k3, k4⟩
  · rw [k1] at c1 c2
    obtain ⟨f1, e1⟩ := c1
    obtain ⟨f2, e2⟩ := c2
    have k1 := e1 f1 (le_refl _)
    have k2 := e2 f2 (le_refl _)
    cases k1
    cases k2
    exact .inr ⟨rfl, rfl⟩
  · rw [k1] at c1 c2
    have hq : queryOf g (.decode z false false) = some (.decode false events) := by simp [queryOf, k1]
    have hq' : queryOf g (.decodeToEdgesArray z false) = some (.edges false events) := by simp [queryOf, k1]
    obtain ⟨a, q1, e1, -, -, k, c, a0, hk, hA, hF, rfl⟩ := question_first h1 ha.1 (q := .decode false events) (fun h => by cases h) (fun _ => k3)
      (hw g h1.wf h1.bnd h1.net ha.1 _ hq (fun h => by cases h) _ (fun _ => k3))
    obtain ⟨b, q2, e2, -, -, k', c', b0, hk', hA', hF', rfl⟩ := question_first h2 ha.1 (q := .edges false events) (fun h => by cases h) (fun _ => k3)
      (hw' g h1.wf h1.bnd h1.net ha.1 _ hq' (fun h => by cases h) _ (fun _ => k3))
    obtain rfl := const_unique hk hk'
    have d1 := completes_unique (completes_ask e1 false) c1
    have d2 := completes_unique (completes_ask e2 false) c2
    cases d1
    cases d2
    have hw0 := int_wf (c := c') h1.wf
    have hB0 := int_bnd (c := c') h1.bnd
    obtain ⟨d, hd⟩ := hA.builds
    have hN : 64 < (intGraph c' g).numObs := by
      have := h1.net
      subst this
      exact hbig
    obtain ⟨a1, b1, f1, f2, h⟩ := both_new hw0 hB0 hd (solid hw0 hB0 hA.covered hd) hA.covered hN hA.fits
    obtain rfl := fresh1_unique hF f1
    obtain rfl := fresh1_unique hF' f2
    rcases h with ⟨row, w, es, C, rfl, rfl, t1, t2, t3⟩ | ⟨rfl, rfl⟩
    · left
      refine ⟨row, es, rfl, rfl, ?_⟩
      have hn := h1.net
      have hc := h1.clean
      subst hn
      refine ⟨Session.up (back C), lists_up (back_returned t3), tells_up hc ⟨t1, fun k hk => ?_⟩⟩
      rw [back_crossed]
      exact t2 k hk
    · exact .inr ⟨rfl, rfl⟩

/-- Questions and looks, one after the other. -/
theorem idle_run [W : Width] (mergeW : ℚ → ℚ → ℚ) : ∀ (qs : List Stmt) (N : Net) (wo : Bool) (asked : Prop) (g : UGraph ℚ) (o : ObjectD), Stands N wo asked g o →
    ProperProgram mergeW N asked qs → (∀ m ∈ moments mergeW N qs, Works m.1 m.2) → (∀ s ∈ qs, Idle s) →
    ∃ rs o', Completes (fun f => run mergeW f o qs) (.ok (rs, o')) ∧ rs.length = qs.length ∧
      List.Forall₂ (fun s r => ∃ (asked' : Prop) (p p' : ObjectD), Stands N wo asked' g p ∧ Allowed N asked' s ∧ Works N s ∧ Completes (fun f => Session.exec mergeW f p s) (.ok (r, p'))) qs rs := by
  intro qs
  induction qs with
  | nil => intro N wo asked g o _ _ _ _; exact ⟨[], o, ⟨0, fun f _ => rfl⟩, rfl, .nil⟩
  | cons s qs ih =>
    intro N wo asked g o hs hp hw hi
    obtain ⟨ha, hp⟩ := hp
    have hw1 := hw _ (List.mem_cons_self ..)
    have e := after_idle mergeW N (hi s (List.mem_cons_self ..))
    obtain ⟨r, o', c1, s1⟩ := idle_of mergeW hs ha (hi s (List.mem_cons_self ..)) hw1
    have s1' : Stands (N.after mergeW s).1 wo ((Asks s ∨ asked) ∧ (N.after mergeW s).1.links = N.links ∧ (N.after mergeW s).1.boundary = N.boundary) g o' := by
      rw [e]
      exact Trace.stands_weak s1 fun h => ⟨h, rfl, rfl⟩
    obtain ⟨rs, o'', c2, hl, hall⟩ := ih _ wo _ g o' s1' hp (fun m hm => hw m (List.mem_cons_of_mem _ hm)) (fun s hs => hi s (List.mem_cons_of_mem _ hs))
    rw [e] at hall
    exact ⟨r :: rs, o'', completes_cons c1 c2, by simp [hl], .cons ⟨asked, o, o', hs, ha, hw1, c1⟩ hall⟩

theorem views_core [W : Width] (mergeW : ℚ → ℚ → ℚ) {qs : List Stmt} {N : Net} {wo : Bool} {asked : Prop} {g : UGraph ℚ} {o : ObjectD} (hs : Stands N wo asked g o)
    (hp : ProperProgram mergeW N asked qs) (hw : ∀ m ∈ moments mergeW N qs, Works m.1 m.2) (hi : ∀ s ∈ qs, Idle s) (hbig : 64 < N.ids) :
    ∃ rs o', Completes (fun f => run mergeW f o qs) (.ok (rs, o')) ∧ rs.length = qs.length ∧ Views N qs rs := by
  obtain ⟨rs, o', c, hl, hall⟩ := idle_run mergeW qs N wo asked g o hs hp hw hi
  refine ⟨rs, o', c, hl, fun i j z r r' h1 h2 h3 h4 => ?_⟩
  have key : ∀ (n : Nat) (s : Stmt) (r : Session.Reply), qs[n]? = some s → rs[n]? = some r →
      ∃ (asked' : Prop) (p p' : ObjectD), Stands N wo asked' g p ∧ Allowed N asked' s ∧ Works N s ∧ Completes (fun f => Session.exec mergeW f p s) (.ok (r, p')) := by
    intro n s r hm hr
    obtain ⟨n1, rfl⟩ := List.getElem?_eq_some_iff.1 hm
    obtain ⟨n2, rfl⟩ := List.getElem?_eq_some_iff.1 hr
    exact hall.get n1 n2
  obtain ⟨x, p, p', u1, u2, u3, u4⟩ := key i _ _ h1 h3
  obtain ⟨y, q, q', v1, v2, v3, v4⟩ := key j _ _ h2 h4
  exact views_of mergeW u1 v1 hbig u2 u3 v3 u4 v4

end

/-! ## C89 -/

/-- C89 for programs with more than 64 fault ids: `decode(z)` and `decode_to_edges_array(z)`, asked of the same graph, describe one correction, also if there are several that are optimal; or both
raise.  Missing: up to 64 fault ids, where it is false (`C89_statement_false`). -/
theorem C89_wide_program_partial (mergeW : ℚ → ℚ → ℚ) (prog questions : List Stmt) (hq : ∀ s ∈ questions, Idle s) (hp : ProperProgram mergeW Net.empty False (prog ++ questions))
    (hbig : 64 < (Net.empty.afterAll mergeW prog).ids) :
    ∃ replies replies' o, Completes (fun f => run mergeW f Session.new (prog ++ questions)) (.ok (replies ++ replies', o)) ∧ replies'.length = questions.length ∧
      Views (Net.empty.afterAll mergeW prog) questions replies' := by
  obtain ⟨asked, g, rs, o, c1, hs, hp, hw⟩ := start_of (W := unbounded) mergeW _ prog _ _ _ _ _ stands_new hp fun m _ => works_of m.1 m.2
  obtain ⟨rs', o', c2, hl, h⟩ := views_core (W := unbounded) mergeW hs hp hw hq hbig
  exact ⟨rs, rs', o', run_append c1 c2, hl, h⟩

/-- The same for the library as compiled, with its 32-bit wrapped radius: if the networks asked about are small enough. -/
theorem C89_wide_program_int32_partial (mergeW : ℚ → ℚ → ℚ) (prog questions : List Stmt) (hq : ∀ s ∈ questions, Idle s) (hp : ProperProgram mergeW Net.empty False (prog ++ questions))
    (hn : ∀ m ∈ moments mergeW Net.empty (prog ++ questions), Asks m.2 → m.1.Small) (hbig : 64 < (Net.empty.afterAll mergeW prog).ids) :
    ∃ replies replies' o, Completes (fun f => run (W := int32) mergeW f Session.new (prog ++ questions)) (.ok (replies ++ replies', o)) ∧ replies'.length = questions.length ∧
      Views (Net.empty.afterAll mergeW prog) questions replies' := by
  obtain ⟨asked, g, rs, o, c1, hs, hp, hw⟩ := start_of (W := int32) mergeW _ prog _ _ _ _ _ stands_new hp fun m hm => works_small (hn m hm)
  obtain ⟨rs', o', c2, hl, h⟩ := views_core (W := int32) mergeW hs hp hw hq hbig
  exact ⟨rs, rs', o', run_append (W := int32) c1 c2, hl, h⟩

/-! ## Example -/

/-- The square of `C89_statement_false` with 65 fault ids. -/
def wideBuild : List Stmt := [.addEdge 0 1 { faultIds := .int 0 }, .addEdge 1 2 { }, .addEdge 2 3 { faultIds := .int 64 }, .addEdge 3 0 { }]

/-- Opposite corners, and a look in between. -/
def wideAsk : List Stmt := [.decode (.d1 [1, 0, 1, 0]) false false, .look .numEdges, .decodeToEdgesArray (.d1 [1, 0, 1, 0]) false]

def wide : Net := ⟨4, [⟨0, some 1, {0}, 1, -1, ∅⟩, ⟨1, some 2, ∅, 1, -1, ∅⟩, ⟨2, some 3, {64}, 1, -1, ∅⟩, ⟨3, some 0, ∅, 1, -1, ∅⟩], ∅, 65⟩

theorem wide_fine : wide.Fine := fine_of (by decide +kernel) (by decide +kernel) (by decide +kernel) (by decide +kernel) (by decide +kernel) (by decide +kernel) (by decide +kernel)

theorem wide_proper : ProperProgram (fun a _ => a) Net.empty False (wideBuild ++ wideAsk) := by
  refine proper_step (N' := ⟨2, wide.links.take 1, ∅, 1⟩) (by decide +kernel) (fun h => by cases h) fun _ => ?_
  refine proper_step (N' := ⟨3, wide.links.take 2, ∅, 1⟩) (by decide +kernel) (fun h => by cases h) fun _ => ?_
  refine proper_step (N' := ⟨4, wide.links.take 3, ∅, 65⟩) (by decide +kernel) (fun h => by cases h) fun _ => ?_
  refine proper_step (N' := wide) (by decide +kernel) (fun h => by cases h) fun _ => ?_
  refine proper_step (N' := wide) rfl (ready_plain wide_fine) fun _ => ?_
  refine proper_step (N' := wide) rfl trivial fun _ => ?_
  exact proper_step (N' := wide) rfl (ready_plain wide_fine) fun _ => trivial

/-- The two answers at the end of the program. -/
def answers : Option (Res (List Session.Reply × ObjD.ObjectD)) → Option (List (BitVec 8) × List (Nat × Option Nat))
  | some (.ok ([_, _, _, _, .array row, _, .edges es], _)) => some (row, es)
  | _ => none

/-- The hypotheses hold; both calls take the way with fault id 64. -/
example : (∀ s ∈ wideAsk, Idle s) ∧ ProperProgram (fun a _ => a) Net.empty False (wideBuild ++ wideAsk) ∧ 64 < (Net.empty.afterAll (fun a _ => a) wideBuild).ids ∧
    (∀ m ∈ moments (fun a _ => a) Net.empty (wideBuild ++ wideAsk), Asks m.2 → m.1.Small) ∧
    answers (run (fun a _ => a) 20 Session.new (wideBuild ++ wideAsk)) = some ((List.replicate 65 0).set 64 1, [(3, some 0), (3, some 2)]) := by
  refine ⟨?_, wide_proper, by decide +kernel, fun m hm _ => .inl ?_, by decide +kernel⟩
  · intro s hs
    simp only [wideAsk, List.mem_cons, List.not_mem_nil, or_false] at hs
    rcases hs with rfl | rfl | rfl
    · exact .inl trivial
    · exact .inr ⟨_, rfl⟩
    · exact .inl trivial
  · have h : ∀ N ∈ (moments (fun a _ => a) Net.empty (wideBuild ++ wideAsk)).map Prod.fst, N.nodes ≤ 65 := by decide +kernel
    exact h m.1 (List.mem_map_of_mem hm)

end Verif.Props.AgreeProgram
