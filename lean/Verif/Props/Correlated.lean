import Verif.Blossom.Conditional

/-!
# Properties of decoding with edge correlations (C51)

A decoder with correlations is a fresh one or one that was used before: any sequence of completed calls of any kind, with and without correlations,
whether they returned or raised.
-/

namespace Verif.Props.Correlated

open Verif Verif.Graph Verif.CE Verif.SB Verif.Props.Graph Verif.Props.NegWeights Verif.Props.Decode Verif.Props.Edges Verif.Props.Convert
open Verif.UG Verif.Conv
open Verif.Sch (Res Fresh)

variable {K : Type} [Field K] [LinearOrder K] [FloorRing K]

/-! ## Specification -/

/-- The inserted edges, without their implied weights. -/
abbrev opsOf (ins : List (Conv.Ins K)) : List EdgeIns := ins.map toGraphIns

/-- The `i`-th inserted edge with its implied weights. -/
def insAt (ins : List (Conv.Ins K)) (i : Fin (opsOf ins).length) : Conv.Ins K := ins[i.1]'(by simpa using i.2)

/-- The weights that edge `j` may have in the second pass if `c` is the solution of the first: its own, and those that the edges of `c` (which are
no self-loops) imply for it, discretised with the constant `k`. -/
def offers (ins : List (Conv.Ins K)) (k : K) (c : Correction (opsOf ins)) (j : Fin (opsOf ins).length) : Set Int :=
  {x | x = ((opsOf ins)[j]).w ∨
    ∃ i ∈ c, ¬ IsLoop (opsOf ins)[i] ∧ ∃ r ∈ impliedOf (insAt ins i), s(some r.node1, r.node2) = endsOf (opsOf ins)[j] ∧ x = |disc (k / 2) r.weight|}

/-- `ω` are the weights of the second pass if `c` is the solution of the first: for each edge the least one on offer. -/
def Conditional (ins : List (Conv.Ins K)) (k : K) (c : Correction (opsOf ins)) (ω : Fin (opsOf ins).length → Int) : Prop :=
  ∀ j, IsLeast (offers ins k c j) (ω j)

/-- The total of the weights `ω`. -/
def totalOf {ops : List EdgeIns} (ω : Fin ops.length → Int) (c : Correction ops) : Int := ∑ i ∈ c, ω i

/-- A decoder with correlations that was built from `ins`: all implied weights could be converted. -/
structure LoadedCorr (numNodes numObs : Nat) (ins : List (Conv.Ins K)) (k : K) (g : MGraph) (sg : SGraph) (m : ObsInt) (C : Corr) : Prop where
  built : Built numNodes numObs (opsOf ins) g sg m
  rulesM : convertTable (adjM g) k (table numNodes ins) = .ok C.rg
  rulesS : convertTable (adjS sg) k (table numNodes ins) = .ok C.rs

/-- The same, where no implied weight is for an edge of negative weight. -/
structure BuiltCorr (numNodes numObs : Nat) (ins : List (Conv.Ins K)) (k : K) (g : MGraph) (sg : SGraph) (m : ObsInt) (C : Corr) : Prop
    extends LoadedCorr numNodes numObs ins k g sg m C where
  pos : ∀ i ∈ ins, ∀ r ∈ impliedOf i, ∀ j ∈ ins, endsOf (toGraphIns j) = s(some r.node1, r.node2) → 0 ≤ (toGraphIns j).w

/-- The decoder is at rest, and all weights of both graphs are as they were built. -/
structure Rest (g : MGraph) (sg : SGraph) (st : CState) : Prop where
  full : Idle st.full
  matching : st.wg = ⟨memM g, []⟩
  search : st.ws = ⟨memS sg, []⟩

/-- The calls that a decoder takes; `corr` is `enable_correlations`. -/
inductive Call where
  | obs (corr : Bool) (events : List Nat) (buf : List (BitVec 8)) (w : Int)
  | edges (corr : Bool) (events : List Nat)
  | mask (corr : Bool) (events : List Nat)
  | pairs (events : List Nat)

/-- The arguments that a caller may pass. -/
def Call.Acceptable (g : MGraph) : Call → Prop
  | .obs _ events buf _ => Valid g events ∧ buf.length = g.numObs
  | .edges _ events => Valid g events
  | .mask _ events => Valid g events
  | .pairs events => Valid g events

/-- The outcome without the returned values. -/
def forget {α : Type} : Option (EndedC (CState × α)) → Option (EndedC CState)
  | none => none
  | some .ub => some .ub
  | some (.throws st) => some (.throws st)
  | some (.ok (st, _)) => some (.ok st)

/-- What a call does to the decoder. -/
def perform [W : Width] (g : MGraph) (sg : SGraph) (bnd : List Bool) (m : ObsInt) (C : Corr) (f : Nat) (st : CState) : Call → Option (EndedC CState)
  | .obs true events buf w => forget (decodeObsCorr g sg bnd m C f st events buf w)
  | .obs false events buf w => forget (plain g sg (fun g sg F => decodeObs g sg bnd m f F events buf w) st)
  | .edges true events => forget (decodeEdgesCorr g sg bnd C f st events)
  | .edges false events => forget (plain g sg (fun g sg F => decodeEdges g sg bnd f F events) st)
  | .mask true events => forget (decode64Corr g sg bnd m C f st events)
  | .mask false events => forget (plain g sg (call64 bnd m f events) st)
  | .pairs events => forget (plain g sg (callPairs bnd f events) st)

/-- `UsedCorr g sg bnd m C st`: the decoder is in state `st` after any sequence of completed calls. -/
inductive UsedCorr [W : Width] (g : MGraph) (sg : SGraph) (bnd : List Bool) (m : ObsInt) (C : Corr) : CState → Prop where
  | fresh : UsedCorr g sg bnd m C (CState.init g sg)
  | returned {st st' : CState} {call : Call} (h : UsedCorr g sg bnd m C st) (ha : call.Acceptable g)
      (hd : Completes (fun f => perform g sg bnd m C f st call) (.ok st')) : UsedCorr g sg bnd m C st'
  | raised {st st' : CState} {call : Call} (h : UsedCorr g sg bnd m C st) (ha : call.Acceptable g)
      (hd : Completes (fun f => perform g sg bnd m C f st call) (.throws st')) : UsedCorr g sg bnd m C st'

/-! ## Lemmas -/

section

variable {numNodes numObs : Nat} {ins : List (Conv.Ins K)} {k : K} {g : MGraph} {sg : SGraph} {m : ObsInt} {C : Corr} {bnd : List Bool}

/-- A call that may be made on every built graph, and what it promises. -/
def Promises {α : Type} (numNodes numObs : Nat) (bnd : List Bool) (m : ObsInt) (events : List Nat) (call : Nat → MGraph → SGraph → Full → Option (Ended (Full × α)))
    (P : ∀ ops : List EdgeIns, Correction ops → α → Prop) : Prop :=
  ∀ (ops : List EdgeIns) (g : MGraph) (sg : SGraph), Built numNodes numObs ops g sg m → (∀ d ∈ g.negDets, TL.notBoundary bnd d = true) → Valid g events →
    ∀ F, Idle F →
    (∃ F' a, Completes (fun f => call f g sg F) (.ok (F', a)) ∧ Idle F' ∧ ∃ c : Correction ops, Optimal weight c (counted bnd events) ∧ P ops c a) ∨
    (∃ F', Completes (fun f => call f g sg F) (.throws F') ∧ Idle F' ∧ ∀ c : Correction ops, ¬ Explains c (counted bnd events))

theorem plain_ok {α : Type} {call : Nat → MGraph → SGraph → Full → Option (Ended (Full × α))} {st : CState} {F : Full} {a : α}
    (h : Completes (fun f => call f (withM g st.wg.mem) (withS sg st.ws.mem) st.full) (.ok (F, a))) :
    Completes (fun f => plain g sg (call f) st) (.ok ({ st with full := F }, a)) := by
  obtain ⟨f0, h⟩ := h
  refine ⟨f0, fun f hf => ?_⟩
  have := h f hf
  simp only at this
  simp only [plain, this]

theorem plain_throws {α : Type} {call : Nat → MGraph → SGraph → Full → Option (Ended (Full × α))} {st : CState} {F : Full}
    (h : Completes (fun f => call f (withM g st.wg.mem) (withS sg st.ws.mem) st.full) (.throws F)) :
    Completes (fun f => plain g sg (call f) st) (.throws { st with full := F }) := by
  obtain ⟨f0, h⟩ := h
  refine ⟨f0, fun f hf => ?_⟩
  have := h f hf
  simp only at this
  simp only [plain, this]

theorem op_at (hB : Built numNodes numObs (opsOf ins) g sg m) {op : EdgeIns} (hop : op ∈ opsOf ins) (h1 : ¬ IsLoop op) {u : Nat} {t : Option Nat}
    (h2 : endsOf op = s(some u, t)) : ∃ z, At (adjM g) u z t := by
  have hg := proper_of_run hB.matching hB.edges.pairs hB.edges.even hB.edges.small
  have hlen := (C13_adjacency numNodes numObs _ g hB.matching).1
  have hr := in_range hB.matching hop
  have key : ∀ u t r, (seenBdry u op = some r ∨ seenFrom u op = some r) → u < g.nodes.length → r.1 = t →
      ∃ z, At (adjM g) u z t := by
    intro u t r hs hu ht
    obtain ⟨z, n, h3, h4⟩ := op_slot hB.matching hu hop hs
    exact ⟨z, at_entry.2 ⟨n, h3, h4.1.trans ht⟩⟩
  clear hop
  cases op with
  | edge a b w o =>
    have hab : ¬ a = b := h1
    obtain ⟨ha, hb⟩ := hr
    simp only [endsOf, Sym2.eq_iff] at h2
    rcases h2 with ⟨h2, h3⟩ | ⟨h2, h3⟩
    · cases h2; subst h3
      exact key _ _ (some b, w, o) (.inr (by simp [seenFrom, hab])) ha rfl
    · subst h2; cases h3
      exact key _ _ (some a, w, o) (.inr (by simp [seenFrom, hab])) hb rfl
  | bdry a w o =>
    have ha : a < g.nodes.length := hr
    simp only [endsOf, Sym2.eq_iff] at h2
    rcases h2 with ⟨h2, h3⟩ | ⟨h2, h3⟩
    · cases h2; subst h3
      exact key _ _ (none, w, o) (.inl (by simp [seenBdry])) ha rfl
    · cases h3

theorem listed_at (hB : Built numNodes numObs (opsOf ins) g sg m) {es : List (Nat × Option Nat)} {c : Correction (opsOf ins)} (hl : Lists es c) :
    ∀ e ∈ es, ∃ z, At (adjM g) e.1 z e.2 := by
  intro e he
  obtain ⟨i, -, h1, h2⟩ := (hl.2 (symOf e)).1 (List.mem_map_of_mem he)
  exact op_at hB (List.getElem_mem i.2) h1 h2

theorem rules_same (hB : BuiltCorr numNodes numObs ins k g sg m C) : C.rs = C.rg := by
  have h := hB.rulesS
  rw [adj_same hB.built, hB.rulesM] at h
  exact (Res.ok.inj h).symm

theorem firstPass_spec (hB : BuiltCorr numNodes numObs ins k g sg m C) (hb : ∀ d ∈ g.negDets, TL.notBoundary bnd d = true) {st : CState} (hst : Rest g sg st)
    {events : List Nat} (hv : Valid g events) :
    (∃ F rs, Completes (fun f => firstPass g sg bnd C f st events)
        (.ok ⟨F, (⟨memM g, []⟩ : RW.State).apply rs, (⟨memS sg, []⟩ : RW.State).apply rs⟩) ∧ C.without = false ∧ Idle F ∧
      ∃ c : Correction (opsOf ins), Optimal weight c (counted bnd events) ∧ ∃ es, Lists es c ∧ RulesFor (adjM g) k ins es rs) ∨
    (∃ st', Completes (fun f => firstPass g sg bnd C f st events) (.throws st') ∧ Rest g sg st' ∧
      (C.without = true ∨ ∀ c : Correction (opsOf ins), ¬ Explains c (counted bnd events))) := by
  have hg := proper_of_run hB.built.matching hB.built.edges.pairs hB.built.edges.even hB.built.edges.small
  obtain ⟨F0, wg0, ws0⟩ := st
  obtain ⟨hF, h1, h2⟩ := hst
  simp only at h1 h2 hF
  subst h1 h2
  have hM : withM g (memM g) = g := withM_mem g
  have hS : withS sg (memS sg) = sg := withS_mem sg
  rcases decodeEdges_spec hB.built hb hF hv with ⟨F, es, ⟨f0, h1⟩, h2, c, h3, -, h5⟩ | ⟨F, ⟨f0, h1⟩, h2, h3⟩
  · cases hw : C.without with
    | true =>
      right
      refine ⟨⟨F, ⟨memM g, []⟩, ⟨memS sg, []⟩⟩, ⟨f0, fun f hf => ?_⟩, ⟨h2, rfl, rfl⟩, .inl rfl⟩
      have := h1 f hf
      simp only at this
      simp only [firstPass, plain, hM, hS, this, hw, if_true]
    | false =>
      left
      obtain ⟨rs, k1, k2⟩ := reweightFor_spec (linked_run hB.built.matching) (fair_of_proper hg) hB.rulesM es ⟨memM g, []⟩ (listed_at hB.built h5)
      refine ⟨F, rs, ⟨f0, fun f hf => ?_⟩, rfl, h2, c, h3, es, h5, k2⟩
      have := h1 f hf
      simp only at this
      have k3 := k1
      rw [← mem_same hB.built] at k3
      simp only [firstPass, plain, hM, hS, this, hw, Bool.false_eq_true, if_false, k1, adj_same hB.built, rules_same hB, k3]
  · right
    refine ⟨⟨F, ⟨memM g, []⟩, ⟨memS sg, []⟩⟩, ⟨f0, fun f hf => ?_⟩, ⟨h2, rfl, rfl⟩, .inr h3⟩
    have := h1 f hf
    simp only at this
    simp only [firstPass, plain, hM, hS, this]

theorem ins_of (hB : Built numNodes numObs (opsOf ins) g sg m) {i : Conv.Ins K} {z : Sym2 (Option Nat)} (hi : Behind1 ins z i) {j : Fin (opsOf ins).length}
    (hj : ¬ IsLoop (opsOf ins)[j]) (he : endsOf (opsOf ins)[j] = z) : insAt ins j = i := by
  obtain ⟨n, hn, rfl⟩ := List.getElem_of_mem hi.mem
  have hn' : n < (opsOf ins).length := by simpa using hn
  have : (⟨n, hn'⟩ : Fin (opsOf ins).length) = j := by
    refine ends_inj hB.matching hB.edges.pairs _ _ ?_ hj ?_
    · simpa using hi.noloop
    · rw [he, ← hi.ends]; simp
  subst this
  rfl

theorem change_conditional (hB : BuiltCorr numNodes numObs ins k g sg m C) {c : Correction (opsOf ins)} {es : List (Nat × Option Nat)} (hl : Lists es c)
    {rs : List RW.ImpliedWeight} (hr : RulesFor (adjM g) k ins es rs) : Conditional ins k c fun j => (reop (changeOf rs) (opsOf ins)[j]).w := by
  intro j
  have hw := reop_w (changeOf rs) (opsOf ins)[j]
  have hjm : insAt ins j ∈ ins := List.getElem_mem _
  have hj : (opsOf ins)[j] = toGraphIns (insAt ins j) := by simp [insAt]
  have hrule : ∀ i ∈ c, ¬ IsLoop (opsOf ins)[i] → ∀ r ∈ impliedOf (insAt ins i), ∃ x ∈ rs, Converted (adjM g) k r x := by
    intro i hi hil r hri
    obtain ⟨e, h1, h2⟩ := List.mem_map.1 ((hl.2 (endsOf (opsOf ins)[i])).2 ⟨i, hi, hil, rfl⟩)
    obtain ⟨i', h3, h4⟩ := hr.all e h1
    rw [h2] at h3
    rw [ins_of hB.built h3 hil rfl] at hri
    exact h4 r hri
  by_cases hneg : ((opsOf ins)[j]).w < 0
  · rw [if_pos hneg] at hw
    simp only [hw]
    refine ⟨.inl rfl, ?_⟩
    rintro x (rfl | ⟨i, h1, h2, r, h3, h4, rfl⟩)
    · exact le_refl _
    · have := hB.pos (insAt ins i) (List.getElem_mem _) r h3 (insAt ins j) hjm (by rw [← hj]; exact h4.symm)
      rw [← hj] at this
      omega
  · rw [if_neg hneg] at hw
    have hww : (((opsOf ins)[j]).w.toNat : Int) = ((opsOf ins)[j]).w := by omega
    simp only [hw]
    obtain ⟨h1, h2, h3⟩ := foldl_min ((rs.filter fun x => ruleEnds x = endsOf (opsOf ins)[j]).map (·.weight)) ((opsOf ins)[j]).w.toNat
    change changeOf rs (endsOf (opsOf ins)[j]) ((opsOf ins)[j]).w.toNat ≤ _ at h1
    change ∀ x ∈ _, changeOf rs (endsOf (opsOf ins)[j]) ((opsOf ins)[j]).w.toNat ≤ x at h2
    change changeOf rs (endsOf (opsOf ins)[j]) ((opsOf ins)[j]).w.toNat = _ ∨ changeOf rs (endsOf (opsOf ins)[j]) ((opsOf ins)[j]).w.toNat ∈ _ at h3
    generalize changeOf rs (endsOf (opsOf ins)[j]) ((opsOf ins)[j]).w.toNat = v at h1 h2 h3
    constructor
    · rcases h3 with h3 | h3
      · left; rw [h3, hww]
      · right
        obtain ⟨x, h4, rfl⟩ := List.mem_map.1 h3
        rw [List.mem_filter] at h4
        obtain ⟨e, k1, i, k2, r, k3, k4⟩ := hr.only x h4.1
        obtain ⟨i', l1, l2, l3⟩ := (hl.2 (symOf e)).1 (List.mem_map_of_mem k1)
        refine ⟨i', l1, l2, r, ?_, ?_, ?_⟩
        · rw [ins_of hB.built k2 l2 l3]; exact k3
        · have := k4.ends
          rw [of_decide_eq_true h4.2] at this
          exact this.symm
        · rw [k4.weight, impliedWeight, Int.natCast_natAbs]
    · rintro x (rfl | ⟨i, k1, k2, r, k3, k4, rfl⟩)
      · omega
      · obtain ⟨x, l1, l2⟩ := hrule i k1 k2 r k3
        have := h2 x.weight (List.mem_map.2 ⟨x, List.mem_filter.2 ⟨l1, decide_eq_true (by rw [l2.ends]; exact k4)⟩, rfl⟩)
        rw [l2.weight, impliedWeight] at this
        rw [← Int.natCast_natAbs]
        exact_mod_cast this

theorem change_built (hB : BuiltCorr numNodes numObs ins k g sg m C) {es : List (Nat × Option Nat)}
    {rs : List RW.ImpliedWeight} (hr : RulesFor (adjM g) k ins es rs) :
    Built numNodes numObs ((opsOf ins).map (reop (changeOf rs))) (mapM (changeOf rs) g) (mapS (changeOf rs) sg) m := by
  refine built_change hB.built _ ?_ ?_ ?_
  · intro op hop hneg
    obtain ⟨j, hj, rfl⟩ := List.mem_map.1 hop
    unfold changeOf
    rw [List.filter_eq_nil_iff.2]
    · rfl
    · intro x hx hxe
      obtain ⟨e, -, i, h1, r, h2, h3⟩ := hr.only x hx
      have := hB.pos i h1.mem r h2 j hj (by rw [← of_decide_eq_true hxe, h3.ends]; rfl)
      omega
  · intro op hop hw
    have he := hB.built.edges.even op hop
    rcases (foldl_min ((rs.filter fun x => ruleEnds x = endsOf op).map (·.weight)) op.w.toNat).2.2 with h | h
    · unfold changeOf
      rw [h]; omega
    · obtain ⟨x, h1, h2⟩ := List.mem_map.1 h
      obtain ⟨e, -, i, -, r, -, h3⟩ := hr.only x (List.mem_filter.1 h1).1
      unfold changeOf
      rw [← h2, h3.weight, impliedWeight, disc]
      omega
  · intro z w
    exact (foldl_min _ w).1

theorem correlated_spec {α : Type} (hB : BuiltCorr numNodes numObs ins k g sg m C) (hb : ∀ d ∈ g.negDets, TL.notBoundary bnd d = true) {st : CState}
    (hst : Rest g sg st) {events : List Nat} (hv : Valid g events) {second : Nat → MGraph → SGraph → Full → Option (Ended (Full × α))}
    {P : ∀ ops : List EdgeIns, Correction ops → α → Prop} (hp : Promises numNodes numObs bnd m events second P) :
    (∃ st' a, Completes (fun f => correlated g sg bnd C f (second f) st events) (.ok (st', a)) ∧ C.without = false ∧ Rest g sg st' ∧
      ∃ c : Correction (opsOf ins), Optimal weight c (counted bnd events) ∧ ∃ ρ : Change, Conditional ins k c (fun j => (reop ρ (opsOf ins)[j]).w) ∧
        ∃ c' : Correction ((opsOf ins).map (reop ρ)), Optimal weight c' (counted bnd events) ∧ P _ c' a) ∨
    (∃ st', Completes (fun f => correlated g sg bnd C f (second f) st events) (.throws st') ∧ Rest g sg st' ∧
      (C.without = true ∨ ∀ c : Correction (opsOf ins), ¬ Explains c (counted bnd events))) := by
  have hg := proper_of_run hB.built.matching hB.built.edges.pairs hB.built.edges.even hB.built.edges.small
  have ht := twin_of_runs hB.built.matching hB.built.search
  rcases firstPass_spec hB hb hst hv with ⟨F, rs, ⟨f0, h1⟩, hw, h2, c, h3, es, h4, h5⟩ | ⟨st', ⟨f0, h1⟩, h2, h3⟩
  · left
    have hB' := change_built hB h5
    have hM : withM g ((⟨memM g, []⟩ : RW.State).apply rs).mem = mapM (changeOf rs) g := by
      refine withM_eq g _ _ fun u i n hn => ?_
      rw [apply_change hg h5 (at_entry.2 ⟨n, hn, rfl⟩), memM_entry hn]
    have hS : withS sg ((⟨memS sg, []⟩ : RW.State).apply rs).mem = mapS (changeOf rs) sg := by
      refine withS_eq sg _ _ fun u i n hn => ?_
      obtain ⟨n', op, k1, k2, k3, -⟩ := twin_slot hB.built.matching ht hn
      rw [mem_same hB.built, apply_change hg h5 (at_entry.2 ⟨n', k1, rfl⟩), memM_entry k1, k2, k3]
    have hv' : Valid (mapM (changeOf rs) g) events := ⟨hv.nodup, by
      have : (mapM (changeOf rs) g).nodes.length = g.nodes.length := by simp [mapM]
      rw [this]; exact hv.range⟩
    rcases hp _ _ _ hB' hb hv' F h2 with ⟨F', a, ⟨f1, k1⟩, k2, c', k3, k4⟩ | ⟨F', -, -, k3⟩
    · refine ⟨⟨F', ⟨memM g, []⟩, ⟨memS sg, []⟩⟩, a, ⟨max f0 f1, fun f hf => ?_⟩, hw, ⟨k2, rfl, rfl⟩, c, h3, changeOf rs, change_conditional hB h4 h5, c', k3, k4⟩
      have e1 := h1 f (le_trans (le_max_left _ _) hf)
      have e2 := k1 f (le_trans (le_max_right _ _) hf)
      simp only at e1 e2
      simp only [correlated, e1, plain, hM, hS, e2, RW.undo_apply]
      rfl
    · exact absurd ((unchange_explains _ _).1 (by rw [un_re]; exact h3.1)) (k3 (rechange c))
  · right
    refine ⟨st', ⟨f0, fun f hf => ?_⟩, h2, h3⟩
    have := h1 f hf
    simp only at this
    simp only [correlated, this]

theorem promise_obs (numNodes numObs : Nat) (bnd : List Bool) (m : ObsInt) (events : List Nat) {buf : List (BitVec 8)} (hl : buf.length = numObs) (w0 : Int) :
    Promises numNodes numObs bnd m events (fun f g sg F => decodeObs g sg bnd m f F events buf w0) fun _ c a =>
      a.1.length = numObs ∧ a.2 = (if numObs > 64 then w0 else 0) + weight c ∧ ∀ k, a.1[k]? = (buf[k]?).map (· ^^^ parity (crossed c k)) := by
  intro ops g sg hB hb hv F hF
  rcases decodeObs_spec hB hb hF hv hl w0 with ⟨F', b, w, h1, h2, h3, c, h4, h5, h6⟩ | h
  · exact .inl ⟨F', (b, w), h1, h2, c, h4, h3, h5, h6⟩
  · exact .inr h

theorem promise_edges (numNodes numObs : Nat) (bnd : List Bool) (m : ObsInt) (events : List Nat) :
    Promises numNodes numObs bnd m events (fun f g sg F => decodeEdges g sg bnd f F events) fun _ c es => Lists es c := by
  intro ops g sg hB hb hv F hF
  rcases decodeEdges_spec hB hb hF hv with ⟨F', es, h1, h2, c, h4, -, h5⟩ | h
  · exact .inl ⟨F', es, h1, h2, c, h4, h5⟩
  · exact .inr h

theorem promise_mask (numNodes numObs : Nat) (bnd : List Bool) (m : ObsInt) (events : List Nat) :
    Promises numNodes numObs bnd m events (fun f => call64 bnd m f events) fun _ c a =>
      numObs ≤ 64 → weight c = a.2 ∧ ∀ k, k < 64 → (a.1.getLsbD k = true ↔ crossed c k % 2 = 1) := by
  intro ops g sg hB hb hv F hF
  have hg := proper_of_run hB.matching hB.edges.pairs hB.edges.even hB.edges.small
  rcases matching_cases hB hb hF.ms hv with ⟨s', x, ⟨f0, hf0⟩, h1, h2⟩ | ⟨s', ⟨f0, hf0⟩, h1, h2⟩
  · left
    have hd : ∀ f, f0 ≤ f → decode64 g bnd (negEvents g) m g.negSum f F.ms events = some (.ok (s', x.mask ^^^ m, x.weight + g.negSum)) := by
      intro f hf
      simp only [decode64, hf0 f hf]
    refine ⟨{ F with ms := s' }, (x.mask ^^^ m, x.weight + g.negSum), ⟨f0, fun f hf => by simp only [call64, hd f hf]⟩, ⟨h1, hF.ss, hF.marks⟩, ?_⟩
    by_cases hsmall : numObs ≤ 64
    · rcases decode64_correct hB.matching hB.edges hsmall (hB.mask hsmall) hb hF.ms hv (hd f0 (le_refl _)) with ⟨s2, mask, w, e, c, c1, c2, c3⟩ | ⟨s2, e, -⟩
      · cases e
        exact ⟨c, c1, fun _ => ⟨c2, c3⟩⟩
      · cases e
    · rcases decodeEdges_spec hB hb hF hv with ⟨F', es, -, -, c, h4, -⟩ | ⟨F', -, -, e⟩
      · exact ⟨c, h4, fun h => absurd h hsmall⟩
      · obtain ⟨ws, k1, -⟩ := h2.attained
        obtain ⟨c, c1, -⟩ := correction_of_slots hB.matching k1
        exact absurd ((C14_translation numNodes numObs ops g hB.matching (counted bnd events) c).1.2 c1) (e _)
  · right
    refine ⟨{ F with ms := s' }, ⟨f0, fun f hf => ?_⟩, ⟨h1, hF.ss, hF.marks⟩, h2⟩
    have := hf0 f hf
    simp only at this
    simp only [call64, decode64, this]

theorem forget_ok {α : Type} {call : Nat → Option (EndedC (CState × α))} {st : CState} {a : α} (h : Completes call (.ok (st, a))) :
    Completes (fun f => forget (call f)) (.ok st) := by
  obtain ⟨f0, h⟩ := h
  exact ⟨f0, fun f hf => by simp only [h f hf, forget]⟩

theorem forget_throws {α : Type} {call : Nat → Option (EndedC (CState × α))} {st : CState} (h : Completes call (.throws st)) :
    Completes (fun f => forget (call f)) (.throws st) := by
  obtain ⟨f0, h⟩ := h
  exact ⟨f0, fun f hf => by simp only [h f hf, forget]⟩

/-- Any call ends and leaves the decoder at rest. -/
def Ends (g : MGraph) (sg : SGraph) (call : Nat → Option (EndedC CState)) : Prop :=
  ∃ st', Rest g sg st' ∧ (Completes call (.ok st') ∨ Completes call (.throws st'))

theorem ends_plain {α : Type} (hB : BuiltCorr numNodes numObs ins k g sg m C) (hb : ∀ d ∈ g.negDets, TL.notBoundary bnd d = true) {st : CState}
    (hst : Rest g sg st) {events : List Nat} (hv : Valid g events) {call : Nat → MGraph → SGraph → Full → Option (Ended (Full × α))}
    {P : ∀ ops : List EdgeIns, Correction ops → α → Prop} (hp : Promises numNodes numObs bnd m events call P) :
    Ends g sg fun f => forget (plain g sg (call f) st) := by
  obtain ⟨F, wg, ws⟩ := st
  obtain ⟨hF, h1, h2⟩ := hst
  simp only at h1 h2 hF
  subst h1 h2
  rcases hp _ _ _ hB.built hb hv F hF with ⟨F', a, k1, k2, -⟩ | ⟨F', k1, k2, -⟩
  · refine ⟨⟨F', ⟨memM g, []⟩, ⟨memS sg, []⟩⟩, ⟨k2, rfl, rfl⟩, .inl (forget_ok (plain_ok (a := a) (st := ⟨F, ⟨memM g, []⟩, ⟨memS sg, []⟩⟩) ?_))⟩
    simp only [withM_mem, withS_mem]
    exact k1
  · refine ⟨⟨F', ⟨memM g, []⟩, ⟨memS sg, []⟩⟩, ⟨k2, rfl, rfl⟩, .inr (forget_throws (plain_throws (st := ⟨F, ⟨memM g, []⟩, ⟨memS sg, []⟩⟩) ?_))⟩
    simp only [withM_mem, withS_mem]
    exact k1

theorem ends_corr {α : Type} (hB : BuiltCorr numNodes numObs ins k g sg m C) (hb : ∀ d ∈ g.negDets, TL.notBoundary bnd d = true) {st : CState}
    (hst : Rest g sg st) {events : List Nat} (hv : Valid g events) {call : Nat → MGraph → SGraph → Full → Option (Ended (Full × α))}
    {P : ∀ ops : List EdgeIns, Correction ops → α → Prop} (hp : Promises numNodes numObs bnd m events call P) :
    Ends g sg fun f => forget (correlated g sg bnd C f (call f) st events) := by
  rcases correlated_spec hB hb hst hv hp with ⟨st', a, h1, -, h2, -⟩ | ⟨st', h1, h2, -⟩
  · exact ⟨st', h2, .inl (forget_ok h1)⟩
  · exact ⟨st', h2, .inr (forget_throws h1)⟩

theorem ends_pairs (hB : BuiltCorr numNodes numObs ins k g sg m C) {st : CState} (hst : Rest g sg st)
    {events : List Nat} (hv : Valid g events) {st' : CState} (hd : Completes (fun f => forget (plain g sg (callPairs bnd f events) st)) (.ok st') ∨
      Completes (fun f => forget (plain g sg (callPairs bnd f events) st)) (.throws st')) : Rest g sg st' := by
  have hg := proper_of_run hB.built.matching hB.built.edges.pairs hB.built.edges.even hB.built.edges.small
  obtain ⟨F, wg, ws⟩ := st
  obtain ⟨hF, h1, h2⟩ := hst
  simp only at h1 h2 hF
  subst h1 h2
  obtain ⟨f0, out, hd, hout⟩ : ∃ f0 out, forget (plain g sg (callPairs bnd f0 events) ⟨F, ⟨memM g, []⟩, ⟨memS sg, []⟩⟩) = some out ∧
      (out = .ok st' ∨ out = .throws st') := by
    rcases hd with ⟨f0, hd⟩ | ⟨f0, hd⟩
    · exact ⟨f0, _, hd f0 (le_refl _), .inl rfl⟩
    · exact ⟨f0, _, hd f0 (le_refl _), .inr rfl⟩
  simp only [plain, withM_mem, callPairs] at hd
  rcases decodePairs_cases hg (no_negatives hB.built.matching) bnd hF.ms hv f0 with ⟨-, e⟩ | ⟨-, e | ⟨s', x, e, h1, -⟩ | ⟨s', e, h1, -⟩⟩
  all_goals
    rw [e] at hd
    simp only [forget, Option.some.injEq, reduceCtorEq] at hd
  · subst hd
    rcases hout with h | h <;> cases h
    exact ⟨hF, rfl, rfl⟩
  · subst hd
    rcases hout with h | h <;> cases h
    exact ⟨⟨h1, hF.ss, hF.marks⟩, rfl, rfl⟩
  · subst hd
    rcases hout with h | h <;> cases h
    exact ⟨⟨h1, hF.ss, hF.marks⟩, rfl, rfl⟩

theorem rest_init (g : MGraph) (sg : SGraph) : Rest g sg (CState.init g sg) := ⟨⟨Clean.init, Verif.Props.Search.fresh_init, rfl⟩, rfl, rfl⟩

theorem performed (hB : BuiltCorr numNodes numObs ins k g sg m C) (hb : ∀ d ∈ g.negDets, TL.notBoundary bnd d = true) {st st' : CState} {call : Call}
    (hst : Rest g sg st) (ha : call.Acceptable g)
    (hd : Completes (fun f => perform g sg bnd m C f st call) (.ok st') ∨ Completes (fun f => perform g sg bnd m C f st call) (.throws st')) : Rest g sg st' := by
  have hno : g.numObs = numObs := (built_run (built_empty numNodes numObs) hB.built.matching).nobs
  have key : Ends g sg (fun f => perform g sg bnd m C f st call) → Rest g sg st' := by
    rintro ⟨st1, h1, h2⟩
    rcases hd with hd | hd <;> rcases h2 with h2 | h2 <;> have := completes_unique hd h2 <;> cases this <;> exact h1
  cases call with
  | obs corr events buf w =>
    have hp := promise_obs numNodes numObs bnd m events (ha.2.trans hno) w
    cases corr
    · exact key (ends_plain hB hb hst ha.1 hp)
    · exact key (ends_corr hB hb hst ha.1 hp)
  | edges corr events =>
    have hp := promise_edges numNodes numObs bnd m events
    cases corr
    · exact key (ends_plain hB hb hst ha hp)
    · exact key (ends_corr hB hb hst ha hp)
  | mask corr events =>
    have hp := promise_mask numNodes numObs bnd m events
    cases corr
    · exact key (ends_plain hB hb hst ha hp)
    · exact key (ends_corr hB hb hst ha hp)
  | pairs events => exact ends_pairs hB hst ha hd

theorem used_rest (hB : BuiltCorr numNodes numObs ins k g sg m C) (hb : ∀ d ∈ g.negDets, TL.notBoundary bnd d = true) {st : CState}
    (h : UsedCorr g sg bnd m C st) : Rest g sg st := by
  induction h with
  | fresh => exact rest_init g sg
  | returned _ ha hd ih => exact performed hB hb ih ha (.inl hd)
  | raised _ ha hd ih => exact performed hB hb ih ha (.inr hd)

end

/-! A graph for the examples: two detectors with boundary edges of weight 4 and 8 (crossing observables 0 and 1), joined by an edge of weight 6.  If the
first boundary edge is in the solution, it implies the weights 0 for the middle edge and 1 (discretised: 2) for the other boundary edge. -/

/-- The insertions. -/
def corrIns : List (Conv.Ins ℚ) := [.bdry 0 4 [0] [⟨0, some 1, 0⟩, ⟨1, none, 1⟩], .edge 0 1 6 [] [], .bdry 1 8 [1] []]

/-- The decoding graph. -/
def corrGraph : MGraph := ⟨[[⟨none, 4, 1⟩, ⟨some 1, 6, 0⟩], [⟨none, 8, 2⟩, ⟨some 0, 6, 0⟩]], 2, ∅, ∅, 0⟩

/-- The search graph. -/
def corrSearch : SGraph := ⟨[[⟨none, 4, [0], false⟩, ⟨some 1, 6, [], false⟩], [⟨none, 8, [1], false⟩, ⟨some 0, 6, [], false⟩]], []⟩

/-- The rules of both graphs. -/
def corrRules : Rules := [[[⟨(0, 1), some (1, 1), 0⟩, ⟨(1, 0), none, 2⟩], []], [[], []]]

/-- The fixed data of the decoder. -/
def corrData : Corr := ⟨corrRules, corrRules, false⟩

theorem corr_run : run (MGraph.empty 2 2) (opsOf corrIns) = some corrGraph := by
  have : ∃ g, run (MGraph.empty 2 2) (opsOf corrIns) = some g ∧ g.nodes = corrGraph.nodes ∧ g.numObs = 2 ∧ g.negDets = ∅ ∧ g.negObs = ∅ ∧ g.negSum = 0 :=
    ⟨_, rfl, by decide, by decide, by decide, by decide, by decide⟩
  obtain ⟨⟨_, _, _, _, _⟩, h, h1, h2, h3, h4, h5⟩ := this
  cases h1; cases h2; cases h3; cases h4; cases h5
  exact h

theorem corr_mask : negMaskOf corrGraph = some 0 := by
  show obsMask 2 ((∅ : Finset Nat).sort (· ≤ ·)) = _
  rw [Finset.sort_empty]
  rfl

theorem corr_table : convertTable (adjM corrGraph) (2 : ℚ) (table 2 corrIns) = .ok corrRules := by decide +kernel

theorem corr_built : BuiltCorr 2 2 corrIns 2 corrGraph corrSearch 0 corrData :=
  ⟨⟨⟨corr_run, rfl, fun _ => corr_mask, ⟨by decide, by decide, by decide⟩, by decide⟩, corr_table, corr_table⟩, by decide⟩

theorem corr_neg : negEvents corrGraph = [] := Finset.sort_empty _

/-- Result of a call, without the state. -/
def viewC {α β : Type} (r : Option (EndedC (CState × α))) (v : α → β) : Option (Option β) :=
  match r with
  | some (.ok (_, a)) => some (some (v a))
  | some (.throws _) => some none
  | _ => none

/-- A second call after a call that returned. -/
def viewNextC {α β : Type} (r : Option (EndedC (CState × α))) (v : CState → Option (Option β)) : Option (Option β) :=
  match r with
  | some (.ok (st, _)) => v st
  | _ => none

/-- The weight in a cell of the matching graph after a call. -/
def viewFirst (r : Option (EndedC CState)) (p : RW.Addr) : Option Nat :=
  match r with
  | some (.ok st) => some (st.wg.mem p)
  | _ => none

/-! ## Theorems -/

/-- C51 (predictions).  Build any graph with implied weights, use the decoder for any number of calls of any kind, and decode any events with
correlations into a buffer of zeros: the call ends, without undefined behaviour.  Either it returns predictions and a weight: there is a solution `c1`
of minimum weight, and the predictions and the weight are those of a solution `c2` of minimum weight for the conditional weights that `c1` implies.
Or it raises an exception: no explanation exists, or the graph was loaded without correlations.  In both cases all weights are restored. -/
theorem C51_correlated_observables (numNodes numObs : Nat) (ins : List (Conv.Ins K)) (k : K) (g : MGraph) (sg : SGraph) (m : ObsInt) (C : Corr)
    (hB : BuiltCorr numNodes numObs ins k g sg m C) (bnd : List Bool) (hb : ∀ d ∈ g.negDets, TL.notBoundary bnd d = true) (st : CState)
    (hst : UsedCorr g sg bnd m C st) (events : List Nat) (hv : Valid g events) :
    (∃ st' buf w, Completes (fun f => decodeObsCorr g sg bnd m C f st events (List.replicate numObs 0#8) 0) (.ok (st', buf, w)) ∧ Rest g sg st' ∧
      ∃ c1 : Correction (opsOf ins), Optimal weight c1 (counted bnd events) ∧ ∃ ω, Conditional ins k c1 ω ∧
        ∃ c2 : Correction (opsOf ins), Optimal (totalOf ω) c2 (counted bnd events) ∧ w = totalOf ω c2 ∧ buf.length = numObs ∧
          ∀ o, o < numObs → buf[o]? = some (if crossed c2 o % 2 = 1 then 1#8 else 0#8)) ∨
    (∃ st', Completes (fun f => decodeObsCorr g sg bnd m C f st events (List.replicate numObs 0#8) 0) (.throws st') ∧ Rest g sg st' ∧
      (C.without = true ∨ ∀ c : Correction (opsOf ins), ¬ Explains c (counted bnd events))) := by
  rcases correlated_spec hB hb (used_rest hB hb hst) hv (promise_obs numNodes numObs bnd m events (buf := List.replicate numObs 0#8) (by simp) 0) with
    ⟨st', ⟨buf, w⟩, h1, -, h2, c, h3, ρ, h4, c', h5, h6, h7, h8⟩ | h
  · left
    refine ⟨st', buf, w, h1, h2, c, h3, _, h4, unchange c', unchange_optimal h5, ?_, h6, fun o ho => ?_⟩
    · simp only at h7
      rw [h7]
      have := unchange_weight c'
      unfold changedWeight at this
      unfold totalOf
      rw [this]
      split <;> simp
    · rw [h8 o, unchange_crossed]
      simp [ho, parity]
  · exact .inr h

/-- The hypotheses hold for the graph above.  The event of detector 0 is explained by the first boundary edge in the first pass; with the weights that
this edge implies the other two edges are better, so observable 1 is predicted, with weight 2; without correlations it is observable 0 with weight 4. -/
example : BuiltCorr 2 2 corrIns 2 corrGraph corrSearch 0 corrData ∧ (∀ d ∈ corrGraph.negDets, TL.notBoundary [] d = true) ∧
    UsedCorr corrGraph corrSearch [] 0 corrData (CState.init corrGraph corrSearch) ∧ Valid corrGraph [0] ∧
    viewC (decodeObsCorr corrGraph corrSearch [] 0 corrData 20 (CState.init corrGraph corrSearch) [0] [0, 0] 0) (fun a => (a.1.map BitVec.toNat, a.2)) =
      some (some ([0, 1], 2)) ∧
    viewObs (decodeObs corrGraph corrSearch [] 0 20 Full.init [0] [0, 0] 0) = some (some ([1, 0], 4)) := by
  refine ⟨corr_built, by decide, .fresh, ⟨by decide, by decide⟩, ?_, ?_⟩
  · have h1 : ∀ m, negEvents (withM corrGraph m) = [] := fun m => corr_neg
    simp only [decodeObsCorr, correlated, firstPass, plain, decodeEdges, decodeObs, h1]
    decide +kernel
  · simp only [decodeObs, corr_neg]
    decide +kernel

/-- C51 (edges). -/
theorem C51_correlated_edges (numNodes numObs : Nat) (ins : List (Conv.Ins K)) (k : K) (g : MGraph) (sg : SGraph) (m : ObsInt) (C : Corr)
    (hB : BuiltCorr numNodes numObs ins k g sg m C) (bnd : List Bool) (hb : ∀ d ∈ g.negDets, TL.notBoundary bnd d = true) (st : CState)
    (hst : UsedCorr g sg bnd m C st) (events : List Nat) (hv : Valid g events) :
    (∃ st' es, Completes (fun f => decodeEdgesCorr g sg bnd C f st events) (.ok (st', es)) ∧ Rest g sg st' ∧
      ∃ c1 : Correction (opsOf ins), Optimal weight c1 (counted bnd events) ∧ ∃ ω, Conditional ins k c1 ω ∧
        ∃ c2 : Correction (opsOf ins), Optimal (totalOf ω) c2 (counted bnd events) ∧ Lists es c2) ∨
    (∃ st', Completes (fun f => decodeEdgesCorr g sg bnd C f st events) (.throws st') ∧ Rest g sg st' ∧
      (C.without = true ∨ ∀ c : Correction (opsOf ins), ¬ Explains c (counted bnd events))) := by
  rcases correlated_spec hB hb (used_rest hB hb hst) hv (promise_edges numNodes numObs bnd m events) with
    ⟨st', es, h1, -, h2, c, h3, ρ, h4, c', h5, h6⟩ | h
  · exact .inl ⟨st', es, h1, h2, c, h3, _, h4, unchange c', unchange_optimal h5, unchange_lists h6⟩
  · exact .inr h

/-- In the graph above. -/
example : BuiltCorr 2 2 corrIns 2 corrGraph corrSearch 0 corrData ∧
    viewC (decodeEdgesCorr corrGraph corrSearch [] corrData 20 (CState.init corrGraph corrSearch) [0]) id = some (some [(1, some 0), (1, none)]) := by
  refine ⟨corr_built, ?_⟩
  have h1 : ∀ m, negEvents (withM corrGraph m) = [] := fun m => corr_neg
  simp only [decodeEdgesCorr, correlated, firstPass, plain, decodeEdges, h1]
  decide +kernel

/-- C51 (bit masks, at most 64 observables). -/
theorem C51_correlated_mask (numNodes numObs : Nat) (hobs : numObs ≤ 64) (ins : List (Conv.Ins K)) (k : K) (g : MGraph) (sg : SGraph) (m : ObsInt)
    (C : Corr) (hB : BuiltCorr numNodes numObs ins k g sg m C) (bnd : List Bool) (hb : ∀ d ∈ g.negDets, TL.notBoundary bnd d = true) (st : CState)
    (hst : UsedCorr g sg bnd m C st) (events : List Nat) (hv : Valid g events) :
    (∃ st' mask w, Completes (fun f => decode64Corr g sg bnd m C f st events) (.ok (st', mask, w)) ∧ Rest g sg st' ∧
      ∃ c1 : Correction (opsOf ins), Optimal weight c1 (counted bnd events) ∧ ∃ ω, Conditional ins k c1 ω ∧
        ∃ c2 : Correction (opsOf ins), Optimal (totalOf ω) c2 (counted bnd events) ∧ w = totalOf ω c2 ∧
          ∀ o, o < 64 → (mask.getLsbD o = true ↔ crossed c2 o % 2 = 1)) ∨
    (∃ st', Completes (fun f => decode64Corr g sg bnd m C f st events) (.throws st') ∧ Rest g sg st' ∧
      (C.without = true ∨ ∀ c : Correction (opsOf ins), ¬ Explains c (counted bnd events))) := by
  rcases correlated_spec hB hb (used_rest hB hb hst) hv (promise_mask numNodes numObs bnd m events) with
    ⟨st', ⟨mask, w⟩, h1, -, h2, c, h3, ρ, h4, c', h5, h6⟩ | h
  · left
    obtain ⟨h7, h8⟩ := h6 hobs
    refine ⟨st', mask, w, h1, h2, c, h3, _, h4, unchange c', unchange_optimal h5, ?_, fun o ho => ?_⟩
    · exact h7.symm.trans (unchange_weight c').symm
    · rw [unchange_crossed]; exact h8 o ho
  · exact .inr h

/-- In the graph above. -/
example : BuiltCorr 2 2 corrIns 2 corrGraph corrSearch 0 corrData ∧
    viewC (decode64Corr corrGraph corrSearch [] 0 corrData 20 (CState.init corrGraph corrSearch) [0]) (fun a => (a.1.toNat, a.2)) = some (some (2, 2)) := by
  refine ⟨corr_built, ?_⟩
  have h1 : ∀ m, negEvents (withM corrGraph m) = [] := fun m => corr_neg
  simp only [decode64Corr, correlated, firstPass, plain, decodeEdges, call64, h1]
  decide +kernel

/-- C51, C12 (no trace).  Use the decoder for any number of calls of any kind, with and without correlations, returning or raising: a call without
correlations is then exactly the call on the graphs as they were built, on a decoder at rest; so it returns the predictions and the weight of a solution
of minimum weight for the original weights. -/
theorem C51_no_trace (numNodes numObs : Nat) (ins : List (Conv.Ins K)) (k : K) (g : MGraph) (sg : SGraph) (m : ObsInt) (C : Corr)
    (hB : BuiltCorr numNodes numObs ins k g sg m C) (bnd : List Bool) (hb : ∀ d ∈ g.negDets, TL.notBoundary bnd d = true) (st : CState)
    (hst : UsedCorr g sg bnd m C st) :
    withM g st.wg.mem = g ∧ withS sg st.ws.mem = sg ∧ ∀ events, Valid g events →
    ((∃ st' buf w, Completes (fun f => plain g sg (fun g sg F => decodeObs g sg bnd m f F events (List.replicate numObs 0#8) 0) st) (.ok (st', buf, w)) ∧
      Rest g sg st' ∧ ∃ c : Correction (opsOf ins), Optimal weight c (counted bnd events) ∧ w = weight c ∧ buf.length = numObs ∧
          ∀ o, o < numObs → buf[o]? = some (if crossed c o % 2 = 1 then 1#8 else 0#8)) ∨
    (∃ st', Completes (fun f => plain g sg (fun g sg F => decodeObs g sg bnd m f F events (List.replicate numObs 0#8) 0) st) (.throws st') ∧
      Rest g sg st' ∧ ∀ c : Correction (opsOf ins), ¬ Explains c (counted bnd events))) := by
  obtain ⟨hF, h1, h2⟩ := used_rest hB hb hst
  have e1 : withM g st.wg.mem = g := by rw [h1]; exact withM_mem g
  have e2 : withS sg st.ws.mem = sg := by rw [h2]; exact withS_mem sg
  refine ⟨e1, e2, fun events hv => ?_⟩
  rcases decodeObs_spec hB.built hb hF hv (buf := List.replicate numObs 0#8) (by simp) 0 with ⟨F', buf, w, k1, k2, k3, c, k4, k5, k6⟩ | ⟨F', k1, k2, k3⟩
  · left
    refine ⟨{ st with full := F' }, buf, w, plain_ok (call := fun f g sg F => decodeObs g sg bnd m f F events (List.replicate numObs 0#8) 0) (a := (buf, w))
      (by rw [e1, e2]; exact k1), ⟨k2, h1, h2⟩, c, k4, by rw [k5]; split <;> simp, k3, fun o ho => ?_⟩
    rw [k6 o]
    simp [ho, parity]
  · right
    exact ⟨{ st with full := F' }, plain_throws (call := fun f g sg F => decodeObs g sg bnd m f F events (List.replicate numObs 0#8) 0)
      (by rw [e1, e2]; exact k1), ⟨k2, h1, h2⟩, k3⟩

/-- In the graph above, decoding with correlations and then without gives the answer without correlations; and in between the weights are changed:
the first pass alone leaves the weight 2 for the second boundary edge. -/
example : BuiltCorr 2 2 corrIns 2 corrGraph corrSearch 0 corrData ∧
    viewNextC (decodeEdgesCorr corrGraph corrSearch [] corrData 20 (CState.init corrGraph corrSearch) [0])
      (fun st => viewC (plain corrGraph corrSearch (fun g sg F => decodeObs g sg [] 0 20 F [0] [0, 0] 0) st) (fun a => (a.1.map BitVec.toNat, a.2))) =
      some (some ([1, 0], 4)) ∧
    viewFirst (firstPass corrGraph corrSearch [] corrData 20 (CState.init corrGraph corrSearch) [0]) (1, 0) = some 2 := by
  refine ⟨corr_built, ?_, ?_⟩
  · have h1 : ∀ m, negEvents (withM corrGraph m) = [] := fun m => corr_neg
    simp only [decodeEdgesCorr, correlated, firstPass, plain, decodeEdges, decodeObs, h1]
    decide +kernel
  · have h1 : ∀ m, negEvents (withM corrGraph m) = [] := fun m => corr_neg
    simp only [firstPass, plain, decodeEdges, h1]
    decide +kernel

/-! ## Implied weights for edges of negative weight -/

/-- C52, as stated: the weight that decoding with correlations returns is the total weight of some explanation of the events, where every edge has its own
weight or a weight that an edge of the first solution implies for it.  (A call that returns after some number of rounds returns the same after more.) -/
def C52_statement : Prop := ∀ (numNodes numObs : Nat) (ins : List (Conv.Ins ℚ)) (k : ℚ) (g : MGraph) (sg : SGraph) (m : ObsInt) (C : Corr),
  LoadedCorr numNodes numObs ins k g sg m C → numObs ≤ 64 → ∀ bnd, (∀ d ∈ g.negDets, TL.notBoundary bnd d = true) → ∀ st, UsedCorr g sg bnd m C st →
  ∀ events, Valid g events → ∀ f st' mask w, decode64Corr g sg bnd m C f st events = some (.ok (st', mask, w)) →
  ∃ (c1 c2 : Correction (opsOf ins)) (ω : Fin (opsOf ins).length → Int), Explains c1 (counted bnd events) ∧ (∀ j, ω j ∈ offers ins k c1 j) ∧
    Explains c2 (counted bnd events) ∧ w = totalOf ω c2

/-- C52, if no implied weight is for an edge of negative weight. -/
theorem C52_weight_partial (numNodes numObs : Nat) (hobs : numObs ≤ 64) (ins : List (Conv.Ins K)) (k : K) (g : MGraph) (sg : SGraph) (m : ObsInt)
    (C : Corr) (hB : BuiltCorr numNodes numObs ins k g sg m C) (bnd : List Bool) (hb : ∀ d ∈ g.negDets, TL.notBoundary bnd d = true) (st : CState)
    (hst : UsedCorr g sg bnd m C st) (events : List Nat) (hv : Valid g events) (st' : CState) (mask : ObsInt) (w : Int)
    (hd : Completes (fun f => decode64Corr g sg bnd m C f st events) (.ok (st', mask, w))) :
    ∃ (c1 c2 : Correction (opsOf ins)) (ω : Fin (opsOf ins).length → Int), Explains c1 (counted bnd events) ∧ (∀ j, ω j ∈ offers ins k c1 j) ∧
      Explains c2 (counted bnd events) ∧ w = totalOf ω c2 := by
  rcases C51_correlated_mask numNodes numObs hobs ins k g sg m C hB bnd hb st hst events hv with
    ⟨st1, mask1, w1, h1, -, c1, h2, ω, h3, c2, h4, h5, -⟩ | ⟨st1, h1, -⟩
  · have := completes_unique hd h1
    cases this
    exact ⟨c1, c2, ω, h2.1, fun j => (h3 j).1, h4.1, h5⟩
  · have := completes_unique hd h1
    cases this

/-! Two detectors with boundary edges of weight -4 and -6 that cross observables 0 and 1; the first implies weight 0 for the second. -/

/-- The insertions. -/
def negIns : List (Conv.Ins ℚ) := [.bdry 0 (-4) [0] [⟨1, none, 0⟩], .bdry 1 (-6) [1] []]

/-- The user's graph: a model like `error(0.1) D0 L0 ^ D1 L1` loaded with correlations (the implied weight is 0, user_graph.cc:534-538), after which both
edges were replaced by edges of weight -2 and -3.  The implied weight 0 passes the check that signs do not change (user_graph.cc:449).  (The model
would also give the second edge an implied weight for the first; it makes no difference here and is left out.) -/
def negUser : UGraph ℚ := ⟨[⟨[(0, true)], false⟩, ⟨[(1, true)], false⟩], [⟨0, none, [0], -2, -1, [⟨1, none, 0⟩]⟩, ⟨1, none, [1], -3, -1, []⟩], ∅, 2, true, false⟩

/-- The decoding graph. -/
def negGraph : MGraph := ⟨[[⟨none, 4, 1⟩], [⟨none, 6, 2⟩]], 2, {0, 1}, {0, 1}, -10⟩

/-- The search graph. -/
def negSearch : SGraph := ⟨[[⟨none, 4, [0], true⟩], [⟨none, 6, [1], true⟩]], [(0, none), (1, none)]⟩

/-- The rules. -/
def negRules : Rules := [[[⟨(1, 0), none, 0⟩]], [[]]]

theorem neg_run : run (MGraph.empty 2 2) (opsOf negIns) = some negGraph := by
  have : ∃ g, run (MGraph.empty 2 2) (opsOf negIns) = some g ∧ g.nodes = negGraph.nodes ∧ g.numObs = 2 ∧ g.negDets = {0, 1} ∧ g.negObs = {0, 1} ∧ g.negSum = -10 :=
    ⟨_, rfl, by decide, by decide, by decide, by decide, by decide⟩
  obtain ⟨⟨_, _, _, _, _⟩, h, h1, h2, h3, h4, h5⟩ := this
  cases h1; cases h2; cases h3; cases h4; cases h5
  exact h

theorem neg_sorted : ({0, 1} : Finset Nat).sort (· ≤ ·) = [0, 1] := by
  have h : ({0, 1} : Finset Nat) = [0, 1].toFinset := by decide
  rw [h]
  exact (List.toFinset_sort (l := [0, 1]) (· ≤ ·) (by decide)).2 (by decide)

theorem neg_mask : negMaskOf negGraph = some 3 := by
  show obsMask 2 (({0, 1} : Finset Nat).sort (· ≤ ·)) = _
  rw [neg_sorted]
  decide +kernel

theorem neg_loaded : LoadedCorr 2 2 negIns 2 negGraph negSearch 3 ⟨negRules, negRules, false⟩ :=
  ⟨⟨neg_run, rfl, fun _ => neg_mask, ⟨by decide, by decide, by decide⟩, by decide⟩, by decide +kernel, by decide +kernel⟩

theorem neg_result : viewC (decode64Corr negGraph negSearch [] 3 ⟨negRules, negRules, false⟩ 20 (CState.init negGraph negSearch) [0]) (fun a => (a.1.toNat, a.2)) =
    some (some (1, -10)) := by
  have h1 : ∀ m, negEvents (withM negGraph m) = [0, 1] := fun m => neg_sorted
  simp only [decode64Corr, correlated, firstPass, plain, decodeEdges, call64, h1]
  decide +kernel

/-- C52 is false.  In the graph above the event of detector 0 has one explanation, the first boundary edge, of weight -4; no weight is implied for it.
Decoding with correlations returns the weight -10: while the second edge has the implied weight 0, its original weight -6 is still counted among the
negative weights. -/
theorem C52_statement_false : ¬ C52_statement := by
  intro h
  have hr := neg_result
  unfold viewC at hr
  split at hr
  · rename_i st' a hd
    obtain ⟨mask, w⟩ := a
    simp only [Option.some.injEq, Prod.mk.injEq] at hr
    obtain ⟨-, hw⟩ := hr
    have hneg : ∀ d ∈ negGraph.negDets, TL.notBoundary [] d = true := by decide
    obtain ⟨c1, c2, ω, -, h2, h3, h4⟩ := h 2 2 negIns 2 negGraph negSearch 3 _ neg_loaded (by decide) [] hneg _ .fresh [0] ⟨by decide, by decide⟩ 20 st' mask w hd
    have hc : c2 = {(⟨0, by decide⟩ : Fin (opsOf negIns).length)} := by
      have e0 := h3 0
      have e1 := h3 1
      rw [show counted [] [0] = {0} by decide] at e0 e1
      clear h4 h3
      revert e0 e1
      revert c2
      decide
    rw [hc, hw] at h4
    have h5 := h2 (⟨0, by decide⟩ : Fin (opsOf negIns).length)
    unfold totalOf at h4
    rw [Finset.sum_singleton] at h4
    rw [← h4] at h5
    rcases h5 with h5 | ⟨i, -, -, r, h6, h7, -⟩
    · exact absurd h5 (by decide)
    · revert h7
      revert r
      revert i
      decide
  · cases hr
  · cases hr

/-- The user's graph above is converted to these insertions with constant 2, so nothing rejects it. -/
example : convert negUser = some (negIns, 2) := by decide +kernel

end Verif.Props.Correlated
