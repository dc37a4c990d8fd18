import Verif.CliRun
import Verif.Props.Cli
import Verif.Props.Object
import Verif.Props.ObsMask
import Verif.Props.Likelihood

/-!
# C57: the command line tools give what `decode` gives
-/

namespace Verif.Props.CliRun

open Verif Verif.Graph Verif.CE Verif.SB Verif.UG Verif.Conv Verif.Obj Verif.Cli
open Verif.Props.Correlated Verif.Props.Shots Verif.Props.Edges Verif.Props.EndToEnd Verif.Props.UserEdges Verif.Props.UserGraph Verif.Props.Decode
open Verif.Props.Object (EventsOk NonNeg Fresh1)
open Verif.Sch (Res)

variable {K : Type} [Field K] [LinearOrder K] [IsStrictOrderedRing K] [FloorRing K]

/-! ## Specification -/

/-- A row of predictions as bits. -/
def bits (row : List (BitVec 8)) : List Bool := row.map (· != 0#8)

/-- `Predicted g without corr shots records ok`: the records are the predictions of `decode` on a new object, shot by shot; `ok = false` if the records end
at a shot for which `decode` raises an exception. -/
inductive Predicted [W : Width] (g : UGraph K) (without corr : Bool) : List (List Nat) → List (List Bool) → Bool → Prop where
  | done : Predicted g without corr [] [] true
  | raised {hits : List Nat} {shots : List (List Nat)} (h : Fresh1 g without (.decode corr hits) .exception) :
      Predicted g without corr (hits :: shots) [] false
  | shot {hits : List Nat} {shots : List (List Nat)} {row : List (BitVec 8)} {w : K} {records : List (List Bool)} {ok : Bool}
      (h : Fresh1 g without (.decode corr hits) (.predictions row w)) (rest : Predicted g without corr shots records ok) :
      Predicted g without corr (hits :: shots) (bits row :: records) ok

/-- `Counted g without corr l n`: of the shots, each given with the recorded observables, `n` are such that the prediction of `decode` on a new object is not
what was recorded. -/
inductive Counted [W : Width] (g : UGraph K) (without corr : Bool) : List (List Nat × List Bool) → Nat → Prop where
  | done : Counted g without corr [] 0
  | right {hits : List Nat} {obs : List Bool} {l : List (List Nat × List Bool)} {row : List (BitVec 8)} {w : K} {n : Nat}
      (h : Fresh1 g without (.decode corr hits) (.predictions row w)) (he : bits row = obs) (rest : Counted g without corr l n) :
      Counted g without corr ((hits, obs) :: l) n
  | wrong {hits : List Nat} {obs : List Bool} {l : List (List Nat × List Bool)} {row : List (BitVec 8)} {w : K} {n : Nat}
      (h : Fresh1 g without (.decode corr hits) (.predictions row w)) (he : bits row ≠ obs) (rest : Counted g without corr l n) :
      Counted g without corr ((hits, obs) :: l) (n + 1)

/-! ## Lemmas: replies -/

/-- What a reply looks like. -/
def Shape (numObs : Nat) : Correlated.Call → Reply → Prop
  | .obs .., r => r = .exception ∨ ∃ buf w, r = .predictions buf w ∧ buf.length = numObs
  | .mask .., r => r = .exception ∨ ∃ m w, r = .mask m w ∧ ∀ k, numObs ≤ k → k < 64 → m.getLsbD k = false
  | _, _ => True

section
variable {numNodes numObs : Nat} {bnd : List Bool} {m : ObsInt}

theorem promise_zero (hobs : numObs ≤ 64) (events : List Nat) :
    Promises numNodes numObs bnd m events (fun f => call64 bnd m f events) fun _ _ a => ∀ k, numObs ≤ k → k < 64 → a.1.getLsbD k = false := by
  intro ops g sg hB hb hv F hF
  rcases promise_mask numNodes numObs bnd m events ops g sg hB hb hv F hF with ⟨F', a, h1, h2, c, h3, h4⟩ | h
  · refine .inl ⟨F', a, h1, h2, c, h3, fun k hk hk' => ?_⟩
    have := (h4 hobs).2 k hk'
    have h0 : NegWeights.crossed c k = 0 := by
      unfold NegWeights.crossed
      refine Finset.sum_eq_zero fun i _ => List.count_eq_zero.2 fun ho => ?_
      have := hB.obs _ (List.getElem_mem i.2) k ho
      omega
    rw [h0] at this
    simpa using this
  · exact .inr h

variable {ops : List Props.Graph.EdgeIns} {g : MGraph} {sg : SGraph} {C : Corr} {st : CState}

theorem shape_plain {α : Type} {call : Nat → MGraph → SGraph → Full → Option (Ended (Full × α))} {events : List Nat}
    {P : ∀ ops : List Props.Graph.EdgeIns, NegWeights.Correction ops → α → Prop} (hB : Built numNodes numObs ops g sg m)
    (hb : ∀ d ∈ g.negDets, TL.notBoundary bnd d = true) (hst : Rest g sg st) (hv : Valid g events) (hp : Promises numNodes numObs bnd m events call P) (v : α → Reply) :
    ∃ r st', Completes (fun f => tell v (plain g sg (call f) st)) (.ok (r, st')) ∧ Rest g sg st' ∧ (r = .exception ∨ ∃ a ops c, r = v a ∧ P ops c a) := by
  have e1 : withM g st.wg.mem = g := by rw [hst.matching]; exact withM_mem g
  have e2 : withS sg st.ws.mem = sg := by rw [hst.search]; exact withS_mem sg
  rcases hp ops g sg hB hb hv st.full hst.full with ⟨F', a, h1, h2, c, -, h4⟩ | ⟨F', h1, h2, -⟩
  · obtain ⟨f0, e⟩ := plain_ok (g := g) (sg := sg) (st := st) (F := F') (a := a) (by rw [e1, e2]; exact h1)
    refine ⟨v a, { st with full := F' }, ⟨f0, fun f hf => ?_⟩, ⟨h2, hst.matching, hst.search⟩, .inr ⟨a, ops, c, rfl, h4⟩⟩
    have := e f hf
    simp only at this
    simp only [this, tell]
  · obtain ⟨f0, e⟩ := plain_throws (g := g) (sg := sg) (st := st) (F := F') (call := call) (by rw [e1, e2]; exact h1)
    refine ⟨.exception, { st with full := F' }, ⟨f0, fun f hf => ?_⟩, ⟨h2, hst.matching, hst.search⟩, .inl rfl⟩
    have := e f hf
    simp only at this
    simp only [this, tell]

omit [IsStrictOrderedRing K] in
theorem shape_corr {ins : List (Conv.Ins K)} {k : K} {α : Type} {call : Nat → MGraph → SGraph → Full → Option (Ended (Full × α))} {events : List Nat}
    {P : ∀ ops : List Props.Graph.EdgeIns, NegWeights.Correction ops → α → Prop} (hB : BuiltCorr numNodes numObs ins k g sg m C)
    (hb : ∀ d ∈ g.negDets, TL.notBoundary bnd d = true) (hst : Rest g sg st) (hv : Valid g events) (hp : Promises numNodes numObs bnd m events call P) (v : α → Reply) :
    ∃ r st', Completes (fun f => tell v (correlated g sg bnd C f (call f) st events)) (.ok (r, st')) ∧ Rest g sg st' ∧
      (r = .exception ∨ ∃ a ops c, r = v a ∧ P ops c a) := by
  rcases correlated_spec hB hb hst hv hp with ⟨st', a, ⟨f0, e⟩, -, h2, -, -, ρ, -, c, -, h4⟩ | ⟨st', ⟨f0, e⟩, h2, -⟩
  · refine ⟨v a, st', ⟨f0, fun f hf => ?_⟩, h2, .inr ⟨a, _, c, rfl, h4⟩⟩
    have := e f hf
    simp only at this
    simp only [this, tell]
  · refine ⟨.exception, st', ⟨f0, fun f hf => ?_⟩, h2, .inl rfl⟩
    have := e f hf
    simp only at this
    simp only [this, tell]

end

open Verif.Props.Object

omit [IsStrictOrderedRing K] in
/-- Every reply of a decoder at rest has its shape. -/
theorem shape {c : Correlated.Call} {g : UGraph K} {d1 : Decoder K} (hs : Solid g d1) (hobs : (∃ corr ev, c = Correlated.Call.mask corr ev) → g.numObs ≤ 64)
    (hc : (∃ corr ev buf w, c = Correlated.Call.obs corr ev buf w) ∨ ∃ corr ev, c = Correlated.Call.mask corr ev)
    (ha : c.Acceptable d1.P.mg) (hcorr : asksCorr c = true → NonNeg g) {st : CState} (hst : Rest d1.P.mg d1.sg st) :
    ∃ r st', Completes (fun f => respond d1.P.mg d1.sg d1.P.bnd d1.P.mask d1.C f st c) (.ok (r, st')) ∧ Rest d1.P.mg d1.sg st' ∧ Shape g.numObs c r := by
  obtain ⟨ins, hB, hC⟩ := hs.ex
  rcases hc with ⟨corr, ev, buf, w, rfl⟩ | ⟨corr, ev, rfl⟩
  · have hl : buf.length = g.numObs := ha.2.trans hs.nobs
    cases corr with
    | false =>
      obtain ⟨r, st', h1, h2, h3⟩ := shape_plain hB hs.quiet hst ha.1 (promise_obs _ _ d1.P.bnd d1.P.mask ev hl w) (fun a => Reply.predictions a.1 a.2)
      refine ⟨r, st', h1, h2, h3.imp_right ?_⟩
      rintro ⟨a, _, _, rfl, h, -⟩
      exact ⟨_, _, rfl, h⟩
    | true =>
      obtain ⟨r, st', h1, h2, h3⟩ := shape_corr (hC (hcorr rfl)) hs.quiet hst ha.1 (promise_obs _ _ d1.P.bnd d1.P.mask ev hl w) (fun a => Reply.predictions a.1 a.2)
      refine ⟨r, st', h1, h2, h3.imp_right ?_⟩
      rintro ⟨a, _, _, rfl, h, -⟩
      exact ⟨_, _, rfl, h⟩
  · have h64 := hobs ⟨corr, ev, rfl⟩
    cases corr with
    | false =>
      obtain ⟨r, st', h1, h2, h3⟩ := shape_plain hB hs.quiet hst ha (promise_zero h64 ev) (fun a => Reply.mask a.1 a.2)
      refine ⟨r, st', h1, h2, h3.imp_right ?_⟩
      rintro ⟨a, _, _, rfl, h⟩
      exact ⟨_, _, rfl, h⟩
    | true =>
      obtain ⟨r, st', h1, h2, h3⟩ := shape_corr (hC (hcorr rfl)) hs.quiet hst ha (promise_zero h64 ev) (fun a => Reply.mask a.1 a.2)
      refine ⟨r, st', h1, h2, h3.imp_right ?_⟩
      rintro ⟨a, _, _, rfl, h⟩
      exact ⟨_, _, rfl, h⟩

/-! ## Lemmas: the two kinds of decoding -/

section
variable {g : MGraph} {sg : SGraph} {bnd : List Bool} {m : ObsInt} {C : Corr} {ev : List Nat} {f : Nat}

/-- With up to 64 observables both calls end alike. -/
theorem same_end {G : MGraph} (hn : ¬ G.numObs > 64) (S : SGraph) (F F' : Full) (buf : List (BitVec 8)) (w : Int) :
    (call64 bnd m f ev G S F = some (.throws F') → decodeObs G S bnd m f F ev buf w = some (.throws F')) ∧
    ∀ mm wt out, call64 bnd m f ev G S F = some (.ok (F', mm, wt)) → Obs.fillBitVector mm buf G.numObs = .ok out →
      decodeObs G S bnd m f F ev buf w = some (.ok (F', out, wt)) := by
  unfold call64 SB.decode64 decodeObs
  cases matching G bnd (negEvents G) f F.ms ev with
  | none => exact ⟨fun h => (by cases h), fun _ _ _ h => by cases h⟩
  | some x =>
    cases x with
    | ub => exact ⟨fun h => (by cases h), fun _ _ _ h => by cases h⟩
    | throws s => exact ⟨fun h => (by cases h; rfl), fun _ _ _ h => by cases h⟩
    | ok a =>
      obtain ⟨s, x⟩ := a
      refine ⟨fun h => (by cases h), fun mm wt out h ho => ?_⟩
      simp only [Option.some.injEq, Ended.ok.injEq, Prod.mk.injEq] at h
      obtain ⟨rfl, rfl, rfl⟩ := h
      simp only [if_neg hn, ho]

theorem plain_end (hn : ¬ g.numObs > 64) (st st' : CState) (buf : List (BitVec 8)) (w : Int) :
    (plain g sg (call64 bnd m f ev) st = some (.throws st') → plain g sg (fun g sg F => decodeObs g sg bnd m f F ev buf w) st = some (.throws st')) ∧
    ∀ mm wt out, plain g sg (call64 bnd m f ev) st = some (.ok (st', mm, wt)) → Obs.fillBitVector mm buf g.numObs = .ok out →
      plain g sg (fun g sg F => decodeObs g sg bnd m f F ev buf w) st = some (.ok (st', out, wt)) := by
  unfold plain
  have hn' : ¬ (withM g st.wg.mem).numObs > 64 := hn
  cases h : call64 bnd m f ev (withM g st.wg.mem) (withS sg st.ws.mem) st.full with
  | none => exact ⟨fun h => (by cases h), fun _ _ _ h => by cases h⟩
  | some x =>
    cases x with
    | ub => exact ⟨fun h => (by cases h), fun _ _ _ h => by cases h⟩
    | throws F =>
      have := (same_end hn' (withS sg st.ws.mem) st.full F buf w).1 h
      refine ⟨fun e => ?_, fun _ _ _ h => by cases h⟩
      cases e
      simp only [this]
    | ok a =>
      obtain ⟨F, mm, wt⟩ := a
      refine ⟨fun h => (by cases h), fun mm' wt' out e ho => ?_⟩
      simp only [Option.some.injEq, EndedC.ok.injEq, Prod.mk.injEq] at e
      obtain ⟨rfl, rfl, rfl⟩ := e
      have := (same_end hn' (withS sg st.ws.mem) st.full F buf w).2 _ _ _ h ho
      simp only [this]

theorem corr_end (hn : ¬ g.numObs > 64) (st st' : CState) (buf : List (BitVec 8)) (w : Int) :
    (decode64Corr g sg bnd m C f st ev = some (.throws st') → decodeObsCorr g sg bnd m C f st ev buf w = some (.throws st')) ∧
    ∀ mm wt out, decode64Corr g sg bnd m C f st ev = some (.ok (st', mm, wt)) → Obs.fillBitVector mm buf g.numObs = .ok out →
      decodeObsCorr g sg bnd m C f st ev buf w = some (.ok (st', out, wt)) := by
  unfold decode64Corr decodeObsCorr correlated
  cases firstPass g sg bnd C f st ev with
  | none => exact ⟨fun h => (by cases h), fun _ _ _ h => by cases h⟩
  | some x =>
    cases x with
    | ub => exact ⟨fun h => (by cases h), fun _ _ _ h => by cases h⟩
    | throws s => exact ⟨fun h => (by cases h; rfl), fun _ _ _ h => by cases h⟩
    | ok s1 =>
      simp only
      cases h : plain g sg (call64 bnd m f ev) s1 with
      | none => exact ⟨fun h => (by cases h), fun _ _ _ h => by cases h⟩
      | some x =>
        cases x with
        | ub => exact ⟨fun h => (by cases h), fun _ _ _ h => by cases h⟩
        | throws F =>
          have := (plain_end hn s1 F buf w).1 h
          refine ⟨fun e => ?_, fun _ _ _ h => by cases h⟩
          cases e
          simp only [this]
        | ok a =>
          obtain ⟨F, mm, wt⟩ := a
          refine ⟨fun h => (by cases h), fun mm' wt' out e ho => ?_⟩
          simp only [Option.some.injEq, EndedC.ok.injEq, Prod.mk.injEq] at e
          obtain ⟨rfl, rfl, rfl⟩ := e
          have := (plain_end hn s1 F buf w).2 _ _ _ h ho
          simp only [this]

theorem tell_mask {x : Option (EndedC (CState × ObsInt × Int))} {r : Reply} {st' : CState} (h : tell (fun a => Reply.mask a.1 a.2) x = some (.ok (r, st'))) :
    (x = some (.throws st') ∧ r = .exception) ∨ ∃ mm wt, x = some (.ok (st', mm, wt)) ∧ r = .mask mm wt := by
  match x, h with
  | some (.throws s), h =>
    simp only [tell, Option.some.injEq, Res.ok.injEq, Prod.mk.injEq] at h
    obtain ⟨rfl, rfl⟩ := h
    exact .inl ⟨rfl, rfl⟩
  | some (.ok (s, mm, wt)), h =>
    simp only [tell, Option.some.injEq, Res.ok.injEq, Prod.mk.injEq] at h
    obtain ⟨rfl, rfl⟩ := h
    exact .inr ⟨mm, wt, rfl, rfl⟩

/-- The reply to the 64-bit call determines the reply to the call with a buffer. -/
theorem mask_obs (hn : ¬ g.numObs > 64) {corr : Bool} {st st' : CState} {r : Reply} (buf : List (BitVec 8)) (w : Int)
    (h : respond g sg bnd m C f st (.mask corr ev) = some (.ok (r, st'))) :
    (r = .exception → respond g sg bnd m C f st (.obs corr ev buf w) = some (.ok (.exception, st'))) ∧
    ∀ mm wt out, r = .mask mm wt → Obs.fillBitVector mm buf g.numObs = .ok out →
      respond g sg bnd m C f st (.obs corr ev buf w) = some (.ok (.predictions out wt, st')) := by
  cases corr with
  | false =>
    rcases tell_mask h with ⟨h1, rfl⟩ | ⟨mm, wt, h1, rfl⟩
    · refine ⟨fun _ => ?_, fun _ _ _ h => by cases h⟩
      simp only [respond, (plain_end hn st st' buf w).1 h1, tell]
    · refine ⟨fun h => (by cases h), fun mm' wt' out e ho => ?_⟩
      cases e
      simp only [respond, (plain_end hn st st' buf w).2 _ _ _ h1 ho, tell]
  | true =>
    rcases tell_mask h with ⟨h1, rfl⟩ | ⟨mm, wt, h1, rfl⟩
    · refine ⟨fun _ => ?_, fun _ _ _ h => by cases h⟩
      simp only [respond, (corr_end hn st st' buf w).1 h1, tell]
    · refine ⟨fun h => (by cases h), fun mm' wt' out e ho => ?_⟩
      cases e
      simp only [respond, (corr_end hn st st' buf w).2 _ _ _ h1 ho, tell]

end

/-- A mask and its entries. -/
theorem mask_bits {n : Nat} (hn : n ≤ 64) {mm : ObsInt} (hz : ∀ k, n ≤ k → k < 64 → mm.getLsbD k = false) :
    ∃ out, Obs.fillBitVector mm (List.replicate n 0#8) n = .ok out ∧ out.length = n ∧ mask64 (bits out) = mm.toNat := by
  obtain ⟨out, h1, h2, h3⟩ := ObsMask.C11_fill_bit_vector mm (List.replicate n 0#8) n hn (by simp)
  rw [List.length_replicate] at h2
  refine ⟨out, h1, h2, ?_⟩
  have hb : bits out = List.ofFn (fun i : Fin n => mm.getLsbD i) := by
    apply List.ext_getElem
    · simp [bits, h2]
    · intro k hk hk'
      simp only [bits, List.length_map] at hk
      simp only [bits, List.getElem_map, List.getElem_ofFn]
      rw [h3 k hk (by simp; omega), if_pos (by omega)]
      simp only [List.getElem_replicate]
      cases mm.getLsbD k <;> decide
  rw [hb]
  have key : ∀ (n : Nat) (v : Nat), v < 2 ^ n → (List.ofFn (fun i : Fin n => v.testBit i)).foldr (fun b acc => 2 * acc + b.toNat) 0 = v := by
    intro n
    induction n with
    | zero => intro v hv; simp at hv; simp [hv]
    | succ n ih =>
      intro v hv
      rw [List.ofFn_succ, List.foldr_cons]
      have : (fun i : Fin n => v.testBit i.succ) = fun i : Fin n => (v / 2).testBit i := by
        funext i
        rw [Fin.val_succ, Nat.testBit_succ]
      rw [this, ih _ (by omega)]
      have : (v.testBit (0 : Fin (n + 1))).toNat = v % 2 := by
        simp only [Fin.val_zero, Nat.testBit_zero]
        rcases Nat.mod_two_eq_zero_or_one v with h | h <;> simp [h]
      rw [this]
      omega
  unfold mask64
  rw [List.take_of_length_le (by simpa using hn)]
  refine key n mm.toNat ?_
  refine Nat.lt_pow_two_of_testBit _ fun k hk => ?_
  by_cases hk' : k < 64
  · exact hz k hk hk'
  · exact BitVec.getLsbD_of_ge mm k (by omega)

/-! ## Lemmas: one shot -/

section
variable {g : UGraph K} (hw : WF g) (hB : Props.Convert.BndOk g) {without : Bool} {d1 : Decoder K} (h1 : toMwpm g without true = some d1) (hs : Solid g d1)
include h1 hs

/-- The call on any decoder of the graph: it ends, with a reply of its shape. -/
theorem shape_any {d : Decoder K} {s : Bool} (hd : Ready g without d s) {c : Correlated.Call} (hobs : (∃ corr ev, c = Correlated.Call.mask corr ev) → g.numObs ≤ 64)
    (hc : (∃ corr ev buf w, c = Correlated.Call.obs corr ev buf w) ∨ ∃ corr ev, c = Correlated.Call.mask corr ev)
    (ha : c.Acceptable d1.P.mg) (hcorr : asksCorr c = true → NonNeg g) (hne : needs c = true → s = true) :
    ∃ r st', Completes (fun f => respond d.P.mg d.sg d.P.bnd d.P.mask d.C f d.st c) (.ok (r, st')) ∧ Ready g without { d with st := st' } s ∧ Shape g.numObs c r := by
  obtain ⟨-, -, st1, r1, k1⟩ := stand_in h1 hs hd
  obtain ⟨r, st', e1, e2, e3⟩ := shape hs hobs hc ha hcorr r1
  obtain ⟨st, x, y⟩ := k1 c r st' hne e2 e1
  exact ⟨r, st, x, ⟨hd.built, y⟩, e3⟩

include hw hB

/-- The reply is that of `decode` on a new object. -/
theorem fresh_of {d : Decoder K} {s : Bool} (hd : Ready g without d s) {corr : Bool} (hcorr : corr = true → NonNeg g) (hne : corr = true → s = true)
    {ev : List Nat} (hev : EventsOk g ev) {r : Reply} {st : CState}
    (hr : Completes (fun f => respond d.P.mg d.sg d.P.bnd d.P.mask d.C f d.st (.obs corr ev (List.replicate g.numObs 0#8) 0)) (.ok (r, st))) :
    Fresh1 g without (.decode corr ev) (decodeAns (rowAns false d1.P.scale r)) := by
  obtain ⟨o', d', s', e', hh', hs'⟩ := decoderFor_held hw hB h1 hs (inv_of g without) corr
  have hn : o'.graph.numObs = g.numObs := by
    obtain ⟨b, e⟩ := hh'.same
    rw [e]
  have ha := acceptable_obs hs hev hh' corr 0
  have hh : Held g without { o' with cache := some d } d s := ⟨hh'.same, hh'.wo, rfl, hd⟩
  rw [hn] at ha
  obtain ⟨r', p, q, p', q', ⟨f0, c1⟩, c2, -, -⟩ := call_two h1 hs hh hh' ha hcorr (fun h => ⟨hne h, hs' h⟩)
  have hrr : r' = r := by
    obtain ⟨f1, e1⟩ := hr
    have a1 := c1 (max f0 f1) (le_max_left _ _)
    have a2 := e1 (max f0 f1) (le_max_right _ _)
    simp only [Object.call] at a1
    simp only at a2
    rw [a2] at a1
    cases a1
    rfl
  subst hrr
  rw [← hn] at c2
  have hP' := (stand_in h1 hs hh'.ready).1
  refine ⟨p', ?_⟩
  rw [← hP']
  exact ask_decode e' (row_of_call c2)

/-! ## Lemmas: the loops -/

theorem predict_loop {corr : Bool} (hcorr : corr = true → NonNeg g) {s : Bool} (hne : corr = true → s = true) (shots : List (List Nat)) :
    (∀ ev ∈ shots, EventsOk g ev) → ∀ {d : Decoder K}, Ready g without d s → ∀ d0 : Decoder K, d0.P = d.P → d0.sg = d.sg → d0.C = d.C →
    ∃ records ok, Completes (fun f => predictWith d0 corr g.numObs f d.st (List.replicate g.numObs 0#8) 0 shots) (.ok (records, ok)) ∧
      Predicted g without corr shots records ok := by
  induction shots with
  | nil => intro _ d _ d0 _ _ _; exact ⟨[], true, ⟨0, fun f _ => rfl⟩, .done⟩
  | cons ev shots ih =>
    intro hev d hd d0 eP eS eC
    have hev0 := hev ev (by simp)
    have ha : (Correlated.Call.obs corr ev (List.replicate g.numObs 0#8) 0).Acceptable d1.P.mg :=
      ⟨⟨hev0.1, fun x hx => by rw [hs.len]; exact hev0.2 x hx⟩, by rw [List.length_replicate, hs.nobs]⟩
    obtain ⟨r, st', hr, hd', hsh⟩ := shape_any h1 hs hd (c := .obs corr ev (List.replicate g.numObs 0#8) 0) (fun ⟨_, _, h⟩ => by cases h)
      (.inl ⟨_, _, _, _, rfl⟩) ha hcorr hne
    have hf := fresh_of hw hB h1 hs hd hcorr hne hev0 hr
    obtain ⟨f0, e0⟩ := hr
    rcases hsh with rfl | ⟨buf, w, rfl, hl⟩
    · refine ⟨[], false, ⟨f0, fun f hf => ?_⟩, .raised hf⟩
      have := e0 f hf
      simp only at this
      simp only [predictWith, eP, eS, eC, this]
    · obtain ⟨records, ok, ⟨f1, e1⟩, hp⟩ := ih (fun e he => hev e (by simp [he])) hd' d0 eP eS eC
      refine ⟨bits buf :: records, ok, ⟨max f0 f1, fun f hf' => ?_⟩, .shot hf hp⟩
      have a0 := e0 f (le_trans (le_max_left _ _) hf')
      have a1 := e1 f (le_trans (le_max_right _ _) hf')
      simp only at a0 a1
      simp only [predictWith, eP, eS, eC, a0]
      rw [Props.Cli.record_ok _ _ (by simp [hl])]
      simp only [hl, a1, bits]

theorem count_one {corr : Bool} (h64 : g.numObs ≤ 64) (hcorr : corr = true → NonNeg g) {s : Bool} (hne : corr = true → s = true) {ev : List Nat}
    (hev : EventsOk g ev) {d : Decoder K} (hd : Ready g without d s) :
    ∃ r st', Completes (fun f => respond d.P.mg d.sg d.P.bnd d.P.mask d.C f d.st (.mask corr ev)) (.ok (r, st')) ∧ Ready g without { d with st := st' } s ∧
      ((r = .exception ∧ Fresh1 g without (.decode corr ev) .exception) ∨
       ∃ mm wt row w, r = .mask mm wt ∧ Fresh1 g without (.decode corr ev) (.predictions row w) ∧
         ∀ o : List Bool, o.length = g.numObs → (mask64 o ≠ mm.toNat ↔ bits row ≠ o)) := by
  have ha : (Correlated.Call.mask corr ev).Acceptable d1.P.mg := ⟨hev.1, fun x hx => by rw [hs.len]; exact hev.2 x hx⟩
  obtain ⟨r, st', hr, hd', hsh⟩ := shape_any h1 hs hd (c := .mask corr ev) (fun _ => h64) (.inr ⟨_, _, rfl⟩) ha hcorr hne
  refine ⟨r, st', hr, hd', ?_⟩
  have hP := (stand_in h1 hs hd).1
  have hno : d.P.mg.numObs = g.numObs := by rw [hP]; exact hs.nobs
  have hn : ¬ d.P.mg.numObs > 64 := by omega
  obtain ⟨f0, e0⟩ := hr
  rcases hsh with rfl | ⟨mm, wt, rfl, hz⟩
  · left
    refine ⟨rfl, fresh_of hw hB h1 hs hd hcorr hne hev (r := .exception) (st := st') ⟨f0, fun f hf => ?_⟩⟩
    have := e0 f hf
    simp only at this
    exact (mask_obs hn _ _ this).1 rfl
  · right
    obtain ⟨out, k1, k2, k3⟩ := mask_bits h64 hz
    refine ⟨mm, wt, out, _, rfl, fresh_of hw hB h1 hs hd hcorr hne hev (r := .predictions out wt) (st := st') ⟨f0, fun f hf => ?_⟩, fun o ho => ?_⟩
    · have := e0 f hf
      simp only at this
      exact (mask_obs hn _ _ this).2 _ _ _ rfl (by rw [hno]; exact k1)
    · have hlen : o.length = (bits out).length := by simp [bits, ho, k2]
      rw [← k3, Ne, Props.Cli.mask64_inj o (bits out) hlen (by omega)]
      exact ⟨fun h e => h e.symm, fun h e => h e.symm⟩

theorem count_loop {corr : Bool} (h64 : g.numObs ≤ 64) (hcorr : corr = true → NonNeg g) {s : Bool} (hne : corr = true → s = true) (shots : List Shot) :
    (∀ x ∈ shots, EventsOk g x.hits) → ∀ (obsIn : Option (List (List Bool))), (∀ r ∈ Props.Cli.recorded shots obsIn, r.length = g.numObs) →
    ∀ {d : Decoder K}, Ready g without d s → ∀ d0 : Decoder K, d0.P = d.P → d0.sg = d.sg → d0.C = d.C → ∀ a b : Nat,
    ∃ out, Completes (fun f => countWith d0 corr f d.st a b shots obsIn) (.ok out) ∧
      ((∃ n, out = some (a + n, b + shots.length) ∧ shots.length ≤ (Props.Cli.recorded shots obsIn).length ∧
          Counted g without corr ((shots.map (·.hits)).zip (Props.Cli.recorded shots obsIn)) n) ∨
       (out = none ∧ ((Props.Cli.recorded shots obsIn).length < shots.length ∨ ∃ x ∈ shots, Fresh1 g without (.decode corr x.hits) .exception))) := by
  induction shots with
  | nil =>
    intro _ obsIn _ d _ d0 _ _ _ a b
    exact ⟨some (a, b), ⟨0, fun f _ => by cases obsIn <;> rfl⟩, .inl ⟨0, rfl, Nat.zero_le _, .done⟩⟩
  | cons x shots ih =>
    intro hev obsIn hrec d hd d0 eP eS eC a b
    obtain ⟨r, st', ⟨f0, e0⟩, hd', hr⟩ := count_one hw hB h1 hs h64 hcorr hne (hev x (by simp)) hd
    -- the rest, once the recorded observables of this shot are known
    have step : ∀ (o : List Bool) (rest : Option (List (List Bool))), Props.Cli.recorded (x :: shots) obsIn = o :: Props.Cli.recorded shots rest →
        (∀ f, countWith d0 corr f d.st a b (x :: shots) obsIn =
          match respond d0.P.mg d0.sg d0.P.bnd d0.P.mask d0.C f d.st (.mask corr x.hits) with
          | none => none
          | some .ub => some .ub
          | some .throws => some .throws
          | some (.ok (.mask mask _, st')) => countWith d0 corr f st' (if mask64 o ≠ mask.toNat then a + 1 else a) (b + 1) shots rest
          | some (.ok (_, _)) => some (.ok none)) →
        ∃ out, Completes (fun f => countWith d0 corr f d.st a b (x :: shots) obsIn) (.ok out) ∧
          ((∃ n, out = some (a + n, b + (x :: shots).length) ∧ (x :: shots).length ≤ (Props.Cli.recorded (x :: shots) obsIn).length ∧
            Counted g without corr (((x :: shots).map (·.hits)).zip (Props.Cli.recorded (x :: shots) obsIn)) n) ∨
          (out = none ∧ ((Props.Cli.recorded (x :: shots) obsIn).length < (x :: shots).length ∨
            ∃ y ∈ x :: shots, Fresh1 g without (.decode corr y.hits) .exception))) := by
      intro o rest hcons hstep
      rw [hcons] at hrec ⊢
      rcases hr with ⟨rfl, hf⟩ | ⟨mm, wt, row, w, rfl, hf, hcmp⟩
      · refine ⟨none, ⟨f0, fun f hf => ?_⟩, .inr ⟨rfl, .inr ⟨x, by simp, hf⟩⟩⟩
        have := e0 f hf
        simp only at this
        simp only [hstep, eP, eS, eC, this]
      · have ho := hcmp o (hrec o (by simp))
        obtain ⟨out, ⟨f1, e1⟩, hout⟩ := ih (fun y hy => hev y (by simp [hy])) rest (fun r hr => hrec r (by simp [hr])) hd' d0 eP eS eC
          (if mask64 o ≠ mm.toNat then a + 1 else a) (b + 1)
        refine ⟨out, ⟨max f0 f1, fun f hf' => ?_⟩, ?_⟩
        · have a0 := e0 f (le_trans (le_max_left _ _) hf')
          have a1 := e1 f (le_trans (le_max_right _ _) hf')
          simp only at a0 a1
          simp only [hstep, eP, eS, eC, a0, a1]
        · rcases hout with ⟨n, rfl, hle, hc⟩ | ⟨rfl, h⟩
          · left
            by_cases hm : bits row = o
            · refine ⟨n, ?_, by simp only [List.length_cons]; omega, .right hf hm hc⟩
              rw [if_neg (fun h => ho.1 h hm), List.length_cons]
              congr 2; omega
            · refine ⟨n + 1, ?_, by simp only [List.length_cons]; omega, .wrong hf hm hc⟩
              rw [if_pos (ho.2 hm), List.length_cons]
              congr 2 <;> omega
          · right
            refine ⟨rfl, h.imp (fun h => by simp only [List.length_cons]; omega) ?_⟩
            rintro ⟨y, hy, hy'⟩
            exact ⟨y, by simp [hy], hy'⟩
    cases obsIn with
    | none => exact step x.obs none rfl (fun f => rfl)
    | some os =>
      cases os with
      | nil => exact ⟨none, ⟨0, fun f _ => rfl⟩, .inr ⟨rfl, .inl (by simp [Props.Cli.recorded])⟩⟩
      | cons o os => exact step o (some os) rfl (fun f => rfl)

end

/-! ## Lemmas: loaded graphs -/

open Verif.Dem Verif.Props.Dem
open Verif.Props.MergeWeights (llr)
open Verif.MW (mergeWeights)

omit [IsStrictOrderedRing K] in
theorem builds_corr {g : UGraph K} {without : Bool} {x : Prepared K × SGraph × Corr} (h : prepareCorr g without = some x) : ∃ d, toMwpm g without true = some d := by
  unfold prepareCorr at h
  unfold toMwpm
  unfold prepareFull at h
  cases hP : prepare g with
  | none => rw [hP] at h; cases h
  | some P =>
    cases hc : convert g with
    | none => rw [hP, hc] at h; cases h
    | some y =>
      obtain ⟨ins, k⟩ := y
      rw [hP, hc] at h
      simp only at h ⊢
      cases hr : runS (SGraph.empty g.nodes.length) (ins.map Props.Convert.toGraphIns) with
      | none => rw [hr] at h; cases h
      | some sg =>
        rw [hr] at h
        simp only at h
        split at h
        · rename_i rg rs h1 h2
          rw [h1]
          simp only [Bool.or_true, if_true, h2]
          exact ⟨_, rfl⟩
        · cases h

omit [IsStrictOrderedRing K] [LinearOrder K] [FloorRing K] [Field K] in
/-- The table has only implied weights of the insertions. -/
theorem table_cells {n : Nat} {ins : List (Conv.Ins K)} (h : ∀ i ∈ ins, impliedOf i = []) : ∀ row ∈ table n ins, ∀ im ∈ row, im = [] := by
  have key : ∀ (ins : List (Conv.Ins K)) (t : Table K), (∀ i ∈ ins, impliedOf i = []) → (∀ row ∈ t, ∀ im ∈ row, im = []) →
      ∀ row ∈ ins.foldl note t, ∀ im ∈ row, im = [] := by
    have mod : ∀ (t : Table K) (u : Nat) (f : List (List (Implied K)) → List (List (Implied K))), (∀ row ∈ t, ∀ im ∈ row, im = []) →
        (∀ row, (∀ im ∈ row, im = []) → ∀ im ∈ f row, im = []) → ∀ row ∈ t.modify u f, ∀ im ∈ row, im = [] := by
      intro t u f ht hf row hrow
      obtain ⟨j, hj, rfl⟩ := List.getElem_of_mem hrow
      rw [List.getElem_modify]
      have hj' : j < t.length := by simpa using hj
      split
      · exact hf _ (ht _ (List.getElem_mem hj'))
      · exact ht _ (List.getElem_mem hj')
    intro ins
    induction ins with
    | nil => intro t _ ht; exact ht
    | cons i ins ih =>
      intro t hi ht
      rw [List.foldl_cons]
      refine ih _ (fun j hj => hi j (by simp [hj])) ?_
      have h0 := hi i (by simp)
      cases i with
      | edge u v w o im =>
        simp only [impliedOf] at h0
        subst h0
        simp only [note]
        split
        · exact ht
        · refine mod _ v _ (mod _ u _ ht ?_) ?_ <;>
          · intro row hrow im him
            rw [List.mem_append, List.mem_singleton] at him
            exact him.elim (hrow im) id
      | bdry u w o im =>
        simp only [impliedOf] at h0
        subst h0
        simp only [note]
        refine mod _ u _ ht ?_
        intro row hrow im him
        rw [List.mem_cons] at him
        exact him.elim id (hrow im)
  refine key ins _ h ?_
  intro row hrow im him
  rw [List.eq_of_mem_replicate hrow] at him
  cases him

theorem builds_plain {g : UGraph ℝ} (hw : WF g) (hB : Props.Convert.BndOk g) (hpl : ∀ e ∈ g.edges, e.implied = []) {x : Prepared ℝ × SGraph}
    (h : prepareFull g = some x) (without : Bool) : ∃ d, toMwpm g without true = some d := by
  unfold prepareFull at h
  unfold toMwpm
  cases hP : prepare g with
  | none => rw [hP] at h; cases h
  | some P =>
    obtain ⟨ins, k, c, hc, -, -, -, -, -, -, -, -, -, -, -, φ, -, hF⟩ := prepared_graph hw hB hP
    rw [hP, hc] at h
    rw [hc]
    simp only at h ⊢
    have him : ∀ i ∈ ins, impliedOf i = [] := by
      intro i hi
      obtain ⟨j, hj, rfl⟩ := List.getElem_of_mem hi
      rw [DemCorr.implied_from (hF ⟨j, by simpa using hj⟩ hj)]
      exact hpl _ (List.getElem_mem _)
    have hconv : ∀ A : Adj, ∃ R, convertTable A k (table g.nodes.length ins) = .ok R := by
      intro A
      refine DemCorr.mapRes_total fun row hrow => DemCorr.mapRes_total fun im hrow' => ⟨[], ?_⟩
      rw [table_cells him row hrow im hrow']
      rfl
    cases hr : runS (SGraph.empty g.nodes.length) (ins.map Props.Convert.toGraphIns) with
    | none => rw [hr] at h; cases h
    | some sg =>
      obtain ⟨rg, h1⟩ := hconv (adjM P.mg)
      obtain ⟨rs, h2⟩ := hconv (adjS sg)
      rw [h1]
      simp only [Bool.or_true, if_true, h2]
      exact ⟨_, rfl⟩

/-- What both ways of loading give. -/
structure Usable (m : Model ℝ) (corr : Bool) (g : UGraph ℝ) : Prop where
  wf : WF g
  bndOk : Props.Convert.BndOk g
  nodes : g.nodes.length = m.numDets
  numObs : g.numObs = m.numObs
  covered : Covered g
  nonneg : corr = true → NonNeg g

theorem usable {m : Model ℝ} (hv : Dem.Valid m) {corr : Bool} {g : UGraph ℝ} (hl : loadFor mergeWeights llr corr m = some g) : Usable m corr g := by
  unfold loadFor at hl
  cases corr with
  | false =>
    simp only [Bool.false_eq_true, if_false, Option.some.injEq] at hl
    subst hl
    have h := Likelihood.start m hv
    exact ⟨h.wf, h.bndOk, h.nodes, h.numObs, Likelihood.covered h hv, fun h => by cases h⟩
  | true =>
    simp only [if_true] at hl
    have h := DemCorr.loaded m hv g hl
    exact ⟨h.wf, h.bndOk, h.nodes, h.numObs, DemCorr.covered h hv, fun _ e he => DemCorr.weight_nonneg h he⟩

/-! ## Theorems -/

/-- C57 (`predict`).  For every detector error model and every list of shots, the tool ends; the records it writes are the predictions that `decode` gives for
the shots, each on a new object with the same graph; it returns success after the last shot, or failure at the first shot for which `decode` raises. -/
theorem C57_predict (m : Model ℝ) (hv : Dem.Valid m) (corr : Bool) (g : UGraph ℝ) (hl : loadFor mergeWeights llr corr m = some g)
    (hd : ∃ d, toMwpm g (!corr) true = some d) (shots : List (List Nat)) (hshots : ∀ ev ∈ shots, ev.Nodup ∧ ∀ d ∈ ev, d < m.numDets) :
    ∃ records ok, Completes (fun f => runPredict mergeWeights llr corr m shots f) (.ok (records, ok)) ∧ Predicted g (!corr) corr shots records ok := by
  have hu := usable hv hl
  obtain ⟨d1, h1⟩ := hd
  have hs := solid hu.wf hu.bndOk hu.covered h1
  obtain ⟨d0, h0, hP, -⟩ := toMwpm_false h1
  have hev : ∀ ev ∈ shots, EventsOk g ev := fun ev h => ⟨(hshots ev h).1, fun d hd => by rw [hu.nodes]; exact (hshots ev h).2 d hd⟩
  have main : ∀ d, toMwpm g (!corr) corr = some d → ∃ records ok, Completes (fun f => runPredict mergeWeights llr corr m shots f) (.ok (records, ok)) ∧
      Predicted g (!corr) corr shots records ok := by
    intro d hd
    obtain ⟨records, ok, ⟨f0, e⟩, hp⟩ := predict_loop hu.wf hu.bndOk h1 hs hu.nonneg (s := corr) id shots hev (ready_new hd) d rfl rfl rfl
    refine ⟨records, ok, ⟨f0, fun f hf => ?_⟩, hp⟩
    have := e f hf
    have hno : d.P.mg.numObs = g.numObs := by rw [(stand_in h1 hs (ready_new hd)).1]; exact hs.nobs
    simp only at this
    simp only [runPredict, hl, hd, hno, ← hu.numObs, this]
  cases corr with
  | false => exact main d0 h0
  | true => exact main d1 h1

/-- C57 (`count_mistakes`).  With at most 64 observables, the tool ends; it prints the number of shots whose prediction by `decode` on a new object differs
from the recorded observables, and the number of shots; or it fails, and then the recorded observables end early, or `decode` raises for one of the shots. -/
theorem C57_count (m : Model ℝ) (hv : Dem.Valid m) (hobs : m.numObs ≤ 64) (corr : Bool) (g : UGraph ℝ) (hl : loadFor mergeWeights llr corr m = some g)
    (hd : ∃ d, toMwpm g (!corr) true = some d) (shots : List Shot) (hshots : ∀ x ∈ shots, x.hits.Nodup ∧ ∀ d ∈ x.hits, d < m.numDets)
    (obsIn : Option (List (List Bool))) (hrec : ∀ r ∈ Props.Cli.recorded shots obsIn, r.length = m.numObs) :
    ∃ out, Completes (fun f => runCount mergeWeights llr corr m shots obsIn f) (.ok out) ∧
      ((∃ n, out = some (n, shots.length) ∧ shots.length ≤ (Props.Cli.recorded shots obsIn).length ∧
          Counted g (!corr) corr ((shots.map (·.hits)).zip (Props.Cli.recorded shots obsIn)) n) ∨
       (out = none ∧ ((Props.Cli.recorded shots obsIn).length < shots.length ∨ ∃ x ∈ shots, Fresh1 g (!corr) (.decode corr x.hits) .exception))) := by
  have hu := usable hv hl
  obtain ⟨d1, h1⟩ := hd
  have hs := solid hu.wf hu.bndOk hu.covered h1
  obtain ⟨d0, h0, hP, -⟩ := toMwpm_false h1
  have hev : ∀ x ∈ shots, EventsOk g x.hits := fun ev h => ⟨(hshots ev h).1, fun d hd => by rw [hu.nodes]; exact (hshots ev h).2 d hd⟩
  have main : ∀ d, toMwpm g (!corr) corr = some d → ∃ out, Completes (fun f => runCount mergeWeights llr corr m shots obsIn f) (.ok out) ∧
      ((∃ n, out = some (n, shots.length) ∧ shots.length ≤ (Props.Cli.recorded shots obsIn).length ∧
          Counted g (!corr) corr ((shots.map (·.hits)).zip (Props.Cli.recorded shots obsIn)) n) ∨
       (out = none ∧ ((Props.Cli.recorded shots obsIn).length < shots.length ∨ ∃ x ∈ shots, Fresh1 g (!corr) (.decode corr x.hits) .exception))) := by
    intro d hd
    obtain ⟨out, ⟨f0, e⟩, hp⟩ := count_loop hu.wf hu.bndOk h1 hs (by rw [hu.numObs]; exact hobs) hu.nonneg (s := corr) id shots hev obsIn
      (fun r hr => by rw [hu.numObs]; exact hrec r hr) (ready_new hd) d rfl rfl rfl 0 0
    refine ⟨out, ⟨f0, fun f hf => ?_⟩, ?_⟩
    · have := e f hf
      simp only at this
      simp only [runCount, hl, hd, this]
    · simpa only [Nat.zero_add] using hp
  cases corr with
  | false => exact main d0 h0
  | true => exact main d1 h1

/-- C57 (rejected models).  With `--enable_correlations`, a model with an error that cannot be accepted (`Accepted`: probability at most one half; every
component with one or two detectors, or a single component without detectors, or probability zero) makes both tools fail before they write anything. -/
theorem C57_rejected (m : Model ℝ) (hp : ∀ e ∈ m.errors, 0 ≤ e.p) (h : ∃ e ∈ m.errors, ¬ Accepted e) (shots : List (List Nat)) (shots' : List Shot)
    (obsIn : Option (List (List Bool))) (f : Nat) :
    runPredict mergeWeights llr true m shots f = some (.ok ([], false)) ∧ runCount mergeWeights llr true m shots' obsIn f = some (.ok none) := by
  have := (C21_load_with_correlations_rejects m hp).2 h
  simp only [runPredict, runCount, loadFor, if_true, this, and_self]

/-- C57 (the decoder can be built), under the conditions of C56 and C53. -/
theorem C57_decoder_exists (m : Model ℝ) (hv : Dem.Valid m) :
    ((∀ e ∈ (load mergeWeights llr m).edges, |e.weight| ≤ (2 ^ 24 - 1 : Nat)) → ∃ d, toMwpm (load mergeWeights llr m) true true = some d) ∧
    ∀ g, DemCorr.NoLoops m → loadCorr mergeWeights llr m = some g →
      (∀ a ∈ g.edges, a.weight ≤ (2 ^ 24 - 1 : Nat) ∧ ∀ b ∈ g.edges, DemCorr.Share m a b → llr (DemCorr.given m a b) ≤ (2 ^ 24 - 1 : Nat)) →
      ∃ d, toMwpm g false true = some d := by
  refine ⟨fun h => ?_, fun g hn hl h => ?_⟩
  · obtain ⟨P, sg, e⟩ := Likelihood.C56_decoder_exists m hv h
    have hs := Likelihood.start m hv
    exact builds_plain hs.wf hs.bndOk hs.plain e true
  · obtain ⟨P, sg, C, e⟩ := DemCorr.C53_decoder_exists m hv hn g hl h
    exact builds_corr e

/-- The hypotheses of C57 hold without correlations for the model of C56 and with correlations for the model of C53. -/
example : (Dem.Valid Likelihood.sample ∧ loadFor mergeWeights llr false Likelihood.sample = some (load mergeWeights llr Likelihood.sample) ∧
      (∃ d, toMwpm (load mergeWeights llr Likelihood.sample) (!false) true = some d) ∧ Likelihood.sample.numObs ≤ 64 ∧
      (∀ ev ∈ [[0], [0, 1], []], ev.Nodup ∧ ∀ d ∈ ev, d < Likelihood.sample.numDets) ∧
      ∀ r ∈ Props.Cli.recorded [⟨[0], [true]⟩, ⟨[0, 1], [false]⟩] none, r.length = Likelihood.sample.numObs) ∧
    Dem.Valid DemCorr.sample ∧ ∃ g, loadFor mergeWeights llr true DemCorr.sample = some g ∧ ∃ d, toMwpm g (!true) true = some d := by
  refine ⟨⟨Likelihood.sample_valid, rfl, (C57_decoder_exists _ Likelihood.sample_valid).1 Likelihood.sample_weights, by decide, ?_, ?_⟩, DemCorr.sample_valid, ?_⟩
  · simp [Likelihood.sample]
  · simp [Props.Cli.recorded, Likelihood.sample]
  · obtain ⟨g, hg⟩ := DemCorr.sample_loads
    obtain ⟨P, sg, C, h⟩ := DemCorr.sample_ready hg
    exact ⟨g, hg, builds_corr h⟩

/-- A model that is rejected: an error with three detectors. -/
example : (∀ e ∈ [(⟨1 / 10, [.det 0, .det 1, .det 2]⟩ : Err ℝ)], 0 ≤ e.p) ∧ ∃ e ∈ [(⟨1 / 10, [.det 0, .det 1, .det 2]⟩ : Err ℝ)], ¬ Accepted e := by
  refine ⟨by simp, _, List.mem_singleton.2 rfl, ?_⟩
  unfold Accepted
  have : components (⟨1 / 10, [.det 0, .det 1, .det 2]⟩ : Err ℝ) = [([0, 1, 2], [])] := by rw [← segs_components]; rfl
  rw [this]
  refine fun h => ?_
  rcases h.2 with h | h | ⟨o, h⟩
  · norm_num at h
  · exact absurd (h ([0, 1, 2], []) (by simp)) (by simp)
  · simp at h

end Verif.Props.CliRun
