import Verif.Blossom.NarrowCalls
import Verif.Props.Dynamics

/-!
# Decoders with a 32-bit wrapped radius that are in use

On a short graph, the states that a decoder with a 32-bit wrapped radius gets into, between calls and during calls, are states that a decoder with an
unbounded wrapped radius gets into.
-/

namespace Verif.SB

open Verif Verif.Graph Verif.CE Verif.Spec Verif.Props.Graph Verif.Props.Convert Verif.Props.Decode Verif.Props.Edges Verif.Props.Correlated
open Verif.Props.Dynamics Verif.Props.Shots Verif.UG Verif.Conv
open Verif.Sch (Res)

variable {K : Type} [Field K] [LinearOrder K] [IsStrictOrderedRing K] [FloorRing K]

section
variable {g : MGraph} {bnd : List Bool}

theorem decode64_int32 (hg : Proper g) (hsh : Short g) {s : MS} (hs : Clean s) {events : List Nat} (h : Takes g bnd events) (m : ObsInt) (w : Int) (f : Nat) :
    decode64 (W := int32) g bnd (negEvents g) m w f s events = decode64 g bnd (negEvents g) m w f s events := by
  simp only [decode64, matching_int32 hg hsh hs h f]

theorem decodePairs_int32 (hg : Proper g) (hsh : Short g) {s : MS} (hs : Clean s) {events : List Nat} (h : Takes g bnd events) (w : Int) (f : Nat) :
    decodePairs (W := int32) g bnd (negEvents g) w f s events = decodePairs g bnd (negEvents g) w f s events := by
  simp only [decodePairs, timeline_int32 hg hsh hs bnd h.range h.nodup h.neg (negEvents_nodup g) f]

theorem used_int32 (hg : Proper g) (hsh : Short g) (hn : g.negSum = 0 → g.negDets = ∅) (hb : ∀ d ∈ g.negDets, TL.notBoundary bnd d = true) {s : MS}
    (h : Used (W := int32) g bnd s) : Used g bnd s := by
  induction h with
  | fresh => exact .fresh
  | decoded h hv hd ih => exact .decoded ih hv ((decode64_int32 hg hsh (used_clean hg hn hb ih) (takes hb hv) _ _ _).symm.trans hd)
  | failed h hv hd ih => exact .failed ih hv ((decode64_int32 hg hsh (used_clean hg hn hb ih) (takes hb hv) _ _ _).symm.trans hd)
  | paired h hv hd ih => exact .paired ih hv ((decodePairs_int32 hg hsh (used_clean hg hn hb ih) (takes hb hv) _ _).symm.trans hd)
  | unpaired h hv hd ih => exact .unpaired ih hv ((decodePairs_int32 hg hsh (used_clean hg hn hb ih) (takes hb hv) _ _).symm.trans hd)

theorem completes_eq {α : Type} {a b : Nat → Option α} (h : ∀ f, a f = b f) {x : α} (hc : Completes a x) : Completes b x :=
  (Agree.of_eq h).symm.completes hc

theorem usedFull_int32 {numNodes numObs : Nat} {ops : List EdgeIns} {sg : SGraph} {m : ObsInt} (hB : Built numNodes numObs ops g sg m) (hsh : Short g)
    (hb : ∀ d ∈ g.negDets, TL.notBoundary bnd d = true) {F : Full} (h : UsedFull (W := int32) g sg bnd m F) : UsedFull g sg bnd m F := by
  have hg := proper_of_run hB.matching hB.edges.pairs hB.edges.even hB.edges.small
  induction h with
  | fresh => exact .fresh
  | decoded h hv hl hd ih =>
    exact .decoded ih hv hl (completes_eq (fun f => decodeObs_int32 hg hsh (used_idle hB hb ih).ms (takes hb hv) sg m f _ _) hd)
  | failed h hv hl hd ih =>
    exact .failed ih hv hl (completes_eq (fun f => decodeObs_int32 hg hsh (used_idle hB hb ih).ms (takes hb hv) sg m f _ _) hd)
  | listed h hv hd ih =>
    exact .listed ih hv (completes_eq (fun f => decodeEdges_int32 hg hsh (used_idle hB hb ih).ms (takes hb hv) sg f) hd)
  | unlisted h hv hd ih =>
    exact .unlisted ih hv (completes_eq (fun f => decodeEdges_int32 hg hsh (used_idle hB hb ih).ms (takes hb hv) sg f) hd)
  | paired h hv hd ih =>
    exact .paired ih hv (completes_eq (fun f => decodePairs_int32 hg hsh (used_idle hB hb ih).ms (takes hb hv) _ f) hd)
  | unpaired h hv hd ih =>
    exact .unpaired ih hv (completes_eq (fun f => decodePairs_int32 hg hsh (used_idle hB hb ih).ms (takes hb hv) _ f) hd)

theorem during_int32 (hp : Problem g bnd) (hsh : Short g) {T : Finset Nat} {s : MS} (h : During (W := int32) g bnd T s) : During g bnd T s := by
  have hg := hp.proper.1
  induction h with
  | start hu hv hl => exact .start (used_int32 hg hsh hp.proper.2 hp.clear hu) hv hl
  | round h hr ih =>
    obtain ⟨L, ch, t, A, ach, hs⟩ := during_ok hp ih
    rcases round_spec hg hs with ⟨e, -, hd⟩ | ⟨s', t', L', ch', A', ach', e, -, h', -⟩
    · rw [round_idle hd] at hr; cases hr
    · rw [round_int32 (hs.fits hg hsh) e (h'.fits hg hsh)] at hr
      cases hr
      exact .round ih e

theorem finished_int32 (hp : Problem g bnd) (hsh : Short g) {T : Finset Nat} {s : MS} (h : Finished (W := int32) g bnd T s) : Finished g bnd T s := by
  have hg := hp.proper.1
  obtain ⟨h1, h2, h3⟩ := h
  have hd := during_int32 hp hsh h1
  refine ⟨hd, ?_, h3⟩
  obtain ⟨L, ch, t, A, ach, hs⟩ := during_ok hp hd
  rcases round_spec hg hs with ⟨e, -, hd⟩ | ⟨s', t', L', ch', A', ach', e, -, h', -⟩
  · exact e
  · rw [round_int32 (hs.fits hg hsh) e (h'.fits hg hsh)] at h2
    cases h2

end

section
variable {numNodes numObs : Nat} {ins : List (Conv.Ins K)} {k : K} {g : MGraph} {sg : SGraph} {m : ObsInt} {C : Corr} {bnd : List Bool}

omit [IsStrictOrderedRing K] in
theorem perform_agree (hB : BuiltCorr numNodes numObs ins k g sg m C) (hb : ∀ d ∈ g.negDets, TL.notBoundary bnd d = true) {st : CState}
    (h : Rest g sg st) (hs : Short g) {c : Call} (ha : c.Acceptable g) :
    Agree (fun f => perform (W := int32) g sg bnd m C f st c) (fun f => perform g sg bnd m C f st c) := by
  have hg := proper_of_run hB.built.matching hB.built.edges.pairs hB.built.edges.even hB.built.edges.small
  cases c with
  | obs corr events buf w =>
    cases corr
    · exact .of_eq fun f => congrArg forget (plain_narrows (narrows_obs buf w) hg hb ha.1 hs h f)
    · exact (correlated_agree hB hb h ha.1 hs (narrows_obs buf w)).map forget
  | edges corr events =>
    cases corr
    · exact .of_eq fun f => congrArg forget (plain_narrows narrows_edges hg hb ha hs h f)
    · exact (correlated_agree hB hb h ha hs narrows_edges).map forget
  | mask corr events =>
    cases corr
    · exact .of_eq fun f => congrArg forget (plain_narrows narrows_mask hg hb ha hs h f)
    · exact (correlated_agree hB hb h ha hs narrows_mask).map forget
  | pairs events => exact .of_eq fun f => congrArg forget (plain_narrows narrows_pairs hg hb ha hs h f)

theorem usedCorr_int32 (hB : BuiltCorr numNodes numObs ins k g sg m C) (hb : ∀ d ∈ g.negDets, TL.notBoundary bnd d = true) (hs : Short g) {st : CState}
    (h : UsedCorr (W := int32) g sg bnd m C st) : UsedCorr g sg bnd m C st := by
  induction h with
  | fresh => exact .fresh
  | returned _ ha hd ih => exact .returned ih ha ((perform_agree hB hb (used_rest hB hb ih) hs ha).symm.completes hd)
  | raised _ ha hd ih => exact .raised ih ha ((perform_agree hB hb (used_rest hB hb ih) hs ha).symm.completes hd)

end

end Verif.SB
