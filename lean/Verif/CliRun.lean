import Verif.Object
import Verif.Dem
import Verif.Cli

/-!
# The command line tools on the actual decoder

Models `main_predict`, `main_count_mistakes` and the handling of exceptions in `pm::main`
(`/repo/src/pymatching/sparse_blossom/driver/namespaced_main.cc:27-222`), with the decoder of `Verif/Object.lean`.

Simplifications: reading the arguments and files is stim's and not modelled; the input is the flattened detector error model and the list of records.
Floating point numbers are elements of an ordered field.  A decoder that cannot be built makes the run end with `.ub`.  The time printed with `--time` is left
out.
-/

namespace Verif.Cli

open Verif Verif.Graph Verif.CE Verif.UG Verif.SB Verif.Obj
open Verif.Sch (Res)
open Verif.Props.Shots (Reply respond)

variable {K : Type} [Field K] [LinearOrder K] [FloorRing K]

/-- The graph of `detector_error_model_to_mwpm` (mwpm_decoding.cc:72-80); `none`: exception. -/
def loadFor (mergeW : K → K → K) (toW : K → K) (corr : Bool) (m : Dem.Model K) : Option (UGraph K) :=
  if corr then Dem.loadCorr mergeW toW m else some (Dem.load mergeW toW m)

/-- What `predict` leaves behind: the records written, and whether it returned `EXIT_SUCCESS`. -/
abbrev Written := List (List Bool) × Bool

/-- The loop of `main_predict` (namespaced_main.cc:72-80).  `buf`, `w` are `res.obs_crossed` and `res.weight`; `write_bit` takes a `bool`. -/
def predictWith [W : Width] (d : Decoder K) (corr : Bool) (numObs f : Nat) : CState → List (BitVec 8) → Int → List (List Nat) → Option (Res Written)
  | _, _, _, [] => some (.ok ([], true))
  | st, buf, w, hits :: rest =>
    match respond d.P.mg d.sg d.P.bnd d.P.mask d.C f st (.obs corr hits buf w) with
    | none => none
    | some .ub => some .ub
    | some .throws => some .throws
    | some (.ok (.predictions buf' _, st')) =>
      match record numObs (buf'.map (· != 0#8)) with
      | none => some .ub
      | some r =>
        match predictWith d corr numObs f st' (List.replicate buf'.length 0#8) 0 rest with
        | none => none
        | some .ub => some .ub
        | some .throws => some .throws
        | some (.ok (rs, ok)) => some (.ok (r :: rs, ok))
    | some (.ok (_, _)) => some (.ok ([], false))

/-- `pymatching predict` (namespaced_main.cc:27-89, 182-222). -/
def runPredict [W : Width] (mergeW : K → K → K) (toW : K → K) (corr : Bool) (m : Dem.Model K) (shots : List (List Nat)) (f : Nat) : Option (Res Written) :=
  match loadFor mergeW toW corr m with
  | none => some (.ok ([], false))
  | some g =>
    match toMwpm g (!corr) corr with
    | none => some .ub
    | some d => predictWith d corr m.numObs f d.st (List.replicate d.P.mg.numObs 0#8) 0 shots

/-- The loop of `main_count_mistakes` (namespaced_main.cc:148-163).  `obsIn` is the separate file of observables if one was given; `none` as the result: an
exception, here or in the decoder. -/
def countWith [W : Width] (d : Decoder K) (corr : Bool) (f : Nat) : CState → Nat → Nat → List Shot → Option (List (List Bool)) → Option (Res (Option (Nat × Nat)))
  | _, mistakes, shots, [], _ => some (.ok (some (mistakes, shots)))
  | _, _, _, _ :: _, some [] => some (.ok none)
  | st, mistakes, shots, s :: rest, none =>
    match respond d.P.mg d.sg d.P.bnd d.P.mask d.C f st (.mask corr s.hits) with
    | none => none
    | some .ub => some .ub
    | some .throws => some .throws
    | some (.ok (.mask mask _, st')) => countWith d corr f st' (if mask64 s.obs ≠ mask.toNat then mistakes + 1 else mistakes) (shots + 1) rest none
    | some (.ok (_, _)) => some (.ok none)
  | st, mistakes, shots, s :: rest, some (o :: os) =>
    match respond d.P.mg d.sg d.P.bnd d.P.mask d.C f st (.mask corr s.hits) with
    | none => none
    | some .ub => some .ub
    | some .throws => some .throws
    | some (.ok (.mask mask _, st')) => countWith d corr f st' (if mask64 o ≠ mask.toNat then mistakes + 1 else mistakes) (shots + 1) rest (some os)
    | some (.ok (_, _)) => some (.ok none)

/-- `pymatching count_mistakes` (namespaced_main.cc:91-180, 182-222): the two numbers printed; `none`: `EXIT_FAILURE`, and nothing printed. -/
def runCount [W : Width] (mergeW : K → K → K) (toW : K → K) (corr : Bool) (m : Dem.Model K) (shots : List Shot) (obsIn : Option (List (List Bool))) (f : Nat) :
    Option (Res (Option (Nat × Nat))) :=
  match loadFor mergeW toW corr m with
  | none => some (.ok none)
  | some g =>
    match toMwpm g (!corr) corr with
    | none => some .ub
    | some d => countWith d corr f d.st 0 0 shots obsIn

end Verif.Cli
