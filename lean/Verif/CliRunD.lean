import Verif.CliRun
import Verif.ConvertD
import Verif.DemD

/-!
# The command line tools in double precision

Models `main_predict`, `main_count_mistakes` and the handling of exceptions in `pm::main`
(`/repo/src/pymatching/sparse_blossom/driver/namespaced_main.cc:27-222`) as `Verif.CliRun` does, with the loader and the conversion in double precision.

Simplifications: as in `Verif.CliRun`.  The weights of probabilities and of merged edges are given by functions (`Verif.DemD` has those of the code).
-/

namespace Verif.Cli

open Verif Verif.CE Verif.UG Verif.SB Verif.Obj Verif.ConvD
open Verif.Sch (Res)

/-- The graph of `detector_error_model_to_mwpm` (mwpm_decoding.cc:72-80), with probabilities combined in double precision (user_graph.cc:22-24, 537-538); `none`: exception. -/
def loadForD (mergeW : ℚ → ℚ → ℚ) (lg : ℚ → ℚ) (corr : Bool) (m : Dem.Model ℚ) : Option (UGraph ℚ) :=
  if corr then Dem.loadCorr mergeW lg m DemD.rounded else some (Dem.load mergeW lg m)

/-- `pymatching predict` (namespaced_main.cc:27-89, 182-222). -/
def runPredictD [W : Width] (mergeW : ℚ → ℚ → ℚ) (lg : ℚ → ℚ) (corr : Bool) (m : Dem.Model ℚ) (shots : List (List Nat)) (f : Nat) : Option (Res Written) :=
  match loadForD mergeW lg corr m with
  | none => some (.ok ([], false))
  | some g =>
    match toMwpmD g (!corr) corr with
    | .ub => some .ub
    | .throws => some (.ok ([], false))
    | .ok (d, _) => predictWith d corr m.numObs f d.st (List.replicate d.P.mg.numObs 0#8) 0 shots

/-- `pymatching count_mistakes` (namespaced_main.cc:91-180, 182-222): the two numbers printed; `none`: `EXIT_FAILURE`, and nothing printed. -/
def runCountD [W : Width] (mergeW : ℚ → ℚ → ℚ) (lg : ℚ → ℚ) (corr : Bool) (m : Dem.Model ℚ) (shots : List Shot) (obsIn : Option (List (List Bool))) (f : Nat) :
    Option (Res (Option (Nat × Nat))) :=
  match loadForD mergeW lg corr m with
  | none => some (.ok none)
  | some g =>
    match toMwpmD g (!corr) corr with
    | .ub => some .ub
    | .throws => some (.ok none)
    | .ok (d, _) => countWith d corr f d.st 0 0 shots obsIn

end Verif.Cli
