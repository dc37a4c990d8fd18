import Mathlib.Data.List.Basic

/-!
# The command line tools

Models the loops of `main_predict` and `main_count_mistakes`
(`/repo/src/pymatching/sparse_blossom/driver/namespaced_main.cc:27-180`).

The decoder is a parameter `dec`: the observables crossed by the correction for a list of detection events, one entry per
observable.  That one shot does not influence the next inside the decoder is property C32.  The readers are the lists of
records they produce; file formats are stim's and not modelled.
-/

namespace Verif.Cli

/-- A record read from the input: detection events, and the appended observables (empty unless the input includes them). -/
structure Shot where
  hits : List Nat
  obs : List Bool
deriving DecidableEq, Repr

/-- XOR of the crossed observables into the result buffer (mwpm_decoding.cc: `obs_begin_ptr[k] ^= ...`). -/
def xorInto (buf add : List Bool) : List Bool := List.zipWith (fun a b => a != b) buf add

/-- `res.obs_crossed[k]` for `k < num_obs` (namespaced_main.cc:74-76); `none`: read past the end. -/
def record (numObs : Nat) (buf : List Bool) : Option (List Bool) := (List.range numObs).mapM (fun k => buf[k]?)

/-- The loop of `main_predict` (namespaced_main.cc:72-80): decode into the buffer, write the record, reset the buffer.
`buf` is the content of `res.obs_crossed`. -/
def predictLoop (numObs : Nat) (dec : List Nat → List Bool) (buf : List Bool) : List Shot → Option (List (List Bool))
  | [] => some []
  | s :: rest => do
    let buf' := xorInto buf (dec s.hits)
    let r ← record numObs buf'
    let rs ← predictLoop numObs dec (List.replicate buf'.length false) rest
    return r :: rs

/-- `main_predict` (namespaced_main.cc:27-89): the buffer has one entry per observable of the loaded graph. -/
def predict (numObs : Nat) (dec : List Nat → List Bool) (shots : List Shot) : Option (List (List Bool)) :=
  predictLoop numObs dec (List.replicate numObs false) shots

/-- The low 64 bits as a number (`obs_mask_as_u64` of stim, and the `obs_mask` of a decoding result). -/
def mask64 (bits : List Bool) : Nat := (bits.take 64).foldr (fun b acc => 2 * acc + b.toNat) 0

/-- `decode_detection_events_for_up_to_64_observables(..).obs_mask` (mwpm_decoding.cc:168-195): edges of a graph with more
than 64 observables carry the mask 0 (user_graph.cc: `iter_discretized_edges`, graph.cc:55-59), so that the result is 0. -/
def decode64 (numObs : Nat) (dec : List Nat → List Bool) (hits : List Nat) : Nat :=
  if numObs ≤ 64 then mask64 (dec hits) else 0

/-- The loop of `main_count_mistakes` (namespaced_main.cc:148-163).  `obsIn` is the separate file of observables if one was
given (`obs_reader`); `none` as the result: the exception "Obs data ended before shot data ended." -/
def countLoop (numObs : Nat) (dec : List Nat → List Bool) (mistakes shots : Nat) :
    List Shot → Option (List (List Bool)) → Option (Nat × Nat)
  | [], _ => some (mistakes, shots)
  | s :: rest, none =>
    countLoop numObs dec (if mask64 s.obs ≠ decode64 numObs dec s.hits then mistakes + 1 else mistakes) (shots + 1) rest none
  | _ :: _, some [] => none
  | s :: rest, some (o :: os) =>
    countLoop numObs dec (if mask64 o ≠ decode64 numObs dec s.hits then mistakes + 1 else mistakes) (shots + 1) rest (some os)

/-- `main_count_mistakes` (namespaced_main.cc:91-180).  `appended` is `--in_includes_appended_observables`; `obsIn` is the
argument of `--obs_in`.  The check `!append_obs && obs_in == nullptr` never fires because `obs_in` defaults to `stdin`. -/
def countMistakes (numObs : Nat) (dec : List Nat → List Bool) (appended : Bool) (shots : List Shot)
    (obsIn : Option (List (List Bool))) : Option (Nat × Nat) :=
  let obsInPointerIsNull := false
  if !appended && obsInPointerIsNull then none else countLoop numObs dec 0 0 shots obsIn

end Verif.Cli
