import Verif.Blossom.Narrow
import Verif.Blossom.Short
import Verif.Blossom.Total
import Verif.Blossom.Rewrite

/-!
# Decoding with a 32-bit wrapped radius

If the graph is short, a decode from a decoder at rest with a cached wrapped radius of 32 bits is the same as one with an unbounded wrapped radius.
-/

namespace Verif.SB

open Verif Verif.Graph Verif.CE Verif.Mem Verif.Track Verif.Spec
open Verif.Sch (Res)

variable {g : MGraph} {T L A : Finset Nat} {ch ach : Nat → List Nat} {t : Int}

theorem SOk.fits {s : MS} (h : SOk g T L ch t (fun _ => False) s A ach) (hg : Proper g) (hsh : Short g) : FitsAll s.fl := h.fl.geo.fits hg h.cyc hsh

theorem round_idle {s : MS} (h : s.fl.w.step .deliver = some (.idle, s.fl.w)) : round (W := int32) g s = .ok none := by
  unfold round
  rw [h]

theorem runLoop_int32 (hg : Proper g) (hsh : Short g) (f : Nat) : ∀ {s : MS} {L : Finset Nat} {ch : Nat → List Nat} {t : Int} {A : Finset Nat}
    {ach : Nat → List Nat}, SOk g T L ch t (fun _ => False) s A ach → runLoop (W := int32) g f s = runLoop g f s := by
  induction f with
  | zero => intros; rfl
  | succ f ih =>
    intro s L ch t A ach h
    rcases round_spec hg h with ⟨e, -, hd⟩ | ⟨s', t', L', ch', A', ach', e, -, h', -⟩
    · simp only [runLoop, e, round_idle hd]
    · simp only [runLoop, e, round_int32 (h.fits hg hsh) e (h'.fits hg hsh)]
      exact ih h'

theorem timeline_int32 (hg : Proper g) (hsh : Short g) {s : MS} (hs : Clean s) (bnd : List Bool) {neg events : List Nat} (hev : ∀ d ∈ events, d < g.nodes.length)
    (hnd : events.Nodup) (hneg : ∀ d ∈ neg, TL.notBoundary bnd d = true) (hnn : neg.Nodup) (f : Nat) :
    timeline (W := int32) g bnd neg f s events = timeline g bnd neg f s events := by
  obtain ⟨st, e1, -, h2, h3⟩ := Props.Convert.C35_started_nodes g.nodes.length bnd neg events hev hnd hneg hnn
  obtain ⟨s1, L, ch, A, e2, hl⟩ := launch_spec hg st.started (hs.launched (g := g) (ch := fun _ => [])) h2 (by simp)
  simp only [timeline, hs.unmark, e1, e2, runLoop_int32 hg hsh f hl.ok]

/-- The events are taken as the decoder takes them; no detection event of the negative edges is a boundary node. -/
structure Takes (g : MGraph) (bnd : List Bool) (events : List Nat) : Prop where
  range : ∀ d ∈ events, d < g.nodes.length
  nodup : events.Nodup
  neg : ∀ d ∈ negEvents g, TL.notBoundary bnd d = true

theorem negEvents_nodup (g : MGraph) : (negEvents g).Nodup := Finset.sort_nodup _ _

section

variable {bnd : List Bool} {events : List Nat} {F : Full}

theorem matching_int32 (hg : Proper g) (hsh : Short g) {s : MS} (hs : Clean s) (h : Takes g bnd events) (f : Nat) :
    matching (W := int32) g bnd (negEvents g) f s events = matching g bnd (negEvents g) f s events := by
  simp only [matching, timeline_int32 hg hsh hs bnd h.range h.nodup h.neg (negEvents_nodup g) f]

theorem decodeObs_int32 (hg : Proper g) (hsh : Short g) (hs : Clean F.ms) (h : Takes g bnd events) (sg : SGraph) (m : ObsInt) (f : Nat)
    (buf : List (BitVec 8)) (w0 : Int) : decodeObs (W := int32) g sg bnd m f F events buf w0 = decodeObs g sg bnd m f F events buf w0 := by
  simp only [decodeObs, matching_int32 hg hsh hs h f]

theorem decodeEdges_int32 (hg : Proper g) (hsh : Short g) (hs : Clean F.ms) (h : Takes g bnd events) (sg : SGraph) (f : Nat) :
    decodeEdges (W := int32) g sg bnd f F events = decodeEdges g sg bnd f F events := by
  simp only [decodeEdges, matching_int32 hg hsh hs h f]

theorem call64_int32 (hg : Proper g) (hsh : Short g) (hs : Clean F.ms) (h : Takes g bnd events) (sg : SGraph) (m : ObsInt) (f : Nat) :
    call64 (W := int32) bnd m f events g sg F = call64 bnd m f events g sg F := by
  simp only [call64, decode64, matching_int32 hg hsh hs h f]

theorem callPairs_int32 (hg : Proper g) (hsh : Short g) (hs : Clean F.ms) (h : Takes g bnd events) (sg : SGraph) (f : Nat) :
    callPairs (W := int32) bnd f events g sg F = callPairs bnd f events g sg F := by
  simp only [callPairs, decodePairs, timeline_int32 hg hsh hs bnd h.range h.nodup h.neg (negEvents_nodup g) f]

end

/-! ## Lower weights -/

theorem entry_mapM (ρ : Change) (e : Slot) : entry (mapM ρ g) e = (entry g e).map fun n => { n with weight := ρ s(some e.1, n.target) n.weight } := by
  rw [entry_bind, entry_bind]
  simp only [mapM, List.getElem?_mapIdx]
  cases g.nodes[e.1]? with
  | none => rfl
  | some l => simp

theorem walk_mapM {ρ : Change} {u : Nat} {v : Option Nat} {es : List Slot} (h : Walk (mapM ρ g) u v es) : Walk g u v es := by
  induction h with
  | here u => exact .here u
  | step h hv _ ih =>
    rw [entry_mapM, Option.map_eq_some_iff] at h
    obtain ⟨n, h1, rfl⟩ := h
    exact .step h1 hv ih
  | exit h hv =>
    rw [entry_mapM, Option.map_eq_some_iff] at h
    obtain ⟨n, h1, rfl⟩ := h
    exact .exit h1 hv

theorem mapM_walk (ρ : Change) (hle : ∀ z w, ρ z w ≤ w) {u : Nat} {v : Option Nat} {es : List Slot} (h : Walk g u v es) :
    Walk (mapM ρ g) u v es ∧ totalWeight (mapM ρ g) es ≤ totalWeight g es := by
  have key : ∀ e, slotWeight (mapM ρ g) e ≤ slotWeight g e := by
    intro e
    unfold slotWeight
    rw [entry_mapM]
    cases entry g e with
    | none => exact le_refl _
    | some n =>
      simp only [Option.map_some]
      exact_mod_cast hle _ n.weight
  refine ⟨?_, List.sum_le_sum fun e _ => key e⟩
  induction h with
  | here u => exact .here u
  | @step u i _ _ _ _ h hv _ ih =>
    have h1 := entry_mapM (g := g) ρ (u, i)
    rw [h] at h1
    exact .step h1 hv ih
  | @exit u i _ h hv =>
    have h1 := entry_mapM (g := g) ρ (u, i)
    rw [h] at h1
    exact .exit h1 hv

theorem Short.lower {ρ : Change} (hs : Short g) (hle : ∀ z w, ρ z w ≤ w) : Short (mapM ρ g) := by
  intro u v es hw
  obtain ⟨fs, h1, h2⟩ := hs u v es (walk_mapM hw)
  obtain ⟨h3, h4⟩ := mapM_walk ρ hle h1
  exact ⟨fs, h3, by omega⟩

end Verif.SB
