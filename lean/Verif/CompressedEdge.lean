/-!
# Compressed edges

Models `/repo/src/pymatching/sparse_blossom/flooder_matcher_interop/compressed_edge.h`.
Detector nodes are indices; `none` is `nullptr` (the boundary, or a cleared edge).
-/

namespace Verif.CE

/-- `pm::obs_int` is `uint64_t` (ints.h:27). -/
abbrev ObsInt := BitVec 64

/-- `struct CompressedEdge` (compressed_edge.h:34-42). -/
structure CompressedEdge where
  locFrom : Option Nat
  locTo : Option Nat
  obsMask : ObsInt
deriving Repr, DecidableEq

/-- `reversed` (compressed_edge.h:60-62). -/
def CompressedEdge.reversed (e : CompressedEdge) : CompressedEdge := ⟨e.locTo, e.locFrom, e.obsMask⟩

/-- `merged_with` (compressed_edge.h:64-66). -/
def CompressedEdge.mergedWith (e o : CompressedEdge) : CompressedEdge :=
  ⟨e.locFrom, o.locTo, e.obsMask ^^^ o.obsMask⟩

/-- `clear` (compressed_edge.h:53-57): the value of a cleared edge. -/
def CompressedEdge.cleared : CompressedEdge := ⟨none, none, 0⟩

end Verif.CE
