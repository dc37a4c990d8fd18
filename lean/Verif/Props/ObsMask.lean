import Verif.ObsMask
import Mathlib.Tactic.FinCases
import Mathlib.Tactic.IntervalCases

/-!
# Properties of observable masks and bit packing (C11, C34)
-/

namespace Verif.Props.ObsMask

open Verif.Obs Verif.CE

/-- A prediction vector contains only zeros and ones. -/
def IsBits (v : List (BitVec 8)) : Prop := ∀ b ∈ v, b = 0 ∨ b = 1

/-! ## C11 -/

/-- C11 (mask to vector).  For at most 64 observables and a buffer that is large enough, entry `i` is xored with
bit `i` of the mask for `i < n` and all other entries are untouched. -/
theorem C11_fill_bit_vector (mask : ObsInt) (buf : List (BitVec 8)) (n : Nat) (hn : n ≤ 64) (hb : n ≤ buf.length) :
    ∃ out, fillBitVector mask buf n = .ok out ∧ out.length = buf.length ∧
      ∀ k (hk : k < out.length) (hk' : k < buf.length), out[k] =
        if k < n then buf[k] ^^^ (if mask.getLsbD k then 1#8 else 0#8) else buf[k] := by
  obtain ⟨out, h1, h2, h3⟩ := fillLoop_spec mask n 0 buf (by omega) hb
  refine ⟨out, ?_, h2, ?_⟩
  · rw [fillBitVector, if_neg (by simp [maxObs]; omega)]; exact h1
  · simpa using h3

/-- C11 (rejection).  Requests for more than 64 observables raise, for every buffer; a buffer that is too
short is undefined behaviour (the caller must provide one entry per observable). -/
theorem C11_fill_rejects (mask : ObsInt) (buf : List (BitVec 8)) (n : Nat) :
    (n > 64 → fillBitVector mask buf n = .throws) ∧
    (n ≤ 64 → buf.length < n → fillBitVector mask buf n = .ub) := by
  constructor
  · intro h; rw [fillBitVector, if_pos (by simpa [maxObs] using h)]
  · intro h hb
    rw [fillBitVector, if_neg (by simp [maxObs]; omega)]
    exact fillLoop_short mask n 0 buf hb

/-- The full statement of the other direction: every 0/1 vector with at most 64 entries is turned into the mask
whose bit `i` is entry `i`. -/
def C11_statement : Prop :=
  ∀ v : List (BitVec 8), IsBits v → v.length ≤ 64 →
    ∃ m, bitVectorToObsMask v = .ok m ∧ ∀ k, k < 64 → (m.getLsbD k = true ↔ v[k]? = some 1)

/-- C11 (vector to mask), *partial*: what is missing are vectors with 32 to 64 entries, for which the statement
is false (`C11_mask_conversion_fails`). -/
theorem C11_mask_of_bits_partial (v : List (BitVec 8)) (hv : IsBits v) (hl : v.length ≤ 31) :
    ∃ m, bitVectorToObsMask v = .ok m ∧ ∀ k, k < 64 → (m.getLsbD k = true ↔ v[k]? = some 1) := by
  obtain ⟨r, h1, h2⟩ := maskLoop_spec v 0 0 hv (by omega)
  refine ⟨r, ?_, fun k hk => ?_⟩
  · rw [bitVectorToObsMask, if_neg (by simp [maxObs]; omega)]; exact h1
  · rw [h2 k hk]; simp

/-- C11 (round trip), *partial* in the same way: vector to mask and back into a zeroed buffer is the identity. -/
theorem C11_round_trip_partial (v : List (BitVec 8)) (hv : IsBits v) (hl : v.length ≤ 31) :
    ∃ m, bitVectorToObsMask v = .ok m ∧ fillBitVector m (List.replicate v.length 0) v.length = .ok v := by
  obtain ⟨m, h1, h2⟩ := C11_mask_of_bits_partial v hv hl
  refine ⟨m, h1, ?_⟩
  obtain ⟨out, g1, g2, g3⟩ := C11_fill_bit_vector m (List.replicate v.length 0) v.length (by omega) (by simp)
  rw [g1]
  congr 1
  rw [List.length_replicate] at g2
  apply List.ext_getElem g2
  intro k hk hk'
  rw [g3 k hk (by simpa using hk'), if_pos hk']
  have := h2 k (by omega)
  rw [List.getElem?_eq_getElem hk', Option.some.injEq] at this
  rcases hv v[k] (List.getElem_mem _) with h0 | h0
  · have : m.getLsbD k = false := by
      rw [h0] at this
      cases hm : m.getLsbD k
      · rfl
      · exact absurd (this.1 hm) (by decide)
    rw [this, h0]; simp
  · rw [this.2 h0, h0]; simp

/-- C11 (negation).  With 32 observables and the last one flipped, the mask has 33 bits set instead of one;
with 33 observables the conversion has undefined behaviour even for the all-zero vector. -/
theorem C11_mask_conversion_fails :
    ¬ C11_statement ∧
    bitVectorToObsMask (List.replicate 31 0 ++ [1]) = .ok 0xFFFFFFFF80000000#64 ∧
    bitVectorToObsMask (List.replicate 33 0) = .ub := by
  have hub : bitVectorToObsMask (List.replicate 33 0) = .ub := by decide
  refine ⟨fun h => ?_, by decide, hub⟩
  obtain ⟨m, hm, -⟩ := h (List.replicate 33 0) (fun b hb => Or.inl (List.eq_of_mem_replicate hb)) (by simp)
  rw [hub] at hm
  exact absurd hm (by simp)

/-- Non-trivial instance: three observables, of which the first and third are flipped. -/
example : IsBits [1, 0, 1] ∧ bitVectorToObsMask [1, 0, 1] = .ok 5#64 ∧
    fillBitVector 5#64 [0, 0, 0] 3 = .ok [1, 0, 1] :=
  ⟨by intro b hb; fin_cases hb <;> decide, by decide, by decide⟩

/-! ## C34 -/

/-- C34 (unpacked shots).  The events read from an unpacked row are the indices of its non-zero entries, in
increasing order, each once. -/
theorem C34_unpacked_events (row : List (BitVec 8)) :
    (∀ e, e ∈ readUnpackedFrom 0 row ↔ ∃ b, row[e]? = some b ∧ b ≠ 0) ∧
    (readUnpackedFrom 0 row).Pairwise (· < ·) := by
  refine ⟨fun e => ?_, readUnpackedFrom_sorted row 0⟩
  rw [mem_readUnpackedFrom]; simp

/-- C34 (packed shots).  The events read from a bit-packed row are the `8*k+j` such that bit `j` of byte `k` is
set, in increasing order, each once. -/
theorem C34_packed_events (row : List (BitVec 8)) :
    (∀ e, e ∈ readPackedFrom 0 row ↔ ∃ b, row[e / 8]? = some b ∧ b.getLsbD (e % 8) = true) ∧
    (readPackedFrom 0 row).Pairwise (· < ·) := by
  refine ⟨fun e => ?_, readPackedFrom_sorted row 0⟩
  rw [mem_readPackedFrom]; simp

/-- A packed row represents an unpacked one if bit `e % 8` of byte `e / 8` is set iff entry `e` is non-zero. -/
def Represents (packed unpacked : List (BitVec 8)) : Prop :=
  ∀ e, (∃ b, packed[e / 8]? = some b ∧ b.getLsbD (e % 8) = true) ↔ ∃ b, unpacked[e]? = some b ∧ b ≠ 0

theorem sorted_ext : ∀ {l m : List Nat}, l.Pairwise (· < ·) → m.Pairwise (· < ·) → (∀ e, e ∈ l ↔ e ∈ m) → l = m
  | [], [], _, _, _ => rfl
  | [], y :: ys, _, _, h => absurd ((h y).2 (by simp)) (by simp)
  | x :: xs, [], _, _, h => absurd ((h x).1 (by simp)) (by simp)
  | x :: xs, y :: ys, h1, h2, h => by
    rw [List.pairwise_cons] at h1 h2
    have hxy : x = y := by
      rcases List.mem_cons.1 ((h x).1 (by simp)) with h3 | h3
      · exact h3
      · rcases List.mem_cons.1 ((h y).2 (by simp)) with h4 | h4
        · exact h4.symm
        · have := h1.1 y h4
          have := h2.1 x h3
          omega
    subst hxy
    congr 1
    refine sorted_ext h1.2 h2.2 (fun e => ?_)
    constructor
    · intro he
      rcases List.mem_cons.1 ((h e).1 (by simp [he])) with h3 | h3
      · exact absurd (h1.1 e he) (by omega)
      · exact h3
    · intro he
      rcases List.mem_cons.1 ((h e).2 (by simp [he])) with h3 | h3
      · exact absurd (h2.1 e he) (by omega)
      · exact h3

/-- C34 (agreement).  Reading a bit-packed row and reading the unpacked row it represents produce the same list
of detection events, hence the same decode. -/
theorem C34_packed_equals_unpacked (packed unpacked : List (BitVec 8)) (h : Represents packed unpacked) :
    readPackedFrom 0 packed = readUnpackedFrom 0 unpacked := by
  refine sorted_ext (C34_packed_events packed).2 (C34_unpacked_events unpacked).2 (fun e => ?_)
  rw [(C34_packed_events packed).1, (C34_unpacked_events unpacked).1]
  exact h e

/-- C34 (predictions).  Packing a row of predictions never writes out of bounds; the packed row has
`ceil(n/8)` bytes; bit `k` of it is prediction `k`, and padding bits are zero. -/
theorem C34_packed_predictions (preds : List (BitVec 8)) (hp : IsBits preds) :
    ∃ out, packRow preds = some out ∧ out.length = (preds.length + 7) / 8 ∧
      ∀ k, k < 8 * out.length → ∃ b, out[k / 8]? = some b ∧ (b.getLsbD (k % 8) = true ↔ preds[k]? = some 1) := by
  have hlen : (List.replicate (numBytes preds.length) (0 : BitVec 8)).length = (preds.length + 7) / 8 := by
    simp [numBytes, shiftRight3]
  obtain ⟨out, h1, h2, h3⟩ := packLoop_spec preds 0 (List.replicate (numBytes preds.length) 0) hp
    (by rw [hlen]; omega)
  refine ⟨out, h1, by rw [h2, hlen], fun k hk => ?_⟩
  have hk8 : k / 8 < out.length := by omega
  refine ⟨out[k / 8], List.getElem?_eq_getElem hk8, ?_⟩
  have := h3 k (by rw [← h2]; exact hk8)
  unfold bitAt at this
  have hr : (List.replicate (numBytes preds.length) (0 : BitVec 8))[k / 8]? = some 0 := by
    rw [List.getElem?_replicate, if_pos (by rw [List.length_replicate] at h2; omega)]
  rw [List.getElem?_eq_getElem hk8, hr] at this
  simp at this
  rw [this]; simp

/-- C34 (round trip).  Reading the packed predictions back as events gives the set predictions. -/
theorem C34_unpack_pack (preds : List (BitVec 8)) (hp : IsBits preds) :
    ∃ out, packRow preds = some out ∧ readPackedFrom 0 out = readUnpackedFrom 0 preds := by
  obtain ⟨out, h1, h2, h3⟩ := C34_packed_predictions preds hp
  refine ⟨out, h1, C34_packed_equals_unpacked _ _ (fun e => ?_)⟩
  have hbit : ∀ b : BitVec 8, preds[e]? = some b → (b ≠ 0 ↔ b = 1) := by
    intro b hb
    rcases hp b (List.mem_of_getElem? hb) with h | h <;> subst h <;> simp
  constructor
  · rintro ⟨b, hb, hbit'⟩
    have hlt := (List.getElem?_eq_some_iff.1 hb).1
    obtain ⟨b', hb', hiff⟩ := h3 e (by omega)
    rw [hb] at hb'; cases hb'
    exact ⟨1, hiff.1 hbit', by decide⟩
  · rintro ⟨c, hc, hc0⟩
    have hc1 := (hbit c hc).1 hc0
    subst hc1
    have hlt := (List.getElem?_eq_some_iff.1 hc).1
    obtain ⟨b', hb', hiff⟩ := h3 e (by omega)
    exact ⟨b', hb', hiff.2 hc⟩

/-- C34 (accepted shapes).  A packed row of `ceil(m/8)` bytes is accepted whenever the unpacked row of `m`
entries is.  (The converse fails: a packed row may carry up to 7 bits beyond the number of nodes, and a set
padding bit is then passed on to the decoder as an out-of-range event; see C33.) -/
theorem C34_shapes (m d n : Nat) (h : shapeOk false m d n = true) : shapeOk true (numBytes m) d n = true := by
  simp only [shapeOk, numBytes, shiftRight3] at h ⊢
  simp at h ⊢
  omega

/-- Non-trivial instance with two bytes: events 1, 3 and 9. -/
example : Represents [0x0A, 0x02] [0, 1, 0, 1, 0, 0, 0, 0, 0, 1] ∧ readPackedFrom 0 [0x0A, 0x02] = [1, 3, 9] ∧
    packRow [0, 1, 0, 1, 0, 0, 0, 0, 0, 1] = some [0x0A, 0x02] := by
  refine ⟨fun e => ?_, by decide, by decide⟩
  by_cases he : e < 16
  · have : ∀ e < 16, ((∃ b, ([0x0A, 0x02] : List (BitVec 8))[e / 8]? = some b ∧ b.getLsbD (e % 8) = true) ↔
      ∃ b, ([0, 1, 0, 1, 0, 0, 0, 0, 0, 1] : List (BitVec 8))[e]? = some b ∧ b ≠ 0) := by
      intro e he
      interval_cases e <;> simp
    exact this e he
  · have h1 : ([0x0A, 0x02] : List (BitVec 8))[e / 8]? = none := by
      apply List.getElem?_eq_none; simp; omega
    have h2 : ([0, 1, 0, 1, 0, 0, 0, 0, 0, 1] : List (BitVec 8))[e]? = none := by
      apply List.getElem?_eq_none; simp; omega
    rw [h1, h2]; simp

end Verif.Props.ObsMask
