import Verif.CompressedEdge

/-!
# Observable masks, prediction buffers and bit packing

Models `fill_bit_vector_from_obs_mask` and `bit_vector_to_obs_mask`
(`/repo/src/pymatching/sparse_blossom/driver/mwpm_decoding.cc:53-70`) and the packing loops of `decode_batch`
(`/repo/src/pymatching/sparse_blossom/driver/user_graph.pybind.cc:257-332`).

Bytes are `BitVec 8`, `obs_int` is `BitVec 64`, `int` is a 32-bit two's complement `BitVec 32`.
-/

namespace Verif.Obs

open Verif.CE (ObsInt)

/-- Outcome of a C++ call: a value, an exception, or undefined behaviour. -/
inductive Outcome (α : Type) where
  | ok (a : α)
  | throws
  | ub
deriving Repr, DecidableEq

/-- `sizeof(pm::obs_int) * 8` (mwpm_decoding.cc:54, 63). -/
def maxObs : Nat := 64

/-- One iteration of the loop of `fill_bit_vector_from_obs_mask` (mwpm_decoding.cc:57-58):
`buf[i] ^= (mask & (1 << i)) >> i`, truncated to a byte. -/
def xorBit (mask : ObsInt) (i : Nat) (b : BitVec 8) : BitVec 8 :=
  b ^^^ (((mask &&& ((1 : BitVec 64) <<< i)) >>> i).setWidth 8)

/-- The loop over `i < n`, starting at index `i`, on the buffer from index `i` on.  Running past the end of
the buffer is undefined behaviour. -/
def fillLoop (mask : ObsInt) : Nat → Nat → List (BitVec 8) → Outcome (List (BitVec 8))
  | _, 0, buf => .ok buf
  | _, _ + 1, [] => .ub
  | i, n + 1, b :: bs =>
    match fillLoop mask (i + 1) n bs with
    | .ok bs' => .ok (xorBit mask i b :: bs')
    | .throws => .throws
    | .ub => .ub

/-- `fill_bit_vector_from_obs_mask` (mwpm_decoding.cc:53-59). -/
def fillBitVector (mask : ObsInt) (buf : List (BitVec 8)) (numObs : Nat) : Outcome (List (BitVec 8)) :=
  if numObs > maxObs then .throws else fillLoop mask 0 numObs buf

/-- `bit_vector[i] << i` (mwpm_decoding.cc:68): the byte is promoted to `int`; shifting by 32 or more is
undefined (the project is compiled as C++20, so other shifts are modulo 2^32). -/
def shiftInt (b : BitVec 8) (i : Nat) : Option (BitVec 32) :=
  if i ≥ 32 then none else some ((b.setWidth 32) <<< i)

/-- The loop of `bit_vector_to_obs_mask` (mwpm_decoding.cc:67-68); the `int` is converted to `obs_int` with
sign extension. -/
def maskLoop : Nat → List (BitVec 8) → ObsInt → Outcome ObsInt
  | _, [], m => .ok m
  | i, b :: bs, m =>
    match shiftInt b i with
    | none => .ub
    | some x => maskLoop (i + 1) bs (m ^^^ x.signExtend 64)

/-- `bit_vector_to_obs_mask` (mwpm_decoding.cc:61-70). -/
def bitVectorToObsMask (v : List (BitVec 8)) : Outcome ObsInt :=
  if v.length > maxObs then .throws else maskLoop 0 v 0

/-! ## decode_batch: reading shots and packing predictions -/

/-- Detection events of one unpacked shot row (user_graph.pybind.cc:308-311). -/
def readUnpackedFrom : Nat → List (BitVec 8) → List Nat
  | _, [] => []
  | j, b :: bs => if b ≠ 0 then j :: readUnpackedFrom (j + 1) bs else readUnpackedFrom (j + 1) bs

/-- The inner loop over the bits of a byte (user_graph.pybind.cc:301-305); `s(i,j) & (1 << r)`. -/
def readByte (offset : Nat) (b : BitVec 8) : List Nat :=
  ((List.range 8).filter fun r => (b &&& (1#8 <<< r)) ≠ 0).map (offset + ·)

/-- Detection events of one bit-packed shot row (user_graph.pybind.cc:300-306), from byte `j` on. -/
def readPackedFrom : Nat → List (BitVec 8) → List Nat
  | _, [] => []
  | j, b :: bs => readByte (j <<< 3) b ++ readPackedFrom (j + 1) bs

/-- The number of bytes of a bit-packed row of `n` bits (user_graph.pybind.cc:258, 272). -/
def numBytes (n : Nat) : Nat := (n + 7) >>> 3

/-- One step of the packing loop (user_graph.pybind.cc:320-321): byte `k >> 3` is xored with the prediction
shifted by `k % 8` (truncated to a byte by the assignment).  `none`: out of bounds. -/
def packStep (out : List (BitVec 8)) (k : Nat) (p : BitVec 8) : Option (List (BitVec 8)) :=
  match out[k >>> 3]? with
  | none => none
  | some b => some (out.set (k >>> 3) (b ^^^ ((p.setWidth 32 <<< (k % 8)).setWidth 8)))

/-- The packing loop from index `k` on. -/
def packLoop : Nat → List (BitVec 8) → List (BitVec 8) → Option (List (BitVec 8))
  | _, [], out => some out
  | k, p :: ps, out =>
    match packStep out k p with
    | none => none
    | some out' => packLoop (k + 1) ps out'

/-- Bit-packing one row of predictions into a zero-initialised row (user_graph.pybind.cc:276-280, 317-322). -/
def packRow (preds : List (BitVec 8)) : Option (List (BitVec 8)) :=
  packLoop 0 preds (List.replicate (numBytes preds.length) 0)

/-- The column check of `decode_batch` (user_graph.pybind.cc:257-274). -/
def shapeOk (packed : Bool) (cols numDetectors numNodes : Nat) : Bool :=
  if packed then !(cols < numBytes numDetectors || cols > numBytes numNodes)
  else !(cols < numDetectors || cols > numNodes)

/-! ## Lemmas -/

theorem shiftRight3 (n : Nat) : n >>> 3 = n / 8 := by rw [Nat.shiftRight_eq_div_pow]

theorem xorBit_val (mask : ObsInt) (i : Nat) (b : BitVec 8) (hi : i < 64) :
    xorBit mask i b = b ^^^ (if mask.getLsbD i then 1#8 else 0#8) := by
  unfold xorBit
  congr 1
  apply BitVec.eq_of_getLsbD_eq
  intro k hk
  simp only [BitVec.getLsbD_setWidth, BitVec.getLsbD_ushiftRight, BitVec.getLsbD_and, BitVec.getLsbD_shiftLeft]
  by_cases hk0 : k = 0
  · subst hk0
    cases mask.getLsbD i <;> simp [hi]
  · have h1 : ¬ (i + k < i) := by omega
    have h2 : BitVec.getLsbD (1 : BitVec 64) (i + k - i) = false := by
      rw [show i + k - i = k by omega]
      show (1#64).getLsbD k = false
      simp [hk0]
    have h3 : (1#8).getLsbD k = false := by simp [hk0]
    split
    · rw [h2, h3]; simp
    · rw [h2]; simp

theorem fillLoop_spec (mask : ObsInt) (n : Nat) : ∀ (i : Nat) (buf : List (BitVec 8)), i + n ≤ 64 → n ≤ buf.length →
    ∃ out, fillLoop mask i n buf = .ok out ∧ out.length = buf.length ∧
      ∀ k (hk : k < out.length) (hk' : k < buf.length), out[k] =
        if k < n then buf[k] ^^^ (if mask.getLsbD (i + k) then 1#8 else 0#8) else buf[k] := by
  induction n with
  | zero => intro i buf _ _; exact ⟨buf, rfl, rfl, fun k hk _ => by simp⟩
  | succ n ih =>
    intro i buf hi hn
    cases buf with
    | nil => simp at hn
    | cons b bs =>
      obtain ⟨out, h1, h2, h3⟩ := ih (i + 1) bs (by omega) (by simpa using hn)
      refine ⟨xorBit mask i b :: out, by simp [fillLoop, h1], by simp [h2], ?_⟩
      intro k hk hk'
      cases k with
      | zero => simp [xorBit_val mask i b (by omega)]
      | succ k =>
        simp only [List.getElem_cons_succ, Nat.add_lt_add_iff_right]
        rw [h3 k (by simpa using hk) (by simpa using hk'), show i + 1 + k = i + (k + 1) by omega]

theorem fillLoop_short (mask : ObsInt) (n : Nat) : ∀ (i : Nat) (buf : List (BitVec 8)), buf.length < n →
    fillLoop mask i n buf = .ub := by
  induction n with
  | zero => intro i buf h; omega
  | succ n ih =>
    intro i buf h
    cases buf with
    | nil => rfl
    | cons b bs => simp [fillLoop, ih (i + 1) bs (by simpa using h)]

/-- Below index 31 the promoted shift of a 0/1 byte is the 64-bit shift. -/
theorem shift_bit (b : BitVec 8) (hb : b = 0 ∨ b = 1) (i : Nat) (hi : i < 31) :
    ∃ x, shiftInt b i = some x ∧
      ∀ k, k < 64 → (x.signExtend 64).getLsbD k = (decide (k = i) && decide (b = 1)) := by
  refine ⟨(b.setWidth 32) <<< i, by simp [shiftInt]; omega, ?_⟩
  intro k hk
  have msb : ((b.setWidth 32) <<< i).msb = false := by
    rw [BitVec.msb_eq_getLsbD_last]
    rcases hb with rfl | rfl
    · simp
    · have : (BitVec.setWidth 32 (1 : BitVec 8)).getLsbD (31 - i) = false := by
        show (1#32).getLsbD (31 - i) = false
        simp; omega
      simp only [BitVec.getLsbD_shiftLeft]
      rw [show 32 - 1 - i = 31 - i by omega, this]
      simp
  rw [BitVec.getLsbD_signExtend, msb]
  rcases hb with rfl | rfl
  · simp
  · simp only [BitVec.getLsbD_shiftLeft]
    by_cases h : k = i
    · subst h
      simp [hk]; omega
    · have : (BitVec.setWidth 32 (1 : BitVec 8)).getLsbD (k - i) = decide (k - i = 0) := by
        show (1#32).getLsbD (k - i) = _
        by_cases h0 : k - i = 0
        · rw [h0]; rfl
        · simp [h0]
      rw [this]
      simp only [h, decide_false, Bool.false_and]
      by_cases hlt : k < i
      · simp [hlt]
      · have : ¬ k - i = 0 := by omega
        simp [this]

theorem maskLoop_spec : ∀ (v : List (BitVec 8)) (i : Nat) (m : ObsInt), (∀ b ∈ v, b = 0 ∨ b = 1) → i + v.length ≤ 31 →
    ∃ r, maskLoop i v m = .ok r ∧
      ∀ k, k < 64 → r.getLsbD k = (m.getLsbD k ^^ (decide (i ≤ k) && decide (v[k - i]? = some 1))) := by
  intro v
  induction v with
  | nil => intro i m _ _; exact ⟨m, rfl, fun k _ => by simp⟩
  | cons b bs ih =>
    intro i m hv hl
    simp only [List.length_cons] at hl
    obtain ⟨x, hx, hb⟩ := shift_bit b (hv b (by simp)) i (by omega)
    obtain ⟨r, hr, hk⟩ := ih (i + 1) (m ^^^ x.signExtend 64) (fun c hc => hv c (by simp [hc])) (by omega)
    refine ⟨r, by simp [maskLoop, hx, hr], fun k hk64 => ?_⟩
    rw [hk k hk64, BitVec.getLsbD_xor, hb k hk64]
    by_cases h : k = i
    · subst h
      have : ¬ (k + 1 ≤ k) := by omega
      simp [this]
    · by_cases h2 : i + 1 ≤ k
      · have h3 : i ≤ k := by omega
        have h4 : k - i = (k - (i + 1)) + 1 := by omega
        rw [h4]
        simp [h, h2, h3]
      · have h3 : ¬ (i ≤ k) := by omega
        simp [h, h2, h3]

/-! ### Reading shots -/

theorem mem_readUnpackedFrom : ∀ (row : List (BitVec 8)) (j e : Nat),
    e ∈ readUnpackedFrom j row ↔ j ≤ e ∧ ∃ b, row[e - j]? = some b ∧ b ≠ 0 := by
  intro row
  induction row with
  | nil => intro j e; simp [readUnpackedFrom]
  | cons b bs ih =>
    intro j e
    have key : e ∈ readUnpackedFrom j (b :: bs) ↔ (e = j ∧ b ≠ 0) ∨ e ∈ readUnpackedFrom (j + 1) bs := by
      rw [readUnpackedFrom]
      split
      · rename_i h
        rw [List.mem_cons]
        exact ⟨fun h' => h'.imp (fun he => ⟨he, h⟩) id, fun h' => h'.imp And.left id⟩
      · rename_i h
        constructor
        · exact Or.inr
        · rintro (⟨-, h'⟩ | h')
          · exact absurd h' h
          · exact h'
    rw [key, ih]
    constructor
    · rintro (⟨rfl, h⟩ | ⟨h1, c, h2, h3⟩)
      · exact ⟨Nat.le_refl _, b, by simp, h⟩
      · refine ⟨by omega, c, ?_, h3⟩
        rw [show e - j = (e - (j + 1)) + 1 by omega]; simpa using h2
    · rintro ⟨h1, c, h2, h3⟩
      by_cases h : e = j
      · subst h; simp at h2; subst h2; exact Or.inl ⟨rfl, h3⟩
      · refine Or.inr ⟨by omega, c, ?_, h3⟩
        rw [show e - j = (e - (j + 1)) + 1 by omega] at h2; simpa using h2

theorem readUnpackedFrom_sorted : ∀ (row : List (BitVec 8)) (j : Nat),
    (readUnpackedFrom j row).Pairwise (· < ·) := by
  intro row
  induction row with
  | nil => intro j; simp [readUnpackedFrom]
  | cons b bs ih =>
    intro j
    unfold readUnpackedFrom
    split
    · refine List.pairwise_cons.2 ⟨fun e he => ?_, ih _⟩
      have := ((mem_readUnpackedFrom bs (j + 1) e).1 he).1
      omega
    · exact ih _

theorem and_bit_ne (b : BitVec 8) (r : Nat) (hr : r < 8) : (b &&& (1#8 <<< r)) ≠ 0 ↔ b.getLsbD r = true := by
  constructor
  · intro h
    apply Decidable.byContradiction
    intro hb
    apply h
    apply BitVec.eq_of_getLsbD_eq
    intro k hk
    simp only [BitVec.getLsbD_and, BitVec.getLsbD_shiftLeft]
    by_cases hkr : k = r
    · subst hkr; simp at hb; simp [hb]
    · by_cases h2 : k < r
      · simp [h2]
      · have : ¬ k - r = 0 := by omega
        simp [this]
  · intro h h0
    have := congrArg (fun x => x.getLsbD r) h0
    rw [BitVec.getLsbD_eq_getElem hr] at h
    simp [h, hr] at this

theorem mem_readByte (o e : Nat) (b : BitVec 8) :
    e ∈ readByte o b ↔ o ≤ e ∧ e < o + 8 ∧ b.getLsbD (e - o) = true := by
  unfold readByte
  simp only [List.mem_map, List.mem_filter, List.mem_range, decide_eq_true_eq]
  constructor
  · rintro ⟨r, ⟨h1, h2⟩, rfl⟩
    refine ⟨by omega, by omega, ?_⟩
    rw [show o + r - o = r by omega]
    exact (and_bit_ne b r h1).1 h2
  · rintro ⟨h1, h2, h3⟩
    exact ⟨e - o, ⟨by omega, (and_bit_ne b _ (by omega)).2 h3⟩, by omega⟩

theorem mem_readPackedFrom : ∀ (row : List (BitVec 8)) (j e : Nat),
    e ∈ readPackedFrom j row ↔ 8 * j ≤ e ∧ ∃ b, row[e / 8 - j]? = some b ∧ b.getLsbD (e % 8) = true := by
  intro row
  induction row with
  | nil => intro j e; simp [readPackedFrom]
  | cons b bs ih =>
    intro j e
    have hsh : j <<< 3 = 8 * j := by rw [Nat.shiftLeft_eq]; omega
    unfold readPackedFrom
    rw [List.mem_append, ih, mem_readByte, hsh]
    constructor
    · rintro (⟨h1, h2, h3⟩ | ⟨h1, c, h2, h3⟩)
      · refine ⟨h1, b, ?_, ?_⟩
        · rw [show e / 8 - j = 0 by omega]; rfl
        · rw [show e % 8 = e - 8 * j by omega]; exact h3
      · refine ⟨by omega, c, ?_, h3⟩
        rw [show e / 8 - j = (e / 8 - (j + 1)) + 1 by omega]; simpa using h2
    · rintro ⟨h1, c, h2, h3⟩
      by_cases h : e < 8 * j + 8
      · rw [show e / 8 - j = 0 by omega] at h2
        simp at h2; subst h2
        refine Or.inl ⟨h1, h, ?_⟩
        rw [show e - 8 * j = e % 8 by omega]; exact h3
      · refine Or.inr ⟨by omega, c, ?_, h3⟩
        rw [show e / 8 - j = (e / 8 - (j + 1)) + 1 by omega] at h2; simpa using h2

theorem readByte_sorted (o : Nat) (b : BitVec 8) : (readByte o b).Pairwise (· < ·) := by
  unfold readByte
  refine List.Pairwise.map _ (R := (· < ·)) (fun a b h => by omega) ?_
  exact List.Pairwise.filter _ List.pairwise_lt_range

theorem readPackedFrom_sorted : ∀ (row : List (BitVec 8)) (j : Nat),
    (readPackedFrom j row).Pairwise (· < ·) := by
  intro row
  induction row with
  | nil => intro j; simp [readPackedFrom]
  | cons b bs ih =>
    intro j
    unfold readPackedFrom
    refine List.pairwise_append.2 ⟨readByte_sorted _ _, ih _, ?_⟩
    intro x hx y hy
    have hsh : j <<< 3 = 8 * j := by rw [Nat.shiftLeft_eq]; omega
    rw [mem_readByte, hsh] at hx
    have := ((mem_readPackedFrom bs (j + 1) y).1 hy).1
    omega

/-! ### Packing predictions -/

/-- Reading bit `k` of a packed row. -/
def bitAt (out : List (BitVec 8)) (k : Nat) : Option Bool := (out[k / 8]?).map (·.getLsbD (k % 8))

theorem packStep_spec (out : List (BitVec 8)) (k : Nat) (p : BitVec 8) (hp : p = 0 ∨ p = 1) (hk : k / 8 < out.length) :
    ∃ out', packStep out k p = some out' ∧ out'.length = out.length ∧
      ∀ j, j / 8 < out.length → bitAt out' j = (bitAt out j).map (fun b => b ^^ (decide (j = k) && decide (p = 1))) := by
  refine ⟨out.set (k / 8) (out[k / 8] ^^^ ((p.setWidth 32 <<< (k % 8)).setWidth 8)), ?_, by simp, ?_⟩
  · simp [packStep, shiftRight3, List.getElem?_eq_getElem hk]
  · intro j hj
    have hbit : ∀ r, r < 8 → ((p.setWidth 32 <<< (k % 8)).setWidth 8).getLsbD r = (decide (r = k % 8) && decide (p = 1)) := by
      intro r hr
      rcases hp with rfl | rfl
      · simp
      · simp only [BitVec.getLsbD_setWidth, BitVec.getLsbD_shiftLeft, hr]
        by_cases h : r = k % 8
        · subst h; simp; omega
        · by_cases h2 : r < k % 8
          · simp [h, h2]
          · have h3 : ¬ (r - k % 8 = 0) := by omega
            simp [h, h3]
    unfold bitAt
    rw [List.getElem?_eq_getElem (by simpa using hj), List.getElem?_eq_getElem hj]
    simp only [Option.map_some, Option.some.injEq]
    rw [List.getElem_set]
    split
    · rename_i he
      rw [BitVec.getLsbD_xor, hbit _ (Nat.mod_lt _ (by omega))]
      have : (out[k/8]).getLsbD (j % 8) = (out[j/8]).getLsbD (j % 8) := by simp only [he]
      rw [this]
      by_cases h : j = k
      · subst h; simp
      · have : ¬ (j % 8 = k % 8) := by omega
        simp [h, this]
    · rename_i he
      have : ¬ (j = k) := by intro h; subst h; exact he rfl
      simp [this]

theorem packLoop_spec : ∀ (preds : List (BitVec 8)) (k : Nat) (out : List (BitVec 8)), (∀ b ∈ preds, b = 0 ∨ b = 1) →
    (k + preds.length + 7) / 8 ≤ out.length →
    ∃ out', packLoop k preds out = some out' ∧ out'.length = out.length ∧
      ∀ j, j / 8 < out.length →
        bitAt out' j = (bitAt out j).map (fun b => b ^^ (decide (k ≤ j) && decide (preds[j - k]? = some 1))) := by
  intro preds
  induction preds with
  | nil =>
    intro k out _ _
    refine ⟨out, rfl, rfl, fun j _ => ?_⟩
    cases bitAt out j <;> simp
  | cons p ps ih =>
    intro k out hv hl
    simp only [List.length_cons] at hl
    obtain ⟨o1, h1, h2, h3⟩ := packStep_spec out k p (hv p (by simp)) (by omega)
    obtain ⟨o2, g1, g2, g3⟩ := ih (k + 1) o1 (fun c hc => hv c (by simp [hc])) (by rw [h2]; omega)
    refine ⟨o2, by simp [packLoop, h1, g1], by rw [g2, h2], fun j hj => ?_⟩
    rw [g3 j (by rw [h2]; exact hj), h3 j hj, Option.map_map]
    congr 1
    funext b
    simp only [Function.comp]
    by_cases h : j = k
    · subst h
      have : ¬ (j + 1 ≤ j) := by omega
      simp [this]
    · by_cases h4 : k + 1 ≤ j
      · have h5 : k ≤ j := by omega
        rw [show j - k = (j - (k + 1)) + 1 by omega]
        simp [h, h4, h5]
      · have h5 : ¬ k ≤ j := by omega
        simp [h, h4, h5]

end Verif.Obs
