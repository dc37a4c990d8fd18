import Verif.Props.MatrixDecode
import Verif.Props.Noise
import Mathlib.Data.Finset.SymmDiff

/-!
# C63, C64: simulation round trip and code distance

What a user relies on when simulating a code: sample errors, decode their syndrome, compare.
-/

namespace Verif.Props.RoundTrip

open Verif Verif.UG Verif.CM Verif.Conv Verif.Obj Verif.SB
open Verif.Props.UserGraph Verif.Props.EndToEnd Verif.Props.UserEdges Verif.Props.Object Verif.Props.Answers

variable {K : Type} [Field K] [LinearOrder K] [IsStrictOrderedRing K] [FloorRing K]

/-! ## Specification -/

/-- The edges flip no detector. -/
def Unseen {g : UGraph K} (C : Choice g) : Prop := ∀ x, x ∉ g.boundary → degree C x % 2 = 0

/-- The edges flip some fault id. -/
def Harmful {g : UGraph K} (C : Choice g) : Prop := ∃ k, k < g.numObs ∧ crossed C k % 2 = 1

/-- Every undetected set of edges that flips a fault id has rounded weight at least `d`. -/
def Distance (g : UGraph K) (scale : K) (d : Int) : Prop := ∀ C : Choice g, Unseen C → Harmful C → d ≤ total scale C

/-- The array has one entry per fault id, that says whether `C` flips it. -/
def Tells {g : UGraph K} (C : Choice g) (row : List (BitVec 8)) : Prop :=
  row.length = g.numObs ∧ ∀ k, k < g.numObs → row[k]? = some (if crossed C k % 2 = 1 then 1#8 else 0#8)

/-- The edges whose random number is below their error probability. -/
def sampled (g : UGraph K) (draw : Nat → K) : Choice g := Finset.univ.filter fun j => draw j.val < g.edges[j].prob

/-! ## Lemmas -/

omit [Field K] [LinearOrder K] [IsStrictOrderedRing K] [FloorRing K] in
theorem sum_symmDiff {ι M : Type} [DecidableEq ι] [AddCommMonoid M] (f : ι → M) (C S : Finset ι) :
    ∑ i ∈ symmDiff C S, f i + (∑ i ∈ C ∩ S, f i + ∑ i ∈ C ∩ S, f i) = ∑ i ∈ C, f i + ∑ i ∈ S, f i := by
  have h1 : ∑ i ∈ symmDiff C S, f i = ∑ i ∈ C \ S, f i + ∑ i ∈ S \ C, f i := by
    show ∑ i ∈ (C \ S) ∪ (S \ C), f i = _
    exact Finset.sum_union disjoint_sdiff_sdiff
  have h2 := Finset.sum_inter_add_sum_sdiff C S f
  have h3 := Finset.sum_inter_add_sum_sdiff S C f
  rw [Finset.inter_comm] at h3
  rw [h1, ← h2, ← h3]
  abel

omit [Field K] [LinearOrder K] [IsStrictOrderedRing K] [FloorRing K] in
theorem degree_symmDiff {g : UGraph K} (C S : Choice g) (x : Nat) : degree (symmDiff C S) x % 2 = (degree C x + degree S x) % 2 := by
  have := sum_symmDiff (fun i => endsAt g.edges[i] x) C S
  unfold degree
  omega

omit [Field K] [LinearOrder K] [IsStrictOrderedRing K] [FloorRing K] in
theorem crossed_symmDiff {g : UGraph K} (C S : Choice g) (k : Nat) : crossed (symmDiff C S) k % 2 = (crossed C k + crossed S k) % 2 := by
  have := sum_symmDiff (fun i => g.edges[i].obs.count k) C S
  unfold crossed
  omega

omit [Field K] [LinearOrder K] [IsStrictOrderedRing K] [FloorRing K] in
theorem unseen_of {g : UGraph K} {C S : Choice g} {events : List Nat} (hC : Explains C events) (hS : Explains S events) : Unseen (symmDiff C S) := by
  intro x hx
  rw [degree_symmDiff]
  have h1 := hC x hx
  have h2 := hS x hx
  have h3 : degree C x % 2 = 1 ↔ degree S x % 2 = 1 := h1.symm.trans h2
  omega

theorem total_symmDiff {g : UGraph K} {scale : K} (hs : 0 < scale) (hpos : ∀ e ∈ g.edges, 0 ≤ e.weight) (C S : Choice g) :
    total scale (symmDiff C S) ≤ total scale C + total scale S := by
  have := sum_symmDiff (fun i => rounded scale g.edges[i]) C S
  have h : 0 ≤ ∑ i ∈ C ∩ S, rounded scale g.edges[i] :=
    Finset.sum_nonneg fun i _ => Inserted.rounded_nonneg hs (hpos _ (List.getElem_mem _))
  unfold total
  omega

omit [FloorRing K] in
theorem noGain_of_nonneg {g : UGraph K} (hpos : ∀ e ∈ g.edges, 0 ≤ e.weight) : NoGain g where
  pair i j _ _ _ _ := add_nonneg (hpos _ (List.getElem_mem _)) (hpos _ (List.getElem_mem _))
  outside i _ := hpos _ (List.getElem_mem _)

/-- Decoding the syndrome of a set of edges: there is no exception. -/
theorem answered {g : UGraph K} (hw : WF g) (hB : Convert.BndOk g) {without : Bool} (hd : ∃ d, toMwpm g without true = some d) (hcov : Covered g)
    (hN : NoGain g) {S : Choice g} {events : List Nat} (hnd : events.Nodup) (hev : ∀ x ∈ events, x < g.nodes.length) (hS : Explains S events) :
    ∃ row w scale, Fresh1 g without (.decode false events) (.predictions row w) ∧ Scale g scale ∧
      ∃ C : Choice g, Best scale C events ∧ Tells C row ∧ w = (total scale C : K) / scale := by
  have hq : Askable g without (.decode false events) := ⟨hd, hcov, ⟨hnd, hev⟩, fun h => (by cases h)⟩
  obtain ⟨ans, o, -, -, hf⟩ := ask_one hw hB hq (inv_of g without)
  obtain ⟨scale, hsc, hM⟩ := C58_new hw hB hq rfl hN hf
  rcases hM with ⟨row, w, rfl, C, n, ⟨hb, rfl⟩, h1, h2, h3⟩ | ⟨rfl, hno⟩
  · exact ⟨row, w, scale, hf, hsc, C, hb, ⟨h1, h2⟩, h3⟩
  · exact absurd hS (hno S)

omit [IsStrictOrderedRing K] [FloorRing K] in
theorem chosen_sum (g : UGraph K) (draw : Nat → K) (F : UEdge K → Nat) :
    ((Noise.chosen g draw).map F).sum = ∑ j ∈ sampled g draw, F g.edges[j] := by
  have h1 : ∀ l : List (UEdge K × Nat), (((l.filter fun x => draw x.2 < x.1.prob).map (·.1)).map F).sum =
      (l.map fun x => if draw x.2 < x.1.prob then F x.1 else 0).sum := by
    intro l
    induction l with
    | nil => rfl
    | cons x l ih =>
      by_cases h : draw x.2 < x.1.prob
      · rw [List.filter_cons_of_pos (by simpa using h)]
        simp only [List.map_cons, List.sum_cons, if_pos h]
        rw [ih]
      · rw [List.filter_cons_of_neg (by simpa using h)]
        simp only [List.map_cons, List.sum_cons, if_neg h, zero_add]
        rw [ih]
  unfold Noise.chosen sampled
  rw [h1, Finset.sum_filter, ← List.sum_ofFn]
  congr 1
  refine List.ext_getElem (by simp) fun i h h' => ?_
  simp

/-! ## C63 -/

section
variable (mergeW : K → K → K) (n m : Nat) (cs : List (Call K)) (draw : Nat → K)

/-- What `add_noise` returns, in terms of the sampled edges; the 1-dimensional array is accepted by `decode`. -/
theorem noise_events {g : UGraph K} (hg : g = run mergeW (UGraph.new n m) cs) (hcov : Covered g) (hp : g.allProbs = true) :
    ∃ noise syn events, g.sample draw = some (some (noise, syn)) ∧ noise.length = g.numObs ∧
      (∀ k, k < g.numObs → noise[k]? = some (decide (crossed (sampled g draw) k % 2 = 1))) ∧
      Syn.toEvents g.numDetectors g.boundary.card (.d1 (syn.map Bool.toNat)) = some events ∧ events.Nodup ∧ (∀ x ∈ events, x < g.nodes.length) ∧
      Explains (sampled g draw) events := by
  subst hg
  have hw : WF (run mergeW (UGraph.new n m) cs) := wf_run mergeW (wf_new n m) cs
  have hb : Convert.BndOk (run mergeW (UGraph.new n m) cs) := Convert.bndOk_run mergeW (Convert.bndOk_new n m) cs
  rcases Noise.C36_noise_consistent mergeW n m cs draw hcov with ⟨h, -⟩ | ⟨-, noise, syn, h1, h2, h3, h4, h5⟩
  · rw [hp] at h; cases h
  · generalize run mergeW (UGraph.new n m) cs = g at *
    obtain ⟨k1, k2⟩ := Syndrome.C37_one_dim g.numDetectors g.boundary.card (syn.map Bool.toNat)
    have hcount : g.numDetectors + g.boundary.card = g.nodes.length := by
      have : g.boundary.card ≤ g.nodes.length := by
        rw [← Finset.card_range g.nodes.length]
        exact Finset.card_le_card fun x hx => Finset.mem_range.2 (hb.1 x hx)
      unfold UGraph.numDetectors
      omega
    cases he : Syn.toEvents g.numDetectors g.boundary.card (.d1 (syn.map Bool.toNat)) with
    | none =>
      refine absurd ?_ (k1.1 he)
      rw [List.length_map, h3, hcount]
      exact ⟨by omega, le_rfl⟩
    | some events =>
      obtain ⟨k3, k4⟩ := k2 events he
      have k5 : ∀ x, x ∈ events ↔ syn[x]? = some true := by
        intro x
        rw [k4, List.getElem?_map]
        cases syn[x]? with
        | none => simp
        | some b => cases b <;> simp
      refine ⟨noise, syn, events, h1, h2, fun k hk => ?_, he, k3.imp fun h => Nat.ne_of_lt h, fun x hx => ?_, fun x hx => ?_⟩
      · rw [h4 k hk, chosen_sum]
        exact congrArg some (decide_eq_decide.2 Nat.odd_iff)
      · have := (List.getElem?_eq_some_iff.1 ((k5 x).1 hx)).1
        omega
      · rw [k5]
        by_cases hl : x < g.nodes.length
        · rw [h5 x hl, if_neg hx, chosen_sum, Option.some.injEq, decide_eq_true_eq, Nat.odd_iff]
          rfl
        · rw [List.getElem?_eq_none (by omega)]
          have h0 : degree (sampled g draw) x = 0 := by
            refine Finset.sum_eq_zero fun j _ => ?_
            have := key_in_range hw j.val j.isLt g.edges[j].node1 g.edges[j].node2 rfl
            unfold endsAt
            cases hn2 : g.edges[j].node2 with
            | none =>
              rw [hn2] at this
              simp only [top] at this
              rw [if_neg (by omega), if_neg (by simp), Nat.add_zero]
            | some v =>
              rw [hn2] at this
              simp only [top] at this
              rw [if_neg (by omega), if_neg (by rw [Option.some.injEq]; omega), Nat.add_zero]
          rw [h0]
          simp

/-- **C63**.  Sample noise on a graph with error probabilities (of any history, with any outcome of the random source) and decode the sampled
syndrome.  Decoding does not raise; the weight of the correction is at most that of the sampled edges; and the sampled noise and the prediction differ in
the fault ids of a set of edges that flips no detector. -/
theorem C63_sample_decode {g : UGraph K} (hg : g = run mergeW (UGraph.new n m) cs) (hcov : Covered g) (hp : g.allProbs = true) {without : Bool}
    (hd : ∃ d, toMwpm g without true = some d) (hN : NoGain g) :
    ∃ noise syn events, g.sample draw = some (some (noise, syn)) ∧
      Syn.toEvents g.numDetectors g.boundary.card (.d1 (syn.map Bool.toNat)) = some events ∧
      ∃ row w scale, Fresh1 g without (.decode false events) (.predictions row w) ∧ Scale g scale ∧
        w ≤ (total scale (sampled g draw) : K) / scale ∧ noise.length = g.numObs ∧ row.length = g.numObs ∧
        ∃ D : Choice g, Unseen D ∧ ∀ k, k < g.numObs →
          (noise[k]? = some true ↔ (row[k]? = some 1#8) ≠ (crossed D k % 2 = 1)) ∧ (row[k]? = some 1#8 ∨ row[k]? = some 0#8) := by
  have hw : WF g := by rw [hg]; exact wf_run mergeW (wf_new n m) cs
  have hB : Convert.BndOk g := by rw [hg]; exact Convert.bndOk_run mergeW (Convert.bndOk_new n m) cs
  obtain ⟨noise, syn, events, h1, h2, h3, h4, h5, h6, h7⟩ := noise_events mergeW n m cs draw hg hcov hp
  obtain ⟨row, w, scale, k1, k2, C, k3, k4, k5⟩ := answered hw hB hd hcov hN h5 h6 h7
  have hs := MatrixDecode.scale_pos k2
  refine ⟨noise, syn, events, h1, h4, row, w, scale, k1, k2, ?_, h2, k4.1, symmDiff C (sampled g draw), unseen_of k3.1 h7, fun k hk => ?_⟩
  · rw [k5]
    exact div_le_div_of_nonneg_right (Int.cast_le.2 (k3.2 _ h7)) hs.le
  · rw [h3 k hk, k4.2 k hk, crossed_symmDiff]
    rcases Nat.mod_two_eq_zero_or_one (crossed C k) with e1 | e1 <;> rcases Nat.mod_two_eq_zero_or_one (crossed (sampled g draw) k) with e2 | e2 <;>
      simp [e1, e2, Nat.add_mod]

/-- **C63** with the 32-bit wrapped radius of the code, on graphs in which connected detectors are near (C61). -/
theorem C63_sample_decode_int32 {g : UGraph K} (hg : g = run mergeW (UGraph.new n m) cs) (hcov : Covered g) (hp : g.allProbs = true) {without : Bool}
    (hd : ∃ d, toMwpm g without true = some d) (hN : NoGain g) (hn : Narrow.Near g) :
    ∃ noise syn events, g.sample draw = some (some (noise, syn)) ∧
      Syn.toEvents g.numDetectors g.boundary.card (.d1 (syn.map Bool.toNat)) = some events ∧
      ∃ row w scale, Fresh1 (W := int32) g without (.decode false events) (.predictions row w) ∧ Scale g scale ∧
        w ≤ (total scale (sampled g draw) : K) / scale ∧ noise.length = g.numObs ∧ row.length = g.numObs ∧
        ∃ D : Choice g, Unseen D ∧ ∀ k, k < g.numObs →
          (noise[k]? = some true ↔ (row[k]? = some 1#8) ≠ (crossed D k % 2 = 1)) ∧ (row[k]? = some 1#8 ∨ row[k]? = some 0#8) := by
  have hw : WF g := by rw [hg]; exact wf_run mergeW (wf_new n m) cs
  have hB : Convert.BndOk g := by rw [hg]; exact Convert.bndOk_run mergeW (Convert.bndOk_new n m) cs
  obtain ⟨noise, syn, events, h1, h2, row, w, scale, h3, h4⟩ := C63_sample_decode mergeW n m cs draw hg hcov hp hd hN
  obtain ⟨noise', syn', events', k1, -, -, k4, k5, k6, -⟩ := noise_events mergeW n m cs draw hg hcov hp
  rw [h1] at k1
  cases k1
  rw [h2] at k4
  cases k4
  have hq : Askable g without (.decode false events) := ⟨hd, hcov, ⟨k5, k6⟩, fun h => (by cases h)⟩
  exact ⟨noise, syn, events, h1, h2, row, w, scale, (Narrow.fresh1_int32 hw hB hn hq _).2 h3, h4⟩

end

/-! ## C64 -/

/-- **C64**.  If every undetected set of edges that flips a fault id has weight at least `d`, every set of edges of weight less than `d / 2` is
corrected: decoding its syndrome returns its fault ids. -/
theorem C64_corrects {g : UGraph K} (hw : WF g) (hB : Convert.BndOk g) (hcov : Covered g) (hpos : ∀ e ∈ g.edges, 0 ≤ e.weight) {without : Bool}
    (hd : ∃ d, toMwpm g without true = some d) {scale : K} (hsc : Scale g scale) {d : Int} (hdist : Distance g scale d) {S : Choice g}
    (hS : 2 * total scale S < d) {events : List Nat} (hnd : events.Nodup) (hev : ∀ x ∈ events, x < g.nodes.length) (hE : Explains S events) :
    ∃ row w, Fresh1 g without (.decode false events) (.predictions row w) ∧ Tells S row := by
  obtain ⟨row, w, scale', h1, h2, C, h3, h4, h5⟩ := answered hw hB hd hcov (noGain_of_nonneg hpos) hnd hev hE
  have hs := MatrixDecode.scale_pos hsc
  have : scale' = scale := by
    obtain ⟨c, hc, rfl⟩ := hsc
    obtain ⟨c', hc', rfl⟩ := h2
    rw [hc] at hc'
    cases hc'
    rfl
  subst this
  refine ⟨row, w, h1, h4.1, fun k hk => ?_⟩
  rw [h4.2 k hk]
  have hlt : total scale' (symmDiff C S) < d := by
    have e1 := total_symmDiff hs hpos C S
    have e2 := h3.2 S hE
    omega
  have hno : ¬ crossed (symmDiff C S) k % 2 = 1 := by
    intro h
    have := hdist _ (unseen_of h3.1 hE) ⟨k, hk, h⟩
    omega
  rw [crossed_symmDiff] at hno
  have : crossed C k % 2 = crossed S k % 2 := by omega
  rw [this]

/-- **C64** with the 32-bit wrapped radius of the code, on graphs in which connected detectors are near (C61). -/
theorem C64_corrects_int32 {g : UGraph K} (hw : WF g) (hB : Convert.BndOk g) (hcov : Covered g) (hpos : ∀ e ∈ g.edges, 0 ≤ e.weight) {without : Bool}
    (hd : ∃ d, toMwpm g without true = some d) (hn : Narrow.Near g) {scale : K} (hsc : Scale g scale) {d : Int} (hdist : Distance g scale d) {S : Choice g}
    (hS : 2 * total scale S < d) {events : List Nat} (hnd : events.Nodup) (hev : ∀ x ∈ events, x < g.nodes.length) (hE : Explains S events) :
    ∃ row w, Fresh1 (W := int32) g without (.decode false events) (.predictions row w) ∧ Tells S row := by
  obtain ⟨row, w, h1, h2⟩ := C64_corrects hw hB hcov hpos hd hsc hdist hS hnd hev hE
  have hq : Askable g without (.decode false events) := ⟨hd, hcov, ⟨hnd, hev⟩, fun h => (by cases h)⟩
  exact ⟨row, w, (Narrow.fresh1_int32 hw hB hn hq _).2 h1, h2⟩

/-! ### Check matrices -/

section
open MatrixDecode
variable {P : Problem K}

/-- What happens if both happen: errors that happen in both cancel. -/
def both (E E' : History P) : History P := ⟨symmDiff E.flips E'.flips, symmDiff E.wrong E'.wrong⟩

/-- At most two ones in each column, and no negative weights. -/
structure Plain (P : Problem K) : Prop where
  two : ∀ c, (P.col c).length ≤ 2
  col : ∀ c, 0 ≤ P.weight c
  time : 1 < P.reps → ∀ r, 0 ≤ P.timelike r

/-- Every history that changes no measured value, but flips a fault id, costs at least `d`. -/
def CodeDistance (P : Problem K) (scale : K) (d : Int) : Prop :=
  ∀ E : History P, (∀ t r, t < P.reps → r < P.rows → ¬ changes E t r) → (∃ k, k < P.faults ∧ flipped E k % 2 = 1) → d ≤ cost scale E

omit [FloorRing K] in
theorem mild_of_plain (h : Plain P) : Mild P where
  two := h.two
  pair c c' _ _ := add_nonneg (h.col c) (h.col c')
  zero c _ := h.col c

omit [Field K] [LinearOrder K] [IsStrictOrderedRing K] [FloorRing K] in
theorem filter_symmDiff {ι : Type} [DecidableEq ι] (p : ι → Prop) [DecidablePred p] (A B : Finset ι) :
    (symmDiff A B).filter p = symmDiff (A.filter p) (B.filter p) := by
  ext x
  simp only [Finset.mem_filter, Finset.mem_symmDiff]
  tauto

omit [Field K] [LinearOrder K] [IsStrictOrderedRing K] [FloorRing K] in
theorem measured_both (E E' : History P) (t r : Nat) : measured (both E E') t r % 2 = (measured E t r + measured E' t r) % 2 := by
  unfold measured both
  simp only [filter_symmDiff, Finset.card_eq_sum_ones]
  have h1 := sum_symmDiff (fun x : Fin P.reps × Fin P.n => (P.col x.2).count r) (E.flips.filter fun x => x.1.val ≤ t) (E'.flips.filter fun x => x.1.val ≤ t)
  have h2 := sum_symmDiff (fun _ : Fin (P.reps - 1) × Fin P.rows => 1) (E.wrong.filter fun x => x.1.val = t ∧ x.2.val = r)
    (E'.wrong.filter fun x => x.1.val = t ∧ x.2.val = r)
  omega

omit [Field K] [LinearOrder K] [IsStrictOrderedRing K] [FloorRing K] in
theorem changes_both {E E' : History P} {t r : Nat} (h : changes E t r ↔ changes E' t r) : ¬ changes (both E E') t r := by
  unfold changes at h ⊢
  have h1 := measured_both E E' t r
  have h2 := measured_both E E' (t - 1) r
  split_ifs at h ⊢ <;> omega

omit [Field K] [LinearOrder K] [IsStrictOrderedRing K] [FloorRing K] in
theorem flipped_both (E E' : History P) (k : Nat) : flipped (both E E') k % 2 = (flipped E k + flipped E' k) % 2 := by
  have := sum_symmDiff (fun x : Fin P.reps × Fin P.n => (P.fault x.2).count k) E.flips E'.flips
  unfold flipped both
  dsimp only
  omega

theorem cost_both (hp : Plain P) {scale : K} (hs : 0 < scale) (E E' : History P) : cost scale (both E E') ≤ cost scale E + cost scale E' := by
  have h1 := sum_symmDiff (fun x : Fin P.reps × Fin P.n => whole scale (P.weight x.2)) E.flips E'.flips
  have h2 := sum_symmDiff (fun x : Fin (P.reps - 1) × Fin P.rows => whole scale (P.timelike x.2)) E.wrong E'.wrong
  have h3 : 0 ≤ ∑ x ∈ E.flips ∩ E'.flips, whole scale (P.weight x.2) := Finset.sum_nonneg fun x _ => whole_nonneg hs (hp.col _)
  have h4 : 0 ≤ ∑ x ∈ E.wrong ∩ E'.wrong, whole scale (P.timelike x.2) :=
    Finset.sum_nonneg fun x _ => whole_nonneg hs (hp.time (by have := x.1.isLt; omega) _)
  unfold cost both
  dsimp only
  omega

/-- What a right answer says about a history of small cost. -/
theorem right_small (hp : Plain P) {scale : K} (hs : 0 < scale) {d : Int} (hd : CodeDistance P scale d) {E : History P} (hE : 2 * cost scale E < d)
    {events : List Nat} (hA : Accounts E events) {ans : Answer K} (hR : Right P scale events ans) :
    ∃ row w, ans = .predictions row w ∧ row.length = P.faults ∧ ∀ k, k < P.faults → row[k]? = some (if flipped E k % 2 = 1 then 1#8 else 0#8) := by
  rcases hR with ⟨row, w, rfl, E', ⟨hA', hmin⟩, hlen, hrow, -⟩ | ⟨-, hno⟩
  · refine ⟨row, w, rfl, hlen, fun k hk => ?_⟩
    rw [hrow k hk]
    have h1 := hmin E hA
    have h2 := cost_both hp hs E' E
    have h3 : ¬ flipped (both E' E) k % 2 = 1 := by
      intro h
      have := hd (both E' E) (fun t r ht hr => changes_both ((hA' t r ht hr).symm.trans (hA t r ht hr))) ⟨k, hk, h⟩
      omega
    rw [flipped_both] at h3
    have : flipped E' k % 2 = flipped E k % 2 := by omega
    rw [this]
  · exact absurd hA (hno E)

variable {a : Args K} (hg : Given P a) (hp : Plain P) (hs : a.strategy = .smallestWeight) (mergeW : K → K → K) {g : UGraph K}
  (hload : loadCheckMatrix mergeW a = .ok g) (hsm : Small P) (without : Bool)
include hg hp hs hload hsm

/-- **C64** (check matrices).  If every history of errors and wrong measurements that changes no measured value, but flips a fault id, costs at least
`d`, then every history that costs less than `d / 2` is corrected: decoding its detection events returns the fault ids it flips. -/
theorem C64_matrix {scale : K} (hsc : Scale g scale) {d : Int} (hd : CodeDistance P scale d) {E : History P} (hE : 2 * cost scale E < d)
    {events : List Nat} (hnd : events.Nodup) (hev : ∀ x ∈ events, x < g.nodes.length) (hA : Accounts E events) :
    ∃ row w, Fresh1 g without (.decode false events) (.predictions row w) ∧ row.length = P.faults ∧
      ∀ k, k < P.faults → row[k]? = some (if flipped E k % 2 = 1 then 1#8 else 0#8) := by
  obtain ⟨ans, scale', h1, h2, h3⟩ := C62_decode hg (mild_of_plain hp) hs mergeW hload hsm without events hnd hev
  have : scale' = scale := by
    obtain ⟨c, hc, rfl⟩ := hsc
    obtain ⟨c', hc', rfl⟩ := h2
    rw [hc] at hc'
    cases hc'
    rfl
  subst this
  obtain ⟨row, w, rfl, h4, h5⟩ := right_small hp (scale_pos hsc) hd hE hA h3
  exact ⟨row, w, h1, h4, h5⟩

/-- **C64** (unit weights, one repetition).  If every set of columns that adds up to zero, but flips a fault id, has at least `d` elements, then every set
of fewer than `d / 2` columns is corrected: `decode(H e)` is `F e`. -/
theorem C64_unit (h1 : P.reps = 1) (hu : ∀ c, P.weight c = 1) (ht : ∀ r, P.timelike r = 1) {d : Nat}
    (hd : ∀ x : Finset (Fin P.n), Solves P x [] → (∃ k, k < P.faults ∧ (∑ c ∈ x, (P.fault c).count k) % 2 = 1) → d ≤ x.card)
    {e : Finset (Fin P.n)} (he : 2 * e.card < d) {events : List Nat} (hnd : events.Nodup) (hev : ∀ x ∈ events, x < g.nodes.length)
    (hA : Solves P e events) :
    ∃ row w, Fresh1 g without (.decode false events) (.predictions row w) ∧ row.length = P.faults ∧
      ∀ k, k < P.faults → row[k]? = some (if (∑ c ∈ e, (P.fault c).count k) % 2 = 1 then 1#8 else 0#8) := by
  obtain ⟨ans, scale, -, hsc, -⟩ := C62_decode hg (mild_of_plain hp) hs mergeW hload hsm without events hnd hev
  obtain ⟨rfl, hc⟩ := C62_integers hg hp.two hs mergeW hload (fun c => ⟨1, by rw [hu]; norm_num⟩) (fun r => ⟨1, by rw [ht]; norm_num⟩) hsc
  have hcost : ∀ x : Finset (Fin P.n), cost 2 (once h1 x) = 2 * (x.card : Int) := by
    intro x
    have h := hc (once h1 x)
    have hw : weightOf (once h1 x) = (x.card : K) := by
      unfold weightOf once
      simp only [hu, Finset.sum_const, Finset.card_map, nsmul_eq_mul, mul_one, Finset.sum_empty, add_zero]
    rw [hw, div_eq_iff two_ne_zero] at h
    have h' : ((cost 2 (once h1 x) : Int) : K) = ((2 * (x.card : Int) : Int) : K) := by rw [h]; push_cast; ring
    exact_mod_cast h'
  obtain ⟨row, w, k1, k2, k3⟩ := C64_matrix hg hp hs mergeW hload hsm without (d := 2 * (d : Int)) hsc (by
      intro E hE hk
      obtain ⟨x, rfl⟩ := once_surj h1 E
      rw [hcost]
      simp only [once_flipped] at hk
      have := hd x ((once_accounts h1 x []).1 fun t r ht hr => ⟨fun h => absurd h List.not_mem_nil, fun h => absurd h (hE t r ht hr)⟩) hk
      omega) (E := once h1 e) (by rw [hcost]; omega) hnd hev ((once_accounts h1 e events).2 hA)
  simp only [once_flipped] at k3
  exact ⟨row, w, k1, k2, k3⟩

/-- **C64** (check matrices), 32-bit. -/
theorem C64_matrix_int32 (hn : Narrow.Near g) {scale : K} (hsc : Scale g scale) {d : Int} (hd : CodeDistance P scale d) {E : History P}
    (hE : 2 * cost scale E < d) {events : List Nat} (hnd : events.Nodup) (hev : ∀ x ∈ events, x < g.nodes.length) (hA : Accounts E events) :
    ∃ row w, Fresh1 (W := int32) g without (.decode false events) (.predictions row w) ∧ row.length = P.faults ∧
      ∀ k, k < P.faults → row[k]? = some (if flipped E k % 2 = 1 then 1#8 else 0#8) := by
  have hl := loaded hg (mild_of_plain hp) hs mergeW hload
  have hq : Askable g without (.decode false events) := askable hg (mild_of_plain hp) hs mergeW hload hsm without ⟨hnd, hev⟩ rfl
  obtain ⟨row, w, h1, h2⟩ := C64_matrix hg hp hs mergeW hload hsm without hsc hd hE hnd hev hA
  exact ⟨row, w, (Narrow.fresh1_int32 hl.kept.wf hl.bndOk hn hq _).2 h1, h2⟩

/-- **C64** (unit weights, one repetition), 32-bit: no further condition up to a billion rows. -/
theorem C64_unit_int32 (hbig : P.rows < 2 ^ 30) (h1 : P.reps = 1) (hu : ∀ c, P.weight c = 1) (ht : ∀ r, P.timelike r = 1) {d : Nat}
    (hd : ∀ x : Finset (Fin P.n), Solves P x [] → (∃ k, k < P.faults ∧ (∑ c ∈ x, (P.fault c).count k) % 2 = 1) → d ≤ x.card)
    {e : Finset (Fin P.n)} (he : 2 * e.card < d) {events : List Nat} (hnd : events.Nodup) (hev : ∀ x ∈ events, x < g.nodes.length)
    (hA : Solves P e events) :
    ∃ row w, Fresh1 (W := int32) g without (.decode false events) (.predictions row w) ∧ row.length = P.faults ∧
      ∀ k, k < P.faults → row[k]? = some (if (∑ c ∈ e, (P.fault c).count k) % 2 = 1 then 1#8 else 0#8) := by
  have hl := loaded hg (mild_of_plain hp) hs mergeW hload
  have hq : Askable g without (.decode false events) := askable hg (mild_of_plain hp) hs mergeW hload hsm without ⟨hnd, hev⟩ rfl
  have hn : Narrow.Near g := C62_near hg hp.two hs mergeW hload (fun c => ⟨1, by rw [hu]; norm_num⟩) (fun r => ⟨1, by rw [ht]; norm_num⟩) 1
    (fun c => by rw [hu]; norm_num) (fun r => by rw [ht]; norm_num) (by rw [h1]; omega)
  obtain ⟨row, w, k1, k2⟩ := C64_unit hg hp hs mergeW hload hsm without h1 hu ht hd he hnd hev hA
  exact ⟨row, w, (Narrow.fresh1_int32 hl.kept.wf hl.bndOk hn hq _).2 k1, k2⟩

end

/-! ## Examples -/

/-- A chain of three detectors with an edge to the boundary at both ends, one weight being not an integer; fault id 0 at the left end. -/
def chainCalls : List (Call ℚ) :=
  [.add 0 none [0] 2 (1/10) .disallow, .add 0 (some 1) [] (3/2) (1/5) .disallow, .add 1 (some 2) [] 3 (1/20) .disallow, .add 2 none [] 2 (1/10) .disallow]

/-- The hypotheses of C63 hold for it, and a random source that flips the first two edges leaves one detection event. -/
example : let g := run (fun a _ => a) (UGraph.new 0 0) chainCalls
    Covered g ∧ g.allProbs = true ∧ (∃ d, toMwpm g true true = some d) ∧ NoGain g ∧ Narrow.Near g ∧
      g.sample (fun i => if i < 2 then 0 else 1) = some (some ([true], [false, true, false])) := by
  intro g
  have hw : WF g := wf_run _ (wf_new 0 0) chainCalls
  refine ⟨by unfold Covered; decide +kernel, by decide +kernel, Option.isSome_iff_exists.mp (by decide +kernel), noGain_of_nonneg (by decide +kernel),
    Narrow.near_of_few hw (by decide +kernel), by decide +kernel⟩

/-- The graph. -/
def chainGraph : UGraph ℚ := run (fun a _ => a) (UGraph.new 0 0) chainCalls

/-- The hypotheses of C64 for the same graph: the only undetected set of edges that flips fault id 0 consists of all four edges. -/
example : ∃ scale, Scale chainGraph scale ∧ Distance chainGraph scale 95070886 ∧
    ∃ S : Choice chainGraph, 2 * total scale S < 95070886 ∧ Explains S [1] ∧ Harmful S := by
  refine ⟨2 * ((2 ^ 24 - 1) / 3), ⟨_, by decide +kernel, rfl⟩, ?_, ?_⟩
  · have h : ∀ C : Choice chainGraph, degree C 0 % 2 = 0 → degree C 1 % 2 = 0 → degree C 2 % 2 = 0 → crossed C 0 % 2 = 1 →
        95070886 ≤ total (2 * ((2 ^ 24 - 1) / 3)) C := by decide +kernel
    have hb : chainGraph.boundary = ∅ := by decide +kernel
    rintro C hC ⟨k, hk, hx⟩
    have hk1 : chainGraph.numObs = 1 := by decide +kernel
    obtain rfl : k = 0 := by omega
    exact h C (hC 0 (by rw [hb]; simp)) (hC 1 (by rw [hb]; simp)) (hC 2 (by rw [hb]; simp)) hx
  · refine ⟨({0, 1} : Finset (Fin 4)), by decide +kernel, ?_, 0, by decide +kernel, by decide +kernel⟩
    intro x _
    by_cases hx : x < 3
    · interval_cases x <;> decide +kernel
    · have : degree (g := chainGraph) ({0, 1} : Finset (Fin 4)) x = 0 := by
        refine Finset.sum_eq_zero fun j _ => ?_
        have h : ∀ e ∈ chainGraph.edges, e.node1 < 3 ∧ ∀ v ∈ e.node2, v < 3 := by decide +kernel
        obtain ⟨h1, h2⟩ := h chainGraph.edges[j] (List.getElem_mem _)
        unfold endsAt
        rw [if_neg (by omega), if_neg (show ¬ _ = some x from fun e => hx (h2 x e)), Nat.add_zero]
      rw [this]
      simp only [List.mem_singleton]
      omega

open MatrixDecode

/-- The repetition code with five bits; the fault id is the first bit. -/
def rep5 : Problem ℚ where
  rows := 4
  faults := 1
  n := 5
  reps := 1
  col := ![[0], [0, 1], [1, 2], [2, 3], [3]]
  fault := ![[0], [], [], [], []]
  weight := fun _ => 1
  prob := fun _ => -1
  timelike := fun _ => 1
  misprob := fun _ => -1

/-- The arguments of the loader for it. -/
def rep5Args : Args ℚ where
  H := ⟨[1, 1, 1, 1, 1, 1, 1, 1], [0, 0, 1, 1, 2, 2, 3, 3], [0, 1, 3, 5, 7, 8], 4, 5⟩
  F := ⟨[1], [0], [0, 1, 1, 1, 1, 1], 1, 5⟩
  weights := [1, 1, 1, 1, 1]
  probs := [-1, -1, -1, -1, -1]
  strategy := .smallestWeight
  virtualBoundary := false
  reps := 1
  timelike := none
  measProbs := none

theorem rep5_given : Given rep5 rep5Args where
  H := by
    refine ⟨rfl, rfl, rfl, rfl, ?_⟩
    show ∀ c ∈ [[0], [0, 1], [1, 2], [2, 3], [3]], ∀ r ∈ c, r < 4
    decide
  rows := rfl
  F := by
    refine ⟨rfl, rfl, rfl, rfl, ?_⟩
    show ∀ c ∈ [[0], [], [], [], []], ∀ r ∈ c, r < 1
    decide
  faults := rfl
  weights := rfl
  probs := rfl
  reps := rfl
  time := fun h => absurd h (by decide)

theorem rep5_plain : Plain rep5 where
  two := by
    show ∀ c : Fin 5, ((![[0], [0, 1], [1, 2], [2, 3], [3]] : Fin 5 → List Nat) c).length ≤ 2
    decide
  col _ := by show (0 : ℚ) ≤ 1; norm_num
  time _ _ := by show (0 : ℚ) ≤ 1; norm_num

theorem rep5_small : Small rep5 where
  col _ := by show |(1 : ℚ)| ≤ _; norm_num
  time _ _ := by show |(1 : ℚ)| ≤ _; norm_num

/-- Its distance is five. -/
theorem rep5_distance : ∀ x : Finset (Fin 5), Solves rep5 x [] → (∃ k, k < 1 ∧ (∑ c ∈ x, (rep5.fault c).count k) % 2 = 1) → 5 ≤ x.card := by
  have h : ∀ x : Finset (Fin 5), (∀ r, r < 4 → (r ∈ ([] : List Nat) ↔ (∑ c ∈ x, (rep5.col c).count r) % 2 = 1)) →
      (∃ k, k < 1 ∧ (∑ c ∈ x, (rep5.fault c).count k) % 2 = 1) → 5 ≤ x.card := by decide +kernel
  exact h

/-- So any two errors are corrected. -/
example (e : Finset (Fin 5)) (he : e.card ≤ 2) (events : List Nat) (hnd : events.Nodup) (hev : ∀ x ∈ events, x < 4) (hA : Solves rep5 e events) :
    ∃ g, loadCheckMatrix (fun a _ => a) rep5Args = .ok g ∧
      ∃ w, Fresh1 (W := int32) g false (.decode false events) (.predictions [if (0 : Fin 5) ∈ e then 1#8 else 0#8] w) := by
  obtain ⟨g, hl, -⟩ := C62_loads rep5_given rep5_plain.two rfl (fun a _ => a)
  have hd := loaded rep5_given (mild_of_plain rep5_plain) rfl _ hl
  refine ⟨g, hl, ?_⟩
  obtain ⟨row, w, h1, h2, h3⟩ := C64_unit_int32 rep5_given rep5_plain rfl _ hl rep5_small false (by decide) rfl (fun _ => rfl) (fun _ => rfl)
    (d := 5) rep5_distance (e := e) (by have : 2 * e.card < 5 := (by omega); exact this) hnd (fun x hx => (hd.inside x (hev x hx)).1) hA
  refine ⟨w, ?_⟩
  have : row = [if (0 : Fin 5) ∈ e then 1#8 else 0#8] := by
    have h4 := h3 0 (by decide)
    have h6 : ∀ e : Finset (Fin 5), (∑ c ∈ e, (rep5.fault c).count 0) % 2 = 1 ↔ (0 : Fin 5) ∈ e := by decide +kernel
    have h5 := h6 e
    match row, h2, h4 with
    | [b], _, h4 =>
      simp only [List.getElem?_cons_zero, Option.some.injEq] at h4
      rw [h4]
      by_cases h0 : (0 : Fin 5) ∈ e
      · rw [if_pos h0]; exact congrArg (fun b => [b]) (if_pos (h5.2 h0))
      · rw [if_neg h0]; exact congrArg (fun b => [b]) (if_neg fun h => h0 (h5.1 h))
  rw [← this]
  exact h1

end Verif.Props.RoundTrip
