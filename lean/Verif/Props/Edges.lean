import Verif.Blossom.Collect
import Verif.Props.Decode
import Verif.Props.Search

/-!
# Properties of decoding to edges and of decoding with any number of observables (C24, C25, C41, C46, C50)

The decoder is a fresh one or one that was used before: any sequence of completed calls of any kind, whether they returned or raised.
-/

namespace Verif.Props.Edges

open Verif Verif.Graph Verif.CE Verif.SB Verif.Props.Graph Verif.Props.NegWeights Verif.Props.Decode
open Verif.Sch (Res Fresh)

/-! ## Specification -/

/-- A call, as a function of the number of rounds that its loops may take, completes with the outcome `out`. -/
def Completes {α : Type} (call : Nat → Option α) (out : α) : Prop := ∃ f0, ∀ f, f0 ≤ f → call f = some out

/-- The decoding graph and the search graph of a decoder that was built from `ops`, and its mask of negative observables. -/
structure Built (numNodes numObs : Nat) (ops : List EdgeIns) (g : MGraph) (sg : SGraph) (m : ObsInt) : Prop where
  matching : run (MGraph.empty numNodes numObs) ops = some g
  search : runS (SGraph.empty numNodes) ops = some sg
  mask : numObs ≤ 64 → negMaskOf g = some m
  edges : Edges ops
  obs : ∀ op ∈ ops, ∀ o ∈ op.obs, o < numObs

/-- `UsedFull g sg bnd m F`: the decoder is in state `F` after any sequence of completed calls with valid events. -/
inductive UsedFull [W : Width] (g : MGraph) (sg : SGraph) (bnd : List Bool) (m : ObsInt) : Full → Prop where
  | fresh : UsedFull g sg bnd m Full.init
  | decoded {F F' : Full} {events : List Nat} {buf buf' : List (BitVec 8)} {w w' : Int} (h : UsedFull g sg bnd m F) (hv : Valid g events)
      (hl : buf.length = g.numObs) (hd : Completes (fun f => decodeObs g sg bnd m f F events buf w) (.ok (F', buf', w'))) : UsedFull g sg bnd m F'
  | failed {F F' : Full} {events : List Nat} {buf : List (BitVec 8)} {w : Int} (h : UsedFull g sg bnd m F) (hv : Valid g events)
      (hl : buf.length = g.numObs) (hd : Completes (fun f => decodeObs g sg bnd m f F events buf w) (.throws F')) : UsedFull g sg bnd m F'
  | listed {F F' : Full} {events : List Nat} {es : List (Nat × Option Nat)} (h : UsedFull g sg bnd m F) (hv : Valid g events)
      (hd : Completes (fun f => decodeEdges g sg bnd f F events) (.ok (F', es))) : UsedFull g sg bnd m F'
  | unlisted {F F' : Full} {events : List Nat} (h : UsedFull g sg bnd m F) (hv : Valid g events)
      (hd : Completes (fun f => decodeEdges g sg bnd f F events) (.throws F')) : UsedFull g sg bnd m F'
  | paired {F : Full} {s' : MS} {events : List Nat} {es : List CompressedEdge} (h : UsedFull g sg bnd m F) (hv : Valid g events)
      (hd : Completes (fun f => decodePairs g bnd (negEvents g) g.negSum f F.ms events) (.ok (s', es))) : UsedFull g sg bnd m { F with ms := s' }
  | unpaired {F : Full} {s' : MS} {events : List Nat} (h : UsedFull g sg bnd m F) (hv : Valid g events)
      (hd : Completes (fun f => decodePairs g bnd (negEvents g) g.negSum f F.ms events) (.throws s')) : UsedFull g sg bnd m { F with ms := s' }

/-- The weight of an edge that is given by its two ends. -/
def weightOf (ops : List EdgeIns) (e : Nat × Option Nat) : Int := ((ops.filter fun op => endsOf op = symOf e).map EdgeIns.w).sum

/-- Is the inserted edge a self-loop? -/
def isLoop : EdgeIns → Bool
  | .edge u v _ _ => u = v
  | .bdry _ _ _ => false

/-- The sum of the weights of all self-loops of negative weight. -/
def negativeLoops (ops : List EdgeIns) : Int := ((ops.filter fun op => op.w < 0 ∧ isLoop op).map EdgeIns.w).sum

/-! ## Lemmas -/

theorem isLoop_iff (op : EdgeIns) : isLoop op = true ↔ IsLoop op := by
  cases op <;> simp [isLoop, IsLoop]


/-- The decoder is at rest. -/
structure Idle (F : Full) : Prop where
  ms : Clean F.ms
  ss : Fresh F.ss
  marks : F.marks = fun _ _ => false

theorem completes_unique {α : Type} {call : Nat → Option α} {a b : α} (ha : Completes call a) (hb : Completes call b) : a = b := by
  obtain ⟨f1, h1⟩ := ha
  obtain ⟨f2, h2⟩ := hb
  have := (h1 (max f1 f2) (le_max_left _ _)).symm.trans (h2 (max f1 f2) (le_max_right _ _))
  simpa using this

theorem sum_filter_map (l : List EdgeIns) (p : EdgeIns → Prop) [DecidablePred p] (f : EdgeIns → Int) :
    ((l.filter fun o => p o).map f).sum = (l.map fun o => if p o then f o else 0).sum := by
  induction l with
  | nil => rfl
  | cons o os ih => by_cases h : p o <;> simp [h, ih]

section

variable {numNodes numObs : Nat} {ops : List EdgeIns} {g : MGraph} {sg : SGraph} {m : ObsInt} {bnd : List Bool}

theorem matching_cases (hB : Built numNodes numObs ops g sg m) (hb : ∀ d ∈ g.negDets, TL.notBoundary bnd d = true) {s : MS} (hs : Clean s)
    {events : List Nat} (hv : Valid g events) :
    (∃ s' x, Completes (fun f => matching g bnd (negEvents g) f s events) (.ok (s', x)) ∧ Clean s' ∧ Answer g (symmDiff (counted bnd events) g.negDets) x) ∨
    (∃ s', Completes (fun f => matching g bnd (negEvents g) f s events) (.throws s') ∧ Clean s' ∧ ∀ c : Correction ops, ¬ Explains c (counted bnd events)) := by
  have hg := proper_of_run hB.matching hB.edges.pairs hB.edges.even hB.edges.small
  have hb' : ∀ d ∈ negEvents g, TL.notBoundary bnd d = true := fun d hd => hb d (((neg_sort g).2 d).1 hd)
  obtain ⟨f0, o, ho⟩ := matching_ends hg hs bnd hv.range hv.nodup hb' (neg_sort g).1
  have hc : Completes (fun f => matching g bnd (negEvents g) f s events) o := ⟨f0, ho⟩
  rcases matching_spec hg hs bnd hv.range hv.nodup hb' (neg_sort g).1 f0 with e | ⟨s', x, e, h1, h2⟩ | ⟨s', e, h1, h2⟩
  · rw [ho f0 (le_refl _)] at e; cases e
  · rw [ho f0 (le_refl _)] at e
    cases e
    exact .inl ⟨s', x, hc, h1, by rw [← started_eq]; exact h2⟩
  · rw [ho f0 (le_refl _)] at e
    cases e
    refine .inr ⟨s', hc, h1, fun c hcc => ?_⟩
    have h3 := (C14_translation numNodes numObs ops g hB.matching (counted bnd events) (symmDiff c (negatives ops))).1
    rw [symmDiff_symmDiff_cancel_right] at h3
    obtain ⟨ws', l1, -⟩ := slots_of_correction hB.matching (h3.1 hcc)
    rw [started_eq] at h2
    exact h2 ws' l1

theorem started_range (hB : Built numNodes numObs ops g sg m) {events : List Nat} (hv : Valid g events) :
    ∀ v ∈ symmDiff (counted bnd events) g.negDets, v < numNodes := by
  have hlen := (C13_adjacency numNodes numObs ops g hB.matching).1
  intro v hv'
  rw [Finset.mem_symmDiff] at hv'
  rcases hv' with ⟨h1, -⟩ | ⟨h1, -⟩
  · rw [counted, List.mem_toFinset, List.mem_filter] at h1
    rw [← hlen]
    exact hv.range v h1.1
  · rw [(C15_negative_bookkeeping numNodes numObs ops g hB.matching).1] at h1
    by_contra hn
    have hz : ∀ op ∈ ops, op.incidence v = 0 := by
      intro op hop
      have hr := in_range hB.matching hop
      rw [hlen] at hr
      cases op with
      | edge a b w o =>
        have h1 : a < numNodes := hr.1
        have h2 : b < numNodes := hr.2
        have e1 : ¬ a = v := by omega
        have e2 : ¬ b = v := by omega
        simp [EdgeIns.incidence, e1, e2]
      | bdry a w o =>
        have h1 : a < numNodes := hr
        have e1 : ¬ a = v := by omega
        simp [EdgeIns.incidence, e1]
    have : ((ops.filter (·.w < 0)).map (EdgeIns.incidence v)).sum = 0 := by
      rw [List.sum_eq_zero_iff]
      intro x hx
      obtain ⟨op, hop, rfl⟩ := List.mem_map.1 hx
      exact hz op (List.mem_of_mem_filter hop)
    rw [this] at h1
    cases h1

theorem not_crossed (ho : ∀ op ∈ ops, ∀ o ∈ op.obs, o < numObs) (c : Correction ops) {k : Nat} (hk : numObs ≤ k) : crossed c k = 0 := by
  unfold crossed
  refine Finset.sum_eq_zero fun i _ => ?_
  rw [List.count_eq_zero]
  intro hm
  have := ho _ (List.getElem_mem i.2) k hm
  omega

theorem negObs_range (h : run (MGraph.empty numNodes numObs) ops = some g) (ho : ∀ op ∈ ops, ∀ o ∈ op.obs, o < numObs) : ∀ k ∈ g.negObs, k < numObs := by
  intro k hk
  by_contra hn
  have := ((C14_translation numNodes numObs ops g h ∅ ∅).2.2 k).2 (by simp [crossed, hk])
  rw [not_crossed ho _ (by omega)] at this
  cases this

theorem parity_iff {n n' : Nat} {P : Prop} [Decidable P] (h : n % 2 = 1 ↔ ¬ (n' % 2 = 1 ↔ P)) : parity n = parity n' ^^^ (if P then 1#8 else 0#8) := by
  unfold parity
  by_cases h1 : n' % 2 = 1 <;> by_cases h2 : P <;> simp only [h1, h2, if_true, if_false] <;> simp [h1, h2] at h <;> simp [h]

/-- Decoding from a decoder at rest, into any buffer. -/
theorem decodeObs_spec (hB : Built numNodes numObs ops g sg m) (hb : ∀ d ∈ g.negDets, TL.notBoundary bnd d = true) {F : Full} (hF : Idle F)
    {events : List Nat} (hv : Valid g events) {buf : List (BitVec 8)} (hl : buf.length = numObs) (w0 : Int) :
    (∃ F' buf' w, Completes (fun f => decodeObs g sg bnd m f F events buf w0) (.ok (F', buf', w)) ∧ Idle F' ∧ buf'.length = numObs ∧
      ∃ c : Correction ops, Optimal weight c (counted bnd events) ∧ w = (if numObs > 64 then w0 else 0) + weight c ∧
        ∀ k, buf'[k]? = (buf[k]?).map (· ^^^ parity (crossed c k))) ∨
    (∃ F', Completes (fun f => decodeObs g sg bnd m f F events buf w0) (.throws F') ∧ Idle F' ∧ ∀ c : Correction ops, ¬ Explains c (counted bnd events)) := by
  have hg := proper_of_run hB.matching hB.edges.pairs hB.edges.even hB.edges.small
  have hno : g.numObs = numObs := (built_run (built_empty numNodes numObs) hB.matching).nobs
  rcases matching_cases hB hb hF.ms hv with ⟨s', x, ⟨f0, hf0⟩, h1, h2⟩ | ⟨s', ⟨f0, hf0⟩, h1, h2⟩
  · left
    by_cases hbig : numObs > 64
    · have ht := twin_of_runs hB.matching hB.search
      obtain ⟨N, ss', ps, I, k1, k2, k3, k4, k5, k6⟩ := collect hB.matching ht hg hB.edges.pairs h2 (started_range hB hv) F.ss hF.ss
      obtain ⟨b1, l1, l2, l3⟩ := takeEdges_spec k3 buf w0 (by rw [hl]; exact hB.obs)
      obtain ⟨b2, n1, n2, n3⟩ := flipBytes_spec (negObservables g) b1 (by
        intro o ho
        rw [l2, hl]
        exact negObs_range hB.matching hB.obs o ((Finset.mem_sort _).1 ho))
      obtain ⟨o1, o2, o3⟩ := C14_negative_weights_optimal numNodes numObs ops g hB.matching (counted bnd events) (oddOf I) k4
      refine ⟨{ F with ms := s', ss := ss' }, b2, _, ⟨max f0 N, ?_⟩, ⟨h1, k1, hF.marks⟩, by rw [n2, l2, hl], symmDiff (oddOf I) (negatives ops), o1,
        (rfl : _ = w0 + x.weight + g.negSum).trans ?_, ?_⟩
      · intro f hf
        have hf1 : f0 ≤ f := le_trans (le_max_left _ _) hf
        have hf2 : N ≤ f := le_trans (le_max_right _ _) hf
        have hbig' : g.numObs > 64 := by rw [hno]; exact hbig
        simp only [decodeObs, hf0 f hf1, hbig', if_true, k2 f hf2, l1, k6, Sch.Res.bind, n1]
      · rw [if_pos hbig, o2, k5, add_assoc]
      · intro k
        rw [n3 k, l3 k, Option.map_map]
        congr 1
        funext b
        have hpar : parity ((I.map fun i => (ops[i]).obs.count k).sum) = parity (crossed (oddOf I) k) := by
          unfold parity crossed
          rw [oddOf_sum (fun i => (ops[i]).obs.count k)]
        have hcnt : parity ((negObservables g).count k) = if k ∈ g.negObs then 1#8 else 0#8 := by
          rw [negObservables, List.Nodup.count (Finset.sort_nodup _ _)]
          simp only [Finset.mem_sort]
          by_cases hk : k ∈ g.negObs <;> simp [hk, parity]
        rw [parity_iff (o3 k)]
        simp only [Function.comp, hpar, hcnt, BitVec.xor_assoc]
    · have hsmall : numObs ≤ 64 := by omega
      have hd : decode64 g bnd (negEvents g) m g.negSum f0 F.ms events = some (.ok (s', x.mask ^^^ m, x.weight + g.negSum)) := by
        simp only [decode64, hf0 f0 (le_refl _)]
      have hcor := decode64_correct hB.matching hB.edges hsmall (hB.mask hsmall) hb hF.ms hv hd
      rcases hcor with ⟨s2, mask, w, e, c, c1, c2, c3⟩ | ⟨s2, e, -⟩
      · cases e
        obtain ⟨b, l1, l2, l3⟩ := Obs.fillLoop_spec (x.mask ^^^ m) numObs 0 buf (by omega) (by omega)
        refine ⟨{ F with ms := s' }, b, _, ⟨f0, ?_⟩, ⟨h1, hF.ss, hF.marks⟩, l2.trans hl, c, c1, (rfl : _ = x.weight + g.negSum).trans ?_, ?_⟩
        · intro f hf
          have hnb : ¬ g.numObs > 64 := by rw [hno]; exact hbig
          have hfill : Obs.fillBitVector (x.mask ^^^ m) buf g.numObs = .ok b := by
            rw [hno, Obs.fillBitVector, if_neg (by unfold Obs.maxObs; omega), l1]
          simp only [decodeObs, hf0 f hf, hnb, if_false, hfill]
        · rw [if_neg hbig, c2]; omega
        · intro k
          by_cases hk : k < numObs
          · have hk1 : k < b.length := by omega
            have hk2 : k < buf.length := by omega
            rw [List.getElem?_eq_getElem hk1, List.getElem?_eq_getElem hk2, l3 k hk1 hk2, if_pos hk, Option.map_some, Nat.zero_add]
            congr 2
            unfold parity
            have := c3 k (by omega)
            by_cases hx : (x.mask ^^^ m).getLsbD k = true
            · rw [if_pos hx, if_pos (this.1 hx)]
            · rw [if_neg hx, if_neg (fun h => hx (this.2 h))]
          · rw [List.getElem?_eq_none (by omega), List.getElem?_eq_none (by omega)]; rfl
      · cases e
  · right
    refine ⟨{ F with ms := s' }, ⟨f0, fun f hf => ?_⟩, ⟨h1, hF.ss, hF.marks⟩, h2⟩
    simp only [decodeObs, hf0 f hf]

/-- Decoding to edges, from a decoder at rest. -/
theorem decodeEdges_spec (hB : Built numNodes numObs ops g sg m) (hb : ∀ d ∈ g.negDets, TL.notBoundary bnd d = true) {F : Full} (hF : Idle F)
    {events : List Nat} (hv : Valid g events) :
    (∃ F' es, Completes (fun f => decodeEdges g sg bnd f F events) (.ok (F', es)) ∧ Idle F' ∧
      ∃ c : Correction ops, Optimal weight c (counted bnd events) ∧ (∀ i, IsLoop ops[i] → (i ∈ c ↔ (ops[i]).w < 0)) ∧ Lists es c) ∨
    (∃ F', Completes (fun f => decodeEdges g sg bnd f F events) (.throws F') ∧ Idle F' ∧ ∀ c : Correction ops, ¬ Explains c (counted bnd events)) := by
  have hg := proper_of_run hB.matching hB.edges.pairs hB.edges.even hB.edges.small
  have ht := twin_of_runs hB.matching hB.search
  have hlen : ¬ g.nodes.length ≠ sg.nodes.length := by
    rw [(C13_adjacency numNodes numObs ops g hB.matching).1, ht.len]; simp
  rcases matching_cases hB hb hF.ms hv with ⟨s', x, ⟨f0, hf0⟩, h1, h2⟩ | ⟨s', ⟨f0, hf0⟩, h1, h2⟩
  · left
    obtain ⟨N, ss', ps, I, k1, k2, k3, k4, k5, k6⟩ := collect hB.matching ht hg hB.edges.pairs h2 (started_range hB hv) F.ss hF.ss
    obtain ⟨out, l1, l2⟩ := toEdges_spec hB.matching ht hg hB.edges.pairs k3
    obtain ⟨o1, -, -⟩ := C14_negative_weights_optimal numNodes numObs ops g hB.matching (counted bnd events) (oddOf I) k4
    refine ⟨⟨s', ss', fun _ _ => false⟩, out, ⟨max f0 N, ?_⟩, ⟨h1, k1, rfl⟩, symmDiff (oddOf I) (negatives ops), o1, ?_, l2⟩
    · intro f hf
      have hf1 : f0 ≤ f := le_trans (le_max_left _ _) hf
      have hf2 : N ≤ f := le_trans (le_max_right _ _) hf
      simp only [decodeEdges, hlen, if_false, hf0 f hf1, k2 f hf2, hF.marks, l1]
    · intro i hi
      have hnot : i ∉ oddOf I := by
        classical
        intro hm
        rw [oddOf, Finset.mem_filter] at hm
        have : i ∈ I := by
          by_contra hn
          have h0 := hm.2
          rw [List.count_eq_zero_of_not_mem hn] at h0
          cases h0
        exact behind_noloop k3 i this hi
      rw [Finset.mem_symmDiff]
      simp [hnot, negatives]
  · right
    refine ⟨{ F with ms := s' }, ⟨f0, fun f hf => ?_⟩, ⟨h1, hF.ss, hF.marks⟩, h2⟩
    simp only [decodeEdges, hlen, if_false, hf0 f hf]

theorem used_idle (hB : Built numNodes numObs ops g sg m) (hb : ∀ d ∈ g.negDets, TL.notBoundary bnd d = true) {F : Full}
    (h : UsedFull g sg bnd m F) : Idle F := by
  have hg := proper_of_run hB.matching hB.edges.pairs hB.edges.even hB.edges.small
  have hno : g.numObs = numObs := (built_run (built_empty numNodes numObs) hB.matching).nobs
  induction h with
  | fresh => exact ⟨Clean.init, Verif.Props.Search.fresh_init, rfl⟩
  | decoded h hv hl hd ih =>
    rcases decodeObs_spec hB hb ih hv (hl.trans hno) _ with ⟨F1, b1, w1, e, k, -⟩ | ⟨F1, e, k, -⟩
    · have := completes_unique hd e; cases this; exact k
    · have := completes_unique hd e; cases this
  | failed h hv hl hd ih =>
    rcases decodeObs_spec hB hb ih hv (hl.trans hno) _ with ⟨F1, b1, w1, e, k, -⟩ | ⟨F1, e, k, -⟩
    · have := completes_unique hd e; cases this
    · have := completes_unique hd e; cases this; exact k
  | listed h hv hd ih =>
    rcases decodeEdges_spec hB hb ih hv with ⟨F1, es, e, k, -⟩ | ⟨F1, e, k, -⟩
    · have := completes_unique hd e; cases this; exact k
    · have := completes_unique hd e; cases this
  | unlisted h hv hd ih =>
    rcases decodeEdges_spec hB hb ih hv with ⟨F1, es, e, k, -⟩ | ⟨F1, e, k, -⟩
    · have := completes_unique hd e; cases this
    · have := completes_unique hd e; cases this; exact k
  | paired h hv hd ih =>
    obtain ⟨f0, hd⟩ := hd
    replace hd := hd f0 (le_refl _)
    simp only at hd
    rcases decodePairs_cases hg (no_negatives hB.matching) bnd ih.ms hv f0 with ⟨-, e⟩ | ⟨-, e | ⟨s', x, e, h1, -⟩ | ⟨s', e, h1, -⟩⟩
    · rw [e] at hd; cases hd
    · rw [e] at hd; cases hd
    · rw [e] at hd; cases hd; exact ⟨h1, ih.ss, ih.marks⟩
    · rw [e] at hd; cases hd
  | unpaired h hv hd ih =>
    obtain ⟨f0, hd⟩ := hd
    replace hd := hd f0 (le_refl _)
    simp only at hd
    rcases decodePairs_cases hg (no_negatives hB.matching) bnd ih.ms hv f0 with ⟨-, e⟩ | ⟨-, e | ⟨s', x, e, h1, -⟩ | ⟨s', e, h1, -⟩⟩
    · rw [e] at hd; cases hd; exact ih
    · rw [e] at hd; cases hd
    · rw [e] at hd; cases hd
    · rw [e] at hd; cases hd; exact ⟨h1, ih.ss, ih.marks⟩

/-- The weights of the listed edges add up to the weight of the correction without its self-loops. -/
theorem lists_weight (hB : Built numNodes numObs ops g sg m) {es : List (Nat × Option Nat)} {c : Correction ops} (hl : Lists es c)
    (hc : ∀ i ∈ c, ¬ IsLoop ops[i]) : (es.map (weightOf ops)).sum = weight c := by
  classical
  let W : Sym2 (Option Nat) → Int := fun z => ((ops.filter fun op => endsOf op = z).map EdgeIns.w).sum
  have hdiag : ∀ op : EdgeIns, IsLoop op ↔ (endsOf op).IsDiag := by
    intro op
    cases op <;> simp [IsLoop, endsOf]
  have hW : ∀ i ∈ c, W (endsOf ops[i]) = (ops[i]).w := by
    intro i hi
    have h1 : W (endsOf ops[i]) = ∑ j : Fin ops.length, if endsOf ops[j] = endsOf ops[i] then (ops[j]).w else 0 := by
      have := Fin.sum_univ_fun_getElem ops (fun o => if endsOf o = endsOf ops[i] then o.w else 0)
      refine Eq.trans ?_ this.symm
      show ((ops.filter fun op => endsOf op = endsOf ops[i]).map EdgeIns.w).sum = _
      generalize endsOf ops[i] = z
      exact sum_filter_map ops (fun o => endsOf o = z) EdgeIns.w
    rw [h1, Finset.sum_eq_single i]
    · rw [if_pos rfl]
    · intro j _ hj
      rw [if_neg]
      intro he
      refine hj (ends_inj hB.matching hB.edges.pairs j i ?_ (hc i hi) he)
      rw [hdiag, he, ← hdiag]
      exact hc i hi
    · simp
  have himg : (es.map symOf).toFinset = c.image fun i => endsOf ops[i] := by
    ext z
    rw [List.mem_toFinset, hl.2, Finset.mem_image]
    exact ⟨fun ⟨i, h1, _, h2⟩ => ⟨i, h1, h2⟩, fun ⟨i, h1, h2⟩ => ⟨i, h1, hc i h1, h2⟩⟩
  calc (es.map (weightOf ops)).sum = ((es.map symOf).map W).sum := by
        rw [List.map_map]
        congr 1
    _ = ∑ z ∈ (es.map symOf).toFinset, W z := (List.sum_toFinset W hl.1).symm
    _ = ∑ i ∈ c, W (endsOf ops[i]) := by
        rw [himg, Finset.sum_image]
        intro i hi j hj hij
        exact ends_inj hB.matching hB.edges.pairs i j (hc i hi) (hc j hj) hij
    _ = weight c := Finset.sum_congr rfl hW

/-- The same for any correction: its self-loops are not listed. -/
theorem lists_weight_loops (hB : Built numNodes numObs ops g sg m) {es : List (Nat × Option Nat)} {c : Correction ops} (hl : Lists es c)
    (hc : ∀ i, IsLoop ops[i] → (i ∈ c ↔ (ops[i]).w < 0)) : (es.map (weightOf ops)).sum + negativeLoops ops = weight c := by
  classical
  have h1 : (es.map (weightOf ops)).sum = weight (c.filter fun i => ¬ IsLoop ops[i]) := by
    refine lists_weight hB ⟨hl.1, fun z => ?_⟩ (fun i hi => (Finset.mem_filter.1 hi).2)
    rw [hl.2]
    constructor
    · rintro ⟨i, k1, k2, k3⟩; exact ⟨i, Finset.mem_filter.2 ⟨k1, k2⟩, k2, k3⟩
    · rintro ⟨i, k1, k2, k3⟩; exact ⟨i, (Finset.mem_filter.1 k1).1, k2, k3⟩
  have h2 : negativeLoops ops = weight (c.filter fun i => IsLoop ops[i]) := by
    unfold negativeLoops weight
    rw [sum_filter_map ops (fun op => op.w < 0 ∧ isLoop op) EdgeIns.w, ← Fin.sum_univ_fun_getElem ops (fun o => if o.w < 0 ∧ isLoop o = true then o.w else 0),
      Finset.sum_filter, ← Finset.sum_filter_add_sum_filter_not Finset.univ (fun i => i ∈ c)]
    rw [show (Finset.univ.filter fun i => i ∈ c) = c by ext; simp]
    have hz : ∑ i ∈ Finset.univ.filter (fun i => i ∉ c), (if (ops[i.1]).w < 0 ∧ isLoop ops[i.1] = true then (ops[i.1]).w else 0) = 0 := by
      refine Finset.sum_eq_zero fun i hi => if_neg ?_
      rintro ⟨h1, h2⟩
      exact (Finset.mem_filter.1 hi).2 ((hc i ((isLoop_iff _).1 h2)).2 h1)
    rw [hz, add_zero]
    refine Finset.sum_congr rfl fun i hi => ?_
    by_cases hlp : IsLoop ops[i]
    · rw [if_pos ⟨(hc i hlp).1 hi, (isLoop_iff _).2 hlp⟩, if_pos hlp]; rfl
    · rw [if_neg (fun h => hlp ((isLoop_iff _).1 h.2)), if_neg hlp]
  rw [h1, h2]
  unfold weight
  rw [add_comm]
  exact Finset.sum_filter_add_sum_filter_not c _ _

end

/-! Graphs for the examples. -/

/-- Two detectors, joined by an edge that crosses observable 70, and a boundary edge of weight -6 that crosses observable 2. -/
def wideOps : List EdgeIns := [.edge 0 1 4 [70], .bdry 1 (-6) [2]]

/-- A detector with a self-loop of weight -4 and a boundary edge of weight 2. -/
def loopOps : List EdgeIns := [.edge 0 0 (-4) [], .bdry 0 2 [0]]

theorem obsMask_some (n : Nat) (l : List Nat) (h : n ≤ 64 → ∀ o ∈ l, o < 64) : ∃ m, obsMask n l = some m := by
  unfold obsMask
  split
  · rename_i hn
    have key : ∀ (l : List Nat) (m : ObsInt), (∀ o ∈ l, o < 64) →
        ∃ m', l.foldl (fun m o => m.bind fun m => if o < 64 then some (m ^^^ (1#64 <<< o)) else none) (some m) = some m' := by
      intro l
      induction l with
      | nil => intro m _; exact ⟨m, rfl⟩
      | cons o l ih =>
        intro m ho
        obtain ⟨m', hm'⟩ := ih (m ^^^ (1#64 <<< o)) (fun x hx => ho x (by simp [hx]))
        refine ⟨m', ?_⟩
        rw [List.foldl_cons, Option.bind_some, if_pos (ho o (by simp))]
        exact hm'
    exact key l 0 (h hn)
  · exact ⟨0, rfl⟩

/-- Every graph that can be built has a search graph and a mask. -/
theorem built_exists {numNodes numObs : Nat} {ops : List EdgeIns} {g : MGraph} (h : run (MGraph.empty numNodes numObs) ops = some g) (he : Edges ops)
    (ho : ∀ op ∈ ops, ∀ o ∈ op.obs, o < numObs) : ∃ sg m, Built numNodes numObs ops g sg m := by
  obtain ⟨sg, hs⟩ := runS_exists h
  have hno : g.numObs = numObs := (built_run (built_empty numNodes numObs) h).nobs
  obtain ⟨m, hm⟩ := obsMask_some g.numObs (g.negObs.sort (· ≤ ·)) (by
    intro hle o hmem
    have := negObs_range h ho o ((Finset.mem_sort _).1 hmem)
    omega)
  exact ⟨sg, m, h, hs, fun _ => hm, he, ho⟩

/-! ## Theorems -/

/-- C46, C50 (decoding with any number of observables).  Build any graph from edges of any sign, use the decoder for any number of calls
of any kind, and decode any events into a buffer of zeros: the call ends, without undefined behaviour.  Either it returns predictions and
a weight, and these are the observables and the weight of an explanation of the syndrome that has minimum weight among all explanations
by inserted edges; or it raises an exception, and no explanation exists. -/
theorem C46_any_number_of_observables (numNodes numObs : Nat) (ops : List EdgeIns) (g : MGraph) (sg : SGraph) (m : ObsInt)
    (hB : Built numNodes numObs ops g sg m) (bnd : List Bool) (hb : ∀ d ∈ g.negDets, TL.notBoundary bnd d = true) (F : Full)
    (hF : UsedFull g sg bnd m F) (events : List Nat) (hv : Valid g events) :
    (∃ F' buf w, Completes (fun f => decodeObs g sg bnd m f F events (List.replicate numObs 0#8) 0) (.ok (F', buf, w)) ∧
      ∃ c : Correction ops, Optimal weight c (counted bnd events) ∧ weight c = w ∧ buf.length = numObs ∧
        ∀ k, k < numObs → buf[k]? = some (if crossed c k % 2 = 1 then 1#8 else 0#8)) ∨
    (∃ F', Completes (fun f => decodeObs g sg bnd m f F events (List.replicate numObs 0#8) 0) (.throws F') ∧
      ∀ c : Correction ops, ¬ Explains c (counted bnd events)) := by
  rcases decodeObs_spec hB hb (used_idle hB hb hF) hv (buf := List.replicate numObs 0#8) (by simp) 0 with
    ⟨F', buf, w, h1, -, h3, c, h4, h5, h6⟩ | ⟨F', h1, -, h3⟩
  · left
    refine ⟨F', buf, w, h1, c, h4, by rw [h5]; split <;> simp, h3, fun k hk => ?_⟩
    rw [h6 k]
    simp [hk, parity]
  · exact .inr ⟨F', h1, h3⟩

/-- Predictions and weight of a call, without the state. -/
def viewObs (r : Option (Ended (Full × List (BitVec 8) × Int))) : Option (Option (List Nat × Int)) :=
  match r with
  | some (.ok (_, b, w)) => some (some (b.map BitVec.toNat, w))
  | some (.throws _) => some none
  | _ => none

/-- The edges of a call, without the state. -/
def viewEdges (r : Option (Ended (Full × List (Nat × Option Nat)))) : Option (Option (List (Nat × Option Nat))) :=
  match r with
  | some (.ok (_, es)) => some (some es)
  | some (.throws _) => some none
  | _ => none

/-- The decoding graph of `wideOps`. -/
def wideGraph : MGraph := ⟨[[⟨some 1, 4, 0⟩], [⟨none, 6, 0⟩, ⟨some 0, 4, 0⟩]], 71, {1}, {2}, -6⟩

/-- The search graph of `wideOps`. -/
def wideSearch : SGraph := ⟨[[⟨some 1, 4, [70], false⟩], [⟨none, 6, [2], true⟩, ⟨some 0, 4, [70], false⟩]], [(1, none)]⟩

theorem wide_run : run (MGraph.empty 2 71) wideOps = some wideGraph := by
  have : ∃ g, run (MGraph.empty 2 71) wideOps = some g ∧ g.nodes = wideGraph.nodes ∧ g.numObs = 71 ∧ g.negDets = {1} ∧ g.negObs = {2} ∧ g.negSum = -6 :=
    ⟨_, rfl, by decide, by decide, by decide, by decide, by decide⟩
  obtain ⟨⟨_, _, _, _, _⟩, h, h1, h2, h3, h4, h5⟩ := this
  cases h1; cases h2; cases h3; cases h4; cases h5
  exact h

theorem wide_built : Built 2 71 wideOps wideGraph wideSearch 0 :=
  ⟨wide_run, rfl, by decide, ⟨by decide, by decide, by decide⟩, by decide⟩

theorem wide_neg : negEvents wideGraph = [1] := (List.toFinset_sort (l := [1]) (· ≤ ·) (by decide)).2 (by decide)

theorem wide_negObs : negObservables wideGraph = [2] := (List.toFinset_sort (l := [2]) (· ≤ ·) (by decide)).2 (by decide)

/-- The hypotheses hold for the graph above, with 71 observables; the event of detector 0 is explained with both edges. -/
example : Built 2 71 wideOps wideGraph wideSearch 0 ∧ (∀ d ∈ wideGraph.negDets, TL.notBoundary [] d = true) ∧ UsedFull wideGraph wideSearch [] 0 Full.init ∧
    Valid wideGraph [0] ∧
    viewObs (decodeObs wideGraph wideSearch [] 0 20 Full.init [0] (List.replicate 71 0#8) 0) =
      some (some (((List.replicate 71 0).set 2 1).set 70 1, -2)) :=
  ⟨wide_built, by decide, .fresh, ⟨by decide, by decide⟩, by simp only [decodeObs, wide_neg, wide_negObs]; decide +kernel⟩

/-- C24, C25, C46 (decoding to edges).  Build any graph from edges of any sign, use the decoder for any number of calls of any kind, and
decode any events to edges: the call ends, without undefined behaviour.  Either it returns a list of edges, and the list has exactly the
edges of an explanation of minimum weight, each once (self-loops, which change neither syndrome nor list, left out); or it raises an
exception, and no explanation exists.  In both cases no edge remains marked. -/
theorem C24_decode_to_edges (numNodes numObs : Nat) (ops : List EdgeIns) (g : MGraph) (sg : SGraph) (m : ObsInt)
    (hB : Built numNodes numObs ops g sg m) (bnd : List Bool) (hb : ∀ d ∈ g.negDets, TL.notBoundary bnd d = true) (F : Full)
    (hF : UsedFull g sg bnd m F) (events : List Nat) (hv : Valid g events) :
    (∃ F' es, Completes (fun f => decodeEdges g sg bnd f F events) (.ok (F', es)) ∧ (F'.marks = fun _ _ => false) ∧
      ∃ c : Correction ops, Optimal weight c (counted bnd events) ∧ Lists es c) ∨
    (∃ F', Completes (fun f => decodeEdges g sg bnd f F events) (.throws F') ∧ (F'.marks = fun _ _ => false) ∧
      ∀ c : Correction ops, ¬ Explains c (counted bnd events)) := by
  rcases decodeEdges_spec hB hb (used_idle hB hb hF) hv with ⟨F', es, h1, h2, c, h3, -, h5⟩ | ⟨F', h1, h2, h3⟩
  · exact .inl ⟨F', es, h1, h2.marks, c, h3, h5⟩
  · exact .inr ⟨F', h1, h2.marks, h3⟩

/-- The hypotheses hold for the graph above. -/
example : Built 2 71 wideOps wideGraph wideSearch 0 ∧ UsedFull wideGraph wideSearch [] 0 Full.init ∧ Valid wideGraph [0] ∧
    viewEdges (decodeEdges wideGraph wideSearch [] 20 Full.init [0]) = some (some [(1, none), (0, some 1)]) :=
  ⟨wide_built, .fresh, ⟨by decide, by decide⟩, by simp only [decodeEdges, wide_neg]; decide +kernel⟩

/-- C41, as stated: the weight that decoding returns is the sum of the weights of the edges that decoding to edges returns. -/
def C41_statement : Prop := ∀ (numNodes numObs : Nat) (ops : List EdgeIns) (g : MGraph) (sg : SGraph) (m : ObsInt),
  Built numNodes numObs ops g sg m → ∀ bnd : List Bool, (∀ d ∈ g.negDets, TL.notBoundary bnd d = true) → ∀ F G : Full,
  UsedFull g sg bnd m F → UsedFull g sg bnd m G → ∀ events : List Nat, Valid g events → ∀ (F' G' : Full) (buf : List (BitVec 8)) (w : Int)
    (es : List (Nat × Option Nat)), Completes (fun f => decodeObs g sg bnd m f F events (List.replicate numObs 0#8) 0) (.ok (F', buf, w)) →
    Completes (fun f => decodeEdges g sg bnd f G events) (.ok (G', es)) → w = (es.map (weightOf ops)).sum

/-- C41, what holds for every graph: both calls return or both raise, and the weight is the sum of the weights of the returned edges plus
the sum of the weights of all self-loops of negative weight. -/
theorem C41_weight_of_edges (numNodes numObs : Nat) (ops : List EdgeIns) (g : MGraph) (sg : SGraph) (m : ObsInt)
    (hB : Built numNodes numObs ops g sg m) (bnd : List Bool) (hb : ∀ d ∈ g.negDets, TL.notBoundary bnd d = true) (F G : Full)
    (hF : UsedFull g sg bnd m F) (hG : UsedFull g sg bnd m G) (events : List Nat) (hv : Valid g events) :
    (∃ F' G' buf es, Completes (fun f => decodeObs g sg bnd m f F events (List.replicate numObs 0#8) 0)
        (.ok (F', buf, (es.map (weightOf ops)).sum + negativeLoops ops)) ∧
      Completes (fun f => decodeEdges g sg bnd f G events) (.ok (G', es))) ∨
    (∃ F' G', Completes (fun f => decodeObs g sg bnd m f F events (List.replicate numObs 0#8) 0) (.throws F') ∧
      Completes (fun f => decodeEdges g sg bnd f G events) (.throws G')) := by
  rcases decodeObs_spec hB hb (used_idle hB hb hF) hv (buf := List.replicate numObs 0#8) (by simp) 0 with
    ⟨F', buf, w, h1, -, h3, c, h4, h5, h6⟩ | ⟨F', h1, -, h3⟩
  · rcases decodeEdges_spec hB hb (used_idle hB hb hG) hv with ⟨G', es, k1, k2, c', k3, k4, k5⟩ | ⟨G', k1, k2, k3⟩
    · left
      have hw : w = (es.map (weightOf ops)).sum + negativeLoops ops := by
        rw [lists_weight_loops hB k5 k4]
        have a1 := h4.2 c' k3.1
        have a2 := k3.2 c h4.1
        have : w = weight c := by rw [h5]; split <;> simp
        omega
      exact ⟨F', G', buf, es, hw ▸ h1, k1⟩
    · exact absurd h4.1 (k3 c)
  · rcases decodeEdges_spec hB hb (used_idle hB hb hG) hv with ⟨G', es, k1, k2, c', k3, k4, k5⟩ | ⟨G', k1, k2, k3⟩
    · exact absurd k3.1 (h3 c')
    · exact .inr ⟨F', G', h1, k1⟩

/-- C41, without self-loops of negative weight. -/
theorem C41_weight_of_edges_partial (numNodes numObs : Nat) (ops : List EdgeIns) (g : MGraph) (sg : SGraph) (m : ObsInt)
    (hB : Built numNodes numObs ops g sg m) (hl : ∀ u w o, .edge u u w o ∈ ops → 0 ≤ w) (bnd : List Bool)
    (hb : ∀ d ∈ g.negDets, TL.notBoundary bnd d = true) (F G : Full) (hF : UsedFull g sg bnd m F) (hG : UsedFull g sg bnd m G) (events : List Nat)
    (hv : Valid g events) (F' G' : Full) (buf : List (BitVec 8)) (w : Int) (es : List (Nat × Option Nat))
    (h1 : Completes (fun f => decodeObs g sg bnd m f F events (List.replicate numObs 0#8) 0) (.ok (F', buf, w)))
    (h2 : Completes (fun f => decodeEdges g sg bnd f G events) (.ok (G', es))) : w = (es.map (weightOf ops)).sum := by
  have h0 : negativeLoops ops = 0 := by
    unfold negativeLoops
    rw [List.filter_eq_nil_iff.2]
    · rfl
    · intro op hop
      cases op with
      | bdry u w o => simp [isLoop]
      | edge u v w o =>
        by_cases huv : u = v
        · subst huv
          have := hl u w o hop
          intro hw
          have hw := (of_decide_eq_true hw).1
          simp only [EdgeIns.w] at hw
          omega
        · simp [isLoop, huv]
  rcases C41_weight_of_edges numNodes numObs ops g sg m hB bnd hb F G hF hG events hv with ⟨F1, G1, b1, es1, k1, k2⟩ | ⟨F1, G1, k1, k2⟩
  · have e1 := completes_unique h1 k1
    have e2 := completes_unique h2 k2
    cases e1
    cases e2
    rw [h0, add_zero]
  · have e1 := completes_unique h1 k1
    cases e1

/-- Weight and edges in the graph above: -2 = -6 + 4. -/
example : [(1, none), (0, some 1)].map (weightOf wideOps) = [-6, 4] ∧ negativeLoops wideOps = 0 ∧ negativeLoops loopOps = -4 := by decide

/-- C41 is false: with a self-loop of weight -4 and a boundary edge of weight 2, the event at the detector is explained with weight -2, but
only the boundary edge is returned. -/
theorem C41_statement_false : ¬ C41_statement := by
  intro h
  have hrun : ∃ g, run (MGraph.empty 1 1) loopOps = some g ∧ g.nodes.length = 1 ∧ g.negDets = ∅ := ⟨_, rfl, by decide, by decide⟩
  obtain ⟨g, hg, hlen, hneg⟩ := hrun
  obtain ⟨sg, m, hB⟩ := built_exists hg ⟨by decide, by decide, by decide⟩ (by decide)
  have hv : Valid g [0] := ⟨by simp, by simp [hlen]⟩
  have hb : ∀ d ∈ g.negDets, TL.notBoundary [] d = true := by rw [hneg]; simp
  rcases C41_weight_of_edges 1 1 loopOps g sg m hB [] hb _ _ .fresh .fresh [0] hv with ⟨F', G', buf, es, k1, k2⟩ | ⟨F', G', k1, k2⟩
  · have := h 1 1 loopOps g sg m hB [] hb _ _ .fresh .fresh [0] hv F' G' buf _ es k1 k2
    have hl : negativeLoops loopOps = -4 := by decide
    omega
  · rcases C46_any_number_of_observables 1 1 loopOps g sg m hB [] hb _ .fresh [0] hv with ⟨F1, b1, w1, e, -⟩ | ⟨F1, e, e2⟩
    · have := completes_unique k1 e
      cases this
    · refine e2 {(⟨1, by decide⟩ : Fin loopOps.length)} fun x => ?_
      rw [show counted [] [0] = {0} by decide]
      rw [degree, Finset.sum_singleton, show loopOps[(⟨1, by decide⟩ : Fin loopOps.length)] = .bdry 0 2 [0] from rfl]
      simp only [EdgeIns.incidence, Finset.mem_singleton]
      rcases eq_or_ne x 0 with rfl | hx
      · simp
      · simp [hx, hx.symm]

end Verif.Props.Edges
