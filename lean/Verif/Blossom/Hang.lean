import Verif.Blossom.Decode

/-!
# A chain on which the 32-bit wrapped radius makes decoding hang

A chain of 66 detectors with edges of maximal weight, one detection event at its start, and a boundary edge at its end.  The last detector is reached at
radius `65 * (2^25 - 2)`, which is more than `2^31`; from then on its event is rescheduled for ever.
-/

namespace Verif.SB.Hang

open Verif Verif.Graph Verif.CE Verif.Vary Verif.Track Verif.Spec Verif.Mem Verif.Cyc Verif.RadixHeap
open Verif.Sch (Res better)

/-! ## The queue -/

/-- An event that is due first rings. -/
theorem ring {w : World Owner} {t : Int} {o : Owner} {rest : Multiset (Event Owner)} (hi : Inv w.q)
    (hc : content w.q.buckets = ⟨ofTime t, o⟩ ::ₘ rest) (h1 : w.q.cur ≤ t) (h2 : t < w.q.cur + 2147483648) (hf : ∀ e ∈ rest, t < fullTime w.q.cur e)
    (htr : w.tr o = ⟨ofTime t, ofTime t, true, true⟩) :
    ∃ q', w.step .deliver = some (.ring o t, ⟨Function.update w.tr o ⟨ofTime t, ofTime t, false, false⟩, q'⟩) ∧ Inv q' ∧ q'.cur = t ∧
      content q'.buckets = rest := by
  obtain ⟨e, q', k1, k2, k3, k4, k5, -⟩ := dequeue_spec hi (by rw [hc]; exact Multiset.cons_ne_zero)
  have ht : fullTime w.q.cur (⟨ofTime t, o⟩ : Event Owner) = t := fullTime_ofTime _ _ _ h1 (by omega)
  have he : e = ⟨ofTime t, o⟩ := by
    have hm : e ∈ content w.q.buckets := by rw [k3]; exact Multiset.mem_cons_self _ _
    rw [hc, Multiset.mem_cons] at hm
    rcases hm with hm | hm
    · exact hm
    · have h3 := k5 ⟨ofTime t, o⟩ (by rw [hc]; exact Multiset.mem_cons_self _ _)
      have := hf e hm
      omega
  subst he
  have hr : content q'.buckets = rest := by
    rw [hc] at k3
    exact ((Multiset.cons_inj_right _).1 k3).symm
  rw [ht] at k4
  refine ⟨q', ?_, k2, k4, hr⟩
  simp [World.step, k1, dequeueDecision, htr, k4]

/-- A wish of an owner without queued event is queued. -/
theorem wish {w : World Owner} {t t' : Int} {o : Owner} (hi : Inv w.q) (htr : (w.tr o).hasQueued = false) (he : ofTime t' = ofTime t) (h1 : w.q.cur ≤ t)
    (h2 : t < w.q.cur + 2147483648) :
    (wishO w o t').tr = Function.update w.tr o ⟨ofTime t, ofTime t, true, true⟩ ∧ Inv (wishO w o t').q ∧ (wishO w o t').q.cur = w.q.cur ∧
      content (wishO w o t').q.buckets = ⟨ofTime t, o⟩ ::ₘ content w.q.buckets := by
  have e : wishO w o t' = ⟨Function.update w.tr o ⟨ofTime t, ofTime t, true, true⟩, w.q.enqueue ⟨ofTime t, o⟩⟩ := by
    simp [wishO, World.step, setDesired, htr, he]
  have k := inv_enqueue hi ⟨ofTime t, o⟩ (by rw [fullTime_ofTime _ _ _ h1 (by omega)]; exact h2)
  rw [e]
  exact ⟨rfl, k.1, rfl, k.2⟩

/-! ## The chain -/

/-- The neighbours of detector `k`. -/
def row (k : Nat) : List Nbr :=
  if k = 0 then [⟨some 1, 33554430, 0⟩]
  else if k = 65 then [⟨none, 33554430, 1⟩, ⟨some 64, 33554430, 0⟩]
  else [⟨some (k - 1), 33554430, 0⟩, ⟨some (k + 1), 33554430, 0⟩]

/-- The wrapped radius stored at detector `i`. -/
def stored (i : Nat) : Int := (-(33554430 * (i : Int))).bmod (2 ^ 32)

theorem stored_small {i : Nat} (h : i ≤ 64) : stored i = -(33554430 * (i : Int)) := by
  unfold stored
  rw [Int.bmod_eq_of_le] <;> omega

theorem keep_stored (k : Nat) : int32.keep (0 - 33554430 * ((k : Int) + 1)) = stored (k + 1) := by
  rw [zero_sub, stored]
  simp only [Nat.cast_add, Nat.cast_one]
  rfl

theorem stored_last : stored 65 = 4294967296 - 33554430 * 65 := by decide +kernel

/-- The region has reached the detectors `0 … k`; the next event is at detector `k`. -/
structure At (k : Nat) (s : MS) : Prop where
  cur : s.fl.w.q.cur = 33554430 * (k : Int)
  inv : Inv s.fl.w.q
  content : content s.fl.w.q.buckets = {⟨ofTime (33554430 * ((k : Int) + 1)), .inl k⟩}
  tr : s.fl.w.tr (.inl k) = ⟨ofTime (33554430 * ((k : Int) + 1)), ofTime (33554430 * ((k : Int) + 1)), true, true⟩
  fresh : ∀ i, k < i → s.fl.w.tr (.inl i) = {}
  node : ∀ i, i ≤ k → (s.fl.node i).arr = some 0 ∧ (s.fl.node i).top = some 0 ∧ (s.fl.node i).src = some 0 ∧ (s.fl.node i).wrapped = stored i
  blank : ∀ i, k < i → s.fl.node i = .blank
  radius : (s.fl.reg 0).radius = ⟨1⟩
  top : (s.fl.reg 0).top = 0

variable {g : MGraph}

/-- The next event at a detector whose right neighbour is empty. -/
theorem findNext_front (hg : ∀ k ≤ 65, adj g k = row k) {k : Nat} (hk : k < 65) {s : FS}
    (hn : ∀ i, i ≤ k → (s.node i).top = some 0 ∧ (s.node i).wrapped = stored i) (hb : (s.node (k + 1)).top = none) (hr : (s.reg 0).radius = ⟨1⟩) :
    ∃ i, findNext g s k = .ok (some (i, 33554430 * ((k : Int) + 1))) ∧ (adj g k)[i]? = some ⟨some (k + 1), 33554430, 0⟩ := by
  have hl : localRadius s k = ⟨1 + -(33554430 * (k : Int)) * 4⟩ := by
    simp only [localRadius, (hn k (le_refl _)).1, (hn k (le_refl _)).2, hr, Varying.addOffset, stored_small (by omega : k ≤ 64)]
  have hl2 : localRadius s (k + 1) = ⟨0⟩ := by simp only [localRadius, hb]
  have hgr : (localRadius s k).isGrowing = true := by
    rw [hl]; simp only [Varying.isGrowing, Varying.bit0, beq_iff_eq]; omega
  have hy : (localRadius s k).yIntercept = -(33554430 * (k : Int)) := by
    rw [hl]; simp only [Varying.yIntercept]; omega
  by_cases h0 : k = 0
  · subst h0
    refine ⟨0, ?_, by rw [hg 0 (by omega)]; rfl⟩
    rw [findNext, if_pos hgr, hg 0 (by omega)]
    simp [row, scanGrowing, (hn 0 (le_refl _)).1, hb, hl2, hl, Varying.isShrinking, Varying.isGrowing, Varying.bit0, Varying.bit1, better, Varying.yIntercept]
  · refine ⟨1, ?_, by rw [hg k (by omega), row, if_neg h0, if_neg (by omega)]; rfl⟩
    rw [findNext, if_pos hgr, hg k (by omega), row, if_neg h0, if_neg (by omega)]
    simp [scanGrowing, (hn k (le_refl _)).1, (hn (k - 1) (by omega)).1, hb, hl2, hl, Varying.isShrinking, Varying.isGrowing, Varying.bit0, Varying.bit1, better,
      Varying.yIntercept]
    omega

/-- No event at a detector whose neighbours belong to the same region. -/
theorem findNext_inside (hg : ∀ k ≤ 65, adj g k = row k) {k : Nat} (hk : k < 65) {s : FS}
    (hn : ∀ i, i ≤ k + 1 → (s.node i).top = some 0 ∧ (s.node i).wrapped = stored i) (hr : (s.reg 0).radius = ⟨1⟩) : findNext g s k = .ok none := by
  have hl : localRadius s k = ⟨1 + -(33554430 * (k : Int)) * 4⟩ := by
    simp only [localRadius, (hn k (by omega)).1, (hn k (by omega)).2, hr, Varying.addOffset, stored_small (by omega : k ≤ 64)]
  have hgr : (localRadius s k).isGrowing = true := by
    rw [hl]; simp only [Varying.isGrowing, Varying.bit0, beq_iff_eq]; omega
  by_cases h0 : k = 0
  · subst h0
    rw [findNext, if_pos hgr, hg 0 (by omega)]
    simp [row, scanGrowing, (hn 0 (by omega)).1, (hn 1 (by omega)).1]
  · rw [findNext, if_pos hgr, hg k (by omega), row, if_neg h0, if_neg (by omega)]
    simp [scanGrowing, (hn k (by omega)).1, (hn (k - 1) (by omega)).1, (hn (k + 1) (by omega)).1]

/-- The next event at the last detector. -/
theorem findNext_last (hg : ∀ k ≤ 65, adj g k = row k) {s : FS}
    (hn : ∀ i, i ≤ 65 → (s.node i).top = some 0 ∧ (s.node i).wrapped = stored i) (hr : (s.reg 0).radius = ⟨1⟩) :
    findNext g s 65 = .ok (some (0, 33554430 * 66 - 4294967296)) := by
  have hl : localRadius s 65 = ⟨1 + (4294967296 - 33554430 * 65) * 4⟩ := by
    simp only [localRadius, (hn 65 (le_refl _)).1, (hn 65 (le_refl _)).2, hr, Varying.addOffset, stored_last]
  have hgr : (localRadius s 65).isGrowing = true := by
    rw [hl]; decide +kernel
  have hy : (localRadius s 65).yIntercept = 4294967296 - 33554430 * 65 := by
    rw [hl]; decide +kernel
  rw [findNext, if_pos hgr, hg 65 (le_refl _), row, if_neg (by omega), if_pos rfl]
  simp [scanGrowing, (hn 65 (le_refl _)).1, (hn 64 (by omega)).1, hy, better]

/-! ## The steps -/

/-- A round in which a detector rings. -/
theorem round_ring {s : MS} {u : Nat} {t : Int} {w : World Owner} (h : s.fl.w.step .deliver = some (.ring (.inl u) t, w)) {fl : FS}
    (hl : lookAt (W := int32) g { s.fl with w := w } u = .ok (fl, .none)) : round (W := int32) g s = .ok (some { s with fl := fl }) := by
  simp only [round, h, hl, Res.bind, processEvent]

theorem step (hg : ∀ k ≤ 65, adj g k = row k) {k : Nat} (hk : k < 65) {s : MS} (h : At k s) :
    ∃ s1 s2, round (W := int32) g s = .ok (some s1) ∧ round (W := int32) g s1 = .ok (some s2) ∧ At (k + 1) s2 := by
  set t : Int := 33554430 * ((k : Int) + 1) with ht
  obtain ⟨q1, r1, r2, r3, r4⟩ := ring (rest := 0) h.inv h.content (by rw [h.cur]; omega) (by rw [h.cur]; omega) (by simp) h.tr
  -- detector `k` looks
  set w1 : World Owner := ⟨Function.update s.fl.w.tr (.inl k) ⟨ofTime t, ofTime t, false, false⟩, q1⟩ with hw1
  have htr1 : (w1.tr (.inl k)).hasQueued = false := by simp [hw1]
  obtain ⟨a1, a2, a3, a4⟩ := wish (w := w1) (t := t) (t' := t) r2 htr1 rfl (by rw [hw1]; simp only; omega) (by rw [hw1]; simp only; omega)
  set w2 := wishO w1 (.inl k) t with hw2
  have hnode : ∀ i, i ≤ k → (s.fl.node i).top = some 0 ∧ (s.fl.node i).wrapped = stored i := fun i hi => ⟨(h.node i hi).2.1, (h.node i hi).2.2.2⟩
  obtain ⟨i, hf, hi⟩ := findNext_front hg hk (s := { s.fl with w := w1 }) hnode (by show (s.fl.node (k + 1)).top = none; rw [h.blank _ (by omega)]; rfl)
    h.radius
  -- the state after the arrival at `k + 1`
  set N : Nat → DNode := Function.update s.fl.node (k + 1)
    ⟨some 0, some 0, stored (k + 1), some 0, (s.fl.node k).obs ^^^ 0, t⟩ with hN
  set R : Nat → Region := Function.update s.fl.reg 0
    ⟨(s.fl.reg 0).parent, 0, (s.fl.reg 0).radius, (s.fl.reg 0).children, (s.fl.reg 0).shell ++ [k + 1]⟩ with hR
  have hNn : ∀ j, j ≤ k + 1 → (N j).top = some 0 ∧ (N j).wrapped = stored j := by
    intro j hj
    by_cases e : j = k + 1
    · subst e; simp [hN]
    · rw [hN, Function.update_of_ne e]; exact hnode j (by omega)
  have hRr : (R 0).radius = ⟨1⟩ := by simp [hR, h.radius]
  -- the event of detector `k + 1`
  obtain ⟨t', hf', he'⟩ : ∃ t', findNext g (⟨N, R, s.fl.regs, w2⟩ : FS) (k + 1) = .ok (some t') ∧ ofTime t'.2 = ofTime (33554430 * ((k : Int) + 1 + 1)) := by
    by_cases hl : k + 1 = 65
    · have := findNext_last hg (s := (⟨N, R, s.fl.regs, w2⟩ : FS)) (fun i hi => hNn i (by omega)) hRr
      refine ⟨_, by rw [hl]; exact this, ?_⟩
      rw [ofTime_eq_iff]
      have : k = 64 := by omega
      subst this
      decide +kernel
    · obtain ⟨i, hf, -⟩ := findNext_front hg (k := k + 1) (by omega) (s := (⟨N, R, s.fl.regs, w2⟩ : FS)) hNn
        (by show (N (k + 1 + 1)).top = none; rw [hN, Function.update_of_ne (by omega), h.blank _ (by omega)]; rfl) hRr
      exact ⟨_, hf, by simp only [Nat.cast_add, Nat.cast_one]⟩
  have htr2 : (w2.tr (.inl (k + 1))).hasQueued = false := by
    rw [a1, Function.update_of_ne (by simp), hw1]
    simp only
    rw [Function.update_of_ne (by simp), h.fresh _ (by omega)]
  have hq2 : w2.q.cur = t := by rw [a3, hw1]; exact r3
  obtain ⟨b1, b2, b3, b4⟩ := wish (w := w2) (t := 33554430 * ((k : Int) + 1 + 1)) (t' := t'.2) a2 htr2 he' (by rw [hq2]; omega) (by rw [hq2]; omega)
  set w3 := wishO w2 (.inl (k + 1)) t'.2 with hw3
  have hl1 : lookAt (W := int32) g { s.fl with w := w1 } k = .ok (⟨N, R, s.fl.regs, w3⟩, .none) := by
    have hnow : ({ s.fl with w := w1 } : FS).now = t := r3
    have hi' : interact (W := int32) g (⟨s.fl.node, s.fl.reg, s.fl.regs, w2⟩ : FS) k i (k + 1) = .ok (⟨N, R, s.fl.regs, w3⟩, .none) := by
      have ha : arrive (W := int32) g (⟨s.fl.node, s.fl.reg, s.fl.regs, w2⟩ : FS) 0 (k + 1) k i = .ok ⟨N, R, s.fl.regs, w3⟩ := by
        have hd : (s.fl.reg 0).radius.distanceAt t = t := by
          rw [h.radius]; simp [Varying.distanceAt, Varying.bit0, Varying.yIntercept]
        have hcw : ∀ fl : FS, (fl.node (k + 1)).src = some 0 → (fl.node (k + 1)).arr = some 0 → (fl.node (k + 1)).top = some 0 →
            (fl.node (k + 1)).rho = t → computeWrapped (W := int32) fl (k + 1) = .ok (stored (k + 1)) := by
          intro fl f1 f2 f3 f4
          simp only [computeWrapped, f1, f2, deref, Res.bind, sumBelow, f3, if_true, f4, ht]
          rw [keep_stored]
        simp only [arrive, hi, deref, Res.bind, FS.now, hq2, hd]
        rw [hcw _ (by simp [FS.setNode, (h.node k (le_refl _)).2.2.1]) (by simp [FS.setNode]) (by simp [FS.setNode, h.top]) (by simp [FS.setNode])]
        simp only [FS.setNode, FS.setReg, Function.update_self, Function.update_idem, h.top, (h.node k (le_refl _)).2.2.1]
        show reschedule g (⟨N, R, s.fl.regs, w2⟩ : FS) (k + 1) = _
        simp only [reschedule, hf', Res.bind]
        rfl
      simp only [interact, (h.node k (le_refl _)).1, h.blank (k + 1) (by omega), DNode.blank, (h.node k (le_refl _)).2.1, deref, Res.bind, ha]
    rw [← ht] at hf
    simp only [lookAt, hf, Res.bind, hnow, if_true, hi, deref]
    exact hi'
  have e1 := round_ring r1 hl1
  -- detector `k` looks again
  have hc3 : content w3.q.buckets = ⟨ofTime t, .inl k⟩ ::ₘ {⟨ofTime (33554430 * ((k : Int) + 1 + 1)), .inl (k + 1)⟩} := by
    rw [b4, a4, hw1]
    simp only
    rw [r4, Multiset.cons_swap]
    rfl
  have htr3 : w3.tr (.inl k) = ⟨ofTime t, ofTime t, true, true⟩ := by
    rw [b1, Function.update_of_ne (by simp), a1, Function.update_self]
  have hq3 : w3.q.cur = t := by rw [b3, hq2]
  obtain ⟨q4, c1, c2, c3, c4⟩ := ring (w := w3) b2 hc3 (by rw [hq3]) (by rw [hq3]; omega)
    (by
      intro e he
      rw [Multiset.mem_singleton] at he
      rw [he, hq3, fullTime_ofTime _ _ _ (by omega) (by omega)]
      omega) htr3
  have hl2 : lookAt (W := int32) g (⟨N, R, s.fl.regs, ⟨Function.update w3.tr (.inl k) ⟨ofTime t, ofTime t, false, false⟩, q4⟩⟩ : FS) k =
      .ok (⟨N, R, s.fl.regs, ⟨Function.update w3.tr (.inl k) ⟨ofTime t, ofTime t, false, false⟩, q4⟩⟩, .none) := by
    have := findNext_inside hg hk (s := (⟨N, R, s.fl.regs, ⟨Function.update w3.tr (.inl k) ⟨ofTime t, ofTime t, false, false⟩, q4⟩⟩ : FS)) hNn hRr
    simp only [lookAt, this, Res.bind]
  have e2 := round_ring (g := g) (s := { s with fl := ⟨N, R, s.fl.regs, w3⟩ }) c1 hl2
  refine ⟨_, _, e1, e2, ?_, c2, ?_, ?_, ?_, ?_, ?_, hRr, ?_⟩
  · rw [c3, ht]; simp only [Nat.cast_add, Nat.cast_one]
  · simp only; rw [c4]; simp only [Nat.cast_add, Nat.cast_one]
  · simp only
    rw [Function.update_of_ne (by simp), b1, Function.update_self]; simp only [Nat.cast_add, Nat.cast_one]
  · intro j hj
    simp only
    rw [Function.update_of_ne (by simp; omega), b1, Function.update_of_ne (by simp; omega), a1, Function.update_of_ne (by simp; omega), hw1]
    simp only
    rw [Function.update_of_ne (by simp; omega)]
    exact h.fresh j (by omega)
  · intro j hj
    simp only
    by_cases e : j = k + 1
    · subst e; simp [hN]
    · rw [hN, Function.update_of_ne e]; exact h.node j (by omega)
  · intro j hj
    simp only
    rw [hN, Function.update_of_ne (by omega)]
    exact h.blank j (by omega)
  · simp [hR]

/-- The event of the last detector is due, and its time as computed differs from the clock by `2^32`. -/
structure Stuck (g : MGraph) (s : MS) : Prop where
  cur : s.fl.w.q.cur ≤ 33554430 * 66 ∧ 33554430 * 66 < s.fl.w.q.cur + 2147483648
  inv : Inv s.fl.w.q
  content : content s.fl.w.q.buckets = {⟨ofTime (33554430 * 66), .inl 65⟩}
  tr : s.fl.w.tr (.inl 65) = ⟨ofTime (33554430 * 66), ofTime (33554430 * 66), true, true⟩
  next : ∀ w, findNext g { s.fl with w := w } 65 = .ok (some (0, 33554430 * 66 - 4294967296))

theorem stuck_of_at (hg : ∀ k ≤ 65, adj g k = row k) {s : MS} (h : At 65 s) : Stuck g s :=
  ⟨by rw [h.cur]; omega, h.inv, h.content, h.tr, fun w => findNext_last hg (s := { s.fl with w := w })
    (fun i hi => ⟨(h.node i hi).2.1, (h.node i hi).2.2.2⟩) h.radius⟩

theorem stuck_round {s : MS} (h : Stuck g s) : ∃ s', round (W := int32) g s = .ok (some s') ∧ Stuck g s' := by
  obtain ⟨q1, r1, r2, r3, r4⟩ := ring (rest := 0) h.inv h.content h.cur.1 h.cur.2 (by simp) h.tr
  set w1 : World Owner := ⟨Function.update s.fl.w.tr (.inl 65) ⟨ofTime (33554430 * 66), ofTime (33554430 * 66), false, false⟩, q1⟩ with hw1
  have htr1 : (w1.tr (.inl 65)).hasQueued = false := by simp [hw1]
  have hc : w1.q.cur = 33554430 * 66 := r3
  obtain ⟨a1, a2, a3, a4⟩ := wish (w := w1) (t := 33554430 * 66) (t' := 33554430 * 66 - 4294967296) r2 htr1 (by rw [ofTime_eq_iff]; decide)
    (by rw [hc]) (by rw [hc]; omega)
  have hl : lookAt (W := int32) g { s.fl with w := w1 } 65 = .ok ({ s.fl with w := wishO w1 (.inl 65) (33554430 * 66 - 4294967296) }, .none) := by
    have hnow : ({ s.fl with w := w1 } : FS).now = 33554430 * 66 := r3
    simp only [lookAt, h.next w1, Res.bind, hnow]
    rw [if_neg (by decide)]
    rfl
  refine ⟨_, round_ring r1 hl, ⟨?_, a2, ?_, ?_, h.next⟩⟩
  · simp only; rw [a3, hc]; omega
  · simp only; rw [a4]
    show _ ::ₘ content q1.buckets = _
    rw [r4]; rfl
  · simp only; rw [a1, Function.update_self]

/-- From there on the loop never ends. -/
theorem stuck_forever (f : Nat) : ∀ {s : MS}, Stuck g s → runLoop (W := int32) g f s = none := by
  induction f with
  | zero => intro s _; rfl
  | succ f ih =>
    intro s h
    obtain ⟨s', h1, h2⟩ := stuck_round h
    simp only [runLoop, h1]
    exact ih h2

/-- More rounds do not help. -/
theorem runLoop_mono {s : MS} : ∀ {f : Nat}, runLoop (W := int32) g (f + 1) s = none → runLoop (W := int32) g f s = none := by
  intro f
  induction f generalizing s with
  | zero => intro _; rfl
  | succ f ih =>
    intro h
    unfold runLoop at h ⊢
    split <;> simp_all

theorem at_forever (hg : ∀ k ≤ 65, adj g k = row k) (n : Nat) : ∀ {k : Nat} {s : MS}, k + n = 65 → At k s → ∀ f, runLoop (W := int32) g f s = none := by
  induction n with
  | zero => intro k s hk h f; exact stuck_forever f (stuck_of_at hg (by simpa [show k = 65 by omega] using h))
  | succ n ih =>
    intro k s hk h f
    obtain ⟨s1, s2, h1, h2, h3⟩ := step hg (by omega) h
    have : runLoop (W := int32) g (f + 2) s = none := by
      simp only [runLoop, h1, h2]
      exact ih (by omega) h3 f
    exact runLoop_mono (runLoop_mono this)

/-- Decoding a single detection event at the start of the chain never ends. -/
theorem timeline_hangs (hg : ∀ k ≤ 65, adj g k = row k) (hlen : g.nodes.length = 66) (bnd : List Bool) (hb : TL.notBoundary bnd 0 = true) (f : Nat) :
    timeline (W := int32) g bnd [] f MS.init [0] = none := by
  have hs : TL.start g.nodes.length bnd [] [0] = (⟨[0], ∅⟩, true) := by
    simp [TL.start, TL.plainLoop, hlen, hb]
  obtain ⟨s1, h1, h2⟩ : ∃ s1, launch g [0] MS.init.begin = .ok s1 ∧ At 0 s1 := by
    obtain ⟨fl, s0, e1, e2, e3, e4, e5⟩ : ∃ (fl : FS) (s0 : MS), createDetectionEvent g MS.init.begin 0 =
        ((createRegionAt g fl 0 0).bind fun fl => .ok { s0 with fl := fl }) ∧
        fl.node = (fun _ => .blank) ∧ (fl.reg 0) = .fresh 0 ∧ fl.w.q = Queue.init Owner 0 ∧ ∀ o, fl.w.tr o = {} := by
      refine ⟨(allocRegion MS.init.begin.fl).1, ({ (MS.init.begin.newRegion (allocRegion MS.init.begin.fl).1 0) with alts := ⟨[0], []⟩ }.setAlt 0
        fun _ => ⟨none, 0, .cleared, none, [], false⟩).setRalt 0 (some 0), rfl, rfl, ?_, rfl, fun o => ?_⟩
      · simp [allocRegion, Arena.alloc, MS.begin, MS.init, FS.init, Arena.empty, FS.setReg, FS.clearTracker]
      · simp [allocRegion, Arena.alloc, MS.begin, MS.init, FS.init, Arena.empty, FS.setReg, FS.clearTracker, World.init]
    set N : Nat → DNode := Function.update fl.node 0 { fl.node 0 with src := some 0, rho := 0, arr := some 0, top := some 0, wrapped := 0 } with hN
    set R : Nat → Region := Function.update fl.reg 0 { fl.reg 0 with shell := (fl.reg 0).shell ++ [0] } with hR
    have hRr : (R 0).radius = ⟨1⟩ ∧ (R 0).top = 0 := by simp [hR, e3, Region.fresh]
    have hN0 : (N 0).arr = some 0 ∧ (N 0).top = some 0 ∧ (N 0).src = some 0 ∧ (N 0).wrapped = stored 0 := by
      simp only [hN, Function.update_self, true_and]
      rw [stored_small (by omega)]
      simp
    obtain ⟨i, hf, -⟩ := findNext_front hg (k := 0) (by omega) (s := ⟨N, R, fl.regs, fl.w⟩)
      (fun i hi => by rw [Nat.le_zero.1 hi]; exact ⟨hN0.2.1, hN0.2.2.2⟩) (by simp [hN, e2, DNode.blank]) hRr.1
    have hcur : fl.w.q.cur = 0 := by rw [e4]; rfl
    obtain ⟨a1, a2, a3, a4⟩ := wish (w := fl.w) (t := 33554430 * (((0 : Nat) : Int) + 1)) (t' := 33554430 * (((0 : Nat) : Int) + 1)) (o := .inl 0)
      (by rw [e4]; exact inv_init _ _) (by rw [e5]) rfl (by rw [hcur]; omega) (by rw [hcur]; omega)
    have hc : createRegionAt g fl 0 0 = .ok ⟨N, R, fl.regs, wishO fl.w (.inl 0) (33554430 * (((0 : Nat) : Int) + 1))⟩ := by
      show reschedule g (⟨N, R, fl.regs, fl.w⟩ : FS) 0 = _
      simp only [reschedule, hf, Res.bind]
      rfl
    refine ⟨{ s0 with fl := ⟨N, R, fl.regs, wishO fl.w (.inl 0) (33554430 * (((0 : Nat) : Int) + 1))⟩ }, by simp only [launch, e1, hc, Res.bind],
      ⟨?_, a2, ?_, ?_, ?_, ?_, ?_, hRr.1, hRr.2⟩⟩
    · show (wishO fl.w (.inl 0) (33554430 * (((0 : Nat) : Int) + 1))).q.cur = _
      rw [a3, hcur]; simp
    · show content (wishO fl.w (.inl 0) (33554430 * (((0 : Nat) : Int) + 1))).q.buckets = _
      rw [a4, e4, content_init]; rfl
    · simp only
      rw [a1, Function.update_self]
    · intro j hj
      simp only
      rw [a1, Function.update_of_ne (by simp; omega), e5]
    · intro j hj
      rw [Nat.le_zero.1 hj]
      exact hN0
    · intro j hj
      simp only [hN]
      rw [Function.update_of_ne (by omega), e2]
  have hu : MS.init.begin.unmark [] = MS.init.begin := by simp [MS.unmark]
  simp only [timeline, hs, hu, h1]
  rw [if_neg (by simp [MS.init, FS.init, World.init, Queue.init]), at_forever hg 65 rfl h2 f]
  rfl

end Verif.SB.Hang
