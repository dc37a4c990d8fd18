import Verif.Blossom.Total

/-!
# A syndrome with an invalid detection event: what is left behind

Lemmas about the starting phase of `process_timeline_until_completion` when an event is not a node of the graph.
-/

namespace Verif.SB

open Verif Verif.Graph Verif.CE Verif.Mem Verif.Track Verif.Spec Verif.Vary
open Verif.Sch (Res)

variable {g : MGraph} {T L A : Finset Nat} {ch : Nat → List Nat}

/-! ## The starting phase -/

/-- The events that are started before the exception. -/
def grown (bnd : List Bool) (neg pre : List Nat) : List Nat := pre.filter fun x => TL.notBoundary bnd x && decide (x ∉ neg)

theorem plainLoop_invalid {N : Nat} {bnd : List Bool} {d : Nat} (hd : N ≤ d) (rest : List Nat) : ∀ (pre : List Nat) (st : TL.Start), (∀ x ∈ pre, x < N) →
    TL.plainLoop N bnd st (pre ++ d :: rest) = (⟨st.started ++ grown bnd [] pre, st.marks⟩, false) := by
  intro pre
  induction pre with
  | nil => intro st _; simp [TL.plainLoop, hd, grown]
  | cons x pre ih =>
    intro st h
    have hx := h x (by simp)
    rw [List.cons_append, TL.plainLoop, if_neg (by omega)]
    split
    · rename_i hb
      rw [ih _ (fun y hy => h y (by simp [hy]))]
      simp [grown, hb]
    · rename_i hb
      rw [ih _ (fun y hy => h y (by simp [hy]))]
      simp [grown, hb]

theorem negLoop_invalid {N : Nat} {bnd : List Bool} {d : Nat} (hd : N ≤ d) (rest neg : List Nat) : ∀ (pre : List Nat) (st : TL.Start), (∀ x ∈ pre, x < N) →
    pre.Nodup → (∀ x ∈ pre, x ∈ st.marks ↔ x ∈ neg) →
    TL.negLoop N bnd st (pre ++ d :: rest) = (⟨st.started ++ grown bnd neg pre, st.marks \ pre.toFinset⟩, false) := by
  intro pre
  induction pre with
  | nil => intro st _ _ _; simp [TL.negLoop, hd, grown]
  | cons x pre ih =>
    intro st h hnd hm
    have hx := h x (by simp)
    have hx' := hm x (by simp)
    obtain ⟨hnx, hnd⟩ := List.nodup_cons.1 hnd
    rw [List.cons_append, TL.negLoop, if_neg (by omega)]
    by_cases hmark : x ∈ st.marks
    · rw [if_neg (by simpa using hmark), ih _ (fun y hy => h y (by simp [hy])) hnd]
      · simp only [grown, List.filter_cons, hx'.1 hmark, not_true, decide_false, Bool.and_false, Bool.false_eq_true, if_false]
        congr 2
        ext y
        simp only [Finset.mem_sdiff, Finset.mem_erase, List.mem_toFinset, List.mem_cons]
        tauto
      · intro y hy
        have : y ≠ x := fun e => hnx (e ▸ hy)
        simp only [Finset.mem_erase, this, ne_eq, not_false_eq_true, true_and]
        exact hm y (by simp [hy])
    · have hne : x ∉ neg := fun h => hmark (hx'.2 h)
      have hsd : st.marks \ (x :: pre).toFinset = st.marks \ pre.toFinset := by
        ext y
        simp only [Finset.mem_sdiff, List.mem_toFinset, List.mem_cons]
        constructor
        · tauto
        · rintro ⟨h1, h2⟩
          refine ⟨h1, ?_⟩
          rintro (rfl | h3)
          · exact hmark h1
          · exact h2 h3
      rw [if_pos hmark, hsd]
      split
      · rename_i hb
        rw [ih ⟨st.started ++ [x], st.marks⟩ (fun y hy => h y (by simp [hy])) hnd (fun y hy => hm y (by simp [hy]))]
        simp [grown, hb, hne]
      · rename_i hb
        rw [ih _ (fun y hy => h y (by simp [hy])) hnd (fun y hy => hm y (by simp [hy]))]
        simp [grown, hb]

theorem start_invalid {N : Nat} {bnd : List Bool} {d : Nat} (hd : N ≤ d) (rest neg : List Nat) {pre : List Nat} (h : ∀ x ∈ pre, x < N) (hnd : pre.Nodup) :
    TL.start N bnd neg (pre ++ d :: rest) = (⟨grown bnd neg pre, neg.toFinset \ pre.toFinset⟩, false) := by
  unfold TL.start
  cases neg with
  | nil =>
    rw [if_pos (by rfl), plainLoop_invalid hd rest pre _ h]
    simp
  | cons a neg =>
    rw [if_neg (by simp), negLoop_invalid hd rest (a :: neg) pre ⟨[], (a :: neg).toFinset⟩ h hnd (fun x _ => List.mem_toFinset)]
    simp

/-! ## Marks do not matter -/

theorem unmark_mark {s : MS} {neg : List Nat} {M : Finset Nat} (hM : M ⊆ neg.toFinset) : (s.mark M).begin.unmark neg = s.begin.unmark neg := by
  unfold MS.unmark MS.mark MS.begin
  simp only
  congr 2
  funext n
  by_cases hn : n ∈ neg
  · simp only [hn, if_true]
    split <;> rfl
  · have : n ∉ M := fun h => hn (List.mem_toFinset.1 (hM h))
    simp only [hn, this, if_false]

/-- Marks at the nodes where marks are set anyway do not change what a call does. -/
theorem timeline_mark [W : Width] {bnd : List Bool} {neg : List Nat} {M : Finset Nat} (hM : M ⊆ neg.toFinset) {s : MS} (hq : s.fl.w.q.num = 0) (f : Nat)
    (events : List Nat) (hthrow : ∀ st fine, TL.start g.nodes.length bnd neg events = (st, fine) → launch g st.started (s.begin.unmark neg) ≠ .throws) :
    timeline g bnd neg f (s.mark M) events = timeline g bnd neg f s events := by
  have h1 : ¬ ((s.mark M).fl.w.q.num ≠ 0) := fun h => h hq
  have h2 : ¬ (s.fl.w.q.num ≠ 0) := fun h => h hq
  unfold timeline
  rw [if_neg h1, if_neg h2]
  simp only [unmark_mark hM]
  have := hthrow _ _ (Prod.mk.eta (p := TL.start g.nodes.length bnd neg events)).symm
  cases hl : launch g (TL.start g.nodes.length bnd neg events).1.started (s.begin.unmark neg) with
  | throws => exact absurd hl this
  | ub => rfl
  | ok s1 => rfl

/-! ## The queue -/

theorem num_of_want {s : FS} (hw : WInv s.w) {o : Owner} {τ : Int} (h : want s o = some τ) : s.w.q.num ≠ 0 := by
  intro h0
  have hd : (s.w.tr o).hasDesired = true := by
    unfold want absW at h
    by_contra hc
    simp [hc] at h
  have hq := hw.queued o (hw.desired o hd).1
  have hn := hw.queue.num_eq
  rw [h0] at hn
  have : RadixHeap.content s.w.q.buckets = 0 := by
    rw [← Multiset.card_eq_zero]
    exact hn.symm
  rw [this] at hq
  simp at hq

/-- A detector with an edge that was started is waiting for an event. -/
theorem Launched.waits (hg : Proper g) {s : MS} (h : Launched g T L ch s A) {u : Nat} (hu : u ∈ T) {n : Nbr} (he : entry g (u, 0) = some n) :
    s.fl.w.q.num ≠ 0 := by
  have hflat : ∀ r ∈ L, ch r = [r] := fun r hr => h.geo.forest.root r hr (h.flat r hr).2.1
  obtain ⟨r, l, ha, hk, hsh, -⟩ := h.geo.event u hu
  have hr := (h.geo.occ u r ha).1
  have htop : (s.fl.reg r).top = r := by
    have := (h.geo.top r hr).1
    rw [hflat r hr] at this
    simpa using this
  have htu : (s.fl.node u).top = some r := by rw [h.geo.otop u r ha, htop]
  have hsl : (localRadius s.fl u).slope = 1 := by rw [BGeo.local_slope htu]; exact (h.flat r hr).2.2
  have hc : ∃ τ, coll s.fl u n = some τ := by
    unfold coll
    cases ht : n.target with
    | none => exact ⟨_, by simp only; rw [if_pos hsl]⟩
    | some v =>
      refine ⟨_, if_neg ?_⟩
      have hne : v ≠ u := (hg.sym u 0 n v he ht).1
      rw [hsl]
      cases hav : (s.fl.node v).arr with
      | none =>
        have : (s.fl.node v).top = none := by rw [h.geo.empty v hav]; rfl
        rw [BGeo.local_slope_none this, htu, this]
        simp
      | some r' =>
        have hr' := (h.geo.occ v r' hav).1
        have htop' : (s.fl.reg r').top = r' := by
          have := (h.geo.top r' hr').1
          rw [hflat r' hr'] at this
          simpa using this
        have htv : (s.fl.node v).top = some r' := by rw [h.geo.otop v r' hav, htop']
        rw [BGeo.local_slope htv, (h.flat r' hr').2.2, htu, htv]
        obtain ⟨r2, l2, ha2, -, hsh2, -⟩ := h.geo.event v (h.arr v (by rw [hav]; simp))
        rw [hav] at ha2
        cases ha2
        have : r ≠ r' := by
          rintro rfl
          rw [hsh] at hsh2
          exact hne (List.cons.inj hsh2).1.symm
        simp [this]
  obtain ⟨τ, hc⟩ := hc
  obtain ⟨t', -, hw | ⟨v, -, hw⟩⟩ := h.sched.colls u 0 n τ he hc (by simp) (by simp)
  · exact num_of_want h.sched.winv hw
  · exact num_of_want h.sched.winv hw

/-- The call with an invalid event: the state that the exception leaves behind. -/
theorem timeline_invalid [W : Width] (hg : Proper g) {s : MS} (hs : Clean s) {bnd : List Bool} {neg pre : List Nat} {d : Nat} (hd : g.nodes.length ≤ d)
    (rest : List Nat) (h : ∀ x ∈ pre, x < g.nodes.length) (hnd : pre.Nodup) :
    ∃ s1 L ch A, (∀ f, timeline g bnd neg f s (pre ++ d :: rest) = some (.throws (s1.mark (neg.toFinset \ pre.toFinset)))) ∧
      Launched g (grown bnd neg pre).toFinset L ch s1 A ∧ (grown bnd neg pre = [] → s1 = s.begin) := by
  obtain ⟨s1, L, ch, A, e, hl⟩ := launch_spec hg (grown bnd neg pre) (hs.launched (g := g) (ch := fun _ => [])) (hnd.filter _) (by simp)
  have hnum : ¬ (s.fl.w.q.num ≠ 0) := by rw [hs.quiet.num]; simp
  refine ⟨s1, L, ch, A, fun f => ?_, by simpa using hl, fun h0 => ?_⟩
  · simp only [timeline, hs.unmark, hnum, start_invalid hd rest neg h hnd, e, if_false, Bool.false_eq_true]
  · rw [h0] at e
    cases e
    rfl

theorem timeline_jammed [W : Width] {s : MS} (hs : s.fl.w.q.num ≠ 0) (bnd : List Bool) (neg : List Nat) (f : Nat) (events : List Nat) :
    timeline g bnd neg f s events = some (.throws s) := by
  simp only [timeline, ne_eq, hs, not_false_eq_true, if_true]

theorem Clean.begin {s : MS} (h : Clean s) : Clean s.begin := ⟨h.nodes, h.regs, h.alts, h.quiet.atTime 0⟩

theorem mark_mark (s : MS) (M N : Finset Nat) : (s.mark M).mark N = s.mark (M ∪ N) := by
  unfold MS.mark
  simp only
  congr 2
  funext n
  by_cases h1 : n ∈ M <;> by_cases h2 : n ∈ N <;> simp [h1, h2]

theorem mark_empty (s : MS) : s.mark ∅ = s := by simp [MS.mark]

/-- The same for a decoder at rest and events that are nodes of the graph. -/
theorem timeline_mark_valid [W : Width] (hg : Proper g) {s : MS} (hs : Clean s) {bnd : List Bool} {neg : List Nat} {M : Finset Nat} (hM : M ⊆ neg.toFinset)
    {events : List Nat} (hev : ∀ d ∈ events, d < g.nodes.length) (hnd : events.Nodup) (hneg : ∀ d ∈ neg, TL.notBoundary bnd d = true) (hnn : neg.Nodup)
    (f : Nat) : timeline g bnd neg f (s.mark M) events = timeline g bnd neg f s events := by
  obtain ⟨st, e1, -, h2, h3⟩ := Props.Convert.C35_started_nodes g.nodes.length bnd neg events hev hnd hneg hnn
  obtain ⟨s1, L, ch, A, e2, hl⟩ := launch_spec hg st.started (hs.launched (g := g) (ch := fun _ => [])) h2 (by simp)
  refine timeline_mark hM hs.quiet.num f events fun st' fine e => ?_
  rw [e1] at e
  cases e
  rw [hs.unmark, e2]
  simp

/-- The same for a list with an invalid event. -/
theorem timeline_mark_invalid [W : Width] (hg : Proper g) {s : MS} (hs : Clean s) {bnd : List Bool} {neg pre : List Nat} {M : Finset Nat}
    (hM : M ⊆ neg.toFinset) {d : Nat} (hd : g.nodes.length ≤ d) (rest : List Nat) (h : ∀ x ∈ pre, x < g.nodes.length) (hnd : pre.Nodup) (f : Nat) :
    timeline g bnd neg f (s.mark M) (pre ++ d :: rest) = timeline g bnd neg f s (pre ++ d :: rest) := by
  obtain ⟨s1, L, ch, A, e, hl⟩ := launch_spec hg (grown bnd neg pre) (hs.launched (g := g) (ch := fun _ => [])) (hnd.filter _) (by simp)
  refine timeline_mark hM hs.quiet.num f _ fun st' fine e' => ?_
  rw [start_invalid hd rest neg h hnd] at e'
  cases e'
  rw [hs.unmark, e]
  simp

end Verif.SB
