import Verif.Blossom.Launch
import Verif.Blossom.Decode
import Verif.Blossom.Finish
import Verif.Props.Convert

/-!
# A whole decode

From a decoder at rest, a call of the decoding functions either is still running, or returns a minimum-weight correction and leaves the
decoder at rest, or raises an exception, when there is no correction, and leaves the decoder at rest.
-/

namespace Verif.SB

open Verif Verif.Graph Verif.CE Verif.Mem Verif.Track Verif.Spec
open Verif.Sch (Res)

variable {g : MGraph} {T L A : Finset Nat} {ch : Nat → List Nat} {t : Int}

theorem ainv_empty : AInv ∅ Arena.empty := ⟨inv_empty, by simp [Arena.empty]⟩

/-- A decoder that was never used is at rest. -/
theorem Clean.init : Clean MS.init := by
  refine ⟨fun _ => rfl, ainv_empty, ainv_empty, ⟨winv_init Owner 0, ?_⟩⟩
  rw [Multiset.eq_zero_iff_forall_notMem]
  intro e he
  obtain ⟨b, hb⟩ := RadixHeap.mem_content.1 he
  cases hb

theorem Quiet.num {w : World Owner} (h : Quiet w) : w.q.num = 0 := by rw [h.inv.queue.num_eq, h.none]; rfl

theorem AInv.lens {a : Arena} (h : AInv A a) : a.allocated.length = A.card + a.available.length := by
  have := congrArg Multiset.card h.inv.split
  simpa using this

theorem reset_spec {s : MS} (h : WInv s.fl.w) : ∃ s', s.reset = .ok s' ∧ Clean s' := by
  obtain ⟨q, e, h1, h2, -⟩ := RadixHeap.clear_spec h.queue
  refine ⟨_, by rw [MS.reset, e], fun _ => rfl, ainv_empty, ainv_empty, ⟨⟨h1, ?_, ?_⟩, h2⟩⟩
  · intro o ho; cases ho
  · intro o ho; cases ho

theorem extractAll_append (l l' : List Nat) : ∀ (s : MS) (x : Extract),
    extractAll s (l ++ l') x = (extractAll s l x).bind fun p => extractAll p.1 l' p.2 := by
  induction l with
  | nil => intro s x; rfl
  | cons n l ih =>
    intro s x
    rw [List.cons_append, extractAll, extractAll]
    cases (s.fl.node n).arr with
    | none => exact ih s x
    | some _ =>
      simp only
      cases deref (s.fl.node n).top with
      | ok r =>
        simp only [Res.bind]
        cases extract s.extractDepth s r with
        | ok p => exact ih p.1 (x.add p.2)
        | throws => rfl
        | ub => rfl
      | throws => rfl
      | ub => rfl

/-- What the starting phase starts. -/
def startedOf (bnd : List Bool) (neg events : List Nat) : Finset Nat :=
  symmDiff (events.filter (TL.notBoundary bnd)).toFinset neg.toFinset

theorem mem_startedOf {bnd : List Bool} {neg events : List Nat} {d : Nat} :
    d ∈ startedOf bnd neg events ↔ ¬ ((d ∈ events ∧ TL.notBoundary bnd d = true) ↔ d ∈ neg) := by
  simp only [startedOf, Finset.mem_symmDiff, List.mem_toFinset, List.mem_filter]
  tauto

/-- The timeline runs on, or ends with all regions matched, or raises an exception since the events cannot be explained. -/
theorem timeline_spec (hg : Proper g) {s : MS} (hs : Clean s) (bnd : List Bool) {neg events : List Nat} (hev : ∀ d ∈ events, d < g.nodes.length) (hnd : events.Nodup)
    (hneg : ∀ d ∈ neg, TL.notBoundary bnd d = true) (hnn : neg.Nodup) (f : Nat) :
    timeline g bnd neg f s events = none ∨
    (∃ s' t L ch, timeline g bnd neg f s events = some (.ok s') ∧ Done g (startedOf bnd neg events) L ch t s' ∧ AInv ∅ s'.alts) ∨
    (∃ s', timeline g bnd neg f s events = some (.throws s') ∧ Clean s' ∧ ∀ ws, ¬ Corrects g (startedOf bnd neg events) ws) := by
  obtain ⟨st, e1, -, h2, h3⟩ := Props.Convert.C35_started_nodes g.nodes.length bnd neg events hev hnd hneg hnn
  obtain ⟨s1, L, ch, A, e2, hl⟩ := launch_spec hg st.started (hs.launched (g := g) (ch := fun _ => [])) h2 (by simp)
  have hT : ∅ ∪ st.started.toFinset = startedOf bnd neg events := by
    ext d
    rw [mem_startedOf, ← h3]
    simp
  rw [hT] at hl
  have hnum : ¬ (s.fl.w.q.num ≠ 0) := by rw [hs.quiet.num]; simp
  rcases runLoop_spec hg f hl.ok with e3 | ⟨s2, t2, L2, ch2, A2, ach2, e3, -, h4, h5, h6⟩
  · left
    simp only [timeline, hs.unmark, hnum, e1, e2, e3, if_false, if_true]
  · right
    have hA := (h4.m.arena).lens
    by_cases hA0 : A2 = ∅
    · subst hA0
      left
      refine ⟨s2, t2, L2, ch2, ?_, Done.of_ok h4 h6, h4.m.arena⟩
      have : ¬ (s2.alts.allocated.length ≠ s2.alts.available.length) := by rw [hA]; simp
      simp only [timeline, hs.unmark, hnum, e1, e2, e3, if_false, if_true, this]
    · right
      obtain ⟨a, ha⟩ := Finset.nonempty_iff_ne_empty.2 hA0
      obtain ⟨s3, e4, h7⟩ := reset_spec h4.fl.sched.winv
      refine ⟨s3, ?_, h7, fun ws => no_correction hg h4 h5 ha ws⟩
      have hpos : 0 < A2.card := Finset.card_pos.2 ⟨a, ha⟩
      have : s2.alts.allocated.length ≠ s2.alts.available.length := by rw [hA]; omega
      simp only [timeline, hs.unmark, hnum, e1, e2, e3, if_false, if_true, if_pos this, e4]

/-- The timeline ends. -/
theorem timeline_ends (hg : Proper g) {s : MS} (hs : Clean s) (bnd : List Bool) {neg events : List Nat} (hev : ∀ d ∈ events, d < g.nodes.length) (hnd : events.Nodup)
    (hneg : ∀ d ∈ neg, TL.notBoundary bnd d = true) (hnn : neg.Nodup) :
    ∃ f0 o, ∀ f, f0 ≤ f → timeline g bnd neg f s events = some o := by
  obtain ⟨st, e1, -, h2, h3⟩ := Props.Convert.C35_started_nodes g.nodes.length bnd neg events hev hnd hneg hnn
  obtain ⟨s1, L, ch, A, e2, hl⟩ := launch_spec hg st.started (hs.launched (g := g) (ch := fun _ => [])) h2 (by simp)
  obtain ⟨f0, s2, e3⟩ := runLoop_ends hg hl.ok
  have hnum : ¬ (s.fl.w.q.num ≠ 0) := by rw [hs.quiet.num]; simp
  have hconst : ∀ f, f0 ≤ f → timeline g bnd neg f s events = timeline g bnd neg f0 s events := by
    intro f hf
    simp only [timeline, hs.unmark, hnum, e1, e2, runLoop_mono e3 f hf, e3, if_false, if_true]
  cases ho : timeline g bnd neg f0 s events with
  | some o => exact ⟨f0, o, fun f hf => (hconst f hf).trans ho⟩
  | none =>
    simp only [timeline, hs.unmark, hnum, e1, e2, e3, if_false, if_true] at ho
    split at ho
    · split at ho <;> cases ho
    · cases ho

theorem matching_ends (hg : Proper g) {s : MS} (hs : Clean s) (bnd : List Bool) {neg events : List Nat} (hev : ∀ d ∈ events, d < g.nodes.length) (hnd : events.Nodup)
    (hneg : ∀ d ∈ neg, TL.notBoundary bnd d = true) (hnn : neg.Nodup) :
    ∃ f0 o, ∀ f, f0 ≤ f → matching g bnd neg f s events = some o := by
  obtain ⟨f0, o, h⟩ := timeline_ends hg hs bnd hev hnd hneg hnn
  have hconst : ∀ f, f0 ≤ f → matching g bnd neg f s events = matching g bnd neg f0 s events := by
    intro f hf
    simp only [matching, h f hf, h f0 (le_refl _)]
  cases ho : matching g bnd neg f0 s events with
  | some o => exact ⟨f0, o, fun f hf => (hconst f hf).trans ho⟩
  | none =>
    simp only [matching, h f0 (le_refl _)] at ho
    cases o with
    | ub => cases ho
    | throws => cases ho
    | ok s1 =>
      simp only at ho
      split at ho
      · cases ho
      · cases ho
      · split at ho <;> cases ho

/-- The matching of a shot: all properties of what is extracted. -/
structure Answer (g : MGraph) (T : Finset Nat) (x : Extract) : Prop where
  once : (x.edges.flatMap edgeEnds).Nodup
  covers : ∀ v, v ∈ x.edges.flatMap edgeEnds ↔ v ∈ T
  paths : ∃ d : CompressedEdge → Int, (∀ e ∈ x.edges, PathOf g e (d e)) ∧ (x.edges.map d).sum = x.weight
  mask : x.mask = maskOf x.edges
  attained : ∃ ws, Corrects g T ws ∧ totalObs g ws = x.mask ∧ totalWeight g ws = x.weight
  least : ∀ ws, Corrects g T ws → x.weight ≤ totalWeight g ws

theorem matching_spec (hg : Proper g) {s : MS} (hs : Clean s) (bnd : List Bool) {neg events : List Nat} (hev : ∀ d ∈ events, d < g.nodes.length) (hnd : events.Nodup)
    (hneg : ∀ d ∈ neg, TL.notBoundary bnd d = true) (hnn : neg.Nodup) (f : Nat) :
    matching g bnd neg f s events = none ∨
    (∃ s' x, matching g bnd neg f s events = some (.ok (s', x)) ∧ Clean s' ∧ Answer g (startedOf bnd neg events) x) ∨
    (∃ s', matching g bnd neg f s events = some (.throws s') ∧ Clean s' ∧ ∀ ws, ¬ Corrects g (startedOf bnd neg events) ws) := by
  rcases timeline_spec hg hs bnd hev hnd hneg hnn f with e | ⟨s1, t, L, ch, e, hd, ha⟩ | ⟨s1, e, h1, h2⟩
  · left; rw [matching, e]
  · right; left
    obtain ⟨s', x, e1, h1, h2, h3, h4, h5, h6, h7, -⟩ := extractAll_spec hd ha (ns := events ++ neg) (by
      intro a ha
      rw [mem_startedOf] at ha
      rw [List.mem_append]
      by_contra hc
      rw [not_or] at hc
      exact ha ⟨fun h => absurd h.1 hc.1, fun h => absurd h hc.2⟩)
    refine ⟨s', x, ?_, h1, ⟨h2, h3, h4, h5, h6, h7⟩⟩
    rw [extractAll_append] at e1
    rw [matching, e]
    simp only
    cases e2 : extractAll s1 events Extract.zero with
    | ub => rw [e2] at e1; cases e1
    | throws => rw [e2] at e1; cases e1
    | ok p =>
      obtain ⟨s2, x2⟩ := p
      rw [e2] at e1
      have e1 : extractAll s2 neg x2 = .ok (s', x) := e1
      simp only [e1]
  · right; right
    exact ⟨s1, by rw [matching, e], h1, h2⟩

end Verif.SB
