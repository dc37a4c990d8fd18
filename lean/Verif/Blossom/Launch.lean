import Verif.Blossom.Decode
import Verif.Blossom.Finish
import Verif.Blossom.Seed

/-!
# Starting the detection events, and the two ends of the loop
-/

namespace Verif.SB

open Verif Verif.Graph Verif.CE Verif.Mem Verif.Spec Verif.Track Verif.Vary
open Verif.Sch (Res)

variable {g : MGraph} {T L A : Finset Nat} {ch : Nat → List Nat} {t : Int}

/-! ## Starting -/

/-- The decoder after some events were started at time 0. -/
structure Launched (g : MGraph) (T L : Finset Nat) (ch : Nat → List Nat) (s : MS) (A : Finset Nat) : Prop where
  geo : Geo g T L ch 0 s.fl
  now : s.fl.now = 0
  sched : Sched g L (fun _ => False) (fun _ => False) s.fl
  regs : AInv L s.fl.regs
  arr : ∀ n, (s.fl.node n).arr ≠ none → n ∈ T
  flat : ∀ r ∈ L, (s.fl.reg r).children = [] ∧ par s.fl r = none ∧ sl s.fl r = 1
  alts : AInv A s.alts
  nodes : ∀ a ∈ A, ∃ r ∈ L, s.alt a = ⟨none, r, .cleared, none, [], false⟩ ∧ s.ralt r = some a
  cover : ∀ r ∈ L, ∃ a ∈ A, (s.alt a).outer = r

theorem Launched.ok {s : MS} (h : Launched g T L ch s A) : SOk g T L ch 0 (fun _ => False) s A (fun a => [a]) := by
  have hn : ∀ a ∈ A, (s.alt a).inner = none ∧ (s.alt a).parent = none ∧ (s.alt a).children = [] ∧ (s.alt a).visited = false ∧ (s.alt a).outer ∈ L ∧
      s.ralt (s.alt a).outer = some a := by
    intro a ha
    obtain ⟨r, hr, e, h1⟩ := h.nodes a ha
    rw [e]
    exact ⟨rfl, rfl, rfl, rfl, hr, h1⟩
  have hin : ∀ a ∈ A, ∀ i, (s.alt a).inner ≠ some i := by
    intro a ha i e
    rw [(hn a ha).1] at e; cases e
  have hkid : ∀ a ∈ A, ∀ x, x ∉ (s.alt a).children := by
    intro a ha x hx
    rw [(hn a ha).2.2.1] at hx; cases hx
  refine ⟨⟨h.geo, h.now, h.sched.mono (fun _ h => h.elim)⟩, h.regs, fun r hr => .inl (h.flat r hr).1,
    ⟨⟨⟨?_, ?_, ?_, ?_, ?_⟩, ⟨⟨?_, ?_⟩, ⟨?_, ?_⟩, ?_, ?_, ?_⟩, ⟨?_, ?_⟩, ?_, h.alts⟩, fun a ha => (hn a ha).2.2.2.1⟩⟩
  · intro a ha
    obtain ⟨-, -, -, -, h1, h2⟩ := hn a ha
    exact ⟨⟨h1, (h.flat _ h1).2.1⟩, h2⟩
  · intro a ha e
    have := (h.flat _ (hn a ha).2.2.2.2.1).2.2
    have e : sl s.fl (s.alt a).outer = -1 := e
    omega
  · intro a ha _
    exact (h.flat _ (hn a ha).2.2.2.2.1).2.2
  · intro a ha i e; exact absurd e (hin a ha i)
  · intro a ha b _ i e; exact absurd e (hin a ha i)
  · intro a _ _; rfl
  · intro a ha p hp
    unfold epar at hp
    rw [if_neg (by simp), (hn a ha).2.1] at hp
    cases hp
  · intro a ha c
    constructor
    · intro hc
      unfold akids at hc
      rw [(hn a ha).2.2.1] at hc; cases hc
    · rintro ⟨hc, hp⟩
      unfold epar at hp
      rw [if_neg (by simp), (hn c hc).2.1] at hp
      cases hp
  · intro a ha
    unfold akids
    rw [(hn a ha).2.2.1]
    exact List.nodup_nil
  · intro a ha c e hc; exact absurd hc (hkid a ha _)
  · intro a ha c e hc; exact absurd hc (hkid a ha _)
  · intro a ha _ _; exact (hn a ha).1
  · intro r hr _
    obtain ⟨a, ha, e⟩ := h.cover r hr.1
    exact .inl ⟨a, ha, by unfold nregs; rw [e]; simp⟩
  · intro r hr hnt
    exact absurd ⟨hr, (h.flat r hr).2.1⟩ hnt
  · intro a ha i e; exact absurd e (hin a ha i)

theorem Quiet.want_none {w : World Owner} (h : Quiet w) (o : Owner) : (absW w).want o = .none := (deliver_idle w h.inv h.none).2 o

theorem Quiet.atTime {w : World Owner} (h : Quiet w) (c : Int) : Quiet { w with q := { w.q with cur := c } } := by
  have hb : ∀ b, w.q.buckets b = [] := by
    intro b
    by_contra hne
    obtain ⟨e, he⟩ := List.exists_mem_of_ne_nil _ hne
    have : e ∈ RadixHeap.content w.q.buckets := RadixHeap.mem_content.2 ⟨b, he⟩
    rw [h.none] at this
    simp at this
  have hno : ∀ o, (w.tr o).hasQueued = false := by
    intro o
    by_contra hq
    have hq : (w.tr o).hasQueued = true := by simpa using hq
    have := h.inv.queued o hq
    simp [h.none] at this
  have hnd : ∀ o, (w.tr o).hasDesired = false := by
    intro o
    by_contra hq
    have hq : (w.tr o).hasDesired = true := by simpa using hq
    have := h.inv.desired o hq
    simp [hno] at this
  refine ⟨⟨⟨h.inv.queue.num_eq, ?_, ?_⟩, ?_, ?_⟩, h.none⟩
  · intro b e he; rw [hb] at he; cases he
  · intro b e he; rw [hb] at he; cases he
  · intro o ho; rw [hno] at ho; cases ho
  · intro o ho; rw [hnd] at ho; cases ho

theorem Clean.unmark {s : MS} (h : Clean s) (neg : List Nat) : s.begin.unmark neg = s.begin := by
  have : (fun n => if n ∈ neg then { s.begin.fl.node n with rho := 0 } else s.begin.fl.node n) = s.begin.fl.node := by
    funext n
    have : s.begin.fl.node n = .blank := h.nodes n
    split
    · rw [this]; rfl
    · rfl
  unfold MS.unmark
  rw [this]

theorem Clean.launched {s : MS} (h : Clean s) : Launched g ∅ ∅ ch s.begin ∅ := by
  have hq := h.quiet.atTime 0
  have hn : ∀ n, s.begin.fl.node n = .blank := h.nodes
  have ha : ∀ n, (s.begin.fl.node n).arr = none := fun n => by rw [hn]; rfl
  have htop : ∀ n, (s.begin.fl.node n).top = none := fun n => by rw [hn]; rfl
  have hw : ∀ o, want s.begin.fl o = none := fun o => hq.want_none o
  have hloc : ∀ n, localRadius s.begin.fl n = ⟨0⟩ := fun n => by unfold localRadius; rw [htop]
  refine ⟨⟨⟨⟨by simp, by simp⟩, ⟨by simp, by simp⟩, by simp, by simp, by simp, by simp, by simp, ?_, ?_, ?_, ?_, fun n _ => hn n, by simp, by simp, by simp, by simp, by simp⟩,
    ?_, ?_, ?_, ?_⟩, rfl, ⟨hq.inv, ?_, ?_, ?_⟩, h.regs, ?_, by simp, h.alts, by simp, by simp⟩
  · intro n r e; rw [ha] at e; cases e
  · intro n r e; rw [ha] at e; cases e
  · intro n r e; rw [ha] at e; cases e
  · intro n r e; rw [ha] at e; cases e
  · intro n r e; rw [ha] at e; cases e
  · intro u i n _
    unfold D dist
    simp
  · intro u v r e; rw [htop] at e; cases e
  · intro u r e; rw [htop] at e; cases e
  · intro u i n τ _ hc
    exfalso
    unfold coll at hc
    cases ht : n.target with
    | none =>
      simp only [ht, BGeo.local_slope_none (htop u)] at hc
      simp at hc
    | some v =>
      simp only [ht, htop] at hc
      simp at hc
  · intro u τ _ e; rw [hw] at e; cases e
  · intro r
    exact ⟨fun h => absurd h.1 (by simp), fun _ => hw _⟩
  · intro n e; exact absurd (ha n) e

theorem createDetectionEvent_spec (hg : Proper g) {s : MS} (h : Launched g T L ch s A) {n : Nat} (hn : n ∉ T) :
    ∃ s' L' ch' A', createDetectionEvent g s n = .ok s' ∧ Launched g (insert n T) L' ch' s' A' := by
  have harr : (s.fl.node n).arr = none := by
    by_contra hne
    exact hn (h.arr n hne)
  obtain ⟨f1, r, f2, e1, hr, e2, hnow, hregs, hgeo, hsched, hrel⟩ := seed_spec h.geo hg h.regs h.now h.sched harr
  obtain ⟨ar, a, e3, ha, hA⟩ := h.alts.alloc
  have hne : ∀ d ∈ L, d ≠ r := fun d hd e => hr (e ▸ hd)
  have hna : ∀ b ∈ A, b ≠ a := fun b hb e => ha (e ▸ hb)
  refine ⟨{ s with fl := f2, alts := ar, alt := Function.update s.alt a ⟨none, r, .cleared, none, [], false⟩, ralt := Function.update s.ralt r (some a), mate := Function.update s.mate r ⟨none, .cleared⟩ }, insert r L, Function.update ch r [r], insert a A, ?_, ⟨hgeo, hnow, hsched, hregs, ?_, ?_, hA, ?_, ?_⟩⟩
  · unfold createDetectionEvent
    rw [e1]
    simp only [MS.newRegion, MS.setRalt, MS.setMate, e3, MS.setAlt, MS.onFl, e2, Res.bind]
    congr 2
    funext x
    by_cases hx : x = r
    · subst hx; simp
    · simp [hx]
  · intro m hm
    by_cases hmn : m = n
    · rw [hmn]; exact Finset.mem_insert_self _ _
    · have : f2.node m = s.fl.node m := hrel.arr m hmn
      have hm : (f2.node m).arr ≠ none := hm
      rw [this] at hm
      exact Finset.mem_insert_of_mem (h.arr m hm)
  · intro q hq
    rcases Finset.mem_insert.1 hq with rfl | hq
    · exact ⟨hrel.kidsR, hrel.parR, hrel.slR⟩
    · have := h.flat q hq
      unfold par sl at this ⊢
      show (f2.reg q).children = [] ∧ (f2.reg q).parent = none ∧ (f2.reg q).radius.slope = 1
      rw [hrel.reg q hq]
      exact this
  · intro b hb
    rcases Finset.mem_insert.1 hb with rfl | hb
    · exact ⟨r, Finset.mem_insert_self _ _, by simp, by simp⟩
    · obtain ⟨q, hq, e, h1⟩ := h.nodes b hb
      refine ⟨q, Finset.mem_insert_of_mem hq, ?_, ?_⟩
      · simp only; rw [Function.update_of_ne (hna b hb)]; exact e
      · simp only; rw [Function.update_of_ne (hne q hq)]; exact h1
  · intro q hq
    rcases Finset.mem_insert.1 hq with rfl | hq
    · exact ⟨a, Finset.mem_insert_self _ _, by simp⟩
    · obtain ⟨b, hb, e⟩ := h.cover q hq
      exact ⟨b, Finset.mem_insert_of_mem hb, by simp only; rw [Function.update_of_ne (hna b hb)]; exact e⟩

theorem launch_spec (hg : Proper g) (ns : List Nat) : ∀ {s : MS} {T L A : Finset Nat} {ch : Nat → List Nat}, Launched g T L ch s A → ns.Nodup → (∀ n ∈ ns, n ∉ T) →
    ∃ s' L' ch' A', launch g ns s = .ok s' ∧ Launched g (T ∪ ns.toFinset) L' ch' s' A' := by
  induction ns with
  | nil => intro s T L A ch h _ _; exact ⟨s, L, ch, A, rfl, by simpa using h⟩
  | cons n ns ih =>
    intro s T L A ch h hnd hT
    obtain ⟨s1, L1, ch1, A1, e1, h1⟩ := createDetectionEvent_spec hg h (hT n (by simp))
    obtain ⟨s2, L2, ch2, A2, e2, h2⟩ := ih h1 (List.nodup_cons.1 hnd).2 (by
      intro m hm hmT
      rcases Finset.mem_insert.1 hmT with rfl | hmT
      · exact (List.nodup_cons.1 hnd).1 hm
      · exact hT m (List.mem_cons_of_mem _ hm) hmT)
    refine ⟨s2, L2, ch2, A2, ?_, ?_⟩
    · rw [launch, e1]; exact e2
    · have : T ∪ (n :: ns).toFinset = insert n T ∪ ns.toFinset := by
        ext x; simp
      rw [this]; exact h2

/-! ## No perfect matching -/

/-- When nothing is scheduled any more and an alternating tree is left, the events cannot be explained by any set of edges. -/
theorem no_correction (hg : Proper g) {s : MS} {ach : Nat → List Nat} (h : SOk g T L ch t (fun _ => False) s A ach) (hw : ∀ o, want s.fl o = none)
    {a : Nat} (ha : a ∈ A) (es : List Slot) : ¬ Corrects g T es := by
  intro hes
  have h0 := h.fl.geo.toBGeo
  generalize hr : (s.alt a).outer = r
  have htop := (h.m.nodes.outer a ha).1
  have hsl := h.m.nodes.grow a ha (fun h => h)
  rw [hr] at htop hsl
  obtain ⟨hrL, hrp⟩ := htop
  have hsl : sl s.fl r = 1 := hsl
  classical
  -- no region shrinks
  have hns : ∀ q ∈ L, par s.fl q = none → sl s.fl q ≠ -1 := by
    intro q hq hp hs
    have := (h.fl.sched.regWant q).1 ⟨hq, hp, hs, fun h => h⟩
    rw [hw] at this
    cases this
  have hslope : ∀ v q, (s.fl.node v).top = some q → (localRadius s.fl v).slope = sl s.fl q := by
    intro v q hv
    exact BGeo.local_slope hv
  have hcoll : ∀ u i n, entry g (u, i) = some n → coll s.fl u n = none := by
    intro u i n he
    cases hc : coll s.fl u n with
    | none => rfl
    | some τ =>
      obtain ⟨t', -, h1 | ⟨v, -, h1⟩⟩ := h.fl.sched.colls u i n τ he hc (by rintro ⟨_, -, h⟩; exact h) (by rintro v - ⟨_, -, h⟩; exact h)
      · rw [hw] at h1; cases h1
      · rw [hw] at h1; cases h1
  have hIn : ∀ n, InR s.fl ch r n ↔ (s.fl.node n).top = some r := by
    intro n
    constructor
    · rintro ⟨q, h1, h2⟩
      obtain ⟨h3, h4⟩ := h0.top q (h0.occ n q h1).1
      rw [h0.otop n q h1, h0.forest.root_unique (h0.occ n q h1).1 h3 h4 h2 hrp]
    · intro h1
      obtain ⟨q, h2, h3, h4, -, -⟩ := h0.node_top_live h1
      exact ⟨q, h2, h4 ▸ (h0.top q h3).1⟩
  -- edges do not leave the region
  have hstay : ∀ u i n, entry g (u, i) = some n → (s.fl.node u).top = some r → ∃ v, n.target = some v ∧ (s.fl.node v).top = some r := by
    intro u i n he hu
    have hc := hcoll u i n he
    have h1 : (localRadius s.fl u).slope = 1 := by rw [hslope u r hu, hsl]
    unfold coll at hc
    cases ht : n.target with
    | none =>
      simp only [ht, h1] at hc
      simp at hc
    | some v =>
      refine ⟨v, rfl, ?_⟩
      simp only [ht] at hc
      by_contra hv
      rw [if_neg] at hc
      · cases hc
      · rw [h1]
        have hv1 : (localRadius s.fl v).slope = 0 ∨ (localRadius s.fl v).slope = 1 := by
          cases htv : (s.fl.node v).top with
          | none =>
            exact .inl (BGeo.local_slope_none htv)
          | some q =>
            obtain ⟨-, -, -, -, hqL, hqp⟩ := h0.node_top_live htv
            have h3 := hns q hqL hqp
            have h4 := h0.slope_cases hqL
            rw [hslope v q htv]
            omega
        rintro (h5 | h5 | h5 | h5)
        · rw [hu] at h5; exact hv h5.symm
        · omega
        · omega
        · omega
  have hodd : (T.filter fun x => (s.fl.node x).top = some r).card % 2 = 1 := by
    have := h0.odd_events h.cyc hrL (fun r => T.filter fun x => InR s.fl ch r x) (fun r x => by simp)
    simp only [hIn] at this
    exact this
  obtain ⟨e, he, hcross⟩ := exists_crossing hes (fun x => (s.fl.node x).top = some r) hodd
  obtain ⟨n, hn⟩ := Option.isSome_iff_exists.1 (hes.1 e he)
  have hfar : far g e = n.target := by unfold far; rw [hn]
  rw [hfar] at hcross
  rcases hcross with ⟨h1, h2⟩ | ⟨h1, v, h2, h3⟩
  · obtain ⟨v, h4, h5⟩ := hstay e.1 e.2 n hn h1
    exact h2 ⟨v, h4, h5⟩
  · obtain ⟨-, j, n', k1, k2, -⟩ := hg.sym e.1 e.2 n v hn h2
    obtain ⟨u, h4, h5⟩ := hstay v j n' k1 h3
    rw [k2, Option.some.injEq] at h4
    subst h4
    exact h1 h5

end Verif.SB
