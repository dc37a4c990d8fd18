import Verif.Blossom.Dissolve
import Verif.Blossom.Advance
import Verif.TrackerWork
import Mathlib.Data.Set.Card

/-!
# Rounds of the decoding loop
-/

namespace Verif.SB

open Verif Verif.Graph Verif.CE Verif.Mem Verif.Spec Verif.Track
open Verif.Sch (Res)

variable {V V' : View} {A : Finset Nat} {ach : Nat → List Nat}
variable {g : MGraph} {T L : Finset Nat} {ch : Nat → List Nat} {t t' : Int} {X Y : Nat → Prop}

/-! ## Time passes -/

theorem Link.advance {s : FS} (h : BGeo g T L ch t s) (h' : BGeo g T L ch t' s) {e : CompressedEdge} {r r' : Nat}
    (hc : (s.reg r).top = (s.reg r').top ∨ sl s (s.reg r).top + sl s (s.reg r').top = 0) (hl : Link g T L ch t s e r r') : Link g T L ch t' s e r r' := by
  obtain ⟨a, b, h1, h2, h3, h4, h5, h6, es, h7, h8, h9⟩ := hl
  refine ⟨a, b, h1, h2, h3, h4, h5, h6, es, h7, ?_, h9⟩
  rw [h8]
  have ta := h.inR_top h5
  have tb := h.inR_top h6
  by_cases hs : (s.reg r).top = (s.reg r').top
  · exact (D_same h t' ta (by rw [tb, hs])).symm
  · rw [h.D_advance h' (.inr (by rw [ta, tb]; simpa using hs)), BGeo.local_slope ta, BGeo.local_slope tb, hc.resolve_left hs]
    omega

theorem BLink.advance {s : FS} (h : BGeo g T L ch t s) (h' : BGeo g T L ch t' s) {e : CompressedEdge} {r : Nat}
    (hc : sl s (s.reg r).top = 0) (hl : BLink g T L ch t s e r) : BLink g T L ch t' s e r := by
  obtain ⟨a, h1, h2, h3, h5, es, h7, h8, h9⟩ := hl
  refine ⟨a, h1, h2, h3, h5, es, h7, ?_, h9⟩
  rw [h8]
  have ta := h.inR_top h5
  have := h.rad_advance h' a
  rw [BGeo.local_slope ta, hc] at this
  unfold rad at this
  omega

/-- The matcher stays in order while the radii change. -/
theorem MOk.steady {s s' : MS} (h : MOk V s A ach) (htop : V'.top = V.top) (hlive : V'.live = V.live) (hsl : V'.sl = V.sl)
    (hlk : ∀ e r r', V.top r → V.top r' → V.sl r + V.sl r' = 0 → V.lk e r r' → V'.lk e r r') (hblk : ∀ e r, V.top r → V.sl r = 0 → V.blk e r → V'.blk e r)
    (e1 : s'.alt = s.alt) (e2 : s'.ralt = s.ralt) (e3 : s'.mate = s.mate) (e4 : s'.alts = s.alts) : MOk V' s' A ach := by
  refine ⟨⟨?_, ?_, ?_, ?_, ?_⟩, ?_⟩
  · rw [e1, e2]
    refine ⟨by rw [htop]; exact h.nodes.outer, by rw [hsl]; exact h.nodes.up, by rw [hsl]; exact h.nodes.grow, ?_, h.nodes.inj⟩
    intro a ha i hi
    obtain ⟨h1, h2, h3⟩ := h.nodes.inner a ha i hi
    rw [htop, hsl]
    exact ⟨h1, h2, hlk _ _ _ h1 (h.nodes.outer a ha).1 (by rw [h2, h.nodes.grow a ha (fun h => h)]; rfl) h3⟩
  · rw [e1]
    refine h.shape.congr (fun _ _ => rfl) (fun _ _ => rfl) ?_ (fun _ _ _ _ h => h)
    intro a ha c hc _ e i _ hi hl
    obtain ⟨h1, h2, -⟩ := h.nodes.inner c hc i hi
    exact ⟨i, hi, hlk _ _ _ (h.nodes.outer a ha).1 h1 (by rw [h2, h.nodes.grow a ha (fun h => h)]; rfl) hl⟩
  · rw [e1, e2, e3]
    refine ⟨?_, by rw [hlive, htop]; exact h.tops.inside⟩
    intro r hr hU
    rw [htop] at hr
    refine (h.tops.cover r hr hU).imp_right fun hm => ⟨by rw [hsl]; exact hm.still, hm.free, ?_⟩
    rcases hm.mate with ⟨k1, k2⟩ | ⟨m, k1, k2, k3, k4, k5, k6, k7⟩
    · exact .inl ⟨k1, hblk _ _ hr hm.still k2⟩
    · exact .inr ⟨m, k1, k2, by rw [htop]; exact k3, by rw [hsl]; exact k4, k5, k6, hlk _ _ _ hr k3 (by rw [hm.still, k4]; rfl) k7⟩
  · rw [e1, e2]; exact h.ptr
  · rw [e4]; exact h.arena
  · rw [e1]; exact h.clean

theorem Cyc.advance {s : FS} (hc : Cyc (view g T L ch t s)) (h : BGeo g T L ch t s) (h' : BGeo g T L ch t' s) : Cyc (view g T L ch t' s) := by
  intro r hr
  refine (hc r hr).imp_right fun ⟨h1, h2, q, h3⟩ => ⟨h1, h2, q, ?_⟩
  have hk : ∀ x ∈ ((view g T L ch t s).kids r).map (·.1), (s.reg x).top = (s.reg r).top := by
    intro x hx
    obtain ⟨hxL, hp⟩ := (h.kids.mem r hr x).1 hx
    refine (h.top_chain hxL ?_).symm
    obtain ⟨hrL, e⟩ := h.forest.step x hxL r hp
    rw [e]
    exact List.mem_cons_of_mem _ (h.forest.self_mem hrL)
  refine h3.mono_on (V := view g T L ch t s) (V' := view g T L ch t' s) (S := fun x => (s.reg x).top = (s.reg r).top) ?_ hk ?_
  · intro e x x' hx hx' hl
    exact Link.advance h h' (.inl (hx.trans hx'.symm)) hl
  · rcases h3.start with h5 | h5
    · exact hk q h5
    · cases hkr : (view g T L ch t s).kids r with
      | nil => rw [hkr] at h2; simp at h2
      | cons x l =>
        rw [hkr] at h3 hk
        exact hk q (by rw [← h3.1]; simp)

theorem MOk.advance {s : MS} (hM : MOk (view g T L ch t s.fl) s A ach) (h : BGeo g T L ch t s.fl) (h' : BGeo g T L ch t' s.fl)
    {s' : MS} (e1 : s'.alt = s.alt) (e2 : s'.ralt = s.ralt) (e3 : s'.mate = s.mate) (e4 : s'.alts = s.alts) : MOk (view g T L ch t' s.fl) s' A ach := by
  refine hM.steady rfl rfl rfl ?_ ?_ e1 e2 e3 e4
  · rintro e r r' ⟨k1, k2⟩ ⟨k3, k4⟩ h0 hl
    refine Link.advance h h' (.inr ?_) hl
    rw [h.top_self k1 k2, h.top_self k3 k4]; exact h0
  · rintro e r ⟨k1, k2⟩ h0 hl
    refine BLink.advance h h' ?_ hl
    rw [h.top_self k1 k2]; exact h0

/-! ## Nothing visible changes -/

theorem Same.view {s s' : FS} (h : Same T ch t s s') : view g T L ch t s' = view g T L ch t s := by
  have hpar : SB.par s' = SB.par s := funext fun r => h.par r
  have hsl : sl s' = sl s := funext fun r => by unfold sl; rw [h.radius]
  unfold SB.view
  congr 1
  · funext r; rw [hpar]
  · funext e r r'; exact propext h.link
  · funext e r; exact propext h.blink
  · funext r; exact h.kids r
  · funext r
    unfold Ev
    rw [rad_congr h.pot]
    exact propext (forall_congr' fun a => forall_congr' fun ha => by rw [h.inR ha])
  · funext r a; exact propext (and_congr_right fun ha => h.inR ha)

/-! ## What is left to do -/

theorem scanIdle_withW (s : FS) (w' : World Owner) (rad1 : Vary.Varying) (l : List Nbr) :
    ∀ i best, scanIdle { s with w := w' } rad1 i l best = scanIdle s rad1 i l best := by
  induction l with
  | nil => intro i best; rfl
  | cons n l ih =>
    intro i best
    simp only [scanIdle, ih]
    rfl

theorem scanGrowing_withW (s : FS) (w' : World Owner) (u : Nat) (rad1 : Vary.Varying) (l : List Nbr) :
    ∀ i best, scanGrowing { s with w := w' } u rad1 i l best = scanGrowing s u rad1 i l best := by
  induction l with
  | nil => intro i best; rfl
  | cons n l ih =>
    intro i best
    simp only [scanGrowing, ih]
    rfl

theorem findNext_withW (s : FS) (w' : World Owner) (u : Nat) : findNext g { s with w := w' } u = findNext g s u := by
  simp only [findNext, scanIdle_withW, scanGrowing_withW]
  rfl

/-- The time of the next event at a node. -/
def nextTime (g : MGraph) (s : FS) (u : Nat) : Option Int :=
  match findNext g s u with
  | .ok (some (_, τ)) => some τ
  | _ => none

/-- The nodes whose wish is not the time of their next event. -/
def Inexact (g : MGraph) (s : FS) : Set Nat := {u | want s (.inl u) ≠ nextTime g s u}

/-- How far a state is from the end of the loop: the number of trees; the events outside growing regions; the regions; the slopes of the nodes;
the nodes with a wish that is out of date; the entries of the queue. -/
noncomputable def effort (g : MGraph) (T L : Finset Nat) (ch : Nat → List Nat) (A : Finset Nat) (s : MS) : Nat × Nat × Nat × Nat × Nat × Nat := by
  classical
  exact ((Roots s.alt A).card, (T.filter fun a => ¬ (view g T L ch 0 s.fl).Out a).card, L.card,
    ∑ u ∈ Finset.range g.nodes.length, (1 - (localRadius s.fl u).slope).toNat, (Inexact g s.fl).ncard, pending s.fl.w)

/-- The lexicographic order of six numbers. -/
def Less : Nat × Nat × Nat × Nat × Nat × Nat → Nat × Nat × Nat × Nat × Nat × Nat → Prop :=
  Prod.Lex (· < ·) (Prod.Lex (· < ·) (Prod.Lex (· < ·) (Prod.Lex (· < ·) (Prod.Lex (· < ·) (· < ·)))))

theorem less_wf : WellFounded Less :=
  WellFounded.prod_lex wellFounded_lt (WellFounded.prod_lex wellFounded_lt (WellFounded.prod_lex wellFounded_lt
    (WellFounded.prod_lex wellFounded_lt (WellFounded.prod_lex wellFounded_lt wellFounded_lt))))

theorem lex_of_le {β : Type} {R : β → β → Prop} {a a' : Nat} {b b' : β} (h : a' ≤ a) (h2 : R b' b) : Prod.Lex (· < ·) R (a', b') (a, b) := by
  rcases h.lt_or_eq with h | rfl
  · exact .left _ _ h
  · exact .right _ h2

theorem effort_prog {L' : Finset Nat} {ch' : Nat → List Nat} {A' : Finset Nat} {s s' : MS}
    (h : Prog (view g T L ch t s.fl) (view g T L' ch' t s'.fl) s.alt s'.alt A A' L L') :
    Less (effort g T L' ch' A' s') (effort g T L ch A s) := by
  classical
  rcases h with h | ⟨h1, h2, h3⟩
  · exact .left _ _ (Finset.card_lt_card h)
  · have h2' : ∀ a, (view g T L ch 0 s.fl).Out a → (view g T L' ch' 0 s'.fl).Out a := h2
    have hsub : (T.filter fun a => ¬ (view g T L' ch' 0 s'.fl).Out a) ⊆ (T.filter fun a => ¬ (view g T L ch 0 s.fl).Out a) := by
      intro a ha
      rw [Finset.mem_filter] at ha ⊢
      exact ⟨ha.1, fun hc => ha.2 (h2' a hc)⟩
    refine lex_of_le (Finset.card_le_card h1) ?_
    rcases h3 with ⟨a, h3, h4⟩ | h3
    · refine .left _ _ (Finset.card_lt_card ⟨hsub, fun hc => ?_⟩)
      have ha : a ∈ T := by obtain ⟨r, -, -, h5, -⟩ := h4; exact h5
      exact (Finset.mem_filter.1 (hc (Finset.mem_filter.2 ⟨ha, h3⟩))).2 h4
    · exact lex_of_le (Finset.card_le_card hsub) (.left _ _ (Finset.card_lt_card h3))

theorem effort_moved {s s' : MS} (hv : view g T L ch t s'.fl = view g T L ch t s.fl) (ha : s'.alt = s.alt) (hm : Moved g s.fl s'.fl)
    (h1 : ∀ x, (localRadius s'.fl x).slope ≤ 1) : Less (effort g T L ch A s') (effort g T L ch A s) := by
  classical
  have hout : ∀ a, (view g T L ch 0 s'.fl).Out a ↔ (view g T L ch 0 s.fl).Out a := by
    intro a
    show (view g T L ch t s'.fl).Out a ↔ (view g T L ch t s.fl).Out a
    rw [hv]
  refine lex_of_le (by rw [ha]) (lex_of_le (by simp only [hout]; exact le_refl _) (lex_of_le (le_refl _) (.left _ _ ?_)))
  obtain ⟨e, he, h2, h3⟩ := hm
  refine Finset.sum_lt_sum (fun x _ => ?_) ⟨e, Finset.mem_range.2 he, ?_⟩
  · by_cases hx : x = e
    · subst hx; omega
    · rw [h3 x hx]
  · have := h1 e; omega

theorem inexact_finite {s : FS} (hw : WInv s.w) : (Inexact g s).Finite := by
  have hfin : {o : Owner | want s o ≠ none}.Finite := by
    classical
    refine Set.Finite.subset (Finset.finite_toSet ((RadixHeap.content s.w.q.buckets).map (·.payload)).toFinset) ?_
    intro o ho
    have hd : (s.w.tr o).hasDesired = true := by
      by_contra hc
      exact ho (by unfold want absW; simp only [hc, if_false]; rfl)
    have := hw.queued o (hw.desired o hd).1
    simp only [Finset.mem_coe, Multiset.mem_toFinset, Multiset.mem_map]
    exact ⟨_, this, rfl⟩
  have h2 : {u : Nat | want s (.inl u) ≠ none}.Finite := hfin.preimage (f := Sum.inl) (Sum.inl_injective.injOn)
  refine Set.Finite.subset (h2.union (Finset.finite_toSet (Finset.range g.nodes.length))) ?_
  intro u hu
  by_cases hlt : u < g.nodes.length
  · exact .inr (by simpa using hlt)
  · left
    intro hc
    refine hu (hc.trans ?_)
    have hadj : adj g u = [] := by unfold adj; rw [List.getElem?_eq_none (by simpa using hlt)]
    unfold nextTime findNext
    simp only [hadj, scanGrowing, scanIdle, ite_self]

theorem effort_stale {s s' : MS} {w' : World Owner} {u : Nat} (hw : WInv s.fl.w) (hn : want s.fl (.inl u) = some w'.q.cur)
    (hwant : (absW w').want = Function.update (absW s.fl.w).want (.inl u) none) (ha : s'.alt = s.alt)
    (hst : Stale g u { s.fl with w := w' } s'.fl) : Less (effort g T L ch A s') (effort g T L ch A s) := by
  classical
  obtain ⟨w2, e1, e2, e3⟩ := hst
  have hview : ∀ a, (view g T L ch 0 s'.fl).Out a ↔ (view g T L ch 0 s.fl).Out a := by rw [e1]; intro a; rfl
  have hnt : ∀ v, nextTime g s'.fl v = nextTime g s.fl v := by
    intro v; rw [e1]; unfold nextTime; rw [findNext_withW, findNext_withW]
  refine lex_of_le (by rw [ha]) (lex_of_le (by simp only [hview]; exact le_refl _) (lex_of_le (le_refl _)
    (lex_of_le (by rw [e1]; exact le_refl _) (.left _ _ (Set.ncard_lt_ncard ⟨?_, ?_⟩ (inexact_finite hw))))))
  · intro v hv
    by_cases hvu : v = u
    · subst hvu
      intro hc
      rw [findNext_withW] at e3
      rw [hn] at hc
      rcases e3 with ⟨e3, -⟩ | ⟨i, τ, e3, e4, -⟩
      · rw [nextTime, e3] at hc; cases hc
      · rw [nextTime, e3] at hc
        exact e4 (Option.some.inj hc).symm
    · intro hc
      refine hv ?_
      rw [hnt, ← hc, e2 (.inl v) (by simpa using hvu)]
      unfold want
      rw [hwant, Function.update_of_ne (by simpa using hvu)]
  · intro hc
    have hu : u ∈ Inexact g s.fl := by
      intro hc
      rw [findNext_withW] at e3
      rw [hn] at hc
      rcases e3 with ⟨e3, -⟩ | ⟨i, τ, e3, e4, -⟩
      · rw [nextTime, e3] at hc; cases hc
      · rw [nextTime, e3] at hc
        exact e4 (Option.some.inj hc).symm
    refine hc hu ?_
    rw [hnt, nextTime]
    rw [findNext_withW] at e3
    rcases e3 with ⟨e3, e4⟩ | ⟨i, τ, e3, -, e4⟩
    · rw [e3, e4]
      unfold want
      rw [hwant, Function.update_self]
    · rw [e3, e4]

theorem effort_silent {s : MS} {w' : World Owner} (hw : WInv s.fl.w) (h : s.fl.w.step .deliver = some (.silent, w'))
    (hwant : (absW w').want = (absW s.fl.w).want) :
    Less (effort g T L ch A { s with fl := { s.fl with w := w' } }) (effort g T L ch A s) := by
  refine .right _ (.right _ (.right _ (.right _ (lex_of_le ?_ (silent_pending _ _ hw h)))))
  refine le_of_eq (congrArg Set.ncard ?_)
  unfold Inexact nextTime want
  simp only [hwant, findNext_withW]

theorem Geo.slope_le {s : FS} (h : Geo g T L ch t s) (x : Nat) : (localRadius s x).slope ≤ 1 := by
  rcases slope_three (h.local_valid x) with h | h | h <;> omega

/-! ## `do_region_shrinking` -/

theorem regionShrinking_spec (hg : Proper g) {s : MS} {r : Nat} (h : SOk g T L ch t (fun x => x = r) s A ach) (hr : (view g T L ch t s.fl).top r)
    (hsl : sl s.fl r = -1) (hst : shrinkTime s.fl r = t) :
    ∃ s1 ev s' L' ch' A' ach', regionShrinking g s r = .ok (s1, ev) ∧ processEvent g s1 ev = .ok s' ∧ SOk g T L' ch' t (fun _ => False) s' A' ach' ∧
      ∀ w, Less (effort g T L' ch' A' s') (effort g T L ch A { s with fl := { s.fl with w := w } }) := by
  have hG := h.fl.geo
  have hy := y_eq s.fl t r
  rw [hsl] at hy
  unfold regionShrinking
  rcases hG.shrinkTime_cases hr.1 hr.2 with ⟨k1, k2⟩ | ⟨n, k1, k2, k3⟩
  · obtain ⟨ev, s', L', ch', A', ach', e1, e2, e3, e4, -⟩ := shattering_spec hg h hr hsl k1 (by omega)
    refine ⟨s, ev, s', L', ch', A', ach', ?_, e2, e3, fun w => effort_prog (t := t) e4⟩
    rw [k1]
    simp only [List.getLast?_nil, e1, Res.bind]
  · rw [k1]
    simp only
    by_cases hc : (s.fl.reg r).shell.length = 1 ∧ (s.fl.reg r).children.isEmpty
    · rw [if_pos hc]
      have hk : (s.fl.reg r).children = [] := List.isEmpty_iff.1 hc.2
      have hrho : (s.fl.node n).rho = 0 := by
        obtain ⟨a, l, e, haT⟩ := hG.seed r hr.1 hk
        have hl := hc.1
        rw [e] at hl
        have : l = [] := List.length_eq_zero_iff.1 (by simpa using hl)
        rw [e, this] at k1
        have hna : a = n := by simpa using k1
        subst hna
        obtain ⟨_, _, -, -, -, e4, -⟩ := hG.event a haT
        exact e4
      obtain ⟨ev, s', L', ch', A', ach', e1, e2, e3, e4⟩ := implosion_spec hg h hr hsl hk (by omega)
      refine ⟨s, ev, s', L', ch', A', ach', ?_, e2, e3, fun w => effort_prog (t := t) e4⟩
      rw [e1]; rfl
    · rw [if_neg hc]
      obtain ⟨a, ha, hi, -⟩ := h.m.shrinker hr hsl
      have hlk := (h.m.nodes.inner a ha r hi).2.2
      have hor := (h.m.nodes.outer a ha).1
      have hne : (s.alt a).outer ≠ r := by
        intro e
        have := h.m.nodes.up a ha
        rw [e] at this
        exact this hsl
      obtain ⟨u, b, -, -, l3, l4, l5, l6, es, l7, -, -⟩ := hlk
      obtain ⟨f, e1, e2, e3, e4, e5, e6⟩ := leave_spec hG hg h.fl.now h.fl.sched hr.1 hr.2 hsl rfl k1 (by omega) hc l7 l3 ((hG.inR_iff hr.1 hr.2).1 l5)
        (fun b' hb' => by
          rw [Option.some.injEq] at hb'
          subst hb'
          refine ⟨l4, ?_⟩
          rw [(hG.inR_iff hor.1 hor.2).1 l6]
          simpa using hne)
      have hv := e5.view (g := g) (L := L)
      refine ⟨{ s with fl := f }, .none, { s with fl := f }, L, ch, A, ach, ?_, rfl, ⟨⟨e3, e2, ?_⟩, ?_, ?_, ?_⟩, ?_⟩
      · show ((leave g s.fl r n).bind _).bind _ = _
        rw [e1]; rfl
      · refine (e4.mono ?_).congrY ?_
        · rintro v ⟨⟨r, -, hf⟩, -⟩; exact hf.elim
        · intro x _ _ _; simp
      · show AInv L f.regs
        rw [e5.regs]; exact h.regs
      · show Cyc (view g T L ch t f)
        rw [hv]; exact h.cyc
      · show MOk (view g T L ch t f) _ A ach
        rw [hv]
        exact ⟨⟨h.m.nodes, h.m.shape, h.m.tops, h.m.ptr, h.m.arena⟩, h.m.clean⟩
      · intro w
        exact effort_moved (t := t) (s := { s with fl := { s.fl with w := w } }) (s' := { s with fl := f }) hv rfl e6 e3.slope_le

/-! ## One round -/

theorem Sched.withWant {s : FS} {w' : World Owner} (h : Sched g L X Y s) (hw : WInv w') (hwant : (absW w').want = (absW s.w).want) :
    Sched g L X Y { s with w := w' } := by
  have e : want { s with w := w' } = want s := by unfold want; exact hwant
  refine ⟨hw, ?_, ?_, ?_⟩
  · intro u i n τ; rw [e]; exact h.colls u i n τ
  · intro u τ; rw [e]; exact h.nodeWant u τ
  · intro r; rw [e]; exact h.regWant r

/-- A node was woken. -/
theorem Sched.wokeNode {s : FS} {w' : World Owner} (h : Sched g L (fun _ => False) Y s) (hw : WInv w') {u : Nat}
    (hwant : (absW w').want = Function.update (absW s.w).want (.inl u) none) : Sched g L (fun v => v = u) Y { s with w := w' } := by
  have e : ∀ o, o ≠ .inl u → want { s with w := w' } o = want s o := by
    intro o ho; unfold want; rw [hwant, Function.update_of_ne ho]
  refine ⟨hw, ?_, ?_, ?_⟩
  · intro v i n τ h1 h2 hv hn
    obtain ⟨t', k1, k2⟩ := h.colls v i n τ h1 h2 (fun h => h) (fun _ _ h => h)
    refine ⟨t', k1, ?_⟩
    rcases k2 with k2 | ⟨z, k2, k3⟩
    · exact .inl (by rw [e _ (by simpa using hv)]; exact k2)
    · exact .inr ⟨z, k2, by rw [e _ (by simpa using hn z k2)]; exact k3⟩
  · intro v τ hv
    rw [e _ (by simpa using hv)]; exact h.nodeWant v τ (fun h => h)
  · intro r; rw [e _ (by simp)]; exact h.regWant r

/-- A region was woken. -/
theorem Sched.wokeRegion {s : FS} {w' : World Owner} (h : Sched g L X (fun _ => False) s) (hw : WInv w') {r : Nat}
    (hwant : (absW w').want = Function.update (absW s.w).want (.inr r) none) : Sched g L X (fun x => x = r) { s with w := w' } := by
  have e : ∀ o, o ≠ .inr r → want { s with w := w' } o = want s o := by
    intro o ho; unfold want; rw [hwant, Function.update_of_ne ho]
  refine ⟨hw, ?_, ?_, ?_⟩
  · intro v i n τ h1 h2 hv hn
    obtain ⟨t', k1, k2⟩ := h.colls v i n τ h1 h2 hv hn
    refine ⟨t', k1, ?_⟩
    rcases k2 with k2 | ⟨z, k2, k3⟩
    · exact .inl (by rw [e _ (by simp)]; exact k2)
    · exact .inr ⟨z, k2, by rw [e _ (by simp)]; exact k3⟩
  · intro v τ hv
    rw [e _ (by simp)]; exact h.nodeWant v τ hv
  · intro x
    by_cases hx : x = r
    · subst hx
      refine ⟨fun hc => absurd rfl hc.2.2.2, fun _ => ?_⟩
      unfold want; rw [hwant, Function.update_self]
    · rw [e _ (by simpa using hx)]
      refine ⟨fun hc => (h.regWant x).1 ⟨hc.1, hc.2.1, hc.2.2.1, fun h => h⟩, fun hc => (h.regWant x).2 fun hc' => hc ⟨hc'.1, hc'.2.1, hc'.2.2.1, hx⟩⟩

theorem processEvent_spec (hg : Proper g) {s : MS} (h : SOk g T L ch t (fun _ => False) s A ach) {ev : MEvent} (hev : EvOk g T L ch t s.fl ev) :
    ∃ s' L' ch' A' ach', processEvent g s ev = .ok s' ∧ SOk g T L' ch' t (fun _ => False) s' A' ach' ∧
      ((ev = .none ∧ s' = s ∧ L' = L ∧ ch' = ch ∧ A' = A) ∨ Prog (view g T L ch t s.fl) (view g T L' ch' t s'.fl) s.alt s'.alt A A' L L') := by
  cases ev with
  | none => exact ⟨s, L, ch, A, ach, rfl, h, .inl ⟨rfl, rfl, rfl, rfl, rfl⟩⟩
  | hitRegion r1 r2 e =>
    obtain ⟨h1, h2, h3, h4, h5, h6, h7, h8, h9⟩ := hev
    obtain ⟨s', L', ch', A', ach', e1, e2, e3⟩ := regionHitsRegion_spec hg h h1 ⟨h2, h4⟩ ⟨h3, h5⟩ h6 h7 h8 h9
    exact ⟨s', L', ch', A', ach', e1, e2, .inr e3⟩
  | hitBoundary r e =>
    obtain ⟨h1, h2, h3, h4⟩ := hev
    obtain ⟨s', A', ach', e1, e2, e3⟩ := treeHitsBoundary_spec hg h ⟨h1, h2⟩ h3 h4
    exact ⟨s', L, ch, A', ach', e1, e2, .inr e3⟩
  | shatter _ _ _ => exact hev.elim

/-- One round either ends the loop, with nobody waiting, or leads to another state in order. -/
theorem round_spec (hg : Proper g) {s : MS} (h : SOk g T L ch t (fun _ => False) s A ach) :
    (round g s = .ok none ∧ (∀ o, want s.fl o = none) ∧ s.fl.w.step .deliver = some (.idle, s.fl.w)) ∨
    ∃ s' t' L' ch' A' ach', round g s = .ok (some s') ∧ t ≤ t' ∧ SOk g T L' ch' t' (fun _ => False) s' A' ach' ∧
      Less (effort g T L' ch' A' s') (effort g T L ch A s) := by
  have hs : Sched g L (fun _ => False) (fun _ => False) s.fl := h.fl.sched.mono (by rintro u ⟨r, -, hf⟩; exact hf)
  by_cases h0 : RadixHeap.content s.fl.w.q.buckets = 0
  · obtain ⟨e1, e2⟩ := deliver_idle s.fl.w hs.winv h0
    left
    refine ⟨?_, e2, e1⟩
    unfold round
    rw [e1]
  · right
    obtain ⟨out, w', e1, e2, e3, e4, e5, -⟩ := deliver_spec s.fl.w hs.winv h0
    have hnow : s.fl.w.q.cur = t := h.fl.now
    rw [hnow] at e3
    generalize ht' : w'.q.cur = t' at e3 e4 e5
    have hG := h.fl.geo.advance hs e3 e4
    have hM : MOk (view g T L ch t' s.fl) { s with fl := { s.fl with w := w' } } A ach := h.m.advance h.fl.geo.toBGeo hG.toBGeo rfl rfl rfl rfl
    have hC := h.cyc.advance h.fl.geo.toBGeo hG.toBGeo
    rcases e5 with ⟨rfl, e5⟩ | ⟨o, rfl, ho, e5⟩
    · -- nobody is woken
      have hwant : (absW w').want = (absW s.fl.w).want := by rw [e5]
      refine ⟨{ s with fl := { s.fl with w := w' } }, t', L, ch, A, ach, ?_, e3, ⟨⟨hG.withW w', ht', ?_⟩, h.regs, hC, hM⟩, effort_silent hs.winv e1 hwant⟩
      · unfold round; rw [e1]
      · exact (hs.withWant e2 hwant).mono (fun _ h => h.elim)
    · have hwant : (absW w').want = Function.update (absW s.fl.w).want o none := by rw [e5]
      cases o with
      | inl u =>
        have hu := hs.nodeWant u t' (fun h => h) ho
        obtain ⟨f, ev, k1, k2, k3, k4, k5, k6, k7⟩ := lookAt_spec (hG.withW w') hg (s := { s.fl with w := w' }) ht' (hs.wokeNode e2 hwant) (u := u) hu
        have hv := k5.view (g := g) (L := L)
        have hv' : view g T L ch t' f = view g T L ch t' s.fl := hv
        have hS : SOk g T L ch t' (fun _ => False) { s with fl := f } A ach := by
          refine ⟨⟨k3, k2, k4.mono (fun v h => absurd h.1 h.2)⟩, ?_, ?_, ?_⟩
          · show AInv L f.regs
            rw [k5.regs]; exact h.regs
          · show Cyc (view g T L ch t' f)
            rw [hv']; exact hC
          · show MOk (view g T L ch t' f) _ A ach
            rw [hv']
            exact ⟨⟨hM.nodes, hM.shape, hM.tops, hM.ptr, hM.arena⟩, hM.clean⟩
        obtain ⟨s', L', ch', A', ach', p1, p2, p3⟩ := processEvent_spec hg hS k6
        refine ⟨s', t', L', ch', A', ach', ?_, e3, p2, ?_⟩
        · unfold round
          rw [e1]
          simp only [k1, Res.bind, p1]
        · rcases p3 with ⟨q1, rfl, rfl, rfl, rfl⟩ | p3
          · rcases k7 q1 with k7 | k7
            · exact effort_moved (s := s) (s' := { s with fl := f }) hv' rfl k7 k3.slope_le
            · exact effort_stale (s := s) (s' := { s with fl := f }) hs.winv (by rw [ht']; exact ho) hwant rfl k7
          · refine effort_prog (t := t') (s := s) (s' := s') ?_
            rw [← hv']
            exact p3
      | inr r =>
        have hc : r ∈ L ∧ par s.fl r = none ∧ sl s.fl r = -1 ∧ ¬ False := by
          by_contra hc
          have ho' : want s.fl (.inr r) = some t' := ho
          rw [(hs.regWant r).2 hc] at ho'
          cases ho'
        have hst : shrinkTime s.fl r = t' := by
          have := (hs.regWant r).1 hc
          have ho' : want s.fl (.inr r) = some t' := ho
          rw [this, Option.some.injEq] at ho'
          exact ho'
        have hS : SOk g T L ch t' (fun x => x = r) { s with fl := { s.fl with w := w' } } A ach :=
          ⟨⟨hG.withW w', ht', (hs.wokeRegion e2 hwant).mono (fun _ h => h.elim)⟩, h.regs, hC, hM⟩
        obtain ⟨s1, ev, s', L', ch', A', ach', k1, k2, k3, k4⟩ := regionShrinking_spec hg hS ⟨hc.1, hc.2.1⟩ hc.2.2.1 hst
        refine ⟨s', t', L', ch', A', ach', ?_, e3, k3, ?_⟩
        · unfold round
          rw [e1]
          simp only [k1, Res.bind, k2]
        · exact k4 s.fl.w

/-- The state in which a region is woken. -/
theorem woken_region {s : MS} (h : SOk g T L ch t (fun _ => False) s A ach) {r : Nat} {τ : Int} {w' : World Owner}
    (hd : s.fl.w.step .deliver = some (.ring (.inr r) τ, w')) :
    ∃ t', SOk g T L ch t' (fun x => x = r) { s with fl := { s.fl with w := w' } } A ach ∧ (view g T L ch t' s.fl).top r ∧ sl s.fl r = -1 ∧
      shrinkTime s.fl r = t' := by
  have hs : Sched g L (fun _ => False) (fun _ => False) s.fl := h.fl.sched.mono (by rintro u ⟨r, -, hf⟩; exact hf)
  by_cases h0 : RadixHeap.content s.fl.w.q.buckets = 0
  · rw [(deliver_idle s.fl.w hs.winv h0).1] at hd
    cases hd
  · obtain ⟨out, w2, e1, e2, e3, e4, e5, -⟩ := deliver_spec s.fl.w hs.winv h0
    rw [e1] at hd
    cases hd
    have hnow : s.fl.w.q.cur = t := h.fl.now
    rw [hnow] at e3
    generalize ht' : w'.q.cur = t' at e3 e4 e5
    have hG := h.fl.geo.advance hs e3 e4
    have hM : MOk (view g T L ch t' s.fl) { s with fl := { s.fl with w := w' } } A ach := h.m.advance h.fl.geo.toBGeo hG.toBGeo rfl rfl rfl rfl
    have hC := h.cyc.advance h.fl.geo.toBGeo hG.toBGeo
    rcases e5 with ⟨e, -⟩ | ⟨o, e, ho, e5⟩
    · cases e
    · cases e
      have hwant : (absW w').want = Function.update (absW s.fl.w).want (.inr r) none := by rw [e5]
      have ho' : want s.fl (.inr r) = some τ := ho
      have hc : r ∈ L ∧ par s.fl r = none ∧ sl s.fl r = -1 ∧ ¬ False := by
        by_contra hc
        rw [(hs.regWant r).2 hc] at ho'
        cases ho'
      rw [(hs.regWant r).1 hc, Option.some.injEq] at ho'
      exact ⟨τ, ⟨⟨hG.withW w', ht', (hs.wokeRegion e2 hwant).mono (fun _ h => h.elim)⟩, h.regs, hC, hM⟩, ⟨hc.1, hc.2.1⟩, hc.2.2.1, ho'⟩

/-- The loop never fails, and if it ends, the state is in order and nobody waits. -/
theorem runLoop_spec (hg : Proper g) (f : Nat) : ∀ {s : MS} {L : Finset Nat} {ch : Nat → List Nat} {t : Int} {A : Finset Nat} {ach : Nat → List Nat},
    SOk g T L ch t (fun _ => False) s A ach →
    runLoop g f s = none ∨ ∃ s' t' L' ch' A' ach', runLoop g f s = some (.ok s') ∧ t ≤ t' ∧ SOk g T L' ch' t' (fun _ => False) s' A' ach' ∧
      (∀ o, want s'.fl o = none) ∧ s'.fl.w.step .deliver = some (.idle, s'.fl.w) := by
  induction f with
  | zero => intro s L ch t A ach _; exact .inl rfl
  | succ f ih =>
    intro s L ch t A ach h
    rcases round_spec hg h with ⟨e, hw, hd⟩ | ⟨s', t', L', ch', A', ach', e, ht, h', -⟩
    · refine .inr ⟨s, t, L, ch, A, ach, ?_, le_refl _, h, hw, hd⟩
      simp only [runLoop, e]
    · rcases ih h' with k | ⟨s2, t2, L2, ch2, A2, ach2, k1, k2, k3⟩
      · left
        simp only [runLoop, e, k]
      · refine .inr ⟨s2, t2, L2, ch2, A2, ach2, ?_, by omega, k3⟩
        simp only [runLoop, e, k1]

/-- The loop ends. -/
theorem runLoop_ends (hg : Proper g) {s : MS} (h : SOk g T L ch t (fun _ => False) s A ach) : ∃ f s', runLoop g f s = some (.ok s') := by
  generalize hm : effort g T L ch A s = m
  induction m using less_wf.induction generalizing s L ch t A ach with
  | _ m ih =>
    rcases round_spec hg h with ⟨e, -⟩ | ⟨s', t', L', ch', A', ach', e, -, h', hl⟩
    · exact ⟨1, s, by simp only [runLoop, e]⟩
    · obtain ⟨f, s2, hf⟩ := ih _ (hm ▸ hl) h' rfl
      exact ⟨f + 1, s2, by simp only [runLoop, e, hf]⟩

/-- More fuel changes nothing. -/
theorem runLoop_mono {f : Nat} : ∀ {s : MS} {x : Res MS}, runLoop g f s = some x → ∀ k, f ≤ k → runLoop g k s = some x := by
  induction f with
  | zero => intro s x h; cases h
  | succ f ih =>
    intro s x h k hk
    obtain ⟨k, rfl⟩ : ∃ j, k = j + 1 := ⟨k - 1, by omega⟩
    simp only [runLoop] at h ⊢
    cases hr : round g s with
    | ok o =>
      rw [hr] at h
      cases o with
      | none => exact h
      | some s1 => exact ih h k (by omega)
    | ub => rw [hr] at h; exact h
    | throws => rw [hr] at h; exact h

end Verif.SB
