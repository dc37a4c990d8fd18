import Verif.SearchInv

/-!
# The main loop of the search flooder

Termination of `run_until_collision` and the state it stops in.
-/

namespace Verif.Sch

open Verif Verif.Graph Verif.Track Verif.Spec Verif.RadixHeap Verif.Props.EdgeMarks

/-- Node `u` meets the other search, or the boundary, along its neighbour `i` now. -/
def Collides (g : SGraph) (s : SS) (u i : Nat) : Prop :=
  ∃ n, nbr g u i = some n ∧ s.reached u ≠ none ∧ ev s.toBoundary s.reached s.dist u n = some s.w.q.cur ∧
    ∀ v, n.target = some v → s.reached v ≠ none

/-- Number of nodes not reached yet. -/
def m1 (g : SGraph) (s : SS) : Nat := ((Finset.range g.nodes.length).filter fun u => s.reached u = none).card

/-- Number of nodes that will be woken too early. -/
def m2 (g : SGraph) (s : SS) : Nat :=
  ((Finset.range g.nodes.length).filter fun u =>
    (absW s.w).want u ≠ none ∧ (absW s.w).want u ≠ (next g s.toBoundary s.reached s.dist u).map (·.2)).card

theorem look_spec {g : SGraph} (hg : Good g) {S : Nat → Prop} {s : SS} {want : Nat → Option Int} (h : SInv g S s want) (u : Nat)
    (hu : want u = some s.w.q.cur) (habs : (absW s.w).want = Function.update want u none) :
    ∃ s' o, look g s u = .ok (s', o) ∧ s'.toBoundary = s.toBoundary ∧
      ((∃ i, o = some (u, i) ∧ s' = s ∧ Collides g s u i) ∨
       (o = none ∧ SInv g S s' (absW s'.w).want ∧
         (m1 g s' < m1 g s ∨
          (s'.reached = s.reached ∧ s'.dist = s.dist ∧
            (absW s'.w).want = Function.update want u ((next g s.toBoundary s.reached s.dist u).map (·.2)) ∧
            (next g s.toBoundary s.reached s.dist u).map (·.2) ≠ some s.w.q.cur)))) := by
  have hr : s.reached u ≠ none := (h.core.wants u _ hu).1
  obtain ⟨a, ha⟩ := Option.ne_none_iff_exists'.1 hr
  obtain ⟨hSa, hul, hd0, hdc, hde⟩ := h.core.reach u a ha
  have hev : ∀ v, s.reached v ≠ none → Even (s.dist v) := by
    intro v hv
    obtain ⟨b, hb⟩ := Option.ne_none_iff_exists'.1 hv
    exact (h.core.reach v b hb).2.2.2.2
  have hdle : ∀ v, s.reached v ≠ none → s.dist v ≤ s.w.q.cur := by
    intro v hv
    obtain ⟨b, hb⟩ := Option.ne_none_iff_exists'.1 hv
    exact (h.core.reach v b hb).2.2.2.1
  unfold look
  rw [findNext_next hg s u hde hul hev]
  cases hn : next g s.toBoundary s.reached s.dist u with
  | none =>
    refine ⟨s, none, rfl, rfl, .inr ⟨rfl, ?_, .inr ⟨rfl, rfl, ?_, by simp⟩⟩⟩
    · rw [habs]
      have hc := next_Covers g s.toBoundary s.reached s.dist u
      rw [hn] at hc
      exact ⟨h.w, h.core.rewish u hr none hc (by simp) hg, h.trace, h.clean⟩
    · rw [habs]; rfl
  | some x =>
    obtain ⟨i, t⟩ := x
    obtain ⟨n, hs, hT⟩ := next_is g _ _ _ u i t hn
    have htge := h.core.ev_ge u i n hr hs t hT
    have htlt := ev_lt hg _ _ _ _ u hdc hdle i n hs t hT
    simp only [Res.bind]
    by_cases htc : t = s.w.q.cur
    · rw [if_pos htc, hs]
      simp only
      cases ht : n.target with
      | none =>
        exact ⟨s, _, rfl, rfl, .inl ⟨i, rfl, rfl, n, hs, hr, by rw [hT, htc], by rw [ht]; simp⟩⟩
      | some v =>
        simp only
        by_cases hv : s.reached v = none
        · rw [if_pos ⟨hr, hv⟩]
          obtain ⟨hvu, j, n', hs', ht', hw, -⟩ := hg.simple.sym u i n v hs ht
          have hidx : indexOf g v (some u) = .ok j := by rw [← ht']; exact indexOf_eq hg.simple hs'
          rw [hidx]
          simp only
          have hdv : (n'.weight : Int) + s.dist u = s.w.q.cur := by
            unfold ev at hT
            simp only [ht, hv] at hT
            rw [if_neg (fun h => hr h.symm), if_pos trivial] at hT
            cases hT
            rw [hw]
            omega
          have hcur : Even s.w.q.cur := by
            rw [← hdv]
            have := hg.even v j n' hs'
            exact Even.add (by exact_mod_cast this) hde
          have hvl : v < g.nodes.length := by
            obtain ⟨l, hl, -⟩ := mem_slot.1 hs'
            exact (List.getElem?_eq_some_iff.1 hl).1
          obtain ⟨es, hes⟩ := h.trace u a ha
          obtain ⟨w', e1, e2, x, e3, e4⟩ := h.reachNode hg v a S hv hvl hcur hSa (fun _ h => h) (fun _ h => .inl h) (some j)
            ⟨(v, j) :: es, .step (by rw [Function.update_self]) (by rw [Function.update_self]) hs' ht'
              (by rw [Function.update_self, Function.update_of_ne (Ne.symm hvu), hdv]) (hes.mono v hv _ _ _)⟩
          have hexp : explore g s v j = .ok { s with
              reached := Function.update s.reached v (some a),
              pred := Function.update s.pred v (some j), dist := Function.update s.dist v s.w.q.cur,
              reachedNodes := s.reachedNodes ++ [v], w := w' } := by
            unfold explore
            simp only [hs', ht']
            rw [ha, hdv]
            exact e1
          rw [hexp]
          simp only
          obtain ⟨f1, f2, f3, f4⟩ := wish_spec w' e4.w u w'.q.cur (le_refl _) (by omega)
          refine ⟨_, _, rfl, rfl, .inr ⟨rfl, ?_, .inl ?_⟩⟩
          · have hwant : (absW (wish w' u w'.q.cur)).want = Function.update want v x := by
              rw [f3, e3, habs, e2]
              funext y
              by_cases hyu : y = u
              · subst hyu
                rw [Function.update_self, Function.update_of_ne (Ne.symm hvu), hu]
              · rw [Function.update_of_ne hyu]
                by_cases hyv : y = v
                · subst hyv; rw [Function.update_self, Function.update_self]
                · rw [Function.update_of_ne hyv, Function.update_of_ne hyu, Function.update_of_ne hyv]
            simp only
            rw [hwant]
            refine ⟨f1, ?_, e4.trace, ?_⟩
            · simp only
              rw [f2]
              exact e4.core
            · intro y hy
              simp only at hy ⊢
              obtain ⟨c1, c2, c3⟩ := e4.clean y hy
              refine ⟨c1, c2, ?_⟩
              rw [f4 y ?_]
              · exact c3
              · rintro rfl
                simp only at c1
                rw [Function.update_of_ne (Ne.symm hvu)] at c1
                exact hr c1
          · refine Finset.card_lt_card ?_
            rw [Finset.ssubset_iff_of_subset]
            · refine ⟨v, by simp [hvl, hv], by simp⟩
            · intro y hy
              simp only [Finset.mem_filter, Finset.mem_range] at hy ⊢
              refine ⟨hy.1, ?_⟩
              by_cases hyv : y = v
              · subst hyv; exact hv
              · rw [Function.update_of_ne hyv] at hy
                exact hy.2
        · rw [if_neg (by rintro ⟨-, h⟩; exact hv h)]
          exact ⟨s, _, rfl, rfl, .inl ⟨i, rfl, rfl, n, hs, hr, by rw [hT, htc], by rw [ht]; rintro _ ⟨⟩; exact hv⟩⟩
    · rw [if_neg htc]
      obtain ⟨f1, f2, f3, f4⟩ := wish_spec s.w h.w u t htge htlt
      have hwant : (absW (wish s.w u t)).want = Function.update want u (some t) := by
        rw [f3, habs, Function.update_idem]
      refine ⟨_, _, rfl, rfl, .inr ⟨rfl, ?_, .inr ⟨rfl, rfl, hwant, by simpa using htc⟩⟩⟩
      have hc := next_Covers g s.toBoundary s.reached s.dist u
      rw [hn] at hc
      simp only
      rw [hwant]
      refine ⟨f1, ?_, h.trace, ?_⟩
      · simp only
        rw [f2]
        exact h.core.rewish u hr (some t) hc (by rintro _ ⟨⟩; exact htge) hg
      · intro y hy
        obtain ⟨c1, c2, c3⟩ := h.clean y hy
        refine ⟨c1, c2, ?_⟩
        simp only
        rw [f4 y ?_]
        · exact c3
        · rintro rfl; exact hr c1

/-- Induction on three measures in order. -/
theorem lex3 {α : Type} (a b c : α → Nat) (P : α → Prop)
    (h : ∀ x, (∀ y, (a y < a x ∨ (a y = a x ∧ (b y < b x ∨ (b y = b x ∧ c y < c x)))) → P y) → P x) : ∀ x, P x := by
  have wf : WellFounded (Prod.Lex (· < ·) (Prod.Lex (· < ·) (· < ·)) : Nat × Nat × Nat → Nat × Nat × Nat → Prop) :=
    WellFounded.prod_lex wellFounded_lt (WellFounded.prod_lex wellFounded_lt wellFounded_lt)
  intro x
  refine WellFounded.induction (r := InvImage (Prod.Lex (· < ·) (Prod.Lex (· < ·) (· < ·))) fun x => (a x, b x, c x))
    (InvImage.wf _ wf) x ?_
  intro x ih
  refine h x ?_
  intro y hy
  refine ih y ?_
  simp only [InvImage, Prod.lex_def]
  exact hy

/-- Where the loop stops: no event left, or a collision. -/
def Stopped (g : SGraph) (S : Nat → Prop) (s' : SS) (o : Option (Nat × Nat)) : Prop :=
  ∃ want, SInv g S s' want ∧
    ((o = none ∧ ∀ u, want u = none) ∨ ∃ u i, o = some (u, i) ∧ Collides g s' u i)

theorem loop_stops {g : SGraph} (hg : Good g) {S : Nat → Prop} : ∀ s : SS, SInv g S s (absW s.w).want →
    ∃ N s' o, (∀ fuel, N ≤ fuel → loop g fuel s = some (.ok (s', o))) ∧ s'.toBoundary = s.toBoundary ∧ Stopped g S s' o := by
  refine lex3 (m1 g) (m2 g) (fun s => pending s.w) _ ?_
  intro s ih h
  by_cases h0 : content s.w.q.buckets = 0
  · obtain ⟨e1, e2⟩ := deliver_idle s.w h.w h0
    refine ⟨1, s, none, ?_, rfl, _, h, .inl ⟨rfl, e2⟩⟩
    intro fuel hf
    obtain ⟨fuel, rfl⟩ : ∃ k, fuel = k + 1 := ⟨fuel - 1, by omega⟩
    simp only [loop, e1]
  · obtain ⟨out, w', e1, e2, e3, e4, e5, -⟩ := deliver_spec s.w h.w h0
    have hcore := h.core.advance w'.q.cur e3 e4
    have hclean : ∀ u, u ∉ s.reachedNodes → s.reached u = none ∧ s.pred u = none ∧ w'.tr u = {} := by
      intro u hu
      obtain ⟨c1, c2, c3⟩ := h.clean u hu
      exact ⟨c1, c2, deliver_tr _ _ _ e1 u c3⟩
    rcases e5 with ⟨rfl, e5⟩ | ⟨u, rfl, hu, e5⟩
    · -- nobody is woken
      have hwant : (absW w').want = (absW s.w).want := by rw [e5]
      obtain ⟨N, s', o, f1, f2, f3⟩ := ih { s with w := w' } (.inr ⟨rfl, .inr ⟨by unfold m2; simp only [hwant],
        silent_pending _ _ h.w e1⟩⟩) ⟨e2, by simp only; rw [hwant]; exact hcore, h.trace, hclean⟩
      refine ⟨N + 1, s', o, ?_, f2, f3⟩
      intro fuel hf
      obtain ⟨fuel, rfl⟩ : ∃ k, fuel = k + 1 := ⟨fuel - 1, by omega⟩
      simp only [loop, e1]
      exact f1 fuel (by omega)
    · have hinv : SInv g S { s with w := w' } (absW s.w).want := ⟨e2, hcore, h.trace, hclean⟩
      obtain ⟨s', o, f1, f2, f3⟩ := look_spec hg hinv u hu (by simp only; rw [e5])
      rcases f3 with ⟨i, rfl, rfl, f3⟩ | ⟨rfl, f3, f4⟩
      · refine ⟨1, _, _, ?_, f2, _, hinv, .inr ⟨u, i, rfl, f3⟩⟩
        intro fuel hf
        obtain ⟨fuel, rfl⟩ : ∃ k, fuel = k + 1 := ⟨fuel - 1, by omega⟩
        simp only [loop, e1, f1]
      · have hdec : m1 g s' < m1 g s ∨ (m1 g s' = m1 g s ∧ (m2 g s' < m2 g s ∨ (m2 g s' = m2 g s ∧ pending s'.w < pending s.w))) := by
          rcases f4 with f4 | ⟨g1, g2, g3, g4⟩
          · exact .inl f4
          · refine .inr ⟨by unfold m1; rw [g1], .inl ?_⟩
            unfold m2
            simp only at g1 g2 g3 g4 f2
            rw [g1, g2, g3, f2]
            refine Finset.card_lt_card ?_
            rw [Finset.ssubset_iff_of_subset]
            · refine ⟨u, ?_, by simp⟩
              simp only [Finset.mem_filter, Finset.mem_range]
              obtain ⟨a, ha⟩ := Option.ne_none_iff_exists'.1 (h.core.wants u _ hu).1
              refine ⟨(h.core.reach u a ha).2.1, by rw [hu]; simp, by rw [hu]; exact Ne.symm g4⟩
            · intro y hy
              simp only [Finset.mem_filter, Finset.mem_range] at hy ⊢
              refine ⟨hy.1, ?_⟩
              by_cases hyu : y = u
              · subst hyu
                rw [Function.update_self] at hy
                exact absurd rfl hy.2.2
              · rw [Function.update_of_ne hyu] at hy
                exact hy.2
        obtain ⟨N, s'', o, i1, i2, i3⟩ := ih s' hdec f3
        refine ⟨N + 1, s'', o, ?_, by rw [i2, f2], i3⟩
        intro fuel hf
        obtain ⟨fuel, rfl⟩ : ∃ k, fuel = k + 1 := ⟨fuel - 1, by omega⟩
        simp only [loop, e1, f1]
        exact i1 fuel (by omega)

end Verif.Sch
