import Verif.Blossom.NodeOps

/-!
# Looking at a node
-/

namespace Verif.SB

open Verif Verif.Graph Verif.CE Verif.Vary Verif.Track Verif.Spec Verif.Mem
open Verif.Sch (Res better)

variable {g : MGraph} {T L : Finset Nat} {ch : Nat → List Nat} {t : Int} {s : FS}

/-- What a notification of a collision says. -/
def EvOk (g : MGraph) (T L : Finset Nat) (ch : Nat → List Nat) (t : Int) (s : FS) : MEvent → Prop
  | .none => True
  | .hitRegion r1 r2 e => r1 ≠ r2 ∧ r1 ∈ L ∧ r2 ∈ L ∧ par s r1 = none ∧ par s r2 = none ∧ sl s r1 ≠ -1 ∧ sl s r2 ≠ -1 ∧
      sl s r1 + sl s r2 ≠ 0 ∧ Link g T L ch t s e r1 r2
  | .hitBoundary r e => r ∈ L ∧ par s r = none ∧ sl s r = 1 ∧ BLink g T L ch t s e r
  | .shatter _ _ _ => False

theorem indexOfNbr_spec (hg : Proper g) {u i v : Nat} {n : Nbr} (he : entry g (u, i) = some n) (hv : n.target = some v) :
    ∃ j n', indexOfNbr g v u = .ok j ∧ entry g (v, j) = some n' ∧ n'.target = some u ∧ n'.weight = n.weight ∧ n'.obs = n.obs := by
  obtain ⟨-, j, n', e1, e2, e3, e4⟩ := hg.sym u i n v he hv
  have h1 : (adj g v)[j]? = some n' := by rw [← entry_eq]; exact e1
  obtain ⟨hj, hj'⟩ := List.getElem?_eq_some_iff.1 h1
  have hidx : (adj g v).findIdx? (fun n => n.target == some u) = some j := by
    rw [List.findIdx?_eq_some_iff_getElem]
    refine ⟨hj, by simp [hj', e2], ?_⟩
    intro k hk
    simp only [beq_iff_eq]
    intro hkt
    have hnd : ((adj g v).map (·.target)).Nodup := by
      unfold adj
      cases hgv : g.nodes[v]? with
      | none => simp
      | some l => exact hg.nodup v l hgv
    have h2 : ((adj g v).map (·.target))[k]'(by simp; omega) = ((adj g v).map (·.target))[j]'(by simpa using hj) := by
      simp [hkt, hj', e2]
    have := (List.Nodup.getElem_inj_iff hnd).1 h2
    omega
  refine ⟨j, n', ?_, e1, e2, e3, e4⟩
  unfold indexOfNbr
  rw [hidx]

theorem Geo.link_now (h : Geo g T L ch t s) (hg : Proper g) {u v i qu qv : Nat} {n : Nbr} (he : entry g (u, i) = some n)
    (hv : n.target = some v) (hu : (s.node u).arr = some qu) (hva : (s.node v).arr = some qv)
    (hne : (s.node u).top ≠ (s.node v).top) (hw : rad s L ch t u + rad s L ch t v = n.weight) :
    ∃ r1 r2, (s.node u).top = some r1 ∧ (s.node v).top = some r2 ∧ r1 ≠ r2 ∧ r1 ∈ L ∧ r2 ∈ L ∧ par s r1 = none ∧ par s r2 = none ∧
      Link g T L ch t s ⟨(s.node u).src, (s.node v).src, (s.node u).obs ^^^ (s.node v).obs ^^^ n.obs⟩ r1 r2 := by
  have hut := h.otop u qu hu
  have hvt := h.otop v qv hva
  obtain ⟨-, -, -, -, hrL, hrp⟩ := h.node_top_live hut
  obtain ⟨-, -, -, -, hrL', hrp'⟩ := h.node_top_live hvt
  obtain ⟨a, haT, a1, a2, es, a3, a4, a5⟩ := h.src u qu hu
  obtain ⟨b, hbT, b1, b2, fs, b3, b4, b5⟩ := h.src v qv hva
  obtain ⟨fs', c1, c2, c3⟩ := walk_reverse hg b3
  have hat := h.inR_top a2
  have hbt := h.inR_top b2
  refine ⟨_, _, hut, hvt, fun e => hne (by rw [hut, hvt, e]), hrL, hrL', hrp, hrp', a, b, a1, b1, haT, hbT,
    h.inR_of_top hat, h.inR_of_top hbt, es ++ ((u, i) :: fs'), walk_append a3 (.step he hv c1), ?_, ?_⟩
  · rw [totalWeight_append, totalWeight_cons, slotWeight_eq he, c2, a4, b4, h.D_inside haT hu a2, h.D_inside hbT hva b2,
      h.D_apart (.inr (by rw [hat, hbt, ← hut, ← hvt]; exact hne))]
    omega
  · rw [totalObs_append, a5]
    simp only [totalObs]
    rw [slotObs_eq he, c3, b5, BitVec.xor_assoc, BitVec.xor_comm n.obs]

theorem Geo.blink_now (h : Geo g T L ch t s) {u i qu : Nat} {n : Nbr} (he : entry g (u, i) = some n)
    (hv : n.target = none) (hu : (s.node u).arr = some qu) (hw : rad s L ch t u = n.weight) :
    ∃ r, (s.node u).top = some r ∧ r ∈ L ∧ par s r = none ∧
      BLink g T L ch t s ⟨(s.node u).src, none, (s.node u).obs ^^^ n.obs⟩ r := by
  have hut := h.otop u qu hu
  obtain ⟨-, -, -, -, hrL, hrp⟩ := h.node_top_live hut
  obtain ⟨a, haT, a1, a2, es, a3, a4, a5⟩ := h.src u qu hu
  have hat := h.inR_top a2
  refine ⟨_, hut, hrL, hrp, a, a1, rfl, haT, h.inR_of_top hat, es ++ [(u, i)], walk_append a3 (.exit he hv), ?_, ?_⟩
  · rw [totalWeight_append, totalWeight_cons, slotWeight_eq he, totalWeight_nil, a4, h.D_inside haT hu a2]
    change _ = rad s L ch t a
    omega
  · rw [totalObs_append, a5]
    simp [totalObs, slotObs_eq he]

/-- `do_neighbor_interaction` at the moment of a collision. -/
theorem interact_spec (h : Geo g T L ch t s) (hg : Proper g) (ht : s.now = t) {X Y : Nat → Prop} (hs : Sched g L X Y s)
    {u i v : Nat} {n : Nbr} (he : entry g (u, i) = some n) (hv : n.target = some v)
    (hne : (s.node u).top ≠ (s.node v).top) (h1 : (localRadius s u).slope ≠ -1) (h2 : (localRadius s v).slope ≠ -1)
    (h3 : (localRadius s u).slope + (localRadius s v).slope ≠ 0) (hw : rad s L ch t u + rad s L ch t v = n.weight) :
    ∃ s' ev, interact g s u i v = .ok (s', ev) ∧ s'.now = t ∧ Geo g T L ch t s' ∧ Sched g L X Y s' ∧ Same T ch t s s' ∧
      EvOk g T L ch t s' ev ∧ (ev = .none → Moved g s s') := by
  have grow : ∀ x z, (localRadius s x).slope + (localRadius s z).slope ≠ 0 → (localRadius s x).slope ≠ -1 →
      (s.node z).arr = none → (localRadius s x).slope = 1 ∧ rad s L ch t z = 0 := by
    intro x z hx1 hx2 hz
    rw [BGeo.local_slope_none ((h.arr_none_iff z).1 hz)] at hx1
    refine ⟨?_, h.rad_empty hz⟩
    rcases slope_three (h.local_valid x) with a | a | a <;> omega
  unfold interact
  cases hu : (s.node u).arr with
  | none =>
    cases hva : (s.node v).arr with
    | none =>
      rw [(h.arr_none_iff u).1 hu, (h.arr_none_iff v).1 hva] at hne
      exact absurd rfl hne
    | some qv =>
      obtain ⟨g1, g2⟩ := grow v u (by omega) h2 hu
      have hvt := h.otop v qv hva
      obtain ⟨j, n', e1, e2, e3, e4, e5⟩ := indexOfNbr_spec hg he hv
      rw [BGeo.local_slope hvt] at g1
      obtain ⟨s', a1, a2, a3, a4, a5, a6⟩ := arrive_spec h hg ht hs hu hvt e2 e3 g1 (by omega)
      refine ⟨s', .none, ?_, a2, a3, a4.mono fun x hx => hx.1, a5, trivial, fun _ => a6⟩
      simp only [hvt, deref, Res.bind, e1, a1]
  | some qu =>
    have hut := h.otop u qu hu
    cases hva : (s.node v).arr with
    | none =>
      obtain ⟨g1, g2⟩ := grow u v h3 h1 hva
      rw [BGeo.local_slope hut] at g1
      obtain ⟨s', a1, a2, a3, a4, a5, a6⟩ := arrive_spec h hg ht hs hva hut he hv g1 (by omega)
      refine ⟨s', .none, ?_, a2, a3, a4.mono fun x hx => hx.1, a5, trivial, fun _ => a6⟩
      simp only [hut, deref, Res.bind, a1]
    | some qv =>
      obtain ⟨r1, r2, e1, e2, e3, e4, e5, e6, e7, e8⟩ := h.link_now hg he hv hu hva hne hw
      rw [BGeo.local_slope e1] at h1 h3
      rw [BGeo.local_slope e2] at h2 h3
      refine ⟨s, .hitRegion r1 r2 _, ?_, ht, h, hs, Same.refl s s.w, ⟨e3, e4, e5, e6, e7, h1, h2, h3, e8⟩, nofun⟩
      rw [entry_eq] at he
      simp only [e1, e2, he, deref, Res.bind]

/-- A look at node `u` that came too early: only the wish of the node changed. -/
def Stale (g : MGraph) (u : Nat) (s s' : FS) : Prop :=
  ∃ w', s' = { s with w := w' } ∧ (∀ o, o ≠ .inl u → want s' o = want s o) ∧
    ((findNext g s u = .ok none ∧ want s' (.inl u) = want s (.inl u)) ∨
     ∃ i τ, findNext g s u = .ok (some (i, τ)) ∧ τ ≠ s.now ∧ want s' (.inl u) = some τ)

/-- `do_look_at_node_event`. -/
theorem lookAt_spec (h : Geo g T L ch t s) (hg : Proper g) (ht : s.now = t) {X Y : Nat → Prop} (hs : Sched g L X Y s) {u : Nat}
    (hu : (localRadius s u).slope ≠ -1) :
    ∃ s' ev, lookAt g s u = .ok (s', ev) ∧ s'.now = t ∧ Geo g T L ch t s' ∧ Sched g L (fun v => X v ∧ v ≠ u) Y s' ∧
      Same T ch t s s' ∧ EvOk g T L ch t s' ev ∧ (ev = .none → Moved g s s' ∨ Stale g u s s') := by
  unfold lookAt
  rcases h.findNext_spec hg hu with ⟨e1, e2⟩ | ⟨i, n, τ, e1, e2, e3, e4⟩
  · rw [e1]
    refine ⟨s, .none, rfl, ht, h, ?_, Same.refl s s.w, trivial, fun _ => .inr ⟨s.w, rfl, fun _ _ => rfl, .inl ⟨e1, rfl⟩⟩⟩
    exact Sched.setWish hg hs (o := want s (.inl u)) hs.winv
      (by unfold want; rw [Function.update_eq_self]) hu (fun i n τ a b => by rw [e2 i n a] at b; cases b)
  · rw [e1]
    simp only [Res.bind]
    obtain ⟨c1, c2⟩ := h.coll_window hg e2 e3
    by_cases hτ : τ = s.now
    · rw [if_pos hτ]
      obtain ⟨w', a, b, c, d⟩ := wish_spec s hs.winv (.inl u) s.now (le_refl _) (by omega)
      have hS := Sched.setWish hg hs b d hu (fun i n τ' x y => ⟨_, rfl, by have := e4 i n τ' x y; omega⟩)
      have hG := h.withW w'
      have he := e2
      rw [entry_eq] at he
      rw [a, he]
      simp only [deref]
      rw [hτ, ht] at e3
      rcases h.coll_now hg e2 e3 with ⟨k1, k2, k3⟩ | ⟨v, k1, k2, k3, k4, k5, k6⟩
      · rw [k1]
        simp only
        have hi : i = 0 := hg.bfirst u i n e2 k1
        subst hi
        cases hua : (s.node u).arr with
        | none => rw [BGeo.local_slope_none ((h.arr_none_iff u).1 hua)] at k2; omega
        | some qu =>
          obtain ⟨r, f1, f2, f3, f4⟩ := h.blink_now e2 k1 hua k3
          rw [BGeo.local_slope f1] at k2
          refine ⟨{ s with w := w' }, .hitBoundary r _, ?_, by unfold FS.now; simp only [c]; exact ht, hG, hS, Same.refl s w',
            ⟨f2, f3, k2, (Same.refl (T := T) (ch := ch) (t := t) s w').blink.2 f4⟩, nofun⟩
          unfold hitBoundary
          simp only [f1, he, deref, Res.bind]
      · rw [k1]
        simp only
        obtain ⟨s', ev, f1, f2, f3, f4, f5, f6, f7⟩ := interact_spec hG hg (by unfold FS.now; simp only [c]; exact ht) hS e2 k1 k2 k3 k4 k5 k6
        exact ⟨s', ev, f1, f2, f3, f4, (Same.refl s w').trans f5, f6, fun hev => .inl (f7 hev)⟩
    · rw [if_neg hτ]
      obtain ⟨w', a, b, c, d⟩ := wish_spec s hs.winv (.inl u) τ (by omega) (by omega)
      have hS := Sched.setWish hg hs b d hu (fun i n τ' x y => ⟨_, rfl, e4 i n τ' x y⟩)
      exact ⟨{ s with w := w' }, .none, by rw [a], by unfold FS.now; simp only [c]; exact ht, h.withW w', hS, Same.refl s w',
        trivial, fun _ => .inr ⟨w', rfl, fun o ho => by unfold want; simp only [d]; rw [Function.update_of_ne ho],
          .inr ⟨i, τ, e1, hτ, by unfold want; simp only [d]; rw [Function.update_self]⟩⟩⟩

end Verif.SB
