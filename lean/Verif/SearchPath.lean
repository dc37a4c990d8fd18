import Verif.SearchLoop
import Mathlib.Data.Sym.Sym2

/-!
# From the collision to the path

Start states, optimality, tracing back, reversing and resetting.
-/

namespace Verif.Sch

open Verif Verif.Graph Verif.Track Verif.Spec Verif.RadixHeap Verif.Props.EdgeMarks

/-- A flooder between two searches.  `distance_from_source` and `target_type` keep values of earlier searches. -/
structure Fresh (s : SS) : Prop where
  reached : ∀ u, s.reached u = none
  pred : ∀ u, s.pred u = none
  nodes : s.reachedNodes = []
  w : s.w = World.init Nat 0

/-- The undirected edge denoted by a node and a neighbour index. -/
def undirected (g : SGraph) (e : Nat × Nat) : Option (Sym2 (Option Nat)) := (nbr g e.1 e.2).map fun n => s(some e.1, n.target)

/-! ## Start -/

theorem fresh_inv (g : SGraph) (s : SS) (h : Fresh s) : SInv g (fun _ => False) s (absW s.w).want := by
  have hw : ∀ u, (absW s.w).want u = none := by intro u; rw [h.w]; rfl
  refine ⟨by rw [h.w]; exact winv_init _ _, ⟨by rw [h.w]; exact le_refl _, by simp, ?_, ?_, ?_, ?_, ?_, ?_⟩, ?_, ?_⟩
  · intro u a hu; rw [h.reached] at hu; cases hu
  · intro u t hu; rw [hw] at hu; cases hu
  · intro u i n v hu; exact absurd (h.reached u) hu
  · intro u i n v hu; exact absurd (h.reached u) hu
  · intro u i n v hu; exact absurd (h.reached u) hu
  · intro _ u i n hu; exact absurd (h.reached u) hu
  · intro u a hu; rw [h.reached] at hu; cases hu
  · intro u _; exact ⟨h.reached u, h.pred u, by rw [h.w]; rfl⟩

/-- Starting at a node not reached yet. -/
theorem startAt_new {g : SGraph} (hg : Good g) {S : Nat → Prop} {s : SS} (h : SInv g S s (absW s.w).want) (a : Nat)
    (ha : a < g.nodes.length) (hr : s.reached a = none) (h0 : s.w.q.cur = 0) :
    ∃ s', startAt g s a = .ok s' ∧ SInv g (fun b => S b ∨ b = a) s' (absW s'.w).want ∧ s'.w.q.cur = 0 ∧ s'.toBoundary = s.toBoundary ∧
      s'.reached = Function.update s.reached a (some a) ∧ s'.pred a = none := by
  obtain ⟨w', e1, e2, x, e3, e4⟩ := h.reachNode hg a a (fun b => S b ∨ b = a) hr ha (by rw [h0]; exact ⟨0, rfl⟩) (.inr rfl)
    (fun b hb => .inl hb) (by rintro b (hb | rfl); exact .inl hb; exact .inr ⟨rfl, rfl, h0⟩) none
    ⟨[], .source a (by rw [Function.update_self]) (by rw [Function.update_self]) (by rw [Function.update_self, h0]) ha⟩
  unfold startAt
  rw [← h0]
  refine ⟨_, e1, ?_, e2, rfl, rfl, by simp only [Function.update_self]⟩
  simp only
  rw [e3]
  exact e4

/-- Starting again at the same source. -/
theorem startAt_again {g : SGraph} (hg : Good g) {S : Nat → Prop} {s : SS} (h : SInv g S s (absW s.w).want) (a : Nat)
    (hS : S a) (hp : s.pred a = none) :
    ∃ s', startAt g s a = .ok s' ∧ SInv g S s' (absW s'.w).want ∧ s'.toBoundary = s.toBoundary ∧ s'.reached = s.reached := by
  obtain ⟨ha, hd⟩ := h.core.src a hS
  have hra : s.reached a ≠ none := by rw [ha]; simp
  obtain ⟨-, hl, -⟩ := h.core.reach a a ha
  have hev : ∀ v, s.reached v ≠ none → Even (s.dist v) ∧ s.dist v ≤ s.w.q.cur := by
    intro v hv
    obtain ⟨b, hb⟩ := Option.ne_none_iff_exists'.1 hv
    exact ⟨(h.core.reach v b hb).2.2.2.2, (h.core.reach v b hb).2.2.2.1⟩
  unfold startAt
  rw [← ha, ← hp, ← hd, Function.update_eq_self, Function.update_eq_self, Function.update_eq_self]
  obtain ⟨w', e1, e2, e3, e4, e5⟩ := reschedule_spec hg { s with reachedNodes := s.reachedNodes ++ [a] } h.w a hra hl
    (fun v hv => (hev v hv).1) (fun v hv => (hev v hv).2) (fun i n T hs hT => h.core.ev_ge a i n hra hs T hT)
  refine ⟨_, e1, ?_, rfl, rfl⟩
  simp only at e3 e4 e5 ⊢
  rw [e4]
  refine ⟨e2, ?_, h.trace, ?_⟩
  · simp only
    rw [e3]
    refine h.core.rewish a hra _ (next_Covers _ _ _ _ _) ?_ hg
    intro t ht
    rw [Option.map_eq_some_iff] at ht
    obtain ⟨⟨i, t'⟩, hx, rfl⟩ := ht
    obtain ⟨n, hs, hT⟩ := next_is _ _ _ _ _ _ _ hx
    exact h.core.ev_ge a i n hra hs _ hT
  · intro v hv
    simp only [List.mem_append, List.mem_singleton, not_or] at hv ⊢
    rw [e5 v hv.2]
    exact h.clean v hv.1

/-- The searches stop. -/
theorem run_stops {g : SGraph} (hg : Good g) (s : SS) (h : Fresh s) (src : Nat) (dst : Option Nat) (hsrc : src < g.nodes.length)
    (hdst : ∀ d, dst = some d → d < g.nodes.length) :
    ∃ N s' o, (∀ fuel, N ≤ fuel → runUntilCollision g fuel s src dst = some (.ok (s', o))) ∧ s'.toBoundary = dst.isNone ∧
      Stopped g (fun a => a = src ∨ dst = some a) s' o := by
  cases dst with
  | none =>
    have hf : Fresh { s with toBoundary := true } := ⟨h.reached, h.pred, h.nodes, h.w⟩
    obtain ⟨s1, e1, e2, e3, e4, e5, e6⟩ := startAt_new hg (fresh_inv g _ hf) src hsrc (h.reached src) (by rw [hf.w]; rfl)
    obtain ⟨N, s', o, f1, f2, f3⟩ := loop_stops hg s1 e2
    refine ⟨N, s', o, ?_, by rw [f2, e4]; rfl, ?_⟩
    · intro fuel hfu
      unfold runUntilCollision
      rw [e1]
      exact f1 fuel hfu
    · have : (fun b => False ∨ b = src) = (fun a => a = src ∨ (none : Option Nat) = some a) := by funext b; simp
      rw [this] at f3
      exact f3
  | some d =>
    have hf : Fresh { s with toBoundary := false } := ⟨h.reached, h.pred, h.nodes, h.w⟩
    obtain ⟨s1, e1, e2, e3, e4, e5, e6⟩ := startAt_new hg (fresh_inv g _ hf) d (hdst d rfl) (h.reached d) (by rw [hf.w]; rfl)
    by_cases hd : src = d
    · subst hd
      obtain ⟨s2, g1, g2, g3, g4⟩ := startAt_again hg e2 src (.inr rfl) e6
      obtain ⟨N, s', o, f1, f2, f3⟩ := loop_stops hg s2 g2
      refine ⟨N, s', o, ?_, by rw [f2, g3, e4]; rfl, ?_⟩
      · intro fuel hfu
        unfold runUntilCollision
        simp only [e1, Res.bind, g1]
        exact f1 fuel hfu
      · have : (fun b => False ∨ b = src) = (fun a => a = src ∨ some src = some a) := by
          funext b; simp [eq_comm]
        rw [this] at f3
        exact f3
    · obtain ⟨s2, g1, g2, g3, g4, g5, g6⟩ := startAt_new hg e2 src hsrc
        (by rw [e5, Function.update_of_ne hd]; exact h.reached src) e3
      obtain ⟨N, s', o, f1, f2, f3⟩ := loop_stops hg s2 g2
      refine ⟨N, s', o, ?_, by rw [f2, g4, e4]; rfl, ?_⟩
      · intro fuel hfu
        unfold runUntilCollision
        simp only [e1, Res.bind, g1]
        exact f1 fuel hfu
      · have : (fun b => (False ∨ b = d) ∨ b = src) = (fun a => a = src ∨ some d = some a) := by
          funext b; simp only [false_or, Option.some.injEq, eq_iff_iff]; rw [or_comm, eq_comm (a := b) (b := d)]
        rw [this] at f3
        exact f3

/-! ## Optimality -/

section opt
variable {g : SGraph} {S : Nat → Prop} {toB : Bool} {reached : Nat → Option Nat} {dist : Nat → Int} {cur : Int}
  {want : Nat → Option Int}

theorem Core.route_boundary (h : Core g S toB reached dist cur want) (hb : toB = true) {x : Nat} {t : Option Nat}
    {es : List (Nat × Nat)} {W : Nat} (r : Route g x t es W) (ht : t = none) (hx : reached x ≠ none) : cur ≤ dist x + W := by
  induction r with
  | here u _ => cases ht
  | @step u i v W n t es hs hv r ih =>
    by_cases hrv : reached v = none
    · obtain ⟨t, h1, h2⟩ := h.opn u i n v hx hs hv hrv
      have := (h.wants u t h1).2
      push_cast
      omega
    · have h1 := h.lip u i n v hx hs hv hrv
      have h2 := ih ht hrv
      push_cast
      omega
  | @exit u i n hs hv =>
    obtain ⟨t, h1, h2⟩ := h.bnd hb u i n hx hs hv
    have := (h.wants u t h1).2
    omega

theorem Core.route_back (h : Core g S toB reached dist cur want) (hg : Good g) {x : Nat} {t : Option Nat}
    {es : List (Nat × Nat)} {W : Nat} (r : Route g x t es W) (y : Nat) (ht : t = some y) (hy : reached y ≠ none) :
    (reached x ≠ none → dist x ≤ W + dist y) ∧ (reached x = none → cur ≤ W + dist y) := by
  induction r with
  | here u _ =>
    cases ht
    exact ⟨fun _ => by push_cast; omega, fun h => absurd h hy⟩
  | @step u i v W n t es hs hv r ih =>
    obtain ⟨ih1, ih2⟩ := ih ht
    obtain ⟨-, j, n', hs', ht', hw, -⟩ := hg.simple.sym u i n v hs hv
    push_cast
    constructor
    · intro hu
      by_cases hrv : reached v = none
      · have h1 := ih2 hrv
        obtain ⟨a, ha⟩ := Option.ne_none_iff_exists'.1 hu
        have h2 := (h.reach u a ha).2.2.2.1
        omega
      · have h1 := ih1 hrv
        have h2 := h.lip v j n' u hrv hs' ht' hu
        rw [hw] at h2
        omega
    · intro hu
      by_cases hrv : reached v = none
      · have h1 := ih2 hrv
        omega
      · have h1 := ih1 hrv
        obtain ⟨t, h2, h3⟩ := h.opn v j n' u hrv hs' ht' hu
        have := (h.wants v t h2).2
        rw [hw] at h3
        omega
  | exit hs hv => cases ht

theorem Core.route_between (h : Core g S toB reached dist cur want) (hg : Good g) {x : Nat} {t : Option Nat}
    {es : List (Nat × Nat)} {W : Nat} (r : Route g x t es W) (y : Nat) (ht : t = some y) (hy : reached y ≠ none)
    (hx : reached x ≠ none) (hne : reached x ≠ reached y) : 2 * cur ≤ dist x + W + dist y := by
  induction r with
  | here u _ =>
    cases ht
    exact absurd rfl hne
  | @step u i v W n t es hs hv r ih =>
    obtain ⟨b1, b2⟩ := h.route_back hg r y ht hy
    push_cast
    by_cases hrv : reached v = none
    · obtain ⟨t, h1, h2⟩ := h.opn u i n v hx hs hv hrv
      have := (h.wants u t h1).2
      have := b2 hrv
      omega
    · by_cases hl : reached v = reached u
      · have h1 := ih ht hrv (by rw [hl]; exact hne)
        have h2 := h.lip u i n v hx hs hv hrv
        omega
      · obtain ⟨t, h1, h2⟩ := h.meet u i n v hx hs hv hrv hl
        have h3 : cur ≤ t := by
          rcases h1 with h1 | h1
          · exact (h.wants u t h1).2
          · exact (h.wants v t h1).2
        have := b1 hrv
        omega
  | exit hs hv => cases ht

/-- Without pending events the reached nodes are closed under taking edges. -/
theorem Core.closed (h : Core g S toB reached dist cur want) (hw : ∀ u, want u = none) {x : Nat} {t : Option Nat}
    {es : List (Nat × Nat)} {W : Nat} (r : Route g x t es W) (hx : reached x ≠ none) :
    (∀ y, t = some y → reached y = reached x) ∧ (t = none → toB = false) := by
  induction r with
  | here u _ => exact ⟨fun y hy => by cases hy; rfl, by simp⟩
  | @step u i v W n t es hs hv r ih =>
    have hrv : reached v ≠ none := by
      intro hrv
      obtain ⟨t, h1, -⟩ := h.opn u i n v hx hs hv hrv
      rw [hw] at h1
      cases h1
    have hl : reached v = reached u := by
      by_contra hl
      obtain ⟨t, h1, -⟩ := h.meet u i n v hx hs hv hrv hl
      rw [hw, hw] at h1
      simp at h1
    obtain ⟨i1, i2⟩ := ih hrv
    exact ⟨fun y hy => by rw [i1 y hy, hl], i2⟩
  | @exit u i n hs hv =>
    refine ⟨by simp, fun _ => ?_⟩
    by_contra hb
    obtain ⟨t, h1, -⟩ := h.bnd (by simpa using hb) u i n hx hs hv
    rw [hw] at h1
    cases h1

end opt

/-! ## Paths -/

theorem Route.append {g : SGraph} {x y : Nat} {t0 t : Option Nat} {es es' : List (Nat × Nat)} {W W' : Nat} (r : Route g x t0 es W)
    (h : t0 = some y) (r' : Route g y t es' W') : Route g x t (es ++ es') (W + W') := by
  induction r with
  | here u _ => cases h; rw [Nat.zero_add]; exact r'
  | step hs hv r ih => rw [Nat.add_assoc]; exact .step hs hv (ih h)
  | exit hs hv => cases h

theorem slot_lt {g : SGraph} {u i : Nat} {n : SNbr} (h : nbr g u i = some n) : u < g.nodes.length := by
  obtain ⟨l, hl, -⟩ := mem_slot.1 h
  exact (List.getElem?_eq_some_iff.1 hl).1

/-- Reversing a path between nodes. -/
theorem reversePath_route {g : SGraph} (hg : Good g) {x : Nat} {t : Option Nat} {es : List (Nat × Nat)} {W : Nat} (r : Route g x t es W)
    (y : Nat) (ht : t = some y) :
    ∃ es', reversePath g es = .ok es' ∧ Route g y (some x) es' W ∧ (es'.map (undirected g)).Perm (es.map (undirected g)) := by
  induction r with
  | here u hu => cases ht; exact ⟨[], rfl, Route.here _ hu, by simp⟩
  | @step u i v W n t es hs hv r ih =>
    obtain ⟨es', h1, h2, h3⟩ := ih ht
    obtain ⟨-, j, n', hs', ht', hw, -⟩ := hg.simple.sym u i n v hs hv
    have hidx : indexOf g v (some u) = .ok j := by rw [← ht']; exact indexOf_eq hg.simple hs'
    have hrev : revEdge g (u, i) = .ok (v, j) := by
      unfold revEdge
      simp only [hs]
      obtain ⟨nt, nw, no, ns⟩ := n
      simp only at hv
      subst hv
      simp only [hidx, Res.bind]
    refine ⟨es' ++ [(v, j)], ?_, ?_, ?_⟩
    · unfold reversePath
      rw [h1, hrev]
      rfl
    · have hst : Route g v (some u) [(v, j)] (n'.weight + 0) := .step hs' ht' (.here u (slot_lt hs))
      have := Route.append h2 rfl hst
      rw [hw] at this
      rw [Nat.add_comm n.weight W]
      exact this
    · rw [List.map_append, List.map_cons]
      refine (List.perm_append_comm).trans ?_
      have he : undirected g (v, j) = undirected g (u, i) := by
        unfold undirected
        simp only [hs, hs', Option.map_some, ht', hv]
        rw [Sym2.eq_swap]
      simp only [List.map_cons, List.map_nil, List.singleton_append, he]
      exact List.Perm.cons _ h3
  | exit hs hv => cases ht

theorem trace_route {g : SGraph} {reached pred : Nat → Option Nat} {dist : Nat → Int} {u a : Nat} {es : List (Nat × Nat)}
    (h : Trace g reached pred dist u a es) : ∃ W, Route g u (some a) es W ∧ (W : Int) = dist u ∧ reached u = some a := by
  induction h with
  | source a h hp hd hl => exact ⟨0, .here a hl, by rw [hd]; rfl, h⟩
  | @step u i v a n es hr hp hs ht hd h ih =>
    obtain ⟨W, h1, h2, -⟩ := ih
    exact ⟨_, .step hs ht h1, by push_cast; rw [hd, h2], hr⟩

theorem traceBack_eq {g : SGraph} {s : SS} {u a : Nat} {es : List (Nat × Nat)} (h : Trace g s.reached s.pred s.dist u a es) :
    ∀ fuel, es.length < fuel → traceBack g s fuel u = some (.ok es) := by
  induction h with
  | source a h hp hd hl =>
    intro fuel hf
    obtain ⟨k, rfl⟩ : ∃ k, fuel = k + 1 := ⟨fuel - 1, by omega⟩
    simp only [traceBack, hp]
  | @step u i v a n es hr hp hs ht hd h ih =>
    intro fuel hf
    obtain ⟨k, rfl⟩ : ∃ k, fuel = k + 1 := ⟨fuel - 1, by omega⟩
    simp only [List.length_cons] at hf
    obtain ⟨nt, nw, no, ns⟩ := n
    simp only at ht
    subst ht
    simp only [traceBack, hp, hs, ih k (by omega), Res.bind]

theorem route_end {g : SGraph} {x : Nat} {t : Option Nat} {es : List (Nat × Nat)} {W : Nat} (r : Route g x t es W) (h : es ≠ []) :
    endOf g (es.getLast h) = .ok t := by
  induction r with
  | here u _ => exact absurd rfl h
  | @step u i v W n t es hs hv r ih =>
    cases es with
    | nil =>
      cases r
      simp only [List.getLast_singleton, endOf, hs, hv]
    | cons e es => rw [List.getLast_cons (by simp)]; exact ih (by simp)
  | exit hs hv => simp only [List.getLast_singleton, endOf, hs, hv]

/-- Resetting after a search. -/
theorem reset_fresh {g : SGraph} {S : Nat → Prop} {s : SS} {want : Nat → Option Int} (h : SInv g S s want) :
    ∃ s', resetS s = .ok s' ∧ Fresh s' := by
  obtain ⟨q', h1, h2, h3, h4⟩ := clear_spec h.w.queue
  unfold resetS
  have hr : s.w.q.reset = some { q' with cur := 0 } := by unfold Queue.reset; rw [h1]; rfl
  rw [hr]
  refine ⟨_, rfl, ?_, ?_, rfl, ?_⟩
  · intro u
    simp only
    split
    · rfl
    · rename_i hu; exact (h.clean u hu).1
  · intro u
    simp only
    split
    · rfl
    · rename_i hu; exact (h.clean u hu).2.1
  · simp only [World.init, World.mk.injEq]
    constructor
    · funext u
      split
      · rfl
      · rename_i hu; exact (h.clean u hu).2.2
    · have hb : q'.buckets = fun _ => [] := by
        funext b
        rw [List.eq_nil_iff_forall_not_mem]
        intro e he
        have : e ∈ content q'.buckets := mem_content.2 ⟨b, he⟩
        rw [h3] at this
        simp at this
      have hn : q'.num = 0 := by rw [h2.num_eq, h3]; rfl
      unfold Queue.init
      rw [hb, hn]

/-- Everything about a search that ends with a collision. -/
theorem collision_path {g : SGraph} (hg : Good g) (src : Nat) (dst : Option Nat) (s : SS)
    {want : Nat → Option Int} (h : SInv g (fun a => a = src ∨ dst = some a) s want) (htb : s.toBoundary = dst.isNone) (u i : Nat)
    (hc : Collides g s u i) :
    dst ≠ some src ∧ ∃ p q, (∀ fuel, p.length + q.length < fuel → traces g fuel s (u, i) = some (.ok (p, q))) ∧
      ∃ es W, orient g src p q (u, i) = .ok es ∧ Route g src dst es W ∧
        ((p ++ q ++ [(u, i)]).map (undirected g)).Perm (es.map (undirected g)) ∧
        ∀ es' W', Route g src dst es' W' → W ≤ W' := by
  obtain ⟨n, hs, hru, hev, hrv⟩ := hc
  obtain ⟨a, ha⟩ := Option.ne_none_iff_exists'.1 hru
  obtain ⟨p, hp⟩ := h.trace u a ha
  obtain ⟨Wp, rp, hWp, -⟩ := trace_route hp
  obtain ⟨hsrc1, hsrc2⟩ := h.core.src src (.inl rfl)
  cases ht : n.target with
  | none =>
    -- the boundary
    have htb' : s.toBoundary = true := by
      unfold ev at hev
      simp only [ht] at hev
      by_contra hb
      rw [if_neg hb] at hev
      cases hev
    have hdst : dst = none := by rw [htb'] at htb; exact Option.isNone_iff_eq_none.1 htb.symm
    subst hdst
    have hasrc : a = src := by
      rcases (h.core.reach u a ha).1 with h | h
      · exact h
      · cases h
    subst hasrc
    refine ⟨by simp, p, [], ?_, ?_⟩
    · intro fuel hf
      unfold traces
      simp only [traceBack_eq hp fuel (by simpa using hf), hs, ht, Res.bind]
    · obtain ⟨p', e1, e2, e3⟩ := reversePath_route hg rp a rfl
      have hexit : Route g u none [(u, i)] n.weight := .exit hs ht
      refine ⟨p' ++ [(u, i)], Wp + n.weight, ?_, Route.append e2 rfl hexit, ?_, ?_⟩
      · unfold orient
        simp only [List.getLast_singleton, endOf, hs, Res.bind, ht]
        rw [if_neg (by simp), e1]
      · rw [List.append_nil, List.map_append, List.map_append]
        exact e3.symm.append_right _
      · intro es' W' r'
        have := h.core.route_boundary htb' r' rfl (by rw [hsrc1]; simp)
        unfold ev at hev
        simp only [ht, htb', if_true, Option.some.injEq] at hev
        rw [hsrc2] at this
        omega
  | some v =>
    have hrv' := hrv v ht
    obtain ⟨b, hb⟩ := Option.ne_none_iff_exists'.1 hrv'
    obtain ⟨q, hq⟩ := h.trace v b hb
    obtain ⟨Wq, rq, hWq, -⟩ := trace_route hq
    obtain ⟨-, j, n', hs', ht', hw, -⟩ := hg.simple.sym u i n v hs ht
    have hne : s.reached v ≠ s.reached u := by
      intro h
      unfold ev at hev
      simp only [ht, if_pos h] at hev
      cases hev
    have hev' : (n.weight + s.dist u + s.dist v) / 2 = s.w.q.cur := by
      unfold ev at hev
      simp only [ht, if_neg hne, if_neg hrv', Option.some.injEq] at hev
      exact hev
    have hdu := (h.core.reach u a ha).2.2.2.2
    have hdv := (h.core.reach v b hb).2.2.2.2
    have hW : (n.weight : Int) + s.dist u + s.dist v = 2 * s.w.q.cur := by
      have hwe : Even (n.weight : Int) := by have := hg.even u i n hs; exact_mod_cast this
      obtain ⟨x, hx⟩ := hwe
      obtain ⟨y, hy⟩ := hdu
      obtain ⟨z, hz⟩ := hdv
      omega
    have hab : a ≠ b := by rintro rfl; exact hne (by rw [ha, hb])
    have hSa := (h.core.reach u a ha).1
    have hSb := (h.core.reach v b hb).1
    have hcq : Route g u (some b) ((u, i) :: q) (n.weight + Wq) := .step hs ht rq
    have hopt : ∀ d, dst = some d → d ≠ src → ∀ es' W', Route g src dst es' W' → Wp + (n.weight + Wq) ≤ W' := by
      intro d hd hds es' W' r'
      obtain ⟨hd1, hd2⟩ := h.core.src d (.inr hd)
      have := h.core.route_between hg r' d hd (by rw [hd1]; simp) (by rw [hsrc1]; simp) (by rw [hsrc1, hd1]; simpa using Ne.symm hds)
      rw [hsrc2, hd2] at this
      omega
    have hdst : dst ≠ some src := by
      intro hd
      have h1 : a = src := by rcases hSa with h | h; exact h; rw [hd] at h; cases h; rfl
      have h2 : b = src := by rcases hSb with h | h; exact h; rw [hd] at h; cases h; rfl
      exact hab (h1.trans h2.symm)
    refine ⟨hdst, p, q, ?_, ?_⟩
    · intro fuel hf
      unfold traces
      simp only [traceBack_eq hp fuel (by omega), hs, ht, traceBack_eq hq fuel (by omega), Res.bind]
    · have hperm : (p ++ q ++ [(u, i)]).Perm (p ++ ((u, i) :: q)) := by
        rw [List.append_assoc]
        exact (List.perm_append_comm).append_left p
      by_cases hbs : b = src
      · subst hbs
        have hda : dst = some a := by
          rcases hSa with h | h
          · exact absurd h hab
          · exact h
        subst hda
        obtain ⟨l, e1, e2, e3⟩ := reversePath_route hg hcq b rfl
        refine ⟨l ++ p, (n.weight + Wq) + Wp, ?_, Route.append e2 rfl rp, ?_, ?_⟩
        · unfold orient
          rw [route_end hcq (by simp)]
          simp only [Res.bind]
          rw [if_pos trivial, e1]
        · refine ((hperm.map _).trans ?_)
          rw [List.map_append, List.map_append]
          exact (List.perm_append_comm).trans (e3.symm.append_right _)
        · intro es' W' r'
          have := hopt a rfl hab es' W' r'
          omega
      · have hdb : dst = some b := by
          rcases hSb with h | h
          · exact absurd h hbs
          · exact h
        subst hdb
        have has : a = src := by
          rcases hSa with h | h
          · exact h
          · cases h; exact absurd rfl hab
        subst has
        obtain ⟨p', e1, e2, e3⟩ := reversePath_route hg rp a rfl
        refine ⟨p' ++ ((u, i) :: q), Wp + (n.weight + Wq), ?_, Route.append e2 rfl hcq, ?_, ?_⟩
        · unfold orient
          rw [route_end hcq (by simp)]
          simp only [Res.bind]
          rw [if_neg (by simpa using hbs), e1]
        · refine ((hperm.map _).trans ?_)
          rw [List.map_append, List.map_append]
          exact e3.symm.append_right _
        · intro es' W' r'
          exact hopt b rfl hbs es' W' r'

end Verif.Sch
