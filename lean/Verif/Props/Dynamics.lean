import Verif.Props.Decode
import Verif.Props.Trees

/-!
# Properties of every state of a decode (C29, C30, C31, C39, C40)

A decode starts regions at the detection events, then repeats rounds: wait for the next event, and react to it.  The statements are about
every state between two rounds, of every decode on every graph.
-/

namespace Verif.Props.Dynamics

open Verif Verif.Graph Verif.CE Verif.Mem Verif.Vary Verif.Track Verif.SB Verif.Spec Verif.Props.Graph Verif.Props.Decode Verif.Props.AltTrees
open Verif.Sch (Res)

/-! ## Specification -/

/-- A decoding graph that was built by inserting edges, and boundary nodes that have no edges of negative weight. -/
structure Problem (g : MGraph) (bnd : List Bool) : Prop where
  built : ∃ numNodes numObs ops, run (MGraph.empty numNodes numObs) ops = some g ∧ Edges ops
  clear : ∀ d ∈ g.negDets, TL.notBoundary bnd d = true

/-- `During g bnd T s`: the decoder is in state `s` between two rounds of a decode, where `T` are the detection events that must be
matched. -/
inductive During [W : Width] (g : MGraph) (bnd : List Bool) : Finset Nat → MS → Prop where
  | start {s s' : MS} {events : List Nat} (hu : Used g bnd s) (hv : Valid g events)
      (hl : launch g (TL.start g.nodes.length bnd (negEvents g) events).1.started s.begin = .ok s') :
      During g bnd (symmDiff (counted bnd events) g.negDets) s'
  | round {T : Finset Nat} {s s' : MS} (h : During g bnd T s) (hr : round g s = .ok (some s')) : During g bnd T s'

/-- `r`, the blossom around it, the blossom around that one, and so on. -/
inductive Nest (s : FS) : Nat → List Nat → Prop where
  | top {r : Nat} (h : (s.reg r).parent = none) : Nest s r [r]
  | step {r p : Nat} {l : List Nat} (h : (s.reg r).parent = some p) (hl : Nest s p l) : Nest s r (r :: l)

/-- The part of the edges around node `n` that is covered from `n` at time `τ`: nothing at an empty node; otherwise the radii of the
regions around it, less the radius that the innermost one had on arrival. -/
inductive Reach (s : FS) (n : Nat) (τ : Int) : Int → Prop where
  | empty (h : (s.node n).arr = none) : Reach s n τ 0
  | inside {r : Nat} {l : List Nat} (h : (s.node n).arr = some r) (hl : Nest s r l) :
      Reach s n τ ((l.map fun q => (s.reg q).radius.distanceAt τ).sum - (s.node n).rho)

/-- The part of the edge `nb` of `u` that is covered at time `τ`, from both ends. -/
inductive Covered (s : FS) (u : Nat) (nb : Nbr) (τ : Int) : Int → Prop where
  | boundary {x : Int} (h : nb.target = none) (hx : Reach s u τ x) : Covered s u nb τ x
  | between {v : Nat} {x x' : Int} (h : nb.target = some v) (hx : Reach s u τ x) (hx' : Reach s v τ x') : Covered s u nb τ (x + x')

/-- Something happens on the edge at time `τ`: its ends are not in the same region, it is covered at time `τ`, and would be more than
covered right after. -/
def Meets (s : FS) (u : Nat) (nb : Nbr) (τ : Int) : Prop :=
  (∀ v, nb.target = some v → (s.node u).top ≠ (s.node v).top) ∧ Covered s u nb τ nb.weight ∧ ∃ c, Covered s u nb (τ + 1) c ∧ nb.weight < c

/-- A detection event inside of region `r`. -/
def Within (s : FS) (r a : Nat) : Prop := ∃ q l, (s.node a).arr = some q ∧ Nest s q l ∧ r ∈ l

/-- A live region that is not inside a blossom. -/
def Top (s : FS) (r : Nat) : Prop := r ∈ live s.regs ∧ (s.reg r).parent = none

/-- A shrinking region `r` runs empty at time `τ`: its radius is zero, or the node it reached last is about to be left. -/
def Empties (s : FS) (r : Nat) (τ : Int) : Prop :=
  match (s.reg r).shell.getLast? with
  | none => (s.reg r).radius.distanceAt τ = 0
  | some n => Reach s n τ 0

open Classical in
/-- The total radius of the regions that contain exactly one of two places (`none`: the boundary, which is in no region). -/
noncomputable def between (s : FS) (a : Nat) (b : Option Nat) : Int :=
  ∑ R ∈ (live s.regs).filter (fun R => ¬ (Within s R a ↔ ∃ v, b = some v ∧ Within s R v)), (s.reg R).radius.distanceAt s.now

/-- The edge leads from a detection event to another one or to the boundary, along a walk that crosses the observables of its mask and
weighs no more than the radii in between. -/
def TightEdge (g : MGraph) (T : Finset Nat) (s : FS) (e : CompressedEdge) : Prop :=
  ∃ a es, e.locFrom = some a ∧ a ∈ T ∧ (∀ b, e.locTo = some b → b ∈ T) ∧ Spec.Walk g a e.locTo es ∧ totalWeight g es = between s a e.locTo ∧
    totalObs g es = e.obsMask

/-- The tight edge joins the regions. -/
def Joins (g : MGraph) (T : Finset Nat) (s : FS) (e : CompressedEdge) (r r' : Nat) : Prop :=
  TightEdge g T s e ∧ ∃ a b, e.locFrom = some a ∧ e.locTo = some b ∧ Within s r a ∧ Within s r' b

/-- The tight edge leads from the region to the boundary. -/
def Exits (g : MGraph) (T : Finset Nat) (s : FS) (e : CompressedEdge) (r : Nat) : Prop :=
  TightEdge g T s e ∧ ∃ a, e.locFrom = some a ∧ e.locTo = none ∧ Within s r a

/-- Trees of alternating growing and shrinking regions, joined by tight edges; all other top regions are matched to each other or to the
boundary, along tight edges, and do not change. -/
structure Alternating (g : MGraph) (T : Finset Nat) (s : MS) : Prop where
  trees : Trees s (live s.alts)
  outer : ∀ a ∈ live s.alts, Top s.fl (s.alt a).outer ∧ (s.fl.reg (s.alt a).outer).radius.slope = 1
  inner : ∀ a ∈ live s.alts, ∀ i, (s.alt a).inner = some i → Top s.fl i ∧ (s.fl.reg i).radius.slope = -1 ∧
    Joins g T s.fl (s.alt a).i2o i (s.alt a).outer
  child : ∀ a ∈ live s.alts, ∀ c e, (c, e) ∈ (s.alt a).children → ∃ i, (s.alt c).inner = some i ∧ Joins g T s.fl e (s.alt a).outer i
  rest : ∀ r, Top s.fl r → (∃ a ∈ live s.alts, (s.alt a).outer = r) ∨ (∃ a ∈ live s.alts, (s.alt a).inner = some r) ∨
    ((s.fl.reg r).radius.slope = 0 ∧ (((s.mate r).region = none ∧ Exits g T s.fl (s.mate r).edge r) ∨
      ∃ m, (s.mate r).region = some m ∧ m ≠ r ∧ Top s.fl m ∧ s.mate m = ⟨some r, (s.mate r).edge.reversed⟩ ∧ Joins g T s.fl (s.mate r).edge r m))
  cycles : ∀ r ∈ live s.fl.regs, (s.fl.reg r).children = [] ∨ ((s.fl.reg r).children.length % 2 = 1 ∧ 3 ≤ (s.fl.reg r).children.length ∧
    (∀ c ∈ live s.fl.regs, c ∈ (s.fl.reg r).children.map (·.1) ↔ (s.fl.reg c).parent = some r) ∧ ((s.fl.reg r).children.map (·.1)).Nodup ∧
    ∀ e c c', Adjacent (s.fl.reg r).children e c c' → Joins g T s.fl e c c')

/-- The last state of a decode: no event is left, and everybody is matched. -/
structure Finished [W : Width] (g : MGraph) (bnd : List Bool) (T : Finset Nat) (s : MS) : Prop where
  during : During g bnd T s
  over : round g s = .ok none
  matched : live s.alts = ∅

/-! ## Lemmas -/

theorem Problem.proper {g : MGraph} {bnd : List Bool} (h : Problem g bnd) : Proper g ∧ (g.negSum = 0 → g.negDets = ∅) := by
  obtain ⟨a, b, ops, h1, h2⟩ := h.built
  exact ⟨proper_of_run h1 h2.pairs h2.even h2.small, no_negatives h1⟩

theorem during_ok {g : MGraph} {bnd : List Bool} (hp : Problem g bnd) {T : Finset Nat} {s : MS} (h : During g bnd T s) :
    ∃ L ch t A ach, SOk g T L ch t (fun _ => False) s A ach := by
  have hg := hp.proper.1
  induction h with
  | @start s s' events hu hv hl =>
    have hs := used_clean hg hp.proper.2 hp.clear hu
    obtain ⟨st, e1, -, h2, h3⟩ := Props.Convert.C35_started_nodes g.nodes.length bnd (negEvents g) events hv.range hv.nodup
      (fun d hd => hp.clear d (((neg_sort g).2 d).1 hd)) (neg_sort g).1
    obtain ⟨s1, L, ch, A, e2, hL⟩ := launch_spec hg st.started (hs.launched (g := g) (ch := fun _ => [])) h2 (by simp)
    rw [e1] at hl
    rw [e2] at hl
    cases hl
    have hT : ∅ ∪ st.started.toFinset = symmDiff (counted bnd events) g.negDets := by
      rw [← started_eq]
      ext d
      rw [mem_startedOf, ← h3]
      simp
    rw [hT] at hL
    exact ⟨L, ch, 0, A, _, hL.ok⟩
  | round h hr ih =>
    obtain ⟨L, ch, t, A, ach, h1⟩ := ih
    rcases round_spec hg h1 with ⟨e, -⟩ | ⟨s', t', L', ch', A', ach', e, -, h', -⟩
    · rw [e] at hr; cases hr
    · rw [e] at hr
      cases hr
      exact ⟨L', ch', t', A', ach', h'⟩

section
variable {g : MGraph} {T L : Finset Nat} {ch : Nat → List Nat} {t : Int} {s : FS}

theorem nest_chain (h : BGeo g T L ch t s) {r : Nat} (hr : r ∈ L) : Nest s r (ch r) := by
  refine h.forest.induct (Q := fun r => Nest s r (ch r)) ?_ ?_ hr
  · intro r hr hp
    rw [h.forest.root r hr hp]
    exact .top hp
  · intro r hr p _ hp ih
    rw [(h.forest.step r hr p hp).2]
    exact .step hp ih

theorem Nest.unique {r : Nat} {l l' : List Nat} (h : Nest s r l) (h' : Nest s r l') : l = l' := by
  induction h generalizing l' with
  | top h =>
    cases h' with
    | top _ => rfl
    | step h1 _ => rw [h] at h1; cases h1
  | step h _ ih =>
    cases h' with
    | top h1 => rw [h] at h1; cases h1
    | step h1 h2 =>
      rw [h] at h1; cases h1
      rw [ih h2]

theorem Reach.unique {n : Nat} {τ x x' : Int} (h : Reach s n τ x) (h' : Reach s n τ x') : x = x' := by
  cases h with
  | empty h =>
    cases h' with
    | empty _ => rfl
    | inside h1 _ => rw [h] at h1; cases h1
  | inside h hl =>
    cases h' with
    | empty h1 => rw [h] at h1; cases h1
    | inside h1 h2 =>
      rw [h] at h1; cases h1
      rw [hl.unique h2]

/-- The cached radius gives the covered part, at all times. -/
theorem reach_local (h : BGeo g T L ch t s) (n : Nat) (τ : Int) : Reach s n τ ((localRadius s n).distanceAt τ) := by
  cases ha : (s.node n).arr with
  | none =>
    have : (localRadius s n).distanceAt τ = 0 := by
      unfold localRadius
      rw [h.empty n ha]
      simp [DNode.blank, Varying.distanceAt, Varying.bit0, Varying.bit1, Varying.yIntercept]
    rw [this]
    exact .empty ha
  | some q =>
    have hq := (h.occ n q ha).1
    have key : (localRadius s n).distanceAt τ = ((ch q).map fun q => (s.reg q).radius.distanceAt τ).sum - (s.node n).rho := by
      have h1 : (localRadius s n).distanceAt τ = y s τ (s.reg q).top + (s.node n).wrapped := by
        unfold localRadius
        rw [h.otop n q ha]
        simp only
        obtain ⟨a1, a2, -⟩ := addOffset_spec (s.reg (s.reg q).top).radius (s.node n).wrapped
        rw [distanceAt_eq, a1, a2, y_eq]
        unfold sl
        omega
      have h2 : ((ch q).dropLast.map (y s t)) = ((ch q).dropLast.map (y s τ)) := by
        refine List.map_congr_left fun R hR => ?_
        have hRL := h.forest.mem_live hq (List.mem_of_mem_dropLast hR)
        have hRp : par s R ≠ none := by
          intro hp
          have e := h.forest.root_unique hq (List.mem_of_mem_dropLast hR) hp (h.top q hq).1 (h.top q hq).2
          have hnd := h.forest.nodup hq
          rw [h.split hq, List.nodup_append] at hnd
          exact hnd.2.2 R hR _ (by simp) e
        rw [y_advance s τ t R, h.still R hRL hRp]
        omega
      rw [h1, h.owrap n q ha, h2]
      change _ = ((ch q).map (y s τ)).sum - _
      conv_rhs => rw [h.split hq]
      simp only [List.map_append, List.sum_append, List.map_cons, List.map_nil, List.sum_cons, List.sum_nil]
      omega
    rw [key]
    exact .inside ha (nest_chain h hq)

theorem within_iff (h : BGeo g T L ch t s) {r a : Nat} : Within s r a ↔ InR s ch r a := by
  constructor
  · rintro ⟨q, l, h1, h2, h3⟩
    exact ⟨q, h1, by rw [h2.unique (nest_chain h (h.occ a q h1).1)] at h3; exact h3⟩
  · rintro ⟨q, h1, h2⟩
    exact ⟨q, ch q, h1, nest_chain h (h.occ a q h1).1, h2⟩

/-- `compute_wrapped_radius` would return what is cached. -/
theorem recomputed (h : Geo g T L ch t s) {n r : Nat} (ha : (s.node n).arr = some r) : computeWrapped s n = .ok (s.node n).wrapped := by
  have hr := (h.occ n r ha).1
  obtain ⟨a, -, hsrc, -⟩ := h.src n r ha
  have hup : ∀ q ∈ L, Up s (some (s.reg q).top) q (ch q).dropLast := by
    intro q hq
    refine h.forest.induct (Q := fun q => Up s (some (s.reg q).top) q (ch q).dropLast) ?_ ?_ hq
    · intro q hq hp
      rw [h.forest.root q hq hp, h.top_self hq hp]
      exact .here rfl
    · intro q hq p _ hp ih
      obtain ⟨hpL, e⟩ := h.forest.step q hq p hp
      have hne : ch p ≠ [] := List.ne_nil_of_mem (h.forest.self_mem hpL)
      have ht : (s.reg p).top = (s.reg q).top := h.top_chain hq (by rw [e]; exact List.mem_cons_of_mem _ (h.forest.self_mem hpL))
      rw [e, List.dropLast_cons_of_ne_nil hne]
      refine .step ?_ hp (ht ▸ ih)
      intro e'
      rw [Option.some.injEq] at e'
      have := (h.top q hq).2
      rw [← e', hp] at this
      cases this
  have hlen : (ch r).dropLast.length < s.depth + 1 := by
    have h1 := h.forest.length_le hr
    have h2 := h.card
    rw [List.length_dropLast]
    omega
  unfold computeWrapped
  rw [hsrc, ha, h.otop n r ha]
  simp only [deref, Res.bind, sumBelow_up (hup r hr) hlen, keep_unbounded]
  rw [h.owrap n r ha]
  congr 3
  refine List.map_congr_left fun R hR => ?_
  have hRL := h.forest.mem_live hr (List.mem_of_mem_dropLast hR)
  have hRp : par s R ≠ none := by
    intro hp
    have e := h.forest.root_unique hr (List.mem_of_mem_dropLast hR) hp (h.top r hr).1 (h.top r hr).2
    have hnd := h.forest.nodup hr
    rw [h.split hr, List.nodup_append] at hnd
    exact hnd.2.2 R hR _ (by simp) e
  rw [y_eq, h.still R hRL hRp]
  omega

theorem covered_boundary (h : BGeo g T L ch t s) {u : Nat} {nb : Nbr} (hn : nb.target = none) {τ c : Int} :
    Covered s u nb τ c ↔ c = (localRadius s u).distanceAt τ := by
  constructor
  · intro hc
    cases hc with
    | boundary _ hx => exact hx.unique (reach_local h u τ)
    | between h1 _ _ => rw [hn] at h1; cases h1
  · rintro rfl
    exact .boundary hn (reach_local h u τ)

theorem covered_between (h : BGeo g T L ch t s) {u v : Nat} {nb : Nbr} (hn : nb.target = some v) {τ c : Int} :
    Covered s u nb τ c ↔ c = (localRadius s u).distanceAt τ + (localRadius s v).distanceAt τ := by
  constructor
  · intro hc
    cases hc with
    | boundary h1 _ => rw [hn] at h1; cases h1
    | between h1 hx hx' =>
      rw [hn] at h1; cases h1
      rw [hx.unique (reach_local h u τ), hx'.unique (reach_local h v τ)]
  · rintro rfl
    exact .between hn (reach_local h u τ) (reach_local h v τ)

theorem meets_iff (h : Geo g T L ch t s) (hg : Proper g) {u i : Nat} {nb : Nbr} (he : entry g (u, i) = some nb) {τ : Int} :
    Meets s u nb τ ↔ coll s u nb = some τ := by
  have h0 := h.toBGeo
  have hiu := h.local_intercept u
  have hsu := slope_three (h.local_valid u)
  have d : ∀ n τ, (localRadius s n).distanceAt τ = (localRadius s n).yIntercept + (localRadius s n).slope * τ := fun n τ => distanceAt_eq _ _
  unfold Meets coll
  cases hn : nb.target with
  | none =>
    simp only [covered_boundary h0 hn, d, exists_eq_left]
    rcases hsu with e | e | e <;> rw [e]
    · simp only [reduceCtorEq, false_imp_iff, implies_true, true_and, if_true, Option.some.injEq]
      omega
    · simp; omega
    · simp; omega
  | some v =>
    have hiv := h.local_intercept v
    have hsv := slope_three (h.local_valid v)
    have hev := hg.even u i nb he
    have even2 : ∀ x, (localRadius s x).slope = 1 → (rad s L ch t x - t) % 2 = 0 := by
      intro x hx
      cases hxt : (s.node x).top with
      | none => rw [BGeo.local_slope_none hxt] at hx; omega
      | some r => exact h.even2 x r hxt (by rw [← BGeo.local_slope hxt, hx]; decide)
    simp only [covered_between h0 hn, d, exists_eq_left, Option.some.injEq, forall_eq']
    by_cases htop : (s.node u).top = (s.node v).top
    · simp [htop]
    · simp only [htop, ne_eq, not_false_eq_true, true_and, false_or]
      have hu2 := even2 u
      have hv2 := even2 v
      rcases hsu with e | e | e <;> rcases hsv with e' | e' | e' <;> rw [e, e'] <;> rw [e] at hiu hu2 <;> rw [e'] at hiv hv2 <;> simp <;> omega

theorem between_eq (h : BGeo g T L ch t s) (hn : s.now = t) (hL : AInv L s.regs) {a : Nat} (ha : a ∈ T) {b : Option Nat} (hb : ∀ v, b = some v → v ∈ T) :
    between s a b = D s L ch t (some a) b := by
  classical
  unfold between D dist
  rw [live_eq hL, hn, Finset.sum_filter]
  refine Finset.sum_congr rfl fun R hR => ?_
  have hy := h.ypos R hR
  have hy' : (s.reg R).radius.distanceAt t = y s t R := rfl
  rw [hy', h.pot_event ha, within_iff h]
  cases b with
  | none =>
    have hz : pot s ch t R none = 0 := rfl
    rw [hz]
    simp only [reduceCtorEq, false_and, exists_false, iff_false, not_not]
    split
    · rw [sub_zero, abs_of_nonneg hy]
    · simp
  | some v =>
    rw [h.pot_event (hb v rfl)]
    simp only [Option.some.injEq, exists_eq_left', within_iff h]
    by_cases h1 : InR s ch R a <;> by_cases h2 : InR s ch R v <;> simp [h1, h2, abs_of_nonneg hy]

theorem tight_of (h : BGeo g T L ch t s) (hn : s.now = t) (hL : AInv L s.regs) {e : CompressedEdge} {a : Nat} (he : e.locFrom = some a) (ha : a ∈ T)
    (hb : ∀ v, e.locTo = some v → v ∈ T) (ht : Tight g s L ch t a e.locTo e.obsMask) : TightEdge g T s e := by
  obtain ⟨es, h1, h2, h3⟩ := ht
  exact ⟨a, es, he, ha, hb, h1, by rw [h2, between_eq h hn hL ha hb], h3⟩

theorem joins_of (h : BGeo g T L ch t s) (hn : s.now = t) (hL : AInv L s.regs) {e : CompressedEdge} {r r' : Nat} (hl : Link g T L ch t s e r r') :
    Joins g T s e r r' := by
  obtain ⟨a, b, h1, h2, h3, h4, h5, h6, h7⟩ := hl
  refine ⟨tight_of h hn hL h1 h3 (fun v hv => ?_) (by rw [h2]; exact h7), a, b, h1, h2, (within_iff h).2 h5, (within_iff h).2 h6⟩
  rw [h2, Option.some.injEq] at hv
  exact hv ▸ h4

theorem exits_of (h : BGeo g T L ch t s) (hn : s.now = t) (hL : AInv L s.regs) {e : CompressedEdge} {r : Nat} (hl : BLink g T L ch t s e r) :
    Exits g T s e r := by
  obtain ⟨a, h1, h2, h3, h5, h7⟩ := hl
  exact ⟨tight_of h hn hL h1 h3 (fun v hv => by rw [h2] at hv; cases hv) (by rw [h2]; exact h7), a, h1, h2, (within_iff h).2 h5⟩

end

theorem alternating_of {g : MGraph} {T L : Finset Nat} {ch : Nat → List Nat} {t : Int} {s : MS} {A : Finset Nat} {ach : Nat → List Nat}
    {Y : Nat → Prop} (hg : Proper g) (h : SOk g T L ch t Y s A ach) : Alternating g T s := by
  have h0 := h.fl.geo.toBGeo
  have hn := h.fl.now
  have hA := live_eq h.m.arena
  have hL := live_eq h.regs
  have htop : ∀ r, Top s.fl r ↔ (view g T L ch t s.fl).top r := by
    intro r; unfold Top; rw [hL]; rfl
  have hj : ∀ {e r r'}, Link g T L ch t s.fl e r r' → Joins g T s.fl e r r' := fun h' => joins_of h0 hn h.regs h'
  constructor
  · rw [hA]
    exact Trees.of_shape h.m.shape h.m.nodes h.m.arena.card_le
  · rw [hA]
    intro a ha
    exact ⟨(htop _).2 (h.m.nodes.outer a ha).1, h.m.nodes.grow a ha (fun h => h)⟩
  · rw [hA]
    intro a ha i hi
    obtain ⟨k1, k2, k3⟩ := h.m.nodes.inner a ha i hi
    exact ⟨(htop i).2 k1, k2, hj k3⟩
  · rw [hA]
    intro a ha c e hc
    obtain ⟨i, k1, k2⟩ := h.m.shape.link a ha c e hc
    exact ⟨i, k1, hj k2⟩
  · rw [hA]
    intro r hr
    rcases h.m.tops.cover r ((htop r).1 hr) (fun h => h) with ⟨a, ha, hm⟩ | hm
    · rcases List.mem_cons.1 hm with hm | hm
      · exact .inl ⟨a, ha, hm.symm⟩
      · exact .inr (.inl ⟨a, ha, by simpa using hm⟩)
    · refine .inr (.inr ⟨hm.still, ?_⟩)
      rcases hm.mate with ⟨k1, k2⟩ | ⟨m, k1, k2, k3, -, -, k4, k5⟩
      · exact .inl ⟨k1, exits_of h0 hn h.regs k2⟩
      · exact .inr ⟨m, k1, k2, (htop m).2 k3, k4, hj k5⟩
  · rw [hL]
    intro r hr
    rcases h.cyc r hr with k | ⟨k1, k2, q, k3⟩
    · exact .inl k
    · right
      have hpos : 0 < (s.fl.reg r).children.length := by
        have : 3 ≤ (s.fl.reg r).children.length := k2
        omega
      refine ⟨k1, k2, fun c hc => ?_, h0.kids.nodup r hr, ?_⟩
      · have := h0.kids.mem r hr c
        exact ⟨fun hm => (this.1 hm).2, fun hm => this.2 ⟨hc, hm⟩⟩
      · rintro e c c' ⟨i, q1, q2, e', a1, a2, a3⟩
        have hl := k3.around hpos i
        have hi : i < (s.fl.reg r).children.length := by
          by_contra hcon
          rw [List.getElem?_eq_none (by omega)] at a1
          cases a1
        have e1 : around (s.fl.reg r).children hpos i = (q1, e') := by
          have := around_get hpos i
          rw [Nat.mod_eq_of_lt hi, a1, Option.some.injEq] at this
          exact this.symm
        have e2 : (around (s.fl.reg r).children hpos (i + 1)).1 = q2 := by
          rw [around_get hpos (i + 1)] at a2
          simpa using a2
        change Link g T L ch t s.fl (around (s.fl.reg r).children hpos i).2 (around (s.fl.reg r).children hpos i).1 (around (s.fl.reg r).children hpos (i + 1)).1 at hl
        rw [e1, e2] at hl
        rcases a3 with ⟨rfl, rfl, rfl⟩ | ⟨rfl, rfl, rfl⟩
        · exact hj hl
        · exact hj (view_sym hg _ _ _ hl)

/-! ## Theorems -/

/-- **C39.** In every state of every decode, at every occupied node: the cached top region is the outermost blossom around the region that
reached the node; recomputing the wrapped radius gives the cached one; and that is the sum of the radii of the regions inside of the top
region, less the radius of arrival.  Hence the distance computed from the cache is the covered part, now and at all times until the next
event. -/
theorem C39_cached_radii {g : MGraph} {bnd : List Bool} (hp : Problem g bnd) {T : Finset Nat} {s : MS} (h : During g bnd T s) :
    (∀ n r, (s.fl.node n).arr = some r → ∃ l, Nest s.fl r l ∧ (s.fl.node n).top = l.getLast? ∧ computeWrapped s.fl n = .ok (s.fl.node n).wrapped ∧
      (s.fl.node n).wrapped = (l.dropLast.map fun q => (s.fl.reg q).radius.distanceAt s.fl.now).sum - (s.fl.node n).rho) ∧
    ∀ n τ, Reach s.fl n τ ((localRadius s.fl n).distanceAt τ) := by
  obtain ⟨L, ch, t, A, ach, hs⟩ := during_ok hp h
  have h0 := hs.fl.geo.toBGeo
  refine ⟨?_, fun n τ => reach_local h0 n τ⟩
  intro n r ha
  have hr := (h0.occ n r ha).1
  refine ⟨ch r, nest_chain h0 hr, ?_, recomputed hs.fl.geo ha, ?_⟩
  · rw [h0.otop n r ha, h0.last_top hr]
  · rw [h0.owrap n r ha, hs.fl.now]
    rfl

/-- **C40.** In every state of every decode, at every node that is not in a shrinking region: the search for the next event finds nothing
if nothing will ever happen on an edge of the node; otherwise it returns the earliest time at which something happens and an edge where it
does. -/
theorem C40_next_event {g : MGraph} {bnd : List Bool} (hp : Problem g bnd) {T : Finset Nat} {s : MS} (h : During g bnd T s) (u : Nat)
    (hu : (localRadius s.fl u).slope ≠ -1) :
    (findNext g s.fl u = .ok none ∧ ∀ i nb τ, entry g (u, i) = some nb → ¬ Meets s.fl u nb τ) ∨
    ∃ i nb τ, findNext g s.fl u = .ok (some (i, τ)) ∧ entry g (u, i) = some nb ∧ Meets s.fl u nb τ ∧ s.fl.now ≤ τ ∧
      ∀ i' nb' τ', entry g (u, i') = some nb' → Meets s.fl u nb' τ' → τ ≤ τ' := by
  obtain ⟨L, ch, t, A, ach, hs⟩ := during_ok hp h
  have hg := hp.proper.1
  have h0 := hs.fl.geo
  rcases h0.findNext_spec hg hu with ⟨e, h1⟩ | ⟨i, nb, τ, e, h1, h2, h3⟩
  · refine .inl ⟨e, fun i nb τ he hm => ?_⟩
    rw [meets_iff h0 hg he, h1 i nb he] at hm
    cases hm
  · refine .inr ⟨i, nb, τ, e, h1, (meets_iff h0 hg h1).2 h2, ?_, ?_⟩
    · rw [hs.fl.now]; exact (h0.coll_window hg h1 h2).1
    · intro i' nb' τ' he hm
      exact h3 i' nb' τ' he ((meets_iff h0 hg he).1 hm)

/-- **C40, wake-up calls.** In every state of every decode, whatever will happen on an edge if nothing else happens before, one end of the
edge has asked to be woken in time; and a region has asked to be woken at time `τ` exactly if it shrinks, is not inside a blossom, and runs
empty at time `τ`. -/
theorem C40_nothing_missed {g : MGraph} {bnd : List Bool} (hp : Problem g bnd) {T : Finset Nat} {s : MS} (h : During g bnd T s) :
    (∀ u i nb τ, entry g (u, i) = some nb → Meets s.fl u nb τ → s.fl.now ≤ τ ∧
      ∃ τ', τ' ≤ τ ∧ (want s.fl (.inl u) = some τ' ∨ ∃ v, nb.target = some v ∧ want s.fl (.inl v) = some τ')) ∧
    ∀ r τ, want s.fl (.inr r) = some τ ↔ Top s.fl r ∧ (s.fl.reg r).radius.slope = -1 ∧ Empties s.fl r τ := by
  obtain ⟨L, ch, t, A, ach, hs⟩ := during_ok hp h
  have hg := hp.proper.1
  have h0 := hs.fl.geo
  have hsc : Sched g L (fun _ => False) (fun _ => False) s.fl := hs.fl.sched.mono (by rintro u ⟨r, -, hf⟩; exact hf)
  refine ⟨?_, ?_⟩
  · intro u i nb τ he hm
    rw [meets_iff h0 hg he] at hm
    refine ⟨by rw [hs.fl.now]; exact (h0.coll_window hg he hm).1, ?_⟩
    exact hsc.colls u i nb τ he hm (fun h => h) (fun _ _ h => h)
  · intro r τ
    unfold Top
    rw [live_eq hs.regs]
    have := hsc.regWant r
    by_cases hr : r ∈ L ∧ par s.fl r = none ∧ sl s.fl r = -1
    · rw [this.1 ⟨hr.1, hr.2.1, hr.2.2, fun h => h⟩, Option.some.injEq]
      obtain ⟨r1, r2, r3⟩ := hr
      have key : shrinkTime s.fl r = τ ↔ Empties s.fl r τ := by
        have hd := distanceAt_eq (s.fl.reg r).radius τ
        have r3' : (s.fl.reg r).radius.slope = -1 := r3
        unfold Empties
        rcases h0.shrinkTime_cases r1 r2 with ⟨k1, k2⟩ | ⟨z, k1, k2, k3⟩
        · rw [k1, k2]
          simp only [List.getLast?_nil]
          rw [hd, r3']
          omega
        · rw [k1, k3]
          simp only
          have hl := reach_local h0.toBGeo z τ
          have hlz : (localRadius s.fl z).distanceAt τ = (s.fl.reg r).radius.yIntercept - (s.fl.node z).rho - τ := by
            unfold localRadius
            rw [h0.otop z r k2]
            simp only
            obtain ⟨a1, a2, -⟩ := addOffset_spec (s.fl.reg (s.fl.reg r).top).radius (s.fl.node z).wrapped
            rw [distanceAt_eq, a1, a2, h0.top_self r1 r2, r3', h0.wrapped_top k2 r2]
            omega
          rw [hlz] at hl
          constructor
          · intro e
            rw [show (s.fl.reg r).radius.yIntercept - (s.fl.node z).rho - τ = 0 by omega] at hl
            exact hl
          · intro e
            have := hl.unique e
            omega
      rw [key]
      exact ⟨fun h => ⟨⟨r1, r2⟩, r3, h⟩, fun h => h.2.2⟩
    · rw [this.2 (fun h => hr ⟨h.1, h.2.1, h.2.2.1⟩)]
      exact ⟨fun h => (by cases h), fun h => absurd ⟨h.1.1, h.1.2, h.2.1⟩ hr⟩

/-- **C30.** In every state of every decode, the growing and shrinking regions form alternating trees, joined by tight edges; all other
regions that are not inside of blossoms are matched; and the children of every blossom form an odd cycle of tight edges. -/
theorem C30_alternating {g : MGraph} {bnd : List Bool} (hp : Problem g bnd) {T : Finset Nat} {s : MS} (h : During g bnd T s) : Alternating g T s := by
  obtain ⟨L, ch, t, A, ach, hs⟩ := during_ok hp h
  exact alternating_of hp.proper.1 hs

/-- **C30, shattering.** Whenever a shrinking region without nodes of its own is woken, it is a blossom and the inner region of a tree node
`ba` with a parent `p`.  The round opens it: from the child `r1` that contains the end of the edge from `p`, an even number of steps around
the cycle lead to the child `r2` that contains the start of the edge to the outer region of `ba`; the children on this way are inserted
into the tree between `p` and `ba`, the others are matched in pairs of neighbours, and every child is used once.  Nothing else in the trees
changes, and afterwards the trees are alternating again. -/
theorem C30_reopened {g : MGraph} {bnd : List Bool} (hp : Problem g bnd) {T : Finset Nat} {s : MS} (h : During g bnd T s) {B : Nat} {τ : Int}
    {w : World Owner} (hw : s.fl.w.step .deliver = some (.ring (.inr B) τ, w)) (he : (s.fl.reg B).shell = []) :
    ∃ s' ba p e r1 r2 n1 n2 pth prs, round g s = .ok (some s') ∧ ba ∈ live s.alts ∧ (s.alt ba).inner = some B ∧
      (s.alt ba).parent = some (p, e.reversed) ∧ e.locTo = some n1 ∧ Within s.fl r1 n1 ∧ (s.alt ba).i2o.locFrom = some n2 ∧ Within s.fl r2 n2 ∧
      Rethreaded (live s.alts) (live s'.alts) s s' (s.fl.reg B).children ba p e r1 r2 pth prs ∧ Alternating g T s' ∧
      live s'.fl.regs = (live s.fl.regs).erase B := by
  obtain ⟨L, ch, t, A, ach, hs⟩ := during_ok hp h
  have hg := hp.proper.1
  obtain ⟨t', hS, hT, hsl, hst⟩ := woken_region hs hw
  have h0 := hS.fl.geo.toBGeo
  have hy := y_eq s.fl t' B
  rcases h0.shrinkTime_cases hT.1 hT.2 with ⟨k1, k2⟩ | ⟨z, k1, -, -⟩
  swap
  · have k1' : (s.fl.reg B).shell.getLast? = some z := k1
    rw [he] at k1'; cases k1'
  have k2' : shrinkTime s.fl B = (s.fl.reg B).radius.yIntercept := k2
  obtain ⟨ev, s', L', ch', A', ach', e1, e2, e3, e4, e5, ba, p, e, r1, r2, n1, n2, pth, prs, q1, q2, q3, q4, q5, q6, q7, q8, q9⟩ :=
    shattering_spec hg hS hT hsl he (by
      show y s.fl t' B = 0
      rw [hy, hsl]; omega)
  rw [live_eq hs.m.arena, live_eq hs.regs]
  refine ⟨s', ba, p, e, r1, r2, n1, n2, pth, prs, ?_, q1, q2, q3, q5, (within_iff hs.fl.geo.toBGeo).2 q6, q7, (within_iff hs.fl.geo.toBGeo).2 q8,
    by rw [live_eq e3.m.arena]; exact ⟨q9.once, q9.along, q9.adj, q9.paired, q9.thread, q9.rest⟩,
    alternating_of hg e3, ?_⟩
  · unfold SB.round
    rw [hw]
    simp only
    unfold regionShrinking
    rw [show (({ s with fl := { s.fl with w := w } } : MS).fl.reg B).shell = [] from he]
    simp only [List.getLast?_nil, e1, Res.bind, e2]
  · rw [live_eq e3.regs, e5]

/-- The ends of the edges. -/
def ends (es : List CompressedEdge) : List Nat := es.flatMap fun e => e.locFrom.toList ++ e.locTo.toList

/-- The observables crossed an odd number of times. -/
def xorMasks (es : List CompressedEdge) : ObsInt := es.foldr (fun e m => e.obsMask ^^^ m) 0

theorem finished_done {g : MGraph} {bnd : List Bool} (hp : Problem g bnd) {T : Finset Nat} {s : MS} (h : Finished g bnd T s) :
    ∃ L ch t ach, SOk g T L ch t (fun _ => False) s ∅ ach ∧ Done g T L ch t s := by
  obtain ⟨L, ch, t, A, ach, hs⟩ := during_ok hp h.during
  have hA : A = ∅ := by rw [← live_eq hs.m.arena]; exact h.matched
  subst hA
  rcases round_spec hp.proper.1 hs with ⟨-, -, hd⟩ | ⟨s', _, _, _, _, _, e, -⟩
  · exact ⟨L, ch, t, ach, hs, Done.of_ok hs hd⟩
  · rw [h.over] at e; cases e

/-- **C31, the certificate.** At the end of every decode: the radii do not change any more and are not negative, every region contains an
odd number of detection events, and the regions do not overlap: every walk between two events, or to the boundary, weighs at least the
radii of the regions that contain exactly one of its ends.  The edges found by the decoder are tight, they join every event to exactly one
other or to the boundary, and their weight is the sum of all radii; no explanation of the events weighs less. -/
theorem C31_certified {g : MGraph} {bnd : List Bool} (hp : Problem g bnd) {T : Finset Nat} {s : MS} (h : Finished g bnd T s) :
    (∀ R ∈ live s.fl.regs, (s.fl.reg R).radius.slope = 0 ∧ 0 ≤ (s.fl.reg R).radius.distanceAt s.fl.now ∧
      ∀ S : Finset Nat, (∀ a, a ∈ S ↔ a ∈ T ∧ Within s.fl R a) → S.card % 2 = 1) ∧
    (∀ a ∈ T, ∀ b, (∀ v, b = some v → v ∈ T) → ∀ es, Spec.Walk g a b es → between s.fl a b ≤ totalWeight g es) ∧
    ∀ ns, (∀ a ∈ T, a ∈ ns) → ∃ s' x, extractAll s ns Extract.zero = .ok (s', x) ∧ (∀ e ∈ x.edges, TightEdge g T s.fl e) ∧
      (ends x.edges).Nodup ∧ (∀ v, v ∈ ends x.edges ↔ v ∈ T) ∧ x.mask = xorMasks x.edges ∧
      x.weight = ∑ R ∈ live s.fl.regs, (s.fl.reg R).radius.distanceAt s.fl.now ∧
      ∀ ws, Corrects g T ws → x.weight ≤ totalWeight g ws := by
  classical
  obtain ⟨L, ch, t, ach, hs, hd⟩ := finished_done hp h
  have h0 := hd.geo.toBGeo
  have hL := live_eq hs.regs
  refine ⟨?_, ?_, ?_⟩
  · rw [hL]
    intro R hR
    refine ⟨hd.still R hR, by rw [hs.fl.now]; exact h0.ypos R hR, fun S hS => ?_⟩
    have := h0.odd_events hd.cyc hR (fun r => if r = R then S else T.filter fun x => InR s.fl ch r x) (by
      intro r x
      by_cases hr : r = R
      · subst hr
        simp only [if_true]
        rw [hS, within_iff h0]
      · simp only [hr, if_false, Finset.mem_filter])
    simpa using this
  · intro a ha b hb es hw
    rw [between_eq h0 hs.fl.now hs.regs ha hb]
    exact dist_le_walk hd.geo.flow hw
  · intro ns hns
    obtain ⟨s', x, e1, -, e2, e3, e4, e5, e6, e7, e8, e9, e10⟩ := extractAll_spec hd hs.m.arena hns
    refine ⟨s', x, e1, ?_, e2, e3, e5, by rw [hL, e8, hs.fl.now]; rfl, e7⟩
    intro e he
    obtain ⟨a, k1, k2⟩ := e10 e he
    have hin : ∀ v, e.locFrom = some v ∨ e.locTo = some v → v ∈ T := by
      intro v hv
      refine (e3 v).1 (List.mem_flatMap.2 ⟨e, he, ?_⟩)
      rcases hv with hv | hv <;> simp [edgeEnds, hv]
    exact tight_of h0 hs.fl.now hs.regs k1 (hin a (.inl k1)) (fun v hv => hin v (.inr hv)) k2

/-- Region `B` is `r` or lies inside of it. -/
def Inside (s : FS) (B r : Nat) : Prop := ∃ l, Nest s B l ∧ r ∈ l

/-- **C29.** At the end of every decode, dissolving a region `r` that is not inside a blossom, together with the region it is matched to, gives
one match edge that is the one between the two regions (or from `r` to the boundary), and others that each run between neighbours on the
cycle of one of the blossoms that are dissolved.  The detection events in the two regions are the ends of these edges, every one once; the
reported observables are those of the edges together, and the reported weight is the sum of the radii of all regions dissolved. -/
theorem C29_dissolved {g : MGraph} {bnd : List Bool} (hp : Problem g bnd) {T : Finset Nat} {s : MS} (h : Finished g bnd T s) {r : Nat}
    (hr : Top s.fl r) :
    ∃ s' z es, extract s.extractDepth s r = .ok (s', z) ∧ z.edges.Perm ((s.mate r).edge :: es) ∧ (ends z.edges).Nodup ∧
      (∀ v, v ∈ ends z.edges ↔ v ∈ T ∧ (Within s.fl r v ∨ ∃ m, (s.mate r).region = some m ∧ Within s.fl m v)) ∧
      (∀ e ∈ z.edges, TightEdge g T s.fl e) ∧
      (∀ e ∈ es, ∃ B ∈ live s.fl.regs, (Inside s.fl B r ∨ ∃ m, (s.mate r).region = some m ∧ Inside s.fl B m) ∧
        ∃ c c', Adjacent (s.fl.reg B).children e c c' ∧ Joins g T s.fl e c c') ∧
      z.mask = xorMasks z.edges ∧
      ∀ D : Finset Nat, (∀ B, B ∈ D ↔ B ∈ live s.fl.regs ∧ (Inside s.fl B r ∨ ∃ m, (s.mate r).region = some m ∧ Inside s.fl B m)) →
        z.weight = ∑ B ∈ D, (s.fl.reg B).radius.distanceAt s.fl.now := by
  obtain ⟨L, ch, t, ach, hs, hd⟩ := finished_done hp h
  have h0 := hd.geo.toBGeo
  have hL := live_eq hs.regs
  have hal := alternating_of hp.proper.1 hs
  have hr' := hr
  unfold Top at hr'
  rw [hL] at hr'
  obtain ⟨s', S', z, e1, -, -, -, -, e2, e3, e4, es, e5, e6⟩ := extractOne_spec hd (XAll.start hd) (x := Extract.zero)
    ⟨rfl, by simp [Extract.zero], (Matches.nil (by simp)).congr (fun _ _ => Iff.rfl) rfl⟩ hr'.1 hr'.2 (by simp)
  have hin : ∀ r n, InR s.fl ch r n ↔ Within s.fl r n := fun r n => (within_iff h0).symm
  have hO : ∀ n, InO s.fl ch (s.mate r).region n ↔ ∃ m, (s.mate r).region = some m ∧ Within s.fl m n := by
    intro n; unfold InO; simp only [hin]
  have hmem : ∀ v, v ∈ ends z.edges ↔ v ∈ T ∧ (Within s.fl r v ∨ ∃ m, (s.mate r).region = some m ∧ Within s.fl m v) := by
    intro v
    have := e3.mem v
    rw [hin, hO] at this
    exact this
  have hins : ∀ B r, B ∈ L → (Inside s.fl B r ↔ r ∈ ch B) := by
    intro B r hB
    constructor
    · rintro ⟨l, h1, h2⟩; rw [h1.unique (nest_chain h0 hB)] at h2; exact h2
    · intro h1; exact ⟨ch B, nest_chain h0 hB, h1⟩
  refine ⟨s', z, es, e1, e5, e3.nodup, hmem, ?_, ?_, e2, ?_⟩
  · intro e he
    obtain ⟨a, k1, k2⟩ := e3.tight e he
    have hT : ∀ v, e.locFrom = some v ∨ e.locTo = some v → v ∈ T := by
      intro v hv
      refine ((e3.mem v).1 (List.mem_flatMap.2 ⟨e, he, ?_⟩)).1
      rcases hv with hv | hv <;> simp [edgeEnds, hv]
    exact tight_of h0 hs.fl.now hs.regs k1 (hT a (.inl k1)) (fun v hv => hT v (.inr hv)) k2
  · intro e he
    obtain ⟨B, hB, c, hc⟩ := e6 e he
    rw [hL]
    obtain ⟨i, hi, hic⟩ := List.getElem_of_mem hc
    have hne : (s.fl.reg B).children ≠ [] := List.ne_nil_of_mem hc
    have hlen : 0 < (s.fl.reg B).children.length := by omega
    have hadj : Adjacent (s.fl.reg B).children e c (around (s.fl.reg B).children hlen (i + 1)).1 := by
      have := around_adjacent hlen i
      rw [around_lt hlen hi, hic] at this
      exact this
    have hj : Joins g T s.fl e c (around (s.fl.reg B).children hlen (i + 1)).1 := by
      rcases hal.cycles B (by rw [hL]; exact hB) with k | ⟨-, -, -, -, k⟩
      · exact absurd k hne
      · exact k e _ _ hadj
    refine ⟨B, hB, ?_, c, _, hadj, hj⟩
    obtain ⟨-, a, b, j1, -, j2, -⟩ := hj
    have hkid : c ∈ kidsOf s.fl B := List.mem_map.2 ⟨_, hc, rfl⟩
    obtain ⟨c1, c2, c3⟩ := h0.kid_par hB hkid
    obtain ⟨q, hq, hcq⟩ := (hin c a).2 j2
    have hqL := (h0.occ a q hq).1
    have hBq : B ∈ ch q := h0.forest.trans hqL hcq (by rw [c3]; exact List.mem_cons_of_mem _ (h0.forest.self_mem hB))
    have hae : a ∈ ends z.edges := List.mem_flatMap.2 ⟨e, e5.symm.subset (List.mem_cons_of_mem _ he), by simp [j1]⟩
    -- a root around the event is around `B`
    have key : ∀ m, m ∈ L → par s.fl m = none → Within s.fl m a → Inside s.fl B m := by
      intro m hm hmp hw
      obtain ⟨q', hq', hmq⟩ := (hin m a).2 hw
      rw [hq, Option.some.injEq] at hq'
      subst hq'
      rw [hins B m hB]
      obtain ⟨m', hm', hmp'⟩ := h0.forest.exists_root hB
      have := h0.forest.root_unique hqL (h0.forest.trans hqL hBq hm') hmp' hmq hmp
      rw [← this]; exact hm'
    rcases ((hmem a).1 hae).2 with hw | ⟨m, hm, hw⟩
    · exact .inl (key r hr'.1 hr'.2 hw)
    · refine .inr ⟨m, hm, ?_⟩
      rcases (hd.matched r hr'.1 hr'.2).mate with ⟨k, -⟩ | ⟨m', k, -, k2, -⟩
      · rw [hm] at k; cases k
      · rw [hm, Option.some.injEq] at k
        subst k
        exact key m k2.1 k2.2 hw
  · intro D hD
    rw [hL] at hD
    rw [e4]
    have hm : ∀ m, (s.mate r).region = some m → m ∈ L ∧ par s.fl m = none ∧ m ≠ r := by
      intro m hm
      rcases (hd.matched r hr'.1 hr'.2).mate with ⟨k, -⟩ | ⟨m', k, k1, k2, -⟩
      · rw [hm] at k; cases k
      · rw [hm, Option.some.injEq] at k
        subst k
        exact ⟨k2.1, k2.2, k1⟩
    have hDe : D = below L ch r ∪ belowO L ch (s.mate r).region := by
      ext B
      rw [hD, Finset.mem_union, mem_below]
      cases hmr : (s.mate r).region with
      | none =>
        simp only [reduceCtorEq, false_and, exists_false, or_false, belowO, Finset.notMem_empty]
        exact and_congr_right fun hB => hins B r hB
      | some m =>
        simp only [Option.some.injEq, exists_eq_left', belowO, mem_below]
        constructor
        · rintro ⟨hB, k | k⟩
          · exact .inl ⟨hB, (hins B r hB).1 k⟩
          · exact .inr ⟨hB, (hins B m hB).1 k⟩
        · rintro (⟨hB, k⟩ | ⟨hB, k⟩)
          · exact ⟨hB, .inl ((hins B r hB).2 k)⟩
          · exact ⟨hB, .inr ((hins B m hB).2 k)⟩
    rw [hDe, Finset.sum_union, hs.fl.now]
    · cases hmr : (s.mate r).region with
      | none => simp [belowO, bsumO, bsum, y]
      | some m => simp [belowO, bsumO, bsum, y]
    · refine Finset.disjoint_left.2 fun B k1 k2 => ?_
      cases hmr : (s.mate r).region with
      | none => rw [hmr] at k2; simp [belowO] at k2
      | some m =>
        rw [hmr] at k2
        obtain ⟨m1, m2, m3⟩ := hm m hmr
        exact m3 (h0.forest.root_unique (mem_below.1 k1).1 (mem_below.1 k2).2 m2 (mem_below.1 k1).2 hr'.2)

theorem countP_ends (S : Finset Nat) (Q : Nat × Option Nat → Bool) (hQ : ∀ p, Q p = true ↔ ¬ (p.1 ∈ S ↔ ∃ v, p.2 = some v ∧ v ∈ S))
    (M : List (Nat × Option Nat)) : (M.flatMap fun p => p.1 :: p.2.toList).countP (· ∈ S) % 2 = M.countP Q % 2 := by
  induction M with
  | nil => rfl
  | cons p M ih =>
    have hq := hQ p
    obtain ⟨a, b⟩ := p
    rw [List.flatMap_cons, List.countP_append, List.countP_cons]
    cases b with
    | none => by_cases h1 : a ∈ S <;> simp [h1] at hq ⊢ <;> simp [hq] <;> omega
    | some b => by_cases h1 : a ∈ S <;> by_cases h2 : b ∈ S <;> simp [h1, h2] at hq ⊢ <;> simp [hq] <;> omega

theorem sum_swap {α : Type} {L : Finset Nat} {y : Nat → Int} (P : Nat → α → Prop) [∀ R p, Decidable (P R p)] (M : List α) :
    (M.map fun p => ∑ R ∈ L with P R p, y R).sum = ∑ R ∈ L, y R * (M.countP (fun p => P R p) : Nat) := by
  induction M with
  | nil => simp
  | cons p M ih =>
    rw [List.map_cons, List.sum_cons, ih, Finset.sum_filter, ← Finset.sum_add_distrib]
    refine Finset.sum_congr rfl fun R _ => ?_
    by_cases h : P R p <;> simp [h, mul_add]
    omega

/-- **C31, in general.** Any family of sets of an odd number of events, with radii that are not negative and fit between any two events and
between any event and the boundary, bounds the cost of every way to match every event to another one or to the boundary; the bound is
attained by matchings along tight pairs that leave every set once. -/
theorem C31_dual_bound {T : Finset Nat} {L : Finset Nat} (S : Nat → Finset Nat) (y : Nat → Int) (cost : Nat → Option Nat → Int)
    (hy : ∀ R ∈ L, 0 ≤ y R) (hS : ∀ R ∈ L, S R ⊆ T ∧ (S R).card % 2 = 1)
    (hc : ∀ a ∈ T, ∀ b, (∀ v, b = some v → v ∈ T) → ∑ R ∈ L with ¬ (a ∈ S R ↔ ∃ v, b = some v ∧ v ∈ S R), y R ≤ cost a b)
    (M : List (Nat × Option Nat)) (hM : (M.flatMap fun p => p.1 :: p.2.toList).Perm T.toList) :
    ∑ R ∈ L, y R ≤ (M.map fun p => cost p.1 p.2).sum ∧
    ((∀ p ∈ M, ∑ R ∈ L with ¬ (p.1 ∈ S R ↔ ∃ v, p.2 = some v ∧ v ∈ S R), y R = cost p.1 p.2) →
      (∀ R ∈ L, 0 < y R → M.countP (fun p => ¬ (p.1 ∈ S R ↔ ∃ v, p.2 = some v ∧ v ∈ S R)) = 1) →
      (M.map fun p => cost p.1 p.2).sum = ∑ R ∈ L, y R) := by
  classical
  have key : ∀ R ∈ L, M.countP (fun p => ¬ (p.1 ∈ S R ↔ ∃ v, p.2 = some v ∧ v ∈ S R)) % 2 = 1 := by
    intro R hR
    rw [← countP_ends (S R) _ (fun p => by simp), hM.countP_eq, ← (hS R hR).2]
    congr 1
    rw [List.countP_eq_length_filter, ← List.toFinset_card_of_nodup (T.nodup_toList.filter _)]
    congr 1
    ext x
    simp only [List.mem_toFinset, List.mem_filter, Finset.mem_toList, decide_eq_true_eq]
    exact ⟨fun h => h.2, fun h => ⟨(hS R hR).1 h, h⟩⟩
  have swap := sum_swap (L := L) (y := y) (fun R (p : Nat × Option Nat) => ¬ (p.1 ∈ S R ↔ ∃ v, p.2 = some v ∧ v ∈ S R)) M
  have hmem : ∀ p ∈ M, p.1 ∈ T ∧ ∀ v, p.2 = some v → v ∈ T := by
    intro p hp
    have h1 : ∀ v ∈ p.1 :: p.2.toList, v ∈ T := fun v hv => Finset.mem_toList.1 (hM.mem_iff.1 (List.mem_flatMap.2 ⟨p, hp, hv⟩))
    exact ⟨h1 _ (by simp), fun v hv => h1 v (by simp [hv])⟩
  constructor
  · calc ∑ R ∈ L, y R ≤ ∑ R ∈ L, y R * (M.countP (fun p => ¬ (p.1 ∈ S R ↔ ∃ v, p.2 = some v ∧ v ∈ S R)) : Nat) := by
          refine Finset.sum_le_sum fun R hR => ?_
          have h1 := key R hR
          have h2 := hy R hR
          exact le_mul_of_one_le_right h2 (by omega)
      _ = _ := swap.symm
      _ ≤ _ := List.sum_le_sum fun p hp => hc p.1 (hmem p hp).1 p.2 (hmem p hp).2
  · intro h1 h2
    calc (M.map fun p => cost p.1 p.2).sum = (M.map fun p => ∑ R ∈ L with ¬ (p.1 ∈ S R ↔ ∃ v, p.2 = some v ∧ v ∈ S R), y R).sum := by
          congr 1
          exact List.map_congr_left fun p hp => (h1 p hp).symm
      _ = _ := swap
      _ = _ := by
        refine Finset.sum_congr rfl fun R hR => ?_
        by_cases hz : 0 < y R
        · rw [h2 R hR hz]; simp
        · have := hy R hR
          rw [show y R = 0 by omega]; simp

/-! ## Examples

A triangle of detectors, two more detectors hanging on it, and a boundary edge. -/

/-- The insertions. -/
def triOps : List EdgeIns := [.edge 0 1 2 [0], .edge 1 2 2 [1], .edge 0 2 2 [], .edge 0 3 4 [], .edge 1 4 6 [], .bdry 0 8 [2]]
/-- The resulting lists of neighbours. -/
def triNodes : List (List Nbr) := [[⟨none, 8, 4⟩, ⟨some 1, 2, 1⟩, ⟨some 2, 2, 0⟩, ⟨some 3, 4, 0⟩], [⟨some 0, 2, 1⟩, ⟨some 2, 2, 2⟩, ⟨some 4, 6, 0⟩], [⟨some 1, 2, 2⟩, ⟨some 0, 2, 0⟩],
  [⟨some 0, 4, 0⟩], [⟨some 1, 6, 0⟩]]
/-- The resulting graph. -/
def tri : MGraph := ⟨triNodes, 3, ∅, ∅, 0⟩

theorem tri_run : run (MGraph.empty 5 3) triOps = some tri := by
  have : ∃ g, run (MGraph.empty 5 3) triOps = some g ∧ g.nodes = triNodes ∧ g.numObs = 3 ∧ g.negDets = ∅ ∧ g.negObs = ∅ ∧ g.negSum = 0 :=
    ⟨_, rfl, by decide, by decide, by decide, by decide, by decide⟩
  obtain ⟨g, h1, h2, h3, h4, h5, h6⟩ := this
  rw [h1]
  cases g
  subst h2 h3 h4 h5 h6
  rfl

theorem tri_problem : Problem tri [] := ⟨⟨5, 3, triOps, tri_run, by decide, by decide, by decide⟩, by decide⟩

/-- A number of rounds. -/
def rounds (g : MGraph) : Nat → Res MS → Res MS
  | 0, s => s
  | n + 1, s => rounds g n (s.bind fun s => (SB.round g s).bind deref)

theorem rounds_during {g : MGraph} {bnd : List Bool} {T : Finset Nat} (n : Nat) : ∀ {x : Res MS}, (∀ s, x = .ok s → During g bnd T s) →
    ∀ s, rounds g n x = .ok s → During g bnd T s := by
  induction n with
  | zero => intro x h s hs; exact h s hs
  | succ n ih =>
    intro x h s hs
    refine ih (x := x.bind fun s => (SB.round g s).bind deref) ?_ s hs
    intro s' hs'
    cases x with
    | ok z =>
      cases hr : SB.round g z with
      | ok o =>
        cases o with
        | some z' =>
          have : z' = s' := by simpa [Res.bind, hr, deref] using hs'
          exact .round (h z rfl) (this ▸ hr)
        | none => simp [Res.bind, hr, deref] at hs'
      | throws => simp [Res.bind, hr] at hs'
      | ub => simp [Res.bind, hr] at hs'
    | throws => cases hs'
    | ub => cases hs'


/-- The state after a number of rounds. -/
def after (n : Nat) (events : List Nat) : Res MS := rounds tri n (launch tri events MS.init.begin)

def okAnd (p : MS → Bool) : Res MS → Bool
  | .ok s => p s
  | _ => false

theorem after_during {n : Nat} {events : List Nat} {s : MS} (hs : after n events = .ok s) (hv : Valid tri events)
    (he : (TL.start 5 [] [] events).1.started = events) : During tri [] events.toFinset s := by
  have hneg : negEvents tri = [] := by
    have : tri.negDets = ([] : List Nat).toFinset := rfl
    rw [negEvents, this]
    exact (List.toFinset_sort (l := []) (· ≤ ·) (by decide)).2 (by decide)
  have hT : symmDiff (counted [] events) tri.negDets = events.toFinset := by
    have : tri.negDets = (⊥ : Finset Nat) := rfl
    rw [this, symmDiff_bot]
    ext d
    simp [counted, TL.notBoundary]
  refine rounds_during n (fun s' hs' => ?_) s hs
  have := During.start (g := tri) (bnd := []) (s := MS.init) (s' := s') .fresh hv (by
    rw [hneg, show tri.nodes.length = 5 from rfl, he]; exact hs')
  rw [hT] at this
  exact this

/-- The region that is woken, if it has no nodes of its own. -/
def wakes (s : MS) : Option Nat :=
  match s.fl.w.step .deliver with
  | some (.ring (.inr B) _, _) => if (s.fl.reg B).shell = [] then some B else none
  | _ => none

theorem wakes_spec {s : MS} {B : Nat} (h : wakes s = some B) : ∃ τ w, s.fl.w.step .deliver = some (.ring (.inr B) τ, w) ∧ (s.fl.reg B).shell = [] := by
  unfold wakes at h
  split at h
  · rename_i B' τ w e
    split at h
    · rename_i he
      cases h
      exact ⟨τ, w, e, he⟩
    · cases h
  · cases h

theorem okAnd_spec {p : MS → Bool} {x : Res MS} (h : okAnd p x = true) : ∃ s, x = .ok s ∧ p s = true := by
  cases x with
  | ok s => exact ⟨s, rfl, h⟩
  | throws => cases h
  | ub => cases h

/-- With events at all five detectors, the triangle becomes a blossom, one of the others hits it, it shrinks, and after 14 rounds it opens
again: this state meets the hypotheses of C30, C39 and C40. -/
example : ∃ s B τ w, During tri [] {0, 1, 2, 3, 4} s ∧ s.fl.w.step .deliver = some (.ring (.inr B) τ, w) ∧ (s.fl.reg B).shell = [] ∧
    (s.fl.reg B).children.length = 3 ∧ (localRadius s.fl 4).slope = 1 ∧ Alternating tri {0, 1, 2, 3, 4} s := by
  obtain ⟨s, hs, h⟩ := okAnd_spec (show okAnd (fun s => wakes s = some 5 ∧ (s.fl.reg 5).children.length = 3 ∧ (localRadius s.fl 4).slope = 1)
    (after 14 [0, 1, 2, 3, 4]) = true by decide +kernel)
  simp only [decide_eq_true_eq] at h
  obtain ⟨τ, w, h1, h2⟩ := wakes_spec h.1
  have hd := after_during hs ⟨by decide, by decide⟩ (by decide)
  exact ⟨s, 5, τ, w, hd, h1, h2, h.2.1, h.2.2, C30_alternating tri_problem hd⟩

/-- Whether the decode is over, with everybody matched. -/
def isOver (s : MS) : Bool := match SB.round tri s with | .ok none => live s.alts = ∅ | _ => false

theorem isOver_spec {s : MS} (h : isOver s = true) : SB.round tri s = .ok none ∧ live s.alts = ∅ := by
  unfold isOver at h
  split at h
  · rename_i e; exact ⟨e, by simpa using h⟩
  · cases h

/-- Whether extraction gives this weight and mask. -/
def gives (s : MS) (ns : List Nat) (w : Int) (m : ObsInt) : Bool :=
  match extractAll s ns Extract.zero with
  | .ok (_, x) => x.weight = w ∧ x.mask = m
  | _ => false

theorem gives_spec {s : MS} {ns : List Nat} {w : Int} {m : ObsInt} (h : gives s ns w m = true) :
    ∃ s' x, extractAll s ns Extract.zero = .ok (s', x) ∧ x.weight = w ∧ x.mask = m := by
  unfold gives at h
  split at h
  · rename_i s' x e; exact ⟨s', x, e, by simpa using h⟩
  · cases h

/-- With events at the triangle, the decode ends after 13 rounds, with a blossom that is matched to the boundary: this state meets the
hypotheses of C29 and C31.  The weight is 10: one edge of the triangle, and the boundary edge. -/
example : ∃ s, Finished tri [] {0, 1, 2} s ∧ Top s.fl 3 ∧ (s.fl.reg 3).children.length = 3 ∧
    ∃ s' x, extractAll s [0, 1, 2] Extract.zero = .ok (s', x) ∧ x.weight = 10 ∧ x.mask = 6 := by
  obtain ⟨s, hs, h⟩ := okAnd_spec (show okAnd (fun s => isOver s = true ∧ 3 ∈ live s.fl.regs ∧ (s.fl.reg 3).parent = none ∧
    (s.fl.reg 3).children.length = 3 ∧ gives s [0, 1, 2] 10 6 = true)
    (after 13 [0, 1, 2]) = true by decide +kernel)
  simp only [decide_eq_true_eq] at h
  obtain ⟨h1, h2, h3, h4, h5⟩ := h
  obtain ⟨k1, k2⟩ := isOver_spec h1
  refine ⟨s, ⟨after_during hs ⟨by decide, by decide⟩ (by decide), k1, k2⟩, ⟨h2, h3⟩, h4, ?_⟩
  exact gives_spec h5

/-- Three events, one set around all of them and one around each, and a matching along tight pairs. -/
example : ∑ R ∈ ({0, 1, 2, 3} : Finset Nat), (if R = 3 then (3 : Int) else 1) ≤
    ([(0, some 1), (2, none)].map fun p : Nat × Option Nat => if p.2 = none then (4 : Int) else 2).sum :=
  (C31_dual_bound (T := {0, 1, 2}) (L := {0, 1, 2, 3}) (fun R => if R = 3 then {0, 1, 2} else {R}) (fun R => if R = 3 then 3 else 1)
    (fun _ b => if b = none then 4 else 2) (by decide) (by decide) (by
      intro a ha b hb
      cases b with
      | none => revert a; decide
      | some b => have := hb b rfl; clear hb; revert a b; decide) [(0, some 1), (2, none)]
    (Multiset.coe_eq_coe.1 (by rw [Finset.coe_toList]; rfl))).1

end Verif.Props.Dynamics
