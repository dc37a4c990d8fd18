import Verif.Blossom.Model
import Verif.Blossom.Certificate

/-!
# Invariant of the flooder, I: geometry
-/

namespace Verif.SB

open Verif Verif.Graph Verif.CE Verif.Vary Verif.Track Verif.Spec Verif.Mem
open Verif.Sch (Res better)

/-! ## Definitions -/

/-- Radius of a region at time `t`. -/
def y (s : FS) (t : Int) (r : Nat) : Int := (s.reg r).radius.distanceAt t

/-- Slope of the radius of a region. -/
def sl (s : FS) (r : Nat) : Int := (s.reg r).radius.slope

def par (s : FS) (r : Nat) : Option Nat := (s.reg r).parent

/-- What an owner wants. -/
def want (s : FS) (o : Owner) : Option Int := (absW s.w).want o

/-- The potential of region `R` at a place: how much of the radius of `R` lies between the place and the outside. -/
def pot (s : FS) (ch : Nat → List Nat) (t : Int) (R : Nat) : Option Nat → Int
  | none => 0
  | some n =>
    match (s.node n).arr with
    | none => 0
    | some r => if R ∈ ch r then (if R = r then y s t R - (s.node n).rho else y s t R) else 0

/-- Distance given by the potentials. -/
def D (s : FS) (L : Finset Nat) (ch : Nat → List Nat) (t : Int) (u v : Option Nat) : Int := dist L (pot s ch t) u v

/-- Distance to the outside. -/
def rad (s : FS) (L : Finset Nat) (ch : Nat → List Nat) (t : Int) (n : Nat) : Int := D s L ch t (some n) none

/-- A tight walk with the given observables. -/
def Tight (g : MGraph) (s : FS) (L : Finset Nat) (ch : Nat → List Nat) (t : Int) (a : Nat) (b : Option Nat) (o : ObsInt) : Prop :=
  ∃ es, Walk g a b es ∧ totalWeight g es = D s L ch t (some a) b ∧ totalObs g es = o

/-- Node `n` lies in region `r` (or below). -/
def InR (s : FS) (ch : Nat → List Nat) (r n : Nat) : Prop := ∃ q, (s.node n).arr = some q ∧ r ∈ ch q

/-- The structural part of the invariant of the flooder: `T` are the detection events, `L` the live regions, `ch r` lists `r`, its
parent and so on, `t` is the time. -/
structure BGeo (g : MGraph) (T L : Finset Nat) (ch : Nat → List Nat) (t : Int) (s : FS) : Prop where
  forest : Forest L (par s) ch
  kids : Kids L (par s) (kidsOf s)
  card : L.card ≤ s.depth
  top : ∀ r ∈ L, (s.reg r).top ∈ ch r ∧ par s (s.reg r).top = none
  valid : ∀ r ∈ L, (s.reg r).radius.Valid
  still : ∀ r ∈ L, par s r ≠ none → sl s r = 0
  ypos : ∀ r ∈ L, 0 ≤ y s t r
  occ : ∀ n r, (s.node n).arr = some r → r ∈ L ∧ n ∈ (s.reg r).shell
  otop : ∀ n r, (s.node n).arr = some r → (s.node n).top = some (s.reg r).top
  orho : ∀ n r, (s.node n).arr = some r → 0 ≤ (s.node n).rho ∧ (s.node n).rho ≤ y s t r
  owrap : ∀ n r, (s.node n).arr = some r → (s.node n).wrapped = ((ch r).dropLast.map (y s t)).sum - (s.node n).rho
  empty : ∀ n, (s.node n).arr = none → s.node n = .blank
  shell : ∀ r ∈ L, ∀ n ∈ (s.reg r).shell, (s.node n).arr = some r
  shellNodup : ∀ r ∈ L, (s.reg r).shell.Nodup
  shellSorted : ∀ r ∈ L, (s.reg r).shell.Pairwise fun a b => (s.node a).rho ≤ (s.node b).rho
  seed : ∀ r ∈ L, (s.reg r).children = [] → ∃ a l, (s.reg r).shell = a :: l ∧ a ∈ T
  event : ∀ a ∈ T, ∃ r l, (s.node a).arr = some r ∧ (s.reg r).children = [] ∧ (s.reg r).shell = a :: l ∧ (s.node a).rho = 0 ∧
    (s.node a).src = some a ∧ (s.node a).obs = 0

/-- The region arena holds exactly the live regions `L`, and addresses are numbered. -/
structure AInv (L : Finset Nat) (a : Arena) : Prop where
  inv : Mem.Inv a L.val
  names : ∀ x ∈ a.allocated, x < a.allocated.length

/-- The geometric part of the invariant of the flooder: the potentials are feasible, every node is reached by a tight walk, and
parities make collision times integral. -/
structure Geo (g : MGraph) (T L : Finset Nat) (ch : Nat → List Nat) (t : Int) (s : FS) : Prop extends BGeo g T L ch t s where
  src : ∀ n r, (s.node n).arr = some r → ∃ a ∈ T, (s.node n).src = some a ∧ InR s ch r a ∧
    Tight g s L ch t a (some n) (s.node n).obs
  flow : ∀ u i n, entry g (u, i) = some n → D s L ch t (some u) n.target ≤ n.weight
  even1 : ∀ u v r, (s.node u).top = some r → (s.node v).top = some r → (rad s L ch t u - rad s L ch t v) % 2 = 0
  even2 : ∀ u r, (s.node u).top = some r → sl s r ≠ 0 → (rad s L ch t u - t) % 2 = 0

/-- The geometry does not mention the trackers. -/
theorem BGeo.withW {g : MGraph} {T L : Finset Nat} {ch : Nat → List Nat} {t : Int} {s : FS} (h : BGeo g T L ch t s)
    (w : World Owner) : BGeo g T L ch t { s with w := w } :=
  ⟨h.forest, h.kids, h.card, h.top, h.valid, h.still, h.ypos, h.occ, h.otop, h.orho, h.owrap, h.empty, h.shell,
    h.shellNodup, h.shellSorted, h.seed, h.event⟩

theorem Geo.withW {g : MGraph} {T L : Finset Nat} {ch : Nat → List Nat} {t : Int} {s : FS} (h : Geo g T L ch t s)
    (w : World Owner) : Geo g T L ch t { s with w := w } :=
  ⟨h.toBGeo.withW w, h.src, h.flow, h.even1, h.even2⟩

theorem entry_eq (g : MGraph) (u i : Nat) : entry g (u, i) = (adj g u)[i]? := by
  unfold entry adj
  cases g.nodes[u]? <;> simp

/-! ## Slopes and radii -/

theorem y_eq (s : FS) (t : Int) (r : Nat) : y s t r = (s.reg r).radius.yIntercept + sl s r * t := distanceAt_eq _ _

theorem y_advance (s : FS) (t t' : Int) (r : Nat) : y s t' r = y s t r + sl s r * (t' - t) := by
  rw [y_eq, y_eq, mul_sub]; omega

namespace BGeo

variable {g : MGraph} {T L : Finset Nat} {ch : Nat → List Nat} {t : Int} {s : FS}

theorem slope_cases (h : BGeo g T L ch t s) {r : Nat} (hr : r ∈ L) : sl s r = 1 ∨ sl s r = -1 ∨ sl s r = 0 := by
  rcases valid_cases _ (h.valid r hr) with h | h | h
  · exact .inl h.2.2
  · exact .inr (.inl h.2.2)
  · exact .inr (.inr h.2.2)

theorem last_top (h : BGeo g T L ch t s) {r : Nat} (hr : r ∈ L) : (ch r).getLast? = some (s.reg r).top :=
  (h.forest.last_iff hr).2 (h.top r hr)

theorem split (h : BGeo g T L ch t s) {r : Nat} (hr : r ∈ L) : ch r = (ch r).dropLast ++ [(s.reg r).top] := by
  have h1 := h.last_top hr
  have hne : ch r ≠ [] := by intro e; rw [e] at h1; cases h1
  rw [List.getLast?_eq_some_getLast hne, Option.some.injEq] at h1
  rw [← h1, List.dropLast_concat_getLast]

theorem top_self (h : BGeo g T L ch t s) {r : Nat} (hr : r ∈ L) (hp : par s r = none) : (s.reg r).top = r :=
  h.forest.root_unique hr (h.top r hr).1 (h.top r hr).2 (h.forest.self_mem hr) hp

theorem chain_root (h : BGeo g T L ch t s) {r : Nat} (hr : r ∈ L) (hp : par s r = none) : ch r = [r] := h.forest.root r hr hp

theorem top_live (h : BGeo g T L ch t s) {r : Nat} (hr : r ∈ L) : (s.reg r).top ∈ L := h.forest.mem_live hr (h.top r hr).1

/-- Regions on the same chain have the same top. -/
theorem top_chain (h : BGeo g T L ch t s) {r R : Nat} (hr : r ∈ L) (hR : R ∈ ch r) : (s.reg R).top = (s.reg r).top := by
  have hRL := h.forest.mem_live hr hR
  exact h.forest.root_unique hr (h.forest.trans hr hR (h.top R hRL).1) (h.top R hRL).2 (h.top r hr).1 (h.top r hr).2

theorem node_top_live (h : BGeo g T L ch t s) {n r : Nat} (hn : (s.node n).top = some r) :
    ∃ q, (s.node n).arr = some q ∧ q ∈ L ∧ (s.reg q).top = r ∧ r ∈ L ∧ par s r = none := by
  cases ha : (s.node n).arr with
  | none => rw [h.empty n ha] at hn; cases hn
  | some q =>
    have := h.otop n q ha
    rw [hn, Option.some.injEq] at this
    subst this
    have hq := (h.occ n q ha).1
    exact ⟨q, rfl, hq, rfl, h.top_live hq, (h.top q hq).2⟩

theorem arr_none_iff (h : BGeo g T L ch t s) (n : Nat) : (s.node n).arr = none ↔ (s.node n).top = none := by
  constructor
  · intro ha; rw [h.empty n ha]; rfl
  · intro ht
    cases ha : (s.node n).arr with
    | none => rfl
    | some q => rw [h.otop n q ha] at ht; cases ht

theorem pot_arr {n q : Nat} (ha : (s.node n).arr = some q) (R : Nat) :
    pot s ch t R (some n) = if R ∈ ch q then (if R = q then y s t R - (s.node n).rho else y s t R) else 0 := by
  simp [pot, ha]

theorem pot_empty {n : Nat} (ha : (s.node n).arr = none) (R : Nat) : pot s ch t R (some n) = 0 := by simp [pot, ha]

theorem pot_none (R : Nat) : pot s ch t R none = 0 := rfl

theorem pot_nonneg (h : BGeo g T L ch t s) {R : Nat} (hR : R ∈ L) (u : Option Nat) : 0 ≤ pot s ch t R u := by
  cases u with
  | none => exact le_refl _
  | some n =>
    cases ha : (s.node n).arr with
    | none => rw [pot_empty ha]
    | some q =>
      rw [pot_arr ha]
      have := h.orho n q ha
      have := h.ypos R hR
      split
      · split
        · rename_i e; subst e; omega
        · omega
      · omega

theorem pot_le (h : BGeo g T L ch t s) {R : Nat} (hR : R ∈ L) (u : Option Nat) : pot s ch t R u ≤ y s t R := by
  have hy := h.ypos R hR
  cases u with
  | none => exact hy
  | some n =>
    cases ha : (s.node n).arr with
    | none => rw [pot_empty ha]; exact hy
    | some q =>
      rw [pot_arr ha]
      have := h.orho n q ha
      split
      · split
        · omega
        · omega
      · omega

theorem rad_sum (h : BGeo g T L ch t s) (n : Nat) : rad s L ch t n = ∑ R ∈ L, pot s ch t R (some n) :=
  dist_none (fun _ _ => rfl) (fun _ hR u => h.pot_nonneg hR u) _

theorem rad_empty (h : BGeo g T L ch t s) {n : Nat} (ha : (s.node n).arr = none) : rad s L ch t n = 0 := by
  rw [h.rad_sum]
  exact Finset.sum_eq_zero fun R _ => pot_empty ha R

theorem rad_chain (h : BGeo g T L ch t s) {n q : Nat} (ha : (s.node n).arr = some q) :
    rad s L ch t n = ((ch q).map (y s t)).sum - (s.node n).rho := by
  rw [h.rad_sum]
  have hq := (h.occ n q ha).1
  have hsub : ∀ R ∈ ch q, R ∈ L := fun R hR => h.forest.mem_live hq hR
  have h1 : ∀ R ∈ L, pot s ch t R (some n) = (if R ∈ (ch q).toFinset then y s t R else 0) - (if q = R then (s.node n).rho else 0) := by
    intro R _
    rw [pot_arr ha]
    by_cases hR : R ∈ ch q
    · by_cases e : R = q
      · subst e; simp [hR]
      · simp [hR, e, Ne.symm e]
    · have : q ≠ R := fun e => hR (e ▸ h.forest.self_mem hq)
      simp [hR, this]
  rw [Finset.sum_congr rfl h1, Finset.sum_sub_distrib, Finset.sum_ite_eq, if_pos hq, Finset.sum_ite_mem,
    Finset.inter_eq_right.2 (fun R hR => hsub R (List.mem_toFinset.1 hR)), List.sum_toFinset _ (h.forest.nodup hq)]

/-- The cached radius is right. -/
theorem rad_cached (h : BGeo g T L ch t s) {n q : Nat} (ha : (s.node n).arr = some q) :
    rad s L ch t n = y s t (s.reg q).top + (s.node n).wrapped := by
  rw [h.rad_chain ha, h.owrap n q ha, h.split (h.occ n q ha).1]
  simp only [List.map_append, List.sum_append, List.map_cons, List.map_nil, List.sum_cons, List.sum_nil]
  rw [← h.split (h.occ n q ha).1]
  omega

theorem rad_local (h : BGeo g T L ch t s) (n : Nat) : rad s L ch t n = (localRadius s n).distanceAt t := by
  cases ha : (s.node n).arr with
  | none =>
    rw [h.rad_empty ha]
    unfold localRadius
    rw [h.empty n ha]
    simp [DNode.blank, Varying.distanceAt, Varying.bit0, Varying.bit1, Varying.yIntercept]
  | some q =>
    rw [h.rad_cached ha]
    unfold localRadius
    rw [h.otop n q ha]
    simp only
    obtain ⟨a1, a2, -⟩ := addOffset_spec (s.reg (s.reg q).top).radius (s.node n).wrapped
    rw [distanceAt_eq, a1, a2, y_eq]
    unfold sl
    omega

theorem rad_nonneg (h : BGeo g T L ch t s) (n : Nat) : 0 ≤ rad s L ch t n := by
  rw [h.rad_sum]; exact Finset.sum_nonneg fun R hR => h.pot_nonneg hR _

/-- Slope of the local radius. -/
theorem local_slope {n r : Nat} (hn : (s.node n).top = some r) : (localRadius s n).slope = sl s r := by
  unfold localRadius
  rw [hn]
  exact (addOffset_spec _ _).1

theorem local_slope_none {n : Nat} (hn : (s.node n).top = none) : (localRadius s n).slope = 0 := by
  unfold localRadius
  rw [hn]
  rfl

theorem local_valid (h : BGeo g T L ch t s) (n : Nat) : (localRadius s n).Valid := by
  unfold localRadius
  cases hn : (s.node n).top with
  | none => simp [Varying.Valid]
  | some r =>
    obtain ⟨q, -, -, -, hr, -⟩ := h.node_top_live hn
    exact (addOffset_spec _ _).2.2.2 (h.valid r hr)

/-- Common ancestors have a common top. -/
theorem pot_pos_top (h : BGeo g T L ch t s) {R n : Nat} (hp : pot s ch t R (some n) ≠ 0) :
    R ∈ L ∧ (s.node n).top = some (s.reg R).top := by
  cases ha : (s.node n).arr with
  | none => rw [pot_empty ha] at hp; exact absurd rfl hp
  | some q =>
    rw [pot_arr ha] at hp
    by_cases hR : R ∈ ch q
    · have hq := (h.occ n q ha).1
      exact ⟨h.forest.mem_live hq hR, by rw [h.otop n q ha, h.top_chain hq hR]⟩
    · rw [if_neg hR] at hp; exact absurd rfl hp

theorem D_apart (h : BGeo g T L ch t s) {u v : Nat} (hne : (s.node u).top = none ∨ (s.node u).top ≠ (s.node v).top) :
    D s L ch t (some u) (some v) = rad s L ch t u + rad s L ch t v := by
  refine dist_apart (fun _ _ => rfl) (fun R hR u => h.pot_nonneg hR u) fun R _ => ?_
  by_contra hno
  push Not at hno
  have h1 := (h.pot_pos_top hno.1).2
  have h2 := (h.pot_pos_top hno.2).2
  rcases hne with h3 | h3
  · rw [h3] at h1; cases h1
  · exact h3 (h1.trans h2.symm)

theorem D_inside (h : BGeo g T L ch t s) {a n q : Nat} (ha : a ∈ T) (hn : (s.node n).arr = some q) (hin : InR s ch q a) :
    D s L ch t (some a) (some n) = rad s L ch t a - rad s L ch t n := by
  refine dist_inside (fun _ _ => rfl) (fun R hR u => h.pot_nonneg hR u) fun R hR => ?_
  obtain ⟨qa, hqa, hq⟩ := hin
  obtain ⟨ra, l, e1, -, -, e2, -⟩ := h.event a ha
  rw [hqa, Option.some.injEq] at e1
  subst e1
  rw [pot_arr hn, pot_arr hqa]
  have hqaL := (h.occ a qa hqa).1
  have := h.orho n q hn
  have := h.ypos R hR
  by_cases hR' : R ∈ ch q
  · have hR'' : R ∈ ch qa := h.forest.trans hqaL hq hR'
    rw [if_pos hR', if_pos hR'', e2]
    split <;> split <;> omega
  · rw [if_neg hR']
    split
    · split <;> omega
    · omega

/-- The event at a node lies in the same top region. -/
theorem inR_top (h : BGeo g T L ch t s) {r n : Nat} (hin : InR s ch r n) : (s.node n).top = some (s.reg r).top := by
  obtain ⟨q, hq, hr⟩ := hin
  rw [h.otop n q hq, h.top_chain (h.occ n q hq).1 hr]

theorem inR_live (h : BGeo g T L ch t s) {r n : Nat} (hin : InR s ch r n) : r ∈ L := by
  obtain ⟨q, hq, hr⟩ := hin
  exact h.forest.mem_live (h.occ n q hq).1 hr

/-- Nodes with the same top region: their distance does not depend on time. -/
theorem inR_of_top (h : BGeo g T L ch t s) {r n : Nat} (hn : (s.node n).top = some r) : InR s ch r n := by
  obtain ⟨q, hq, hqL, e, -, -⟩ := h.node_top_live hn
  exact ⟨q, hq, e ▸ (h.top q hqL).1⟩

end BGeo

/-- Distances within one top region do not change with time. -/
theorem D_same {g : MGraph} {T L : Finset Nat} {ch : Nat → List Nat} {t : Int} {s : FS} (h : BGeo g T L ch t s) (t' : Int)
    {u v r : Nat} (hu : (s.node u).top = some r) (hv : (s.node v).top = some r) :
    D s L ch t' (some u) (some v) = D s L ch t (some u) (some v) := by
  unfold D dist
  obtain ⟨q, hq, hqL, eq1, hrL, hrp⟩ := h.node_top_live hu
  obtain ⟨q', hq', hqL', eq2, -, -⟩ := h.node_top_live hv
  refine Finset.sum_congr rfl fun R hR => ?_
  rw [BGeo.pot_arr hq, BGeo.pot_arr hq', BGeo.pot_arr hq, BGeo.pot_arr hq']
  by_cases hRr : R = r
  · subst hRr
    have m1 : R ∈ ch q := eq1 ▸ (h.top q hqL).1
    have m2 : R ∈ ch q' := eq2 ▸ (h.top q' hqL').1
    simp only [if_pos m1, if_pos m2]
    congr 1
    split <;> split <;> omega
  · by_cases hp : par s R = none
    · have n1 : R ∉ ch q := fun m => hRr (by
        rw [← eq1]; exact h.forest.root_unique hqL m hp (h.top q hqL).1 (h.top q hqL).2)
      have n2 : R ∉ ch q' := fun m => hRr (by
        rw [← eq2]; exact h.forest.root_unique hqL' m hp (h.top q' hqL').1 (h.top q' hqL').2)
      simp only [if_neg n1, if_neg n2]
    · have : y s t' R = y s t R := by rw [y_advance s t t' R, h.still R hR hp]; omega
      rw [this]

end Verif.SB
