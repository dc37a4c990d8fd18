import Verif.Blossom.Sched

/-!
# Time passes
-/

namespace Verif.SB

open Verif Verif.Graph Verif.CE Verif.Vary Verif.Track Verif.Spec Verif.Mem
open Verif.Sch (Res better)

variable {g : MGraph} {T L : Finset Nat} {ch : Nat → List Nat} {t : Int} {s : FS}

namespace BGeo

/-- Regions below the top of a chain do not change. -/
theorem y_below (h : BGeo g T L ch t s) (t' : Int) {r R : Nat} (hr : r ∈ L) (hR : R ∈ (ch r).dropLast) : y s t' R = y s t R := by
  have hRc : R ∈ ch r := List.mem_of_mem_dropLast hR
  have hp : par s R ≠ none := by
    intro hp
    have e : R = (s.reg r).top := h.forest.root_unique hr hRc hp (h.top r hr).1 (h.top r hr).2
    have hnd := h.forest.nodup hr
    rw [h.split hr, List.nodup_append] at hnd
    exact hnd.2.2 R hR (s.reg r).top (by simp) e
  rw [y_advance s t t' R, h.still R (h.forest.mem_live hr hRc) hp]
  omega

/-- The cached part of the radius of a node in the shell of a top region. -/
theorem wrapped_top (h : BGeo g T L ch t s) {n r : Nat} (hn : (s.node n).arr = some r) (hp : par s r = none) :
    (s.node n).wrapped = - (s.node n).rho := by
  rw [h.owrap n r hn, h.chain_root (h.occ n r hn).1 hp]
  simp

/-- The last node of a shell was reached last. -/
theorem rho_last (h : BGeo g T L ch t s) {r n z : Nat} (hr : r ∈ L) (hz : (s.reg r).shell.getLast? = some z)
    (hn : n ∈ (s.reg r).shell) : (s.node n).rho ≤ (s.node z).rho := by
  have hs := h.shellSorted r hr
  have hne : (s.reg r).shell ≠ [] := List.ne_nil_of_mem hn
  rw [List.getLast?_eq_some_getLast hne, Option.some.injEq] at hz
  rw [← List.dropLast_concat_getLast hne, hz] at hs hn
  rw [List.pairwise_append] at hs
  rcases List.mem_append.1 hn with hn | hn
  · exact hs.2.2 n hn z (by simp)
  · rw [List.mem_singleton] at hn; rw [hn]

/-- The shrink time in terms of radii. -/
theorem shrinkTime_cases (h : BGeo g T L ch t s) {r : Nat} (hr : r ∈ L) (hp : par s r = none) :
    ((s.reg r).shell = [] ∧ shrinkTime s r = (s.reg r).radius.yIntercept) ∨
    (∃ z, (s.reg r).shell.getLast? = some z ∧ (s.node z).arr = some r ∧
      shrinkTime s r = (s.reg r).radius.yIntercept - (s.node z).rho) := by
  unfold shrinkTime
  cases hz : (s.reg r).shell.getLast? with
  | none => left; exact ⟨List.getLast?_eq_none_iff.1 hz, rfl⟩
  | some z =>
    right
    have hzm : z ∈ (s.reg r).shell := List.mem_of_getLast? hz
    have ha := h.shell r hr z hzm
    refine ⟨z, rfl, ha, ?_⟩
    simp only [localRadius, h.otop z r ha, h.top_self hr hp, Varying.timeOfXInterceptForShrinking]
    rw [(addOffset_spec _ _).2.1, h.wrapped_top ha hp]
    omega

/-- Until the shrink time all nodes stay inside. -/
theorem advance (h : BGeo g T L ch t s) {t' : Int} (ht : t ≤ t')
    (hs : ∀ r ∈ L, par s r = none → sl s r = -1 → t' ≤ shrinkTime s r) : BGeo g T L ch t' s := by
  have hy : ∀ r ∈ L, 0 ≤ y s t' r ∧ ∀ n, (s.node n).arr = some r → (s.node n).rho ≤ y s t' r := by
    intro r hr
    have h0 := h.ypos r hr
    have hadv := y_advance s t t' r
    rcases h.slope_cases hr with h1 | h1 | h1
    · rw [h1] at hadv
      refine ⟨by omega, fun n hn => ?_⟩
      have := h.orho n r hn
      omega
    · have hp : par s r = none := by
        by_contra hp
        have := h.still r hr hp
        omega
      have hst := hs r hr hp h1
      have hyq := y_eq s t' r
      rw [h1] at hyq
      rcases h.shrinkTime_cases hr hp with ⟨e1, e2⟩ | ⟨z, e1, e2, e3⟩
      · refine ⟨by omega, fun n hn => ?_⟩
        have := (h.occ n r hn).2
        rw [e1] at this; cases this
      · have := h.orho z r e2
        refine ⟨by omega, fun n hn => ?_⟩
        have := h.rho_last hr e1 (h.occ n r hn).2
        omega
    · rw [h1] at hadv
      refine ⟨by omega, fun n hn => ?_⟩
      have := h.orho n r hn
      omega
  refine ⟨h.forest, h.kids, h.card, h.top, h.valid, h.still, fun r hr => (hy r hr).1, h.occ, h.otop, ?_, ?_, h.empty,
    h.shell, h.shellNodup, h.shellSorted, h.seed, h.event⟩
  · intro n r hn
    exact ⟨(h.orho n r hn).1, (hy r (h.occ n r hn).1).2 n hn⟩
  · intro n r hn
    rw [h.owrap n r hn]
    congr 2
    exact List.map_congr_left fun R hR => (h.y_below t' (h.occ n r hn).1 hR).symm

/-- How the distance to the outside changes with time. -/
theorem rad_advance (h : BGeo g T L ch t s) {t' : Int} (h' : BGeo g T L ch t' s) (n : Nat) :
    rad s L ch t' n = rad s L ch t n + (localRadius s n).slope * (t' - t) := by
  rw [h.rad_local, h'.rad_local, distanceAt_eq, distanceAt_eq, mul_sub]
  omega

/-- How distances change with time. -/
theorem D_advance (h : BGeo g T L ch t s) {t' : Int} (h' : BGeo g T L ch t' s) {u v : Nat}
    (hne : (s.node u).top = none ∨ (s.node u).top ≠ (s.node v).top) :
    D s L ch t' (some u) (some v) = D s L ch t (some u) (some v) +
      ((localRadius s u).slope + (localRadius s v).slope) * (t' - t) := by
  rw [h.D_apart hne, h'.D_apart hne, h.rad_advance h', h.rad_advance h', add_mul]
  omega

end BGeo

/-- Time passes up to the earliest wish. -/
theorem Geo.advance (h : Geo g T L ch t s) (hs : Sched g L (fun _ => False) (fun _ => False) s) {t' : Int}
    (ht : t ≤ t') (hle : ∀ o τ, want s o = some τ → t' ≤ τ) : Geo g T L ch t' s := by
  have h' : BGeo g T L ch t' s := h.toBGeo.advance ht fun r hr hp hsl => by
    have := (hs.regWant r).1 ⟨hr, hp, hsl, by simp⟩
    exact hle _ _ this
  have hcov : ∀ u i n τ, entry g (u, i) = some n → coll s u n = some τ → t' ≤ τ := by
    intro u i n τ he hc
    obtain ⟨σ, a, b⟩ := hs.colls u i n τ he hc (by simp) (by simp)
    rcases b with b | ⟨v, -, b⟩
    · have := hle _ _ b; omega
    · have := hle _ _ b; omega
  refine ⟨h', ?_, ?_, ?_, ?_⟩
  · intro n r hn
    obtain ⟨a, ha, e1, e2, es, w1, w2, w3⟩ := h.src n r hn
    refine ⟨a, ha, e1, e2, es, w1, ?_, w3⟩
    rw [w2]
    have htop := h.otop n r hn
    exact (D_same h.toBGeo t' (h.inR_top e2) htop).symm
  · intro u i n he
    have hf := h.flow u i n he
    cases hv : n.target with
    | none =>
      rw [hv] at hf
      have e1 : D s L ch t (some u) none = rad s L ch t u := rfl
      have e2 : D s L ch t' (some u) none = rad s L ch t' u := rfl
      rw [e1] at hf
      rw [e2, h.rad_advance h']
      rcases slope_three (h.local_valid u) with a | a | a
      · have hc : coll s u n = some (n.weight - (localRadius s u).yIntercept) := by unfold coll; simp [hv, a]
        have := hcov u i n _ he hc
        rw [h.local_intercept u] at this
        rw [a] at this ⊢
        omega
      · rw [a]; omega
      · rw [a]; omega
    | some v =>
      rw [hv] at hf
      by_cases hsame : (s.node u).top = (s.node v).top ∧ (s.node u).top ≠ none
      · obtain ⟨r, hr⟩ := Option.ne_none_iff_exists'.1 hsame.2
        rw [D_same h.toBGeo t' hr (hsame.1 ▸ hr)]
        exact hf
      · have hne : (s.node u).top = none ∨ (s.node u).top ≠ (s.node v).top := by tauto
        rw [h.D_advance h' hne]
        by_cases hs2 : (localRadius s u).slope + (localRadius s v).slope ≤ 0
        · have : ((localRadius s u).slope + (localRadius s v).slope) * (t' - t) ≤ 0 :=
            mul_nonpos_of_nonpos_of_nonneg hs2 (by omega)
          omega
        · have hne' : (s.node u).top ≠ (s.node v).top := by
            intro e
            have h0 : (s.node u).top = none := by tauto
            rw [BGeo.local_slope_none h0, BGeo.local_slope_none (e ▸ h0)] at hs2
            omega
          have hcase : (localRadius s u).slope ≠ -1 ∧ (localRadius s v).slope ≠ -1 := by
            rcases slope_three (h.local_valid u) with a | a | a <;> rcases slope_three (h.local_valid v) with b | b | b <;>
              rw [a, b] at hs2 ⊢ <;> omega
          have hc : coll s u n = some ((n.weight - (localRadius s u).yIntercept - (localRadius s v).yIntercept) /
              ((localRadius s u).slope + (localRadius s v).slope)) := by
            unfold coll
            simp only [hv]
            rw [if_neg]
            push Not
            exact ⟨hne', hcase.1, hcase.2, by omega⟩
          have := hcov u i n _ he hc
          rw [h.local_intercept u, h.local_intercept v] at this
          rw [h.D_apart hne] at hf ⊢
          rcases slope_three (h.local_valid u) with a | a | a <;> rcases slope_three (h.local_valid v) with b | b | b <;>
            rw [a, b] at hs2 hcase this ⊢ <;> omega
  · intro u v r hu hv
    have := h.even1 u v r hu hv
    rw [h.rad_advance h', h.rad_advance h', BGeo.local_slope hu, BGeo.local_slope hv]
    omega
  · intro u r hu hsl
    have := h.even2 u r hu hsl
    obtain ⟨-, -, -, -, hr, -⟩ := h.node_top_live hu
    rw [h.rad_advance h', BGeo.local_slope hu]
    rcases h.slope_cases hr with a | a | a <;> rw [a] at hsl ⊢ <;> omega

end Verif.SB
