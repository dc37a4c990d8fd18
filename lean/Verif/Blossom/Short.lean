import Verif.Blossom.Narrow
import Verif.Blossom.Pairing

/-!
# The 32-bit wrapped radius, II: graphs on which it suffices
-/

namespace Verif.Spec

open Verif.Graph

/-- Any two connected detectors are joined by a walk of total weight below `2^31`. -/
def Short (g : MGraph) : Prop := ∀ u v es, Walk g u (some v) es → ∃ fs, Walk g u (some v) fs ∧ totalWeight g fs < 2 ^ 31

end Verif.Spec

namespace Verif.SB

open Verif Verif.Graph Verif.CE Verif.Vary Verif.Track Verif.Spec Verif.Mem
open Verif.Sch (Res better)

variable {g : MGraph} {T L : Finset Nat} {ch : Nat → List Nat} {t : Int} {s : FS}

/-! ## Regions are connected -/

/-- Two nodes are connected. -/
def Conn (g : MGraph) (u v : Nat) : Prop := ∃ es, Walk g u (some v) es

theorem Conn.refl (u : Nat) : Conn g u u := ⟨[], .here u⟩

theorem Conn.symm (hg : Proper g) {u v : Nat} (h : Conn g u v) : Conn g v u := by
  obtain ⟨es, h⟩ := h
  obtain ⟨fs, h1, -⟩ := walk_reverse hg h
  exact ⟨fs, h1⟩

theorem Conn.trans {u v w : Nat} (h : Conn g u v) (h' : Conn g v w) : Conn g u w := by
  obtain ⟨es, h⟩ := h
  obtain ⟨fs, h'⟩ := h'
  exact ⟨es ++ fs, walk_append h h'⟩

/-- The nodes of the region are connected with each other. -/
def Whole (g : MGraph) (s : FS) (ch : Nat → List Nat) (r : Nat) : Prop := ∀ n m, InR s ch r n → InR s ch r m → Conn g n m

theorem whole_chain (hg : Proper g) : ∀ {l : List (Nat × CompressedEdge)} {r r' : Nat}, Chain (view g T L ch t s) r l r' →
    (∀ x ∈ l.map (·.1), Whole g s ch x) → Whole g s ch r' → ∀ x, x ∈ l.map (·.1) ∨ x = r → ∀ n m, InR s ch x n → InR s ch r' m → Conn g n m := by
  intro l
  induction l with
  | nil =>
    intro r r' hc _ hw x hx n m hn hm
    have e : r = r' := hc
    rcases hx with hx | rfl
    · cases hx
    · subst e; exact hw n m hn hm
  | cons p l ih =>
    obtain ⟨x0, e⟩ := p
    rintro r r' ⟨rfl, q, hl, hc⟩ hW hw x hx n m hn hm
    have key := ih hc (fun x hx => hW x (List.mem_cons_of_mem _ hx)) hw
    have hfst : x = x0 ∨ x ∈ l.map (·.1) := by
      rcases hx with hx | rfl
      · rw [List.map_cons] at hx; exact List.mem_cons.1 hx
      · exact .inl rfl
    rcases hfst with rfl | hx
    · obtain ⟨a, b, -, -, -, -, ha, hb, es, hw1, -⟩ := hl
      exact ((hW x (by simp) n a hn ha).trans ⟨es, hw1⟩).trans (key q (.inr rfl) b m hb hm)
    · exact key x (.inl hx) n m hn hm

/-- Every region holds an event. -/
theorem BGeo.has_event (h : BGeo g T L ch t s) {r : Nat} (hr : r ∈ L) : ∃ a ∈ T, InR s ch r a := by
  suffices H : ∀ k r, r ∈ L → L.card - (ch r).length = k → ∃ a ∈ T, InR s ch r a from H _ r hr rfl
  intro k
  induction k using Nat.strong_induction_on with
  | _ k ih =>
    intro r hr hk
    cases hkid : kidsOf s r with
    | nil => exact h.leaf_exists hr hkid
    | cons c l =>
      obtain ⟨hcL, hcp⟩ := (h.kids.mem r hr c).1 (by rw [hkid]; simp)
      have e := (h.forest.step c hcL r hcp).2
      have h1 := h.forest.length_le hcL
      have h2 : (ch c).length = (ch r).length + 1 := by rw [e]; simp
      obtain ⟨a, ha, hin⟩ := ih (L.card - (ch c).length) (by omega) c hcL rfl
      exact ⟨a, ha, h.inR_up hin (by rw [e]; exact List.mem_cons_of_mem _ (h.forest.self_mem hr))⟩

theorem Geo.whole (h : Geo g T L ch t s) (hg : Proper g) (hc : Cyc (view g T L ch t s)) {r : Nat} (hr : r ∈ L) : Whole g s ch r := by
  suffices H : ∀ k r, r ∈ L → L.card - (ch r).length = k → Whole g s ch r from H _ r hr rfl
  intro k
  induction k using Nat.strong_induction_on with
  | _ k ih =>
    intro r hr hk
    -- every node is connected to an event of the region
    have src : ∀ n, InR s ch r n → ∃ a ∈ T, InR s ch r a ∧ Conn g n a := by
      rintro n ⟨q, hq, hrq⟩
      obtain ⟨a, haT, -, hin, es, hw, -⟩ := h.src n q hq
      exact ⟨a, haT, h.inR_up hin hrq, Conn.symm hg ⟨es, hw⟩⟩
    -- events of the region are connected
    suffices H : ∀ a b, a ∈ T → b ∈ T → InR s ch r a → InR s ch r b → Conn g a b by
      intro n m hn hm
      obtain ⟨a, haT, ha, hna⟩ := src n hn
      obtain ⟨b, hbT, hb, hmb⟩ := src m hm
      exact (hna.trans (H a b haT hbT ha hb)).trans (hmb.symm hg)
    intro a b ha hb hra hrb
    rcases hc r hr with hk0 | ⟨-, h3, q, hch⟩
    · have : kidsOf s r = [] := by unfold kidsOf; rw [show (s.reg r).children = [] from hk0]; rfl
      rw [h.leaf_unique hr this ha hb hra hrb]
      exact Conn.refl b
    · have hkid : ∀ c ∈ kidsOf s r, Whole g s ch c := by
        intro c hcm
        obtain ⟨hcL, hcp⟩ := (h.kids.mem r hr c).1 hcm
        have e := (h.forest.step c hcL r hcp).2
        have h1 := h.forest.length_le hcL
        have h2 : (ch c).length = (ch r).length + 1 := by rw [e]; simp
        exact ih (L.card - (ch c).length) (by omega) c hcL rfl
      have hmem : ∀ x ∈ T, InR s ch r x → ∃ c ∈ kidsOf s r, InR s ch c x := by
        intro x hx hin
        rcases h.inR_cases hr hx hin with ⟨e, -⟩ | e
        · exfalso
          have : (kidsOf s r).length = (s.reg r).children.length := by unfold kidsOf; simp
          rw [e] at this
          have h3' : 3 ≤ (s.reg r).children.length := h3
          rw [← this] at h3'
          simp at h3'
        · exact e
      have hq : q ∈ kidsOf s r := by
        have h3' : 3 ≤ (s.reg r).children.length := h3
        have hch' : Chain (view g T L ch t s) q (s.reg r).children q := hch
        unfold kidsOf
        revert hch' h3'
        cases (s.reg r).children with
        | nil => intro h3' _; simp at h3'
        | cons p l => intro _ hch'; rw [← hch'.1]; simp
      obtain ⟨hqL, -⟩ := (h.kids.mem r hr q).1 hq
      obtain ⟨m, -, hm⟩ := h.has_event hqL
      have key := whole_chain hg hch hkid (hkid q hq)
      obtain ⟨c, hcm, hca⟩ := hmem a ha hra
      obtain ⟨d, hdm, hdb⟩ := hmem b hb hrb
      exact (key c (.inl hcm) a m hca hm).trans ((key d (.inl hdm) b m hdb hm).symm hg)

/-! ## Cached values fit -/

theorem Short.bound (hs : Short g) (h : Geo g T L ch t s) {u v : Nat} (hc : Conn g u v) : D s L ch t (some u) (some v) < 2 ^ 31 := by
  obtain ⟨es, hw⟩ := hc
  obtain ⟨fs, hf, hlt⟩ := hs u v es hw
  have := dist_le_walk (L := L) (p := pot s ch t) h.flow hf
  unfold D
  omega

/-- On a short graph all cached values fit in 32 bits. -/
theorem Geo.fits (h : Geo g T L ch t s) (hg : Proper g) (hc : Cyc (view g T L ch t s)) (hs : Short g) : FitsAll s := by
  intro n
  cases ha : (s.node n).arr with
  | none => rw [h.empty n ha]; constructor <;> decide
  | some r =>
    have hr := (h.occ n r ha).1
    have hrho := h.orho n r ha
    rw [h.owrap n r ha]
    obtain ⟨a, haT, -, hin, es, hw, -⟩ := h.src n r ha
    rcases h.forest.cases hr with ⟨hp, e⟩ | ⟨p, hp, hpL, e⟩
    · -- a top region
      rw [e]
      have hb := Short.bound hs h (u := a) (v := n) ⟨es, hw⟩
      have hD : |pot s ch t r (some a) - pot s ch t r (some n)| ≤ D s L ch t (some a) (some n) :=
        Finset.single_le_sum (f := fun R => |pot s ch t R (some a) - pot s ch t R (some n)|) (fun _ _ => abs_nonneg _) hr
      classical
      rw [h.pot_event haT, if_pos hin, BGeo.pot_arr ha, if_pos (h.forest.self_mem hr), if_pos rfl] at hD
      have : y s t r - (y s t r - (s.node n).rho) = (s.node n).rho := by ring
      rw [this, abs_of_nonneg hrho.1] at hD
      constructor
      · show -2 ^ 31 ≤ ([] : List Int).sum - (s.node n).rho
        simp only [List.sum_nil]
        omega
      · show ([] : List Int).sum - (s.node n).rho < 2 ^ 31
        simp only [List.sum_nil]
        omega
    · -- inside a blossom
      have hB := h.top r hr
      have hBL := h.top_live hr
      have hBr : (s.reg r).top ≠ r := by
        intro e'
        have := hB.2
        rw [e', hp] at this
        cases this
      obtain ⟨c, hcr, hcL, hcp⟩ := h.forest.via_child hr hB.1 hBr
      have hck := (h.kids.mem _ hBL c).2 ⟨hcL, hcp⟩
      obtain ⟨d, hdk, hdc⟩ : ∃ d ∈ kidsOf s (s.reg r).top, d ≠ c := by
        by_contra hno
        push Not at hno
        rcases hc _ hBL with hk0 | ⟨-, h3, -⟩
        · unfold kidsOf at hck
          rw [show (s.reg (s.reg r).top).children = [] from hk0] at hck
          cases hck
        · have h3' : 3 ≤ (kidsOf s (s.reg r).top).length := by
            unfold kidsOf; rw [List.length_map]; exact h3
          have hnd := h.kids.nodup _ hBL
          have hsub : kidsOf s (s.reg r).top ⊆ [c] := fun d hd => by simp [hno d hd]
          have := (List.subperm_of_subset hnd hsub).length_le
          simp at this
          omega
      obtain ⟨hdL, hdp⟩ := (h.kids.mem _ hBL d).1 hdk
      obtain ⟨x, hxT, hxd⟩ := h.has_event hdL
      have hxB : InR s ch (s.reg r).top x := h.inR_up hxd (by
        rw [(h.forest.step d hdL _ hdp).2]; exact List.mem_cons_of_mem _ (h.forest.self_mem hBL))
      have hxc : ¬ InR s ch c x := fun hin => hdc (h.inR_kid_unique hBL hdk hck hxd hin)
      have hb := Short.bound hs h (h.whole hg hc hBL n x ⟨r, ha, hB.1⟩ hxB)
      have hsplit := h.split hr
      have hnd := h.forest.nodup hr
      have hnd' : (ch r).dropLast.Nodup := hnd.sublist (List.dropLast_sublist _)
      -- the potentials below the top region
      have hR : ∀ R ∈ (ch r).dropLast, pot s ch t R (some x) = 0 := by
        intro R hR
        have hRr := List.mem_of_mem_dropLast hR
        have hRne : R ≠ (s.reg r).top := by
          intro e'
          rw [hsplit, List.nodup_append] at hnd
          exact hnd.2.2 R hR _ (by simp) e'
        classical
        rw [h.pot_event hxT, if_neg]
        intro hin
        apply hxc
        refine h.inR_up hin ?_
        have hRL := h.forest.mem_live hr hRr
        have hBR : (s.reg r).top ∈ ch R := by rw [← h.top_chain hr hRr]; exact (h.top R hRL).1
        obtain ⟨c', hc'R, -, hc'p⟩ := h.forest.via_child hRL hBR hRne.symm
        rw [h.forest.child_unique hr hcr (h.forest.trans hr hRr hc'R) hcp hc'p]
        exact hc'R
      have hsum : ((ch r).dropLast.map fun R => pot s ch t R (some n)).sum = ((ch r).dropLast.map (y s t)).sum - (s.node n).rho := by
        have hne : ch p ≠ [] := List.ne_nil_of_mem (h.forest.self_mem hpL)
        have hrp : r ∉ ch p := by rw [e, List.nodup_cons] at hnd; exact hnd.1
        rw [e, List.dropLast_cons_of_ne_nil hne]
        simp only [List.map_cons, List.sum_cons]
        have h1 : pot s ch t r (some n) = y s t r - (s.node n).rho := by
          rw [BGeo.pot_arr ha, if_pos (h.forest.self_mem hr), if_pos rfl]
        have h2 : (ch p).dropLast.map (fun R => pot s ch t R (some n)) = (ch p).dropLast.map (y s t) := by
          refine List.map_congr_left fun R hR => ?_
          have hRp := List.mem_of_mem_dropLast hR
          rw [BGeo.pot_arr ha, if_pos (by rw [e]; exact List.mem_cons_of_mem _ hRp), if_neg (by rintro rfl; exact hrp hRp)]
        rw [h1, h2]
        ring
      have hpos : 0 ≤ ((ch r).dropLast.map fun R => pot s ch t R (some n)).sum := by
        refine List.sum_nonneg fun z hz => ?_
        obtain ⟨R, hR, rfl⟩ := List.mem_map.1 hz
        exact h.pot_nonneg (h.forest.mem_live hr (List.mem_of_mem_dropLast hR)) _
      have hle : ((ch r).dropLast.map fun R => pot s ch t R (some n)).sum ≤ D s L ch t (some n) (some x) := by
        have h1 : ((ch r).dropLast.map fun R => pot s ch t R (some n)).sum =
            ∑ R ∈ (ch r).dropLast.toFinset, |pot s ch t R (some n) - pot s ch t R (some x)| := by
          rw [List.sum_toFinset _ hnd']
          congr 1
          refine List.map_congr_left fun R hR' => ?_
          rw [hR R hR', sub_zero, abs_of_nonneg (h.pot_nonneg (h.forest.mem_live hr (List.mem_of_mem_dropLast hR')) _)]
        rw [h1]
        refine Finset.sum_le_sum_of_subset_of_nonneg (fun R hR' => ?_) fun _ _ _ => abs_nonneg _
        exact h.forest.mem_live hr (List.mem_of_mem_dropLast (List.mem_toFinset.1 hR'))
      rw [hsum] at hpos hle
      constructor <;> omega

end Verif.SB
