import Verif.Blossom.Rewrite
import Verif.Props.Edges

/-!
# The second pass of correlated decoding

Helper lemmas for `Verif.Props.Correlated`: which rules the first pass applies, and that the graphs with changed weights are built graphs.
-/

namespace Verif.SB

open Verif Verif.Graph Verif.CE Verif.Spec Verif.Props.Graph Verif.Props.NegWeights Verif.Props.Decode Verif.Props.Edges
open Verif.Sch (Res)

variable {numNodes numObs : Nat} {ops : List EdgeIns} {g : MGraph} {sg : SGraph} {m : ObsInt}

/-! ## Both graphs have the same cells -/

theorem at_entry {u k : Nat} {t : Option Nat} : At (adjM g) u k t ↔ ∃ n, entry g (u, k) = some n ∧ n.target = t := by
  unfold At adjM
  rw [entry_bind, List.getElem?_map]
  cases g.nodes[u]? with
  | none => simp
  | some l => simp

theorem fair_of_proper (hg : Proper g) : Fair (adjM g) := by
  refine ⟨?_, ?_⟩
  · intro u l hl
    unfold adjM at hl
    rw [List.getElem?_map, Option.map_eq_some_iff] at hl
    obtain ⟨l', h1, rfl⟩ := hl
    exact hg.nodup u l' h1
  · intro u v l hl hv
    obtain ⟨i, hi⟩ := List.getElem?_of_mem hv
    obtain ⟨n, h1, h2⟩ := at_entry.1 ⟨l, hl, hi⟩
    obtain ⟨h3, j, n', h4, h5, -⟩ := hg.sym u i n v h1 h2
    obtain ⟨l', h6, h7⟩ := at_entry.2 ⟨n', h4, h5⟩
    exact ⟨h3, l', h6, List.mem_of_getElem? h7⟩

theorem adj_same (hB : Built numNodes numObs ops g sg m) : adjS sg = adjM g := by
  have ht := twin_of_runs hB.matching hB.search
  have hlen := (C13_adjacency numNodes numObs ops g hB.matching).1
  unfold adjS adjM
  apply List.ext_getElem?
  intro u
  rw [List.getElem?_map, List.getElem?_map]
  by_cases hu : u < numNodes
  · rw [List.getElem?_eq_getElem (by rw [ht.len]; exact hu), List.getElem?_eq_getElem (by rw [hlen]; exact hu), Option.map_some, Option.map_some,
      Option.some.injEq, ht.adj u]
    have hf := (C13_adjacency numNodes numObs ops g hB.matching).2.2 u (by rw [hlen]; exact hu)
    generalize g.nodes[u] = l at hf
    generalize ops.filterMap (seenBdry u) ++ ops.filterMap (seenFrom u) = l' at hf
    induction hf with
    | nil => rfl
    | cons h1 _ ih => simp only [List.map_cons, ih, h1.1, sEntry]
  · rw [List.getElem?_eq_none (by rw [ht.len]; omega), List.getElem?_eq_none (by rw [hlen]; omega)]; rfl

theorem mem_same (hB : Built numNodes numObs ops g sg m) : memS sg = memM g := by
  have ht := twin_of_runs hB.matching hB.search
  funext ⟨u, k⟩
  cases he : entry g (u, k) with
  | some n =>
    obtain ⟨n', h1, -, h2⟩ := slot_twin hB.matching ht he
    rw [memM_entry he, memS_nbr h1, h2]
  | none =>
    cases hs : Sch.nbr sg u k with
    | some n =>
      obtain ⟨n', op, h1, -⟩ := twin_slot hB.matching ht hs
      rw [he] at h1; cases h1
    | none =>
      rw [entry_bind] at he
      unfold Sch.nbr at hs
      simp only [memM, memS, he, hs]

theorem mem_symmetric (hg : Proper g) : RW.Symmetric (pairing (fair_of_proper hg)) (memM g) := by
  intro p q h
  obtain ⟨h1, h2⟩ := (twinOf_some (fair_of_proper hg)).1 h
  obtain ⟨n, h3, h4⟩ := at_entry.1 h1
  obtain ⟨n', h5, h6⟩ := at_entry.1 h2
  obtain ⟨-, j, n2, h7, h8, h9, -⟩ := hg.sym p.1 p.2 n q.1 h3 h4
  have : j = q.2 := (at_entry.2 ⟨n2, h7, h8⟩ : At (adjM g) q.1 j (some p.1)).unique (fair_of_proper hg) h2
  subst this
  rw [h5] at h7; cases h7
  exact (memM_entry h3).trans (h9.symm.trans (memM_entry h5).symm)

/-! ## The rules of the first pass -/

section Rules

open Verif.UG Verif.Conv

variable {K : Type} [Field K] [LinearOrder K] [FloorRing K] {ins : List (Conv.Ins K)}

/-- The inserted edge that a list entry stands for. -/
structure Behind1 (ins : List (Conv.Ins K)) (z : Sym2 (Option Nat)) (i : Conv.Ins K) : Prop where
  mem : i ∈ ins
  noloop : ¬ IsLoop (Props.Convert.toGraphIns i)
  ends : endsOf (Props.Convert.toGraphIns i) = z

theorem rules_at (hl : Linked (table numNodes ins) g ins) (hA : Fair (adjM g)) {k : K} {R : Rules}
    (hR : convertTable (adjM g) k (table numNodes ins) = .ok R) {u z : Nat} {t : Option Nat} (hat : At (adjM g) u z t) :
    ∃ i, Behind1 ins s(some u, t) i ∧ ∃ xs, ((R[u]?).bind fun l => l[z]?) = some xs ∧ List.Forall₂ (Converted (adjM g) k) (impliedOf i) xs := by
  obtain ⟨n, h1, h2⟩ := at_entry.1 hat
  rw [entry_bind, Option.bind_eq_some_iff] at h1
  obtain ⟨l, h3, h4⟩ := h1
  obtain ⟨hu, rfl⟩ := List.getElem?_eq_some_iff.1 h3
  obtain ⟨hz, rfl⟩ := List.getElem?_eq_some_iff.1 h4
  have hut : u < (table numNodes ins).length := by rw [hl.1]; exact hu
  have hf := hl.2 u hut hu
  have hzt : z < (table numNodes ins)[u].length := by rw [hf.length_eq]; exact hz
  have hfz := hf.get (i := z) hzt hz
  simp only [List.get_eq_getElem] at hfz
  obtain ⟨i, k1, k2, k3, k4⟩ := hfz
  refine ⟨i, ⟨k1, k3, by rw [k4, h2]⟩, ?_⟩
  have hF := mapRes_ok.1 hR
  have huR : u < R.length := by rw [← hF.length_eq]; exact hut
  have h5 := hF.get (i := u) hut huR
  simp only [List.get_eq_getElem] at h5
  have hF2 := mapRes_ok.1 h5
  have hzR : z < R[u].length := by rw [← hF2.length_eq]; exact hzt
  have h6 := hF2.get (i := z) hzt hzR
  simp only [List.get_eq_getElem] at h6
  refine ⟨R[u][z], by rw [List.getElem?_eq_getElem huR, Option.bind_some, List.getElem?_eq_getElem hzR], ?_⟩
  rw [k2]
  exact (mapRes_ok.1 h6).imp fun r x h => convertRule_spec hA h

/-- The rules `rs` are those of the edges in the list `es`. -/
structure RulesFor (A : Adj) (k : K) (ins : List (Conv.Ins K)) (es : List (Nat × Option Nat)) (rs : List RW.ImpliedWeight) : Prop where
  only : ∀ x ∈ rs, ∃ e ∈ es, ∃ i, Behind1 ins (symOf e) i ∧ ∃ r ∈ impliedOf i, Converted A k r x
  all : ∀ e ∈ es, ∃ i, Behind1 ins (symOf e) i ∧ ∀ r ∈ impliedOf i, ∃ x ∈ rs, Converted A k r x

theorem forall2_left {α β : Type} {R : α → β → Prop} {l : List α} {l' : List β} (h : List.Forall₂ R l l') : ∀ a ∈ l, ∃ b ∈ l', R a b := by
  induction h with
  | nil => simp
  | cons h1 _ ih =>
    intro a ha
    rcases List.mem_cons.1 ha with rfl | ha
    · exact ⟨_, by simp, h1⟩
    · obtain ⟨b, h2, h3⟩ := ih a ha
      exact ⟨b, by simp [h2], h3⟩

theorem forall2_right {α β : Type} {R : α → β → Prop} {l : List α} {l' : List β} (h : List.Forall₂ R l l') : ∀ b ∈ l', ∃ a ∈ l, R a b := by
  induction h with
  | nil => simp
  | cons h1 _ ih =>
    intro a ha
    rcases List.mem_cons.1 ha with rfl | ha
    · exact ⟨_, by simp, h1⟩
    · obtain ⟨b, h2, h3⟩ := ih a ha
      exact ⟨b, by simp [h2], h3⟩

theorem reweightFor_spec (hl : Linked (table numNodes ins) g ins) (hA : Fair (adjM g)) {k : K} {R : Rules}
    (hR : convertTable (adjM g) k (table numNodes ins) = .ok R) (es : List (Nat × Option Nat)) : ∀ (s : RW.State), (∀ e ∈ es, ∃ z, At (adjM g) e.1 z e.2) →
    ∃ rs, reweightFor (adjM g) R s es = (s.apply rs, .ok ()) ∧ RulesFor (adjM g) k ins es rs := by
  suffices h : (∀ e ∈ es, ∃ z, At (adjM g) e.1 z e.2) →
      ∃ rs, (∀ s, reweightFor (adjM g) R s es = (s.apply rs, .ok ())) ∧ RulesFor (adjM g) k ins es rs by
    intro s hs
    obtain ⟨rs, h1, h2⟩ := h hs
    exact ⟨rs, h1 s, h2⟩
  induction es with
  | nil => intro _; exact ⟨[], fun s => rfl, by simp, by simp⟩
  | cons e es ih =>
    obtain ⟨u, t⟩ := e
    intro hat
    obtain ⟨rs, h1, h2⟩ := ih fun e he => hat e (by simp [he])
    obtain ⟨z, hz⟩ := hat (u, t) (by simp)
    obtain ⟨i, h3, xs, h4, h5⟩ := rules_at hl hA hR hz
    refine ⟨xs ++ rs, fun s => ?_, ?_, ?_⟩
    · simp only [reweightFor, (slotOf_ok hA).2 hz, h4, h1, RW.apply_append]
    · intro x hx
      rcases List.mem_append.1 hx with hx | hx
      · obtain ⟨r, h6, h7⟩ := forall2_right h5 x hx
        exact ⟨(u, t), by simp, i, h3, r, h6, h7⟩
      · obtain ⟨e, h6, h7⟩ := h2.only x hx
        exact ⟨e, by simp [h6], h7⟩
    · intro e he
      rcases List.mem_cons.1 he with rfl | he
      · refine ⟨i, h3, fun r hr => ?_⟩
        obtain ⟨x, h6, h7⟩ := forall2_left h5 r hr
        exact ⟨x, by simp [h6], h7⟩
      · obtain ⟨i', h6, h7⟩ := h2.all e he
        refine ⟨i', h6, fun r hr => ?_⟩
        obtain ⟨x, h8, h9⟩ := h7 r hr
        exact ⟨x, by simp [h8], h9⟩

/-- How the rules change weights. -/
def changeOf (rs : List RW.ImpliedWeight) : Change := fun z w => ((rs.filter fun x => ruleEnds x = z).map (·.weight)).foldl min w

theorem foldl_min (l : List Nat) : ∀ w : Nat, l.foldl min w ≤ w ∧ (∀ x ∈ l, l.foldl min w ≤ x) ∧ (l.foldl min w = w ∨ l.foldl min w ∈ l) := by
  induction l with
  | nil => intro w; simp
  | cons a l ih =>
    intro w
    obtain ⟨h1, h2, h3⟩ := ih (min w a)
    rw [List.foldl_cons]
    refine ⟨by omega, ?_, ?_⟩
    · intro x hx
      rcases List.mem_cons.1 hx with rfl | hx
      · omega
      · exact h2 x hx
    · rcases h3 with h3 | h3
      · rw [h3]
        rcases Nat.le_total w a with h | h
        · left; omega
        · right; rw [Nat.min_eq_right h]; simp
      · right; simp [h3]

theorem apply_change (hg : Proper g) {k : K} {es : List (Nat × Option Nat)} {rs : List RW.ImpliedWeight} (hr : RulesFor (adjM g) k ins es rs)
    {u i : Nat} {t : Option Nat} (hat : At (adjM g) u i t) (prev : List (RW.Addr × Nat)) :
    ((⟨memM g, prev⟩ : RW.State).apply rs).mem (u, i) = changeOf rs s(some u, t) (memM g (u, i)) := by
  have hok : ∀ x ∈ rs, RW.RuleOk (pairing (fair_of_proper hg)) x := by
    intro x hx
    obtain ⟨e, -, i, -, r, -, h⟩ := hr.only x hx
    exact h.ok.symm
  rw [(RW.apply_mem (pairing (fair_of_proper hg)) rs ⟨memM g, prev⟩ (mem_symmetric hg) hok).2 (u, i)]
  unfold RW.targeting changeOf
  have : (rs.filter fun r => ((u, i) = r.edge0 ∨ some (u, i) = r.edge1)) = rs.filter fun x => ruleEnds x = s(some u, t) := by
    apply List.filter_congr
    intro x hx
    obtain ⟨e, -, i', -, r, -, h⟩ := hr.only x hx
    have := h.hits u i t hat
    by_cases h1 : (u, i) = x.edge0 ∨ some (u, i) = x.edge1
    · simp only [h1, this.1 h1]
    · have h2 : ¬ ruleEnds x = s(some u, t) := fun h => h1 (this.2 h)
      simp only [h1, h2]
  rw [this]

end Rules

/-! ## The changed graphs -/

theorem built_change (hB : Built numNodes numObs ops g sg m) (ρ : Change) (hk : ∀ op ∈ ops, Keeps ρ op)
    (heven : ∀ op ∈ ops, 0 ≤ op.w → ρ (endsOf op) op.w.toNat % 2 = 0) (hle : ∀ z w, ρ z w ≤ w) :
    Built numNodes numObs (ops.map (reop ρ)) (mapM ρ g) (mapS ρ sg) m := by
  refine ⟨?_, ?_, hB.mask, ⟨?_, ?_, ?_⟩, ?_⟩
  · have := run_mapM ρ ops (MGraph.empty numNodes numObs) hk
    rw [mapM_empty, hB.matching] at this
    exact this
  · have := runS_mapS ρ ops (SGraph.empty numNodes) hk
    rw [mapS_empty, hB.search] at this
    exact this
  · rw [List.filterMap_map]
    have : pairOf ∘ reop ρ = pairOf := funext (reop_pair ρ)
    rw [this]
    exact hB.edges.pairs
  · intro op' h'
    obtain ⟨op, hop, rfl⟩ := List.mem_map.1 h'
    rw [reop_w]
    split
    · exact hB.edges.even op hop
    · rename_i hw
      have := heven op hop (by omega)
      omega
  · intro op' h'
    obtain ⟨op, hop, rfl⟩ := List.mem_map.1 h'
    have hs := hB.edges.small op hop
    rw [reop_w]
    split
    · exact hs
    · rename_i hw
      have h1 := hle (endsOf op) op.w.toNat
      rw [abs_of_nonneg (by omega)] at hs
      rw [abs_of_nonneg (by omega)]
      omega
  · intro op' h' o ho
    obtain ⟨op, hop, rfl⟩ := List.mem_map.1 h'
    rw [reop_obs] at ho
    exact hB.obs op hop o ho

/-- The weight of a correction after a change. -/
def changedWeight (ρ : Change) (c : Correction ops) : Int := ∑ i ∈ c, (reop ρ ops[i]).w

theorem len_reop (ρ : Change) (ops : List EdgeIns) : (ops.map (reop ρ)).length = ops.length := by simp

/-- A correction of the changed edges as one of the original edges. -/
def unchange {ρ : Change} (c : Correction (ops.map (reop ρ))) : Correction ops := c.map (finCongr (len_reop ρ ops)).toEmbedding

/-- And back. -/
def rechange {ρ : Change} (c : Correction ops) : Correction (ops.map (reop ρ)) := c.map (finCongr (len_reop ρ ops).symm).toEmbedding

theorem un_re {ρ : Change} (c : Correction ops) : unchange (rechange (ρ := ρ) c) = c := by
  ext i; simp [unchange, rechange]

theorem unchange_degree {ρ : Change} (c : Correction (ops.map (reop ρ))) (x : Nat) : degree (unchange c) x = degree c x := by
  unfold degree unchange
  rw [Finset.sum_map]
  refine Finset.sum_congr rfl fun i _ => ?_
  simp [reop_incidence]

theorem unchange_crossed {ρ : Change} (c : Correction (ops.map (reop ρ))) (k : Nat) : crossed (unchange c) k = crossed c k := by
  unfold crossed unchange
  rw [Finset.sum_map]
  refine Finset.sum_congr rfl fun i _ => ?_
  simp [reop_obs]

theorem unchange_weight {ρ : Change} (c : Correction (ops.map (reop ρ))) : changedWeight ρ (unchange c) = weight c := by
  unfold changedWeight weight unchange
  rw [Finset.sum_map]
  refine Finset.sum_congr rfl fun i _ => ?_
  simp

theorem unchange_explains {ρ : Change} (c : Correction (ops.map (reop ρ))) (s : Finset Nat) : Explains (unchange c) s ↔ Explains c s := by
  unfold Explains
  simp only [unchange_degree]

theorem unchange_optimal {ρ : Change} {c : Correction (ops.map (reop ρ))} {s : Finset Nat} (h : Optimal weight c s) :
    Optimal (changedWeight ρ) (unchange c) s := by
  refine ⟨(unchange_explains c s).2 h.1, fun c' hc' => ?_⟩
  rw [← un_re (ρ := ρ) c'] at hc' ⊢
  rw [unchange_weight, unchange_weight]
  exact h.2 _ ((unchange_explains _ s).1 hc')

theorem unchange_lists {ρ : Change} {c : Correction (ops.map (reop ρ))} {es : List (Nat × Option Nat)} (h : Lists es c) : Lists es (unchange c) := by
  refine ⟨h.1, fun z => ?_⟩
  rw [h.2]
  constructor
  · rintro ⟨i, h1, h2, h3⟩
    refine ⟨finCongr (len_reop ρ ops) i, by simpa [unchange] using h1, ?_, ?_⟩
    · simpa [reop_loop] using h2
    · simpa [reop_ends] using h3
  · rintro ⟨i, h1, h2, h3⟩
    unfold unchange at h1
    rw [Finset.mem_map] at h1
    obtain ⟨i', h4, rfl⟩ := h1
    refine ⟨i', h4, ?_, ?_⟩
    · simpa [reop_loop] using h2
    · simpa [reop_ends] using h3

end Verif.SB
