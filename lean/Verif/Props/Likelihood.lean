import Verif.Props.DemCorr
import Mathlib.Algebra.BigOperators.Group.Finset.Powerset

/-!
# Decoding a detector error model finds the most likely errors, up to rounding (C56)

The statements mention the errors of the model and their probabilities, the edges of the loaded graph and the detection events.
-/

namespace Verif.Props.Likelihood

open Verif Verif.UG Verif.Conv Verif.SB Verif.Dem Verif.Props.Dem Verif.Props.EndToEnd Verif.Props.UserEdges
open Verif.Props.Edges (Completes UsedFull)
open Verif.Props.UserGraph (samePair)
open Verif.Props.MergeWeights (oddOf llr)
open Verif.MW (mergeWeights)

/-! ## Specification -/

/-- Every error that can happen is one component with one or two detectors. -/
def Graphlike (m : Model ℝ) : Prop := ∀ e ∈ m.errors, e.p ≠ 0 → ∃ c, components e = [c] ∧ (c.1.length = 1 ∨ c.1.length = 2)

/-- A set of errors that happen (by their positions in the model). -/
abbrev Happened (m : Model ℝ) := Finset (Fin m.errors.length)

/-- The probability that exactly these errors happen. -/
noncomputable def chance (m : Model ℝ) (F : Happened m) : ℝ := ∏ i, if i ∈ F then m.errors[i].p else 1 - m.errors[i].p

/-- How often the errors that happen flip detector `d`. -/
def flips (m : Model ℝ) (F : Happened m) (d : Nat) : Nat := ∑ i ∈ F, (detsOf m.errors[i].targets).count d

/-- How often the errors that happen flip observable `k`. -/
def flipsObs (m : Model ℝ) (F : Happened m) (k : Nat) : Nat := ∑ i ∈ F, (obsOf m.errors[i].targets).count k

/-- The error has a component between the ends of the edge. -/
def belongs (e : Err ℝ) (x : UEdge ℝ) : Prop := ∃ c ∈ components e, connects x.node1 x.node2 c.1

instance (e : Err ℝ) (x : UEdge ℝ) : Decidable (belongs e x) := by unfold belongs; infer_instance

/-- The edges to which an odd number of the errors that happen belong. -/
def pattern {m : Model ℝ} (g : UGraph ℝ) (F : Happened m) : Choice g :=
  Finset.univ.filter fun j => (F.filter fun i => belongs m.errors[i] g.edges[j]).card % 2 = 1

/-- The probability that the errors that happen use exactly the edges `C`. -/
noncomputable def likelihood (m : Model ℝ) {g : UGraph ℝ} (C : Choice g) : ℝ := ∑ F : Happened m with pattern g F = C, chance m F

/-- Errors between the same detectors flip the same observables. -/
def Consistent (m : Model ℝ) : Prop :=
  ∀ e ∈ m.errors, ∀ e' ∈ m.errors, e.p ≠ 0 → e'.p ≠ 0 → (detsOf e.targets).Perm (detsOf e'.targets) → ∀ k, (obsOf e.targets).count k % 2 = (obsOf e'.targets).count k % 2

/-- The prediction array agrees with the parities `n`. -/
def Predicts (numObs : Nat) (buf : List (BitVec 8)) (n : Nat → Nat) : Prop :=
  buf.length = numObs ∧ ∀ k, k < numObs → buf[k]? = some (if n k % 2 = 1 then 1#8 else 0#8)

/-! ## Lemmas: the likelihood of independent edges -/

section

variable {ι E : Type} [DecidableEq ι] [Fintype E] [DecidableEq E] (b : ι → E → Prop) [∀ i j, Decidable (b i j)] (p : ι → ℝ)

/-- Elements with an odd number of members. -/
def odds (F : Finset ι) : Finset E := Finset.univ.filter fun j => (F.filter fun i => b i j).card % 2 = 1

/-- The probability that an odd number of the errors in `S` that belong to `j` happen. -/
noncomputable def oddIn (S : Finset ι) (j : E) : ℝ := (1 - ∏ i ∈ S with b i j, (1 - 2 * p i)) / 2

theorem odds_insert {a : ι} {F : Finset ι} (ha : a ∉ F) (j : E) : j ∈ odds b (insert a F) ↔ (j ∈ odds b F ↔ ¬ b a j) := by
  unfold odds
  rw [Finset.mem_filter, Finset.mem_filter, Finset.filter_insert]
  simp only [Finset.mem_univ, true_and]
  split_ifs with h
  · rw [Finset.card_insert_of_notMem (by simp [ha])]
    simp only [h, not_true, iff_false]
    omega
  · simp [h]

theorem product (hb : ∀ i, p i ≠ 0 → ∀ j j', b i j → b i j' → j = j') (S : Finset ι) : ∀ C : Finset E,
    (∑ F ∈ S.powerset, if odds b F = C then ∏ i ∈ S, (if i ∈ F then p i else 1 - p i) else 0) = ∏ j, if j ∈ C then oddIn b p S j else 1 - oddIn b p S j := by
  induction S using Finset.induction_on with
  | empty =>
    intro C
    simp only [Finset.powerset_empty, Finset.sum_singleton, Finset.prod_empty]
    have h0 : odds b (∅ : Finset ι) = ∅ := by simp [odds]
    have h1 : ∀ j, oddIn b p ∅ j = 0 := by simp [oddIn]
    rw [h0]
    split_ifs with h
    · subst h; simp [h1]
    · obtain ⟨j, hj⟩ := Finset.nonempty_iff_ne_empty.2 (Ne.symm h)
      rw [Finset.prod_eq_zero (Finset.mem_univ j)]
      rw [if_pos hj, h1]
  | insert a S ha ih =>
    intro C
    rw [Finset.sum_powerset_insert ha]
    have hA : ∀ F ∈ S.powerset, (∏ i ∈ insert a S, (if i ∈ F then p i else 1 - p i)) = (1 - p a) * ∏ i ∈ S, (if i ∈ F then p i else 1 - p i) := by
      intro F hF
      rw [Finset.prod_insert ha, if_neg (fun h => ha (Finset.mem_powerset.1 hF h))]
    have hB : ∀ F ∈ S.powerset, (∏ i ∈ insert a S, (if i ∈ insert a F then p i else 1 - p i)) = p a * ∏ i ∈ S, (if i ∈ F then p i else 1 - p i) := by
      intro F hF
      rw [Finset.prod_insert ha, if_pos (Finset.mem_insert_self _ _)]
      congr 1
      refine Finset.prod_congr rfl fun i hi => ?_
      have : i ≠ a := fun h => ha (h ▸ hi)
      simp [this]
    have e1 : (∑ F ∈ S.powerset, if odds b F = C then ∏ i ∈ insert a S, (if i ∈ F then p i else 1 - p i) else 0) =
        (1 - p a) * ∏ j, if j ∈ C then oddIn b p S j else 1 - oddIn b p S j := by
      rw [← ih C, Finset.mul_sum]
      refine Finset.sum_congr rfl fun F hF => ?_
      rw [hA F hF, mul_ite, mul_zero]
    have e2 : ∀ C' : Finset E, (∀ F ∈ S.powerset, odds b (insert a F) = C ↔ odds b F = C') →
        (∑ F ∈ S.powerset, if odds b (insert a F) = C then ∏ i ∈ insert a S, (if i ∈ insert a F then p i else 1 - p i) else 0) =
        p a * ∏ j, if j ∈ C' then oddIn b p S j else 1 - oddIn b p S j := by
      intro C' hC'
      rw [← ih C', Finset.mul_sum]
      refine Finset.sum_congr rfl fun F hF => ?_
      rw [hB F hF, mul_ite, mul_zero]
      simp only [hC' F hF]
    have hodd : ∀ j, oddIn b p (insert a S) j = if b a j then p a + oddIn b p S j - 2 * p a * oddIn b p S j else oddIn b p S j := by
      intro j
      unfold oddIn
      rw [Finset.filter_insert]
      split_ifs with h
      · rw [Finset.prod_insert (by simp [ha])]; ring
      · rfl
    rw [e1]
    by_cases hp0 : p a = 0
    · have e3 : (∑ F ∈ S.powerset, if odds b (insert a F) = C then ∏ i ∈ insert a S, (if i ∈ insert a F then p i else 1 - p i) else 0) = 0 := by
        refine Finset.sum_eq_zero fun F hF => ?_
        rw [hB F hF, hp0, zero_mul, ite_self]
      rw [e3, add_zero, hp0, sub_zero, one_mul]
      refine Finset.prod_congr rfl fun j _ => ?_
      have : oddIn b p (insert a S) j = oddIn b p S j := by rw [hodd, hp0]; split_ifs <;> ring
      rw [this]
    by_cases hx : ∃ j, b a j
    · obtain ⟨j0, hj0⟩ := hx
      have hbj : ∀ j, b a j ↔ j = j0 := fun j => ⟨fun h => hb a hp0 j j0 h hj0, fun h => h ▸ hj0⟩
      rw [e2 (symmDiff C {j0})]
      · rw [← Finset.mul_prod_erase _ _ (Finset.mem_univ j0), ← Finset.mul_prod_erase _ _ (Finset.mem_univ j0), ← Finset.mul_prod_erase _ _ (Finset.mem_univ j0)]
        have r1 : (∏ j ∈ Finset.univ.erase j0, if j ∈ symmDiff C {j0} then oddIn b p S j else 1 - oddIn b p S j) =
            ∏ j ∈ Finset.univ.erase j0, if j ∈ C then oddIn b p S j else 1 - oddIn b p S j := by
          refine Finset.prod_congr rfl fun j hj => ?_
          have hne := (Finset.mem_erase.1 hj).1
          simp [Finset.mem_symmDiff, hne]
        have r2 : (∏ j ∈ Finset.univ.erase j0, if j ∈ C then oddIn b p (insert a S) j else 1 - oddIn b p (insert a S) j) =
            ∏ j ∈ Finset.univ.erase j0, if j ∈ C then oddIn b p S j else 1 - oddIn b p S j := by
          refine Finset.prod_congr rfl fun j hj => ?_
          have hne := (Finset.mem_erase.1 hj).1
          rw [hodd j, if_neg (fun h => hne ((hbj j).1 h))]
        rw [r1, r2, hodd j0, if_pos hj0]
        by_cases hC : j0 ∈ C
        · simp only [hC, if_true, Finset.mem_symmDiff, Finset.mem_singleton, not_true, and_false, or_false, if_false]
          ring
        · simp only [hC, if_false, Finset.mem_symmDiff, Finset.mem_singleton, not_true, and_false, false_or, not_false_eq_true, and_true, if_true]
          ring
      · intro F hF
        have haF : a ∉ F := fun h => ha (Finset.mem_powerset.1 hF h)
        rw [Finset.ext_iff, Finset.ext_iff]
        refine forall_congr' fun j => ?_
        rw [odds_insert b haF, hbj, Finset.mem_symmDiff, Finset.mem_singleton]
        tauto
    · push Not at hx
      rw [e2 C]
      · simp only [hodd, if_neg (hx _)]
        ring
      · intro F hF
        have haF : a ∉ F := fun h => ha (Finset.mem_powerset.1 hF h)
        rw [Finset.ext_iff, Finset.ext_iff]
        refine forall_congr' fun j => ?_
        rw [odds_insert b haF]
        simp [hx j]

end

/-- Sums over the elements with an odd number of members, modulo two. -/
theorem odds_sum {ι E : Type} [DecidableEq ι] [Fintype E] [DecidableEq E] (b : ι → E → Prop) [∀ i j, Decidable (b i j)] (f : E → Nat) (F : Finset ι) :
    (∑ j ∈ odds b F, f j) % 2 = (∑ i ∈ F, ∑ j with b i j, f j) % 2 := by
  have h1 : (∑ i ∈ F, ∑ j with b i j, f j) = ∑ j, (F.filter fun i => b i j).card * f j := by
    simp only [Finset.sum_filter, Finset.card_filter]
    rw [Finset.sum_comm]
    refine Finset.sum_congr rfl fun j _ => ?_
    rw [Finset.sum_mul]
    refine Finset.sum_congr rfl fun i _ => ?_
    split_ifs <;> simp
  rw [h1]
  unfold odds
  rw [Finset.sum_filter]
  rw [Finset.sum_nat_mod, Finset.sum_nat_mod Finset.univ 2 (fun j => (F.filter fun i => b i j).card * f j)]
  congr 1
  refine Finset.sum_congr rfl fun j _ => ?_
  rw [Nat.mul_mod]
  split_ifs with h
  · rw [h]; simp
  · have : (F.filter fun i => b i j).card % 2 = 0 := by omega
    rw [this]; simp

/-! ## Lemmas: the loaded graph -/

/-- What loading gives. -/
structure Start (m : Model ℝ) (g : UGraph ℝ) : Prop where
  wf : WF g
  bndOk : Props.Convert.BndOk g
  bnd : g.boundary = ∅
  nodes : g.nodes.length = m.numDets
  numObs : g.numObs = m.numObs
  fill : LoadedFrom m.errors g
  plain : ∀ e ∈ g.edges, e.implied = []

theorem start (m : Model ℝ) (hv : Valid m) : Start m (load mergeWeights llr m) := by
  obtain ⟨h1, h2, h3⟩ := C21_load m hv
  have e := load_eq m (fun e he => (hv e he).1.1)
  have hcalls : ∀ c ∈ callsOf m.errors, ∃ u t obs w p s, c = UserGraph.Call.add u t obs w p s := fun c hc => by
    obtain ⟨u, t, obs, w, p, s, h, -⟩ := callsOf_range m hv c hc
    exact ⟨u, t, obs, w, p, s, h⟩
  refine ⟨?_, ?_, ?_, h2, h3, h1, ?_⟩
  · rw [e]; exact UserGraph.wf_run mergeWeights (wf_new _ _) _
  · rw [e]; exact Props.Convert.bndOk_run mergeWeights (Props.Convert.bndOk_new _ _) _
  · rw [e]
    have : ∀ (cs : List (UserGraph.Call ℝ)) (g : UGraph ℝ), g.boundary = ∅ →
        (∀ c ∈ cs, ∃ u t obs w p s, c = UserGraph.Call.add u t obs w p s) → (UserGraph.run mergeWeights g cs).boundary = ∅ := by
      intro cs
      induction cs with
      | nil => intro g hg _; exact hg
      | cons c cs ih =>
        intro g hg hcs
        obtain ⟨u, t, obs, w, p, s, rfl⟩ := hcs c List.mem_cons_self
        refine ih _ ?_ (fun x hx => hcs x (List.mem_cons_of_mem _ hx))
        rw [DemCorr.boundary_add, hg]
    exact this _ _ rfl hcalls
  · rw [e]
    have : ∀ (cs : List (UserGraph.Call ℝ)) (g : UGraph ℝ), WF g → (∀ e ∈ g.edges, e.implied = []) →
        (∀ c ∈ cs, ∃ u t obs w p s, c = UserGraph.Call.add u t obs w p s) → ∀ e ∈ (UserGraph.run mergeWeights g cs).edges, e.implied = [] := by
      intro cs
      induction cs with
      | nil => intro g _ hg _; exact hg
      | cons c cs ih =>
        intro g hw hg hcs
        obtain ⟨u, t, obs, w, p, s, rfl⟩ := hcs c List.mem_cons_self
        refine ih _ (UserGraph.wf_exec mergeWeights hw _) ?_ (fun x hx => hcs x (List.mem_cons_of_mem _ hx))
        show ∀ e ∈ (UserGraph.exec mergeWeights g (.add u t obs w p s)).1.edges, e.implied = []
        rcases UserGraph.add_cases mergeWeights hw u t obs w p s with ⟨g', e1, -, e2, -⟩ | ⟨ei, hei, -, e2⟩
        · rw [e1]
          simp only [e2, List.mem_append, List.mem_singleton]
          rintro e (he | rfl)
          · exact hg e he
          · rfl
        · rw [e2]
          rcases UserGraph.mergeEdge_cases mergeWeights hw ei hei obs w p s with ⟨-, h3⟩ | ⟨-, g', e', h3, -, h4, -, -, -, b, h5, -⟩
          · rw [h3]; exact hg
          · rw [h3]
            simp only [h4]
            intro e he
            rcases List.mem_or_eq_of_mem_set he with he | rfl
            · exact hg e he
            · have hm := hg _ (List.getElem_mem hei)
              cases s <;> simp only [mergeData] at h5
              · cases h5
              · cases h5; exact hm
              · split at h5 <;> cases h5 <;> exact hm
              · cases h5; exact hm
              · cases h5; exact hm
    exact this _ _ (wf_new _ _) (by simp [UGraph.new]) hcalls

theorem whole {e : Err ℝ} {c : List Nat × List Nat} (h : components e = [c]) : c = (detsOf e.targets, obsOf e.targets) := by
  have key : ∀ (ds os : List Nat) (ts : List Target), segs ds os ts = [c] → c = (ds ++ detsOf ts, os ++ obsOf ts) := by
    intro ds os ts
    induction ts generalizing ds os with
    | nil => intro h; simp only [segs, List.cons.injEq, and_true] at h; simp [← h, detsOf, obsOf]
    | cons x ts ih =>
      intro h
      cases x with
      | det d => rw [segs] at h; rw [ih _ _ h]; simp [detsOf, obsOf]
      | obs o => rw [segs] at h; rw [ih _ _ h]; simp [detsOf, obsOf]
      | sep =>
        rw [segs] at h
        simp only [List.cons.injEq] at h
        have : segs [] [] ts ≠ [] := by
          rw [segs_eq]
          have := List.splitOnP_ne_nil (· == Target.sep) ts
          unfold List.splitOn
          simp
        exact absurd h.2 this
  rw [← segs_components] at h
  simpa using key _ _ _ h

section

variable {m : Model ℝ} {g : UGraph ℝ}

theorem connects_same {u : Nat} {t : Option Nat} {u' : Nat} {t' : Option Nat} {ds : List Nat} (h : connects u t ds) (h' : connects u' t' ds) : samePair u t u' t' := by
  have key : ∀ a s, samePair u t a s → samePair u' t' a s → samePair u t u' t' := by
    intro a s k k'
    rw [DemCorr.same_sym] at *
    exact k.trans k'.symm
  match ds with
  | [] => cases h
  | [a] => exact key _ _ h h'
  | [a, b] => exact key _ _ h h'
  | _ :: _ :: _ :: _ => cases h

theorem belongs_iff {e : Err ℝ} {c : List Nat × List Nat} (h : components e = [c]) (x : UEdge ℝ) : belongs e x ↔ connects x.node1 x.node2 c.1 := by
  unfold belongs
  rw [h]
  simp

theorem belongs_unique (hs : Start m g) (hgl : Graphlike m) {i : Fin m.errors.length} (h0 : m.errors[i].p ≠ 0) {j j' : Fin g.edges.length}
    (h : belongs m.errors[i] g.edges[j]) (h' : belongs m.errors[i] g.edges[j']) : j = j' := by
  obtain ⟨c, hc, -⟩ := hgl m.errors[i] (List.getElem_mem i.2) h0
  rw [belongs_iff hc] at h h'
  have := connects_same h h'
  rw [UserGraph.samePair_iff_key] at this
  exact Fin.ext (hs.wf.uniq _ _ j.2 j'.2 this.symm)

theorem belongs_exists (hs : Start m g) (hgl : Graphlike m) {i : Fin m.errors.length} (h0 : m.errors[i].p ≠ 0) :
    ∃ j : Fin g.edges.length, belongs m.errors[i] g.edges[j] := by
  obtain ⟨c, hc, hlen⟩ := hgl m.errors[i] (List.getElem_mem i.2) h0
  obtain ⟨u, t, hut⟩ : ∃ u t, connects u t c.1 := by
    match hds : c.1 with
    | [] => simp [hds] at hlen
    | [a] => exact ⟨a, none, .inl ⟨rfl, rfl⟩⟩
    | [a, b] => exact ⟨a, some b, .inl ⟨rfl, rfl⟩⟩
    | _ :: _ :: _ :: _ => simp [hds] at hlen
  have h1 := hs.fill u t
  cases hcon : contributions u t m.errors with
  | nil =>
    exfalso
    unfold contributions at hcon
    rw [List.flatMap_eq_nil_iff] at hcon
    have := hcon _ (List.getElem_mem i.2)
    have hc' : components m.errors[i.1] = [c] := hc
    have h0' : m.errors[i.1].p ≠ 0 := h0
    rw [if_neg h0', hc'] at this
    simp [hut] at this
  | cons x xs =>
    rw [hcon] at h1
    obtain ⟨r, h2, -⟩ := h1
    unfold UserGraph.dataOf at h2
    rw [Option.map_eq_some_iff] at h2
    obtain ⟨e, h3, -⟩ := h2
    obtain ⟨j, hj, rfl, hk⟩ := (UserGraph.getEdge_iff hs.wf _ _ _).1 h3
    refine ⟨⟨j, hj⟩, ?_⟩
    rw [belongs_iff hc]
    have hsame : samePair u t g.edges[j].node1 g.edges[j].node2 := (UserGraph.samePair_iff_key _ _ _ _).2 hk
    have key : ∀ a s, samePair u t a s → samePair g.edges[j].node1 g.edges[j].node2 a s := by
      intro a s k
      rw [DemCorr.same_sym] at *
      exact hsame.symm.trans k
    show connects g.edges[j].node1 g.edges[j].node2 c.1
    match hds : c.1 with
    | [] => simp [hds] at hlen
    | [a] => rw [hds] at hut; exact key _ _ hut
    | [a, b] => rw [hds] at hut; exact key _ _ hut
    | _ :: _ :: _ :: _ => simp [hds] at hlen

/-- Every edge comes from some component. -/
theorem contributed (hs : Start m g) {e : UEdge ℝ} (he : e ∈ g.edges) :
    ∃ c cs, contributions e.node1 e.node2 m.errors = c :: cs ∧ e.obs = c.1 ∧ e.prob = oddOf ((c :: cs).map Prod.snd) ∧ e.weight = llr e.prob := by
  have h1 := hs.fill e.node1 e.node2
  have h0 : UserGraph.dataOf g e.node1 e.node2 = some ⟨e.obs, e.weight, e.prob⟩ := by
    obtain ⟨i, hi, rfl⟩ := List.getElem_of_mem he
    unfold UserGraph.dataOf
    rw [(UserGraph.getEdge_iff hs.wf _ _ g.edges[i]).2 ⟨i, hi, rfl, rfl⟩]
    rfl
  rw [h0] at h1
  cases hc : contributions e.node1 e.node2 m.errors with
  | nil => rw [hc] at h1; cases h1
  | cons c cs =>
    rw [hc] at h1
    obtain ⟨r, h2, h3, h4, h5⟩ := h1
    cases h2
    exact ⟨c, cs, rfl, h3, h4, h5⟩

theorem covered (hs : Start m g) (hv : Valid m) : Covered g := by
  intro e he o ho
  obtain ⟨c, cs, h1, h2, -⟩ := contributed hs he
  obtain ⟨e', he', -, x, hx, -, rfl⟩ := DemCorr.contribution_mem (m := m) (c := c) (by rw [h1]; simp)
  rw [h2] at ho
  rw [hs.numObs]
  rw [← segs_components] at hx
  rcases (segs_mem [] [] e'.targets x hx).2 o ho with k | k
  · cases k
  · exact (hv e' he').2.2 o k

theorem noGain (hs : Start m g) : NoGain g where
  pair := by
    intro i j hij u hi hj
    exfalso
    have key : ∀ k : Fin g.edges.length, Leaves g u g.edges[k] → g.edges[k].node1 = u ∧ g.edges[k].node2 = none := by
      rintro k ⟨-, ⟨h1, h2 | ⟨v, -, h3⟩⟩ | ⟨-, h2⟩⟩
      · exact ⟨h1, h2⟩
      · rw [hs.bnd] at h3; simp at h3
      · rw [hs.bnd] at h2; simp at h2
    obtain ⟨h1, h2⟩ := key i hi
    obtain ⟨h3, h4⟩ := key j hj
    refine hij (Fin.ext (hs.wf.uniq _ _ i.2 j.2 ?_))
    show g.edges[i].key = g.edges[j].key
    unfold UEdge.key
    rw [h1, h2, h3, h4]
  outside := by
    intro i hi
    have := hi.1
    rw [hs.bnd] at this
    simp at this

theorem oddOf_between (l : List ℝ) (hl : l ≠ []) (h : ∀ p ∈ l, 0 < p ∧ p < 1) : 0 < oddOf l ∧ oddOf l < 1 := by
  have key : ∀ l : List ℝ, (∀ p ∈ l, 0 < p ∧ p < 1) → |(l.map (fun p => 1 - 2 * p)).prod| ≤ 1 ∧ (l ≠ [] → |(l.map (fun p => 1 - 2 * p)).prod| < 1) := by
    intro l
    induction l with
    | nil => intro _; simp
    | cons p l ih =>
      intro h
      obtain ⟨h1, -⟩ := ih (fun q hq => h q (List.mem_cons_of_mem _ hq))
      obtain ⟨h3, h4⟩ := h p List.mem_cons_self
      have h5 : |1 - 2 * p| < 1 := by rw [abs_lt]; constructor <;> linarith
      have h6 : |((p :: l).map (fun p => 1 - 2 * p)).prod| < 1 := by
        rw [List.map_cons, List.prod_cons, abs_mul]
        exact mul_lt_one_of_nonneg_of_lt_one_left (abs_nonneg _) h5 h1
      exact ⟨h6.le, fun _ => h6⟩
  have := abs_lt.1 ((key l h).2 hl)
  unfold MergeWeights.oddOf
  constructor <;> linarith [this.1, this.2]

theorem prob_between (hs : Start m g) (hv : Valid m) {e : UEdge ℝ} (he : e ∈ g.edges) : 0 < e.prob ∧ e.prob < 1 := by
  obtain ⟨c, cs, h1, -, h3, -⟩ := contributed hs he
  rw [h3]
  refine oddOf_between _ (by simp) ?_
  intro p hp
  rw [← h1, List.mem_map] at hp
  obtain ⟨x, hx, rfl⟩ := hp
  obtain ⟨e, he, h0, y, -, -, rfl⟩ := DemCorr.contribution_mem hx
  obtain ⟨⟨k1, k2⟩, -⟩ := hv e he
  exact ⟨lt_of_le_of_ne k1 (Ne.symm h0), k2⟩

/-- The probability stored in an edge is that of an odd number of its errors. -/
theorem prob_eq (hs : Start m g) (hgl : Graphlike m) (j : Fin g.edges.length) :
    g.edges[j].prob = oddIn (fun (i : Fin m.errors.length) (j : Fin g.edges.length) => belongs m.errors[i] g.edges[j]) (fun i => m.errors[i].p) Finset.univ j := by
  obtain ⟨c, cs, h1, -, h3, -⟩ := contributed hs (e := g.edges[j]) (List.getElem_mem j.2)
  rw [h3]
  unfold MergeWeights.oddOf oddIn
  congr 2
  rw [← h1, Finset.prod_filter]
  have e1 : (∏ i : Fin m.errors.length, if belongs m.errors[i] g.edges[j] then 1 - 2 * m.errors[i].p else 1) =
      (m.errors.map fun e => if belongs e g.edges[j] then 1 - 2 * e.p else 1).prod :=
    Fin.prod_univ_fun_getElem m.errors fun e => if belongs e g.edges[j] then 1 - 2 * e.p else 1
  rw [e1]
  have key : ∀ (x : UEdge ℝ) (es : List (Err ℝ)), (∀ e ∈ es, e ∈ m.errors) →
      (((contributions x.node1 x.node2 es).map Prod.snd).map (fun p => 1 - 2 * p)).prod =
        (es.map fun e => if belongs e x then 1 - 2 * e.p else 1).prod := by
    intro x es
    induction es with
    | nil => intro _; simp [contributions]
    | cons e es ih =>
      intro hes
      have hcons : contributions x.node1 x.node2 (e :: es) =
          (if e.p = 0 then [] else ((components e).filter (fun c => connects x.node1 x.node2 c.1)).map fun c => (c.2, e.p)) ++
            contributions x.node1 x.node2 es := by
        simp [contributions]
      rw [hcons, List.map_append, List.map_append, List.prod_append, ih fun x hx => hes x (List.mem_cons_of_mem _ hx), List.map_cons, List.prod_cons]
      congr 1
      by_cases h0 : e.p = 0
      · simp [h0]
      · obtain ⟨c, hc, -⟩ := hgl e (hes e List.mem_cons_self) h0
        rw [if_neg h0]
        simp only [belongs_iff hc, hc]
        by_cases hcon : connects x.node1 x.node2 c.1
        · simp [hcon]
        · simp [hcon]
  exact key _ _ fun e he => he

end

/-! ## Theorems -/

section

variable {m : Model ℝ} {g : UGraph ℝ}

theorem likelihood_eq (hs : Start m g) (hgl : Graphlike m) (C : Choice g) :
    likelihood m C = ∏ j, if j ∈ C then g.edges[j].prob else 1 - g.edges[j].prob := by
  have := product (fun (i : Fin m.errors.length) (j : Fin g.edges.length) => belongs m.errors[i] g.edges[j]) (fun i => m.errors[i].p)
    (fun i h0 j j' => belongs_unique hs hgl h0) Finset.univ C
  rw [Finset.powerset_univ] at this
  unfold likelihood
  rw [Finset.sum_filter]
  refine Eq.trans ?_ (this.trans ?_)
  · refine Finset.sum_congr rfl fun F _ => ?_
    rfl
  · refine Finset.prod_congr rfl fun j _ => ?_
    rw [← prob_eq hs hgl j]

theorem likelihood_weight (hs : Start m g) (hv : Valid m) (hgl : Graphlike m) (C : Choice g) :
    0 < likelihood m C ∧ likelihood m C = likelihood m (∅ : Choice g) * Real.exp (- trueWeight C) := by
  have hb : ∀ j : Fin g.edges.length, 0 < g.edges[j].prob ∧ g.edges[j].prob < 1 := fun j => prob_between hs hv (List.getElem_mem j.2)
  constructor
  · rw [likelihood_eq hs hgl]
    refine Finset.prod_pos fun j _ => ?_
    split_ifs
    · exact (hb j).1
    · linarith [(hb j).2]
  · rw [likelihood_eq hs hgl, likelihood_eq hs hgl]
    unfold trueWeight
    rw [← Finset.sum_neg_distrib, Real.exp_sum, ← Finset.prod_filter_mul_prod_filter_not Finset.univ (· ∈ C)]
    conv_rhs => rw [← Finset.prod_filter_mul_prod_filter_not Finset.univ (· ∈ C)]
    have hC : Finset.univ.filter (· ∈ C) = C := by simp
    rw [hC]
    have h1 : (∏ j ∈ C, if j ∈ C then g.edges[j].prob else 1 - g.edges[j].prob) =
        (∏ j ∈ C, if j ∈ (∅ : Choice g) then g.edges[j].prob else 1 - g.edges[j].prob) * ∏ j ∈ C, Real.exp (- g.edges[j].weight) := by
      rw [← Finset.prod_mul_distrib]
      refine Finset.prod_congr rfl fun j hj => ?_
      rw [if_pos hj, if_neg (by simp)]
      obtain ⟨c, cs, -, -, -, h4⟩ := contributed hs (e := g.edges[j]) (List.getElem_mem j.2)
      rw [h4]
      obtain ⟨h5, h6⟩ := hb j
      unfold llr
      have h7 : 0 < 1 - g.edges[j].prob := by linarith
      rw [Real.exp_neg, Real.exp_log (div_pos h7 h5), inv_div]
      field_simp
    have h2 : (∏ j with j ∉ C, if j ∈ C then g.edges[j].prob else 1 - g.edges[j].prob) =
        ∏ j with j ∉ C, if j ∈ (∅ : Choice g) then g.edges[j].prob else 1 - g.edges[j].prob := by
      refine Finset.prod_congr rfl fun j hj => ?_
      rw [if_neg (Finset.mem_filter.1 hj).2, if_neg (by simp)]
    rw [h1, h2]
    ring

theorem possible {F : Happened m} (h : chance m F ≠ 0) : ∀ i ∈ F, m.errors[i].p ≠ 0 := by
  intro i hi h0
  refine h (Finset.prod_eq_zero (Finset.mem_univ i) ?_)
  rw [if_pos hi, h0]

/-- The sum over the edges of an error is about its only edge. -/
theorem edge_sum (hs : Start m g) (hgl : Graphlike m) {F : Happened m} (h : chance m F ≠ 0) (f : Fin g.edges.length → Nat) (n : Fin m.errors.length → Nat)
    (hf : ∀ i ∈ F, ∀ j : Fin g.edges.length, belongs m.errors[i] g.edges[j] → f j % 2 = n i % 2) : (∑ j ∈ pattern g F, f j) % 2 = (∑ i ∈ F, n i) % 2 := by
  have h1 := odds_sum (fun (i : Fin m.errors.length) (j : Fin g.edges.length) => belongs m.errors[i] g.edges[j]) f F
  refine Eq.trans h1 ?_
  rw [Finset.sum_nat_mod, Finset.sum_nat_mod F 2 n]
  congr 1
  refine Finset.sum_congr rfl fun i hi => ?_
  have h0 := possible h i hi
  obtain ⟨j, hj⟩ := belongs_exists hs hgl h0
  have : (Finset.univ.filter fun j : Fin g.edges.length => belongs m.errors[i] g.edges[j]) = {j} := by
    ext j'
    rw [Finset.mem_filter, Finset.mem_singleton]
    exact ⟨fun h' => belongs_unique hs hgl h0 h'.2 hj, fun h' => ⟨Finset.mem_univ _, h' ▸ hj⟩⟩
  rw [this, Finset.sum_singleton]
  exact hf i hi j hj

theorem ends_count {x : UEdge ℝ} {ds : List Nat} (h : connects x.node1 x.node2 ds) (d : Nat) : endsAt x d = ds.count d := by
  unfold endsAt
  match ds with
  | [] => cases h
  | [a] =>
    rcases h with ⟨h1, h2⟩ | ⟨-, h2⟩
    · rw [h1, h2]; simp [List.count_singleton]
    · cases h2
  | [a, b] =>
    rcases h with ⟨h1, h2⟩ | ⟨h1, h2⟩
    · rw [h1, h2]; simp [List.count_cons]; omega
    · cases h2
      rw [h1]; simp [List.count_cons]
  | _ :: _ :: _ :: _ => cases h

/-- C56 (what a set of edges stands for).  If the errors `F` happen, the detectors that they flip are those of the edges that they use. -/
theorem C56_detectors (m : Model ℝ) (hv : Valid m) (hgl : Graphlike m) (F : Happened m) (hF : chance m F ≠ 0) (events : List Nat) :
    Explains (pattern (load mergeWeights llr m) F) events ↔ ∀ d, d ∈ events ↔ flips m F d % 2 = 1 := by
  have hs := start m hv
  set g := load mergeWeights llr m
  unfold Explains
  simp only [hs.bnd, Finset.notMem_empty, not_false_eq_true, true_implies]
  refine forall_congr' fun d => ?_
  have : degree (pattern g F) d % 2 = flips m F d % 2 := by
    refine edge_sum hs hgl hF _ _ fun i hi j hj => ?_
    obtain ⟨c, hc, -⟩ := hgl m.errors[i] (List.getElem_mem i.2) (possible hF i hi)
    have h1 := (belongs_iff hc _).1 hj
    rw [whole hc] at h1
    rw [ends_count h1]
  rw [this]

end

theorem perm_of_connects {u : Nat} {t : Option Nat} {ds ds' : List Nat} (h : connects u t ds) (h' : connects u t ds') : ds.Perm ds' := by
  match ds, ds' with
  | [a], [a'] =>
    rcases h with ⟨rfl, rfl⟩ | ⟨-, h2⟩
    · rcases h' with ⟨rfl, -⟩ | ⟨-, h2⟩
      · exact .refl _
      · cases h2
    · cases h2
  | [a], [a', b'] =>
    rcases h with ⟨rfl, rfl⟩ | ⟨-, h2⟩
    · rcases h' with ⟨-, h2⟩ | ⟨h1, h2⟩
      · cases h2
      · cases h1
    · cases h2
  | [a, b], [a'] =>
    rcases h' with ⟨rfl, rfl⟩ | ⟨-, h2⟩
    · rcases h with ⟨-, h2⟩ | ⟨h1, h2⟩
      · cases h2
      · cases h1
    · cases h2
  | [a, b], [a', b'] =>
    rcases h with ⟨rfl, rfl⟩ | ⟨rfl, h2⟩
    · rcases h' with ⟨rfl, h2⟩ | ⟨h1, h2⟩
      · cases h2; exact .refl _
      · cases h1; cases h2; exact .swap _ _ _
    · cases h2
      rcases h' with ⟨rfl, h2⟩ | ⟨h1, h2⟩
      · cases h2; exact .swap _ _ _
      · cases h1; cases h2; exact .refl _
  | [], _ => cases h
  | _ :: _ :: _ :: _, _ => cases h
  | [_], [] => cases h'
  | [_, _], [] => cases h'
  | [_], _ :: _ :: _ :: _ => cases h'
  | [_, _], _ :: _ :: _ :: _ => cases h'

/-- C56 (what a set of edges stands for).  If errors between the same detectors flip the same observables, the observables that the errors `F`
flip are those of the edges that they use. -/
theorem C56_observables (m : Model ℝ) (hv : Valid m) (hgl : Graphlike m) (hco : Consistent m) (F : Happened m) (hF : chance m F ≠ 0) (k : Nat) :
    crossed (pattern (load mergeWeights llr m) F) k % 2 = flipsObs m F k % 2 := by
  have hs := start m hv
  set g := load mergeWeights llr m
  refine edge_sum hs hgl hF _ _ fun i hi j hj => ?_
  have h0 := possible hF i hi
  obtain ⟨c, hc, -⟩ := hgl m.errors[i] (List.getElem_mem i.2) h0
  have h1 := (belongs_iff hc _).1 hj
  rw [whole hc] at h1
  obtain ⟨x, xs, h2, h3, -⟩ := contributed hs (e := g.edges[j]) (List.getElem_mem j.2)
  obtain ⟨e', he', h0', y, hy, hcon, rfl⟩ := DemCorr.contribution_mem (m := m) (c := x) (by rw [h2]; simp)
  obtain ⟨c', hc', -⟩ := hgl e' he' h0'
  rw [hc', List.mem_singleton] at hy
  subst hy
  rw [h3, whole hc']
  rw [whole hc'] at hcon
  exact hco e' he' _ (List.getElem_mem i.2) h0' h0 (perm_of_connects hcon h1) k

/-- C56.  Load a model whose errors each have one or two detectors, and decode any detection events, after any earlier use of the decoder.  The call
ends.  If it returns, there are errors `F` that could have happened and that flip exactly the detectors of the events, such that no other such errors
use edges that are more likely, up to the factor `exp (1 / scale)` per edge that rounding costs.  The predictions are those of the edges that `F` uses;
if errors between the same detectors flip the same observables, they are what `F` flips.  The returned weight, scaled back, is the logarithm of
how much less likely these edges are than none at all, up to rounding.  If the call raises, no errors of the model explain the events. -/
theorem C56_most_likely (m : Model ℝ) (hv : Valid m) (hgl : Graphlike m) (P : Prepared ℝ) (sg : Graph.SGraph)
    (hP : prepareFull (load mergeWeights llr m) = some (P, sg)) (S : Full) (hS : UsedFull P.mg sg P.bnd P.mask S) (events : List Nat)
    (hnd : events.Nodup) (hev : ∀ d ∈ events, d < m.numDets) :
    (∃ S' buf w, Completes (fun f => decodeObs P.mg sg P.bnd P.mask f S events (List.replicate m.numObs 0#8) 0) (.ok (S', buf, w)) ∧
      ∃ F : Happened m, 0 < chance m F ∧ (∀ d, d ∈ events ↔ flips m F d % 2 = 1) ∧
        (∀ F' : Happened m, 0 < chance m F' → (∀ d, d ∈ events ↔ flips m F' d % 2 = 1) →
          likelihood m (pattern (load mergeWeights llr m) F') ≤ likelihood m (pattern (load mergeWeights llr m) F) *
            Real.exp (((pattern (load mergeWeights llr m) F).card + (pattern (load mergeWeights llr m) F').card : Nat) / P.scale)) ∧
        Predicts m.numObs buf (crossed (pattern (load mergeWeights llr m) F)) ∧ (Consistent m → Predicts m.numObs buf (flipsObs m F)) ∧
        |(w : ℝ) / P.scale - Real.log (likelihood m (∅ : Choice (load mergeWeights llr m)) / likelihood m (pattern (load mergeWeights llr m) F))| ≤
          (pattern (load mergeWeights llr m) F).card / P.scale) ∨
    (∃ S', Completes (fun f => decodeObs P.mg sg P.bnd P.mask f S events (List.replicate m.numObs 0#8) 0) (.throws S') ∧
      ∀ F : Happened m, 0 < chance m F → ¬ ∀ d, d ∈ events ↔ flips m F d % 2 = 1) := by
  have hs := start m hv
  have e := load_eq m (fun e he => (hv e he).1.1)
  have hcov := covered hs hv
  have hP' := hP
  rw [e] at hP' hcov
  have hmain := C49_any_number_of_fault_ids_partial mergeWeights _ _ _ P sg hP' hcov S hS events hnd
  have hp : ∃ P', prepare (load mergeWeights llr m) = some P' ∧ P'.scale = P.scale := by
    unfold prepareFull at hP
    cases hp : prepare (load mergeWeights llr m) with
    | none => rw [hp] at hP; cases hP
    | some P' =>
      refine ⟨P', rfl, ?_⟩
      rw [hp] at hP
      simp only at hP
      cases hc : convert (load mergeWeights llr m) with
      | none => rw [hc] at hP; cases hP
      | some ik =>
        rw [hc] at hP
        obtain ⟨ins, k⟩ := ik
        simp only at hP
        cases hr : runS (Graph.SGraph.empty (load mergeWeights llr m).nodes.length) (ins.map Props.Convert.toGraphIns) with
        | none => rw [hr] at hP; cases hP
        | some s' => rw [hr] at hP; cases hP; rfl
  obtain ⟨P1, hp1, hsc⟩ := hp
  rw [e] at hp1
  have hround := C48_rounding_error mergeWeights _ _ _ P1 hp1
  rw [hsc] at hround
  rw [← e] at hmain hround
  set g := load mergeWeights llr m
  rw [hs.nodes, hs.numObs] at hmain
  rcases hmain hev with ⟨S', buf, w, hcomp, hbest⟩ | ⟨S', hcomp, hno⟩
  · refine .inl ⟨S', buf, w, hcomp, ?_⟩
    obtain ⟨C, ⟨hex, hmin⟩, hw, hl, hk⟩ := hbest (noGain hs)
    obtain ⟨hpos, hC⟩ := likelihood_weight hs hv hgl C
    have hnn : ∀ F : Happened m, 0 ≤ chance m F := fun F => Finset.prod_nonneg fun i _ => by
      have := (hv m.errors[i] (List.getElem_mem i.2)).1
      split_ifs <;> linarith [this.1, this.2]
    obtain ⟨F, hF, hpat⟩ : ∃ F : Happened m, 0 < chance m F ∧ pattern g F = C := by
      by_contra hcon
      push Not at hcon
      refine absurd hpos (not_lt.2 (Finset.sum_nonpos fun F hF => ?_))
      by_contra h
      exact hcon F (not_le.1 h) (Finset.mem_filter.1 hF).2
    subst hpat
    refine ⟨F, hF, (C56_detectors m hv hgl F hF.ne' events).1 hex, ?_, ⟨hl, hk⟩, ?_, ?_⟩
    · intro F' hF' hsym
      have hex' := (C56_detectors m hv hgl F' hF'.ne' events).2 hsym
      have h1 := (hround (pattern g F) (pattern g F')).2.2.1 (hmin _ hex')
      rw [hC, (likelihood_weight hs hv hgl (pattern g F')).2, mul_assoc, ← Real.exp_add]
      refine mul_le_mul_of_nonneg_left (Real.exp_le_exp.2 ?_) (likelihood_weight hs hv hgl _).1.le
      linarith
    · intro hco
      refine ⟨hl, fun k hk' => ?_⟩
      rw [← C56_observables m hv hgl hco F hF.ne' k]
      exact hk k hk'
    · have h1 := (hround (pattern g F) (pattern g F)).2.1
      rw [hw] at h1
      have h2 : Real.log (likelihood m (∅ : Choice g) / likelihood m (pattern g F)) = trueWeight (pattern g F) := by
        rw [hC]
        have := (likelihood_weight hs hv hgl (∅ : Choice g)).1
        rw [← div_div, div_self this.ne', one_div, ← Real.exp_neg, neg_neg, Real.log_exp]
      rw [h2]
      exact h1
  · refine .inr ⟨S', hcomp, fun F hF hsym => ?_⟩
    exact hno _ ((C56_detectors m hv hgl F hF.ne' events).2 hsym)

/-- C56 (the decoder can be built).  Every model gives a decoder, unless a probability is so close to 0 or 1 that a weight exceeds 2^24 - 1. -/
theorem C56_decoder_exists (m : Model ℝ) (hv : Valid m) (hw : ∀ e ∈ (load mergeWeights llr m).edges, |e.weight| ≤ (2 ^ 24 - 1 : Nat)) :
    ∃ P sg, prepareFull (load mergeWeights llr m) = some (P, sg) := by
  have h := start m hv
  set g := load mergeWeights llr m
  have hconst : normConst g numDistinctWeights ≠ none := by
    rw [Ne, (Discretise.C19_constant g numDistinctWeights).1]
    push Not
    refine ⟨?_, ?_⟩
    · intro e he r hr
      rw [h.plain e he] at hr
      cases hr
    · intro w hw'
      unfold Discretise.allWeights at hw'
      rw [List.mem_flatMap] at hw'
      obtain ⟨e, he, hw'⟩ := hw'
      rcases List.mem_cons.1 hw' with rfl | hw'
      · exact hw e he
      · rw [h.plain e he] at hw'; cases hw'
  obtain ⟨c, hc⟩ := Option.ne_none_iff_exists'.1 hconst
  obtain ⟨ins, k, hconv⟩ : ∃ ins k, convert g = some (ins, k) := by
    unfold convert
    rw [hc]
    exact ⟨_, _, rfl⟩
  have hcov := covered h hv
  obtain ⟨mg, hrun⟩ := Props.Convert.accepted_of_wf h.wf hconv (by
    by_cases hle : 64 < g.numObs
    · exact .inl hle
    · exact .inr fun e he o ho => by have := hcov e he o ho; omega)
  obtain ⟨sg, hsg⟩ := runS_exists hrun
  obtain ⟨c', -, -, φ, hO, -⟩ := origin_from h.wf h.bndOk hconv hrun
  have hno : mg.numObs = g.numObs := (Graph.built_run (Graph.built_empty _ _) hrun).nobs
  obtain ⟨mk, hmk⟩ := Edges.obsMask_some mg.numObs (mg.negObs.sort (· ≤ ·)) (by
    intro hle o hmem
    have := Edges.negObs_range hrun (by
      intro op hop o ho
      obtain ⟨i, hi, rfl⟩ := List.getElem_of_mem hop
      have := hO.obs ⟨i, hi⟩
      exact hcov _ (List.getElem_mem (φ ⟨i, hi⟩).2) o (by rw [← Fin.getElem_fin, ← this]; exact ho)) o ((Finset.mem_sort _).1 hmem)
    omega)
  have hp : prepare g = some ⟨mg, boundaryFlags g, mk, k⟩ := by
    unfold prepare negMaskOf
    rw [hconv]
    simp only [hrun, hmk]
  refine ⟨⟨mg, boundaryFlags g, mk, k⟩, sg, ?_⟩
  unfold prepareFull
  rw [hp, hconv]
  simp only [hsg]

/-- Two detectors, each with an error of its own, and two parallel errors between them; only the first error flips the observable. -/
noncomputable def sample : Model ℝ :=
  ⟨[⟨1 / 10, [.det 0, .obs 0]⟩, ⟨1 / 10, [.det 0, .det 1]⟩, ⟨1 / 10, [.det 1]⟩, ⟨1 / 5, [.det 1, .det 0]⟩], 2, 1⟩

theorem sample_mem {e : Err ℝ} (he : e ∈ sample.errors) : e = ⟨1 / 10, [.det 0, .obs 0]⟩ ∨ e = ⟨1 / 10, [.det 0, .det 1]⟩ ∨ e = ⟨1 / 10, [.det 1]⟩ ∨
    e = ⟨1 / 5, [.det 1, .det 0]⟩ := by
  simpa [sample] using he

theorem sample_components : components (⟨1 / 10, [.det 0, .obs 0]⟩ : Err ℝ) = [([0], [0])] ∧ components (⟨1 / 10, [.det 0, .det 1]⟩ : Err ℝ) = [([0, 1], [])] ∧
    components (⟨1 / 10, [.det 1]⟩ : Err ℝ) = [([1], [])] ∧ components (⟨1 / 5, [.det 1, .det 0]⟩ : Err ℝ) = [([1, 0], [])] := by
  refine ⟨?_, ?_, ?_, ?_⟩ <;> rw [← segs_components] <;> rfl

theorem sample_valid : Valid sample := by
  intro e he
  rcases sample_mem he with rfl | rfl | rfl | rfl <;> refine ⟨by norm_num, fun d hd => ?_, fun o ho => ?_⟩ <;> simp [sample] at * <;> omega

theorem sample_graphlike : Graphlike sample := by
  intro e he _
  obtain ⟨h1, h2, h3, h4⟩ := sample_components
  rcases sample_mem he with rfl | rfl | rfl | rfl
  · exact ⟨_, h1, by simp⟩
  · exact ⟨_, h2, by simp⟩
  · exact ⟨_, h3, by simp⟩
  · exact ⟨_, h4, by simp⟩

theorem sample_consistent : Consistent sample := by
  intro e he e' he' _ _ hp k
  rcases sample_mem he with rfl | rfl | rfl | rfl <;> rcases sample_mem he' with rfl | rfl | rfl | rfl <;> simp [detsOf, obsOf] at hp ⊢

theorem sample_weights : ∀ e ∈ (load mergeWeights llr sample).edges, |e.weight| ≤ (2 ^ 24 - 1 : Nat) := by
  intro e he
  obtain ⟨c, cs, h1, -, h3, h4⟩ := contributed (start sample sample_valid) he
  obtain ⟨e1, e2, e3, e4⟩ := sample_components
  have hprob : e.prob = 1 / 10 ∨ e.prob = 13 / 50 := by
    rw [h3, ← h1]
    obtain ⟨e', he', h0, x, hx, hcon, -⟩ := DemCorr.contribution_mem (m := sample) (c := c) (by rw [h1]; simp)
    have hpair : (e.node1 = 0 ∧ e.node2 = none) ∨ (e.node1 = 1 ∧ e.node2 = none) ∨ (e.node1 = 0 ∧ e.node2 = some 1) ∨ (e.node1 = 1 ∧ e.node2 = some 0) := by
      rcases sample_mem he' with rfl | rfl | rfl | rfl
      · rw [e1, List.mem_singleton] at hx; subst hx
        rcases hcon with ⟨k1, k2⟩ | ⟨-, k2⟩
        · exact .inl ⟨k1, k2⟩
        · cases k2
      · rw [e2, List.mem_singleton] at hx; subst hx
        rcases hcon with ⟨k1, k2⟩ | ⟨k1, k2⟩
        · exact .inr (.inr (.inl ⟨k1, k2⟩))
        · exact .inr (.inr (.inr ⟨(Option.some.inj k2).symm, k1⟩))
      · rw [e3, List.mem_singleton] at hx; subst hx
        rcases hcon with ⟨k1, k2⟩ | ⟨-, k2⟩
        · exact .inr (.inl ⟨k1, k2⟩)
        · cases k2
      · rw [e4, List.mem_singleton] at hx; subst hx
        rcases hcon with ⟨k1, k2⟩ | ⟨k1, k2⟩
        · exact .inr (.inr (.inr ⟨k1, k2⟩))
        · exact .inr (.inr (.inl ⟨(Option.some.inj k2).symm, k1⟩))
    unfold contributions sample
    simp only [List.flatMap_cons, List.flatMap_nil, List.append_nil, e1, e2, e3, e4]
    rw [if_neg (by norm_num), if_neg (by norm_num)]
    rcases hpair with ⟨k1, k2⟩ | ⟨k1, k2⟩ | ⟨k1, k2⟩ | ⟨k1, k2⟩ <;> rw [k1, k2]
    · left; simp [connects, samePair, MergeWeights.oddOf]
    · left; simp [connects, samePair, MergeWeights.oddOf]
    · right; simp [connects, samePair, MergeWeights.oddOf]; norm_num
    · right; simp [connects, samePair, MergeWeights.oddOf]; norm_num
  have hb : ∀ q : ℝ, 1 ≤ (1 - q) / q → (1 - q) / q ≤ 10 → |llr q| ≤ (2 ^ 24 - 1 : Nat) := by
    intro q h5 h6
    unfold llr
    rw [abs_of_nonneg (Real.log_nonneg h5)]
    refine le_trans (Real.log_le_sub_one_of_pos (by linarith)) ?_
    push_cast
    linarith
  rw [h4]
  rcases hprob with h | h <;> rw [h] <;> refine hb _ ?_ ?_ <;> norm_num

/-- The hypotheses of `C56_decoder_exists`, `C56_detectors`, `C56_observables` and `C56_most_likely` hold for the sample (with events `[0]`, say). -/
example : Valid sample ∧ Graphlike sample ∧ Consistent sample ∧ ∃ P sg, prepareFull (load mergeWeights llr sample) = some (P, sg) ∧
    UsedFull P.mg sg P.bnd P.mask Full.init ∧ 0 < chance sample ∅ := by
  obtain ⟨P, sg, h⟩ := C56_decoder_exists sample sample_valid sample_weights
  refine ⟨sample_valid, sample_graphlike, sample_consistent, P, sg, h, .fresh, Finset.prod_pos fun i _ => ?_⟩
  rw [if_neg (by simp)]
  have := (sample_valid sample.errors[i] (List.getElem_mem i.2)).1
  linarith [this.2]

/-- In the sample, events at both detectors have two explanations: an error between them (the likelihood of that edge alone is
0.9 * 0.9 * 0.26), or one error at each (0.1 * 0.1 * 0.74). -/
example : ∀ d, d ∈ [0, 1] ↔ flips sample {⟨0, by simp [sample]⟩, ⟨2, by simp [sample]⟩} d % 2 = 1 := by
  intro d
  have : flips sample {⟨0, by simp [sample]⟩, ⟨2, by simp [sample]⟩} d = (if d = 0 then 1 else 0) + (if d = 1 then 1 else 0) := by
    unfold flips
    rw [Finset.sum_pair (by simp)]
    simp only [sample, detsOf]
    simp only [List.getElem_cons_zero, Fin.getElem_fin, List.getElem_cons_succ, List.filterMap_cons, List.filterMap_nil, List.count_singleton, beq_iff_eq]
    congr 1 <;> exact if_congr eq_comm rfl rfl
  rw [this]
  rcases d with _ | _ | d <;> simp

end Verif.Props.Likelihood
