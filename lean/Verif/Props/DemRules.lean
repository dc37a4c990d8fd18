import Verif.Props.DemSession
import Verif.Props.DemCorr

/-!
# C81: the network of a detector error model that is loaded with correlations
-/

namespace Verif.Props.DemRules

open Verif Verif.SB Verif.UG Verif.Obj Verif.Dbl Verif.ObjD Verif.Session Verif.Dem
open Verif.Props.UserEdges Verif.Props.UserGraph
open Verif.Props.DoubleHistory
open Verif.Props.Dem (components connects multiplicity fires Accepted GraphLike jointFold)
open Verif.Props.Session (Rule Link Net Clean netOf toLink Stands)
open Verif.Props.MatrixSession (placeAll Adds place_calls forall2_flatMap)
open Verif.Props.Edges (Completes)
open Verif.Sch (Res)
open Verif.Props.DemSession (demLinks linkOf placed)

/-! ## Specification -/

/-- What can be loaded with correlations: an error that never happens; or one that is not more likely than one half, all of whose components have one or two detectors, or that has no
detectors at all. -/
def Loadable (e : Err ℚ) : Prop :=
  e.p ≤ 1 / 2 ∧ (e.p = 0 ∨ (∀ c ∈ components e, c.1.length = 1 ∨ c.1.length = 2) ∨ (components e).map Prod.fst = [[]])

instance (e : Err ℚ) : Decidable (Loadable e) := by unfold Loadable; infer_instance

/-- No two components of the error have the same detectors. -/
def Once (e : Err ℚ) : Prop := ((components e).map fun c => (c.1 : Multiset Nat)).Nodup

instance (e : Err ℚ) : Decidable (Once e) := by unfold Once; infer_instance

/-- The link with its ends in increasing order. -/
def sorted (l : Link) : Link :=
  match l.b with
  | none => l
  | some b => { l with a := min l.a b, b := some (max l.a b) }

/-- The error can happen, and the link is one of its components. -/
def Has (e : Err ℚ) (l : Link) : Prop := e.p ≠ 0 ∧ ∃ c ∈ components e, connects l.a l.b c.1

instance (e : Err ℚ) (l : Link) : Decidable (Has e l) := by unfold Has; infer_instance

/-- The probabilities of independent errors combined, one after the other, as the arithmetic does it. -/
def combined (A : Arith ℚ) (ps : List ℚ) : ℚ := ps.foldl A.xor 0

/-- The probability that an odd number of independent errors happens. -/
def odd : List ℚ → ℚ
  | [] => 0
  | p :: ps => p * (1 - odd ps) + odd ps * (1 - p)

/-- The probabilities of the errors that both links are components of. -/
def shared (m : Model ℚ) (l l' : Link) : List ℚ := (m.errors.filter fun e => Has e l ∧ Has e l').map Err.p

/-- The rules of a link: for each other link that shares an error with it, the weight of the conditional probability of that link, which counts as one half if it is more than that.
(There are none if the arithmetic gives zero as the probability of the link, which it does not do without rounding.) -/
def rulesFor (A : Arith ℚ) (lg : ℚ → ℚ) (m : Model ℚ) (N : Net) (l : Link) : Finset Rule :=
  ((N.links.filter fun l' => ¬ l'.Joins l.a l.b ∧ shared m l l' ≠ [] ∧ combined A (shared m l l) ≠ 0).map fun l' =>
    (⟨l'.a, l'.b, lg (min (1 / 2) (A.div (combined A (shared m l l')) (combined A (shared m l l))))⟩ : Rule)).toFinset

/-- The network of a model that is loaded with correlations; `none`: an exception. -/
def corrNet (A : Arith ℚ) (mergeW : ℚ → ℚ → ℚ) (lg : ℚ → ℚ) (m : Model ℚ) : Option Net :=
  if ∀ e ∈ m.errors, Loadable e then
    (placeAll mergeW .independent ⟨m.numDets, [], ∅, m.numObs⟩ ((demLinks lg m).map sorted)).map fun N =>
      { N with links := N.links.map fun l => { l with rules := rulesFor A lg m N l } }
  else none

/-- What the weights of likelihoods are like: probabilities up to one half have weights that are not negative, and merging does not make them negative. -/
structure Sensible (mergeW : ℚ → ℚ → ℚ) (lg : ℚ → ℚ) : Prop where
  weight : ∀ p, 0 < p → p ≤ 1 / 2 → 0 ≤ lg p
  merge : ∀ a b, 0 ≤ a → 0 ≤ b → 0 ≤ mergeW a b

/-! ## Lemmas -/

theorem loadable_iff (e : Err ℚ) : Loadable e ↔ Accepted e := by
  unfold Loadable Accepted GraphLike
  refine and_congr_right fun _ => or_congr_right (or_congr_right ⟨fun h => ?_, ?_⟩)
  · obtain ⟨⟨ds, os⟩, h1, h2⟩ := List.map_eq_singleton_iff.1 h
    simp only at h2
    subst h2
    exact ⟨os, h1⟩
  · rintro ⟨o, h⟩
    rw [h]
    rfl

theorem joins_same (l : Link) (a : Nat) (b : Option Nat) : l.Joins a b ↔ samePair l.a l.b a b := Iff.rfl

/-- Where links end up when they are placed. -/
theorem place_ends (mergeW : ℚ → ℚ → ℚ) (s : Strategy) : ∀ (ls : List Link) {N N' : Net}, placeAll mergeW s N ls = some N' →
    (∀ l ∈ N.links ++ ls, ∃ l' ∈ N'.links, l'.Joins l.a l.b) ∧
    ∀ l' ∈ N'.links, ∃ l ∈ N.links ++ ls, l'.a = l.a ∧ l'.b = l.b ∧ l'.rules = l.rules := by
  intro ls
  induction ls with
  | nil =>
    intro N N' h
    cases h
    exact ⟨fun l hl => ⟨l, by simpa using hl, .inl ⟨rfl, rfl⟩⟩, fun l hl => ⟨l, by simpa using hl, rfl, rfl, rfl⟩⟩
  | cons l ls ih =>
    intro N N' h
    have hc : ∀ (old : Link), (Session.combine mergeW old l s).a = old.a ∧ (Session.combine mergeW old l s).b = old.b ∧ (Session.combine mergeW old l s).rules = old.rules := by
      intro old
      cases s <;> simp only [Session.combine] <;> try trivial
      split <;> exact ⟨rfl, rfl, rfl⟩
    unfold placeAll at h
    generalize hp : N.place mergeW l s = r at h
    obtain ⟨N1, rep⟩ := r
    cases rep <;> try cases h
    simp only at h
    obtain ⟨k1, k2⟩ := ih h
    unfold Net.place at hp
    split at hp
    · rename_i hex
      split at hp
      · cases hp
      · simp only [Prod.mk.injEq, and_true] at hp
        subst hp
        simp only at k1 k2
        have hmap : ∀ x ∈ N.links, ∃ y ∈ N.links.map (fun l' => if l'.Joins l.a l.b then Session.combine mergeW l' l s else l'), y.a = x.a ∧ y.b = x.b := by
          intro x hx
          refine ⟨_, List.mem_map_of_mem hx, ?_⟩
          split
          · exact ⟨(hc x).1, (hc x).2.1⟩
          · exact ⟨rfl, rfl⟩
        refine ⟨fun x hx => ?_, fun x hx => ?_⟩
        · rcases List.mem_append.1 hx with hx | hx
          · obtain ⟨y, hy, e1, e2⟩ := hmap x hx
            obtain ⟨z, hz, hj⟩ := k1 y (List.mem_append_left _ hy)
            exact ⟨z, hz, by rw [← e1, ← e2]; exact hj⟩
          · rcases List.mem_cons.1 hx with rfl | hx
            · obtain ⟨x0, hx0, hj0⟩ := hex
              obtain ⟨y, hy, e1, e2⟩ := hmap x0 hx0
              obtain ⟨z, hz, hj⟩ := k1 y (List.mem_append_left _ hy)
              refine ⟨z, hz, ?_⟩
              rw [joins_same, samePair_iff_key] at hj hj0 ⊢
              rw [hj0, ← e1, ← e2, hj]
            · exact k1 x (List.mem_append_right _ hx)
        · obtain ⟨y, hy, e1, e2, e3⟩ := k2 x hx
          rcases List.mem_append.1 hy with hy | hy
          · obtain ⟨z, hz, rfl⟩ := List.mem_map.1 hy
            refine ⟨z, List.mem_append_left _ hz, ?_⟩
            rw [e1, e2, e3]
            split
            · exact hc z
            · exact ⟨rfl, rfl, rfl⟩
          · exact ⟨y, by simp [hy], e1, e2, e3⟩
    · simp only [Prod.mk.injEq, and_true] at hp
      subst hp
      simp only [List.append_assoc, List.singleton_append] at k1 k2
      exact ⟨k1, k2⟩

/-- In increasing order. -/
def Ordered (l : Link) : Prop := key l.a l.b = (l.a, l.b)

theorem sorted_key (l : Link) : key l.a l.b = ((sorted l).a, (sorted l).b) := by
  unfold sorted key
  cases h : l.b with
  | none => simp [h]
  | some b => simp

theorem sorted_ordered (l : Link) : Ordered (sorted l) := by
  have := Dem.key_fst_snd l.a l.b
  rw [sorted_key l] at this
  exact this

theorem sorted_rules (l : Link) : (sorted l).rules = l.rules := by
  unfold sorted
  split <;> rfl

theorem adds_of (lg : ℚ → ℚ) (m : Model ℚ) (hn : ∀ e ∈ m.errors, ∀ c ∈ components e, c.2.Nodup) :
    List.Forall₂ (Adds .independent) (Dem.callsOf' lg m.errors) ((demLinks lg m).map sorted) := by
  unfold demLinks
  rw [List.map_flatMap]
  refine forall2_flatMap fun e he => ?_
  split_ifs
  · exact .nil
  · have hn := hn e he
    generalize components e = cs at hn
    induction cs with
    | nil => exact .nil
    | cons c cs ih =>
      have ih := ih fun c hc => hn c (by simp [hc])
      have hc := hn c (by simp)
      obtain ⟨ds, os⟩ := c
      match ds with
      | [] => rw [List.filterMap_cons_none (by rfl), List.filterMap_cons_none (by rfl)]; exact ih
      | [a] => rw [List.filterMap_cons_some (by rfl), List.filterMap_cons_some (by rfl)]; exact .cons ⟨rfl, os, hc, rfl, rfl⟩ ih
      | [a, b] => rw [List.filterMap_cons_some (by rfl), List.filterMap_cons_some (by rfl)]; exact .cons ⟨rfl, os, hc, rfl, rfl⟩ ih
      | a :: b :: c :: l => rw [List.filterMap_cons_none (by rfl), List.filterMap_cons_none (by rfl)]; exact ih

theorem odd_eq (l : List ℚ) : MergeWeights.oddOf l = odd l := by
  induction l with
  | nil => simp [MergeWeights.oddOf, odd]
  | cons p l ih =>
    rw [odd, ← ih]
    unfold MergeWeights.oddOf
    rw [List.map_cons, List.prod_cons]
    ring

theorem connects_set {u : Nat} {t : Option Nat} {ds ds' : List Nat} (h : connects u t ds) (h' : connects u t ds') : (ds : Multiset Nat) = ds' := by
  have key : ∀ ds : List Nat, connects u t ds → ((ds = [u] ∧ t = none) ∨ ∃ v, t = some v ∧ (ds = [u, v] ∨ ds = [v, u])) := by
    intro ds h
    match ds with
    | [] => exact h.elim
    | [a] =>
      rcases h with ⟨rfl, rfl⟩ | ⟨h, h1⟩
      · exact .inl ⟨rfl, rfl⟩
      · cases h1
    | [a, b] =>
      rcases h with ⟨rfl, rfl⟩ | ⟨rfl, h1⟩
      · exact .inr ⟨b, rfl, .inl rfl⟩
      · cases h1
        exact .inr ⟨a, rfl, .inr rfl⟩
    | a :: b :: c :: l => exact h.elim
  rcases key _ h with ⟨rfl, rfl⟩ | ⟨v, rfl, h1⟩ <;> rcases key _ h' with ⟨rfl, h2⟩ | ⟨v', h2, h3⟩ <;> try (cases h2)
  · rfl
  · rcases h1 with rfl | rfl <;> rcases h3 with rfl | rfl <;> first | rfl | exact Multiset.coe_eq_coe.2 (List.Perm.swap ..)

theorem mult_le {e : Err ℚ} (h : Once e) (u : Nat) (t : Option Nat) : multiplicity u t e ≤ 1 := by
  unfold Dem.multiplicity
  split
  · omega
  · unfold Once at h
    by_contra hc
    obtain ⟨x, y, l, hl⟩ : ∃ x y l, (components e).filter (fun c => decide (connects u t c.1)) = x :: y :: l := by
      match hm : (components e).filter (fun c => decide (connects u t c.1)) with
      | [] => rw [hm] at hc; simp at hc
      | [x] => rw [hm] at hc; simp at hc
      | x :: y :: l => exact ⟨x, y, l, hm⟩
    have hall : ∀ z ∈ x :: y :: l, connects u t z.1 := by
      intro z hz
      rw [← hl, List.mem_filter, decide_eq_true_iff] at hz
      exact hz.2
    have hx := hall x (by simp)
    have hy := hall y (by simp)
    have hs : (((components e).filter (fun c => decide (connects u t c.1))).map fun c => (c.1 : Multiset Nat)).Nodup :=
      h.sublist ((List.filter_sublist).map _)
    rw [hl] at hs
    simp only [List.map_cons, List.nodup_cons, List.mem_cons] at hs
    exact hs.1 (.inl (connects_set hx hy))

theorem has_iff {e : Err ℚ} (l : Link) : Has e l ↔ 0 < multiplicity l.a l.b e := by
  unfold Has Dem.multiplicity
  split
  · rename_i h
    simp [h]
  · rename_i h
    rw [List.length_pos_iff_exists_mem]
    simp [h]

theorem shared_eq {m : Model ℚ} (ho : ∀ e ∈ m.errors, Once e) (l l' : Link) : fires l.a l.b l'.a l'.b m.errors = shared m l l' := by
  rw [Dem.fires_of_distinct _ _ _ _ _ fun e he => ⟨mult_le (ho e he) _ _, mult_le (ho e he) _ _⟩]
  unfold shared
  congr 1
  refine List.filter_congr fun e he => ?_
  have h1 := mult_le (ho e he) l.a l.b
  have h2 := mult_le (ho e he) l'.a l'.b
  rw [decide_eq_decide, has_iff, has_iff]
  omega

theorem fires_link {lg : ℚ → ℚ} {m : Model ℚ} {u : Nat} {t : Option Nat} {u' : Nat} {t' : Option Nat} (h : fires u t u' t' m.errors ≠ []) :
    ∃ l ∈ demLinks lg m, samePair u' t' l.a l.b := by
  have : ∃ e ∈ m.errors, multiplicity u t e * multiplicity u' t' e ≠ 0 := by
    by_contra hc
    push Not at hc
    apply h
    unfold fires
    rw [List.flatMap_eq_nil_iff]
    intro e he
    rw [hc e he]; rfl
  obtain ⟨e, he, hne⟩ := this
  have h2 : multiplicity u' t' e ≠ 0 := (Nat.mul_ne_zero_iff.1 hne).2
  unfold Dem.multiplicity at h2
  split at h2
  · exact absurd rfl h2
  · rename_i h0
    obtain ⟨c, hc⟩ := List.length_pos_iff_exists_mem.1 (Nat.pos_of_ne_zero h2)
    rw [List.mem_filter, decide_eq_true_iff] at hc
    obtain ⟨hc, hcon⟩ := hc
    obtain ⟨ds, os⟩ := c
    match ds with
    | [] => exact hcon.elim
    | [a] =>
      refine ⟨⟨a, none, os.toFinset, lg e.p, e.p, ∅⟩, ?_, hcon⟩
      exact List.mem_flatMap.2 ⟨e, he, by rw [if_neg h0]; exact List.mem_filterMap.2 ⟨_, hc, rfl⟩⟩
    | [a, b] =>
      refine ⟨⟨a, some b, os.toFinset, lg e.p, e.p, ∅⟩, ?_, hcon⟩
      exact List.mem_flatMap.2 ⟨e, he, by rw [if_neg h0]; exact List.mem_filterMap.2 ⟨_, hc, rfl⟩⟩
    | a :: b :: c :: l => exact hcon.elim

theorem links_rules (lg : ℚ → ℚ) (m : Model ℚ) : ∀ l ∈ demLinks lg m, l.rules = ∅ := by
  intro l hl
  obtain ⟨e, -, hl⟩ := List.mem_flatMap.1 hl
  split at hl
  · cases hl
  · obtain ⟨c, -, hc⟩ := List.mem_filterMap.1 hl
    unfold linkOf at hc
    split at hc <;> cases hc <;> rfl

/-- Loading with correlations. -/
theorem corr_stands (A : Arith ℚ) (mergeW : ℚ → ℚ → ℚ) (lg : ℚ → ℚ) (m : Model ℚ) (hn : ∀ e ∈ m.errors, ∀ c ∈ components e, c.2.Nodup) (ho : ∀ e ∈ m.errors, Once e) :
    (∃ N g, corrNet A mergeW lg m = some N ∧ loadCorr mergeW lg m A = some g ∧ Stands N false False g (ObjectD.of g false)) ∨
    (corrNet A mergeW lg m = none ∧ loadCorr mergeW lg m A = none) := by
  unfold corrNet
  by_cases hA : ∀ e ∈ m.errors, Loadable e
  swap
  · right
    rw [if_neg hA]
    refine ⟨rfl, (Dem.loadCorr_none A m).2 ?_⟩
    push Not at hA
    obtain ⟨e, he, h⟩ := hA
    exact ⟨e, he, fun h' => h ((loadable_iff e).2 h')⟩
  left
  rw [if_pos hA]
  have hA' : ∀ e ∈ m.errors, Accepted e := fun e he => (loadable_iff e).1 (hA e he)
  obtain ⟨h, hh, hl⟩ := Dem.loadCorr_any (mw := mergeW) (lg := lg) A m hA'
  simp only at hl
  have hN0 : netOf (UGraph.new m.numDets m.numObs) = ⟨m.numDets, [], ∅, m.numObs⟩ := by simp [netOf, UGraph.new]
  rcases place_calls mergeW .independent (adds_of lg m hn) (g := UGraph.new m.numDets m.numObs) (wf_new _ _) (fun e he => by cases he) with ⟨-, h4, h5, h6⟩ | ⟨-, h⟩
  swap
  · exact (placed _ _ _ h).elim
  have hB : Props.Convert.BndOk (UserGraph.run mergeW (UGraph.new m.numDets m.numObs) (Dem.callsOf' lg m.errors)) :=
    Props.Convert.bndOk_run mergeW (Props.Convert.bndOk_new _ _) _
  generalize UserGraph.run mergeW (UGraph.new m.numDets m.numObs) (Dem.callsOf' lg m.errors) = g at *
  rw [hN0] at h6
  obtain ⟨p1, p2⟩ := place_ends mergeW .independent _ h6
  simp only [List.nil_append] at p1 p2
  have hord : ∀ l ∈ (netOf g).links, Ordered l ∧ l.rules = ∅ := by
    intro l hl
    obtain ⟨l', hl', e1, e2, e3⟩ := p2 l hl
    obtain ⟨l0, hl0, rfl⟩ := List.mem_map.1 hl'
    refine ⟨?_, by rw [e3, sorted_rules, links_rules lg m l0 hl0]⟩
    have := sorted_ordered l0
    unfold Ordered at this ⊢
    rw [e1, e2]
    exact this
  have himp : ∀ e ∈ g.edges, e.implied = [] := by
    intro e he
    have := (hord (toLink e) (List.mem_map_of_mem he)).2
    simp only [toLink, List.toFinset_eq_empty_iff, List.map_eq_nil_iff] at this
    exact this
  rw [h6]
  refine ⟨_, _, rfl, hl, ?_, ?_, ?_, ?_, invD_of _ _, fun h => by cases h⟩
  · exact DemCorr.wf_map h4 fun e => ⟨(hh e).1, (hh e).2.1⟩
  · exact hB
  · intro e he
    obtain ⟨e0, he0, rfl⟩ := List.mem_map.1 he
    rw [(hh e0).2.2.1]
    exact h5 e0 he0
  · have hmap : ((g.edges.map h).map toLink) = (netOf g).links.map fun l => { l with rules := rulesFor A lg m (netOf g) l } := by
      unfold netOf
      simp only [List.map_map]
      refine List.map_congr_left fun e he => ?_
      obtain ⟨k1, k2, k3, k4, k5, rs, k6, k7⟩ := hh e
      rw [himp e he, List.nil_append] at k7
      have hset : (rs.map fun r => (⟨r.node1, r.node2, r.weight⟩ : Rule)).toFinset = rulesFor A lg m (netOf g) (toLink e) := by
        obtain ⟨rs', q1, q2, -⟩ := Dem.impliedFor_any (lg := lg) A m.errors hA' e.node1 e.node2
        have hs := Dem.impliedFor_sorted k6
        rw [show impliedFor lg (jointFold m.errors A) (key e.node1 e.node2) A = some rs from k6] at q1
        cases q1
        ext r
        unfold rulesFor
        simp only [List.mem_toFinset, List.mem_map, List.mem_filter, decide_eq_true_eq]
        constructor
        · rintro ⟨i, hi, rfl⟩
          obtain ⟨a1, a2, a4, a3⟩ := (q2 i.node1 i.node2 i.weight).1 ⟨i, hi, .inl ⟨rfl, rfl⟩, rfl⟩
          obtain ⟨l, hl1, hl2⟩ := fires_link (lg := lg) a2
          obtain ⟨l', hl'1, hl'2⟩ := p1 (sorted l) (List.mem_map_of_mem hl1)
          rw [samePair_iff_key, hs i hi, sorted_key] at hl2
          rw [joins_same, samePair_iff_key, sorted_ordered l, (hord l' hl'1).1, hl2] at hl'2
          simp only [Prod.mk.injEq] at hl'2
          obtain ⟨b1, b2⟩ := hl'2
          have hsh := shared_eq ho (toLink e) l'
          rw [← b1, ← b2] at hsh
          have hoo := shared_eq ho (toLink e) (toLink e)
          refine ⟨l', ⟨hl'1, ?_, ?_, ?_⟩, ?_⟩
          · rw [joins_same, ← b1, ← b2]
            intro hc
            apply a1
            rw [samePair_iff_key] at hc ⊢
            exact hc.symm
          · rw [← hsh]; exact a2
          · rw [← hoo]; exact a4
          · rw [← hsh, ← hoo, ← b1, ← b2]
            exact congrArg (fun w => (⟨i.node1, i.node2, w⟩ : Rule)) a3.symm
        · rintro ⟨l', ⟨hl'1, hl'2, hl'3, hl'4⟩, rfl⟩
          rw [← shared_eq ho] at hl'3 hl'4
          obtain ⟨i, hi, hi1, hi2⟩ := (q2 l'.a l'.b _).2 ⟨fun hc => hl'2 (by
            rw [joins_same]
            rw [samePair_iff_key] at hc ⊢
            exact hc.symm), hl'3, hl'4, rfl⟩
          refine ⟨i, hi, ?_⟩
          rw [samePair_iff_key, hs i hi, (hord l' hl'1).1] at hi1
          simp only [Prod.mk.injEq] at hi1
          rw [← shared_eq ho, ← shared_eq ho, hi2]
          exact congrArg₂ (fun a b => (⟨a, b, _⟩ : Rule)) hi1.1.symm hi1.2.symm
      simp only [Function.comp, toLink, k1, k2, k3, k4, k5, k7]
      congr 1
    unfold netOf
    rw [show (g.edges.map h).map toLink = _ from hmap]
    rfl

theorem odd_range : ∀ ps : List ℚ, (∀ p ∈ ps, 0 < p ∧ p ≤ 1 / 2) → 0 ≤ odd ps ∧ odd ps ≤ 1 / 2 ∧ (ps ≠ [] → 0 < odd ps) := by
  intro ps
  induction ps with
  | nil => intro _; exact ⟨le_refl _, by norm_num [odd], fun h => absurd rfl h⟩
  | cons p ps ih =>
    intro h
    obtain ⟨h1, h2, -⟩ := ih fun p hp => h p (by simp [hp])
    obtain ⟨h3, h4⟩ := h p (by simp)
    simp only [odd]
    refine ⟨by nlinarith, by nlinarith [mul_nonneg (sub_nonneg.2 h2) (sub_nonneg.2 h4)], fun _ => by nlinarith⟩

theorem mem_numbers (N : Net) (w : ℚ) : w ∈ N.numbers ↔ ∃ l ∈ N.links, w = l.weight ∨ ∃ r ∈ l.rules, r.weight = w := by
  simp [Net.numbers]

theorem combined_exact (ps : List ℚ) : combined .exact ps = odd ps := by
  rw [← odd_eq]
  exact Dem.all_exact ps

/-- What placing keeps. -/
theorem place_kept (mergeW : ℚ → ℚ → ℚ) : ∀ (ls : List Link) {N N' : Net}, placeAll mergeW .independent N ls = some N' →
    (∀ l ∈ N.links, ∀ k ∈ l.faults, k < N.ids) → N'.boundary = N.boundary ∧ ∀ l ∈ N'.links, ∀ k ∈ l.faults, k < N'.ids := by
  intro ls
  induction ls with
  | nil => intro N N' h hN; cases h; exact ⟨rfl, hN⟩
  | cons l ls ih =>
    intro N N' h hN
    unfold placeAll at h
    generalize hp : N.place mergeW l .independent = r at h
    obtain ⟨N1, rep⟩ := r
    cases rep <;> try cases h
    simp only at h
    have key : N1.boundary = N.boundary ∧ ∀ l ∈ N1.links, ∀ k ∈ l.faults, k < N1.ids := by
      unfold Net.place at hp
      split at hp
      · simp only [reduceCtorEq, if_false, Prod.mk.injEq, and_true] at hp
        subst hp
        refine ⟨rfl, fun x hx => ?_⟩
        obtain ⟨y, hy, rfl⟩ := List.mem_map.1 hx
        split <;> exact hN y hy
      · simp only [Prod.mk.injEq, and_true] at hp
        subst hp
        refine ⟨rfl, fun x hx => ?_⟩
        rcases List.mem_append.1 hx with hx | hx
        · exact fun k hk => lt_of_lt_of_le (hN x hx k hk) (le_max_left _ _)
        · obtain rfl := List.mem_singleton.1 hx
          exact fun k hk => lt_of_lt_of_le (Nat.lt_succ_self k) (le_trans (Finset.le_sup (f := (· + 1)) hk) (le_max_right _ _))
    obtain ⟨e1, e2⟩ := ih h key.2
    exact ⟨by rw [e1, key.1], e2⟩

theorem place_nonneg {mergeW : ℚ → ℚ → ℚ} (hm : ∀ a b, 0 ≤ a → 0 ≤ b → 0 ≤ mergeW a b) : ∀ (ls : List Link) {N N' : Net}, placeAll mergeW .independent N ls = some N' →
    (∀ l ∈ ls, 0 ≤ l.weight) → (∀ l ∈ N.links, 0 ≤ l.weight) → ∀ l ∈ N'.links, 0 ≤ l.weight := by
  intro ls
  induction ls with
  | nil => intro N N' h _ hN; cases h; exact hN
  | cons l ls ih =>
    intro N N' h hl hN
    unfold placeAll at h
    generalize hp : N.place mergeW l .independent = r at h
    obtain ⟨N1, rep⟩ := r
    cases rep <;> try cases h
    simp only at h
    refine ih h (fun l h => hl l (by simp [h])) ?_
    have h0 := hl l (by simp)
    unfold Net.place at hp
    split at hp
    · simp only [reduceCtorEq, if_false, Prod.mk.injEq, and_true] at hp
      subst hp
      intro x hx
      obtain ⟨y, hy, rfl⟩ := List.mem_map.1 hx
      split
      · exact hm _ _ h0 (hN y hy)
      · exact hN y hy
    · simp only [Prod.mk.injEq, and_true] at hp
      subst hp
      intro x hx
      rcases List.mem_append.1 hx with hx | hx
      · exact hN x hx
      · rw [List.mem_singleton.1 hx]; exact h0

/-! ## Theorems -/

section
variable (A : Arith ℚ) (m : Model ℚ) (mergeW : ℚ → ℚ → ℚ) (lg : ℚ → ℚ)

/-- C81: `Matching.from_detector_error_model(model, enable_correlations=True)`, followed by any proper program.  Either the model is refused, or the object stands for the network of the
model, with rules for conditional probabilities, and the program gets right replies, about the network of that moment; questions may be asked with or without correlations (see C69).
The arithmetic for probabilities may be any. -/
theorem C81_program (hn : ∀ e ∈ m.errors, ∀ c ∈ components e, c.2.Nodup) (ho : ∀ e ∈ m.errors, Once e) : (corrNet A mergeW lg m = none ∧ loadCorr mergeW lg m A = none) ∨
    ∃ N g, corrNet A mergeW lg m = some N ∧ loadCorr mergeW lg m A = some g ∧ ∀ prog, Session.ProperProgram mergeW N False prog →
      ∃ replies o, Completes (fun f => Session.run mergeW f (ObjectD.of g false) prog) (.ok (replies, o)) ∧
        List.Forall₂ (fun (x : Net × Stmt) r => Session.Right mergeW false x.1 x.2 r) (Session.moments mergeW N prog) replies := by
  rcases corr_stands A mergeW lg m hn ho with ⟨N, g, h1, h2, h3⟩ | h
  · exact .inr ⟨N, g, h1, h2, fun prog h => Session.program_core (W := unbounded) mergeW prog _ _ _ _ _ h3 h fun x _ => Session.works_of x.1 x.2⟩
  · exact .inl h

/-- C81 for the library as compiled, with its 32-bit wrapped radius. -/
theorem C81_program_int32 (hn : ∀ e ∈ m.errors, ∀ c ∈ components e, c.2.Nodup) (ho : ∀ e ∈ m.errors, Once e) : (corrNet A mergeW lg m = none ∧ loadCorr mergeW lg m A = none) ∨
    ∃ N g, corrNet A mergeW lg m = some N ∧ loadCorr mergeW lg m A = some g ∧ ∀ prog, Session.ProperProgram mergeW N False prog →
      (∀ x ∈ Session.moments mergeW N prog, Session.Asks x.2 → x.1.Small) →
      ∃ replies o, Completes (fun f => Session.run (W := int32) mergeW f (ObjectD.of g false) prog) (.ok (replies, o)) ∧
        List.Forall₂ (fun (x : Net × Stmt) r => Session.Right mergeW false x.1 x.2 r) (Session.moments mergeW N prog) replies := by
  rcases corr_stands A mergeW lg m hn ho with ⟨N, g, h1, h2, h3⟩ | h
  · exact .inr ⟨N, g, h1, h2, fun prog h hs => Session.program_core (W := int32) mergeW prog _ _ _ _ _ h3 h fun x hx => Session.works_small (hs x hx)⟩
  · exact .inl h

/-- C81: the model is refused exactly if one of its errors is: if it is more likely than one half, or if it can happen and has a component without detectors next to others, or with more
than two. -/
theorem C81_refused : corrNet A mergeW lg m = none ↔ ∃ e ∈ m.errors, ¬ Loadable e := by
  unfold corrNet
  split_ifs with hA
  · refine ⟨fun h => ?_, fun ⟨e, he, h⟩ => absurd (hA e he) h⟩
    rw [Option.map_eq_none_iff] at h
    exact (placed _ _ _ h).elim
  · push Not at hA
    exact ⟨fun _ => hA, fun _ => rfl⟩

/-- C81: the network of a model may be asked about, with correlations, if weights are in range and not negative, and no component has the same detector twice. -/
theorem C81_ready (hl : ∀ e ∈ m.errors, ∀ c ∈ components e, ∀ d, c.1 ≠ [d, d]) {N : Net} (hN : corrNet A mergeW lg m = some N)
    (few : N.links.length < 2 ^ 38) (le : ∀ w ∈ N.numbers, |w| ≤ 2 ^ 24 - 1) (big : Session.Whole N ∨ ∃ w ∈ N.numbers, 1 / 2 ^ 998 ≤ |w|)
    (hw : ∀ w ∈ N.numbers, 0 ≤ w) : N.Ready true := by
  have hw1 : ∀ l ∈ N.links, 0 ≤ l.weight ∧ ∀ r ∈ l.rules, 0 ≤ r.weight := by
    intro l hl
    exact ⟨hw _ ((mem_numbers _ _).2 ⟨l, hl, .inl rfl⟩), fun r hr => hw _ ((mem_numbers _ _).2 ⟨l, hl, .inr ⟨r, hr, rfl⟩⟩)⟩
  unfold corrNet at hN
  split_ifs at hN with hA
  obtain ⟨N0, h0, rfl⟩ := Option.map_eq_some_iff.1 hN
  have hloop : ∀ l ∈ (demLinks lg m).map sorted, ∀ v, l.b = some v → v ≠ l.a := by
    intro l hl'
    obtain ⟨l0, hl0, rfl⟩ := List.mem_map.1 hl'
    obtain ⟨e, he, hl0⟩ := List.mem_flatMap.1 hl0
    split at hl0
    · cases hl0
    · obtain ⟨c, hc, hl0⟩ := List.mem_filterMap.1 hl0
      have hll := hl e he c hc
      obtain ⟨ds, os⟩ := c
      match ds with
      | [] => cases hl0
      | [a] => cases hl0; exact fun v h => by cases h
      | [a, b] =>
        cases hl0
        intro v h
        have hab : a ≠ b := fun h => hll a (by rw [h])
        simp only [sorted, Option.some.injEq] at h ⊢
        subst h
        omega
      | a :: b :: c :: l => cases hl0
  obtain ⟨-, p2⟩ := place_ends mergeW .independent _ h0
  obtain ⟨q1, q2⟩ := place_kept mergeW _ h0 (fun l hl => by cases hl)
  simp only at q1
  have hne : ∀ l ∈ N0.links, ∀ v, l.b = some v → v ≠ l.a := by
    intro l hl v hv
    obtain ⟨l', hl', e1, e2, -⟩ := p2 l hl
    rw [e1]
    exact hloop l' (by simpa using hl') v (by rw [← e2]; exact hv)
  refine ⟨⟨few, ?_, le, big, fun i j _ x _ _ => add_nonneg (hw1 _ (List.getElem_mem _)).1 (hw1 _ (List.getElem_mem _)).1, fun l hl _ _ => (hw1 l hl).1, ?_⟩, fun _ l hl => (hw1 l hl).1⟩
  · intro l hl
    obtain ⟨l', hl', rfl⟩ := List.mem_map.1 hl
    exact q2 l' hl'
  · intro l hl r hr
    have hr0 := (hw1 l hl).2 r hr
    obtain ⟨l0, hl0, rfl⟩ := List.mem_map.1 hl
    simp only [rulesFor, List.mem_toFinset, List.mem_map, List.mem_filter, decide_eq_true_eq] at hr
    obtain ⟨l', ⟨hl', -⟩, rfl⟩ := hr
    refine ⟨by rw [q1]; simp, fun v hv => ⟨by rw [q1]; simp, hne l' hl' v hv⟩, _, List.mem_map_of_mem hl', .inl ⟨rfl, rfl⟩, ?_⟩
    exact mul_nonneg (hw1 _ (List.mem_map_of_mem hl')).1 hr0

/-- C81: no weight is negative, if the logarithm and the merging of weights are sensible, and without rounding of probabilities. -/
theorem C81_nonneg (hp : ∀ e ∈ m.errors, 0 ≤ e.p) (hs : Sensible mergeW lg) {N : Net} (hN : corrNet .exact mergeW lg m = some N) : ∀ w ∈ N.numbers, 0 ≤ w := by
  unfold corrNet at hN
  split_ifs at hN with hA
  obtain ⟨N0, h0, rfl⟩ := Option.map_eq_some_iff.1 hN
  have hpos : ∀ l ∈ (demLinks lg m).map sorted, 0 ≤ l.weight := by
    intro l hl'
    obtain ⟨l0, hl0, rfl⟩ := List.mem_map.1 hl'
    obtain ⟨e, he, hl0⟩ := List.mem_flatMap.1 hl0
    split at hl0
    · cases hl0
    · rename_i hne
      obtain ⟨c, hc, hl0⟩ := List.mem_filterMap.1 hl0
      have hpos := hs.weight e.p (lt_of_le_of_ne (hp e he) (Ne.symm hne)) (hA e he).1
      obtain ⟨ds, os⟩ := c
      match ds with
      | [] => cases hl0
      | [a] => cases hl0; exact hpos
      | [a, b] => cases hl0; exact hpos
      | a :: b :: c :: l => cases hl0
  have q2 := place_nonneg hs.merge _ h0 hpos (fun l hl => by cases hl)
  intro w hw
  obtain ⟨l, hl, hw⟩ := (mem_numbers _ _).1 hw
  obtain ⟨l0, hl0, rfl⟩ := List.mem_map.1 hl
  rcases hw with rfl | ⟨r, hr, rfl⟩
  · exact q2 l0 hl0
  · simp only [rulesFor, List.mem_toFinset, List.mem_map, List.mem_filter, decide_eq_true_eq] at hr
    obtain ⟨l', ⟨hl', -, hsh, -⟩, rfl⟩ := hr
    refine hs.weight _ ?_ (min_le_left _ _)
    have hrange : ∀ l1 l2 : Link, ∀ p ∈ shared m l1 l2, 0 < p ∧ p ≤ 1 / 2 := by
      intro l1 l2 p hp'
      obtain ⟨e, he, rfl⟩ := List.mem_map.1 hp'
      obtain ⟨he, hh⟩ := List.mem_filter.1 he
      exact ⟨lt_of_le_of_ne (hp e he) (Ne.symm (of_decide_eq_true hh).1.1), (hA e he).1⟩
    have hown : shared m l0 l0 ≠ [] := by
      intro h
      obtain ⟨p, hp'⟩ := List.exists_mem_of_ne_nil _ hsh
      obtain ⟨e, he, -⟩ := List.mem_map.1 hp'
      obtain ⟨he, hh⟩ := List.mem_filter.1 he
      have hh := (of_decide_eq_true hh).1
      have : e.p ∈ shared m l0 l0 := List.mem_map_of_mem (List.mem_filter.2 ⟨he, decide_eq_true ⟨hh, hh⟩⟩)
      rw [h] at this
      cases this
    rw [combined_exact, combined_exact]
    exact lt_min (by norm_num) (div_pos ((odd_range _ (hrange _ _)).2.2 hsh) ((odd_range _ (hrange _ _)).2.2 hown))

end

/-! ## Examples -/

/-- Two errors with two components each, and one that shares a component with both; weights that are easy to compute. -/
def three : Model ℚ := ⟨[⟨1 / 10, [.det 0, .obs 0, .sep, .det 2, .det 1]⟩, ⟨1 / 5, [.det 0, .obs 0]⟩, ⟨1 / 4, [.det 1, .sep, .det 0, .obs 0]⟩], 3, 1⟩

def easy (p : ℚ) : ℚ := if p < 1 / 3 then 3 else 0

/-- The network: the boundary link of detector 0 takes part in all three errors. -/
def threeNet : Net :=
  ⟨3, [⟨0, none, {0}, 3, 19 / 50, {⟨1, some 2, 3⟩, ⟨1, none, 0⟩}⟩, ⟨1, some 2, ∅, 3, 1 / 10, {⟨0, none, 0⟩}⟩, ⟨1, none, ∅, 3, 1 / 4, {⟨0, none, 0⟩}⟩], ∅, 1⟩

theorem three_net : corrNet .exact (fun a _ => a) easy three = some threeNet := by decide +kernel

theorem three_probs : ∀ e ∈ three.errors, 0 ≤ e.p := by decide +kernel
theorem three_nodup : ∀ e ∈ three.errors, ∀ c ∈ components e, c.2.Nodup := by decide +kernel
theorem three_once : ∀ e ∈ three.errors, Once e := by decide +kernel
theorem three_loops : ∀ e ∈ three.errors, ∀ c ∈ components e, ∀ d, c.1 ≠ [d, d] := by
  have : ∀ e ∈ three.errors, ∀ c ∈ components e, c.1.Nodup := by decide +kernel
  intro e he c hc d h
  have := this e he c hc
  rw [h] at this
  simp at this

theorem easy_sensible : Sensible (fun a _ => a) easy := ⟨fun p _ _ => by unfold easy; split <;> norm_num, fun _ _ h _ => h⟩

theorem three_ready : threeNet.Ready true :=
  C81_ready _ three _ _ three_loops three_net (by decide) (by decide +kernel)
    (.inr ⟨3, by decide +kernel, le_trans (div_le_one_of_le₀ (one_le_pow₀ (by norm_num)) (by positivity)) (by norm_num)⟩)
    (C81_nonneg three _ _ three_probs easy_sensible three_net)

example := C81_program .exact three (fun a _ => a) easy three_nodup three_once
example := C81_program_int32 .exact three (fun a _ => a) easy three_nodup three_once

/-- A proper program that asks with correlations. -/
example : Session.ProperProgram (fun a _ => a) threeNet False [.decode (.d1 [1, 1, 1]) true true, .decodeToEdgesArray (.d1 [1, 0, 0]) true, .decode (.d1 [1, 1, 1]) true false] := by
  refine Session.proper_step (N' := threeNet) rfl three_ready fun _ => ?_
  refine Session.proper_step (N' := threeNet) rfl three_ready fun _ => ?_
  exact Session.proper_step (N' := threeNet) rfl ⟨three_ready.1, fun h => by cases h⟩ fun _ => trivial

/-- Models that are refused: an error that is too likely, and one with three detectors. -/
example : corrNet .exact (fun a _ => a) easy ⟨[⟨3 / 5, [.det 0]⟩], 1, 0⟩ = none ∧ corrNet .exact (fun a _ => a) easy ⟨[⟨1 / 5, [.det 0, .det 1, .det 2]⟩], 3, 0⟩ = none := by decide +kernel

end Verif.Props.DemRules
