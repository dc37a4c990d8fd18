import Verif.Search
import Mathlib.Algebra.Ring.Parity
import Mathlib.Algebra.BigOperators.Group.List.Lemmas

/-!
# Properties of edge-level decoding (C24)
-/

namespace Verif.Props.EdgeMarks

open Verif Verif.Graph Verif.Sch

/-! ## Specification -/

/-- A simple graph: at most one edge per pair, the boundary edge comes first, every edge is stored at both ends. -/
structure Simple (g : SGraph) : Prop where
  nodup : ∀ (u : Nat) (l : List SNbr), g.nodes[u]? = some l → (l.map (·.target)).Nodup
  bfirst : ∀ u i n, nbr g u i = some n → n.target = none → i = 0
  sym : ∀ u i n v, nbr g u i = some n → n.target = some v →
    v ≠ u ∧ ∃ j n', nbr g v j = some n' ∧ n'.target = some u ∧ n'.weight = n.weight ∧ n'.obs = n.obs

/-- Do two (directed) edges denote the same edge of the graph?  `none` is the boundary. -/
def sameEdge : Nat × Option Nat → Nat × Option Nat → Bool
  | (u, none), (u', none) => u = u'
  | (u, some v), (u', some v') => (u = u' ∧ v = v') ∨ (u = v' ∧ v = u')
  | _, _ => false

/-- Is `e` an edge of the graph? -/
def IsEdge (g : SGraph) (e : Nat × Option Nat) : Prop := ∃ i n, nbr g e.1 i = some n ∧ n.target = e.2

/-- How often an edge occurs in a list (in either orientation). -/
def occurrences (e : Nat × Option Nat) (l : List (Nat × Option Nat)) : Nat := l.countP (sameEdge e)

/-- The endpoint of a slot. -/
def slotEdge (g : SGraph) (e : Nat × Nat) : Option (Nat × Option Nat) := (nbr g e.1 e.2).map fun n => (e.1, n.target)

/-- Number of ends of `e` at `x`. -/
def ends (x : Nat) : Nat × Option Nat → Nat
  | (u, none) => if u = x then 1 else 0
  | (u, some v) => (if u = x then 1 else 0) + if v = x then 1 else 0

/-! ## Helper lemmas -/

def key : Nat × Option Nat → Nat × Option Nat
  | (u, none) => (u, none)
  | (u, some v) => (min u v, some (max u v))

theorem sameEdge_iff (e e' : Nat × Option Nat) : sameEdge e e' = true ↔ key e = key e' := by
  obtain ⟨u, t⟩ := e
  obtain ⟨u', t'⟩ := e'
  cases t <;> cases t' <;> simp [sameEdge, key]
  omega

theorem mem_slot {g : SGraph} {u i : Nat} {n : SNbr} : nbr g u i = some n ↔ ∃ l, g.nodes[u]? = some l ∧ l[i]? = some n := by
  unfold nbr
  cases g.nodes[u]? <;> simp

theorem slot_unique {g : SGraph} (h : Simple g) {u i j : Nat} {n n' : SNbr} (h1 : nbr g u i = some n) (h2 : nbr g u j = some n')
    (ht : n.target = n'.target) : i = j := by
  obtain ⟨l, hl, hi⟩ := mem_slot.1 h1
  obtain ⟨l', hl', hj⟩ := mem_slot.1 h2
  rw [hl] at hl'
  cases hl'
  have hn := h.nodup u l hl
  have e1 : (l.map (·.target))[i]? = some n.target := by simp [hi]
  have e2 : (l.map (·.target))[j]? = some n.target := by simp [hj, ht]
  obtain ⟨hi', e1'⟩ := List.getElem?_eq_some_iff.1 e1
  obtain ⟨hj', e2'⟩ := List.getElem?_eq_some_iff.1 e2
  exact (List.Nodup.getElem_inj_iff hn).1 (e1'.trans e2'.symm)

theorem indexOf_eq {g : SGraph} (h : Simple g) {u i : Nat} {n : SNbr} (h1 : nbr g u i = some n) :
    indexOf g u n.target = .ok i := by
  obtain ⟨l, hl, hi⟩ := mem_slot.1 h1
  unfold indexOf
  rw [hl]
  simp only
  cases hf : l.findIdx? (fun m => m.target == n.target) with
  | none =>
    rw [List.findIdx?_eq_none_iff] at hf
    have := hf n (List.mem_of_getElem? hi)
    simp at this
  | some j =>
    obtain ⟨hj, hp, -⟩ := List.findIdx?_eq_some_iff_getElem.1 hf
    have : j = i := slot_unique h (mem_slot.2 ⟨l, hl, List.getElem?_eq_getElem hj⟩) h1 (by simpa using hp)
    rw [this]

/-- The marks agree with a parity per edge. -/
structure Agree (g : SGraph) (m : Marks) (P : Nat × Option Nat → Bool) : Prop where
  slot : ∀ u i n, nbr g u i = some n → m u i = P (key (u, n.target))
  out : ∀ u i, nbr g u i = none → m u i = false

def flipAt (P : Nat × Option Nat → Bool) (k : Nat × Option Nat) : Nat × Option Nat → Bool :=
  fun k' => if k' = k then !P k' else P k'

theorem flipEdge_spec {g : SGraph} (h : Simple g) {m : Marks} {P : Nat × Option Nat → Bool} (ha : Agree g m P) {u i : Nat}
    {n : SNbr} (hs : nbr g u i = some n) :
    ∃ m', flipEdge g m u i = .ok m' ∧ Agree g m' (flipAt P (key (u, n.target))) := by
  unfold flipEdge
  rw [hs]
  simp only
  cases ht : n.target with
  | none =>
    refine ⟨_, rfl, ?_, ?_⟩
    · intro u' i' n' hs'
      unfold toggleMark flipAt
      by_cases hu : u' = u ∧ i' = i
      · obtain ⟨rfl, rfl⟩ := hu
        rw [hs] at hs'
        cases hs'
        rw [if_pos ⟨rfl, rfl⟩, ht, if_pos rfl, ha.slot _ _ _ hs, ht]
      · rw [if_neg hu, if_neg, ha.slot _ _ _ hs']
        intro hk
        have ht' : n'.target = none := by
          cases hn : n'.target with
          | none => rfl
          | some v => rw [hn] at hk; simp [key] at hk
        rw [ht'] at hk
        simp only [key, Prod.mk.injEq, and_true] at hk
        subst hk
        exact hu ⟨rfl, slot_unique h hs' hs (by rw [ht, ht'])⟩
    · intro u' i' hs'
      unfold toggleMark
      rw [if_neg, ha.out _ _ hs']
      rintro ⟨rfl, rfl⟩
      rw [hs] at hs'
      cases hs'
  | some v =>
    obtain ⟨hvu, j, n2, hj, ht2, -, -⟩ := h.sym u i n v hs ht
    have hidx := indexOf_eq h hj
    rw [ht2] at hidx
    simp only [hidx, Res.bind]
    refine ⟨_, rfl, ?_, ?_⟩
    · intro u' i' n' hs'
      unfold toggleMark flipAt
      by_cases hv : u' = v ∧ i' = j
      · obtain ⟨rfl, rfl⟩ := hv
        rw [hj] at hs'
        cases hs'
        rw [if_pos ⟨rfl, rfl⟩, if_neg (by rintro ⟨rfl, -⟩; exact hvu rfl), if_pos, ha.slot _ _ _ hj]
        rw [ht2]
        simp [key]
        omega
      · rw [if_neg hv]
        by_cases hu : u' = u ∧ i' = i
        · obtain ⟨rfl, rfl⟩ := hu
          rw [hs] at hs'
          cases hs'
          rw [if_pos ⟨rfl, rfl⟩, ht, if_pos rfl, ha.slot _ _ _ hs, ht]
        · rw [if_neg hu, if_neg, ha.slot _ _ _ hs']
          intro hk
          cases hn : n'.target with
          | none => rw [hn] at hk; simp [key] at hk
          | some v' =>
            rw [hn] at hk
            simp only [key, Prod.mk.injEq, Option.some.injEq] at hk
            have : (u' = u ∧ v' = v) ∨ (u' = v ∧ v' = u) := by omega
            rcases this with ⟨rfl, rfl⟩ | ⟨rfl, rfl⟩
            · exact hu ⟨rfl, slot_unique h hs' hs (by rw [ht, hn])⟩
            · exact hv ⟨rfl, slot_unique h hs' hj (by rw [ht2, hn])⟩
    · intro u' i' hs'
      unfold toggleMark
      rw [if_neg, if_neg, ha.out _ _ hs']
      · rintro ⟨rfl, rfl⟩
        rw [hs] at hs'
        cases hs'
      · rintro ⟨rfl, rfl⟩
        rw [hj] at hs'
        cases hs'

/-- Flipping a whole list. -/
def flipMany (P : Nat × Option Nat → Bool) (l : List (Nat × Option Nat)) : Nat × Option Nat → Bool :=
  l.foldl (fun P e => flipAt P (key e)) P

theorem flipMany_spec (l : List (Nat × Option Nat)) (P : Nat × Option Nat → Bool) (e : Nat × Option Nat) :
    flipMany P l (key e) = (P (key e) ^^ decide (Odd (occurrences e l))) := by
  induction l generalizing P with
  | nil => simp [flipMany, occurrences]
  | cons x l ih =>
    have : flipMany P (x :: l) = flipMany (flipAt P (key x)) l := rfl
    rw [this, ih]
    unfold occurrences
    rw [List.countP_cons]
    unfold flipAt
    by_cases hk : key e = key x
    · rw [if_pos hk, if_pos ((sameEdge_iff e x).2 hk)]
      by_cases ho : Odd (List.countP (sameEdge e) l)
      · have h2 : ¬ Odd (List.countP (sameEdge e) l + 1) := by
          rw [Nat.odd_add_one]; simpa using ho
        simp [ho, h2]
      · have h2 : Odd (List.countP (sameEdge e) l + 1) := by
          rw [Nat.odd_add_one]; exact ho
        simp [ho, h2]
    · rw [if_neg hk, if_neg (fun h => hk ((sameEdge_iff e x).1 h))]
      simp

theorem addNegative_spec {g : SGraph} (h : Simple g) (l : List (Nat × Option Nat)) (hl : ∀ e ∈ l, IsEdge g e) {m : Marks}
    {P : Nat × Option Nat → Bool} (ha : Agree g m P) :
    ∃ m', addNegative g m l = .ok (m', l) ∧ Agree g m' (flipMany P l) := by
  induction l generalizing m P with
  | nil => exact ⟨m, rfl, ha⟩
  | cons e l ih =>
    obtain ⟨u, t⟩ := e
    obtain ⟨i, n, hs, ht⟩ := hl _ List.mem_cons_self
    simp only at hs ht
    have hidx := indexOf_eq h hs
    rw [ht] at hidx
    obtain ⟨m1, hf, ha1⟩ := flipEdge_spec h ha hs
    rw [ht] at ha1
    obtain ⟨m2, hr, ha2⟩ := ih (fun e he => hl e (List.mem_cons_of_mem _ he)) ha1
    refine ⟨m2, ?_, ha2⟩
    simp only [addNegative, hidx, hf, hr, Res.bind]

theorem addPath_spec {g : SGraph} (h : Simple g) (l : List (Nat × Nat)) (l' : List (Nat × Option Nat))
    (hl : l.mapM (slotEdge g) = some l') {m : Marks} {P : Nat × Option Nat → Bool} (ha : Agree g m P) :
    ∃ m', addPath g m l = .ok (m', l') ∧ Agree g m' (flipMany P l') := by
  induction l generalizing m P l' with
  | nil => simp at hl; subst hl; exact ⟨m, rfl, ha⟩
  | cons e l ih =>
    obtain ⟨u, i⟩ := e
    rw [List.mapM_cons] at hl
    cases hs : nbr g u i with
    | none => simp [slotEdge, hs] at hl
    | some n =>
      cases hr : l.mapM (slotEdge g) with
      | none => simp [slotEdge, hs, hr] at hl
      | some l2 =>
        simp [slotEdge, hs, hr] at hl
        subst hl
        obtain ⟨m1, hf, ha1⟩ := flipEdge_spec h ha hs
        obtain ⟨m2, hr2, ha2⟩ := ih l2 hr ha1
        refine ⟨m2, ?_, ha2⟩
        simp only [addPath, hs, hf, hr2, Res.bind]

theorem cleanup_spec {g : SGraph} (h : Simple g) (P0 : Nat × Option Nat → Bool) (m : Marks) (es : List (Nat × Option Nat)) (i : Nat)
    (hi : i ≤ es.length) (hes : ∀ e ∈ es, IsEdge g e) (P : Nat × Option Nat → Bool) (ha : Agree g m P)
    (hpre : (es.take i).Pairwise fun e e' => key e ≠ key e')
    (hodd : ∀ e ∈ es.take i, P0 (key e) = true)
    (hP : ∀ k, P k = (P0 k && !decide (k ∈ (es.take i).map key)))
    (hrest : ∀ k, P k = true → k ∈ (es.drop i).map key) :
    ∃ m' out, cleanup g m es i = .ok (m', out) ∧ (∀ u j, m' u j = false) ∧ (∀ e ∈ out, e ∈ es) ∧
      (out.Pairwise fun e e' => key e ≠ key e') ∧ ∀ k, k ∈ out.map key ↔ P0 k = true := by
  induction hn : es.length - i using Nat.strong_induction_on generalizing m es i P with
  | _ n ih =>
    rw [cleanup]
    by_cases hlt : i < es.length
    · rw [dif_pos hlt]
      rcases he : es[i] with ⟨u, t⟩
      have hmem : es[i] ∈ es := List.getElem_mem hlt
      obtain ⟨j, nb, hs, ht⟩ := hes _ hmem
      rw [he] at hs ht
      simp only at hs ht
      have hidx : slotOf g u t = .ok j := by
        have := indexOf_eq h hs
        rw [ht] at this
        cases t with
        | none => rw [h.bfirst u j nb hs ht]; rfl
        | some v => exact this
      have hm : m u j = P (key (u, t)) := by rw [ha.slot u j nb hs, ht]
      simp only
      rw [hidx]
      simp only [hs]
      by_cases hmu : m u j = true
      · rw [if_pos hmu]
        obtain ⟨m1, hf, ha1⟩ := flipEdge_spec h ha hs
        rw [ht] at ha1
        rw [hf]
        simp only
        have hP1 : P (key (u, t)) = true := by rw [← hm]; exact hmu
        have htake : es.take (i + 1) = es.take i ++ [(u, t)] := by
          rw [List.take_add_one, List.getElem?_eq_getElem hlt, he]; rfl
        have hnotin : key (u, t) ∉ (es.take i).map key := by
          intro hin
          have := hP (key (u, t))
          rw [hP1, decide_eq_true hin] at this
          simp at this
        refine ih (es.length - (i + 1)) (by omega) m1 es (i + 1) (by omega) hes _ ha1 ?_ ?_ ?_ ?_ rfl
        · rw [htake, List.pairwise_append]
          refine ⟨hpre, List.pairwise_singleton _ _, ?_⟩
          intro a ha' b hb
          simp only [List.mem_singleton] at hb
          subst hb
          intro hk
          exact hnotin (hk ▸ List.mem_map_of_mem ha')
        · intro e he'
          rw [htake] at he'
          rcases List.mem_append.1 he' with h1 | h1
          · exact hodd e h1
          · simp only [List.mem_singleton] at h1
            subst h1
            have := hP (key (u, t))
            rw [hP1] at this
            simp at this
            exact this.1
        · intro k
          rw [htake, List.map_append]
          unfold flipAt
          by_cases hk : k = key (u, t)
          · subst hk
            rw [if_pos rfl, hP1]
            simp
          · rw [if_neg hk, hP k]
            simp [hk]
        · intro k hk
          unfold flipAt at hk
          by_cases hk2 : k = key (u, t)
          · subst hk2
            rw [if_pos rfl, hP1] at hk
            simp at hk
          · rw [if_neg hk2] at hk
            have := hrest k hk
            rw [List.drop_eq_getElem_cons hlt, he] at this
            simp only [List.map_cons, List.mem_cons] at this
            rcases this with h1 | h1
            · exact absurd h1 hk2
            · exact h1
      · rw [if_neg hmu]
        have hne : es ≠ [] := by intro h'; simp [h'] at hlt
        set last := es.getLast hne with hlast
        set es' := (es.set i last).dropLast with hes'
        have hlen : es'.length = es.length - 1 := by simp [hes']
        have hget : ∀ k, k < es'.length → es'[k]? = if k = i then some last else es[k]? := by
          intro k hk
          rw [hes', List.getElem?_dropLast, if_pos (by simp; omega), List.getElem?_set]
          by_cases hki : i = k
          · subst hki; simp [hlt]
          · rw [if_neg hki, if_neg (fun h => hki h.symm)]
        have htake : es'.take i = es.take i := by
          apply List.ext_getElem?
          intro k
          by_cases hk : k < i
          · rw [List.getElem?_take_of_lt hk, List.getElem?_take_of_lt hk, hget k (by omega), if_neg (by omega)]
          · rw [List.getElem?_eq_none (by simp; omega), List.getElem?_eq_none (by simp; omega)]
        have hsub : ∀ e ∈ es', e ∈ es := by
          intro e he'
          have := List.mem_of_mem_dropLast he'
          rcases List.mem_or_eq_of_mem_set this with h1 | h1
          · exact h1
          · rw [h1]; exact List.getLast_mem hne
        have hdrop : ∀ k, P k = true → k ∈ (es'.drop i).map key := by
          intro k hk
          obtain ⟨e, hin, rfl⟩ := List.mem_map.1 (hrest k hk)
          obtain ⟨q, hq, hqe⟩ := List.getElem_of_mem hin
          rw [List.getElem_drop] at hqe
          have hq' : i + q < es.length := by simpa using (by simpa using hq : q < es.length - i) |> fun h => (by omega : i + q < es.length)
          have hq0 : q ≠ 0 := by
            rintro rfl
            simp only [Nat.add_zero] at hqe
            rw [he] at hqe
            rw [← hqe] at hk
            rw [← hm] at hk
            exact hmu hk
          refine List.mem_map_of_mem ?_
          by_cases hq1 : i + q = es.length - 1
          · -- the last element has moved to position `i`
            have hel : e = last := by
              rw [hlast, List.getLast_eq_getElem, ← hqe]
              congr 1
            have : es'[i]? = some e := by rw [hget i (by omega), if_pos rfl, hel]
            have h2 : (es'.drop i)[0]? = some e := by rw [List.getElem?_drop]; simpa using this
            exact List.mem_of_getElem? h2
          · have : es'[i + q]? = some e := by
              rw [hget (i + q) (by omega), if_neg (by omega), List.getElem?_eq_getElem hq', hqe]
            have h2 : (es'.drop i)[q]? = some e := by rw [List.getElem?_drop]; exact this
            exact List.mem_of_getElem? h2
        obtain ⟨m', out, h1, h2, h3, h4, h5⟩ := ih (es'.length - i) (by omega) m es' i (by omega)
          (fun e he' => hes e (hsub e he')) P ha (by rw [htake]; exact hpre) (by rw [htake]; exact hodd)
          (by rw [htake]; exact hP) hdrop rfl
        exact ⟨m', out, h1, h2, fun e he' => hsub e (h3 e he'), h4, h5⟩
    · rw [dif_neg hlt]
      have hti : es.take i = es := List.take_of_length_le (by omega)
      have hdi : es.drop i = [] := List.drop_eq_nil_of_le (by omega)
      rw [hdi] at hrest
      have hPf : ∀ k, P k = false := by
        intro k
        by_contra hk
        have := hrest k (by simpa using hk)
        simp at this
      rw [hti] at hpre hodd hP
      refine ⟨m, es, rfl, ?_, fun _ h => h, hpre, ?_⟩
      · intro u j
        cases hs : nbr g u j with
        | none => exact ha.out u j hs
        | some nb => rw [ha.slot u j nb hs]; exact hPf _
      · intro k
        constructor
        · intro hk
          obtain ⟨e, he, rfl⟩ := List.mem_map.1 hk
          exact hodd e he
        · intro hk
          have := hP k
          rw [hPf, hk] at this
          simpa using this

/-! ## C24 -/

/-- C24.  Whatever negative-weight edges and paths are given, in a simple graph without marks: no exception and no
out-of-range access occurs; the returned edges are pairwise different edges of the graph; an edge is returned iff it
occurs an odd number of times among the negative-weight edges and the path edges together; and no mark is left. -/
theorem C24_edges_of_odd_multiplicity {g : SGraph} (h : Simple g) (neg : List (Nat × Option Nat)) (hneg : ∀ e ∈ neg, IsEdge g e)
    (paths : List (Nat × Nat)) (pathEdges : List (Nat × Option Nat)) (hp : paths.mapM (slotEdge g) = some pathEdges) :
    ∃ out, toEdges g (fun _ _ => false) neg paths = .ok (fun _ _ => false, out) ∧
      (∀ e ∈ out, e ∈ neg ++ pathEdges) ∧
      (out.Pairwise fun e e' => sameEdge e e' = false) ∧
      ∀ e, (∃ e' ∈ out, sameEdge e e' = true) ↔ Odd (occurrences e (neg ++ pathEdges)) := by
  have ha : Agree g (fun _ _ => false) (fun _ => false) := ⟨fun _ _ _ _ => rfl, fun _ _ _ => rfl⟩
  obtain ⟨m1, h1, ha1⟩ := addNegative_spec h neg hneg ha
  obtain ⟨m2, h2, ha2⟩ := addPath_spec h paths pathEdges hp ha1
  have hedge : ∀ e ∈ pathEdges, IsEdge g e := by
    clear h2 ha2
    induction paths generalizing pathEdges with
    | nil => simp at hp; subst hp; simp
    | cons x l ih =>
      rw [List.mapM_cons] at hp
      cases hs : nbr g x.1 x.2 with
      | none => simp [slotEdge, hs] at hp
      | some n =>
        cases hr : l.mapM (slotEdge g) with
        | none => simp [slotEdge, hs, hr] at hp
        | some l2 =>
          simp [slotEdge, hs, hr] at hp
          subst hp
          intro e he
          rcases List.mem_cons.1 he with rfl | he
          · exact ⟨x.2, n, hs, rfl⟩
          · exact ih l2 hr e he
  have hP : ∀ e, flipMany (flipMany (fun _ => false) neg) pathEdges (key e) = decide (Odd (occurrences e (neg ++ pathEdges))) := by
    intro e
    have : flipMany (flipMany (fun _ => false) neg) pathEdges = flipMany (fun _ => false) (neg ++ pathEdges) := by
      simp [flipMany]
    rw [this, flipMany_spec]
    simp
  have hkey : ∀ k : Nat × Option Nat, flipMany (flipMany (fun _ => false) neg) pathEdges k = true → k ∈ (neg ++ pathEdges).map key := by
    have aux : ∀ (l : List (Nat × Option Nat)) (P : Nat × Option Nat → Bool) (k : Nat × Option Nat), flipMany P l k = true →
        P k = true ∨ k ∈ l.map key := by
      intro l
      induction l with
      | nil => intro P k hk; exact .inl hk
      | cons x l ih =>
        intro P k hk
        have : flipMany P (x :: l) = flipMany (flipAt P (key x)) l := rfl
        rw [this] at hk
        rcases ih _ k hk with h1 | h1
        · unfold flipAt at h1
          by_cases hkx : k = key x
          · right; simp [hkx]
          · rw [if_neg hkx] at h1; exact .inl h1
        · right; simp at h1 ⊢; exact .inr h1
    intro k hk
    have : flipMany (flipMany (fun _ => false) neg) pathEdges = flipMany (fun _ => false) (neg ++ pathEdges) := by
      simp [flipMany]
    rw [this] at hk
    rcases aux _ _ k hk with h1 | h1
    · cases h1
    · exact h1
  obtain ⟨m', out, h3, h4, h5, h6, h7⟩ := cleanup_spec h (flipMany (flipMany (fun _ => false) neg) pathEdges) m2
    (neg ++ pathEdges) 0 (by omega)
    (fun e he => (List.mem_append.1 he).elim (hneg e) (hedge e)) _ ha2 (by simp) (by simp) (by simp) (by simpa using hkey)
  refine ⟨out, ?_, h5, ?_, ?_⟩
  · have : m' = fun _ _ => false := by funext u j; exact h4 u j
    unfold toEdges
    simp only [h1, h2, h3, Res.bind, this]
  · refine h6.imp ?_
    intro a b hab
    rw [Bool.eq_false_iff]
    exact fun hs => hab ((sameEdge_iff a b).1 hs)
  · intro e
    have := h7 (key e)
    rw [hP e, decide_eq_true_iff] at this
    rw [← this]
    constructor
    · rintro ⟨e', he, hs⟩
      rw [(sameEdge_iff e e').1 hs]
      exact List.mem_map_of_mem he
    · intro hk
      obtain ⟨e', he, hk'⟩ := List.mem_map.1 hk
      exact ⟨e', he, (sameEdge_iff e e').2 hk'.symm⟩

theorem ends_key (x : Nat) (e e' : Nat × Option Nat) (h : key e = key e') : ends x e = ends x e' := by
  obtain ⟨u, t⟩ := e
  obtain ⟨u', t'⟩ := e'
  cases t <;> cases t' <;> simp [key] at h
  · subst h; rfl
  · rename_i v v'
    have : (u = u' ∧ v = v') ∨ (u = v' ∧ v = u') := by omega
    rcases this with ⟨rfl, rfl⟩ | ⟨rfl, rfl⟩
    · rfl
    · simp [ends]; omega

/-- Two lists in which every edge has the same parity have the same parity of ends everywhere. -/
theorem ends_parity (x : Nat) (l l' : List (Nat × Option Nat)) (h : ∀ e, occurrences e l % 2 = occurrences e l' % 2) :
    (l.map (ends x)).sum % 2 = (l'.map (ends x)).sum % 2 := by
  have hsum : ∀ (l : List (Nat × Option Nat)) (S : Finset (Nat × Option Nat)), (∀ e ∈ l, key e ∈ S) →
      (l.map (ends x)).sum = ∑ k ∈ S, (l.countP fun e => key e = k) * ends x k := by
    intro l
    induction l with
    | nil => intro S _; simp
    | cons a l ih =>
      intro S hS
      rw [List.map_cons, List.sum_cons, ih S (fun e he => hS e (List.mem_cons_of_mem _ he))]
      have ha := hS a List.mem_cons_self
      rw [← Finset.add_sum_erase _ _ ha, ← Finset.add_sum_erase S (fun k => (List.countP (fun e => decide (key e = k)) (a :: l)) * ends x k) ha]
      have hk : key (key a) = key a := by
        obtain ⟨u, t⟩ := a
        cases t
        · rfl
        · simp [key]
      have h2 : ∑ k ∈ S.erase (key a), (List.countP (fun e => decide (key e = k)) (a :: l)) * ends x k =
          ∑ k ∈ S.erase (key a), (List.countP (fun e => decide (key e = k)) l) * ends x k := by
        apply Finset.sum_congr rfl
        intro k hk'
        rw [List.countP_cons, if_neg]
        · rfl
        · simp only [decide_eq_true_eq]
          exact fun h => (Finset.mem_erase.1 hk').1 h.symm
      rw [h2, List.countP_cons, if_pos (by simp), Nat.add_mul, Nat.one_mul, ends_key x (key a) a hk]
      omega
  set S := (l.map key).toFinset ∪ (l'.map key).toFinset with hS
  have h1 : ∀ e ∈ l, key e ∈ S := by
    intro e he; rw [hS]; simp; left; exact ⟨_, _, he, rfl⟩
  have h2 : ∀ e ∈ l', key e ∈ S := by
    intro e he; rw [hS]; simp; right; exact ⟨_, _, he, rfl⟩
  rw [hsum l S h1, hsum l' S h2, Finset.sum_nat_mod, Finset.sum_nat_mod (f := fun k => (l'.countP fun e => key e = k) * ends x k)]
  congr 1
  apply Finset.sum_congr rfl
  intro k hk
  have hkk : ∀ a : List (Nat × Option Nat), ∀ e0, k = key e0 → (a.countP fun e => key e = k) = occurrences e0 a := by
    intro a e0 hk
    unfold occurrences
    congr 1
    funext e
    have := sameEdge_iff e0 e
    rw [hk]
    by_cases hh : key e = key e0
    · rw [this.2 hh.symm]; simpa using hh
    · have : sameEdge e0 e = false := by
        rw [Bool.eq_false_iff]; exact fun hs => hh (this.1 hs).symm
      rw [this]; simpa using hh
  have hex : ∃ e0, k = key e0 := by
    rw [hS] at hk
    rcases Finset.mem_union.1 hk with hk | hk <;>
    · obtain ⟨e, -, he⟩ := List.mem_map.1 (List.mem_toFinset.1 hk)
      exact ⟨e, he.symm⟩
  obtain ⟨e0, hk0⟩ := hex
  rw [hkk l e0 hk0, hkk l' e0 hk0, Nat.mul_mod, h e0, ← Nat.mul_mod]

/-- C24 (syndrome).  The returned edges have, at every node, the same parity of ends as the negative-weight edges and the
paths together: decoding to edges changes no detector's parity. -/
theorem C24_same_syndrome {g : SGraph} (h : Simple g) (neg : List (Nat × Option Nat)) (hneg : ∀ e ∈ neg, IsEdge g e)
    (paths : List (Nat × Nat)) (pathEdges : List (Nat × Option Nat)) (hp : paths.mapM (slotEdge g) = some pathEdges)
    (m : Marks) (out : List (Nat × Option Nat)) (hout : toEdges g (fun _ _ => false) neg paths = .ok (m, out)) (x : Nat) :
    (out.map (ends x)).sum % 2 = ((neg ++ pathEdges).map (ends x)).sum % 2 := by
  obtain ⟨out', h1, -, h3, h4⟩ := C24_edges_of_odd_multiplicity h neg hneg paths pathEdges hp
  rw [h1] at hout
  simp only [Res.ok.injEq, Prod.mk.injEq] at hout
  obtain ⟨-, rfl⟩ := hout
  apply ends_parity
  intro e
  have hle : occurrences e out' ≤ 1 := by
    unfold occurrences
    clear h1 h4
    induction out' with
    | nil => simp
    | cons a l ih =>
      rw [List.pairwise_cons] at h3
      rw [List.countP_cons]
      by_cases ha : sameEdge e a = true
      · rw [if_pos ha]
        have : List.countP (sameEdge e) l = 0 := by
          rw [List.countP_eq_zero]
          intro b hb hs
          have h5 := h3.1 b hb
          rw [Bool.eq_false_iff] at h5
          exact h5 ((sameEdge_iff a b).2 (((sameEdge_iff e a).1 ha).symm.trans ((sameEdge_iff e b).1 hs)))
        omega
      · rw [if_neg ha]
        have := ih h3.2
        omega
  have hiff := h4 e
  have hpos : (∃ e' ∈ out', sameEdge e e' = true) ↔ 0 < occurrences e out' := by
    unfold occurrences
    rw [List.countP_pos_iff]
  rw [hpos, Nat.odd_iff] at hiff
  omega

/-! ## Search graphs built by insertions are simple -/

theorem nbr_push (nodes : List (List SNbr)) (neg : List (Nat × Option Nat)) (u : Nat) (x : SNbr) (a i : Nat) (n : SNbr) :
    nbr ⟨pushBackS nodes u x, neg⟩ a i = some n ↔
      nbr ⟨nodes, neg⟩ a i = some n ∨ (a = u ∧ n = x ∧ ∃ l, nodes[u]? = some l ∧ i = l.length) := by
  simp only [mem_slot, pushBackS]
  rw [List.getElem?_modify]
  by_cases hau : u = a
  · subst hau
    cases hl : nodes[u]? with
    | none => simp
    | some l =>
      simp only [if_true, Option.map_eq_map, Option.map_some, Option.some.injEq, exists_eq_left', true_and]
      rw [List.getElem?_append]
      by_cases hi : i < l.length
      · simp only [hi, if_true]
        constructor
        · exact fun h => .inl h
        · rintro (h | ⟨-, h⟩)
          · exact h
          · omega
      · simp only [hi, if_false, List.getElem?_eq_none (Nat.not_lt.1 hi), reduceCtorEq, false_or]
        by_cases hi2 : i = l.length
        · subst hi2; simp [eq_comm]
        · have : i - l.length ≠ 0 := by omega
          obtain ⟨k, hk⟩ := Nat.exists_eq_succ_of_ne_zero this
          simp [hk, hi2]
  · simp only [if_neg hau, Option.map_eq_map, Option.map_id']
    constructor
    · exact fun h => .inl h
    · rintro (h | ⟨h, -⟩)
      · exact h
      · exact absurd h.symm hau

theorem nodup_push {nodes : List (List SNbr)} {u : Nat} {x : SNbr}
    (h : ∀ (a : Nat) (l : List SNbr), nodes[a]? = some l → (l.map (·.target)).Nodup)
    (hx : ∀ l, nodes[u]? = some l → x.target ∉ l.map (·.target)) (a : Nat) (l : List SNbr)
    (hl : (pushBackS nodes u x)[a]? = some l) : (l.map (·.target)).Nodup := by
  unfold pushBackS at hl
  rw [List.getElem?_modify] at hl
  cases hn : nodes[a]? with
  | none => rw [hn] at hl; cases hl
  | some l0 =>
    rw [hn] at hl
    simp only [Option.map_eq_map, Option.map_some, Option.some.injEq] at hl
    subst hl
    split
    · rename_i hua
      subst hua
      rw [List.map_append, List.nodup_append]
      refine ⟨h u l0 hn, by simp, ?_⟩
      intro b hb c hc
      simp only [List.map_cons, List.map_nil, List.mem_singleton] at hc
      subst hc
      intro hbc
      exact hx l0 hn (hbc ▸ hb)
    · exact h a l0 hn

theorem simple_addEdge {g g' : SGraph} (h : Simple g) (u v : Nat) (w : Int) (obs : List Nat)
    (hok : g.addEdge u v w obs = .ok g') (hnew : ¬ IsEdge g (u, some v)) : Simple g' := by
  unfold SGraph.addEdge at hok
  split at hok
  · cases hok
  · rename_i hlen
    split at hok
    · cases hok; exact h
    · rename_i huv
      simp only [Ins.ok.injEq] at hok
      subst hok
      have hu : u < g.nodes.length := by omega
      have hv : v < g.nodes.length := by omega
      have hnew' : ¬ IsEdge g (v, some u) := by
        rintro ⟨i, n, h1, h2⟩
        obtain ⟨-, j, n', h3, h4, -⟩ := h.sym v i n u h1 h2
        exact hnew ⟨j, n', h3, h4⟩
      have hmem : ∀ a t, ¬ IsEdge g (a, t) → ∀ l, g.nodes[a]? = some l → t ∉ l.map (·.target) := by
        intro a t hne l hl hin
        obtain ⟨n, hn, hnt⟩ := List.mem_map.1 hin
        obtain ⟨i, hi, hie⟩ := List.getElem_of_mem hn
        exact hne ⟨i, n, mem_slot.2 ⟨l, hl, by rw [List.getElem?_eq_getElem hi, hie]⟩, hnt⟩
      have hlu : g.nodes[u]? = some g.nodes[u] := List.getElem?_eq_getElem hu
      have hlv : g.nodes[v]? = some g.nodes[v] := List.getElem?_eq_getElem hv
      have hlv' : (pushBackS g.nodes u ⟨some v, w.natAbs, obs, w < 0⟩)[v]? = some g.nodes[v] := by
        unfold pushBackS
        rw [List.getElem?_modify, hlv]
        simp [huv]
      have hnbr : ∀ a i n, nbr ⟨pushBackS (pushBackS g.nodes u ⟨some v, w.natAbs, obs, w < 0⟩) v ⟨some u, w.natAbs, obs, w < 0⟩,
          if w < 0 then g.negEdges ++ [(u, some v)] else g.negEdges⟩ a i = some n ↔
          nbr g a i = some n ∨ (a = u ∧ n = ⟨some v, w.natAbs, obs, w < 0⟩ ∧ i = g.nodes[u].length) ∨
            (a = v ∧ n = ⟨some u, w.natAbs, obs, w < 0⟩ ∧ i = g.nodes[v].length) := by
        intro a i n
        rw [nbr_push, nbr_push, hlv', hlu]
        have : nbr ⟨g.nodes, if w < 0 then g.negEdges ++ [(u, some v)] else g.negEdges⟩ a i = nbr g a i := rfl
        rw [this]
        simp only [Option.some.injEq, exists_eq_left', or_assoc]
      refine ⟨?_, ?_, ?_⟩
      · intro a l hl
        refine nodup_push (fun a l hl => nodup_push h.nodup (fun l hl => hmem u (some v) hnew l hl) a l hl) ?_ a l hl
        intro l hl
        rw [hlv'] at hl
        cases hl
        exact hmem v (some u) hnew' _ hlv
      · intro a i n hn ht
        rcases (hnbr a i n).1 hn with h1 | ⟨-, rfl, -⟩ | ⟨-, rfl, -⟩
        · exact h.bfirst a i n h1 ht
        · cases ht
        · cases ht
      · intro a i n b hn ht
        rcases (hnbr a i n).1 hn with h1 | ⟨rfl, rfl, -⟩ | ⟨rfl, rfl, -⟩
        · obtain ⟨h2, j, n', h3, h4⟩ := h.sym a i n b h1 ht
          exact ⟨h2, j, n', (hnbr b j n').2 (.inl h3), h4⟩
        · simp only [Option.some.injEq] at ht
          subst ht
          exact ⟨fun h => huv h.symm, _, _, (hnbr _ _ _).2 (.inr (.inr ⟨rfl, rfl, rfl⟩)), rfl, rfl, rfl⟩
        · simp only [Option.some.injEq] at ht
          subst ht
          exact ⟨huv, _, _, (hnbr _ _ _).2 (.inr (.inl ⟨rfl, rfl, rfl⟩)), rfl, rfl, rfl⟩

theorem simple_addBoundaryEdge {g g' : SGraph} (h : Simple g) (u : Nat) (w : Int) (obs : List Nat)
    (hok : g.addBoundaryEdge u w obs = .ok g') (hnew : ¬ IsEdge g (u, none)) : Simple g' := by
  unfold SGraph.addBoundaryEdge at hok
  split at hok
  · cases hok
  · rename_i hlen
    simp only [Ins.ok.injEq] at hok
    subst hok
    have hu : u < g.nodes.length := by omega
    have hnbr : ∀ a i n, nbr ⟨g.nodes.modify u (fun n => ⟨none, w.natAbs, obs, w < 0⟩ :: n),
        if w < 0 then g.negEdges ++ [(u, none)] else g.negEdges⟩ a i = some n ↔
        (a ≠ u ∧ nbr g a i = some n) ∨ (a = u ∧ i = 0 ∧ n = ⟨none, w.natAbs, obs, w < 0⟩) ∨
          (a = u ∧ ∃ k, i = k + 1 ∧ nbr g a k = some n) := by
      intro a i n
      simp only [mem_slot]
      rw [List.getElem?_modify]
      by_cases hua : u = a
      · subst hua
        rw [List.getElem?_eq_getElem hu]
        simp only [if_true, Option.map_eq_map, Option.map_some, Option.some.injEq, exists_eq_left', true_and, ne_eq,
          not_true_eq_false, false_and, false_or]
        cases i with
        | zero => simp [eq_comm]
        | succ k => simp
      · have hau : a ≠ u := fun h => hua h.symm
        simp only [if_neg hua, Option.map_eq_map, Option.map_id', hau, ne_eq, not_false_eq_true, true_and, false_and,
          or_false]
    refine ⟨?_, ?_, ?_⟩
    · intro a l hl
      simp only at hl
      rw [List.getElem?_modify] at hl
      cases hn : g.nodes[a]? with
      | none => rw [hn] at hl; cases hl
      | some l0 =>
        rw [hn] at hl
        simp only [Option.map_eq_map, Option.map_some, Option.some.injEq] at hl
        subst hl
        split
        · rename_i hua
          subst hua
          rw [List.map_cons, List.nodup_cons]
          refine ⟨?_, h.nodup u l0 hn⟩
          intro hin
          obtain ⟨n, hn', hnt⟩ := List.mem_map.1 hin
          obtain ⟨i, hi, hie⟩ := List.getElem_of_mem hn'
          exact hnew ⟨i, n, mem_slot.2 ⟨l0, hn, by rw [List.getElem?_eq_getElem hi, hie]⟩, hnt⟩
        · exact h.nodup a l0 hn
    · intro a i n hn ht
      rcases (hnbr a i n).1 hn with ⟨-, h1⟩ | ⟨-, rfl, -⟩ | ⟨rfl, k, rfl, h1⟩
      · exact h.bfirst a i n h1 ht
      · rfl
      · exact absurd ⟨k, n, h1, ht⟩ hnew
    · intro a i n b hn ht
      have hold : ∃ k, nbr g a k = some n := by
        rcases (hnbr a i n).1 hn with ⟨-, h1⟩ | ⟨-, -, rfl⟩ | ⟨-, k, -, h1⟩
        · exact ⟨i, h1⟩
        · cases ht
        · exact ⟨k, h1⟩
      obtain ⟨k, hk⟩ := hold
      obtain ⟨h2, j, n', h3, h4⟩ := h.sym a k n b hk ht
      refine ⟨h2, ?_⟩
      by_cases hbu : b = u
      · exact ⟨j + 1, n', (hnbr b _ n').2 (.inr (.inr ⟨hbu, j, rfl, h3⟩)), h4⟩
      · exact ⟨j, n', (hnbr b j n').2 (.inl ⟨hbu, h3⟩), h4⟩

theorem simple_empty (n : Nat) : Simple (SGraph.empty n) := by
  have hnone : ∀ u i m, nbr (SGraph.empty n) u i ≠ some m := by
    intro u i m hm
    obtain ⟨l, hl, hi⟩ := mem_slot.1 hm
    simp only [SGraph.empty, List.getElem?_replicate] at hl
    split at hl
    · cases hl; simp at hi
    · cases hl
  refine ⟨?_, fun u i m hm => absurd hm (hnone u i m), fun u i m v hm => absurd hm (hnone u i m)⟩
  intro u l hl
  simp only [SGraph.empty, List.getElem?_replicate] at hl
  split at hl
  · cases hl; simp
  · cases hl

/-- A history of insertions of pairwise different edges. -/
inductive Builds : Nat → SGraph → Prop where
  | empty (n : Nat) : Builds n (SGraph.empty n)
  | edge {n : Nat} {g g' : SGraph} (u v : Nat) (w : Int) (obs : List Nat) : Builds n g → ¬ IsEdge g (u, some v) →
      g.addEdge u v w obs = .ok g' → Builds n g'
  | boundary {n : Nat} {g g' : SGraph} (u : Nat) (w : Int) (obs : List Nat) : Builds n g → ¬ IsEdge g (u, none) →
      g.addBoundaryEdge u w obs = .ok g' → Builds n g'

theorem negEdges_addEdge {g g' : SGraph} (u v : Nat) (w : Int) (obs : List Nat)
    (hok : g.addEdge u v w obs = .ok g') (hneg : ∀ e ∈ g.negEdges, IsEdge g e) : ∀ e ∈ g'.negEdges, IsEdge g' e := by
  unfold SGraph.addEdge at hok
  split at hok
  · cases hok
  · rename_i hlen
    split at hok
    · cases hok; exact hneg
    · rename_i huv
      simp only [Ins.ok.injEq] at hok
      subst hok
      have hu : u < g.nodes.length := by omega
      have hold : ∀ e, IsEdge g e → IsEdge ⟨pushBackS (pushBackS g.nodes u ⟨some v, w.natAbs, obs, w < 0⟩) v
          ⟨some u, w.natAbs, obs, w < 0⟩, if w < 0 then g.negEdges ++ [(u, some v)] else g.negEdges⟩ e := by
        rintro e ⟨i, n, h1, h2⟩
        exact ⟨i, n, (nbr_push ..).2 (.inl ((nbr_push ..).2 (.inl h1))), h2⟩
      intro e he
      simp only at he
      split at he
      · rcases List.mem_append.1 he with h1 | h1
        · exact hold e (hneg e h1)
        · simp only [List.mem_singleton] at h1
          subst h1
          exact ⟨_, _, (nbr_push ..).2 (.inl ((nbr_push ..).2 (.inr ⟨rfl, rfl, _, List.getElem?_eq_getElem hu, rfl⟩))), rfl⟩
      · exact hold e (hneg e he)

theorem negEdges_addBoundaryEdge {g g' : SGraph} (u : Nat) (w : Int) (obs : List Nat)
    (hok : g.addBoundaryEdge u w obs = .ok g') (hneg : ∀ e ∈ g.negEdges, IsEdge g e) : ∀ e ∈ g'.negEdges, IsEdge g' e := by
  unfold SGraph.addBoundaryEdge at hok
  split at hok
  · cases hok
  · rename_i hlen
    simp only [Ins.ok.injEq] at hok
    subst hok
    have hu : u < g.nodes.length := by omega
    have hold : ∀ e, IsEdge g e → IsEdge ⟨g.nodes.modify u (fun n => ⟨none, w.natAbs, obs, w < 0⟩ :: n),
        if w < 0 then g.negEdges ++ [(u, none)] else g.negEdges⟩ e := by
      rintro e ⟨i, n, h1, h2⟩
      obtain ⟨l, hl, hi⟩ := mem_slot.1 h1
      by_cases hue : u = e.1
      · exact ⟨i + 1, n, mem_slot.2 ⟨_, by simp only; rw [List.getElem?_modify, hl]; simp [hue]; rfl, by simpa using hi⟩, h2⟩
      · exact ⟨i, n, mem_slot.2 ⟨l, by simp only; rw [List.getElem?_modify, hl]; simp [hue], hi⟩, h2⟩
    intro e he
    simp only at he
    split at he
    · rcases List.mem_append.1 he with h1 | h1
      · exact hold e (hneg e h1)
      · simp only [List.mem_singleton] at h1
        subst h1
        refine ⟨0, ⟨none, w.natAbs, obs, w < 0⟩, mem_slot.2 ⟨⟨none, w.natAbs, obs, w < 0⟩ :: g.nodes[u], ?_, List.getElem?_cons_zero⟩, rfl⟩
        simp only
        rw [List.getElem?_modify, List.getElem?_eq_getElem hu]
        simp only [if_true, Option.map_eq_map, Option.map_some]
    · exact hold e (hneg e he)

/-- C24 (hypotheses).  Search graphs built by inserting pairwise different edges are simple, and their recorded
negative-weight edges are edges; so the two theorems above apply to them. -/
theorem C24_built_graphs {n : Nat} {g : SGraph} (h : Builds n g) : Simple g ∧ ∀ e ∈ g.negEdges, IsEdge g e := by
  induction h with
  | empty => exact ⟨simple_empty _, by simp [SGraph.empty]⟩
  | edge u v w obs _ hnew hok ih => exact ⟨simple_addEdge ih.1 u v w obs hok hnew, negEdges_addEdge u v w obs hok ih.2⟩
  | boundary u w obs _ hnew hok ih =>
    exact ⟨simple_addBoundaryEdge ih.1 u w obs hok hnew, negEdges_addBoundaryEdge u w obs hok ih.2⟩

/-- Deciding whether an edge is present. -/
theorem not_isEdge {g : SGraph} {u : Nat} {t : Option Nat} (h : (g.nodes[u]?).all (fun l => l.all fun n => n.target != t) = true) :
    ¬ IsEdge g (u, t) := by
  rintro ⟨i, n, h1, h2⟩
  obtain ⟨l, hl, hi⟩ := mem_slot.1 h1
  simp only at hl h2
  rw [hl] at h
  simp only [Option.all_some, List.all_eq_true] at h
  have := h n (List.mem_of_getElem? hi)
  simp [h2] at this

/-- A triangle with a boundary edge; the path edges overlap with each other and with a negative edge. -/
def exGraph : SGraph :=
  ⟨[[⟨none, 4, [], false⟩, ⟨some 1, 2, [], false⟩, ⟨some 2, 2, [], true⟩], [⟨some 0, 2, [], false⟩, ⟨some 2, 2, [], false⟩],
    [⟨some 0, 2, [], true⟩, ⟨some 1, 2, [], false⟩]], [(0, some 2)]⟩

example : (toEdges exGraph (fun _ _ => false) exGraph.negEdges [(0, 1), (1, 1), (2, 0), (1, 0), (0, 0)]).bind
    (fun x => .ok x.2) = .ok [(0, none), (1, some 2)] := by decide +kernel

theorem exGraph_simple : Simple exGraph ∧ ∀ e ∈ exGraph.negEdges, IsEdge exGraph e := by
  refine C24_built_graphs (n := 3) (.boundary 0 4 [] (.edge 1 2 2 [] (.edge 0 2 (-2) [] (.edge 0 1 2 [] (.empty 3)
    (not_isEdge ?_) rfl) (not_isEdge ?_) rfl) (not_isEdge ?_) rfl) (not_isEdge ?_) rfl) <;> decide

end Verif.Props.EdgeMarks
