import Verif.Blossom.Graft

/-!
# Alternating trees
-/

namespace Verif.SB

open Verif Verif.CE Verif.Mem
open Verif.Sch (Res)

theorem reversed_reversed (e : CompressedEdge) : e.reversed.reversed = e := rfl

/-- What the matcher knows about the regions: which exist, which are top regions, the slopes of the radii, which edges are tight
between regions or to the boundary, the children of blossoms, for which regions the radii have the parity of the time, and which
detection events a region holds. -/
structure View where
  live : Nat → Prop
  top : Nat → Prop
  sl : Nat → Int
  lk : CompressedEdge → Nat → Nat → Prop
  blk : CompressedEdge → Nat → Prop
  kids : Nat → List (Nat × CompressedEdge)
  ev : Nat → Prop
  has : Nat → Nat → Prop

/-- Tight edges may be reversed. -/
def View.Sym (V : View) : Prop := ∀ e r r', V.lk e r r' → V.lk e.reversed r' r

/-- Parent in the forest of alternating trees; the nodes `Z` are detached for the moment. -/
def epar (alt : Nat → ANode) (Z : Finset Nat) (a : Nat) : Option Nat := if a ∈ Z then none else (alt a).parent.map (·.1)

def akids (alt : Nat → ANode) (a : Nat) : List Nat := (alt a).children.map (·.1)

/-- The nodes `A` form trees with ancestor lists `ach`. -/
structure Shape (V : View) (alt : Nat → ANode) (A : Finset Nat) (ach : Nat → List Nat) (Z : Finset Nat) : Prop where
  forest : Forest A (epar alt Z) ach
  kids : Kids A (epar alt Z) (akids alt)
  edge : ∀ a ∈ A, ∀ c e, (c, e) ∈ (alt a).children → (alt c).parent = some (a, e.reversed)
  link : ∀ a ∈ A, ∀ c e, (c, e) ∈ (alt a).children → ∃ i, (alt c).inner = some i ∧ V.lk e (alt a).outer i
  root : ∀ a ∈ A, a ∉ Z → (alt a).parent = none → (alt a).inner = none

/-- The regions of the nodes `A`: outer regions grow (except for the nodes `E`), inner regions shrink, and the two are linked. -/
structure Nodes (V : View) (alt : Nat → ANode) (ralt : Nat → Option Nat) (A : Finset Nat) (E : Nat → Prop) : Prop where
  outer : ∀ a ∈ A, V.top (alt a).outer ∧ ralt (alt a).outer = some a
  up : ∀ a ∈ A, V.sl (alt a).outer ≠ -1
  grow : ∀ a ∈ A, ¬ E a → V.sl (alt a).outer = 1
  inner : ∀ a ∈ A, ∀ i, (alt a).inner = some i → V.top i ∧ V.sl i = -1 ∧ V.lk (alt a).i2o i (alt a).outer
  inj : ∀ a ∈ A, ∀ b ∈ A, ∀ i, (alt a).inner = some i → (alt b).inner = some i → a = b

theorem Nodes.outer_inj {V : View} {alt : Nat → ANode} {ralt : Nat → Option Nat} {A : Finset Nat} {E : Nat → Prop}
    (h : Nodes V alt ralt A E) {a b : Nat} (ha : a ∈ A) (hb : b ∈ A) (e : (alt a).outer = (alt b).outer) : a = b := by
  have h1 := (h.outer a ha).2
  have h2 := (h.outer b hb).2
  rw [e, h2] at h1
  cases h1
  rfl

theorem Nodes.inner_outer {V : View} {alt : Nat → ANode} {ralt : Nat → Option Nat} {A : Finset Nat} {E : Nat → Prop}
    (h : Nodes V alt ralt A E) {a b i : Nat} (ha : a ∈ A) (hb : b ∈ A) (hi : (alt a).inner = some i) : i ≠ (alt b).outer := by
  rintro rfl
  exact h.up b hb (h.inner a ha _ hi).2.1

variable {V : View} {alt : Nat → ANode} {A : Finset Nat} {ach : Nat → List Nat} {Z : Finset Nat}

/-- A child of `p` is in its list of children. -/
theorem Shape.child (h : Shape V alt A ach Z) {a p : Nat} {pe : CompressedEdge} (ha : a ∈ A) (haZ : a ∉ Z)
    (hp : (alt a).parent = some (p, pe)) : p ∈ A ∧ (a, pe.reversed) ∈ (alt p).children ∧ ∃ i, (alt a).inner = some i ∧ V.lk pe.reversed (alt p).outer i := by
  have h1 : epar alt Z a = some p := by simp [epar, haZ, hp]
  have hpA := (h.forest.step a ha p h1).1
  have h2 := (h.kids.mem p hpA a).2 ⟨ha, h1⟩
  obtain ⟨⟨c, e⟩, h3, h4⟩ := List.mem_map.1 h2
  simp only at h4
  subst h4
  have h5 := h.edge p hpA c e h3
  rw [hp, Option.some.injEq] at h5
  have h6 : e = pe.reversed := by
    have := congrArg Prod.snd h5
    simp only at this
    rw [this, reversed_reversed]
  subst h6
  exact ⟨hpA, h3, h.link p hpA c _ h3⟩

/-! ## `become_root` -/

/-- The nodes after one rotation. -/
def rotated (alt : Nat → ANode) (a p : Nat) (pe : CompressedEdge) (x : Nat) : ANode :=
  if x = a then { alt a with inner := none, parent := none, children := (alt a).children ++ [(p, (alt a).i2o.reversed)], i2o := .cleared }
  else if x = p then { alt p with inner := (alt a).inner, i2o := pe, children := eraseKid (alt p).children a, parent := some (a, (alt a).i2o) }
  else alt x

theorem rotateUp_eq (s : MS) {a p : Nat} (hne : a ≠ p) (pe : CompressedEdge) :
    rotateUp s a p pe = { s with alt := rotated s.alt a p pe } := by
  unfold rotateUp addChild MS.setAlt
  simp only
  congr 1
  funext x
  unfold rotated
  by_cases hxa : x = a
  · subst hxa
    simp [hne]
  · by_cases hxp : x = p
    · subst hxp
      simp [hxa, Ne.symm hne, reversed_reversed]
    · simp [hxa, hxp]

/-- One rotation: the child `a` of the root `p` becomes the root. -/
theorem Shape.rotate (hV : V.Sym) {ralt : Nat → Option Nat} {E : Nat → Prop} (hN : Nodes V alt ralt A E) (h : Shape V alt A ach ∅) {a p : Nat}
    {pe : CompressedEdge} (ha : a ∈ A) (hp : (alt a).parent = some (p, pe)) (hroot : (alt p).parent = none) :
    ∃ ach', Shape V (rotated alt a p pe) A ach' ∅ ∧ Nodes V (rotated alt a p pe) ralt A E ∧
      (∀ x ∈ A, Forest.rootOf ach' x = if Forest.rootOf ach x = some p then some a else Forest.rootOf ach x) := by
  obtain ⟨hpA, hch, i, hi, hlk⟩ := h.child ha (by simp) hp
  have hpara : epar alt ∅ a = some p := by simp [epar, hp]
  have hparp : epar alt ∅ p = none := by simp [epar, hroot]
  have hne : a ≠ p := by rintro rfl; rw [hpara] at hparp; cases hparp
  have hinp : (alt p).inner = none := h.root p hpA (by simp) hroot
  generalize hB : rotated alt a p pe = B
  have hBa : B a = { alt a with inner := none, parent := none, children := (alt a).children ++ [(p, (alt a).i2o.reversed)], i2o := .cleared } := by
    rw [← hB]; simp [rotated]
  have hBp : B p = { alt p with inner := (alt a).inner, i2o := pe, children := eraseKid (alt p).children a, parent := some (a, (alt a).i2o) } := by
    rw [← hB]; simp [rotated, Ne.symm hne]
  have hBx : ∀ x, x ≠ a → x ≠ p → B x = alt x := fun x h1 h2 => by rw [← hB]; simp [rotated, h1, h2]
  clear hB
  have hout : ∀ x, (B x).outer = (alt x).outer := by
    intro x
    by_cases h1 : x = a
    · subst h1; rw [hBa]
    · by_cases h2 : x = p
      · subst h2; rw [hBp]
      · rw [hBx x h1 h2]
  have hka : a ∈ (alt p).children.map (·.1) := List.mem_map.2 ⟨_, hch, rfl⟩
  have hnd : ((alt p).children.map (·.1)).Nodup := h.kids.nodup p hpA
  -- the forest
  have hea : epar B ∅ a = none := by simp [epar, hBa]
  have hep : epar B ∅ p = some a := by simp [epar, hBp]
  have hex : ∀ x, x ≠ a → x ≠ p → epar B ∅ x = epar alt ∅ x := fun x h1 h2 => by simp [epar, hBx x h1 h2]
  have hF1 := h.forest.cut (par' := fun x => if x = a then none else epar alt ∅ x) ha (by simp) (fun x _ hx => by simp [hx])
  have hach : ach a = [a, p] := by rw [(h.forest.step a ha p hpara).2, h.forest.root p hpA hparp]
  have hF2 := hF1.graft (a := a) (b := p) (par' := epar B ∅) ha hpA (by simp [hparp])
    (by simp [hach, Forest.upTo_cons_self, Ne.symm hne]) hep (fun x hx hxp => by
      by_cases hxa : x = a
      · subst hxa; simp [hea]
      · simp [hxa, hex x hxa hxp])
  refine ⟨_, ⟨hF2, ?_, ?_, ?_, ?_⟩, ⟨?_, ?_, ?_, ?_, ?_⟩, ?_⟩
  · constructor
    · intro x hx c
      unfold akids
      by_cases hxa : x = a
      · subst hxa
        rw [hBa]
        simp only [List.map_append, List.map_cons, List.map_nil, List.mem_append, List.mem_singleton]
        have hk := h.kids.mem x hx c
        unfold akids at hk
        rw [hk]
        constructor
        · rintro (⟨h1, h2⟩ | rfl)
          · refine ⟨h1, ?_⟩
            have hca : c ≠ x := by rintro rfl; rw [hpara] at h2; cases h2; exact hne rfl
            have hcp : c ≠ p := by rintro rfl; rw [hparp] at h2; cases h2
            rw [hex c hca hcp]; exact h2
          · exact ⟨hpA, hep⟩
        · rintro ⟨h1, h2⟩
          by_cases hcp : c = p
          · exact .inr hcp
          · left
            have hca : c ≠ x := by rintro rfl; rw [hea] at h2; cases h2
            exact ⟨h1, by rw [← hex c hca hcp]; exact h2⟩
      · by_cases hxp : x = p
        · subst hxp
          rw [hBp]
          simp only [List.mem_map]
          constructor
          · rintro ⟨y, hy, rfl⟩
            obtain ⟨hy1, hy2⟩ := (mem_eraseKid hka hnd y).1 hy
            obtain ⟨h1, h2⟩ := (h.kids.mem x hx y.1).1 (List.mem_map_of_mem hy1)
            refine ⟨h1, ?_⟩
            have hyx : y.1 ≠ x := by intro e; rw [e, hparp] at h2; cases h2
            rw [hex _ hy2 hyx]; exact h2
          · rintro ⟨h1, h2⟩
            have hca : c ≠ a := by rintro rfl; rw [hea] at h2; cases h2
            have hcp : c ≠ x := by rintro rfl; rw [hep] at h2; cases h2; exact hca rfl
            rw [hex c hca hcp] at h2
            obtain ⟨y, hy, e⟩ := List.mem_map.1 ((h.kids.mem x hx c).2 ⟨h1, h2⟩)
            exact ⟨y, (mem_eraseKid hka hnd y).2 ⟨hy, by rw [e]; exact hca⟩, e⟩
        · rw [hBx x hxa hxp]
          have hk := h.kids.mem x hx c
          unfold akids at hk
          rw [hk]
          constructor
          · rintro ⟨h1, h2⟩
            have hca : c ≠ a := by rintro rfl; rw [hpara] at h2; cases h2; exact hxp rfl
            have hcp : c ≠ p := by rintro rfl; rw [hparp] at h2; cases h2
            exact ⟨h1, by rw [hex c hca hcp]; exact h2⟩
          · rintro ⟨h1, h2⟩
            have hca : c ≠ a := by rintro rfl; rw [hea] at h2; cases h2
            have hcp : c ≠ p := by rintro rfl; rw [hep] at h2; cases h2; exact hxa rfl
            exact ⟨h1, by rw [← hex c hca hcp]; exact h2⟩
    · intro x hx
      unfold akids
      by_cases hxa : x = a
      · subst hxa
        rw [hBa]
        simp only [List.map_append, List.map_cons, List.map_nil]
        rw [List.nodup_append]
        refine ⟨h.kids.nodup x hx, by simp, ?_⟩
        rintro c hc d hd rfl
        rw [List.mem_singleton] at hd
        subst hd
        have := ((h.kids.mem x hx c).1 hc).2
        rw [hparp] at this; cases this
      · by_cases hxp : x = p
        · subst hxp
          rw [hBp]
          exact eraseKid_nodup hka hnd
        · rw [hBx x hxa hxp]; exact h.kids.nodup x hx
  · intro x hx c e hc
    by_cases hxa : x = a
    · subst hxa
      rw [hBa] at hc
      simp only [List.mem_append, List.mem_singleton] at hc
      rcases hc with hc | hc
      · have h1 := h.edge x hx c e hc
        have h2 := (h.kids.mem x hx c).1 (List.mem_map_of_mem hc)
        have hca : c ≠ x := by rintro rfl; rw [hpara] at h2; exact hne (by cases h2.2; rfl)
        have hcp : c ≠ p := by rintro rfl; rw [hparp] at h2; cases h2.2
        rw [hBx c hca hcp]; exact h1
      · cases hc
        rw [hBp]; rfl
    · have hc' : (c, e) ∈ (alt x).children ∧ c ≠ a := by
        by_cases hxp : x = p
        · subst hxp
          rw [hBp] at hc
          exact (mem_eraseKid hka hnd _).1 hc
        · rw [hBx x hxa hxp] at hc
          refine ⟨hc, ?_⟩
          rintro rfl
          have h2 := (h.kids.mem x hx c).1 (List.mem_map_of_mem hc)
          rw [hpara] at h2; cases h2.2; exact hxp rfl
      have h2 := (h.kids.mem x hx c).1 (List.mem_map_of_mem hc'.1)
      have hcp : c ≠ p := by rintro rfl; rw [hparp] at h2; cases h2.2
      rw [hBx c hc'.2 hcp]
      exact h.edge x hx c e hc'.1
  · intro x hx c e hc
    rw [hout]
    by_cases hxa : x = a
    · subst hxa
      rw [hBa] at hc
      simp only [List.mem_append, List.mem_singleton] at hc
      rcases hc with hc | hc
      · have h2 := (h.kids.mem x hx c).1 (List.mem_map_of_mem hc)
        have hca : c ≠ x := by rintro rfl; rw [hpara] at h2; exact hne (by cases h2.2; rfl)
        have hcp : c ≠ p := by rintro rfl; rw [hparp] at h2; cases h2.2
        rw [hBx c hca hcp]; exact h.link x hx c e hc
      · cases hc
        rw [hBp]
        exact ⟨i, hi, hV _ _ _ (hN.inner x hx i hi).2.2⟩
    · have hc' : (c, e) ∈ (alt x).children ∧ c ≠ a := by
        by_cases hxp : x = p
        · subst hxp
          rw [hBp] at hc
          exact (mem_eraseKid hka hnd _).1 hc
        · rw [hBx x hxa hxp] at hc
          refine ⟨hc, ?_⟩
          rintro rfl
          have h2 := (h.kids.mem x hx c).1 (List.mem_map_of_mem hc)
          rw [hpara] at h2; cases h2.2; exact hxp rfl
      have h2 := (h.kids.mem x hx c).1 (List.mem_map_of_mem hc'.1)
      have hcp : c ≠ p := by rintro rfl; rw [hparp] at h2; cases h2.2
      rw [hBx c hc'.2 hcp]
      exact h.link x hx c e hc'.1
  · intro x hx hxZ hxn
    by_cases hxa : x = a
    · subst hxa; rw [hBa]
    · by_cases hxp : x = p
      · subst hxp; rw [hBp] at hxn; cases hxn
      · rw [hBx x hxa hxp] at hxn ⊢; exact h.root x hx hxZ hxn
  · intro x hx; rw [hout]; exact hN.outer x hx
  · intro x hx; rw [hout]; exact hN.up x hx
  · intro x hx; rw [hout]; exact hN.grow x hx
  · intro x hx j hj
    rw [hout]
    by_cases hxa : x = a
    · subst hxa; rw [hBa] at hj; cases hj
    · by_cases hxp : x = p
      · subst hxp
        rw [hBp] at hj ⊢
        simp only at hj ⊢
        rw [hi, Option.some.injEq] at hj
        subst hj
        have := hN.inner a ha i hi
        exact ⟨this.1, this.2.1, hV _ _ _ hlk⟩
      · rw [hBx x hxa hxp] at hj ⊢; exact hN.inner x hx j hj
  · have hmove : ∀ x ∈ A, ∀ j, (B x).inner = some j → x ≠ a ∧ (alt (if x = p then a else x)).inner = some j := by
      intro x hx j hj
      by_cases hxa : x = a
      · subst hxa; rw [hBa] at hj; cases hj
      · refine ⟨hxa, ?_⟩
        by_cases hxp : x = p
        · subst hxp; rw [hBp] at hj; simpa using hj
        · rw [hBx x hxa hxp] at hj; simpa [hxp] using hj
    intro x hx z hz j hxj hzj
    obtain ⟨h1, h2⟩ := hmove x hx j hxj
    obtain ⟨h3, h4⟩ := hmove z hz j hzj
    have hx' : (if x = p then a else x) ∈ A := by split <;> assumption
    have hz' : (if z = p then a else z) ∈ A := by split <;> assumption
    have := hN.inj _ hx' _ hz' j h2 h4
    by_cases hxp : x = p
    · by_cases hzp : z = p
      · rw [hxp, hzp]
      · rw [if_pos hxp, if_neg hzp] at this; exact absurd this.symm h3
    · by_cases hzp : z = p
      · rw [if_neg hxp, if_pos hzp] at this; exact absurd this h1
      · rw [if_neg hxp, if_neg hzp] at this; exact this
  · -- roots
    intro x hx
    obtain ⟨r, hrA, hr, hrp⟩ := h.forest.rootOf_exists hx
    have hrx := ((h.forest.rootOf_iff hx).1 hr).1
    rw [hr]
    by_cases hrp' : r = p
    · subst hrp'
      rw [if_pos rfl]
      -- the new root is a
      rw [hF2.rootOf_iff hx]
      refine ⟨?_, hea⟩
      by_cases hax : a ∈ ach x
      · have hpx : r ∉ Forest.upTo a (ach x) := by
          unfold Forest.upTo
          intro hm
          rcases List.mem_append.1 hm with hm | hm
          · obtain ⟨l1, l2, e⟩ := List.append_of_mem hax
            have h3 := h.forest.chain_split hx e
            rw [hach] at h3
            cases h3
            have hnd := h.forest.nodup hx
            rw [e] at hm hnd
            have h4 : a ∉ l1 := by
              intro h4
              exact (List.disjoint_of_nodup_append hnd) h4 (by simp)
            have h5 : (l1 ++ [a, r]).takeWhile (fun x => decide (x ≠ a)) = l1 := by
              rw [List.takeWhile_append_of_pos]
              · simp
              · intro y hy; simp; rintro rfl; exact h4 hy
            rw [h5] at hm
            exact (List.disjoint_of_nodup_append hnd) hm (by simp)
          · rw [List.mem_singleton] at hm; exact hne hm.symm
        simp only [if_pos hax, if_neg hpx]
        simp [Forest.upTo]
      · simp only [if_neg hax, if_pos hrx]
        simp [hach, Forest.upTo_cons_self]
    · rw [if_neg (show ¬ (some r = some p) by simpa using hrp'), hF2.rootOf_iff hx]
      have hra : r ≠ a := by rintro rfl; rw [hpara] at hrp; cases hrp
      have hpx : p ∉ ach x := fun hm => hrp' (h.forest.root_unique hx hrx hrp hm hparp)
      have hax : a ∉ ach x := fun hm => hpx (h.forest.trans hx hm (by rw [hach]; simp))
      simp only [if_neg hax, if_neg hpx]
      exact ⟨hrx, by rw [hex r hra hrp']; exact hrp⟩

theorem rotated_outer (alt : Nat → ANode) (a p : Nat) (pe : CompressedEdge) (x : Nat) : (rotated alt a p pe x).outer = (alt x).outer := by
  unfold rotated
  split_ifs with h1 h2
  · subst h1; rfl
  · subst h2; rfl
  · rfl

theorem rotated_visited (alt : Nat → ANode) (a p : Nat) (pe : CompressedEdge) (x : Nat) : (rotated alt a p pe x).visited = (alt x).visited := by
  unfold rotated
  split_ifs with h1 h2
  · subst h1; rfl
  · subst h2; rfl
  · rfl

/-- What `become_root` does. -/
theorem becomeRoot_spec (hV : V.Sym) (f : Nat) : ∀ (s : MS) (E : Nat → Prop) (a : Nat), Nodes V s.alt s.ralt A E → ∀ ach, Shape V s.alt A ach ∅ → a ∈ A →
    (ach a).length ≤ f → ∃ alt' ach', becomeRoot f s a = .ok { s with alt := alt' } ∧ Shape V alt' A ach' ∅ ∧ Nodes V alt' s.ralt A E ∧
      (alt' a).parent = none ∧ (∀ x, x ∉ ach a → alt' x = s.alt x) ∧ (∀ x, (alt' x).outer = (s.alt x).outer) ∧
      (∀ x, (alt' x).visited = (s.alt x).visited) ∧
      (∀ x ∈ A, Forest.rootOf ach' x = if Forest.rootOf ach x = Forest.rootOf ach a then some a else Forest.rootOf ach x) ∧
      (∀ i, (∃ x ∈ A, (s.alt x).inner = some i) → ∃ x ∈ A, (alt' x).inner = some i) := by
  induction f with
  | zero =>
    intro s E a _ ach h ha hlen
    have := h.forest.self_mem ha
    rw [List.eq_nil_of_length_eq_zero (Nat.le_zero.1 hlen)] at this
    cases this
  | succ f ih =>
    intro s E a hN ach h ha hlen
    cases hpar : (s.alt a).parent with
    | none =>
      refine ⟨s.alt, ach, by simp [becomeRoot, hpar], h, hN, hpar, fun _ _ => rfl, fun _ => rfl, fun _ => rfl, ?_, fun i hi => hi⟩
      intro x hx
      have : Forest.rootOf ach a = some a := h.forest.rootOf_root ha (by simp [epar, hpar])
      rw [this]
      split_ifs with h1
      · exact h1
      · rfl
    | some pp =>
      obtain ⟨p, pe⟩ := pp
      have hpara : epar s.alt ∅ a = some p := by simp [epar, hpar]
      obtain ⟨hpA, hch⟩ := h.forest.step a ha p hpara
      obtain ⟨alt1, ach1, e1, h1, hN1, hp1, hout, houter, hvis, hroot, hinn⟩ := ih s E p hN ach h hpA (by rw [hch] at hlen; simpa using hlen)
      have hap : a ∉ ach p := by
        have := h.forest.nodup ha
        rw [hch] at this
        exact (List.nodup_cons.1 this).1
      have hne : a ≠ p := by rintro rfl; exact hap (h.forest.self_mem hpA)
      have ea : alt1 a = s.alt a := hout a hap
      obtain ⟨ach2, h2, hN2, hroot2⟩ := h1.rotate hV hN1 ha (by rw [ea]; exact hpar) hp1
      refine ⟨_, ach2, ?_, h2, hN2, by simp [rotated], ?_, ?_, ?_, ?_, ?_⟩
      · simp only [becomeRoot, hpar, e1, Res.bind]
        rw [rotateUp_eq _ hne]
      · intro x hx
        rw [hch] at hx
        simp only [List.mem_cons, not_or] at hx
        have hxp : x ≠ p := by rintro rfl; exact hx.2 (h.forest.self_mem hpA)
        rw [← hout x hx.2]
        simp [rotated, hx.1, hxp]
      · intro x; rw [rotated_outer, houter]
      · intro x; rw [rotated_visited, hvis]
      · intro x hx
        have hra : Forest.rootOf ach p = Forest.rootOf ach a := h.forest.rootOf_chain ha (by rw [hch]; exact List.mem_cons_of_mem _ (h.forest.self_mem hpA))
        have hr1 := hroot x hx
        rw [hra] at hr1
        rw [hroot2 x hx, hr1]
        by_cases hc : Forest.rootOf ach x = Forest.rootOf ach a
        · simp [hc]
        · simp only [hc, if_false]
          rw [if_neg]
          intro hc2
          have hp0 : epar alt1 ∅ p = none := by simp [epar, hp1]
          -- p is a root after the recursive call, and x has root p, so x was in the tree
          rw [hc2] at hr1
          -- rootOf ach x = some p, but p has a root r0 in ach
          apply hc
          rw [hc2, ← hra]
          have := (h.forest.rootOf_iff hx).1 hc2
          rw [h.forest.rootOf_root hpA this.2]
      · intro i hi
        obtain ⟨x, hx, hxi⟩ := hinn i hi
        by_cases hxa : x = a
        · subst hxa
          refine ⟨p, hpA, ?_⟩
          simp [rotated, Ne.symm hne, hxi]
        · by_cases hxp : x = p
          · subst hxp
            rw [h1.root x hpA (by simp) hp1] at hxi; cases hxi
          · exact ⟨x, hx, by simp [rotated, hxa, hxp, hxi]⟩

end Verif.SB
