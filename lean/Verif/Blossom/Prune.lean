import Verif.Blossom.Mrca
import Verif.Blossom.Geo

/-!
# Pruning of a path of an alternating tree
-/

namespace Verif.SB

open Verif Verif.CE Verif.Mem
open Verif.Sch (Res)

theorem AInv.del {A : Finset Nat} {ar : Arena} (h : AInv A ar) {a : Nat} (ha : a ∈ A) : AInv (A.erase a) (ar.del a) :=
  ⟨inv_del h.inv ha, h.names⟩

/-- A list of regions with edges: every edge is tight and leads to the next region, the last one to `r'`. -/
def Chain (V : View) : Nat → List (Nat × CompressedEdge) → Nat → Prop
  | r, [], r' => r = r'
  | r, (x, e) :: l, r' => x = r ∧ ∃ q, V.lk e r q ∧ Chain V q l r'

theorem Chain.append {V : View} {l l' : List (Nat × CompressedEdge)} : ∀ {r q r' : Nat}, Chain V r l q → Chain V q l' r' → Chain V r (l ++ l') r' := by
  induction l with
  | nil => rintro r q r' rfl h; exact h
  | cons x l ih =>
    obtain ⟨x, e⟩ := x
    rintro r q r' ⟨h1, p, h2, h3⟩ h
    exact ⟨h1, p, h2, ih h3 h⟩

/-- The regions of a node. -/
def nregs (alt : Nat → ANode) (x : Nat) : List Nat := (alt x).outer :: (alt x).inner.toList

theorem Nodes.regs_nodup {V : View} {alt : Nat → ANode} {ralt : Nat → Option Nat} {A : Finset Nat} {E : Nat → Prop} (h : Nodes V alt ralt A E)
    {l : List Nat} (hl : ∀ x ∈ l, x ∈ A) (hnd : l.Nodup) : (l.flatMap (nregs alt)).Nodup := by
  rw [List.nodup_flatMap]
  constructor
  · intro x hx
    unfold nregs
    cases hi : (alt x).inner with
    | none => simp
    | some i => simp [Ne.symm (h.inner_outer (hl x hx) (hl x hx) hi)]
  · rw [List.Nodup] at hnd
    refine List.Pairwise.imp_of_mem ?_ hnd
    intro x z hx hz hne r hr1 hr2
    unfold nregs at hr1 hr2
    simp only [List.mem_cons, Option.mem_toList] at hr1 hr2
    rcases hr1 with hr1 | hr1 <;> rcases hr2 with hr2 | hr2
    · exact hne (h.outer_inj (hl x hx) (hl z hz) (hr1 ▸ hr2))
    · exact h.inner_outer (hl z hz) (hl x hx) hr2 hr1
    · exact h.inner_outer (hl x hx) (hl z hz) hr1 hr2
    · exact hne (h.inj x (hl x hx) z (hl z hz) r hr1 hr2)

/-- The same regions and parents; only children and flags differ. -/
def KidsOnly (alt alt' : Nat → ANode) : Prop :=
  ∀ x, (alt' x).inner = (alt x).inner ∧ (alt' x).outer = (alt x).outer ∧ (alt' x).i2o = (alt x).i2o ∧ (alt' x).parent = (alt x).parent ∧
    (alt' x).visited = (alt x).visited

namespace KidsOnly

variable {alt alt' alt'' : Nat → ANode}

theorem refl (alt : Nat → ANode) : KidsOnly alt alt := fun _ => ⟨rfl, rfl, rfl, rfl, rfl⟩

theorem trans (h : KidsOnly alt alt') (h' : KidsOnly alt' alt'') : KidsOnly alt alt'' := fun x =>
  ⟨(h' x).1.trans (h x).1, (h' x).2.1.trans (h x).2.1, (h' x).2.2.1.trans (h x).2.2.1, (h' x).2.2.2.1.trans (h x).2.2.2.1,
    (h' x).2.2.2.2.trans (h x).2.2.2.2⟩

theorem set (h : KidsOnly alt alt') (a : Nat) (l : List (Nat × CompressedEdge)) : KidsOnly alt (Function.update alt' a { alt' a with children := l }) := by
  intro x
  by_cases hx : x = a
  · subst hx; rw [Function.update_self]; exact h x
  · rw [Function.update_of_ne hx]; exact h x

theorem inner (h : KidsOnly alt alt') (x : Nat) : (alt' x).inner = (alt x).inner := (h x).1
theorem outer (h : KidsOnly alt alt') (x : Nat) : (alt' x).outer = (alt x).outer := (h x).2.1
theorem i2o (h : KidsOnly alt alt') (x : Nat) : (alt' x).i2o = (alt x).i2o := (h x).2.2.1
theorem parent (h : KidsOnly alt alt') (x : Nat) : (alt' x).parent = (alt x).parent := (h x).2.2.2.1

theorem nregs (h : KidsOnly alt alt') (x : Nat) : SB.nregs alt' x = SB.nregs alt x := by unfold SB.nregs; rw [h.inner, h.outer]

end KidsOnly

theorem Nodes.kidsOnly {V : View} {alt alt' : Nat → ANode} {ralt : Nat → Option Nat} {A : Finset Nat} {E : Nat → Prop} (h : Nodes V alt ralt A E)
    (hv : KidsOnly alt alt') : Nodes V alt' ralt A E := by
  refine ⟨?_, ?_, ?_, ?_, ?_⟩
  · intro a ha; rw [hv.outer]; exact h.outer a ha
  · intro a ha; rw [hv.outer]; exact h.up a ha
  · intro a ha; rw [hv.outer]; exact h.grow a ha
  · intro a ha i hi; rw [hv.inner] at hi; rw [hv.outer, hv.i2o]; exact h.inner a ha i hi
  · intro a ha b hb i hi hj; rw [hv.inner] at hi hj; exact h.inj a ha b hb i hi hj

/-- Forget some nodes. -/
theorem Nodes.sub {V : View} {alt : Nat → ANode} {ralt ralt' : Nat → Option Nat} {A A' : Finset Nat} {E : Nat → Prop} (h : Nodes V alt ralt A E)
    (hA : A' ⊆ A) (hr : ∀ a ∈ A', ralt' (alt a).outer = ralt (alt a).outer) : Nodes V alt ralt' A' E where
  outer := fun a ha => ⟨(h.outer a (hA ha)).1, by rw [hr a ha]; exact (h.outer a (hA ha)).2⟩
  up := fun a ha => h.up a (hA ha)
  grow := fun a ha => h.grow a (hA ha)
  inner := fun a ha => h.inner a (hA ha)
  inj := fun a ha b hb => h.inj a (hA ha) b (hA hb)

variable {V : View} {alt : Nat → ANode} {A : Finset Nat} {ach : Nat → List Nat} {Z : Finset Nat}

/-- The nodes after node `a` with parent `p` was removed. -/
def cutOff (alt : Nat → ANode) (a p : Nat) : Nat → ANode :=
  Function.update (Function.update alt a { alt a with children := [] }) p { alt p with children := eraseKid (alt p).children a }

theorem cutOff_kidsOnly (alt : Nat → ANode) {a p : Nat} (hne : a ≠ p) : KidsOnly alt (cutOff alt a p) := by
  unfold cutOff
  have h1 := (KidsOnly.refl alt).set a []
  have h2 := h1.set p (eraseKid (alt p).children a)
  rwa [Function.update_of_ne (Ne.symm hne)] at h2

theorem cutOff_ne (alt : Nat → ANode) {a p x : Nat} (h1 : x ≠ a) (h2 : x ≠ p) : cutOff alt a p x = alt x := by
  unfold cutOff; rw [Function.update_of_ne h2, Function.update_of_ne h1]

theorem cutOff_parent (alt : Nat → ANode) (a p : Nat) : cutOff alt a p p = { alt p with children := eraseKid (alt p).children a } := by
  unfold cutOff; rw [Function.update_self]

/-- Removal of one node: its children are detached. -/
theorem Shape.cutOff (h : Shape V alt A ach Z) {a p : Nat} {pe : CompressedEdge} (ha : a ∈ A) (haZ : a ∉ Z) (hp : (alt a).parent = some (p, pe)) :
    Shape V (cutOff alt a p) (A.erase a) (fun x => (ach x).takeWhile (· ≠ a)) (Z ∪ (akids alt a).toFinset) := by
  obtain ⟨hpA, hch, i, hi, hlk⟩ := h.child ha haZ hp
  have hpara : epar alt Z a = some p := by simp [epar, hp, haZ]
  have hne : a ≠ p := by
    rintro rfl
    have h1 := (h.forest.step a ha a hpara).2
    have h2 := congrArg List.length h1
    simp at h2
  have hko := cutOff_kidsOnly alt hne
  have hka : a ∈ (alt p).children.map (·.1) := List.mem_map.2 ⟨_, hch, rfl⟩
  have hnd : ((alt p).children.map (·.1)).Nodup := h.kids.nodup p hpA
  generalize hB : SB.cutOff alt a p = B at hko
  have hBp : B p = { alt p with children := eraseKid (alt p).children a } := by rw [← hB]; exact cutOff_parent alt a p
  have hBx : ∀ x, x ≠ a → x ≠ p → B x = alt x := fun x h1 h2 => by rw [← hB]; exact cutOff_ne alt h1 h2
  have hkid : ∀ x ∈ A, x ≠ a → ∀ c e, (c, e) ∈ (B x).children ↔ (c, e) ∈ (alt x).children ∧ c ≠ a := by
    intro x hx hxa c e
    by_cases hxp : x = p
    · subst hxp
      rw [hBp]
      exact mem_eraseKid hka hnd _
    · rw [hBx x hxa hxp]
      constructor
      · intro hc
        refine ⟨hc, ?_⟩
        rintro rfl
        have := ((h.kids.mem x hx c).1 (List.mem_map_of_mem hc)).2
        rw [hpara] at this
        cases this
        exact hxp rfl
      · exact fun hc => hc.1
  have hepar : ∀ x ∈ A, x ≠ a → epar B (Z ∪ (akids alt a).toFinset) x = if epar alt Z x = some a then none else epar alt Z x := by
    intro x hx _
    unfold epar
    rw [hko.parent]
    have hk := h.kids.mem a ha x
    by_cases hxZ : x ∈ Z
    · simp [hxZ]
    · by_cases hxk : x ∈ akids alt a
      · have := (hk.1 hxk).2
        unfold epar at this
        simp [hxk, hxZ] at this ⊢
        intro hc
        exact absurd this (by simpa using hc)
      · have h3 : ¬ epar alt Z x = some a := fun e => hxk (hk.2 ⟨hx, e⟩)
        unfold epar at h3
        rw [if_neg hxZ] at h3
        simp only [Finset.mem_union, List.mem_toFinset, hxZ, hxk, or_self, if_false, h3]
  refine ⟨h.forest.drop hepar, ⟨?_, ?_⟩, ?_, ?_, ?_⟩
  · intro x hx c
    obtain ⟨hxa, hxA⟩ := Finset.mem_erase.1 hx
    have h1 : c ∈ akids B x ↔ c ∈ akids alt x ∧ c ≠ a := by
      unfold akids
      simp only [List.mem_map]
      constructor
      · rintro ⟨⟨c', e⟩, hc, rfl⟩
        have := (hkid x hxA hxa c' e).1 hc
        exact ⟨⟨_, this.1, rfl⟩, this.2⟩
      · rintro ⟨⟨⟨c', e⟩, hc, rfl⟩, hca⟩
        exact ⟨_, (hkid x hxA hxa c' e).2 ⟨hc, hca⟩, rfl⟩
    rw [h1, h.kids.mem x hxA c, Finset.mem_erase]
    constructor
    · rintro ⟨⟨h2, h3⟩, h4⟩
      refine ⟨⟨h4, h2⟩, ?_⟩
      rw [hepar c h2 h4, h3, if_neg (by simpa using hxa)]
    · rintro ⟨⟨h2, h3⟩, h4⟩
      rw [hepar c h3 h2] at h4
      split_ifs at h4
      exact ⟨⟨h3, h4⟩, h2⟩
  · intro x hx
    obtain ⟨hxa, hxA⟩ := Finset.mem_erase.1 hx
    unfold akids
    by_cases hxp : x = p
    · subst hxp
      rw [hBp]
      exact eraseKid_nodup hka hnd
    · rw [hBx x hxa hxp]; exact h.kids.nodup x hxA
  · intro x hx c e hc
    obtain ⟨hxa, hxA⟩ := Finset.mem_erase.1 hx
    rw [hko.parent]
    exact h.edge x hxA c e ((hkid x hxA hxa c e).1 hc).1
  · intro x hx c e hc
    obtain ⟨hxa, hxA⟩ := Finset.mem_erase.1 hx
    rw [hko.outer, hko.inner]
    exact h.link x hxA c e ((hkid x hxA hxa c e).1 hc).1
  · intro x hx hxZ hn
    obtain ⟨hxa, hxA⟩ := Finset.mem_erase.1 hx
    rw [hko.parent] at hn
    rw [hko.inner]
    exact h.root x hxA (fun e => hxZ (Finset.mem_union_left _ e)) hn

/-- What pruning returns, for the removed nodes `ps`. -/
structure PruneRel (V : View) (s s' : MS) (A : Finset Nat) (ach : Nat → List Nat) (Z : Finset Nat) (A' : Finset Nat) (ach' : Nat → List Nat) (Z' : Finset Nat)
    (ps : List Nat) (orph : List (Nat × CompressedEdge)) : Prop where
  fl : s'.fl = s.fl
  mate : s'.mate = s.mate
  ralt : ∀ r, s'.ralt r = if r ∈ ps.flatMap (nregs s.alt) then none else s.ralt r
  alt : KidsOnly s.alt s'.alt
  live : ∀ x, x ∈ A' ↔ x ∈ A ∧ x ∉ ps
  chain : ∀ x ∈ A', (∀ z ∈ ach x, z ∉ ps) → ach' x = ach x
  det : Z' = Z ∪ (orph.map (·.1)).toFinset
  orphNodup : (orph.map (·.1)).Nodup
  orphNew : ∀ c ∈ orph.map (·.1), c ∈ A' ∧ c ∉ Z
  orphLink : ∀ c e, (c, e) ∈ orph → ∃ x ∈ ps, ∃ i, (s.alt c).inner = some i ∧ V.lk e (s.alt x).outer i
  arena : AInv A s.alts → AInv A' s'.alts
  depth : s'.altDepth = s.altDepth

theorem takeWhile_ne {l : List Nat} {a : Nat} (h : a ∉ l) : l.takeWhile (· ≠ a) = l := by
  induction l with
  | nil => rfl
  | cons x l ih =>
    simp only [List.mem_cons, not_or] at h
    rw [List.takeWhile_cons_of_pos (by simpa using Ne.symm h.1), ih h.2]

theorem prune_spec (hV : V.Sym) (anc : Nat) (back : Bool) (f : Nat) : ∀ (s : MS) (A : Finset Nat) (ach : Nat → List Nat) (Z : Finset Nat) (a : Nat)
    (ps rest : List Nat) (orph path : List (Nat × CompressedEdge)) (E : Nat → Prop), Nodes V s.alt s.ralt A E → Shape V s.alt A ach Z → a ∈ A →
    ach a = ps ++ anc :: rest → ps.length + 1 ≤ f →
    ∃ s' A' ach' Z' orph' path', prune anc back f s a (orph, path) = .ok (s', (orph ++ orph', path ++ path')) ∧
      Shape V s'.alt A' ach' Z' ∧ Nodes V s'.alt s'.ralt A' E ∧ PruneRel V s s' A ach Z A' ach' Z' ps orph' ∧ path'.length = 2 * ps.length ∧
      (back = true → Chain V (s.alt anc).outer path'.reverse (s.alt a).outer ∧
        (path'.map (·.1) ++ [(s.alt a).outer]).Perm ((s.alt anc).outer :: ps.flatMap (nregs s.alt))) ∧
      (back = false → Chain V (s.alt a).outer path' (s.alt anc).outer ∧ (path'.map (·.1)).Perm (ps.flatMap (nregs s.alt))) := by
  induction f with
  | zero => intro s A ach Z a ps rest orph path E _ _ _ _ hl; omega
  | succ f ih =>
    intro s A ach Z a ps rest orph path E hN h ha hach hl
    cases ps with
    | nil =>
      have hanc : a = anc := by
        obtain ⟨l, e⟩ := h.forest.chain_self ha
        rw [e] at hach
        simp at hach
        exact hach.1
      subst hanc
      refine ⟨s, A, ach, Z, [], [], by simp [prune], h, hN, ?_, rfl, ?_, ?_⟩
      · exact ⟨rfl, rfl, by simp, .refl _, by simp, fun _ _ _ => rfl, by simp, by simp, by simp, by simp, fun h => h, rfl⟩
      · intro _; exact ⟨rfl, by simp⟩
      · intro _; exact ⟨rfl, by simp⟩
    | cons a0 ps =>
      have ha0 : a0 = a := by
        obtain ⟨l, e⟩ := h.forest.chain_self ha
        rw [e] at hach
        simp at hach
        exact hach.1.symm
      subst ha0
      have hnd := h.forest.nodup ha
      rw [hach] at hnd
      have hne : a0 ≠ anc := by
        rintro rfl
        simp at hnd
      rcases h.forest.cases ha with ⟨_, e⟩ | ⟨p, hpara, hpA, e⟩
      · rw [hach] at e
        simp at e
      have haZ : a0 ∉ Z := by intro hz; simp [epar, hz] at hpara
      obtain ⟨pe, hpar⟩ : ∃ pe, (s.alt a0).parent = some (p, pe) := by
        simp only [epar, haZ, if_false, Option.map_eq_some_iff] at hpara
        obtain ⟨⟨u, v⟩, h1, h2⟩ := hpara
        exact ⟨v, by rw [h1, ← h2]⟩
      obtain ⟨_, hkid, i, hi, hlk⟩ := h.child ha haZ hpar
      have hapne : a0 ≠ p := by
        rintro rfl
        have h2 := congrArg List.length e
        simp at h2
      have hachp : ach p = ps ++ anc :: rest := by
        rw [hach] at e
        simpa using e.symm
      have hap : a0 ∉ ach p := by
        rw [hachp]
        simpa using (List.nodup_cons.1 hnd).1
      -- the state after one step
      let s1 : MS := { s with alt := cutOff s.alt a0 p, ralt := Function.update (Function.update s.ralt (s.alt a0).outer none) i none, alts := s.alts.del a0 }
      have hko := cutOff_kidsOnly s.alt hapne
      have h1 := h.cutOff ha haZ hpar
      have hN1 : Nodes V s1.alt s1.ralt (A.erase a0) E := by
        refine (hN.sub (A' := A.erase a0) (ralt' := s1.ralt) (Finset.erase_subset _ _) ?_).kidsOnly hko
        intro b hb
        obtain ⟨hba, hbA⟩ := Finset.mem_erase.1 hb
        show Function.update (Function.update s.ralt (s.alt a0).outer none) i none (s.alt b).outer = _
        rw [Function.update_of_ne (Ne.symm (hN.inner_outer ha hbA hi)), Function.update_of_ne]
        intro e
        exact hba (hN.outer_inj hbA ha e)
      have hp1 : p ∈ A.erase a0 := Finset.mem_erase.2 ⟨Ne.symm hapne, hpA⟩
      have hach1 : (ach p).takeWhile (· ≠ a0) = ps ++ anc :: rest := by rw [takeWhile_ne hap, hachp]
      obtain ⟨s', A', ach', Z', orph', path', e2, h2, hN2, hrel, hlen, hb1, hb2⟩ := ih s1 (A.erase a0) _ _ p ps rest (orph ++ (s.alt a0).children)
        (path ++ (if back then [(i, (s.alt a0).i2o), ((s.alt p).outer, pe.reversed)] else [((s.alt a0).outer, (s.alt a0).i2o.reversed), (i, pe)]))
        E hN1 h1 hp1 hach1 (by simp at hl; omega)
      have hreg : ∀ x, nregs s1.alt x = nregs s.alt x := hko.nregs
      have hregf : ps.flatMap (nregs s1.alt) = ps.flatMap (nregs s.alt) := by rw [show nregs s1.alt = nregs s.alt from funext hreg]
      have houter : ∀ x, (s1.alt x).outer = (s.alt x).outer := hko.outer
      have hna : nregs s.alt a0 = [(s.alt a0).outer, i] := by simp [nregs, hi]
      have hkidsA : ∀ c ∈ akids s.alt a0, c ∈ A ∧ c ∉ Z ∧ c ∉ a0 :: ps := by
        intro c hc
        obtain ⟨hcA, hcp⟩ := (h.kids.mem a0 ha c).1 hc
        refine ⟨hcA, ?_, ?_⟩
        · intro hz; simp [epar, hz] at hcp
        · intro hm
          have hca : c ∈ ach a0 := by
            rw [hach]
            rcases List.mem_cons.1 hm with rfl | hm
            · simp
            · simp [hm]
          have hac : a0 ∈ ach c := by
            rw [(h.forest.step c hcA a0 hcp).2]
            exact List.mem_cons_of_mem _ (h.forest.self_mem ha)
          have := h.forest.antisymm ha hca hac
          subst this
          rw [hpara] at hcp
          cases hcp
          exact hapne rfl
      refine ⟨s', A', ach', Z', (s.alt a0).children ++ orph',
        (if back then [(i, (s.alt a0).i2o), ((s.alt p).outer, pe.reversed)] else [((s.alt a0).outer, (s.alt a0).i2o.reversed), (i, pe)]) ++ path',
        ?_, h2, hN2, ?_, ?_, ?_, ?_⟩
      · have : prune anc back (f + 1) s a0 (orph, path) = prune anc back f s1 p (orph ++ (s.alt a0).children,
            path ++ (if back then [(i, (s.alt a0).i2o), ((s.alt p).outer, pe.reversed)] else [((s.alt a0).outer, (s.alt a0).i2o.reversed), (i, pe)])) := by
          simp only [prune, if_neg hne, MS.setAlt, MS.setRalt, Function.update_self, hpar, hi, deref, Res.bind]
          simp only [s1, cutOff, Function.update_of_ne (Ne.symm hapne), Function.update_of_ne hapne, Function.update_self, hpar, hi]
        rw [this, e2]
        simp only [List.append_assoc]
      · refine ⟨hrel.fl, hrel.mate, ?_, hko.trans hrel.alt, ?_, ?_, ?_, ?_, ?_, ?_, ?_, hrel.depth⟩
        · intro r
          rw [hrel.ralt, hregf]
          show (if r ∈ ps.flatMap (nregs s.alt) then none else Function.update (Function.update s.ralt (s.alt a0).outer none) i none r) = _
          simp only [List.flatMap_cons, hna, List.mem_append, List.mem_cons, List.not_mem_nil, or_false]
          by_cases hr : r ∈ ps.flatMap (nregs s.alt)
          · simp [hr]
          · simp only [hr, or_false, if_false]
            by_cases hri : r = i
            · subst hri; simp
            · rw [Function.update_of_ne hri]
              by_cases hro : r = (s.alt a0).outer
              · subst hro; simp
              · rw [Function.update_of_ne hro]; simp [hri, hro]
        · intro x
          rw [hrel.live, Finset.mem_erase, List.mem_cons]
          tauto
        · intro x hx hz
          have hxa : a0 ∉ ach x := fun hm => hz a0 hm (by simp)
          rw [hrel.chain x hx (fun z hz1 => ?_)]
          · exact takeWhile_ne hxa
          · rw [takeWhile_ne hxa] at hz1
            exact fun hm => hz z hz1 (List.mem_cons_of_mem _ hm)
        · rw [hrel.det]
          simp only [List.map_append, List.toFinset_append]
          rw [Finset.union_assoc]
          rfl
        · rw [List.map_append, List.nodup_append]
          refine ⟨h.kids.nodup a0 ha, hrel.orphNodup, ?_⟩
          rintro c hc d hd rfl
          exact (hrel.orphNew c hd).2 (Finset.mem_union_right _ (List.mem_toFinset.2 hc))
        · intro c hc
          rw [List.map_append] at hc
          rcases List.mem_append.1 hc with hc | hc
          · obtain ⟨h3, h4, h5⟩ := hkidsA c hc
            refine ⟨?_, h4⟩
            rw [hrel.live, Finset.mem_erase]
            exact ⟨⟨fun e => h5 (by simp [e]), h3⟩, fun e => h5 (by simp [e])⟩
          · obtain ⟨h3, h4⟩ := hrel.orphNew c hc
            exact ⟨h3, fun e => h4 (Finset.mem_union_left _ e)⟩
        · intro c e3 hc
          rcases List.mem_append.1 hc with hc | hc
          · obtain ⟨j, hj, hlk2⟩ := h.link a0 ha c e3 hc
            exact ⟨a0, by simp, j, hj, hlk2⟩
          · obtain ⟨x, hx, j, hj, hlk2⟩ := hrel.orphLink c e3 hc
            exact ⟨x, List.mem_cons_of_mem _ hx, j, by rw [← hj]; exact (hko.inner c).symm, by rw [← houter x]; exact hlk2⟩
        · intro hA
          exact hrel.arena (hA.del ha)
      · rw [List.length_append, hlen]
        split <;> simp <;> omega
      · intro hb
        obtain ⟨hc1, hc2⟩ := hb1 hb
        rw [houter, houter] at hc1
        rw [houter, houter, hregf] at hc2
        subst hb
        simp only [if_true]
        constructor
        · rw [List.reverse_append]
          refine hc1.append ?_
          exact ⟨rfl, i, hlk, rfl, (s.alt a0).outer, (hN.inner a0 ha i hi).2.2, rfl⟩
        · simp only [List.flatMap_cons, hna, List.map_cons, List.cons_append, List.nil_append]
          -- i :: outer p :: path' ++ [outer a0]
          have h3 : (i :: (s.alt p).outer :: (path'.map (·.1) ++ [(s.alt a0).outer])).Perm
              ((s.alt a0).outer :: i :: (path'.map (·.1) ++ [(s.alt p).outer])) := by
            refine (List.Perm.cons i ((List.Perm.cons _ List.perm_append_comm).trans ?_)).trans (List.Perm.swap _ _ _)
            refine (List.Perm.swap _ _ _).trans ?_
            exact List.Perm.cons _ (List.perm_append_comm (l₁ := [(s.alt p).outer]))
          refine h3.trans ?_
          refine (List.Perm.cons _ (List.Perm.cons _ hc2)).trans ?_
          refine (List.Perm.cons _ (List.Perm.swap _ _ _)).trans (List.Perm.swap _ _ _)
      · intro hb
        obtain ⟨hc1, hc2⟩ := hb2 hb
        rw [houter, houter] at hc1
        rw [hregf] at hc2
        subst hb
        simp only [Bool.false_eq_true, if_false]
        constructor
        · have hl2 := hV _ _ _ hlk
          rw [reversed_reversed] at hl2
          exact ⟨rfl, i, hV _ _ _ (hN.inner a0 ha i hi).2.2, rfl, (s.alt p).outer, hl2, hc1⟩
        · simp only [List.flatMap_cons, hna, List.map_cons, List.cons_append, List.nil_append]
          exact List.Perm.cons _ (List.Perm.cons _ hc2)

end Verif.SB
