import Verif.Blossom.Alt

/-!
# Most recent common ancestors
-/

namespace Verif.SB

open Verif Verif.CE Verif.Mem
open Verif.Sch (Res)

/-- Equal up to the flags `visited`. -/
def VisEq (alt alt' : Nat → ANode) : Prop :=
  ∀ x, (alt' x).inner = (alt x).inner ∧ (alt' x).outer = (alt x).outer ∧ (alt' x).i2o = (alt x).i2o ∧ (alt' x).parent = (alt x).parent ∧
    (alt' x).children = (alt x).children

namespace VisEq

variable {alt alt' alt'' : Nat → ANode}

theorem refl (alt : Nat → ANode) : VisEq alt alt := fun _ => ⟨rfl, rfl, rfl, rfl, rfl⟩

theorem inner (h : VisEq alt alt') (x : Nat) : (alt' x).inner = (alt x).inner := (h x).1
theorem outer (h : VisEq alt alt') (x : Nat) : (alt' x).outer = (alt x).outer := (h x).2.1
theorem i2o (h : VisEq alt alt') (x : Nat) : (alt' x).i2o = (alt x).i2o := (h x).2.2.1
theorem parent (h : VisEq alt alt') (x : Nat) : (alt' x).parent = (alt x).parent := (h x).2.2.2.1
theorem children (h : VisEq alt alt') (x : Nat) : (alt' x).children = (alt x).children := (h x).2.2.2.2

theorem set (h : VisEq alt alt') (a : Nat) (b : Bool) : VisEq alt (Function.update alt' a { alt' a with visited := b }) := by
  intro x
  by_cases hx : x = a
  · subst hx; rw [Function.update_self]; exact h x
  · rw [Function.update_of_ne hx]; exact h x

theorem epar (h : VisEq alt alt') (Z : Finset Nat) (x : Nat) : SB.epar alt' Z x = SB.epar alt Z x := by
  unfold SB.epar; rw [h.parent]

end VisEq

theorem Shape.visEq {V : View} {alt alt' : Nat → ANode} {A Z : Finset Nat} {ach : Nat → List Nat} (h : Shape V alt A ach Z) (hv : VisEq alt alt') :
    Shape V alt' A ach Z := by
  have he : SB.epar alt' Z = SB.epar alt Z := funext fun x => hv.epar Z x
  have hk : akids alt' = akids alt := funext fun x => by unfold akids; rw [hv.children]
  refine ⟨by rw [he]; exact h.forest, by rw [he, hk]; exact h.kids, ?_, ?_, ?_⟩
  · intro a ha c e hc
    rw [hv.children] at hc
    rw [hv.parent]; exact h.edge a ha c e hc
  · intro a ha c e hc
    rw [hv.children] at hc
    rw [hv.inner, hv.outer]; exact h.link a ha c e hc
  · intro a ha haZ hp
    rw [hv.parent] at hp
    rw [hv.inner]; exact h.root a ha haZ hp

theorem Nodes.visEq {V : View} {alt alt' : Nat → ANode} {ralt : Nat → Option Nat} {A : Finset Nat} {E : Nat → Prop} (h : Nodes V alt ralt A E)
    (hv : VisEq alt alt') : Nodes V alt' ralt A E := by
  refine ⟨?_, ?_, ?_, ?_, ?_⟩
  · intro a ha; rw [hv.outer]; exact h.outer a ha
  · intro a ha; rw [hv.outer]; exact h.up a ha
  · intro a ha; rw [hv.outer]; exact h.grow a ha
  · intro a ha i hi; rw [hv.inner] at hi; rw [hv.outer, hv.i2o]; exact h.inner a ha i hi
  · intro a ha b hb i hi hj; rw [hv.inner] at hi hj; exact h.inj a ha b hb i hi hj

variable {alt : Nat → ANode} {A : Finset Nat} {ach : Nat → List Nat}

/-- Set the flag of one node. -/
theorem visited_set {alt' : Nat → ANode} {S S' : Nat → Prop} {a : Nat} (h : ∀ x ∈ A, (alt' x).visited = true ↔ S x)
    (hS : ∀ x ∈ A, S' x ↔ x = a ∨ S x) : ∀ x ∈ A, (Function.update alt' a { alt' a with visited := true } x).visited = true ↔ S' x := by
  intro x hx
  rw [hS x hx]
  by_cases hxa : x = a
  · subst hxa; simp
  · rw [Function.update_of_ne hxa, h x hx]; simp [hxa]

theorem visited_unset {alt' : Nat → ANode} {S S' : Nat → Prop} {a : Nat} (h : ∀ x ∈ A, (alt' x).visited = true ↔ S x)
    (hS : ∀ x ∈ A, S' x ↔ x ≠ a ∧ S x) : ∀ x ∈ A, (Function.update alt' a { alt' a with visited := false } x).visited = true ↔ S' x := by
  intro x hx
  rw [hS x hx]
  by_cases hxa : x = a
  · subst hxa; simp
  · rw [Function.update_of_ne hxa, h x hx]; simp [hxa]

theorem split_helper {l xs l1 l3 tl : List Nat} {a q : Nat} (h1 : l = xs ++ a :: tl) (h2 : xs ++ [a] = l1 ++ q :: l3) : l = l1 ++ q :: (l3 ++ tl) := by
  have : l = (xs ++ [a]) ++ tl := by rw [h1]; simp
  rw [this, h2]; simp

/-- What the search for a common ancestor of `a` and `b` found: the chains below the ancestor `c` are disjoint. -/
structure Meet (ach : Nat → List Nat) (a b c : Nat) (p1 p2 rest : List Nat) : Prop where
  left : ach a = p1 ++ c :: rest
  right : ach b = p2 ++ c :: rest
  disj : ∀ x ∈ p1, x ∉ p2

theorem mrcaLoop_spec (hF : Forest A (epar alt ∅) ach) {a b : Nat} (ha : a ∈ A) (hb : b ∈ A) (f : Nat) :
    ∀ (s : MS) (a' b' : Nat) (xs ys : List Nat), VisEq alt s.alt → ach a = xs ++ ach a' → ach b = ys ++ ach b' → a' ∈ A → b' ∈ A →
      (∀ x ∈ A, (s.alt x).visited = true ↔ x ∈ xs ++ [a'] ∨ x ∈ ys ++ [b']) → (∀ x ∈ xs ++ [a'], x ∉ ys ++ [b']) →
      (ach a').length ≤ f → (ach b').length ≤ f →
      ∃ alt', VisEq alt alt' ∧
        ((mrcaLoop f s a' b' = .ok ({ s with alt := alt' }, none) ∧ Forest.rootOf ach a ≠ Forest.rootOf ach b ∧
          ∀ x ∈ A, (alt' x).visited = true ↔ x ∈ ach a ∨ x ∈ ach b) ∨
         ∃ c p1 p2 rest m, mrcaLoop f s a' b' = .ok ({ s with alt := alt' }, some c) ∧ Meet ach a b c p1 p2 rest ∧
          ∀ x ∈ A, (alt' x).visited = true ↔ (x ∈ p1 ∨ x ∈ p2) ∨ x ∈ (c :: rest).take m) := by
  induction f with
  | zero =>
    intro s a' b' xs ys _ _ _ ha' _ _ _ hl _
    have := hF.self_mem ha'
    rw [List.eq_nil_of_length_eq_zero (Nat.le_zero.1 hl)] at this
    cases this
  | succ f ih =>
    intro s a' b' xs ys hv hxs hys ha' hb' hvis hdis hla hlb
    -- moving one side
    have hitA : ∀ p, ach a' = a' :: ach p → p ∈ A → ∀ x ∈ xs ++ [a'], x ≠ p := by
      rintro p e hp x hx rfl
      have hnd := hF.nodup ha
      rw [hxs, e] at hnd
      have hnd2 : ((xs ++ [a']) ++ ach x).Nodup := by simpa using hnd
      exact (List.disjoint_of_nodup_append hnd2) hx (hF.self_mem hp)
    have hitB : ∀ p, ach b' = b' :: ach p → p ∈ A → ∀ x ∈ ys ++ [b'], x ≠ p := by
      rintro p e hp x hx rfl
      have hnd := hF.nodup hb
      rw [hys, e] at hnd
      have hnd2 : ((ys ++ [b']) ++ ach x).Nodup := by simpa using hnd
      exact (List.disjoint_of_nodup_append hnd2) hx (hF.self_mem hp)
    rcases hF.cases ha' with ⟨hpa, eca⟩ | ⟨p, hpa, hpA, eca⟩ <;> rcases hF.cases hb' with ⟨hpb, ecb⟩ | ⟨q, hpb, hqA, ecb⟩
    · -- two roots
      have e1 : (s.alt a').parent = none := by rw [hv.parent]; simpa [epar] using hpa
      have e2 : (s.alt b').parent = none := by rw [hv.parent]; simpa [epar] using hpb
      refine ⟨s.alt, hv, .inl ⟨by simp [mrcaLoop, e1, e2], ?_, by rw [hxs, hys, eca, ecb]; exact hvis⟩⟩
      have r1 : Forest.rootOf ach a = some a' := (hF.rootOf_iff ha).2 ⟨by rw [hxs, eca]; simp, hpa⟩
      have r2 : Forest.rootOf ach b = some b' := (hF.rootOf_iff hb).2 ⟨by rw [hys, ecb]; simp, hpb⟩
      rw [r1, r2]
      intro e
      cases e
      exact hdis a' (by simp) (by simp)
    · -- only b moves
      have e1 : (s.alt a').parent = none := by rw [hv.parent]; simpa [epar] using hpa
      obtain ⟨qe, e2⟩ : ∃ qe, (s.alt b').parent = some (q, qe) := by
        rw [hv.parent]
        simp only [epar, Finset.notMem_empty, if_false, Option.map_eq_some_iff] at hpb
        obtain ⟨⟨u, v⟩, h1, h2⟩ := hpb
        exact ⟨v, by rw [h1, ← h2]⟩
      by_cases hq : (s.alt q).visited = true
      · refine ⟨s.alt, hv, .inr ?_⟩
        have hqx : q ∈ xs ++ [a'] := by
          rcases (hvis q hqA).1 hq with h | h
          · exact h
          · exact absurd rfl (hitB q ecb hqA q h)
        obtain ⟨l1, l3, e3⟩ := List.append_of_mem hqx
        have hA : ach a = l1 ++ q :: (l3 ++ (ach a').tail) := by
          exact split_helper (a := a') (by rw [hxs, eca]; rfl) e3
        have hQ := hF.chain_split ha hA
        refine ⟨q, l1, ys ++ [b'], l3 ++ (ach a').tail, l3.length + 1, by simp [mrcaLoop, e1, e2, hq], ⟨hA, ?_, ?_⟩, ?_⟩
        · rw [hys, ecb, hQ]; simp
        · intro x hx; exact hdis x (by rw [e3]; exact List.mem_append_left _ hx)
        · intro x hx
          rw [hvis x hx, e3]
          have : (q :: (l3 ++ (ach a').tail)).take (l3.length + 1) = q :: l3 := by simp
          rw [this]
          simp only [List.mem_append, List.mem_cons]
          tauto
      · obtain ⟨alt', hv', hres⟩ := ih (s.setAlt q fun A => { A with visited := true }) a' q xs (ys ++ [b']) (hv.set q true) hxs
          (by rw [hys, ecb]; simp) ha' hqA (visited_set hvis (by intro x _; simp only [List.mem_append, List.mem_singleton]; tauto))
          (by
            intro x hx hx2
            rcases List.mem_append.1 hx2 with h | h
            · exact hdis x hx h
            · rw [List.mem_singleton] at h
              subst h
              exact hq ((hvis x hqA).2 (.inl hx)))
          (by rw [eca]; rw [ecb] at hlb; have := List.length_pos_of_mem (hF.self_mem hqA); simp at hlb ⊢; omega)
          (by rw [ecb] at hlb; simpa using hlb)
        refine ⟨alt', hv', ?_⟩
        have e3 : mrcaLoop (f + 1) s a' b' = mrcaLoop f (s.setAlt q fun A => { A with visited := true }) a' q := by
          simp [mrcaLoop, e1, e2, hq]
        rw [e3]
        exact hres
    · -- only a moves
      have e2 : (s.alt b').parent = none := by rw [hv.parent]; simpa [epar] using hpb
      obtain ⟨qe, e1⟩ : ∃ qe, (s.alt a').parent = some (p, qe) := by
        rw [hv.parent]
        simp only [epar, Finset.notMem_empty, if_false, Option.map_eq_some_iff] at hpa
        obtain ⟨⟨u, v⟩, h1, h2⟩ := hpa
        exact ⟨v, by rw [h1, ← h2]⟩
      by_cases hq : (s.alt p).visited = true
      · refine ⟨s.alt, hv, .inr ?_⟩
        have hqx : p ∈ ys ++ [b'] := by
          rcases (hvis p hpA).1 hq with h | h
          · exact absurd rfl (hitA p eca hpA p h)
          · exact h
        obtain ⟨l1, l3, e3⟩ := List.append_of_mem hqx
        have hA : ach b = l1 ++ p :: (l3 ++ (ach b').tail) := by
          exact split_helper (a := b') (by rw [hys, ecb]; rfl) e3
        have hQ := hF.chain_split hb hA
        refine ⟨p, xs ++ [a'], l1, l3 ++ (ach b').tail, l3.length + 1, by simp [mrcaLoop, e1, e2, hq], ⟨?_, hA, ?_⟩, ?_⟩
        · rw [hxs, eca, hQ]; simp
        · intro x hx hx2; exact hdis x hx (by rw [e3]; exact List.mem_append_left _ hx2)
        · intro x hx
          rw [hvis x hx, e3]
          have : (p :: (l3 ++ (ach b').tail)).take (l3.length + 1) = p :: l3 := by simp
          rw [this]
          simp only [List.mem_append, List.mem_cons]
          tauto
      · obtain ⟨alt', hv', hres⟩ := ih (s.setAlt p fun A => { A with visited := true }) p b' (xs ++ [a']) ys (hv.set p true)
          (by rw [hxs, eca]; simp) hys hpA hb' (visited_set hvis (by intro x _; simp only [List.mem_append, List.mem_singleton]; tauto))
          (by
            intro x hx hx2
            rcases List.mem_append.1 hx with h | h
            · exact hdis x h hx2
            · rw [List.mem_singleton] at h
              subst h
              exact hq ((hvis x hpA).2 (.inr hx2)))
          (by rw [eca] at hla; simpa using hla)
          (by rw [ecb]; rw [eca] at hla; have := List.length_pos_of_mem (hF.self_mem hpA); simp at hla ⊢; omega)
        refine ⟨alt', hv', ?_⟩
        have e3 : mrcaLoop (f + 1) s a' b' = mrcaLoop f (s.setAlt p fun A => { A with visited := true }) p b' := by
          simp [mrcaLoop, e1, e2, hq]
        rw [e3]
        exact hres
    · -- both move
      obtain ⟨pe, e1⟩ : ∃ pe, (s.alt a').parent = some (p, pe) := by
        rw [hv.parent]
        simp only [epar, Finset.notMem_empty, if_false, Option.map_eq_some_iff] at hpa
        obtain ⟨⟨u, v⟩, h1, h2⟩ := hpa
        exact ⟨v, by rw [h1, ← h2]⟩
      obtain ⟨qe, e2⟩ : ∃ qe, (s.alt b').parent = some (q, qe) := by
        rw [hv.parent]
        simp only [epar, Finset.notMem_empty, if_false, Option.map_eq_some_iff] at hpb
        obtain ⟨⟨u, v⟩, h1, h2⟩ := hpb
        exact ⟨v, by rw [h1, ← h2]⟩
      by_cases hp : (s.alt p).visited = true
      · refine ⟨s.alt, hv, .inr ?_⟩
        have hqx : p ∈ ys ++ [b'] := by
          rcases (hvis p hpA).1 hp with h | h
          · exact absurd rfl (hitA p eca hpA p h)
          · exact h
        obtain ⟨l1, l3, e3⟩ := List.append_of_mem hqx
        have hA : ach b = l1 ++ p :: (l3 ++ (ach b').tail) := by
          exact split_helper (a := b') (by rw [hys, ecb]; rfl) e3
        have hQ := hF.chain_split hb hA
        refine ⟨p, xs ++ [a'], l1, l3 ++ (ach b').tail, l3.length + 1, by simp [mrcaLoop, e1, e2, hp], ⟨?_, hA, ?_⟩, ?_⟩
        · rw [hxs, eca, hQ]; simp
        · intro x hx hx2; exact hdis x hx (by rw [e3]; exact List.mem_append_left _ hx2)
        · intro x hx
          rw [hvis x hx, e3]
          have : (p :: (l3 ++ (ach b').tail)).take (l3.length + 1) = p :: l3 := by simp
          rw [this]
          simp only [List.mem_append, List.mem_cons]
          tauto
      · have hvis1 : ∀ x ∈ A, ((s.setAlt p fun A => { A with visited := true }).alt x).visited = true ↔ x ∈ (xs ++ [a']) ++ [p] ∨ x ∈ ys ++ [b'] :=
          visited_set hvis (by intro x _; simp only [List.mem_append, List.mem_singleton]; tauto)
        have hdis1 : ∀ x ∈ (xs ++ [a']) ++ [p], x ∉ ys ++ [b'] := by
          intro x hx hx2
          rcases List.mem_append.1 hx with h | h
          · exact hdis x h hx2
          · rw [List.mem_singleton] at h
            subst h
            exact hp ((hvis x hpA).2 (.inr hx2))
        have hxs1 : ach a = (xs ++ [a']) ++ ach p := by rw [hxs, eca]; simp
        have hv1 : VisEq alt (s.setAlt p fun A => { A with visited := true }).alt := hv.set p true
        generalize hs1 : (s.setAlt p fun A => { A with visited := true }) = s1 at hvis1 hv1
        have hfields : ∀ alt', { s with alt := alt' } = { s1 with alt := alt' } := by intro alt'; rw [← hs1]; rfl
        by_cases hq : (s1.alt q).visited = true
        · refine ⟨s1.alt, hv1, .inr ?_⟩
          have hqx : q ∈ (xs ++ [a']) ++ [p] := by
            rcases (hvis1 q hqA).1 hq with h | h
            · exact h
            · exact absurd rfl (hitB q ecb hqA q h)
          obtain ⟨l1, l3, e3⟩ := List.append_of_mem hqx
          have hA : ach a = l1 ++ q :: (l3 ++ (ach p).tail) := by
            obtain ⟨lp, elp⟩ := hF.chain_self hpA
            exact split_helper (a := p) (by rw [hxs1, elp]; rfl) e3
          have hQ := hF.chain_split ha hA
          refine ⟨q, l1, ys ++ [b'], l3 ++ (ach p).tail, l3.length + 1, ?_, ⟨hA, ?_, ?_⟩, ?_⟩
          · rw [hfields]
            simp [mrcaLoop, e1, e2, hp, hs1, hq]
          · rw [hys, ecb, hQ]; simp
          · intro x hx; exact hdis1 x (by rw [e3]; exact List.mem_append_left _ hx)
          · intro x hx
            rw [hvis1 x hx, e3]
            have : (q :: (l3 ++ (ach p).tail)).take (l3.length + 1) = q :: l3 := by simp
            rw [this]
            simp only [List.mem_append, List.mem_cons]
            tauto
        · obtain ⟨alt', hv', hres⟩ := ih (s1.setAlt q fun A => { A with visited := true }) p q (xs ++ [a']) (ys ++ [b']) (hv1.set q true) hxs1
            (by rw [hys, ecb]; simp) hpA hqA (visited_set hvis1 (by intro x _; simp only [List.mem_append, List.mem_singleton]; tauto))
            (by
              intro x hx hx2
              rcases List.mem_append.1 hx2 with h | h
              · exact hdis1 x hx h
              · rw [List.mem_singleton] at h
                subst h
                exact hq ((hvis1 x hqA).2 (.inl hx)))
            (by rw [eca] at hla; simpa using hla)
            (by rw [ecb] at hlb; simpa using hlb)
          refine ⟨alt', hv', ?_⟩
          have e3 : mrcaLoop (f + 1) s a' b' = mrcaLoop f (s1.setAlt q fun A => { A with visited := true }) p q := by
            simp [mrcaLoop, e1, e2, hp, hs1, hq]
          rw [e3, hfields]
          exact hres

theorem unvisit_spec (hF : Forest A (epar alt ∅) ach) (Q : Nat → Prop) (f : Nat) : ∀ (s : MS) (c : Nat) (rest : List Nat) (m : Nat), VisEq alt s.alt →
    c ∈ A → ach c = c :: rest → (∀ x ∈ ach c, ¬ Q x) → (∀ x ∈ A, (s.alt x).visited = true ↔ Q x ∨ x ∈ rest.take m) → (ach c).length ≤ f →
    ∃ alt', VisEq alt alt' ∧ unvisit f s c = .ok { s with alt := alt' } ∧ ∀ x ∈ A, (alt' x).visited = true ↔ Q x := by
  induction f with
  | zero => intro s c rest m _ _ e _ _ hl; rw [e] at hl; simp at hl
  | succ f ih =>
    intro s c rest m hv hc e hQ hvis hl
    rcases hF.cases hc with ⟨hp, ec⟩ | ⟨p, hp, hpA, ec⟩
    · have e1 : (s.alt c).parent = none := by rw [hv.parent]; simpa [epar] using hp
      refine ⟨s.alt, hv, by simp [unvisit, e1], ?_⟩
      rw [ec] at e
      cases e
      simpa using hvis
    · obtain ⟨pe, e1⟩ : ∃ pe, (s.alt c).parent = some (p, pe) := by
        rw [hv.parent]
        simp only [epar, Finset.notMem_empty, if_false, Option.map_eq_some_iff] at hp
        obtain ⟨⟨u, v⟩, h1, h2⟩ := hp
        exact ⟨v, by rw [h1, ← h2]⟩
      obtain ⟨lp, elp⟩ := hF.chain_self hpA
      have hrest : rest = p :: lp := by rw [ec, elp] at e; cases e; rfl
      subst hrest
      have hQp : ∀ x ∈ ach p, ¬ Q x := fun x hx => hQ x (by rw [ec]; exact List.mem_cons_of_mem _ hx)
      cases m with
      | zero =>
        have : ¬ (s.alt p).visited = true := by
          rw [hvis p hpA]
          simp only [List.take_zero, List.not_mem_nil, or_false]
          exact hQp p (hF.self_mem hpA)
        exact ⟨s.alt, hv, by simp [unvisit, e1, this], by simpa using hvis⟩
      | succ m =>
        have hpv : (s.alt p).visited = true := (hvis p hpA).2 (.inr (by simp))
        have hnd := hF.nodup hpA
        rw [elp] at hnd
        obtain ⟨alt', h1, h2, h3⟩ := ih (s.setAlt p fun A => { A with visited := false }) p lp m (hv.set p false) hpA elp hQp
          (visited_unset hvis (by
            intro x hx
            simp only [List.take_succ_cons, List.mem_cons]
            constructor
            · rintro (h | h)
              · exact ⟨fun e => hQp x (by rw [e]; exact hF.self_mem hpA) h, .inl h⟩
              · exact ⟨fun e => (List.nodup_cons.1 hnd).1 (by rw [← e]; exact List.mem_of_mem_take h), .inr (.inr h)⟩
            · rintro ⟨h4, h5 | h5 | h5⟩
              · exact .inl h5
              · exact absurd h5 h4
              · exact .inr h5))
          (by rw [ec] at hl; simpa using hl)
        exact ⟨alt', h1, by rw [show unvisit (f + 1) s c = unvisit f (s.setAlt p fun A => { A with visited := false }) p by simp [unvisit, e1, hpv]]; exact h2, h3⟩

/-- The most recent common ancestor of two different nodes. -/
theorem mrca_spec (s : MS) (hF : Forest A (epar s.alt ∅) ach) {a b : Nat} (ha : a ∈ A) (hb : b ∈ A) (hne : a ≠ b) (hcard : A.card ≤ s.altDepth)
    (hclean : ∀ x ∈ A, (s.alt x).visited = false) :
    ∃ alt', VisEq s.alt alt' ∧
      ((mrca s a b = .ok ({ s with alt := alt' }, none) ∧ Forest.rootOf ach a ≠ Forest.rootOf ach b ∧
          ∀ x ∈ A, (alt' x).visited = true ↔ x ∈ ach a ∨ x ∈ ach b) ∨
       ∃ c p1 p2 rest, mrca s a b = .ok ({ s with alt := alt' }, some c) ∧ Meet ach a b c p1 p2 rest ∧
        ∀ x ∈ A, (alt' x).visited = true ↔ x ∈ p1 ∨ x ∈ p2) := by
  have hl : ∀ x ∈ A, (ach x).length ≤ s.altDepth + 1 := fun x hx => by have := hF.length_le hx; omega
  have hvis0 : ∀ x ∈ A, (s.alt x).visited = true ↔ False := fun x hx => by rw [hclean x hx]; simp
  obtain ⟨alt1, hv1, hres⟩ := mrcaLoop_spec hF ha hb (s.altDepth + 1)
    ((s.setAlt a fun A => { A with visited := true }).setAlt b fun A => { A with visited := true }) a b [] []
    (((VisEq.refl s.alt).set a true).set b true) rfl rfl ha hb
    (visited_set (S := fun x => x = a) (visited_set hvis0 (by simp)) (by intro x _; simp; tauto))
    (by simpa using hne) (hl a ha) (hl b hb)
  have hd : ((s.setAlt a fun A => { A with visited := true }).setAlt b fun A => { A with visited := true }).altDepth = s.altDepth := rfl
  rcases hres with ⟨e, hr⟩ | ⟨c, p1, p2, rest, m, e, hm, hvis⟩
  · refine ⟨alt1, hv1, .inl ⟨?_, hr⟩⟩
    unfold mrca
    simp only
    rw [hd, e]
    rfl
  · have hcA : c ∈ A := hF.mem_live ha (by rw [hm.left]; simp)
    have ec := hF.chain_split ha hm.left
    have hnd1 := hF.nodup ha
    rw [hm.left] at hnd1
    have hnd2 := hF.nodup hb
    rw [hm.right] at hnd2
    have hndc := hF.nodup hcA
    rw [ec] at hndc
    have hQ : ∀ x ∈ ach c, ¬ (x ∈ p1 ∨ x ∈ p2) := by
      rw [ec]
      rintro x hx (h | h)
      · exact (List.disjoint_of_nodup_append hnd1) h hx
      · exact (List.disjoint_of_nodup_append hnd2) h hx
    obtain ⟨alt2, hv2, e2, hvis2⟩ := unvisit_spec hF (fun x => x ∈ p1 ∨ x ∈ p2) (s.altDepth + 1)
      ({ s with alt := alt1 }.setAlt c fun A => { A with visited := false }) c rest (m - 1) (hv1.set c false) hcA ec hQ
      (visited_unset hvis (by
        intro x hx
        constructor
        · rintro (h | h)
          · exact ⟨fun e => hQ c (hF.self_mem hcA) (e ▸ h), .inl h⟩
          · refine ⟨fun e => (List.nodup_cons.1 hndc).1 (by rw [← e]; exact List.mem_of_mem_take h), .inr ?_⟩
            cases m with
            | zero => simp at h
            | succ m => rw [List.take_succ_cons]; exact List.mem_cons_of_mem _ h
        · rintro ⟨h1, h2 | h2⟩
          · exact .inl h2
          · right
            cases m with
            | zero => simp at h2
            | succ m =>
              rw [List.take_succ_cons] at h2
              rcases List.mem_cons.1 h2 with h3 | h3
              · exact absurd h3 h1
              · exact h3))
      (hl c hcA)
    refine ⟨alt2, hv2, .inr ⟨c, p1, p2, rest, ?_, hm, hvis2⟩⟩
    unfold mrca
    simp only
    rw [hd, e]
    show (unvisit (s.altDepth + 1) ({ s with alt := alt1 }.setAlt c fun A => { A with visited := false }) c).bind _ = _
    rw [e2]
    rfl

end Verif.SB
