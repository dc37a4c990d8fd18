import Verif.Props.World

/-!
# C88: laws for the returned weight
-/

namespace Verif.Props.Laws

open Verif Verif.SB Verif.UG Verif.Obj Verif.Dbl Verif.ObjD Verif.Session Verif.Sim Verif.World
open Verif.Props.Session Verif.Props.Simulate Verif.Props.World
open Verif.Props.Edges (Completes)
open Verif.Sch (Res)

/-! ## Specification -/

/-- What the command gives contains the weight `q` for network `N` and detection events `F`: `decode` with `return_weight`, a shot of `decode_batch` with `return_weights`, or a trial. -/
inductive Reports {R : Source} (room : Room R) : Command → Result → Net → (Nat → Prop) → ℚ → Prop
  | decode {x : Nat} {t : Thing} {z : Syn.Arr} {row : List (BitVec 8)} {q : ℚ} : room.things x = some t → Reports room (.act x (.stmt (.decode z true false))) (.out (.reply (.pair row (.num q)))) t.net (Fires z) q
  | shot {x : Nat} {t : Thing} {ps pp : Bool} {cols : Nat} {rows outs : List (List (BitVec 8))} {ws : List Double} {i : Nat} {row : List (BitVec 8)} {q : ℚ} : room.things x = some t → rows[i]? = some row → ws[i]? = some (.num q) →
      Reports room (.act x (.stmt (.decodeBatch ps pp true false cols rows))) (.out (.reply (.rowsAndWeights outs ws))) t.net (ShotFires ps row) q
  | trial {x : Nat} {t : Thing} {s : Sample} {row : List (BitVec 8)} {q : ℚ} : room.things x = some t → Reports room (.act x (.trial false)) (.out (.trial s (.pair row (.num q)))) t.net (Flips t.net (stream R room.state)) q

/-- How much a weight may be off: nothing if all weights are integers, otherwise about one and a half steps per link, where the greatest weight has `2 ^ 24 - 1` steps. -/
def Off (N : Net) (s : ℚ) : Prop :=
  (Whole N ∧ s = 0) ∨
  (¬ Whole N ∧ ∃ m ∈ N.numbers, (∀ w ∈ N.numbers, |w| ≤ |m|) ∧ s = N.links.length * (3 / 2 + 1 / 2 ^ 24) * (|m| / (2 ^ 24 - 1)) + 1 / 2 ^ 1074)

/-- One of the reports in a run. -/
def Seen {R : Source} (scenes : List (Room R × Command)) (rs : List Result) (N : Net) (F : Nat → Prop) (q s : ℚ) : Prop :=
  ∃ (k : Nat) (m : Room R × Command) (r : Result), scenes[k]? = some m ∧ rs[k]? = some r ∧ Reports m.1 m.2 r N F q ∧ N.links.length < 2 ^ 29 ∧ Off N s

/-- The two ends of a link, in no order. -/
def tips (l : Link) : Sym2 (Option Nat) := s(some l.a, l.b)

/-- All links of `N` are in `N'`, under new names (`σ`) of the nodes, with no larger weights; boundary nodes are still boundary nodes; and the events are the same. -/
def Easier (N : Net) (F : Nat → Prop) (N' : Net) (F' : Nat → Prop) : Prop :=
  ∃ (φ : Fin N.links.length ↪ Fin N'.links.length) (σ : Equiv.Perm ℕ), (∀ i, tips N'.links[φ i] = (tips N.links[i]).map (Option.map σ)) ∧
    (∀ i, N'.links[φ i].weight ≤ N.links[i].weight) ∧ (∀ x, x ∈ N.boundary → σ x ∈ N'.boundary) ∧ ∀ x, σ x ∉ N'.boundary → (F x ↔ F' (σ x))

/-- The same problem with other names of the nodes; links in another order or direction. -/
def Alike (N : Net) (F : Nat → Prop) (N' : Net) (F' : Nat → Prop) : Prop :=
  ∃ (φ : Fin N.links.length ≃ Fin N'.links.length) (σ : Equiv.Perm ℕ), (∀ i, tips N'.links[φ i] = (tips N.links[i]).map (Option.map σ)) ∧
    (∀ i, N'.links[φ i].weight = N.links[i].weight) ∧ (∀ x, x ∈ N.boundary ↔ σ x ∈ N'.boundary) ∧ ∀ x, x ∉ N.boundary → (F x ↔ F' (σ x))

/-- The weights are multiplied by `c`. -/
def Scaled (c : ℚ) (N : Net) (F : Nat → Prop) (N' : Net) (F' : Nat → Prop) : Prop :=
  ∃ φ : Fin N.links.length ≃ Fin N'.links.length, (∀ i, tips N'.links[φ i] = tips N.links[i]) ∧ (∀ i, N'.links[φ i].weight = c * N.links[i].weight) ∧ N'.boundary = N.boundary ∧
    ∀ x, x ∉ N.boundary → (F x ↔ F' x)

/-- The link ends at `x`, on one side only. -/
def Link.EndsAt (l : Link) (x : Nat) : Prop := Xor (l.a = x) (l.b = some x)

/-- The weight of link `i` has the opposite sign, and the events at its ends are toggled. -/
def Flipped (N : Net) (i : Fin N.links.length) (F : Nat → Prop) (N' : Net) (F' : Nat → Prop) : Prop :=
  ∃ φ : Fin N.links.length ≃ Fin N'.links.length, (∀ j, tips N'.links[φ j] = tips N.links[j]) ∧ (∀ j, N'.links[φ j].weight = if j = i then -N.links[j].weight else N.links[j].weight) ∧
    N'.boundary = N.boundary ∧ ∀ x, x ∉ N.boundary → (F' x ↔ Xor (F x) (Link.EndsAt N.links[i] x))

/-- The link touches node `x`. -/
def Link.Touches (l : Link) (x : Nat) : Prop := l.a = x ∨ l.b = some x

/-- `N` consists of two parts without common nodes, apart from boundary nodes; the events of each part are outside the other. -/
def Parts (N : Net) (F : Nat → Prop) (N₁ : Net) (F₁ : Nat → Prop) (N₂ : Net) (F₂ : Nat → Prop) : Prop :=
  ∃ φ : Fin N₁.links.length ⊕ Fin N₂.links.length ≃ Fin N.links.length,
    (∀ i, tips N.links[φ (.inl i)] = tips N₁.links[i] ∧ N.links[φ (.inl i)].weight = N₁.links[i].weight) ∧
    (∀ i, tips N.links[φ (.inr i)] = tips N₂.links[i] ∧ N.links[φ (.inr i)].weight = N₂.links[i].weight) ∧
    N₁.boundary = N.boundary ∧ N₂.boundary = N.boundary ∧
    ∀ x, x ∉ N.boundary → (F x ↔ F₁ x ∨ F₂ x) ∧ ((F₁ x ∨ ∃ l ∈ N₁.links, Link.Touches l x) → ¬ F₂ x ∧ ∀ l ∈ N₂.links, ¬ Link.Touches l x) ∧
      ((F₂ x ∨ ∃ l ∈ N₂.links, Link.Touches l x) → ¬ F₁ x ∧ ∀ l ∈ N₁.links, ¬ Link.Touches l x)

/-- What holds for two reports. -/
structure TwoLaws (N : Net) (F : Nat → Prop) (q s : ℚ) (N' : Net) (F' : Nat → Prop) (q' s' : ℚ) : Prop where
  easier : Easier N F N' F' → q' ≤ q + s + s'
  alike : Alike N F N' F' → |q' - q| ≤ s + s'
  scaled : ∀ c, 0 ≤ c → Scaled c N F N' F' → |q' - c * q| ≤ c * s + s'
  flipped : ∀ i, Flipped N i F N' F' → |q' - (q - N.links[i].weight)| ≤ s + s'

/-- What holds for three reports. -/
structure ThreeLaws (N : Net) (F : Nat → Prop) (q s : ℚ) (N₁ : Net) (F₁ : Nat → Prop) (q₁ s₁ : ℚ) (N₂ : Net) (F₂ : Nat → Prop) (q₂ s₂ : ℚ) : Prop where
  /-- Without negative weights: the exclusive or of two syndromes. -/
  triangle : N₁ = N → N₂ = N → (∀ l ∈ N.links, 0 ≤ l.weight) → (∀ x, x ∉ N.boundary → (F x ↔ Xor (F₁ x) (F₂ x))) → q ≤ q₁ + q₂ + (s + s₁ + s₂)
  parts : Parts N F N₁ F₁ N₂ F₂ → |q - (q₁ + q₂)| ≤ s + s₁ + s₂

/-! ## Lemmas -/

/-- The weight is least, up to `s`. -/
def Least (N : Net) (F : Nat → Prop) (s q : ℚ) : Prop := (∃ C : N.Links, Explained C F ∧ cost C ≤ q + s) ∧ ∀ C : N.Links, Explained C F → q ≤ cost C + s

theorem least_of {N : Net} {F : Nat → Prop} {u s q : ℚ} {ρ : Fin N.links.length → ℚ} {C : N.Links} (hu : StepOf N u) (hρ : Weighed u F false ρ) (hC : CheapFor u ρ F C)
    (hq : CostsFor u ρ C (.num q)) (hn : N.links.length < 2 ^ 29) (hs : Off N s) : Least N F s q := by
  have hρ : ρ = fun j => N.links[j].weight := funext (by simpa [Weighed] using hρ)
  subst hρ
  obtain ⟨q', e, h1, h2⟩ := hq
  cases e
  obtain ⟨h3, h4⟩ := hC
  have hcard : ∀ C : N.Links, (C.card : ℚ) ≤ N.links.length := fun C => by
    have := Finset.card_le_univ C
    rw [Fintype.card_fin] at this
    exact_mod_cast this
  change |q - cost C| ≤ _ at h1
  change _ → _ → q = cost C at h2
  change ∀ C' : N.Links, Explained C' F → cost C ≤ cost C' + _ ∧ (_ → cost C ≤ cost C') at h4
  rcases hs with ⟨hw, rfl⟩ | ⟨hw, m, hm1, hm2, rfl⟩
  · refine ⟨⟨C, h3, by rw [h2 hw hn]; simp⟩, fun C' h' => ?_⟩
    rw [h2 hw hn, add_zero]
    exact (h4 C' h').2 hw
  · obtain ⟨hw', -⟩ | ⟨-, m', hm1', hm2', hu⟩ := hu
    · exact absurd hw' hw
    have hmm : |m| = |m'| := le_antisymm (hm2' m hm1) (hm2 m' hm1')
    rw [hmm, ← hu]
    have hu0 : 0 ≤ u := by rw [hu]; positivity
    have a1 := mul_le_mul_of_nonneg_right (hcard C) hu0
    have a0 : (0 : ℚ) ≤ N.links.length * u := by positivity
    have a2 := abs_le.1 h1
    refine ⟨⟨C, h3, ?_⟩, fun C' h' => ?_⟩
    · have : (C.card : ℚ) * (1 / 2 + 1 / 2 ^ 25) * u ≤ N.links.length * (3 / 2 + 1 / 2 ^ 24) * u := by nlinarith
      linarith [a2.1]
    · have a3 := mul_le_mul_of_nonneg_right (hcard C') hu0
      have a4 := (h4 C' h').1
      push_cast at a4
      have : (C.card : ℚ) * (1 / 2 + 1 / 2 ^ 25) * u + ((C.card : ℚ) + C'.card) * (1 / 2 + 1 / 2 ^ 27) * u ≤ N.links.length * (3 / 2 + 1 / 2 ^ 24) * u := by nlinarith
      linarith [a2.2]

theorem reports_least {R : Source} {A : Arithmetic} {room : Room R} {c : Command} {r : Result} {N : Net} {F : Nat → Prop} {q s : ℚ} (hr : RightCommand A room c r) (h : Reports room c r N F q)
    (hn : N.links.length < 2 ^ 29) (hs : Off N s) : Least N F s q := by
  cases h with
  | decode ht =>
    simp only [RightCommand, ht] at hr
    obtain ⟨out, e, hr⟩ := hr
    cases e
    obtain ⟨r, e, hr⟩ := hr
    cases e
    rcases hr with ⟨-, -, u, hu, ρ, C, row, x, h1, h2, h3, h4, e⟩ | ⟨e, -⟩
    · simp only [if_true] at e
      cases e
      exact least_of hu h1 h2 h4 hn hs
    · cases e
  | @shot x t ps pp cols rows outs ws i row q ht hi hw =>
    simp only [RightCommand, ht] at hr
    obtain ⟨out, e, hr⟩ := hr
    cases e
    obtain ⟨r, e, hr⟩ := hr
    cases e
    rcases hr with ⟨-, -, u, hu, outs', ws', l1, l2, h1, e⟩ | ⟨e, -⟩
    · simp only [if_true] at e
      cases e
      have hlt : i < rows.length := by
        by_contra h
        rw [List.getElem?_eq_none (by omega)] at hi
        cases hi
      have hz : (outs.zip ws)[i]? = some (outs[i]'(by omega), .num q) := by
        rw [List.getElem?_zip_eq_some]
        exact ⟨List.getElem?_eq_getElem _, hw⟩
      have h2 := List.forall₂_iff_get.1 h1
      have hz' : i < (outs.zip ws).length := by rw [List.length_zip]; omega
      have h3 := h2.2 i hlt hz'
      rw [List.getElem?_eq_getElem hlt] at hi
      rw [List.getElem?_eq_getElem hz'] at hz
      simp only [Option.some.injEq] at hi hz
      simp only [List.get_eq_getElem, hi, hz] at h3
      obtain ⟨ρ, C, h3, h4, h5, h6⟩ := h3
      exact least_of hu h3 h4 h6 hn hs
    · cases e
  | trial ht =>
    simp only [RightCommand, ht] at hr
    obtain ⟨out, e, hr⟩ := hr
    cases e
    rcases hr with ⟨-, s', r, -, e, hr⟩ | ⟨-, e⟩
    · cases e
      rw [if_neg (by simp)] at hr
      obtain ⟨u, hu, ρ, C, row, x, h1, h2, h3, e⟩ := hr
      cases e
      exact least_of hu h1 h2.1 h3 hn hs
    · cases e

/-- How often the link ends at the node. -/
def ends (l : Link) (x : Nat) : Nat := (if l.a = x then 1 else 0) + (if l.b = some x then 1 else 0)

theorem degreeAt_eq {N : Net} (C : N.Links) (x : Nat) : degreeAt C x = ∑ i ∈ C, ends N.links[i] x := rfl

theorem ends_tips {l l' : Link} {σ : Equiv.Perm ℕ} (h : tips l' = (tips l).map (Option.map σ)) (x : Nat) : ends l' (σ x) = ends l x := by
  obtain ⟨a, b, _, _, _, _⟩ := l
  obtain ⟨a', b', _, _, _, _⟩ := l'
  simp only [tips, Sym2.map_mk, Option.map_some, Sym2.eq_iff] at h
  have hb : ∀ b : Option Nat, b.map σ = some (σ x) ↔ b = some x := fun b => by cases b <;> simp
  rcases h with ⟨h1, rfl⟩ | ⟨h1, rfl⟩
  · cases h1
    simp only [ends, σ.injective.eq_iff, hb]
  · have h2 : a' = σ x ↔ b = some x := by rw [← hb b, ← h1]; simp
    simp only [ends, h2, Option.some.injEq, σ.injective.eq_iff]
    omega

theorem ends_same {l l' : Link} (h : tips l' = tips l) (x : Nat) : ends l' x = ends l x :=
  ends_tips (σ := 1) (by rw [h]; simp [Equiv.Perm.coe_one]) x

theorem ends_odd (l : Link) (x : Nat) : ends l x % 2 = 1 ↔ Link.EndsAt l x := by
  unfold ends Link.EndsAt Xor
  split_ifs <;> simp_all

theorem ends_zero {l : Link} {x : Nat} (h : ¬ Link.Touches l x) : ends l x = 0 := by
  unfold Link.Touches at h
  rw [not_or] at h
  simp [ends, h.1, h.2]

theorem degree_symmDiff {N : Net} (C D : N.Links) (x : Nat) : degreeAt (symmDiff C D) x % 2 = (degreeAt C x + degreeAt D x) % 2 := by
  simp only [degreeAt_eq]
  have h1 : symmDiff C D = (C \ D) ∪ (D \ C) := rfl
  rw [h1, Finset.sum_union (Finset.disjoint_left.2 fun a ha hb => (Finset.mem_sdiff.1 hb).2 (Finset.mem_sdiff.1 ha).1)]
  have h2 := Finset.sum_sdiff (f := fun i => ends N.links[i] x) (Finset.inter_subset_left (s₁ := C) (s₂ := D))
  have h3 := Finset.sum_sdiff (f := fun i => ends N.links[i] x) (Finset.inter_subset_right (s₁ := C) (s₂ := D))
  rw [Finset.sdiff_inter_self_left] at h2
  rw [Finset.sdiff_inter_self_right] at h3
  omega

theorem odd_add (a b : Nat) : (a + b) % 2 = 1 ↔ Xor (a % 2 = 1) (b % 2 = 1) := by
  rcases Nat.mod_two_eq_zero_or_one a with h | h <;> rcases Nat.mod_two_eq_zero_or_one b with h' | h' <;> simp [Xor, Nat.add_mod, h, h']

theorem back {N : Net} {n : Nat} (φ : Fin N.links.length ≃ Fin n) (j : Fin N.links.length) : N.links[φ.symm (φ j)] = N.links[j] := by simp

/-! ## The laws -/

variable {N N' N₁ N₂ : Net} {F F' F₁ F₂ : Nat → Prop} {q q' q₁ q₂ s s' s₁ s₂ : ℚ}

theorem carry {φ : Fin N.links.length ↪ Fin N'.links.length} {σ : Equiv.Perm ℕ} (ht : ∀ i, tips N'.links[φ i] = (tips N.links[i]).map (Option.map σ))
    (hb : ∀ x, x ∈ N.boundary → σ x ∈ N'.boundary) (hF : ∀ x, σ x ∉ N'.boundary → (F x ↔ F' (σ x))) {C : N.Links} (hC : Explained C F) : Explained (N := N') (C.map φ) F' := by
  intro y hy
  obtain ⟨x, rfl⟩ := σ.surjective y
  have e : degreeAt (N := N') (C.map φ) (σ x) = degreeAt C x := by
    rw [degreeAt_eq, degreeAt_eq, Finset.sum_map]
    exact Finset.sum_congr rfl fun i _ => ends_tips (ht i) x
  rw [← hF x hy, e]
  exact hC x fun h => hy (hb x h)

/-- C88: more links, smaller weights and more boundary nodes never make the weight larger. -/
theorem C88_easier (h : Least N F s q) (h' : Least N' F' s' q') : Easier N F N' F' → q' ≤ q + s + s' := by
  rintro ⟨φ, σ, ht, hw, hb, hF⟩
  obtain ⟨C, h1, h2⟩ := h.1
  have h3 := h'.2 _ (carry ht hb hF h1)
  have h4 : cost (N := N') (C.map φ) ≤ cost C := by
    unfold cost
    rw [Finset.sum_map]
    exact Finset.sum_le_sum fun i _ => hw i
  linarith

/-- C88: names, order and direction do not matter. -/
theorem C88_alike (h : Least N F s q) (h' : Least N' F' s' q') : Alike N F N' F' → |q' - q| ≤ s + s' := by
  rintro ⟨φ, σ, ht, hw, hb, hF⟩
  have h1 := C88_easier h h' ⟨φ.toEmbedding, σ, ht, fun i => (hw i).le, fun x hx => (hb x).1 hx, fun x hx => hF x fun h => hx ((hb x).1 h)⟩
  have h2 := C88_easier h' h ⟨φ.symm.toEmbedding, σ.symm, fun i => ?_, fun i => ?_, fun x hx => ?_, fun x hx => ?_⟩
  · exact abs_le.2 ⟨by linarith, by linarith⟩
  · obtain ⟨j, rfl⟩ := φ.surjective i
    show tips N.links[φ.symm (φ j)] = _
    rw [back φ, ht, Sym2.map_map]
    have : (Option.map σ.symm ∘ Option.map σ : Option ℕ → Option ℕ) = id := by
      funext x
      cases x <;> simp
    rw [this, Sym2.map_id]
    rfl
  · obtain ⟨j, rfl⟩ := φ.surjective i
    show N.links[φ.symm (φ j)].weight ≤ _
    rw [back φ, hw]
  · rw [hb, σ.apply_symm_apply]
    exact hx
  · rw [hF _ hx, σ.apply_symm_apply]

/-- C88: the weight is multiplied by `c` if all weights are. -/
theorem C88_scaled (h : Least N F s q) (h' : Least N' F' s' q') {c : ℚ} (hc : 0 ≤ c) : Scaled c N F N' F' → |q' - c * q| ≤ c * s + s' := by
  rintro ⟨φ, ht, hw, hb, hF⟩
  have key : ∀ C : N.Links, cost (N := N') (C.map φ.toEmbedding) = c * cost C := fun C => by
    unfold cost
    rw [Finset.sum_map, Finset.mul_sum]
    exact Finset.sum_congr rfl fun i _ => hw i
  have ex : ∀ C : N.Links, Explained C F → Explained (N := N') (C.map φ.toEmbedding) F' := fun C hC =>
    carry (σ := 1) (fun i => (ht i).trans (by simp [Equiv.Perm.coe_one])) (fun x hx => by rw [hb]; exact hx) (fun x hx => hF x (by rw [hb] at hx; exact hx)) hC
  obtain ⟨C, h1, h2⟩ := h.1
  have h3 := h'.2 _ (ex C h1)
  rw [key] at h3
  obtain ⟨D, h4, h5⟩ := h'.1
  have e : (D.map φ.symm.toEmbedding).map φ.toEmbedding = D := by
    rw [Finset.map_map]
    ext x
    simp
  have h6 : Explained (N := N) (D.map φ.symm.toEmbedding) F := by
    refine carry (σ := 1) (fun i => ?_) (fun x hx => by rw [← hb]; exact hx) (fun x hx => (hF x hx).symm) h4
    obtain ⟨j, rfl⟩ := φ.surjective i
    show tips N.links[φ.symm (φ j)] = _
    rw [back φ, ht]
    simp [Equiv.Perm.coe_one]
  have h7 := h.2 _ h6
  have h8 := key (D.map φ.symm.toEmbedding)
  rw [e] at h8
  have h9 := mul_le_mul_of_nonneg_left h7 hc
  have h10 := mul_le_mul_of_nonneg_left h2 hc
  exact abs_le.2 ⟨by linarith, by linarith⟩

theorem cost_toggle (C : N.Links) (i : Fin N.links.length) :
    ∑ j ∈ symmDiff C {i}, (if j = i then -N.links[j].weight else N.links[j].weight) = cost C - N.links[i].weight := by
  unfold cost
  by_cases h : i ∈ C
  · have e : symmDiff C {i} = C.erase i := by
      ext j
      simp only [Finset.mem_symmDiff, Finset.mem_singleton, Finset.mem_erase]
      by_cases hj : j = i
      · subst hj; simp [h]
      · simp [hj]
    rw [e, ← Finset.add_sum_erase C _ h]
    have : ∑ j ∈ C.erase i, (if j = i then -N.links[j].weight else N.links[j].weight) = ∑ j ∈ C.erase i, N.links[j].weight :=
      Finset.sum_congr rfl fun j hj => if_neg (Finset.ne_of_mem_erase hj)
    rw [this]
    ring
  · have e : symmDiff C {i} = insert i C := by
      ext j
      simp only [Finset.mem_symmDiff, Finset.mem_singleton, Finset.mem_insert]
      by_cases hj : j = i
      · subst hj; simp [h]
      · simp [hj]
    rw [e, Finset.sum_insert h, if_pos rfl]
    have : ∑ j ∈ C, (if j = i then -N.links[j].weight else N.links[j].weight) = ∑ j ∈ C, N.links[j].weight :=
      Finset.sum_congr rfl fun j hj => if_neg (by rintro rfl; exact h hj)
    rw [this]
    ring

theorem flipped_le (h : Least N F s q) (h' : Least N' F' s' q') {i : Fin N.links.length} : Flipped N i F N' F' → q' ≤ q - N.links[i].weight + s + s' := by
  rintro ⟨φ, ht, hw, hb, hF⟩
  obtain ⟨C, h1, h2⟩ := h.1
  have h3 : Explained (symmDiff C {i}) F' := by
    intro x hx
    rw [hF x hx, degree_symmDiff, odd_add, h1 x hx, degreeAt_eq {i}, Finset.sum_singleton, ends_odd]
  have h4 : Explained (N := N') ((symmDiff C {i}).map φ.toEmbedding) F' :=
    carry (σ := 1) (fun i => (ht i).trans (by simp [Equiv.Perm.coe_one])) (fun x hx => by rw [hb]; exact hx) (fun x hx => Iff.rfl) h3
  have h5 := h'.2 _ h4
  have h6 : cost (N := N') ((symmDiff C {i}).map φ.toEmbedding) = cost C - N.links[i].weight := by
    rw [← cost_toggle C i]
    unfold cost
    rw [Finset.sum_map]
    exact Finset.sum_congr rfl fun j _ => hw j
  linarith

/-- C88: toggling the events at the ends of a link and the sign of its weight `w` changes the weight by `w`. -/
theorem C88_flipped (h : Least N F s q) (h' : Least N' F' s' q') {i : Fin N.links.length} (hf : Flipped N i F N' F') : |q' - (q - N.links[i].weight)| ≤ s + s' := by
  have h1 := flipped_le h h' hf
  obtain ⟨φ, ht, hw, hb, hF⟩ := hf
  have hi : N'.links[φ i].weight = -N.links[i].weight := by rw [hw, if_pos rfl]
  have h2 := flipped_le (i := φ i) h' h ⟨φ.symm, fun j => ?_, fun j => ?_, hb.symm, fun x hx => ?_⟩
  · rw [hi] at h2
    exact abs_le.2 ⟨by linarith, by linarith⟩
  · obtain ⟨k, rfl⟩ := φ.surjective j
    show tips N.links[φ.symm (φ k)] = _
    rw [back φ, ht]
  · obtain ⟨k, rfl⟩ := φ.surjective j
    show N.links[φ.symm (φ k)].weight = _
    rw [back φ]
    by_cases e : k = i
    · subst e
      rw [if_pos rfl, hi, neg_neg]
    · rw [if_neg fun h => e (φ.injective h), hw, if_neg e]
  · rw [hb] at hx
    rw [hF x hx, ← ends_odd, ← ends_odd, ends_same (ht i)]
    simp only [Xor]
    tauto

/-- C88: without negative weights, the weight for the exclusive or of two syndromes is at most the sum. -/
theorem C88_triangle (h : Least N F s q) (h₁ : Least N F₁ s₁ q₁) (h₂ : Least N F₂ s₂ q₂) (hw : ∀ l ∈ N.links, 0 ≤ l.weight) (hF : ∀ x, x ∉ N.boundary → (F x ↔ Xor (F₁ x) (F₂ x))) :
    q ≤ q₁ + q₂ + (s + s₁ + s₂) := by
  obtain ⟨C, a1, a2⟩ := h₁.1
  obtain ⟨D, b1, b2⟩ := h₂.1
  have h3 : Explained (symmDiff C D) F := by
    intro x hx
    rw [hF x hx, degree_symmDiff, odd_add, a1 x hx, b1 x hx]
  have h4 := h.2 _ h3
  have h0 : ∀ i : Fin N.links.length, 0 ≤ N.links[i].weight := fun i => hw _ (List.getElem_mem _)
  have h5 : cost (symmDiff C D) ≤ cost C + cost D := by
    unfold cost
    have e : symmDiff C D = (C \ D) ∪ (D \ C) := rfl
    rw [e, Finset.sum_union (Finset.disjoint_left.2 fun a ha hb => (Finset.mem_sdiff.1 hb).2 (Finset.mem_sdiff.1 ha).1)]
    exact add_le_add (Finset.sum_le_sum_of_subset_of_nonneg Finset.sdiff_subset fun i _ _ => h0 i) (Finset.sum_le_sum_of_subset_of_nonneg Finset.sdiff_subset fun i _ _ => h0 i)
  linarith

theorem degree_parts {φ : Fin N₁.links.length ⊕ Fin N₂.links.length ≃ Fin N.links.length} (h1 : ∀ i, tips N.links[φ (.inl i)] = tips N₁.links[i])
    (h2 : ∀ i, tips N.links[φ (.inr i)] = tips N₂.links[i]) (C : N₁.Links) (D : N₂.Links) (x : Nat) :
    degreeAt (N := N) ((C.disjSum D).map φ.toEmbedding) x = degreeAt C x + degreeAt D x := by
  simp only [degreeAt_eq]
  rw [Finset.sum_map, Finset.sum_disjSum]
  exact congrArg₂ _ (Finset.sum_congr rfl fun i _ => ends_same (h1 i) x) (Finset.sum_congr rfl fun i _ => ends_same (h2 i) x)

theorem degree_zero {C : N.Links} {x : Nat} (h : ∀ l ∈ N.links, ¬ Link.Touches l x) : degreeAt C x = 0 := by
  rw [degreeAt_eq]
  exact Finset.sum_eq_zero fun i _ => ends_zero (h _ (List.getElem_mem _))

theorem touched {C : N.Links} {x : Nat} (h : degreeAt C x % 2 = 1) : ∃ l ∈ N.links, Link.Touches l x := by
  by_contra hn
  rw [degree_zero fun l hl ht => hn ⟨l, hl, ht⟩] at h
  omega

/-- C88: the weight of a network in two parts is the sum of the weights of the parts. -/
theorem C88_parts (h : Least N F s q) (h₁ : Least N₁ F₁ s₁ q₁) (h₂ : Least N₂ F₂ s₂ q₂) : Parts N F N₁ F₁ N₂ F₂ → |q - (q₁ + q₂)| ≤ s + s₁ + s₂ := by
  rintro ⟨φ, t1, t2, b1, b2, hF⟩
  have key : ∀ (C : N₁.Links) (D : N₂.Links), cost (N := N) ((C.disjSum D).map φ.toEmbedding) = cost C + cost D := fun C D => by
    unfold cost
    rw [Finset.sum_map, Finset.sum_disjSum]
    exact congrArg₂ _ (Finset.sum_congr rfl fun i _ => (t1 i).2) (Finset.sum_congr rfl fun i _ => (t2 i).2)
  have deg := degree_parts (φ := φ) (fun i => (t1 i).1) (fun i => (t2 i).1)
  obtain ⟨C, c1, c2⟩ := h₁.1
  obtain ⟨D, d1, d2⟩ := h₂.1
  have h3 : Explained (N := N) ((C.disjSum D).map φ.toEmbedding) F := by
    intro x hx
    obtain ⟨f1, f2, f3⟩ := hF x hx
    have e1 := c1 x (by rw [b1]; exact hx)
    have e2 := d1 x (by rw [b2]; exact hx)
    rw [deg, odd_add, f1, ← e1, ← e2]
    simp only [Xor]
    constructor
    · rintro (h | h)
      · exact .inl ⟨h, (f2 (.inl h)).1⟩
      · exact .inr ⟨h, (f3 (.inl h)).1⟩
    · rintro (h | h)
      · exact .inl h.1
      · exact .inr h.1
  have h4 := h.2 _ h3
  rw [key] at h4
  obtain ⟨E, g1, g2⟩ := h.1
  obtain ⟨C', D', rfl⟩ : ∃ (C' : N₁.Links) (D' : N₂.Links), E = (C'.disjSum D').map φ.toEmbedding := by
    refine ⟨(E.map φ.symm.toEmbedding).toLeft, (E.map φ.symm.toEmbedding).toRight, ?_⟩
    rw [Finset.toLeft_disjSum_toRight, Finset.map_map]
    ext x
    simp
  rw [key] at g2
  have h5 : Explained C' F₁ := by
    intro x hx
    rw [b1] at hx
    obtain ⟨f1, f2, f3⟩ := hF x hx
    have e := g1 x hx
    rw [deg, f1] at e
    constructor
    · intro h
      have := e.1 (.inl h)
      rwa [degree_zero (f2 (.inl h)).2, add_zero] at this
    · intro h
      obtain ⟨n1, n2⟩ := f2 (.inr (touched h))
      have := e.2 (by rw [degree_zero n2, add_zero]; exact h)
      exact this.resolve_right n1
  have h6 : Explained D' F₂ := by
    intro x hx
    rw [b2] at hx
    obtain ⟨f1, f2, f3⟩ := hF x hx
    have e := g1 x hx
    rw [deg, f1] at e
    constructor
    · intro h
      have := e.1 (.inr h)
      rwa [degree_zero (C := C') (f3 (.inl h)).2, zero_add] at this
    · intro h
      obtain ⟨n1, n2⟩ := f3 (.inr (touched h))
      have := e.2 (by rw [degree_zero (C := C') n2, zero_add]; exact h)
      exact this.resolve_left n1
  have h7 := h₁.2 _ h5
  have h8 := h₂.2 _ h6
  exact abs_le.2 ⟨by linarith, by linarith⟩

/-! ## Theorems -/

theorem twoLaws (h : Least N F s q) (h' : Least N' F' s' q') : TwoLaws N F q s N' F' q' s' where
  easier := C88_easier h h'
  alike := C88_alike h h'
  scaled := fun _ hc => C88_scaled h h' hc
  flipped := fun _ => C88_flipped h h'

theorem threeLaws (h : Least N F s q) (h₁ : Least N₁ F₁ s₁ q₁) (h₂ : Least N₂ F₂ s₂ q₂) : ThreeLaws N F q s N₁ F₁ q₁ s₁ N₂ F₂ q₂ s₂ where
  triangle := by
    rintro rfl rfl hw hF
    exact C88_triangle h h₁ h₂ hw hF
  parts := C88_parts h h₁ h₂

section
variable {R : Source}

theorem seen_least {A : Arithmetic} {scenes : List (Room R × Command)} {rs : List Result} (hr : List.Forall₂ (fun (m : Room R × Command) r => RightCommand A m.1 m.2 r) scenes rs)
    (h : Seen scenes rs N F q s) : Least N F s q := by
  obtain ⟨k, m, r, h1, h2, h3, h4, h5⟩ := h
  refine reports_least (A := A) ?_ h3 h4 h5
  have h6 := List.forall₂_iff_get.1 hr
  obtain ⟨i1, e1⟩ := List.getElem?_eq_some_iff.1 h1
  obtain ⟨i2, e2⟩ := List.getElem?_eq_some_iff.1 h2
  have := h6.2 k i1 i2
  rw [List.get_eq_getElem, List.get_eq_getElem, e1, e2] at this
  exact this

/-- All reports in a run obey the laws. -/
def Lawful (scenes : List (Room R × Command)) (rs : List Result) : Prop :=
  ∀ (N : Net) (F : Nat → Prop) (q s : ℚ), Seen scenes rs N F q s → ∀ (N₁ : Net) (F₁ : Nat → Prop) (q₁ s₁ : ℚ), Seen scenes rs N₁ F₁ q₁ s₁ →
    TwoLaws N F q s N₁ F₁ q₁ s₁ ∧ ∀ (N₂ : Net) (F₂ : Nat → Prop) (q₂ s₂ : ℚ), Seen scenes rs N₂ F₂ q₂ s₂ → ThreeLaws N F q s N₁ F₁ q₁ s₁ N₂ F₂ q₂ s₂

theorem lawful_of {A : Arithmetic} {scenes : List (Room R × Command)} {rs : List Result} (hr : List.Forall₂ (fun (m : Room R × Command) r => RightCommand A m.1 m.2 r) scenes rs) :
    Lawful scenes rs := fun _ _ _ _ h _ _ _ _ h₁ =>
  ⟨twoLaws (seen_least hr h) (seen_least hr h₁), fun _ _ _ _ h₂ => threeLaws (seen_least hr h) (seen_least hr h₁) (seen_least hr h₂)⟩

/-- C88: in every proper program with any number of objects, the weights that are returned obey the laws. -/
theorem C88_program (A : Arithmetic) (st : R.State) (prog : List Command) (scenes : List (Room R × Command)) (hs : Story A (Room.empty st) prog scenes) :
    ∃ rs w, Completes (fun f => World.run A f (World.empty st) prog) (.ok (rs, w)) ∧ Lawful scenes rs := by
  obtain ⟨rs, w, h1, h2⟩ := C87_program A st prog scenes hs
  exact ⟨rs, w, h1, lawful_of h2⟩

/-- C88 for the library as compiled, with its 32-bit wrapped radius. -/
theorem C88_program_int32 (A : Arithmetic) (st : R.State) (prog : List Command) (scenes : List (Room R × Command)) (hs : Story A (Room.empty st) prog scenes)
    (hn : ∀ m ∈ scenes, ∀ x a t, m.2 = .act x a → m.1.things x = some t → AsksLine t.known (m.1.line t a) → t.net.Small) :
    ∃ rs w, Completes (fun f => World.run (W := int32) A f (World.empty st) prog) (.ok (rs, w)) ∧ Lawful scenes rs := by
  obtain ⟨rs, w, h1, h2⟩ := C87_program_int32 A st prog scenes hs hn
  exact ⟨rs, w, h1, lawful_of h2⟩

end

/-! ## Examples -/

/-- A triangle with a link to the boundary. -/
def tri : Net := ⟨3, [⟨0, some 1, {0}, 3, -1, ∅⟩, ⟨1, some 2, {1}, -2, -1, ∅⟩, ⟨2, some 0, ∅, 5, -1, ∅⟩, ⟨2, none, {2}, 1, -1, ∅⟩], ∅, 3⟩

/-- The same with nodes 0 and 2 exchanged and links in another order and direction. -/
def tri' : Net := ⟨3, [⟨0, none, {2}, 1, -1, ∅⟩, ⟨2, some 0, ∅, 5, -1, ∅⟩, ⟨0, some 1, {1}, -2, -1, ∅⟩, ⟨1, some 2, {0}, 3, -1, ∅⟩], ∅, 3⟩

example : Alike tri (fun x => x = 0) tri' (fun x => x = 2) := by
  refine ⟨(Fin.revPerm : Equiv.Perm (Fin 4)), Equiv.swap 0 2, ?_, ?_, fun x => by simp [tri, tri'], fun x _ => ?_⟩
  · show ∀ i : Fin 4, tips (tri'.links[Fin.rev i]'(by have := (Fin.rev i).2; exact this)) = (tips (tri.links[i]'(by have := i.2; exact this))).map (Option.map (Equiv.swap 0 2))
    decide
  · show ∀ i : Fin 4, (tri'.links[Fin.rev i]'(by have := (Fin.rev i).2; exact this)).weight = (tri.links[i]'(by have := i.2; exact this)).weight
    decide +kernel
  · show x = 0 ↔ Equiv.swap 0 2 x = 2
    rw [Equiv.swap_apply_eq_iff]
    simp

example : Whole tri ∧ Off tri 0 := by
  have h : Whole tri := by
    have : ∀ w ∈ tri.numbers, ((w.num : ℤ) : ℚ) = w := by decide +kernel
    exact fun w hw => ⟨w.num, this w hw⟩
  exact ⟨h, .inl ⟨h, rfl⟩⟩

/-- The sign of the second link is changed. -/
def tri2 : Net := ⟨3, [⟨0, some 1, {0}, 3, -1, ∅⟩, ⟨1, some 2, {1}, 2, -1, ∅⟩, ⟨2, some 0, ∅, 5, -1, ∅⟩, ⟨2, none, {2}, 1, -1, ∅⟩], ∅, 3⟩

example : Flipped tri ⟨1, by decide⟩ (fun x => x = 0) tri2 (fun x => x = 0 ∨ x = 1 ∨ x = 2) := by
  refine ⟨(Equiv.refl (Fin 4)), ?_, ?_, rfl, fun x _ => ?_⟩
  · show ∀ j : Fin 4, tips (tri2.links[j]'(by have := j.2; exact this)) = tips (tri.links[j]'(by have := j.2; exact this))
    decide
  · show ∀ j : Fin 4, (tri2.links[j]'(by have := j.2; exact this)).weight = if j = 1 then -(tri.links[j]'(by have := j.2; exact this)).weight else (tri.links[j]'(by have := j.2; exact this)).weight
    decide +kernel
  · show _ ↔ Xor (x = 0) (Xor ((1 : Nat) = x) (some 2 = some x))
    unfold Xor
    simp
    omega

/-- All weights are doubled. -/
def tri3 : Net := ⟨3, [⟨0, some 1, {0}, 6, -1, ∅⟩, ⟨1, some 2, {1}, -4, -1, ∅⟩, ⟨2, some 0, ∅, 10, -1, ∅⟩, ⟨2, none, {2}, 2, -1, ∅⟩], ∅, 3⟩

example : Scaled 2 tri (fun x => x = 0) tri3 (fun x => x = 0) := by
  refine ⟨(Equiv.refl (Fin 4)), ?_, ?_, rfl, fun x _ => Iff.rfl⟩
  · show ∀ j : Fin 4, tips (tri3.links[j]'(by have := j.2; exact this)) = tips (tri.links[j]'(by have := j.2; exact this))
    decide
  · show ∀ j : Fin 4, (tri3.links[j]'(by have := j.2; exact this)).weight = 2 * (tri.links[j]'(by have := j.2; exact this)).weight
    decide +kernel

/-- Two parts, and both together. -/
def left : Net := ⟨2, [⟨0, some 1, {0}, 3, -1, ∅⟩, ⟨1, none, ∅, 4, -1, ∅⟩], ∅, 1⟩
def right : Net := ⟨4, [⟨2, some 3, {1}, 7, -1, ∅⟩], ∅, 2⟩
def both : Net := ⟨4, [⟨0, some 1, {0}, 3, -1, ∅⟩, ⟨1, none, ∅, 4, -1, ∅⟩, ⟨2, some 3, {1}, 7, -1, ∅⟩], ∅, 2⟩

example : Parts both (fun x => x = 0 ∨ x = 2 ∨ x = 3) left (fun x => x = 0) right (fun x => x = 2 ∨ x = 3) := by
  refine ⟨(finSumFinEquiv : Fin 2 ⊕ Fin 1 ≃ Fin 3), ?_, ?_, rfl, rfl, fun x _ => ⟨Iff.rfl, ?_, ?_⟩⟩
  · intro (i : Fin 2)
    fin_cases i <;> exact ⟨rfl, rfl⟩
  · intro (i : Fin 1)
    fin_cases i
    exact ⟨rfl, rfl⟩
  · simp [left, right, Link.Touches]
    omega
  · simp [left, right, Link.Touches]
    omega

/-- The program of C87 with a trial: its story exists, and the run is lawful. -/
example {R : Source} (st : R.State) : ∃ scenes, Story plain (Room.empty st) several scenes ∧ (∃ rs w, Completes (fun f => World.run plain f (World.empty st) several) (.ok (rs, w)) ∧ Lawful scenes rs) ∧
    ∃ rs w, Completes (fun f => World.run (W := int32) plain f (World.empty st) several) (.ok (rs, w)) ∧ Lawful scenes rs := by
  obtain ⟨scenes, h1, h2⟩ := several_good st fun x t h => by cases h
  exact ⟨scenes, h1, C88_program plain st several scenes h1, C88_program_int32 plain st several scenes h1 fun m hm x a t _ ht _ => .inl (h2 m hm x t ht)⟩

end Verif.Props.Laws
