import Verif.Blossom.View

/-!
# Attaching and detaching nodes of alternating trees
-/

namespace Verif.SB

open Verif Verif.CE Verif.Mem
open Verif.Sch (Res)

variable {V V' : View} {alt alt' : Nat → ANode} {A : Finset Nat} {ach : Nat → List Nat} {Z : Finset Nat}

/-- A node other than the detached ones that has a parent is among its children. -/
theorem epar_some {a p : Nat} (h : epar alt Z a = some p) : a ∉ Z ∧ ∃ pe, (alt a).parent = some (p, pe) := by
  unfold epar at h
  split_ifs at h with hz
  refine ⟨hz, ?_⟩
  rw [Option.map_eq_some_iff] at h
  obtain ⟨⟨u, v⟩, h1, h2⟩ := h
  exact ⟨v, by rw [h1, ← h2]⟩

theorem epar_none (h : epar alt Z a = none) : a ∈ Z ∨ (alt a).parent = none := by
  unfold epar at h
  split_ifs at h with hz
  · exact .inl hz
  · exact .inr (by simpa using h)

/-- Same structure, other regions. -/
theorem Shape.congr (h : Shape V alt A ach Z) (hp : ∀ a ∈ A, (alt' a).parent = (alt a).parent) (hk : ∀ a ∈ A, (alt' a).children = (alt a).children)
    (hl : ∀ a ∈ A, ∀ c ∈ A, c ∉ Z → ∀ e i, (c, e) ∈ (alt a).children → (alt c).inner = some i → V.lk e (alt a).outer i →
      ∃ i', (alt' c).inner = some i' ∧ V'.lk e (alt' a).outer i')
    (hr : ∀ a ∈ A, a ∉ Z → (alt a).parent = none → (alt a).inner = none → (alt' a).inner = none) : Shape V' alt' A ach Z := by
  have he : ∀ a ∈ A, epar alt' Z a = epar alt Z a := fun a ha => by unfold epar; rw [hp a ha]
  have hkm : ∀ a ∈ A, akids alt' a = akids alt a := fun a ha => by unfold akids; rw [hk a ha]
  have hmem : ∀ a ∈ A, ∀ c e, (c, e) ∈ (alt a).children → c ∈ A ∧ c ∉ Z := by
    intro a ha c e hc
    obtain ⟨h1, h2⟩ := (h.kids.mem a ha c).1 (List.mem_map_of_mem hc)
    exact ⟨h1, (epar_some h2).1⟩
  refine ⟨h.forest.congr he, ⟨?_, ?_⟩, ?_, ?_, ?_⟩
  · intro a ha c
    rw [hkm a ha, h.kids.mem a ha c]
    constructor
    · rintro ⟨h1, h2⟩; exact ⟨h1, by rw [he c h1]; exact h2⟩
    · rintro ⟨h1, h2⟩; exact ⟨h1, by rw [← he c h1]; exact h2⟩
  · intro a ha; rw [hkm a ha]; exact h.kids.nodup a ha
  · intro a ha c e hc
    rw [hk a ha] at hc
    rw [hp c (hmem a ha c e hc).1]; exact h.edge a ha c e hc
  · intro a ha c e hc
    rw [hk a ha] at hc
    obtain ⟨i, h1, h2⟩ := h.link a ha c e hc
    exact hl a ha c (hmem a ha c e hc).1 (hmem a ha c e hc).2 e i hc h1 h2
  · intro a ha haZ hn
    rw [hp a ha] at hn
    exact hr a ha haZ hn (h.root a ha haZ hn)

/-- Only some nodes, closed under parents and children. -/
theorem Shape.restrict (h : Shape V alt A ach Z) {A' : Finset Nat} (hA : A' ⊆ A) (hup : ∀ x ∈ A', ∀ p, epar alt Z x = some p → p ∈ A')
    (hdown : ∀ x ∈ A', ∀ c ∈ A, epar alt Z c = some x → c ∈ A') : Shape V alt A' ach Z := by
  refine ⟨h.forest.restrict hA hup (fun _ _ => rfl), ⟨?_, ?_⟩, ?_, ?_, ?_⟩
  · intro a ha c
    rw [h.kids.mem a (hA ha) c]
    exact ⟨fun hc => ⟨hdown a ha c hc.1 hc.2, hc.2⟩, fun hc => ⟨hA hc.1, hc.2⟩⟩
  · intro a ha; exact h.kids.nodup a (hA ha)
  · intro a ha; exact h.edge a (hA ha)
  · intro a ha; exact h.link a (hA ha)
  · intro a ha; exact h.root a (hA ha)

/-! ## Attaching a detached node -/

def attached (alt : Nat → ANode) (a c : Nat) (e : CompressedEdge) (x : Nat) : ANode :=
  if x = c then { alt c with parent := some (a, e.reversed) } else if x = a then { alt a with children := (alt a).children ++ [(c, e)] } else alt x

theorem addChild_eq (s : MS) {a c : Nat} (hne : a ≠ c) (e : CompressedEdge) : addChild s a c e = { s with alt := attached s.alt a c e } := by
  unfold addChild MS.setAlt
  simp only
  congr 1
  funext x
  unfold attached
  by_cases hxc : x = c
  · subst hxc; simp [Ne.symm hne]
  · by_cases hxa : x = a
    · subst hxa; simp [hne]
    · simp [hxc, hxa]

theorem attached_regs (alt : Nat → ANode) (a c : Nat) (e : CompressedEdge) (x : Nat) :
    (attached alt a c e x).inner = (alt x).inner ∧ (attached alt a c e x).outer = (alt x).outer ∧ (attached alt a c e x).i2o = (alt x).i2o ∧
      (attached alt a c e x).visited = (alt x).visited := by
  unfold attached
  split_ifs with h1 h2
  · subst h1; exact ⟨rfl, rfl, rfl, rfl⟩
  · subst h2; exact ⟨rfl, rfl, rfl, rfl⟩
  · exact ⟨rfl, rfl, rfl, rfl⟩

theorem Shape.attach (h : Shape V alt A ach Z) {a c i : Nat} {e : CompressedEdge} (ha : a ∈ A) (hc : c ∈ A) (hcZ : c ∈ Z) (hroot : ∀ z ∈ ach a, z ∉ Z)
    (hi : (alt c).inner = some i) (hlk : V.lk e (alt a).outer i) :
    ∃ ach', Shape V (attached alt a c e) A ach' (Z.erase c) ∧ ∀ x ∈ A, c ∉ ach x → ach' x = ach x := by
  have hca : c ∉ ach a := fun hm => hroot c hm hcZ
  have hne : a ≠ c := by rintro rfl; exact hca (h.forest.self_mem ha)
  have hparc : epar alt Z c = none := by simp [epar, hcZ]
  have hreg := attached_regs alt a c e
  generalize hB : attached alt a c e = B at hreg
  have hBc : B c = { alt c with parent := some (a, e.reversed) } := by rw [← hB]; simp [attached]
  have hBa : B a = { alt a with children := (alt a).children ++ [(c, e)] } := by rw [← hB]; simp [attached, hne]
  have hBx : ∀ x, x ≠ c → x ≠ a → B x = alt x := fun x h1 h2 => by rw [← hB]; simp [attached, h1, h2]
  have hpx : ∀ x, x ≠ c → (B x).parent = (alt x).parent := by
    intro x hx
    by_cases hxa : x = a
    · subst hxa; rw [hBa]
    · rw [hBx x hx hxa]
  have hkx : ∀ x, x ≠ a → (B x).children = (alt x).children := by
    intro x hx
    by_cases hxc : x = c
    · subst hxc; rw [hBc]
    · rw [hBx x hxc hx]
  have hec : epar B (Z.erase c) c = some a := by simp [epar, hBc]
  have hex : ∀ x, x ≠ c → epar B (Z.erase c) x = epar alt Z x := by
    intro x hx
    unfold epar
    rw [hpx x hx]
    simp [hx]
  have hnk : ∀ x ∈ A, ∀ e', (c, e') ∉ (alt x).children := by
    intro x hx e' hm
    have := ((h.kids.mem x hx c).1 (List.mem_map_of_mem hm)).2
    rw [hparc] at this; cases this
  refine ⟨_, ⟨h.forest.graft ha hc hparc hca hec (fun x _ hx => hex x hx), ⟨?_, ?_⟩, ?_, ?_, ?_⟩, ?_⟩
  · intro x hx d
    unfold akids
    by_cases hxa : x = a
    · subst hxa
      rw [hBa]
      simp only [List.map_append, List.map_cons, List.map_nil, List.mem_append, List.mem_singleton]
      rw [show d ∈ (alt x).children.map (·.1) ↔ _ from h.kids.mem x hx d]
      constructor
      · rintro (⟨h1, h2⟩ | rfl)
        · have hdc : d ≠ c := by rintro rfl; rw [hparc] at h2; cases h2
          exact ⟨h1, by rw [hex d hdc]; exact h2⟩
        · exact ⟨hc, hec⟩
      · rintro ⟨h1, h2⟩
        by_cases hdc : d = c
        · exact .inr hdc
        · exact .inl ⟨h1, by rw [← hex d hdc]; exact h2⟩
    · rw [hkx x hxa, show d ∈ (alt x).children.map (·.1) ↔ _ from h.kids.mem x hx d]
      constructor
      · rintro ⟨h1, h2⟩
        have hdc : d ≠ c := by rintro rfl; rw [hparc] at h2; cases h2
        exact ⟨h1, by rw [hex d hdc]; exact h2⟩
      · rintro ⟨h1, h2⟩
        have hdc : d ≠ c := by rintro rfl; rw [hec] at h2; cases h2; exact hxa rfl
        exact ⟨h1, by rw [← hex d hdc]; exact h2⟩
  · intro x hx
    unfold akids
    by_cases hxa : x = a
    · subst hxa
      rw [hBa]
      simp only [List.map_append, List.map_cons, List.map_nil]
      rw [List.nodup_append]
      refine ⟨h.kids.nodup x hx, by simp, ?_⟩
      rintro d hd d' hd' rfl
      rw [List.mem_singleton] at hd'
      subst hd'
      obtain ⟨⟨u, v⟩, hm, rfl⟩ := List.mem_map.1 hd
      exact hnk x hx v hm
    · rw [hkx x hxa]; exact h.kids.nodup x hx
  · intro x hx d e' hd
    by_cases hxa : x = a
    · subst hxa
      rw [hBa] at hd
      simp only [List.mem_append, List.mem_singleton] at hd
      rcases hd with hd | hd
      · have hdc : d ≠ c := by rintro rfl; exact hnk x hx e' hd
        rw [hpx d hdc]; exact h.edge x hx d e' hd
      · cases hd; rw [hBc]
    · rw [hkx x hxa] at hd
      have hdc : d ≠ c := by rintro rfl; exact hnk x hx e' hd
      rw [hpx d hdc]; exact h.edge x hx d e' hd
  · intro x hx d e' hd
    rw [(hreg d).1, (hreg x).2.1]
    by_cases hxa : x = a
    · subst hxa
      rw [hBa] at hd
      simp only [List.mem_append, List.mem_singleton] at hd
      rcases hd with hd | hd
      · exact h.link x hx d e' hd
      · cases hd; exact ⟨i, hi, hlk⟩
    · rw [hkx x hxa] at hd
      exact h.link x hx d e' hd
  · intro x hx hxZ hn
    rw [(hreg x).1]
    have hxc : x ≠ c := by rintro rfl; rw [hBc] at hn; cases hn
    rw [hpx x hxc] at hn
    exact h.root x hx (fun hz => hxZ (Finset.mem_erase.2 ⟨hxc, hz⟩)) hn
  · intro x hx hcx
    simp [hcx]

/-- Attach a list of detached nodes. -/
theorem Shape.attachAll (a : Nat) : ∀ (l : List (Nat × CompressedEdge)) (s : MS) (ach : Nat → List Nat) (Z : Finset Nat), Shape V s.alt A ach Z → a ∈ A →
    (l.map (·.1)).Nodup → (∀ c ∈ l.map (·.1), c ∈ A ∧ c ∈ Z) → (∀ z ∈ ach a, z ∉ Z) →
    (∀ c e, (c, e) ∈ l → ∃ i, (s.alt c).inner = some i ∧ V.lk e (s.alt a).outer i) →
    ∃ alt' ach', l.foldl (fun s c => addChild s a c.1 c.2) s = { s with alt := alt' } ∧ Shape V alt' A ach' (Z \ (l.map (·.1)).toFinset) ∧
      ∀ x, (alt' x).inner = (s.alt x).inner ∧ (alt' x).outer = (s.alt x).outer ∧ (alt' x).i2o = (s.alt x).i2o ∧ (alt' x).visited = (s.alt x).visited := by
  intro l
  induction l with
  | nil =>
    intro s ach Z h ha _ _ _ _
    exact ⟨s.alt, ach, rfl, by simpa using h, fun x => ⟨rfl, rfl, rfl, rfl⟩⟩
  | cons ce l ih =>
    obtain ⟨c, e⟩ := ce
    intro s ach Z h ha hnd hl hroot hlk
    obtain ⟨i, hi, hl1⟩ := hlk c e (by simp)
    obtain ⟨hcA, hcZ⟩ := hl c (by simp)
    obtain ⟨ach1, h1, hch⟩ := h.attach ha hcA hcZ hroot hi hl1
    have hca : c ∉ ach a := fun hm => hroot c hm hcZ
    have hne : a ≠ c := by rintro rfl; exact hca (h.forest.self_mem ha)
    have hreg := attached_regs s.alt a c e
    have hnd2 := List.nodup_cons.1 hnd
    obtain ⟨alt', ach', h2, h3, h4⟩ := ih { s with alt := attached s.alt a c e } ach1 (Z.erase c) h1 ha hnd2.2
      (fun d hd => ⟨(hl d (List.mem_cons_of_mem _ hd)).1, Finset.mem_erase.2 ⟨fun e => hnd2.1 (e ▸ hd), (hl d (List.mem_cons_of_mem _ hd)).2⟩⟩)
      (fun z hz => by
        rw [hch a ha hca] at hz
        exact fun hm => hroot z hz (Finset.mem_erase.1 hm).2)
      (fun d e' hd => by
        obtain ⟨j, hj, hl2⟩ := hlk d e' (List.mem_cons_of_mem _ hd)
        exact ⟨j, by rw [show ({ s with alt := attached s.alt a c e } : MS).alt d = attached s.alt a c e d from rfl, (hreg d).1]; exact hj,
          by rw [show ({ s with alt := attached s.alt a c e } : MS).alt a = attached s.alt a c e a from rfl, (hreg a).2.1]; exact hl2⟩)
    refine ⟨alt', ach', ?_, ?_, ?_⟩
    · rw [List.foldl_cons, addChild_eq s hne, h2]
    · have : Z \ (((c, e) :: l).map (·.1)).toFinset = Z.erase c \ (l.map (·.1)).toFinset := by
        ext x; simp; tauto
      rw [this]; exact h3
    · intro x
      obtain ⟨k1, k2, k3, k4⟩ := h4 x
      exact ⟨k1.trans (hreg x).1, k2.trans (hreg x).2.1, k3.trans (hreg x).2.2.1, k4.trans (hreg x).2.2.2⟩

/-! ## Detaching, adding -/

theorem Shape.detach (h : Shape V alt A ach Z) {a p : Nat} {pe : CompressedEdge} (ha : a ∈ A) (haZ : a ∉ Z) (hp : (alt a).parent = some (p, pe)) :
    ∃ ach', Shape V (Function.update alt p { alt p with children := eraseKid (alt p).children a }) A ach' (insert a Z) ∧
      ∀ x ∈ A, a ∉ ach x → ach' x = ach x := by
  obtain ⟨hpA, hch, i, hi, hlk⟩ := h.child ha haZ hp
  have hpara : epar alt Z a = some p := by simp [epar, hp, haZ]
  have hka : a ∈ (alt p).children.map (·.1) := List.mem_map.2 ⟨_, hch, rfl⟩
  have hnd : ((alt p).children.map (·.1)).Nodup := h.kids.nodup p hpA
  have hko : KidsOnly alt (Function.update alt p { alt p with children := eraseKid (alt p).children a }) := (KidsOnly.refl alt).set p _
  generalize hB : Function.update alt p { alt p with children := eraseKid (alt p).children a } = B at hko
  have hBp : B p = { alt p with children := eraseKid (alt p).children a } := by rw [← hB, Function.update_self]
  have hBx : ∀ x, x ≠ p → B x = alt x := fun x h2 => by rw [← hB, Function.update_of_ne h2]
  have hkid : ∀ x ∈ A, ∀ c e, (c, e) ∈ (B x).children ↔ (c, e) ∈ (alt x).children ∧ c ≠ a := by
    intro x hx c e
    by_cases hxp : x = p
    · subst hxp
      rw [hBp]
      exact mem_eraseKid hka hnd _
    · rw [hBx x hxp]
      refine ⟨fun hc => ⟨hc, ?_⟩, fun hc => hc.1⟩
      rintro rfl
      have := ((h.kids.mem x hx c).1 (List.mem_map_of_mem hc)).2
      rw [hpara] at this
      cases this
      exact hxp rfl
  have hea : epar B (insert a Z) a = none := by simp [epar]
  have hex : ∀ x, x ≠ a → epar B (insert a Z) x = epar alt Z x := by
    intro x hx
    unfold epar
    rw [hko.parent]
    simp [hx]
  refine ⟨_, ⟨h.forest.cut ha hea (fun x _ hx => hex x hx), ⟨?_, ?_⟩, ?_, ?_, ?_⟩, ?_⟩
  · intro x hx c
    have h1 : c ∈ akids B x ↔ c ∈ akids alt x ∧ c ≠ a := by
      unfold akids
      simp only [List.mem_map]
      constructor
      · rintro ⟨⟨c', e⟩, hc, rfl⟩
        have := (hkid x hx c' e).1 hc
        exact ⟨⟨_, this.1, rfl⟩, this.2⟩
      · rintro ⟨⟨⟨c', e⟩, hc, rfl⟩, hca⟩
        exact ⟨_, (hkid x hx c' e).2 ⟨hc, hca⟩, rfl⟩
    rw [h1, h.kids.mem x hx c]
    constructor
    · rintro ⟨⟨h2, h3⟩, h4⟩; exact ⟨h2, by rw [hex c h4]; exact h3⟩
    · rintro ⟨h2, h3⟩
      have hca : c ≠ a := by rintro rfl; rw [hea] at h3; cases h3
      exact ⟨⟨h2, by rw [← hex c hca]; exact h3⟩, hca⟩
  · intro x hx
    unfold akids
    by_cases hxp : x = p
    · subst hxp
      rw [hBp]
      exact eraseKid_nodup hka hnd
    · rw [hBx x hxp]; exact h.kids.nodup x hx
  · intro x hx c e hc
    rw [hko.parent]
    exact h.edge x hx c e ((hkid x hx c e).1 hc).1
  · intro x hx c e hc
    rw [hko.outer, hko.inner]
    exact h.link x hx c e ((hkid x hx c e).1 hc).1
  · intro x hx hxZ hn
    rw [hko.parent] at hn
    rw [hko.inner]
    exact h.root x hx (fun e => hxZ (Finset.mem_insert_of_mem e)) hn
  · intro x hx hax
    simp [hax]

/-- A new node without parent and children. -/
theorem Shape.add (h : Shape V alt A ach Z) {c : Nat} {nd : ANode} {Z' : Finset Nat} (hc : c ∉ A) (hp : nd.parent = none) (hk : nd.children = [])
    (hZ : ∀ x ∈ A, x ∈ Z' ↔ x ∈ Z) (hr : c ∈ Z' ∨ nd.inner = none) :
    Shape V (Function.update alt c nd) (insert c A) (Function.update ach c [c]) Z' := by
  have hne : ∀ x ∈ A, x ≠ c := fun x hx e => hc (e ▸ hx)
  have hec : epar (Function.update alt c nd) Z' c = none := by simp [epar, hp]
  have hex : ∀ x ∈ A, epar (Function.update alt c nd) Z' x = epar alt Z x := by
    intro x hx
    unfold epar
    rw [Function.update_of_ne (hne x hx)]
    by_cases hxZ : x ∈ Z
    · rw [if_pos ((hZ x hx).2 hxZ), if_pos hxZ]
    · rw [if_neg (fun e => hxZ ((hZ x hx).1 e)), if_neg hxZ]
  have hkc : akids (Function.update alt c nd) c = [] := by simp [akids, hk]
  refine ⟨h.forest.add hc hec hex, ⟨?_, ?_⟩, ?_, ?_, ?_⟩
  · intro x hx d
    rcases Finset.mem_insert.1 hx with rfl | hxA
    · rw [hkc]
      simp only [List.not_mem_nil, false_iff, not_and]
      intro hd he
      rcases Finset.mem_insert.1 hd with rfl | hdA
      · rw [hec] at he; cases he
      · rw [hex d hdA] at he
        exact hc (h.forest.step d hdA x he).1
    · unfold akids
      rw [Function.update_of_ne (hne x hxA), show d ∈ (alt x).children.map (·.1) ↔ _ from h.kids.mem x hxA d]
      constructor
      · rintro ⟨h1, h2⟩; exact ⟨Finset.mem_insert_of_mem h1, by rw [hex d h1]; exact h2⟩
      · rintro ⟨h1, h2⟩
        rcases Finset.mem_insert.1 h1 with rfl | hdA
        · rw [hec] at h2; cases h2
        · exact ⟨hdA, by rw [← hex d hdA]; exact h2⟩
  · intro x hx
    rcases Finset.mem_insert.1 hx with rfl | hxA
    · rw [hkc]; simp
    · unfold akids
      rw [Function.update_of_ne (hne x hxA)]; exact h.kids.nodup x hxA
  · intro x hx d e hd
    rcases Finset.mem_insert.1 hx with rfl | hxA
    · rw [Function.update_self, hk] at hd; cases hd
    · rw [Function.update_of_ne (hne x hxA)] at hd
      have hdA := ((h.kids.mem x hxA d).1 (List.mem_map_of_mem hd)).1
      rw [Function.update_of_ne (hne d hdA)]; exact h.edge x hxA d e hd
  · intro x hx d e hd
    rcases Finset.mem_insert.1 hx with rfl | hxA
    · rw [Function.update_self, hk] at hd; cases hd
    · rw [Function.update_of_ne (hne x hxA)] at hd ⊢
      have hdA := ((h.kids.mem x hxA d).1 (List.mem_map_of_mem hd)).1
      rw [Function.update_of_ne (hne d hdA)]; exact h.link x hxA d e hd
  · intro x hx hxZ hn
    rcases Finset.mem_insert.1 hx with rfl | hxA
    · rw [Function.update_self]
      rcases hr with hr | hr
      · exact absurd hr hxZ
      · exact hr
    · rw [Function.update_of_ne (hne x hxA)] at hn ⊢
      exact h.root x hxA (fun e => hxZ ((hZ x hxA).2 e)) hn

/-! ## Regions of nodes -/

variable {ralt ralt' : Nat → Option Nat} {E E' : Nat → Prop}

/-- The same regions, seen in another view. -/
theorem Nodes.congr (h : Nodes V alt ralt A E) (ho : ∀ a ∈ A, (alt' a).outer = (alt a).outer) (hi : ∀ a ∈ A, (alt' a).inner = (alt a).inner)
    (he : ∀ a ∈ A, (alt' a).i2o = (alt a).i2o)
    (hv : ∀ a ∈ A, ∀ r ∈ nregs alt a, V.top r → V'.top r ∧ V'.sl r = V.sl r) (hlk : ∀ e r r', V.lk e r r' → V'.lk e r r')
    (hr : ∀ a ∈ A, ralt' (alt a).outer = ralt (alt a).outer) (hE : ∀ a ∈ A, ¬ E' a → ¬ E a) : Nodes V' alt' ralt' A E' := by
  have hO : ∀ a ∈ A, V'.top (alt a).outer ∧ V'.sl (alt a).outer = V.sl (alt a).outer := fun a ha =>
    hv a ha _ (by simp [nregs]) (h.outer a ha).1
  refine ⟨?_, ?_, ?_, ?_, ?_⟩
  · intro a ha; rw [ho a ha]; exact ⟨(hO a ha).1, by rw [hr a ha]; exact (h.outer a ha).2⟩
  · intro a ha; rw [ho a ha, (hO a ha).2]; exact h.up a ha
  · intro a ha hEa; rw [ho a ha, (hO a ha).2]; exact h.grow a ha (hE a ha hEa)
  · intro a ha i hin
    rw [hi a ha] at hin
    obtain ⟨h1, h2, h3⟩ := h.inner a ha i hin
    obtain ⟨h4, h5⟩ := hv a ha i (by simp [nregs, hin]) h1
    rw [he a ha, ho a ha]
    exact ⟨h4, h5.trans h2, hlk _ _ _ h3⟩
  · intro a ha b hb i h1 h2
    rw [hi a ha] at h1; rw [hi b hb] at h2
    exact h.inj a ha b hb i h1 h2

/-- One more node. -/
theorem Nodes.add (h : Nodes V alt ralt A E) {c : Nat} (hc : c ∉ A) (hsame : ∀ a ∈ A, alt' a = alt a) (hr : ∀ a ∈ A, ralt' (alt a).outer = ralt (alt a).outer)
    (hnew : V.top (alt' c).outer ∧ ralt' (alt' c).outer = some c) (hup : V.sl (alt' c).outer ≠ -1) (hgrow : ¬ E c → V.sl (alt' c).outer = 1)
    (hinn : ∀ i, (alt' c).inner = some i → V.top i ∧ V.sl i = -1 ∧ V.lk (alt' c).i2o i (alt' c).outer)
    (hinj : ∀ a ∈ A, ∀ i, (alt' c).inner = some i → (alt a).inner ≠ some i) : Nodes V alt' ralt' (insert c A) E := by
  have hne : ∀ x ∈ A, x ≠ c := fun x hx e => hc (e ▸ hx)
  refine ⟨?_, ?_, ?_, ?_, ?_⟩
  · intro a ha
    rcases Finset.mem_insert.1 ha with rfl | ha
    · exact hnew
    · rw [hsame a ha, hr a ha]; exact h.outer a ha
  · intro a ha
    rcases Finset.mem_insert.1 ha with rfl | ha
    · exact hup
    · rw [hsame a ha]; exact h.up a ha
  · intro a ha
    rcases Finset.mem_insert.1 ha with rfl | ha
    · exact hgrow
    · rw [hsame a ha]; exact h.grow a ha
  · intro a ha
    rcases Finset.mem_insert.1 ha with rfl | ha
    · exact hinn
    · rw [hsame a ha]; exact h.inner a ha
  · intro a ha b hb i h1 h2
    rcases Finset.mem_insert.1 ha with hac | haA
    · rcases Finset.mem_insert.1 hb with hbc | hbA
      · rw [hac, hbc]
      · subst hac; rw [hsame b hbA] at h2; exact absurd h2 (hinj b hbA i h1)
    · rcases Finset.mem_insert.1 hb with hbc | hbA
      · subst hbc; rw [hsame a haA] at h1; exact absurd h1 (hinj a haA i h2)
      · rw [hsame a haA] at h1; rw [hsame b hbA] at h2; exact h.inj a haA b hbA i h1 h2

end Verif.SB
