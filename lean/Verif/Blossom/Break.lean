import Verif.Blossom.Make

/-!
# Dissolving a blossom
-/

namespace Verif.SB

open Verif Verif.Graph Verif.CE Verif.Vary Verif.Track Verif.Spec Verif.Mem
open Verif.Sch (Res better)

variable {g : MGraph} {T L : Finset Nat} {ch : Nat → List Nat} {t : Int} {s : FS}

/-- Chains after the root `B` was removed. -/
def unwrapCh (ch : Nat → List Nat) (B : Nat) (r : Nat) : List Nat := if B ∈ ch r then (ch r).dropLast else ch r

/-- Parents after the root `B` was removed. -/
def unwrapPar (s : FS) (B : Nat) (r : Nat) : Option Nat := if par s r = some B then none else par s r

theorem BGeo.unwrap (h : BGeo g T L ch t s) {B : Nat} (hB : B ∈ L) (hp : par s B = none) :
    Forest (L.erase B) (unwrapPar s B) (unwrapCh ch B) := h.forest.unwrap hB hp fun _ _ _ => rfl

theorem BGeo.unwrap_split (h : BGeo g T L ch t s) {B q : Nat} (hB : B ∈ L) (hp : par s B = none) (hq : q ∈ L) (hBq : B ∈ ch q) :
    ch q = unwrapCh ch B q ++ [B] := by
  have : (s.reg q).top = B := by rw [← h.top_chain hq hBq, h.top_self hB hp]
  unfold unwrapCh
  rw [if_pos hBq]
  have h2 := h.split hq
  rw [this] at h2
  exact h2

theorem BGeo.mem_unwrap (h : BGeo g T L ch t s) {B q R : Nat} (hB : B ∈ L) (hp : par s B = none) (hq : q ∈ L) (hR : R ≠ B) :
    R ∈ unwrapCh ch B q ↔ R ∈ ch q := by
  by_cases hBq : B ∈ ch q
  · rw [h.unwrap_split hB hp hq hBq]; simp [hR]
  · unfold unwrapCh; rw [if_neg hBq]

/-- The regions that `B` breaks into. -/
theorem BGeo.heirs (h : BGeo g T L ch t s) {B q : Nat} (hB : B ∈ L) (hq : q ∈ L) (hqB : q ≠ B) :
    B ∈ ch q ↔ ∃ c ∈ kidsOf s B, c ∈ ch q := by
  constructor
  · intro hBq
    obtain ⟨c, hc, e⟩ := h.forest.via_child hq hBq hqB.symm
    exact ⟨c, (h.kids.mem B hB c).2 e, hc⟩
  · rintro ⟨c, hc, hcq⟩
    obtain ⟨h1, h2⟩ := (h.kids.mem B hB c).1 hc
    have e := (h.forest.step c h1 B h2).2
    exact h.forest.trans hq hcq (by rw [e]; simp [h.forest.self_mem hB])

/-- The state after the children `done` of `B` were released. -/
def released (s : FS) (L : Finset Nat) (ch : Nat → List Nat) (t : Int) (B : Nat) (done : List Nat) : FS :=
  { s with
    node := fun n =>
      match (s.node n).arr with
      | none => s.node n
      | some q => if (∃ c ∈ done, c ∈ ch q) then
          { s.node n with top := (unwrapCh ch B q).getLast?, wrapped := ((unwrapCh ch B q).dropLast.map (y s t)).sum - (s.node n).rho }
        else s.node n
    reg := fun d => if d ∈ L ∧ (∃ c ∈ done, c ∈ ch d) then
        { s.reg d with top := (unwrapCh ch B d).getLastD d, parent := if d ∈ done then none else (s.reg d).parent }
      else s.reg d }

theorem getLastD_of_getLast? {α : Type} {l : List α} {a d : α} (h : l.getLast? = some a) : l.getLastD d = a := by
  rw [List.getLastD_eq_getLast?, h]; rfl

theorem clearParent_spec (h : Geo g T L ch t s) {B c : Nat} (hB : B ∈ L) (hBp : par s B = none) (hc : c ∈ kidsOf s B) {done : List Nat} (hcd : c ∉ done) (hd : ∀ d ∈ done, d ∈ kidsOf s B) :
    clearParent (released s L ch t B done) c = .ok (released s L ch t B (done ++ [c])) := by
  obtain ⟨hcL, hcp⟩ := (h.kids.mem B hB c).1 hc
  have hF := h.toBGeo.unwrap hB hBp
  have hkid : ∀ d ∈ kidsOf s B, d ∈ L ∧ par s d = some B := fun d hd => (h.kids.mem B hB d).1 hd
  have hkidB : ∀ d ∈ kidsOf s B, d ≠ B := by rintro d hd rfl; have := (hkid d hd).2; rw [hBp] at this; cases this
  have huniq : ∀ d ∈ L, ∀ c' ∈ done, c ∈ ch d → c' ∈ ch d → False := by
    intro d hdL c' hc' h1 h2
    have := h.forest.child_unique hdL h1 h2 hcp (hkid c' (hd c' hc')).2
    exact hcd (this ▸ hc')
  generalize hA : released s L ch t B done = A
  have hAnode : ∀ n, (A.node n).src = (s.node n).src ∧ (A.node n).arr = (s.node n).arr ∧ (A.node n).rho = (s.node n).rho := by
    intro n; rw [← hA]; simp only [released]
    split
    · exact ⟨rfl, rfl, rfl⟩
    · split <;> exact ⟨rfl, rfl, rfl⟩
  have hAreg : ∀ d, (A.reg d).children = (s.reg d).children ∧ (A.reg d).shell = (s.reg d).shell ∧ (A.reg d).radius = (s.reg d).radius := by
    intro d; rw [← hA]; simp only [released]; split <;> exact ⟨rfl, rfl, rfl⟩
  have hApar : ∀ d ∈ L, d ∉ done → (A.reg d).parent = (s.reg d).parent := by
    intro d _ hdd; rw [← hA]; simp only [released]; split
    · simp_all
    · rfl
  have hAregs : A.regs = s.regs := by rw [← hA]; rfl
  unfold clearParent
  simp only
  generalize hs2 : (A.setReg c fun R => { R with parent := none }) = s2
  have h2c : s2.reg c = { A.reg c with parent := none } := by rw [← hs2, setReg_self]
  have h2ne : ∀ d, d ≠ c → s2.reg d = A.reg d := fun d hd => by rw [← hs2, setReg_ne _ _ hd]
  have h2node : s2.node = A.node := by rw [← hs2]; rfl
  have h2kids : ∀ d, (s2.reg d).children = (s.reg d).children ∧ (s2.reg d).shell = (s.reg d).shell ∧ (s2.reg d).radius = (s.reg d).radius := by
    intro d
    by_cases hdc : d = c
    · subst hdc; rw [h2c]; exact hAreg d
    · rw [h2ne d hdc]; exact hAreg d
  have h2depth : s2.depth = s.depth := by rw [← hs2]; show A.regs.allocated.length = _; rw [hAregs]; rfl
  have hk2 : kidsOf s2 = kidsOf s := by funext d; unfold kidsOf; rw [(h2kids d).1]
  have hmem : ∀ d, d ∈ regionsIn s2 c ↔ d ∈ L ∧ c ∈ ch d := by
    intro d
    unfold regionsIn
    rw [hk2, h2depth]
    exact SB.mem_desc h.forest h.kids h.card hcL
  have hcB := hkidB c hc
  have hne : ∀ q ∈ L, c ∈ ch q → q ≠ B := by
    rintro q hq hcq rfl
    rw [h.chain_root hq hBp, List.mem_singleton] at hcq
    exact hcB hcq
  have hlast : ∀ q ∈ L, c ∈ ch q → (unwrapCh ch B q).getLast? = some c := by
    intro q hq hcq
    have hqB := hne q hq hcq
    refine (hF.last_iff (Finset.mem_erase.2 ⟨hqB, hq⟩)).2 ⟨(h.mem_unwrap hB hBp hq hcB).2 hcq, ?_⟩
    simp [unwrapPar, hcp]
  have hup : ∀ q ∈ L.erase B, c ∈ unwrapCh ch B q → Up s2 (some c) q (unwrapCh ch B q).dropLast := by
    intro q hq
    refine hF.induct (Q := fun q => c ∈ unwrapCh ch B q → Up s2 (some c) q (unwrapCh ch B q).dropLast) ?_ ?_ hq
    · intro r hr hp hcr
      rw [hF.root r hr hp, List.mem_singleton] at hcr
      subst hcr
      rw [hF.root c hr hp]
      exact .here rfl
    · intro r hr p hp hpar ih hcr
      obtain ⟨-, e⟩ := hF.step r hr p hpar
      have hpar' := hpar
      unfold unwrapPar at hpar'
      split at hpar'
      · cases hpar'
      rename_i hnB
      have hrc : r ≠ c := by rintro rfl; rw [hcp] at hnB; exact hnB rfl
      have hcp' : c ∈ unwrapCh ch B p := by rw [e] at hcr; rcases List.mem_cons.1 hcr with e' | e'; exact absurd e'.symm hrc; exact e'
      rw [e, List.dropLast_cons_of_ne_nil (List.ne_nil_of_mem hcp')]
      refine .step (by rintro e; cases e; exact hrc rfl) ?_ (ih hcp')
      rw [h2ne r hrc, hApar r (Finset.mem_of_mem_erase hr) (fun hrd => hnB (hkid r (hd r hrd)).2)]
      exact hpar'
  have hint : ∀ q ∈ L, c ∈ ch q → ∀ d ∈ (unwrapCh ch B q).dropLast, (s2.reg d).radius.yIntercept = y s t d := by
    intro q hq hcq d hd'
    have hqB := hne q hq hcq
    have hd2 := List.mem_of_mem_dropLast hd'
    have hdB : d ≠ B := Finset.ne_of_mem_erase (hF.mem_live (Finset.mem_erase.2 ⟨hqB, hq⟩) hd2)
    have hdq : d ∈ ch q := (h.mem_unwrap hB hBp hq hdB).1 hd2
    have hdL := h.forest.mem_live hq hdq
    rw [(h2kids d).2.2]
    refine still_intercept (h.still d hdL ?_) t
    intro hp
    have hBq : B ∈ ch q := (h.heirs hB hq hqB).2 ⟨c, hc, hcq⟩
    exact hdB (h.forest.root_unique hq hdq hp hBq hBp)
  have hwv : ∀ d ∈ regionsIn s2 c, ∀ n ∈ (s2.reg d).shell, wrapVal s2 c n =
      .ok ((fun n => match (s.node n).arr with
        | none => 0
        | some q => ((unwrapCh ch B q).dropLast.map (y s t)).sum - (s.node n).rho) n) := by
    intro d hd' n hn
    obtain ⟨hdL, hcd'⟩ := (hmem d).1 hd'
    have hdB := hne d hdL hcd'
    have hdE := Finset.mem_erase.2 ⟨hdB, hdL⟩
    rw [(h2kids d).2.1] at hn
    have harr := h.shell d hdL n hn
    obtain ⟨a, -, hsrc, -⟩ := h.src n d harr
    obtain ⟨k1, k2, k3⟩ := hAnode n
    unfold wrapVal
    rw [h2node, k1, k2, k3, hsrc, harr]
    simp only [deref, Res.bind]
    rw [sumBelow_up (hup d hdE ((h.mem_unwrap hB hBp hdL hcB).2 hcd'))]
    · simp only
      rw [List.map_congr_left (hint d hdL hcd'), harr]
    · have := hF.length_le hdE
      have := Finset.card_erase_le (s := L) (a := B)
      have := h.card
      have : (unwrapCh ch B d).dropLast.length ≤ (unwrapCh ch B d).length := by simp
      omega
  rw [retopRegions c _ _ hwv]
  congr 1
  unfold released retopR
  have hregs2 : s2.regs = s.regs := by rw [← hs2]; exact hAregs
  have hw2 : s2.w = s.w := by rw [← hs2, ← hA]; rfl
  rw [hregs2, hw2]
  have happ : ∀ q, (∃ c' ∈ done ++ [c], c' ∈ ch q) ↔ (∃ c' ∈ done, c' ∈ ch q) ∨ c ∈ ch q := by
    intro q
    constructor
    · rintro ⟨c', h1, h2⟩
      rcases List.mem_append.1 h1 with h1 | h1
      · exact .inl ⟨c', h1, h2⟩
      · rw [List.mem_singleton] at h1; subst h1; exact .inr h2
    · rintro (⟨c', h1, h2⟩ | h1)
      · exact ⟨c', by simp [h1], h2⟩
      · exact ⟨c, by simp, h1⟩
  congr 1
  · funext n
    have hiff : (n ∈ (regionsIn s2 c).flatMap fun d => (s2.reg d).shell) ↔ InR s ch c n := by
      rw [List.mem_flatMap]
      constructor
      · rintro ⟨d, hd', hn⟩
        obtain ⟨hdL, hcd'⟩ := (hmem d).1 hd'
        rw [(h2kids d).2.1] at hn
        exact ⟨d, h.shell d hdL n hn, hcd'⟩
      · rintro ⟨q, hq, hcq⟩
        have := h.occ n q hq
        exact ⟨q, (hmem q).2 ⟨this.1, hcq⟩, by rw [(h2kids q).2.1]; exact this.2⟩
    rw [h2node, ← hA]
    simp only [released]
    cases harr : (s.node n).arr with
    | none =>
      have : ¬ InR s ch c n := by rintro ⟨q, hq, -⟩; rw [harr] at hq; cases hq
      rw [if_neg (fun e => this (hiff.1 e))]
    | some q =>
      have hq := (h.occ n q harr).1
      have hI : InR s ch c n ↔ c ∈ ch q := by
        constructor
        · rintro ⟨q', h1, h2⟩; rw [harr] at h1; cases h1; exact h2
        · intro h1; exact ⟨q, harr, h1⟩
      have hI2 := hiff.trans hI
      simp only [hI2, happ]
      by_cases h1 : c ∈ ch q
      · have h2 : ¬ ∃ c' ∈ done, c' ∈ ch q := by rintro ⟨c', h2, h3⟩; exact huniq q hq c' h2 h1 h3
        simp only [h1, if_true, h2, if_false, or_true, hlast q hq h1, harr]
      · simp only [h1, if_false, or_false]
  · funext d
    simp only [hmem, happ]
    by_cases hdL : d ∈ L
    · by_cases h1 : c ∈ ch d
      · have h2 : ¬ ∃ c' ∈ done, c' ∈ ch d := by rintro ⟨c', h2, h3⟩; exact huniq d hdL c' h2 h1 h3
        have h3 : A.reg d = s.reg d := by rw [← hA]; simp only [released, h2, and_false, if_false]
        simp only [hdL, h1, and_self, if_true, or_true, getLastD_of_getLast? (hlast d hdL h1)]
        have h4 : d ∉ done := fun hdd => h2 ⟨d, hdd, h.forest.self_mem hdL⟩
        by_cases hdc : d = c
        · subst hdc; rw [h2c, h3]; simp
        · rw [h2ne d hdc, h3]; simp [h4, hdc]
      · have hdc : d ≠ c := by rintro rfl; exact h1 (h.forest.self_mem hdL)
        rw [h2ne d hdc, ← hA]
        simp only [h1, and_false, if_false, or_false, released, List.mem_append, List.mem_singleton, hdc]
    · have hdc : d ≠ c := by rintro rfl; exact hdL hcL
      rw [h2ne d hdc, ← hA]
      simp only [hdL, false_and, if_false, released]

theorem clearParents_spec (h : Geo g T L ch t s) {B : Nat} (hB : B ∈ L) (hBp : par s B = none)
    (todo : List Nat) : ∀ {done : List Nat}, (done ++ todo).Nodup → (∀ d ∈ done ++ todo, d ∈ kidsOf s B) →
    todo.foldlM clearParent (released s L ch t B done) = .ok (released s L ch t B (done ++ todo)) := by
  induction todo with
  | nil => intro done _ _; simp; rfl
  | cons c todo ih =>
    intro done hnd hl
    have hcd : c ∉ done := fun hc => (List.disjoint_of_nodup_append hnd) hc (by simp)
    have h1 := clearParent_spec h hB hBp (hl c (by simp)) hcd (fun d hd => hl d (by simp [hd]))
    have h2 := ih (done := done ++ [c]) (by simpa using hnd) (fun d hd => hl d (by simpa using hd))
    rw [foldlM_cons_ok _ h1, h2]; simp

/-- How the state before and after blossom `B` was dissolved are related. -/
structure UnwrapRel (L : Finset Nat) (ch : Nat → List Nat) (t : Int) (B : Nat) (s s' : FS) : Prop where
  dist : D s' (L.erase B) (unwrapCh ch B) t = D s L ch t
  arr : ∀ n, (s'.node n).arr = (s.node n).arr
  parC : ∀ c ∈ kidsOf s B, par s' c = none
  kids : ∀ r ∈ L.erase B, (s'.reg r).children = (s.reg r).children
  par : ∀ r ∈ L.erase B, r ∉ kidsOf s B → par s' r = par s r
  radius : ∀ r, (s'.reg r).radius = (s.reg r).radius
  topC : ∀ c ∈ kidsOf s B, ∀ n, (s'.node n).top = some c ↔ InR s ch c n
  regs : s'.regs = s.regs
  now : s'.now = s.now

theorem Geo.released_geo (h : Geo g T L ch t s) {B : Nat} (hB : B ∈ L) (hBp : SB.par s B = none) (hsh : (s.reg B).shell = [])
    (hy0 : y s t B = 0) :
    Geo g T (L.erase B) (unwrapCh ch B) t (released s L ch t B (kidsOf s B)) ∧
      UnwrapRel L ch t B s (released s L ch t B (kidsOf s B)) := by
  have hF := h.toBGeo.unwrap hB hBp
  have hkid : ∀ d ∈ kidsOf s B, d ∈ L ∧ SB.par s d = some B := fun d hd => (h.kids.mem B hB d).1 hd
  have hkidB : ∀ d ∈ kidsOf s B, d ≠ B := by rintro d hd rfl; have := (hkid d hd).2; rw [hBp] at this; cases this
  generalize hA : released s L ch t B (kidsOf s B) = A
  have hAnode : ∀ n, (A.node n).src = (s.node n).src ∧ (A.node n).arr = (s.node n).arr ∧ (A.node n).rho = (s.node n).rho ∧
      (A.node n).obs = (s.node n).obs := by
    intro n; rw [← hA]; simp only [released]
    split
    · exact ⟨rfl, rfl, rfl, rfl⟩
    · split <;> exact ⟨rfl, rfl, rfl, rfl⟩
  have hAreg : ∀ d, (A.reg d).children = (s.reg d).children ∧ (A.reg d).shell = (s.reg d).shell ∧ (A.reg d).radius = (s.reg d).radius := by
    intro d; rw [← hA]; simp only [released]; split <;> exact ⟨rfl, rfl, rfl⟩
  have harrB : ∀ n q, (s.node n).arr = some q → q ∈ L ∧ q ≠ B := by
    intro n q hn
    refine ⟨(h.occ n q hn).1, ?_⟩
    rintro rfl
    have := (h.occ n q hn).2
    rw [hsh] at this; cases this
  have hin : ∀ n q, (s.node n).arr = some q → B ∈ ch q → (A.node n).top = (unwrapCh ch B q).getLast? ∧
      (A.node n).wrapped = ((unwrapCh ch B q).dropLast.map (y s t)).sum - (s.node n).rho := by
    intro n q hn hBq
    have := (h.heirs hB (harrB n q hn).1 (harrB n q hn).2).1 hBq
    rw [← hA]; simp only [released, hn, if_pos this]
    exact ⟨trivial, trivial⟩
  have hout : ∀ n, (s.node n).top ≠ some B → A.node n = s.node n := by
    intro n hn
    rw [← hA]; simp only [released]
    cases harr : (s.node n).arr with
    | none => rfl
    | some q =>
      have h1 : B ∉ ch q := by
        intro hBq
        apply hn
        rw [h.otop n q harr, ← h.top_chain (harrB n q harr).1 hBq, h.top_self hB hBp]
      have h2 : ¬ ∃ c ∈ kidsOf s B, c ∈ ch q := fun e => h1 ((h.heirs hB (harrB n q harr).1 (harrB n q harr).2).2 e)
      simp only [if_neg h2]
  have hApar : ∀ r ∈ L.erase B, SB.par A r = unwrapPar s B r := by
    intro r hr
    have hrL := Finset.mem_of_mem_erase hr
    have hrB := Finset.ne_of_mem_erase hr
    rw [← hA]
    unfold unwrapPar SB.par
    simp only [released]
    by_cases hk : r ∈ kidsOf s B
    · have : ∃ c ∈ kidsOf s B, c ∈ ch r := ⟨r, hk, h.forest.self_mem hrL⟩
      have hk2 : (s.reg r).parent = some B := (hkid r hk).2
      rw [if_pos ⟨hrL, this⟩, if_pos hk2]
      simp [hk]
    · have h2 : ¬ (s.reg r).parent = some B := fun e => hk ((h.kids.mem B hB r).2 ⟨hrL, e⟩)
      rw [if_neg h2]
      split
      · simp
      · rfl
  have htopIn : ∀ r ∈ L.erase B, B ∈ ch r → (A.reg r).top = (unwrapCh ch B r).getLastD r := by
    intro r hr hBr
    have := (h.heirs hB (Finset.mem_of_mem_erase hr) (Finset.ne_of_mem_erase hr)).1 hBr
    rw [← hA]; simp only [released, if_pos (And.intro (Finset.mem_of_mem_erase hr) this)]
  have htopOut : ∀ r ∈ L.erase B, B ∉ ch r → (A.reg r).top = (s.reg r).top := by
    intro r hr hBr
    have : ¬ ∃ c ∈ kidsOf s B, c ∈ ch r := fun e => hBr ((h.heirs hB (Finset.mem_of_mem_erase hr) (Finset.ne_of_mem_erase hr)).2 e)
    rw [← hA]; simp only [released, this, and_false, if_false]
  have hdepth : A.depth = s.depth := by rw [← hA]; rfl
  have hAregs : A.regs = s.regs := by rw [← hA]; rfl
  have hAnow : A.now = s.now := by rw [← hA]; rfl
  clear hA
  have hy : ∀ d, y A t d = y s t d := fun d => by unfold y; rw [(hAreg d).2.2]
  have hsl : ∀ d, sl A d = sl s d := fun d => by unfold sl; rw [(hAreg d).2.2]
  have hmemE : ∀ {q : Nat}, q ∈ L → q ≠ B → q ∈ L.erase B := fun a b => Finset.mem_erase.2 ⟨b, a⟩
  have hchout : ∀ q, B ∉ ch q → unwrapCh ch B q = ch q := fun q hq => if_neg hq
  have hpotB : ∀ u, pot s ch t B u = 0 := by
    intro u
    cases u with
    | none => rfl
    | some n =>
      cases ha : (s.node n).arr with
      | none => exact BGeo.pot_empty ha B
      | some q =>
        rw [BGeo.pot_arr ha, hy0]
        split
        · rw [if_neg (fun e => (harrB n q ha).2 e.symm)]
        · rfl
  have hpotL : ∀ R ∈ L, R ≠ B → ∀ u, pot A (unwrapCh ch B) t R u = pot s ch t R u := by
    intro R hR hRB u
    cases u with
    | none => rfl
    | some n =>
      cases ha : (s.node n).arr with
      | none => rw [BGeo.pot_empty ha, BGeo.pot_empty (by rw [(hAnode n).2.1]; exact ha)]
      | some q =>
        rw [BGeo.pot_arr ha, BGeo.pot_arr (by rw [(hAnode n).2.1]; exact ha), (hAnode n).2.2.1, hy R]
        simp only [h.mem_unwrap hB hBp (harrB n q ha).1 hRB]
  have hD : D A (L.erase B) (unwrapCh ch B) t = D s L ch t := by
    funext u v
    exact dist_erase hpotB hpotL u v
  have hrad : rad A (L.erase B) (unwrapCh ch B) t = rad s L ch t := by funext n; unfold rad; rw [hD]
  have hTight : ∀ a b o, Tight g A (L.erase B) (unwrapCh ch B) t a b o ↔ Tight g s L ch t a b o := by
    intro a b o; unfold Tight; rw [hD]
  have hlast : ∀ q ∈ L.erase B, B ∈ ch q → ∃ c ∈ kidsOf s B, (unwrapCh ch B q).getLast? = some c ∧ c ∈ ch q := by
    intro q hq hBq
    have hqL := Finset.mem_of_mem_erase hq
    obtain ⟨c, hc, hcq⟩ := (h.heirs hB hqL (Finset.ne_of_mem_erase hq)).1 hBq
    refine ⟨c, hc, (hF.last_iff hq).2 ⟨(h.mem_unwrap hB hBp hqL (hkidB c hc)).2 hcq, ?_⟩, hcq⟩
    simp [unwrapPar, (hkid c hc).2]
  have hInR : ∀ r, r ≠ B → ∀ n, InR A (unwrapCh ch B) r n ↔ InR s ch r n := by
    intro r hr n
    unfold InR
    rw [(hAnode n).2.1]
    constructor
    · rintro ⟨q, h1, h2⟩; exact ⟨q, h1, (h.mem_unwrap hB hBp (harrB n q h1).1 hr).1 h2⟩
    · rintro ⟨q, h1, h2⟩; exact ⟨q, h1, (h.mem_unwrap hB hBp (harrB n q h1).1 hr).2 h2⟩
  have hnodetop : ∀ n r, (A.node n).top = some r → (r ∈ kidsOf s B ∧ (s.node n).top = some B) ∨
      (r ≠ B ∧ (s.node n).top = some r) := by
    intro n r hn
    by_cases hx : (s.node n).top = some B
    · obtain ⟨q, e1, e2, e3, -, -⟩ := h.node_top_live hx
      have hBq : B ∈ ch q := e3 ▸ (h.top q e2).1
      rw [(hin n q e1 hBq).1] at hn
      obtain ⟨c, hc, e, -⟩ := hlast q (hmemE e2 (harrB n q e1).2) hBq
      rw [hn] at e
      cases e
      exact .inl ⟨hc, hx⟩
    · right
      rw [hout n hx] at hn
      exact ⟨fun e => hx (e ▸ hn), hn⟩
  have hgeo : Geo g T (L.erase B) (unwrapCh ch B) t A := by
    refine ⟨⟨?_, ?_, ?_, ?_, ?_, ?_, ?_, ?_, ?_, ?_, ?_, ?_, ?_, ?_, ?_, ?_, ?_⟩, ?_, ?_, ?_, ?_⟩
    · exact hF.congr hApar
    · constructor
      · intro r hr c
        unfold kidsOf
        rw [(hAreg r).1]
        have hrL := Finset.mem_of_mem_erase hr
        rw [show (c ∈ (s.reg r).children.map (·.1)) ↔ _ from h.kids.mem r hrL c, Finset.mem_erase]
        have hrB := Finset.ne_of_mem_erase hr
        constructor
        · rintro ⟨h1, h2⟩
          have hcB : c ≠ B := by rintro rfl; rw [hBp] at h2; cases h2
          refine ⟨⟨hcB, h1⟩, ?_⟩
          rw [hApar c (hmemE h1 hcB)]
          unfold unwrapPar
          rw [if_neg, h2]
          rw [h2]; intro e; cases e; exact hrB rfl
        · rintro ⟨⟨h1, h2⟩, h3⟩
          refine ⟨h2, ?_⟩
          rw [hApar c (hmemE h2 h1)] at h3
          unfold unwrapPar at h3
          split at h3
          · cases h3
          · exact h3
      · intro r hr
        unfold kidsOf
        rw [(hAreg r).1]
        exact h.kids.nodup r (Finset.mem_of_mem_erase hr)
    · rw [hdepth]; exact le_trans Finset.card_erase_le h.card
    · intro r hr
      have hrL := Finset.mem_of_mem_erase hr
      by_cases hBr : B ∈ ch r
      · obtain ⟨c, hc, e, -⟩ := hlast r hr hBr
        rw [htopIn r hr hBr, getLastD_of_getLast? e, hApar c (hmemE (hkid c hc).1 (hkidB c hc))]
        exact (hF.last_iff hr).1 e
      · rw [htopOut r hr hBr, hchout r hBr]
        have h1 := h.top r hrL
        have h2 : (s.reg r).top ≠ B := fun e => hBr (e ▸ h1.1)
        rw [hApar _ (hmemE (h.top_live hrL) h2)]
        refine ⟨h1.1, ?_⟩
        unfold unwrapPar
        simp [h1.2]
    · intro r hr; rw [(hAreg r).2.2]; exact h.valid r (Finset.mem_of_mem_erase hr)
    · intro r hr hp
      rw [hsl]
      refine h.still r (Finset.mem_of_mem_erase hr) ?_
      rw [hApar r hr] at hp
      intro e
      apply hp
      unfold unwrapPar
      simp [e]
    · intro r hr; rw [hy]; exact h.ypos r (Finset.mem_of_mem_erase hr)
    · intro n q hn
      rw [(hAnode n).2.1] at hn
      exact ⟨hmemE (harrB n q hn).1 (harrB n q hn).2, by rw [(hAreg q).2.1]; exact (h.occ n q hn).2⟩
    · intro n q hn
      rw [(hAnode n).2.1] at hn
      obtain ⟨hq, hqB⟩ := harrB n q hn
      by_cases hBq : B ∈ ch q
      · obtain ⟨c, hc, e, -⟩ := hlast q (hmemE hq hqB) hBq
        rw [(hin n q hn hBq).1, htopIn q (hmemE hq hqB) hBq, e, getLastD_of_getLast? e]
      · rw [htopOut q (hmemE hq hqB) hBq, hout n, h.otop n q hn]
        rw [h.otop n q hn]
        intro e
        rw [Option.some.injEq] at e
        exact hBq (e ▸ (h.top q hq).1)
    · intro n q hn
      rw [(hAnode n).2.1] at hn
      rw [(hAnode n).2.2.1, hy]
      exact h.orho n q hn
    · intro n q hn
      rw [(hAnode n).2.1] at hn
      obtain ⟨hq, hqB⟩ := harrB n q hn
      rw [(hAnode n).2.2.1]
      have hmap : ∀ l : List Nat, l.map (y A t) = l.map (y s t) := fun l => List.map_congr_left fun d _ => hy d
      rw [hmap]
      by_cases hBq : B ∈ ch q
      · exact (hin n q hn hBq).2
      · rw [hchout q hBq, hout n, h.owrap n q hn]
        rw [h.otop n q hn]
        intro e
        rw [Option.some.injEq] at e
        exact hBq (e ▸ (h.top q hq).1)
    · intro n hn
      rw [(hAnode n).2.1] at hn
      rw [hout n (fun e => by rw [(h.arr_none_iff n).1 hn] at e; cases e)]
      exact h.empty n hn
    · intro r hr n hn
      rw [(hAreg r).2.1] at hn
      rw [(hAnode n).2.1]
      exact h.shell r (Finset.mem_of_mem_erase hr) n hn
    · intro r hr
      rw [(hAreg r).2.1]
      exact h.shellNodup r (Finset.mem_of_mem_erase hr)
    · intro r hr
      rw [(hAreg r).2.1]
      refine (h.shellSorted r (Finset.mem_of_mem_erase hr)).imp ?_
      intro a b hab
      rw [(hAnode a).2.2.1, (hAnode b).2.2.1]
      exact hab
    · intro r hr hc
      rw [(hAreg r).1] at hc
      rw [(hAreg r).2.1]
      exact h.seed r (Finset.mem_of_mem_erase hr) hc
    · intro a ha
      obtain ⟨r, l, e1, e2, e3, e4, e5, e6⟩ := h.event a ha
      obtain ⟨k1, k2, k3, k4⟩ := hAnode a
      exact ⟨r, l, by rw [k2]; exact e1, by rw [(hAreg r).1]; exact e2, by rw [(hAreg r).2.1]; exact e3, by rw [k3]; exact e4,
        by rw [k1]; exact e5, by rw [k4]; exact e6⟩
    · intro n q hn
      obtain ⟨k1, k2, k3, k4⟩ := hAnode n
      rw [k2] at hn
      obtain ⟨a, ha, e1, e2, e3⟩ := h.src n q hn
      refine ⟨a, ha, by rw [k1]; exact e1, (hInR q (harrB n q hn).2 a).2 e2, ?_⟩
      rw [hTight, k4]; exact e3
    · rw [hD]; exact h.flow
    · rw [hrad]
      intro u v r hu hv
      rcases hnodetop u r hu with ⟨e1, e2⟩ | ⟨e1, e2⟩
      · rcases hnodetop v r hv with ⟨e3, e4⟩ | ⟨e3, e4⟩
        · exact h.even1 u v B e2 e4
        · obtain ⟨-, -, -, -, -, e5⟩ := h.node_top_live e4
          rw [(hkid r e1).2] at e5; cases e5
      · rcases hnodetop v r hv with ⟨e3, e4⟩ | ⟨e3, e4⟩
        · obtain ⟨-, -, -, -, -, e5⟩ := h.node_top_live e2
          rw [(hkid r e3).2] at e5; cases e5
        · exact h.even1 u v r e2 e4
    · rw [hrad]
      intro u r hu hs
      rw [hsl] at hs
      rcases hnodetop u r hu with ⟨e1, e2⟩ | ⟨e1, e2⟩
      · exact absurd (h.still r (hkid r e1).1 (by rw [(hkid r e1).2]; simp)) hs
      · exact h.even2 u r e2 hs
  have hparC : ∀ c ∈ kidsOf s B, SB.par A c = none := by
    intro c hc
    rw [hApar c (hmemE (hkid c hc).1 (hkidB c hc))]
    simp [unwrapPar, (hkid c hc).2]
  refine ⟨hgeo, hD, fun n => (hAnode n).2.1, hparC, fun r _ => (hAreg r).1, ?_, fun r => (hAreg r).2.2, ?_, hAregs, hAnow⟩
  · intro r hr hk
    rw [hApar r hr]
    unfold unwrapPar
    rw [if_neg (fun e => hk ((h.kids.mem B hB r).2 ⟨Finset.mem_of_mem_erase hr, e⟩))]
  · intro c hc n
    rw [← hgeo.toBGeo.inR_iff (hmemE (hkid c hc).1 (hkidB c hc)) (hparC c hc)]
    exact hInR c (hkidB c hc) n

/-- The loop of `handle_blossom_shattering` that releases the children of `B` (mwpm.cc:166-169): the flooder part of dissolving. -/
theorem dissolve_spec (h : Geo g T L ch t s) {X Y : Nat → Prop} (hs : Sched g L X Y s) {B : Nat} (hB : B ∈ L)
    (hBp : SB.par s B = none) (hsh : (s.reg B).shell = []) (hy0 : y s t B = 0) (hsl : sl s B ≠ 0) (hYB : Y B) :
    ∃ s', (kidsOf s B).foldlM clearParent s = .ok s' ∧ Geo g T (L.erase B) (unwrapCh ch B) t s' ∧
      Sched g (L.erase B) (fun u => X u ∨ (s.node u).top = some B) Y s' ∧ UnwrapRel L ch t B s s' ∧ s'.reg B = s.reg B ∧
      ∀ n, (s.node n).top = some B → (rad s' (L.erase B) (unwrapCh ch B) t n - t) % 2 = 0 := by
  have hnd : (kidsOf s B).Nodup := h.kids.nodup B hB
  have hinit : released s L ch t B [] = s := by
    unfold released
    simp only [List.not_mem_nil, false_and, exists_false, if_false, and_false]
    have : (fun n => match (s.node n).arr with | none => s.node n | some _ => s.node n) = s.node := by
      funext n; split <;> rfl
    rw [this]
  have h1 := clearParents_spec h hB hBp (kidsOf s B) (done := []) (by simpa using hnd) (by simp)
  rw [hinit, List.nil_append] at h1
  obtain ⟨hG, hR⟩ := h.released_geo hB hBp hsh hy0
  have hkid : ∀ d ∈ kidsOf s B, d ∈ L ∧ SB.par s d = some B := fun d hd => (h.kids.mem B hB d).1 hd
  have hBB : (released s L ch t B (kidsOf s B)).reg B = s.reg B := by
    have : ¬ ∃ c ∈ kidsOf s B, c ∈ ch B := by
      rintro ⟨c, hc, e⟩
      rw [h.chain_root hB hBp, List.mem_singleton] at e
      subst e
      have := (hkid c hc).2
      rw [hBp] at this; cases this
    simp only [released, this, and_false, if_false]
  have hout : ∀ n, (s.node n).top ≠ some B → (released s L ch t B (kidsOf s B)).node n = s.node n := by
    intro n hn
    simp only [released]
    cases harr : (s.node n).arr with
    | none => rfl
    | some q =>
      have hq := (h.occ n q harr).1
      have h1 : B ∉ ch q := by
        intro hBq
        apply hn
        rw [h.otop n q harr, ← h.top_chain hq hBq, h.top_self hB hBp]
      have h2 : ¬ ∃ c ∈ kidsOf s B, c ∈ ch q := by
        rintro ⟨c, hc, hcq⟩
        have e := (h.forest.step c (hkid c hc).1 B (hkid c hc).2).2
        exact h1 (h.forest.trans hq hcq (by rw [e]; simp [h.forest.self_mem hB]))
      simp only [if_neg h2]
  have hshell : ∀ r, ((released s L ch t B (kidsOf s B)).reg r).shell = (s.reg r).shell := by
    intro r; simp only [released]; split <;> rfl
  have hw : (released s L ch t B (kidsOf s B)).w = s.w := rfl
  refine ⟨_, h1, hG, ?_, hR, hBB, fun n hn => ?_⟩
  · generalize released s L ch t B (kidsOf s B) = A at *
    have hwant : ∀ o, want A o = want s o := fun o => by unfold want; rw [hw]
    have hloc : ∀ n, (s.node n).top ≠ some B → localRadius A n = localRadius s n := fun n hn => localRadius_congr (hout n hn) hR.radius
    refine ⟨by rw [hw]; exact hs.winv, ?_, ?_, ?_⟩
    · intro u i n τ he hcoll hXu hXv
      push Not at hXu
      have hcs : coll s u n = some τ := by
        rw [← hcoll]
        unfold coll
        rw [hloc u hXu.2, hout u hXu.2]
        cases ht : n.target with
        | none => rfl
        | some v =>
          have := hXv v ht
          push Not at this
          simp only
          rw [hloc v this.2, hout v this.2]
      obtain ⟨t', e1, e2⟩ := hs.colls u i n τ he hcs hXu.1 (fun v hv x => hXv v hv (.inl x))
      refine ⟨t', e1, ?_⟩
      simp only [hwant]
      exact e2
    · intro u τ hX hu
      push Not at hX
      rw [hwant] at hu
      rw [hloc u hX.2]
      exact hs.nodeWant u τ hX.1 hu
    · intro r
      rw [hwant]
      have e3 : sl A r = sl s r := by unfold sl; rw [hR.radius]
      rw [e3]
      by_cases hrB : r = B
      · subst hrB
        refine ⟨fun a => absurd a.1 (by simp), fun _ => (hs.regWant r).2 (fun a => a.2.2.2 hYB)⟩
      · have hrm : r ∈ L.erase B ↔ r ∈ L := by simp [hrB]
        rw [hrm]
        by_cases hrk : r ∈ kidsOf s B
        · have h0 : sl s r = 0 := h.still r (hkid r hrk).1 (by rw [(hkid r hrk).2]; simp)
          refine ⟨fun a => by rw [h0] at a; omega, fun _ => (hs.regWant r).2 (fun a => by rw [h0] at a; omega)⟩
        · by_cases hrL : r ∈ L
          · rw [hR.par r (hrm.2 hrL) hrk]
            refine ⟨fun a => ?_, (hs.regWant r).2⟩
            refine ((hs.regWant r).1 a).trans ?_
            congr 1
            unfold shrinkTime
            rw [hR.radius, hshell]
            cases hz : (s.reg r).shell.getLast? with
            | none => rfl
            | some z =>
              simp only
              rw [hloc z]
              rw [h.otop z r (h.shell r hrL z (List.mem_of_getLast? hz)), h.top_self hrL a.2.1]
              intro e; cases e; exact hrB rfl
          · exact ⟨fun a => absurd a.1 hrL, fun _ => (hs.regWant r).2 (fun a => hrL a.1)⟩
  · have : rad (released s L ch t B (kidsOf s B)) (L.erase B) (unwrapCh ch B) t n = rad s L ch t n := by unfold rad; rw [hR.dist]
    rw [this]
    exact h.even2 n B hn hsl

end Verif.SB
