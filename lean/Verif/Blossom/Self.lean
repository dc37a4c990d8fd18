import Verif.Blossom.Child

/-!
# A tree that hits itself: a blossom is created
-/

namespace Verif.SB

open Verif Verif.Graph Verif.CE Verif.Mem Verif.Spec
open Verif.Sch (Res)

variable {A : Finset Nat} {ach : Nat → List Nat}
variable {g : MGraph} {T L : Finset Nat} {ch : Nat → List Nat} {t : Int} {X Y : Nat → Prop}

/-- The cycle of a new blossom. -/
structure Ring (V : View) (alt : Nat → ANode) (anc : Nat) (ps : List Nat) (cyc : List (Nat × CompressedEdge)) : Prop where
  mem : ∀ r, r ∈ cyc.map (·.1) ↔ r = (alt anc).outer ∨ ∃ x ∈ ps, r ∈ nregs alt x
  nodup : (cyc.map (·.1)).Nodup
  chain : ∃ q, Chain V q cyc q
  odd : cyc.length % 2 = 1
  three : 3 ≤ cyc.length

theorem Cyc.wrap {V V' : View} {B : Nat} {cyc : List (Nat × CompressedEdge)} (h : Cyc V) (hw : Wrapped V V' B cyc) (hodd : cyc.length % 2 = 1)
    (h3 : 3 ≤ cyc.length) (hc : ∃ q, Chain V q cyc q) : Cyc V' := by
  have hmono : ∀ e r r', V.lk e r r' → V'.lk e r r' := fun e r r' hl => (hw.lk e r r' hl).1
  intro r hr
  rcases (hw.live r).1 hr with rfl | hr
  · obtain ⟨q, hq⟩ := hc
    rw [hw.kidsB]
    exact .inr ⟨hodd, h3, q, hq.mono hmono⟩
  · rw [hw.kids r hr]
    rcases h r hr with h1 | ⟨h1, h2, q, hq⟩
    · exact .inl h1
    · exact .inr ⟨h1, h2, q, hq.mono hmono⟩

/-- A node below another one has an inner region. -/
theorem Shape.inner_some {V : View} {alt : Nat → ANode} (h : Shape V alt A ach ∅) {a p : Nat} (ha : a ∈ A) (hp : epar alt ∅ a = some p) :
    ∃ i, (alt a).inner = some i := by
  have hpA := (h.forest.step a ha p hp).1
  obtain ⟨⟨c, e⟩, hce, hc⟩ := List.mem_map.1 ((h.kids.mem p hpA a).2 ⟨ha, hp⟩)
  simp only at hc
  subst hc
  obtain ⟨i, hi, -⟩ := h.link p hpA c e hce
  exact ⟨i, hi⟩

/-- One of the nodes below the meeting point of two paths has an inner region. -/
theorem Shape.meet_inner {V : View} {alt : Nat → ANode} (h : Shape V alt A ach ∅) {a1 a2 anc : Nat} {p1 p2 rest : List Nat} (ha1 : a1 ∈ A) (ha2 : a2 ∈ A)
    (hne : a1 ≠ a2) (hm : Meet ach a1 a2 anc p1 p2 rest) : ∃ x ∈ p1 ++ p2, ∃ i, (alt x).inner = some i := by
  have key : ∀ a ∈ A, ∀ p : List Nat, p ≠ [] → ach a = p ++ anc :: rest → ∃ x ∈ p, ∃ i, (alt x).inner = some i := by
    intro a ha p hp he
    cases p with
    | nil => exact absurd rfl hp
    | cons x l =>
      obtain ⟨l', hl'⟩ := h.forest.chain_self ha
      have hxa : a = x := by
        rw [hl', List.cons_append, List.cons.injEq] at he
        exact he.1
      subst hxa
      refine ⟨a, by simp, ?_⟩
      rcases h.forest.cases ha with ⟨-, h2⟩ | ⟨p, h2, -⟩
      · rw [h2, List.cons_append, List.cons.injEq] at he
        exact absurd he.2.symm (by simp)
      · exact h.inner_some ha h2
  by_cases h1 : p1 = []
  · by_cases h2 : p2 = []
    · exfalso
      have e1 := hm.left
      rw [h1, List.nil_append] at e1
      have e2 := hm.right
      rw [h2, List.nil_append, ← e1] at e2
      obtain ⟨l1, k1⟩ := h.forest.chain_self ha1
      obtain ⟨l2, k2⟩ := h.forest.chain_self ha2
      rw [k1, k2, List.cons.injEq] at e2
      exact hne e2.1.symm
    · obtain ⟨x, hx, hi⟩ := key a2 ha2 p2 h2 hm.right
      exact ⟨x, List.mem_append_right _ hx, hi⟩
  · obtain ⟨x, hx, hi⟩ := key a1 ha1 p1 h1 hm.left
    exact ⟨x, List.mem_append_left _ hx, hi⟩

/-- The two prunings of `handle_tree_hitting_self`. -/
theorem pruneBoth_spec {V : View} (hV : V.Sym) {s : MS} (hN : Nodes V s.alt s.ralt A (fun _ => False)) (hS : Shape V s.alt A ach ∅)
    (hcard : A.card ≤ s.altDepth) {a1 a2 anc : Nat} {p1 p2 rest : List Nat} {e : CompressedEdge}
    (ha1 : a1 ∈ A) (ha2 : a2 ∈ A) (hne : a1 ≠ a2) (hm : Meet ach a1 a2 anc p1 p2 rest)
    (hlk : V.lk e (s.alt a1).outer (s.alt a2).outer) :
    ∃ s1 s2 o1 o2 q1 q2 A' ach' Z, prune anc true (s.altDepth + 1) s a1 ([], []) = .ok (s1, (o1, q1)) ∧
      prune anc false (s1.altDepth + 1) s1 a2 ([], []) = .ok (s2, (o2, q2)) ∧
      s2.fl = s.fl ∧ s2.mate = s.mate ∧ KidsOnly s.alt s2.alt ∧
      (∀ r, s2.ralt r = if r ∈ (p1 ++ p2).flatMap (nregs s.alt) then none else s.ralt r) ∧
      (∀ x, x ∈ A' ↔ x ∈ A ∧ x ∉ p1 ++ p2) ∧ anc ∈ A' ∧ (∀ x ∈ p1 ++ p2, x ∈ A ∧ x ≠ anc) ∧
      (AInv A s.alts → AInv A' s2.alts) ∧ Shape V s2.alt A' ach' Z ∧ Nodes V s2.alt s2.ralt A' (fun _ => False) ∧
      (∀ z ∈ ach' anc, z ∉ Z) ∧ Z = ((o1 ++ o2).map (·.1)).toFinset ∧ ((o1 ++ o2).map (·.1)).Nodup ∧ (∀ c ∈ (o1 ++ o2).map (·.1), c ∈ A') ∧
      (∀ c e, (c, e) ∈ o1 ++ o2 → ∃ x ∈ p1 ++ p2, ∃ i, (s.alt c).inner = some i ∧ V.lk e (s.alt x).outer i) ∧
      Ring V s.alt anc (p1 ++ p2) (q2 ++ q1.reverse ++ [((s.alt a1).outer, e)]) ∧
      Chain V (s.alt a2).outer (q2 ++ q1.reverse ++ [((s.alt a1).outer, e)]) (s.alt a2).outer := by
  have hF := hS.forest
  have hanc : anc ∈ A := hF.mem_live ha1 (by rw [hm.left]; simp)
  have hl1 := hF.length_le ha1
  have hl2 := hF.length_le ha2
  have hnd1 := hF.nodup ha1
  have hnd2 := hF.nodup ha2
  rw [hm.left] at hnd1 hl1
  rw [hm.right] at hnd2 hl2
  have hachanc : ach anc = anc :: rest := hF.chain_split ha1 hm.left
  have hd1 : ∀ z ∈ p1, z ∉ anc :: rest := fun z hz hz' => (List.disjoint_of_nodup_append hnd1) hz hz'
  have hd2 : ∀ z ∈ p2, z ∉ anc :: rest := fun z hz hz' => (List.disjoint_of_nodup_append hnd2) hz hz'
  simp only [List.length_append, List.length_cons] at hl1 hl2
  obtain ⟨s1, A1, ach1, Z1, o1, q1, e1, hS1, hN1, hR1, hlen1, hc1, -⟩ := prune_spec hV anc true (s.altDepth + 1) s A ach ∅ a1 p1 rest [] [] _ hN hS
    ha1 hm.left (by omega)
  obtain ⟨hch1, hpm1⟩ := hc1 rfl
  have ha2c : ∀ z ∈ ach a2, z ∉ p1 := by
    intro z hz hz1
    rw [hm.right] at hz
    rcases List.mem_append.1 hz with hz | hz
    · exact hm.disj z hz1 hz
    · exact hd1 z hz1 hz
  have ha2A1 : a2 ∈ A1 := (hR1.live a2).2 ⟨ha2, ha2c a2 (hF.self_mem ha2)⟩
  have hach1 : ach1 a2 = p2 ++ anc :: rest := by rw [hR1.chain a2 ha2A1 ha2c, hm.right]
  obtain ⟨s2, A2, ach2, Z2, o2, q2, e2, hS2, hN2, hR2, hlen2, -, hc2⟩ := prune_spec hV anc false (s1.altDepth + 1) s1 A1 ach1 Z1 a2 p2 rest [] [] _ hN1 hS1
    ha2A1 hach1 (by rw [hR1.depth]; omega)
  obtain ⟨hch2, hpm2⟩ := hc2 rfl
  have hko := hR1.alt.trans hR2.alt
  have hnr1 : nregs s1.alt = nregs s.alt := funext fun x => hR1.alt.nregs x
  rw [hnr1] at hpm2
  have hlive : ∀ x, x ∈ A2 ↔ x ∈ A ∧ x ∉ p1 ++ p2 := by
    intro x
    rw [hR2.live, hR1.live, List.mem_append]
    tauto
  have hps : ∀ x ∈ p1 ++ p2, x ∈ A ∧ x ≠ anc := by
    intro x hx
    rcases List.mem_append.1 hx with hx | hx
    · exact ⟨hF.mem_live ha1 (by rw [hm.left]; exact List.mem_append_left _ hx), by rintro rfl; exact hd1 x hx (by simp)⟩
    · exact ⟨hF.mem_live ha2 (by rw [hm.right]; exact List.mem_append_left _ hx), by rintro rfl; exact hd2 x hx (by simp)⟩
  have hanc2 : anc ∈ A2 := (hlive anc).2 ⟨hanc, fun hx => (hps anc hx).2 rfl⟩
  have hchz : ∀ z ∈ anc :: rest, z ∈ A2 ∧ ach2 z = ach z := by
    intro z hz
    have hzA : z ∈ A := hF.mem_live ha1 (by rw [hm.left]; exact List.mem_append_right _ hz)
    have hz1 : ∀ w ∈ ach z, w ∈ anc :: rest := by
      intro w hw
      rw [← hachanc]
      exact hF.trans hanc (by rw [hachanc]; exact hz) hw
    have hzA2 : z ∈ A2 := (hlive z).2 ⟨hzA, fun hx => by
      rcases List.mem_append.1 hx with hx | hx
      · exact hd1 z hx hz
      · exact hd2 z hx hz⟩
    have hzA1 : z ∈ A1 := ((hR2.live z).1 hzA2).1
    have h5 := hR1.chain z hzA1 (fun w hw hw1 => hd1 w hw1 (hz1 w hw))
    refine ⟨hzA2, ?_⟩
    rw [hR2.chain z hzA2 (fun w hw hw2 => by rw [h5] at hw; exact hd2 w hw2 (hz1 w hw)), h5]
  have hZ2 : Z2 = ((o1 ++ o2).map (·.1)).toFinset := by
    rw [hR2.det, hR1.det]
    simp
  have horph : ∀ c e, (c, e) ∈ o1 ++ o2 → ∃ x ∈ p1 ++ p2, ∃ i, (s.alt c).inner = some i ∧ V.lk e (s.alt x).outer i := by
    intro c e' hc
    rcases List.mem_append.1 hc with hc | hc
    · obtain ⟨x, hx, i, h5, h6⟩ := hR1.orphLink c e' hc
      exact ⟨x, List.mem_append_left _ hx, i, h5, h6⟩
    · obtain ⟨x, hx, i, h5, h6⟩ := hR2.orphLink c e' hc
      rw [hR1.alt.inner] at h5
      rw [hR1.alt.outer] at h6
      exact ⟨x, List.mem_append_right _ hx, i, h5, h6⟩
  refine ⟨s1, s2, o1, o2, q1, q2, A2, ach2, Z2, by simpa using e1, by simpa using e2, hR2.fl.trans hR1.fl, hR2.mate.trans hR1.mate, hko, ?_, hlive, hanc2, hps,
    fun hA => hR2.arena (hR1.arena hA), hS2, hN2, ?_, hZ2, ?_, ?_, horph, ?_⟩
  · intro r
    rw [hR2.ralt, hR1.ralt, hnr1]
    simp only [List.flatMap_append, List.mem_append]
    by_cases h5 : r ∈ p1.flatMap (nregs s.alt) <;> by_cases h6 : r ∈ p2.flatMap (nregs s.alt) <;> simp [h5, h6]
  · intro z hz hzZ
    rw [(hchz anc (by simp)).2, hachanc] at hz
    obtain ⟨hzA2, hz2⟩ := hchz z hz
    have hzA := ((hlive z).1 hzA2).1
    have h5 : ach2 z = [z] := hS2.forest.root z hzA2 (by simp [epar, hzZ])
    rw [hz2] at h5
    have h6 : (s.alt z).inner = none := by
      refine hS.root z hzA (by simp) ?_
      cases hp : (s.alt z).parent with
      | none => rfl
      | some pe =>
        obtain ⟨h7, h8⟩ := hF.step z hzA pe.1 (by simp [epar, hp])
        rw [h5] at h8
        have h9 := hF.self_mem h7
        simp at h8
        rw [h8] at h9
        cases h9
    rw [hZ2, List.mem_toFinset] at hzZ
    obtain ⟨⟨c, e'⟩, hc, rfl⟩ := List.mem_map.1 hzZ
    obtain ⟨x, -, i, h7, -⟩ := horph c e' hc
    simp only at h6
    rw [h7] at h6; cases h6
  · rw [List.map_append, List.nodup_append]
    refine ⟨hR1.orphNodup, hR2.orphNodup, ?_⟩
    rintro c hc d hd rfl
    refine (hR2.orphNew c hd).2 ?_
    rw [hR1.det]
    simp only [Finset.empty_union, List.mem_toFinset]
    exact hc
  · intro c hc
    rw [List.map_append, List.mem_append] at hc
    rcases hc with hc | hc
    · refine (hR2.live c).2 ⟨(hR1.orphNew c hc).1, fun hcp => ?_⟩
      -- an orphan of the first path is not on the second path: the path ends at a2 and goes up to anc
      have hcA1 := (hR1.orphNew c hc).1
      have hcZ1 : c ∈ Z1 := by rw [hR1.det]; simp only [Finset.empty_union, List.mem_toFinset]; exact hc
      have h5 : ach1 c = [c] := hS1.forest.root c hcA1 (by simp [epar, hcZ1])
      have h6 : c ∈ ach1 a2 := by rw [hach1]; exact List.mem_append_left _ hcp
      have h7 : anc ∈ ach1 c := by
        rcases hS1.forest.total ha2A1 h6 (y := anc) (by rw [hach1]; simp) with h8 | h8
        · exfalso
          have hancA1 := hS1.forest.mem_live ha2A1 (x := anc) (by rw [hach1]; simp)
          have h9 := hS1.forest.chain_split ha2A1 hach1
          rw [h9] at h8
          exact hd2 c hcp h8
        · exact h8
      rw [h5] at h7
      simp at h7
      exact (hps c (List.mem_append_right _ hcp)).2 h7.symm
    · exact (hR2.orphNew c hc).1
  · -- the cycle
    have hcyc : Chain V (s.alt a2).outer (q2 ++ q1.reverse ++ [((s.alt a1).outer, e)]) (s.alt a2).outer := by
      rw [hR1.alt.outer, hR1.alt.outer] at hch2
      exact Chain.append (Chain.append hch2 hch1) ⟨rfl, _, hlk, rfl⟩
    refine ⟨?_, hcyc⟩
    have hperm : ((q2 ++ q1.reverse ++ [((s.alt a1).outer, e)]).map (·.1)).Perm ((s.alt anc).outer :: (p1 ++ p2).flatMap (nregs s.alt)) := by
      have h5 : ((q2 ++ q1.reverse ++ [((s.alt a1).outer, e)]).map (·.1)) = q2.map (·.1) ++ ((q1.map (·.1)).reverse ++ [(s.alt a1).outer]) := by simp
      have h6 : ((q1.map (·.1)).reverse ++ [(s.alt a1).outer]).Perm ((s.alt anc).outer :: p1.flatMap (nregs s.alt)) :=
        ((List.reverse_perm _).append_right _).trans hpm1
      rw [h5]
      refine ((hpm2.append h6).trans List.perm_append_comm).trans ?_
      rw [List.flatMap_append, List.cons_append]
    refine ⟨?_, ?_, ⟨(s.alt a2).outer, hcyc⟩, ?_, ?_⟩
    · intro r
      rw [hperm.mem_iff]
      simp only [List.mem_cons, List.mem_flatMap]
    · rw [hperm.nodup_iff]
      have h5 : (anc :: (p1 ++ p2)).Nodup := by
        rw [List.nodup_cons]
        refine ⟨fun hx => (hps anc hx).2 rfl, ?_⟩
        rw [List.nodup_append]
        refine ⟨(List.nodup_append.1 hnd1).1, (List.nodup_append.1 hnd2).1, ?_⟩
        rintro x hx y hy rfl
        exact hm.disj x hx hy
      have h6 := hN.regs_nodup (l := anc :: (p1 ++ p2)) (by
        intro x hx
        rcases List.mem_cons.1 hx with rfl | hx
        · exact hanc
        · exact (hps x hx).1) h5
      refine h6.sublist ?_
      rw [List.flatMap_cons]
      unfold nregs
      simp only [List.cons_append]
      exact List.Sublist.cons_cons _ (List.sublist_append_right _ _)
    · simp only [List.length_append, List.length_reverse, List.length_singleton, hlen1, hlen2]
      omega
    · simp only [List.length_append, List.length_reverse, List.length_singleton, hlen1, hlen2]
      have : p1 ≠ [] ∨ p2 ≠ [] := by
        by_contra hcon
        push Not at hcon
        apply hne
        have h5 := hm.left
        have h6 := hm.right
        obtain ⟨l1, k1⟩ := hF.chain_self ha1
        obtain ⟨l2, k2⟩ := hF.chain_self ha2
        rw [hcon.1, k1] at h5
        rw [hcon.2, k2] at h6
        simp at h5 h6
        rw [h5.1, h6.1]
      rcases this with h5 | h5
      · have := List.length_pos_of_ne_nil h5; omega
      · have := List.length_pos_of_ne_nil h5; omega

/-- `handle_tree_hitting_self` -/
theorem treeHitsSelf_spec (hg : Proper g) {s : MS} (hF : FOk g T L ch t (fun _ => False) Y s.fl) (hregs : AInv L s.fl.regs) (hcyc : Cyc (view g T L ch t s.fl))
    (h : MPre (view g T L ch t s.fl) s A ach) {a1 a2 anc : Nat} {p1 p2 rest : List Nat} {e : CompressedEdge}
    (ha1 : a1 ∈ A) (ha2 : a2 ∈ A) (hne : a1 ≠ a2) (hm : Meet ach a1 a2 anc p1 p2 rest) (hvis : ∀ x ∈ A, x ∉ p1 ++ p2 → (s.alt x).visited = false)
    (hlk : (view g T L ch t s.fl).lk e (s.alt a1).outer (s.alt a2).outer) (hY : ∀ x, Y x → ∃ b ∈ p1 ++ p2, x ∈ nregs s.alt b) :
    ∃ s' L' ch' A' ach', treeHitsSelf g s (s.alt a1).outer (s.alt a2).outer e anc = .ok s' ∧ SOk g T L' ch' t (fun _ => False) s' A' ach' ∧
      Prog (view g T L ch t s.fl) (view g T L' ch' t s'.fl) s.alt s'.alt A A' L L' := by
  obtain ⟨s1, s2, o1, o2, q1, q2, A2, ach2, Z, e1, e2, hfl2, hmate2, hko, hralt2, hlive2, hanc2, hps, hA2, hS2, hN2, hZ, hZe, hond, honA, horph, hring, -⟩ :=
    pruneBoth_spec (view_sym hg) h.nodes h.shape h.arena.card_le ha1 ha2 hne hm hlk
  replace hA2 := hA2 h.arena
  generalize hcy : q2 ++ q1.reverse ++ [((s.alt a1).outer, e)] = cyc at hring
  have hanc : anc ∈ A := ((hlive2 anc).1 hanc2).1
  have hcycN : ∀ r ∈ cyc.map (·.1), ∃ b ∈ A, r ∈ nregs s.alt b := by
    intro r hr
    rcases (hring.mem r).1 hr with rfl | ⟨x, hx, hrx⟩
    · exact ⟨anc, hanc, mem_nregs.2 (.inl rfl)⟩
    · exact ⟨x, (hps x hx).1, hrx⟩
  have hNtop : ∀ b ∈ A, ∀ r ∈ nregs s.alt b, (view g T L ch t s.fl).top r ∧ sl s.fl r ≠ 0 := by
    intro b hb r hr
    rcases mem_nregs.1 hr with rfl | hi
    · refine ⟨(h.nodes.outer b hb).1, ?_⟩
      have := h.nodes.grow b hb (fun h => h)
      intro h0
      rw [show (view g T L ch t s.fl).sl (s.alt b).outer = sl s.fl (s.alt b).outer from rfl, h0] at this
      exact absurd this (by decide)
    · obtain ⟨k1, k2, -⟩ := h.nodes.inner b hb r hi
      refine ⟨k1, fun h0 => ?_⟩
      rw [show (view g T L ch t s.fl).sl r = sl s.fl r from rfl, h0] at k2
      exact absurd k2 (by decide)
  have hoc : (s.alt anc).outer ∈ cyc.map (·.1) := (hring.mem _).2 (.inl rfl)
  -- nodes that remain do not own regions of the cycle, except for the ancestor
  have hnot : ∀ b ∈ A2, ∀ r ∈ nregs s.alt b, (b ≠ anc ∨ (s.alt anc).inner = some r) → r ∉ cyc.map (·.1) := by
    intro b hb r hr hor hrc
    obtain ⟨hbA, hbp⟩ := (hlive2 b).1 hb
    rcases (hring.mem r).1 hrc with rfl | ⟨x, hx, hrx⟩
    · have := h.nodes.disj hbA hanc hr (mem_nregs.2 (.inl rfl))
      subst this
      rcases hor with h5 | h5
      · exact h5 rfl
      · exact h.nodes.inner_outer hbA hbA h5 rfl
    · have := h.nodes.disj hbA (hps x hx).1 hr hrx
      subst this
      exact hbp hx
  obtain ⟨f', B, e3, hB3, hF3, hW⟩ := hF.blossom hg hregs (cyc := cyc) (fun e => by have := hring.three; rw [e] at this; simp at this) hring.nodup
    (fun c hc => by obtain ⟨b, hb, hcb⟩ := hcycN c hc; exact (hNtop b hb c hcb).1)
    (fun c hc => by obtain ⟨b, hb, hcb⟩ := hcycN c hc; exact (hNtop b hb c hcb).2) (fun _ h => h)
  generalize hV' : view g T (insert B L) (wrapCh ch B (cyc.map (·.1))) t f' = V' at hW
  have hBtop : V'.top B := (hW.top B).2 (.inl rfl)
  have hliveB : ∀ b ∈ A, ∀ r ∈ nregs s.alt b, r ≠ B := by
    rintro b hb r hr rfl
    exact hW.new (hNtop b hb r hr).1.1
  -- the state after creation of the blossom
  generalize hs5 : ((((s2.setRalt (s2.alt anc).outer none).newRegion f' B).setAlt anc fun A => { A with outer := B }).setRalt B (some anc)) = s5
  have hfl5 : s5.fl = f' := by rw [← hs5]; rfl
  have halts5 : s5.alts = s2.alts := by rw [← hs5]; rfl
  have halt5a : s5.alt anc = { s2.alt anc with outer := B } := by rw [← hs5]; simp [MS.setRalt, MS.setAlt, MS.newRegion, MS.setMate]
  have halt5x : ∀ x, x ≠ anc → s5.alt x = s2.alt x := by
    intro x hx; rw [← hs5]; simp [MS.setRalt, MS.setAlt, MS.newRegion, MS.setMate, hx]
  have hmate5 : ∀ x, x ≠ B → s5.mate x = s.mate x := by
    intro x hx; rw [← hs5]; simp [MS.setRalt, MS.setAlt, MS.newRegion, MS.setMate, hx, hmate2]
  have hralt5B : s5.ralt B = some anc := by rw [← hs5]; simp [MS.setRalt]
  have hralt5c : ∀ x ∈ cyc.map (·.1), s5.ralt x = none := by
    intro x hx
    obtain ⟨b, hb, hxb⟩ := hcycN x hx
    have hxB := hliveB b hb x hxb
    rw [← hs5]
    simp only [MS.setRalt, MS.setAlt, MS.newRegion, MS.setMate, Function.update_of_ne hxB]
    by_cases hxo : x = (s2.alt anc).outer
    · rw [hxo, Function.update_self]
    · rw [Function.update_of_ne hxo, hralt2]
      rw [hko.outer] at hxo
      rcases (hring.mem x).1 hx with h5 | ⟨y, hy, hxy⟩
      · exact absurd h5 hxo
      · rw [if_pos (List.mem_flatMap.2 ⟨y, hy, hxy⟩)]
  have hralt5x : ∀ x, x ≠ B → x ∉ cyc.map (·.1) → s5.ralt x = s.ralt x := by
    intro x hxB hxc
    have hxo : x ≠ (s2.alt anc).outer := by rw [hko.outer]; rintro rfl; exact hxc hoc
    rw [← hs5]
    simp only [MS.setRalt, MS.setAlt, MS.newRegion, MS.setMate, Function.update_of_ne hxB, Function.update_of_ne hxo]
    rw [hralt2, if_neg]
    intro hx
    obtain ⟨y, hy, hxy⟩ := List.mem_flatMap.1 hx
    exact hxc ((hring.mem x).2 (.inr ⟨y, hy, hxy⟩))
  have hin5 : ∀ x, (s5.alt x).inner = (s.alt x).inner ∧ (s5.alt x).i2o = (s.alt x).i2o ∧ (s5.alt x).visited = (s.alt x).visited ∧
      (s5.alt x).parent = (s2.alt x).parent ∧ (s5.alt x).children = (s2.alt x).children := by
    intro x
    by_cases hx : x = anc
    · subst hx; rw [halt5a]; exact ⟨hko.inner x, hko.i2o x, (hko x).2.2.2.2, rfl, rfl⟩
    · rw [halt5x x hx]; exact ⟨hko.inner x, hko.i2o x, (hko x).2.2.2.2, rfl, rfl⟩
  have hout5 : ∀ x, x ≠ anc → (s5.alt x).outer = (s.alt x).outer := fun x hx => by rw [halt5x x hx]; exact hko.outer x
  have houta : (s5.alt anc).outer = B := by rw [halt5a]
  have hsl' : ∀ r, (view g T L ch t s.fl).live r → r ∉ cyc.map (·.1) → V'.sl r = sl s.fl r := fun r hr hc => hW.sl r hr hc
  have htop' : ∀ r, (view g T L ch t s.fl).top r → r ∉ cyc.map (·.1) → V'.top r := fun r hr hc => (hW.top r).2 (.inr ⟨hr, hc⟩)
  have hN5 : Nodes V' s5.alt s5.ralt A2 (fun _ => False) := by
    have houter : ∀ b ∈ A2, b ≠ anc → (s.alt b).outer ∉ cyc.map (·.1) := fun b hb hba => hnot b hb _ (mem_nregs.2 (.inl rfl)) (.inl hba)
    have hinner : ∀ b ∈ A2, ∀ i, (s.alt b).inner = some i → i ∉ cyc.map (·.1) := fun b hb i hi => hnot b hb _ (mem_nregs.2 (.inr hi)) (by
      by_cases hba : b = anc
      · subst hba; exact .inr hi
      · exact .inl hba)
    have hAA : ∀ b ∈ A2, b ∈ A := fun b hb => ((hlive2 b).1 hb).1
    refine ⟨?_, ?_, ?_, ?_, ?_⟩
    · intro b hb
      by_cases hba : b = anc
      · subst hba; rw [houta]; exact ⟨hBtop, hralt5B⟩
      · have h5 := h.nodes.outer b (hAA b hb)
        rw [hout5 b hba]
        refine ⟨htop' _ h5.1 (houter b hb hba), ?_⟩
        rw [hralt5x _ (hliveB b (hAA b hb) _ (mem_nregs.2 (.inl rfl))) (houter b hb hba)]; exact h5.2
    · intro b hb
      by_cases hba : b = anc
      · subst hba; rw [houta, hW.slB]; decide
      · rw [hout5 b hba, hsl' _ (h.nodes.outer b (hAA b hb)).1.1 (houter b hb hba)]
        exact h.nodes.up b (hAA b hb)
    · intro b hb _
      by_cases hba : b = anc
      · subst hba; rw [houta, hW.slB]
      · rw [hout5 b hba, hsl' _ (h.nodes.outer b (hAA b hb)).1.1 (houter b hb hba)]
        exact h.nodes.grow b (hAA b hb) (fun h => h)
    · intro b hb i hi
      rw [(hin5 b).1] at hi
      obtain ⟨k1, k2, k3⟩ := h.nodes.inner b (hAA b hb) i hi
      refine ⟨htop' i k1 (hinner b hb i hi), by rw [hsl' i k1.1 (hinner b hb i hi)]; exact k2, ?_⟩
      rw [(hin5 b).2.1]
      by_cases hba : b = anc
      · subst hba; rw [houta]; exact (hW.lk _ _ _ k3).2.2 hoc
      · rw [hout5 b hba]; exact (hW.lk _ _ _ k3).1
    · intro b hb c hc i hi hj
      rw [(hin5 b).1] at hi
      rw [(hin5 c).1] at hj
      exact h.nodes.inj b (hAA b hb) c (hAA c hc) i hi hj
  have hS5 : Shape V' s5.alt A2 ach2 Z := by
    refine hS2.congr (fun x _ => (hin5 x).2.2.2.1) (fun x _ => (hin5 x).2.2.2.2) ?_ (fun x hx _ _ hi => by rw [(hin5 x).1, ← hko.inner]; exact hi)
    intro a ha c hc _ e' i _ hi hl
    refine ⟨i, by rw [(hin5 c).1, ← hko.inner]; exact hi, ?_⟩
    rw [hko.outer] at hl
    by_cases haa : a = anc
    · subst haa; rw [houta]; exact (hW.lk _ _ _ hl).2.1 hoc
    · rw [hout5 a haa]; exact (hW.lk _ _ _ hl).1
  obtain ⟨alt6, ach6, e6, hS6, hreg6⟩ := Shape.attachAll (V := V') anc (o1 ++ o2) s5 ach2 Z hS5 hanc2 hond
    (fun c hc => ⟨honA c hc, by rw [hZe, List.mem_toFinset]; exact hc⟩) hZ (by
      intro c e' hc
      obtain ⟨x, hx, i, h5, h6⟩ := horph c e' hc
      refine ⟨i, by rw [(hin5 c).1]; exact h5, ?_⟩
      rw [houta]
      exact (hW.lk _ _ _ h6).2.1 ((hring.mem _).2 (.inr ⟨x, hx, mem_nregs.2 (.inl rfl)⟩)))
  rw [hZe, sdiff_self] at hS6
  have hnr6 : ∀ b, nregs alt6 b = nregs s5.alt b := fun b => by unfold nregs; rw [(hreg6 b).1, (hreg6 b).2.1]
  refine ⟨{ s5 with alt := alt6 }, insert B L, wrapCh ch B (cyc.map (·.1)), A2, ach6, ?_, ⟨?_, ?_, ?_, ?_⟩, ?_⟩
  · unfold treeHitsSelf
    rw [(h.nodes.outer a1 ha1).2, (h.nodes.outer a2 ha2).2]
    show (prune anc true (s.altDepth + 1) s a1 ([], [])).bind _ = _
    rw [e1]
    show (prune anc false (s1.altDepth + 1) s1 a2 ([], [])).bind _ = _
    rw [e2]
    show (createBlossom g (s2.setRalt (s2.alt anc).outer none) (q2 ++ q1.reverse ++ [((s.alt a1).outer, e)])).bind _ = _
    rw [hcy]
    unfold createBlossom
    show ((blossomFl g s2.fl cyc).bind _).bind _ = _
    rw [hfl2, e3]
    show Res.ok ((o1 ++ o2).foldl (fun s c => addChild s anc c.1 c.2) ((((s2.setRalt (s2.alt anc).outer none).newRegion f' B).setAlt anc
      fun A => { A with outer := B }).setRalt B (some anc))) = _
    rw [hs5, e6]
  · show FOk g T _ _ t _ _ s5.fl
    rw [hfl5]
    refine hF3.weaken (fun _ _ _ hx => hx) ?_
    intro r hr hp _
    simp only [iff_false]
    intro hYr
    obtain ⟨b, hb, hrb⟩ := hY r hYr
    have h5 : V'.top r := by rw [← hV']; exact ⟨hr, hp⟩
    rcases (hW.top r).1 h5 with rfl | ⟨-, h6⟩
    · exact hliveB b (hps b hb).1 _ hrb rfl
    · exact h6 ((hring.mem r).2 (.inr ⟨b, hb, hrb⟩))
  · show AInv _ s5.fl.regs
    rw [hfl5]; exact hB3
  · show Cyc (view g T _ _ t s5.fl)
    rw [hfl5, hV']
    exact hcyc.wrap hW hring.odd hring.three hring.chain
  · show MOk (view g T _ _ t s5.fl) _ _ _
    rw [hfl5, hV']
    refine ⟨⟨?_, hS6, ?_, ?_, by show AInv A2 s5.alts; rw [halts5]; exact hA2⟩, ?_⟩
    · exact hN5.congr (fun b _ => (hreg6 b).2.1) (fun b _ => (hreg6 b).1) (fun b _ => (hreg6 b).2.2.1) (fun b _ r _ ht => ⟨ht, rfl⟩)
        (fun _ _ _ h => h) (fun _ _ => rfl) (fun _ _ h => h)
    · constructor
      · intro r hr _
        show (∃ a ∈ A2, r ∈ nregs alt6 a) ∨ Matched V' s5.ralt s5.mate r
        rcases (hW.top r).1 hr with rfl | ⟨hrT, hrc⟩
        · exact .inl ⟨anc, hanc2, by rw [hnr6]; exact mem_nregs.2 (.inl houta.symm)⟩
        · rcases h.tops.cover r hrT (fun h => h) with ⟨b, hb, hrb⟩ | hM
          · have hbA2 : b ∈ A2 := (hlive2 b).2 ⟨hb, fun hx => hrc ((hring.mem r).2 (.inr ⟨b, hx, hrb⟩))⟩
            refine .inl ⟨b, hbA2, ?_⟩
            rw [hnr6]
            rcases mem_nregs.1 hrb with h5 | h5
            · have hba : b ≠ anc := by rintro rfl; rw [h5] at hrc; exact hrc hoc
              exact mem_nregs.2 (.inl (by rw [hout5 b hba]; exact h5))
            · exact mem_nregs.2 (.inr (by rw [(hin5 b).1]; exact h5))
          · right
            have hfree : ∀ x, sl s.fl x = 0 → s.ralt x = none → x ∉ cyc.map (·.1) := by
              intro x h5 h6 hx
              obtain ⟨b, hb, hxb⟩ := hcycN x hx
              exact h.nodes.not_free hb hxb ⟨h5, h6⟩
            have hfin : ∀ x, (view g T L ch t s.fl).top x → sl s.fl x = 0 → s.ralt x = none →
                V'.sl x = sl s.fl x ∧ s5.ralt x = s.ralt x ∧ s5.mate x = s.mate x ∧ V'.top x := by
              intro x h4 h5 h6
              have hxc := hfree x h5 h6
              have hxB : x ≠ B := by rintro rfl; exact hW.new h4.1
              exact ⟨hsl' x h4.1 hxc, hralt5x x hxB hxc, hmate5 x hxB, htop' x h4 hxc⟩
            refine hM.frame ?_ (fun e' m' hl => (hW.lk _ _ _ hl).1) (fun e' hl => hW.blk _ _ hl)
            intro x hx
            have hxt : (view g T L ch t s.fl).top x ∧ sl s.fl x = 0 ∧ s.ralt x = none := by
              rcases hx with rfl | ⟨h5, h6, h7, -⟩
              · exact ⟨hrT, hM.still, hM.free⟩
              · exact ⟨(hM.partner (view_sym hg) hrT h5).1, h6, h7⟩
            obtain ⟨k1, k2, k3, k4⟩ := hfin x hxt.1 hxt.2.1 hxt.2.2
            exact ⟨k1, k2, k3, fun _ => k4⟩
      · intro r hr hnt
        show s5.ralt r = none
        have hrB : r ≠ B := by rintro rfl; exact hnt hBtop
        by_cases hrc : r ∈ cyc.map (·.1)
        · exact hralt5c r hrc
        · rw [hralt5x r hrB hrc]
          refine h.tops.inside r ?_ (fun ht => hnt (htop' r ht hrc))
          rcases (hW.live r).1 hr with h5 | h5
          · exact absurd h5 hrB
          · exact h5
    · intro b hb i hi
      have hi' : (alt6 b).inner = some i := hi
      rw [(hreg6 b).1, (hin5 b).1] at hi'
      have hbA := ((hlive2 b).1 hb).1
      show s5.ralt i = some b
      have hin : i ∈ nregs s.alt b := mem_nregs.2 (.inr hi')
      rw [hralt5x i (hliveB b hbA i hin) (hnot b hb i hin (by
        by_cases hba : b = anc
        · subst hba; exact .inr hi'
        · exact .inl hba))]
      exact h.ptr b hbA i hi'
    · intro b hb
      show (alt6 b).visited = false
      rw [(hreg6 b).2.2.2, (hin5 b).2.2.1]
      exact hvis b ((hlive2 b).1 hb).1 ((hlive2 b).1 hb).2
  · show Prog (view g T L ch t s.fl) (view g T _ _ t s5.fl) s.alt alt6 A A2 L _
    rw [hfl5, hV']
    refine .inr ⟨?_, ?_, .inl ?_⟩
    · intro b hb
      obtain ⟨hbA, hbi⟩ := Finset.mem_filter.1 hb
      rw [(hreg6 b).1, (hin5 b).1] at hbi
      exact Finset.mem_filter.2 ⟨((hlive2 b).1 hbA).1, hbi⟩
    · rintro x ⟨r, k1, k2, k3⟩
      by_cases hrc : r ∈ cyc.map (·.1)
      · exact ⟨B, hBtop, hW.slB, (hW.has r x k3).2 hrc⟩
      · exact ⟨r, htop' r k1 hrc, by rw [hsl' r k1.1 hrc]; exact k2, (hW.has r x k3).1⟩
    · obtain ⟨x, hx, i, hi⟩ := h.shape.meet_inner ha1 ha2 hne hm
      obtain ⟨k1, k2, k3⟩ := h.nodes.inner x (hps x hx).1 i hi
      obtain ⟨z, -, -, -, hzT, -, hz, -, -⟩ := k3
      refine ⟨z, ?_, B, hBtop, hW.slB, (hW.has i z ⟨hzT, hz⟩).2 ((hring.mem i).2 (.inr ⟨x, hx, mem_nregs.2 (.inr hi)⟩))⟩
      rintro ⟨q, j1, j2, -, j3⟩
      have e1 := (hF.geo.inR_iff k1.1 k1.2).1 hz
      rw [(hF.geo.inR_iff j1.1 j1.2).1 j3, Option.some.injEq] at e1
      subst e1
      rw [k2] at j2
      exact absurd j2 (by decide)

end Verif.SB
