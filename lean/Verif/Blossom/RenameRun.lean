import Verif.Blossom.RenameM
import Verif.Blossom.Round
import Verif.Blossom.Total

/-!
# Renaming of objects: the decoding loop

The run on the fresh decoder is in order (`SOk`), hence the side conditions of the simulations in `Blossom/RenameM.lean` are met; the loop of a used
decoder does the same up to renaming.
-/

namespace Verif.SB

open Verif Verif.Graph Verif.CE Verif.Vary Verif.Track Verif.Spec Verif.Mem Verif.RadixHeap Verif.Cyc
open Verif.Sch (Res better)

variable {g : MGraph} {T L : Finset Nat} {ch : Nat → List Nat} {t : Int} {X Y : Nat → Prop} {A : Finset Nat} {ach : Nat → List Nat}
variable {R B : Rn} {s2 s1 : MS}

theorem bind_inv {α β : Type} {x : Res α} {f : α → Res β} {b : β} (h : x.bind f = .ok b) : ∃ a, x = .ok a ∧ f a = .ok b := by
  cases x with
  | ok a => exact ⟨a, rfl, h⟩
  | throws => cases h
  | ub => cases h

/-! ## The trees are finite -/

theorem descPost_stable {L : Finset Nat} {par : Nat → Option Nat} {ch : Nat → List Nat} {kids : Nat → List Nat} (h : Forest L par ch)
    (hk : Kids L par kids) (f : Nat) : ∀ r ∈ L, L.card < f + (ch r).length → descPost kids (f + 1) r = descPost kids f r := by
  induction f with
  | zero =>
    intro r hr hf
    have := h.length_le hr
    omega
  | succ f ih =>
    intro r hr hf
    rw [descPost, descPost]
    congr 1
    refine List.flatMap_congr fun c hc => ?_
    obtain ⟨hcL, hc⟩ := (hk.mem r hr c).1 hc
    refine ih c hcL ?_
    have := (h.step c hcL r hc).2
    rw [this, List.length_cons]
    omega

theorem descPost_stable' {L : Finset Nat} {par : Nat → Option Nat} {ch : Nat → List Nat} {kids : Nat → List Nat} (h : Forest L par ch)
    (hk : Kids L par kids) {f0 : Nat} (hf0 : L.card ≤ f0) {r : Nat} (hr : r ∈ L) : ∀ f, f0 ≤ f → descPost kids f r = descPost kids f0 r := by
  intro f hf
  induction f, hf using Nat.le_induction with
  | base => rfl
  | succ f hf ih =>
    rw [descPost_stable h hk f r hr ?_, ih]
    have := List.length_pos_of_mem (h.self_mem hr)
    omega

theorem Shape.stable {V : View} {s : MS} (h : Shape V s.alt A ach ∅) (hA : AInv A s.alts) {a : Nat} (ha : a ∈ A) : Stable s a :=
  descPost_stable' h.forest h.kids (show A.card ≤ s.altDepth from hA.card_le) ha

theorem MPre.stable (hg : Proper g) {s u : MS} (h : MPre (view g T L ch t s.fl) s A ach) (e1 : u.alt = s.alt) (e2 : u.ralt = s.ralt) (e3 : u.alts = s.alts)
    {a : Nat} (ha : a ∈ A) {s' : MS} (e : becomeRoot (u.altDepth + 1) u a = .ok s') : Stable s' a := by
  have hlen : (ach a).length ≤ u.altDepth + 1 := by
    have h1 := h.shape.forest.length_le ha
    have h2 : A.card ≤ s.altDepth := h.arena.card_le
    have : u.altDepth = s.altDepth := by unfold MS.altDepth; rw [e3]
    omega
  obtain ⟨alt', ach', e', h1, -⟩ := becomeRoot_spec (view_sym hg) (u.altDepth + 1) u _ a (by rw [e1, e2]; exact h.nodes) ach (by rw [e1]; exact h.shape) ha hlen
  rw [e] at e'
  cases e'
  exact Shape.stable (s := { u with alt := alt' }) h1 (by show AInv A u.alts; rw [e3]; exact h.arena) ha

theorem MPre.stable2 (hg : Proper g) {s : MS} (h : MPre (view g T L ch t s.fl) s A ach) {a1 a2 : Nat} (ha1 : a1 ∈ A) (ha2 : a2 ∈ A) {s' s'' : MS}
    (e : becomeRoot (s.altDepth + 1) s a1 = .ok s') (e' : becomeRoot (s'.altDepth + 1) s' a2 = .ok s'') : Stable s'' a1 ∧ Stable s'' a2 := by
  have hc : A.card ≤ s.altDepth := h.arena.card_le
  obtain ⟨alt', ach', k, h1, h2, -⟩ := becomeRoot_spec (view_sym hg) (s.altDepth + 1) s _ a1 h.nodes ach h.shape ha1
    (by have := h.shape.forest.length_le ha1; omega)
  rw [e] at k
  cases k
  obtain ⟨alt2, ach2, k, h3, -⟩ := becomeRoot_spec (view_sym hg) (s.altDepth + 1) { s with alt := alt' } _ a2 h2 ach' h1 ha2
    (by have := h1.forest.length_le ha2; omega)
  have e'' : becomeRoot (s.altDepth + 1) { s with alt := alt' } a2 = .ok s'' := e'
  rw [k] at e''
  cases e''
  exact ⟨Shape.stable (s := { s with alt := alt2 }) h3 h.arena ha1, Shape.stable (s := { s with alt := alt2 }) h3 h.arena ha2⟩

/-! ## Trees meet -/

theorem treesMeet_sim (hg : Proper g) (h : SOk g T L ch t Y s2 A ach) (hsim : MSim R B s2 s1) {a1 a2 r1 r2 : Nat} {e : CompressedEdge} (ha1 : a1 ∈ A)
    (ha2 : a2 ∈ A) (hne : a1 ≠ a2) (ho1 : (s2.alt a1).outer = r1) (ho2 : (s2.alt a2).outer = r2) (hr1 : r1 < R.k) (hr2 : r2 < R.k)
    (hlk : (view g T L ch t s2.fl).lk e r1 r2) :
    RelRes (Ext R B) (regionHitsRegion g s2 r1 r2 e) (regionHitsRegion g s1 (R.f r1) (R.f r2) e) := by
  obtain ⟨alt', hv, hres⟩ := mrca_spec s2 h.m.shape.forest ha1 ha2 hne h.m.arena.card_le h.m.clean
  have hM := h.m.toMPre.visEq hv
  have hra1 := (h.m.nodes.outer a1 ha1).2
  have hra2 := (h.m.nodes.outer a2 ha2).2
  rw [ho1] at hra1
  rw [ho2] at hra2
  have k1 := hsim.ralt r1 hr1
  have k2 := hsim.ralt r2 hr2
  rw [hra1] at k1
  rw [hra2] at k2
  have hb1 : a1 < B.k := k1.2 a1 rfl
  have hb2 : a2 < B.k := k2.2 a2 rfl
  unfold regionHitsRegion
  rw [hra1, hra2, k1.1, k2.1]
  simp only [Rn.o_some]
  refine (hsim.mrca hb1 hb2).bind' ?_
  rintro ⟨u2, o⟩ ⟨u1, o'⟩ em ⟨m1, m2, m3⟩
  simp only at m1 m2 m3
  subst m3
  rcases hres with ⟨em', -, -⟩ | ⟨c, p1, p2, rest, em', hmeet, -⟩
  · rw [em'] at em
    cases em
    simp only [Rn.o_none]
    refine (m1.treeHitsTree hr1 hr2 e ?_).mono fun _ _ h => h.ext
    intro b1 b2 s s' q1 q2 q3 q4
    have q1' : s2.ralt r1 = some b1 := q1
    have q2' : s2.ralt r2 = some b2 := q2
    rw [hra1] at q1'
    rw [hra2] at q2'
    cases q1'
    cases q2'
    exact MPre.stable2 hg (s := { s2 with alt := alt' }) hM ha1 ha2 q3 q4
  · rw [em'] at em
    cases em
    simp only [Rn.o_some]
    refine m1.treeHitsSelf hr1 hr2 (m2 c rfl) e ?_
    intro b1 b2 u1' o1 q1 u2' o2 q2 w1 w2 w3 w4
    have w1' : s2.ralt r1 = some b1 := w1
    have w2' : s2.ralt r2 = some b2 := w2
    rw [hra1] at w1'
    rw [hra2] at w2'
    cases w1'
    cases w2'
    have ho1' : (alt' a1).outer = r1 := by rw [(hv a1).2.1, ho1]
    have ho2' : (alt' a2).outer = r2 := by rw [(hv a2).2.1, ho2]
    obtain ⟨z1, z2, o1', o2', q1', q2', A2, ach2, Z, e1, e2, hfl2, -, -, -, hlive2, hanc2, hps, -, -, -, -, -, -, -, -, hring, -⟩ :=
      pruneBoth_spec (view_sym hg) (s := { s2 with alt := alt' }) hM.nodes hM.shape hM.arena.card_le ha1 ha2 hne hmeet
      (by show (view g T L ch t s2.fl).lk e (alt' a1).outer (alt' a2).outer; rw [ho1', ho2']; exact hlk)
    have w3' := w3
    rw [e1] at w3'
    cases w3'
    rw [e2] at w4
    cases w4
    have hfl2' : u2'.fl = s2.fl := hfl2
    rw [hfl2']
    refine ⟨fun r => r ∈ L, ?_, ?_, ?_⟩
    · intro r hr c hc
      exact ((h.fl.geo.kids.mem r hr c).1 hc).1
    · intro x hx
      have hx' : x.1 ∈ (q2 ++ q1.reverse ++ [((alt' a1).outer, e)]).map (·.1) := by
        rw [ho1']; exact List.mem_map.2 ⟨x, hx, rfl⟩
      have hN : ∀ b ∈ A, x.1 ∈ nregs alt' b → x.1 ∈ L := by
        intro b hb hxb
        rcases mem_nregs.1 hxb with h5 | hi
        · rw [h5]; exact ((hM.nodes.outer b hb).1).1
        · exact ((hM.nodes.inner b hb _ hi).1).1
      rcases (hring.mem x.1).1 hx' with h5 | ⟨b, hb, hxb⟩
      · exact hN c ((hlive2 c).1 hanc2).1 (mem_nregs.2 (.inl h5))
      · exact hN b (hps b hb).1 hxb
    · obtain ⟨ar, w0, b, a1, hb, -⟩ := allocRegion_spec h.regs h.fl.sched.winv
      rw [a1]; exact hb

/-- `handle_region_hit_region` does the same. -/
theorem regionHitsRegion_sim (hg : Proper g) (h : SOk g T L ch t (fun _ => False) s2 A ach) (hsim : MSim R B s2 s1) {r1 r2 : Nat} {e : CompressedEdge}
    (hr1 : r1 < R.k) (hr2 : r2 < R.k)
    (hne : r1 ≠ r2) (h1 : (view g T L ch t s2.fl).top r1) (h2 : (view g T L ch t s2.fl).top r2) (hs1 : sl s2.fl r1 ≠ -1) (hs2 : sl s2.fl r2 ≠ -1)
    (hs : sl s2.fl r1 + sl s2.fl r2 ≠ 0) (hlk : (view g T L ch t s2.fl).lk e r1 r2) :
    RelRes (Ext R B) (regionHitsRegion g s2 r1 r2 e) (regionHitsRegion g s1 (R.f r1) (R.f r2) e) := by
  have c1 := h.fl.geo.slope_cases h1.1
  have c2 := h.fl.geo.slope_cases h2.1
  have key : ∀ {x m a : Nat} (d : CompressedEdge), x < R.k → m < R.k → a ∈ A → s2.ralt x = some a →
      RelRes (Ext R B) (treeHitsBoundaryMatch g s2 x m d) (treeHitsBoundaryMatch g s1 (R.f x) (R.f m) d) := by
    intro x m a d hx hm ha hra
    refine (hsim.treeHitsBoundaryMatch hx hm d ?_).mono fun _ _ h => h.ext
    intro u b s e1 e2 e3
    obtain ⟨fl, e4⟩ : ∃ fl, u = { addMatch s2 x m d with fl := fl } := by
      obtain ⟨fl, -, e4⟩ := bind_inv e1
      cases e4
      exact ⟨fl, rfl⟩
    have e5 : u.ralt = s2.ralt := by rw [e4]; rfl
    rw [e5, hra] at e2
    cases e2
    exact h.m.toMPre.stable hg (u := u) (by rw [e4]; rfl) e5 (by rw [e4]; rfl) ha e3
  by_cases g1 : sl s2.fl r1 = 1
  · obtain ⟨a1, ha1, ho1, hra1⟩ := h.m.grower h1 g1
    by_cases g2 : sl s2.fl r2 = 1
    · obtain ⟨a2, ha2, ho2, hra2⟩ := h.m.grower h2 g2
      exact treesMeet_sim hg h hsim ha1 ha2 (fun e => hne (by rw [← ho1, ← ho2, e])) ho1 ho2 hr1 hr2 hlk
    · have g2' : sl s2.fl r2 = 0 := by omega
      have hM := h.m.frozen h2 g2'
      unfold regionHitsRegion
      rw [(hsim.ralt r1 hr1).1, (hsim.ralt r2 hr2).1, hra1, hM.free, (hsim.mate r2 hr2).eq]
      cases ho : (s2.mate r2).region with
      | some o => simp only [Rn.o_some, Rn.o_none]; exact hsim.treeHitsMatch hr1 hr2 e
      | none => simp only [Rn.o_some, Rn.o_none]; exact key e hr1 hr2 ha1 hra1
  · have g1' : sl s2.fl r1 = 0 := by omega
    have g2 : sl s2.fl r2 = 1 := by omega
    obtain ⟨a2, ha2, ho2, hra2⟩ := h.m.grower h2 g2
    have hM := h.m.frozen h1 g1'
    unfold regionHitsRegion
    rw [(hsim.ralt r1 hr1).1, (hsim.ralt r2 hr2).1, hra2, hM.free, (hsim.mate r1 hr1).eq]
    cases ho : (s2.mate r1).region with
    | some o => simp only [Rn.o_some, Rn.o_none]; exact hsim.treeHitsMatch hr2 hr1 _
    | none => simp only [Rn.o_some, Rn.o_none]; exact key _ hr2 hr1 ha2 hra2

/-- `process_event` does the same, after a look at a node. -/
theorem processEvent_sim (hg : Proper g) (h : SOk g T L ch t (fun _ => False) s2 A ach) (hsim : MSim R B s2 s1) {ev : MEvent}
    (hev : EvOk g T L ch t s2.fl ev) (hok : evOk R ev) : RelRes (Ext R B) (processEvent g s2 ev) (processEvent g s1 (evRen R ev)) := by
  cases ev with
  | none => exact .pure hsim.ext
  | hitRegion r1 r2 e =>
    obtain ⟨h1, h2, h3, h4, h5, h6, h7, h8, h9⟩ := hev
    exact regionHitsRegion_sim hg h hsim hok.1 hok.2 h1 ⟨h2, h4⟩ ⟨h3, h5⟩ h6 h7 h8 h9
  | hitBoundary r e =>
    obtain ⟨h1, h2, h3, h4⟩ := hev
    refine (hsim.treeHitsBoundary hok e ?_).mono fun _ _ h => h.ext
    intro a s e1 e2
    obtain ⟨a', ha', -, hra⟩ := h.m.grower ⟨h1, h2⟩ h3
    rw [hra] at e1
    cases e1
    exact h.m.toMPre.stable hg rfl rfl rfl ha' e2
  | shatter _ _ _ => exact hev.elim

/-- `do_region_shrinking` and the processing of its event do the same. -/
theorem regionShrinking_sim (hg : Proper g) {r : Nat} (h : SOk g T L ch t (fun x => x = r) s2 A ach) (hsim : MSim R B s2 s1)
    (hr : (view g T L ch t s2.fl).top r) (hsl : sl s2.fl r = -1) (hst : shrinkTime s2.fl r = t) (hrk : r < R.k) :
    RelRes (Ext R B) ((regionShrinking g s2 r).bind fun (s, ev) => processEvent g s ev)
      ((regionShrinking g s1 (R.f r)).bind fun (s, ev) => processEvent g s ev) := by
  refine (hsim.regionShrinking hrk).bind' ?_
  rintro ⟨u2, ev⟩ ⟨u1, ev'⟩ eu ⟨m1, m2, m3⟩
  simp only at m1 m2 m3
  subst m3
  have hsh : ∀ {ev}, shattering s2 r = .ok ev → ∃ b p c, ev = .shatter b p c := by
    intro ev h
    unfold shattering at h
    obtain ⟨a, -, h⟩ := bind_inv h
    obtain ⟨⟨p, e⟩, -, h⟩ := bind_inv h
    obtain ⟨n1, -, h⟩ := bind_inv h
    obtain ⟨r1, -, h⟩ := bind_inv h
    obtain ⟨n2, -, h⟩ := bind_inv h
    obtain ⟨r2, -, h⟩ := bind_inv h
    cases h
    exact ⟨_, _, _, rfl⟩
  have himp : ∀ {ev}, implosion s2 r = .ok ev → ∃ b p c, ev = .hitRegion b p c := by
    intro ev h
    unfold implosion at h
    obtain ⟨a, -, h⟩ := bind_inv h
    obtain ⟨⟨p, e⟩, -, h⟩ := bind_inv h
    cases h
    exact ⟨_, _, _, rfl⟩
  have hG := h.fl.geo
  have hy := y_eq s2.fl t r
  rw [hsl] at hy
  have hcase : ev = .none ∨ (∃ b p c, ev = .shatter b p c) ∨ (u2 = s2 ∧ implosion s2 r = .ok ev ∧ (s2.fl.reg r).children = [] ∧ y s2.fl t r = 0) := by
    unfold regionShrinking at eu
    rcases hG.shrinkTime_cases hr.1 hr.2 with ⟨k1, k2⟩ | ⟨n, k1, k2, k3⟩
    · rw [k1] at eu
      obtain ⟨ev', e1, e2⟩ := bind_inv eu
      cases e2
      exact .inr (.inl (hsh e1))
    · rw [k1] at eu
      simp only at eu
      split_ifs at eu with hc
      · obtain ⟨ev', e1, e2⟩ := bind_inv eu
        cases e2
        have hk : (s2.fl.reg r).children = [] := List.isEmpty_iff.1 hc.2
        have hrho : (s2.fl.node n).rho = 0 := by
          obtain ⟨a, l, e, haT⟩ := hG.seed r hr.1 hk
          have hl := hc.1
          rw [e] at hl
          have : l = [] := List.length_eq_zero_iff.1 (by simpa using hl)
          rw [e, this] at k1
          have hna : a = n := by simpa using k1
          subst hna
          obtain ⟨_, _, -, -, -, e4, -⟩ := hG.event a haT
          exact e4
        exact .inr (.inr ⟨rfl, e1, hk, by omega⟩)
      · obtain ⟨ev', e1, e2⟩ := bind_inv eu
        cases e2
        exact .inl rfl
  rcases hcase with rfl | ⟨b, p, c, rfl⟩ | ⟨rfl, ei, hk, hy0⟩
  · exact .pure m1.ext
  · exact m1.blossomShatters m2.1 m2.2.1 m2.2.2
  · obtain ⟨a, ha, hi, hra⟩ := h.m.shrinker hr hsl
    obtain ⟨p, e, hp, hpA, hpa, hce, hlk, hch⟩ := h.m.parent ha hi
    have hor := (h.m.nodes.outer a ha).1
    have hop := (h.m.nodes.outer p hpA).1
    have hnr : ∀ x ∈ A, (u2.alt x).outer ≠ r := by
      rintro x hx rfl
      exact h.m.nodes.up x hx hsl
    have hne : (u2.alt p).outer ≠ (u2.alt a).outer := fun e => hpa (h.m.nodes.outer_inj hpA ha e)
    have hl2 := Link.through hg hG.toBGeo hr.1 hr.2 hk hy0 hop.1 hop.2 hor.1 hor.2 (hnr p hpA) (hnr a ha) hne (view_sym hg _ _ _ hlk)
      (h.m.nodes.inner a ha r hi).2.2
    unfold implosion at ei
    rw [hra] at ei
    replace ei : (deref (u2.alt a).parent).bind _ = _ := ei
    rw [hp] at ei
    cases ei
    exact treesMeet_sim hg h m1 hpA ha hpa rfl rfl m2.1 m2.2 hl2

/-! ## One round, and the loop -/

/-- The state in which a node is woken, after the look. -/
theorem woken_node (hg : Proper g) {s : MS} (h : SOk g T L ch t (fun _ => False) s A ach) {u : Nat} {τ : Int} {w' : World Owner}
    (hd : s.fl.w.step .deliver = some (.ring (.inl u) τ, w')) :
    ∃ t', ∀ f ev, lookAt g { s.fl with w := w' } u = .ok (f, ev) → SOk g T L ch t' (fun _ => False) { s with fl := f } A ach ∧ EvOk g T L ch t' f ev := by
  have hs : Sched g L (fun _ => False) (fun _ => False) s.fl := h.fl.sched.mono (by rintro u ⟨r, -, hf⟩; exact hf)
  by_cases h0 : RadixHeap.content s.fl.w.q.buckets = 0
  · rw [(deliver_idle s.fl.w hs.winv h0).1] at hd
    cases hd
  · obtain ⟨out, w2, e1, e2, e3, e4, e5, -⟩ := deliver_spec s.fl.w hs.winv h0
    rw [e1] at hd
    cases hd
    have hnow : s.fl.w.q.cur = t := h.fl.now
    rw [hnow] at e3
    generalize ht' : w'.q.cur = t' at e3 e4 e5
    have hG := h.fl.geo.advance hs e3 e4
    have hM : MOk (view g T L ch t' s.fl) { s with fl := { s.fl with w := w' } } A ach := h.m.advance h.fl.geo.toBGeo hG.toBGeo rfl rfl rfl rfl
    have hC := h.cyc.advance h.fl.geo.toBGeo hG.toBGeo
    rcases e5 with ⟨e, -⟩ | ⟨o, e, ho, e5⟩
    · cases e
    · cases e
      have hwant : (absW w').want = Function.update (absW s.fl.w).want (.inl u) none := by rw [e5]
      have hu := hs.nodeWant u _ (fun h => h) ho
      obtain ⟨f, ev, k1, k2, k3, k4, k5, k6, k7⟩ := lookAt_spec (hG.withW w') hg (s := { s.fl with w := w' }) ht' (hs.wokeNode e2 hwant) (u := u) hu
      have hv := k5.view (g := g) (L := L)
      refine ⟨τ, fun f' ev' ef => ?_⟩
      rw [k1] at ef
      cases ef
      refine ⟨⟨⟨k3, k2, k4.mono (fun v h => absurd h.1 h.2)⟩, ?_, ?_, ?_⟩, k6⟩
      · show AInv L f.regs
        rw [k5.regs]; exact h.regs
      · show Cyc (view g T L ch _ f)
        rw [hv]; exact hC
      · show MOk (view g T L ch _ f) _ A ach
        rw [hv]
        exact ⟨⟨hM.nodes, hM.shape, hM.tops, hM.ptr, hM.arena⟩, hM.clean⟩

/-- Results of a round of the two runs. -/
def RoundRel (R B : Rn) : Option MS → Option MS → Prop
  | none, none => True
  | some a, some b => Ext R B a b
  | _, _ => False

theorem round_sim (hg : Proper g) (h : SOk g T L ch t (fun _ => False) s2 A ach) (hsim : MSim R B s2 s1) :
    RelRes (RoundRel R B) (round g s2) (round g s1) := by
  unfold round
  cases hd : s2.fl.w.step .deliver with
  | none => exact .ub
  | some p =>
    obtain ⟨out, w2⟩ := p
    obtain ⟨w1, e1, hw, hD⟩ := hsim.fl.w.deliver (rOwner_inj R) hd
    rw [e1]
    have hm := hsim.withFl (hsim.fl.withW hw)
    cases out with
    | unit => exact .pure hm.ext
    | idle => exact .pure trivial
    | silent => exact .pure hm.ext
    | ring o τ =>
      have ho := hD o τ rfl
      cases o with
      | inl u =>
        simp only [outMap, rOwner, Sum.map_inl, id]
        refine RelRes.bind' (P := fun a b => MSim R B a.1 b.1 ∧ evOk R a.2 ∧ b.2 = evRen R a.2 ∧ ∃ t', SOk g T L ch t' (fun _ => False) a.1 A ach ∧
          EvOk g T L ch t' a.1.fl a.2) ?_ ?_
        · obtain ⟨t', hk⟩ := woken_node hg h hd
          refine (hm.fl.lookAt u).bind' ?_
          rintro ⟨f2, ev⟩ ⟨f1, ev'⟩ ef ⟨q1, q2, q3⟩
          obtain ⟨k1, k2⟩ := hk _ _ ef
          exact .pure ⟨hm.withFl q1, q2, q3, t', k1, k2⟩
        · rintro ⟨u2, ev⟩ ⟨u1, ev'⟩ - ⟨q1, q2, q3, t', q4, q5⟩
          simp only at q1 q2 q3 q4 q5
          subst q3
          exact (processEvent_sim hg q4 q1 q5 q2).bind fun a b hab => .pure hab
      | inr r =>
        simp only [outMap, rOwner, Sum.map_inr]
        obtain ⟨t', k1, k2, k3, k4⟩ := woken_region h hd
        have key := regionShrinking_sim hg k1 hm k2 k3 k4 ho
        have assoc : ∀ (x : Res (MS × MEvent)), (x.bind fun (s, ev) => (processEvent g s ev).bind fun s => Res.ok (some s)) =
            (x.bind fun (s, ev) => processEvent g s ev).bind fun s => .ok (some s) := by
          intro x; cases x <;> rfl
        rw [assoc, assoc]
        exact key.bind fun a b hab => .pure hab

theorem runLoop_sim (hg : Proper g) (f : Nat) : ∀ {s2 s1 s' : MS} {L : Finset Nat} {ch : Nat → List Nat} {t : Int} {A : Finset Nat} {ach : Nat → List Nat}
    {R B : Rn}, SOk g T L ch t (fun _ => False) s2 A ach → MSim R B s2 s1 → runLoop g f s2 = some (.ok s') →
    ∃ s'', runLoop g f s1 = some (.ok s'') ∧ Ext R B s' s'' := by
  induction f with
  | zero => intro s2 s1 s' L ch t A ach R B _ _ e; cases e
  | succ f ih =>
    intro s2 s1 s' L ch t A ach R B h hsim e
    have hrel := round_sim hg h hsim
    rcases round_spec hg h with ⟨e1, -⟩ | ⟨z, t', L', ch', A', ach', e1, -, h', -⟩
    · obtain ⟨o, k1, k2⟩ := hrel _ e1
      cases o with
      | some _ => exact k2.elim
      | none =>
        simp only [runLoop, e1] at e
        simp only [runLoop, k1]
        cases e
        exact ⟨s1, rfl, hsim.ext⟩
    · obtain ⟨o, k1, k2⟩ := hrel _ e1
      cases o with
      | none => exact k2.elim
      | some z1 =>
        simp only [runLoop, e1] at e
        simp only [runLoop, k1]
        obtain ⟨R', B', hR, hB, hz⟩ := k2
        obtain ⟨s'', p1, p2⟩ := ih h' hz e
        exact ⟨s'', p1, p2.trans hR hB⟩

/-! ## Starting the events -/

theorem createDetectionEvent_sim (hsim : MSim R B s2 s1) (n : Nat) : RelRes (Ext R B) (createDetectionEvent g s2 n) (createDetectionEvent g s1 n) := by
  unfold createDetectionEvent
  obtain ⟨R', hR, hi, hf, hk, hF⟩ := hsim.fl.allocRegion
  have h1 := hsim.newRegion hR hF hi hk
  rw [hf] at h1
  obtain ⟨B', hB, hj, hf', h2⟩ := h1.allocAlt (n2 := ⟨none, (allocRegion s2.fl).2, .cleared, none, [], false⟩)
    (n1 := ⟨none, (allocRegion s1.fl).2, .cleared, none, [], false⟩)
    (fun A' _ => ⟨by simp [← hf, Rn.p, Rn.l], Rn.Ok.none, hi, by simp [Rn.OkP], by simp [Rn.Oks]⟩)
  have h3 := h2.setRalt hi (Rn.Ok.some hj)
  rw [Rn.o_some, hf', hf] at h3
  have h4 := h3.fl.createRegionAt (g := g) hi n
  rw [hf] at h4
  exact (h3.onFl (f2 := fun fl => createRegionAt g fl (allocRegion s2.fl).2 n) (f1 := fun fl => createRegionAt g fl (allocRegion s1.fl).2 n) h4).mono
    fun a b h => ⟨R', B', hR, hB, h⟩

theorem launch_sim (ns : List Nat) : ∀ {s2 s1 : MS} {R B : Rn}, MSim R B s2 s1 → RelRes (Ext R B) (launch g ns s2) (launch g ns s1) := by
  induction ns with
  | nil => intro s2 s1 R B h; exact .pure h.ext
  | cons n ns ih =>
    intro s2 s1 R B h
    refine (createDetectionEvent_sim h n).bind ?_
    rintro a b ⟨R', B', hR, hB, hab⟩
    exact (ih hab).mono fun _ _ h => h.trans hR hB

/-! ## Taking the matches out -/

theorem MSim.cleanup (h : MSim R B s2 s1) {r : Nat} (hr : r < R.k) : MSim R B (s2.cleanup r) (s1.cleanup (R.f r)) :=
  h.withFl (h.fl.cleanupShell hr)

theorem MSim.delReg (h : MSim R B s2 s1) {r : Nat} (hr : r < R.k) : MSim R B (s2.delReg r) (s1.delReg (R.f r)) :=
  h.withFl (h.fl.del hr)

theorem MSim.reopen (h : MSim R B s2 s1) {r : Nat} (hr : r < R.k) :
    RelRes (fun a b => MSim R B a.1 b.1 ∧ a.2.1 < R.k ∧ b.2.1 = R.f a.2.1 ∧ a.2.2 = b.2.2) (reopen s2 r) (reopen s1 (R.f r)) := by
  unfold SB.reopen
  have h1 : FSim R ((kidsOf s2.fl r).foldl clearParentFast s2.fl) ((kidsOf s1.fl (R.f r)).foldl clearParentFast s1.fl) := by
    rw [h.fl.kids hr]
    refine foldl_rel (σ := FSim R) ?_ (forall₂_map_left (D := fun x => x < R.k) ?_) h.fl
    · rintro x y c _ hxy ⟨hc, rfl⟩
      exact hxy.clearParentFast hc
    · intro x hx
      exact h.fl.kids_lt r hr x hx
  have h2 := h.withFl h1
  generalize hz2 : ({ s2 with fl := (kidsOf s2.fl r).foldl clearParentFast s2.fl } : MS) = z2 at h2
  generalize hz1 : ({ s1 with fl := (kidsOf s1.fl (R.f r)).foldl clearParentFast s1.fl } : MS) = z1 at h2
  simp only
  rw [(h2.mate r hr).eq]
  simp only
  refine (deref_same _).bind ?_
  rintro n _ rfl
  rw [(h2.fl.node n).eq]
  refine (deref_sim (h2.fl.node n).top).bind ?_
  rintro sub _ ⟨hs, rfl⟩
  have h3 := h2.setMate hs (h2.mate r hr)
  rw [(h2.mate r hr).eq] at h3
  generalize z2.setMate sub (z2.mate r) = y2 at h3
  generalize z1.setMate (R.f sub) ⟨R.o (z2.mate r).region, (z2.mate r).edge⟩ = y1 at h3
  have fin : ∀ {x2 x1 : MS}, MSim R B x2 x1 → RelRes (fun a b => MSim R B a.1 b.1 ∧ a.2.1 < R.k ∧ b.2.1 = R.f a.2.1 ∧ a.2.2 = b.2.2)
      (.ok (x2, sub, (x2.fl.reg r).children.findIdx (fun x => x.1 == sub)))
      (.ok (x1, R.f sub, (x1.fl.reg (R.f r)).children.findIdx (fun x => x.1 == R.f sub))) := by
    intro x2 x1 hx
    refine .pure ⟨hx, hs, rfl, ?_⟩
    have hg := hx.fl.reg r hr
    simp only [hg.eq]
    exact (findIdx_l hg.children hs).symm
  have hm := h3.mate sub hs
  rw [hm.eq]
  cases hmr : (y2.mate sub).region with
  | none => exact fin h3
  | some m =>
    have hmk : m < R.k := hm.region m hmr
    simp only [Rn.o_some]
    refine fin (h3.setMate hmk ⟨?_, Rn.Ok.some hs⟩)
    rw [(h3.mate m hmk).eq]
    rfl

/-- The results of both runs. -/
def XRel (R B : Rn) (a b : MS × Extract) : Prop := MSim R B a.1 b.1 ∧ a.2 = b.2

theorem extract_sim_aux (f2 : Nat) :
    (∀ f1 (s2 s1 : MS) (r : Nat), f2 ≤ f1 → MSim R B s2 s1 → r < R.k → RelRes (XRel R B) (extract f2 s2 r) (extract f1 s1 (R.f r))) ∧
    (∀ f1 (s2 s1 : MS) (r : Nat), f2 ≤ f1 → MSim R B s2 s1 → r < R.k → RelRes (XRel R B) (extractRest f2 s2 r) (extractRest f1 s1 (R.f r))) ∧
    (∀ f1 (s2 s1 : MS) (r : Nat), f2 ≤ f1 → MSim R B s2 s1 → r < R.k →
      RelRes (fun a b => MSim R B a.1 b.1 ∧ a.2.1 < R.k ∧ b.2.1 = R.f a.2.1 ∧ a.2.2 = b.2.2) (pairAndShatter f2 s2 r) (pairAndShatter f1 s1 (R.f r))) ∧
    (∀ f1 (s2 s1 : MS) cyc idx i n x, f2 ≤ f1 → MSim R B s2 s1 → R.Oks cyc →
      RelRes (XRel R B) (pairLoop f2 s2 cyc idx i n x) (pairLoop f1 s1 (R.l cyc) idx i n x)) := by
  induction f2 with
  | zero =>
    refine ⟨?_, ?_, ?_, ?_⟩
    · intro f1 s2 s1 r _ _ _; rw [extract]; exact RelRes.ub
    · intro f1 s2 s1 r _ _ _; rw [extractRest]; exact RelRes.ub
    · intro f1 s2 s1 r _ _ _; rw [pairAndShatter]; exact RelRes.ub
    · intro f1 s2 s1 cyc idx i n x _ _ _; rw [pairLoop]; exact RelRes.ub
  | succ f2 ih =>
    obtain ⟨ih1, ih2, ih3, ih4⟩ := ih
    refine ⟨?_, ?_, ?_, ?_⟩
    · intro f1 s2 s1 r hf h hr
      obtain ⟨f1, rfl⟩ : ∃ j, f1 = j + 1 := ⟨f1 - 1, by omega⟩
      simp only [extract]
      have h1 := h.cleanup hr
      generalize s2.cleanup r = z2 at h1
      generalize s1.cleanup (R.f r) = z1 at h1
      have hm := h1.mate r hr
      have hg := h1.fl.reg r hr
      rw [hm.eq]
      cases hmr : (z2.mate r).region with
      | none =>
        simp only [Rn.o_none, hg.eq, Rn.l_isEmpty]
        split_ifs with hc
        · exact .pure ⟨h1.delReg hr, rfl⟩
        · exact ih2 f1 _ _ r (by omega) h1 hr
      | some m =>
        have hmk : m < R.k := hm.region m hmr
        have h2 := h1.cleanup hmk
        simp only [Rn.o_some]
        generalize z2.cleanup m = y2 at h2
        generalize z1.cleanup (R.f m) = y1 at h2
        have hg1 := h2.fl.reg r hr
        have hg2 := h2.fl.reg m hmk
        have hm2 := h2.mate r hr
        simp only [hg1.eq, hg2.eq, hm2.eq, Rn.l_isEmpty]
        split_ifs with hc
        · exact .pure ⟨(h2.delReg hmk).delReg hr, rfl⟩
        · exact ih2 f1 _ _ r (by omega) h2 hr
    · intro f1 s2 s1 r hf h hr
      obtain ⟨f1, rfl⟩ : ∃ j, f1 = j + 1 := ⟨f1 - 1, by omega⟩
      simp only [extractRest]
      have hg := h.fl.reg r hr
      refine RelRes.bind (P := fun a b => MSim R B a.1 b.1 ∧ a.2.1 < R.k ∧ b.2.1 = R.f a.2.1 ∧ a.2.2 = b.2.2) ?_ ?_
      · simp only [hg.eq, Rn.l_isEmpty]
        split_ifs with hc
        · exact .pure ⟨h, hr, rfl, rfl⟩
        · exact ih3 f1 _ _ r (by omega) h hr
      · rintro ⟨z2, q, x1⟩ ⟨z1, q', x1'⟩ ⟨k1, k2, k3, k4⟩
        simp only at k1 k2 k3 k4
        subst k3 k4
        simp only
        refine RelRes.bind (P := XRel R B) ?_ ?_
        · have hm := k1.mate q k2
          rw [hm.eq]
          cases hmr : (z2.mate q).region with
          | none => exact .pure ⟨k1, rfl⟩
          | some m =>
            have hmk : m < R.k := hm.region m hmr
            have hg2 := k1.fl.reg m hmk
            simp only [Rn.o_some, hg2.eq, Rn.l_isEmpty]
            split_ifs with hc
            · exact .pure ⟨k1, rfl⟩
            · refine (ih3 f1 _ _ m (by omega) k1 hmk).bind ?_
              rintro ⟨y2, _, x⟩ ⟨y1, _, x'⟩ ⟨j1, -, -, j2⟩
              exact .pure ⟨j1, j2⟩
        · rintro ⟨y2, x2⟩ ⟨y1, x2'⟩ ⟨j1, j2⟩
          simp only at j1 j2
          subst j2
          refine (ih1 f1 _ _ q (by omega) j1 k2).bind ?_
          rintro ⟨w2, x3⟩ ⟨w1, x3'⟩ ⟨i1, i2⟩
          simp only at i1 i2
          subst i2
          exact .pure ⟨i1, rfl⟩
    · intro f1 s2 s1 r hf h hr
      obtain ⟨f1, rfl⟩ : ∃ j, f1 = j + 1 := ⟨f1 - 1, by omega⟩
      simp only [pairAndShatter]
      refine (h.reopen hr).bind ?_
      rintro ⟨z2, sub, idx⟩ ⟨z1, sub', idx'⟩ ⟨k1, k2, k3, k4⟩
      simp only at k1 k2 k3 k4
      subst k3 k4
      have hg := k1.fl.reg r hr
      simp only [hg.eq, Rn.l_length]
      refine (ih4 f1 _ _ _ _ _ _ _ (by omega) k1 hg.children).bind ?_
      rintro ⟨y2, x⟩ ⟨y1, x'⟩ ⟨j1, j2⟩
      exact .pure ⟨j1.delReg hr, k2, rfl, j2⟩
    · intro f1 s2 s1 cyc idx i n x hf h hc
      obtain ⟨f1, rfl⟩ : ∃ j, f1 = j + 1 := ⟨f1 - 1, by omega⟩
      cases n with
      | zero => simp only [pairLoop]; exact .pure ⟨h, rfl⟩
      | succ n =>
        simp only [pairLoop, Rn.l_length, Rn.l_get]
        refine (derefP_sim hc.get).bind ?_
        rintro ⟨r1, e1⟩ _ ⟨k1, rfl⟩
        refine (derefP_sim hc.get).bind ?_
        rintro ⟨r2, e2⟩ _ ⟨k2, rfl⟩
        simp only at k1 k2 ⊢
        refine (ih1 f1 _ _ r1 (by omega) (h.addMatch k1 k2 e1) k1).bind ?_
        rintro ⟨z2, y⟩ ⟨z1, y'⟩ ⟨j1, j2⟩
        simp only at j1 j2
        subst j2
        exact ih4 f1 _ _ _ _ _ _ _ (by omega) j1 hc

theorem extractAll_sim (ns : List Nat) : ∀ {s2 s1 : MS} (x : Extract), MSim R B s2 s1 → RelRes (XRel R B) (extractAll s2 ns x) (extractAll s1 ns x) := by
  induction ns with
  | nil => intro s2 s1 x h; exact .pure ⟨h, rfl⟩
  | cons n ns ih =>
    intro s2 s1 x h
    simp only [extractAll]
    have hn := h.fl.node n
    rw [hn.eq]
    cases harr : (s2.fl.node n).arr with
    | none => exact ih x h
    | some a =>
      simp only [Rn.o_some]
      refine (deref_sim hn.top).bind ?_
      rintro r _ ⟨hr, rfl⟩
      refine ((extract_sim_aux s2.extractDepth).1 s1.extractDepth s2 s1 r ?_ h hr).bind ?_
      · have := h.fl.depth_le
        unfold MS.extractDepth; omega
      · rintro ⟨z2, y⟩ ⟨z1, y'⟩ ⟨j1, j2⟩
        simp only at j1 j2
        subst j2
        exact ih _ j1

/-! ## Whole calls -/

theorem ArSim.start {a : Arena} (h : AInv ∅ a) : ArSim Rn.zero Arena.empty a := by
  have hs : (a.allocated : Multiset Nat) = (a.available : Multiset Nat) := by simpa using h.inv.split
  have hp := Multiset.coe_eq_coe.1 hs
  refine ⟨rfl, ?_, ?_, a.available, ?_, ?_, ?_, ?_⟩
  · intro i hi; cases hi
  · intro i hi; exact absurd hi (Nat.not_lt_zero i)
  · simp [Arena.empty]
  · exact hp.nodup_iff.1 h.inv.nodup
  · intro x hx
    exact ⟨h.names x (hp.mem_iff.2 hx), fun i hi => absurd hi (Nat.not_lt_zero i)⟩
  · have := h.lens
    have hk : Rn.zero.k = 0 := rfl
    rw [hk]
    simpa using this

theorem Quiet.off {w : World Owner} (h : Quiet w) (o : Owner) : (w.tr o).hasQueued = false ∧ (w.tr o).hasDesired = false := by
  have h1 : (w.tr o).hasQueued = false := by
    by_contra hc
    rw [Bool.not_eq_false] at hc
    have := h.inv.queued o hc
    rw [h.none] at this
    exact absurd this (Multiset.notMem_zero _)
  refine ⟨h1, ?_⟩
  by_contra hc
  rw [Bool.not_eq_false] at hc
  have := (h.inv.desired o hc).1
  rw [h1] at this
  cases this

/-- A decoder at rest and a decoder that was never used agree. -/
theorem MSim.start {s : MS} (hs : Clean s) : MSim Rn.zero Rn.zero MS.init.begin s.begin := by
  have hk : ∀ {i : Nat}, ¬ i < Rn.zero.k := fun h => Nat.not_lt_zero _ h
  refine ⟨⟨?_, fun i hi => absurd hi hk, ArSim.start hs.regs, ⟨?_, ⟨rfl, ?_, ?_, ?_⟩⟩, ⟨fun _ => 0, fun i hi => absurd hi hk⟩⟩,
    fun i hi => absurd hi hk, fun i hi => absurd hi hk, fun i hi => absurd hi hk, ArSim.start hs.alts⟩
  · intro n
    have : s.begin.fl.node n = .blank := hs.nodes n
    rw [this]
    exact ⟨rfl, Rn.Ok.none, Rn.Ok.none⟩
  · intro o ho
    obtain ⟨k1, k2⟩ := hs.quiet.off (rOwner Rn.zero o)
    exact ⟨k2, k1, fun h => absurd h (by show ¬ false = true; decide), fun h => absurd h (by show ¬ false = true; decide)⟩
  · exact hs.quiet.num
  · intro b
    have : s.fl.w.q.buckets b = [] := by
      by_contra hc
      obtain ⟨e, he⟩ := List.exists_mem_of_ne_nil _ hc
      have := RadixHeap.mem_content.2 ⟨b, he⟩
      rw [hs.quiet.none] at this
      exact absurd this (Multiset.notMem_zero _)
    show s.fl.w.q.buckets b = _
    rw [this]
    rfl
  · intro b e he
    cases he

theorem timeline_sim (hg : Proper g) {s : MS} (hs : Clean s) (bnd : List Bool) {neg events : List Nat} (hev : ∀ d ∈ events, d < g.nodes.length)
    (hnd : events.Nodup) (hneg : ∀ d ∈ neg, TL.notBoundary bnd d = true) (hnn : neg.Nodup) (f : Nat) :
    (∀ a, timeline g bnd neg f MS.init events = some (.ok a) → ∃ b R B, timeline g bnd neg f s events = some (.ok b) ∧ MSim R B a b) ∧
    (∀ a, timeline g bnd neg f MS.init events = some (.throws a) → ∃ b, timeline g bnd neg f s events = some (.throws b)) := by
  obtain ⟨st, e1, -, h2, h3⟩ := Props.Convert.C35_started_nodes g.nodes.length bnd neg events hev hnd hneg hnn
  obtain ⟨s1, L, ch, A, e2, hl⟩ := launch_spec hg st.started (Clean.init.launched (g := g) (ch := fun _ => [])) h2 (by simp)
  obtain ⟨u1, e2', R, B, -, -, hm⟩ := launch_sim (g := g) st.started (MSim.start hs) _ e2
  have hnum : ¬ (s.fl.w.q.num ≠ 0) := by rw [hs.quiet.num]; simp
  have hnum0 : ¬ (MS.init.fl.w.q.num ≠ 0) := by rw [Clean.init.quiet.num]; simp
  rcases runLoop_spec hg f hl.ok with e3 | ⟨s2, t2, L2, ch2, A2, ach2, e3, -, h4, h5, h6⟩
  · have e0 : timeline g bnd neg f MS.init events = none := by
      simp only [timeline, Clean.init.unmark, hnum0, e1, e2, e3, if_false, if_true]
    constructor
    · intro a ha; rw [e0] at ha; cases ha
    · intro a ha; rw [e0] at ha; cases ha
  · obtain ⟨u2, e3', R', B', -, -, hm'⟩ := runLoop_sim hg f hl.ok hm e3
    have hlens := hm'.alts.lens
    by_cases hA0 : s2.alts.allocated.length = s2.alts.available.length
    · have hA1 := hlens.2 hA0
      have e0 : timeline g bnd neg f MS.init events = some (.ok s2) := by
        simp only [timeline, Clean.init.unmark, hnum0, e1, e2, e3, if_false, if_true, ne_eq, hA0, not_true]
      have e0' : timeline g bnd neg f s events = some (.ok u2) := by
        simp only [timeline, hs.unmark, hnum, e1, e2', e3', if_false, if_true, ne_eq, hA1, not_true]
      constructor
      · intro a ha; rw [e0] at ha; cases ha; exact ⟨u2, R', B', e0', hm'⟩
      · intro a ha; rw [e0] at ha; cases ha
    · have hA1 : ¬ u2.alts.allocated.length = u2.alts.available.length := fun h => hA0 (hlens.1 h)
      have red : timeline g bnd neg f MS.init events = match s2.reset with
          | .ok s3 => some (.throws s3)
          | .throws => some (.throws s2)
          | .ub => some .ub := by
        simp only [timeline, Clean.init.unmark, hnum0, e1, e2, e3, if_false, if_true, ne_eq, hA0, not_false_eq_true]
        cases s2.reset <;> rfl
      have red' : timeline g bnd neg f s events = match u2.reset with
          | .ok s3 => some (.throws s3)
          | .throws => some (.throws u2)
          | .ub => some .ub := by
        simp only [timeline, hs.unmark, hnum, e1, e2', e3', if_false, if_true, ne_eq, hA1, not_false_eq_true]
        cases u2.reset <;> rfl
      constructor
      · intro a ha
        rw [red] at ha
        cases hr : s2.reset <;> rw [hr] at ha <;> cases ha
      · intro a _
        rcases timeline_spec hg hs bnd hev hnd hneg hnn f with e | ⟨s', t, L, ch, e, -⟩ | ⟨s', e, -⟩
        · rw [red'] at e
          cases hr : u2.reset <;> rw [hr] at e <;> cases e
        · rw [red'] at e
          cases hr : u2.reset <;> rw [hr] at e <;> cases e
        · exact ⟨s', e⟩

theorem matching_of {bnd : List Bool} {neg events : List Nat} {f : Nat} {s s1 s' : MS} {x : Extract} (e : timeline g bnd neg f s events = some (.ok s1))
    (e1 : extractAll s1 (events ++ neg) Extract.zero = .ok (s', x)) : matching g bnd neg f s events = some (.ok (s', x)) := by
  rw [extractAll_append] at e1
  rw [matching, e]
  simp only
  obtain ⟨⟨s2, x2⟩, e2, e3⟩ := bind_inv e1
  simp only at e3
  simp only [e2, e3]

/-- The matching that a used decoder finds is the one that a decoder finds that was never used. -/
theorem matching_sim (hg : Proper g) {s : MS} (hs : Clean s) (bnd : List Bool) {neg events : List Nat} (hev : ∀ d ∈ events, d < g.nodes.length)
    (hnd : events.Nodup) (hneg : ∀ d ∈ neg, TL.notBoundary bnd d = true) (hnn : neg.Nodup) (f : Nat) :
    (∀ a x, matching g bnd neg f MS.init events = some (.ok (a, x)) → ∃ b, matching g bnd neg f s events = some (.ok (b, x))) ∧
    (∀ a, matching g bnd neg f MS.init events = some (.throws a) → ∃ b, matching g bnd neg f s events = some (.throws b)) := by
  obtain ⟨h1, h2⟩ := timeline_sim hg hs bnd hev hnd hneg hnn f
  rcases timeline_spec hg Clean.init bnd hev hnd hneg hnn f with e | ⟨s1, t, L, ch, e, hd, ha⟩ | ⟨s1, e, -, -⟩
  · have e0 : matching g bnd neg f MS.init events = none := by rw [matching, e]
    constructor
    · intro a x ha; rw [e0] at ha; cases ha
    · intro a ha; rw [e0] at ha; cases ha
  · obtain ⟨b, R, B, eb, hm⟩ := h1 _ e
    obtain ⟨s', x, e1, -⟩ := extractAll_spec hd ha (ns := events ++ neg) (by
      intro a ha
      rw [mem_startedOf] at ha
      rw [List.mem_append]
      by_contra hc
      rw [not_or] at hc
      exact ha ⟨fun h => absurd h.1 hc.1, fun h => absurd h hc.2⟩)
    obtain ⟨⟨q, y⟩, k1, k2, k3⟩ := extractAll_sim (events ++ neg) Extract.zero hm _ e1
    simp only at k2 k3
    subst k3
    have e0 := matching_of e e1
    constructor
    · intro a x' ha
      rw [e0] at ha
      cases ha
      exact ⟨q, matching_of eb k1⟩
    · intro a ha
      rw [e0] at ha
      cases ha
  · have e0 : matching g bnd neg f MS.init events = some (.throws s1) := by rw [matching, e]
    constructor
    · intro a x ha; rw [e0] at ha; cases ha
    · intro a ha
      obtain ⟨b, eb⟩ := h2 _ e
      exact ⟨b, by rw [matching, eb]⟩

end Verif.SB
