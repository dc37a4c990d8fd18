import Verif.Blossom.Thread

/-!
# Shattering of a blossom that shrank to nothing
-/

namespace Verif.SB

open Verif Verif.Graph Verif.CE Verif.Mem Verif.Spec
open Verif.Sch (Res)

variable {V V' : View} {A : Finset Nat} {ach : Nat → List Nat}
variable {g : MGraph} {T L : Finset Nat} {ch : Nat → List Nat} {t : Int} {X Y : Nat → Prop}
variable {R : Arena} {Q : Finset Nat} {ba o : Nat} {eo : CompressedEdge} {W : List Nat}

/-! ## `heir_region_on_shatter` -/

theorem heirFrom_spec {s : FS} (h : BGeo g T L ch t s) {B : Nat} (hp : par s B = none) (f : Nat) : ∀ q ∈ L, B ∈ ch q → q ≠ B → (ch q).length ≤ f →
    ∃ c, heirFrom s (some B) f q = .ok c ∧ c ∈ ch q ∧ par s c = some B := by
  induction f with
  | zero =>
    intro q _ hB _ hl
    have : ch q = [] := List.length_eq_zero_iff.1 (by omega)
    rw [this] at hB; cases hB
  | succ f ih =>
    intro q hq hB hne hl
    rcases h.forest.cases hq with ⟨-, e⟩ | ⟨p, h1, h2, e⟩
    · rw [e] at hB
      exact absurd (by simpa using hB) (Ne.symm hne)
    · unfold heirFrom
      by_cases hpB : p = B
      · subst hpB
        exact ⟨q, by rw [if_pos (show (s.reg q).parent = some p from h1)], by rw [e]; simp, h1⟩
      · rw [if_neg (show ¬ (s.reg q).parent = some B from fun h5 => hpB (by rw [show (s.reg q).parent = some p from h1] at h5; simpa using h5))]
        rw [e] at hB hl
        obtain ⟨c, k1, k2, k3⟩ := ih p h2 (by
          rcases List.mem_cons.1 hB with h5 | h5
          · exact absurd h5.symm hne
          · exact h5) hpB (by simp at hl; omega)
        refine ⟨c, ?_, by rw [e]; exact List.mem_cons_of_mem _ k2, k3⟩
        rw [show (s.reg q).parent = some p from h1]
        exact k1

theorem heir_spec {s : FS} (h : BGeo g T L ch t s) {B n : Nat} (hB : B ∈ L) (hp : par s B = none) (hsh : (s.reg B).shell = []) (hin : InR s ch B n) :
    ∃ c ∈ kidsOf s B, heir s n = .ok c ∧ InR s ch c n := by
  have ht := (h.inR_iff hB hp).1 hin
  obtain ⟨q, hq, hBq⟩ := hin
  obtain ⟨hqL, hqs⟩ := h.occ n q hq
  have hqB : q ≠ B := by rintro rfl; rw [hsh] at hqs; cases hqs
  have hl := h.forest.length_le hqL
  have hc := h.card
  obtain ⟨c, e, h1, h2⟩ := heirFrom_spec h hp (s.depth + 1) q hqL hBq hqB (by omega)
  refine ⟨c, (h.kids.mem B hB c).2 ⟨h.forest.mem_live hqL h1, h2⟩, ?_, q, hq, h1⟩
  unfold heir
  rw [hq, ht]
  exact e

theorem Link.heir {s : FS} (h : BGeo g T L ch t s) {B r : Nat} {e : CompressedEdge} (hB : B ∈ L) (hp : par s B = none) (hsh : (s.reg B).shell = [])
    (hl : Link g T L ch t s e B r) : ∃ n c, e.locFrom = some n ∧ SB.heir s n = .ok c ∧ c ∈ kidsOf s B ∧ Link g T L ch t s e c r := by
  obtain ⟨a, b, i1, i2, i3, i4, i5, i6⟩ := hl
  obtain ⟨c, h1, h2, h3⟩ := heir_spec h hB hp hsh i5
  exact ⟨a, c, i1, h2, h1, a, b, i1, i2, i3, i4, h3, i6⟩

/-! ## The state after the children became top regions -/

theorem Chain.start {l : List (Nat × CompressedEdge)} {r r' : Nat} (h : Chain V r l r') : r ∈ l.map (·.1) ∨ r = r' := by
  cases l with
  | nil => exact .inr h
  | cons x l => exact .inl (by rw [← h.1]; simp)

theorem Chain.mono_on {S : Nat → Prop} (h : ∀ e r r', S r → S r' → V.lk e r r' → V'.lk e r r') : ∀ {l : List (Nat × CompressedEdge)} {r r' : Nat},
    (∀ x ∈ l.map (·.1), S x) → S r' → Chain V r l r' → Chain V' r l r' := by
  intro l
  induction l with
  | nil => intro r r' _ _ hc; exact hc
  | cons x l ih =>
    obtain ⟨x, e⟩ := x
    rintro r r' hS hr' ⟨h1, p, h2, h3⟩
    have hSl : ∀ x ∈ l.map (·.1), S x := fun y hy => hS y (List.mem_cons_of_mem _ hy)
    refine ⟨h1, p, h e r p (hS r (by rw [← h1]; simp)) ?_ h2, ih hSl hr' h3⟩
    rcases h3.start with h5 | h5
    · exact hSl p h5
    · rw [h5]; exact hr'

theorem Cyc.unwrap (h : Cyc V) {B : Nat} (hU : Unwrapped V V' B) (hk : ∀ r, V.live r → B ∉ (V.kids r).map (·.1)) : Cyc V' := by
  intro r hr
  obtain ⟨h1, h2⟩ := (hU.live r).1 hr
  rw [hU.kids r h1 h2]
  rcases h r h2 with h3 | ⟨h3, h4, q, h5⟩
  · exact .inl h3
  · refine .inr ⟨h3, h4, q, h5.mono_on (S := fun x => x ≠ B) (fun e r r' => hU.lk e r r') (fun x hx e => hk r h2 (e ▸ hx)) ?_⟩
    rcases h5.start with h6 | h6
    · exact fun e => hk r h2 (e ▸ h6)
    · cases hkr : V.kids r with
      | nil => rw [hkr] at h4; simp at h4
      | cons x l =>
        rw [hkr] at h5
        have := h5.1
        intro e
        refine hk r h2 ?_
        rw [hkr, ← e, ← this]; simp

theorem Mid.perm {s : MS} (h : Mid g T L ch t V R Q ba o eo W s A ach) {W' : List Nat} (hp : W.Perm W') : Mid g T L ch t V R Q ba o eo W' s A ach where
  fl := h.fl.weaken (fun _ _ _ hx => hp.mem_iff.1 hx) (fun _ _ _ _ => Iff.rfl)
  vw := h.vw
  regs := h.regs
  nodes := h.nodes
  shape := h.shape
  tops := ⟨fun r hr hU => h.tops.cover r hr (fun hx => hU (hx.imp_left hp.mem_iff.1)), h.tops.inside⟩
  ptr := h.ptr
  arena := h.arena
  clean := h.clean
  mem := h.mem
  node := h.node
  outer := h.outer
  free := fun x hx => h.free x (hp.mem_iff.2 hx)
  sep := fun x hx hW h0 hn y hy hyW => h.sep x hx (fun hx => hW (hp.mem_iff.1 hx)) h0 hn y hy (hp.mem_iff.2 hyW)
  grew := h.grew
  roots := h.roots

/-- The blossom was dissolved and its node detached. -/
theorem Mid.start (hg : Proper g) {s : MS} {B p : Nat} {e : CompressedEdge} {L' : Finset Nat} {ch' : Nat → List Nat} {f : FS} (hM : MOk (view g T L ch t s.fl) s A ach)
    (hba : ba ∈ A) (hi : (s.alt ba).inner = some B) (hp : (s.alt ba).parent = some (p, e))
    (hF : FOk g T L' ch' t (fun x => False ∨ x ∈ kidsOf s.fl B) (fun _ => False) f)
    (hU : Unwrapped (view g T L ch t s.fl) (view g T L' ch' t f) B) (hk : ∀ r, (view g T L ch t s.fl).live r → B ∉ ((view g T L ch t s.fl).kids r).map (·.1)) :
    ∃ ach', Mid g T L' ch' t (view g T L' ch' t f) f.regs (Roots s.alt A) ba (s.alt ba).outer (s.alt ba).i2o (kidsOf s.fl B)
      { s with fl := f, alt := Function.update s.alt p { s.alt p with children := eraseKid (s.alt p).children ba } } A ach' ∧
      ∀ x ∈ A, ba ∉ ach x → ach' x = ach x := by
  generalize hV : view g T L ch t s.fl = V at hM hU hk
  generalize hV' : view g T L' ch' t f = V' at hU
  have hkids : kidsOf s.fl B = (V.kids B).map (·.1) := by rw [← hV]; rfl
  have hsl' : sl f = V'.sl := by rw [← hV']; rfl
  have hSym : V.Sym := by rw [← hV]; exact view_sym hg
  rw [hkids] at hF ⊢
  obtain ⟨ach', hS, hach⟩ := hM.shape.detach (a := ba) hba (by simp) hp
  have hko : KidsOnly s.alt (Function.update s.alt p { s.alt p with children := eraseKid (s.alt p).children ba }) := (KidsOnly.refl s.alt).set p _
  generalize halt : Function.update s.alt p { s.alt p with children := eraseKid (s.alt p).children ba } = alt1 at hS hko
  have hB := hM.nodes.inner ba hba B hi
  have hregB : ∀ a ∈ A, a ≠ ba → ∀ r ∈ nregs s.alt a, r ≠ B := by
    rintro a ha hne r hr rfl
    exact hne (hM.nodes.disj ha hba hr (mem_nregs.2 (.inr hi)))
  have houtB : ∀ a ∈ A, (s.alt a).outer ≠ B := by
    intro a ha e
    have := hM.nodes.up a ha
    rw [e] at this
    exact this hB.2.1
  have hnr : ∀ x, nregs alt1 x = nregs s.alt x := fun x => hko.nregs x
  have htop : ∀ r, V.top r → r ≠ B → V'.top r := fun r hr hne => (hU.top r).2 ⟨hne, .inl hr⟩
  have hfree : ∀ x, V.top x → V.sl x = 0 → x ≠ B := by
    rintro x - h0 rfl
    rw [hB.2.1] at h0; exact absurd h0 (by decide)
  refine ⟨ach', ⟨?_, ?_, rfl, ?_, ?_, ?_, ?_, hM.arena, ?_, hba, ?_, ?_, ?_, ?_, ?_, ?_⟩, hach⟩
  · exact hF.weaken (fun x _ _ hx => hx.resolve_left id) (fun _ _ _ _ => Iff.rfl)
  · show view g T L' ch' t f = { V' with sl := sl f }
    rw [hV', hsl']
  · show Nodes (view g T L' ch' t f) alt1 s.ralt (A.erase ba) _
    rw [hV']
    refine ⟨?_, ?_, ?_, ?_, ?_⟩
    · intro a ha
      obtain ⟨hab, haA⟩ := Finset.mem_erase.1 ha
      rw [hko.outer]
      exact ⟨htop _ (hM.nodes.outer a haA).1 (houtB a haA), (hM.nodes.outer a haA).2⟩
    · intro a ha
      obtain ⟨hab, haA⟩ := Finset.mem_erase.1 ha
      rw [hko.outer, hU.sl _ (houtB a haA)]
      exact hM.nodes.up a haA
    · intro a ha _
      obtain ⟨hab, haA⟩ := Finset.mem_erase.1 ha
      rw [hko.outer, hU.sl _ (houtB a haA)]
      exact hM.nodes.grow a haA (fun h => h)
    · intro a ha i hia
      obtain ⟨hab, haA⟩ := Finset.mem_erase.1 ha
      rw [hko.inner] at hia
      obtain ⟨k1, k2, k3⟩ := hM.nodes.inner a haA i hia
      have hiB := hregB a haA hab i (mem_nregs.2 (.inr hia))
      rw [hko.outer, hko.i2o]
      exact ⟨htop i k1 hiB, by rw [hU.sl i hiB]; exact k2, hU.lk _ _ _ hiB (houtB a haA) k3⟩
    · intro a ha b hb i h1 h2
      rw [hko.inner] at h1 h2
      exact hM.nodes.inj a (Finset.mem_of_mem_erase ha) b (Finset.mem_of_mem_erase hb) i h1 h2
  · show Shape (view g T L' ch' t f) alt1 A ach' {ba}
    rw [hV']
    rw [show insert ba (∅ : Finset Nat) = {ba} from rfl] at hS
    refine hS.congr (fun _ _ => rfl) (fun _ _ => rfl) ?_ (fun _ _ _ _ h => h)
    intro a ha c hc hcZ e' i _ hic hl
    have hcb : c ≠ ba := by simpa using hcZ
    refine ⟨i, hic, hU.lk _ _ _ ?_ ?_ hl⟩
    · rw [hko.outer]; exact houtB a ha
    · rw [hko.inner] at hic
      exact hregB c hc hcb i (mem_nregs.2 (.inr hic))
  · show Tops (view g T L' ch' t f) alt1 s.ralt s.mate (A.erase ba) _
    rw [hV']
    constructor
    · intro r hr hUr
      push Not at hUr
      obtain ⟨hrB, hr'⟩ := (hU.top r).1 hr
      have hrV := hr'.resolve_right hUr.1
      rcases hM.tops.cover r hrV (fun h => h) with ⟨b, hb, hrb⟩ | hm
      · have hbb : b ≠ ba := by
          rintro rfl
          rcases mem_nregs.1 hrb with h5 | h5
          · exact hUr.2 h5
          · rw [hi, Option.some.injEq] at h5
            exact hrB h5.symm
        exact .inl ⟨b, Finset.mem_erase.2 ⟨hbb, hb⟩, by rw [hnr]; exact hrb⟩
      · refine .inr ⟨by rw [hU.sl r hrB]; exact hm.still, hm.free, ?_⟩
        rcases hm.mate with ⟨k1, k2⟩ | ⟨m, k1, k2, k3, k4, k5, k6, k7⟩
        · exact .inl ⟨k1, hU.blk _ _ hrB k2⟩
        · have hmB := hfree m k3 k4
          exact .inr ⟨m, k1, k2, htop m k3 hmB, by rw [hU.sl m hmB]; exact k4, k5, k6, hU.lk _ _ _ hrB hmB k7⟩
    · intro r hr hnt
      obtain ⟨hrB, hrL⟩ := (hU.live r).1 hr
      exact hM.tops.inside r hrL (fun ht => hnt (htop r ht hrB))
  · intro a ha i hia
    have hia' : (alt1 a).inner = some i := hia
    rw [hko.inner] at hia'
    exact hM.ptr a (Finset.mem_of_mem_erase ha) i hia'
  · intro a ha
    show (alt1 a).visited = false
    rw [(hko a).2.2.2.2]
    exact hM.clean a ha
  · exact ⟨hko.outer ba, hko.i2o ba⟩
  · refine ⟨htop _ (hM.nodes.outer ba hba).1 (houtB ba hba), ?_, (hM.nodes.outer ba hba).2⟩
    show sl f _ = 1
    rw [hsl', hU.sl _ (houtB ba hba)]
    exact hM.nodes.grow ba hba (fun h => h)
  · intro x hx
    obtain ⟨k1, k2, k3⟩ := hU.still x hx
    have hxB : x ≠ B := by rintro rfl; exact k3 hB.1
    refine ⟨(hU.top x).2 ⟨hxB, .inr hx⟩, ?_, hM.tops.inside x k1 k3, hU.ev x hx⟩
    show sl f x = 0
    rw [hsl', hU.sl x hxB]; exact k2
  · intro x hx hxW h0 hn y hy hyW
    have h0' : sl f x = 0 := h0
    obtain ⟨hxB, hx'⟩ := (hU.top x).1 hx
    have hxV := hx'.resolve_right hxW
    rw [hsl', hU.sl x hxB] at h0'
    have := (hM.frozen hxV h0').partner hSym hxV hy
    exact (hU.still y hyW).2.2 this.1
  · intro x hx
    show sl f x = 1
    rw [hsl']; exact hx
  · intro a ha
    obtain ⟨haA, ha2⟩ := Finset.mem_filter.1 ha
    have ha3 : (alt1 a).inner = none := ha2
    rw [hko.inner] at ha3
    exact Finset.mem_filter.2 ⟨haA, ha3⟩

/-! ## `do_blossom_shattering` and `handle_blossom_shattering` -/

theorem CompressedEdge_reversed_reversed (e : CompressedEdge) : e.reversed.reversed = e := by simp [CompressedEdge.reversed]

theorem shattering_spec (hg : Proper g) {s : MS} {B : Nat} (h : SOk g T L ch t (fun x => x = B) s A ach) (hB : (view g T L ch t s.fl).top B)
    (hsl : sl s.fl B = -1) (hsh : (s.fl.reg B).shell = []) (hy : y s.fl t B = 0) :
    ∃ ev s' L' ch' A' ach', shattering s B = .ok ev ∧ processEvent g s ev = .ok s' ∧ SOk g T L' ch' t (fun _ => False) s' A' ach' ∧
      Prog (view g T L ch t s.fl) (view g T L' ch' t s'.fl) s.alt s'.alt A A' L L' ∧
      L' = L.erase B ∧ ∃ ba p e r1 r2 n1 n2 pth prs, ba ∈ A ∧ (s.alt ba).inner = some B ∧ (s.alt ba).parent = some (p, e.reversed) ∧ ev = .shatter B r1 r2 ∧
        e.reversed.locFrom = some n1 ∧ InR s.fl ch r1 n1 ∧ (s.alt ba).i2o.locFrom = some n2 ∧ InR s.fl ch r2 n2 ∧
        Rethreaded A A' s s' (s.fl.reg B).children ba p e r1 r2 pth prs := by
  have hG := h.fl.geo.toBGeo
  obtain ⟨ba, hba, hi, hra⟩ := h.m.shrinker hB hsl
  obtain ⟨p, e, hp, hpA, hpa, hce, hlk, hch⟩ := h.m.parent hba hi
  have hlk1 : Link g T L ch t s.fl e.reversed B (s.alt p).outer := view_sym hg _ _ _ hlk
  have hlk2 : Link g T L ch t s.fl (s.alt ba).i2o B (s.alt ba).outer := (h.m.nodes.inner ba hba B hi).2.2
  obtain ⟨n1, r1, l1, l2, hr1, hlr1⟩ := hlk1.heir hG hB.1 hB.2 hsh
  obtain ⟨n2, r2, l3, l4, hr2, hlr2⟩ := hlk2.heir hG hB.1 hB.2 hsh
  have houtB : ∀ a ∈ A, (s.alt a).outer ≠ B := by
    intro a ha e
    have := h.m.nodes.up a ha
    rw [e] at this
    exact this hsl
  -- the cycle
  have hkB : ∀ r, r ∈ L → B ∉ kidsOf s.fl r := by
    intro r hr hk
    have := ((hG.kids.mem r hr B).1 hk).2
    rw [hB.2] at this; cases this
  generalize hcycle : (s.fl.reg B).children = cyc
  have hkids : kidsOf s.fl B = cyc.map (·.1) := by unfold kidsOf; rw [hcycle]
  have hcy : cyc.length % 2 = 1 ∧ 3 ≤ cyc.length ∧ ∃ q, Chain (view g T L ch t s.fl) q cyc q := by
    rcases h.cyc B hB.1 with h5 | h5
    · obtain ⟨a, l, h6, -⟩ := hG.seed B hB.1 h5
      rw [hsh] at h6; cases h6
    · rw [← hcycle]; exact h5
  obtain ⟨hodd, h3, q, hchain⟩ := hcy
  have hpos : 0 < cyc.length := by omega
  -- dissolve
  obtain ⟨f1, e1, hregs1, hregB, hall⟩ := h.fl.dissolve hB hsh hy (by rw [hsl]; decide) rfl
  generalize hf2 : f1.setReg B (fun R => { R with children := [] }) = f2
  have hcyc1 : (f1.reg B).children = cyc := by rw [hregB]; exact hcycle
  obtain ⟨hF2, hU⟩ := hall f2 (by rw [← hf2]; rfl) (by rw [← hf2]; rfl) (by rw [← hf2]; rfl) (fun r hr => by rw [← hf2]; exact setReg_ne _ _ hr)
  have hregs2 : f2.regs = s.fl.regs := by rw [← hf2]; exact hregs1
  have hF2' : FOk g T (L.erase B) (unwrapCh ch B) t (fun x => False ∨ x ∈ kidsOf s.fl B) (fun _ => False) f2 :=
    hF2.weaken (fun _ _ _ h => h) (fun r hr _ _ => by simp only [iff_false]; exact fun e => (Finset.mem_erase.1 hr).1 e)
  obtain ⟨ach3, hmid, hach3⟩ := Mid.start hg h.m hba hi hp hF2' hU (fun r hr => hkB r hr)
  have hcyc' := h.cyc.unwrap hU (fun r hr => hkB r hr)
  generalize hV' : view g T (L.erase B) (unwrapCh ch B) t f2 = V' at hU hmid hcyc'
  generalize hs3 : ({ s with fl := f2, alt := Function.update s.alt p { s.alt p with children := eraseKid (s.alt p).children ba } } : MS) = s3 at hmid
  have hSym : V'.Sym := by rw [← hV']; exact view_sym hg
  have hnd : (cyc.map (·.1)).Nodup := by rw [← hkids]; exact hG.kids.nodup B hB.1
  have hlkA : ∀ i, V'.lk (around cyc hpos i).2 (around cyc hpos i).1 (around cyc hpos (i + 1)).1 := by
    intro i
    have hm : ∀ j, (around cyc hpos j).1 ≠ B := by
      intro j e
      refine hkB B hB.1 ?_
      rw [hkids, ← e]
      exact List.mem_map_of_mem (List.getElem_mem _)
    exact hU.lk _ _ _ (hm i) (hm (i + 1)) (hchain.around hpos i)
  have hr1B : r1 ≠ B := fun e => hkB B hB.1 (e ▸ hr1)
  have hr2B : r2 ≠ B := fun e => hkB B hB.1 (e ▸ hr2)
  have hce1 : V'.lk e (s.alt p).outer r1 := by
    have := hSym _ _ _ (hU.lk _ _ _ hr1B (houtB p hpA) hlr1)
    rw [CompressedEdge_reversed_reversed] at this
    exact this
  have hce2 : V'.lk (s.alt ba).i2o r2 (s.alt ba).outer := hU.lk _ _ _ hr2B (houtB ba hba) hlr2
  have hout3 : (s3.alt p).outer = (s.alt p).outer := by rw [← hs3]; simp
  have hbap : ba ∉ ach p := by
    have := h.m.shape.forest.nodup hba
    rw [hch] at this
    exact (List.nodup_cons.1 this).1
  have hbap3 : ba ∉ ach3 p := by rw [hach3 p hpA hbap]; exact hbap
  rw [hkids] at hmid hr1 hr2
  -- positions
  obtain ⟨hpi, hpe⟩ := lastIdx_spec r1 cyc hr1
  obtain ⟨hci, hcie⟩ := lastIdx_spec r2 cyc hr2
  generalize hpx : lastIdx cyc r1 = pidx at hpi hpe
  generalize hcx : lastIdx cyc r2 = cidx at hci hcie
  obtain ⟨hg1, hg2⟩ := gap_cases hpi hci
  generalize hgap : (cidx + cyc.length - pidx) % cyc.length = gap at hg1 hg2
  have hap : (around cyc hpos pidx).1 = r1 := by rw [around_lt hpos hpi]; exact hpe
  have hac : (around cyc hpos (pidx + gap)).1 = r2 := by
    rw [around_mod hpos (j := cidx), around_lt hpos hci]
    · exact hcie
    · rcases hg2 with h5 | h5
      · rw [h5]
      · rw [h5, Nat.add_mod_right]
  -- the common ending
  have hfin : ∀ (pth : Path) (prs : List (Nat × Nat × CompressedEdge)), (cyc.map (·.1)).Perm (pathRegs pth ++ (matchRegs prs ++ [r2])) →
      PathOk V' (s3.alt p).outer e pth r2 → (∀ x ∈ prs, V'.lk x.2.2 x.1 x.2.1) → Along cyc r1 pth r2 → (∀ x ∈ prs, Adjacent cyc x.2.2 x.1 x.2.1) →
      ∃ s4 cur ce s5 s6 A' ach', insertPath g pth s3 p e = .ok (s4, cur, ce) ∧ matchList g prs s4 = .ok s5 ∧
        s6 = (let s1 := s5.setAlt ba fun A => { A with inner := some r2 }
          let s1 := { s1 with fl := setShrinking s1.fl r2 }
          let s1 := s1.setRalt r2 (some ba)
          let s1 := addChild s1 cur ba ce
          { s1 with fl := { s1.fl with regs := s1.fl.regs.del B } }) ∧ SOk g T (L.erase B) (unwrapCh ch B) t (fun _ => False) s6 A' ach' ∧
        Prog (view g T L ch t s.fl) (view g T (L.erase B) (unwrapCh ch B) t s6.fl) s.alt s6.alt A A' L (L.erase B) ∧
        Rethreaded A A' s s6 cyc ba p e r1 r2 pth prs := by
    intro pth prs hperm hpath hprs halong hadj
    have hnd1 := hperm.nodup_iff.1 hnd
    obtain ⟨s4, cur, ce, A4, ach4, e4, h4, k1, k2, k3, k4⟩ := insertPath_spec hg pth s3 p e A ach3 (hmid.perm hperm) hnd1 hpA hpa hbap3 hpath
    obtain ⟨s5, e5, h5, halt⟩ := matchList_spec hg prs s4 h4 (List.nodup_append.1 hnd1).2.1 hprs
    obtain ⟨s6, ach6, e6, h6, hvw6, hgr6, hro6⟩ := h5.finish hg (B := B) (by rw [hregs2]; exact h.regs.del hB.1) hcyc' k1 k2 k3 (by rw [halt]; exact k4) hce2
    refine ⟨s4, cur, ce, s5, s6, A4, ach6, e4, e5, e6, h6, .inr ⟨hro6, ?_, .inr (Finset.erase_ssubset hB.1)⟩, ?_⟩
    swap
    · obtain ⟨A5, m1, m2, m3, m4, m5, m6⟩ := insertPath_thread pth s3 p e A e4 (by rw [← hs3]; exact h.m.arena) hpA
      obtain ⟨q0, q1, q2, -⟩ := matchList_thread prs s4 e5 ((List.nodup_append.1 (List.nodup_append.1 hnd1).2.1).1)
      have hA54 : A5 ⊆ A4 := by
        have e1 : s6.alts = s4.alts := by rw [e6]; exact q0
        rw [← live_eq m1, ← live_eq h6.m.arena, e1]
      have hsame3 : ∀ x, SameNode (s3.alt x) (s.alt x) := by
        intro x
        rw [← hs3]
        by_cases hbp : x = p
        · subst hbp; simp [SameNode]
        · simp [SameNode, hbp]
      have hsame4 := m5 ba hba
      have hk : ∀ x, x ≠ ba → SameNode (s6.alt x) (s4.alt x) := by
        intro x hx
        rw [e6]
        by_cases hxc : x = cur
        · subst hxc; simp [addChild, MS.setAlt, MS.setRalt, hx, q1, SameNode]
        · simp [addChild, MS.setAlt, MS.setRalt, hx, hxc, q1, SameNode]
      refine ⟨hperm, halong, fun r r' e hx => hadj _ hx, ?_, ⟨cur, ce, m6 _ _ hA54 fun x hx hxA => hk x (fun e => hxA (e ▸ hba)), ?_⟩, fun x hx hxb => ?_⟩
      · rw [e6]; exact q2
      · have ho : (s.alt ba).outer = (s4.alt ba).outer := (hsame4.2.1.trans (hsame3 ba).2.1).symm
        have hio : (s.alt ba).i2o = (s4.alt ba).i2o := (hsame4.2.2.1.trans (hsame3 ba).2.2.1).symm
        rw [ho, hio, e6]
        by_cases hbc : cur = ba
        · subst hbc; simp [addChild, MS.setAlt, MS.setRalt, q1]
        · simp [addChild, MS.setAlt, MS.setRalt, q1, Ne.symm hbc]
      · obtain ⟨u1, u2, u3, u4⟩ := hk x hxb
        obtain ⟨v1, v2, v3, v4⟩ := m5 x hx
        obtain ⟨x1, x2, x3, x4⟩ := hsame3 x
        exact ⟨u1.trans (v1.trans x1), u2.trans (v2.trans x2), u3.trans (v3.trans x3), u4.trans (v4.trans x4)⟩
    rintro x ⟨r, q1, q2, q3⟩
    have hrB : r ≠ B := by
      rintro rfl
      have q4 : sl s.fl r = 1 := q2
      rw [hsl] at q4; exact absurd q4 (by decide)
    rw [hvw6]
    exact ⟨r, (hU.top r).2 ⟨hrB, .inl q1⟩, hgr6 r (by rw [hU.sl r hrB]; exact q2), hU.has r x hrB q3⟩
  have hcget : cyc[cidx]? = some (cyc[cidx]) := List.getElem?_eq_getElem hci
  have hexec : ∀ (pth : Path) (prs : List (Nat × Nat × CompressedEdge)), (gap % 2 = 0 → insertEven g cyc ((gap + 1) / 2) s3 pidx p e = insertPath g pth s3 p e ∧
        ∀ s, matchEvens g cyc ((cidx + cyc.length - gap - (cidx + 1) + 1) / 2) s (cidx + 1) = matchList g prs s) →
      (gap % 2 ≠ 0 → insertOdd g cyc pidx ((cyc.length - gap + 1) / 2) s3 0 p e = insertPath g pth s3 p e ∧
        ∀ s, matchEvens g cyc ((pidx + gap - (pidx + 1) + 1) / 2) s (pidx + 1) = matchList g prs s) →
      blossomShatters g s B r1 r2 = (insertPath g pth s3 p e).bind fun x => (matchList g prs x.1).bind fun s5 =>
        .ok (let s1 := s5.setAlt ba fun A => { A with inner := some r2 }
          let s1 := { s1 with fl := setShrinking s1.fl r2 }
          let s1 := s1.setRalt r2 (some ba)
          let s1 := addChild s1 x.2.1 ba x.2.2
          { s1 with fl := { s1.fl with regs := s1.fl.regs.del B } }) := by
    intro pth prs hev hod
    unfold blossomShatters
    have eK : (s.onFl fun fl => (kidsOf fl B).foldlM clearParent fl) = .ok { s with fl := f1 } := by
      unfold MS.onFl
      show (List.foldlM clearParent s.fl (kidsOf s.fl B)).bind _ = _
      rw [e1]
      rfl
    rw [eK]
    simp only [Res.bind]
    rw [hcyc1, hf2, hra]
    simp only [deref, Res.bind]
    rw [hpx, hcx, hgap, hp]
    simp only [CompressedEdge_reversed_reversed]
    have es3 : (({ s with fl := f2 } : MS).setAlt p fun A => { A with children := eraseKid A.children ba }) = s3 := by rw [← hs3]; rfl
    rw [es3]
    by_cases hgp : gap % 2 = 0
    · rw [if_pos hgp, (hev hgp).1]
      cases hins : insertPath g pth s3 p e with
      | ok x =>
        obtain ⟨s4, cur, ce⟩ := x
        simp only [(hev hgp).2]
        cases matchList g prs s4 with
        | ok s5 => simp only [hcget, hcie]
        | throws => rfl
        | ub => rfl
      | throws => rfl
      | ub => rfl
    · rw [if_neg hgp, (hod hgp).1]
      cases hins : insertPath g pth s3 p e with
      | ok x =>
        obtain ⟨s4, cur, ce⟩ := x
        simp only [(hod hgp).2]
        cases matchList g prs s4 with
        | ok s5 => simp only [hcget, hcie]
        | throws => rfl
        | ub => rfl
      | throws => rfl
      | ub => rfl
  have hmain : ∃ s6 A' ach', blossomShatters g s B r1 r2 = .ok s6 ∧ SOk g T (L.erase B) (unwrapCh ch B) t (fun _ => False) s6 A' ach' ∧
      Prog (view g T L ch t s.fl) (view g T (L.erase B) (unwrapCh ch B) t s6.fl) s.alt s6.alt A A' L (L.erase B) ∧
      ∃ pth prs, Rethreaded A A' s s6 cyc ba p e r1 r2 pth prs := by
    by_cases hgp : gap % 2 = 0
    · have hm1 : 2 * ((gap + 1) / 2) = gap := by omega
      have hm2 : 2 * ((cidx + cyc.length - gap - (cidx + 1) + 1) / 2) = cyc.length - gap - 1 := by omega
      obtain ⟨s4, cur, ce, s5, s6, A', ach', e4, e5, e6, h6, h7, h8⟩ := hfin (evenPath cyc hpos ((gap + 1) / 2) pidx)
        (evenPairs cyc hpos ((cidx + cyc.length - gap - (cidx + 1) + 1) / 2) (cidx + 1)) (by
          refine (around_perm hpos pidx).trans ?_
          rw [around_split hpos pidx gap (cyc.length - gap - 1) _ (by omega), pathRegs_even, matchRegs_even, hm1, hm2, hac]
          refine List.Perm.append_left _ ?_
          rw [around_shift hpos (j := cidx + 1)]
          · exact (List.perm_append_singleton _ _).symm
          · rcases hg2 with h5 | h5
            · rw [h5]
            · rw [h5, show cidx + cyc.length + 1 = cidx + 1 + cyc.length by omega, Nat.add_mod_right]) (by
          have := pathOk_even hpos hlkA ((gap + 1) / 2) pidx (s3.alt p).outer e (by rw [hap, hout3]; exact hce1)
          rw [hm1, hac] at this
          exact this) (evenPairs_lk hpos hlkA _ _) (by
          have := along_even hpos ((gap + 1) / 2) pidx
          rw [hm1, hac, hap] at this
          exact this) (evenPairs_adjacent hpos _ _)
      refine ⟨s6, A', ach', ?_, h6, h7, _, _, h8⟩
      rw [hexec _ _ (fun _ => ⟨insertEven_eq hpos _ _ _ _ _, fun s => matchEvens_eq hpos _ _ _⟩) (fun h => absurd hgp h), e4]
      simp only [Res.bind, e5]
      rw [e6]
    · have hm1 : 2 * ((cyc.length - gap + 1) / 2) = cyc.length - gap := by omega
      have hm2 : 2 * ((pidx + gap - (pidx + 1) + 1) / 2) = gap - 1 := by omega
      obtain ⟨s4, cur, ce, s5, s6, A', ach', e4, e5, e6, h6, h7, h8⟩ := hfin (oddPath cyc hpos ((cyc.length - gap + 1) / 2) (pidx + cyc.length - 0))
        (evenPairs cyc hpos ((pidx + gap - (pidx + 1) + 1) / 2) (pidx + 1)) (by
          refine (around_perm hpos (pidx + 1)).trans ?_
          refine List.Perm.trans ?_ (List.Perm.append_right _ (pathRegs_odd hpos _ _ (by omega)).symm)
          rw [around_split hpos (pidx + 1) (gap - 1) (cyc.length - gap) _ (by omega), matchRegs_even, hm1, hm2,
            show pidx + 1 + (gap - 1) = pidx + gap by omega, hac, show pidx + cyc.length - 0 + 1 - (cyc.length - gap) = pidx + gap + 1 by omega]
          refine List.Perm.trans ?_ List.perm_append_comm
          rw [List.append_assoc]
          exact List.Perm.refl _) (by
          have := pathOk_odd hSym hpos hlkA ((cyc.length - gap + 1) / 2) (pidx + cyc.length - 0) (s3.alt p).outer e (by omega)
            (by rw [Nat.sub_zero, around_mod hpos (j := pidx) (by rw [Nat.add_mod_right]), hap, hout3]; exact hce1)
          rw [hm1, show pidx + cyc.length - 0 - (cyc.length - gap) = pidx + gap by omega, hac] at this
          exact this) (evenPairs_lk hpos hlkA _ _) (by
          have := along_odd hpos ((cyc.length - gap + 1) / 2) (pidx + cyc.length - 0) (by omega)
          rw [hm1, show pidx + cyc.length - 0 - (cyc.length - gap) = pidx + gap by omega, hac, Nat.sub_zero,
            around_mod hpos (i := pidx + cyc.length) (j := pidx) (by rw [Nat.add_mod_right]), hap] at this
          exact this) (evenPairs_adjacent hpos _ _)
      refine ⟨s6, A', ach', ?_, h6, h7, _, _, h8⟩
      rw [hexec _ _ (fun h => absurd h hgp) (fun _ => ⟨insertOdd_eq hpos _ _ _ _ _ _, fun s => matchEvens_eq hpos _ _ _⟩), e4]
      simp only [Res.bind, e5]
      rw [e6]
  obtain ⟨s6, A', ach', e6, h6, h7, pth, prs, h8⟩ := hmain
  refine ⟨.shatter B r1 r2, s6, L.erase B, unwrapCh ch B, A', ach', ?_, e6, h6, h7, rfl, ba, p, e, r1, r2, n1, n2, pth, prs, hba, hi, hp, rfl, l1, ?_, l3, ?_, ?_⟩
  rotate_left
  · obtain ⟨a, b, i1, -, -, -, i5, -⟩ := hlr1
    rw [l1] at i1; cases i1; exact i5
  · obtain ⟨a, b, i1, -, -, -, i5, -⟩ := hlr2
    rw [l3] at i1; cases i1; exact i5
  · exact h8
  unfold shattering
  rw [hra]
  simp only [deref, Res.bind]
  rw [hp]
  simp only [l1, l2, l3, l4]

end Verif.SB
