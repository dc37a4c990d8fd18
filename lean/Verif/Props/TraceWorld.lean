import Verif.Props.TraceMade

/-!
# C91 for programs with several objects and one random source
-/

namespace Verif.Props.TraceWorld

open Verif Verif.SB Verif.UG Verif.Obj Verif.Dbl Verif.ObjD Verif.Session Verif.Sim Verif.World
open Verif.Props.Object Verif.Props.Double Verif.Props.Session Verif.Props.Simulate Verif.Props.World
open Verif.Props.Trace (Idle but_symm but_trans stands_but stands_weak allowed_weak after_idle idle_of both_of)
open Verif.Props.Edges (Completes completes_unique)
open Verif.Sch (Res)

variable {R : Source}

/-! ## Specification -/

/-- A command that asks an object a question or looks at it.  Samples are not idle: they take random numbers. -/
def IdleCommand (c : Command) : Prop := ∃ x s, c = .act x (.stmt s) ∧ Idle s

/-- The program of the commands that are marked. -/
def shorter (marked : List (Command × Bool)) : List Command := (marked.filter (·.2)).map (·.1)

/-- The results of the commands that are marked. -/
def keptOf (marked : List (Command × Bool)) (rs : List Result) : List Result := ((marked.zip rs).filter (·.1.2)).map (·.2)

/-! ## Lemmas -/

/-- Two objects that stand for the same thing, and the second was asked less. -/
def Twin (t : Thing) (o1 o2 : ObjectD) : Prop :=
  ∃ (g : UGraph ℚ) (asked' : Prop), (asked' → t.asked) ∧ Stands t.net t.without t.asked g o1 ∧ Stands t.net t.without asked' g o2 ∧ (g.allProbs = true ↔ t.known) ∧ (t.known → Known t.net)

theorem allowedLine_weak {N : Net} {known asked asked' : Prop} (h : asked' → asked) {l : Line} (ha : AllowedLine N known asked l) : AllowedLine N known asked' l := by
  cases l with
  | stmt s => exact allowed_weak h ha
  | sample => exact ha
  | trial => exact ha
  | trials => exact ha

/-- One line on two objects that stand for the same graph. -/
theorem line_same [W : Width] (mergeW : ℚ → ℚ → ℚ) {N : Net} {wo : Bool} {known asked asked' : Prop} {g : UGraph ℚ} {o1 o2 : ObjectD} (h1 : Stands N wo asked g o1) (h2 : Stands N wo asked' g o2)
    (hm : asked' → asked) (hk : g.allProbs = true ↔ known) {l : Line} (ha : AllowedLine N known asked l) (hw : WorksLine N known l) {r1 r2 : Out} {p1 p2 : ObjectD}
    (c1 : Completes (fun f => Sim.exec mergeW f o1 l) (.ok (r1, p1))) (c2 : Completes (fun f => Sim.exec mergeW f o2 l) (.ok (r2, p2))) : r1 = r2 ∧ SameBut p1.graph p2.graph := by
  have hsame : SameBut o1.graph o2.graph := but_trans (but_symm h1.inv.same) h2.inv.same
  -- what is done with a statement
  have stmt : ∀ {s : Stmt} {mk : Reply → Out}, Allowed N asked s → Works N s → Completes (fun f => put mk (Session.exec mergeW f o1 s)) (.ok (r1, p1)) →
      Completes (fun f => put mk (Session.exec mergeW f o2 s)) (.ok (r2, p2)) → r1 = r2 ∧ SameBut p1.graph p2.graph := by
    intro s mk ha hw c1 c2
    obtain ⟨r, q1, q2, g', d1, d2, s1, s2⟩ := both_of mergeW h1 h2 hm ha hw
    have e1 := completes_unique (put_of (mk := mk) d1) c1
    have e2 := completes_unique (put_of (mk := mk) d2) c2
    cases e1
    cases e2
    exact ⟨rfl, but_trans (but_symm s1.inv.same) s2.inv.same⟩
  cases l with
  | stmt s => exact stmt (mk := .reply) ha hw c1 c2
  | sample draw =>
    obtain ⟨f1, c1⟩ := c1
    obtain ⟨f2, c2⟩ := c2
    have k1 := c1 f1 (le_refl _)
    have k2 := c2 f2 (le_refl _)
    simp only [Sim.exec, sample_but h1.inv.same, sample_but h2.inv.same] at k1 k2
    cases hg : g.sample draw with
    | none => rw [hg] at k1; cases k1
    | some x =>
      rw [hg] at k1 k2
      cases x <;> (cases k1; cases k2; exact ⟨rfl, hsame⟩)
  | trial draw corr =>
    simp only [Sim.exec, sample_but h1.inv.same, sample_but h2.inv.same] at c1 c2
    obtain ⟨hwf, hB, hc, rfl, hi, hfl⟩ := id h1
    rcases sample_net hwf hB hc draw (fun h => (ha (hk.1 h)).1.covered) with ⟨-, e⟩ | ⟨e0, s, e, -⟩
    · simp only [e] at c1 c2
      cases completes_unique c1 ⟨0, fun _ _ => rfl⟩
      cases completes_unique c2 ⟨0, fun _ _ => rfl⟩
      exact ⟨rfl, hsame⟩
    · simp only [e] at c1 c2
      exact stmt (s := .decode (.d1 (s.2.map Bool.toNat)) true corr) (ha (hk.1 e0)) (hw (hk.1 e0) _ _) c1 c2
  | trials draws corr =>
    have hn : ∀ {o : ObjectD}, SameBut g o.graph → o.graph.nodes = g.nodes := by
      rintro o ⟨b, e⟩
      rw [e]
    simp only [Sim.exec, samples_but h1.inv.same, samples_but h2.inv.same, hn h1.inv.same, hn h2.inv.same] at c1 c2
    obtain ⟨hwf, hB, hc, rfl, hi, hfl⟩ := id h1
    rcases samples_net hwf hB hc (fun h => (ha (.inl (hk.1 h))).1.covered) draws with ⟨-, -, e⟩ | ⟨e0, l, e, h3⟩
    · simp only [e] at c1 c2
      cases completes_unique c1 ⟨0, fun _ _ => rfl⟩
      cases completes_unique c2 ⟨0, fun _ _ => rfl⟩
      exact ⟨rfl, hsame⟩
    · simp only [e] at c1 c2
      have hkd : known ∨ draws = [] := e0.imp hk.1 id
      have hlen := h3.length_eq
      have hin : ∀ row ∈ l.map (fun s => toRow s.2), ∀ x, ShotFires false row x → x < (netOf g).nodes := by
        intro row hrow x hx
        obtain ⟨s, hs, rfl⟩ := List.mem_map.1 hrow
        obtain ⟨i, hi', rfl⟩ := List.getElem_of_mem hs
        have hsh : ShotFires false (toRow l[i].2) = _ := shot_fires hwf ((List.forall₂_iff_get.1 h3).2 i (by omega) hi')
        rw [hsh] at hx
        by_contra h
        exact far_flips hwf _ (by simpa [netOf] using h) hx
      exact stmt (s := .decodeBatch false false false corr g.nodes.length (l.map fun s => toRow s.2)) ⟨ha hkd, hin⟩ (hw hkd _ _) c1 c2

/-- One line on twins. -/
theorem twin_line [W : Width] (mergeW : ℚ → ℚ → ℚ) {t : Thing} {o1 o2 : ObjectD} (h : Twin t o1 o2) {l : Line} (ha : AllowedLine t.net t.known t.asked l) (hw : WorksLine t.net t.known l) :
    ∃ r o1' o2', Completes (fun f => Sim.exec mergeW f o1 l) (.ok (r, o1')) ∧ Completes (fun f => Sim.exec mergeW f o2 l) (.ok (r, o2')) ∧ Twin (t.after mergeW l) o1' o2' := by
  obtain ⟨g, asked', hm, h1, h2, hk, hK⟩ := h
  obtain ⟨r1, p1, g1, c1, s1, k1, -⟩ := line_core mergeW h1 hk hK ha hw
  obtain ⟨r2, p2, g2, c2, s2, -, -⟩ := line_core mergeW h2 hk hK (allowedLine_weak hm ha) hw
  obtain ⟨rfl, hb⟩ := line_same mergeW h1 h2 hm hk ha hw c1 c2
  have s2' := stands_but (but_trans s2.inv.same (but_trans (but_symm hb) (but_symm s1.inv.same))) s2
  exact ⟨r1, p1, p2, c1, c2, g1, _, (fun h : (_ ∨ asked') ∧ _ => ⟨h.1.imp_right hm, h.2⟩), s1, s2', k1, fun h => And.right h⟩

/-- A question or a look at the first of two twins. -/
theorem twin_idle [W : Width] (mergeW : ℚ → ℚ → ℚ) {t : Thing} {o1 o2 : ObjectD} (h : Twin t o1 o2) {s : Stmt} (hi : Idle s) (ha : Allowed t.net t.asked s) (hw : Works t.net s) :
    ∃ r o1', Completes (fun f => Sim.exec mergeW f o1 (.stmt s)) (.ok (r, o1')) ∧ Twin (t.after mergeW (.stmt s)) o1' o2 := by
  obtain ⟨g, asked', hm, h1, h2, hk, hK⟩ := h
  obtain ⟨r, p1, c1, s1⟩ := idle_of mergeW h1 ha hi hw
  have e : afterLine mergeW t.net (.stmt s) = t.net := after_idle mergeW t.net hi
  refine ⟨.reply r, p1, put_of c1, g, asked', fun h => ⟨.inr (hm h), by rw [e], by rw [e]⟩, ?_, ?_, ?_, fun h => And.right h⟩
  · show Stands (afterLine mergeW t.net (.stmt s)) _ ((AsksLine t.known (.stmt s) ∨ t.asked) ∧ (afterLine mergeW t.net (.stmt s)).links = t.net.links ∧ (afterLine mergeW t.net (.stmt s)).boundary = t.net.boundary) _ _
    rw [e]
    exact stands_weak s1 fun h => ⟨h, rfl, rfl⟩
  · show Stands (afterLine mergeW t.net (.stmt s)) _ _ _ _
    rw [e]
    exact h2
  · show _ ↔ t.known ∧ Known (afterLine mergeW t.net (.stmt s))
    rw [e]
    exact hk.trans ⟨fun h => ⟨h, hK h⟩, fun h => h.1⟩

/-- Names in two worlds. -/
def TwinAt : Option Thing → Option ObjectD → Option ObjectD → Prop
  | none, o1, o2 => o1 = none ∧ o2 = none
  | some t, o1, o2 => ∃ p1 p2, o1 = some p1 ∧ o2 = some p2 ∧ Twin t p1 p2

/-- Two worlds for the same room. -/
structure Twins (room : Room R) (w1 w2 : World R) : Prop where
  state1 : w1.state = room.state
  state2 : w2.state = room.state
  things : ∀ x, TwinAt (room.things x) (w1.objs x) (w2.objs x)

theorem twinAt_update {room : Nat → Option Thing} {objs1 objs2 : Nat → Option ObjectD} (h : ∀ x, TwinAt (room x) (objs1 x) (objs2 x)) (x : Nat) {t : Thing} {o1 o2 : ObjectD} (ht : Twin t o1 o2) (y : Nat) :
    TwinAt (Function.update room x (some t) y) (Function.update objs1 x (some o1) y) (Function.update objs2 x (some o2) y) := by
  by_cases e : y = x
  · subst e
    simp only [Function.update_self]
    exact ⟨o1, o2, rfl, rfl, ht⟩
  · rw [Function.update_of_ne e, Function.update_of_ne e, Function.update_of_ne e]
    exact h y

/-- The state of the source after a line, and what the command gives. -/
theorem act_of [W : Width] (A : Arithmetic) {room room' : Room R} {w : World R} (hst : w.state = room.state) {x : Nat} {a : Act} {t : Thing} {o o' : ObjectD} {out : Out} (ho : w.objs x = some o)
    {g : UGraph ℚ} {asked : Prop} (hs : Stands t.net t.without asked g o) (hk : g.allProbs = true ↔ t.known) (n2 : t.known → room'.state = later R room.state (used t.net.links.length a))
    (n3 : ¬ t.known → room'.state = room.state) (c : Completes (fun f => Sim.exec A.mergeW f o (room.line t a)) (.ok (out, o'))) :
    Completes (fun f => World.exec A f w (.act x a)) (.ok (.out out, ⟨Function.update w.objs x (some o'), room'.state⟩)) := by
  obtain ⟨f0, c0⟩ := c
  have hb : SameBut g o.graph := hs.inv.same
  have hE : o.graph.edges.length = t.net.links.length := by
    obtain ⟨b, hb⟩ := hb
    rw [hb, ← hs.net]
    simp [netOf]
  have hP : o.graph.allProbs = g.allProbs := by
    obtain ⟨b, hb⟩ := hb
    rw [hb]
  refine ⟨f0, fun f hf => ?_⟩
  have e1 := c0 f hf
  simp only at e1
  have e2 : (if o.graph.allProbs then later R w.state (used o.graph.edges.length a) else w.state) = room'.state := by
    rw [hP, hE, hst]
    by_cases hkn : t.known
    · rw [if_pos (hk.2 hkn), n2 hkn]
    · rw [if_neg fun h => hkn (hk.1 h), n3 hkn]
  simp only [World.exec, ho, act_eq, e2]
  unfold Room.line at e1
  rw [hE, hst, e1]
  rfl

/-- One command in both worlds. -/
theorem command_both [W : Width] (A : Arithmetic) {room room' : Room R} {w1 w2 : World R} (hs : Twins room w1 w2) {c : Command} (ha : AllowedCommand room c) (hw : WorksCommand room c)
    (hn : Next A room c room') : ∃ r w1' w2', Completes (fun f => World.exec A f w1 c) (.ok (r, w1')) ∧ Completes (fun f => World.exec A f w2 c) (.ok (r, w2')) ∧ Twins room' w1' w2' := by
  cases c with
  | make x c =>
    obtain ⟨t, h1, rfl⟩ := hn
    have h2 := made_is h1
    cases t with
    | none =>
      have h3 : construct A c = .raise := h2
      exact ⟨.raised, w1, w2, ⟨0, fun f _ => by simp only [World.exec, h3]⟩, ⟨0, fun f _ => by simp only [World.exec, h3]⟩, hs⟩
    | some t =>
      obtain ⟨o, h3, g, k1, k2, k3⟩ := h2
      exact ⟨.done, { w1 with objs := Function.update w1.objs x (some o) }, { w2 with objs := Function.update w2.objs x (some o) }, ⟨0, fun f _ => by simp only [World.exec, h3]⟩,
        ⟨0, fun f _ => by simp only [World.exec, h3]⟩, hs.state1, hs.state2, twinAt_update hs.things x ⟨g, t.asked, id, k1, k1, k2, k3⟩⟩
  | act x a =>
    have hx := hs.things x
    simp only [Next] at hn
    cases ht : room.things x with
    | none =>
      rw [ht] at hx hn
      simp only at hn
      subst hn
      exact ⟨.raised, w1, w2, ⟨0, fun f _ => by simp only [World.exec, hx.1]⟩, ⟨0, fun f _ => by simp only [World.exec, hx.2]⟩, hs⟩
    | some t =>
      rw [ht] at hx hn
      obtain ⟨o1, o2, ho1, ho2, htw⟩ := hx
      obtain ⟨n1, n2, n3⟩ := hn
      obtain ⟨out, p1, p2, c1, c2, htw'⟩ := twin_line A.mergeW htw (ha t ht) (hw t ht)
      obtain ⟨g, asked', hm, k1, k2, hk, hK⟩ := htw
      refine ⟨.out out, _, _, act_of A hs.state1 ho1 k1 hk n2 n3 c1, act_of A hs.state2 ho2 k2 hk n2 n3 c2, rfl, rfl, fun y => ?_⟩
      rw [n1]
      exact twinAt_update hs.things x htw' y
  | setSeed n =>
    obtain ⟨h1, h2⟩ := hn
    by_cases hn : 0 ≤ n ∧ n < 2 ^ 32
    · rw [if_pos hn] at h2
      exact ⟨.done, { w1 with state := R.seed (BitVec.ofInt 32 n) }, { w2 with state := R.seed (BitVec.ofInt 32 n) }, ⟨0, fun f _ => by simp only [World.exec, if_pos hn]⟩,
        ⟨0, fun f _ => by simp only [World.exec, if_pos hn]⟩, h2.symm, h2.symm, fun x => by rw [h1]; exact hs.things x⟩
    · rw [if_neg hn] at h2
      exact ⟨.raised, w1, w2, ⟨0, fun f _ => by simp only [World.exec, if_neg hn]⟩, ⟨0, fun f _ => by simp only [World.exec, if_neg hn]⟩, hs.state1.trans h2.symm, hs.state2.trans h2.symm,
        fun x => by rw [h1]; exact hs.things x⟩
  | randomize e =>
    obtain ⟨h1, h2⟩ := hn
    exact ⟨.done, { w1 with state := R.seed e }, { w2 with state := R.seed e }, ⟨0, fun f _ => rfl⟩, ⟨0, fun f _ => rfl⟩, h2.symm, h2.symm, fun x => by rw [h1]; exact hs.things x⟩
  | randFloat a b =>
    obtain ⟨h1, h2⟩ := hn
    refine ⟨.number (R.between room.state a b).1, { w1 with state := (R.between w1.state a b).2 }, { w2 with state := (R.between w2.state a b).2 }, ⟨0, fun f _ => ?_⟩, ⟨0, fun f _ => ?_⟩, ?_, ?_,
      fun x => by rw [h1]; exact hs.things x⟩
    · rw [← hs.state1]; rfl
    · rw [← hs.state2]; rfl
    · rw [h2, ← hs.state1]
    · rw [h2, ← hs.state2]

/-- An idle command in the first world only. -/
theorem command_idle [W : Width] (A : Arithmetic) {room room' : Room R} {w1 w2 : World R} (hs : Twins room w1 w2) {c : Command} (hi : IdleCommand c) (ha : AllowedCommand room c)
    (hw : WorksCommand room c) (hn : Next A room c room') : ∃ r w1', Completes (fun f => World.exec A f w1 c) (.ok (r, w1')) ∧ Twins room' w1' w2 := by
  obtain ⟨x, s, rfl, hi⟩ := hi
  have hx := hs.things x
  simp only [Next] at hn
  cases ht : room.things x with
  | none =>
    rw [ht] at hx hn
    simp only at hn
    subst hn
    exact ⟨.raised, w1, ⟨0, fun f _ => by simp only [World.exec, hx.1]⟩, hs⟩
  | some t =>
    rw [ht] at hx hn
    obtain ⟨o1, o2, ho1, ho2, htw⟩ := hx
    obtain ⟨n1, n2, n3⟩ := hn
    obtain ⟨out, p1, c1, htw'⟩ := twin_idle A.mergeW htw hi (ha t ht) (hw t ht)
    obtain ⟨g, asked', hm, k1, k2, hk, hK⟩ := htw
    have hst : room'.state = room.state := by
      by_cases h : t.known
      · exact n2 h
      · exact n3 h
    refine ⟨.out out, _, act_of A (a := .stmt s) hs.state1 ho1 k1 hk n2 n3 c1, rfl, hs.state2.trans hst.symm, fun y => ?_⟩
    rw [n1]
    have := twinAt_update hs.things x htw' y
    rwa [Function.update_eq_self_iff (f := w2.objs) |>.2 ho2.symm] at this

theorem completes_cons [W : Width] {A : Arithmetic} {w w' w'' : World R} {c : Command} {prog : List Command} {r : Result} {rs : List Result}
    (h1 : Completes (fun f => World.exec A f w c) (.ok (r, w'))) (h2 : Completes (fun f => World.run A f w' prog) (.ok (rs, w''))) :
    Completes (fun f => World.run A f w (c :: prog)) (.ok (r :: rs, w'')) := by
  obtain ⟨f1, c1⟩ := h1
  obtain ⟨f2, c2⟩ := h2
  refine ⟨max f1 f2, fun f hf => ?_⟩
  have e1 := c1 f (le_trans (le_max_left _ _) hf)
  have e2 := c2 f (le_trans (le_max_right _ _) hf)
  simp only at e1 e2
  simp only [World.run, e1, e2, Res.bind]

theorem world_core [W : Width] (A : Arithmetic) : ∀ (marked : List (Command × Bool)) (room : Room R) (w1 w2 : World R) (scenes : List (Room R × Command)), Twins room w1 w2 →
    Story A room (marked.map (·.1)) scenes → (∀ m ∈ scenes, WorksCommand m.1 m.2) → (∀ m ∈ marked, m.2 = false → IdleCommand m.1) →
    ∃ rs p1 p2, Completes (fun f => World.run A f w1 (marked.map (·.1))) (.ok (rs, p1)) ∧ Completes (fun f => World.run A f w2 (shorter marked)) (.ok (keptOf marked rs, p2)) ∧
      rs.length = marked.length ∧ p1.state = p2.state := by
  intro marked
  induction marked with
  | nil =>
    rintro room w1 w2 scenes hs - - -
    exact ⟨[], w1, w2, ⟨0, fun f _ => rfl⟩, ⟨0, fun f _ => rfl⟩, rfl, hs.state1.trans hs.state2.symm⟩
  | cons m marked ih =>
    obtain ⟨c, b⟩ := m
    rintro room w1 w2 scenes hs ⟨ha, room', rest, rfl, hn, hst⟩ hw hd
    have hw1 := hw _ (List.mem_cons_self ..)
    have hws := fun m hm => hw m (List.mem_cons_of_mem _ hm)
    have hds := fun m hm => hd m (List.mem_cons_of_mem _ hm)
    cases b with
    | true =>
      obtain ⟨r, q1, q2, c1, c2, hs'⟩ := command_both A hs ha hw1 hn
      obtain ⟨rs, p1, p2, d1, d2, hl, he⟩ := ih room' q1 q2 rest hs' hst hws hds
      refine ⟨r :: rs, p1, p2, completes_cons c1 d1, ?_, by simp [hl], he⟩
      simpa [shorter, keptOf] using completes_cons c2 d2
    | false =>
      obtain ⟨r, q1, c1, hs'⟩ := command_idle A hs (hd (c, false) (List.mem_cons_self ..) rfl) ha hw1 hn
      obtain ⟨rs, p1, p2, d1, d2, hl, he⟩ := ih room' q1 w2 rest hs' hst hws hds
      refine ⟨r :: rs, p1, p2, completes_cons c1 d1, ?_, by simp [hl], he⟩
      simpa [shorter, keptOf] using d2

theorem twins_empty (st : R.State) : Twins (Room.empty st) (World.empty st) (World.empty st) := ⟨rfl, rfl, fun _ => ⟨rfl, rfl⟩⟩

/-! ## Theorems -/

/-- C91 for programs with any number of objects and one random source: questions and inspections can be left out.  The other commands give the same results, samples included, and the generator
is in the same state afterwards. -/
theorem C91_world (A : Arithmetic) (st : R.State) (marked : List (Command × Bool)) (hd : ∀ m ∈ marked, m.2 = false → IdleCommand m.1) (scenes : List (Room R × Command))
    (hs : Story A (Room.empty st) (marked.map (·.1)) scenes) :
    ∃ rs w w', Completes (fun f => World.run A f (World.empty st) (marked.map (·.1))) (.ok (rs, w)) ∧
      Completes (fun f => World.run A f (World.empty st) (shorter marked)) (.ok (keptOf marked rs, w')) ∧ rs.length = marked.length ∧ w.state = w'.state :=
  world_core (W := unbounded) A marked _ _ _ scenes (twins_empty st) hs (fun m _ => by
    unfold WorksCommand
    split
    · exact fun t _ => worksLine_of _ _ _
    · trivial) hd

/-- The same for the library as compiled, with its 32-bit wrapped radius. -/
theorem C91_world_int32 (A : Arithmetic) (st : R.State) (marked : List (Command × Bool)) (hd : ∀ m ∈ marked, m.2 = false → IdleCommand m.1) (scenes : List (Room R × Command))
    (hs : Story A (Room.empty st) (marked.map (·.1)) scenes)
    (hn : ∀ m ∈ scenes, ∀ x a t, m.2 = .act x a → m.1.things x = some t → AsksLine t.known (m.1.line t a) → t.net.Small) :
    ∃ rs w w', Completes (fun f => World.run (W := int32) A f (World.empty st) (marked.map (·.1))) (.ok (rs, w)) ∧
      Completes (fun f => World.run (W := int32) A f (World.empty st) (shorter marked)) (.ok (keptOf marked rs, w')) ∧ rs.length = marked.length ∧ w.state = w'.state :=
  world_core (W := int32) A marked _ _ _ scenes (twins_empty st) hs (fun m hm => by
    have := hn m hm
    unfold WorksCommand
    split
    · rename_i x a e
      exact fun t ht => worksLine_small (this x a t e ht)
    · trivial) hd

/-! ## Example -/

/-- Two objects; the questions between the samples are left out. -/
def twoMarked : List (Command × Bool) := [
  (.make 0 (.matrix repCall), true),
  (.make 1 (.model Arithmetic.sampleD), true),
  (.act 0 (.stmt (.decode (.d1 [1, 0]) true false)), false),
  (.act 0 .sample, true),
  (.act 1 (.stmt (.look .numEdges)), false),
  (.act 0 (.stmt (.matchedDict (.d1 [1, 1]))), false),
  (.act 1 (.trial false), true),
  (.act 0 (.trials 2 true), true)]

theorem two_idle : ∀ m ∈ twoMarked, m.2 = false → IdleCommand m.1 := by
  intro m hm hf
  simp only [twoMarked, List.mem_cons, List.not_mem_nil, or_false] at hm
  rcases hm with rfl | rfl | rfl | rfl | rfl | rfl | rfl | rfl
  exacts [(by cases hf), (by cases hf), ⟨_, _, rfl, .inl trivial⟩, (by cases hf), ⟨_, _, rfl, .inr ⟨_, rfl⟩⟩, ⟨_, _, rfl, .inl trivial⟩, (by cases hf), (by cases hf)]

theorem two_good (st : R.State) : Good plain (Room.empty st) (twoMarked.map (·.1)) := by
  refine good_make rep_made (by decide) ?_
  refine good_make demo_made (by decide) ?_
  refine good_act (N' := repNet) (t := ⟨repNet, false, True, False⟩) (by simp) trivial (rep_ready false) rfl (by decide +kernel) (by decide) fun _ _ => ?_
  refine good_act (N' := repNet) (by simp; rfl) trivial (fun _ => (rep_ready false).1.covered) rfl (by decide +kernel) (by decide) fun q _ => ?_
  refine good_act (N' := demoNet) (by simp; rfl) trivial trivial rfl (by decide +kernel) (by decide) fun _ _ => ?_
  refine good_act (N' := repNet) (t := ⟨repNet, false, True, q⟩) (by simp) trivial (rep_ready false).1 rfl (by decide +kernel) (by decide) fun _ _ => ?_
  refine good_act (N' := demoNet) (by simp; rfl) trivial (fun _ => demo_ready false) rfl (by decide +kernel) (by decide) fun _ _ => ?_
  exact good_act (N' := repNet) (by simp; rfl) trivial (fun _ => rep_ready true) rfl (by decide +kernel) (by decide) fun _ _ _ => ⟨[], rfl, fun m hm => by cases hm⟩

example (st : R.State) : ∃ scenes, Story plain (Room.empty st) (twoMarked.map (·.1)) scenes ∧
    (∃ rs w w', Completes (fun f => World.run plain f (World.empty st) (twoMarked.map (·.1))) (.ok (rs, w)) ∧
      Completes (fun f => World.run plain f (World.empty st) (shorter twoMarked)) (.ok (keptOf twoMarked rs, w')) ∧ rs.length = twoMarked.length ∧ w.state = w'.state) ∧
    ∃ rs w w', Completes (fun f => World.run (W := int32) plain f (World.empty st) (twoMarked.map (·.1))) (.ok (rs, w)) ∧
      Completes (fun f => World.run (W := int32) plain f (World.empty st) (shorter twoMarked)) (.ok (keptOf twoMarked rs, w')) ∧ rs.length = twoMarked.length ∧ w.state = w'.state := by
  obtain ⟨scenes, h1, h2⟩ := two_good st fun x t h => by cases h
  exact ⟨scenes, h1, C91_world plain st twoMarked two_idle scenes h1, C91_world_int32 plain st twoMarked two_idle scenes h1 fun m hm x a t _ ht _ => .inl (h2 m hm x t ht)⟩

end Verif.Props.TraceWorld
