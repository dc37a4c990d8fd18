import Verif.Simulate
import Verif.Props.DemRules
import Verif.Props.RoundTrip

/-!
# C85: simulation in double precision

What a user relies on when simulating a code: sample errors, decode their syndromes, compare; at any point of a program.
-/

namespace Verif.Props.Simulate

open Verif Verif.SB Verif.UG Verif.Obj Verif.Dbl Verif.ConvD Verif.ObjD Verif.Session Verif.Sim
open Verif.Props.Session
open Verif.Props.UserGraph (add_cases mergeEdge_cases)
open Verif.Props.DoubleHistory (InvD)
open Verif.Props.Object (SameBut)
open Verif.Props.EndToEnd (Choice)
open Verif.Props.Edges (Completes)
open Verif.Sch (Res)

/-! ## Specification -/

/-- All links have a probability. -/
def Known (N : Net) : Prop := ∀ l ∈ N.links, IsProb l.prob

/-- The flipped links: those whose random number is below their probability. -/
def flipped (N : Net) (draw : Nat → ℚ) : N.Links := Finset.univ.filter fun i => draw i < N.links[i].prob

/-- The detectors that the flipped links flip. -/
def Flips (N : Net) (draw : Nat → ℚ) (x : Nat) : Prop := x ∉ N.boundary ∧ degreeAt (flipped N draw) x % 2 = 1

instance (N : Net) (draw : Nat → ℚ) (x : Nat) : Decidable (Flips N draw x) := by unfold Flips; infer_instance

/-- The sample tells for each fault id whether an odd number of the flipped links has it, and for each node whether they flip it. -/
structure Sampled (N : Net) (draw : Nat → ℚ) (s : Sample) : Prop where
  ids : s.1.length = N.ids
  noise : ∀ k, k < N.ids → s.1[k]? = some (decide (count (flipped N draw) k % 2 = 1))
  nodes : s.2.length = N.nodes
  syndrome : ∀ x, x < N.nodes → s.2[x]? = some (decide (Flips N draw x))

section
variable {N : Net}

/-- The links flip no detector. -/
def Unseen (D : N.Links) : Prop := ∀ x, x ∉ N.boundary → degreeAt D x % 2 = 0

/-- The links flip some fault id. -/
def Harmful (D : N.Links) : Prop := ∃ k, k < N.ids ∧ count D k % 2 = 1

/-- Noise and prediction differ in the fault ids of the links. -/
def Differ (noise : List Bool) (row : List (BitVec 8)) (D : N.Links) : Prop :=
  ∀ k, k < N.ids → ∃ b c : Bool, noise[k]? = some b ∧ row[k]? = some (if c then 1#8 else 0#8) ∧ (b ≠ c ↔ count D k % 2 = 1)

/-- The prediction for a sample: it tells the fault ids of nearly cheapest links, which cost at most what the flipped links cost, up to rounding.  What is left of the noise is
the effect of links that flip no detector. -/
def Predicted (draw : Nat → ℚ) (noise : List Bool) (u : ℚ) (weights : Fin N.links.length → ℚ) (row : List (BitVec 8)) (C : N.Links) : Prop :=
  CheapFor u weights (Flips N draw) C ∧ Tells C row ∧
    ∑ i ∈ C, weights i ≤ ∑ i ∈ flipped N draw, weights i + (C.card + (flipped N draw).card : ℕ) * (1 / 2 + 1 / 2 ^ 27) * u ∧
    (Whole N → ∑ i ∈ C, weights i ≤ ∑ i ∈ flipped N draw, weights i) ∧
    Unseen (symmDiff C (flipped N draw)) ∧ Differ noise row (symmDiff C (flipped N draw))

end

/-- What a line gives is right.  `known`: up to this moment, all links always had a probability. -/
def RightLine (mergeW : ℚ → ℚ → ℚ) (without : Bool) (N : Net) (known : Prop) : Line → Out → Prop
  | .stmt s, out => ∃ r, out = .reply r ∧ Right mergeW without N s r
  | .sample draw, out => (known ∧ ∃ s, Sampled N draw s ∧ out = .sample s) ∨ (¬ known ∧ out = .noSample)
  | .trial draw corr, out =>
    (known ∧ ∃ (s : Sample) (r : Reply), Sampled N draw s ∧ out = .trial s r ∧
      if corr = true ∧ without = true then r = .raised
      else ∃ u, StepOf N u ∧ ∃ (ρ : Fin N.links.length → ℚ) (C : N.Links) (row : List (BitVec 8)) (x : Double), Weighed u (Flips N draw) corr ρ ∧ Predicted draw s.1 u ρ row C ∧ CostsFor u ρ C x ∧ r = .pair row x) ∨
    (¬ known ∧ out = .noSample)
  | .trials draws corr, out =>
    ((known ∨ draws = []) ∧ ∃ (l : List Sample) (r : Reply), List.Forall₂ (Sampled N) draws l ∧ out = .trials l r ∧
      ((corr = true ∧ without = true ∧ r = .raised) ∨
      ((corr = true ∧ without = true → draws = []) ∧ ∃ u, StepOf N u ∧ ∃ rows : List (List (BitVec 8)), rows.length = draws.length ∧ r = .rows rows ∧
        ∀ (i : Nat) (draw : Nat → ℚ) (s : Sample) (row : List (BitVec 8)), draws[i]? = some draw → l[i]? = some s → rows[i]? = some row →
          ∃ (ρ : Fin N.links.length → ℚ) (C : N.Links), Weighed u (Flips N draw) corr ρ ∧ Predicted draw s.1 u ρ row C))) ∨
    (¬ known ∧ draws ≠ [] ∧ out = .noSample)

/-- The network after a line. -/
def afterLine (mergeW : ℚ → ℚ → ℚ) (N : Net) : Line → Net
  | .stmt s => (N.after mergeW s).1
  | _ => N

/-- The line asks a question. -/
def AsksLine (known : Prop) : Line → Prop
  | .stmt s => Asks s
  | .sample _ => False
  | .trial _ _ => known
  | .trials draws _ => known ∨ draws = []

/-- The condition on a line.  For samples the fault ids of links must be covered (see C18); what is decoded must be ready (see C69). -/
def AllowedLine (N : Net) (known asked : Prop) : Line → Prop
  | .stmt s => Allowed N asked s
  | .sample _ => known → ∀ l ∈ N.links, ∀ k ∈ l.faults, k < N.ids
  | .trial _ corr => known → N.Ready corr
  | .trials draws corr => known ∨ draws = [] → N.Ready corr

/-- The condition on a program, from a network on.  `known`: up to this moment, all links always had a probability; `asked`: a question was asked, and links and boundary were not
changed since. -/
def Proper (mergeW : ℚ → ℚ → ℚ) : Net → Prop → Prop → List Line → Prop
  | _, _, _, [] => True
  | N, known, asked, l :: prog => AllowedLine N known asked l ∧
    Proper mergeW (afterLine mergeW N l) (known ∧ Known (afterLine mergeW N l))
      ((AsksLine known l ∨ asked) ∧ (afterLine mergeW N l).links = N.links ∧ (afterLine mergeW N l).boundary = N.boundary) prog

/-- The lines, each with the network at that moment, and whether all links always had a probability. -/
def scenes (mergeW : ℚ → ℚ → ℚ) : Net → Prop → List Line → List (Net × Prop × Line)
  | _, _, [] => []
  | N, known, l :: prog => (N, known, l) :: scenes mergeW (afterLine mergeW N l) (known ∧ Known (afterLine mergeW N l)) prog

/-! ## Lemmas: the flag -/

theorem known_iff (g : UGraph ℚ) : Known (netOf g) ↔ ∀ e ∈ g.edges, IsProb e.prob := by
  constructor
  · intro h e he
    exact h (toLink e) (List.mem_map_of_mem he)
  · intro h l hl
    obtain ⟨e, he, rfl⟩ := List.mem_map.1 hl
    exact h e he

theorem bad_iff (p : ℚ) : (p < 0 ∨ p > 1) ↔ ¬ IsProb p := by
  unfold IsProb
  rw [not_and_or, not_le, not_le]

/-- The flag after a call: what it was, and whether all edges have a probability. -/
theorem flag_step (mergeW : ℚ → ℚ → ℚ) {g : UGraph ℚ} (hw : WF g) (hk : g.allProbs = true → ∀ e ∈ g.edges, IsProb e.prob) (c : UserGraph.Call ℚ) :
    (UserGraph.exec mergeW g c).1.allProbs = true ↔ g.allProbs = true ∧ ∀ e ∈ (UserGraph.exec mergeW g c).1.edges, IsProb e.prob := by
  cases c with
  | setBoundary b => exact ⟨fun h => ⟨h, hk h⟩, fun h => h.1⟩
  | setMinNumObs k => exact ⟨fun h => ⟨h, hk h⟩, fun h => h.1⟩
  | add u t obs w p s =>
    rcases add_cases mergeW hw u t obs w p s with ⟨g', h1, -, h3, -, -, h6⟩ | ⟨ei, hei, hke, h2⟩
    · rw [h1]
      simp only
      rw [h3, h6]
      split
      · rename_i hp
        refine ⟨fun h => (by cases h), fun h => absurd (h.2 _ (List.mem_append_right _ (List.mem_singleton_self _))) ((bad_iff p).1 hp)⟩
      · rename_i hp
        refine ⟨fun h => ⟨h, fun e he => ?_⟩, fun h => h.1⟩
        rcases List.mem_append.1 he with he | he
        · exact hk h e he
        · rw [List.mem_singleton] at he
          subst he
          exact not_not.1 fun h => hp ((bad_iff p).2 h)
    · rw [h2]
      rcases mergeEdge_cases mergeW hw ei hei obs w p s with ⟨-, h3⟩ | ⟨-, g', e', h3, -, h5, -, -, -, b, h9, h10⟩
      · rw [h3]
        exact ⟨fun h => ⟨h, hk h⟩, fun h => h.1⟩
      · rw [h3]
        simp only
        rw [h5, h10]
        have hset : e' ∈ g.edges.set ei e' := List.mem_set hei e'
        split
        · rename_i hp
          exact ⟨fun h => (by cases h), fun h => absurd (h.2 _ hset) ((bad_iff _).1 hp.2)⟩
        · rename_i hp
          refine ⟨fun h => ⟨h, fun e he => ?_⟩, fun h => h.1⟩
          rcases List.mem_or_eq_of_mem_set he with he | rfl
          · exact hk h e he
          · cases b with
            | true => exact not_not.1 fun h => hp ⟨rfl, (bad_iff _).2 h⟩
            | false =>
              have : e = g.edges[ei] := by
                cases s <;> simp [mergeData] at h9
                · split at h9 <;> simp at h9; exact h9.symm
                · exact h9.symm
              rw [this]
              exact hk h _ (List.getElem_mem hei)

/-! ## Lemmas: samples -/

theorem up_sampled (g : UGraph ℚ) (draw : Nat → ℚ) : Session.up (RoundTrip.sampled g draw) = flipped (netOf g) draw := by
  ext j
  obtain ⟨i, rfl⟩ := (same g).surjective j
  simp only [Session.up, RoundTrip.sampled, flipped, Finset.mem_map_equiv, Equiv.symm_apply_apply, Finset.mem_filter, Finset.mem_univ, true_and, link_at]
  rfl

theorem sample_net {g : UGraph ℚ} (hw : WF g) (hb : Convert.BndOk g) (hc : Clean g) (draw : Nat → ℚ) (hcov : g.allProbs = true → ∀ l ∈ (netOf g).links, ∀ k ∈ l.faults, k < (netOf g).ids) :
    (g.allProbs = false ∧ g.sample draw = some none) ∨ (g.allProbs = true ∧ ∃ s, g.sample draw = some (some s) ∧ Sampled (netOf g) draw s) := by
  cases hp : g.allProbs with
  | false => left; exact ⟨rfl, by unfold UGraph.sample; rw [hp]; rfl⟩
  | true =>
    rcases Noise.sample_spec hw hb draw (fun e he o ho => hcov hp (toLink e) (List.mem_map_of_mem he) o (List.mem_toFinset.2 ho)) with ⟨h, -⟩ | ⟨-, err, syn, h1, h2, h3, h4, h5⟩
    · rw [hp] at h; cases h
    · refine .inr ⟨rfl, (err, syn), h1, h2, fun k hk => ?_, h3, fun x hx => ?_⟩
      · show err[k]? = _
        rw [h4 k hk, RoundTrip.chosen_sum, ← up_sampled, up_count hc]
        exact congrArg some (decide_eq_decide.2 Nat.odd_iff)
      · show syn[x]? = _
        rw [h5 x hx, RoundTrip.chosen_sum]
        have hf : Flips (netOf g) draw x ↔ x ∉ g.boundary ∧ EndToEnd.degree (RoundTrip.sampled g draw) x % 2 = 1 := by
          unfold Flips
          rw [← up_sampled, up_degree]
          rfl
        split
        · rename_i h
          simp [hf, h]
        · rename_i h
          rw [Option.some.injEq, decide_eq_decide, hf, Nat.odd_iff]
          exact ⟨fun h' => ⟨h, h'⟩, fun h' => h'.2⟩

theorem samples_net {g : UGraph ℚ} (hw : WF g) (hb : Convert.BndOk g) (hc : Clean g) (hcov : g.allProbs = true → ∀ l ∈ (netOf g).links, ∀ k ∈ l.faults, k < (netOf g).ids) :
    ∀ draws, (g.allProbs = false ∧ draws ≠ [] ∧ samples g draws = some none) ∨
      ((g.allProbs = true ∨ draws = []) ∧ ∃ l, samples g draws = some (some l) ∧ List.Forall₂ (Sampled (netOf g)) draws l) := by
  intro draws
  induction draws with
  | nil => exact .inr ⟨.inr rfl, [], rfl, .nil⟩
  | cons draw draws ih =>
    rcases sample_net hw hb hc draw hcov with ⟨h1, h2⟩ | ⟨h1, s, h2, h3⟩
    · exact .inl ⟨h1, by simp, by simp only [samples, h2]⟩
    · rcases ih with ⟨h4, -⟩ | ⟨-, l, h4, h5⟩
      · rw [h1] at h4; cases h4
      · refine .inr ⟨.inl h1, s :: l, ?_, .cons h3 h5⟩
        simp only [samples, h2, h4, Option.map_some]

theorem sample_but {g g' : UGraph ℚ} (h : SameBut g g') (draw : Nat → ℚ) : g'.sample draw = g.sample draw := by
  obtain ⟨b, rfl⟩ := h
  rfl

theorem samples_but {g g' : UGraph ℚ} (h : SameBut g g') (draws : List (Nat → ℚ)) : samples g' draws = samples g draws := by
  induction draws with
  | nil => rfl
  | cons draw draws ih => simp only [samples, sample_but h, ih]

/-- The links of a graph end at its nodes. -/
theorem far_degree {g : UGraph ℚ} (hw : WF g) (C : Choice g) {x : Nat} (hx : g.nodes.length ≤ x) : EndToEnd.degree C x = 0 := by
  refine Finset.sum_eq_zero fun j _ => ?_
  have := UserGraph.key_in_range hw j.val j.isLt g.edges[j].node1 g.edges[j].node2 rfl
  unfold EndToEnd.endsAt
  cases hn2 : g.edges[j].node2 with
  | none =>
    rw [hn2] at this
    simp only [UserGraph.top] at this
    rw [if_neg (by omega), if_neg (by simp), Nat.add_zero]
  | some v =>
    rw [hn2] at this
    simp only [UserGraph.top] at this
    rw [if_neg (by omega), if_neg (by rw [Option.some.injEq]; omega), Nat.add_zero]

theorem far_flips {g : UGraph ℚ} (hw : WF g) (draw : Nat → ℚ) {x : Nat} (hx : g.nodes.length ≤ x) : ¬ Flips (netOf g) draw x := by
  intro h
  have := h.2
  rw [← up_sampled, up_degree, far_degree hw _ hx] at this
  cases this

section
variable {g : UGraph ℚ} (hw : WF g) {draw : Nat → ℚ} {s : Sample} (hs : Sampled (netOf g) draw s)
include hw hs

theorem syndrome_iff (x : Nat) : s.2[x]? = some true ↔ Flips (netOf g) draw x := by
  by_cases hx : x < g.nodes.length
  · rw [hs.syndrome x hx]
    simp
  · rw [List.getElem?_eq_none (by have := hs.nodes; simp only [netOf] at this; omega)]
    simpa using far_flips hw draw (by omega)

theorem fires_of : Fires (.d1 (s.2.map Bool.toNat)) = Flips (netOf g) draw := by
  funext x
  rw [← syndrome_iff hw hs x]
  simp only [Fires, List.getElem?_map]
  refine propext ?_
  cases s.2[x]? with
  | none => simp
  | some b => cases b <;> simp

theorem shot_fires : ShotFires false (toRow s.2) = Flips (netOf g) draw := by
  funext x
  rw [← syndrome_iff hw hs x]
  simp only [ShotFires, Bool.false_eq_true, if_false, toRow, List.getElem?_map]
  refine propext ?_
  cases s.2[x]? with
  | none => simp
  | some b => cases b <;> simp

end

theorem explained_self (N : Net) (draw : Nat → ℚ) : Explained (flipped N draw) (Flips N draw) := fun _ hx => ⟨fun h => h.2, fun h => ⟨hx, h⟩⟩

section
variable {N : Net}

theorem degree_apart (C S : N.Links) (x : Nat) : degreeAt (symmDiff C S) x % 2 = (degreeAt C x + degreeAt S x) % 2 := by
  have := RoundTrip.sum_symmDiff (fun i : Fin N.links.length => (if N.links[i].a = x then 1 else 0) + (if N.links[i].b = some x then 1 else 0)) C S
  unfold degreeAt
  omega

theorem count_apart (C S : N.Links) (k : Nat) : count (symmDiff C S) k % 2 = (count C k + count S k) % 2 := by
  have := RoundTrip.sum_symmDiff (fun i : Fin N.links.length => if k ∈ N.links[i].faults then 1 else 0) C S
  unfold count
  simp only [Finset.card_filter]
  omega

theorem predicted_of {draw : Nat → ℚ} {s : Sample} (hs : Sampled N draw s) {u : ℚ} {ρ : Fin N.links.length → ℚ} {C : N.Links} {row : List (BitVec 8)}
    (hC : CheapFor u ρ (Flips N draw) C) (ht : Tells C row) : Predicted draw s.1 u ρ row C := by
  obtain ⟨h1, h2⟩ := hC.2 _ (explained_self N draw)
  refine ⟨hC, ht, h1, h2, fun x hx => ?_, fun k hk => ⟨_, decide (count C k % 2 = 1), hs.noise k hk, ?_, ?_⟩⟩
  · rw [degree_apart]
    have h3 := (hC.1 x hx).symm.trans (explained_self N draw x hx)
    omega
  · rw [ht.2 k hk]
    simp
  · rw [count_apart, Ne, decide_eq_decide]
    omega

end

/-! ## Lemmas: programs -/

theorem put_of {mk : Reply → Out} {call : Nat → Option (Res (Reply × ObjectD))} {r : Reply} {o' : ObjectD} (h : Completes call (.ok (r, o'))) :
    Completes (fun f => put mk (call f)) (.ok (mk r, o')) := by
  obtain ⟨f0, h⟩ := h
  refine ⟨f0, fun f hf => ?_⟩
  simp only [h f hf, put, Res.bind]

theorem detectors_le {g : UGraph ℚ} (hb : Convert.BndOk g) : (netOf g).detectors + (netOf g).boundary.card = (netOf g).nodes := by
  have : g.boundary.card ≤ g.nodes.length := by
    rw [← Finset.card_range g.nodes.length]
    exact Finset.card_le_card fun x hx => Finset.mem_range.2 (hb.1 x hx)
  simp only [Net.detectors, netOf]
  omega

/-- The lines that are executed as statements work. -/
def WorksLine [W : Width] (N : Net) (known : Prop) : Line → Prop
  | .stmt s => Works N s
  | .sample _ => True
  | .trial _ corr => known → ∀ z rw, Works N (.decode z rw corr)
  | .trials draws corr => known ∨ draws = [] → ∀ cols rows, Works N (.decodeBatch false false false corr cols rows)

theorem line_core [W : Width] (mergeW : ℚ → ℚ → ℚ) {N : Net} {wo : Bool} {known asked : Prop} {g : UGraph ℚ} {o : ObjectD} (hs : Stands N wo asked g o)
    (hk : g.allProbs = true ↔ known) (hK : known → Known N) {l : Line} (ha : AllowedLine N known asked l) (hw : WorksLine N known l) :
    ∃ r o' g', Completes (fun f => Sim.exec mergeW f o l) (.ok (r, o')) ∧
      Stands (afterLine mergeW N l) wo ((AsksLine known l ∨ asked) ∧ (afterLine mergeW N l).links = N.links ∧ (afterLine mergeW N l).boundary = N.boundary) g' o' ∧
      (g'.allProbs = true ↔ known ∧ Known (afterLine mergeW N l)) ∧ RightLine mergeW wo N known l r := by
  cases l with
  | stmt s =>
    obtain ⟨r, o', g', h1, h2, h3, h4⟩ := stmt_steps mergeW hs ha hw
    refine ⟨.reply r, o', g', put_of h1, h2, ?_, r, rfl, h3⟩
    have hN' : Known (afterLine mergeW N (.stmt s)) ↔ ∀ e ∈ g'.edges, IsProb e.prob := by
      rw [← known_iff, h2.net]
      rfl
    have hg : g.allProbs = true → ∀ e ∈ g.edges, IsProb e.prob := fun h => (known_iff g).1 (by rw [hs.net]; exact hK (hk.1 h))
    rw [hN', ← hk]
    rcases h4 with rfl | ⟨c, rfl⟩
    · exact ⟨fun h => ⟨h, hg h⟩, fun h => h.1⟩
    · exact flag_step mergeW hs.wf hg c
  | sample draw =>
    obtain ⟨hwf, hB, hc, rfl, hi, hfl⟩ := hs
    have hflag : g.allProbs = true ↔ known ∧ Known (netOf g) := hk.trans ⟨fun h => ⟨h, hK h⟩, fun h => h.1⟩
    have hst : Stands (netOf g) wo ((False ∨ asked) ∧ (netOf g).links = (netOf g).links ∧ (netOf g).boundary = (netOf g).boundary) g o :=
      ⟨hwf, hB, hc, rfl, hi, fun h => ⟨.inr (hfl h), rfl, rfl⟩⟩
    rcases sample_net hwf hB hc draw (fun h => ha (hk.1 h)) with ⟨h1, h2⟩ | ⟨h1, s, h2, h3⟩
    · refine ⟨.noSample, o, g, ⟨0, fun f _ => ?_⟩, hst, hflag, .inr ⟨fun h => ?_, rfl⟩⟩
      · simp only [Sim.exec, sample_but hi.same, h2]
      · rw [hk.2 h] at h1; cases h1
    · refine ⟨.sample s, o, g, ⟨0, fun f _ => ?_⟩, hst, hflag, .inl ⟨hk.1 h1, s, h3, rfl⟩⟩
      simp only [Sim.exec, sample_but hi.same, h2]
  | trial draw corr =>
    have hs0 := hs
    obtain ⟨hwf, hB, hc, rfl, hi, hfl⟩ := hs
    have hflag : g.allProbs = true ↔ known ∧ Known (netOf g) := hk.trans ⟨fun h => ⟨h, hK h⟩, fun h => h.1⟩
    rcases sample_net hwf hB hc draw (fun h => (ha (hk.1 h)).1.covered) with ⟨h1, h2⟩ | ⟨h1, s, h2, h3⟩
    · refine ⟨.noSample, o, g, ⟨0, fun f _ => ?_⟩, ⟨hwf, hB, hc, rfl, hi, fun h => ⟨.inr (hfl h), rfl, rfl⟩⟩, hflag, .inr ⟨fun h => ?_, rfl⟩⟩
      · simp only [Sim.exec, sample_but hi.same, h2]
      · rw [hk.2 h] at h1; cases h1
    · obtain ⟨r, o', p1, p2, p3⟩ := asks_of mergeW hs0 (s := .decode (.d1 (s.2.map Bool.toNat)) true corr) (ha (hk.1 h1)) trivial (hw (hk.1 h1) _ _)
      refine ⟨.trial s r, o', g, ?_, ⟨p2.wf, p2.bnd, p2.clean, p2.net, p2.inv, fun _ => ⟨.inl (hk.1 h1), rfl, rfl⟩⟩, hflag, .inl ⟨hk.1 h1, s, r, h3, rfl, ?_⟩⟩
      · have := put_of (mk := .trial s) p1
        simpa only [Sim.exec, sample_but hi.same, h2] using this
      · have hshape : Shaped (netOf g) (.d1 (s.2.map Bool.toNat)) := by
          simp only [Shaped, List.length_map, h3.nodes]
          have := detectors_le hB
          omega
        have hfires := fires_of hwf h3
        simp only [Right, hfires] at p3
        rcases p3 with ⟨-, q1, u, q2, ρ, C, row, x, q3, q4, q5, q6, q7⟩ | ⟨q1, q2⟩
        · rw [if_neg q1]
          exact ⟨u, q2, ρ, C, row, x, q3, predicted_of h3 q4 q5, q6, q7⟩
        · rcases q2 hshape with q2 | q2
          · rw [if_pos q2]
            exact q1
          · exact absurd (explained_self _ draw) (q2 _)
  | trials draws corr =>
    have hs0 := hs
    obtain ⟨hwf, hB, hc, rfl, hi, hfl⟩ := hs
    have hflag : g.allProbs = true ↔ known ∧ Known (netOf g) := hk.trans ⟨fun h => ⟨h, hK h⟩, fun h => h.1⟩
    rcases samples_net hwf hB hc (fun h => (ha (.inl (hk.1 h))).1.covered) draws with ⟨h1, hd, h2⟩ | ⟨h1, l, h2, h3⟩
    · have hnk : ¬ known := fun h => by rw [hk.2 h] at h1; cases h1
      refine ⟨.noSample, o, g, ⟨0, fun f _ => ?_⟩, ⟨hwf, hB, hc, rfl, hi, fun h => ⟨.inr (hfl h), rfl, rfl⟩⟩, hflag, .inr ⟨hnk, hd, rfl⟩⟩
      simp only [Sim.exec, samples_but hi.same, h2]
    · have hkd : known ∨ draws = [] := h1.imp hk.1 id
      have hlen := h3.length_eq
      have hshot : ∀ i (hi : i < draws.length) (hi' : i < l.length), ShotFires false (toRow l[i].2) = Flips (netOf g) draws[i] := by
        intro i hi hi'
        exact shot_fires hwf ((List.forall₂_iff_get.1 h3).2 i hi hi')
      have hin : ∀ row ∈ l.map (fun s => toRow s.2), ∀ x, ShotFires false row x → x < (netOf g).nodes := by
        intro row hrow x hx
        obtain ⟨s, hs, rfl⟩ := List.mem_map.1 hrow
        obtain ⟨i, hi', rfl⟩ := List.getElem_of_mem hs
        rw [hshot i (by omega) hi'] at hx
        by_contra h
        exact far_flips hwf _ (by simpa [netOf] using h) hx
      obtain ⟨r, o', p1, p2, p3⟩ := asks_of mergeW hs0 (s := .decodeBatch false false false corr g.nodes.length (l.map fun s => toRow s.2)) ⟨ha hkd, hin⟩ trivial (hw hkd _ _)
      refine ⟨.trials l r, o', g, ?_, ⟨p2.wf, p2.bnd, p2.clean, p2.net, p2.inv, fun _ => ⟨.inl hkd, rfl, rfl⟩⟩, hflag, .inl ⟨hkd, l, r, h3, rfl, ?_⟩⟩
      · have := put_of (mk := .trials l) p1
        have hn : o.graph.nodes = g.nodes := by
          obtain ⟨b, e⟩ := hi.same
          rw [e]
        simpa only [Sim.exec, samples_but hi.same, h2, hn] using this
      · have hshape : ShotsShaped (netOf g) false g.nodes.length := by
          have := detectors_le hB
          simp only [ShotsShaped, Bool.false_eq_true, if_false]
          simp only [netOf] at this ⊢
          omega
        simp only [Right, Bool.false_eq_true, if_false] at p3
        rcases p3 with ⟨-, q1, u, q2, outs, ws, q3, q4, q5, q6⟩ | ⟨q1, q2⟩
        · rw [List.length_map] at q3 q4
          refine .inr ⟨fun h => ?_, u, q2, outs, by omega, q6, fun i draw s row hd hsi hr => ?_⟩
          · have := q1 h
            rw [List.map_eq_nil_iff] at this
            rw [this] at hlen
            exact List.length_eq_zero_iff.1 hlen
          obtain ⟨i1, rfl⟩ := List.getElem?_eq_some_iff.1 hd
          obtain ⟨i2, rfl⟩ := List.getElem?_eq_some_iff.1 hsi
          obtain ⟨i3, rfl⟩ := List.getElem?_eq_some_iff.1 hr
          obtain ⟨ρ, C, t1, t2, t3, -⟩ := (List.forall₂_iff_get.1 q5).2 i (by simpa using i2) (by rw [List.length_zip]; omega)
          simp only [List.get_eq_getElem, List.getElem_map, List.getElem_zip, hshot i i1 i2, TellsIn, Bool.false_eq_true, if_false] at t1 t2 t3
          exact ⟨ρ, C, t1, predicted_of ((List.forall₂_iff_get.1 h3).2 i i1 i2) t2 t3⟩
        · rcases q2 hshape with q2 | ⟨row, hrow, q2⟩
          · exact .inl ⟨q2.1, q2.2, q1⟩
          · exfalso
            obtain ⟨s, hs, rfl⟩ := List.mem_map.1 hrow
            obtain ⟨i, hi', rfl⟩ := List.getElem_of_mem hs
            rw [hshot i (by omega) hi'] at q2
            exact q2 _ (explained_self _ _)

theorem sim_core [W : Width] (mergeW : ℚ → ℚ → ℚ) : ∀ (prog : List Line) (N : Net) (wo : Bool) (known asked : Prop) (g : UGraph ℚ) (o : ObjectD), Stands N wo asked g o →
    (g.allProbs = true ↔ known) → (known → Known N) → Proper mergeW N known asked prog → (∀ m ∈ scenes mergeW N known prog, WorksLine m.1 m.2.1 m.2.2) →
    ∃ outs o', Completes (fun f => Sim.run mergeW f o prog) (.ok (outs, o')) ∧
      List.Forall₂ (fun (m : Net × Prop × Line) out => RightLine mergeW wo m.1 m.2.1 m.2.2 out) (scenes mergeW N known prog) outs := by
  intro prog
  induction prog with
  | nil => intro N wo known asked g o _ _ _ _ _; exact ⟨[], o, ⟨0, fun f _ => rfl⟩, .nil⟩
  | cons l prog ih =>
    intro N wo known asked g o hs hk hK hp hw
    obtain ⟨ha, hp⟩ := hp
    obtain ⟨r, o', g', ⟨f1, c1⟩, h2, h3, h4⟩ := line_core mergeW hs hk hK ha (hw _ (List.mem_cons_self ..))
    obtain ⟨rs, o'', ⟨f2, c2⟩, hall⟩ := ih _ _ _ _ g' o' h2 h3 (fun h => h.2) hp (fun m hm => hw m (List.mem_cons_of_mem _ hm))
    refine ⟨r :: rs, o'', ⟨max f1 f2, fun f hf => ?_⟩, .cons h4 hall⟩
    have e1 := c1 f (le_trans (le_max_left _ _) hf)
    have e2 := c2 f (le_trans (le_max_right _ _) hf)
    simp only at e1 e2
    simp only [Sim.run, e1, e2, Res.bind]

theorem worksLine_of (N : Net) (known : Prop) (l : Line) : WorksLine (W := unbounded) N known l := by
  cases l with
  | stmt s => exact works_of N s
  | sample d => exact trivial
  | trial d c => exact fun _ _ _ => works_of N _
  | trials d c => exact fun _ _ _ => works_of N _

theorem worksLine_small {N : Net} {known : Prop} {l : Line} (hn : AsksLine known l → N.Small) : WorksLine (W := int32) N known l := by
  cases l with
  | stmt s => exact works_small hn
  | sample d => exact trivial
  | trial d c => exact fun h _ _ => works_small fun _ => hn h
  | trials d c => exact fun h _ _ => works_small fun _ => hn h

/-! ## Theorems -/

/-- C85: a Python program on one `Matching` object, from `Matching()` on, that samples noise and decodes what it sampled, among other statements.  If it is proper, it ends
without undefined behaviour, and each line gives what it should.  Whatever the random numbers are: a sample tells the fault ids and the detectors of the flipped links; it is decoded
without exception; the explanation found costs at most what the flipped links cost, up to rounding; and what is left is the effect of links that flip no detector. -/
theorem C85_program (mergeW : ℚ → ℚ → ℚ) (prog : List Line) (hp : Proper mergeW Net.empty True False prog) :
    ∃ outs o, Completes (fun f => Sim.run mergeW f Session.new prog) (.ok (outs, o)) ∧
      List.Forall₂ (fun (m : Net × Prop × Line) out => RightLine mergeW false m.1 m.2.1 m.2.2 out) (scenes mergeW Net.empty True prog) outs :=
  sim_core (W := unbounded) mergeW prog _ _ _ _ _ _ stands_new ⟨fun _ => trivial, fun _ => rfl⟩ (fun _ l hl => by cases hl) hp fun m _ => worksLine_of m.1 m.2.1 m.2.2

/-- C85 for the library as compiled, with its 32-bit wrapped radius: if the networks asked about are small enough. -/
theorem C85_program_int32 (mergeW : ℚ → ℚ → ℚ) (prog : List Line) (hp : Proper mergeW Net.empty True False prog)
    (hn : ∀ m ∈ scenes mergeW Net.empty True prog, AsksLine m.2.1 m.2.2 → m.1.Small) :
    ∃ outs o, Completes (fun f => Sim.run (W := int32) mergeW f Session.new prog) (.ok (outs, o)) ∧
      List.Forall₂ (fun (m : Net × Prop × Line) out => RightLine mergeW false m.1 m.2.1 m.2.2 out) (scenes mergeW Net.empty True prog) outs :=
  sim_core (W := int32) mergeW prog _ _ _ _ _ _ stands_new ⟨fun _ => trivial, fun _ => rfl⟩ (fun _ l hl => by cases hl) hp fun m hm => worksLine_small (hn m hm)

section
variable (mergeW : ℚ → ℚ → ℚ)

theorem oneOfTwo_prob {p q : ℚ} (hp : IsProb p) (hq : IsProb q) : IsProb (oneOfTwo p q) := by
  unfold oneOfTwo
  rw [if_pos ⟨hp, hq⟩]
  obtain ⟨h1, h2⟩ := hp
  obtain ⟨h3, h4⟩ := hq
  constructor
  · have := mul_nonneg h1 (sub_nonneg.2 h4)
    have := mul_nonneg h3 (sub_nonneg.2 h2)
    linarith
  · have := mul_nonneg h1 h3
    have := mul_nonneg (sub_nonneg.2 h2) (sub_nonneg.2 h4)
    linarith

theorem known_place {N : Net} (hN : Known N) {l : Link} (hl : IsProb l.prob) (s : Strategy) : Known (N.place mergeW l s).1 := by
  have hc : ∀ old ∈ N.links, IsProb (combine mergeW old l s).prob := by
    intro old ho
    have := hN old ho
    cases s <;> simp only [combine]
    all_goals first | exact this | exact hl | exact oneOfTwo_prob this hl | (split <;> first | exact this | exact hl)
  unfold Net.place
  split
  · split
    · exact hN
    · intro l' hl'
      obtain ⟨old, ho, rfl⟩ := List.mem_map.1 hl'
      split
      · exact hc old ho
      · exact hN old ho
  · intro l' hl'
    rcases List.mem_append.1 hl' with h | h
    · exact hN l' h
    · rw [List.mem_singleton] at h
      rw [h]
      exact hl

/-- The line, if it adds a link, gives a probability for it. -/
def Gives : Line → Prop
  | .stmt (.addEdge _ _ a) => ∃ p, a.prob = some p ∧ IsProb p
  | .stmt (.addBoundaryEdge _ a) => ∃ p, a.prob = some p ∧ IsProb p
  | _ => True

theorem known_add {N : Net} (hN : Known N) (u : Nat) (t : Option Nat) (F : Finset Nat) {a : EdgeArgs} (ha : ∃ p, a.prob = some p ∧ IsProb p) : Known (N.add mergeW u t F a).1 := by
  obtain ⟨p, h1, h2⟩ := ha
  unfold Net.add
  split
  · split
    · exact hN
    · split
      · exact hN
      · exact known_place mergeW hN (by simpa [h1] using h2) _
  · exact hN

theorem known_after {N : Net} (hN : Known N) {l : Line} (hl : Gives l) : Known (afterLine mergeW N l) := by
  cases l with
  | stmt s =>
    cases s with
    | addEdge u v a =>
      simp only [afterLine, Net.after]
      split
      · exact hN
      · split
        · exact hN
        · exact known_add mergeW hN _ _ _ hl
    | addBoundaryEdge u a =>
      simp only [afterLine, Net.after]
      split
      · exact hN
      · split
        · exact hN
        · exact known_add mergeW hN _ _ _ hl
    | setBoundaryNodes b =>
      simp only [afterLine, Net.after]
      split <;> exact hN
    | ensureNumFaultIds n =>
      simp only [afterLine, Net.after]
      split <;> exact hN
    | _ => exact hN
  | _ => exact hN

/-- C85: a program that gives a probability with each link always gets samples, if the links at the start have probabilities. -/
theorem C85_always (prog : List Line) (hp : ∀ l ∈ prog, Gives l) : ∀ (N : Net) (known : Prop), known → Known N → ∀ m ∈ scenes mergeW N known prog, m.2.1 := by
  induction prog with
  | nil => intro N known _ _ m hm; cases hm
  | cons l prog ih =>
    intro N known hk hN m hm
    have hN' := known_after mergeW hN (hp l (List.mem_cons_self ..))
    rcases List.mem_cons.1 hm with rfl | hm
    · exact hk
    · exact ih (fun l' hl' => hp l' (List.mem_cons_of_mem _ hl')) _ _ ⟨hk, hN'⟩ hN' m hm

end

/-! ## Detector error models -/

section
variable (mergeW : ℚ → ℚ → ℚ)

theorem sure_calls (s : Strategy) {cs : List (UserGraph.Call ℚ)} {ls : List Link} (h : List.Forall₂ (MatrixSession.Adds s) cs ls) : (∀ l ∈ ls, IsProb l.prob) →
    ∀ {g : UGraph ℚ}, WF g → Clean g → g.allProbs = true → Known (netOf g) →
      (UserGraph.run mergeW g cs).allProbs = true ∧ Known (netOf (UserGraph.run mergeW g cs)) := by
  induction h with
  | nil => exact fun _ _ _ _ h1 h2 => ⟨h1, h2⟩
  | @cons c l cs ls hcl _ ih =>
    intro hp g hw hc h1 h2
    obtain ⟨h5, obs, h3, h4, rfl⟩ := hcl
    obtain ⟨k1, k2⟩ := place_of mergeW hw hc l.a l.b h3 l.weight l.prob s
    rw [h4] at k2
    have hN := known_place mergeW h2 (l := ⟨l.a, l.b, l.faults, l.weight, l.prob, ∅⟩) (hp l (List.mem_cons_self ..)) s
    rw [k2] at hN
    have hf := (flag_step mergeW hw (fun _ => (known_iff g).1 h2) (.add l.a l.b obs l.weight l.prob s)).2 ⟨h1, (known_iff _).1 hN⟩
    exact ih (fun l' hl' => hp l' (List.mem_cons_of_mem _ hl')) (UserGraph.wf_exec mergeW hw _) k1 hf hN

theorem dem_probs {lg : ℚ → ℚ} {m : Dem.Model ℚ} (hp : ∀ e ∈ m.errors, IsProb e.p) : ∀ l ∈ DemSession.demLinks lg m, IsProb l.prob := by
  intro l hl
  obtain ⟨e, he, hl⟩ := List.mem_flatMap.1 hl
  split_ifs at hl
  · cases hl
  · obtain ⟨c, -, hc⟩ := List.mem_filterMap.1 hl
    unfold DemSession.linkOf at hc
    split at hc <;> cases hc <;> exact hp e he

variable (m : Dem.Model ℚ) (hp : ∀ e ∈ m.errors, 0 ≤ e.p ∧ e.p < 1) (hn : ∀ e ∈ m.errors, ∀ c ∈ Dem.components e, c.2.Nodup) (lg : ℚ → ℚ)

include hp hn in
theorem load_sure {N : Net} (hN : DemSession.demNet mergeW lg m = some N) : (Dem.load mergeW lg m).allProbs = true ∧ Known N := by
  obtain ⟨N', h1, h2⟩ := DemSession.dem_stands mergeW lg m (fun e he => (hp e he).1) hn
  rw [hN] at h1
  cases h1
  have := sure_calls mergeW .independent (DemSession.adds_of lg m hn) (dem_probs fun e he => ⟨(hp e he).1, (hp e he).2.le⟩) (g := UGraph.new m.numDets m.numObs) (wf_new _ _)
    (fun e he => by cases he) rfl (fun l hl => by cases hl)
  rw [← DemSession.load_eq mergeW lg m (fun e he => (hp e he).1), h2.net] at this
  exact this

include hp hn in
/-- C85: `Matching.from_detector_error_model(model)`, followed by any proper program that samples and decodes.  All links of the model have probabilities. -/
theorem C85_model : ∃ N, DemSession.demNet mergeW lg m = some N ∧ Known N ∧ ∀ prog, Proper mergeW N True False prog →
    ∃ outs o, Completes (fun f => Sim.run mergeW f (ObjectD.of (Dem.load mergeW lg m) true) prog) (.ok (outs, o)) ∧
      List.Forall₂ (fun (x : Net × Prop × Line) out => RightLine mergeW true x.1 x.2.1 x.2.2 out) (scenes mergeW N True prog) outs := by
  obtain ⟨N, h1, h2⟩ := DemSession.dem_stands mergeW lg m (fun e he => (hp e he).1) hn
  obtain ⟨h3, h4⟩ := load_sure mergeW m hp hn lg h1
  exact ⟨N, h1, h4, fun prog h => sim_core (W := unbounded) mergeW prog _ _ _ _ _ _ h2 ⟨fun _ => trivial, fun _ => h3⟩ (fun _ => h4) h fun x _ => worksLine_of x.1 x.2.1 x.2.2⟩

include hp hn in
/-- The same for the library as compiled, with its 32-bit wrapped radius. -/
theorem C85_model_int32 : ∃ N, DemSession.demNet mergeW lg m = some N ∧ Known N ∧ ∀ prog, Proper mergeW N True False prog →
    (∀ x ∈ scenes mergeW N True prog, AsksLine x.2.1 x.2.2 → x.1.Small) →
    ∃ outs o, Completes (fun f => Sim.run (W := int32) mergeW f (ObjectD.of (Dem.load mergeW lg m) true) prog) (.ok (outs, o)) ∧
      List.Forall₂ (fun (x : Net × Prop × Line) out => RightLine mergeW true x.1 x.2.1 x.2.2 out) (scenes mergeW N True prog) outs := by
  obtain ⟨N, h1, h2⟩ := DemSession.dem_stands mergeW lg m (fun e he => (hp e he).1) hn
  obtain ⟨h3, h4⟩ := load_sure mergeW m hp hn lg h1
  exact ⟨N, h1, h4, fun prog h hs => sim_core (W := int32) mergeW prog _ _ _ _ _ _ h2 ⟨fun _ => trivial, fun _ => h3⟩ (fun _ => h4) h fun x hx => worksLine_small (hs x hx)⟩

variable (A : Dem.Arith ℚ) (ho : ∀ e ∈ m.errors, DemRules.Once e)

include hp hn in
theorem corr_sure {g : UGraph ℚ} (hg : Dem.loadCorr mergeW lg m A = some g) : g.allProbs = true ∧ Known (netOf g) := by
  have hA : ∀ e ∈ m.errors, Dem.Accepted e := by
    by_contra h
    push Not at h
    have := (Dem.loadCorr_none (mw := mergeW) (lg := lg) A m).2 h
    rw [hg] at this
    cases this
  obtain ⟨h, hh, hl⟩ := Dem.loadCorr_any (mw := mergeW) (lg := lg) A m hA
  rw [hg] at hl
  simp only [Option.some.injEq] at hl
  obtain ⟨k1, k2⟩ := sure_calls mergeW .independent (DemRules.adds_of lg m hn) (fun l hl => by
    obtain ⟨l0, h0, rfl⟩ := List.mem_map.1 hl
    have : (DemRules.sorted l0).prob = l0.prob := by
      unfold DemRules.sorted
      split <;> rfl
    rw [this]
    exact dem_probs (fun e he => ⟨(hp e he).1, (hp e he).2.le⟩) l0 h0) (g := UGraph.new m.numDets m.numObs) (wf_new _ _) (fun e he => by cases he) rfl (fun l hl => by cases hl)
  subst hl
  refine ⟨k1, (known_iff _).2 fun e he => ?_⟩
  obtain ⟨e0, he0, rfl⟩ := List.mem_map.1 he
  rw [(hh e0).2.2.2.2.1]
  exact (known_iff _).1 k2 e0 he0

include hp hn ho in
/-- C85: `Matching.from_detector_error_model(model, enable_correlations=True)`, followed by any proper program that samples and decodes, with or without correlations; unless the model is
refused. -/
theorem C85_correlated : (DemRules.corrNet A mergeW lg m = none ∧ Dem.loadCorr mergeW lg m A = none) ∨
    ∃ N g, DemRules.corrNet A mergeW lg m = some N ∧ Dem.loadCorr mergeW lg m A = some g ∧ Known N ∧ ∀ prog, Proper mergeW N True False prog →
      ∃ outs o, Completes (fun f => Sim.run mergeW f (ObjectD.of g false) prog) (.ok (outs, o)) ∧
        List.Forall₂ (fun (x : Net × Prop × Line) out => RightLine mergeW false x.1 x.2.1 x.2.2 out) (scenes mergeW N True prog) outs := by
  rcases DemRules.corr_stands A mergeW lg m hn ho with ⟨N, g, h1, h2, h3⟩ | h
  · obtain ⟨h4, h5⟩ := corr_sure mergeW m hp hn lg A h2
    rw [h3.net] at h5
    exact .inr ⟨N, g, h1, h2, h5, fun prog h => sim_core (W := unbounded) mergeW prog _ _ _ _ _ _ h3 ⟨fun _ => trivial, fun _ => h4⟩ (fun _ => h5) h fun x _ => worksLine_of x.1 x.2.1 x.2.2⟩
  · exact .inl h

include hp hn ho in
/-- The same for the library as compiled, with its 32-bit wrapped radius. -/
theorem C85_correlated_int32 : (DemRules.corrNet A mergeW lg m = none ∧ Dem.loadCorr mergeW lg m A = none) ∨
    ∃ N g, DemRules.corrNet A mergeW lg m = some N ∧ Dem.loadCorr mergeW lg m A = some g ∧ Known N ∧ ∀ prog, Proper mergeW N True False prog →
      (∀ x ∈ scenes mergeW N True prog, AsksLine x.2.1 x.2.2 → x.1.Small) →
      ∃ outs o, Completes (fun f => Sim.run (W := int32) mergeW f (ObjectD.of g false) prog) (.ok (outs, o)) ∧
        List.Forall₂ (fun (x : Net × Prop × Line) out => RightLine mergeW false x.1 x.2.1 x.2.2 out) (scenes mergeW N True prog) outs := by
  rcases DemRules.corr_stands A mergeW lg m hn ho with ⟨N, g, h1, h2, h3⟩ | h
  · obtain ⟨h4, h5⟩ := corr_sure mergeW m hp hn lg A h2
    rw [h3.net] at h5
    exact .inr ⟨N, g, h1, h2, h5, fun prog h hs => sim_core (W := int32) mergeW prog _ _ _ _ _ _ h3 ⟨fun _ => trivial, fun _ => h4⟩ (fun _ => h5) h fun x hx => worksLine_small (hs x hx)⟩
  · exact .inl h

end

/-! ## What the results tell -/

section
variable {mergeW : ℚ → ℚ → ℚ} {without : Bool} {N : Net} {known : Prop}

/-- Every set of links that flips a fault id but no detector costs at least `d`. -/
def Distance (N : Net) (d : ℚ) : Prop := ∀ D : N.Links, Unseen D → Harmful D → d ≤ cost D

/-- The flipped links cost less than half the distance; unless all weights are integers, by more than the rounding of all links. -/
def Light (N : Net) (d : ℚ) (draw : Nat → ℚ) : Prop :=
  (Whole N ∧ 2 * cost (flipped N draw) < d) ∨
    ∀ u, StepOf N u → 2 * cost (flipped N draw) + 2 * N.links.length * (1 / 2 + 1 / 2 ^ 27) * u < d

theorem step_nonneg {u : ℚ} (h : StepOf N u) : 0 ≤ u := by
  rcases h with ⟨-, rfl⟩ | ⟨-, m, -, -, rfl⟩
  · norm_num
  · exact div_nonneg (abs_nonneg _) (by norm_num)

theorem toByte (b : Bool) : (if b then 1#8 else 0#8) = if b then (1 : BitVec 8) else 0 := by cases b <;> rfl

/-- The prediction tells the noise exactly if what is left is not harmful. -/
theorem right_iff {draw : Nat → ℚ} {s : Sample} (hs : Sampled N draw s) {u : ℚ} {ρ : Fin N.links.length → ℚ} {row : List (BitVec 8)} {C : N.Links} (h : Predicted draw s.1 u ρ row C) :
    row = toRow s.1 ↔ ¬ Harmful (symmDiff C (flipped N draw)) := by
  obtain ⟨-, ⟨ht, -⟩, -, -, -, hd⟩ := h
  have hlen : (toRow s.1).length = N.ids := by simp [toRow, hs.ids]
  constructor
  · rintro rfl ⟨k, hk, hodd⟩
    obtain ⟨b, c, h1, h2, h3⟩ := hd k hk
    have hne := h3.2 hodd
    simp only [toRow, List.getElem?_map, h1, Option.map_some, Option.some.injEq] at h2
    cases b <;> cases c <;> simp_all
  · intro hno
    refine List.ext_getElem? fun k => ?_
    by_cases hk : k < N.ids
    · obtain ⟨b, c, h1, h2, h3⟩ := hd k hk
      have : b = c := by
        by_contra hne
        exact hno ⟨k, hk, h3.1 hne⟩
      subst this
      simp only [toRow, List.getElem?_map, h1, h2, Option.map_some]
      rfl
    · rw [List.getElem?_eq_none (by omega), List.getElem?_eq_none (by omega)]

theorem corrected {d : ℚ} (hd : Distance N d) (hpos : ∀ l ∈ N.links, 0 ≤ l.weight) {draw : Nat → ℚ} (hl : Light N d draw) {s : Sample} (hs : Sampled N draw s) {u : ℚ} (hu : StepOf N u)
    {ρ : Fin N.links.length → ℚ} {row : List (BitVec 8)} {C : N.Links} (hρ : Weighed u (Flips N draw) false ρ) (h : Predicted draw s.1 u ρ row C) : row = toRow s.1 := by
  rw [right_iff hs h]
  intro hh
  obtain ⟨-, -, h1, h2, h3, -⟩ := h
  have hcost := hd _ h3 hh
  have hw : ρ = fun j => N.links[j].weight := by
    simp only [Weighed, Bool.false_eq_true, if_false] at hρ
    exact funext hρ
  subst hw
  have hsum := RoundTrip.sum_symmDiff (fun i : Fin N.links.length => N.links[i].weight) C (flipped N draw)
  have hin : 0 ≤ ∑ i ∈ C ∩ flipped N draw, N.links[i].weight := Finset.sum_nonneg fun i _ => hpos _ (List.getElem_mem _)
  unfold Light at hl
  unfold cost at hcost hl
  rcases hl with ⟨hW, hl⟩ | hl
  · have := h2 hW
    linarith
  · have h4 := hl u hu
    have h5 : ((C.card + (flipped N draw).card : ℕ) : ℚ) ≤ 2 * N.links.length := by
      have a1 := Finset.card_le_univ C
      have a2 := Finset.card_le_univ (flipped N draw)
      rw [Fintype.card_fin] at a1 a2
      have : C.card + (flipped N draw).card ≤ 2 * N.links.length := by omega
      exact_mod_cast this
    have h6 : ((C.card + (flipped N draw).card : ℕ) : ℚ) * (1 / 2 + 1 / 2 ^ 27) * u ≤ 2 * N.links.length * (1 / 2 + 1 / 2 ^ 27) * u :=
      mul_le_mul_of_nonneg_right (mul_le_mul_of_nonneg_right h5 (by norm_num)) (step_nonneg hu)
    linarith

/-- C85: if no weight is negative and the flipped links cost less than half of the distance, up to rounding, then decoding the sample predicts the noise. -/
theorem C85_corrected {d : ℚ} (hd : Distance N d) (hpos : ∀ l ∈ N.links, 0 ≤ l.weight) {draw : Nat → ℚ} (hl : Light N d draw) {s : Sample} {r : Reply}
    (h : RightLine mergeW without N known (.trial draw false) (.trial s r)) : ∃ x, r = .pair (toRow s.1) x := by
  rcases h with ⟨-, s', r', hs, he, h⟩ | ⟨-, h⟩
  · cases he
    rw [if_neg (by simp)] at h
    obtain ⟨u, hu, ρ, C, row, x, h1, h2, -, rfl⟩ := h
    exact ⟨x, by rw [corrected hd hpos hl hs hu h1 h2]⟩
  · cases h

/-- The same for a loop. -/
theorem C85_corrected_loop {d : ℚ} (hd : Distance N d) (hpos : ∀ l ∈ N.links, 0 ≤ l.weight) {draws : List (Nat → ℚ)} (hl : ∀ draw ∈ draws, Light N d draw) {l : List Sample} {r : Reply}
    (h : RightLine mergeW without N known (.trials draws false) (.trials l r)) : r = .rows (l.map fun s => toRow s.1) := by
  rcases h with ⟨-, l', r', hs, he, h⟩ | ⟨-, -, h⟩
  · cases he
    rcases h with ⟨h, -⟩ | ⟨-, u, hu, rows, h1, rfl, h2⟩
    · cases h
    · have hlen := hs.length_eq
      congr 1
      refine List.ext_getElem (by simp; omega) fun i i1 i2 => ?_
      have i3 : i < l.length := by simpa using i2
      have i4 : i < draws.length := by omega
      obtain ⟨ρ, C, k1, k2⟩ := h2 i draws[i] l[i] rows[i] (by simp [i4]) (by simp [i3]) (by simp [i1])
      rw [List.getElem_map]
      exact corrected hd hpos (hl _ (List.getElem_mem _)) ((List.forall₂_iff_get.1 hs).2 i i4 i3) hu k1 k2
  · cases h

open Classical in
/-- C85: in a loop, the number of wrong predictions is the number of samples for which the difference between the flipped links and the explanation found is harmful; these
differences flip no detector. -/
theorem C85_failures {draws : List (Nat → ℚ)} {corr : Bool} {l : List Sample} {rows : List (List (BitVec 8))}
    (h : RightLine mergeW without N known (.trials draws corr) (.trials l (.rows rows))) :
    ∃ u, StepOf N u ∧ ∃ Ds : List N.Links, List.Forall₂ (fun draw D => ∃ ρ C, Weighed u (Flips N draw) corr ρ ∧ CheapFor u ρ (Flips N draw) C ∧ D = symmDiff C (flipped N draw) ∧ Unseen D) draws Ds ∧
      (l.zip rows).countP (fun x => x.2 ≠ toRow x.1.1) = Ds.countP fun D => Harmful D := by
  rcases h with ⟨-, l', r', hs, he, h⟩ | ⟨-, -, h⟩
  · cases he
    rcases h with ⟨-, -, h⟩ | ⟨-, u, hu, rows', h1, h3, h2⟩
    · cases h
    · cases h3
      refine ⟨u, hu, ?_⟩
      clear hu
      induction hs generalizing rows with
      | nil =>
        rw [List.length_nil, List.length_eq_zero_iff] at h1
        subst h1
        exact ⟨[], .nil, rfl⟩
      | @cons draw s draws l hds _ ih =>
        cases rows with
        | nil => cases h1
        | cons row rows =>
          obtain ⟨ρ, C, k1, k2⟩ := h2 0 draw s row rfl rfl rfl
          obtain ⟨Ds, d1, d2⟩ := ih (by simpa using h1) fun i draw s row a b c => h2 (i + 1) draw s row (by simpa using a) (by simpa using b) (by simpa using c)
          refine ⟨symmDiff C (flipped N draw) :: Ds, .cons ⟨ρ, C, k1, k2.1, rfl, k2.2.2.2.2.1⟩ d1, ?_⟩
          rw [List.zip_cons_cons, List.countP_cons, List.countP_cons, d2]
          congr 1
          have := right_iff hds k2
          by_cases hH : Harmful (symmDiff C (flipped N draw))
          · simp [hH, mt this.1 (not_not.2 hH)]
          · simp [hH, this.2 hH]
  · cases h

end

/-! ## The disagreement -/

/-- A link without probability that is then replaced by one with a probability. -/
def replaced (draw : Nat → ℚ) : List Line := [
  .stmt (.addEdge 0 1 {}),
  .stmt (.addEdge 0 1 { prob := some (1 / 10), strategy := "replace" }),
  .sample draw]

def before : Net := ⟨2, [⟨0, some 1, ∅, 1, -1, ∅⟩], ∅, 0⟩
def afterwards : Net := ⟨2, [⟨0, some 1, ∅, 1, 1 / 10, ∅⟩], ∅, 0⟩

instance (N : Net) : Decidable (Known N) := by unfold Known; infer_instance

/-- C85: the documentation of `add_noise` says that it returns `None` unless all edges have a probability.  Here all edges have one, and it returns `None`: the flag that is consulted
is not set again when an edge without probability is replaced. -/
theorem C85_still_none (mergeW : ℚ → ℚ → ℚ) (draw : Nat → ℚ) : Known afterwards ∧ ∃ o, Completes (fun f => Sim.run mergeW f Session.new (replaced draw)) (.ok ([.reply .nothing, .reply .nothing, .noSample], o)) ∧
    netOf o.graph = afterwards := by
  have n1 : Net.empty.after mergeW (.addEdge 0 1 {}) = (before, .nothing) := by
    simp [Net.after, meantBy, meant, Net.add, Api.strategyOf, Net.place, Net.empty, before, UserGraph.top]
    norm_num
  have n2 : before.after mergeW (.addEdge 0 1 { prob := some (1 / 10), strategy := "replace" }) = (afterwards, .nothing) := by
    simp [Net.after, meantBy, meant, Net.add, Api.strategyOf, Net.place, before, afterwards, Link.Joins, combine]
    norm_num
  have k1 : ¬ Known before := by decide +kernel
  obtain ⟨r1, o1, g1, ⟨f1, c1⟩, s1, p1, q1⟩ := line_core (W := unbounded) mergeW (l := .stmt (.addEdge 0 1 {})) stands_new (known := True) ⟨fun _ => trivial, fun _ => rfl⟩
    (fun _ l hl => by cases hl) (by simp [AllowedLine, Allowed]) (worksLine_of ..)
  simp only [afterLine, n1] at s1 p1
  obtain ⟨r2, o2, g2, ⟨f2, c2⟩, s2, p2, q2⟩ := line_core (W := unbounded) mergeW (l := .stmt (.addEdge 0 1 { prob := some (1 / 10), strategy := "replace" })) s1 p1 (fun h => h.2)
    (by simp [AllowedLine, Allowed]) (worksLine_of ..)
  simp only [afterLine, n2] at s2 p2
  obtain ⟨r3, o3, g3, ⟨f3, c3⟩, s3, p3, q3⟩ := line_core (W := unbounded) mergeW (l := .sample draw) s2 p2 (fun h => h.2) (fun h => absurd h.1.2 k1) (worksLine_of ..)
  refine ⟨by decide +kernel, o3, ⟨max f1 (max f2 f3), fun f hf => ?_⟩, ?_⟩
  · have e1 := c1 f (by omega)
    have e2 := c2 f (by omega)
    have e3 := c3 f (by omega)
    have h1 : r1 = .reply .nothing := by
      obtain ⟨r, rfl, h⟩ := q1
      simp only [Right, n1] at h
      rw [h]
    have h2 : r2 = .reply .nothing := by
      obtain ⟨r, rfl, h⟩ := q2
      simp only [Right, n2] at h
      rw [h]
    have h3 : r3 = .noSample := by
      rcases q3 with ⟨h, -⟩ | ⟨-, h⟩
      · exact absurd h.1.2 k1
      · exact h
    subst h1 h2 h3
    simp only at e1 e2 e3
    simp only [replaced, Sim.run, e1, e2, e3, Res.bind]
  · rw [(netOf_but s3.inv.same).1, s3.net]
    rfl

/-! ## Examples -/

/-- A repetition code with three bits, then with a fourth: samples, trials and loops, also after the network was extended. -/
def simProg (draw : Nat → ℚ) : List Line := [
  .stmt (.addBoundaryEdge 0 { faultIds := .int 0, prob := some (1 / 10), weight := .fin 2 }),
  .stmt (.addEdge 0 1 { faultIds := .int 1, prob := some (1 / 10), weight := .fin 2 }),
  .stmt (.addBoundaryEdge 1 { faultIds := .int 2, prob := some (1 / 5), weight := .fin 1 }),
  .sample draw,
  .trial draw false,
  .stmt (.look .numEdges),
  .trials [draw, fun i => i / 20] true]

def net0 : Net := ⟨2, [⟨0, none, {0}, 2, 1 / 10, ∅⟩, ⟨0, some 1, {1}, 2, 1 / 10, ∅⟩, ⟨1, none, {2}, 1, 1 / 5, ∅⟩], ∅, 3⟩

theorem net0_ready (corr : Bool) : net0.Ready corr :=
  ⟨fine_of (by decide +kernel) (by decide +kernel) (by decide +kernel) (by decide +kernel) (by decide +kernel) (by decide +kernel) (by decide +kernel), fun _ => by decide +kernel⟩

theorem proper_line {mergeW : ℚ → ℚ → ℚ} {N N' : Net} {known asked : Prop} {l : Line} {prog : List Line} (h : afterLine mergeW N l = N') (ha : AllowedLine N known asked l)
    (hp : ∀ known' asked', Proper mergeW N' known' asked' prog) : Proper mergeW N known asked (l :: prog) := by
  refine ⟨ha, ?_⟩
  rw [h]
  exact hp _ _

theorem sim_proper (draw : Nat → ℚ) : Proper (fun a _ => a) Net.empty True False (simProg draw) := by
  refine proper_line (N' := ⟨1, [⟨0, none, {0}, 2, 1 / 10, ∅⟩], ∅, 1⟩) (by decide +kernel) (fun h => by cases h) fun _ _ => ?_
  refine proper_line (N' := ⟨2, [⟨0, none, {0}, 2, 1 / 10, ∅⟩, ⟨0, some 1, {1}, 2, 1 / 10, ∅⟩], ∅, 2⟩) (by decide +kernel) (fun h => by cases h) fun _ _ => ?_
  refine proper_line (N' := net0) (by decide +kernel) (fun h => by cases h) fun _ _ => ?_
  refine proper_line (N' := net0) rfl (fun _ => (net0_ready false).1.covered) fun _ _ => ?_
  refine proper_line (N' := net0) rfl (fun _ => net0_ready false) fun _ _ => ?_
  refine proper_line (N' := net0) rfl trivial fun _ _ => ?_
  exact proper_line (N' := net0) rfl (fun _ => net0_ready true) fun _ _ => trivial

example (draw : Nat → ℚ) := C85_program _ _ (sim_proper draw)

theorem few_line {mergeW : ℚ → ℚ → ℚ} {N N' : Net} {known : Prop} {l : Line} {prog : List Line} (h : afterLine mergeW N l = N') (hn : N.nodes ≤ 65)
    (hp : ∀ known', ∀ m ∈ scenes mergeW N' known' prog, m.1.nodes ≤ 65) : ∀ m ∈ scenes mergeW N known (l :: prog), m.1.nodes ≤ 65 := by
  intro m hm
  rcases List.mem_cons.1 hm with rfl | hm
  · exact hn
  · rw [h] at hm
    exact hp _ m hm

theorem sim_few (draw : Nat → ℚ) : ∀ m ∈ scenes (fun a _ => a) Net.empty True (simProg draw), m.1.nodes ≤ 65 := by
  refine few_line (N' := ⟨1, [⟨0, none, {0}, 2, 1 / 10, ∅⟩], ∅, 1⟩) (by decide +kernel) (by decide) fun _ => ?_
  refine few_line (N' := ⟨2, [⟨0, none, {0}, 2, 1 / 10, ∅⟩, ⟨0, some 1, {1}, 2, 1 / 10, ∅⟩], ∅, 2⟩) (by decide +kernel) (by decide) fun _ => ?_
  refine few_line (N' := net0) (by decide +kernel) (by decide) fun _ => ?_
  refine few_line (N' := net0) rfl (by decide) fun _ => ?_
  refine few_line (N' := net0) rfl (by decide) fun _ => ?_
  refine few_line (N' := net0) rfl (by decide) fun _ => ?_
  exact few_line (N' := net0) rfl (by decide) fun _ m hm => by cases hm

example (draw : Nat → ℚ) := C85_program_int32 _ _ (sim_proper draw) fun m hm _ => .inl (sim_few draw m hm)

/-- Each link gets a probability. -/
example (draw : Nat → ℚ) := C85_always (fun a _ => a) (simProg draw) (by
  intro l hl
  simp only [simProg, List.mem_cons, List.not_mem_nil, or_false] at hl
  rcases hl with rfl | rfl | rfl | rfl | rfl | rfl | rfl
  · exact ⟨_, rfl, by decide +kernel⟩
  · exact ⟨_, rfl, by decide +kernel⟩
  · exact ⟨_, rfl, by decide +kernel⟩
  all_goals exact trivial) Net.empty True trivial (fun l hl => by cases hl)

/-- The distance of the code is 5: the three links together flip all fault ids and no detector.  One or two flipped links are light if they cost at most 2. -/
theorem net0_distance : Distance net0 5 := by
  have h : ∀ D : net0.Links, degreeAt D 0 % 2 = 0 → degreeAt D 1 % 2 = 0 → (∃ k, k < 3 ∧ count D k % 2 = 1) → 5 ≤ cost D := by decide +kernel
  exact fun D hD hH => h D (hD 0 (by decide)) (hD 1 (by decide)) hH

theorem net0_light : Light net0 5 (fun i => if i = 1 then 0 else 1) := .inl (by
  refine ⟨?_, by decide +kernel⟩
  have : ∀ w ∈ net0.numbers, (w.num : ℚ) = w := by decide +kernel
  exact fun w hw => ⟨w.num, (this w hw)⟩)

/-- The flipped link is found again. -/
example (mergeW : ℚ → ℚ → ℚ) (known : Prop) (s : Sample) (r : Reply) (h : RightLine mergeW false net0 known (.trial (fun i => if i = 1 then 0 else 1) false) (.trial s r)) :=
  C85_corrected net0_distance (by decide +kernel) net0_light h

example (mergeW : ℚ → ℚ → ℚ) (known : Prop) (l : List Sample) (r : Reply)
    (h : RightLine mergeW false net0 known (.trials [fun i => if i = 1 then 0 else 1, fun i => if i = 1 then 0 else 1] false) (.trials l r)) :=
  C85_corrected_loop net0_distance (by decide +kernel) (by simpa using net0_light) h

/-- Such results exist: an object that stands for this network gets them. -/
theorem net0_line (l : Line) (ha : AllowedLine net0 True False l) : ∃ out, RightLine (fun a _ => a) false net0 True l out := by
  have hw := UserGraph.wf_run (fun a _ => a) (wf_new 0 0)
    [.add 0 none [0] 2 (1 / 10 : ℚ) .disallow, .add 0 (some 1) [1] 2 (1 / 10) .disallow, .add 1 none [2] 1 (1 / 5) .disallow]
  have hb := Convert.bndOk_run (fun a _ => a) (Convert.bndOk_new 0 0)
    [.add 0 none [0] 2 (1 / 10 : ℚ) .disallow, .add 0 (some 1) [1] 2 (1 / 10) .disallow, .add 1 none [2] 1 (1 / 5) .disallow]
  obtain ⟨r, o', g', -, -, -, h⟩ := line_core (W := unbounded) (fun a _ => a) (l := l) (N := net0) (known := True) (asked := False) (wo := false)
    ⟨hw, hb, by unfold Session.Clean; decide +kernel, by decide +kernel, DoubleHistory.invD_of _ _, fun h => by cases h⟩ ⟨fun _ => trivial, fun _ => by decide +kernel⟩
    (fun _ => by decide +kernel) ha (worksLine_of ..)
  exact ⟨r, h⟩

example : ∃ s r, RightLine (fun a _ => a) false net0 True (.trial (fun i => if i = 1 then 0 else 1) false) (.trial s r) := by
  obtain ⟨out, h⟩ := net0_line (.trial (fun i => if i = 1 then 0 else 1) false) fun _ => net0_ready false
  rcases h with ⟨hk, s, r', h1, rfl, h2⟩ | ⟨h, -⟩
  · exact ⟨s, r', .inl ⟨hk, s, r', h1, rfl, h2⟩⟩
  · exact absurd trivial h

/-- C85_failures: a loop with two samples. -/
example (draw draw' : Nat → ℚ) : ∃ l rows, RightLine (fun a _ => a) false net0 True (.trials [draw, draw'] true) (.trials l (.rows rows)) := by
  obtain ⟨out, h⟩ := net0_line (.trials [draw, draw'] true) fun _ => net0_ready true
  rcases h with ⟨hk, l, r, h1, rfl, h2⟩ | ⟨h, -⟩
  · rcases h2 with ⟨-, h, -⟩ | ⟨h3, u, h4, rows, h5, rfl, h6⟩
    · cases h
    · exact ⟨l, rows, .inl ⟨hk, l, _, h1, rfl, .inr ⟨h3, u, h4, rows, h5, rfl, h6⟩⟩⟩
  · exact absurd trivial h

/-- Detector error models. -/
example (lg : ℚ → ℚ) := C85_model (fun a _ => a) Arithmetic.sampleD DemSession.sampleD_probs DemSession.sampleD_nodup lg
example (lg : ℚ → ℚ) := C85_model_int32 (fun a _ => a) Arithmetic.sampleD DemSession.sampleD_probs DemSession.sampleD_nodup lg
example := C85_correlated (fun a _ => a) DemRules.three (by decide +kernel) DemRules.three_nodup DemRules.easy .exact DemRules.three_once
example := C85_correlated_int32 (fun a _ => a) DemRules.three (by decide +kernel) DemRules.three_nodup DemRules.easy .exact DemRules.three_once

/-- A proper program for that model, with correlations. -/
example (draw : Nat → ℚ) : Proper (fun a _ => a) DemRules.threeNet True False [.trial draw true, .trials [draw, draw] true, .trial draw false] := by
  refine proper_line (N' := DemRules.threeNet) rfl (fun _ => DemRules.three_ready) fun _ _ => ?_
  refine proper_line (N' := DemRules.threeNet) rfl (fun _ => DemRules.three_ready) fun _ _ => ?_
  exact proper_line (N' := DemRules.threeNet) rfl (fun _ => ⟨DemRules.three_ready.1, fun h => by cases h⟩) fun _ _ => trivial

end Verif.Props.Simulate
