import Verif.Props.Trace
import Verif.Props.World

/-!
# C91 for objects made by any constructor
-/

namespace Verif.Props.Trace

open Verif Verif.SB Verif.Obj Verif.Dbl Verif.ObjD Verif.Session Verif.World
open Verif.Props.Session Verif.Props.World
open Verif.Props.Edges (Completes)
open Verif.Session (Stmt Look Reply run)
open Verif.Sch (Res)

/-- C91 for an object made from a check matrix or a detector error model, with or without correlations (`Made` gives its network). -/
theorem C91_made (A : Arithmetic) {c : Ctor} {t : Thing} (h : Made A c (some t)) (marked : List (Stmt × Bool)) (hd : ∀ m ∈ marked, m.2 = false → Idle m.1)
    (hp : ProperProgram A.mergeW t.net t.asked (marked.map (·.1))) :
    ∃ start, construct A c = .ok start ∧ ∃ replies o o', Completes (fun f => run A.mergeW f start (marked.map (·.1))) (.ok (replies, o)) ∧
      Completes (fun f => run A.mergeW f start (shorter marked)) (.ok (keptOf marked replies, o')) ∧ replies.length = marked.length := by
  obtain ⟨o, e, g, hs, -⟩ := made_is h
  exact ⟨o, e, trace_core (W := unbounded) A.mergeW marked _ _ _ _ _ _ _ id hs hs hp (fun m _ => works_of m.1 m.2) hd⟩

/-- The same for the library as compiled, with its 32-bit wrapped radius. -/
theorem C91_made_int32 (A : Arithmetic) {c : Ctor} {t : Thing} (h : Made A c (some t)) (marked : List (Stmt × Bool)) (hd : ∀ m ∈ marked, m.2 = false → Idle m.1)
    (hp : ProperProgram A.mergeW t.net t.asked (marked.map (·.1))) (hn : ∀ m ∈ moments A.mergeW t.net (marked.map (·.1)), Asks m.2 → m.1.Small) :
    ∃ start, construct A c = .ok start ∧ ∃ replies o o', Completes (fun f => run (W := int32) A.mergeW f start (marked.map (·.1))) (.ok (replies, o)) ∧
      Completes (fun f => run (W := int32) A.mergeW f start (shorter marked)) (.ok (keptOf marked replies, o')) ∧ replies.length = marked.length := by
  obtain ⟨o, e, g, hs, -⟩ := made_is h
  exact ⟨o, e, trace_core (W := int32) A.mergeW marked _ _ _ _ _ _ _ id hs hs hp (fun m hm => works_small (hn m hm)) hd⟩

/-- C91 for the rows of a batch, for an object made by any of these constructors. -/
theorem C91_made_rows (A : Arithmetic) {c : Ctor} {t : Thing} (h : Made A c (some t)) (prog : List Stmt) (ps pp corr : Bool) (cols : Nat) (rows : List (List (BitVec 8))) (z : Syn.Arr)
    (i : Nat) (row : List (BitVec 8)) (hi : rows[i]? = some row) (hz : ∀ x, Fires z x ↔ ShotFires ps row x) (hsz : Shaped (t.net.afterAll A.mergeW prog) z)
    (hsh : ShotsShaped (t.net.afterAll A.mergeW prog) ps cols)
    (hp : ProperProgram A.mergeW t.net t.asked (prog ++ [.decodeBatch ps pp true corr cols rows, .decode z true corr])) :
    ∃ start, construct A c = .ok start ∧ ∃ replies rb rd o,
      Completes (fun f => run A.mergeW f start (prog ++ [.decodeBatch ps pp true corr cols rows, .decode z true corr])) (.ok (replies ++ [rb, rd], o)) ∧
      ((∃ outs ws out row w, rb = .rowsAndWeights outs ws ∧ outs[i]? = some out ∧ ws[i]? = some w ∧ rd = .pair row w ∧ Written pp row out) ∨ rb = .raised) := by
  obtain ⟨o, e, g, hs, -⟩ := made_is h
  obtain ⟨asked, g, rs, o1, c1, hs, hp, hw⟩ := start_of (W := unbounded) A.mergeW _ prog _ _ _ _ _ hs hp fun m _ => works_of m.1 m.2
  obtain ⟨rb, rd, o', c2, h⟩ := rows_core (W := unbounded) A.mergeW hs hi hz hsz hsh hp hw
  exact ⟨o, e, rs, rb, rd, o', run_append c1 c2, h⟩

/-- The same for the library as compiled. -/
theorem C91_made_rows_int32 (A : Arithmetic) {c : Ctor} {t : Thing} (h : Made A c (some t)) (prog : List Stmt) (ps pp corr : Bool) (cols : Nat) (rows : List (List (BitVec 8)))
    (z : Syn.Arr) (i : Nat) (row : List (BitVec 8)) (hi : rows[i]? = some row) (hz : ∀ x, Fires z x ↔ ShotFires ps row x) (hsz : Shaped (t.net.afterAll A.mergeW prog) z)
    (hsh : ShotsShaped (t.net.afterAll A.mergeW prog) ps cols)
    (hp : ProperProgram A.mergeW t.net t.asked (prog ++ [.decodeBatch ps pp true corr cols rows, .decode z true corr]))
    (hn : ∀ m ∈ moments A.mergeW t.net (prog ++ [.decodeBatch ps pp true corr cols rows, .decode z true corr]), Asks m.2 → m.1.Small) :
    ∃ start, construct A c = .ok start ∧ ∃ replies rb rd o,
      Completes (fun f => run (W := int32) A.mergeW f start (prog ++ [.decodeBatch ps pp true corr cols rows, .decode z true corr])) (.ok (replies ++ [rb, rd], o)) ∧
      ((∃ outs ws out row w, rb = .rowsAndWeights outs ws ∧ outs[i]? = some out ∧ ws[i]? = some w ∧ rd = .pair row w ∧ Written pp row out) ∨ rb = .raised) := by
  obtain ⟨o, e, g, hs, -⟩ := made_is h
  obtain ⟨asked, g, rs, o1, c1, hs, hp, hw⟩ := start_of (W := int32) A.mergeW _ prog _ _ _ _ _ hs hp fun m hm => works_small (hn m hm)
  obtain ⟨rb, rd, o', c2, h⟩ := rows_core (W := int32) A.mergeW hs hi hz hsz hsh hp hw
  exact ⟨o, e, rs, rb, rd, o', run_append (W := int32) c1 c2, h⟩

/-! ## Examples -/

/-- Questions to `repNet`, some of them left out. -/
def repMarked : List (Stmt × Bool) :=
  [(.decode (.d1 [1, 0]) true false, false), (.matchedDict (.d1 [1, 1]), false), (.look .numEdges, false), (.decode (.d1 [1, 1]) true false, true), (.setBoundaryNodes {1}, true)]

theorem rep_fine : repNet.Fine := fine_of (by decide +kernel) (by decide +kernel) (by decide +kernel) (by decide +kernel) (by decide +kernel) (by decide +kernel) (by decide +kernel)

theorem rep_questions (asked : Prop) : ProperProgram World.plain.mergeW repNet asked (repMarked.map (·.1)) := by
  refine proper_step (N' := repNet) rfl (ready_plain rep_fine) fun _ => ?_
  refine proper_step (N' := repNet) rfl rep_fine fun _ => ?_
  refine proper_step (N' := repNet) rfl trivial fun _ => ?_
  refine proper_step (N' := repNet) rfl (ready_plain rep_fine) fun _ => ?_
  exact ⟨trivial, trivial⟩

theorem rep_idle : ∀ m ∈ repMarked, m.2 = false → Idle m.1 := by
  intro m hm hf
  simp only [repMarked, List.mem_cons, List.not_mem_nil, or_false] at hm
  rcases hm with rfl | rfl | rfl | rfl | rfl
  exacts [.inl trivial, .inl trivial, .inr ⟨_, rfl⟩, (by cases hf), (by cases hf)]

example := C91_made World.plain rep_made repMarked rep_idle (rep_questions _)
example := C91_made_int32 World.plain rep_made repMarked rep_idle (rep_questions _) (by
  have h : ∀ N ∈ (moments World.plain.mergeW repNet (repMarked.map (·.1))).map Prod.fst, N.nodes ≤ 65 := by decide +kernel
  exact fun m hm _ => .inl (h m.1 (List.mem_map_of_mem hm)))

theorem rep_rows (asked : Prop) : ProperProgram World.plain.mergeW repNet asked
    ([] ++ [.decodeBatch false true true false 2 [[1#8, 1#8], [1#8, 0#8]], .decode (.d1 [1, 0]) true false]) := by
  refine proper_step (N' := repNet) rfl ⟨ready_plain rep_fine, ?_⟩ fun _ => ?_
  · intro row hr x hx
    have : ∀ row ∈ [[1#8, 1#8], [1#8, 0#8]], ∀ x ∈ readRow false row, x < 2 := by decide +kernel
    exact this row hr x ((fires_iff false row x).2 hx)
  exact proper_step (N' := repNet) rfl (ready_plain rep_fine) fun _ => trivial

theorem rep_row : ∀ x, Fires (.d1 [1, 0]) x ↔ ShotFires false [1#8, 0#8] x := by
  intro x
  rw [← fires_iff]
  have h : readRow false [1#8, 0#8] = [0] := by decide +kernel
  rw [h]
  simp only [Fires]
  rcases x with _ | _ | x <;> simp

example := C91_made_rows World.plain rep_made [] false true false 2 [[1#8, 1#8], [1#8, 0#8]] (.d1 [1, 0]) 1 [1#8, 0#8] rfl rep_row
  (by show Shaped repNet _; unfold Shaped; decide +kernel) (by show ShotsShaped repNet _ _; unfold ShotsShaped; decide +kernel) (rep_rows _)
example := C91_made_rows_int32 World.plain rep_made [] false true false 2 [[1#8, 1#8], [1#8, 0#8]] (.d1 [1, 0]) 1 [1#8, 0#8] rfl rep_row
  (by show Shaped repNet _; unfold Shaped; decide +kernel) (by show ShotsShaped repNet _ _; unfold ShotsShaped; decide +kernel) (rep_rows _) (by
  have h : ∀ N ∈ (moments World.plain.mergeW repNet ([] ++ [.decodeBatch false true true false 2 [[1#8, 1#8], [1#8, 0#8]], .decode (.d1 [1, 0]) true false])).map Prod.fst, N.nodes ≤ 65 := by
    decide +kernel
  exact fun m hm _ => .inl (h m.1 (List.mem_map_of_mem hm)))

end Verif.Props.Trace
