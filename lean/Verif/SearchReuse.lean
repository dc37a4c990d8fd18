import Verif.SearchPath

/-!
# A search does not depend on earlier searches

Between two searches `distance_from_source` and `target_type` keep values of earlier searches (`Fresh`).  A search reads the distance of a node only
after it has set it, so two searches from states that differ in these values only return the same edges.
-/

namespace Verif.Sch

open Verif Verif.Graph Verif.Track Verif.RadixHeap

/-- The state with other distances. -/
def SS.redist (s : SS) (d : Nat → Int) : SS := { s with dist := d }

/-- `b` is `a` with other distances of nodes that are not reached; and only reached nodes have ever asked for a wake-up call. -/
structure DSim (a b : SS) : Prop where
  same : b = a.redist b.dist
  dist : ∀ u, a.reached u ≠ none → b.dist u = a.dist u
  calls : ∀ u, a.reached u = none → a.w.tr u = {}

/-- Both ended alike. -/
inductive DRes {α : Type} (P : α → α → Prop) : Res α → Res α → Prop where
  | ok {a b : α} (h : P a b) : DRes P (.ok a) (.ok b)
  | throws : DRes P .throws .throws
  | ub : DRes P .ub .ub

/-- The same, or both are still running. -/
inductive DOpt {α : Type} (P : α → α → Prop) : Option (Res α) → Option (Res α) → Prop where
  | none : DOpt P none none
  | some {x y : Res α} (h : DRes P x y) : DOpt P (some x) (some y)

theorem DRes.bind {α β : Type} {P : α → α → Prop} {Q : β → β → Prop} {x y : Res α} {f f' : α → Res β} (h : DRes P x y)
    (hf : ∀ a b, P a b → DRes Q (f a) (f' b)) : DRes Q (x.bind f) (y.bind f') := by
  cases h with
  | ok h => exact hf _ _ h
  | throws => exact .throws
  | ub => exact .ub

theorem scan_redist {s : SS} {d : Nat → Int} (h : ∀ v, s.reached v ≠ none → d v = s.dist v) {u : Nat} (hu : d u = s.dist u) :
    ∀ (l : List SNbr) (i : Nat) (best : Option (Nat × Int)), scan (s.redist d) u i l best = scan s u i l best := by
  intro l
  induction l with
  | nil => intro i best; rfl
  | cons n ns ih =>
    intro i best
    simp only [scan]
    cases n.target with
    | none =>
      simp only [ih]
      simp only [SS.redist, hu]
    | some v =>
      simp only [ih]
      simp only [SS.redist, hu]
      by_cases h1 : s.reached v = s.reached u
      · simp only [h1, if_true]
      · by_cases h2 : s.reached v = none
        · simp only [h2, if_true]
        · simp only [h1, h2, if_false, h v h2]

theorem findNext_sim {g : SGraph} {a b : SS} (h : DSim a b) {u : Nat} (hu : a.reached u ≠ none) : findNext g b u = findNext g a u := by
  rw [h.same]
  simp only [findNext]
  cases g.nodes[u]? with
  | none => rfl
  | some l => exact scan_redist h.dist (h.dist u hu) l 0 none

theorem wish_tr (w : World Nat) {u v : Nat} (t : Int) (h : v ≠ u) : (wish w u t).tr v = w.tr v := by
  simp only [wish, World.step]
  exact Function.update_of_ne h _ _

theorem noWish_tr (w : World Nat) {u v : Nat} (h : v ≠ u) : (noWish w u).tr v = w.tr v := by
  simp only [noWish, World.step]
  exact Function.update_of_ne h _ _

/-- The wake-up calls of a reached node may be changed. -/
theorem DSim.call {a b : SS} (h : DSim a b) {w : World Nat} (hw : ∀ v, a.reached v = none → w.tr v = a.w.tr v) : DSim { a with w := w } { b with w := w } := by
  refine ⟨?_, h.dist, fun v hv => (hw v hv).trans (h.calls v hv)⟩
  have := h.same
  obtain ⟨_, _, _, _, _, _⟩ := a
  obtain ⟨_, _, _, _, _, _⟩ := b
  simp only [SS.redist, SS.mk.injEq] at this ⊢
  simp [this]

theorem DSim.w {a b : SS} (h : DSim a b) : b.w = a.w := by rw [h.same]; rfl
theorem DSim.reached {a b : SS} (h : DSim a b) : b.reached = a.reached := by rw [h.same]; rfl
theorem DSim.pred {a b : SS} (h : DSim a b) : b.pred = a.pred := by rw [h.same]; rfl
theorem DSim.reachedNodes {a b : SS} (h : DSim a b) : b.reachedNodes = a.reachedNodes := by rw [h.same]; rfl
theorem DSim.toBoundary {a b : SS} (h : DSim a b) : b.toBoundary = a.toBoundary := by rw [h.same]; rfl

theorem reschedule_sim {g : SGraph} {a b : SS} (h : DSim a b) {u : Nat} (hu : a.reached u ≠ none) : DRes DSim (reschedule g a u) (reschedule g b u) := by
  simp only [reschedule, findNext_sim h hu, h.w]
  cases findNext g a u with
  | ub => exact .ub
  | throws => exact .throws
  | ok o =>
    cases o with
    | none => exact .ok (h.call fun v hv => noWish_tr _ fun e => hu (e ▸ hv))
    | some r => exact .ok (h.call fun v hv => wish_tr _ _ fun e => hu (e ▸ hv))

/-- A node is reached. -/
theorem DSim.reach {a b : SS} (h : DSim a b) (v : Nat) (r p : Option Nat) (d : Int) (l : List Nat) :
    DSim { a with reached := Function.update a.reached v r, pred := Function.update a.pred v p, dist := Function.update a.dist v d, reachedNodes := l }
      { b with reached := Function.update b.reached v r, pred := Function.update b.pred v p, dist := Function.update b.dist v d, reachedNodes := l } ∨ r = none := by
  cases r with
  | none => exact .inr rfl
  | some r =>
    left
    refine ⟨?_, fun u hu => ?_, fun u hu => ?_⟩
    · simp only [SS.redist, h.reached, h.pred, h.toBoundary, h.w]
    · by_cases e : u = v
      · subst e; simp
      · simp only [Function.update_of_ne e] at hu ⊢
        exact h.dist u hu
    · by_cases e : u = v
      · subst e; simp at hu
      · simp only [Function.update_of_ne e] at hu
        exact h.calls u hu

theorem startAt_sim {g : SGraph} {a b : SS} (h : DSim a b) (src : Nat) : DRes DSim (startAt g a src) (startAt g b src) := by
  have := (h.reach src (some src) none 0 (a.reachedNodes ++ [src])).resolve_right (by simp)
  rw [← h.reachedNodes] at this
  unfold startAt
  rw [h.reachedNodes] at this ⊢
  exact reschedule_sim this (by simp)

theorem indexOf_nbr {g : SGraph} {v j : Nat} {t : Option Nat} (h : indexOf g v t = .ok j) : ∃ n, nbr g v j = some n ∧ n.target = t := by
  unfold indexOf at h
  unfold nbr
  cases hl : g.nodes[v]? with
  | none => rw [hl] at h; cases h
  | some l =>
    rw [hl] at h
    simp only at h
    cases hi : l.findIdx? (fun n => n.target == t) with
    | none => rw [hi] at h; cases h
    | some i =>
      rw [hi] at h
      cases h
      rw [List.findIdx?_eq_some_iff_getElem] at hi
      obtain ⟨h1, h2, -⟩ := hi
      exact ⟨l[j], by simp [h1], by simpa using h2⟩

theorem explore_sim {g : SGraph} {a b : SS} (h : DSim a b) {u v j : Nat} (hj : indexOf g v (some u) = .ok j) (hu : a.reached u ≠ none) :
    DRes DSim (explore g a v j) (explore g b v j) := by
  obtain ⟨n, h1, h2⟩ := indexOf_nbr hj
  have hd := h.dist u hu
  have := (h.reach v (a.reached u) (some j) (n.weight + a.dist u) (a.reachedNodes ++ [v])).resolve_right hu
  simp only [explore, h1, h2, h.reached, h.reachedNodes, hd]
  rw [h.reached] at this
  exact reschedule_sim this (by simpa using hu)

/-- The states are related and the collisions the same. -/
def LookRel (x y : SS × Option (Nat × Nat)) : Prop := DSim x.1 y.1 ∧ y.2 = x.2

theorem look_sim {g : SGraph} {a b : SS} (h : DSim a b) {u : Nat} (hu : a.reached u ≠ none) : DRes LookRel (look g a u) (look g b u) := by
  simp only [look, findNext_sim h hu]
  cases findNext g a u with
  | ub => exact .ub
  | throws => exact .throws
  | ok o =>
    cases o with
    | none => exact .ok ⟨h, rfl⟩
    | some r =>
      obtain ⟨i, t⟩ := r
      simp only [Res.bind, h.w]
      by_cases ht : t = a.w.q.cur
      · simp only [ht, if_true]
        cases nbr g u i with
        | none => exact .ub
        | some n =>
          simp only
          cases n.target with
          | none => exact .ok ⟨h, rfl⟩
          | some v =>
            simp only [h.reached]
            by_cases hc : a.reached u ≠ none ∧ a.reached v = none
            · rw [if_pos hc, if_pos hc]
              cases hj : indexOf g v (some u) with
              | ub => exact .ub
              | throws => exact .throws
              | ok j =>
                simp only
                have hx := explore_sim h hj hu
                have hr : ∀ s', explore g a v j = .ok s' → s'.reached u ≠ none := by
                  intro s' hs'
                  obtain ⟨n, h1, h2⟩ := indexOf_nbr hj
                  simp only [explore, h1, h2] at hs'
                  unfold reschedule at hs'
                  have key : s'.reached = Function.update a.reached v (a.reached u) := by
                    revert hs'
                    generalize findNext g _ v = x
                    intro hs'
                    cases x with
                    | ub => cases hs'
                    | throws => cases hs'
                    | ok o =>
                      cases o with
                      | none => cases hs'; rfl
                      | some r => cases hs'; rfl
                  rw [key]
                  by_cases e : u = v
                  · subst e; simpa using hu
                  · rwa [Function.update_of_ne e]
                revert hx hr
                generalize explore g a v j = x
                generalize explore g b v j = y
                intro hx hr
                cases hx with
                | ub => exact .ub
                | throws => exact .throws
                | ok hs =>
                  refine .ok ⟨?_, rfl⟩
                  simp only [hs.w]
                  exact hs.call fun z hz => wish_tr _ _ fun e => hr _ rfl (e ▸ hz)
            · rw [if_neg hc, if_neg hc]; exact .ok ⟨h, rfl⟩
      · simp only [ht, if_false]
        exact .ok ⟨h.call fun v hv => wish_tr _ _ fun e => hu (e ▸ hv), rfl⟩

/-- A node that never asked is not woken. -/
theorem deliver_ring {w w' : World Nat} {u : Nat} {t : Int} (h : w.step .deliver = some (.ring u t, w')) : w.tr u ≠ {} := by
  intro hu
  simp only [World.step] at h
  split at h
  · cases h
  · cases h
  · rename_i e q' hd
    by_cases he : e.payload = u
    · have hdec : dequeueDecision (w.tr e.payload) e q' = (false, {}, q') := by
        rw [he, hu]; rfl
      rw [hdec] at h
      simp at h
    · split at h
      · cases h; exact he rfl
      · cases h

theorem loop_sim {g : SGraph} : ∀ (f : Nat) {a b : SS}, DSim a b → DOpt LookRel (loop g f a) (loop g f b) := by
  intro f
  induction f with
  | zero => intro a b _; exact .none
  | succ f ih =>
    intro a b h
    simp only [loop, h.w]
    cases hs : a.w.step .deliver with
    | none => exact .some .ub
    | some r =>
      obtain ⟨out, w'⟩ := r
      have hq : DSim { a with w := w' } { b with w := w' } := by
        refine h.call fun v hv => ?_
        rw [h.calls v hv]
        exact deliver_tr _ _ _ hs v (h.calls v hv)
      cases out with
      | ring u t =>
        simp only
        have hu : a.reached u ≠ none := fun e => deliver_ring hs (h.calls u e)
        have hl := look_sim (g := g) hq (u := u) hu
        revert hl
        generalize look g { a with w := w' } u = x
        generalize look g { b with w := w' } u = y
        intro hl
        cases hl with
        | ub => exact .some .ub
        | throws => exact .some .throws
        | ok hr =>
          rename_i p q
          obtain ⟨s, c⟩ := p
          obtain ⟨s', c'⟩ := q
          obtain ⟨h1, h2⟩ := hr
          simp only at h1 h2
          subst h2
          cases c' with
          | none => exact ih h1
          | some c => exact .some (.ok ⟨h1, rfl⟩)
      | silent => exact ih hq
      | idle => exact .some (.ok ⟨h, rfl⟩)
      | unit => exact .some (.ok ⟨h, rfl⟩)

/-- The two states are related whatever the target type is set to. -/
def Alike (a b : SS) : Prop := ∀ x, DSim { a with toBoundary := x } { b with toBoundary := x }

theorem runUntilCollision_sim {g : SGraph} {a b : SS} (h : Alike a b) (f src : Nat) (dst : Option Nat) :
    DOpt LookRel (runUntilCollision g f a src dst) (runUntilCollision g f b src dst) := by
  have fin : ∀ {x y : Res SS}, DRes DSim x y → DOpt LookRel
      (match x with | .ok s => loop g f s | .throws => some .throws | .ub => some .ub)
      (match y with | .ok s => loop g f s | .throws => some .throws | .ub => some .ub) := by
    intro x y hxy
    cases hxy with
    | ok h => exact loop_sim f h
    | throws => exact .some .throws
    | ub => exact .some .ub
  cases dst with
  | none => exact fin (startAt_sim (h true) src)
  | some d => exact fin ((startAt_sim (h false) d).bind fun a b h => startAt_sim h src)

theorem traceBack_sim {g : SGraph} {a b : SS} (h : b.pred = a.pred) : ∀ f u, traceBack g b f u = traceBack g a f u := by
  intro f
  induction f with
  | zero => intro u; rfl
  | succ f ih =>
    intro u
    simp only [traceBack, h, ih]

theorem traces_sim {g : SGraph} {a b : SS} (h : b.pred = a.pred) (f : Nat) (c : Nat × Nat) : traces g f b c = traces g f a c := by
  simp only [traces, traceBack_sim h]

theorem resetS_sim {a b : SS} (h : DSim a b) : DRes Alike (resetS a) (resetS b) := by
  simp only [resetS, h.w, h.reached, h.pred, h.reachedNodes]
  cases a.w.q.reset with
  | none => exact .ub
  | some q =>
    refine .ok fun x => ⟨rfl, fun u hu => ?_, fun u hu => ?_⟩
    · simp only at hu ⊢
      by_cases hm : u ∈ a.reachedNodes
      · simp [hm] at hu
      · rw [if_neg hm] at hu; exact h.dist u hu
    · simp only at hu ⊢
      by_cases hm : u ∈ a.reachedNodes
      · simp [hm]
      · rw [if_neg hm] at hu ⊢; exact h.calls u hu

/-- The returned values are the same, the states alike. -/
def PathRel {α : Type} (x y : α × SS) : Prop := y.1 = x.1 ∧ Alike x.2 y.2

theorem pathFromMiddle_sim {g : SGraph} {a b : SS} (h : Alike a b) (f src : Nat) (dst : Option Nat) :
    DOpt PathRel (pathFromMiddle g f a src dst) (pathFromMiddle g f b src dst) := by
  have hr := runUntilCollision_sim (g := g) h f src dst
  unfold pathFromMiddle
  revert hr
  generalize runUntilCollision g f a src dst = x
  generalize runUntilCollision g f b src dst = y
  intro hr
  cases hr with
  | none => exact .none
  | some hr =>
    cases hr with
    | throws => exact .some .throws
    | ub => exact .some .ub
    | ok hr =>
      rename_i p q
      obtain ⟨s, c⟩ := p
      obtain ⟨s', c'⟩ := q
      obtain ⟨h1, h2⟩ := hr
      simp only at h1 h2
      subst h2
      cases c' with
      | none => exact .some .ub
      | some c =>
        simp only [traces_sim h1.pred]
        cases traces g f s c with
        | none => exact .none
        | some r =>
          refine .some ?_
          cases r with
          | ub => exact .ub
          | throws => exact .throws
          | ok r => exact (resetS_sim h1).bind fun a b hab => .ok ⟨rfl, hab⟩

theorem pathFromSource_sim {g : SGraph} {a b : SS} (h : Alike a b) (f src : Nat) (dst : Option Nat) :
    DOpt PathRel (pathFromSource g f a src dst) (pathFromSource g f b src dst) := by
  have hr := runUntilCollision_sim (g := g) h f src dst
  unfold pathFromSource
  revert hr
  generalize runUntilCollision g f a src dst = x
  generalize runUntilCollision g f b src dst = y
  intro hr
  cases hr with
  | none => exact .none
  | some hr =>
    cases hr with
    | throws => exact .some .throws
    | ub => exact .some .ub
    | ok hr =>
      rename_i p q
      obtain ⟨s, c⟩ := p
      obtain ⟨s', c'⟩ := q
      obtain ⟨h1, h2⟩ := hr
      simp only at h1 h2
      subst h2
      cases c' with
      | none => exact .some .ub
      | some c =>
        simp only [traces_sim h1.pred]
        cases traces g f s c with
        | none => exact .none
        | some r =>
          refine .some ?_
          cases r with
          | ub => exact .ub
          | throws => exact .throws
          | ok r =>
            simp only [Res.bind]
            cases orient g src r.1 r.2 c with
            | ub => exact .ub
            | throws => exact .throws
            | ok es => exact (resetS_sim h1).bind fun a b hab => .ok ⟨rfl, hab⟩

theorem nodesFrom_sim {g : SGraph} {a b : SS} (h : Alike a b) (f src : Nat) (dst : Option Nat) :
    DOpt PathRel (nodesFrom g f a src dst) (nodesFrom g f b src dst) := by
  have hr := pathFromSource_sim (g := g) h f src dst
  unfold nodesFrom
  revert hr
  generalize pathFromSource g f a src dst = x
  generalize pathFromSource g f b src dst = y
  intro hr
  cases hr with
  | none => exact .none
  | some hr => exact .some (hr.bind fun x y hxy => .ok ⟨by simp only [hxy.1], hxy.2⟩)

theorem nodesOnPath_sim {g : SGraph} {a b : SS} (h : Alike a b) (f : Nat) (bnd : List Bool) (src dst : Option Nat) :
    DOpt PathRel (nodesOnPath g f a bnd src dst) (nodesOnPath g f b bnd src dst) := by
  unfold nodesOnPath
  split
  · split
    · exact .some .ub
    · exact nodesFrom_sim h _ _ _
  · split
    · exact .some .ub
    · rename_i v _
      have hr := nodesFrom_sim (g := g) h f v none
      revert hr
      generalize nodesFrom g f a v none = x
      generalize nodesFrom g f b v none = y
      intro hr
      cases hr with
      | none => exact .none
      | some hr => exact .some (hr.bind fun x y hxy => .ok ⟨by simp only [hxy.1], hxy.2⟩)
  · exact .some .throws
  · exact .some .ub

/-- Two flooders between searches are alike. -/
theorem fresh_alike {a b : SS} (ha : Fresh a) (hb : Fresh b) : Alike a b := by
  intro x
  refine ⟨?_, fun u hu => absurd (ha.reached u) hu, fun u _ => ?_⟩
  · simp only [SS.redist, funext ha.reached, funext hb.reached, funext ha.pred, funext hb.pred, ha.nodes, hb.nodes, ha.w, hb.w]
  · show a.w.tr u = {}
    rw [ha.w]; rfl

end Verif.Sch
