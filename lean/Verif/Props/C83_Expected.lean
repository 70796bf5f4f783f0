import Verif.Model.Holders

/-!
# C83: an expected is a value or an error, and its content lives exactly as long as it should
-/

namespace Edsp.Props

open Edsp.Holder Edsp.Spec

variable {α ε : Type}

/-- The object that represents a value or an error. -/
def repE : Except ε α → Exp α ε
  | .ok v => ⟨true, .val v⟩
  | .error e => ⟨false, .err e⟩

/-- The table of objects that represents a table of contents. -/
def repEs (w : List (Option (Except ε α))) : ExpWorld α ε := w.map (Option.map repE)

private theorem repEs_live {w : List (Option (Except ε α))} {i : Nat} (o : Option (Except ε α))
    (h : live w i = o) : live (repEs w) i = o.map repE := by
  subst h
  unfold live repEs
  rw [List.getElem?_map]
  cases w[i]? with
  | none => rfl
  | some x => cases x <;> rfl

private theorem repEs_obj {w : List (Option (Except ε α))} {i : Nat} {o : Except ε α} (h : live w i = some o) :
    obj (repEs w) i = .ok (repE o) := by
  have h1 := repEs_live _ h
  unfold live at h1
  unfold obj
  cases hw : (repEs w)[i]? with
  | none => rw [hw] at h1; cases h1
  | some x =>
    rw [hw] at h1
    have : x = some (repE o) := h1
    subst this
    rfl

private theorem repEs_set (w : List (Option (Except ε α))) (i : Nat) (o : Option (Except ε α)) :
    (repEs w).set i (o.map repE) = repEs (w.set i o) := by
  unfold repEs; rw [List.map_set]

private theorem repEs_set_some (w : List (Option (Except ε α))) (i : Nat) (o : Except ε α) :
    (repEs w).set i (some (repE o)) = repEs (w.set i (some o)) := repEs_set w i (some o)

private theorem repEs_append (w : List (Option (Except ε α))) (o : Except ε α) :
    repEs w ++ [some (repE o)] = repEs (w ++ [some o]) := by
  unfold repEs; rw [List.map_append]; rfl

private theorem assign_rep (b a : Except ε α) :
    Exp.assign false (repE b) (repE a) = .ok (repE b, false) := by
  cases a <;> cases b <;> rfl

private theorem swap_rep (a b : Except ε α) :
    Exp.swap false (repE a) (repE b) = .ok (repE b, repE a, false) := by
  cases a <;> cases b <;> rfl

private theorem copy_rep (a : Except ε α) : Exp.copyOf (repE a) = .ok (repE a) := by
  cases a <;> rfl

private theorem move_rep (mvT : α → α) (mvE : ε → ε) (a : Except ε α) :
    Exp.moveOf mvT mvE (repE a) = .ok (repE a, repE (movedFrom mvT mvE a)) := by
  cases a <;> rfl

private theorem destroy_rep (a : Except ε α) : Exp.destroy (repE a) = .ok () := by
  cases a <;> rfl

private theorem live_set {w : List (Option (Except ε α))} {i j : Nat} {a b : Except ε α} (hi : live w i = some a)
    (hj : live w j = some b) (c : Except ε α) : ∃ d, live (w.set j (some c)) i = some d := by
  unfold live at *
  by_cases e : j = i
  · subst e
    rw [List.getElem?_set_self']
    cases hw : w[j]? with
    | none => rw [hw] at hi; cases hi
    | some x => exact ⟨c, rfl⟩
  · rw [List.getElem?_set_ne e]; exact ⟨a, hi⟩

private theorem step_refinesE (mvT : α → α) (mvE : ε → ε) {w w' : List (Option (Except ε α))}
    {op : ExpOp α ε} {t : Bool} (h : expStep mvT mvE w op = some (w', t)) :
    (repEs w).step mvT mvE op = .ok (repEs w', t) := by
  cases op with
  | newValue v =>
    simp only [expStep, Option.some.injEq, Prod.mk.injEq] at h
    obtain ⟨rfl, rfl⟩ := h
    rw [← repEs_append]; rfl
  | newError e =>
    simp only [expStep, Option.some.injEq, Prod.mk.injEq] at h
    obtain ⟨rfl, rfl⟩ := h
    rw [← repEs_append]; rfl
  | newCopy i throws =>
    cases hi : live w i with
    | none => simp [expStep, hi] at h
    | some o =>
      simp only [expStep, hi, Option.bind_eq_bind, Option.bind_some] at h
      simp only [ExpWorld.step, repEs_obj hi, bind, Except.bind, copy_rep]
      cases throws <;> (injection h with h; injection h with h1 h2; subst h1; subst h2)
      · rw [← repEs_append]; rfl
      · rfl
  | newMove i =>
    cases hi : live w i with
    | none => simp [expStep, hi] at h
    | some o =>
      simp only [expStep, hi, Option.bind_eq_bind, Option.bind_some] at h
      injection h with h; injection h with h1 h2
      subst h1; subst h2
      simp only [ExpWorld.step, repEs_obj hi, bind, Except.bind, move_rep]
      rw [← repEs_append, ← repEs_set_some]
      rfl
  | destroy i =>
    cases hi : live w i with
    | none => simp [expStep, hi] at h
    | some o =>
      simp only [expStep, hi, Option.bind_eq_bind, Option.bind_some] at h
      injection h with h; injection h with h1 h2
      subst h1; subst h2
      simp only [ExpWorld.step, repEs_obj hi, bind, Except.bind, destroy_rep]
      rw [← repEs_set]
      rfl
  | copyAssign i j throws =>
    cases hi : live w i with
    | none => simp [expStep, hi] at h
    | some a =>
      cases hj : live w j with
      | none => simp [expStep, hi, hj] at h
      | some b =>
        simp only [expStep, hi, hj, Option.bind_eq_bind, Option.bind_some] at h
        simp only [ExpWorld.step, repEs_obj hi, repEs_obj hj, bind, Except.bind, copy_rep, assign_rep]
        cases throws <;> (injection h with h; injection h with h1 h2; subst h1; subst h2)
        · rw [← repEs_set_some]; rfl
        · rfl
  | moveAssign i j =>
    cases hi : live w i with
    | none => simp [expStep, hi] at h
    | some a =>
      cases hj : live w j with
      | none => simp [expStep, hi, hj] at h
      | some b =>
        simp only [expStep, hi, hj, Option.bind_eq_bind, Option.bind_some] at h
        injection h with h; injection h with h1 h2
        subst h1; subst h2
        obtain ⟨d, hd⟩ := live_set hi hj (movedFrom mvT mvE b)
        simp only [ExpWorld.step, repEs_obj hj, bind, Except.bind, move_rep, repEs_set_some, repEs_obj hd,
          assign_rep]
        rfl
  | assignValue i v throws =>
    cases hi : live w i with
    | none => simp [expStep, hi] at h
    | some a =>
      simp only [expStep, hi, Option.bind_eq_bind, Option.bind_some] at h
      have e : (Exp.ofValue v : Except Fault (Exp α ε)) = .ok (repE (.ok v)) := rfl
      simp only [ExpWorld.step, repEs_obj hi, bind, Except.bind, e, assign_rep]
      cases throws <;> (injection h with h; injection h with h1 h2; subst h1; subst h2)
      · rw [← repEs_set_some]; rfl
      · rfl
  | assignError i v throws =>
    cases hi : live w i with
    | none => simp [expStep, hi] at h
    | some a =>
      simp only [expStep, hi, Option.bind_eq_bind, Option.bind_some] at h
      have e : (Exp.ofError v : Except Fault (Exp α ε)) = .ok (repE (.error v)) := rfl
      simp only [ExpWorld.step, repEs_obj hi, bind, Except.bind, e, assign_rep]
      cases throws <;> (injection h with h; injection h with h1 h2; subst h1; subst h2)
      · rw [← repEs_set_some]; rfl
      · rfl
  | swap i j =>
    cases hi : live w i with
    | none => simp [expStep, hi] at h
    | some a =>
      cases hj : live w j with
      | none => simp [expStep, hi, hj] at h
      | some b =>
        simp only [expStep, hi, hj, Option.bind_eq_bind, Option.bind_some] at h
        injection h with h; injection h with h1 h2
        subst h1; subst h2
        simp only [ExpWorld.step, repEs_obj hi, repEs_obj hj, bind, Except.bind, swap_rep]
        rw [← repEs_set_some, ← repEs_set_some]
        rfl

/-- **C83, every program with expecteds whose moves do not throw.** Whatever a program does with any number
of expecteds, one assignment per expression: no content is read or destroyed that is not there, none is
overwritten or left behind, exceptions leave exactly the operations in which a construction throws, which
then change nothing, and afterwards every object has exactly the content the standard says. Missing:
contents whose moves throw, and chained assignments. -/
theorem C83_expected_partial (mvT : α → α) (mvE : ε → ε) {ops : List (ExpOp α ε)}
    {w' : List (Option (Except ε α))} {ts : List Bool} (h : expRun mvT mvE [] ops = some (w', ts)) :
    ∃ c, ExpWorld.run mvT mvE [] ops = .ok (c, ts) ∧ c.length = w'.length ∧
      ∀ i, (live w' i = none → live c i = none) ∧
        (∀ v, live w' i = some (.ok v) → ∃ x, live c i = some x ∧ x.has = true ∧ x.cell = .val v) ∧
        (∀ e, live w' i = some (.error e) → ∃ x, live c i = some x ∧ x.has = false ∧ x.cell = .err e) := by
  have main : ∀ (ops : List (ExpOp α ε)) w w' ts, expRun mvT mvE w ops = some (w', ts) →
      ExpWorld.run mvT mvE (repEs w) ops = .ok (repEs w', ts) := by
    intro ops
    induction ops with
    | nil =>
      intro w w' ts h
      injection h with h; injection h with h1 h2
      subst h1; subst h2; rfl
    | cons op ops ih =>
      intro w w' ts h
      simp only [expRun, Option.bind_eq_bind] at h
      cases h1 : expStep mvT mvE w op with
      | none => rw [h1] at h; cases h
      | some r =>
        obtain ⟨w1, t⟩ := r
        rw [h1, Option.bind_some] at h
        cases h2 : expRun mvT mvE w1 ops with
        | none => simp only [h2] at h; cases h
        | some r2 =>
          obtain ⟨w2, ts2⟩ := r2
          simp only [h2, Option.bind_some] at h
          injection h with h; injection h with h3 h4
          subst h3; subst h4
          simp only [ExpWorld.run, bind, Except.bind, step_refinesE mvT mvE h1, ih w1 w2 ts2 h2]
          rfl
  refine ⟨repEs w', main ops [] w' ts h, by unfold repEs; rw [List.length_map], fun i => ⟨fun hi => ?_,
    fun v hv => ⟨_, repEs_live _ hv, rfl, rfl⟩, fun e he => ⟨_, repEs_live _ he, rfl, rfl⟩⟩⟩
  exact repEs_live _ hi

/-- **C83, nothing is left behind**: after an assignment the temporary that received the old content leaves an empty
storage, and so does the destructor of an object. -/
theorem C83_nothing_left (b a : Except ε α) :
    (∃ o, Exp.assignLeaving false (repE b) (repE a) = .ok (o, .raw, false)) ∧
    Exp.destroyed (repE a) = .ok .raw := by
  cases a <;> cases b <;> exact ⟨⟨_, rfl⟩, rfl⟩

/-- **C83, a chained assignment is violated**: `(a = b) = c` leaves `a` with the content of `b`, as the first
assignment returns a copy of `a` instead of `a`. -/
theorem C83_chain_violates (a b c : Except ε α) (h : b ≠ c) :
    ∃ w, ExpWorld.chainAssign (repEs [some a, some b, some c]) 0 1 2 = .ok w ∧
      live w 0 = some (repE b) ∧ live w 0 ≠ some (repE c) := by
  refine ⟨repEs [some b, some b, some c], by cases a <;> cases b <;> cases c <;> rfl, rfl, fun e => h ?_⟩
  have e1 : repE b = repE c := by injection e
  cases b <;> cases c <;> simp_all [repE]

/-- **C83, a throwing move is violated**: if the move constructor of the value throws while a value and an
error are exchanged, the object with the error is left without content, so that its destructor destroys an
object that does not exist; assignments do the same. -/
theorem C83_throw_violates (v : α) (e : ε) :
    (∃ a b, Exp.swap true (repE (.ok v)) (repE (.error e)) = .ok (a, b, true) ∧
      b.destroy = .error .dangling) ∧
    ∃ b, Exp.assign true (repE (.ok v)) (repE (.error e)) = .ok (b, true) ∧ b.destroy = .error .dangling :=
  ⟨⟨_, _, rfl, rfl⟩, ⟨_, rfl, rfl⟩⟩

/-- A program with moves, an exception, a swap and a self assignment. -/
example : expRun (α := Nat) (ε := Bool) (fun _ => 0) id [] [.newValue 5, .newError true, .swap 0 1, .newMove 1,
    .assignValue 0 9 true, .copyAssign 0 2 false, .moveAssign 2 2, .assignError 1 false false, .destroy 0] =
    some ([none, some (.error false), some (.ok 5)],
      [false, false, false, false, true, false, false, false, false]) := rfl

end Edsp.Props
