import Verif.Model.Holders

/-!
# C82: an optional is its value or nothing, and its value lives exactly as long as it should
-/

namespace Edsp.Props

open Edsp.Holder Edsp.Spec

variable {α : Type}

/-- The object that represents a value or nothing. -/
def repO (o : Option α) : Opt α := ⟨o.isSome, o⟩

/-- The table of objects that represents a table of values. -/
def repOs (w : List (Option (Option α))) : OptWorld α := w.map (Option.map repO)

theorem repOs_obj {w : List (Option (Option α))} {i : Nat} {o : Option α} (h : live w i = some o) :
    obj (repOs w) i = .ok (repO o) := by
  unfold live at h
  unfold obj repOs
  rw [List.getElem?_map]
  cases hw : w[i]? with
  | none => rw [hw] at h; cases h
  | some x =>
    cases x with
    | none => rw [hw] at h; cases h
    | some y =>
      rw [hw] at h
      injection h with h
      subst h
      rfl

theorem repOs_set (w : List (Option (Option α))) (i : Nat) (o : Option (Option α)) :
    (repOs w).set i (o.map repO) = repOs (w.set i o) := by
  unfold repOs; rw [List.map_set]

theorem repOs_set_some (w : List (Option (Option α))) (i : Nat) (o : Option α) :
    (repOs w).set i (some (repO o)) = repOs (w.set i (some o)) := repOs_set w i (some o)

theorem repOs_append (w : List (Option (Option α))) (o : Option α) :
    repOs w ++ [some (repO o)] = repOs (w ++ [some o]) := by
  unfold repOs; rw [List.map_append]; rfl

theorem repOs_self {w : List (Option (Option α))} {i : Nat} {o : Option α} (h : live w i = some o) :
    w.set i (some o) = w := by
  unfold live at h
  apply List.ext_getElem?
  intro k
  rw [List.getElem?_set]
  split
  · rename_i e; subst e
    cases hw : w[i]? with
    | none => rw [hw] at h; cases h
    | some x =>
      rw [hw] at h
      have : x = some o := h
      subst this
      rw [if_pos (List.getElem?_eq_some_iff.mp hw).1]
  · rfl

private theorem step_refines (dbg nt : Bool) (mv : α → α) {w w' : List (Option (Option α))} {op : OptOp α}
    {t : Bool} (hn : nt = false ∨ ¬ op.ThrowingCopy) (h : optStep mv w op = some (w', t)) :
    (repOs w).step dbg nt mv op = .ok (repOs w', t) := by
  cases op with
  | newEmpty =>
    simp only [optStep, Option.some.injEq, Prod.mk.injEq] at h
    obtain ⟨rfl, rfl⟩ := h
    simp only [OptWorld.step]
    rw [← repOs_append]; rfl
  | newValue v =>
    simp only [optStep, Option.some.injEq, Prod.mk.injEq] at h
    obtain ⟨rfl, rfl⟩ := h
    rw [← repOs_append]; rfl
  | newCopy i throws =>
    cases hi : live w i with
    | none => simp [optStep, hi] at h
    | some o =>
      simp only [optStep, hi, Option.bind_eq_bind, Option.bind_some] at h
      simp only [OptWorld.step, repOs_obj hi, bind, Except.bind]
      have : (repO o).has = o.isSome := rfl
      rw [this]
      by_cases c : (throws && o.isSome) = true
      · rw [if_pos c] at h ⊢
        injection h with h; injection h with h1 h2
        subst h1; subst h2; rfl
      · rw [if_neg c] at h ⊢
        injection h with h; injection h with h1 h2
        subst h1; subst h2
        rw [← repOs_append]
        cases o <;> rfl
  | newMove i =>
    cases hi : live w i with
    | none => simp [optStep, hi] at h
    | some o =>
      simp only [optStep, hi, Option.bind_eq_bind, Option.bind_some] at h
      injection h with h; injection h with h1 h2
      subst h1; subst h2
      simp only [OptWorld.step, repOs_obj hi, bind, Except.bind]
      rw [← repOs_append, ← repOs_set_some]
      cases o <;> rfl
  | destroy i =>
    cases hi : live w i with
    | none => simp [optStep, hi] at h
    | some o =>
      simp only [optStep, hi, Option.bind_eq_bind, Option.bind_some] at h
      injection h with h; injection h with h1 h2
      subst h1; subst h2
      simp only [OptWorld.step, repOs_obj hi, bind, Except.bind]
      rw [← repOs_set]
      cases o <;> rfl
  | reset i =>
    cases hi : live w i with
    | none => simp [optStep, hi] at h
    | some o =>
      simp only [optStep, hi, Option.bind_eq_bind, Option.bind_some] at h
      injection h with h; injection h with h1 h2
      subst h1; subst h2
      simp only [OptWorld.step, repOs_obj hi, bind, Except.bind]
      rw [← repOs_set_some]
      cases o <;> rfl
  | copyAssign i j left =>
    cases hi : live w i with
    | none => simp [optStep, hi] at h
    | some a =>
      cases hj : live w j with
      | none => simp [optStep, hi, hj] at h
      | some b =>
        simp only [optStep, hi, hj, Option.bind_eq_bind, Option.bind_some] at h
        simp only [OptWorld.step, repOs_obj hi, repOs_obj hj, bind, Except.bind]
        have hnt : (nt && (repO b).has && left.isSome) = false := by
          rcases hn with hn | hn
          · rw [hn]; rfl
          · cases left with
            | none => simp
            | some r => exact absurd trivial hn
        rw [if_neg (by rw [hnt]; exact Bool.false_ne_true)]
        cases b with
        | none =>
          injection h with h; injection h with h1 h2
          subst h1; subst h2
          rw [← repOs_set_some]
          cases a with
          | none =>
            rw [repOs_set_some, repOs_self hi]; rfl
          | some x => rfl
        | some v =>
          cases left with
          | none =>
            injection h with h; injection h with h1 h2
            subst h1; subst h2
            rw [← repOs_set_some]
            cases a <;> cases dbg <;> rfl
          | some r =>
            injection h with h; injection h with h1 h2
            subst h1; subst h2
            rw [← repOs_set_some]
            cases a with
            | none => rw [Option.map_none, repOs_set_some, repOs_self hi]; rfl
            | some x => rfl
  | moveAssign i j =>
    cases hi : live w i with
    | none => simp [optStep, hi] at h
    | some a =>
      cases hj : live w j with
      | none => simp [optStep, hi, hj] at h
      | some b =>
        simp only [optStep, hi, hj, Option.bind_eq_bind, Option.bind_some] at h
        injection h with h; injection h with h1 h2
        subst h1; subst h2
        simp only [OptWorld.step, repOs_obj hi, repOs_obj hj, bind, Except.bind]
        cases b with
        | some v =>
          rw [← repOs_set_some, ← repOs_set_some]
          cases a <;> cases dbg <;> rfl
        | none =>
          have hj' : live (w.set i (some none)) j = some none := by
            by_cases e : i = j
            · subst e
              rw [hi] at hj
              injection hj with hj
              rw [← hj, repOs_self hi, hi]
            · unfold live at hj ⊢
              rw [List.getElem?_set_ne e]; exact hj
          rw [Option.map_none, repOs_self hj', ← repOs_set_some]
          cases a with
          | none => rw [repOs_set_some, repOs_self hi]; rfl
          | some x => rfl
  | assignValue i v left =>
    cases hi : live w i with
    | none => simp [optStep, hi] at h
    | some a =>
      simp only [optStep, hi, Option.bind_eq_bind, Option.bind_some] at h
      simp only [OptWorld.step, repOs_obj hi, bind, Except.bind]
      cases left with
      | none =>
        injection h with h; injection h with h1 h2
        subst h1; subst h2
        rw [← repOs_set_some]
        cases a <;> cases dbg <;> rfl
      | some r =>
        injection h with h; injection h with h1 h2
        subst h1; subst h2
        rw [← repOs_set_some]
        cases a with
        | none => rw [Option.map_none, repOs_set_some, repOs_self hi]; rfl
        | some x => rfl
  | emplace i v throws =>
    cases hi : live w i with
    | none => simp [optStep, hi] at h
    | some a =>
      simp only [optStep, hi, Option.bind_eq_bind, Option.bind_some] at h
      injection h with h; injection h with h1 h2
      subst h1; subst h2
      simp only [OptWorld.step, repOs_obj hi, bind, Except.bind]
      rw [← repOs_set_some]
      cases a <;> cases throws <;> rfl
  | swap i j =>
    cases hi : live w i with
    | none => simp [optStep, hi] at h
    | some a =>
      cases hj : live w j with
      | none => simp [optStep, hi, hj] at h
      | some b =>
        simp only [optStep, hi, hj, Option.bind_eq_bind, Option.bind_some] at h
        injection h with h; injection h with h1 h2
        subst h1; subst h2
        simp only [OptWorld.step, repOs_obj hi, repOs_obj hj, bind, Except.bind]
        rw [← repOs_set_some, ← repOs_set_some]
        cases a with
        | some x =>
          cases b with
          | some y => rfl
          | none =>
            have e : i ≠ j := by
              intro e; subst e; rw [hi] at hj; cases hj
            cases dbg <;> exact congrArg (fun z => Except.ok (z, false)) (List.set_comm _ _ (Ne.symm e))
        | none =>
          cases b with
          | some y => cases dbg <;> rfl
          | none =>
            rw [repOs_set_some, repOs_self hi, repOs_set_some, repOs_self hj]; rfl

/-- **C82, every program with optionals, apart from throwing copy assignments of types with noexcept
moves.** Whatever a program does with any number of optionals, in debug and release builds: no assertion
fails, no value is read or destroyed that is not there, none is overwritten or left behind, exceptions leave
exactly the operations in which the contained type throws, and afterwards every object is exactly what the
standard says. Missing: copy assignments that throw although the moves of the contained type do not. -/
theorem C82_optional_partial (dbg nt : Bool) (mv : α → α) {ops : List (OptOp α)}
    {w' : List (Option (Option α))} {ts : List Bool} (hn : nt = false ∨ ∀ op ∈ ops, ¬ op.ThrowingCopy)
    (h : optRun mv [] ops = some (w', ts)) :
    ∃ c, OptWorld.run dbg nt mv [] ops = .ok (c, ts) ∧ c.length = w'.length ∧
      ∀ i, (live w' i = none → live c i = none) ∧
        ∀ o, live w' i = some o → ∃ x, live c i = some x ∧ x.has = o.isSome ∧ x.cell = o := by
  have main : ∀ (ops : List (OptOp α)) w w' ts, (nt = false ∨ ∀ op ∈ ops, ¬ op.ThrowingCopy) →
      optRun mv w ops = some (w', ts) → OptWorld.run dbg nt mv (repOs w) ops = .ok (repOs w', ts) := by
    intro ops
    induction ops with
    | nil =>
      intro w w' ts _ h
      injection h with h; injection h with h1 h2
      subst h1; subst h2; rfl
    | cons op ops ih =>
      intro w w' ts hn h
      simp only [optRun, Option.bind_eq_bind] at h
      cases h1 : optStep mv w op with
      | none => rw [h1] at h; cases h
      | some r =>
        obtain ⟨w1, t⟩ := r
        rw [h1, Option.bind_some] at h
        cases h2 : optRun mv w1 ops with
        | none => simp only [h2] at h; cases h
        | some r2 =>
          obtain ⟨w2, ts2⟩ := r2
          simp only [h2, Option.bind_some] at h
          injection h with h; injection h with h3 h4
          subst h3; subst h4
          have e1 := step_refines dbg nt mv (hn.imp id (fun q => q op List.mem_cons_self)) h1
          have e2 := ih w1 w2 ts2 (hn.imp id (fun q o ho => q o (List.mem_cons_of_mem _ ho))) h2
          simp only [OptWorld.run, bind, Except.bind, e1, e2]
          rfl
  refine ⟨repOs w', main ops [] w' ts hn h, by unfold repOs; rw [List.length_map], fun i => ⟨fun hi => ?_, fun o ho => ?_⟩⟩
  · unfold live repOs at *
    rw [List.getElem?_map]
    cases e : w'[i]? with
    | none => rfl
    | some x => rw [e] at hi; cases x with
      | none => rfl
      | some y => cases hi
  · refine ⟨repO o, ?_, rfl, rfl⟩
    unfold live repOs at *
    rw [List.getElem?_map]
    cases e : w'[i]? with
    | none => rw [e] at ho; cases ho
    | some x => rw [e] at ho; cases x with
      | none => cases ho
      | some y => injection ho with ho; subst ho; rfl

/-- **C82, exceptions of copy assignment are violated**: if the moves of the contained type are noexcept, as
those of `std::string` are, then a copy assignment in which copying the value throws does not pass on the
exception, but ends the program. -/
theorem C82_copy_violates (dbg : Bool) (mv : α → α) (v r : α) (a : Option α) :
    OptWorld.step dbg true mv (repOs [some a, some (some v)]) (.copyAssign 0 1 (some r)) = .error .exception ∧
    optStep mv [some a, some (some v)] (.copyAssign 0 1 (some r)) =
      some ([some (a.map fun _ => r), some (some v)], true) := by
  cases a <;> exact ⟨rfl, rfl⟩

/-- **C82, observers.** `operator bool`, `value` and `value_or` report the content; `value` throws exactly if
there is none, and `*` fails an assertion then (in release builds it reads an object that does not exist). -/
theorem C82_observe (dbg : Bool) {x : Opt α} {o : Option α} (hx : x.has = o.isSome) (hc : x.cell = o) (d : α) :
    x.valueOr d = .ok (o.getD d) ∧
    (∀ v, o = some v → x.valueChecked = .ok v ∧ x.deref dbg = .ok v) ∧
    (o = none → x.valueChecked = .error .exception ∧
      x.deref dbg = .error (if dbg then .assertion else .dangling)) := by
  obtain ⟨h, c⟩ := x
  dsimp only at hx hc
  subst hx; subst hc
  cases c with
  | none => cases dbg <;> exact ⟨rfl, fun v hv => (by cases hv), fun _ => ⟨rfl, rfl⟩⟩
  | some v => cases dbg <;> exact ⟨rfl, fun u hu => by injection hu with hu; subst hu; exact ⟨rfl, rfl⟩,
      fun h => (by cases h)⟩

/-- **C82, comparison.** Two optionals are equal if both are empty or both have equal values; an empty one is
less than every other one. Neither comparison reads a value that is not there. -/
theorem C82_compare (dbg : Bool) (e l : α → α → Bool) {x y : Opt α} {o p : Option α} (hx : x.has = o.isSome)
    (hc : x.cell = o) (hy : y.has = p.isSome) (hd : y.cell = p) :
    (∃ b, x.eq dbg e y = .ok b ∧
      (b = true ↔ (o = none ∧ p = none) ∨ ∃ u v, o = some u ∧ p = some v ∧ e u v = true)) ∧
    (∃ b, x.lt dbg l y = .ok b ∧
      (b = true ↔ (o = none ∧ p ≠ none) ∨ ∃ u v, o = some u ∧ p = some v ∧ l u v = true)) := by
  obtain ⟨h, c⟩ := x
  obtain ⟨h', c'⟩ := y
  dsimp only at hx hc hy hd
  subst hx; subst hc; subst hy; subst hd
  cases c with
  | none =>
    cases c' with
    | none => exact ⟨⟨true, rfl, by simp⟩, ⟨false, rfl, by simp⟩⟩
    | some v => exact ⟨⟨false, rfl, by simp⟩, ⟨true, rfl, by simp⟩⟩
  | some u =>
    cases c' with
    | none => exact ⟨⟨false, rfl, by simp⟩, ⟨false, rfl, by simp⟩⟩
    | some v => cases dbg <;> exact ⟨⟨e u v, rfl, by simp⟩, ⟨l u v, rfl, by simp⟩⟩

/-- A program with swaps, a throwing `emplace` and moves. -/
example : optRun (fun _ => 0) [] [.newValue 5, .newEmpty, .swap 0 1, .newMove 1, .emplace 1 7 true,
    .copyAssign 0 2 none, .moveAssign 1 2, .destroy 2] =
    some ([some (some 5), some (some 5), none], [false, false, false, false, true, false, false, false]) := rfl

end Edsp.Props
