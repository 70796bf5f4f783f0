import Verif.Lemmas.AnyBox

/-!
# C102: a box of type `any` holds the value put into it, and owns it
-/

namespace Edsp.Props

open Edsp.Box Edsp.Box.World Edsp.Spec

variable {β τ : Type}

/-- One mild operation does what the specification says, and keeps the ownership. -/
theorem any_step {mv : β → β} {w : World β} (h : w.Owned) {op : AnyOp β} (hm : op.Mild mv) {s : Boxes β} {t : Bool}
    (e : w.abs.step op = some (s, t)) : ∃ w', w.step mv op = .ok (w', t) ∧ w'.Owned ∧ w'.abs = s := by
  have lv : ∀ (k : Nat) (c b : Bool) (x : β), w.var[k]? = some x → (b = false ∧ (c = true ∨ ∀ x, mv x = x)) →
      w.mkLvalue mv k c b = .ok (w.mkHolder x) := by
    intro k c b x hx ⟨hb, hc⟩
    unfold mkLvalue
    rw [hx]
    subst hb
    rcases hc with hc | hc
    · subst hc; rfl
    · cases c
      · simp only [Bool.false_eq_true, if_false]
        rw [hc x]
        have : w.var.set k x = w.var := by
          apply List.ext_getElem?
          intro i
          rw [List.getElem?_set]
          split
          · rename_i a; subst a
            rw [if_pos (List.getElem?_eq_some_iff.mp hx).1, hx]
          · rfl
        rw [this]; rfl
      · rfl
  -- a holder made for a temporary object is swapped in
  have tmp : ∀ (i : Nat) (p : Option Nat) (x : β), w.obj[i]? = some (some p) →
      ∃ w', (w.mkHolder x).swapTemporary i = .ok w' ∧ w'.Owned ∧
        w'.abs = { w.abs with box := w.abs.box.set i (some (some x)) } := by
    intro i p x hp
    obtain ⟨w', e1, e2, e3⟩ := temporary_spec (owned_mkHolder h x) (i := i) (p := p) (t := some w.heap.length)
      (o := w.obj) rfl hp
    refine ⟨w', e1, e2, ?_⟩
    rw [e3, abs_mkHolder h x]
    have : val (w.mkHolder x).heap (some w.heap.length) = some x := val_some (by simp [mkHolder])
    rw [this]; simp
  -- a copy
  have cp : ∀ (i : Nat) (p : Option Nat) (b : Bool), w.obj[i]? = some (some p) →
      w.mkCopy i b = .ok (if b && (val w.heap p).isSome then (w, true) else
        match val w.heap p with
        | none => (w.mkEmpty, false)
        | some x => (w.mkHolder x, false)) := by
    intro i p b hp
    unfold mkCopy
    rw [ptr_ok hp]
    cases p with
    | none => cases b <;> rfl
    | some p =>
      obtain ⟨x, hx⟩ := h.own i p hp
      rw [val_some hx]
      simp only [bind, Except.bind, held_ok hx]
      cases b <;> rfl
  cases op with
  | newEmpty =>
    injection e with e; injection e with e1 e2; subst e1; subst e2
    exact ⟨_, rfl, owned_mkEmpty h, abs_mkEmpty w⟩
  | newValue x =>
    injection e with e; injection e with e1 e2; subst e1; subst e2
    exact ⟨_, rfl, owned_mkHolder h x, abs_mkHolder h x⟩
  | newLvalue k c b =>
    have hb := hm.1
    subst hb
    simp only [Boxes.step, abs] at e
    cases hx : w.var[k]? with
    | none => rw [hx] at e; cases e
    | some x =>
      rw [hx] at e
      injection e with e; injection e with e1 e2; subst e1; subst e2
      refine ⟨w.mkHolder x, ?_, owned_mkHolder h x, abs_mkHolder h x⟩
      simp only [World.step, bind, Except.bind, lv k c false x hx hm]; rfl
  | newCopy i b =>
    simp only [Boxes.step] at e
    cases hc : w.abs.content i with
    | none => rw [hc] at e; cases e
    | some c =>
      obtain ⟨p, hp, hv⟩ := content_abs hc
      rw [hc] at e
      simp only [Option.bind_eq_bind, Option.bind_some] at e
      simp only [World.step]
      rw [cp i p b hp, hv]
      split at e
      · rename_i a
        injection e with e; injection e with e1 e2; subst e1; subst e2
        exact ⟨w, by rw [if_pos a], h, rfl⟩
      · rename_i a
        injection e with e; injection e with e1 e2; subst e1; subst e2
        rw [if_neg a]
        cases c with
        | none => exact ⟨_, rfl, owned_mkEmpty h, abs_mkEmpty w⟩
        | some x => exact ⟨_, rfl, owned_mkHolder h x, abs_mkHolder h x⟩
  | newMove i =>
    simp only [Boxes.step] at e
    cases hc : w.abs.content i with
    | none => rw [hc] at e; cases e
    | some c =>
      obtain ⟨p, hp, hv⟩ := content_abs hc
      rw [hc] at e
      injection e with e; injection e with e1 e2; subst e1; subst e2
      refine ⟨{ w with obj := w.obj.set i (some none) ++ [some p] }, ?_, owned_mkMove h hp rfl, ?_⟩
      · simp only [World.step, mkMove, bind, Except.bind, ptr_ok hp]; rfl
      · subst hv; simp [World.abs, List.map_set, val_none]
  | destroy i =>
    simp only [Boxes.step] at e
    cases hc : w.abs.content i with
    | none => rw [hc] at e; cases e
    | some c =>
      obtain ⟨p, hp, hv⟩ := content_abs hc
      rw [hc] at e
      injection e with e; injection e with e1 e2; subst e1; subst e2
      obtain ⟨w', d1, d2, d3, _⟩ := destroy_spec h hp
      exact ⟨w', by simp only [World.step, bind, Except.bind, d1]; rfl, d2, d3⟩
  | reset i =>
    simp only [Boxes.step] at e
    cases hc : w.abs.content i with
    | none => rw [hc] at e; cases e
    | some c =>
      obtain ⟨p, hp, hv⟩ := content_abs hc
      rw [hc] at e
      injection e with e; injection e with e1 e2; subst e1; subst e2
      obtain ⟨w', d1, d2, d3, _⟩ := reset_spec h hp
      exact ⟨w', by simp only [World.step, bind, Except.bind, d1]; rfl, d2, d3⟩
  | copyAssign i j b =>
    simp only [Boxes.step] at e
    cases hc : w.abs.content i with
    | none => rw [hc] at e; cases e
    | some c =>
      obtain ⟨p, hp, hv⟩ := content_abs hc
      rw [hc] at e
      simp only [Option.bind_eq_bind, Option.bind_some] at e
      cases hd : w.abs.content j with
      | none => rw [hd] at e; cases e
      | some d =>
        obtain ⟨q, hq, hu⟩ := content_abs hd
        rw [hd] at e
        simp only [Option.bind_some] at e
        simp only [World.step, bind, Except.bind, ptr_ok hp]
        rw [cp j q b hq, hu]
        split at e
        · rename_i a
          injection e with e; injection e with e1 e2; subst e1; subst e2
          rw [if_pos a]
          exact ⟨w, rfl, h, rfl⟩
        · rename_i a
          injection e with e; injection e with e1 e2; subst e1; subst e2
          rw [if_neg a]
          cases d with
          | none =>
            obtain ⟨w', d1, d2, d3⟩ := temporary_spec (owned_mkEmpty h) (i := i) (p := p) (t := none)
              (o := w.obj) rfl hp
            refine ⟨w', ?_, d2, ?_⟩
            · simp only [d1]; rfl
            · rw [d3, abs_mkEmpty w, val_none]; simp
          | some x =>
            obtain ⟨w', d1, d2, d3⟩ := tmp i p x hp
            exact ⟨w', by simp only [d1]; rfl, d2, d3⟩
  | moveAssign i j =>
    simp only [Boxes.step] at e
    cases hc : w.abs.content i with
    | none => rw [hc] at e; cases e
    | some c =>
      obtain ⟨p, hp, hv⟩ := content_abs hc
      rw [hc] at e
      simp only [Option.bind_eq_bind, Option.bind_some] at e
      cases hd : w.abs.content j with
      | none => rw [hd] at e; cases e
      | some d =>
        obtain ⟨q, hq, hu⟩ := content_abs hd
        rw [hd] at e
        simp only [Option.bind_some] at e
        injection e with e; injection e with e1 e2; subst e1; subst e2
        have hi := (List.getElem?_eq_some_iff.mp hp).1
        have hj := (List.getElem?_eq_some_iff.mp hq).1
        have o1 := owned_mkMove h hq (w' := { w with obj := w.obj.set j (some none) ++ [some q] }) rfl
        obtain ⟨p', hp'⟩ : ∃ p', (w.obj.set j (some none))[i]? = some (some p') := by
          rw [List.getElem?_set]
          split
          · exact ⟨none, by first | rfl | rw [if_pos hj]⟩
          · exact ⟨p, hp⟩
        obtain ⟨w', d1, d2, d3⟩ := temporary_spec o1 (i := i) (p := p') (t := q) rfl hp'
        refine ⟨w', ?_, d2, ?_⟩
        · simp only [World.step, mkMove, bind, Except.bind, ptr_ok hp, ptr_ok hq, pure, Except.pure, d1]
        · rw [d3]
          subst hu
          simp [World.abs, List.map_set, val_none]
  | assignValue i x =>
    simp only [Boxes.step] at e
    cases hc : w.abs.content i with
    | none => rw [hc] at e; cases e
    | some c =>
      obtain ⟨p, hp, hv⟩ := content_abs hc
      rw [hc] at e
      injection e with e; injection e with e1 e2; subst e1; subst e2
      obtain ⟨w', d1, d2, d3⟩ := tmp i p x hp
      exact ⟨w', by simp only [World.step, bind, Except.bind, ptr_ok hp, d1]; rfl, d2, d3⟩
  | assignLvalue i k c b =>
    have hb := hm.1
    subst hb
    simp only [Boxes.step] at e
    cases hc : w.abs.content i with
    | none => rw [hc] at e; cases e
    | some c' =>
      obtain ⟨p, hp, hv⟩ := content_abs hc
      rw [hc] at e
      simp only [Option.bind_eq_bind, Option.bind_some] at e
      cases hx : w.var[k]? with
      | none => simp only [World.abs, hx] at e; cases e
      | some x =>
        simp only [World.abs, hx] at e
        injection e with e; injection e with e1 e2; subst e1; subst e2
        obtain ⟨w', d1, d2, d3⟩ := tmp i p x hp
        refine ⟨w', ?_, d2, d3⟩
        simp only [World.step, bind, Except.bind, ptr_ok hp, lv k c false x hx hm, d1]; rfl
  | emplace i x b =>
    simp only [Boxes.step] at e
    cases hc : w.abs.content i with
    | none => rw [hc] at e; cases e
    | some c =>
      obtain ⟨p, hp, hv⟩ := content_abs hc
      rw [hc] at e
      simp only [Option.bind_eq_bind, Option.bind_some] at e
      simp only [World.step, bind, Except.bind, ptr_ok hp]
      cases b with
      | true =>
        injection e with e; injection e with e1 e2; subst e1; subst e2
        exact ⟨w, rfl, h, rfl⟩
      | false =>
        injection e with e; injection e with e1 e2; subst e1; subst e2
        obtain ⟨w', d1, d2, d3⟩ := tmp i p x hp
        exact ⟨w', by simp only [d1]; rfl, d2, d3⟩
  | swap i j =>
    simp only [Boxes.step] at e
    cases hc : w.abs.content i with
    | none => rw [hc] at e; cases e
    | some c =>
      obtain ⟨p, hp, hv⟩ := content_abs hc
      rw [hc] at e
      simp only [Option.bind_eq_bind, Option.bind_some] at e
      cases hd : w.abs.content j with
      | none => rw [hd] at e; cases e
      | some d =>
        obtain ⟨q, hq, hu⟩ := content_abs hd
        rw [hd] at e
        injection e with e; injection e with e1 e2; subst e1; subst e2
        obtain ⟨w', d1, d2, d3, _⟩ := swap_spec h hp hq
        exact ⟨w', by simp only [World.step, bind, Except.bind, d1]; rfl, d2, by rw [d3, hv, hu]⟩

theorem any_run {mv : β → β} {ops : List (AnyOp β)} : ∀ {w : World β}, w.Owned → (∀ op ∈ ops, op.Mild mv) →
    ∀ {s : Boxes β} {ts : List Bool}, w.abs.run ops = some (s, ts) →
      ∃ w', w.run mv ops = .ok (w', ts) ∧ w'.Owned ∧ w'.abs = s := by
  induction ops with
  | nil =>
    intro w h _ s ts e
    injection e with e; injection e with e1 e2; subst e1; subst e2
    exact ⟨w, rfl, h, rfl⟩
  | cons op ops ih =>
    intro w h hm s ts e
    simp only [Boxes.run, Option.bind_eq_bind] at e
    cases e1 : w.abs.step op with
    | none => rw [e1] at e; cases e
    | some r =>
      obtain ⟨s1, t⟩ := r
      rw [e1, Option.bind_some] at e
      obtain ⟨w1, d1, o1, a1⟩ := any_step h (hm op List.mem_cons_self) e1
      cases e2 : s1.run ops with
      | none => simp only [e2] at e; cases e
      | some r2 =>
        obtain ⟨s2, ts2⟩ := r2
        simp only [e2, Option.bind_some] at e
        injection e with e; injection e with e3 e4; subst e3; subst e4
        rw [← a1] at e2
        obtain ⟨w2, d2, o2, a2⟩ := ih o1 (fun o ho => hm o (List.mem_cons_of_mem _ ho)) e2
        exact ⟨w2, by simp only [World.run, bind, Except.bind, d1, d2]; rfl, o2, a2⟩

/-- **C102, content and ownership** (variables of the caller that are stored being const, or of a type that a move
does not change). Whatever a program does with boxes, it runs without using a holder that was deleted; operations
throw when making the new value throws, and leave everything alone then; every box reports through `has_value`,
`type` and `any_cast` the value it should hold, and no other; and every holder that was not deleted belongs to exactly
one box that was not destroyed, so that nothing is left when all boxes are destroyed. -/
theorem C102_any_partial [DecidableEq τ] (ty : β → τ) (mv : β → β) (vars : List β) (ops : List (AnyOp β))
    (hm : ∀ op ∈ ops, op.Mild mv) {s : Boxes β} {ts : List Bool}
    (e : Boxes.run ⟨[], vars⟩ ops = some (s, ts)) :
    ∃ w, World.run mv ⟨[], [], vars⟩ ops = .ok (w, ts) ∧ w.var = s.var ∧
      (∀ i c, s.content i = some c →
        w.hasValue i = .ok c.isSome ∧ w.type ty i = .ok (c.map ty) ∧
        ∀ t, w.castPtr ty i t = .ok (c.filter fun x => ty x = t) ∧
          (∀ x, c = some x → ty x = t → w.cast ty i t = .ok x) ∧
          ((∀ x, c = some x → ty x ≠ t) → w.cast ty i t = .error .exception)) ∧
      (∀ (p : Nat) (x : β), w.heap[p]? = some (some x) →
        ∃ i : Nat, w.obj[i]? = some (some (some p)) ∧ ∀ j : Nat, w.obj[j]? = some (some (some p)) → j = i) ∧
      ((∀ i, s.content i = none) → ∀ y ∈ w.heap, y = none) := by
  have h0 : (World.mk [] [] vars : World β).Owned :=
    ⟨fun i p q => (by cases q), fun i j p q => (by cases q), fun p x q => (by cases q)⟩
  obtain ⟨w, d1, o1, a1⟩ := any_run (mv := mv) h0 hm (by exact e)
  refine ⟨w, d1, by rw [← a1]; rfl, ?_, ?_, ?_⟩
  · intro i c hc
    rw [← a1] at hc
    obtain ⟨p, hp, hv⟩ := content_abs hc
    cases p with
    | none =>
      rw [val_none] at hv
      subst hv
      have ht : w.type ty i = .ok none := by unfold World.type; rw [ptr_ok hp]; rfl
      have hcp : ∀ t, w.castPtr ty i t = .ok none := by
        intro t; unfold castPtr; rw [ht]; rfl
      refine ⟨by unfold hasValue; rw [ptr_ok hp]; rfl, ht, fun t => ⟨hcp t, fun x hx => (by cases hx), fun _ => ?_⟩⟩
      unfold World.cast; rw [hcp t]; rfl
    | some p =>
      obtain ⟨x, hx⟩ := o1.own i p hp
      rw [val_some hx] at hv
      subst hv
      have ht : w.type ty i = .ok (some (ty x)) := by
        unfold World.type; rw [ptr_ok hp]; simp only [bind, Except.bind, held_ok hx]; rfl
      have hcp : ∀ t, w.castPtr ty i t = .ok (if ty x = t then some x else none) := by
        intro t
        unfold castPtr
        rw [ht]
        simp only [bind, Except.bind, Option.some.injEq]
        by_cases a : ty x = t
        · rw [if_pos a, if_pos a, ptr_ok hp]; simp only [held_ok hx]; rfl
        · rw [if_neg a, if_neg a]; rfl
      refine ⟨by unfold hasValue; rw [ptr_ok hp]; rfl, ht, fun t => ⟨?_, fun y hy hyt => ?_, fun hn => ?_⟩⟩
      · rw [hcp t]; simp [Option.filter]
      · injection hy with hy
        subst hy
        unfold World.cast; rw [hcp t, if_pos hyt]; rfl
      · unfold World.cast; rw [hcp t, if_neg (hn x rfl)]; rfl
  · intro p x hx
    obtain ⟨i, hi⟩ := o1.full p x hx
    exact ⟨i, hi, fun j hj => o1.inj j i p hj hi⟩
  · intro hn y hy
    cases y with
    | none => rfl
    | some x =>
      obtain ⟨p, hp⟩ := List.getElem?_of_mem hy
      obtain ⟨i, hi⟩ := o1.full p x hp
      have := hn i
      rw [← a1] at this
      simp only [Boxes.content, World.abs, List.getElem?_map, hi] at this
      cases this

/-- **C102, storing a variable is violated**: a box made from a variable that is not const, or assigned it, takes the
value out of the variable. -/
theorem C102_lvalue_violates (mv : β → β) (x : β) (hx : mv x ≠ x) :
    (∃ w, World.run mv ⟨[], [], [x]⟩ [.newLvalue 0 false false] = .ok (w, [false]) ∧ w.var = [mv x]) ∧
    (∃ w, World.run mv ⟨[], [], [x]⟩ [.newEmpty, .assignLvalue 0 0 false false] = .ok (w, [false, false]) ∧
      w.var = [mv x]) ∧
    (∀ op : AnyOp β, ∀ s s' : Boxes β, ∀ t, s.step op = some (s', t) → s'.var = s.var) ∧ [mv x] ≠ [x] := by
  refine ⟨⟨_, rfl, rfl⟩, ⟨_, rfl, rfl⟩, ?_, by simpa using hx⟩
  intro op s s' t e
  cases op <;> simp only [Boxes.step, Option.bind_eq_bind, Option.bind_eq_some_iff] at e
  case newEmpty => simp at e; rw [← e.1]
  case newValue => simp at e; rw [← e.1]
  case newLvalue => obtain ⟨_, _, e⟩ := e; split at e <;> simp at e <;> rw [← e.1]
  case newCopy => obtain ⟨_, _, e⟩ := e; split at e <;> simp at e <;> rw [← e.1]
  case newMove => obtain ⟨_, _, e⟩ := e; simp at e; rw [← e.1]
  case destroy => obtain ⟨_, _, e⟩ := e; simp at e; rw [← e.1]
  case reset => obtain ⟨_, _, e⟩ := e; simp at e; rw [← e.1]
  case copyAssign => obtain ⟨_, _, _, _, e⟩ := e; split at e <;> simp at e <;> rw [← e.1]
  case moveAssign => obtain ⟨_, _, _, _, e⟩ := e; simp at e; rw [← e.1]
  case assignValue => obtain ⟨_, _, e⟩ := e; simp at e; rw [← e.1]
  case assignLvalue => obtain ⟨_, _, _, _, e⟩ := e; split at e <;> simp at e <;> rw [← e.1]
  case emplace => obtain ⟨_, _, e⟩ := e; split at e <;> simp at e <;> rw [← e.1]
  case swap => obtain ⟨_, _, _, _, e⟩ := e; simp at e; rw [← e.1]

/-- **C102, exceptions of storing a variable are violated**: the constructor that copies a const variable is declared
noexcept, so a copy that throws ends the program, also in an assignment; the specification passes on the exception
and leaves everything alone. -/
theorem C102_throw_violates (mv : β → β) (x : β) :
    World.run mv ⟨[], [], [x]⟩ [.newLvalue 0 true true] = .error .exception ∧
    Boxes.run ⟨[], [x]⟩ [.newLvalue 0 true true] = some (⟨[], [x]⟩, [true]) ∧
    World.run mv ⟨[], [], [x]⟩ [.newEmpty, .assignLvalue 0 0 true true] = .error .exception ∧
    Boxes.run ⟨[], [x]⟩ [.newEmpty, .assignLvalue 0 0 true true] = some (⟨[some none], [x]⟩, [false, true]) :=
  ⟨rfl, rfl, rfl, rfl⟩

/-- A program with a self-assignment, a copy that throws, a move, a swap and an emplace; all its operations are mild. -/
example : Boxes.run ⟨[], [7]⟩ [.newValue 5, .newLvalue 0 true false, .copyAssign 0 0 false, .newCopy 1 true,
    .moveAssign 0 0, .newMove 0, .swap 0 1, .emplace 2 9 false, .moveAssign 1 2, .destroy 0] =
    some (⟨[none, some (some 9), some none], [7]⟩,
      [false, false, false, true, false, false, false, false, false, false]) := rfl

end Edsp.Props
