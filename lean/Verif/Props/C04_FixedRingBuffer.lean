import Verif.Lemmas.FixedRingBuffer

/-!
# C04: moving a `fixed_ring_buffer`

Full statement: for every history of client actions, *including* moves, every object shows
the contents of its own deque, i.e.

  `∀ as i, (FixedHeap.empty.run dflt n moved as >>= (·.contents i))
             = (Deques.empty.run n as >>= (·.contents i))`.

It is false of the code (`C04_move_aliases_source`, `C04_moved_to_dangles`); it holds for
histories without moves (`C04_no_move_partial`), and a move is right until either object is
touched (`C04_move_takes_contents_partial`).
-/

namespace Edsp.Props

open Edsp.Spec

variable {α : Type}

/-- The code violates C04: after `b(std::move(a))`, pushing on `a` changes what `b` contains. -/
theorem C04_move_aliases_source :
    ∃ as : List (FixedHeap.Act Nat),
      ((FixedHeap.empty.run 0 2 id as) >>= fun h => h.contents 1) = .ok [3, 2] ∧
      ((Deques.empty.run 2 as) >>= fun h => h.contents 1) = .ok [1, 2] :=
  ⟨[.construct 0, .pushBack 0 1, .pushBack 0 2, .moveConstruct 1 0, .clear 0, .pushBack 0 3],
    by decide, by decide⟩

/-- The code violates C04: once the source is destroyed, using the moved-to object is an access
to a dead object. -/
theorem C04_moved_to_dangles :
    ∃ as : List (FixedHeap.Act Nat),
      ((FixedHeap.empty.run 0 2 id as) >>= fun h => h.contents 1) = .error .dangling ∧
      ((Deques.empty.run 2 as) >>= fun h => h.contents 1) = .ok [1] :=
  ⟨[.construct 0, .pushBack 0 1, .moveConstruct 1 0, .destroy 0], by decide, by decide⟩

/-- **C04, part.** For every history without moves, every object behaves as its own bounded
deque, untouched by what happens to the others.  (Missing: histories with moves, where the
statement is false.) -/
theorem C04_no_move_partial (dflt : α) (moved : α → α) (n : Nat) (hn : n < 2 ^ 63)
    (as : List (FixedHeap.Act α)) (hm : ∀ a ∈ as, ¬ IsMove a) (i : Nat) :
    (FixedHeap.empty.run dflt n moved as >>= fun h => h.contents i)
      = (Deques.empty.run n as >>= fun h => h.contents i) := by
  have h := FixedHeap.run_rel dflt hn moved as (h := FixedHeap.empty) (q := Deques.empty)
    (fun i => trivial) hm
  revert h
  cases FixedHeap.empty.run dflt n moved as <;> cases Deques.empty.run n as <;> intro h
  · simp only [FixedHeap.Related] at h; subst h; rfl
  · exact h.elim
  · exact h.elim
  · exact FixedHeap.contents_rel h i

/-- **C04, part.** Right after a move construction in a state reached without moves, the destination
shows the contents the source had (for element types whose move is a copy). -/
theorem C04_move_takes_contents_partial (dflt : α) (n : Nat) (hn : n < 2 ^ 63)
    (as : List (FixedHeap.Act α)) (hm : ∀ a ∈ as, ¬ IsMove a) (src dst : Nat) (hne : dst ≠ src)
    (h : FixedHeap α) (hrun : FixedHeap.empty.run dflt n id as = .ok h)
    (hlive : (h src).isSome) :
    (h.moveConstruct id dst src >>= fun h' => h'.contents dst) = h.contents src := by
  have hrel := FixedHeap.run_rel dflt hn id as (h := FixedHeap.empty) (q := Deques.empty)
    (fun i => trivial) hm
  rw [hrun] at hrel
  revert hrel
  cases hq : Deques.empty.run n as with
  | error e => intro h; exact h.elim
  | ok q =>
    intro hrel
    have hs := hrel src
    cases ho : h src with
    | none => simp [ho] at hlive
    | some o =>
      rw [ho] at hs
      revert hs
      cases hq : q src with
      | none => intro h; exact h.elim
      | some d =>
        rintro ⟨hb, -, -⟩
        simp only [FixedHeap.moveConstruct, ho, bind, Except.bind, FixedHeap.contents,
          FixedHeap.set, if_true, hb, hne.symm, if_false, List.map_id]

example : ((FixedHeap.empty.run 0 2 id
      [.construct 0, .construct 1, .pushBack 0 1, .pushBack 1 5, .pushBack 0 2, .pushBack 0 3,
       .destroy 1] : Except Fault (FixedHeap Nat)) >>= fun h => h.contents 0) = .ok [2, 3] := by
  decide

end Edsp.Props
