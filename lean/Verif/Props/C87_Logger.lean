import Verif.Model.Logger

/-!
# C87: log messages are printed completely, in order, and only if their level asks for it
-/

namespace Edsp.Props

open Edsp.Spec.Log Edsp.Log

private theorem cstring_ok (m : List Nat) (p fuel : Nat) (h0 : 0 ∈ m.drop p) (hf : m.length - p < fuel) :
    cstring m p fuel = .ok ((m.drop p).takeWhile (· != 0)) := by
  induction fuel generalizing p with
  | zero => omega
  | succ fuel ih =>
    have hp : p < m.length := by
      rcases Nat.lt_or_ge p m.length with h | h
      · exact h
      · rw [List.drop_eq_nil_of_le h] at h0; cases h0
    have e : m.drop p = m[p] :: m.drop (p + 1) := List.drop_eq_getElem_cons hp
    have hr : Mem.read m p = .ok m[p] := by
      unfold Mem.read; rw [List.getElem?_eq_getElem hp]
    rw [cstring]
    simp only [hr, bind, Except.bind]
    by_cases c : m[p] = 0
    · rw [if_pos c, e, List.takeWhile_cons, c]
      rfl
    · rw [if_neg c, ih (p + 1) (by rw [e] at h0; rcases List.mem_cons.mp h0 with h | h; exact absurd h.symm c; exact h)
        (by omega), e, List.takeWhile_cons, if_pos (by simpa using c)]
      rfl

private theorem printFrom_ok (m : List Nat) (p : Nat) (h0 : 0 ∈ m.drop p) :
    printFrom m p = .ok ((m.drop p).takeWhile (· != 0)) :=
  cstring_ok m p _ h0 (by omega)

private theorem takeWhile_str (s : List Nat) (h : 0 ∉ s) : (s ++ [0]).takeWhile (· != 0) = s := by
  induction s with
  | nil => rfl
  | cons c s ih =>
    have : c ≠ 0 := fun e => h (by rw [e]; exact List.mem_cons_self)
    rw [List.cons_append, List.takeWhile_cons, if_pos (by simpa using this),
      ih (fun m => h (List.mem_cons_of_mem _ m))]

/-- The items that are printed as documented. -/
def Item.Plain : Item → Prop
  | .cstr m p => 0 ∈ m.drop p
  | .str s => 0 ∉ s
  | .view _ _ _ => False
  | .tab => False
  | .endl => False
  | _ => True

private theorem write_plain (l : Logger) {i : Item} (h : Item.Plain i) :
    l.write i = .ok { l with msg := l.msg ++ i.text } := by
  cases i with
  | int k => simp [Logger.write, Logger.space, Item.text]
  | byte c => simp [Logger.write, Logger.space, Item.text]
  | cstr m p =>
    simp only [Logger.write, printFrom_ok m p h, bind, Except.bind, Item.text, Logger.space]
    simp [pure, Except.pure]
  | str s =>
    have e := printFrom_ok (s ++ [0]) 0 (by simp)
    rw [List.drop_zero, takeWhile_str s h] at e
    simp only [Logger.write, e, bind, Except.bind, Item.text, Logger.space]
    simp [pure, Except.pure]
  | view m p n => exact h.elim
  | tab => exact h.elim
  | endl => exact h.elim
  | colour code => rfl
  | reset => rfl

private theorem writeAll_plain (l : Logger) {is : List Item} (h : ∀ i ∈ is, Item.Plain i) :
    l.writeAll is = .ok { l with msg := l.msg ++ is.flatMap Item.text } := by
  induction is generalizing l with
  | nil => simp [Logger.writeAll]
  | cons i is ih =>
    rw [Logger.writeAll, write_plain l (h i List.mem_cons_self)]
    simp only [bind, Except.bind]
    rw [ih _ (fun j hj => h j (List.mem_cons_of_mem _ hj))]
    simp

/-- Programs that log to the terminal at levels that reach the minimum, and only items printed as documented. -/
def PlainProgram (min : Level) : List Stmt → Prop
  | [] => True
  | .setDefaultLevel l :: ss => PlainProgram l ss
  | .log _ file level items :: ss =>
    (min.num ≤ level.num ∧ file = [] ∧ ∀ i ∈ items, Item.Plain i) ∧ PlainProgram min ss

/-- **C87, what is logged is printed**: the standard output of a program is exactly its messages, complete and
in order. Missing: messages whose level is below the minimum, files, views, the characters tab and new line,
and texts that contain a null character. -/
theorem C87_printed_partial (w : World) (ss : List Stmt) (h : PlainProgram w.level ss) :
    ∃ w', w.run ss = .ok w' ∧ w'.out = w.out ++ expected w.level ss := by
  induction ss generalizing w with
  | nil => exact ⟨w, rfl, by simp [expected]⟩
  | cons s ss ih =>
    cases s with
    | setDefaultLevel l =>
      obtain ⟨w', h1, h2⟩ := ih { w with level := l } h
      exact ⟨w', h1, h2⟩
    | log n f l is =>
      obtain ⟨⟨h1, h2, h3⟩, h4⟩ := h
      have e : w.log n f l is =
          .ok { w with out := w.out ++ (is.flatMap Item.text ++ escape [48, 48]) } := by
        unfold World.log
        dsimp only
        rw [writeAll_plain _ h3]
        rfl
      obtain ⟨w', g1, g2⟩ := ih { w with out := w.out ++ (is.flatMap Item.text ++ escape [48, 48]) } h4
      refine ⟨w', ?_, ?_⟩
      · rw [World.run, e]
        exact g1
      · rw [g2, expected, if_pos ⟨h1, h2⟩, List.append_assoc]

/-- **C87, the levels are violated**: a message is printed on the standard output whatever the minimum level is,
also if logging is off, and also if it is for a file. -/
theorem C87_level_violates (w : World) (min level : Level) (name file : List Nat) {items : List Item}
    (h : ∀ i ∈ items, Item.Plain i) :
    ∃ w', w.run [.setDefaultLevel min, .log name file level items] = .ok w' ∧
      w'.out = w.out ++ (items.flatMap Item.text ++ escape [48, 48]) ∧
      ((level.num < min.num ∨ file ≠ []) →
        w'.out ≠ w.out ++ expected w.level [.setDefaultLevel min, .log name file level items]) := by
  have e : ({ w with level := min } : World).log name file level items =
      .ok { w with level := min, out := w.out ++ (items.flatMap Item.text ++ escape [48, 48]) } := by
    unfold World.log
    dsimp only
    rw [writeAll_plain _ h]
    rfl
  refine ⟨_, by rw [World.run, World.run, e]; rfl, rfl, fun hl he => ?_⟩
  have e1 : expected w.level [.setDefaultLevel min, .log name file level items] = [] := by
    simp only [expected]
    rw [if_neg]
    · rfl
    · rintro ⟨h1, h2⟩
      rcases hl with hl | hl
      · omega
      · exact hl h2
  rw [e1] at he
  have := congrArg List.length he
  simp [escape] at this

/-- **C87, tab and endl are violated**: they print the numbers of the characters, `9` and `10`, instead of the
characters. -/
theorem C87_endl_violates (l : Logger) :
    l.write .endl = .ok { l with msg := l.msg ++ [49, 48, 32] } ∧
    l.write .tab = .ok { l with msg := l.msg ++ [57, 32] } := by
  constructor <;>
  · simp only [Logger.write, Logger.space, List.append_assoc]
    rfl

/-- **C87, views are violated**: what is printed does not depend on the length of the view; of a view of the
first `n` characters of a text it is the whole text. -/
theorem C87_view_violates (l : Logger) (s rest : List Nat) (hs : 0 ∉ s) (n : Nat) :
    l.write (.view (s ++ 0 :: rest) 0 n) = .ok { l with msg := l.msg ++ s ++ [32] } := by
  have e := printFrom_ok (s ++ 0 :: rest) 0 (by simp)
  have e2 : (s ++ 0 :: rest).takeWhile (· != 0) = s := by
    clear e
    induction s with
    | nil => rfl
    | cons c s ih =>
      have : c ≠ 0 := fun e => hs (by rw [e]; exact List.mem_cons_self)
      rw [List.cons_append, List.takeWhile_cons, if_pos (by simpa using this),
        ih (fun m => hs (List.mem_cons_of_mem _ m))]
  rw [List.drop_zero, e2] at e
  simp only [Logger.write, e, bind, Except.bind, Logger.space]
  rfl

/-- **C87, views into memory without a null character are violated**: printing them reads outside the memory. -/
theorem C87_overrun_violates (l : Logger) (m : List Nat) (hm : 0 ∉ m) (n : Nat) :
    l.write (.view m 0 n) = .error .outOfBounds := by
  have key : ∀ fuel p, cstring m p fuel = .error .outOfBounds := by
    intro fuel
    induction fuel with
    | zero => intro p; rfl
    | succ fuel ih =>
      intro p
      rw [cstring]
      unfold Mem.read
      cases hp : m[p]? with
      | none => rfl
      | some c =>
        have : c ≠ 0 := fun e => hm (by rw [← e]; exact List.mem_of_getElem? hp)
        simp only [bind, Except.bind, if_neg this, ih]
  have : printFrom m 0 = .error .outOfBounds := key _ _
  simp only [Logger.write, this, bind, Except.bind]

/-- **C87, strings with a null character are violated**: the rest is not printed. -/
theorem C87_null_violates (l : Logger) (s t : List Nat) (hs : 0 ∉ s) :
    l.write (.str (s ++ 0 :: t)) = .ok { l with msg := l.msg ++ s ++ [32] } := by
  have := C87_view_violates l s (t ++ [0]) hs 0
  simp only [Logger.write] at this ⊢
  rw [show s ++ 0 :: t ++ [0] = s ++ 0 :: (t ++ [0]) by simp]
  exact this

/-- Two messages: `x= -5` in red at level info, and "done". -/
example : PlainProgram .debug [.log [99] [] .info [.colour [51, 49], .str [120, 61], .int (-5)],
    .setDefaultLevel .error, .log [99] [] .critical [.cstr [100, 111, 110, 101, 0] 0]] := by
  refine ⟨⟨by decide, rfl, ?_⟩, ⟨by decide, rfl, ?_⟩, trivial⟩
  · intro i hi
    simp at hi
    rcases hi with rfl | rfl | rfl
    · trivial
    · simp [Item.Plain]
    · trivial
  · intro i hi
    simp at hi
    subst hi
    simp [Item.Plain]

end Edsp.Props
