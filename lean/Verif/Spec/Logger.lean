/-!
# Specification of logging

Written from the comments of core/logger.hpp: a statement prints its items, each followed by a space, if its
level reaches the minimum level; a statement for a file prints nothing on the standard output.  Independent of
the model.
-/

namespace Edsp.Spec.Log

/-- The levels (logger.hpp 45-53). -/
inductive Level where
  | trace | debug | info | warning | error | critical | off
  deriving DecidableEq

/-- The order of the levels. -/
def Level.num : Level → Nat
  | .trace => 0 | .debug => 1 | .info => 2 | .warning => 3 | .error => 4 | .critical => 5 | .off => 6

/-- What may be written to a logger: a number of 16 to 64 bits, a character (8 bits), a null-terminated text at
address `p` of a block, a `std::string`, a view of `n` characters at `p` of a block, and the manipulators. -/
inductive Item where
  | int (k : Int)
  | byte (c : Nat)
  | cstr (block : List Nat) (p : Nat)
  | str (s : List Nat)
  | view (block : List Nat) (p n : Nat)
  | tab
  | endl
  | colour (code : List Nat)
  | reset

/-- The decimal digits of an integer. -/
def decimal (k : Int) : List Nat := (toString k).toList.map Char.toNat

/-- A terminal escape sequence. -/
def escape (code : List Nat) : List Nat := [27, 91] ++ code ++ [109]

/-- The text of an item. -/
def Item.text : Item → List Nat
  | .int k => decimal k ++ [32]
  | .byte c => [c, 32]
  | .cstr m p => (m.drop p).takeWhile (· != 0) ++ [32]
  | .str s => s ++ [32]
  | .view m p n => (m.drop p).take n ++ [32]
  | .tab => [9]
  | .endl => [10]
  | .colour code => escape code
  | .reset => escape [48, 48]

/-- What a program does: set the minimum level, or log items to a file (to the terminal, if the name is empty). -/
inductive Stmt where
  | setDefaultLevel (l : Level)
  | log (name file : List Nat) (level : Level) (items : List Item)

/-- The standard output of a program, given the minimum level. Every message ends with the code that resets
the colour. -/
def expected (min : Level) : List Stmt → List Nat
  | [] => []
  | .setDefaultLevel l :: ss => expected l ss
  | .log _ file level items :: ss =>
    (if min.num ≤ level.num ∧ file = [] then items.flatMap Item.text ++ escape [48, 48] else []) ++ expected min ss

end Edsp.Spec.Log
