import Verif.Model.Memory
import Verif.Spec.Logger

/-!
# Model of the logger

core/logger.hpp, with the escape sequences of thirdparty/termcolor (Linux, macOS).  A text is a list of
characters; memory that texts are printed from is a block of cells.  Floating point numbers are left out.
-/

namespace Edsp.Log

open Edsp.Spec.Log (Level Item Stmt decimal escape)

/-- logger.hpp 217-222: the parts of a logger. -/
structure Logger where
  level : Level
  msg : List Nat
  name : List Nat
  file : List Nat

/-- The world: the text on the standard output and the static members (logger.hpp 189-213). -/
structure World where
  out : List Nat
  level : Level
  path : List Nat
  name : List Nat

/-- `msg_ << p` for a `const char*`: the characters up to the first null character. -/
def cstring (m : List Nat) (p : Nat) : Nat → Except Fault (List Nat)
  | 0 => .error .outOfBounds
  | fuel + 1 => do
    let c ← Mem.read m p
    if c = 0 then return [] else return c :: (← cstring m (p + 1) fuel)

/-- A text printed from address `p` of a block; a loop that reads more characters than the block has left
reads outside of it. -/
def printFrom (m : List Nat) (p : Nat) : Except Fault (List Nat) := cstring m p (m.length - p + 1)

/-- `space` (logger.hpp 434-437). -/
def Logger.space (l : Logger) : Logger := { l with msg := l.msg ++ [32] }

/-- `operator<<` (logger.hpp 484-550) and the manipulators (225-300). -/
def Logger.write (l : Logger) : Item → Except Fault Logger
  | .int k => .ok { l with msg := l.msg ++ decimal k }.space
  -- 8 bit integers are characters for a stream
  | .byte c => .ok { l with msg := l.msg ++ [c] }.space
  | .cstr m p => do return { l with msg := l.msg ++ (← printFrom m p) }.space
  -- `str.data()` is printed
  | .str s => do return { l with msg := l.msg ++ (← printFrom (s ++ [0]) 0) }.space
  -- `str.data()` is printed; the length of the view is not used
  | .view m p _ => do return { l with msg := l.msg ++ (← printFrom m p) }.space
  -- `stream << '\t'`: the best overload for a `char` is the one for 32 bit integers
  | .tab => .ok { l with msg := l.msg ++ decimal 9 }.space
  | .endl => .ok { l with msg := l.msg ++ decimal 10 }.space
  -- colorize is always set before, so that the code is written
  | .colour code => .ok { l with msg := l.msg ++ escape code }
  | .reset => .ok { l with msg := l.msg ++ escape [48, 48] }

/-- Several items. -/
def Logger.writeAll (l : Logger) : List Item → Except Fault Logger
  | [] => .ok l
  | i :: is => do (← l.write i).writeAll is

/-- The destructor (logger.hpp 429-432): `endc`, then the message goes to the standard output. -/
def Logger.finish (w : World) (l : Logger) : Except Fault World := do
  let l' ← l.write .reset
  return { w with out := w.out ++ l'.msg }

/-- A logging statement `edsp::logger(name, file, level) << item << …;` (logger.hpp 419-427). -/
def World.log (w : World) (name file : List Nat) (level : Level) (items : List Item) : Except Fault World := do
  let l : Logger := ⟨level, [], name, file⟩
  (← l.writeAll items).finish w

/-- A program (logger.hpp 443-446 for `set_default_level`). -/
def World.run (w : World) : List Stmt → Except Fault World
  | [] => .ok w
  | .setDefaultLevel l :: ss => ({ w with level := l } : World).run ss
  | .log n f l is :: ss => do (← w.log n f l is).run ss

end Edsp.Log
