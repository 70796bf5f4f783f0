/-!
# Specification: an environment is a map, used by one call at a time
-/

namespace Edsp.Spec.Environ

/-- A name or a value. -/
abbrev Str := List Char

/-- A call of the interface, its arguments as the caller wrote them. -/
inductive Call
  | get (name : Str)
  | set (name value : Str) (overwrite : Bool)
  | exist (name : Str)

/-- What the caller sees: a text, an error code (0 for success), a truth value, or text that is gone. -/
inductive Out
  | text (s : Str)
  | code (c : Int)
  | bool (b : Bool)
  | gone
  deriving DecidableEq

/-- Error codes of core/system.hpp 170-177. -/
def empty : Int := 1
def notFound : Int := 2
def invalidArgument : Int := 22

abbrev Map := Str → Option Str

/-- One call on its own. -/
def apply (m : Map) : Call → Map × Out
  | .get k => if k = [] then (m, .code empty) else
      match m k with
      | some v => (m, .text v)
      | none => (m, .code notFound)
  | .exist k => (m, .bool (m k).isSome)
  | .set k v overwrite =>
    if k = [] then (m, .code empty)
    else if '=' ∈ k then (m, .code invalidArgument)
    else if (m k).isSome ∧ overwrite = false then (m, .code 0)
    else (fun x => if x = k then some v else m x, .code 0)

/-- Calls one after the other. -/
def replay (m : Map) : List Call → Map × List Out
  | [] => (m, [])
  | c :: cs =>
    let r := apply m c
    let rest := replay r.1 cs
    (rest.1, r.2 :: rest.2)

/-- The call may change this variable. -/
def Call.sets (k : Str) : Call → Prop
  | .set k' _ _ => k' = k
  | _ => False

end Edsp.Spec.Environ
