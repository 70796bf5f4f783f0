import Verif.Model.Fault
import Verif.Spec.Environment

/-!
# Model: the process environment behind one mutex

Contract of the C library, not modelled further: `getenv` returns a pointer into the environment, `setenv` may release
the text it replaces (POSIX: the pointer returned by `getenv` may be invalidated by a later `setenv`), fails with -1 for
an empty name or one with `=`, and never runs out of memory. `setenv` looks the name up and then writes, in two steps;
no thread changes the environment behind the back of the library. Threads are numbered by natural numbers.
-/

namespace Edsp.Environ

open Edsp.Spec.Environ (Str Out Call Map)

/-- `edsp::string_view`: the zero-terminated text at its pointer (`none` for a null pointer) and its length. -/
structure View where
  chars : Option Str
  len : Nat

/-- The text a view stands for. -/
def View.text (v : View) : Str := (v.chars.getD []).take v.len

/-- The environment: the address of the value of each name, and the texts by address (`none` if released). -/
structure Env where
  entry : Str → Option Nat
  heap : List (Option Str)

/-- The calls of core/system.hpp 184-225. -/
inductive Op
  | get (k : View)
  | set (k v : View) (overwrite : Bool)
  | exist (k : View)

/-- The call as the caller means it. -/
def Op.call : Op → Call
  | .get k => .get k.text
  | .set k v o => .set k.text v.text o
  | .exist k => .exist k.text

/-- A returned value: a view of the text at an address, an error code, a truth value. -/
inductive Ret
  | value (p : Nat)
  | code (c : Int)
  | bool (b : Bool)

/-- What the caller finds there. -/
def observe (e : Env) : Ret → Out
  | .value p => match e.heap[p]? with
    | some (some s) => .text s
    | _ => .gone
  | .code c => .code c
  | .bool b => .bool b

/-- `std::getenv`, for a zero-terminated text. -/
def getenv (e : Env) (k : View) : Except Fault (Option Nat) :=
  match k.chars with
  | none => .error .badHandle
  | some name => .ok (e.entry name)

/-- First half of the body: `getenv` of `get_env` (line 187, before the test for an empty name) and `exist` (line 224),
and the search of `setenv` (line 212, behind that test). -/
def look (e : Env) : Op → Except Fault (Option Nat)
  | .get k => getenv e k
  | .exist k => getenv e k
  | .set k v _ =>
    if k.len = 0 then .ok none
    else match v.chars with
      | none => .error .badHandle
      | some _ => getenv e k

/-- The write of `setenv`. -/
def store (e : Env) (name value : Str) (overwrite : Bool) (found : Option Nat) : Env × Ret :=
  if name = [] ∨ '=' ∈ name then (e, .code (-1))
  else
    match found with
    | some p =>
      if overwrite = true then
        ({ entry := fun x => if x = name then some e.heap.length else e.entry x
           heap := e.heap.set p none ++ [some value] }, .code 0)
      else (e, .code 0)
    | none =>
      ({ entry := fun x => if x = name then some e.heap.length else e.entry x
         heap := e.heap ++ [some value] }, .code 0)

/-- Second half of the body: lines 188-196, 209-214, 224. -/
def act (e : Env) (op : Op) (found : Option Nat) : Env × Ret :=
  match op with
  | .get k => if k.len = 0 then (e, .code 1) else
      match found with
      | some p => (e, .value p)
      | none => (e, .code 2)
  | .exist _ => (e, .bool found.isSome)
  | .set k v overwrite =>
    if k.len = 0 then (e, .code 1) else store e (k.chars.getD []) (v.chars.getD []) overwrite found

/-- Where a thread is. -/
inductive Pc
  | idle
  | entered (op : Op)
  | looked (op : Op) (found : Option Nat)
  | finished (op : Op) (r : Ret)

/-- All threads; `log` records the calls in the order they took effect, `done` in the order they returned, both with
what the caller saw. -/
structure State where
  env : Env
  holder : Option Nat
  pc : Nat → Pc
  log : List (Op × Out)
  done : List (Op × Out)

/-- Replace the position of one thread. -/
def upd (pc : Nat → Pc) (t : Nat) (p : Pc) : Nat → Pc := fun u => if u = t then p else pc u

/-- One step of one thread, calls restricted to those that meet `good`: `std::lock_guard` waits for the mutex on
construction and returns it on return (lines 186, 208, 223). -/
inductive Step (good : Op → Prop) : State → State → Prop
  | acquire (s : State) (t : Nat) (op : Op) : good op → s.pc t = .idle → s.holder = none →
      Step good s { s with holder := some t, pc := upd s.pc t (.entered op) }
  | look (s : State) (t : Nat) (op : Op) (p : Option Nat) : s.pc t = .entered op → look s.env op = .ok p →
      Step good s { s with pc := upd s.pc t (.looked op p) }
  | act (s : State) (t : Nat) (op : Op) (p : Option Nat) : s.pc t = .looked op p →
      Step good s { s with
        env := (act s.env op p).1
        pc := upd s.pc t (.finished op (act s.env op p).2)
        log := s.log ++ [(op, observe (act s.env op p).1 (act s.env op p).2)] }
  | release (s : State) (t : Nat) (op : Op) (r : Ret) : s.pc t = .finished op r →
      Step good s { s with holder := none, pc := upd s.pc t .idle, done := s.done ++ [(op, observe s.env r)] }

/-- No thread is inside, the environment is `e`. -/
def initial (e : Env) : State := ⟨e, none, fun _ => .idle, [], []⟩

/-- States of all schedules. -/
inductive Reach (good : Op → Prop) (e : Env) : State → Prop
  | start : Reach good e (initial e)
  | step {s s' : State} : Reach good e s → Step good s s' → Reach good e s'

end Edsp.Environ
