import Mathlib.Data.Nat.Notation

/-!
# Threads: what the functions of the library share

Almost all functions and member functions work on the ranges and objects they are given and on nothing else.  What several
threads can share without passing it to the library is: the planner of FFTW (spectral/internal/libfftw_impl.hpp: the
`fftw_plan…` functions and `fftw_destroy_plan` are not thread safe by the FFTW manual, only `fftw_execute…` is; the
library neither locks nor calls `fftw_make_planner_thread_safe`), the three settings of the logger (core/logger.hpp
189-214), and the environment (core/system.hpp), guarded by one mutex (234-237).  Each function is the list of its
accesses to these and to the objects of the caller; the initialisation of function-local statics is synchronised by the
language and left out.
-/

namespace Edsp.Threads

/-- Memory: the planner of FFTW, level, path and name of the logger, the environment, and the objects of the program. -/
inductive Loc where
  | planner | level | path | name | environment
  | object (k : ℕ)
deriving DecidableEq

inductive Act where
  | read (l : Loc)
  | write (l : Loc)
  | lock
  | unlock

/-- The calls of a thread. -/
inductive Call where
  /-- Any function that is not listed below: algorithms, filters, oscillators, containers, statistics, … -/
  | work (reads writes : List ℕ)
  /-- A transform of an FFT engine of the thread; `planned`: not the first. -/
  | transform (planned : Bool) (reads writes : List ℕ)
  /-- The destructor of an FFT engine that has made a transform. -/
  | discard
  /-- `dft`, `idft`, `dct`, `idct`, `hartley`, `conv`, `xcorr`, `hilbert`, `cepstrum`, `spectrum`. -/
  | spectral (reads writes : List ℕ)
  /-- `eInfo() << …` and alike. -/
  | message
  | setName | getName
  | setLevel | getLevel
  | setPath | getPath
  | setEnv | getEnv | exist
  /-- The caller reads the text that `get_env` has returned, which is that of the environment. -/
  | useEnv

/-- Reads, then writes, of the objects of the caller. -/
def own (reads writes : List ℕ) : List Act :=
  reads.map (fun k => .read (.object k)) ++ writes.map (fun k => .write (.object k))

/-- The accesses of a call: libfftw_impl.hpp 69-122 (the plan is made at the first call), 63-67; dft.hpp 46-121 and alike;
logger.hpp 427 (the name), 439-475; system.hpp 184-226. -/
def Call.acts : Call → List Act
  | .work r w => own r w
  | .transform true r w => own r w
  | .transform false r w => .write .planner :: own r w
  | .discard => [.write .planner]
  | .spectral r w => .write .planner :: own r w ++ [.write .planner]
  | .message => [.read .name]
  | .setName => [.write .name]
  | .getName => [.read .name]
  | .setLevel => [.write .level]
  | .getLevel => [.read .level]
  | .setPath => [.write .path]
  | .getPath => [.read .path]
  | .setEnv => [.lock, .write .environment, .unlock]
  | .getEnv => [.lock, .read .environment, .unlock]
  | .exist => [.lock, .read .environment, .unlock]
  | .useEnv => [.read .environment]

/-- The accesses of a thread. -/
def acts (calls : List Call) : List Act := calls.flatMap Call.acts

/-- What each thread has still to do, and the thread that holds the mutex. -/
structure State where
  rest : ℕ → List Act
  holder : Option ℕ

/-- The threads run the given calls. -/
def start (progs : ℕ → List Call) : State := ⟨fun t => acts (progs t), none⟩

/-- Thread `t` does its next access. -/
inductive Step : State → ℕ → State → Prop
  | read {s : State} {t : ℕ} {l : Loc} {as : List Act} (h : s.rest t = .read l :: as) :
      Step s t ⟨fun u => if u = t then as else s.rest u, s.holder⟩
  | write {s : State} {t : ℕ} {l : Loc} {as : List Act} (h : s.rest t = .write l :: as) :
      Step s t ⟨fun u => if u = t then as else s.rest u, s.holder⟩
  | lock {s : State} {t : ℕ} {as : List Act} (h : s.rest t = .lock :: as) (hh : s.holder = none) :
      Step s t ⟨fun u => if u = t then as else s.rest u, some t⟩
  | unlock {s : State} {t : ℕ} {as : List Act} (h : s.rest t = .unlock :: as) (hh : s.holder = some t) :
      Step s t ⟨fun u => if u = t then as else s.rest u, none⟩

/-- The states of all executions. -/
inductive Reach (progs : ℕ → List Call) : State → Prop
  | start : Reach progs (start progs)
  | step {s s' : State} {t : ℕ} (h : Reach progs s) (hs : Step s t s') : Reach progs s'

/-- A data race: two threads are about to access the same memory, one of them to write it. -/
def Race (s : State) : Prop :=
  ∃ t u l as bs, t ≠ u ∧ s.rest t = .write l :: as ∧ (s.rest u = .write l :: bs ∨ s.rest u = .read l :: bs)

end Edsp.Threads
