import Verif.Model.Memory
import Verif.Model.Oscillators
import Verif.Model.MovingFilters
import Mathlib.Algebra.Order.Floor.Ring

/-!
# Model of Python programs with oscillators and moving filters

bindings/python/src/oscillator.cpp and filter.cpp.  A program makes objects and calls their methods; arrays are
contiguous and of one dimension (`C84` has the others).  An exception of Python is a result; a fault is undefined
behaviour or a failed assertion.  Fresh arrays (`bn::empty`) hold anything.  `reset` and `resize` of the filters are the
subject of C13 and C14 and left out.
-/

namespace Edsp.PyObj

/-- The objects of a program. -/
inductive Obj where
  | osc (k : Osc.Kind) (s : Osc.State)
  | average (m : MovingAverage ℝ)
  | rms (m : MovingRms)
  | median (m : MovingMedian ℝ)

/-- Statements; objects are named by their position in the list of objects made so far. -/
inductive Cmd where
  | sinusoidal (amp sr f p : ℝ)
  | square (amp sr f duty : ℝ)
  | sawtooth (amp sr f width : ℝ)
  | triangular (amp sr f : ℝ)
  | movingAverage (n : ℝ)
  | movingRms (n : ℝ)
  | movingMedian (n : ℝ)
  | generate (i : Nat) (n : Int)
  | set (i : Nat) (op : Osc.Op)
  | filter (i : Nat) (xs : List ℝ)
  | apply (i : Nat) (x : ℝ)

/-- The value of a statement. -/
inductive Result where
  | done
  | raised
  | number (x : ℝ)
  | array (xs : List ℝ)

/-- `bp::init<real_t>` (filter.cpp 57, 64, 71): the number is converted to the `size_type` of the constructor, which is
undefined unless the number without its fraction fits. -/
noncomputable def toSize (x : ℝ) : Except Fault Nat :=
  if -1 < x ∧ x < 2 ^ 64 then .ok ⌊x⌋.toNat else .error .domain

/-- `std::generate(data, data + size, std::ref(gen))` (oscillator.cpp 32). -/
noncomputable def generateLoop (k : Osc.Kind) : Nat → List ℝ → Nat → Osc.State → Except Fault (List ℝ × Osc.State)
  | 0, m, _, s => .ok (m, s)
  | n + 1, m, p, s => do
    let (x, s') ← Osc.call k s
    let m' ← Mem.write m p x
    generateLoop k n m' (p + 1) s'

/-- `std::transform(first, last, d_first, std::ref(*this))` (moving_average_filter.hpp 113-115, moving_rms_filter.hpp
114-116, moving_median_filter.hpp 107-110): `tick` is the `operator()`. -/
def filterLoop {M : Type} (tick : M → ℝ → Except Fault (M × ℝ)) :
    Nat → List ℝ → Nat → Nat → M → Except Fault (List ℝ × M)
  | 0, m, _, _, f => .ok (m, f)
  | n + 1, m, src, dst, f => do
    let x ← Mem.read m src
    let (f', y) ← tick f x
    let m' ← Mem.write m dst y
    filterLoop tick n m' (src + 1) (dst + 1) f'

/-- `wrapper_filter` (filter.cpp 25-37): the fresh array lies behind the input in the block. -/
def filterArray {M : Type} (tick : M → ℝ → Except Fault (M × ℝ)) (mem : Nat → ℝ) (f : M) (xs : List ℝ) :
    Except Fault (List ℝ × M) := do
  let (m, f') ← filterLoop tick xs.length (xs ++ (List.range xs.length).map mem) 0 xs.length f
  return (m.drop xs.length, f')

/-- The methods of the class (oscillator.cpp 41-80): `operator()` is not among them, `set_duty` and `set_width` only
where there is one. -/
def exposed (k : Osc.Kind) : Osc.Op → Bool
  | .call => false
  | .setShape _ => match k with
    | .sin => false
    | _ => true
  | _ => true

/-- One statement; `mem` is what the next fresh array holds. -/
noncomputable def step (dbg : Bool) (mem : Nat → ℝ) (w : List Obj) : Cmd → Except Fault (Result × List Obj)
  -- oscillator.cpp 56-60
  | .sinusoidal a r f p => .ok (.done, w ++ [.osc .sin (Osc.sinOscillator a r f p)])
  -- oscillator.cpp 62-67
  | .square a r f d => do return (.done, w ++ [.osc .square (← Osc.squareOscillator dbg a r f d)])
  -- oscillator.cpp 69-74
  | .sawtooth a r f v => do return (.done, w ++ [.osc .saw (← Osc.sawtoothOscillator dbg a r f v)])
  -- oscillator.cpp 76-79
  | .triangular a r f => do return (.done, w ++ [.osc .saw (← Osc.triangularOscillator dbg a r f)])
  | .movingAverage n => do return (.done, w ++ [.average (← MovingAverage.new (← toSize n))])
  | .movingRms n => do return (.done, w ++ [.rms (← MovingRms.new (← toSize n))])
  | .movingMedian n => do return (.done, w ++ [.median (← MovingMedian.new (← toSize n))])
  -- oscillator.cpp 27-34; a negative size is a `ValueError` of `bn::empty`
  | .generate i n => match w[i]? with
    | some (.osc k s) =>
      if n < 0 then .ok (.raised, w) else do
        let (m, s') ← generateLoop k n.toNat ((List.range n.toNat).map mem) 0 s
        return (.array m, w.set i (.osc k s'))
    | _ => .ok (.raised, w)
  | .set i op => match w[i]? with
    | some (.osc k s) =>
      if exposed k op then do
        let (_, s') ← Osc.step dbg k s op
        return (.done, w.set i (.osc k s'))
      else .ok (.raised, w)
    | _ => .ok (.raised, w)
  -- filter.cpp 39-49
  | .filter i xs => match w[i]? with
    | some (.average m) => do
      let (ys, m') ← filterArray MovingAverage.tick mem m xs
      return (.array ys, w.set i (.average m'))
    | some (.rms m) => do
      let (ys, m') ← filterArray MovingRms.tick mem m xs
      return (.array ys, w.set i (.rms m'))
    | some (.median m) => do
      let (ys, m') ← filterArray MovingMedian.tick mem m xs
      return (.array ys, w.set i (.median m'))
    | _ => .ok (.raised, w)
  -- filter.cpp 61, 68, 75 (`__call__`)
  | .apply i x => match w[i]? with
    | some (.average m) => do
      let (m', y) ← m.tick x
      return (.number y, w.set i (.average m'))
    | some (.rms m) => do
      let (m', y) ← m.tick x
      return (.number y, w.set i (.rms m'))
    | some (.median m) => do
      let (m', y) ← m.tick x
      return (.number y, w.set i (.median m'))
    | _ => .ok (.raised, w)

/-- A program; `mem` is what the fresh arrays hold.  The results of its statements. -/
noncomputable def run (dbg : Bool) (mem : Nat → Nat → ℝ) (w : List Obj) : List Cmd → Except Fault (List Result × List Obj)
  | [] => .ok ([], w)
  | c :: cs => do
    let (r, w') ← step dbg (mem cs.length) w c
    let (rs, w'') ← run dbg mem w' cs
    return (r :: rs, w'')

end Edsp.PyObj
