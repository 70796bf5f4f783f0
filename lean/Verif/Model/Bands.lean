import Verif.Model.AnalogDesign
import Mathlib.Analysis.SpecialFunctions.Pow.Complex
import Mathlib.Analysis.SpecialFunctions.Trigonometric.Arctan

/-!
# Model of the band-pass and band-stop transformers and of the designers built on them

include/edsp/filter/internal/bilinear/bandpass_transformer.hpp, bandstop_transformer.hpp and the
`BandPass`, `BandStopPass` and `BandShelfPass` classes of butterworth_designer.hpp,
chebyshev_I_designer.hpp and chebyshev_II_designer.hpp.  Exact real and complex arithmetic.
-/

namespace Edsp

/-- `std::sqrt(std::complex)`: the principal square root. -/
noncomputable def csqrt (z : ℂ) : ℂ := z ^ (1 / 2 : ℂ)

/-- bandpass_transformer.hpp 108-110 and bandstop_transformer.hpp 110-113, the members that are used. -/
structure BandParams where
  wc2 : ℝ
  wc  : ℝ
  a   : ℝ
  b   : ℝ

/-- bandpass_transformer.hpp 39-55 and bandstop_transformer.hpp 39-53 (word for word the same up to the
derived products); `math::inv` and the divisions are checked. -/
noncomputable def bandInit (fc fw : ℝ) : Except Fault BandParams := do
  let ww := 2 * Real.pi * fw
  let lo := 2 * Real.pi * fc - ww / 2
  let hi := lo + ww
  let wc2 := if lo < 1 / 10 ^ 8 then 1 / 10 ^ 8 else lo
  let wc := if hi > Real.pi - 1 / 10 ^ 8 then Real.pi - 1 / 10 ^ 8 else hi
  let a ← fdiv (Real.cos ((wc + wc2) * (1 / 2))) (Real.cos ((wc - wc2) * (1 / 2)))
  let b ← fdiv 1 (← ctan ((wc - wc2) * (1 / 2)))
  return ⟨wc2, wc, a, b⟩

/-- bandpass_transformer.hpp 83-105. -/
noncomputable def bpMap (B : BandParams) : Pt → Except Fault (ℂ × ℂ)
  | none => .ok (-1, 1)
  | some s =>
    if 1 - s = 0 then .error .divByZero else
    let c := (1 + s) / (1 - s)
    let a2 := B.a * B.a
    let b2 := B.b * B.b
    let ab2 := 2 * (B.a * B.b)
    let v0 := addmul 0 (4 * (b2 * (a2 - 1) + 1)) c
    let v1 := v0 + ((8 * (b2 * (a2 - 1) - 1) : ℝ) : ℂ)
    let v2 := v1 * c
    let v3 := v2 + ((4 * (b2 * (a2 - 1) + 1) : ℝ) : ℂ)
    let v := csqrt v3
    let u' := addmul (-v) ab2 c + (ab2 : ℂ)
    let v' := addmul v ab2 c + (ab2 : ℂ)
    let d := addmul 0 (2 * (B.b - 1)) c + ((2 * (1 + B.b) : ℝ) : ℂ)
    if d = 0 then .error .divByZero else .ok (u' / d, v' / d)

/-- bandstop_transformer.hpp 85-87: the variable `c`. -/
noncomputable def bsArg : Pt → Except Fault ℂ
  | none => .ok (-1)
  | some s => if 1 - s = 0 then .error .divByZero else .ok ((1 + s) / (1 - s))

/-- bandstop_transformer.hpp 84-107. -/
noncomputable def bsMap (B : BandParams) (s : Pt) : Except Fault (ℂ × ℂ) := do
  let c ← bsArg s
  let a2 := B.a * B.a
  let b2 := B.b * B.b
  let u0 := addmul 0 (4 * (b2 + a2 - 1)) c
  let u1 := u0 + ((8 * (b2 - a2 + 1) : ℝ) : ℂ)
  let u2 := u1 * c
  let u3 := u2 + ((4 * (a2 + b2 - 1) : ℝ) : ℂ)
  let u := csqrt u3
  let v' := addmul (u * -(((1 / 2 : ℝ)) : ℂ) + (B.a : ℂ)) (-B.a) c
  let u' := addmul (u * ((1 / 2 : ℝ) : ℂ) + (B.a : ℂ)) (-B.a) c
  let d := addmul ((B.b + 1 : ℝ) : ℂ) (B.b - 1) c
  if d = 0 then .error .divByZero else .ok (u' / d, v' / d)

open Classical in
/-- layout_base.hpp 153-159, `insert` of two pairs, with the contract checks of lines 155-156 present
only in a debug build. -/
noncomputable def Layout.insertMatched (dbg : Bool) (l : Layout) (p z : ℂ × ℂ) : Except Fault Layout :=
  if dbg = true then l.insertPair (some p.1) (some p.2) (some z.1) (some z.2)
  else l.store ⟨some p.1, some z.1, some p.2, some z.2⟩ 2

/-- The body of the loop, bandpass_transformer.hpp 64-68 and bandstop_transformer.hpp 62-70; `fix` is
what happens to the zeros before they are stored (lines 66-67 of the latter). -/
noncomputable def bandStep (T : Pt → Except Fault (ℂ × ℂ)) (fix : ℂ × ℂ → ℂ × ℂ) (analog d : Layout)
    (i : Nat) : Except Fault Layout := do
  let q ← analog.get i
  let p ← T q.p1
  let z0 ← T q.z1
  let z := fix z0
  let d' ← d.insertConj (some p.1) (some z.1)
  d'.insertConj (some p.2) (some z.2)

/-- bandpass_transformer.hpp 58-76 and bandstop_transformer.hpp 56-78, before `set_w` and
`set_gain`. -/
noncomputable def bandPairs (dbg : Bool) (T : Pt → Except Fault (ℂ × ℂ)) (fix : ℂ × ℂ → ℂ × ℂ)
    (analog digital : Layout) : Except Fault Layout := do
  let numPairs := analog.poles / 2
  let d ← (List.range numPairs).foldlM (bandStep T fix analog) digital.reset
  if analog.poles % 2 = 1 then
    let q ← analog.get numPairs
    let p ← T q.p1
    let z ← T q.z1
    d.insertMatched dbg p z
  else return d

/-- bandpass_transformer.hpp 79; the square root of a negative number (a NaN) is a fault. -/
noncomputable def bpW (B : BandParams) (wn : ℝ) : Except Fault ℝ := do
  let t1 ← ctan ((B.wc + wn) * (1 / 2))
  let t2 ← ctan ((B.wc2 + wn) * (1 / 2))
  if t1 + t2 < 0 then throw .domain
  return 2 * Real.arctan (Real.sqrt (t1 + t2))

/-- bandpass_transformer.hpp 35-81. -/
noncomputable def bandPassTransform (dbg : Bool) (fc fw : ℝ) (analog digital : Layout) :
    Except Fault Layout := do
  let B ← bandInit fc fw
  let d ← bandPairs dbg (bpMap B) id analog digital
  let w ← bpW B analog.w
  return { d with w := w, gain := analog.gain }

open Classical in
/-- bandstop_transformer.hpp 66-67. -/
noncomputable def bsFix (z : ℂ × ℂ) : ℂ × ℂ := if z.2 = z.1 then (z.1, (starRingEnd ℂ) z.1) else z

/-- bandstop_transformer.hpp 35-82. -/
noncomputable def bandStopTransform (dbg : Bool) (fc fw : ℝ) (analog digital : Layout) :
    Except Fault Layout := do
  let B ← bandInit fc fw
  let d ← bandPairs dbg (bsMap B) bsFix analog digital
  return { d with w := if fc < 1 / 4 then Real.pi else analog.w, gain := analog.gain }

/-- bandpass_transformer.hpp 35-76 followed by the lines that overwrite `w` and the gain,
butterworth_designer.hpp 158-160.  The value of `w` computed in bandpass_transformer.hpp 79 is dropped
without being read, so a NaN there has no effect. -/
noncomputable def bandShelfTransform (dbg : Bool) (fc fw : ℝ) (analog digital : Layout) :
    Except Fault Layout := do
  let B ← bandInit fc fw
  let d ← bandPairs dbg (bpMap B) id analog digital
  return { d with w := if fc < 1 / 4 then Real.pi else 0, gain := 1 }

/-- butterworth_designer.hpp 107-116 with abstract_designer.hpp 93-97. -/
noncomputable def Butterworth.bandPass (dbg : Bool) (N n : Nat) (fs fc bw : ℝ) :
    Except Fault (Cascade ℝ) := do
  let nc ← fdiv fc fs
  let nw ← fdiv bw fs
  let a ← analog dbg N n (Layout.new N)
  let d ← bandPassTransform dbg nc nw a (Layout.new (2 * N))
  makeCascade (2 * N) d

/-- butterworth_designer.hpp 118-127 with abstract_designer.hpp 93-97. -/
noncomputable def Butterworth.bandStop (dbg : Bool) (N n : Nat) (fs fc bw : ℝ) :
    Except Fault (Cascade ℝ) := do
  let nc ← fdiv fc fs
  let nw ← fdiv bw fs
  let a ← analog dbg N n (Layout.new N)
  let d ← bandStopTransform dbg nc nw a (Layout.new (2 * N))
  makeCascade (2 * N) d

/-- butterworth_designer.hpp 149-162 with abstract_designer.hpp 93-97. -/
noncomputable def Butterworth.bandShelf (dbg : Bool) (N n : Nat) (fs fc bw gainDb : ℝ) :
    Except Fault (Cascade ℝ) := do
  let nc ← fdiv fc fs
  let nw ← fdiv bw fs
  let a ← shelfAnalog dbg N n gainDb (Layout.new N)
  let d ← bandShelfTransform dbg nc nw a (Layout.new (2 * N))
  makeCascade (2 * N) d

/-- chebyshev_I_designer.hpp 133-142 with abstract_designer.hpp 93-97. -/
noncomputable def ChebyshevI.bandPass (dbg : Bool) (N n : Nat) (fs fc bw rippleDb : ℝ) :
    Except Fault (Cascade ℝ) := do
  let nc ← fdiv fc fs
  let nw ← fdiv bw fs
  let a ← analog dbg N n rippleDb (Layout.new N)
  let d ← bandPassTransform dbg nc nw a (Layout.new (2 * N))
  makeCascade (2 * N) d

/-- chebyshev_I_designer.hpp 144-153 with abstract_designer.hpp 93-97. -/
noncomputable def ChebyshevI.bandStop (dbg : Bool) (N n : Nat) (fs fc bw rippleDb : ℝ) :
    Except Fault (Cascade ℝ) := do
  let nc ← fdiv fc fs
  let nw ← fdiv bw fs
  let a ← analog dbg N n rippleDb (Layout.new N)
  let d ← bandStopTransform dbg nc nw a (Layout.new (2 * N))
  makeCascade (2 * N) d

/-- chebyshev_II_designer.hpp 130-140 with abstract_designer.hpp 93-97. -/
noncomputable def ChebyshevII.bandPass (dbg : Bool) (N n : Nat) (fs fc bw stopDb : ℝ) :
    Except Fault (Cascade ℝ) := do
  let nc ← fdiv fc fs
  let nw ← fdiv bw fs
  let a ← analog dbg N n stopDb (Layout.new N)
  let d ← bandPassTransform dbg nc nw a (Layout.new (2 * N))
  makeCascade (2 * N) d

/-- chebyshev_II_designer.hpp 142-152 with abstract_designer.hpp 93-97. -/
noncomputable def ChebyshevII.bandStop (dbg : Bool) (N n : Nat) (fs fc bw stopDb : ℝ) :
    Except Fault (Cascade ℝ) := do
  let nc ← fdiv fc fs
  let nw ← fdiv bw fs
  let a ← analog dbg N n stopDb (Layout.new N)
  let d ← bandStopTransform dbg nc nw a (Layout.new (2 * N))
  makeCascade (2 * N) d

end Edsp
