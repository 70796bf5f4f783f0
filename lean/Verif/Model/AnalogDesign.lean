import Verif.Model.Layout
import Mathlib.Analysis.SpecialFunctions.Arsinh

/-!
# Model of the Butterworth and Chebyshev analog prototypes and of the designers built on them

include/edsp/filter/internal/butterworth_designer.hpp, chebyshev_I_designer.hpp,
chebyshev_II_designer.hpp.  Real arithmetic.
-/

namespace Edsp

/-- `std::polar(r, t)` = `r (cos t + i sin t)`. -/
noncomputable def polar (r t : ℝ) : ℂ := r * Complex.exp (t * Complex.I)

namespace Butterworth

/-- The pole of butterworth_designer.hpp 51-52. -/
noncomputable def pole (n i : Nat) : ℂ :=
  polar 1 (Real.pi / 2 + (2 * (i : ℝ) + 1) * Real.pi / (n * 2 : ℕ))

/-- butterworth_designer.hpp 39-60; `N` is `MaxSize`, `n` the requested order. -/
noncomputable def analog (dbg : Bool) (N n : Nat) (l : Layout) : Except Fault Layout := do
  if n > N then throw .assertion
  let l0 : Layout := { l.reset with w := 0, gain := 1 }
  let l1 ← (List.range (n / 2)).foldlM (fun l i => l.insertConj (some (pole n i)) none) l0
  if n % 2 = 1 then l1.insert dbg (some (-1)) none else return l1

/-- butterworth_designer.hpp 88-95 with abstract_designer.hpp 93-97. -/
noncomputable def lowPass (dbg : Bool) (N n : Nat) (fs fc : ℝ) : Except Fault (Cascade ℝ) := do
  let nf ← fdiv fc fs
  let a ← analog dbg N n (Layout.new N)
  let d ← lowPassTransform dbg nf a (Layout.new N)
  makeCascade N d

/-- butterworth_designer.hpp 98-105 with abstract_designer.hpp 93-97. -/
noncomputable def highPass (dbg : Bool) (N n : Nat) (fs fc : ℝ) : Except Fault (Cascade ℝ) := do
  let nf ← fdiv fc fs
  let a ← analog dbg N n (Layout.new N)
  let d ← highPassTransform dbg nf a (Layout.new N)
  makeCascade N d

/-- butterworth_designer.hpp 62-85. -/
noncomputable def shelfAnalog (dbg : Bool) (N n : Nat) (gainDb : ℝ) (l : Layout) :
    Except Fault Layout := do
  if n > N then throw .assertion
  let l0 : Layout := { l.reset with w := Real.pi, gain := 1 }
  let g := (Zoelzer.db2mag gainDb) ^ (← fdiv 1 ((n * 2 : ℕ) : ℝ))
  let gp := -(← fdiv 1 g)
  let gz := -g
  let theta := fun i : Nat => Real.pi * (1 / 2 - (2 * ((i : ℝ) + 1) - 1) / (n * 2 : ℕ))
  let l1 ← (List.range (n / 2)).foldlM
    (fun l i => l.insertConj (some (polar gp (theta i))) (some (polar gz (theta i)))) l0
  if n % 2 = 1 then l1.insert dbg (some gp) (some gz) else return l1

/-- butterworth_designer.hpp 130-137 with abstract_designer.hpp 93-97. -/
noncomputable def lowShelf (dbg : Bool) (N n : Nat) (fs fc gainDb : ℝ) :
    Except Fault (Cascade ℝ) := do
  let nf ← fdiv fc fs
  let a ← shelfAnalog dbg N n gainDb (Layout.new N)
  let d ← lowPassTransform dbg nf a (Layout.new N)
  makeCascade N d

/-- butterworth_designer.hpp 140-147 with abstract_designer.hpp 93-97. -/
noncomputable def highShelf (dbg : Bool) (N n : Nat) (fs fc gainDb : ℝ) :
    Except Fault (Cascade ℝ) := do
  let nf ← fdiv fc fs
  let a ← shelfAnalog dbg N n gainDb (Layout.new N)
  let d ← highPassTransform dbg nf a (Layout.new N)
  makeCascade N d

end Butterworth

namespace ChebyshevI

/-- chebyshev_I_designer.hpp 44; the square root of a negative number is a fault. -/
noncomputable def eps (rippleDb : ℝ) : Except Fault ℝ :=
  let q := 1 / Real.exp (-rippleDb * (1 / 10) * Real.log 10) - 1
  if q < 0 then .error .domain else .ok (Real.sqrt q)

/-- The pole of chebyshev_I_designer.hpp 51-54, `v0` as there. -/
noncomputable def pole (v0 : ℝ) (n i : Nat) : ℂ :=
  let k : ℝ := 2 * (i : ℝ) + 1 - n
  ⟨-Real.sinh v0 * Real.cos (k * Real.pi / (n * 2 : ℕ)),
    Real.cosh v0 * Real.sin (k * Real.pi / (n * 2 : ℕ))⟩

/-- chebyshev_I_designer.hpp 38-66. -/
noncomputable def analog (dbg : Bool) (N n : Nat) (rippleDb : ℝ) (l : Layout) :
    Except Fault Layout := do
  if n > N then throw .assertion
  let e ← eps rippleDb
  let v0 ← fdiv (Real.arsinh (← fdiv 1 e)) n
  let l1 ← (List.range (n / 2)).foldlM (fun l i => l.insertConj (some (pole v0 n i)) none) l.reset
  if n % 2 = 1 then
    let l2 ← l1.insert dbg (some ((-Real.sinh v0 : ℝ) : ℂ)) none
    return { l2 with w := 0, gain := 1 }
  else return { l1 with w := 0, gain := Zoelzer.db2mag (-rippleDb) }

/-- chebyshev_I_designer.hpp 114-121 with abstract_designer.hpp 93-97. -/
noncomputable def lowPass (dbg : Bool) (N n : Nat) (fs fc rippleDb : ℝ) :
    Except Fault (Cascade ℝ) := do
  let nf ← fdiv fc fs
  let a ← analog dbg N n rippleDb (Layout.new N)
  let d ← lowPassTransform dbg nf a (Layout.new N)
  makeCascade N d

/-- chebyshev_I_designer.hpp 124-131 with abstract_designer.hpp 93-97. -/
noncomputable def highPass (dbg : Bool) (N n : Nat) (fs fc rippleDb : ℝ) :
    Except Fault (Cascade ℝ) := do
  let nf ← fdiv fc fs
  let a ← analog dbg N n rippleDb (Layout.new N)
  let d ← highPassTransform dbg nf a (Layout.new N)
  makeCascade N d

end ChebyshevI

namespace ChebyshevII

/-- chebyshev_II_designer.hpp 46; the square root of a negative number is a fault. -/
noncomputable def eps (stopDb : ℝ) : Except Fault ℝ := do
  let q ← fdiv 1 (Real.exp (stopDb * (1 / 10) * Real.log 10) - 1)
  if q < 0 then throw .domain
  return Real.sqrt q

/-- The pole of chebyshev_II_designer.hpp 52-56 (the divisor is checked); iteration `i`, `k = 2i+1`. -/
noncomputable def pole (v0 : ℝ) (n i : Nat) : Except Fault ℂ := do
  let a := -Real.sinh v0 * Real.cos (((2 * (i : ℝ) + 1) - n) * (Real.pi / (2 * n : ℕ)))
  let b := Real.cosh v0 * Real.sin (((2 * (i : ℝ) + 1) - n) * (Real.pi / (2 * n : ℕ)))
  let d2 := a * a + b * b
  let re ← fdiv a d2
  let im ← fdiv b d2
  return ⟨re, im⟩

/-- The zero of chebyshev_II_designer.hpp 55-56. -/
noncomputable def zero (n i : Nat) : Except Fault ℂ := do
  let im ← fdiv 1 (Real.cos ((2 * (i : ℝ) + 1) * (Real.pi / (2 * n : ℕ))))
  return ⟨0, im⟩

/-- chebyshev_II_designer.hpp 38-63. -/
noncomputable def analog (dbg : Bool) (N n : Nat) (stopDb : ℝ) (l : Layout) :
    Except Fault Layout := do
  if n > N then throw .assertion
  let l0 : Layout := { l.reset with w := 0, gain := 1 }
  let e ← eps stopDb
  let v0 ← fdiv (Real.arsinh (← fdiv 1 e)) n
  let l1 ← (List.range (n / 2)).foldlM (fun l i => do
    let p ← pole v0 n i
    let z ← zero n i
    l.insertConj (some p) (some z)) l0
  if n % 2 = 1 then
    let r ← fdiv 1 (-Real.sinh v0)
    l1.insert dbg (some (r : ℂ)) none
  else return l1

/-- chebyshev_II_designer.hpp 111-118 with abstract_designer.hpp 93-97. -/
noncomputable def lowPass (dbg : Bool) (N n : Nat) (fs fc stopDb : ℝ) :
    Except Fault (Cascade ℝ) := do
  let nf ← fdiv fc fs
  let a ← analog dbg N n stopDb (Layout.new N)
  let d ← lowPassTransform dbg nf a (Layout.new N)
  makeCascade N d

/-- chebyshev_II_designer.hpp 121-128 with abstract_designer.hpp 93-97. -/
noncomputable def highPass (dbg : Bool) (N n : Nat) (fs fc stopDb : ℝ) :
    Except Fault (Cascade ℝ) := do
  let nf ← fdiv fc fs
  let a ← analog dbg N n stopDb (Layout.new N)
  let d ← highPassTransform dbg nf a (Layout.new N)
  makeCascade N d

end ChebyshevII
end Edsp
