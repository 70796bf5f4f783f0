import Verif.Model.Bands
import Verif.Model.Statistics

/-! Chebyshev shelves: the analog low shelf of filter/internal/chebyshev_I_designer.hpp and
chebyshev_II_designer.hpp, and the low, high and band shelves made from it.  Exact real arithmetic. -/

namespace Edsp

/-- `std::pow` with a positive base; a base that is not positive is a fault (the result would be a NaN
or lead to the logarithm of 0). -/
noncomputable def fpow (b e : ℝ) : Except Fault ℝ := if b ≤ 0 then .error .domain else .ok (b ^ e)

namespace ChebyshevI

/-- The root of chebyshev_I_designer.hpp 100-104 (chebyshev_II_designer.hpp 97-101), for the loop
counter `i + 1`. -/
noncomputable def shelfRoot (u : ℝ) (n i : Nat) : ℂ :=
  let a := Real.pi * (2 * ((i : ℝ) + 1) - 1) / (2 * n : ℕ)
  ⟨-Real.sin a * Real.sinh u, Real.cos a * Real.cosh u⟩

open Classical in
/-- chebyshev_I_designer.hpp 77-94: the pair `(u, v)`.  Line 86 divides integers (`num_poles` has an
unsigned type). -/
noncomputable def shelfParams (n : Nat) (gainDb rippleDb : ℝ) : Except Fault (ℝ × ℝ) := do
  let gdb := -gainDb
  let r1 := if |gdb| ≤ rippleDb then |gdb| else rippleDb
  let r := if gdb < 0 then -r1 else r1
  let G := Zoelzer.db2mag gdb
  let Gb := Zoelzer.db2mag (gdb - r)
  if n = 0 then throw .divByZero
  let g0 := (1 : ℝ) ^ (((1 / n : ℕ)) : ℝ)
  let eps ← if Gb ≠ 1 then (do Stat.fsqrt (← fdiv (G ^ 2 - Gb ^ 2) (Gb ^ 2 - 1))) else pure (G - 1)
  let ex ← Stat.fsqrt (1 + (← fdiv 1 (eps ^ 2)))
  let e ← fdiv 1 (n : ℝ)
  let b ← fpow ((← fdiv G eps) + Gb * ex) e
  let u ← Stat.flog (← fdiv b g0)
  let v ← Stat.flog (← fpow ((← fdiv 1 eps) + ex) e)
  return (u, v)

/-- chebyshev_I_designer.hpp 68-111. -/
noncomputable def shelfAnalog (dbg : Bool) (N n : Nat) (gainDb rippleDb : ℝ) (l : Layout) :
    Except Fault Layout := do
  if n > N then throw .assertion
  let l0 : Layout := { l.reset with w := Real.pi, gain := 1 }
  let (u, v) ← shelfParams n gainDb rippleDb
  let l1 ← (List.range (n / 2)).foldlM
    (fun l i => l.insertConj (some (shelfRoot u n i)) (some (shelfRoot v n i))) l0
  if n % 2 = 1 then l1.insert dbg (some ((-Real.sinh u : ℝ) : ℂ)) (some ((-Real.sinh v : ℝ) : ℂ))
  else return l1

/-- chebyshev_I_designer.hpp 155-163 with abstract_designer.hpp 93-97. -/
noncomputable def lowShelf (dbg : Bool) (N n : Nat) (fs fc gainDb rippleDb : ℝ) :
    Except Fault (Cascade ℝ) := do
  let nf ← fdiv fc fs
  let a ← shelfAnalog dbg N n gainDb rippleDb (Layout.new N)
  let d ← lowPassTransform dbg nf a (Layout.new N)
  makeCascade N d

/-- chebyshev_I_designer.hpp 165-173 with abstract_designer.hpp 93-97. -/
noncomputable def highShelf (dbg : Bool) (N n : Nat) (fs fc gainDb rippleDb : ℝ) :
    Except Fault (Cascade ℝ) := do
  let nf ← fdiv fc fs
  let a ← shelfAnalog dbg N n gainDb rippleDb (Layout.new N)
  let d ← highPassTransform dbg nf a (Layout.new N)
  makeCascade N d

/-- chebyshev_I_designer.hpp 175-189 with abstract_designer.hpp 93-97. -/
noncomputable def bandShelf (dbg : Bool) (N n : Nat) (fs fc bw gainDb rippleDb : ℝ) :
    Except Fault (Cascade ℝ) := do
  let nc ← fdiv fc fs
  let nw ← fdiv bw fs
  let a ← shelfAnalog dbg N n gainDb rippleDb (Layout.new N)
  let d ← bandShelfTransform dbg nc nw a (Layout.new (2 * N))
  makeCascade (2 * N) d

end ChebyshevI

namespace ChebyshevII

open Classical in
/-- chebyshev_II_designer.hpp 74-90: the pair `(u, v)`. -/
noncomputable def shelfParams (n : Nat) (gainDb stopDb : ℝ) : Except Fault (ℝ × ℝ) := do
  let gdb := -gainDb
  let r1 := if |gdb| ≤ stopDb then |gdb| else stopDb
  let r := if gdb < 0 then -r1 else r1
  let G := Zoelzer.db2mag gdb
  let Gb := Zoelzer.db2mag (gdb - r)
  let e ← fdiv 1 (n : ℝ)
  let g0 := (1 : ℝ) ^ e
  let eps ← if Gb ≠ 1 then (do Stat.fsqrt (← fdiv (G ^ 2 - Gb ^ 2) (Gb ^ 2 - 1))) else pure (G - 1)
  let ex ← Stat.fsqrt (1 + (← fdiv 1 (eps ^ 2)))
  let b ← fpow ((← fdiv G eps) + Gb * ex) e
  let v ← Stat.flog (← fpow ((← fdiv 1 eps) + ex) e)
  let u ← Stat.flog (← fdiv b g0)
  return (u, v)

/-- chebyshev_II_designer.hpp 65-108. -/
noncomputable def shelfAnalog (dbg : Bool) (N n : Nat) (gainDb stopDb : ℝ) (l : Layout) :
    Except Fault Layout := do
  if n > N then throw .assertion
  let l0 : Layout := { l.reset with w := Real.pi, gain := 1 }
  let (u, v) ← shelfParams n gainDb stopDb
  let l1 ← (List.range (n / 2)).foldlM
    (fun l i => l.insertConj (some (ChebyshevI.shelfRoot u n i)) (some (ChebyshevI.shelfRoot v n i))) l0
  if n % 2 = 1 then l1.insert dbg (some ((-Real.sinh u : ℝ) : ℂ)) (some ((-Real.sinh v : ℝ) : ℂ))
  else return l1

/-- chebyshev_II_designer.hpp 154-162 with abstract_designer.hpp 93-97. -/
noncomputable def lowShelf (dbg : Bool) (N n : Nat) (fs fc gainDb stopDb : ℝ) :
    Except Fault (Cascade ℝ) := do
  let nf ← fdiv fc fs
  let a ← shelfAnalog dbg N n gainDb stopDb (Layout.new N)
  let d ← lowPassTransform dbg nf a (Layout.new N)
  makeCascade N d

/-- chebyshev_II_designer.hpp 164-172 with abstract_designer.hpp 93-97. -/
noncomputable def highShelf (dbg : Bool) (N n : Nat) (fs fc gainDb stopDb : ℝ) :
    Except Fault (Cascade ℝ) := do
  let nf ← fdiv fc fs
  let a ← shelfAnalog dbg N n gainDb stopDb (Layout.new N)
  let d ← highPassTransform dbg nf a (Layout.new N)
  makeCascade N d

/-- chebyshev_II_designer.hpp 174-188 with abstract_designer.hpp 93-97. -/
noncomputable def bandShelf (dbg : Bool) (N n : Nat) (fs fc bw gainDb stopDb : ℝ) :
    Except Fault (Cascade ℝ) := do
  let nc ← fdiv fc fs
  let nw ← fdiv bw fs
  let a ← shelfAnalog dbg N n gainDb stopDb (Layout.new N)
  let d ← bandShelfTransform dbg nc nw a (Layout.new (2 * N))
  makeCascade (2 * N) d

end ChebyshevII

end Edsp
