import Verif.Model.Spectral
import Mathlib.Analysis.SpecialFunctions.Trigonometric.Basic
import Mathlib.Algebra.BigOperators.Group.Finset.Basic

/-!
# The cosine and Hartley transforms of the PFFFT build

internal/libpffft_impl.hpp.  Two work arrays are two blocks of memory that swap their roles in every recursive call.
Exact real arithmetic.
-/

namespace Edsp.Lee

open Mem

/-- Floating point division. -/
noncomputable def div (a b : ℝ) : Except Fault ℝ := if b = 0 then .error .divByZero else .ok (a / b)

/-- `std::cos((i + 0.5f) * pi / len) * 2` (lines 47 and 73). -/
noncomputable def twoCos (i len : Nat) : ℝ := Real.cos (((i : ℝ) + 1 / 2) * Real.pi / len) * 2

/-- A loop that stores two cells in every turn: `for (i = i0; i < i0 + n; ++i) { m[p(i)] = f(i); m[q(i)] = g(i); }`,
where `f` and `g` read the other array. -/
def loop2 (p q : Nat → Nat) (f g : Nat → Except Fault ℝ) : Nat → Nat → List ℝ → Except Fault (List ℝ)
  | 0, _, m => .ok m
  | n + 1, i, m => do
    let m ← write m (p i) (← f i)
    let m ← write m (q i) (← g i)
    loop2 p q f g n (i + 1) m

/-- internal/libpffft_impl.hpp 39-57: `vec` is the cell `v` of `V`, `temp` the cell `t` of `T`.  Length 0 recurses
for ever. -/
noncomputable def fwd (len : Nat) (V : List ℝ) (v : Nat) (T : List ℝ) (t : Nat) :
    Except Fault (List ℝ × List ℝ) :=
  if len = 1 then .ok (V, T)
  else if _h0 : len = 0 then .error .overflow
  else do
    let half := len / 2
    let T ← loop2 (fun i => t + i) (fun i => t + (i + half))
      (fun i => do
        let x ← read V (v + i)
        let y ← read V (v + (len - 1 - i))
        return x + y)
      (fun i => do
        let x ← read V (v + i)
        let y ← read V (v + (len - 1 - i))
        div (x - y) (twoCos i len)) half 0 T
    let (T, V) ← fwd half T t V v
    let (T, V) ← fwd half T (t + half) V v
    let V ← loop2 (fun i => v + (i * 2 + 0)) (fun i => v + (i * 2 + 1))
      (fun i => read T (t + i))
      (fun i => do
        let a ← read T (t + (i + half))
        let b ← read T (t + (i + half + 1))
        return a + b) (half - 1) 0 V
    let V ← write V (v + (len - 2)) (← read T (t + (half - 1)))
    let V ← write V (v + (len - 1)) (← read T (t + (len - 1)))
    return (V, T)
termination_by len
decreasing_by all_goals omega

/-- internal/libpffft_impl.hpp 59-77. -/
noncomputable def inv (len : Nat) (V : List ℝ) (v : Nat) (T : List ℝ) (t : Nat) :
    Except Fault (List ℝ × List ℝ) :=
  if len = 1 then .ok (V, T)
  else if _h0 : len = 0 then .error .overflow
  else do
    let half := len / 2
    let T ← write T (t + 0) (← read V (v + 0))
    let T ← write T (t + half) (← read V (v + 1))
    let T ← loop2 (fun i => t + i) (fun i => t + (i + half))
      (fun i => read V (v + i * 2))
      (fun i => do
        let a ← read V (v + (i * 2 - 1))
        let b ← read V (v + (i * 2 + 1))
        return a + b) (half - 1) 1 T
    let (T, V) ← inv half T t V v
    let (T, V) ← inv half T (t + half) V v
    let V ← loop2 (fun i => v + i) (fun i => v + (len - 1 - i))
      (fun i => do
        let x ← read T (t + i)
        let y ← div (← read T (t + (i + half))) (twoCos i len)
        return x + y)
      (fun i => do
        let x ← read T (t + i)
        let y ← div (← read T (t + (i + half))) (twoCos i len)
        return x - y) half 0 V
    return (V, T)
termination_by len
decreasing_by all_goals omega

/-- internal/libpffft_impl.hpp 81-87. -/
noncomputable def dct (V : List ℝ) (v len : Nat) : Except Fault (List ℝ) := do
  let (V, _) ← fwd len V v (List.replicate len 0) 0
  transform (fun x => x * 2) V v (v + len) v

/-- internal/libpffft_impl.hpp 91-98. -/
noncomputable def idct (V : List ℝ) (v len : Nat) : Except Fault (List ℝ) := do
  let V ← transform (fun x => x * 2) V v (v + len) v
  let V ← write V v ((← read V v) / 2)
  let (V, _) ← inv len V v (List.replicate len 0) 0
  return V

/-- The inner loop of `useless_dht`, internal/libpffft_impl.hpp 115-118: `j` starts at 1. -/
noncomputable def dhtSum (x : List ℝ) (n k : Nat) : ℝ :=
  ∑ j ∈ Finset.Ico 1 n, x.getD j 0 *
    (Real.cos (2 * Real.pi * j * k / n) + Real.sin (2 * Real.pi * j * k / n))

/-- The outer loop of `useless_dht`, internal/libpffft_impl.hpp 112-120 (source and destination in two blocks). -/
noncomputable def dhtLoop (x : List ℝ) (n : Nat) : Nat → Nat → List ℝ → Nat → Except Fault (List ℝ)
  | 0, _, m, _ => .ok m
  | c + 1, k, m, d => do
    let m ← write m (d + k) (dhtSum x n k)
    dhtLoop x n c (k + 1) m d

/-- internal/libpffft_impl.hpp 133-138: the constructor accepts the multiples of 16 (an assertion). -/
def accepts (nfft : Nat) : Bool := nfft % 16 = 0

/-- internal/libpffft_impl.hpp 181-187 on an engine of size `nfft`: `src` and `dst` in two blocks. -/
noncomputable def engineDct (nfft : Nat) (s : List ℝ) (p : Nat) (m : List ℝ) (d : Nat) :
    Except Fault (List ℝ) := do
  if accepts nfft = false then throw .assertion
  let x ← readRange s p (p + nfft)
  let m ← Spectral.store x m d
  dct m d nfft

/-- internal/libpffft_impl.hpp 189-192 on an engine of size `nfft`. -/
noncomputable def engineIdct (nfft : Nat) (s : List ℝ) (p : Nat) (m : List ℝ) (d : Nat) :
    Except Fault (List ℝ) := do
  if accepts nfft = false then throw .assertion
  let x ← readRange s p (p + nfft)
  let m ← Spectral.store x m d
  idct m d nfft

/-- internal/libpffft_impl.hpp 208-213. -/
noncomputable def idctScale (nfft : Nat) (m : List ℝ) (d : Nat) : Except Fault (List ℝ) :=
  transform (fun v => v / (2 * (nfft : ℝ))) m d (d + nfft) d

/-- internal/libpffft_impl.hpp 177-179 on an engine of size `nfft`. -/
noncomputable def engineDht (nfft : Nat) (s : List ℝ) (p : Nat) (m : List ℝ) (d : Nat) :
    Except Fault (List ℝ) := do
  if accepts nfft = false then throw .assertion
  let x ← readRange s p (p + nfft)
  dhtLoop x nfft nfft 0 m d

end Edsp.Lee
