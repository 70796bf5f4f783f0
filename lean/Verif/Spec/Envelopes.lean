import Mathlib.Analysis.SpecialFunctions.Exp
import Mathlib.Algebra.Order.Floor.Semiring

/-!
# Specification of the envelopes

The gain of an ADSR envelope, as a function of the number of samples since the key event, and the first order envelope
follower.  Independent of the model.
-/

namespace Edsp.Spec

/-- A value moving from `v` to the level `L` by `d` per step, after `n` steps. -/
noncomputable def approach (v L d : ℝ) (n : Nat) : ℝ := if L ≤ v then max L (v - n * d) else min L (v + n * d)

/-- Number of samples of an attack from `v` to `A` by `a` per sample. -/
noncomputable def attackSamples (v A a : ℝ) : Nat := ⌈(A - v) / a⌉₊

/-- The gain at the `n`-th sample (counted from 1) after a key-on: from `v` up to `A` by `a` per sample, then towards the
sustain level `L` by `d` per sample. -/
noncomputable def noteGain (v A a L d : ℝ) (n : Nat) : ℝ :=
  if n ≤ attackSamples v A a then min A (v + n * a) else approach A L d (n - attackSamples v A a)

/-- One step of the first order follower with gain `g` of the previous level. -/
def follow (g level x : ℝ) : ℝ := (1 - g) * x + g * level

end Edsp.Spec
