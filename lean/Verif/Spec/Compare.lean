import Mathlib.Data.Real.Basic
import Mathlib.Data.List.Forall2

/-! # Specification: two signals compared sample by sample -/

namespace Edsp.Spec

/-- The signals have the same length and no sample of the first exceeds that of the second. -/
def AtMost (x y : List ℝ) : Prop := List.Forall₂ (· ≤ ·) x y

/-- The signals have the same length and no sample of the first is larger in magnitude. -/
def Quieter (x y : List ℝ) : Prop := List.Forall₂ (fun a b => |a| ≤ |b|) x y

/-- Both calls succeed, and the first result does not exceed the second. -/
def ResultAtMost {E : Type} (a b : Except E ℝ) : Prop := ∃ u v, a = .ok u ∧ b = .ok v ∧ u ≤ v

/-- Larger samples never make an output smaller. -/
def Increasing (T : List ℝ → List ℝ) : Prop := ∀ x y, AtMost x y → AtMost (T x) (T y)

end Edsp.Spec
