import Mathlib.Data.Real.Basic
import Mathlib.Data.List.Forall2

/-! # Specification: two signals that differ by a small disturbance -/

namespace Edsp.Spec

/-- The signals have the same length and no sample differs by more than `ε`. -/
def Close (ε : ℝ) (x y : List ℝ) : Prop := List.Forall₂ (fun a b => |a - b| ≤ ε) x y

/-- Both calls succeed, and their results differ by at most `ε`. -/
def Near (ε : ℝ) {E : Type} (a b : Except E ℝ) : Prop := ∃ u v, a = .ok u ∧ b = .ok v ∧ |u - v| ≤ ε

end Edsp.Spec
