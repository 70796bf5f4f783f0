import Mathlib.Data.List.Forall2

/-! # Specification: a function applied to every block of a signal -/

namespace Edsp.Spec

/-- `F` succeeds on every block and `vs` lists its results, in order. -/
def Each {α β ε : Type} (F : α → Except ε β) (bs : List α) (vs : List β) : Prop :=
  List.Forall₂ (fun b v => F b = .ok v) bs vs

/-- All blocks have `n` samples. -/
def EqualBlocks {α : Type} (n : ℕ) (bs : List (List α)) : Prop := ∀ b ∈ bs, b.length = n

end Edsp.Spec
