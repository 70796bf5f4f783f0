/-!
# Specification: what a block of memory holds

Independent of the model.  `seg m a b` are the values held by the cells `a, …, b-1` of the block `m`;
`Wrote m m' d vs`: the block `m'` is the block `m` with exactly the cells `d, d+1, …` replaced by the
values `vs`.
-/

namespace Edsp.Spec

variable {α : Type}

/-- The values of the cells `a, …, b-1`. -/
def seg (m : List α) (a b : Nat) : List α := (m.drop a).take (b - a)

/-- `m'` is `m` with the values `vs` stored from cell `d` on and nothing else changed. -/
def Wrote (m m' : List α) (d : Nat) (vs : List α) : Prop :=
  d + vs.length ≤ m.length ∧ m' = m.take d ++ vs ++ m.drop (d + vs.length)

end Edsp.Spec
