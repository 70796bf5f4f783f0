import Verif.Model.Fault

/-!
# Specification: an object that turns samples into samples
-/

namespace Edsp.Spec

variable {σ α : Type}

/-- The object after the samples `xs`, called on one after the other, and the values returned; a call that fails ends
the computation. -/
def stream (f : σ → α → Except Fault (σ × α)) (s : σ) : List α → Except Fault (σ × List α)
  | [] => .ok (s, [])
  | x :: xs => do
    let (s, y) ← f s x
    let (s, ys) ← stream f s xs
    return (s, y :: ys)

end Edsp.Spec
