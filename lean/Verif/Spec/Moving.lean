import Verif.Model.MovingFilters

/-!
# Specification of the moving filters: an aggregate of the last `n` samples

The history restarts (with zeros) at every `reset` and `resize`.
-/

namespace Edsp.Spec

variable {K : Type}

/-- The last `n` entries of a list. -/
def lastOf (n : Nat) (l : List K) : List K := l.drop (l.length - n)

/-- The last `n` samples of a history, zeros counting for the samples before the first. -/
def window [Zero K] (n : Nat) (history : List K) : List K :=
  lastOf n (List.replicate n 0 ++ history)

/-- Arithmetic mean. -/
def mean [Field K] (l : List K) : K := l.sum / l.length

/-- Root mean square. -/
noncomputable def rms (l : List ℝ) : ℝ := Real.sqrt ((l.map fun x => x ^ 2).sum / l.length)

/-- The values a moving filter of length `n` should return, `history` being the samples since the
last restart. -/
def moving [Zero K] (agg : List K → K) (n : Nat) (history : List K) : List (MovingOp K) → List K
  | [] => []
  | .tick x :: ops => agg (window n (history ++ [x])) :: moving agg n (history ++ [x]) ops
  | .reset :: ops => moving agg n [] ops
  | .resize m :: ops => moving agg m [] ops

/-- `m` is a median of `l`: at least half of the entries are `≤ m`, at least half are `≥ m`. -/
def IsMedian [LE K] [DecidableLE K] (l : List K) (m : K) : Prop :=
  l.length ≤ 2 * l.countP (fun x => decide (x ≤ m)) ∧
  l.length ≤ 2 * l.countP (fun x => decide (m ≤ x))

end Edsp.Spec
