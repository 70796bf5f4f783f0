import Verif.Model.Biquad

/-!
# Specification of a cascade: a list of stages, each filtering the whole output of the previous

Uses only the single-stage filter of the model; knows nothing of the array, the counter or the
sample-by-sample loop of the cascade.
-/

namespace Edsp.Spec

variable {K : Type*} [Field K]

/-- Feed a signal through a list of stages, first stage first, each stage filtering the whole
output of the one before; also returns the stages with their final states. -/
def through : List (Biquad K) → List K → List (Biquad K) × List K
  | [], xs => ([], xs)
  | f :: fs, xs =>
    ((f.filter xs).1 :: (through fs (f.filter xs).2).1, (through fs (f.filter xs).2).2)

/-- One call on a cascade of capacity `N`. -/
def cascadeStep (N : Nat) (fs : List (Biquad K)) :
    Cascade.Op K → Except Fault (List (Biquad K) × List K)
  | .push f => if fs.length < N then .ok (fs ++ [f], []) else .error .assertion
  | .clear => .ok ([], [])
  | .reset => .ok (fs.map Biquad.reset, [])
  | .filter xs => .ok (through fs xs)

/-- A history of calls on a cascade of capacity `N`. -/
def cascadeRun (N : Nat) (fs : List (Biquad K)) :
    List (Cascade.Op K) → Except Fault (List (Biquad K) × List (List K))
  | [] => .ok (fs, [])
  | op :: ops => do
    let (fs', o) ← cascadeStep N fs op
    let (fs'', os) ← cascadeRun N fs' ops
    return (fs'', o :: os)

/-- The number of stages pushed since the last `clear`, oldest call first. -/
def pushedSinceClear (ops : List (Cascade.Op K)) : Nat :=
  ((ops.reverse.takeWhile fun | .clear => false | _ => true).filter
    fun | .push _ => true | _ => false).length

end Edsp.Spec
