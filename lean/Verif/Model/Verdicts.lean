import Verif.Model.ExtendedReductions
import Verif.Model.RoundedSums

/-!
# Model of `silence` and `equal` in floating point arithmetic

The verdicts of algorithm/silence.hpp and algorithm/equal.hpp on numbers with `p` bits and on numbers that may be infinite
or not a number.  In exact arithmetic they are `Seq.silence` and `Seq.equal` (Model/Sequences.lean).
-/

namespace Edsp.Verdict

open Edsp.Spec Edsp.Spec.Ext

open Classical in
/-- algorithm/silence.hpp 40-42, every operation rounded to `p` bits.  A power that is not finite is that of an empty
range, 0/0; it compares false. -/
noncomputable def silence (p : ℕ) (xs : List ℝ) (threshold : ℝ) : Bool :=
  match Rounded.power p xs with
  | none => false
  | some w => decide (w < threshold)

/-- algorithm/silence.hpp 40-42 on numbers that may be infinite or not a number. -/
noncomputable def silenceExt (R : ℝ → Ext) (l : List Ext) (threshold : Ext) : Bool :=
  Extended.less (Extended.power R l) threshold

/-- algorithm/equal.hpp 40-42, `std::equal` with a predicate. -/
def equalBy {α β : Type} (p : α → β → Bool) : List α → List β → Bool
  | [], [] => true
  | x :: xs, y :: ys => p x y && equalBy p xs ys
  | _, _ => false

open Classical in
/-- `operator==`: false if one of the numbers is NaN. -/
noncomputable def eqExt : Ext → Ext → Bool
  | inf a, inf b => decide (a = b)
  | fin x, fin y => decide (x = y)
  | _, _ => false

/-- algorithm/equal.hpp 54-56 on numbers that may be infinite or not a number. -/
noncomputable def equalExt (l m : List Ext) : Bool := equalBy eqExt l m

end Edsp.Verdict
