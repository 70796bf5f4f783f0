/-!
# Specification of searching and ordering texts

A text is a list of characters (values of `unsigned char`).  Written from the C++ standard
(`basic_string_view`, [string.view.find], [string.view.ops]); independent of the model.
-/

namespace Edsp.Spec

/-- The text `s` occurs in `t` at position `i`; the empty text occurs at every position up to the end. -/
def OccursAt (t s : List Nat) (i : Nat) : Prop := i ≤ t.length ∧ s <+: t.drop i

/-- The character of `t` at position `i` exists and is one of `s`. -/
def InSetAt (t s : List Nat) (i : Nat) : Prop := ∃ c, t[i]? = some c ∧ c ∈ s

/-- The character of `t` at position `i` exists and is none of `s`. -/
def NotInSetAt (t s : List Nat) (i : Nat) : Prop := ∃ c, t[i]? = some c ∧ c ∉ s

/-- `r` is the least position from `pos` on with property `P`, or `none` if there is no such position. -/
def IsFirst (P : Nat → Prop) (pos none r : Nat) : Prop :=
  (r = none ∧ ∀ i, pos ≤ i → ¬ P i) ∨ (r ≠ none ∧ pos ≤ r ∧ P r ∧ ∀ i, pos ≤ i → i < r → ¬ P i)

/-- `r` is the greatest position up to `pos` with property `P`, or `none` if there is no such position. -/
def IsLast (P : Nat → Prop) (pos none r : Nat) : Prop :=
  (r = none ∧ ∀ i, i ≤ pos → ¬ P i) ∨ (r ≠ none ∧ r ≤ pos ∧ P r ∧ ∀ i, r < i → i ≤ pos → ¬ P i)

/-- `r` has the sign with which `strcmp`-like functions report the order of two texts. -/
def Reports (r : Int) (t s : List Nat) : Prop :=
  (r < 0 ↔ t < s) ∧ (r = 0 ↔ t = s) ∧ (0 < r ↔ s < t)

end Edsp.Spec
