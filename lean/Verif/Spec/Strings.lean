/-!
# Specification vocabulary for strings

A string is the list of its character codes.  Blanks, letters and the ASCII range are those of the
"C" locale.
-/

namespace Edsp.Spec

/-- Space, tab, newline, vertical tab, form feed and carriage return. -/
def Blank (c : Int) : Prop := c = 32 ∨ c = 9 ∨ c = 10 ∨ c = 11 ∨ c = 12 ∨ c = 13

/-- All characters are non-negative (7-bit text in a signed `char`, any text in an unsigned one). -/
def Plain (s : List Int) : Prop := ∀ c ∈ s, 0 ≤ c ∧ c ≤ 255

/-- `u` is a capital letter and `l` the same letter in lower case. -/
def CasePair (u l : Int) : Prop := ∃ k : Int, 0 ≤ k ∧ k < 26 ∧ u = 65 + k ∧ l = 97 + k

end Edsp.Spec
