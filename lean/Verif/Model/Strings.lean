import Verif.Model.Fault

/-!
# Model of the string helpers

include/edsp/string/*.hpp.  A character is the integer value it has after promotion to `int`: a plain
(signed) `char` gives −128 … 127.  The classification functions of <cctype> are those of the "C" locale.
The output iterator of `split` is modelled by the list of the assigned strings (a `back_inserter`).
-/

namespace Edsp.Str

/-- Precondition of `std::isspace`, `std::tolower`, `std::toupper`: the argument is `EOF` (−1) or
representable as `unsigned char`; anything else is undefined behaviour. -/
def ctypeArg (c : Int) : Except Fault Unit := if -1 ≤ c ∧ c ≤ 255 then .ok () else .error .domain

/-- `std::isspace` in the "C" locale. -/
def isspace (c : Int) : Except Fault Bool := do
  ctypeArg c
  return c == 32 || (9 ≤ c && c ≤ 13)

/-- `std::tolower` in the "C" locale. -/
def tolower1 (c : Int) : Except Fault Int := do
  ctypeArg c
  return if 65 ≤ c ∧ c ≤ 90 then c + 32 else c

/-- `std::toupper` in the "C" locale. -/
def toupper1 (c : Int) : Except Fault Int := do
  ctypeArg c
  return if 97 ≤ c ∧ c ≤ 122 then c - 32 else c

/-- The loop of `std::transform` in to_lower.hpp 38-40. -/
def tolower : List Int → Except Fault (List Int)
  | [] => .ok []
  | c :: cs => do
    let d ← tolower1 c
    return d :: (← tolower cs)

/-- The loop of `std::transform` in to_upper.hpp 40-42. -/
def toupper : List Int → Except Fault (List Int)
  | [] => .ok []
  | c :: cs => do
    let d ← toupper1 c
    return d :: (← toupper cs)

/-- `std::find_if` with the predicate "not a space" (trim.hpp 38-39, 49-50): the rest of the range from
the position found. -/
def findNotSpace : List Int → Except Fault (List Int)
  | [] => .ok []
  | c :: cs => do
    if ← isspace c then findNotSpace cs else return c :: cs

/-- trim.hpp 36-40: everything before the position found is erased. -/
def ltrim (s : List Int) : Except Fault (List Int) := findNotSpace s

/-- trim.hpp 47-52: the search runs over the reverse iterators; everything from its base on is erased. -/
def rtrim (s : List Int) : Except Fault (List Int) := do
  return (← findNotSpace s.reverse).reverse

/-- trim.hpp 59-62. -/
def trim (s : List Int) : Except Fault (List Int) := do rtrim (← ltrim s)

/-- `std::getline(stream, segment, d)` on the unread characters of the stream: it fails when there are
none, otherwise it extracts up to and including the next delimiter, which is not stored. -/
def getline (d : Int) : List Int → Option (List Int × List Int)
  | [] => none
  | c :: cs =>
    if c = d then some ([], cs)
    else
      match getline d cs with
      | none => some ([c], [])
      | some (seg, rest) => some (c :: seg, rest)

/-- `getline` consumes at least one character. -/
theorem getline_lt (d : Int) (s seg rest : List Int) (h : getline d s = some (seg, rest)) :
    rest.length < s.length := by
  induction s generalizing seg rest with
  | nil => simp [getline] at h
  | cons c cs ih =>
    simp only [getline] at h
    split at h
    · simp only [Option.some.injEq, Prod.mk.injEq] at h
      simp [h.2]
    · split at h
      · simp only [Option.some.injEq, Prod.mk.injEq] at h
        simp [← h.2]
      · rename_i hg
        simp only [Option.some.injEq, Prod.mk.injEq] at h
        have := ih _ _ hg
        simp [← h.2]
        omega

/-- split.hpp 38-47. -/
def split (s : List Int) (d : Int) : List (List Int) :=
  match _h : getline d s with
  | none => []
  | some (seg, rest) => if seg ≠ [] then seg :: split rest d else split rest d
termination_by s.length
decreasing_by all_goals exact getline_lt d s seg rest _h

/-- The loop of join.hpp 43-48. -/
def joinStream (d : Int) : List (List Int) → List Int
  | [] => []
  | [p] => p
  | p :: q :: ps => p ++ [d] ++ joinStream d (q :: ps)

/-- join.hpp 40-50: the result is assigned from `ss.str().c_str()`, so it ends at the first NUL. -/
def join (ps : List (List Int)) (d : Int) : List Int := (joinStream d ps).takeWhile (· ≠ 0)

end Edsp.Str
