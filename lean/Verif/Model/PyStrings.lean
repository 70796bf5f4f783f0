import Verif.Model.Strings

/-!
# Model of the string functions of the Python package

bindings/python/src/string.cpp.  A Python string is the list of its characters (Lean's `Char` is a Unicode scalar
value; a Python string with a lone surrogate cannot be encoded and raises before any of this code runs).
Boost.Python turns it into a `std::string` holding its UTF-8 bytes, and turns a returned `std::string` back by
decoding it; bytes that are not UTF-8 raise `UnicodeDecodeError` (`none`).  The conversions are Boost.Python's and
Python's, not part of the repository; UTF-8 itself is taken from the Lean library.
-/

namespace Edsp.PyStr

/-- A byte seen as a plain (signed) `char`. -/
def signed (b : UInt8) : Int := if b.toNat < 128 then b.toNat else b.toNat - 256

/-- The byte of a `char`. -/
def unsigned (c : Int) : UInt8 := UInt8.ofNat (c % 256).toNat

/-- The conversion of a Python string to a `std::string`. -/
def encode (s : List Char) : List Int := s.flatMap fun c => (String.utf8EncodeChar c).map signed

/-- The conversion of a `std::string` to a Python string. -/
def decode (bs : List Int) : Option (List Char) :=
  ((bs.map unsigned).toByteArray.utf8Decode?).map Array.toList

/-- The conversion of a Python string to a parameter of type `char`: Boost.Python reads the first `char` of the
NUL terminated UTF-8 bytes and does not look at the length. -/
def delimiter (d : List Char) : Int := (encode d).headD 0

/-- string.cpp 31-35. -/
def trim (s : List Char) : Except Fault (Option (List Char)) := do return decode (← Str.trim (encode s))

/-- string.cpp 37-41. -/
def ltrim (s : List Char) : Except Fault (Option (List Char)) := do return decode (← Str.ltrim (encode s))

/-- string.cpp 43-47. -/
def rtrim (s : List Char) : Except Fault (Option (List Char)) := do return decode (← Str.rtrim (encode s))

/-- string.cpp 49-61; a list item that is not a string raises in line 55 and is not modelled. -/
def join (ps : List (List Char)) (d : List Char) : Option (List Char) :=
  decode (Str.join (ps.map encode) (delimiter d))

/-- string.cpp 63-68. -/
def toLower (s : List Char) : Except Fault (Option (List Char)) := do return decode (← Str.tolower (encode s))

/-- string.cpp 70-75. -/
def toUpper (s : List Char) : Except Fault (Option (List Char)) := do return decode (← Str.toupper (encode s))

/-- The loop of string.cpp 82-84: every piece is decoded when it is appended. -/
def decodeAll : List (List Int) → Option (List (List Char))
  | [] => some []
  | p :: ps =>
    match decode p, decodeAll ps with
    | some t, some ts => some (t :: ts)
    | _, _ => none

/-- string.cpp 77-86. -/
def split (s d : List Char) : Option (List (List Char)) := decodeAll (Str.split (encode s) (delimiter d))

end Edsp.PyStr
