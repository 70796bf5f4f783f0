import Verif.Lemmas.PyStrings

/-!
# C99: the string functions of the Python package
-/

namespace Edsp.PyStr
open Edsp Edsp.Str Edsp.Spec

/-- Space, tab, newline, vertical tab, form feed, carriage return. -/
def BlankChar (c : Char) : Prop := c.toNat = 32 ∨ (9 ≤ c.toNat ∧ c.toNat ≤ 13)

/-- **C99 (split).**  For any text, Unicode included, and a delimiter whose first character is an ASCII character
`d`, `split` never raises and returns the non-empty pieces between the occurrences of `d`. -/
theorem C99_split (s t : List Char) {d : Char} (hd : d.toNat < 128) :
    split s (d :: t) = some ((s.splitOn d).filter (fun p => p ≠ [])) := by
  rw [split, delimiter_ascii hd, C27.C27_split, splitOn_encode hd, ← decodeAll_encode, List.filter_map]
  congr 2
  apply List.filter_congr
  intro p _
  simp [encode_eq_nil]

example : split "añb,,ü".toList ",".toList = some ["añb".toList, "ü".toList] := by
  rw [show ",".toList = [','] from by decide, C99_split _ _ (by decide)]
  decide

/-- **C99 (join).**  For any texts and an ASCII delimiter, none of them containing NUL, `join` returns the texts
with the delimiter in between. -/
theorem C99_join_partial (ps : List (List Char)) (t : List Char) {d : Char} (hd : d.toNat < 128)
    (h0 : d.toNat ≠ 0) (hp : ∀ p ∈ ps, Char.ofNat 0 ∉ p) : join ps (d :: t) = some ([d].intercalate ps) := by
  have hz : ((Char.ofNat 0).toNat : Int) = 0 := rfl
  rw [join, delimiter_ascii hd, C27.C27_join_partial _ _ (by omega), intercalate_encode hd, decode_encode]
  intro p hm
  obtain ⟨q, hq, rfl⟩ := List.mem_map.1 hm
  rw [← hz, mem_encode (by decide)]
  exact hp q hq

example : ∀ p ∈ ["ä".toList, "b".toList], Char.ofNat 0 ∉ p := by decide

/-- **C99 (there and back).**  Non-empty texts free of the delimiter and of NUL survive `join` and `split`. -/
theorem C99_round_trip_partial (ps : List (List Char)) {d : Char} (hd : d.toNat < 128) (h0 : d.toNat ≠ 0)
    (hp : ∀ p ∈ ps, p ≠ [] ∧ d ∉ p ∧ Char.ofNat 0 ∉ p) : ∃ s, join ps [d] = some s ∧ split s [d] = some ps := by
  refine ⟨_, C99_join_partial ps [] hd h0 (fun p h => (hp p h).2.2), ?_⟩
  rw [C99_split _ _ hd]
  by_cases hps : ps = []
  · subst hps; simp
  · rw [List.splitOn_intercalate d (fun l h => (hp l h).2.1) hps, List.filter_eq_self.2]
    intro p h
    simpa using (hp p h).1

example : ∀ p ∈ ["ä".toList, "b c".toList], p ≠ [] ∧ ',' ∉ p ∧ Char.ofNat 0 ∉ p := by decide

theorem encode_ascii (s : List Char) (h : ∀ c ∈ s, c.toNat < 128) : encode s = s.map fun c => (c.toNat : Int) := by
  induction s with
  | nil => rfl
  | cons c s ih =>
    rw [encode_cons, enc_ascii (h c List.mem_cons_self), ih fun x hx => h x (List.mem_cons_of_mem _ hx)]
    rfl

theorem case_of {f : Int → Except Fault Int} {g : Char → Char} {F : List Int → Except Fault (List Int)}
    (hnil : F [] = .ok []) (hcons : ∀ c cs, F (c :: cs) = (do let d ← f c; return d :: (← F cs)))
    (hf : ∀ c : Char, c.toNat < 128 → f c.toNat = .ok ((g c).toNat : Int) ∧ (g c).toNat < 128)
    (s : List Char) (h : ∀ c ∈ s, c.toNat < 128) : F (encode s) = .ok (encode (s.map g)) := by
  induction s with
  | nil => exact hnil
  | cons c s ih =>
    have hc := h c List.mem_cons_self
    rw [encode_cons, enc_ascii hc, List.singleton_append, hcons, (hf c hc).1,
      ih fun x hx => h x (List.mem_cons_of_mem _ hx), List.map_cons, encode_cons, enc_ascii (hf c hc).2]
    rfl

theorem ascii_cases {P : Char → Prop} (h : ∀ n : Fin 128, P (Char.ofNat n)) (c : Char) (hc : c.toNat < 128) : P c := by
  have := h ⟨c.toNat, hc⟩
  rwa [Char.ofNat_toNat] at this

/-- **C99 (case).**  On ASCII text `to_upper` and `to_lower` are the case mapping of the ASCII letters and leave
every other character. -/
theorem C99_case_partial (s : List Char) (h : ∀ c ∈ s, c.toNat < 128) :
    toUpper s = .ok (some (s.map Char.toUpper)) ∧ toLower s = .ok (some (s.map Char.toLower)) := by
  constructor
  · rw [toUpper, case_of (F := Str.toupper) (f := toupper1) (g := Char.toUpper) rfl (fun _ _ => rfl) ?_ s h]
    · simp only [bind, Except.bind, pure, Except.pure, decode_encode]
    · intro c hc
      refine ascii_cases (P := fun c => toupper1 c.toNat = .ok (c.toUpper.toNat : Int) ∧ c.toUpper.toNat < 128)
        (fun n => ?_) c hc
      revert n
      decide
  · rw [toLower, case_of (F := Str.tolower) (f := tolower1) (g := Char.toLower) rfl (fun _ _ => rfl) ?_ s h]
    · simp only [bind, Except.bind, pure, Except.pure, decode_encode]
    · intro c hc
      refine ascii_cases (P := fun c => tolower1 c.toNat = .ok (c.toLower.toNat : Int) ∧ c.toLower.toNat < 128)
        (fun n => ?_) c hc
      revert n
      decide

example : ∀ c ∈ "Hello, World 42".toList, c.toNat < 128 := by decide

theorem fault_of {f : Int → Except Fault Int} {F : List Int → Except Fault (List Int)}
    (hcons : ∀ c cs, F (c :: cs) = (do let d ← f c; return d :: (← F cs)))
    (hf : ∀ c : Int, c < -1 → f c = .error .domain) (hok : ∀ c : Int, -1 ≤ c → c ≤ 255 → ∃ d, f c = .ok d)
    (s : List Char) (h : ∃ c ∈ s, 128 ≤ c.toNat) : F (encode s) = .error .domain := by
  induction s with
  | nil => obtain ⟨c, hc, -⟩ := h; cases hc
  | cons a s ih =>
    by_cases ha : a.toNat < 128
    · obtain ⟨d, hd⟩ := hok a.toNat (by omega) (by omega)
      have : F (encode s) = .error .domain := by
        apply ih
        obtain ⟨c, hc, h2⟩ := h
        rcases List.mem_cons.1 hc with rfl | hc
        · omega
        · exact ⟨c, hc, h2⟩
      rw [encode_cons, enc_ascii ha, List.singleton_append, hcons, hd, this]
      rfl
    · obtain ⟨x, y, t, e, h1, h2, h3, h4⟩ := enc_other (not_lt.1 ha)
      rw [encode_cons, e, List.cons_append, hcons, hf x (by omega)]
      rfl

theorem ctypeArg_bad {c : Int} (h : c < -1) : ctypeArg c = .error .domain := by
  rw [ctypeArg, if_neg (by omega)]

theorem ctypeArg_good {c : Int} (h1 : -1 ≤ c) (h2 : c ≤ 255) : ctypeArg c = .ok () := by
  rw [ctypeArg, if_pos ⟨h1, h2⟩]

/-- **C99 is violated**: `to_upper` and `to_lower` of a text with any character outside ASCII is undefined
behaviour (a negative `char` is handed to `std::toupper`), and only then. -/
theorem C99_case_violates (s : List Char) :
    (toUpper s = .error .domain ↔ ∃ c ∈ s, 128 ≤ c.toNat) ∧ (toLower s = .error .domain ↔ ∃ c ∈ s, 128 ≤ c.toNat) := by
  by_cases h : ∃ c ∈ s, 128 ≤ c.toNat
  · have hu := fault_of (F := Str.toupper) (f := toupper1) (fun _ _ => rfl)
      (fun c hc => by simp only [toupper1, ctypeArg_bad hc, bind, Except.bind])
      (fun c h1 h2 => ⟨_, by simp only [toupper1, ctypeArg_good h1 h2, bind, Except.bind]; rfl⟩) s h
    have hl := fault_of (F := Str.tolower) (f := tolower1) (fun _ _ => rfl)
      (fun c hc => by simp only [tolower1, ctypeArg_bad hc, bind, Except.bind])
      (fun c h1 h2 => ⟨_, by simp only [tolower1, ctypeArg_good h1 h2, bind, Except.bind]; rfl⟩) s h
    refine ⟨⟨fun _ => h, fun _ => ?_⟩, ⟨fun _ => h, fun _ => ?_⟩⟩
    · simp only [toUpper, hu, bind, Except.bind]
    · simp only [toLower, hl, bind, Except.bind]
  · have h' : ∀ c ∈ s, c.toNat < 128 := fun c hc => by
      by_contra h2
      exact h ⟨c, hc, by omega⟩
    obtain ⟨e1, e2⟩ := C99_case_partial s h'
    rw [e1, e2]
    exact ⟨⟨fun h2 => (by cases h2), fun h2 => absurd h2 h⟩, ⟨fun h2 => (by cases h2), fun h2 => absurd h2 h⟩⟩

theorem blank_char {c : Char} (hc : c.toNat < 128) : Blank (c.toNat : Int) ↔ BlankChar c := by
  unfold Blank BlankChar
  omega

theorem blank_encode {pre : List Char} (h : ∀ c ∈ pre, BlankChar c) : ∀ b ∈ encode pre, Blank b := by
  have h1 : ∀ c ∈ pre, c.toNat < 128 := fun c hc => by have := h c hc; unfold BlankChar at this; omega
  rw [encode_ascii pre h1]
  intro b hb
  obtain ⟨c, hc, rfl⟩ := List.mem_map.1 hb
  exact (blank_char (h1 c hc)).2 (h c hc)

theorem head_encode {r : List Char} (h : ∀ c ∈ r.head?, ¬ BlankChar c ∧ c.toNat < 128) :
    ∀ b ∈ (encode r).head?, ¬ Blank b ∧ 0 ≤ b ∧ b ≤ 255 := by
  cases r with
  | nil => intro b hb; cases hb
  | cons c r =>
    obtain ⟨h1, h2⟩ := h c rfl
    rw [encode_cons, enc_ascii h2]
    intro b hb
    simp only [List.singleton_append, List.head?_cons, Option.mem_def, Option.some.injEq] at hb
    subst hb
    exact ⟨fun h => h1 ((blank_char h2).1 h), by omega, by omega⟩

theorem last_encode {r : List Char} (h : ∀ c ∈ r.getLast?, ¬ BlankChar c ∧ c.toNat < 128) :
    ∀ b ∈ (encode r).getLast?, ¬ Blank b ∧ 0 ≤ b ∧ b ≤ 255 := by
  rcases List.eq_nil_or_concat r with rfl | ⟨r, c, rfl⟩
  · intro b hb; cases hb
  · obtain ⟨h1, h2⟩ := h c (by simp)
    rw [List.concat_eq_append, encode_append, encode_cons, enc_ascii h2, encode_nil, List.append_nil]
    intro b hb
    simp only [List.getLast?_append, List.getLast?_singleton, Option.some_or, Option.mem_def, Option.some.injEq] at hb
    subst hb
    exact ⟨fun h => h1 ((blank_char h2).1 h), by omega, by omega⟩

/-- **C99 (trim).**  For a text that begins and ends, apart from blanks, with ASCII characters (its middle may be
anything), `ltrim` removes exactly the blanks before it, `rtrim` those after it, `trim` both. -/
theorem C99_trim_partial (pre r post : List Char) (h1 : ∀ c ∈ pre, BlankChar c) (h2 : ∀ c ∈ post, BlankChar c)
    (h3 : ∀ c ∈ r.head?, ¬ BlankChar c ∧ c.toNat < 128) (h4 : ∀ c ∈ r.getLast?, ¬ BlankChar c ∧ c.toNat < 128) :
    (r ≠ [] → ltrim (pre ++ r ++ post) = .ok (some (r ++ post))) ∧
      rtrim (r ++ post) = .ok (some r) ∧ trim (pre ++ r ++ post) = .ok (some r) := by
  have hr : Str.rtrim (encode (r ++ post)) = .ok (encode r) := by
    rw [encode_append]
    exact C28.C28_rtrim_partial _ _ (blank_encode h2) (last_encode h4)
  have hl : r ≠ [] → Str.ltrim (encode (pre ++ r ++ post)) = .ok (encode (r ++ post)) := by
    intro hr
    rw [List.append_assoc, encode_append]
    refine C28.C28_ltrim_partial _ _ (blank_encode h1) (head_encode ?_)
    obtain ⟨a, l, rfl⟩ := List.exists_cons_of_ne_nil hr
    simpa using h3
  refine ⟨fun h => ?_, ?_, ?_⟩
  · simp only [ltrim, hl h, bind, Except.bind, pure, Except.pure, decode_encode]
  · simp only [rtrim, hr, bind, Except.bind, pure, Except.pure, decode_encode]
  · by_cases h : r = []
    · subst h
      have e : Str.ltrim (encode (pre ++ post)) = .ok [] := by
        have := C28.C28_ltrim_partial (encode (pre ++ post)) [] (blank_encode (by
          intro c hc
          rcases List.mem_append.1 hc with hc | hc
          · exact h1 c hc
          · exact h2 c hc)) (by simp)
        rwa [List.append_nil] at this
      simp only [trim, Str.trim, List.append_nil, e, Str.rtrim, List.reverse_nil, findNotSpace, bind, Except.bind,
        pure, Except.pure]
      exact congrArg Except.ok (decode_encode [])
    · simp only [trim, Str.trim, hl h, hr, bind, Except.bind, pure, Except.pure, decode_encode]

example : ∃ pre r post : List Char, "  aéb\t".toList = pre ++ r ++ post ∧ (∀ c ∈ pre, BlankChar c) ∧
    (∀ c ∈ post, BlankChar c) ∧ (∀ c ∈ r.head?, ¬ BlankChar c ∧ c.toNat < 128) ∧
    ∀ c ∈ r.getLast?, ¬ BlankChar c ∧ c.toNat < 128 :=
  ⟨[' ', ' '], ['a', 'é', 'b'], ['\t'], by decide, by simp [BlankChar], by simp [BlankChar],
    by simp [BlankChar], by simp [BlankChar]⟩

/-- **C99 is violated**: `trim` and `ltrim` of a text whose first character that is not blank lies outside ASCII,
and `rtrim` of one whose last such character does, is undefined behaviour. -/
theorem C99_trim_violates (pre r : List Char) {c : Char} (hc : 128 ≤ c.toNat) (hp : ∀ c ∈ pre, BlankChar c) :
    ltrim (pre ++ c :: r) = .error .domain ∧ trim (pre ++ c :: r) = .error .domain ∧
      rtrim (r ++ c :: pre) = .error .domain := by
  obtain ⟨x, y, t, e, g1, g2, g3, g4⟩ := enc_other hc
  have hE : encode (pre ++ c :: r) = encode pre ++ x :: (y :: t ++ encode r) := by
    rw [encode_append, encode_cons, e]
    simp
  obtain ⟨k1, k2⟩ := C28.C28_trim_violates (encode pre) (y :: t ++ encode r) x (blank_encode hp) (by omega)
  refine ⟨?_, ?_, ?_⟩
  · simp only [ltrim, hE, k1, bind, Except.bind]
  · simp only [trim, hE, k2, bind, Except.bind]
  · obtain ⟨z, zs, hz, hz1⟩ : ∃ z zs, (x :: y :: t).reverse = z :: zs ∧ z < -1 := by
      cases h : (x :: y :: t).reverse with
      | nil => simp at h
      | cons z zs =>
        refine ⟨z, zs, rfl, ?_⟩
        have : z ∈ x :: y :: t := by
          rw [← List.mem_reverse, h]; exact List.mem_cons_self
        simp only [List.mem_cons] at this
        rcases this with rfl | rfl | h
        · omega
        · omega
        · have := g4 z h
          omega
    have hR : (encode (r ++ c :: pre)).reverse = (encode pre).reverse ++ z :: (zs ++ (encode r).reverse) := by
      rw [encode_append, encode_cons, e, List.reverse_append, List.reverse_append, hz]
      simp
    have k3 := (C28.C28_trim_violates (encode pre).reverse (zs ++ (encode r).reverse) z
      (by simpa using blank_encode hp) hz1).1
    rw [Str.ltrim] at k3
    simp only [rtrim, Str.rtrim, hR, k3, bind, Except.bind]

example : 128 ≤ 'é'.toNat ∧ ∀ c ∈ [' '], BlankChar c := ⟨by decide, by simp [BlankChar]⟩

/-- **C99 is violated (delimiter).**  A delimiter of several characters is cut to its first one without notice, and
an empty delimiter stands for NUL. -/
theorem C99_long_delimiter_violates (s t : List Char) (ps : List (List Char)) (d : Char) :
    split s (d :: t) = split s [d] ∧ join ps (d :: t) = join ps [d] ∧
      split s [] = split s [Char.ofNat 0] := by
  have h : delimiter (d :: t) = delimiter [d] := by
    rw [delimiter, delimiter, encode_cons, encode_cons, encode_nil, List.append_nil]
    have := String.utf8EncodeChar_ne_nil (c := d)
    cases hx : String.utf8EncodeChar d with
    | nil => exact absurd hx this
    | cons a as => rfl
  refine ⟨by rw [split, split, h], by rw [join, join, h], ?_⟩
  have h0 : delimiter [] = delimiter [Char.ofNat 0] := by
    rw [delimiter_ascii (by decide)]
    rfl
  rw [split, split, h0]

/-- **C99 is violated (delimiter outside ASCII).**  With a delimiter outside ASCII, a text that contains it can
make `split` raise: the text consisting of the delimiter alone always does, although there is nothing to return. -/
theorem C99_wide_delimiter_violates {d : Char} (hd : 128 ≤ d.toNat) : split [d] [d] = none := by
  obtain ⟨x, y, t, e, g1, g2, g3, g4⟩ := enc_other hd
  have hE : encode [d] = x :: y :: t := by rw [encode_cons, e, encode_nil, List.append_nil]
  have hd' : delimiter [d] = x := by rw [delimiter, hE]; rfl
  have hx : x ∉ y :: t := by
    intro h
    rcases List.mem_cons.1 h with rfl | h
    · omega
    · have := g4 x h
      omega
  have hs : Str.split (x :: y :: t) x = [y :: t] := by
    rw [C27.C27_split, List.splitOn_cons_eq_if_modifyHead, if_pos (by simp)]
    have := splitOn_append_of_notMem x (y :: t) [] hx
    rw [List.append_nil] at this
    rw [this]
    simp
  rw [split, hd', hE, hs]
  have hn : decode (y :: t) = none := by
    cases h : decode (y :: t) with
    | none => rfl
    | some u =>
      have hu := encode_of_decode (bs := y :: t) (by
        intro b hb
        rcases List.mem_cons.1 hb with rfl | hb
        · omega
        · have := g4 b hb
          omega) h
      cases u with
      | nil => cases hu
      | cons c u =>
        rw [encode_cons] at hu
        by_cases hc : c.toNat < 128
        · rw [enc_ascii hc, List.singleton_append, List.cons.injEq] at hu
          omega
        · obtain ⟨x', y', t', e', k1, k2, -, -⟩ := enc_other (not_lt.1 hc)
          rw [e', List.cons_append, List.cons.injEq] at hu
          omega
  simp only [decodeAll, hn]

example : 128 ≤ '…'.toNat := by decide

/-- **C99 is violated (join).**  The result of `join` stops at the first NUL of any of the texts. -/
theorem C99_join_violates (p q d : List Char) (hp : Char.ofNat 0 ∉ p) :
    join [p ++ [Char.ofNat 0], q] d = some p := by
  have hz : ((Char.ofNat 0).toNat : Int) = 0 := rfl
  have hp' : (0 : Int) ∉ encode p := by rw [← hz, mem_encode (by decide)]; exact hp
  have e0 : encode (p ++ [Char.ofNat 0]) = encode p ++ [0] := by
    rw [encode_append, encode_cons, enc_ascii (by decide), encode_nil, List.append_nil]
    rfl
  rw [join, List.map_cons, List.map_cons, List.map_nil, Str.join, joinStream, joinStream, e0]
  have : (encode p ++ [0] ++ [delimiter d] ++ encode q).takeWhile (fun x => decide (x ≠ 0)) = encode p := by
    rw [List.append_assoc, List.append_assoc, List.takeWhile_append_of_pos]
    · simp
    · intro b hb
      simp only [decide_eq_true_eq]
      exact fun h => hp' (h ▸ hb)
  rw [this, decode_encode]

example : Char.ofNat 0 ∉ "left".toList := by decide

end Edsp.PyStr
