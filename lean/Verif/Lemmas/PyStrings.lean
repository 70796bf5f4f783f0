import Verif.Model.PyStrings
import Verif.Props.C27_SplitJoin
import Verif.Props.C28_Trim

/-!
# Lemmas on the UTF-8 bytes of Python strings
-/

namespace Edsp.PyStr
open Edsp Edsp.Str

theorem unsigned_signed (b : UInt8) : unsigned (signed b) = b := by
  have hb : b.toNat < 256 := b.toNat_lt
  apply UInt8.toNat_inj.1
  rw [unsigned, UInt8.toNat_ofNat']
  unfold signed
  split <;> omega

theorem signed_unsigned {c : Int} (h1 : -128 ≤ c) (h2 : c ≤ 127) : signed (unsigned c) = c := by
  unfold signed unsigned
  rw [UInt8.toNat_ofNat']
  split <;> omega

theorem encode_nil : encode [] = [] := rfl

theorem encode_cons (c : Char) (s : List Char) :
    encode (c :: s) = (String.utf8EncodeChar c).map signed ++ encode s := by
  simp [encode]

theorem encode_append (s t : List Char) : encode (s ++ t) = encode s ++ encode t := by
  simp [encode]

theorem unsigned_encode (s : List Char) : (encode s).map unsigned = s.flatMap String.utf8EncodeChar := by
  induction s with
  | nil => rfl
  | cons c s ih =>
    rw [encode_cons, List.map_append, ih, List.map_map, List.flatMap_cons]
    congr 1
    conv_rhs => rw [← List.map_id (String.utf8EncodeChar c)]
    exact List.map_congr_left fun b _ => unsigned_signed b

theorem decode_encode (s : List Char) : decode (encode s) = some s := by
  rw [decode, unsigned_encode, show (s.flatMap String.utf8EncodeChar).toByteArray = s.utf8Encode from rfl,
    List.utf8Decode?_utf8Encode]
  rfl

theorem encode_inj {s t : List Char} (h : encode s = encode t) : s = t := by
  have := decode_encode s
  rw [h, decode_encode] at this
  exact (Option.some.inj this).symm

theorem encode_of_decode {bs : List Int} {t : List Char} (hb : ∀ c ∈ bs, -128 ≤ c ∧ c ≤ 127)
    (h : decode bs = some t) : encode t = bs := by
  rw [decode, Option.map_eq_some_iff] at h
  obtain ⟨a, ha, rfl⟩ := h
  have hs : ((bs.map unsigned).toByteArray.utf8Decode?).isSome := by rw [ha]; rfl
  have := ByteArray.utf8Encode_get_utf8Decode? (h := hs)
  simp only [ha, Option.get_some] at this
  have h2 : (a.toList.flatMap String.utf8EncodeChar) = bs.map unsigned := List.toByteArray_inj.1 this
  have h3 := unsigned_encode a.toList
  rw [h2] at h3
  have h4 : ∀ l : List Int, (∀ c ∈ l, -128 ≤ c ∧ c ≤ 127) → (l.map unsigned).map signed = l := by
    intro l hl
    rw [List.map_map]
    conv_rhs => rw [← List.map_id l]
    exact List.map_congr_left fun c hc => signed_unsigned (hl c hc).1 (hl c hc).2
  have h5 : encode a.toList = ((encode a.toList).map unsigned).map signed := by
    rw [h3, ← h2]
    simp [encode, List.map_flatMap]
  rw [h5, h3, h4 bs hb]

/-- The bytes of an ASCII character. -/
theorem enc_ascii {c : Char} (h : c.toNat < 128) : (String.utf8EncodeChar c).map signed = [(c.toNat : Int)] := by
  have hv : c.val.toNat ≤ 127 := Nat.le_of_lt_succ h
  unfold String.utf8EncodeChar
  simp only [hv, if_true, List.map_cons, List.map_nil, signed, UInt8.toNat_ofNat']
  rw [if_pos (by omega)]
  simp only [Char.toNat]
  congr 1
  omega

/-- The bytes of any other character: a first byte and at least one continuation byte. -/
theorem enc_other {c : Char} (h : 128 ≤ c.toNat) : ∃ x y t, (String.utf8EncodeChar c).map signed = x :: y :: t ∧
    -64 ≤ x ∧ x ≤ -2 ∧ (-128 ≤ y ∧ y ≤ -65) ∧ ∀ b ∈ t, -128 ≤ b ∧ b ≤ -65 := by
  have hv : ¬ c.val.toNat ≤ 127 := by
    have : c.val.toNat = c.toNat := rfl
    omega
  unfold String.utf8EncodeChar
  simp only [hv, if_false]
  generalize c.val.toNat = n
  have cont : ∀ n : Nat, -128 ≤ signed (UInt8.ofNat (n % 64 + 128)) ∧ signed (UInt8.ofNat (n % 64 + 128)) ≤ -65 := by
    intro n
    unfold signed
    rw [UInt8.toNat_ofNat']
    split <;> omega
  split
  · refine ⟨_, _, [], rfl, ?_, ?_, cont _, by simp⟩ <;>
    · unfold signed
      rw [UInt8.toNat_ofNat']
      split <;> omega
  · split
    · refine ⟨_, _, [_], rfl, ?_, ?_, cont _, by
        intro b hb
        rw [List.mem_singleton] at hb
        rw [hb]
        exact cont _⟩ <;>
      · unfold signed
        rw [UInt8.toNat_ofNat']
        split <;> omega
    · refine ⟨_, _, [_, _], rfl, ?_, ?_, cont _, by
        intro b hb
        rw [List.mem_cons, List.mem_singleton] at hb
        rcases hb with hb | hb <;> rw [hb] <;> exact cont _⟩ <;>
      · unfold signed
        rw [UInt8.toNat_ofNat']
        split <;> omega

theorem encode_range (s : List Char) : ∀ b ∈ encode s, -128 ≤ b ∧ b ≤ 127 := by
  intro b hb
  rw [encode, List.mem_flatMap] at hb
  obtain ⟨c, -, hc⟩ := hb
  by_cases h : c.toNat < 128
  · rw [enc_ascii h, List.mem_singleton] at hc
    omega
  · obtain ⟨x, y, t, e, h1, h2, h3, h4⟩ := enc_other (not_lt.1 h)
    rw [e] at hc
    simp only [List.mem_cons] at hc
    rcases hc with rfl | rfl | hc
    · omega
    · omega
    · have := h4 b hc
      omega

/-- An ASCII code occurs in the bytes exactly where the character occurs in the text. -/
theorem mem_enc {c d : Char} (hd : d.toNat < 128) :
    (d.toNat : Int) ∈ (String.utf8EncodeChar c).map signed ↔ c = d := by
  by_cases h : c.toNat < 128
  · rw [enc_ascii h, List.mem_singleton]
    constructor
    · intro e
      exact Char.toNat_inj.1 (by omega)
    · rintro rfl; rfl
  · obtain ⟨x, y, t, e, h1, h2, h3, h4⟩ := enc_other (not_lt.1 h)
    constructor
    · intro hm
      rw [e] at hm
      simp only [List.mem_cons] at hm
      rcases hm with hm | hm | hm
      · omega
      · omega
      · have := h4 _ hm
        omega
    · rintro rfl
      exact absurd hd h

theorem mem_encode {d : Char} (hd : d.toNat < 128) (s : List Char) : (d.toNat : Int) ∈ encode s ↔ d ∈ s := by
  rw [encode, List.mem_flatMap]
  constructor
  · rintro ⟨c, hc, hm⟩
    rwa [(mem_enc hd).1 hm] at hc
  · intro h
    exact ⟨d, h, (mem_enc hd).2 rfl⟩

theorem encode_eq_nil (s : List Char) : encode s = [] ↔ s = [] := by
  constructor
  · intro h
    exact encode_inj (by rw [h, encode_nil])
  · rintro rfl; rfl

theorem splitOn_append_of_notMem {α : Type} [DecidableEq α] (d : α) : ∀ (l r : List α), d ∉ l →
    (l ++ r).splitOn d = (r.splitOn d).modifyHead (l ++ ·)
  | [], r, _ => by
    have := List.splitOn_ne_nil d r
    cases h : r.splitOn d with
    | nil => exact absurd h this
    | cons a as => simp [h]
  | x :: l, r, h => by
    have hx : x ≠ d := fun e => h (e ▸ List.mem_cons_self)
    have ih := splitOn_append_of_notMem d l r (fun e => h (List.mem_cons_of_mem _ e))
    rw [List.cons_append, List.splitOn_cons_eq_if_modifyHead, if_neg (by simpa using hx), ih]
    cases h : r.splitOn d with
    | nil => rfl
    | cons a as => simp

/-- Cutting the bytes at an ASCII character is cutting the text. -/
theorem splitOn_encode {d : Char} (hd : d.toNat < 128) (s : List Char) :
    (encode s).splitOn (d.toNat : Int) = (s.splitOn d).map encode := by
  induction s with
  | nil => simp [encode_nil]
  | cons c s ih =>
    rw [encode_cons, List.splitOn_cons_eq_if_modifyHead]
    by_cases hc : c = d
    · subst hc
      rw [enc_ascii hd, List.singleton_append, List.splitOn_cons_eq_if_modifyHead, ih]
      simp [encode_nil]
    · rw [splitOn_append_of_notMem _ _ _ (fun hm => hc ((mem_enc hd).1 hm)), ih, if_neg (by simpa using hc)]
      have := List.splitOn_ne_nil d s
      cases h : s.splitOn d with
      | nil => exact absurd h this
      | cons a as => simp [encode_cons]

theorem decodeAll_encode (ps : List (List Char)) : decodeAll (ps.map encode) = some ps := by
  induction ps with
  | nil => rfl
  | cons p ps ih => simp only [List.map_cons, decodeAll, decode_encode, ih]

theorem delimiter_ascii {d : Char} (hd : d.toNat < 128) (t : List Char) : delimiter (d :: t) = d.toNat := by
  rw [delimiter, encode_cons, enc_ascii hd]
  rfl

theorem intercalate_encode {d : Char} (hd : d.toNat < 128) (ps : List (List Char)) :
    [(d.toNat : Int)].intercalate (ps.map encode) = encode ([d].intercalate ps) := by
  rw [← C27.joinStream_eq]
  induction ps with
  | nil => rfl
  | cons p qs ih =>
    cases qs with
    | nil => simp [joinStream]
    | cons q qs =>
      rw [List.map_cons, List.map_cons, joinStream]
      rw [List.map_cons] at ih
      rw [ih, List.intercalate_cons_cons, encode_append, encode_append, encode_cons, enc_ascii hd, encode_nil]
      simp

end Edsp.PyStr
