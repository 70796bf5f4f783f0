import Verif.Props.C84_PyArrays
import Verif.Lemmas.Memory

/-!
# C86: the arrays that Python functions return hold the results
-/

namespace Edsp.Props

open Edsp.Spec Edsp.Py

private theorem loop_zeros (j : Rat) (i n : Nat) (rest : List Rat) (hi : 1 ≤ i) (hr : rest.length = 2 * n) :
    r2cLoop (j :: List.replicate (2 * i - 1) 0 ++ rest) i n = .ok (j :: List.replicate (2 * (i + n) - 1) 0) := by
  induction n generalizing i rest with
  | zero =>
    have : rest = [] := List.eq_nil_of_length_eq_zero hr
    rw [this, List.append_nil]
    rfl
  | succ n ih =>
    match rest, hr with
    | r0 :: r1 :: rest, hr =>
      have hlen : (j :: List.replicate (2 * i - 1) (0 : Rat)).length = 2 * i := by
        rw [List.length_cons, List.length_replicate]; omega
      have h1 : Mem.read (j :: List.replicate (2 * i - 1) (0 : Rat) ++ r0 :: r1 :: rest) i = .ok 0 := by
        unfold Mem.read
        rw [List.getElem?_append_left (by omega)]
        obtain ⟨k, rfl⟩ : ∃ k, i = k + 1 := ⟨i - 1, by omega⟩
        rw [List.getElem?_cons_succ, List.getElem?_replicate, if_pos (by omega)]
      have h2 : Mem.write (j :: List.replicate (2 * i - 1) (0 : Rat) ++ r0 :: r1 :: rest) (2 * i) 0 =
          .ok (j :: List.replicate (2 * i - 1) (0 : Rat) ++ 0 :: r1 :: rest) := by
        unfold Mem.write
        rw [if_pos (by rw [List.length_append, hlen, List.length_cons]; omega), List.set_append, if_neg (by omega), hlen,
          Nat.sub_self]
        rfl
      have h3 : Mem.write (j :: List.replicate (2 * i - 1) (0 : Rat) ++ 0 :: r1 :: rest) (2 * i + 1) 0 =
          .ok (j :: List.replicate (2 * i - 1) (0 : Rat) ++ 0 :: 0 :: rest) := by
        unfold Mem.write
        rw [if_pos (by rw [List.length_append, hlen, List.length_cons, List.length_cons]; omega), List.set_append,
          if_neg (by omega), hlen, show 2 * i + 1 - 2 * i = 1 by omega]
        rfl
      have h4 : j :: List.replicate (2 * i - 1) (0 : Rat) ++ 0 :: 0 :: rest =
          j :: List.replicate (2 * (i + 1) - 1) (0 : Rat) ++ rest := by
        rw [show 2 * (i + 1) - 1 = (2 * i - 1) + 2 by omega, ← List.replicate_append_replicate]
        simp
      rw [r2cLoop]
      simp only [h1, h2, h3, bind, Except.bind]
      rw [h4, ih (i + 1) rest (by omega) (by simp at hr; omega), show i + 1 + n = i + (n + 1) by omega]

/-- **C86, real2complex is violated for every input**: the function reads the array it is to fill, so that the
result is whatever number was in memory, followed by zeros, independent of the input. -/
theorem C86_real2complex_violates (a : Ndarray) (n : Nat) (ha : a.shape = [n + 1]) (j : Rat) (junk : List Rat)
    (hj : (j :: junk).length = 2 * (n + 1)) :
    real2complex (j :: junk) a = .ok (j :: List.replicate (2 * n + 1) 0) := by
  match junk, hj with
  | r :: rest, hj =>
    have h := loop_zeros j 1 n rest (Nat.le_refl _) (by simp at hj; omega)
    rw [show 2 * (1 + n) - 1 = 2 * n + 1 by omega] at h
    simp only [real2complex, ha]
    rw [r2cLoop]
    exact h

/-- **C86, Decoder.read, as long as the file has enough frames.** If all `n` requested samples are delivered and
they are whole frames, the array holds exactly them. Missing: the end of the file, requests of parts of a frame,
and the shape. -/
theorem C86_read_partial {n channels : Nat} {got junk : List Rat} (hc : 0 < channels) (hg : got.length = n)
    (hd : channels ∣ n) (hj : junk.length = n) : decoderRead n channels got junk = .ok ([n], got) := by
  unfold decoderRead
  rw [if_neg (by omega), if_neg (by rw [hg, Nat.div_mul_cancel hd]; simp), List.drop_eq_nil_of_le (by omega),
    List.append_nil]

/-- **C86, Decoder.read is violated at the end of a file**: if less samples are delivered than requested, the
call raises an exception and the samples are lost. -/
theorem C86_end_violates {n channels : Nat} {got : List Rat} (junk : List Rat) (hc : 0 < channels)
    (hg : got.length < n) : decoderRead n channels got junk = .error .exception := by
  have := Nat.div_mul_le_self got.length channels
  unfold decoderRead
  rw [if_neg (by omega), if_pos (by omega)]

/-- **C86, the shape of Decoder.read is violated** for two or more channels: whenever an array is returned, it has
one dimension instead of frames times channels. -/
theorem C86_shape_violates {n channels : Nat} {got junk x : List Rat} {s : List Nat}
    (h : decoderRead n channels got junk = .ok (s, x)) : s = [n] ∧ s ≠ [n / channels, channels] := by
  unfold decoderRead at h
  split at h
  · cases h
  · split at h
    · cases h
    · injection h with h; injection h with h1 h2
      subst h1
      exact ⟨rfl, by simp⟩

/-- **C86, get_environment, for variables that exist.** -/
theorem C86_environment_partial {env : List Nat → Option (List Nat)} {name v : List Nat} (h : env name = some v) :
    getEnvironment env name = .ok (v, 0) := by
  simp only [getEnvironment, h]

/-- **C86, get_environment is violated by variables that do not exist**: instead of returning the documented error
number it makes a string of a null pointer. -/
theorem C86_environment_violates {env : List Nat → Option (List Nat)} {name : List Nat} (h : env name = none) :
    getEnvironment env name = .error .badHandle := by
  simp only [getEnvironment, h]

/-- A request of two stereo frames that is met. -/
example : decoderRead 4 2 [1, 2, 3, 4] [9, 9, 9, 9] = .ok ([4], [1, 2, 3, 4]) := rfl

end Edsp.Props
