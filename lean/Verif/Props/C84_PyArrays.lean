import Verif.Model.PyBindings
import Mathlib.Tactic.NormNum

/-!
# C84: a Python function on an array works on the elements of the array
-/

namespace Edsp.Props

open Edsp.Spec Edsp.Py

variable {β : Type}

theorem py_cell {b : List Word} {p : Nat} {w : Word} (h : b[p]? = some w) (q : Int) (hq : (p : Int) = q) :
    cell b q = asReal w := by
  subst hq
  unfold cell
  rw [if_neg (by omega), Int.toNat_natCast, h]

theorem readReals_ok {b : List Word} (l : List Rat) (d : Int)
    (h : ∀ (i : Nat) (v : Rat), l[i]? = some v → ∃ (p : Nat) (w : Word), (p : Int) = d + i ∧ b[p]? = some w ∧ asReal w = .ok v) :
    readReals b d l.length = .ok l := by
  induction l generalizing d with
  | nil => rfl
  | cons v l ih =>
    obtain ⟨p, w, h1, h2, h3⟩ := h 0 v rfl
    have e := ih (d + 1) (fun i u hu => by
      obtain ⟨q, w, g1, g2, g3⟩ := h (i + 1) u hu
      exact ⟨q, w, by omega, g2, g3⟩)
    rw [List.length_cons, readReals, py_cell h2 d (by omega), h3]
    simp only [bind, Except.bind, e]
    rfl

theorem readReals_elements {a : Ndarray} {l : List Rat} (h : Elements a l) (hf : Floats a) (hc : Contiguous a) :
    a.shape = [l.length] ∧ readReals a.block a.data l.length = .ok l := by
  obtain ⟨s, h1, h2, h3⟩ := h
  unfold Contiguous at hc
  rw [h2] at hc
  injection hc with hs
  subst hs
  refine ⟨h1, readReals_ok l _ fun i v hv => ?_⟩
  obtain ⟨p, w, g1, g2, g3⟩ := h3 i v hv
  obtain ⟨x, rfl⟩ := hf w (List.mem_of_getElem? g2)
  exact ⟨p, _, by omega, g2, congrArg Except.ok g3⟩

theorem toInt32_within {n : Nat} (h : n < 2147483648) : toInt32 n = n := by
  unfold toInt32
  omega

theorem execInt_small (f : List Rat → Except Fault β) {a : Ndarray} {n : Nat} (hs : a.shape = [n])
    (h : n < 2147483648) : execInt f a = exec f a := by
  have h1 : ¬ toInt32 n < 0 := by rw [toInt32_within h]; omega
  have h2 : (toInt32 n).toNat = n := by rw [toInt32_within h]; exact Int.toNat_natCast n
  unfold execInt exec
  simp only [hs]
  rw [if_neg h1, h2]

/-- **C84, contiguous arrays of floating point type.** A Python function passes exactly the elements of its
array on; the functions that are implemented in C do so up to 2^31 - 1 elements. Missing: strided views,
other types, larger arrays. -/
theorem C84_contiguous_partial (f : List Rat → Except Fault β) {a : Ndarray} {l : List Rat} (h : Elements a l)
    (hf : Floats a) (hc : Contiguous a) :
    exec f a = f l ∧ (l.length < 2147483648 → execInt f a = f l) := by
  obtain ⟨h1, h2⟩ := readReals_elements h hf hc
  have e : exec f a = f l := by simp only [exec, h1, h2, bind, Except.bind]
  exact ⟨e, fun hl => by rw [execInt_small f h1 hl]; exact e⟩

/-- **C84, other numbers of dimensions are rejected** with an exception, before anything is read. -/
theorem C84_rank (f : List Rat → Except Fault β) {a : Ndarray} (h : a.shape.length ≠ 1) :
    exec f a = .error .exception ∧ execInt f a = .error .exception := by
  have : ∀ n, a.shape ≠ [n] := fun n e => h (by rw [e]; rfl)
  unfold exec execInt
  constructor <;> (split <;> first | exact absurd ‹_› (this _) | rfl)

/-- The array that owns the numbers `x`. -/
def pyArray (x : List Rat) : Ndarray := ⟨x.map .real, 0, [x.length], [1]⟩

/-- The slice `x[::k]` of an array with `n * k` numbers. -/
def pyEvery (k n : Nat) (x : List Rat) : Ndarray := ⟨x.map .real, 0, [n], [k]⟩

/-- The slice `x[::-1]`. -/
def pyReversed (x : List Rat) : Ndarray := ⟨x.map .real, (x.length : Int) - 1, [x.length], [-1]⟩

/-- The array of the integers `ks`. -/
def pyInts (ks : List Int) : Ndarray := ⟨ks.map .int, 0, [ks.length], [1]⟩

theorem readReals_map (x : List Rat) (n : Nat) (h : n ≤ x.length) :
    readReals (x.map .real) 0 n = .ok (x.take n) := by
  have e : (x.take n).length = n := by rw [List.length_take]; omega
  have := readReals_ok (b := x.map .real) (x.take n) 0 (fun i v hv => ?_)
  · rw [e] at this; exact this
  · refine ⟨i, .real v, by omega, ?_, rfl⟩
    have hi : i < n := by
      have := (List.getElem?_eq_some_iff.mp hv).1; omega
    rw [List.getElem?_take_of_lt hi] at hv
    rw [List.getElem?_map, hv]; rfl

/-- **C84 is violated by slices with a step**: a function of `x[::k]` works on the first numbers of `x`
instead of on every `k`-th. For example the sum over `x[::2]` of 1, 2, 3, 4 is 3 instead of 4. -/
theorem C84_step_violates (f : List Rat → Except Fault β) (k n : Nat) (x : List Rat) (hx : x.length = n * k)
    (hk : 1 ≤ k) :
    exec f (pyEvery k n x) = f (x.take n) ∧
    (∃ l, Elements (pyEvery 2 2 [1, 2, 3, 4]) l ∧ l.sum = 4 ∧
      exec (fun l => .ok l.sum) (pyEvery 2 2 [1, 2, 3, 4]) = .ok 3) := by
  refine ⟨?_, [1, 3], ⟨2, rfl, rfl, fun i v hv => ?_⟩, by norm_num, ?_⟩
  · have : n ≤ x.length := by rw [hx]; exact Nat.le_mul_of_pos_right _ hk
    have e := readReals_map x n this
    simp only [exec, pyEvery, e, bind, Except.bind]
  · match i, hv with
    | 0, hv => injection hv with hv; exact ⟨0, .real 1, rfl, rfl, hv⟩
    | 1, hv => injection hv with hv; exact ⟨2, .real 3, rfl, rfl, hv⟩
  · have e : readReals [.real 1, .real 2, .real 3, .real 4] 0 2 = .ok [1, 2] := rfl
    have : exec (fun l => .ok l.sum) (pyEvery 2 2 [1, 2, 3, 4]) = .ok ([1, 2] : List Rat).sum := by
      simp only [exec, pyEvery, List.map, e, bind, Except.bind]
    rw [this]
    norm_num

/-- **C84 is violated by reversed views**: every function of `x[::-1]`, from two elements on, reads behind the
end of the memory of `x`. -/
theorem C84_reversed_violates (f : List Rat → Except Fault β) (x : List Rat) (hx : 2 ≤ x.length) :
    exec f (pyReversed x) = .error .outOfBounds ∧
    (x.length < 2147483648 → execInt f (pyReversed x) = .error .outOfBounds) := by
  obtain ⟨n, hn⟩ : ∃ n, x.length = n + 2 := ⟨x.length - 2, by omega⟩
  have e : readReals (x.map .real) ((x.length : Int) - 1) x.length = .error .outOfBounds := by
    have h1 : (x.map Word.real)[n + 1]? = some (.real x[n + 1]) := by
      rw [List.getElem?_map, List.getElem?_eq_getElem (by omega)]; rfl
    have h2 : cell (x.map .real) ((x.length : Int) - 1 + 1) = .error .outOfBounds := by
      unfold cell
      rw [if_neg (by omega), show ((x.length : Int) - 1 + 1).toNat = x.length by omega,
        List.getElem?_eq_none (by rw [List.length_map])]
    have h0 : readReals (x.map .real) ((x.length : Int) - 1) (n + 2) = .error .outOfBounds := by
      rw [readReals, py_cell h1 _ (by omega)]
      simp only [readReals, h2, bind, Except.bind, asReal]
    rw [← hn] at h0
    exact h0
  have e1 : exec f (pyReversed x) = .error .outOfBounds := by
    simp only [exec, pyReversed, e, bind, Except.bind]
  exact ⟨e1, fun hl => by rw [execInt_small f rfl hl]; exact e1⟩

/-- **C84 is violated by integer arrays**: the bits of the integers are taken for floating point numbers, so
that a function of an array of non-negative integers below 2^52 works on the integers divided by 2^1074. -/
theorem C84_integers_violates (f : List Rat → Except Fault β) (ks : List Int)
    (hk : ∀ k ∈ ks, 0 ≤ k ∧ k < 4503599627370496) :
    exec f (pyInts ks) = f (ks.map fun k : Int => (k : Rat) / 2 ^ 1074) := by
  have e := readReals_ok (b := ks.map .int) (ks.map fun k : Int => (k : Rat) / 2 ^ 1074) 0 (fun i v hv => ?_)
  · rw [List.length_map] at e
    simp only [exec, pyInts, e, bind, Except.bind]
  · rw [List.getElem?_map] at hv
    cases hi : ks[i]? with
    | none => rw [hi] at hv; cases hv
    | some k =>
      rw [hi] at hv
      injection hv with hv
      subst hv
      refine ⟨i, .int k, by omega, by rw [List.getElem?_map, hi]; rfl, ?_⟩
      obtain ⟨h0, h1⟩ := hk k (List.mem_of_getElem? hi)
      unfold asReal ofBits
      have hb : (k % 18446744073709551616).toNat = k.toNat := by omega
      have hm : k.toNat % 4503599627370496 = k.toNat := by omega
      have he : k.toNat / 4503599627370496 % 2048 = 0 := by omega
      have hs : k.toNat / 9223372036854775808 = 0 := by omega
      simp only [hb, hm, he, hs, if_true]
      have hc : ((k.toNat : Nat) : Rat) = (k : Rat) := by
        obtain ⟨n, rfl⟩ := Int.eq_ofNat_of_zero_le h0
        rfl
      rw [hc, Rat.one_mul]

/-- **C84 is violated by large integers** too: `e · 2^52 + m`, where `m < 2^52` and `1 ≤ e ≤ 2046`, is taken for
`(2^52 + m) · 2^(e - 1075)`, and the integer 2^63 less for the same number with a minus sign. -/
theorem C84_large_integers_violates (f : List Rat → Except Fault β) (ks : List (Bool × Nat × Nat))
    (hk : ∀ k ∈ ks, 1 ≤ k.2.1 ∧ k.2.1 ≤ 2046 ∧ k.2.2 < 4503599627370496) :
    exec f (pyInts (ks.map fun k => (k.2.1 * 4503599627370496 + k.2.2 : Int) - if k.1 then 9223372036854775808 else 0))
      = f (ks.map fun k => (if k.1 then -1 else 1) * (4503599627370496 + k.2.2 : Rat) * 2 ^ k.2.1 / 2 ^ 1075) := by
  set l := ks.map fun k => (if k.1 then -1 else 1) * (4503599627370496 + k.2.2 : Rat) * 2 ^ k.2.1 / 2 ^ 1075 with hl
  set ints := ks.map fun k => (k.2.1 * 4503599627370496 + k.2.2 : Int) - if k.1 then 9223372036854775808 else 0 with hi
  have hlen : l.length = ints.length := by rw [hl, hi, List.length_map, List.length_map]
  have e := readReals_ok (b := ints.map .int) l 0 (fun i v hv => ?_)
  · rw [hlen] at e
    simp only [exec, pyInts, e, bind, Except.bind]
  · rw [hl, List.getElem?_map] at hv
    cases hki : ks[i]? with
    | none => rw [hki] at hv; cases hv
    | some k =>
      rw [hki] at hv
      injection hv with hv
      subst hv
      refine ⟨i, .int _, by omega, by rw [List.getElem?_map, hi, List.getElem?_map, hki]; rfl, ?_⟩
      obtain ⟨h0, h1, h2⟩ := hk k (List.mem_of_getElem? hki)
      obtain ⟨s, e, m⟩ := k
      simp only at h0 h1 h2 ⊢
      unfold asReal ofBits
      have hb : (((e * 4503599627370496 + m : Int) - if s = true then 9223372036854775808 else 0)
          % 18446744073709551616).toNat = e * 4503599627370496 + m + if s then 9223372036854775808 else 0 := by
        cases s <;> simp <;> omega
      have hm : (e * 4503599627370496 + m + if s then 9223372036854775808 else 0) % 4503599627370496 = m := by
        cases s <;> simp <;> omega
      have he : (e * 4503599627370496 + m + if s then 9223372036854775808 else 0) / 4503599627370496 % 2048 = e := by
        cases s <;> simp <;> omega
      have hs : (e * 4503599627370496 + m + if s then 9223372036854775808 else 0) / 9223372036854775808 =
          if s then 1 else 0 := by
        cases s <;> simp <;> omega
      simp only [hb, hm, he, hs, if_neg (show e ≠ 0 by omega), if_neg (show e ≠ 2047 by omega)]
      cases s <;> simp

/-- The integer 2^62 = 1024 · 2^52 is taken for 2. -/
example : exec (fun l => .ok l) (pyInts [4611686018427387904]) = .ok [2] := by
  have := C84_large_integers_violates (fun l => .ok l) [(false, 1024, 0)] (by simp)
  have h2 : (4503599627370496 : Rat) * 2 ^ 1024 / 2 ^ 1075 = 2 := by
    rw [div_eq_iff (pow_ne_zero _ (by norm_num)), show (4503599627370496 : Rat) = 2 ^ 52 by norm_num, ← pow_add, ← pow_succ']
  simp only [List.map_cons, List.map_nil, Nat.cast_zero, add_zero, Bool.false_eq_true, if_false, one_mul, h2] at this
  norm_num at this
  exact this

/-- **C84 is violated by small negative integers**: an array that begins with an integer between -2^52 and -1 begins
with NaN for the function. -/
theorem C84_negative_integers_violates (f : List Rat → Except Fault β) {k : Int} (hk : -4503599627370496 ≤ k)
    (h0 : k < 0) (ks : List Int) : exec f (pyInts (k :: ks)) = .error .domain := by
  have hb : (k % 18446744073709551616).toNat = (18446744073709551616 + k).toNat := by omega
  have he : (18446744073709551616 + k).toNat / 4503599627370496 % 2048 = 2047 := by omega
  have h : asReal (.int k) = .error .domain := by
    unfold asReal ofBits
    simp only [hb, he]
    rfl
  simp only [exec, pyInts, List.length_cons, List.map_cons, readReals, cell, bind, Except.bind]
  simp [h]

/-- **C84 is violated by arrays with 2^31 to 2^32 - 1 elements** by all functions implemented in C: the size is
converted to a negative number. -/
theorem C84_large_violates (f : List Rat → Except Fault β) {a : Ndarray} {n : Nat} (h : a.shape = [n])
    (h1 : 2147483648 ≤ n) (h2 : n < 4294967296) : execInt f a = .error .outOfBounds := by
  have : toInt32 n < 0 := by unfold toInt32; omega
  simp only [execInt, h, if_pos this]

/-- A contiguous part of a longer array: `x[1:4]`. -/
example : Elements ⟨[.real 9, .real 1, .real 2, .real 3, .real 9], 1, [3], [1]⟩ [1, 2, 3] ∧
    Floats ⟨[.real 9, .real 1, .real 2, .real 3, .real 9], 1, [3], [1]⟩ := by
  refine ⟨⟨1, rfl, rfl, fun i v hv => ?_⟩, ?_⟩
  · match i, hv with
    | 0, hv => injection hv with hv; exact ⟨1, _, rfl, rfl, hv⟩
    | 1, hv => injection hv with hv; exact ⟨2, _, rfl, rfl, hv⟩
    | 2, hv => injection hv with hv; exact ⟨3, _, rfl, rfl, hv⟩
  · intro w hw
    simp at hw
    rcases hw with rfl | rfl | rfl | rfl | rfl <;> exact ⟨_, rfl⟩

end Edsp.Props
