import Verif.Lemmas.Multirate
import Verif.Props.C45_Transforms
import Verif.Props.C68_Spectrum

/-! # C152: the spectra of repeated, spread, thinned out, modulated and shifted frames -/

namespace Edsp.C152

open Finset Edsp.Mem Edsp.Spec Edsp.Spectral Edsp.Fourier Edsp.Multirate

/-! ### Tools -/

theorem repeated_getD {α : Type} (z : α) {x : List α} {n : ℕ} (hx : x.length = n) : ∀ (L j : ℕ), j < L * n →
    ((List.replicate L x).flatten).getD j z = x.getD (j % n) z
  | 0, j, h => by omega
  | L + 1, j, h => by
    rw [List.replicate_succ, List.flatten_cons]
    rcases lt_or_ge j n with hj | hj
    · rw [Nat.mod_eq_of_lt hj, List.getD_eq_getElem?_getD, List.getD_eq_getElem?_getD, List.getElem?_append_left (by omega)]
    · have := repeated_getD z hx L (j - n) (by rw [Nat.succ_mul] at h; omega)
      rw [← Nat.mod_eq_sub_mod hj] at this
      rw [← this, List.getD_eq_getElem?_getD, List.getD_eq_getElem?_getD, List.getElem?_append_right (by omega), hx]

theorem repeated_length {α : Type} {x : List α} {n : ℕ} (hx : x.length = n) (L : ℕ) :
    ((List.replicate L x).flatten).length = L * n := by simp [hx]

/-- A sequence with `L - 1` zeros behind every element. -/
def spread (L : ℕ) (x : List ℝ) : List ℝ := x.flatMap fun v => v :: List.replicate (L - 1) 0

theorem spread_length {L : ℕ} (hL : 0 < L) (x : List ℝ) : (spread L x).length = L * x.length := by
  induction x with
  | nil => simp [spread]
  | cons v x ih =>
    rw [show spread L (v :: x) = (v :: List.replicate (L - 1) 0) ++ spread L x from rfl, List.length_append, ih]
    simp only [List.length_cons, List.length_replicate]
    rw [Nat.mul_succ]
    omega

theorem spread_getD {L : ℕ} (hL : 0 < L) : ∀ (x : List ℝ) (a b : ℕ), b < L →
    (spread L x).getD (a * L + b) 0 = if b = 0 then x.getD a 0 else 0
  | [], a, b, _ => by simp [spread]
  | v :: x, a, b, hb => by
    rw [show spread L (v :: x) = (v :: List.replicate (L - 1) 0) ++ spread L x from rfl, List.getD_eq_getElem?_getD]
    rcases a with _ | a
    · rw [Nat.zero_mul, Nat.zero_add, List.getElem?_append_left (by simp; omega)]
      rcases b with _ | b
      · simp
      · simp only [List.getElem?_cons_succ, List.getElem?_replicate]
        split <;> simp
    · have e : (a + 1) * L + b - (v :: List.replicate (L - 1) (0 : ℝ)).length = a * L + b := by
        simp only [List.length_cons, List.length_replicate]
        rw [Nat.succ_mul]
        omega
      rw [List.getElem?_append_right (by simp only [List.length_cons, List.length_replicate]; rw [Nat.succ_mul]; omega), e,
        ← List.getD_eq_getElem?_getD, spread_getD hL x a b hb]
      simp

theorem bin_repeated {L n : ℕ} (hL : 0 < L) (hn : 0 < n) {x : List ℝ} (hx : x.length = n) (k : ℕ) :
    bin (ofReals (List.replicate L x).flatten) k = if L ∣ k then L * bin (ofReals x) (k / L) else 0 := by
  rw [bin_ofReals, bin_ofReals, repeated_length hx, hx,
    F_congr (g := fun j => ((x.getD (j % n) 0 : ℝ) : ℂ)) fun j hj => by rw [repeated_getD 0 hx L j hj],
    F_repeated hL hn]
  · split
    · congr 1
      exact F_congr (fun j hj => by rw [Nat.mod_eq_of_lt hj]) _
    · rfl
  · intro a b hb
    rw [Nat.mul_comm, Nat.mul_add_mod, Nat.mod_eq_of_lt hb]

theorem bin_spread {L n : ℕ} (hL : 0 < L) {x : List ℝ} (hx : x.length = n) (k : ℕ) :
    bin (ofReals (spread L x)) k = bin (ofReals x) k := by
  rw [bin_ofReals, bin_ofReals, spread_length hL, hx]
  refine F_spread hL (fun a => ?_) (fun a b h0 h1 => ?_) k
  · have := spread_getD hL x a 0 hL
    rw [add_zero, if_pos rfl] at this
    rw [this]
  · rw [spread_getD hL x a b h1, if_neg h0.ne', Complex.ofReal_zero]

theorem bin_fold {n : ℕ} (hn : 0 < n) {x : List ℝ} (hx : x.length = n) (k : ℕ) :
    ‖bin (ofReals x) k‖ = ‖bin (ofReals x) (min (k % n) (n - k % n))‖ := by
  have h1 : bin (ofReals x) k = bin (ofReals x) (k % n) := by
    rw [bin_ofReals, bin_ofReals, hx]
    refine F_period hn _ ?_
    have := Nat.div_add_mod k n
    refine ⟨(k / n : ℕ), ?_⟩
    have h' : ((n * (k / n) + k % n : ℕ) : ℤ) = (k : ℤ) := by rw [this]
    push_cast at h' ⊢
    linarith
  rw [h1]
  have hm := Nat.mod_lt k hn
  rcases le_total (k % n) (n - k % n) with h | h
  · rw [min_eq_left h]
  · have := C45_redundant (x := x) (by omega) (k := k % n) (by omega)
    rw [hx] at this
    rw [min_eq_right h, this]
    simp

/-! ### The functions -/

/-- **C152**, repetition: the spectrum of a frame played `L` times is zero except at every `L`-th bin, where it is `L^2`
times that of the frame. -/
theorem C152_repeated {m m2 : List ℝ} {f1 f2 n d d2 L : ℕ} (h0 : 0 < n) (hL : 0 < L) (h31 : L * n < 2147483648)
    (hs : f1 + n ≤ m.length) (hs2 : f2 + L * n ≤ m2.length) (hd : d + (n / 2 + 1) ≤ m.length)
    (hd2 : d2 + (L * n / 2 + 1) ≤ m2.length)
    (hr : seg m2 f2 (f2 + L * n) = (List.replicate L (seg m f1 (f1 + n))).flatten) :
    ∃ a b S, spectrum m f1 (f1 + n) d = .ok a ∧ spectrum m2 f2 (f2 + L * n) d2 = .ok b ∧ Wrote m a d S ∧
      Wrote m2 b d2 ((List.range (L * n / 2 + 1)).map fun k => if L ∣ k then L ^ 2 * S.getD (k / L) 0 else 0) := by
  have hn : n ≤ L * n := Nat.le_mul_of_pos_left _ hL
  obtain ⟨a, h1, w1⟩ := C68_spectrum h0 (by omega) hs hd
  obtain ⟨b, h2, w2⟩ := C68_spectrum (n := L * n) (by omega) h31 hs2 hd2
  have hl : (seg m f1 (f1 + n)).length = n := by rw [seg_length hs]; omega
  refine ⟨a, b, _, h1, h2, w1, ?_⟩
  rw [hr] at w2
  refine (congrArg (Wrote m2 b d2) (List.map_congr_left fun k hk => ?_)).mp w2
  have hk := List.mem_range.mp hk
  rw [bin_repeated hL h0 hl]
  split
  · next h =>
    obtain ⟨q, rfl⟩ := h
    rw [Nat.mul_div_cancel_left _ hL]
    have hq : q < n / 2 + 1 := by
      have h1 : L * q * 2 ≤ L * n := by
        have := Nat.div_mul_le_self (L * n) 2
        omega
      have h2 : q * 2 ≤ n := Nat.le_of_mul_le_mul_left (by rw [← mul_assoc]; exact h1) hL
      omega
    rw [getD_map_range _ _ hq, norm_mul, mul_pow, Complex.norm_natCast]
  · simp

example : ∃ a b S, spectrum [3, 4] 0 (0 + 2) 0 = .ok a ∧ spectrum [3, 4, 3, 4, 3, 4] 0 (0 + 3 * 2) 0 = .ok b ∧
    Wrote [3, 4] a 0 S ∧ Wrote [3, 4, 3, 4, 3, 4] b 0
      ((List.range (3 * 2 / 2 + 1)).map fun k => if 3 ∣ k then (3 : ℕ) ^ 2 * S.getD (k / 3) 0 else 0) :=
  C152_repeated (by norm_num) (by norm_num) (by norm_num) (by simp) (by simp) (by simp) (by simp) rfl

/-- **C152**, zeros between the samples: the spectrum of a frame with `L - 1` zeros behind every sample consists of
copies of the spectrum of the frame, every other one mirrored. -/
theorem C152_spread {m m2 : List ℝ} {f1 f2 n d d2 L : ℕ} (h0 : 0 < n) (hL : 0 < L) (h31 : L * n < 2147483648)
    (hs : f1 + n ≤ m.length) (hs2 : f2 + L * n ≤ m2.length) (hd : d + (n / 2 + 1) ≤ m.length)
    (hd2 : d2 + (L * n / 2 + 1) ≤ m2.length) (hr : seg m2 f2 (f2 + L * n) = spread L (seg m f1 (f1 + n))) :
    ∃ a b S, spectrum m f1 (f1 + n) d = .ok a ∧ spectrum m2 f2 (f2 + L * n) d2 = .ok b ∧ Wrote m a d S ∧
      Wrote m2 b d2 ((List.range (L * n / 2 + 1)).map fun k => S.getD (min (k % n) (n - k % n)) 0) := by
  have hn : n ≤ L * n := Nat.le_mul_of_pos_left _ hL
  obtain ⟨a, h1, w1⟩ := C68_spectrum h0 (by omega) hs hd
  obtain ⟨b, h2, w2⟩ := C68_spectrum (n := L * n) (by omega) h31 hs2 hd2
  have hl : (seg m f1 (f1 + n)).length = n := by rw [seg_length hs]; omega
  refine ⟨a, b, _, h1, h2, w1, ?_⟩
  rw [hr] at w2
  refine (congrArg (Wrote m2 b d2) (List.map_congr_left fun k _ => ?_)).mp w2
  have hm := Nat.mod_lt k h0
  rw [bin_spread hL hl, bin_fold h0 hl, getD_map_range _ _ (by omega)]

example : ∃ a b S, spectrum [3, 4] 0 (0 + 2) 0 = .ok a ∧ spectrum [3, 0, 0, 4, 0, 0] 0 (0 + 3 * 2) 0 = .ok b ∧
    Wrote [3, 4] a 0 S ∧ Wrote [3, 0, 0, 4, 0, 0] b 0
      ((List.range (3 * 2 / 2 + 1)).map fun k => S.getD (min (k % 2) (2 - k % 2)) 0) :=
  C152_spread (by norm_num) (by norm_num) (by norm_num) (by simp) (by simp) (by simp) (by simp) rfl

/-- **C152**, thinning out: bin `k` of every `L`-th sample is the mean of the `L` bins that fall on it (aliasing). -/
theorem C152_thinned {s t m m2 : List ℂ} {f1 f2 n d d2 L : ℕ} (h0 : 0 < n) (hL : 0 < L) (h31 : L * n < 2147483648)
    (hs : f1 + L * n ≤ s.length) (ht : f2 + n ≤ t.length) (hd : d + L * n ≤ m.length) (hd2 : d2 + n ≤ m2.length)
    (hr : seg t f2 (f2 + n) = (List.range n).map fun j => (seg s f1 (f1 + L * n)).getD (L * j) 0) :
    ∃ a b S, cdft s f1 (f1 + L * n) m d = .ok a ∧ cdft t f2 (f2 + n) m2 d2 = .ok b ∧ Wrote m a d S ∧
      Wrote m2 b d2 ((List.range n).map fun k => (∑ r ∈ range L, S.getD (k + r * n) 0) / L) := by
  have hn : n ≤ L * n := Nat.le_mul_of_pos_left _ hL
  obtain ⟨a, h1, w1⟩ := C45_cdft (n := L * n) (by omega) h31 hs hd
  obtain ⟨b, h2, w2⟩ := C45_cdft h0 (by omega) ht hd2
  refine ⟨a, b, _, h1, h2, w1, ?_⟩
  refine (congrArg (Wrote m2 b d2) (List.map_congr_left fun k hk => ?_)).mp w2
  have hk := List.mem_range.mp hk
  have hl : (seg s f1 (f1 + L * n)).length = L * n := by rw [seg_length hs]; omega
  have hL' : (L : ℂ) ≠ 0 := Nat.cast_ne_zero.mpr hL.ne'
  rw [hr, bin_eq, List.length_map, List.length_range, eq_div_iff hL', mul_comm,
    F_congr (g := fun j => (fun i => (seg s f1 (f1 + L * n)).getD i 0) (L * j)) fun j hj => getD_map_range _ _ hj,
    F_thinned hL h0 fun i => (seg s f1 (f1 + L * n)).getD i 0]
  refine sum_congr rfl fun r hr => ?_
  have hr := mem_range.mp hr
  have : k + r * n < L * n := by
    calc k + r * n < n + r * n := by omega
      _ = (r + 1) * n := by ring
      _ ≤ L * n := Nat.mul_le_mul_right n hr
  rw [getD_map_range _ _ this, bin_eq, hl]

example : ∃ a b S, cdft [1, 2, 3, 4] 0 (0 + 2 * 2) [0, 0, 0, 0] 0 = .ok a ∧ cdft [1, 3] 0 (0 + 2) [0, 0] 0 = .ok b ∧
    Wrote [0, 0, 0, 0] a 0 S ∧
      Wrote [0, 0] b 0 ((List.range 2).map fun k => (∑ r ∈ range 2, S.getD (k + r * 2) 0) / (2 : ℕ)) :=
  C152_thinned (by norm_num) (by norm_num) (by norm_num) (by simp) (by simp) (by simp) (by simp) rfl

/-- **C152**, modulation: multiplying the samples by a cosine of `p` periods moves half of each bin up and half of it
down by `p`. -/
theorem C152_modulated {s t : List ℝ} {m2 : List ℂ} {f1 f2 n d2 p : ℕ} (h0 : 0 < n) (h31 : n < 2147483648) (hp : p ≤ n)
    (hs : f1 + n ≤ s.length) (ht : f2 + n ≤ t.length) (hd2 : d2 + (n / 2 + 1) ≤ m2.length)
    (hr : seg t f2 (f2 + n) = (List.range n).map fun j => (seg s f1 (f1 + n)).getD j 0 * Real.cos (2 * Real.pi * p * j / n)) :
    ∃ b, dft t f2 (f2 + n) m2 d2 = .ok b ∧
      Wrote m2 b d2 ((List.range (n / 2 + 1)).map fun k =>
        (bin (ofReals (seg s f1 (f1 + n))) (k + p) + bin (ofReals (seg s f1 (f1 + n))) (k + (n - p))) / 2) := by
  obtain ⟨b, h2, w2⟩ := C45_dft h0 h31 ht hd2
  refine ⟨b, h2, ?_⟩
  refine (congrArg (Wrote m2 b d2) (List.map_congr_left fun k _ => ?_)).mp w2
  have hl : (seg s f1 (f1 + n)).length = n := by rw [seg_length hs]; omega
  rw [hr, bin_ofReals, bin_ofReals, bin_ofReals, List.length_map, List.length_range, hl, ← F_modulated, ← F_modulated,
    eq_div_iff two_ne_zero]
  unfold F
  rw [sum_mul, ← sum_add_distrib]
  refine sum_congr rfl fun j hj => ?_
  have hj := mem_range.mp hj
  dsimp only
  rw [getD_map_range _ _ hj]
  have hc : om n ^ (-((j : ℤ) * ((n - p : ℕ) : ℤ))) = om n ^ ((j : ℤ) * p) := by
    refine om_zpow_congr h0.ne' ⟨-(j : ℤ), ?_⟩
    rw [Nat.cast_sub hp]
    ring
  have h2c : om n ^ (-((j : ℤ) * p)) + om n ^ ((j : ℤ) * p) = 2 * (Real.cos (2 * Real.pi * p * j / n) : ℂ) := by
    rw [← Fourier.exp_neg, ← Fourier.exp_pos, Complex.ofReal_cos, Complex.cos]
    push_cast
    rw [show 2 * (Real.pi : ℂ) * Complex.I * j * p / n = 2 * Real.pi * p * j / n * Complex.I by ring, neg_mul]
    ring
  rw [hc, show ∀ A B C E : ℂ, A * B * E + A * C * E = A * (B + C) * E by intros; ring, h2c]
  push_cast
  ring

example : ∃ b, dft [3, 0] 0 (0 + 2) [0, 0] 0 = .ok b ∧ Wrote [0, 0] b 0 ((List.range (2 / 2 + 1)).map fun k =>
    (bin (ofReals (seg [3, 0] 0 (0 + 2))) (k + 1) + bin (ofReals (seg [3, 0] 0 (0 + 2))) (k + (2 - 1))) / 2) :=
  C152_modulated (by norm_num) (by norm_num) (by norm_num) (by simp) (by simp) (by simp)
    (by simp [seg, List.range, List.range.loop])

/-- **C152**, alternating signs: changing the sign of every other sample of a frame of even length turns its spectrum
round. -/
theorem C152_alternating {m m2 : List ℝ} {f1 f2 n d d2 : ℕ} (h0 : 0 < n) (he : n % 2 = 0) (h31 : n < 2147483648)
    (hs : f1 + n ≤ m.length) (hs2 : f2 + n ≤ m2.length) (hd : d + (n / 2 + 1) ≤ m.length)
    (hd2 : d2 + (n / 2 + 1) ≤ m2.length)
    (hr : seg m2 f2 (f2 + n) = (List.range n).map fun j => (-1) ^ j * (seg m f1 (f1 + n)).getD j 0) :
    ∃ a b S, spectrum m f1 (f1 + n) d = .ok a ∧ spectrum m2 f2 (f2 + n) d2 = .ok b ∧ Wrote m a d S ∧
      Wrote m2 b d2 S.reverse := by
  obtain ⟨a, h1, w1⟩ := C68_spectrum h0 h31 hs hd
  obtain ⟨b, h2, w2⟩ := C68_spectrum h0 h31 hs2 hd2
  have hl : (seg m f1 (f1 + n)).length = n := by rw [seg_length hs]; omega
  refine ⟨a, b, _, h1, h2, w1, ?_⟩
  have hE : ((List.range (n / 2 + 1)).map fun k => ‖bin (ofReals (seg m f1 (f1 + n))) k‖ ^ 2).reverse =
      (List.range (n / 2 + 1)).map fun k => ‖bin (ofReals (seg m f1 (f1 + n))) (n / 2 - k)‖ ^ 2 := by
    apply List.ext_getElem
    · simp
    · intro i h3 h4
      simp only [List.length_map, List.length_range] at h4
      simp [List.getElem_reverse]
  rw [hE]
  refine (congrArg (Wrote m2 b d2) (List.map_congr_left fun k hk => ?_)).mp w2
  have hk := List.mem_range.mp hk
  have hom : ∀ j : ℕ, om n ^ (-((j : ℤ) * ((n / 2 : ℕ) : ℤ))) = (-1) ^ j := by
    intro j
    have hn : (n : ℂ) ≠ 0 := Nat.cast_ne_zero.mpr h0.ne'
    have h2 : ((n / 2 : ℕ) : ℂ) * 2 = n := by
      exact_mod_cast congrArg (Nat.cast (R := ℂ)) (Nat.div_mul_cancel (Nat.dvd_of_mod_eq_zero he))
    rw [← Fourier.exp_neg, ← h2]
    have h3 : ((n / 2 : ℕ) : ℂ) ≠ 0 := by
      intro e; rw [e, zero_mul] at h2; exact hn h2.symm
    rw [show -(2 * (Real.pi : ℂ) * Complex.I * j * ((n / 2 : ℕ) : ℂ) / (((n / 2 : ℕ) : ℂ) * 2)) =
      (j : ℂ) * (-(Real.pi * Complex.I)) by field_simp, Complex.exp_nat_mul, Complex.exp_neg, Complex.exp_pi_mul_I]
    norm_num
  have e1 : bin (ofReals (seg m2 f2 (f2 + n))) k = bin (ofReals (seg m f1 (f1 + n))) (k + n / 2) := by
    rw [hr, bin_ofReals, bin_ofReals, List.length_map, List.length_range, hl, ← F_modulated]
    refine F_congr (fun j hj => ?_) k
    rw [getD_map_range _ _ hj, hom]
    push_cast
    ring
  rw [e1, bin_fold h0 hl]
  congr 3
  rcases Nat.lt_or_ge (k + n / 2) n with h | h
  · rw [Nat.mod_eq_of_lt h]; omega
  · rw [show k + n / 2 = n by omega, Nat.mod_self]
    omega

example : ∃ a b S, spectrum [3, 4] 0 (0 + 2) 0 = .ok a ∧ spectrum [3, -4] 0 (0 + 2) 0 = .ok b ∧
    Wrote [3, 4] a 0 S ∧ Wrote [3, -4] b 0 S.reverse :=
  C152_alternating (by norm_num) rfl (by norm_num) (by simp) (by simp) (by simp) (by simp)
    (by simp [seg, List.range, List.range.loop])

/-- **C152**, offset: adding a constant to the samples changes bin 0 only. -/
theorem C152_offset {s t : List ℝ} {m m2 : List ℂ} {f1 f2 n d d2 : ℕ} {c : ℝ} (h0 : 0 < n) (h31 : n < 2147483648)
    (hs : f1 + n ≤ s.length) (ht : f2 + n ≤ t.length) (hd : d + (n / 2 + 1) ≤ m.length) (hd2 : d2 + (n / 2 + 1) ≤ m2.length)
    (hr : seg t f2 (f2 + n) = (seg s f1 (f1 + n)).map (· + c)) :
    ∃ a b S, dft s f1 (f1 + n) m d = .ok a ∧ dft t f2 (f2 + n) m2 d2 = .ok b ∧ Wrote m a d S ∧
      Wrote m2 b d2 (S.mapIdx fun k v => if k = 0 then v + n * c else v) := by
  obtain ⟨a, h1, w1⟩ := C45_dft h0 h31 hs hd
  obtain ⟨b, h2, w2⟩ := C45_dft h0 h31 ht hd2
  have hl : (seg s f1 (f1 + n)).length = n := by rw [seg_length hs]; omega
  refine ⟨a, b, _, h1, h2, w1, ?_⟩
  have e : ∀ k < n / 2 + 1, bin (ofReals (seg t f2 (f2 + n))) k =
      if k = 0 then bin (ofReals (seg s f1 (f1 + n))) k + n * c else bin (ofReals (seg s f1 (f1 + n))) k := by
    intro k hk
    rw [hr, bin_ofReals, bin_ofReals, List.length_map, hl]
    generalize seg s f1 (f1 + n) = x at hl
    have hx : ∀ j < n, (x.map (· + c)).getD j 0 = x.getD j 0 + c := by
      intro j hj
      rw [List.getD_eq_getElem?_getD, List.getD_eq_getElem?_getD, List.getElem?_map, List.getElem?_eq_getElem (by omega)]
      rfl
    rw [F_congr (g := fun j => ((x.getD j 0 : ℝ) : ℂ) + c) fun j hj => by rw [hx j hj]; push_cast; rfl]
    have hF : F n (fun j => ((x.getD j 0 : ℝ) : ℂ) + c) k = F n (fun j => ((x.getD j 0 : ℝ) : ℂ)) k +
        c * ∑ j ∈ range n, om n ^ ((j : ℤ) * (-(k : ℤ))) := by
      unfold F
      rw [mul_sum, ← sum_add_distrib]
      refine sum_congr rfl fun j _ => ?_
      rw [add_mul, Fourier.exp_neg, mul_neg]
    rw [hF, orth h0.ne']
    rcases Nat.eq_zero_or_pos k with rfl | hk0
    · simp [mul_comm]
    · rw [if_neg hk0.ne', if_neg, mul_zero, add_zero]
      rw [dvd_neg, Int.natCast_dvd_natCast]
      rcases Nat.lt_or_ge k n with h | h
      · exact Nat.not_dvd_of_pos_of_lt hk0 h
      · omega
  have e2 : ((List.range (n / 2 + 1)).map (bin (ofReals (seg s f1 (f1 + n))))).mapIdx
      (fun k v => if k = 0 then v + n * (c : ℂ) else v) = (List.range (n / 2 + 1)).map (bin (ofReals (seg t f2 (f2 + n)))) := by
    apply List.ext_getElem
    · simp
    · intro i h3 h4
      simp only [List.length_map, List.length_range] at h4
      simp only [List.getElem_mapIdx, List.getElem_map, List.getElem_range]
      rw [e i h4]
  rw [e2]
  exact w2

example : ∃ a b S, dft [3, 4] 0 (0 + 2) [0, 0] 0 = .ok a ∧ dft [5, 6] 0 (0 + 2) [0, 0] 0 = .ok b ∧
    Wrote [0, 0] a 0 S ∧ Wrote [0, 0] b 0 (S.mapIdx fun k v => if k = 0 then v + (2 : ℕ) * ((2 : ℝ) : ℂ) else v) :=
  C152_offset (by norm_num) (by norm_num) (by simp) (by simp) (by simp) (by simp) (by norm_num [seg])

end Edsp.C152
