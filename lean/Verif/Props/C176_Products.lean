import Verif.Props.C45_Transforms
import Verif.Props.C46_Convolution

/-!
# C176: products of frames and products of spectra

The complex transforms of element-wise products: multiplying a frame (by a window, by another signal) convolves the
bins around the circle, multiplying bins convolves the frames around the circle.
-/

namespace Edsp.Props.C176

open Complex Finset Edsp Edsp.Mem Edsp.Spec Edsp.Fourier Edsp.Spectral

/-- Element `k` of the convolution of two sequences of `n` elements around the circle. -/
def circular (n : ℕ) (x y : List ℂ) (k : ℕ) : ℂ := ∑ i ∈ range n, x.getD i 0 * y.getD ((k + n - i) % n) 0

/-- A difference around the circle in an exponent. -/
theorem turn {N : ℕ} (h : N ≠ 0) {a : ℕ} (ha : a < N) (m k : ℕ) :
    om N ^ ((((m + N - a) % N : ℕ) : ℤ) * k) = om N ^ ((m : ℤ) * k) * om N ^ (-((a : ℤ) * k)) := by
  rw [← zpow_add₀ (om_ne N)]
  refine om_zpow_congr h ?_
  have e : ((m + N - a : ℕ) : ℤ) = (m : ℤ) + N - a := by
    rw [Nat.cast_sub (by omega)]; push_cast; ring
  have e2 := Int.emod_add_mul_ediv ((m + N - a : ℕ) : ℤ) N
  have e3 : (((m + N - a) % N : ℕ) : ℤ) = (m : ℤ) + N - a - N * (((m + N - a : ℕ) : ℤ) / N) := by
    push_cast at e2 ⊢
    rw [e] at *
    linarith
  rw [e3]
  exact ⟨(1 - ((m + N - a : ℕ) : ℤ) / N) * k, by ring⟩

/-- The backward sum over a product of forward sums. -/
theorem B_circular {N : ℕ} (h : N ≠ 0) (f g : ℕ → ℂ) (m : ℕ) :
    B N (fun k => F N f k * F N g k) m = N * ∑ a ∈ range N, f a * g ((m + N - a) % N) := by
  have e : B N (fun k => F N f k * F N g k) m = ∑ a ∈ range N, f a * B N (F N g) ((m + N - a) % N) := by
    have l : ∀ k ∈ range N, F N f k * F N g k * exp (2 * Real.pi * I * m * k / N) =
        ∑ a ∈ range N, f a * (F N g k * exp (2 * Real.pi * I * ((m + N - a) % N : ℕ) * k / N)) := by
      intro k _
      rw [F, sum_mul, sum_mul]
      refine sum_congr rfl fun a ha => ?_
      rw [Fourier.exp_neg, Fourier.exp_pos, Fourier.exp_pos, turn h (mem_range.1 ha)]
      ring
    rw [B, sum_congr rfl l, sum_comm]
    refine sum_congr rfl fun a _ => ?_
    rw [B, mul_sum]
  rw [e, mul_sum]
  refine sum_congr rfl fun a _ => ?_
  rw [B_F h g (Nat.mod_lt _ (by omega))]
  ring

/-- The forward sum over a product. -/
theorem F_circular {N : ℕ} (h : N ≠ 0) (f g : ℕ → ℂ) (k : ℕ) :
    ∑ l ∈ range N, F N f l * F N g ((k + N - l) % N) = N * F N (fun j => f j * g j) k := by
  have l : ∀ l ∈ range N, F N f l * F N g ((k + N - l) % N) =
      ∑ b ∈ range N, g b * exp (-(2 * Real.pi * I * b * k / N)) * (F N f l * exp (2 * Real.pi * I * b * l / N)) := by
    intro l hl
    rw [show F N g ((k + N - l) % N) = ∑ b ∈ range N, g b * exp (-(2 * Real.pi * I * b * ((k + N - l) % N : ℕ) / N))
      from rfl, mul_sum]
    refine sum_congr rfl fun b _ => ?_
    have t := congrArg (·⁻¹) (turn h (mem_range.1 hl) k b)
    simp only [mul_inv, ← zpow_neg, neg_neg] at t
    rw [Fourier.exp_neg, Fourier.exp_neg, Fourier.exp_pos, mul_comm (b : ℤ), t, mul_comm (k : ℤ), mul_comm (l : ℤ)]
    ring
  rw [sum_congr rfl l, sum_comm, F, mul_sum]
  refine sum_congr rfl fun b hb => ?_
  rw [← mul_sum, show ∑ i ∈ range N, F N f i * exp (2 * Real.pi * I * b * i / N) = B N (F N f) b from rfl,
    B_F h f (mem_range.1 hb)]
  ring

theorem getD_map_range {n k : ℕ} (f : ℕ → ℂ) (hk : k < n) : ((List.range n).map f).getD k 0 = f k := by
  simp [List.getD, hk]

theorem getD_zip {x y : List ℂ} {n : ℕ} (hx : x.length = n) (hy : y.length = n) (j : ℕ) :
    (List.zipWith (· * ·) x y).getD j 0 = x.getD j 0 * y.getD j 0 := by
  rcases Nat.lt_or_ge j n with h | h
  · simp [List.getD, hx ▸ h, hy ▸ h]
  · rw [List.getD, List.getD, List.getElem?_eq_none (by simp; omega), List.getElem?_eq_none (by omega)]
    simp

/-- **C176 (products of frames).**  The frame of `u` is the element-wise product of the frames of `s` and `t`: the bins
`cdft` stores for it are the convolution around the circle of the bins it stores for the two, divided by `n`. -/
theorem C176_frames {s t u m : List ℂ} {f1 f2 f3 n d : ℕ} (h0 : 0 < n) (h31 : n < 2147483648)
    (hs : f1 + n ≤ s.length) (ht : f2 + n ≤ t.length) (hu : f3 + n ≤ u.length) (hd : d + n ≤ m.length)
    (hp : seg u f3 (f3 + n) = List.zipWith (· * ·) (seg s f1 (f1 + n)) (seg t f2 (f2 + n))) :
    ∃ a b c X Y, cdft s f1 (f1 + n) m d = .ok a ∧ cdft t f2 (f2 + n) m d = .ok b ∧ cdft u f3 (f3 + n) m d = .ok c ∧
      X.length = n ∧ Y.length = n ∧ Wrote m a d X ∧ Wrote m b d Y ∧
      Wrote m c d ((List.range n).map fun k => circular n X Y k / n) := by
  have hn : (n : ℂ) ≠ 0 := Nat.cast_ne_zero.2 h0.ne'
  have l1 : (seg s f1 (f1 + n)).length = n := by rw [seg_length hs]; omega
  have l2 : (seg t f2 (f2 + n)).length = n := by rw [seg_length ht]; omega
  have l3 : (seg u f3 (f3 + n)).length = n := by rw [seg_length hu]; omega
  obtain ⟨a, a1, a2⟩ := C45_cdft h0 h31 hs hd
  obtain ⟨b, b1, b2⟩ := C45_cdft h0 h31 ht hd
  obtain ⟨c, c1, c2⟩ := C45_cdft h0 h31 hu hd
  refine ⟨a, b, c, _, _, a1, b1, c1, by simp, by simp, a2, b2, ?_⟩
  refine (congrArg (Wrote m c d) (List.map_congr_left fun k _ => ?_)).mp c2
  rw [bin_eq, l3, hp, F_congr (fun j _ => getD_zip l1 l2 j), eq_div_iff hn, mul_comm, ← F_circular h0.ne']
  unfold circular
  refine sum_congr rfl fun l hl => ?_
  rw [getD_map_range _ (mem_range.1 hl), getD_map_range _ (Nat.mod_lt _ h0), bin_eq, bin_eq, l1, l2]

/-- **C176 (products of bins).**  `X` and `Y` are the bins `cdft` stores for two frames, and the range of `u` holds
their element-wise product: `cidft` of it stores the convolution of the frames around the circle. -/
theorem C176_bins {s t u m m2 : List ℂ} {f1 f2 f3 n d d2 : ℕ} (h0 : 0 < n) (h31 : n < 2147483648)
    (hs : f1 + n ≤ s.length) (ht : f2 + n ≤ t.length) (hu : f3 + n ≤ u.length) (hd : d + n ≤ m.length)
    (hd2 : d2 + n ≤ m2.length) {a b : List ℂ} (ha : cdft s f1 (f1 + n) m d = .ok a)
    (hb : cdft t f2 (f2 + n) m d = .ok b)
    (hp : seg u f3 (f3 + n) = List.zipWith (· * ·) (seg a d (d + n)) (seg b d (d + n))) :
    ∃ c, cidft u f3 (f3 + n) m2 d2 = .ok c ∧
      Wrote m2 c d2 ((List.range n).map (circular n (seg s f1 (f1 + n)) (seg t f2 (f2 + n)))) := by
  have hn : (n : ℂ) ≠ 0 := Nat.cast_ne_zero.2 h0.ne'
  have l1 : (seg s f1 (f1 + n)).length = n := by rw [seg_length hs]; omega
  have l2 : (seg t f2 (f2 + n)).length = n := by rw [seg_length ht]; omega
  obtain ⟨a', a1, a2⟩ := C45_cdft h0 h31 hs hd
  obtain ⟨b', b1, b2⟩ := C45_cdft h0 h31 ht hd
  obtain rfl : a = a' := Except.ok.inj (ha.symm.trans a1)
  obtain rfl : b = b' := Except.ok.inj (hb.symm.trans b1)
  have sa := wrote_seg a2
  have sb := wrote_seg b2
  rw [List.length_map, List.length_range] at sa sb
  rw [sa, sb, zipWith_map_range] at hp
  obtain ⟨c, c1, c2⟩ := cidft_ok (m := m2) (d := d2) h0 h31 hu hd2
  refine ⟨c, c1, ?_⟩
  refine (congrArg (Wrote m2 c d2) ?_).mp c2
  rw [hp, backward_eq, List.map_map]
  refine List.map_congr_left fun k _ => ?_
  have e : ∀ j, j < n → ((List.range n).map fun k => bin (seg s f1 (f1 + n)) k * bin (seg t f2 (f2 + n)) k).getD j 0 =
      F n (fun j => (seg s f1 (f1 + n)).getD j 0) j * F n (fun j => (seg t f2 (f2 + n)).getD j 0) j := by
    intro j hj
    rw [getD_map_range _ hj, bin_eq, bin_eq, l1, l2]
  rw [Function.comp_apply, B_congr e, B_circular h0.ne', mul_div_cancel_left₀ _ hn]
  rfl

/-- Three samples times a window of three values. -/
example : ∃ a b c X Y, cdft [1, 2, 3] 0 (0 + 3) [0, 0, 0] 0 = .ok a ∧ cdft [1, 2, 1] 0 (0 + 3) [0, 0, 0] 0 = .ok b ∧
    cdft [1, 4, 3] 0 (0 + 3) [0, 0, 0] 0 = .ok c ∧ X.length = 3 ∧ Y.length = 3 ∧ Wrote [0, 0, 0] a 0 X ∧
    Wrote [0, 0, 0] b 0 Y ∧ Wrote [0, 0, 0] c 0 ((List.range 3).map fun k => circular 3 X Y k / (3 : ℕ)) :=
  C176_frames (by norm_num) (by norm_num) (by simp) (by simp) (by simp) (by simp) (by norm_num [seg])

/-- The product of the bins of two frames of three samples. -/
example : ∃ a b c, cdft [1, 2, 3] 0 (0 + 3) [0, 0, 0] 0 = .ok a ∧ cdft [1, 1, 0] 0 (0 + 3) [0, 0, 0] 0 = .ok b ∧
    cidft (List.zipWith (· * ·) a b) 0 (0 + 3) [0, 0, 0] 0 = .ok c ∧
    Wrote [0, 0, 0] c 0 ((List.range 3).map (circular 3 [1, 2, 3] [1, 1, 0])) := by
  obtain ⟨a, a1, a2⟩ := C45_cdft (s := [1, 2, 3]) (m := [0, 0, 0]) (first := 0) (n := 3) (d := 0) (by norm_num)
    (by norm_num) (by simp) (by simp)
  obtain ⟨b, b1, b2⟩ := C45_cdft (s := [1, 1, 0]) (m := [0, 0, 0]) (first := 0) (n := 3) (d := 0) (by norm_num)
    (by norm_num) (by simp) (by simp)
  have la : a.length = 3 := wrote_length a2
  have lb : b.length = 3 := wrote_length b2
  obtain ⟨c, c1, c2⟩ := C176_bins (u := List.zipWith (· * ·) a b) (m2 := [0, 0, 0]) (f3 := 0) (d2 := 0) (n := 3)
    (by norm_num) (by norm_num) (by simp) (by simp) (by simp [la, lb]) (by simp) (by simp) a1 b1 (by simp [seg, List.take_zipWith])
  exact ⟨a, b, c, a1, b1, c1, by simpa [seg] using c2⟩

end Edsp.Props.C176
