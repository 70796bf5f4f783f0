import Verif.Lemmas.Convolution
import Verif.Props.C171_TransformEnergy

/-!
# C180: the imaginary parts of the analytic signal
-/

namespace Edsp.Props.C180

open Finset Complex Edsp Edsp.Mem Edsp.Spec Edsp.Spectral Edsp.Fourier

theorem F_lin (n : ℕ) (a b : ℂ) (f g : ℕ → ℂ) (k : ℕ) :
    F n (fun j => a * f j + b * g j) k = a * F n f k + b * F n g k := by
  unfold F
  rw [mul_sum, mul_sum, ← sum_add_distrib]
  exact sum_congr rfl fun j _ => by ring

theorem getD_map0 {α β : Type} [Zero α] [Zero β] (f : α → β) (h : f 0 = 0) (x : List α) (j : ℕ) :
    (x.map f).getD j 0 = f (x.getD j 0) := by
  simp only [List.getD, List.getElem?_map]
  cases x[j]? <;> simp [h]

/-- The bins of the imaginary parts follow from those of the frame. -/
theorem im_bin {x : List ℝ} {z : List ℂ} {n : ℕ} (hx : x.length = n) (hz : z.length = n) (hre : z.map Complex.re = x)
    (hb : ∀ k, k < n → bin z k = if k = 0 ∨ 2 * k = n then bin (ofReals x) k
      else if 2 * k < n then 2 * bin (ofReals x) k else 0) {k : ℕ} (hk : k < n) :
    bin (ofReals (z.map Complex.im)) k = if k = 0 ∨ 2 * k = n then 0
      else if 2 * k < n then -I * bin (ofReals x) k else I * bin (ofReals x) k := by
  have key : bin z k = bin (ofReals x) k + I * bin (ofReals (z.map Complex.im)) k := by
    rw [bin_eq, bin_ofReals, bin_ofReals, hz, hx, List.length_map, hz]
    have := F_lin n 1 I (fun j => ((x.getD j 0 : ℝ) : ℂ)) (fun j => (((z.map Complex.im).getD j 0 : ℝ) : ℂ)) k
    rw [one_mul] at this
    rw [← this]
    refine F_congr (fun j _ => ?_) k
    rw [← hre, getD_map0 _ Complex.zero_re, getD_map0 _ Complex.zero_im, one_mul, mul_comm, Complex.re_add_im]
  have h2 : bin (ofReals (z.map Complex.im)) k = -I * (bin z k - bin (ofReals x) k) := by
    rw [key]; ring_nf; rw [Complex.I_sq]; ring
  rw [h2, hb k hk]
  split_ifs <;> ring

/-- **C180 (quadrature).**  The imaginary parts stored by `hilbert` have no constant part, and the frame is orthogonal
to them. -/
theorem C180_orthogonal {s : List ℝ} {m : List ℂ} {first n d : ℕ} (h0 : 0 < n) (h31 : n < 2147483648)
    (hs : first + n ≤ s.length) (hd : d + n ≤ m.length) :
    ∃ m' z, hilbert s first (first + n) m d = .ok m' ∧ Wrote m m' d z ∧ z.length = n ∧
      ∑ j ∈ range n, (z.map Complex.im).getD j 0 = 0 ∧
      ∑ j ∈ range n, (seg s first (first + n)).getD j 0 * (z.map Complex.im).getD j 0 = 0 := by
  obtain ⟨m', z, h, w, hl, hre, hbin⟩ := C67_analytic h0 h31 hs hd
  have hx : (seg s first (first + n)).length = n := by rw [seg_length hs]; omega
  refine ⟨m', z, h, w, hl, ?_⟩
  generalize seg s first (first + n) = x at *
  have hy := fun k (hk : k < n) => im_bin hx hl hre hbin hk
  have ly : (z.map Complex.im).length = n := by rw [List.length_map, hl]
  generalize z.map Complex.im = y at *
  constructor
  · have := hy 0 h0
    rw [if_pos (Or.inl rfl), bin_ofReals, ly] at this
    unfold F at this
    simp only [Nat.cast_zero, mul_zero, zero_div, neg_zero, Complex.exp_zero, mul_one] at this
    exact_mod_cast this
  · have e1 := C171.complex_energy h0 fun j => 1 * ((x.getD j 0 : ℝ) : ℂ) + 1 * ((y.getD j 0 : ℝ) : ℂ)
    have e2 := C171.complex_energy h0 fun j => 1 * ((x.getD j 0 : ℝ) : ℂ) + (-1) * ((y.getD j 0 : ℝ) : ℂ)
    have e3 : ∀ k ∈ range n, ‖F n (fun j => 1 * ((x.getD j 0 : ℝ) : ℂ) + 1 * ((y.getD j 0 : ℝ) : ℂ)) k‖ ^ 2 =
        ‖F n (fun j => 1 * ((x.getD j 0 : ℝ) : ℂ) + (-1) * ((y.getD j 0 : ℝ) : ℂ)) k‖ ^ 2 := by
      intro k hk
      have hk := mem_range.1 hk
      have h1 := hy k hk
      rw [F_lin, F_lin]
      rw [bin_ofReals, bin_ofReals, hx, ly] at h1
      rw [h1]
      generalize F n (fun j => ((x.getD j 0 : ℝ) : ℂ)) k = X
      rw [← Complex.normSq_eq_norm_sq, ← Complex.normSq_eq_norm_sq]
      split_ifs
      · simp
      · rw [show 1 * X + 1 * (-I * X) = (1 - I) * X by ring, show 1 * X + -1 * (-I * X) = (1 + I) * X by ring,
          Complex.normSq_mul, Complex.normSq_mul]
        congr 1
        simp [Complex.normSq_apply]
      · rw [show 1 * X + 1 * (I * X) = (1 + I) * X by ring, show 1 * X + -1 * (I * X) = (1 - I) * X by ring,
          Complex.normSq_mul, Complex.normSq_mul]
        congr 1
        simp [Complex.normSq_apply]
    rw [sum_congr rfl e3, e2] at e1
    have hn : (n : ℝ) ≠ 0 := Nat.cast_ne_zero.mpr h0.ne'
    have e4 := mul_left_cancel₀ hn e1
    have p1 : ∀ j ∈ range n, ‖1 * ((x.getD j 0 : ℝ) : ℂ) + 1 * ((y.getD j 0 : ℝ) : ℂ)‖ ^ 2 =
        ‖1 * ((x.getD j 0 : ℝ) : ℂ) + (-1) * ((y.getD j 0 : ℝ) : ℂ)‖ ^ 2 + 4 * (x.getD j 0 * y.getD j 0) := by
      intro j _
      rw [show 1 * ((x.getD j 0 : ℝ) : ℂ) + 1 * ((y.getD j 0 : ℝ) : ℂ) = ((x.getD j 0 + y.getD j 0 : ℝ) : ℂ) by
          push_cast; ring,
        show 1 * ((x.getD j 0 : ℝ) : ℂ) + (-1) * ((y.getD j 0 : ℝ) : ℂ) = ((x.getD j 0 - y.getD j 0 : ℝ) : ℂ) by
          push_cast; ring, Complex.norm_real, Complex.norm_real, Real.norm_eq_abs, Real.norm_eq_abs, sq_abs, sq_abs]
      ring
    rw [sum_congr rfl p1, sum_add_distrib, ← mul_sum] at e4
    linarith

/-- **C180 (twice).**  Of a frame whose samples add up to nothing, with equal and, for an even length, with alternating
signs, `hilbert` applied to the imaginary parts it has stored gives the frame back with the opposite sign. -/
theorem C180_twice {s s2 : List ℝ} {m m2 : List ℂ} {first n d : ℕ} (h0 : 0 < n) (h31 : n < 2147483648)
    (hs : first + n ≤ s.length) (hs2 : first + n ≤ s2.length) (hd : d + n ≤ m.length) (hd2 : d + n ≤ m2.length)
    {a : List ℂ} (ha : hilbert s first (first + n) m d = .ok a)
    (hi : seg s2 first (first + n) = (seg a d (d + n)).map Complex.im)
    (hsum : ∑ j ∈ range n, s.getD (first + j) 0 = 0)
    (halt : n % 2 = 0 → ∑ j ∈ range n, (-1) ^ j * s.getD (first + j) 0 = 0) :
    ∃ b, hilbert s2 first (first + n) m2 d = .ok b ∧
      (seg b d (d + n)).map Complex.im = (seg s first (first + n)).map fun v => -v := by
  obtain ⟨m', z, h, w, hl, hre, hbin⟩ := C67_analytic h0 h31 hs hd
  obtain ⟨b, u, h', w', hl', -, hbin'⟩ := C67_analytic h0 h31 hs2 hd2
  rw [ha] at h
  cases h
  have sz := wrote_seg w
  have su := wrote_seg w'
  rw [hl] at sz
  rw [hl'] at su
  rw [sz] at hi
  refine ⟨b, h', ?_⟩
  have hx : (seg s first (first + n)).length = n := by rw [seg_length hs]; omega
  have hg : ∀ j ∈ range n, s.getD (first + j) 0 = (seg s first (first + n)).getD j 0 := fun j hj => by
    have := mem_range.1 hj
    unfold seg
    rw [List.getD, List.getD, List.getElem?_take, List.getElem?_drop, if_pos (by omega)]
  rw [sum_congr rfl hg] at hsum
  have halt : n % 2 = 0 → ∑ j ∈ range n, (-1) ^ j * (seg s first (first + n)).getD j 0 = 0 := fun hp => by
    have := halt hp
    rwa [sum_congr rfl fun j hj => by rw [hg j hj]] at this
  rw [su]
  rw [hi] at hbin'
  generalize seg s first (first + n) = x at *
  have b0 : bin (ofReals x) 0 = 0 := by
    have : bin (ofReals x) 0 = ((∑ j ∈ range n, x.getD j 0 : ℝ) : ℂ) := by
      unfold bin
      rw [show (ofReals x).length = n by simp [ofReals, hx], Complex.ofReal_sum]
      refine sum_congr rfl fun j _ => ?_
      rw [ofReals_getD]
      simp
    rw [this, hsum, Complex.ofReal_zero]
  have bh : ∀ k, 2 * k = n → bin (ofReals x) k = 0 := fun k hk => by
    have : bin (ofReals x) k = ((∑ j ∈ range n, (-1) ^ j * x.getD j 0 : ℝ) : ℂ) := by
      unfold bin
      rw [show (ofReals x).length = n by simp [ofReals, hx], Complex.ofReal_sum]
      refine sum_congr rfl fun j _ => ?_
      have ha : 2 * Real.pi * k * j / n = j * Real.pi := by
        have hr0 : (k : ℝ) ≠ 0 := Nat.cast_ne_zero.mpr (by omega)
        rw [← hk]
        push_cast
        field_simp
      rw [ofReals_getD, ha, Real.cos_nat_mul_pi, Real.sin_nat_mul_pi]
      push_cast
      ring
    rw [this, halt (by omega), Complex.ofReal_zero]
  have hu : u = z.map fun v => -I * v := by
    refine C67_determined hl' (by simp [hl]) fun k hk => ?_
    have e : bin (z.map fun v => -I * v) k = -I * bin z k := by
      rw [bin_eq, bin_eq, List.length_map, hl]
      have := F_lin n (-I) 0 (fun j => z.getD j 0) (fun _ => 0) k
      rw [zero_mul (F n (fun _ => 0) k), add_zero] at this
      rw [← this]
      exact F_congr (fun j _ => by rw [getD_map0 _ (mul_zero _)]; ring) k
    rw [e, hbin' k hk, hbin k hk, im_bin hx hl hre hbin hk]
    by_cases h1 : k = 0 ∨ 2 * k = n
    · rw [if_pos h1, if_pos h1, if_pos h1]
      rcases h1 with rfl | h1
      · rw [b0, mul_zero]
      · rw [bh k h1, mul_zero]
    · rw [if_neg h1, if_neg h1, if_neg h1]
      split_ifs
      · ring
      · ring
  rw [hu, ← hre, List.map_map, List.map_map]
  refine List.map_congr_left fun v _ => ?_
  simp

/-- **C180 (superposition).**  The analytic signal of a combination of two frames is the combination of their analytic
signals. -/
theorem C180_linear {s s2 s3 : List ℝ} {m : List ℂ} {first n d : ℕ} {α β : ℝ} (h0 : 0 < n) (h31 : n < 2147483648)
    (hs : first + n ≤ s.length) (hs2 : first + n ≤ s2.length) (hs3 : first + n ≤ s3.length) (hd : d + n ≤ m.length)
    (hc : seg s3 first (first + n) = lincomb α β (seg s first (first + n)) (seg s2 first (first + n))) :
    ∃ a b c y z, hilbert s first (first + n) m d = .ok a ∧ hilbert s2 first (first + n) m d = .ok b ∧
      hilbert s3 first (first + n) m d = .ok c ∧ Wrote m a d y ∧ Wrote m b d z ∧
      Wrote m c d (List.zipWith (fun u v => (α : ℂ) * u + β * v) y z) := by
  obtain ⟨a, y, ea, wa, la, -, ba⟩ := C67_analytic h0 h31 hs hd
  obtain ⟨b, z, eb, wb, lb, -, bb⟩ := C67_analytic h0 h31 hs2 hd
  obtain ⟨c, u, ec, wc, lc, -, bc⟩ := C67_analytic h0 h31 hs3 hd
  refine ⟨a, b, c, y, z, ea, eb, ec, wa, wb, ?_⟩
  have h1 : (seg s first (first + n)).length = n := by rw [seg_length hs]; omega
  have h2 : (seg s2 first (first + n)).length = n := by rw [seg_length hs2]; omega
  have lw : (List.zipWith (fun u v => (α : ℂ) * u + β * v) y z).length = n := by simp [la, lb]
  have e : u = List.zipWith (fun u v => (α : ℂ) * u + β * v) y z := by
    refine C67_determined lc lw fun k hk => ?_
    have e1 : bin (List.zipWith (fun u v => (α : ℂ) * u + β * v) y z) k = α * bin y k + β * bin z k := by
      rw [bin_eq, bin_eq, bin_eq, lw, la, lb, ← F_lin]
      refine F_congr (fun j hj => ?_) k
      simp [List.getD, la, lb, hj]
    have e2 : bin (ofReals (seg s3 first (first + n))) k =
        α * bin (ofReals (seg s first (first + n))) k + β * bin (ofReals (seg s2 first (first + n))) k := by
      rw [hc, bin_ofReals, bin_ofReals, bin_ofReals, h1, h2, ← F_lin,
        show (lincomb α β (seg s first (first + n)) (seg s2 first (first + n))).length = n by simp [lincomb, h1, h2]]
      refine F_congr (fun j _ => ?_) k
      rw [ConvL.getD_lincomb (h1.trans h2.symm)]
      push_cast
      ring
    rw [e1, ba k hk, bb k hk, bc k hk, e2]
    split_ifs
    · rfl
    · ring
    · ring
  rwa [← e]

/-- **C180 (rotation).**  The analytic signal of a frame shifted circularly is the analytic signal of the frame, shifted
by as many samples. -/
theorem C180_rotation {s s2 : List ℝ} {m : List ℂ} {first n d p : ℕ} (h0 : 0 < n) (h31 : n < 2147483648)
    (hs : first + n ≤ s.length) (hs2 : first + n ≤ s2.length) (hd : d + n ≤ m.length)
    (hc : seg s2 first (first + n) = (seg s first (first + n)).rotate p) :
    ∃ a b z, hilbert s first (first + n) m d = .ok a ∧ hilbert s2 first (first + n) m d = .ok b ∧
      Wrote m a d z ∧ Wrote m b d (z.rotate p) := by
  obtain ⟨a, z, ea, wa, la, -, ba⟩ := C67_analytic h0 h31 hs hd
  obtain ⟨b, u, eb, wb, lb, -, bb⟩ := C67_analytic h0 h31 hs2 hd
  refine ⟨a, b, z, ea, eb, wa, ?_⟩
  have h1 : (seg s first (first + n)).length = n := by rw [seg_length hs]; omega
  have rot : ∀ v : List ℂ, v.length = n → ∀ k, bin (v.rotate p) k = om n ^ ((p : ℤ) * k) * bin v k := by
    intro v hv k
    rw [bin_eq, bin_eq, List.length_rotate, hv, ← F_rotate h0]
    refine F_congr (fun j hj => ?_) k
    rw [List.getD, List.getElem?_rotate (by omega), hv, List.getD]
  have e : u = z.rotate p := by
    refine C67_determined lb (by rw [List.length_rotate, la]) fun k hk => ?_
    have e2 : ofReals (seg s2 first (first + n)) = (ofReals (seg s first (first + n))).rotate p := by
      unfold ofReals
      rw [hc, List.map_rotate]
    rw [rot z la, ba k hk, bb k hk, e2, rot _ (by simp [ofReals, h1])]
    split_ifs
    · rfl
    · ring
    · ring
  rwa [← e]

/-- One period of a cosine at a quarter of the sample rate, 1, 0, -1, 0: it adds up to nothing with equal and with
alternating signs. -/
example : ∃ a z, hilbert [1, 0, -1, 0] 0 (0 + 4) (List.replicate 4 0) 0 = .ok a ∧ Wrote (List.replicate 4 0) a 0 z ∧
    ∀ s2 : List ℝ, seg s2 0 (0 + 4) = (seg a 0 (0 + 4)).map Complex.im → 0 + 4 ≤ s2.length →
      ∃ b, hilbert s2 0 (0 + 4) (List.replicate 4 0) 0 = .ok b ∧
        (seg b 0 (0 + 4)).map Complex.im = (seg [(1 : ℝ), 0, -1, 0] 0 (0 + 4)).map fun v => -v := by
  obtain ⟨a, z, h1, h2, -⟩ := C180_orthogonal (s := [1, 0, -1, 0]) (m := List.replicate 4 0) (first := 0) (n := 4)
    (d := 0) (by norm_num) (by norm_num) (by simp) (by simp)
  refine ⟨a, z, h1, h2, fun s2 h3 h4 => ?_⟩
  exact C180_twice (by norm_num) (by norm_num) (by simp) h4 (by simp) (by simp) h1 h3
    (by simp [sum_range_succ]) (fun _ => by simp [sum_range_succ])

/-- A frame shifted by one sample. -/
example : ∃ a b z, hilbert [1, 5, 2] 0 (0 + 3) (List.replicate 3 0) 0 = .ok a ∧
    hilbert [5, 2, 1] 0 (0 + 3) (List.replicate 3 0) 0 = .ok b ∧
    Wrote (List.replicate 3 0) a 0 z ∧ Wrote (List.replicate 3 0) b 0 (z.rotate 1) :=
  C180_rotation (by norm_num) (by norm_num) (by simp) (by simp) (by simp) rfl

/-- Twice one frame less another. -/
example : ∃ a b c y z, hilbert [1, 5] 0 (0 + 2) (List.replicate 2 0) 0 = .ok a ∧
    hilbert [3, 4] 0 (0 + 2) (List.replicate 2 0) 0 = .ok b ∧ hilbert [-1, 6] 0 (0 + 2) (List.replicate 2 0) 0 = .ok c ∧
    Wrote (List.replicate 2 0) a 0 y ∧ Wrote (List.replicate 2 0) b 0 z ∧
    Wrote (List.replicate 2 0) c 0 (List.zipWith (fun u v => ((2 : ℝ) : ℂ) * u + ((-1 : ℝ) : ℂ) * v) y z) :=
  C180_linear (by norm_num) (by norm_num) (by simp) (by simp) (by simp) (by simp) (by norm_num [seg, lincomb])

end Edsp.Props.C180
