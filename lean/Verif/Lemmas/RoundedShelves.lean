import Verif.Model.RoundedShelves
import Verif.Lemmas.RoundedConverters
import Verif.Spec.LibmLog

/-! Helper lemmas: errors relative to a common magnitude, and the coefficients of the shelves. -/

namespace Edsp.RndShelfL

open Edsp Edsp.Spec Edsp.RndWin Edsp.RndRbj Edsp.FloatL Edsp.RndWinL Edsp.RndRbjL Edsp.RndConvL

/-- `x` is within `e W` of `X`, whose magnitude is at most `M W`. -/
def Err (W e M x X : ℝ) : Prop := |x - X| ≤ e * W ∧ |X| ≤ M * W

variable {p : ℕ} {W γ : ℝ}

/-- The room for errors: `γ` small, a rounding at most `γ / 6`. -/
structure Room (p : ℕ) (W γ : ℝ) : Prop where
  W : 0 < W
  pos : 0 < γ
  small : γ ≤ 1 / 1000
  unit : 6 * u p ≤ γ

theorem Room.rnd (h : Room p W γ) {e M x X : ℝ} (hx : Err W (e * γ) M x X) (he : 0 ≤ e) {k : ℝ}
    (hk : M + e / 1000 ≤ 6 * k) : Err W ((e + k) * γ) M (rnd p x) X := by
  obtain ⟨h1, h2⟩ := hx
  refine ⟨?_, h2⟩
  have hW := h.W
  have hu := u_pos p
  have hB : |X| + e * γ * W ≤ 6 * k * W := by
    have : e * γ ≤ e * (1 / 1000) := mul_le_mul_of_nonneg_left h.small he
    nlinarith
  have h3 := rnd_shift (p := p) h1 hB
  refine h3.trans ?_
  have h4 : 0 ≤ k * W := by
    have : 0 ≤ |X| + e * γ * W := by have := h.pos; positivity
    nlinarith
  have h5 := mul_le_mul_of_nonneg_right h.unit h4
  nlinarith

theorem Err.add {e M d N x X y Y : ℝ} (hx : Err W (e * γ) M x X) (hy : Err W (d * γ) N y Y) {K : ℝ}
    (hK : |X + Y| ≤ K * W) : Err W ((e + d) * γ) K (x + y) (X + Y) := by
  refine ⟨?_, hK⟩
  have : x + y - (X + Y) = (x - X) + (y - Y) := by ring
  rw [this]
  refine (abs_add_le _ _).trans ?_
  have := hx.1
  have := hy.1
  linarith

theorem Err.neg {e M x X : ℝ} (hx : Err W e M x X) : Err W e M (-x) (-X) := by
  refine ⟨?_, by rw [abs_neg]; exact hx.2⟩
  rw [show -x - -X = -(x - X) by ring, abs_neg]
  exact hx.1

theorem Err.sub {e M d N x X y Y : ℝ} (hx : Err W (e * γ) M x X) (hy : Err W (d * γ) N y Y) {K : ℝ}
    (hK : |X - Y| ≤ K * W) : Err W ((e + d) * γ) K (x - y) (X - Y) := by
  rw [sub_eq_add_neg, sub_eq_add_neg] at *
  exact hx.add hy.neg hK

/-- Times a number within `4 γ` of one of magnitude at most 1. -/
theorem Room.mul_unit (h : Room p W γ) {e M x X c C : ℝ} (hx : Err W (e * γ) M x X) (he : 0 ≤ e)
    (hc : |c - C| ≤ 4 * γ) (hC : |C| ≤ 1) {k : ℝ} (hk : e + 4 * (M + e / 1000) ≤ k) :
    Err W (k * γ) M (x * c) (X * C) := by
  obtain ⟨h1, h2⟩ := hx
  have hW := h.W
  have hγ := h.pos
  have hM : 0 ≤ M * W := (abs_nonneg X).trans h2
  refine ⟨?_, ?_⟩
  · have e1 : x * c - X * C = (x - X) * C + x * (c - C) := by ring
    have hx' : |x| ≤ (M + e / 1000) * W := by
      have d := abs_add_le (x - X) X
      rw [sub_add_cancel] at d
      have : e * γ ≤ e * (1 / 1000) := mul_le_mul_of_nonneg_left h.small he
      nlinarith
    rw [e1]
    refine (abs_add_le _ _).trans ?_
    rw [abs_mul, abs_mul]
    have a := mul_le_mul h1 hC (abs_nonneg _) (by positivity)
    have b := mul_le_mul hx' hc (abs_nonneg _) ((abs_nonneg x).trans hx')
    have := mul_le_mul_of_nonneg_right hk (by positivity : 0 ≤ γ * W)
    nlinarith
  · rw [abs_mul]
    have := mul_le_mul h2 hC (abs_nonneg _) hM
    linarith

/-- Times a number with a relative error, on the scale of the product. -/
theorem Room.mul_rel (h : Room p W γ) {e M x X a A r : ℝ} (hx : Err W (e * γ) M x X) (he : 0 ≤ e)
    (ha : |a - A| ≤ r * γ * A) (hA : 0 < A) (hr : 0 ≤ r) {k : ℝ} (hk : e + r * (M + e / 1000) ≤ k) :
    Err (A * W) (k * γ) M (a * x) (A * X) := by
  obtain ⟨h1, h2⟩ := hx
  have hW := h.W
  have hγ := h.pos
  refine ⟨?_, ?_⟩
  · have e1 : a * x - A * X = A * (x - X) + (a - A) * x := by ring
    have hx' : |x| ≤ (M + e / 1000) * W := by
      have d := abs_add_le (x - X) X
      rw [sub_add_cancel] at d
      have : e * γ ≤ e * (1 / 1000) := mul_le_mul_of_nonneg_left h.small he
      nlinarith
    rw [e1]
    refine (abs_add_le _ _).trans ?_
    rw [abs_mul, abs_mul, abs_of_pos hA]
    have a1 := mul_le_mul_of_nonneg_left h1 hA.le
    have b := mul_le_mul ha hx' (abs_nonneg _) (by positivity)
    have := mul_le_mul_of_nonneg_right hk (by positivity : 0 ≤ γ * (A * W))
    nlinarith
  · rw [abs_mul, abs_of_pos hA]
    have := mul_le_mul_of_nonneg_left h2 hA.le
    linarith

theorem Room.scale (h : Room p W γ) {A : ℝ} (hA : 0 < A) : Room p (A * W) γ :=
  ⟨mul_pos hA h.W, h.pos, h.small, h.unit⟩

theorem Err.more {e d M N x X : ℝ} (hx : Err W (e * γ) M x X) (hW : 0 < W) (hγ : 0 < γ) (h : e ≤ d) (hM : M ≤ N) :
    Err W (d * γ) N x X := by
  refine ⟨hx.1.trans ?_, hx.2.trans (mul_le_mul_of_nonneg_right hM hW.le)⟩
  have := mul_le_mul_of_nonneg_right h (mul_pos hγ hW).le
  linarith

/-- Roots keep relative errors. -/
theorem within_sqrt {e a b : ℝ} (hb : 0 < b) (he : e ≤ 1) (h : Within e a b) :
    Within e (Real.sqrt a) (Real.sqrt b) := by
  unfold Within at *
  rw [abs_of_pos hb] at h
  have ha : 0 ≤ a := by
    have := (abs_le.mp h).1
    nlinarith
  have sb := Real.sqrt_pos.mpr hb
  have sa := Real.sqrt_nonneg a
  rw [abs_of_pos sb]
  have e1 : (Real.sqrt a - Real.sqrt b) * (Real.sqrt a + Real.sqrt b) = a - b := by
    have := Real.mul_self_sqrt ha
    have := Real.mul_self_sqrt hb.le
    nlinarith
  have e2 : |Real.sqrt a - Real.sqrt b| * (Real.sqrt a + Real.sqrt b) = |a - b| := by
    rw [← e1, abs_mul, abs_of_nonneg (by positivity : 0 ≤ Real.sqrt a + Real.sqrt b)]
  have e3 : |Real.sqrt a - Real.sqrt b| * Real.sqrt b ≤ e * Real.sqrt b * Real.sqrt b := by
    rw [mul_assoc, Real.mul_self_sqrt hb.le]
    refine le_trans ?_ h
    rw [← e2]
    exact mul_le_mul_of_nonneg_left (by linarith) (abs_nonneg _)
  exact le_of_mul_le_mul_right e3 sb

/-- The error of the amplitude. -/
theorem amplitude_err (hp : 24 ≤ p) (hq : p ≤ 53) {e : ℝ} (he : 0 ≤ e) {P : ℝ → ℝ} (hP : PowLike e P) {g : ℝ}
    (hγ : (u p + e) * (|g| + 6) ≤ 1 / 1000) :
    Within ((u p + e) * (|g| + 6)) (amplitude p P g) (Real.sqrt ((10 : ℝ) ^ (g / 20))) := by
  have hu := u_pos p
  have hs := u_small hp
  have hg := abs_nonneg g
  have ug : 0 ≤ u p * |g| := by positivity
  have eg : 0 ≤ e * |g| := by positivity
  have he1 : e ≤ 1 / 6000 := by linarith
  have hu1 : u p * |g| ≤ 1 / 1000 := by linarith
  have hT : 0 < (10 : ℝ) ^ (g / 20) := Real.rpow_pos_of_pos (by norm_num) _
  have ht : Within (u p) (rnd p (g / 20)) (g / 20) := within_rnd p _
  unfold amplitude
  set t := rnd p (g / 20)
  have ht : |t - g / 20| ≤ u p * |g| / 20 := by
    have h : |t - g / 20| ≤ u p * |g / 20| := ht
    rw [abs_div, abs_of_pos (by norm_num : (0 : ℝ) < 20)] at h
    linarith
  have h2 : |(10 : ℝ) ^ (t - g / 20) - 1| ≤ 5 * |t - g / 20| := pow_near (by linarith)
  have h3 : Within (u p * |g| / 4) ((10 : ℝ) ^ t) ((10 : ℝ) ^ (g / 20)) := by
    have h : (10 : ℝ) ^ t = (10 : ℝ) ^ (t - g / 20) * (10 : ℝ) ^ (g / 20) := by
      rw [← Real.rpow_add (by norm_num), sub_add_cancel]
    have hr : (10 : ℝ) ^ (t - g / 20) * (10 : ℝ) ^ (g / 20) - (10 : ℝ) ^ (g / 20) =
      ((10 : ℝ) ^ (t - g / 20) - 1) * (10 : ℝ) ^ (g / 20) := by ring
    unfold Within
    rw [h, hr, abs_mul]
    exact mul_le_mul_of_nonneg_right (by linarith) (abs_nonneg _)
  have h4 : Within (e + u p * |g| / 3) (P t) ((10 : ℝ) ^ (g / 20)) := by
    refine within_mono (within_trans he (hP.near t) h3) ?_
    have := mul_le_mul_of_nonneg_right he1 (by positivity : 0 ≤ u p * |g| / 4)
    linarith
  have h5 := within_sqrt hT (by linarith) h4
  have h53 : u 53 ≤ u p := by
    show (2 : ℝ) ^ (-((53 : ℕ) : ℤ)) ≤ 2 ^ (-(p : ℤ))
    exact zpow_le_zpow_right₀ (by norm_num) (by omega)
  have h6 : Within (1.1 * u p + e + u p * |g| / 3) (rnd 53 (Real.sqrt (P t))) (Real.sqrt ((10 : ℝ) ^ (g / 20))) := by
    refine within_mono (within_rnd_of (p := 53) h5) ?_
    have key : ∀ v : ℝ, v ≤ u p → v + (e + u p * |g| / 3) + v * (e + u p * |g| / 3) ≤ 1.1 * u p + e + u p * |g| / 3 := by
      intro v hv
      have := mul_le_mul hv (by linarith : e + u p * |g| / 3 ≤ 1 / 1000) (by positivity) hu.le
      linarith
    exact key _ h53
  refine within_mono (within_rnd_of (p := p) h6) ?_
  have := mul_le_mul_of_nonneg_left (by linarith : 1.1 * u p + e + u p * |g| / 3 ≤ 1 / 500) hu.le
  linarith

/-- The values all coefficients are made of: the amplitude, its sum and difference with 1, the products with the cosine
and the product of the bandwidth and the sine. -/
structure Parts (p : ℕ) (W γ : ℝ) (a plus minus mc pc bs A C B : ℝ) : Prop where
  room : Room p W γ
  errA : |a - A| ≤ γ * A
  posA : 0 < A
  absC : |C| ≤ 1
  scale : A + 1 + |B| ≤ W
  plus : Err W (1.17 * γ) 1 plus (A + 1)
  minus : Err W (1.17 * γ) 1 minus (A - 1)
  mc : Err W (5.35 * γ) 1 mc ((A - 1) * C)
  pc : Err W (5.35 * γ) 1 pc ((A + 1) * C)
  bs : Err W (5.52 * γ) 1 bs B

theorem Parts.flip {a plus minus mc pc bs A C B : ℝ} (h : Parts p W γ a plus minus mc pc bs A C B) :
    Parts p W γ a plus minus (-mc) (-pc) bs A (-C) B := by
  refine ⟨h.room, h.errA, h.posA, by rw [abs_neg]; exact h.absC, h.scale, h.plus, h.minus, ?_, ?_, h.bs⟩
  · rw [mul_neg]; exact h.mc.neg
  · rw [mul_neg]; exact h.pc.neg

theorem abs_prod {x c X : ℝ} (h : |x| ≤ X) (hc : |c| ≤ 1) : |x * c| ≤ X := by
  rw [abs_mul]
  have := mul_le_mul h hc (abs_nonneg _) ((abs_nonneg _).trans h)
  linarith

section
variable {a plus minus mc pc bs A C B : ℝ}

theorem Parts.bounds (h : Parts p W γ a plus minus mc pc bs A C B) :
    |A + 1| ≤ 1 * W ∧ |A - 1| ≤ 1 * W ∧ |(A - 1) * C| ≤ 1 * W ∧ |(A + 1) * C| ≤ 1 * W ∧ |B| ≤ 1 * W :=
  ⟨h.plus.2, h.minus.2, h.mc.2, h.pc.2, h.bs.2⟩

theorem abs_sum {x y X Y : ℝ} (hx : |x| ≤ X) (hy : |y| ≤ Y) : |x + y| ≤ X + Y ∧ |x - y| ≤ X + Y := by
  constructor
  · exact (abs_add_le _ _).trans (add_le_add hx hy)
  · exact (abs_sub _ _).trans (add_le_add hx hy)

/-- The coefficients of the low shelf. -/
theorem Parts.coeffs (h : Parts p W γ a plus minus mc pc bs A C B) :
    Err W (12.9 * γ) 3 (rnd p (rnd p (plus + mc) + bs)) ((A + 1) + (A - 1) * C + B) ∧
    Err W (14.4 * γ) 4 (rnd p (-2 * rnd p (minus + pc))) (-2 * ((A - 1) + (A + 1) * C)) ∧
    Err W (12.9 * γ) 3 (rnd p (rnd p (plus + mc) - bs)) ((A + 1) + (A - 1) * C - B) ∧
    Err (A * W) (19.2 * γ) 4 (rnd p (a * rnd p (rnd p (plus - mc) + bs))) (A * ((A + 1) - (A - 1) * C + B)) ∧
    Err (A * W) (19.2 * γ) 4 (rnd p (rnd p (2 * a) * rnd p (minus - pc))) (2 * A * ((A - 1) - (A + 1) * C)) ∧
    Err (A * W) (19.2 * γ) 4 (rnd p (a * rnd p (rnd p (plus - mc) - bs))) (A * ((A + 1) - (A - 1) * C - B)) := by
  obtain ⟨b1, b2, b3, b4, b5⟩ := h.bounds
  have hr := h.room
  have hW := hr.W
  have hγ := hr.pos
  have hA := h.posA
  have rs := hr.scale hA
  have s1 := (h.plus.add h.mc (K := 2) ((abs_sum b1 b3).1.trans (by linarith)))
  have s2 := (h.plus.sub h.mc (K := 2) ((abs_sum b1 b3).2.trans (by linarith)))
  have s3 := (h.minus.add h.pc (K := 2) ((abs_sum b2 b4).1.trans (by linarith)))
  have s4 := (h.minus.sub h.pc (K := 2) ((abs_sum b2 b4).2.trans (by linarith)))
  have t1 := hr.rnd s1 (by norm_num) (k := 0.336) (by norm_num)
  have t2 := hr.rnd s2 (by norm_num) (k := 0.336) (by norm_num)
  have t3 := hr.rnd s3 (by norm_num) (k := 0.336) (by norm_num)
  have t4 := hr.rnd s4 (by norm_num) (k := 0.336) (by norm_num)
  have v1 := hr.rnd (t1.add h.bs (K := 3) ((abs_sum s1.2 b5).1.trans (by linarith))) (by norm_num) (k := 0.504) (by norm_num)
  have v2 := hr.rnd (t1.sub h.bs (K := 3) ((abs_sum s1.2 b5).2.trans (by linarith))) (by norm_num) (k := 0.504) (by norm_num)
  have v3 := hr.rnd (t2.add h.bs (K := 3) ((abs_sum s2.2 b5).1.trans (by linarith))) (by norm_num) (k := 0.504) (by norm_num)
  have v4 := hr.rnd (t2.sub h.bs (K := 3) ((abs_sum s2.2 b5).2.trans (by linarith))) (by norm_num) (k := 0.504) (by norm_num)
  have ha : |a - A| ≤ 1 * γ * A := by rw [one_mul]; exact h.errA
  have ha2 : |rnd p (2 * a) - 2 * A| ≤ 1.17 * γ * (2 * A) := by
    have e1 : Err (2 * A) (1 * γ) 1 (2 * a) (2 * A) := by
      refine ⟨?_, by rw [abs_of_pos (by linarith)]; linarith⟩
      rw [← mul_sub, abs_mul, abs_of_pos (by norm_num : (0 : ℝ) < 2)]
      linarith [h.errA]
    have r2 : Room p (2 * A) γ := ⟨by linarith, hγ, hr.small, hr.unit⟩
    have := (r2.rnd e1 (by norm_num) (k := 0.17) (by norm_num)).1
    refine this.trans ?_
    norm_num
  refine ⟨v1.more hW hγ (by norm_num) le_rfl, ?_, v2.more hW hγ (by norm_num) le_rfl, ?_, ?_, ?_⟩
  · have d : Err W (13.712 * γ) 4 (-2 * rnd p (minus + pc)) (-2 * ((A - 1) + (A + 1) * C)) := by
      have h2 : |(-2 : ℝ)| = 2 := by norm_num
      refine ⟨?_, ?_⟩
      · rw [← mul_sub, abs_mul, h2]
        linarith [t3.1]
      · rw [abs_mul, h2]
        linarith [s3.2]
    exact (hr.rnd d (by norm_num) (k := 0.67) (by norm_num)).more hW hγ (by norm_num) le_rfl
  · have d := hr.mul_rel v3 (by norm_num) ha hA (by norm_num) (k := 15.91) (by norm_num)
    exact (rs.rnd d (by norm_num) (k := 0.51) (by norm_num)).more rs.W hγ (by norm_num) (by norm_num)
  · have d := hr.mul_rel t4 (by norm_num) ha2 (by linarith) (by norm_num) (k := 9.22) (by norm_num)
    have d' : Err (A * W) (18.44 * γ) 4 (rnd p (2 * a) * rnd p (minus - pc)) (2 * A * ((A - 1) - (A + 1) * C)) :=
      ⟨d.1.trans_eq (by ring), d.2.trans_eq (by ring)⟩
    exact (rs.rnd d' (by norm_num) (k := 0.67) (by norm_num)).more rs.W hγ (by norm_num) le_rfl
  · have d := hr.mul_rel v4 (by norm_num) ha hA (by norm_num) (k := 15.91) (by norm_num)
    exact (rs.rnd d (by norm_num) (k := 0.51) (by norm_num)).more rs.W hγ (by norm_num) (by norm_num)

end

/-- One quotient: numerator on the scale `V`, denominator at least `1000 γ W`. -/
theorem quotient_err {V n N d D k M e R : ℝ} (hr : Room p W γ) (hD : 1000 * γ * W ≤ D) (hd : |d - D| ≤ 12.9 * γ * W)
    (hn : |n - N| ≤ e * γ * V) (hV : 0 < V) (hN : |N| ≤ M * D) (hM : 0 ≤ M) (he : 0 ≤ e)
    (hR : 1.0131 * (e * (V / D) + 12.9 * M * (W / D)) ≤ R) (hk : M + R / 1000 ≤ 6 * k) :
    div p n d = .ok (rnd p (n / d)) ∧ |rnd p (n / d) - N / D| ≤ (R + k) * γ := by
  have hW := hr.W
  have hγ := hr.pos
  have hu := u_pos p
  have hDp : 0 < D := lt_of_lt_of_le (by positivity) hD
  have hd' := abs_le.mp hd
  have hdl : 0.9871 * D ≤ d := by nlinarith [hd'.1]
  have hdp : 0 < d := by linarith
  refine ⟨div_ok hdp.ne', ?_⟩
  have e1 : n / d - N / D = ((n - N) * D + N * (D - d)) / (d * D) := by
    field_simp
    ring
  have e2 : |(n - N) * D + N * (D - d)| ≤ e * γ * V * D + M * D * (12.9 * γ * W) := by
    refine (abs_add_le _ _).trans ?_
    rw [abs_mul, abs_mul, abs_of_pos hDp, abs_sub_comm D d]
    have := mul_le_mul_of_nonneg_right hn hDp.le
    have := mul_le_mul hN hd (abs_nonneg _) (by positivity)
    linarith
  have e3 : |n / d - N / D| ≤ R * γ := by
    rw [e1, abs_div, abs_of_pos (mul_pos hdp hDp), div_le_iff₀ (mul_pos hdp hDp)]
    refine e2.trans ?_
    have e4 : e * γ * V * D + M * D * (12.9 * γ * W) = γ * (e * (V / D) + 12.9 * M * (W / D)) * (D * D) := by
      field_simp
    rw [e4]
    have h1 : 0 ≤ e * (V / D) + 12.9 * M * (W / D) := by positivity
    have h2 : D * D ≤ 1.0131 * (d * D) := by nlinarith
    have h3 := mul_le_mul_of_nonneg_left h2 (mul_nonneg hγ.le h1)
    have h4 := mul_le_mul_of_nonneg_left hR (by positivity : 0 ≤ γ * (d * D))
    nlinarith
  have hR0 : 0 ≤ R := le_trans (by positivity) hR
  have hND : |N / D| ≤ M := by
    rw [abs_div, abs_of_pos hDp, div_le_iff₀ hDp]
    exact hN
  have hB : |N / D| + R * γ ≤ 6 * k := by
    have := mul_le_mul_of_nonneg_left hr.small hR0
    linarith
  refine (rnd_shift (p := p) e3 hB).trans ?_
  have hk0 : 0 ≤ k := by linarith
  have := mul_le_mul_of_nonneg_right hr.unit hk0
  linarith

/-- The parts of a shelf. -/
theorem parts_ok (hp : 24 ≤ p) (hq : p ≤ 53) {e : ℝ} (he : 0 ≤ e) {s c P : ℝ → ℝ} (hs : SinLike p s) (hc : CosLike p c)
    (hP : PowLike e P) {fc fs Q g A : ℝ} (h0 : 0 < fc) (h1 : fc < fs / 2) (hQ : 0 < Q)
    (hA : A = Real.sqrt ((10 : ℝ) ^ (g / 20))) (hγ : (u p + e) * (|g| + 6) ≤ 1 / 1000) :
    ∃ w b, omega p fc fs = .ok w ∧ beta p (amplitude p P g) Q = .ok b ∧
      Parts p (1 + A + Real.sqrt A / Q) ((u p + e) * (|g| + 6)) (amplitude p P g) (rnd p (amplitude p P g + 1))
        (rnd p (amplitude p P g - 1)) (rnd p (rnd p (amplitude p P g - 1) * c w)) (rnd p (rnd p (amplitude p P g + 1) * c w))
        (rnd p (b * s w)) A (Real.cos (2 * Real.pi * fc / fs)) (Real.sqrt A / Q * Real.sin (2 * Real.pi * fc / fs)) := by
  obtain ⟨w, k1, -, -, k2⟩ := omega_ok hp hq h0 h1
  have hu := u_pos p
  have hsm := u_small hp
  have hg := abs_nonneg g
  have hT : 0 < (10 : ℝ) ^ (g / 20) := Real.rpow_pos_of_pos (by norm_num) _
  have hA0 : 0 < A := by rw [hA]; exact Real.sqrt_pos.mpr hT
  have amp := amplitude_err hp hq he hP hγ
  rw [← hA] at amp
  have hγ0 : 0 < (u p + e) * (|g| + 6) := by positivity
  have hγu : 6 * u p ≤ (u p + e) * (|g| + 6) := by nlinarith [mul_nonneg hu.le hg, mul_nonneg he hg]
  generalize (u p + e) * (|g| + 6) = γ at *
  generalize amplitude p P g = a at *
  have sA : 0 < Real.sqrt A := Real.sqrt_pos.mpr hA0
  set β := Real.sqrt A / Q with hβ
  have hβ0 : 0 < β := div_pos sA hQ
  have hr : Room p (1 + A + β) γ := ⟨by linarith, hγ0, hγ, hγu⟩
  have e1 : |s w - Real.sin (2 * Real.pi * fc / fs)| ≤ 4 * γ := by
    have a1 := hs.near w
    have a2 := Real.abs_sin_sub_sin_le w (2 * Real.pi * fc / fs)
    have a3 := abs_sub_le (s w) (Real.sin w) (Real.sin (2 * Real.pi * fc / fs))
    have : |s w - Real.sin w| ≤ u p := a1
    linarith
  have e2 : |c w - Real.cos (2 * Real.pi * fc / fs)| ≤ 4 * γ := by
    have a1 := hc.near w
    have a2 := Real.abs_cos_sub_cos_le w (2 * Real.pi * fc / fs)
    have a3 := abs_sub_le (c w) (Real.cos w) (Real.cos (2 * Real.pi * fc / fs))
    have : |c w - Real.cos w| ≤ u p := a1
    linarith
  refine ⟨w, _, k1, div_ok hQ.ne', ?_⟩
  have root := within_sqrt hA0 (by linarith) amp
  have root2 : Within (1.17 * γ) (rnd p (Real.sqrt a)) (Real.sqrt A) := by
    refine within_mono (within_rnd_of (p := p) root) ?_
    have := mul_le_mul_of_nonneg_left hγ hu.le
    linarith
  have hb : Within (1.34 * γ) (rnd p (rnd p (Real.sqrt a) / Q)) β := by
    have d : Within (1.17 * γ) (rnd p (Real.sqrt a) / Q) β := by
      unfold Within at *
      rw [hβ, ← sub_div, abs_div, abs_div, ← mul_div_assoc]
      exact div_le_div_of_nonneg_right root2 (abs_nonneg _)
    refine within_mono (within_rnd_of (p := p) d) ?_
    have := mul_le_mul_of_nonneg_left hγ hu.le
    linarith
  have ha : |a - A| ≤ γ * A := by
    have h : |a - A| ≤ γ * |A| := amp
    rwa [abs_of_pos hA0] at h
  have hW : A ≤ 1 + A + β := by linarith
  have wA : γ * A ≤ γ * (1 + A + β) := mul_le_mul_of_nonneg_left hW hγ0.le
  have p0 : Err (1 + A + β) (1 * γ) 1 (a + 1) (A + 1) := by
    refine ⟨?_, by rw [abs_of_pos (by linarith)]; linarith⟩
    rw [add_sub_add_right_eq_sub]
    linarith
  have m0 : Err (1 + A + β) (1 * γ) 1 (a - 1) (A - 1) := by
    refine ⟨?_, by rw [abs_le]; constructor <;> linarith⟩
    rw [sub_sub_sub_cancel_right]
    linarith
  have p1 := hr.rnd p0 (by norm_num) (k := 0.17) (by norm_num)
  have m1 := hr.rnd m0 (by norm_num) (k := 0.17) (by norm_num)
  have hC := Real.abs_cos_le_one (2 * Real.pi * fc / fs)
  have hS := Real.abs_sin_le_one (2 * Real.pi * fc / fs)
  have mc := hr.rnd (hr.mul_unit m1 (by norm_num) e2 hC (k := 5.175) (by norm_num)) (by norm_num) (k := 0.17) (by norm_num)
  have pc := hr.rnd (hr.mul_unit p1 (by norm_num) e2 hC (k := 5.175) (by norm_num)) (by norm_num) (k := 0.17) (by norm_num)
  have b0 : Err (1 + A + β) (1.34 * γ) 1 (rnd p (rnd p (Real.sqrt a) / Q)) β := by
    refine ⟨?_, by rw [abs_of_pos hβ0]; linarith⟩
    have h : |rnd p (rnd p (Real.sqrt a) / Q) - β| ≤ 1.34 * γ * |β| := hb
    rw [abs_of_pos hβ0] at h
    exact h.trans (mul_le_mul_of_nonneg_left (by linarith) (by positivity))
  have b1 := hr.rnd (hr.mul_unit b0 (by norm_num) e1 hS (k := 5.3454) (by norm_num)) (by norm_num) (k := 0.17) (by norm_num)
  refine ⟨hr, ha, hA0, hC, ?_, p1.more hr.W hγ0 (by norm_num) le_rfl, m1.more hr.W hγ0 (by norm_num) le_rfl,
    mc.more hr.W hγ0 (by norm_num) le_rfl, pc.more hr.W hγ0 (by norm_num) le_rfl, b1.more hr.W hγ0 (by norm_num) le_rfl⟩
  have := abs_prod (abs_of_pos hβ0).le hS
  linarith

/-- The same filter with the signs of the odd coefficients changed. -/
def mirror (f : Biquad ℝ) : Biquad ℝ := { f with a1 := -f.a1, b1 := -f.b1 }

theorem ofCoeffs_mirror {d n1 n2 m0 m1 m2 : ℝ} {f : Biquad ℝ} (h : RndRbj.ofCoeffs p d n1 n2 m0 m1 m2 = .ok f) :
    RndRbj.ofCoeffs p d (-n1) n2 m0 (-m1) m2 = .ok (mirror f) := by
  by_cases hd : d = 0
  · simp [RndRbj.ofCoeffs, RndWin.div, Win.div, hd, bind, Except.bind] at h
  · simp only [RndRbj.ofCoeffs, div_ok hd, bind, Except.bind, pure, Except.pure] at h ⊢
    have h := Except.ok.inj h
    subst h
    simp only [mirror, neg_div, FloatL.rnd_neg]

theorem exact_mirror {d n1 n2 m0 m1 m2 : ℝ} {f : Biquad ℝ} (h : Biquad.ofCoeffs d n1 n2 m0 m1 m2 = .ok f) :
    Biquad.ofCoeffs d (-n1) n2 m0 (-m1) m2 = .ok (mirror f) := by
  unfold Biquad.ofCoeffs at *
  by_cases hd : d = 0
  · simp [hd] at h
  · rw [if_neg hd] at h ⊢
    have h := Except.ok.inj h
    subst h
    simp only [mirror, neg_div]

/-- A number much smaller than `t` is lost when added to or taken from `t`. -/
theorem absorb_sub (hp : 24 ≤ p) {t d : ℝ} (ht : IsFloat p t) (h0 : 0 < t) (hd0 : 0 ≤ d) (hd : 4 * d ≤ u p * t) :
    rnd p (t - d) = t := by
  have hu := u_pos p
  have hs := u_small hp
  have hx : 0 < t - d := by nlinarith
  obtain ⟨k, h1, h2, h3⟩ := rnd_spec (p := p) hx.ne'
  rw [abs_of_pos hx] at h1 h2
  have hk := two_zpow_pos k
  have hP : u p * 2 ^ (k + (p : ℤ)) = 2 ^ k := by
    show (2 : ℝ) ^ (-(p : ℤ)) * 2 ^ (k + (p : ℤ)) = 2 ^ k
    rw [← zpow_add₀ (by norm_num : (2 : ℝ) ≠ 0)]
    congr 1
    ring
  have hd' : d < 2 ^ k / 2 := by
    have a : t ≤ 1.1 * (t - d) := by nlinarith
    have b : u p * (t - d) < 2 ^ k := by rw [← hP]; exact mul_lt_mul_of_pos_left h2 hu
    nlinarith
  obtain ⟨m, j, hm, rfl⟩ := ht
  have hj := two_zpow_pos j
  have hjk : k ≤ j := by
    have a : (2 : ℝ) ^ (k + (p : ℤ) - 1) < 2 ^ (j + (p : ℤ)) := by
      refine lt_of_le_of_lt (h1.trans (sub_le_self _ hd0)) ?_
      rw [zpow_add₀ (by norm_num : (2 : ℝ) ≠ 0), mul_comm, zpow_natCast]
      refine mul_lt_mul_of_pos_left ?_ hj
      have := lt_of_le_of_lt (le_abs_self m) hm
      exact_mod_cast this
    have := (zpow_lt_zpow_iff_right₀ (by norm_num : (1 : ℝ) < 2)).mp a
    omega
  obtain ⟨i, hi⟩ := Int.eq_ofNat_of_zero_le (by omega : 0 ≤ j - k)
  have ht' : (m : ℝ) * 2 ^ j = ((m * 2 ^ i : ℤ) : ℝ) * 2 ^ k := by
    push_cast
    rw [mul_assoc, ← zpow_natCast (2 : ℝ) i, ← zpow_add₀ (by norm_num : (2 : ℝ) ≠ 0)]
    congr 2
    omega
  have hn : nearestEven ((m * 2 ^ j - d) / 2 ^ k) = m * 2 ^ i := by
    refine FloatL.ne_of_lt ?_ ?_
    · rw [lt_div_iff₀ hk, ht']
      linarith
    · rw [div_lt_iff₀ hk, ht']
      linarith
  rw [h3, hn, ht']

theorem absorb_add {t d : ℝ} (ht : IsFloat p t) (h0 : 0 < t) (hd0 : 0 ≤ d) (hd : 4 * d ≤ u p * t) :
    rnd p (t + d) = t := by
  have hu := u_pos p
  obtain ⟨h1, h2⟩ := log_spec h0.ne'
  rw [abs_of_pos h0] at h1 h2
  refine rnd_absorb ht h1 h2 hd0 ?_
  have hP : u p * 2 ^ (Int.log 2 t + 1) = 2 * 2 ^ (Int.log 2 t - (p : ℤ)) := by
    show (2 : ℝ) ^ (-(p : ℤ)) * 2 ^ (Int.log 2 t + 1) = _
    rw [← zpow_add₀ (by norm_num : (2 : ℝ) ≠ 0), ← zpow_one_add₀ (by norm_num : (2 : ℝ) ≠ 0)]
    congr 1
    ring
  have := mul_lt_mul_of_pos_left h2 hu
  have := two_zpow_pos (Int.log 2 t - (p : ℤ))
  linarith

theorem absorb (hp : 24 ≤ p) {t d : ℝ} (ht : IsFloat p t) (h0 : 0 < t) (hd : 4 * |d| ≤ u p * t) :
    rnd p (t + d) = t ∧ rnd p (t - d) = t := by
  rcases le_total 0 d with h | h
  · rw [abs_of_nonneg h] at hd
    exact ⟨absorb_add ht h0 h hd, absorb_sub hp ht h0 h hd⟩
  · rw [abs_of_nonpos h] at hd
    have a := absorb_sub hp ht h0 (by linarith) hd
    have b := absorb_add ht h0 (by linarith) hd
    rw [sub_neg_eq_add] at a
    rw [← sub_eq_add_neg] at b
    exact ⟨a, b⟩

end Edsp.RndShelfL
