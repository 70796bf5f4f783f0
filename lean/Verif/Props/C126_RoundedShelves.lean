import Verif.Lemmas.RoundedShelves
import Verif.Lemmas.RoundedShapes
import Verif.Props.C116_RoundedRbj

/-!
# C126: the RBJ shelves computed in `float` or `double`

`RndRbj.lowShelf p s c P fc fs Q gainDb` (Model/RoundedShelves.lean) is the designer for numbers with `p` bits; `s`, `c` and
`P` are the sine, the cosine and the powers of ten of the mathematical library.  `Rbj.lowShelf fc fs Q gainDb`
(Model/Designers.lean) is the same design in exact arithmetic, the subject of C16.
-/

namespace Edsp.Props

open Edsp Edsp.Spec Edsp.RndWin Edsp.RndRbj Edsp.FloatL Edsp.RndWinL Edsp.RndRbjL Edsp.RndShelfL

namespace C126

/-- Two filters at rest whose feedback coefficients differ by at most `E` and whose other coefficients differ by at most
`F`. -/
structure Close (E F : ℝ) (f g : Biquad ℝ) : Prop where
  a0 : f.a0 = 1 ∧ g.a0 = 1
  a1 : |f.a1 - g.a1| ≤ E
  a2 : |f.a2 - g.a2| ≤ E
  b0 : |f.b0 - g.b0| ≤ F
  b1 : |f.b1 - g.b1| ≤ F
  b2 : |f.b2 - g.b2| ≤ F
  rest : f.w0 = 0 ∧ f.w1 = 0 ∧ g.w0 = 0 ∧ g.w1 = 0

theorem Close.mirror {E F : ℝ} {f g : Biquad ℝ} (h : Close E F f g) :
    Close E F (RndShelfL.mirror f) (RndShelfL.mirror g) := by
  refine ⟨h.a0, ?_, h.a2, h.b0, ?_, h.b2, h.rest⟩
  · show |-f.a1 - -g.a1| ≤ E
    rw [show -f.a1 - -g.a1 = -(f.a1 - g.a1) by ring, abs_neg]
    exact h.a1
  · show |-f.b1 - -g.b1| ≤ F
    rw [show -f.b1 - -g.b1 = -(f.b1 - g.b1) by ring, abs_neg]
    exact h.b1

variable {p : ℕ}

/-- The low shelf made of the parts, and the exact one. -/
theorem core {W γ a plus minus mc pc bs A C B D : ℝ} (h : Parts p W γ a plus minus mc pc bs A C B) (hB : 0 ≤ B)
    (hDe : D = (A + 1) + (A - 1) * C + B) (hD : 1000 * γ * W ≤ D) :
    ∃ f g, RndRbj.ofCoeffs p (rnd p (rnd p (plus + mc) + bs)) (rnd p (-2 * rnd p (minus + pc)))
        (rnd p (rnd p (plus + mc) - bs)) (rnd p (a * rnd p (rnd p (plus - mc) + bs)))
        (rnd p (rnd p (2 * a) * rnd p (minus - pc))) (rnd p (a * rnd p (rnd p (plus - mc) - bs))) = .ok f ∧
      Biquad.ofCoeffs ((A + 1) + (A - 1) * C + B) (-2 * ((A - 1) + (A + 1) * C)) ((A + 1) + (A - 1) * C - B)
        (A * ((A + 1) - (A - 1) * C + B)) (2 * A * ((A - 1) - (A + 1) * C)) (A * ((A + 1) - (A - 1) * C - B)) = .ok g ∧
      Close (48 * (γ * (W / D))) (96 * (γ * (W / D) ^ 2 * A)) f g ∧
      g.a1 = -2 * ((A - 1) + (A + 1) * C) / D ∧ g.a2 = ((A + 1) + (A - 1) * C - B) / D := by
  obtain ⟨q0, q1, q2, r0, r1, r2⟩ := h.coeffs
  have hr := h.room
  have hW := hr.W
  have hγ := hr.pos
  have hA := h.posA
  obtain ⟨c1, c2⟩ := abs_le.mp h.absC
  rw [← hDe] at q0 ⊢
  have hDp : 0 < D := lt_of_lt_of_le (by positivity) hD
  have x1 : 0 ≤ A * (1 + C) := mul_nonneg hA.le (by linarith)
  have hρ : 1 / 2 ≤ W / D := by
    rw [le_div_iff₀ hDp]
    have := mul_le_mul_of_nonneg_left c2 hA.le
    have := le_abs_self B
    have := h.scale
    have := abs_nonneg B
    have : (A - 1) * C ≤ A + 1 := by nlinarith
    linarith
  have k0 := q0.1
  -- the feedback coefficients
  have fb : ∀ n N : ℝ, |n - N| ≤ 14.4 * γ * W → |N| ≤ 2 * D →
      div p n (rnd p (rnd p (plus + mc) + bs)) = .ok (rnd p (n / rnd p (rnd p (plus + mc) + bs))) ∧
      |rnd p (n / rnd p (rnd p (plus + mc) + bs)) - N / D| ≤ 48 * (γ * (W / D)) := by
    intro n N hn hN
    obtain ⟨j1, j2⟩ := quotient_err (p := p) hr hD k0 hn hW hN (by norm_num) (by norm_num)
      (R := 40.8 * (W / D)) (k := 0.7 * (W / D)) (by linarith) (by linarith)
    refine ⟨j1, j2.trans ?_⟩
    have : 0 < γ * (W / D) := by positivity
    linarith
  have ff : ∀ n N : ℝ, |n - N| ≤ 19.2 * γ * (A * W) → |N| ≤ 4 * (A * W) →
      div p n (rnd p (rnd p (plus + mc) + bs)) = .ok (rnd p (n / rnd p (rnd p (plus + mc) + bs))) ∧
      |rnd p (n / rnd p (rnd p (plus + mc) + bs)) - N / D| ≤ 96 * (γ * (W / D) ^ 2 * A) := by
    intro n N hn hN
    have e1 : 4 * (A * (W / D)) * D = 4 * (A * W) := by field_simp
    have e2 : A * W / D = A * (W / D) := by ring
    have e3 : A * (W / D) ≤ 2 * (A * (W / D) ^ 2) := by
      have := mul_le_mul_of_nonneg_left hρ (by positivity : 0 ≤ A * (W / D))
      nlinarith
    obtain ⟨j1, j2⟩ := quotient_err (p := p) (V := A * W) (M := 4 * (A * (W / D))) hr hD k0 hn (by positivity)
      (by rw [e1]; exact hN) (by positivity) (by norm_num)
      (R := 91.2 * (A * (W / D) ^ 2)) (k := 1.4 * (A * (W / D) ^ 2)) (by rw [e2]; nlinarith) (by nlinarith)
    refine ⟨j1, j2.trans ?_⟩
    have : 0 < γ * (W / D) ^ 2 * A := by positivity
    nlinarith
  have n1 : |-2 * ((A - 1) + (A + 1) * C)| ≤ 2 * D := by
    rw [hDe, abs_le]
    constructor <;> nlinarith
  have n2 : |(A + 1) + (A - 1) * C - B| ≤ 2 * D := by
    rw [hDe, abs_le]
    constructor <;> nlinarith
  obtain ⟨i1, j1⟩ := fb _ _ q1.1 n1
  obtain ⟨i2, j2⟩ := fb _ _ (q2.1.trans (by have := mul_pos hγ hW; linarith)) n2
  obtain ⟨k0, l0⟩ := ff _ _ r0.1 r0.2
  obtain ⟨k1, l1⟩ := ff _ _ r1.1 r1.2
  obtain ⟨k2, l2⟩ := ff _ _ r2.1 r2.2
  refine ⟨{ b2 := _, b1 := _, b0 := _, a2 := _, a1 := _, a0 := 1, w0 := 0, w1 := 0 },
    { b2 := _, b1 := _, b0 := _, a2 := _, a1 := _, a0 := 1, w0 := 0, w1 := 0 }, ?_, ?_,
    ⟨⟨rfl, rfl⟩, j1, j2, l0, l1, l2, rfl, rfl, rfl, rfl⟩, rfl, rfl⟩
  · unfold RndRbj.ofCoeffs
    rw [i1, i2, k0, k1, k2]
    rfl
  · unfold Biquad.ofCoeffs
    rw [if_neg hDp.ne']

theorem amp_eq (g : ℝ) : Real.sqrt ((10 : ℝ) ^ (g / 20)) = (10 : ℝ) ^ (g / 40) := by
  rw [Real.sqrt_eq_rpow, ← Real.rpow_mul (by norm_num)]
  congr 1
  ring

theorem root_eq (g : ℝ) : Real.sqrt ((10 : ℝ) ^ (g / 40)) = (10 : ℝ) ^ (g / 80) := by
  rw [Real.sqrt_eq_rpow, ← Real.rpow_mul (by norm_num)]
  congr 1
  ring

variable {s c P : ℝ → ℝ} {fc fs Q g e A β S C D γ : ℝ}

/-- The two shelves and the exact ones. -/
theorem low (hp : 24 ≤ p) (hq : p ≤ 53) (he : 0 ≤ e) (hs : SinLike p s) (hc : CosLike p c) (hP : PowLike e P)
    (h0 : 0 < fc) (h1 : fc < fs / 2) (hQ : 0 < Q) (hA : A = (10 : ℝ) ^ (g / 40)) (hβ : β = (10 : ℝ) ^ (g / 80) / Q)
    (hS : S = Real.sin (2 * Real.pi * fc / fs)) (hC : C = Real.cos (2 * Real.pi * fc / fs))
    (hγe : γ = (2 ^ (-(p : ℤ)) + e) * (|g| + 6)) (hγ : γ ≤ 1 / 1000)
    (hDe : D = A * (1 + C) + (1 - C) + β * S) (hD : 1000 * γ * (1 + A + β) ≤ D) :
    ∃ f k, RndRbj.lowShelf p s c P fc fs Q g = .ok f ∧ Rbj.lowShelf fc fs Q g = .ok k ∧
      Close (48 * (γ * ((1 + A + β) / D))) (96 * (γ * ((1 + A + β) / D) ^ 2 * A)) f k ∧
      k.a1 = -2 * ((A - 1) + (A + 1) * C) / D ∧ k.a2 = ((A + 1) + (A - 1) * C - β * S) / D := by
  obtain ⟨hfs, hsin, hc1, hc2⟩ := rbj_angle h0 h1
  obtain ⟨w, b, k1, k2, hparts⟩ := parts_ok hp hq he hs hc hP h0 h1 hQ (g := g) rfl (hγe ▸ hγ)
  have e1 : fdiv (2 * Real.pi * fc) fs = .ok (2 * Real.pi * fc / fs) := fdiv_ok _ hfs.ne'
  have e2 : fdiv (Real.sqrt A) Q = .ok β := by rw [fdiv_ok _ hQ.ne', hA, root_eq, hβ]
  rw [amp_eq, root_eq, ← hA, ← hβ, ← hS, ← hC] at hparts
  have hγ' : (u p + e) * (|g| + 6) = γ := hγe.symm
  rw [hγ'] at hparts
  have hβ0 : 0 < β := by rw [hβ]; exact div_pos (Real.rpow_pos_of_pos (by norm_num) _) hQ
  obtain ⟨f, k, j1, j2, j3, j4, j5⟩ := core hparts (mul_nonneg hβ0.le (hS ▸ hsin.le)) (D := D) (by rw [hDe]; ring) hD
  refine ⟨f, k, ?_, ?_, j3, j4, j5⟩
  · simp only [RndRbj.lowShelf, k1, k2, bind, Except.bind]
    exact j1
  · simp only [Rbj.lowShelf, e1, e2, bind, Except.bind, amp_eq, ← hA, ← hS, ← hC]
    exact j2

theorem high (hp : 24 ≤ p) (hq : p ≤ 53) (he : 0 ≤ e) (hs : SinLike p s) (hc : CosLike p c) (hP : PowLike e P)
    (h0 : 0 < fc) (h1 : fc < fs / 2) (hQ : 0 < Q) (hA : A = (10 : ℝ) ^ (g / 40)) (hβ : β = (10 : ℝ) ^ (g / 80) / Q)
    (hS : S = Real.sin (2 * Real.pi * fc / fs)) (hC : C = Real.cos (2 * Real.pi * fc / fs))
    (hγe : γ = (2 ^ (-(p : ℤ)) + e) * (|g| + 6)) (hγ : γ ≤ 1 / 1000)
    (hDe : D = A * (1 - C) + (1 + C) + β * S) (hD : 1000 * γ * (1 + A + β) ≤ D) :
    ∃ f k, RndRbj.highShelf p s c P fc fs Q g = .ok f ∧ Rbj.highShelf fc fs Q g = .ok k ∧
      Close (48 * (γ * ((1 + A + β) / D))) (96 * (γ * ((1 + A + β) / D) ^ 2 * A)) f k ∧
      k.a1 = -(-2 * ((A - 1) + (A + 1) * -C) / D) ∧ k.a2 = ((A + 1) + (A - 1) * -C - β * S) / D := by
  obtain ⟨hfs, hsin, hc1, hc2⟩ := rbj_angle h0 h1
  obtain ⟨w, b, k1, k2, hparts⟩ := parts_ok hp hq he hs hc hP h0 h1 hQ (g := g) rfl (hγe ▸ hγ)
  have e1 : fdiv (2 * Real.pi * fc) fs = .ok (2 * Real.pi * fc / fs) := fdiv_ok _ hfs.ne'
  have e2 : fdiv (Real.sqrt A) Q = .ok β := by rw [fdiv_ok _ hQ.ne', hA, root_eq, hβ]
  rw [amp_eq, root_eq, ← hA, ← hβ, ← hS, ← hC] at hparts
  have hγ' : (u p + e) * (|g| + 6) = γ := hγe.symm
  rw [hγ'] at hparts
  have hβ0 : 0 < β := by rw [hβ]; exact div_pos (Real.rpow_pos_of_pos (by norm_num) _) hQ
  obtain ⟨f, k, j1, j2, j3, j4, j5⟩ := core hparts.flip (mul_nonneg hβ0.le (hS ▸ hsin.le)) (D := D) (by rw [hDe]; ring) hD
  refine ⟨_, _, ?_, ?_, j3.mirror, congrArg Neg.neg j4, j5⟩
  · simp only [RndRbj.highShelf, k1, k2, bind, Except.bind]
    have := ofCoeffs_mirror j1
    simp only [← sub_eq_add_neg, sub_neg_eq_add] at this
    rw [neg_mul 2, rnd_neg, neg_neg] at this
    rw [neg_mul 2, rnd_neg p (2 * _), neg_mul, rnd_neg p (rnd p (2 * _) * _)]
    exact this
  · simp only [Rbj.highShelf, e1, e2, bind, Except.bind, amp_eq, ← hA, ← hS, ← hC]
    have := exact_mirror j2
    convert this using 2 <;> ring

/-- Room in the three terms of the leading coefficient makes the rounded filter stable. -/
theorem stable {f k : Biquad ℝ} {F W X Y Z : ℝ} (hγu : 6 * u p ≤ γ) (hD : 0 < D) (hρ : D ≤ 2 * W)
    (h : Close (48 * (γ * (W / D))) F f k) (hsum : X + Y + Z = D) (h1 : |k.a1| ≤ 2 * |Y - X| / D)
    (h2 : k.a2 = (X + Y - Z) / D) (hX : 25 * γ * W ≤ X) (hY : 25 * γ * W ≤ Y) (hZ : 25 * γ * W ≤ Z) :
    f.stability = true ∧ Rounded.biquadStability (rnd p) f = true := by
  have hu := u_pos p
  have hγ : 0 < γ := by linarith
  have hW : 0 < W := by linarith
  have n2 := abs_le.mp h.a2
  have n1 : |f.a1| ≤ 48 * (γ * (W / D)) + |k.a1| := by
    have d := abs_add_le (f.a1 - k.a1) k.a1
    rw [sub_add_cancel] at d
    linarith [h.a1]
  have hw : 1 / 2 ≤ W / D := by rw [le_div_iff₀ hD]; linarith
  have hE : γ / 2 ≤ γ * (W / D) := by
    have := mul_le_mul_of_nonneg_left hw hγ.le
    linarith
  have rX : 25 * (γ * (W / D)) ≤ X / D := by rw [← mul_div_assoc, ← mul_div_assoc]; exact div_le_div_of_nonneg_right (by linarith) hD.le
  have rY : 25 * (γ * (W / D)) ≤ Y / D := by rw [← mul_div_assoc, ← mul_div_assoc]; exact div_le_div_of_nonneg_right (by linarith) hD.le
  have rZ : 25 * (γ * (W / D)) ≤ Z / D := by rw [← mul_div_assoc, ← mul_div_assoc]; exact div_le_div_of_nonneg_right (by linarith) hD.le
  have hxyz : X / D + Y / D + Z / D = 1 := by rw [← add_div, ← add_div, hsum, div_self hD.ne']
  have e1 : 2 * |Y - X| / D = 2 * |Y / D - X / D| := by
    rw [← sub_div, abs_div, abs_of_pos hD]
    ring
  have e2 : (X + Y - Z) / D = X / D + Y / D - Z / D := by rw [sub_div, add_div]
  rw [e1] at h1
  rw [h2, e2] at n2
  generalize γ * (W / D) = E at *
  generalize X / D = x at *
  generalize Y / D = y at *
  generalize Z / D = z at *
  have l1 : |y - x| ≤ x + y - 50 * E := by rw [abs_le]; constructor <;> linarith
  have l2 : f.a2 < 1 := by linarith [n2.2]
  have l3 : -1 < f.a2 := by linarith [n2.1]
  have l4 : |f.a1| < 1 + f.a2 - 2 * u p := by linarith [n2.1]
  have l5 := (rel p (x := 1 + f.a2) (by linarith)).1
  have l6 : |f.a1| < rnd p (1 + f.a2) := by nlinarith
  unfold Biquad.stability Rounded.biquadStability
  have l7 : |f.a2| < 1 := abs_lt.mpr ⟨l3, l2⟩
  have l8 : |f.a1| < 1 + f.a2 := by linarith
  simp [l6, l7, l8]

/-- A filter with equal feedback and feedforward coefficients leaves the signal alone. -/
theorem through {f : Biquad ℝ} (h0 : f.b0 = 1) (h1 : f.b1 = f.a1) (h2 : f.b2 = f.a2) (z0 : f.w0 = 0) (z1 : f.w1 = 0)
    {x : ℕ → ℝ} (hx : ∀ n, IsFloat p (x n)) (n : ℕ) : Rounded.biquadResponse (rnd p) f x n = x n := by
  have hz : rnd p 0 = 0 := rnd_zero p
  have h : ∀ n, Rounded.biquadState (rnd p) f x n = f := by
    intro n
    induction n with
    | zero => rfl
    | succ n ih =>
      rw [Rounded.biquadState, ih]
      obtain ⟨b2, b1, b0, a2, a1, a0, w0, w1⟩ := f
      simp only at h0 h1 h2 z0 z1
      subst h0 h1 h2 z0 z1
      simp [Rounded.biquadTick, hz, rnd_float (hx n)]
  rw [Rounded.biquadResponse, h]
  simp [Rounded.biquadTick, h0, z0, rnd_float (hx n)]

/-- Equal numerators and denominators. -/
theorem equal (hp : 1 ≤ p) {d n1 n2 : ℝ} {f : Biquad ℝ} (h : RndRbj.ofCoeffs p d n1 n2 d n1 n2 = .ok f) :
    f.b0 = 1 ∧ f.b1 = f.a1 ∧ f.b2 = f.a2 ∧ f.w0 = 0 ∧ f.w1 = 0 := by
  by_cases hd : d = 0
  · simp [RndRbj.ofCoeffs, RndWin.div, Win.div, hd, bind, Except.bind] at h
  · simp only [RndRbj.ofCoeffs, div_ok hd, bind, Except.bind, pure, Except.pure] at h
    have h := Except.ok.inj h
    subst h
    simp [div_self hd, rnd_one hp]

theorem unit_amplitude (hp : 1 ≤ p) (hP : P 0 = 1) : amplitude p P 0 = 1 := by
  unfold amplitude
  rw [zero_div, rnd_zero, hP, Real.sqrt_one, rnd_one (by norm_num), rnd_one hp]

theorem identity_low (hp : 24 ≤ p) (hP : P 0 = 1) {f : Biquad ℝ} (h : RndRbj.lowShelf p s c P fc fs Q 0 = .ok f) :
    f.b0 = 1 ∧ f.b1 = f.a1 ∧ f.b2 = f.a2 ∧ f.w0 = 0 ∧ f.w1 = 0 := by
  have hp1 : 1 ≤ p := by omega
  simp only [RndRbj.lowShelf, unit_amplitude hp1 hP] at h
  cases ho : omega p fc fs with
  | error _ => rw [ho] at h; cases h
  | ok w =>
    cases hb : beta p 1 Q with
    | error _ => rw [ho, hb] at h; cases h
    | ok b =>
      rw [ho, hb] at h
      simp only [bind, Except.bind, sub_self, rnd_zero, zero_mul, add_zero, sub_zero, one_mul, mul_one, zero_add, zero_sub,
        rnd_rnd hp1, rnd_neg] at h
      have e : ∀ y, rnd p (rnd p 2 * -y) = rnd p (-2 * y) := by
        intro y
        have : rnd p (2 : ℝ) = 2 := by
          have := rnd_double p 1
          rw [mul_one, rnd_one hp1] at this
          linarith
        rw [this]
        congr 1
        ring
      rw [e] at h
      exact equal hp1 h


theorem identity_high (hp : 24 ≤ p) (hP : P 0 = 1) {f : Biquad ℝ} (h : RndRbj.highShelf p s c P fc fs Q 0 = .ok f) :
    f.b0 = 1 ∧ f.b1 = f.a1 ∧ f.b2 = f.a2 ∧ f.w0 = 0 ∧ f.w1 = 0 := by
  have hp1 : 1 ≤ p := by omega
  simp only [RndRbj.highShelf, unit_amplitude hp1 hP] at h
  cases ho : omega p fc fs with
  | error _ => rw [ho] at h; cases h
  | ok w =>
    cases hb : beta p 1 Q with
    | error _ => rw [ho, hb] at h; cases h
    | ok b =>
      rw [ho, hb] at h
      simp only [bind, Except.bind, sub_self, rnd_zero, zero_mul, add_zero, sub_zero, one_mul, mul_one, zero_add, zero_sub,
        rnd_rnd hp1, rnd_neg] at h
      have e : ∀ y, rnd p (-rnd p 2 * y) = rnd p (2 * -y) := by
        intro y
        have : rnd p (2 : ℝ) = 2 := by
          have := rnd_double p 1
          rw [mul_one, rnd_one hp1] at this
          linarith
        rw [this]
        congr 1
        ring
      rw [e] at h
      exact equal hp1 h

theorem unit_a2 (hp : 1 ≤ p) {t : ℝ} (ht : t ≠ 0) (n1 m0 m1 m2 : ℝ) :
    ∃ f, RndRbj.ofCoeffs p t n1 t m0 m1 m2 = .ok f ∧ f.a2 = 1 ∧ f.stability = false ∧
      Rounded.biquadStability (rnd p) f = false := by
  refine ⟨{ b2 := rnd p (m2 / t), b1 := rnd p (m1 / t), b0 := rnd p (m0 / t), a2 := rnd p (t / t), a1 := rnd p (n1 / t),
            a0 := 1, w0 := 0, w1 := 0 },
    by simp only [RndRbj.ofCoeffs, div_ok ht, bind, Except.bind, pure, Except.pure], ?_⟩
  simp [Biquad.stability, Rounded.biquadStability, div_self ht, rnd_one hp]

theorem abs_rnd_up (p : ℕ) (x : ℝ) : |rnd p x| ≤ (1 + u p) * |x| := by
  have d := abs_add_le (rnd p x - x) x
  rw [sub_add_cancel] at d
  have := rnd_err' p x
  linarith

/-- The sum the sine term is added to is at least 1.9 times the smaller of the amplitude and 1. -/
theorem trunk (hp : 24 ≤ p) {a cw m : ℝ} (hm : m ≤ a) (h1 : 100 * u p * a ≤ m)
    (h2 : 100 * u p ≤ m) (hc : |cw| ≤ 1) (hmin : 2 * m ≤ a + 1 - |a - 1|) {t : ℝ}
    (ht : t = rnd p (rnd p (a + 1) + rnd p (rnd p (a - 1) * cw)) ∨
      t = rnd p (rnd p (a + 1) - rnd p (rnd p (a - 1) * cw))) : 1.9 * m ≤ t := by
  have hu := u_pos p
  have hs := u_small hp
  have b1 := (rel p (x := a + 1) (by linarith)).1
  have b2 := abs_rnd_up p (a - 1)
  have b3 := abs_rnd_up p (rnd p (a - 1) * cw)
  have b4 : |rnd p (a - 1) * cw| ≤ |rnd p (a - 1)| := abs_prod le_rfl hc
  have b5 : |a - 1| ≤ a + 1 := by rw [abs_le]; constructor <;> linarith
  have b6 : |rnd p (rnd p (a - 1) * cw)| ≤ |a - 1| + 3 * u p * (a + 1) := by
    have x1 := abs_nonneg (a - 1)
    have x2 : (1 + u p) * |rnd p (a - 1) * cw| ≤ (1 + u p) * ((1 + u p) * |a - 1|) :=
      mul_le_mul_of_nonneg_left (b4.trans b2) (by linarith)
    have x3 : (1 + u p) * ((1 + u p) * |a - 1|) ≤ |a - 1| + 3 * u p * |a - 1| := by
      have := mul_nonneg (mul_nonneg hu.le (by linarith : 0 ≤ 1 - u p)) x1
      nlinarith
    have x4 := mul_le_mul_of_nonneg_left b5 hu.le
    linarith
  have b7 := abs_le.mp b6
  have low : ∀ x : ℝ, 1.92 * m ≤ x → 1.9 * m ≤ rnd p x := by
    intro x hx
    have := (rel p (x := x) (by linarith)).1
    have := mul_le_mul_of_nonneg_right hs (by linarith : 0 ≤ x)
    linarith
  rcases ht with rfl | rfl
  · exact low _ (by linarith [b7.1])
  · exact low _ (by linarith [b7.2])

/-- The sine term. -/
theorem sine_small (hp : 24 ≤ p) (hs : ∀ x, s x = rnd p (Real.sin x)) {w O a : ℝ} (hO : 0 < O) (hQ : 0 < Q)
    (k1 : (1 - 7.1 * u p) * O ≤ w) (k2 : w ≤ (1 + 7.1 * u p) * O) :
    ∃ b, beta p a Q = .ok b ∧ |rnd p (b * s w)| ≤ 1.04 * (Real.sqrt a * O / Q) := by
  have hu := u_pos p
  have hsm := u_small hp
  have a1 : 0 ≤ w := le_trans (mul_nonneg (by linarith) hO.le) k1
  have a2 : w ≤ 1.01 * O := k2.trans (mul_le_mul_of_nonneg_right (by linarith) hO.le)
  refine ⟨_, div_ok hQ.ne', ?_⟩
  have up : ∀ x, |rnd p x| ≤ 1.001 * |x| := by
    intro x
    refine (abs_rnd_up p x).trans (mul_le_mul_of_nonneg_right (by linarith) (abs_nonneg _))
  have b1 : |s w| ≤ 1.02 * O := by
    rw [hs]
    have m : |Real.sin w| ≤ w := by
      have := Real.abs_sin_le_abs (x := w)
      rwa [abs_of_nonneg a1] at this
    have := up (Real.sin w)
    linarith
  have b2 : |rnd p (rnd p (Real.sqrt a) / Q)| ≤ 1.0021 * (Real.sqrt a / Q) := by
    have x1 := up (Real.sqrt a)
    rw [abs_of_nonneg (Real.sqrt_nonneg a)] at x1
    have x2 := up (rnd p (Real.sqrt a) / Q)
    rw [abs_div, abs_of_pos hQ] at x2
    have x3 := div_le_div_of_nonneg_right x1 hQ.le
    have x4 : 0 ≤ Real.sqrt a / Q := div_nonneg (Real.sqrt_nonneg a) hQ.le
    have x5 : 1.001 * Real.sqrt a / Q = 1.001 * (Real.sqrt a / Q) := by ring
    linarith
  have b3 := up (rnd p (rnd p (Real.sqrt a) / Q) * s w)
  rw [abs_mul] at b3
  have x4 : 0 ≤ Real.sqrt a / Q := div_nonneg (Real.sqrt_nonneg a) hQ.le
  have b4 := mul_le_mul b2 b1 (abs_nonneg _) (by positivity)
  have b5 : Real.sqrt a * O / Q = Real.sqrt a / Q * O := by ring
  rw [b5]
  have := mul_nonneg x4 hO.le
  linarith

/-- The amplitude and its bounds for gains of at most 120 dB. -/
theorem amplitude_range (hp : 24 ≤ p) (hq : p ≤ 53) (he : 0 ≤ e) (he1 : e ≤ 1 / 1000000) (hP : PowLike e P)
    (hg : |g| ≤ 120) (hA : A = (10 : ℝ) ^ (g / 40)) :
    0.999 * A ≤ amplitude p P g ∧ amplitude p P g ≤ 1.001 * A ∧ 1 / 1000 ≤ A ∧ A ≤ 1000 := by
  have hu := u_pos p
  have hs := u_small hp
  have hγ : (u p + e) * (|g| + 6) ≤ 1 / 1000 := by
    have := mul_le_mul (by linarith : u p + e ≤ 1 / 900000) (by linarith : |g| + 6 ≤ 126) (by positivity) (by norm_num)
    linarith
  have h := amplitude_err hp hq he hP hγ
  have hA0 : 0 < A := by rw [hA]; exact Real.rpow_pos_of_pos (by norm_num) _
  rw [amp_eq, ← hA] at h
  have h : |amplitude p P g - A| ≤ (u p + e) * (|g| + 6) * |A| := h
  rw [abs_of_pos hA0] at h
  have h2 := abs_le.mp (h.trans (mul_le_mul_of_nonneg_right hγ hA0.le))
  obtain ⟨g1, g2⟩ := abs_le.mp hg
  refine ⟨by linarith [h2.1], by linarith [h2.2], ?_, ?_⟩
  · have : (10 : ℝ) ^ (-3 : ℝ) ≤ 10 ^ (g / 40) := Real.rpow_le_rpow_of_exponent_le (by norm_num) (by linarith)
    rw [Real.rpow_neg (by norm_num)] at this
    rw [hA]
    norm_num at this ⊢
    exact this
  · have : (10 : ℝ) ^ (g / 40) ≤ 10 ^ (3 : ℝ) := Real.rpow_le_rpow_of_exponent_le (by norm_num) (by linarith)
    rw [hA]
    norm_num at this ⊢
    exact this

/-- Where the sine term is lost. -/
theorem lost (hp : 24 ≤ p) (hq : p ≤ 53) (he : 0 ≤ e) (he1 : e ≤ 1 / 1000000) (hs : ∀ x, s x = rnd p (Real.sin x))
    (hc : CosLike p c) (hP : PowLike e P) (h0 : 0 < fc) (h1 : fc < fs / 2) (hQ : 0 < Q) (hg : |g| ≤ 120)
    (hA : A = (10 : ℝ) ^ (g / 40))
    (hhigh : 3 * (Real.sqrt A * (2 * Real.pi * fc / fs)) ≤ Q * 2 ^ (-(p : ℤ)) * min 1 A) :
    ∃ w b, omega p fc fs = .ok w ∧ beta p (amplitude p P g) Q = .ok b ∧
      ∀ t, (t = rnd p (rnd p (amplitude p P g + 1) + rnd p (rnd p (amplitude p P g - 1) * c w)) ∨
          t = rnd p (rnd p (amplitude p P g + 1) - rnd p (rnd p (amplitude p P g - 1) * c w))) →
        t ≠ 0 ∧ rnd p (t + rnd p (b * s w)) = t ∧ rnd p (t - rnd p (b * s w)) = t := by
  have hu := u_pos p
  have hsm := u_small hp
  obtain ⟨r1, r2, r3, r4⟩ := amplitude_range hp hq he he1 hP hg hA
  generalize amplitude p P g = a at *
  obtain ⟨w, j1, j2, j3, -⟩ := omega_ok hp hq h0 h1
  have hfs : 0 < fs := by linarith
  have hpi := Real.pi_pos
  have hO : 0 < 2 * Real.pi * fc / fs := by positivity
  obtain ⟨b, k1, k2⟩ := sine_small (a := a) hp hs hO hQ j2 j3
  refine ⟨w, b, j1, k1, ?_⟩
  intro t ht
  change 3 * (Real.sqrt A * (2 * Real.pi * fc / fs)) ≤ Q * u p * min 1 A at hhigh
  generalize 2 * Real.pi * fc / fs = O at *
  have hm0 : 0 < min 1 A := lt_min one_pos (by linarith)
  have hmA : min 1 A ≤ A := min_le_right _ _
  have hm1 : min 1 A ≤ 1 := min_le_left _ _
  have hmin : 2 * (0.999 * min 1 A) ≤ a + 1 - |a - 1| := by
    rcases abs_cases (a - 1) with ⟨h, -⟩ | ⟨h, -⟩ <;> rw [h] <;> linarith
  have hm3 : 1 / 1000 ≤ min 1 A := le_min (by norm_num) r3
  have ha100 : 100 * u p * a ≤ 0.999 * min 1 A := by
    rcases le_total 1 A with h | h
    · rw [min_eq_left h]
      have := mul_le_mul hsm r2 (by linarith) (by norm_num)
      linarith
    · rw [min_eq_right h]
      have := mul_le_mul hsm r2 (by linarith) (by norm_num)
      linarith
  have hlow := trunk hp (m := 0.999 * min 1 A) (by linarith) ha100 (by linarith)
    (hc.range w) hmin ht
  have htp : 0 < t := by linarith
  have htf : IsFloat p t := by
    rcases ht with rfl | rfl <;> exact isFloat_rnd (by omega) _
  refine ⟨htp.ne', absorb hp htf htp ?_⟩
  have hroot : Real.sqrt a ≤ 1.001 * Real.sqrt A := by
    rw [Real.sqrt_le_left (by positivity), mul_pow, Real.sq_sqrt (by linarith)]
    nlinarith
  have q1 : Real.sqrt a * O / Q ≤ 1.001 * (Real.sqrt A * O) / Q := by
    refine div_le_div_of_nonneg_right ?_ hQ.le
    have := mul_le_mul_of_nonneg_right hroot hO.le
    linarith
  have q2 : 1.001 * (Real.sqrt A * O) / Q ≤ 0.34 * (u p * min 1 A) := by
    rw [div_le_iff₀ hQ]
    have : 0 ≤ Q * u p * min 1 A := by positivity
    linarith
  have q3 := mul_le_mul_of_nonneg_left hlow hu.le
  have : 0 < u p * min 1 A := by positivity
  linarith

end C126

open C126

variable {p : ℕ} {s c P : ℝ → ℝ} {fc fs Q g e A β S C D γ : ℝ}

/-- The low shelf of `g` decibels.  Let `A = 10^(g/40)`, `β = 10^(g/80)/Q`, let `D = A (1 + cos) + (1 - cos) + β sin` be the
leading coefficient of the exact design, and let `γ = (2^-p + e) (|g| + 6)`, where `e` is the relative error of the powers of
ten.  As long as `D` is not tiny next to `1 + A + β`, the feedback coefficients are within `48 γ (1 + A + β) / D` of the exact
ones and the other coefficients within `96 γ ((1 + A + β) / D)² A`. -/
theorem C126_low_shelf_partial (hp : 24 ≤ p) (hq : p ≤ 53) (he : 0 ≤ e) (hs : SinLike p s) (hc : CosLike p c)
    (hP : PowLike e P) (h0 : 0 < fc) (h1 : fc < fs / 2) (hQ : 0 < Q) (hA : A = (10 : ℝ) ^ (g / 40))
    (hβ : β = (10 : ℝ) ^ (g / 80) / Q) (hS : S = Real.sin (2 * Real.pi * fc / fs))
    (hC : C = Real.cos (2 * Real.pi * fc / fs)) (hγe : γ = (2 ^ (-(p : ℤ)) + e) * (|g| + 6)) (hγ : γ ≤ 1 / 1000)
    (hDe : D = A * (1 + C) + (1 - C) + β * S) (hD : 1000 * γ * (1 + A + β) ≤ D) :
    ∃ f k, RndRbj.lowShelf p s c P fc fs Q g = .ok f ∧ Rbj.lowShelf fc fs Q g = .ok k ∧
      Close (48 * (γ * ((1 + A + β) / D))) (96 * (γ * ((1 + A + β) / D) ^ 2 * A)) f k := by
  obtain ⟨f, k, a, b, d, -⟩ := low hp hq he hs hc hP h0 h1 hQ hA hβ hS hC hγe hγ hDe hD
  exact ⟨f, k, a, b, d⟩

/-- The high shelf of `g` decibels: the same bounds with `D = A (1 - cos) + (1 + cos) + β sin`. -/
theorem C126_high_shelf_partial (hp : 24 ≤ p) (hq : p ≤ 53) (he : 0 ≤ e) (hs : SinLike p s) (hc : CosLike p c)
    (hP : PowLike e P) (h0 : 0 < fc) (h1 : fc < fs / 2) (hQ : 0 < Q) (hA : A = (10 : ℝ) ^ (g / 40))
    (hβ : β = (10 : ℝ) ^ (g / 80) / Q) (hS : S = Real.sin (2 * Real.pi * fc / fs))
    (hC : C = Real.cos (2 * Real.pi * fc / fs)) (hγe : γ = (2 ^ (-(p : ℤ)) + e) * (|g| + 6)) (hγ : γ ≤ 1 / 1000)
    (hDe : D = A * (1 - C) + (1 + C) + β * S) (hD : 1000 * γ * (1 + A + β) ≤ D) :
    ∃ f k, RndRbj.highShelf p s c P fc fs Q g = .ok f ∧ Rbj.highShelf fc fs Q g = .ok k ∧
      Close (48 * (γ * ((1 + A + β) / D))) (96 * (γ * ((1 + A + β) / D) ^ 2 * A)) f k := by
  obtain ⟨f, k, a, b, d, -⟩ := high hp hq he hs hc hP h0 h1 hQ hA hβ hS hC hγe hγ hDe hD
  exact ⟨f, k, a, b, d⟩

/-- At a quarter of the sample rate `D = 1 + A + β`: in `float`, with powers of ten good to 10^-6, every quality and every
gain up to 100 dB has room. -/
example (hs : SinLike 24 s) (hc : CosLike 24 c) (hP : PowLike (1 / 1000000) P) (hQ : 0 < Q) (hg : |g| ≤ 100) :
    ∃ f k, RndRbj.lowShelf 24 s c P 11025 44100 Q g = .ok f ∧ Rbj.lowShelf 11025 44100 Q g = .ok k ∧
      |f.a1 - k.a1| ≤ 0.0055 ∧ |f.a2 - k.a2| ≤ 0.0055 := by
  have en : 2 * Real.pi * 11025 / 44100 = Real.pi / 2 := by ring
  have hγ : (2 ^ (-((24 : ℕ) : ℤ)) + 1 / 1000000) * (|g| + 6) ≤ 0.000113 := by
    have := mul_le_mul_of_nonneg_left (by linarith : |g| + 6 ≤ 106)
      (by positivity : (0 : ℝ) ≤ 2 ^ (-((24 : ℕ) : ℤ)) + 1 / 1000000)
    refine this.trans ?_
    norm_num
  have hW : 0 < 1 + (10 : ℝ) ^ (g / 40) + (10 : ℝ) ^ (g / 80) / Q := by
    have := Real.rpow_pos_of_pos (by norm_num : (0 : ℝ) < 10) (g / 40)
    have := Real.rpow_pos_of_pos (by norm_num : (0 : ℝ) < 10) (g / 80)
    positivity
  have hD : (10 : ℝ) ^ (g / 40) * (1 + Real.cos (2 * Real.pi * 11025 / 44100)) +
      (1 - Real.cos (2 * Real.pi * 11025 / 44100)) + (10 : ℝ) ^ (g / 80) / Q * Real.sin (2 * Real.pi * 11025 / 44100) =
      1 + (10 : ℝ) ^ (g / 40) + (10 : ℝ) ^ (g / 80) / Q := by
    rw [en, Real.cos_pi_div_two, Real.sin_pi_div_two]
    ring
  obtain ⟨f, k, h1, h2, h3⟩ := C126_low_shelf_partial (e := 1 / 1000000) (by norm_num) (by norm_num) (by norm_num) hs hc hP
    (by norm_num : (0 : ℝ) < 11025) (by norm_num : (11025 : ℝ) < 44100 / 2) hQ (g := g) rfl rfl rfl rfl rfl
    (hγ.trans (by norm_num)) rfl (by rw [hD]; exact mul_le_of_le_one_left hW.le (by linarith))
  rw [hD, div_self hW.ne', mul_one] at h3
  exact ⟨f, k, h1, h2, h3.a1.trans (by linarith), h3.a2.trans (by linarith)⟩

/-- With room in the three terms of the leading coefficient both shelves are stable, and the filter says so: `stability()`
computed in the same type returns true. -/
theorem C126_stable_partial (hp : 24 ≤ p) (hq : p ≤ 53) (he : 0 ≤ e) (hs : SinLike p s) (hc : CosLike p c)
    (hP : PowLike e P) (h0 : 0 < fc) (h1 : fc < fs / 2) (hQ : 0 < Q) (hA : A = (10 : ℝ) ^ (g / 40))
    (hβ : β = (10 : ℝ) ^ (g / 80) / Q) (hS : S = Real.sin (2 * Real.pi * fc / fs))
    (hC : C = Real.cos (2 * Real.pi * fc / fs)) (hγe : γ = (2 ^ (-(p : ℤ)) + e) * (|g| + 6)) (hγ : γ ≤ 1 / 1000)
    (hsin : 25 * γ * (1 + A + β) ≤ β * S) :
    (1000 * γ * (1 + A + β) ≤ A * (1 + C) + (1 - C) + β * S → 25 * γ * (1 + A + β) ≤ A * (1 + C) →
      25 * γ * (1 + A + β) ≤ 1 - C →
      ∃ f, RndRbj.lowShelf p s c P fc fs Q g = .ok f ∧ f.stability = true ∧ Rounded.biquadStability (rnd p) f = true) ∧
    (1000 * γ * (1 + A + β) ≤ A * (1 - C) + (1 + C) + β * S → 25 * γ * (1 + A + β) ≤ A * (1 - C) →
      25 * γ * (1 + A + β) ≤ 1 + C →
      ∃ f, RndRbj.highShelf p s c P fc fs Q g = .ok f ∧ f.stability = true ∧
        Rounded.biquadStability (rnd p) f = true) := by
  have hA0 : 0 < A := by rw [hA]; exact Real.rpow_pos_of_pos (by norm_num) _
  have hβ0 : 0 < β := by rw [hβ]; exact div_pos (Real.rpow_pos_of_pos (by norm_num) _) hQ
  have hu := u_pos p
  have hγu : 6 * u p ≤ γ := by
    rw [hγe]
    show 6 * u p ≤ (u p + e) * (|g| + 6)
    nlinarith [mul_nonneg hu.le (abs_nonneg g), mul_nonneg he (abs_nonneg g)]
  have hγ0 : 0 < γ := by linarith
  have hW : 0 < γ * (1 + A + β) := by positivity
  have hS1 : β * S ≤ β := by
    have : S ≤ 1 := by rw [hS]; exact Real.sin_le_one _
    nlinarith
  have hC1 : |C| ≤ 1 := by rw [hC]; exact Real.abs_cos_le_one _
  obtain ⟨c1, c2⟩ := abs_le.mp hC1
  have hAC1 := mul_le_mul_of_nonneg_left c2 hA0.le
  have hAC2 := mul_le_mul_of_nonneg_left c1 hA0.le
  constructor
  · intro hD hy hx
    obtain ⟨f, k, a, -, d, a1, a2⟩ := low hp hq he hs hc hP h0 h1 hQ hA hβ hS hC hγe hγ rfl hD
    refine ⟨f, a, stable (W := 1 + A + β) hγu (by linarith) (by linarith) d (X := 1 - C) (Y := A * (1 + C)) (Z := β * S)
      (by ring) ?_ ?_ hx hy hsin⟩
    · rw [a1, abs_div, abs_of_pos (a := A * (1 + C) + (1 - C) + β * S) (by linarith)]
      refine le_of_eq ?_
      rw [show -2 * (A - 1 + (A + 1) * C) = -(2 * (A * (1 + C) - (1 - C))) by ring, abs_neg, abs_mul]
      norm_num
    · rw [a2]
      ring
  · intro hD hy hx
    obtain ⟨f, k, a, -, d, a1, a2⟩ := high hp hq he hs hc hP h0 h1 hQ hA hβ hS hC hγe hγ rfl hD
    refine ⟨f, a, stable (W := 1 + A + β) hγu (by linarith) (by linarith) d (X := 1 + C) (Y := A * (1 - C)) (Z := β * S)
      (by ring) ?_ ?_ hx hy hsin⟩
    · rw [a1, abs_neg, abs_div, abs_of_pos (a := A * (1 - C) + (1 + C) + β * S) (by linarith)]
      refine le_of_eq ?_
      rw [show -2 * (A - 1 + (A + 1) * -C) = -(2 * (A * (1 - C) - (1 + C))) by ring, abs_neg, abs_mul]
      norm_num
    · rw [a2]
      ring

/-- A gain of 0 dB: in `float` and `double`, for every sine and cosine whatsoever and every cutoff and quality the design
accepts, the shelf returns every sample unchanged, bit for bit.  The only requirement is the one of the C standard:
`pow(10, 0)` is 1. -/
theorem C126_identity (hp : 24 ≤ p) (hP : P 0 = 1) :
    ∀ design ∈ [RndRbj.lowShelf, RndRbj.highShelf], ∀ f, design p s c P fc fs Q 0 = .ok f →
      ∀ x : ℕ → ℝ, (∀ n, IsFloat p (x n)) → ∀ n, Rounded.biquadResponse (rnd p) f x n = x n := by
  intro design hd f hf x hx n
  simp only [List.mem_cons, List.not_mem_nil, or_false] at hd
  rcases hd with rfl | rfl
  · obtain ⟨b0, b1, b2, z0, z1⟩ := identity_low hp hP hf
    exact through b0 b1 b2 z0 z1 hx n
  · obtain ⟨b0, b1, b2, z0, z1⟩ := identity_high hp hP hf
    exact through b0 b1 b2 z0 z1 hx n

/-- The design exists: a `float` shelf of 0 dB at a quarter of the sample rate, quality 1, and a sawtooth. -/
example (hs : SinLike 24 s) (hc : CosLike 24 c) (hP : PowLike (1 / 1000000) P) (h1 : P 0 = 1) :
    ∃ f, RndRbj.lowShelf 24 s c P 11025 44100 1 0 = .ok f ∧ f.stability = true ∧
      ∀ n, Rounded.biquadResponse (rnd 24) f (fun n => ((n % 100 : ℕ) : ℝ)) n = ((n % 100 : ℕ) : ℝ) := by
  have en : 2 * Real.pi * 11025 / 44100 = Real.pi / 2 := by ring
  have h := (C126_stable_partial (e := 1 / 1000000) (p := 24) (g := 0) (by norm_num) (by norm_num) (by norm_num) hs hc hP
    (by norm_num : (0 : ℝ) < 11025) (by norm_num : (11025 : ℝ) < 44100 / 2) (by norm_num : (0 : ℝ) < 1) rfl rfl rfl rfl rfl
    (by norm_num) (by rw [en, Real.sin_pi_div_two]; norm_num)).1
  rw [en, Real.sin_pi_div_two, Real.cos_pi_div_two] at h
  obtain ⟨f, h2, h3, -⟩ := h (by norm_num) (by norm_num) (by norm_num)
  refine ⟨f, h2, h3, C126_identity (by norm_num) h1 _ (by simp) f h2 _ (fun n => ?_)⟩
  have := isFloat_int (p := 24) (by norm_num) (m := ((n % 100 : ℕ) : ℤ)) 0 (by rw [abs_of_nonneg (by positivity)]; omega)
  rwa [zpow_zero, mul_one, Int.cast_natCast] at this

/-- **Violation.**  The exact shelves are stable for every quality (C16).  With a correctly rounded sine, when
`3 √A (2π fc/fs) ≤ Q 2^-p min(1, A)` (gains up to 120 dB) the second feedback coefficient is exactly 1: neither shelf is
stable, and `stability()` returns false. -/
theorem C126_undamped_violates (hp : 24 ≤ p) (hq : p ≤ 53) (he : 0 ≤ e) (he1 : e ≤ 1 / 1000000)
    (hs : ∀ x, s x = rnd p (Real.sin x)) (hc : CosLike p c) (hP : PowLike e P) (h0 : 0 < fc) (h1 : fc < fs / 2)
    (hQ : 0 < Q) (hg : |g| ≤ 120) (hA : A = (10 : ℝ) ^ (g / 40))
    (hhigh : 3 * (Real.sqrt A * (2 * Real.pi * fc / fs)) ≤ Q * 2 ^ (-(p : ℤ)) * min 1 A) :
    (∀ design ∈ [RndRbj.lowShelf, RndRbj.highShelf], ∃ f, design p s c P fc fs Q g = .ok f ∧ f.a2 = 1 ∧
      f.stability = false ∧ Rounded.biquadStability (rnd p) f = false) ∧
    ∀ design ∈ [Rbj.lowShelf, Rbj.highShelf], ∃ f, design fc fs Q g = .ok f ∧ f.stability = true := by
  constructor
  · obtain ⟨w, b, j1, k1, key⟩ := lost hp hq he he1 hs hc hP h0 h1 hQ hg hA hhigh
    intro design hd
    simp only [List.mem_cons, List.not_mem_nil, or_false] at hd
    rcases hd with rfl | rfl
    · obtain ⟨t0, t1, t2⟩ := key _ (Or.inl rfl)
      simp only [RndRbj.lowShelf, j1, k1, bind, Except.bind, t1, t2]
      exact unit_a2 (by omega) t0 _ _ _ _
    · obtain ⟨t0, t1, t2⟩ := key _ (Or.inr rfl)
      simp only [RndRbj.highShelf, j1, k1, bind, Except.bind, t1, t2]
      exact unit_a2 (by omega) t0 _ _ _ _
  · intro design hd
    simp only [List.mem_cons, List.not_mem_nil, or_false] at hd
    rcases hd with rfl | rfl
    · obtain ⟨f, a, b, -⟩ := C16_low_shelf fc fs Q g h0 h1 hQ
      exact ⟨f, a, b⟩
    · obtain ⟨f, a, b, -⟩ := C16_high_shelf fc fs Q g h0 h1 hQ
      exact ⟨f, a, b⟩

/-- In `float`, a shelf of quality 8000 at 1 Hz, 44100 samples per second, 0 dB. -/
example (hs : ∀ x, s x = rnd 24 (Real.sin x)) (hc : CosLike 24 c) (hP : PowLike (1 / 1000000) P) :
    ∃ f, RndRbj.lowShelf 24 s c P 1 44100 8000 0 = .ok f ∧ f.a2 = 1 ∧ f.stability = false ∧
      Rounded.biquadStability (rnd 24) f = false := by
  refine (C126_undamped_violates (by norm_num) (by norm_num) (by norm_num) le_rfl hs hc hP (by norm_num) (by norm_num)
    (by norm_num) (by norm_num) rfl ?_).1 _ (by simp)
  have h3 : Real.pi ≤ 3.1416 := Real.pi_lt_d4.le
  norm_num
  linarith

end Edsp.Props
