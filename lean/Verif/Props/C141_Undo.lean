import Verif.Lemmas.UndoBand
import Verif.Props.C130_Energy
import Verif.Props.C17_Zoelzer

/-!
# C141: a shelf at 0 dB is transparent, and the opposite gain undoes a shelf
-/

namespace Edsp.C141

open Edsp Edsp.Spec Edsp.EnergyL Edsp.UndoL Edsp.Props
open Edsp.C130 (chain_one ofCoeffs_rest)

theorem two_cascades (c₁ c₂ : Cascade ℝ) (xs : List ℝ) :
    (c₂.filter (c₁.filter xs).2).2 = (through (active c₁ ++ active c₂) xs).2 := by
  rw [SteadyL.filter_out, SteadyL.filter_out, through_append]

theorem rest_append {fs gs : List (Biquad ℝ)} (h1 : ∀ f ∈ fs, f.AtRest) (h2 : ∀ f ∈ gs, f.AtRest) :
    ∀ f ∈ fs ++ gs, f.AtRest := fun f hf => (List.mem_append.mp hf).elim (h1 f) (h2 f)

/-- **C141, when one filter undoes another.** Two stable filters that have not been used yet: what the first one does
is undone by the second one, on every frame, exactly when at every frequency the two responses are inverse to each
other, amplitude and phase. -/
theorem C141_undone_iff (c₁ c₂ : Cascade ℝ) (hr₁ : ∀ f ∈ active c₁, f.AtRest) (hr₂ : ∀ f ∈ active c₂, f.AtRest)
    (hs₁ : ∀ f ∈ active c₁, f.stability = true) (hs₂ : ∀ f ∈ active c₂, f.stability = true) :
    (∀ xs, (c₂.filter (c₁.filter xs).2).2 = xs) ↔
      ∀ w : ℝ, 0 < w → w < Real.pi → ∀ h₁ h₂, ChainTransferAt (active c₁) (Complex.exp (w * Complex.I)) h₁ →
        ChainTransferAt (active c₂) (Complex.exp (w * Complex.I)) h₂ → h₁ * h₂ = 1 := by
  have hr := rest_append hr₁ hr₂
  simp only [two_cascades]
  constructor
  · intro h w _ _ h₁ h₂ t1 t2
    have hp := poly_of_same hr h
    have hu := Complex.norm_exp_ofReal_mul_I w
    have p1 := transfer_poly _ t1
    have p2 := transfer_poly _ t2
    have d1 := aeval_denC_ne_zero hs₁ hu
    have d2 := aeval_denC_ne_zero hs₂ hu
    have := congrArg (Polynomial.aeval (Complex.exp (w * Complex.I))⁻¹) hp
    rw [numC_append, denC_append, map_mul, map_mul, p1, p2] at this
    refine mul_right_cancel₀ (mul_ne_zero d1 d2) ?_
    linear_combination this
  · intro h
    refine same_of_transfer hr fun w h0 h1 => ?_
    have hu := Complex.norm_exp_ofReal_mul_I w
    obtain ⟨h₁, t1⟩ := transfer_exists hs₁ hu
    obtain ⟨h₂, t2⟩ := transfer_exists hs₂ hu
    have := transfer_append t1 t2
    rwa [h w h0 h1 h₁ h₂ t1 t2] at this

/-- Gains 2 and 1/2. -/
example : ∀ xs : List ℝ, ((⟨1, [⟨0, 0, 1 / 2, 0, 0, 1, 0, 0⟩]⟩ : Cascade ℝ).filter
    ((⟨1, [⟨0, 0, 2, 0, 0, 1, 0, 0⟩]⟩ : Cascade ℝ).filter xs).2).2 = xs := by
  refine (C141_undone_iff _ _ (by simp [active, Biquad.AtRest]) (by simp [active, Biquad.AtRest])
    (by simp [active, Biquad.stability]) (by simp [active, Biquad.stability])).mpr ?_
  rintro w - - h₁ h₂ ⟨a, b, ⟨-, t⟩, rfl, rfl⟩ ⟨a', b', ⟨-, t'⟩, rfl, rfl⟩
  simp [numAt, denAt] at t t'
  rw [← t, ← t']
  norm_num

theorem transfer_den {fs : List (Biquad ℝ)} {u h : ℂ} (t : ChainTransferAt fs u h) :
    Polynomial.aeval u⁻¹ (denC fs) ≠ 0 := by
  induction fs generalizing h with
  | nil => simp [denC]
  | cons f fs ih =>
    obtain ⟨a, b, t1, t2, rfl⟩ := t
    have ed : denC (f :: fs) = denP f * denC fs := by simp [denC]
    rw [ed, map_mul, aeval_denP]
    exact mul_ne_zero t1.1 (ih t2)

/-- If one filter undoes another, their gains multiply to 1, at frequency 0 and at Nyquist as well. -/
theorem gains {f g : Biquad ℝ} (hf : f.AtRest) (hg : g.AtRest)
    (h : ∀ xs, (g.filter (f.filter xs).2).2 = xs) {w a b : ℝ} (ha : GainAt f w a) (hb : GainAt g w b) : a * b = 1 := by
  have hp := poly_of_same (fs := [f, g]) (by simp [hf, hg]) h
  obtain ⟨t, t1, rfl⟩ := chain_one.mpr ha
  obtain ⟨s, s1, rfl⟩ := chain_one.mpr hb
  have p := transfer_poly _ (transfer_append t1 s1)
  have d := transfer_den (transfer_append t1 s1)
  rw [List.singleton_append, hp] at p
  rw [List.singleton_append] at d
  have : t * s = 1 := (mul_right_cancel₀ d (by rw [one_mul]; exact p)).symm
  rw [← norm_mul, this, norm_one]

/-! ## The shelves of the cookbook -/

theorem cancel {a0 a1 a2 b0 b1 b2 a0' a1' a2' b0' b1' b2' k : ℝ} {f g : Biquad ℝ}
    (hf : Biquad.ofCoeffs a0 a1 a2 b0 b1 b2 = .ok f) (hg : Biquad.ofCoeffs a0' a1' a2' b0' b1' b2' = .ok g)
    (h0 : b0 = k * a0') (h1 : b1 = k * a1') (h2 : b2 = k * a2') (k0 : a0 = k * b0') (k1 : a1 = k * b1')
    (k2 : a2 = k * b2') (xs : List ℝ) : (g.filter (f.filter xs).2).2 = xs := by
  have rf := ofCoeffs_rest hf
  have rg := ofCoeffs_rest hg
  refine same_of_poly (fs := [f, g]) (by simp [rf, rg]) ?_ xs
  unfold Biquad.ofCoeffs at hf hg
  split at hf
  · cases hf
  rename_i n0
  split at hg
  · cases hg
  rename_i n0'
  injection hf with hf
  injection hg with hg
  have e1 : numP f = Polynomial.C (k * (a0' / a0)) * denP g := by
    rw [← hf, ← hg]
    simp only [numP, denP, h0, h1, h2, mul_add, ← mul_assoc, ← Polynomial.C_mul]
    congr 3
    · field_simp
    · congr 1; field_simp
    · field_simp
  have hk : k ≠ 0 := by rintro rfl; exact n0 (by rw [k0]; ring)
  have e2 : numP g = Polynomial.C (a0 / (k * a0')) * denP f := by
    have x0 : b0' = a0 / k := by rw [k0]; field_simp
    have x1 : b1' = a1 / k := by rw [k1]; field_simp
    have x2 : b2' = a2 / k := by rw [k2]; field_simp
    rw [← hf, ← hg]
    simp only [numP, denP, x0, x1, x2, mul_add, ← mul_assoc, ← Polynomial.C_mul]
    congr 3
    · field_simp
    · congr 1; field_simp
    · field_simp
  simp only [numC, denC, List.map_cons, List.map_nil, List.prod_cons, List.prod_nil, mul_one, e1, e2]
  have : Polynomial.C (k * (a0' / a0)) * Polynomial.C (a0 / (k * a0')) = (1 : Polynomial ℝ) := by
    rw [← Polynomial.C_mul, show k * (a0' / a0) * (a0 / (k * a0')) = 1 by field_simp, Polynomial.C_1]
  linear_combination (denP f * denP g) * this

theorem clear {a0 a1 a2 b0 b1 b2 : ℝ} {f : Biquad ℝ} (hf : Biquad.ofCoeffs a0 a1 a2 b0 b1 b2 = .ok f) (e0 : b0 = a0)
    (e1 : b1 = a1) (e2 : b2 = a2) (xs : List ℝ) : (f.filter xs).2 = xs := by
  subst e0 e1 e2
  refine same_of_poly (fs := [f]) (by simp [ofCoeffs_rest hf]) ?_ xs
  unfold Biquad.ofCoeffs at hf
  split at hf
  · cases hf
  rename_i n0
  injection hf with hf
  rw [← hf]
  simp [numC, denC, numP, denP, div_self n0]

/-- The amplitude of a gain and of the opposite gain. -/
theorem amplitudes (G : ℝ) : ∃ S : ℝ, 0 < S ∧ Real.sqrt ((10 : ℝ) ^ (G / 20)) = S ^ 2 ∧
    Real.sqrt ((10 : ℝ) ^ (-G / 20)) = (S ^ 2)⁻¹ ∧ Real.sqrt (S ^ 2) = S ∧ Real.sqrt ((S ^ 2)⁻¹) = S⁻¹ := by
  have hp : (0 : ℝ) < (10 : ℝ) ^ (G / 20) := Real.rpow_pos_of_pos (by norm_num) _
  have hA : 0 < Real.sqrt ((10 : ℝ) ^ (G / 20)) := Real.sqrt_pos.mpr hp
  refine ⟨Real.sqrt (Real.sqrt ((10 : ℝ) ^ (G / 20))), Real.sqrt_pos.mpr hA, (Real.sq_sqrt hA.le).symm, ?_, ?_, ?_⟩
  · rw [Real.sq_sqrt hA.le, neg_div, Real.rpow_neg (by norm_num), Real.sqrt_inv]
  · exact Real.sqrt_sq (Real.sqrt_nonneg _)
  · rw [Real.sqrt_inv, Real.sqrt_sq (Real.sqrt_nonneg _)]

/-- **C141, the shelves of the cookbook.** Low and high shelf, every cutoff strictly between 0 and Nyquist, every
quality and every gain: the shelf with the opposite gain returns the frame that went into the first one, sample by
sample; and a shelf of 0 dB returns every frame unchanged. -/
theorem C141_rbj_shelves (fc fs Q G : ℝ) (h0 : 0 < fc) (h1 : fc < fs / 2) (hQ : 0 < Q) :
    ∀ design ∈ [Rbj.lowShelf, Rbj.highShelf],
      (∃ f g, design fc fs Q G = .ok f ∧ design fc fs Q (-G) = .ok g ∧ ∀ xs, (g.filter (f.filter xs).2).2 = xs) ∧
      ∃ f, design fc fs Q 0 = .ok f ∧ ∀ xs, (f.filter xs).2 = xs := by
  have hfs : fs ≠ 0 := by linarith
  obtain ⟨S, hS, a1, a2, a3, a4⟩ := amplitudes G
  have z1 : Real.sqrt ((10 : ℝ) ^ ((0 : ℝ) / 20)) = 1 := by rw [zero_div, Real.rpow_zero, Real.sqrt_one]
  have hSn := hS.ne'
  intro design hd
  simp only [List.mem_cons, List.not_mem_nil, or_false] at hd
  rcases hd with rfl | rfl
  · obtain ⟨f, hf, -⟩ := C16_low_shelf fc fs Q G h0 h1 hQ
    obtain ⟨g, hg, -⟩ := C16_low_shelf fc fs Q (-G) h0 h1 hQ
    obtain ⟨e, he, -⟩ := C16_low_shelf fc fs Q 0 h0 h1 hQ
    refine ⟨⟨f, g, hf, hg, ?_⟩, e, he, ?_⟩
    · unfold Rbj.lowShelf at hf hg
      rw [fdiv_ok _ hfs] at hf hg
      simp only [bind, Except.bind] at hf hg
      rw [fdiv_ok _ hQ.ne'] at hf hg
      simp only [a1, a2, a3, a4] at hf hg
      refine cancel hf hg (k := (S ^ 2) ^ 2) ?_ ?_ ?_ ?_ ?_ ?_ <;> field_simp <;> ring
    · unfold Rbj.lowShelf at he
      rw [fdiv_ok _ hfs] at he
      simp only [bind, Except.bind] at he
      rw [fdiv_ok _ hQ.ne'] at he
      simp only [z1] at he
      exact clear he (by ring) (by ring) (by ring)
  · obtain ⟨f, hf, -⟩ := C16_high_shelf fc fs Q G h0 h1 hQ
    obtain ⟨g, hg, -⟩ := C16_high_shelf fc fs Q (-G) h0 h1 hQ
    obtain ⟨e, he, -⟩ := C16_high_shelf fc fs Q 0 h0 h1 hQ
    refine ⟨⟨f, g, hf, hg, ?_⟩, e, he, ?_⟩
    · unfold Rbj.highShelf at hf hg
      rw [fdiv_ok _ hfs] at hf hg
      simp only [bind, Except.bind] at hf hg
      rw [fdiv_ok _ hQ.ne'] at hf hg
      simp only [a1, a2, a3, a4] at hf hg
      refine cancel hf hg (k := (S ^ 2) ^ 2) ?_ ?_ ?_ ?_ ?_ ?_ <;> field_simp <;> ring
    · unfold Rbj.highShelf at he
      rw [fdiv_ok _ hfs] at he
      simp only [bind, Except.bind] at he
      rw [fdiv_ok _ hQ.ne'] at he
      simp only [z1] at he
      exact clear he (by ring) (by ring) (by ring)

/-- 6 dB at 1 kHz and back. -/
example : ∃ f g, Rbj.lowShelf 1000 48000 (7 / 10) 6 = .ok f ∧ Rbj.lowShelf 1000 48000 (7 / 10) (-6) = .ok g ∧
    ∀ xs, (g.filter (f.filter xs).2).2 = xs :=
  (C141_rbj_shelves 1000 48000 (7 / 10) 6 (by norm_num) (by norm_num) (by norm_num) _ (by simp)).1

/-! ## The shelves of the Butterworth family -/

/-- **C141, Butterworth, even orders.** Low and high shelf of every even order, every cutoff strictly between 0 and
Nyquist and every gain: the shelf with the opposite gain returns the frame that went into the first one; and a shelf of
0 dB returns every frame unchanged. -/
theorem C141_butterworth_even_partial (dbg : Bool) {N n : Nat} (hn : 1 ≤ n) (hN : n ≤ N) (he : n % 2 = 0) (G : ℝ)
    {fs fc : ℝ} (h0 : 0 < fc) (h1 : fc < fs / 2) :
    ∀ design ∈ [Butterworth.lowShelf, Butterworth.highShelf],
      (∃ c c', design dbg N n fs fc G = .ok c ∧ design dbg N n fs fc (-G) = .ok c' ∧
        ∀ xs, (c'.filter (c.filter xs).2).2 = xs) ∧
      ∃ c, design dbg N n fs fc 0 = .ok c ∧ ∀ xs, (c.filter xs).2 = xs := by
  have key : ∀ (f σ u : ℝ), u * u = 1 → ∀ design : Bool → Nat → Nat → ℝ → ℝ → ℝ → Except Fault (Cascade ℝ),
      (∀ G, ∃ c, design dbg N n fs fc G = .ok c ∧ Made f σ n G u c) →
      (∃ c c', design dbg N n fs fc G = .ok c ∧ design dbg N n fs fc (-G) = .ok c' ∧
        ∀ xs, (c'.filter (c.filter xs).2).2 = xs) ∧
      ∃ c, design dbg N n fs fc 0 = .ok c ∧ ∀ xs, (c.filter xs).2 = xs := by
    intro f σ u hu design hd
    obtain ⟨c, hc, m⟩ := hd G
    obtain ⟨c', hc', m'⟩ := hd (-G)
    obtain ⟨k, hk, l⟩ := hd 0
    refine ⟨⟨c, c', hc, hc', fun xs => ?_⟩, k, hk, fun xs => ?_⟩
    · rw [two_cascades]
      exact same_of_poly (rest_append m.rest m'.rest) (even_undone (by omega) he hu m m') xs
    · rw [SteadyL.filter_out]
      exact same_of_poly l.rest (even_flat (by omega) he hu l) xs
  intro design hd
  simp only [List.mem_cons, List.not_mem_nil, or_false] at hd
  rcases hd with rfl | rfl
  · exact key _ 1 (-1) (by norm_num) _ (low_made dbg hn hN h0 h1)
  · exact key _ (-1) 1 (by norm_num) _ (high_made dbg hn hN h0 h1)

example : ∃ c c', Butterworth.lowShelf true 8 4 48000 1000 6 = .ok c ∧
    Butterworth.lowShelf true 8 4 48000 1000 (-6) = .ok c' ∧ ∀ xs, (c'.filter (c.filter xs).2).2 = xs :=
  (C141_butterworth_even_partial true (by norm_num) (by norm_num) (by norm_num) 6 (by norm_num) (by norm_num) _
    (by simp)).1

/-- **C141 is false of the odd orders.** Low and high shelf of every odd order, every cutoff and every gain: after the
shelf and the one with the opposite gain the first sample of every frame is multiplied by a number less than 1 in
absolute value; the same goes for a shelf of 0 dB alone. -/
theorem C141_butterworth_odd_violates (dbg : Bool) {N n : Nat} (hn : 1 ≤ n) (hN : n ≤ N) (ho : n % 2 = 1) (G : ℝ)
    {fs fc : ℝ} (h0 : 0 < fc) (h1 : fc < fs / 2) :
    ∀ design ∈ [Butterworth.lowShelf, Butterworth.highShelf],
      (∃ c c', design dbg N n fs fc G = .ok c ∧ design dbg N n fs fc (-G) = .ok c' ∧
        ∃ r : ℝ, |r| < 1 ∧ ∀ x xs, (c'.filter (c.filter (x :: xs)).2).2.head? = some (r * x)) ∧
      ∃ c, design dbg N n fs fc 0 = .ok c ∧
        ∃ r : ℝ, |r| < 1 ∧ ∀ x xs, (c.filter (x :: xs)).2.head? = some (r * x) := by
  have hpi := Real.pi_pos
  have hfs : 0 < fs := by linarith
  have hlt : Real.pi * (fc / fs) < Real.pi / 2 := by
    have : fc / fs < 1 / 2 := by rw [div_lt_iff₀ hfs]; linarith
    nlinarith
  have hf : 0 < Real.tan (Real.pi * (fc / fs)) := Real.tan_pos_of_pos_of_lt_pi_div_two (by positivity) hlt
  have key : ∀ (f σ u : ℝ), 0 < f → (σ = 1 ∨ σ = -1) → u * u = 1 →
      ∀ design : Bool → Nat → Nat → ℝ → ℝ → ℝ → Except Fault (Cascade ℝ),
      (∀ G, ∃ c, design dbg N n fs fc G = .ok c ∧ Made f σ n G u c) →
      (∃ c c', design dbg N n fs fc G = .ok c ∧ design dbg N n fs fc (-G) = .ok c' ∧
        ∃ r : ℝ, |r| < 1 ∧ ∀ x xs, (c'.filter (c.filter (x :: xs)).2).2.head? = some (r * x)) ∧
      ∃ c, design dbg N n fs fc 0 = .ok c ∧
        ∃ r : ℝ, |r| < 1 ∧ ∀ x xs, (c.filter (x :: xs)).2.head? = some (r * x) := by
    intro f σ u hf hσ hu design hd
    obtain ⟨c, hc, m⟩ := hd G
    obtain ⟨c', hc', m'⟩ := hd (-G)
    obtain ⟨k, hk, l⟩ := hd 0
    refine ⟨⟨c, c', hc, hc', _, odd_undone hf hσ ho hu m m', fun x xs => ?_⟩, k, hk, _, odd_flat hf hσ ho hu l,
      fun x xs => ?_⟩
    · rw [two_cascades]
      exact first_sample (rest_append m.rest m'.rest) x xs
    · rw [SteadyL.filter_out]
      exact first_sample l.rest x xs
  intro design hd
  simp only [List.mem_cons, List.not_mem_nil, or_false] at hd
  rcases hd with rfl | rfl
  · exact key _ 1 (-1) hf (.inl rfl) (by norm_num) _ (low_made dbg hn hN h0 h1)
  · exact key _ (-1) 1 (by positivity) (.inr rfl) (by norm_num) _ (high_made dbg hn hN h0 h1)

/-- A third-order shelf of 0 dB changes an impulse. -/
example : ∃ c, Butterworth.lowShelf true 8 3 48000 1000 0 = .ok c ∧ (c.filter [1, 0, 0, 0]).2 ≠ [1, 0, 0, 0] := by
  obtain ⟨-, c, hc, r, hr, h⟩ := C141_butterworth_odd_violates true (N := 8) (n := 3) (by norm_num) (by norm_num)
    (by norm_num) 0 (fs := 48000) (fc := 1000) (by norm_num) (by norm_num) Butterworth.lowShelf (by simp)
  refine ⟨c, hc, fun e => ?_⟩
  have := h 1 [0, 0, 0]
  rw [e] at this
  simp at this
  rw [← this] at hr
  norm_num at hr

/-- **C141, Butterworth band shelf.** Every order, every band strictly inside `(0, fs/2)` and every gain for which the
design is accepted (odd orders in a debug build: see C73), with the exception of odd orders at 0 dB and a band of a
quarter of the sample rate (`tan (π bw/fs) = 1`) centred at or above a quarter of the sample rate
(C141_band_shelf_violates): the band shelf with the opposite gain returns the frame that went
into the first one; and a band shelf of 0 dB returns every frame unchanged. -/
theorem C141_band_shelf_partial (dbg : Bool) {N n : Nat} (hn : 1 ≤ n) (hN : n ≤ N) {fs fc bw : ℝ} (hB : BandOk fs fc bw)
    (G : ℝ) (hd : n % 2 = 1 → dbg = true →
      (10 : ℝ) ^ (G / 20) ≠ (1 / Real.tan (Real.pi * bw / fs)) ^ (2 * n) ∧
      1 / (10 : ℝ) ^ (G / 20) ≠ (1 / Real.tan (Real.pi * bw / fs)) ^ (2 * n))
    (hx : n % 2 = 1 → G = 0 → Real.tan (Real.pi * bw / fs) = 1 → fc < fs / 4) :
    ∃ c c', Butterworth.bandShelf dbg N n fs fc bw G = .ok c ∧ Butterworth.bandShelf dbg N n fs fc bw (-G) = .ok c' ∧
      (∀ xs, (c'.filter (c.filter xs).2).2 = xs) ∧ (G = 0 → ∀ xs, (c.filter xs).2 = xs) := by
  obtain ⟨T, hT⟩ := band_made dbg hn hN hB
  obtain ⟨c, hc, m⟩ := hT G hd hx
  have hi : (10 : ℝ) ^ (-G / 20) = 1 / (10 : ℝ) ^ (G / 20) := by
    rw [neg_div, Real.rpow_neg (by norm_num), one_div]
  obtain ⟨c', hc', m'⟩ := hT (-G)
    (fun ho hb => by rw [hi, one_div_one_div]; exact ⟨(hd ho hb).2, (hd ho hb).1⟩)
    (fun ho h => hx ho (neg_eq_zero.mp h))
  refine ⟨c, c', hc, hc', fun xs => ?_, fun h xs => ?_⟩
  · rw [two_cascades]
    exact same_of_poly (rest_append m.rest m'.rest) (band_undone (by omega) m m') xs
  · subst h
    rw [SteadyL.filter_out]
    exact same_of_poly m.rest (band_flat (by omega) m) xs

/-- Third order, +6 dB and -6 dB, release build. -/
example : ∃ c c', Butterworth.bandShelf false 8 3 48000 12000 4000 6 = .ok c ∧
    Butterworth.bandShelf false 8 3 48000 12000 4000 (-6) = .ok c' ∧ ∀ xs, (c'.filter (c.filter xs).2).2 = xs := by
  obtain ⟨c, c', h1, h2, h3, -⟩ := C141_band_shelf_partial false (N := 8) (n := 3) (by norm_num) (by norm_num)
    bandOk_example 6 (by simp) (by norm_num)
  exact ⟨c, c', h1, h2, h3⟩

/-- **C141 is false of the band shelf in one corner.** Odd order, 0 dB, a band as wide as a quarter of the sample rate
(`tan (π bw / fs) = 1`) and a centre not below a quarter of the sample rate, release build: the first sample of every
frame is multiplied by a number less than 1 in absolute value. With the centre exactly at a quarter of the sample rate
that number is 0. -/
theorem C141_band_shelf_violates {N n : Nat} (hn : 1 ≤ n) (hN : n ≤ N) (ho : n % 2 = 1) {fs fc bw : ℝ}
    (hB : BandOk fs fc bw) (hb : Real.tan (Real.pi * bw / fs) = 1) (hc : fs / 4 ≤ fc) :
    ∃ c, Butterworth.bandShelf false N n fs fc bw 0 = .ok c ∧
      ∃ r : ℝ, |r| < 1 ∧ ∀ x xs, (c.filter (x :: xs)).2.head? = some (r * x) := by
  obtain ⟨B, ha, hb', ha', h⟩ := band_raw false hn hN hB
  obtain ⟨c, hc', m⟩ := h 0 (by simp)
  obtain ⟨hr, h0⟩ := corner_flat m ho (by rw [hb', hb, one_div_one]) (ha'.mpr hc)
  refine ⟨c, hc', -B.a, by rwa [abs_neg], fun x xs => ?_⟩
  rw [SteadyL.filter_out, ← h0]
  exact first_sample hr x xs

/-- First order, 48 kHz, the band from 9 kHz to 21 kHz. -/
example : ∃ c, Butterworth.bandShelf false 8 1 48000 15000 12000 0 = .ok c ∧ (c.filter [1]).2 ≠ [1] := by
  have hp := Real.two_le_pi
  have hp' := Real.pi_le_four
  have hB : BandOk 48000 15000 12000 := by
    refine ⟨by norm_num, by norm_num, ?_, ?_⟩
    · unfold bandLo; norm_num; linarith
    · unfold bandHi; norm_num; linarith
  obtain ⟨c, hc, r, hr, h⟩ := C141_band_shelf_violates (N := 8) (n := 1) le_rfl (by norm_num) (by norm_num) hB
    (by rw [show Real.pi * 12000 / 48000 = Real.pi / 4 by ring, Real.tan_pi_div_four]) (by norm_num)
  refine ⟨c, hc, fun e => ?_⟩
  have := h 1 []
  rw [e] at this
  simp only [List.head?_cons, Option.some.injEq, mul_one] at this
  rw [← this] at hr
  norm_num at hr

/-! ## The shelves of the Zoelzer family -/

/-- **C141, Zoelzer.** A low or high shelf of 0 dB returns every frame unchanged. -/
theorem C141_zoelzer_flat_partial (fc fs : ℝ) (h0 : 0 < fc) (h1 : fc < fs / 2) :
    ∀ design ∈ [Zoelzer.lowShelf, Zoelzer.highShelf], ∃ f, design fc fs 0 = .ok f ∧ ∀ xs, (f.filter xs).2 = xs := by
  obtain ⟨K, hK, hKp, _⟩ := zoelzer_K h0 h1
  have hV : Zoelzer.db2mag 0 = 1 := by simp [Zoelzer.db2mag]
  have hD : 0 < 1 + Real.sqrt 2 * K + K * K := by positivity
  intro design hd
  simp only [List.mem_cons, List.not_mem_nil, or_false] at hd
  rcases hd with rfl | rfl
  · obtain ⟨f, hf, -⟩ := C17_low_shelf_boost_partial fc fs 0 h0 h1 le_rfl
    refine ⟨f, hf, ?_⟩
    unfold Zoelzer.lowShelf at hf
    rw [← bind_assoc, hK] at hf
    simp only [bind, Except.bind, ge_iff_le, le_refl, if_true, hV, mul_one, one_mul] at hf
    rw [fdiv_ok _ hD.ne'] at hf
    simp only [mul_one_div_cancel hD.ne'] at hf
    exact clear hf (by rfl) (by rfl) (by rfl)
  · obtain ⟨f, hf, -⟩ := C17_high_shelf_boost_partial fc fs 0 h0 h1 le_rfl
    refine ⟨f, hf, ?_⟩
    unfold Zoelzer.highShelf at hf
    rw [← bind_assoc, hK] at hf
    simp only [bind, Except.bind, ge_iff_le, le_refl, if_true, hV, mul_one] at hf
    rw [fdiv_ok _ hD.ne'] at hf
    simp only [mul_one_div_cancel hD.ne'] at hf
    exact clear hf (by rfl) (by rfl) (by rfl)

example : ∃ f, Zoelzer.lowShelf 1000 48000 0 = .ok f ∧ ∀ xs, (f.filter xs).2 = xs :=
  C141_zoelzer_flat_partial 1000 48000 (by norm_num) (by norm_num) _ (by simp)

/-- **C141 is false of the Zoelzer low shelf.** For every gain other than 0 dB the shelf with the opposite gain does not
give the frame back: both raise the low frequencies. -/
theorem C141_zoelzer_low_violates (fc fs G : ℝ) (h0 : 0 < fc) (h1 : fc < fs / 2) (hG : G ≠ 0) :
    ∃ f g, Zoelzer.lowShelf fc fs G = .ok f ∧ Zoelzer.lowShelf fc fs (-G) = .ok g ∧
      ∃ xs, (g.filter (f.filter xs).2).2 ≠ xs := by
  have hb : ∀ f G, Zoelzer.lowShelf fc fs G = .ok f → f.AtRest := by
    intro f G hf
    unfold Zoelzer.lowShelf at hf
    section_rest hf
  have key : ∀ G, 0 < G → ∃ f g, Zoelzer.lowShelf fc fs G = .ok f ∧ Zoelzer.lowShelf fc fs (-G) = .ok g ∧
      GainAt f 0 ((10 : ℝ) ^ (G / 20)) ∧ GainAt g 0 ((10 : ℝ) ^ (G / 20)) ∧ 1 < (10 : ℝ) ^ (G / 20) := by
    intro G hG
    obtain ⟨f, hf, -, gf, -⟩ := C17_low_shelf_boost_partial fc fs G h0 h1 hG.le
    obtain ⟨g, hg, -, gg, -⟩ := C17_low_shelf_cut_violates fc fs (-G) h0 h1 (by linarith)
    rw [neg_neg] at gg
    exact ⟨f, g, hf, hg, gf, gg, Real.one_lt_rpow (by norm_num) (by linarith)⟩
  rcases lt_or_gt_of_ne hG with h | h
  · obtain ⟨g, f, hg, hf, gg, gf, hlt⟩ := key (-G) (by linarith)
    rw [neg_neg] at hf
    refine ⟨f, g, hf, hg, ?_⟩
    by_contra hcon
    push Not at hcon
    have := gains (hb _ _ hf) (hb _ _ hg) hcon gf gg
    nlinarith
  · obtain ⟨f, g, hf, hg, gf, gg, hlt⟩ := key G h
    refine ⟨f, g, hf, hg, ?_⟩
    by_contra hcon
    push Not at hcon
    have := gains (hb _ _ hf) (hb _ _ hg) hcon gf gg
    nlinarith

example : ∃ f g, Zoelzer.lowShelf 1000 48000 6 = .ok f ∧ Zoelzer.lowShelf 1000 48000 (-6) = .ok g ∧
    ∃ xs, (g.filter (f.filter xs).2).2 ≠ xs :=
  C141_zoelzer_low_violates 1000 48000 6 (by norm_num) (by norm_num) (by norm_num)

/-- **C141 is false of the Zoelzer high shelf.** For some gain the shelf with the opposite gain does not give the frame
back: cutoff at a quarter of the sample rate, boost to the double. -/
theorem C141_zoelzer_high_violates :
    ∃ G : ℝ, 0 < G ∧ ∃ f g, Zoelzer.highShelf 1 4 G = .ok f ∧ Zoelzer.highShelf 1 4 (-G) = .ok g ∧
      ∃ xs, (g.filter (f.filter xs).2).2 ≠ xs := by
  have hb : ∀ f G, Zoelzer.highShelf 1 4 G = .ok f → f.AtRest := by
    intro f G hf
    unfold Zoelzer.highShelf at hf
    section_rest hf
  obtain ⟨G, hG, -, g, hg, gg, -⟩ := C17_high_shelf_cut_violates
  obtain ⟨f, hf, -, gf, -⟩ := C17_high_shelf_boost_partial 1 4 (-G) (by norm_num) (by norm_num) (by linarith)
  refine ⟨-G, by linarith, f, g, hf, by rw [neg_neg]; exact hg, ?_⟩
  by_contra hcon
  push Not at hcon
  have := gains (hb _ _ hf) (hb _ _ hg) hcon gf gg
  norm_num at this

end Edsp.C141
