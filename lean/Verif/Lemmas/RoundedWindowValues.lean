import Verif.Lemmas.RoundedShapes

/-!
# Windows in floating point: accuracy of the values stored
-/

namespace Edsp.RndWinL
open Edsp Edsp.Spec Edsp.RndWin Edsp.FloatL

/-- The value stored at index `i`. -/
noncomputable def stored (p : ℕ) (c : ℝ → ℝ) : Window → ℕ → ℕ → ℝ
  | .bartlett, N, i => if 2 * i + 1 ≤ N then slope p N i else rnd p (2 - slope p N i)
  | .blackman, N, i => blackmanAt p c (tmp p N i)
  | .blackmanHarris, N, i => blackmanHarrisAt p c (tmp p N i)
  | .blackmanNuttall, N, i => blackmanNuttallAt p c (tmp p N i)
  | .flattop, N, i => flattopAt p c (tmp p N i)
  | .hamming, N, i => hammingAt p c (tmp p N i)
  | .hanning, N, i => hanningAt p c (tmp p N i)
  | .boxcar, _, _ => 1
  | .rectangular, _, _ => 1
  | .triangular, N, i => rnd p (1 - |rnd p (steps p (rnd p (-((N : ℝ) - 1))) i / rem p N)|)
  | .welch, N, i => welchAt p N i

theorem cosLoop_ok {p : ℕ} (hp : 1 ≤ p) (w : ℝ → ℝ) {m : List ℝ} {a b : ℕ} (hN : a + 2 ≤ b) (hb : b ≤ m.length) :
    ∃ m', cosLoop p w m a b = .ok m' ∧ Wrote m m' a ((List.range (b - a)).map fun i => w (tmp p (b - a) i)) := by
  have hne := (rnd_size_pos hp (by omega : 2 ≤ b - a)).ne'
  obtain ⟨m', h1, h2⟩ := C38.loop_ok (fun i : ℕ => w (tmp p (b - a) i)) (b - a) 0 m a (by omega)
  refine ⟨m', ?_, ?_⟩
  · simp only [cosLoop, Mem.distance_ok (by omega : a ≤ b), bind, Except.bind, RndWin.div, Win.div, if_neg hne, pure,
      Except.pure]
    exact h1
  · rwa [← List.range_eq_range'] at h2

theorem triLoop_ok {p : ℕ} {r : ℝ} (hr : r ≠ 0) : ∀ (n : ℕ) (x : ℝ) (m : List ℝ) (a : ℕ), a + n ≤ m.length →
    ∃ m', triLoop p r n x m a = .ok m' ∧
      Wrote m m' a ((List.range n).map fun i : ℕ => rnd p (1 - |rnd p (steps p x i / r)|))
  | 0, x, m, a, h => ⟨m, rfl, Mem.wrote_nil m (by omega)⟩
  | n + 1, x, m, a, h => by
    obtain ⟨m', h1, h2⟩ := triLoop_ok hr n (rnd p (x + 2)) (m.set a (rnd p (1 - |rnd p (x / r)|))) (a + 1)
      (by rw [List.length_set]; omega)
    refine ⟨m', ?_, ?_⟩
    · simp only [triLoop, RndWin.div, Win.div, if_neg hr, Mem.write_ok (by omega : a < m.length), bind, Except.bind, pure,
        Except.pure]
      exact h1
    · have h3 := Mem.wrote_cons (by omega) h2
      rw [List.range_succ_eq_map, List.map_cons, List.map_map]
      exact h3

theorem welchLoop_ok {p : ℕ} {L : ℝ} (hL : L ≠ 0) : ∀ (n i : ℕ) (m : List ℝ) (a : ℕ), a + n ≤ m.length →
    ∃ m', welchLoop p L n i m a = .ok m' ∧ Wrote m m' a ((List.range' i n).map fun i : ℕ =>
      rnd p (1 - rnd p (rnd p (rnd p (rnd p (i : ℝ) - L) / L) * rnd p (rnd p (rnd p (i : ℝ) - L) / L))))
  | 0, i, m, a, h => ⟨m, rfl, Mem.wrote_nil m (by omega)⟩
  | n + 1, i, m, a, h => by
    obtain ⟨m', h1, h2⟩ := welchLoop_ok hL n (i + 1) (m.set a (rnd p (1 - rnd p
      (rnd p (rnd p (rnd p (i : ℝ) - L) / L) * rnd p (rnd p (rnd p (i : ℝ) - L) / L))))) (a + 1)
      (by rw [List.length_set]; omega)
    refine ⟨m', ?_, ?_⟩
    rotate_left
    · rw [List.range'_succ, List.map_cons]
      exact Mem.wrote_cons (by omega) h2
    · simp only [welchLoop, RndWin.div, Win.div, if_neg hL, Mem.write_ok (by omega : a < m.length), bind, Except.bind,
        pure, Except.pure]
      exact h1

theorem rem_pos {p N : ℕ} (hp : 1 ≤ p) (hN : 2 ≤ N) : 0 < rem p N := by
  unfold rem
  apply rnd_pos hp
  apply rnd_pos (by norm_num)
  split
  · rename_i h
    have e : rnd 53 (N : ℝ) = N := by
      have := rnd_int (p := 53) (by norm_num) (m := (N : ℤ)) (by rw [Nat.abs_cast]; exact_mod_cast h)
      simpa using this
    rw [e, C38.remainder_base hN]
    exact (C38.base_pos hN).1
  · rw [add_zero]
    exact rnd_pos (by norm_num) (by exact_mod_cast (by omega : 0 < N))

theorem fn_ok {p : ℕ} (hp : 1 ≤ p) (c : ℝ → ℝ) (k : Window) {m : List ℝ} {a b : ℕ} (hN : a + 2 ≤ b)
    (hb : b ≤ m.length) :
    ∃ m', fn p c k m a b = .ok m' ∧ Wrote m m' a ((List.range (b - a)).map (stored p c k (b - a))) := by
  have h2 : 2 ≤ b - a := by omega
  have hd := Mem.distance_ok (by omega : a ≤ b)
  cases k with
  | blackman => exact cosLoop_ok hp _ hN hb
  | blackmanHarris => exact cosLoop_ok hp _ hN hb
  | blackmanNuttall => exact cosLoop_ok hp _ hN hb
  | flattop => exact cosLoop_ok hp _ hN hb
  | hamming => exact cosLoop_ok hp _ hN hb
  | hanning => exact cosLoop_ok hp _ hN hb
  | boxcar =>
    obtain ⟨m', e, w⟩ := C38.loop_ok (fun _ => (1 : ℝ)) (b - a) 0 m a (by omega)
    refine ⟨m', ?_, ?_⟩
    · simp only [fn, Win.boxcar, hd, bind, Except.bind]; exact e
    · rwa [← List.range_eq_range'] at w
  | rectangular =>
    obtain ⟨m', e, w⟩ := C38.loop_ok (fun _ => (1 : ℝ)) (b - a) 0 m a (by omega)
    refine ⟨m', ?_, ?_⟩
    · simp only [fn, Win.rectangular, hd, bind, Except.bind]; exact e
    · rwa [← List.range_eq_range'] at w
  | triangular =>
    obtain ⟨m', e, w⟩ := triLoop_ok (p := p) (rem_pos hp h2).ne' (b - a) (rnd p (-(((b - a : ℕ) : ℝ) - 1))) m a (by omega)
    refine ⟨m', ?_, w⟩
    simp only [fn, triangular, hd, bind, Except.bind]; exact e
  | welch =>
    obtain ⟨m', e, w⟩ := welchLoop_ok (p := p) (half_pos hp h2).ne' (b - a) 0 m a (by omega)
    refine ⟨m', ?_, ?_⟩
    · simp only [fn, welch, hd, bind, Except.bind]; exact e
    · rwa [← List.range_eq_range'] at w
  | bartlett =>
    generalize hNN : b - a = N at *
    have hne := (rnd_size_pos hp h2).ne'
    have hM2 : (if Num.isEven (N : Int) = true then N / 2 else (N + 1) / 2) = (N + 1) / 2 := by
      rw [C38.isEven_nat]
      simp only [decide_eq_true_eq]
      split <;> omega
    obtain ⟨m1, e1, w1⟩ := C38.loop_ok (fun i : ℕ => slope p N i) ((N + 1) / 2) 0 m a (by omega)
    obtain ⟨m2, e2, w2⟩ := C38.loop_ok (fun i : ℕ => rnd p (2 - slope p N i)) (N - (N + 1) / 2) ((N + 1) / 2) m1
      (a + (N + 1) / 2) (by rw [Mem.wrote_length w1]; omega)
    refine ⟨m2, ?_, ?_⟩
    · simp only [fn, bartlett, hd, bind, Except.bind, RndWin.div, Win.div, if_neg hne, pure, Except.pure, hM2]
      unfold RndWinL.slope at e1 e2
      rw [e1]
      exact e2
    · have w := Mem.wrote_append w1 (by rw [List.length_map, List.length_range']; exact w2)
      have hr : List.range N = List.range' 0 ((N + 1) / 2) ++ List.range' ((N + 1) / 2) (N - (N + 1) / 2) := by
        have := List.range'_append (s := 0) (m := (N + 1) / 2) (n := N - (N + 1) / 2) (step := 1)
        rw [Nat.zero_add, Nat.one_mul] at this
        rw [List.range_eq_range', this]
        congr 1; omega
      rw [hr, List.map_append]
      convert w using 2
      · apply List.map_congr_left
        intro i hi
        rw [List.mem_range'_1] at hi
        simp only [stored]
        rw [if_pos (by omega)]
      · apply List.map_congr_left
        intro i hi
        rw [List.mem_range'_1] at hi
        simp only [stored]
        rw [if_neg (by omega)]

/-! ### Triangular -/

theorem tri_facts {p N i : ℕ} (hp : 24 ≤ p) (hq : p ≤ 53) (hN : 2 ≤ N) (hi : i < N) (h : N ≤ 2 ^ p) :
    steps p (rnd p (-((N : ℝ) - 1))) i = -((N : ℝ) - 1) + 2 * i ∧ rem p N = lit p (triangularBase N) ∧
      (N : ℝ) - 1 ≤ rem p N := by
  have h53 : N ≤ 2 ^ 53 := h.trans (Nat.pow_le_pow_right (by norm_num) hq)
  have hz : ((2 : ℤ) ^ p) = ((2 ^ p : ℕ) : ℤ) := by push_cast; rfl
  have hcast : ∀ q : ℕ, 1 ≤ q → N ≤ 2 ^ q → rnd q ((N : ℝ) - 1) = (N : ℝ) - 1 := by
    intro q hq1 hq2
    have hz : ((2 : ℤ) ^ q) = ((2 ^ q : ℕ) : ℤ) := by push_cast; rfl
    have := rnd_int hq1 (m := (N : ℤ) - 1) (by rw [abs_of_nonneg (by omega), hz]; omega)
    push_cast at this
    exact this
  have e : rem p N = lit p (triangularBase N) := by
    unfold rem lit
    have e1 : rnd 53 (N : ℝ) = N := by
      have := rnd_int (p := 53) (by norm_num) (m := (N : ℤ)) (by rw [Nat.abs_cast]; exact_mod_cast h53)
      simpa using this
    rw [if_pos h53, e1, C38.remainder_base hN]
  refine ⟨?_, e, ?_⟩
  · rw [rnd_neg, hcast p (by omega) h]
    have := steps_exact (p := p) (by omega) i (-((N : ℤ) - 1)) (by
      intro j hj
      rw [abs_le, hz]
      constructor <;> omega)
    push_cast at this
    rw [this]
  · rw [e, lit]
    have h1 := rnd_mono (p := 53) (by norm_num) (C38.base_pos hN).2
    rw [hcast 53 (by norm_num) h53] at h1
    have h2 := rnd_mono (p := p) (by omega) h1
    rwa [hcast p (by omega) h] at h2

theorem tri_abs {N i : ℕ} (hi : i < N) : |-((N : ℝ) - 1) + 2 * i| ≤ (N : ℝ) - 1 := by
  have h2 : ((i + 1 : ℕ) : ℝ) ≤ N := by exact_mod_cast hi
  push_cast at h2
  have h0 : (0 : ℝ) ≤ i := Nat.cast_nonneg i
  rw [abs_le]
  constructor <;> linarith

theorem tri_quot {p N i : ℕ} (hp : 24 ≤ p) (hq : p ≤ 53) (hN : 2 ≤ N) (hi : i < N) (h : N ≤ 2 ^ p) :
    |rnd p (steps p (rnd p (-((N : ℝ) - 1))) i / rem p N)| ≤ 1 := by
  obtain ⟨h1, -, h3⟩ := tri_facts hp hq hN hi h
  have hr := rem_pos (p := p) (by omega) hN
  rw [h1]
  apply abs_rnd_le (by omega) (rnd_one (by omega))
  rw [abs_div, abs_of_pos hr, div_le_one hr]
  exact (tri_abs hi).trans h3

theorem tri_err {p N i : ℕ} (hp : 24 ≤ p) (hq : p ≤ 53) (hN : 2 ≤ N) (hi : i < N) (h : N ≤ 2 ^ p) (c : ℝ → ℝ) :
    |stored p c .triangular N i - Window.triangular.value N i| ≤ 6 * u p := by
  have hu := u_pos p
  obtain ⟨h1, h2, h3⟩ := tri_facts hp hq hN hi h
  have hr := rem_pos (p := p) (by omega) hN
  have hq1 := tri_quot hp hq hN hi h
  obtain ⟨hB, hB'⟩ := C38.base_pos hN
  have hl := lit_err hp hq (triangularBase N : ℝ)
  rw [← h2, abs_of_pos hB] at hl
  have ha := tri_abs hi
  have hv : Window.triangular.value N i = 1 - |(-((N : ℝ) - 1) + 2 * i) / (triangularBase N : ℝ)| := by
    simp only [Window.value]
    congr 2
    field_simp
    ring
  rw [hv]
  simp only [stored]
  rw [h1] at hq1 ⊢
  set I := -((N : ℝ) - 1) + 2 * (i : ℝ)
  set B : ℝ := (triangularBase N : ℝ)
  set R := rem p N
  have e1 : |I / R - I / B| ≤ 3 * u p := by
    have e : I / R - I / B = I / R * ((B - R) / B) := by field_simp
    rw [e, abs_mul]
    have a1 : |I / R| ≤ 1 := by
      rw [abs_div, abs_of_pos hr, div_le_one hr]; exact ha.trans h3
    have a2 : |(B - R) / B| ≤ 3 * u p := by
      rw [abs_div, abs_of_pos hB, div_le_iff₀ hB, abs_sub_comm]; exact hl
    calc |I / R| * |(B - R) / B| ≤ 1 * (3 * u p) := mul_le_mul a1 a2 (abs_nonneg _) zero_le_one
      _ = _ := one_mul _
  have e2 := rnd_err p (I / R)
  change _ ≤ u p * _ at e2
  have e3 : u p * |I / R| ≤ u p * 1 := by
    apply mul_le_mul_of_nonneg_left _ hu.le
    rw [abs_div, abs_of_pos hr, div_le_one hr]; exact ha.trans h3
  have e4 := abs_sub_le (rnd p (I / R)) (I / R) (I / B)
  have e5 := abs_abs_sub_abs_le_abs_sub (rnd p (I / R)) (I / B)
  have e6 := abs_nonneg (rnd p (I / R))
  have := complement_err (p := p) (x := |rnd p (I / R)|) (X := |I / B|) (e := 4 * u p) (by linarith)
    (abs_le.mpr ⟨by linarith, by linarith⟩)
  linarith

/-! ### Accuracy -/

theorem first_term {p : ℕ} (hp : 24 ≤ p) (hq : p ≤ 53) {a : ℝ} (ha : 0 ≤ a) (h : a ≤ 1) : |lit p a - a| ≤ 3 * u p := by
  have h1 := lit_err hp hq a
  rw [abs_of_nonneg ha] at h1
  have hu := u_pos p
  nlinarith

theorem abs_small {a b : ℝ} (c : ℝ) (h : |a| ≤ b) (hb : b + |c| ≤ 1) (t : ℝ) : |a - c * Real.cos t| ≤ 1 ∧
    |a + c * Real.cos t| ≤ 1 := by
  have h1 := Real.abs_cos_le_one t
  have h2 : |c * Real.cos t| ≤ |c| := by
    rw [abs_mul]
    nlinarith [abs_nonneg c]
  have h3 := abs_sub a (c * Real.cos t)
  have h4 := abs_add_le a (c * Real.cos t)
  constructor <;> linarith

/-- Two terms. -/
theorem two_err {p : ℕ} (hp : 24 ≤ p) (hq : p ≤ 53) {c : ℝ → ℝ} (hc : CosLike p c) {N i : ℕ} (hN : 2 ≤ N) (hi : i < N)
    {a0 a1 : ℝ} (h0 : 0 ≤ a0) (h1 : 0 ≤ a1) (h1' : a1 ≤ 1 / 2) (hs : a0 + a1 ≤ 1) :
    |minus p c (lit p a0) a1 (tmp p N i) - (a0 - a1 * Real.cos (angle N i))| ≤ (5 + 69 * a1) * u p := by
  have hu := u_pos p
  have hsm := u_small hp
  obtain ⟨t0, t1, t2⟩ := tmp_err hp hq hN hi
  have := minus_err hp hq hc h1 h1' (first_term hp hq h0 (by linarith)) t2 (by rw [abs_of_nonneg h0]; linarith)
    (by nlinarith)
  refine this.trans (le_of_eq ?_)
  ring

/-- Three terms. -/
theorem three_err {p : ℕ} (hp : 24 ≤ p) (hq : p ≤ 53) {c : ℝ → ℝ} (hc : CosLike p c) {N i : ℕ} (hN : 2 ≤ N) (hi : i < N)
    {a0 a1 a2 : ℝ} (h0 : 0 ≤ a0) (h1 : 0 ≤ a1) (h1' : a1 ≤ 1 / 2) (h2 : 0 ≤ a2) (h2' : a2 ≤ 1 / 2)
    (hs : a0 + a1 ≤ 1) :
    |plus p c (minus p c (lit p a0) a1 (tmp p N i)) a2 (rnd p (2 * tmp p N i)) -
      (a0 - a1 * Real.cos (angle N i) + a2 * Real.cos (2 * angle N i))| ≤ (7 + 69 * a1 + 146 * a2) * u p := by
  have hu := u_pos p
  have hsm := u_small hp
  have e := two_err hp hq hc hN hi h0 h1 h1' hs
  have t := mult_err hp hq hN hi 2 (by norm_num)
  have := plus_err hp hq hc h2 h2' e t
    (abs_small (b := a0) a1 (abs_of_nonneg h0).le (by rw [abs_of_nonneg h1]; exact hs) _).1
    (by nlinarith)
  refine this.trans (le_of_eq ?_)
  ring

/-- Four terms. -/
theorem four_err {p : ℕ} (hp : 24 ≤ p) (hq : p ≤ 53) {c : ℝ → ℝ} (hc : CosLike p c) {N i : ℕ} (hN : 2 ≤ N) (hi : i < N)
    {a0 a1 a2 a3 : ℝ} (h0 : 0 ≤ a0) (h1 : 0 ≤ a1) (h1' : a1 ≤ 1 / 2) (h2 : 0 ≤ a2) (h2' : a2 ≤ 1 / 2) (h3 : 0 ≤ a3)
    (h3' : a3 ≤ 1 / 2) (hs : a0 + a1 + a2 ≤ 1) :
    |minus p c (plus p c (minus p c (lit p a0) a1 (tmp p N i)) a2 (rnd p (2 * tmp p N i))) a3 (rnd p (3 * tmp p N i)) -
      (a0 - a1 * Real.cos (angle N i) + a2 * Real.cos (2 * angle N i) - a3 * Real.cos (3 * angle N i))| ≤
      (9 + 69 * a1 + 146 * a2 + 216 * a3) * u p := by
  have hu := u_pos p
  have hsm := u_small hp
  have e := three_err hp hq hc hN hi h0 h1 h1' h2 h2' (by linarith)
  have t := mult_err hp hq hN hi 3 (by norm_num)
  have b : |a0 - a1 * Real.cos (angle N i) + a2 * Real.cos (2 * angle N i)| ≤ 1 := by
    have c1 := abs_le.mp (Real.abs_cos_le_one (angle N i))
    have c2 := abs_le.mp (Real.abs_cos_le_one (2 * angle N i))
    rw [abs_le]
    constructor <;> nlinarith [c1.1, c1.2, c2.1, c2.2]
  have := minus_err hp hq hc h3 h3' e t b (by nlinarith)
  refine this.trans (le_of_eq ?_)
  ring

/-- Five terms. -/
theorem five_err {p : ℕ} (hp : 24 ≤ p) (hq : p ≤ 53) {c : ℝ → ℝ} (hc : CosLike p c) {N i : ℕ} (hN : 2 ≤ N) (hi : i < N)
    {a0 a1 a2 a3 a4 : ℝ} (h0 : 0 ≤ a0) (h1 : 0 ≤ a1) (h1' : a1 ≤ 1 / 2) (h2 : 0 ≤ a2) (h2' : a2 ≤ 1 / 2) (h3 : 0 ≤ a3)
    (h3' : a3 ≤ 1 / 2) (h4 : 0 ≤ a4) (h4' : a4 ≤ 1 / 2) (hs : a0 + a1 + a2 + a3 ≤ 1) :
    |plus p c (minus p c (plus p c (minus p c (lit p a0) a1 (tmp p N i)) a2 (rnd p (2 * tmp p N i))) a3
        (rnd p (3 * tmp p N i))) a4 (rnd p (4 * tmp p N i)) -
      (a0 - a1 * Real.cos (angle N i) + a2 * Real.cos (2 * angle N i) - a3 * Real.cos (3 * angle N i) +
        a4 * Real.cos (4 * angle N i))| ≤ (11 + 69 * a1 + 146 * a2 + 216 * a3 + 286 * a4) * u p := by
  have hu := u_pos p
  have hsm := u_small hp
  have e := four_err hp hq hc hN hi h0 h1 h1' h2 h2' h3 h3' (by linarith)
  have t := mult_err hp hq hN hi 4 (by norm_num)
  have b : |a0 - a1 * Real.cos (angle N i) + a2 * Real.cos (2 * angle N i) - a3 * Real.cos (3 * angle N i)| ≤ 1 := by
    have c1 := abs_le.mp (Real.abs_cos_le_one (angle N i))
    have c2 := abs_le.mp (Real.abs_cos_le_one (2 * angle N i))
    have c3 := abs_le.mp (Real.abs_cos_le_one (3 * angle N i))
    rw [abs_le]
    constructor <;> nlinarith [c1.1, c1.2, c2.1, c2.2, c3.1, c3.2]
  have := plus_err hp hq hc h4 h4' e t b (by nlinarith)
  refine this.trans (le_of_eq ?_)
  ring

theorem cosWin2 (a0 a1 t : ℝ) : cosineWindow [a0, a1] 0 t = a0 - a1 * Real.cos t := by
  simp only [cosineWindow]
  norm_num
  ring

theorem cosWin3 (a0 a1 a2 t : ℝ) :
    cosineWindow [a0, a1, a2] 0 t = a0 - a1 * Real.cos t + a2 * Real.cos (2 * t) := by
  simp only [cosineWindow]
  norm_num
  ring

theorem cosWin4 (a0 a1 a2 a3 t : ℝ) : cosineWindow [a0, a1, a2, a3] 0 t =
    a0 - a1 * Real.cos t + a2 * Real.cos (2 * t) - a3 * Real.cos (3 * t) := by
  simp only [cosineWindow]
  norm_num
  ring

theorem cosWin5 (a0 a1 a2 a3 a4 t : ℝ) : cosineWindow [a0, a1, a2, a3, a4] 0 t =
    a0 - a1 * Real.cos t + a2 * Real.cos (2 * t) - a3 * Real.cos (3 * t) + a4 * Real.cos (4 * t) := by
  simp only [cosineWindow]
  norm_num
  ring

theorem hann_value (N i : ℕ) : Window.hanning.value N i = 0.5 - 0.5 * Real.cos (angle N i) := by
  simp only [Window.value]
  rw [Real.sin_sq_eq_half_sub, mul_div_cancel₀ _ (two_ne_zero)]
  norm_num
  ring

theorem bartlett_err {p : ℕ} (hp : 24 ≤ p) {N i : ℕ} (hN : 2 ≤ N) (hi : i < N) (c : ℝ → ℝ) :
    |stored p c .bartlett N i - Window.bartlett.value N i| ≤ 23 * u p := by
  have hu := u_pos p
  have hs := slope_err hp hN hi
  have hpos := C38.size_pos hN
  simp only [stored, Window.value]
  split
  · rename_i h
    have h3 : 2 * (i : ℝ) ≤ (N : ℝ) - 1 := by
      have : ((2 * i + 1 : ℕ) : ℝ) ≤ N := by exact_mod_cast h
      push_cast at this; linarith
    have h4 : 2 * (i : ℝ) / ((N : ℝ) - 1) ≤ 1 := (div_le_one hpos).2 h3
    rw [abs_of_nonpos (by linarith : 2 * (i : ℝ) / ((N : ℝ) - 1) - 1 ≤ 0)]
    rw [show 1 - -(2 * (i : ℝ) / ((N : ℝ) - 1) - 1) = 2 * (i : ℝ) / ((N : ℝ) - 1) by ring]
    linarith
  · rename_i h
    have h3 : (N : ℝ) - 1 ≤ 2 * (i : ℝ) := by
      have : (N : ℝ) ≤ ((2 * i + 1 : ℕ) : ℝ) := by exact_mod_cast (by omega : N ≤ 2 * i + 1)
      push_cast at this; linarith
    have h4 : 1 ≤ 2 * (i : ℝ) / ((N : ℝ) - 1) := (one_le_div hpos).2 h3
    rw [abs_of_nonneg (by linarith : 0 ≤ 2 * (i : ℝ) / ((N : ℝ) - 1) - 1)]
    obtain ⟨s1, s2⟩ := slope_high (p := p) (by omega) hN hi (by omega)
    have hsm := u_small hp
    have h5 := complement_err (p := p) (x := slope p N i - 1) (X := 2 * (i : ℝ) / ((N : ℝ) - 1) - 1) (e := 21 * u p)
      (by rw [sub_sub_sub_cancel_right]; exact hs) (abs_le.mpr ⟨by linarith, by linarith⟩)
    rw [show 1 - (slope p N i - 1) = 2 - slope p N i by ring] at h5
    linarith

/-- Blackman-Harris and Blackman-Nuttall are well above 0. -/
theorem four_pos {a0 a1 a2 a3 e : ℝ} (h3 : 0 ≤ a3) (h2 : 6 * a3 ≤ a2) (hs : a0 - a1 + a2 - a3 = e)
    (hd : 4 * a2 ≤ a1 + 9 * a3) (t : ℝ) :
    e ≤ a0 - a1 * Real.cos t + a2 * Real.cos (2 * t) - a3 * Real.cos (3 * t) := by
  have h1 := Real.abs_cos_le_one t
  rw [Real.cos_two_mul, Real.cos_three_mul]
  obtain ⟨l, r⟩ := abs_le.mp h1
  set x := Real.cos t
  have e1 : a0 - a1 * x + a2 * (2 * x ^ 2 - 1) - a3 * (4 * x ^ 3 - 3 * x) - e =
      (1 - x) * ((a1 + 9 * a3 - 4 * a2) + (1 - x) * (2 * a2 - 12 * a3 + 4 * a3 * (1 - x))) := by
    rw [← hs]; ring
  have e2 : 0 ≤ (1 - x) * ((a1 + 9 * a3 - 4 * a2) + (1 - x) * (2 * a2 - 12 * a3 + 4 * a3 * (1 - x))) := by
    have y : 0 ≤ 1 - x := by linarith
    have := mul_nonneg h3 y
    exact mul_nonneg y (add_nonneg (by linarith) (mul_nonneg y (by linarith)))
  linarith

theorem lit_half {p : ℕ} (hp : 1 ≤ p) : lit p 0.5 = 1 / 2 := by
  have h : ∀ q : ℕ, 1 ≤ q → rnd q (1 / 2 : ℝ) = 1 / 2 := by
    intro q hq
    have := rnd_float (isFloat_int hq (m := 1) (-1) (by rw [abs_one]; exact one_le_pow₀ (by norm_num)))
    norm_num at this ⊢
    exact this
  unfold lit
  rw [show (0.5 : ℝ) = 1 / 2 by norm_num, h 53 (by norm_num), h p hp]

theorem hann_range {p : ℕ} (hp : 2 ≤ p) {c : ℝ → ℝ} (hc : CosLike p c) (t : ℝ) :
    0 ≤ hanningAt p c t ∧ hanningAt p c t ≤ 1 := by
  have hl := lit_half (p := p) (by omega)
  have hr : rnd p (1 / 2 : ℝ) = 1 / 2 := by
    rw [← hl]; exact rnd_rnd (by omega) _
  have h1 : |rnd p (lit p 0.5 * c t)| ≤ 1 / 2 := by
    apply abs_rnd_le (by omega) hr
    rw [hl, abs_mul, abs_of_pos (by norm_num)]
    have := hc.range t
    linarith
  obtain ⟨l, r⟩ := abs_le.mp h1
  unfold hanningAt minus
  rw [hl] at *
  exact ⟨rnd_nonneg (by omega) (by linarith), rnd_le_one hp (by have := u_pos p; linarith)⟩

theorem bartlett_range {p : ℕ} (hp : 2 ≤ p) {N i : ℕ} (hN : 2 ≤ N) (hi : i < N) (c : ℝ → ℝ) :
    0 ≤ stored p c .bartlett N i ∧ stored p c .bartlett N i ≤ 1 := by
  simp only [stored]
  split
  · exact slope_low hp hN (by assumption)
  · obtain ⟨h1, h2⟩ := slope_high (p := p) hp hN hi (by omega)
    exact ⟨rnd_nonneg (by omega) (by linarith), rnd_le_one hp (by linarith)⟩

theorem rel_le {p : ℕ} (hp : 24 ≤ p) {x : ℝ} (hx : 0 ≤ x) : rnd p x ≤ 1.00001 * x :=
  (rel p hx).2.trans (mul_le_mul_of_nonneg_right (by have := u_small hp; linarith) hx)

theorem tri_large {p N : ℕ} (hp : 24 ≤ p) (hq : p ≤ 53) (h : 2 ^ (p + 2) + 1 ≤ N) :
    rnd p (rnd p (-((N : ℝ) - 1)) + 2) = rnd p (-((N : ℝ) - 1)) ∧
      0.9995 ≤ |rnd p (rnd p (-((N : ℝ) - 1)) / rem p N)| := by
  have hu := u_pos p
  have hs := u_small hp
  have hNr : (2 : ℝ) ^ (p + 2) ≤ (N : ℝ) - 1 := by
    have : ((2 ^ (p + 2) + 1 : ℕ) : ℝ) ≤ N := by exact_mod_cast h
    push_cast at this
    linarith
  have h26 : (67108864 : ℝ) ≤ (N : ℝ) - 1 := by
    have : (2 : ℝ) ^ 26 ≤ 2 ^ (p + 2) := pow_le_pow_right₀ (by norm_num) (by omega)
    norm_num at this
    linarith
  have hN2 : 2 ≤ N := by
    have : (2 : ℝ) ≤ N := by linarith
    exact_mod_cast this
  have hpw : rnd p ((2 : ℝ) ^ (p + 2)) = 2 ^ (p + 2) := by
    have := rnd_float (isFloat_int (p := p) (by omega) (m := 1) ((p + 2 : ℕ) : ℤ)
      (by rw [abs_one]; exact one_le_pow₀ (by norm_num)))
    rw [zpow_natCast] at this
    simpa using this
  have ht : (2 : ℝ) ^ (p + 2) ≤ rnd p ((N : ℝ) - 1) := by
    have := rnd_mono (p := p) (by omega) hNr
    rwa [hpw] at this
  refine ⟨?_, ?_⟩
  · apply stuck (by omega) (isFloat_rnd (by omega) _)
    rw [rnd_neg]
    linarith
  · have hr := rem_pos (p := p) (by omega) hN2
    obtain ⟨t1, -⟩ := rel p (by linarith : 0 ≤ (N : ℝ) - 1)
    have n0 : 0 ≤ rnd 53 (N : ℝ) := rnd_nonneg (by norm_num) (by linarith)
    have hrem : rem p N ≤ 1.0001 * N := by
      have b1 : rem p N ≤ rnd p (rnd 53 (rnd 53 (N : ℝ) + 1)) := by
        unfold rem
        apply rnd_mono (by omega)
        apply rnd_mono (by norm_num)
        have : (if N ≤ 2 ^ 53 then (Win.remainder2 N : ℝ) else 0) ≤ 1 := by
          split
          · unfold Win.remainder2
            split
            · simp
            · split <;> simp
          · exact zero_le_one
        linarith
      have b0 : 0 ≤ rnd 53 (rnd 53 (N : ℝ) + 1) := rnd_nonneg (by norm_num) (by linarith)
      have c1 := rel_le (p := 53) (by norm_num) (by linarith : 0 ≤ (N : ℝ))
      have c2 := rel_le (p := 53) (by norm_num) (by linarith : 0 ≤ rnd 53 (N : ℝ) + 1)
      have c3 := rel_le hp b0
      linarith
    have htl : 0.9999 * N ≤ rnd p ((N : ℝ) - 1) := by nlinarith
    rw [rnd_neg, neg_div, rnd_neg, abs_neg]
    have q1 : 0.9997 ≤ rnd p ((N : ℝ) - 1) / rem p N := by
      rw [le_div_iff₀ hr]
      linarith
    obtain ⟨q2, -⟩ := rel p (by linarith : 0 ≤ rnd p ((N : ℝ) - 1) / rem p N)
    refine le_trans ?_ (le_abs_self _)
    nlinarith

end Edsp.RndWinL
