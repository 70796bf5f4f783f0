import Verif.Props.C45_Transforms
import Verif.Props.C46_Convolution
import Verif.Lemmas.Cosine
import Verif.Spec.Cepstrum
import Mathlib.Analysis.SpecialFunctions.Log.Basic

/-!
# C70: the cepstrum
-/

namespace Edsp.Spectral

open Complex Finset Edsp.Mem Edsp.Spec Edsp.Fourier

theorem zeroPad_getD (x : List ℝ) (j : ℕ) : (zeroPad x).getD j 0 = x.getD j 0 := by
  unfold zeroPad
  rw [List.getD, List.getD]
  rcases Nat.lt_or_ge j x.length with h | h
  · rw [List.getElem?_append_left h]
  · rw [List.getElem?_append_right h, List.getElem?_eq_none h, List.getElem?_replicate]
    split <;> rfl

theorem bin_zeroPad {x : List ℝ} {n : ℕ} (hx : x.length = n) (k : ℕ) :
    bin (ofReals (zeroPad x)) k = F (2 * n) (fun j => ((x.getD j 0 : ℝ) : ℂ)) k := by
  have hl : (zeroPad x).length = 2 * n := by simp [zeroPad, hx]; omega
  rw [bin_ofReals, hl]
  exact F_congr (fun j _ => by rw [zeroPad_getD]) k

theorem mapM_log {l : List ℕ} {f : ℕ → ℂ} (h : ∀ k ∈ l, f k ≠ 0) :
    (l.map f).mapM logAbs = .ok (l.map fun k => ((Real.log ‖f k‖ : ℝ) : ℂ)) := by
  induction l with
  | nil => rfl
  | cons k l ih =>
    have hk : ¬ ‖f k‖ = 0 := by
      rw [norm_eq_zero]
      exact h k (by simp)
    rw [List.map_cons, List.mapM_cons, ih fun k hk => h k (by simp [hk])]
    simp only [logAbs, if_neg hk, bind, Except.bind, pure, Except.pure, List.map_cons]

theorem mapM_log_fail {l : List ℕ} {f : ℕ → ℂ} {k : ℕ} (hk : k ∈ l) (h : f k = 0) :
    (l.map f).mapM logAbs = .error .domain := by
  induction l with
  | nil => cases hk
  | cons a l ih =>
    rw [List.map_cons, List.mapM_cons]
    by_cases ha : ‖f a‖ = 0
    · simp only [logAbs, if_pos ha, bind, Except.bind]
    · have hl : k ∈ l := by
        rcases List.mem_cons.mp hk with rfl | h'
        · exact absurd (norm_eq_zero.mpr h) ha
        · exact h'
      rw [ih hl]
      simp only [logAbs, if_neg ha, bind, Except.bind]

/-- C70: if no bin of the padded transform vanishes, `cepstrum` stores the `n` samples of the real cepstrum and
nothing else. -/
theorem C70_cepstrum_partial {m : List ℝ} {first n d : ℕ} (h0 : 0 < n) (h31 : 2 * n < 2147483648)
    (hs : first + n ≤ m.length) (hd : d + n ≤ m.length)
    (hz : ∀ k, k ≤ n → bin (ofReals (zeroPad (seg m first (first + n)))) k ≠ 0) :
    ∃ m', cepstrum m first (first + n) d = .ok m' ∧
      Wrote m m' d ((List.range n).map (realCepstrum (seg m first (first + n)))) := by
  have hl : (seg m first (first + n)).length = n := by rw [seg_length hs]; omega
  obtain ⟨b, p1, l1, g1⟩ := padded_ok hs
  generalize seg m first (first + n) = x at *
  have hN : 2 * n ≠ 0 := by omega
  have hNr : ((2 * n : ℕ) : ℝ) ≠ 0 := Nat.cast_ne_zero.mpr hN
  simp only [bin_zeroPad hl] at hz
  obtain ⟨m', w1, w2⟩ := store_ok ((List.range n).map (realCepstrum x)) m d (by simpa using hd)
  refine ⟨m', ?_, w2⟩
  set g : ℕ → ℂ := fun k => ((Real.log ‖F (2 * n) (fun j => ((x.getD j 0 : ℝ) : ℂ)) k‖ : ℝ) : ℂ) with hg
  obtain ⟨o, s1, s2⟩ := idftScale_exec (n := 2 * n) (d := 0) (pl := some .c2r)
    (wrote_self (m := (List.range (2 * n)).map fun j => (B (2 * n) g j).re) (d := 0) (e := 2 * n) (by omega) (by simp))
    (by rw [seg_length (by simp)]; rfl)
  have ho : o = (List.range (2 * n)).map fun j => (B (2 * n) g j).re / ((2 * n : ℕ) : ℝ) := by
    have sa : ∀ f : ℕ → ℝ, seg ((List.range (2 * n)).map f) 0 (2 * n) = (List.range (2 * n)).map f := by
      intro f
      have := seg_all ((List.range (2 * n)).map f)
      rwa [List.length_map, List.length_range, Nat.zero_add] at this
    rw [sa] at s2
    rw [wrote_full s2 (by simp), List.map_map]
    rfl
  have hr : (List.range n).map (fun j => (B (2 * n) g j).re / ((2 * n : ℕ) : ℝ)) =
      (List.range n).map (realCepstrum x) := by
    refine List.map_congr_left fun j _ => ?_
    unfold realCepstrum B
    rw [hl, Complex.re_sum]
    push_cast
    congr 1
    refine sum_congr rfl fun k _ => ?_
    rw [bin_zeroPad hl, hg]
    dsimp only
    rw [Complex.re_ofReal_mul]
    congr 1
    have c : (exp (2 * Real.pi * I * j * k / (2 * n : ℕ))) =
        (starRingEnd ℂ) (exp (-(2 * Real.pi * I * j * k / (2 * n : ℕ)))) := by
      rw [exp_pos, Fourier.exp_neg, conj_om_zpow, neg_neg]
    rw [cis_eq] at c
    have e := congrArg Complex.re c
    rw [Complex.conj_re, Complex.sub_re, Complex.ofReal_re, Complex.I_mul_re, Complex.ofReal_im, neg_zero,
      sub_zero] at e
    push_cast at e
    exact e
  have hin := fresh_idft (g := g) h0 (by rw [hg]; exact conj_ofReal _)
    (fun k _ hk => by
      rw [hg]
      dsimp only
      rw [conj_ofReal, ← F_herm hN x (by omega), norm_conj])
  have ef1 := fresh_dft h0 (Or.inl rfl) l1 g1
  have hm := mapM_log (l := List.range (n + 1)) (f := F (2 * n) (fun j => ((x.getD j 0 : ℝ) : ℂ)))
    (fun k hk => hz k (by have := List.mem_range.mp hk; omega))
  have hd1 : distance first (first + n) = .ok n := by
    rw [distance_ok (Nat.le_add_right first n), Nat.add_sub_cancel_left]
  unfold cepstrum
  rw [hd1]
  simp only [bind, Except.bind, show ¬ ¬ n > 0 from fun h => h h0, if_false,
    make_ok h31, p1, bins_toNat, ef1, hm]
  rw [← hg]
  simp only [hin, s1]
  rw [ho, readRange_take]
  simp only [hr, w1]

/-- C70 is violated: if some bin of the padded transform vanishes, the logarithm of 0 is taken. -/
theorem C70_zero_bin_violates {m : List ℝ} {first n d k : ℕ} (h0 : 0 < n) (h31 : 2 * n < 2147483648)
    (hs : first + n ≤ m.length) (hk : k ≤ n)
    (hz : bin (ofReals (zeroPad (seg m first (first + n)))) k = 0) :
    cepstrum m first (first + n) d = .error .domain := by
  have hl : (seg m first (first + n)).length = n := by rw [seg_length hs]; omega
  obtain ⟨b, p1, l1, g1⟩ := padded_ok hs
  rw [bin_zeroPad hl] at hz
  have ef1 := fresh_dft h0 (Or.inl rfl) l1 g1
  have hm := mapM_log_fail (l := List.range (n + 1)) (List.mem_range.mpr (by omega)) hz
  have hd1 : distance first (first + n) = .ok n := by
    rw [distance_ok (Nat.le_add_right first n), Nat.add_sub_cancel_left]
  unfold cepstrum
  rw [hd1]
  simp only [bind, Except.bind, show ¬ ¬ n > 0 from fun h => h h0, if_false,
    make_ok h31, p1, bins_toNat, ef1, hm]

/-- In particular samples that add up to 0 have no cepstrum. -/
theorem C70_no_mean_violates {m : List ℝ} {first n d : ℕ} (h0 : 0 < n) (h31 : 2 * n < 2147483648)
    (hs : first + n ≤ m.length) (hz : (seg m first (first + n)).sum = 0) :
    cepstrum m first (first + n) d = .error .domain := by
  have hl : (seg m first (first + n)).length = n := by rw [seg_length hs]; omega
  refine C70_zero_bin_violates h0 h31 hs (Nat.zero_le n) ?_
  have : (zeroPad (seg m first (first + n))).sum = 0 := by simp [zeroPad, hz]
  generalize zeroPad (seg m first (first + n)) = y at this
  rw [bin_ofReals]
  unfold F
  have e : ∀ j ∈ range y.length, ((y.getD j 0 : ℝ) : ℂ) * exp (-(2 * Real.pi * I * j * (0 : ℕ) / y.length)) =
      ((y.getD j 0 : ℝ) : ℂ) := by
    intro j _
    simp
  rw [sum_congr rfl e, ← ofReal_sum]
  have : ∑ j ∈ range y.length, y.getD j 0 = y.sum := by
    conv_rhs => rw [← map_range_getD 0 y]
    rw [← List.sum_toFinset _ List.nodup_range, List.toFinset_range]
  rw [this]
  simp_all

/-- C70: an empty range is rejected. -/
theorem C70_empty (m : List ℝ) (p d : ℕ) : cepstrum m p p d = .error .assertion := by
  unfold cepstrum
  rw [distance_ok (Nat.le_refl p), Nat.sub_self]
  rfl

theorem bin_scaled (x : List ℝ) (c : ℝ) (k : ℕ) :
    bin (ofReals (zeroPad (x.map fun v => c * v))) k = c * bin (ofReals (zeroPad x)) k := by
  rw [bin_zeroPad (List.length_map ..), bin_zeroPad rfl]
  unfold F
  rw [mul_sum]
  refine sum_congr rfl fun j _ => ?_
  have : (x.map fun v => c * v).getD j 0 = c * x.getD j 0 := by
    simp only [List.getD, List.getElem?_map]
    cases x[j]? <;> simp
  dsimp only
  rw [this]
  push_cast
  ring

theorem level (x : List ℝ) {c : ℝ} (hc : c ≠ 0) (h0 : 0 < x.length)
    (hz : ∀ k, k < 2 * x.length → bin (ofReals (zeroPad x)) k ≠ 0) {j : ℕ} (hj : j < x.length) :
    realCepstrum (x.map fun v => c * v) j = realCepstrum x j + if j = 0 then Real.log |c| else 0 := by
  have hNr : (2 * x.length : ℝ) ≠ 0 := by
    have : (x.length : ℝ) ≠ 0 := Nat.cast_ne_zero.mpr (by omega)
    positivity
  have hF := bin_scaled x c
  have orth := cos_orth (N := 2 * x.length) (by omega) (j : ℤ)
  have e : ∀ k ∈ range (2 * x.length), Real.log ‖bin (ofReals (zeroPad (x.map fun v => c * v))) k‖ *
      Real.cos (2 * Real.pi * k * j / (2 * x.length)) =
      Real.log ‖bin (ofReals (zeroPad x)) k‖ * Real.cos (2 * Real.pi * k * j / (2 * x.length)) +
      Real.log |c| * Real.cos (2 * Real.pi * ((k : ℤ) * j : ℤ) / (2 * x.length : ℕ)) := by
    intro k hk
    have hb := norm_ne_zero_iff.mpr (hz k (mem_range.mp hk))
    rw [hF, norm_mul, norm_real, Real.norm_eq_abs, Real.log_mul (abs_ne_zero.mpr hc) hb]
    have : 2 * Real.pi * ((k : ℤ) * j : ℤ) / (2 * x.length : ℕ) = 2 * Real.pi * k * j / (2 * x.length) := by
      push_cast; ring
    rw [this]
    ring
  unfold realCepstrum
  rw [List.length_map, sum_congr rfl e, sum_add_distrib, ← mul_sum, orth, add_div]
  congr 1
  have hd : ((2 * x.length : ℕ) : ℤ) ∣ (j : ℤ) ↔ j = 0 := by
    constructor
    · intro h
      have := Int.natCast_dvd_natCast.mp h
      exact Nat.eq_zero_of_dvd_of_lt this (by omega)
    · rintro rfl; simp
  by_cases h : j = 0
  · rw [if_pos h, if_pos (hd.mpr h)]
    push_cast
    field_simp
  · rw [if_neg h, if_neg (fun h' => h (hd.mp h')), mul_zero, zero_div]

/-- C70: a change of the level of the samples by a factor `c ≠ 0` adds `log |c|` to sample 0 of the cepstrum and
changes no other. -/
theorem C70_level {m m2 : List ℝ} {first n d : ℕ} {c : ℝ} (hc : c ≠ 0) (h0 : 0 < n) (h31 : 2 * n < 2147483648)
    (hs : first + n ≤ m.length) (hs2 : first + n ≤ m2.length) (hd : d + n ≤ m.length) (hd2 : d + n ≤ m2.length)
    (hz : ∀ k, k ≤ n → bin (ofReals (zeroPad (seg m first (first + n)))) k ≠ 0)
    (hm : seg m2 first (first + n) = (seg m first (first + n)).map fun v => c * v) :
    ∃ a b S, cepstrum m first (first + n) d = .ok a ∧ cepstrum m2 first (first + n) d = .ok b ∧
      Wrote m a d S ∧ Wrote m2 b d (S.mapIdx fun j v => if j = 0 then v + Real.log |c| else v) := by
  have hl : (seg m first (first + n)).length = n := by rw [seg_length hs]; omega
  obtain ⟨a, h1, w1⟩ := C70_cepstrum_partial h0 h31 hs hd hz
  have hz2 : ∀ k, k ≤ n → bin (ofReals (zeroPad (seg m2 first (first + n)))) k ≠ 0 := by
    intro k hk
    rw [hm, bin_scaled]
    exact mul_ne_zero (ofReal_ne_zero.mpr hc) (hz k hk)
  obtain ⟨b, h2, w2⟩ := C70_cepstrum_partial h0 h31 hs2 hd2 hz2
  refine ⟨a, b, _, h1, h2, w1, ?_⟩
  rw [hm] at w2
  generalize seg m first (first + n) = x at *
  have hall : ∀ k, k < 2 * x.length → bin (ofReals (zeroPad x)) k ≠ 0 := by
    intro k hk
    rcases Nat.lt_or_ge n k with h | h
    · have hN : (zeroPad x).length = 2 * n := by simp [zeroPad, hl]; omega
      have := C45_redundant (x := zeroPad x) (by omega) (k := 2 * n - k) (by omega)
      rw [hN, show 2 * n - (2 * n - k) = k by omega] at this
      rw [this]
      exact (map_ne_zero _).mpr (hz _ (by omega))
    · exact hz k h
  refine (congrArg (Wrote m2 b d) ?_).mp w2
  apply List.ext_getElem
  · simp
  · intro i i1 i2
    have hi : i < n := by simpa using i1
    simp only [List.getElem_map, List.getElem_range, List.getElem_mapIdx]
    rw [level x hc (by omega) hall (by omega)]
    split <;> simp

/-- C70 is violated: the documentation promises `|F⁻¹ log |F x|²|²`; the single sample 2 gives `log 2` instead of
`(log 4)²`. -/
theorem C70_documented_violates : ∃ m', cepstrum [2, 0] 0 (0 + 1) 1 = .ok m' ∧ m' = [2, Real.log 2] ∧
    Real.log 2 ≠ (Real.log (2 ^ 2)) ^ 2 := by
  have hb : ∀ k, bin (ofReals (zeroPad (seg ([2, 0] : List ℝ) 0 (0 + 1)))) k = 2 := by
    intro k
    simp [bin, ofReals, zeroPad, seg, sum_range_succ]
  obtain ⟨m', h1, w⟩ := C70_cepstrum_partial (m := [2, 0]) (first := 0) (n := 1) (d := 1) (by norm_num) (by norm_num)
    (by simp) (by simp) (fun k _ => by rw [hb]; norm_num)
  refine ⟨m', h1, ?_, ?_⟩
  · have : (List.range 1).map (realCepstrum (seg ([2, 0] : List ℝ) 0 (0 + 1))) = [Real.log 2] := by
      simp only [List.range_one, List.map_cons, List.map_nil]
      unfold realCepstrum
      simp only [hb]
      simp [seg]
    rw [this] at w
    simpa using w.2
  · have h2 := Real.one_sub_inv_le_log_of_pos (x := 2) (by norm_num)
    rw [Real.log_pow]
    push_cast
    intro h
    nlinarith

end Edsp.Spectral
