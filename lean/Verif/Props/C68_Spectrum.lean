import Verif.Props.C45_Transforms
import Mathlib.Tactic.Linarith
import Mathlib.Data.List.Rotate

/-!
# C68: the power spectrum
-/

namespace Edsp.Spectral

open Complex Finset Edsp.Mem Edsp.Spec Edsp.Fourier

/-- C68: `spectrum` of `n` real samples stores the squared magnitudes of the first `n/2 + 1` bins and nothing
else; the destination may overlap the range. -/
theorem C68_spectrum {m : List ℝ} {first n d : ℕ} (h0 : 0 < n) (h31 : n < 2147483648)
    (hs : first + n ≤ m.length) (hd : d + (n / 2 + 1) ≤ m.length) :
    ∃ m', spectrum m first (first + n) d = .ok m' ∧
      Wrote m m' d ((List.range (n / 2 + 1)).map fun k => ‖bin (ofReals (seg m first (first + n))) k‖ ^ 2) := by
  have eb : (makeFftSize (n : ℤ)).toNat = n / 2 + 1 := by rw [C45_bins]; rfl
  obtain ⟨X, h1, w1⟩ := C45_dft (m := List.replicate (n / 2 + 1) 0) (d := 0) h0 h31 hs (by simp)
  have hX := wrote_full w1 (by simp)
  obtain ⟨m', h2, w2⟩ := store_ok (X.map fun v => ‖v‖ ^ 2) m d (by rw [hX]; simpa using hd)
  refine ⟨m', ?_, ?_⟩
  · simp only [spectrum, distance_ok (Nat.le_add_right first n), bind, Except.bind,
      Nat.add_sub_cancel_left, show ¬ ¬ n > 0 from fun h => h h0, if_false, eb, h1, h2]
  · rw [hX, List.map_map] at w2
    exact w2

/-- C68: an empty range is rejected. -/
theorem C68_empty (m : List ℝ) (p d : ℕ) : spectrum m p p d = .error .assertion := by
  unfold spectrum
  rw [distance_ok (Nat.le_refl p), Nat.sub_self]
  rfl

/-- The bins of the whole transform, summed: the energy of the samples. -/
theorem parseval {x : List ℝ} (h0 : 0 < x.length) :
    ∑ k ∈ range x.length, ‖bin (ofReals x) k‖ ^ 2 = x.length * ∑ j ∈ range x.length, x.getD j 0 ^ 2 := by
  have hN : x.length ≠ 0 := by omega
  have := B_mul_conj hN (fun j => ((x.getD j 0 : ℝ) : ℂ)) (fun j => ((x.getD j 0 : ℝ) : ℂ)) 0
  have e1 : B x.length (fun k => F x.length (fun j => ((x.getD j 0 : ℝ) : ℂ)) k *
      (starRingEnd ℂ) (F x.length (fun j => ((x.getD j 0 : ℝ) : ℂ)) k)) 0 =
      ((∑ k ∈ range x.length, ‖bin (ofReals x) k‖ ^ 2 : ℝ) : ℂ) := by
    unfold B
    rw [ofReal_sum]
    refine sum_congr rfl fun k _ => ?_
    dsimp only
    rw [mul_conj, normSq_eq_norm_sq, bin_ofReals]
    simp
  have e2 : ∑ a ∈ range x.length, ∑ b ∈ range x.length,
      (if (x.length : ℤ) ∣ ((0 : ℕ) : ℤ) - a + b then
        ((x.getD a 0 : ℝ) : ℂ) * (starRingEnd ℂ) ((x.getD b 0 : ℝ) : ℂ) else 0) =
      ((∑ j ∈ range x.length, x.getD j 0 ^ 2 : ℝ) : ℂ) := by
    rw [ofReal_sum]
    refine sum_congr rfl fun a ha => ?_
    rw [sum_congr rfl (g := fun b => if b = a then ((x.getD a 0 : ℝ) : ℂ) ^ 2 else 0)]
    · rw [sum_ite_eq', if_pos ha, ofReal_pow]
    · intro b hb
      have ha := mem_range.mp ha
      have hb := mem_range.mp hb
      have hd : ((x.length : ℤ) ∣ ((0 : ℕ) : ℤ) - a + b) ↔ b = a := by
        rw [← dvd_sub_small hb ha]
        have : ((0 : ℕ) : ℤ) - a + b = b - a := by push_cast; ring
        rw [this]
      by_cases hba : b = a
      · rw [if_pos hba, if_pos (hd.mpr hba), conj_ofReal, hba, sq]
      · rw [if_neg hba, if_neg (fun h => hba (hd.mp h))]
  rw [e1, e2] at this
  have h3 : ((∑ k ∈ range x.length, ‖bin (ofReals x) k‖ ^ 2 : ℝ) : ℂ) =
      ((x.length * ∑ j ∈ range x.length, x.getD j 0 ^ 2 : ℝ) : ℂ) := by
    rw [this]
    push_cast
    ring
  exact ofReal_injective h3

/-- A sum over all bins, folded at the middle. -/
theorem fold_bins {n : ℕ} (h0 : 0 < n) {f : ℕ → ℝ} (hf : ∀ k, 0 < k → k < n → f (n - k) = f k) :
    ∑ k ∈ range n, f k = f 0 + (if n % 2 = 0 then f (n / 2) else 0) + 2 * ∑ k ∈ Ico 1 ((n + 1) / 2), f k := by
  have high : ∑ k ∈ Ico (n / 2 + 1) n, f k = ∑ k ∈ Ico 1 ((n + 1) / 2), f k := by
    refine sum_nbij' (fun k => n - k) (fun k => n - k) ?_ ?_ ?_ ?_ ?_
    · intro k hk; have hk := mem_Ico.mp hk; exact mem_Ico.mpr ⟨by omega, by omega⟩
    · intro k hk; have hk := mem_Ico.mp hk; exact mem_Ico.mpr ⟨by omega, by omega⟩
    · intro k hk; have hk := mem_Ico.mp hk; omega
    · intro k hk; have hk := mem_Ico.mp hk; omega
    · intro k hk; have hk := mem_Ico.mp hk; exact (hf k (by omega) (by omega)).symm
  rw [range_eq_Ico, ← sum_Ico_consecutive f (Nat.zero_le (n / 2 + 1)) (by omega : n / 2 + 1 ≤ n),
    sum_eq_sum_Ico_succ_bot (by omega : 0 < n / 2 + 1), high]
  split
  · rename_i he
    have e1 : (n + 1) / 2 = n / 2 := by omega
    rw [e1, zero_add, sum_Ico_succ_top (by omega : 1 ≤ n / 2)]
    ring
  · rename_i he
    have e1 : (n + 1) / 2 = n / 2 + 1 := by omega
    rw [e1, zero_add]
    ring

/-- C68 (energy): the stored values, counting the bins strictly between 0 and `n/2` twice, add up to `n` times the
sum of the squares of the samples. -/
theorem C68_energy {m : List ℝ} {first n d : ℕ} (h0 : 0 < n) (h31 : n < 2147483648)
    (hs : first + n ≤ m.length) (hd : d + (n / 2 + 1) ≤ m.length) :
    ∃ m' S, spectrum m first (first + n) d = .ok m' ∧ Wrote m m' d S ∧ S.length = n / 2 + 1 ∧
      (∀ v ∈ S, 0 ≤ v) ∧
      S.getD 0 0 + (if n % 2 = 0 then S.getD (n / 2) 0 else 0) + 2 * ∑ k ∈ Ico 1 ((n + 1) / 2), S.getD k 0 =
        n * ((seg m first (first + n)).map fun v => v ^ 2).sum := by
  obtain ⟨m', h1, w⟩ := C68_spectrum h0 h31 hs hd
  have hl : (seg m first (first + n)).length = n := by rw [seg_length hs]; omega
  refine ⟨m', _, h1, w, by simp, ?_, ?_⟩
  · intro v hv
    obtain ⟨k, _, rfl⟩ := List.mem_map.mp hv
    positivity
  · generalize seg m first (first + n) = x at *
    have e : ∀ k, k < n / 2 + 1 → ((List.range (n / 2 + 1)).map fun k => ‖bin (ofReals x) k‖ ^ 2).getD k 0 =
        ‖bin (ofReals x) k‖ ^ 2 := fun k hk => getD_map_range _ _ hk
    rw [e 0 (by omega), e (n / 2) (by omega), sum_congr rfl fun k hk => e k (by have := mem_Ico.mp hk; omega),
      ← fold_bins h0 (f := fun k => ‖bin (ofReals x) k‖ ^ 2)]
    · have := parseval (x := x) (by omega)
      rw [hl] at this
      rw [this]
      congr 1
      conv_rhs => rw [← map_range_getD 0 x, hl]
      rw [List.map_map, ← List.sum_toFinset _ List.nodup_range, List.toFinset_range]
      rfl
    · intro k _ hk
      have := C45_redundant (x := x) (by omega) (k := k) (by omega)
      rw [hl] at this
      simp only [this, norm_conj]

/-- C68: multiplying the samples by `c` multiplies every value by `c²`. -/
theorem C68_scale {m m2 : List ℝ} {first n d : ℕ} {c : ℝ} (h0 : 0 < n) (h31 : n < 2147483648)
    (hs : first + n ≤ m.length) (hs2 : first + n ≤ m2.length) (hd : d + (n / 2 + 1) ≤ m.length)
    (hd2 : d + (n / 2 + 1) ≤ m2.length)
    (hc : seg m2 first (first + n) = (seg m first (first + n)).map fun v => c * v) :
    ∃ a b S, spectrum m first (first + n) d = .ok a ∧ spectrum m2 first (first + n) d = .ok b ∧
      Wrote m a d S ∧ Wrote m2 b d (S.map fun v => c ^ 2 * v) := by
  obtain ⟨a, h1, w1⟩ := C68_spectrum h0 h31 hs hd
  obtain ⟨b, h2, w2⟩ := C68_spectrum h0 h31 hs2 hd2
  refine ⟨a, b, _, h1, h2, w1, ?_⟩
  rw [hc] at w2
  rw [List.map_map]
  refine (congrArg (Wrote m2 b d) (List.map_congr_left fun k _ => ?_)).mp w2
  generalize seg m first (first + n) = x
  rw [Function.comp, bin_ofReals, bin_ofReals, List.length_map]
  have : F x.length (fun j => (((x.map fun v => c * v).getD j 0 : ℝ) : ℂ)) k =
      c * F x.length (fun j => ((x.getD j 0 : ℝ) : ℂ)) k := by
    unfold F
    rw [mul_sum]
    refine sum_congr rfl fun j _ => ?_
    have : (x.map fun v => c * v).getD j 0 = c * x.getD j 0 := by
      simp only [List.getD, List.getElem?_map]
      cases x[j]? <;> simp
    dsimp only
    rw [this]
    push_cast
    ring
  rw [this, norm_mul, mul_pow, norm_real, Real.norm_eq_abs, sq_abs]

/-- Rotating the samples turns every bin. -/
theorem F_rotate {n : ℕ} (h0 : 0 < n) (f : ℕ → ℂ) (p k : ℕ) :
    F n (fun j => f ((j + p) % n)) k = om n ^ ((p : ℤ) * k) * F n f k := by
  unfold F
  rw [mul_sum]
  refine sum_nbij' (fun j => (j + p) % n) (fun j => (j + (n - p % n)) % n) ?_ ?_ ?_ ?_ ?_
  · intro j _; exact mem_range.mpr (Nat.mod_lt _ h0)
  · intro j _; exact mem_range.mpr (Nat.mod_lt _ h0)
  · intro j hj
    have hj := mem_range.mp hj
    have hp := Nat.mod_lt p h0
    rw [Nat.mod_add_mod]
    have : j + p + (n - p % n) = j + n * (p / n + 1) := by
      have := Nat.div_add_mod p n
      rw [Nat.mul_add]
      omega
    rw [this, Nat.add_mul_mod_self_left, Nat.mod_eq_of_lt hj]
  · intro j hj
    have hj := mem_range.mp hj
    have hp := Nat.mod_lt p h0
    rw [Nat.mod_add_mod]
    have : j + (n - p % n) + p = j + n * (p / n + 1) := by
      have := Nat.div_add_mod p n
      rw [Nat.mul_add]
      omega
    rw [this, Nat.add_mul_mod_self_left, Nat.mod_eq_of_lt hj]
  · intro j _
    rw [Fourier.exp_neg, Fourier.exp_neg, mul_left_comm, ← zpow_add₀ (om_ne n)]
    congr 1
    apply om_zpow_congr (by omega)
    have h := Nat.div_add_mod (j + p) n
    refine ⟨-((((j + p) / n : ℕ) : ℤ) * k), ?_⟩
    have h' : (((j + p) % n : ℕ) : ℤ) = j + p - n * ((j + p) / n : ℕ) := by
      have : ((n * ((j + p) / n) + (j + p) % n : ℕ) : ℤ) = ((j + p : ℕ) : ℤ) := by rw [h]
      push_cast at this ⊢
      linarith
    rw [h']
    ring

/-- C68: a circular shift of the samples leaves the spectrum unchanged. -/
theorem C68_shift {m m2 : List ℝ} {first n d p : ℕ} (h0 : 0 < n) (h31 : n < 2147483648)
    (hs : first + n ≤ m.length) (hs2 : first + n ≤ m2.length) (hd : d + (n / 2 + 1) ≤ m.length)
    (hd2 : d + (n / 2 + 1) ≤ m2.length)
    (hc : seg m2 first (first + n) = (seg m first (first + n)).rotate p) :
    ∃ a b S, spectrum m first (first + n) d = .ok a ∧ spectrum m2 first (first + n) d = .ok b ∧
      Wrote m a d S ∧ Wrote m2 b d S := by
  obtain ⟨a, h1, w1⟩ := C68_spectrum h0 h31 hs hd
  obtain ⟨b, h2, w2⟩ := C68_spectrum h0 h31 hs2 hd2
  refine ⟨a, b, _, h1, h2, w1, ?_⟩
  rw [hc] at w2
  refine (congrArg (Wrote m2 b d) (List.map_congr_left fun k _ => ?_)).mp w2
  have hl : (seg m first (first + n)).length = n := by rw [seg_length hs]; omega
  generalize seg m first (first + n) = x at hl
  have hn : ‖om n‖ = 1 := norm_eq_one_of_pow_eq_one (om_prim (by omega)).pow_eq_one (by omega)
  rw [bin_ofReals, bin_ofReals, List.length_rotate, hl]
  rw [F_congr (g := fun j => (fun i => ((x.getD i 0 : ℝ) : ℂ)) ((j + p) % n)), F_rotate h0 (fun i => ((x.getD i 0 : ℝ) : ℂ)) p, norm_mul, norm_zpow, hn,
    one_zpow, one_mul]
  intro j hj
  dsimp only
  congr 1
  rw [List.getD, List.getD, List.getElem?_rotate (by omega), hl]

/-- A range meeting the hypotheses: the spectrum of `3, 4` is `49, 1`. -/
example : ∃ m', spectrum [3, 4, 0, 0] 0 (0 + 2) 2 = .ok m' ∧ Wrote [3, 4, 0, 0] m' 2 [49, 1] := by
  obtain ⟨m', h1, w⟩ := C68_spectrum (m := [3, 4, 0, 0]) (first := 0) (n := 2) (d := 2) (by norm_num) (by norm_num)
    (by simp) (by simp)
  refine ⟨m', h1, ?_⟩
  have e0 : bin (ofReals (seg ([3, 4, 0, 0] : List ℝ) 0 (0 + 2))) 0 = 7 := by
    simp [bin, ofReals, seg, sum_range_succ]
    norm_num
  have e1 : bin (ofReals (seg ([3, 4, 0, 0] : List ℝ) 0 (0 + 2))) 1 = -1 := by
    simp [bin, ofReals, seg, sum_range_succ]
    norm_num
  have : (List.range (2 / 2 + 1)).map (fun k => ‖bin (ofReals (seg ([3, 4, 0, 0] : List ℝ) 0 (0 + 2))) k‖ ^ 2) =
      [49, 1] := by
    simp only [List.range, List.range.loop, List.map, e0, e1]
    norm_num
  rwa [this] at w

end Edsp.Spectral
