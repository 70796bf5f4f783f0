import Verif.Props.C45_Transforms

/-!
# C67: the analytic signal
-/

namespace Edsp.Spectral

open Complex Finset Edsp.Mem Edsp.Spec Edsp.Fourier

/-- Conjugating the backward sum reflects and conjugates the bins. -/
theorem conj_B {N : ℕ} (h : N ≠ 0) (g : ℕ → ℂ) (j : ℕ) :
    (starRingEnd ℂ) (B N g j) = B N (fun k => (starRingEnd ℂ) (g (if k = 0 then 0 else N - k))) j := by
  obtain ⟨M, rfl⟩ := Nat.exists_eq_succ_of_ne_zero h
  unfold B
  rw [map_sum, sum_range_succ', sum_range_succ']
  congr 1
  · rw [← sum_range_reflect]
    refine sum_congr rfl fun k hk => ?_
    have hk := mem_range.mp hk
    have e1 : M + 1 - (k + 1) = M - 1 - k + 1 := by omega
    dsimp only
    rw [map_mul, exp_pos, exp_pos, conj_om_zpow, if_neg (by omega), Nat.succ_eq_add_one, e1]
    congr 1
    apply om_zpow_congr (by omega)
    refine ⟨-j, ?_⟩
    have : ((M - 1 - k + 1 : ℕ) : ℤ) = M - k := by omega
    rw [this]
    push_cast
    ring
  · rw [map_mul, exp_pos, conj_om_zpow]
    simp

theorem hilbertBin_eq {n k : ℕ} (hk : k < n) (v : ℂ) :
    hilbertBin n k v = if k = 0 ∨ 2 * k = n then v else if 2 * k < n then 2 * v else 0 := by
  unfold hilbertBin
  dsimp only
  split_ifs <;> first | omega | rfl | (exact mul_comm _ _)

theorem mapIdx_map_range {α β : Type} (f : ℕ → α) (h : ℕ → α → β) (n : ℕ) :
    ((List.range n).map f).mapIdx h = (List.range n).map fun k => h k (f k) := by
  apply List.ext_getElem
  · simp
  · intro i h1 h2
    simp

/-- The samples stored by `hilbert`, as a backward sum. -/
theorem hilbert_ok {s : List ℝ} {m : List ℂ} {first n d : ℕ} (h0 : 0 < n) (h31 : n < 2147483648)
    (hs : first + n ≤ s.length) (hd : d + n ≤ m.length) :
    ∃ m', hilbert s first (first + n) m d = .ok m' ∧
      Wrote m m' d ((List.range n).map fun j => B n (fun k => hilbertBin n k
        (F n (fun j => (((seg s first (first + n)).getD j 0 : ℝ) : ℂ)) k)) j / (n : ℂ)) := by
  have hl : (seg s first (first + n)).length = n := by rw [seg_length hs]; omega
  have hr := readRange_ok (Nat.le_add_right first n) hs
  generalize seg s first (first + n) = x at *
  have hlx : (x.map fun v : ℝ => (v : ℂ)).length = n := by simpa using hl
  obtain ⟨X, e1, w1⟩ := cdft_exec (n := n) (s := x.map fun v : ℝ => (v : ℂ)) (p := 0) (d := 0)
    (m := List.replicate n 0) h0 (Or.inl rfl) (by omega) (by simp)
  have hX : X = (List.range n).map (F n fun j => ((x.getD j 0 : ℝ) : ℂ)) := by
    rw [wrote_full w1 (by simp [forward]), forward_eq]
    refine List.map_congr_left fun k _ => F_congr (fun j _ => ?_) k
    have := seg_all (x.map fun v : ℝ => (v : ℂ))
    rw [hlx] at this
    rw [this]
    exact ofReals_getD x j
  subst hX
  obtain ⟨m1, e2, w2⟩ := cidft_exec (n := n) (s := (List.range n).map fun k => hilbertBin n k
    (F n (fun j => ((x.getD j 0 : ℝ) : ℂ)) k)) (p := 0) (d := d) (m := m) h0 (Or.inl rfl) (by simp) hd
  obtain ⟨m', e3, w3⟩ := idftScale_exec (n := n) (pl := some .backward) w2 (by simp [backward])
  refine ⟨m', ?_, ?_⟩
  · simp only [hilbert, distance_ok (Nat.le_add_right first n), bind, Except.bind,
      Nat.add_sub_cancel_left, hr, make_ok h31, e1, mapIdx_map_range, e2, e3]
  · rw [backward_eq, List.map_map] at w3
    refine (congrArg (Wrote m m' d) (List.map_congr_left fun j _ => ?_)).mp w3
    rw [Function.comp]
    congr 1
    refine B_congr (fun k hk => ?_) j
    have := seg_all ((List.range n).map fun k => hilbertBin n k (F n (fun j => ((x.getD j 0 : ℝ) : ℂ)) k))
    rw [List.length_map, List.length_range] at this
    rw [this, getD_map_range _ _ hk]

/-- C67: `hilbert` of `n` real samples stores exactly `n` complex samples; their real parts are the input
samples, and their transform is that of the input with the negative frequencies removed, the positive ones
doubled and the bins 0 and `n/2` unchanged. -/
theorem C67_analytic {s : List ℝ} {m : List ℂ} {first n d : ℕ} (h0 : 0 < n) (h31 : n < 2147483648)
    (hs : first + n ≤ s.length) (hd : d + n ≤ m.length) :
    ∃ m' z, hilbert s first (first + n) m d = .ok m' ∧ Wrote m m' d z ∧ z.length = n ∧
      z.map Complex.re = seg s first (first + n) ∧
      ∀ k, k < n → bin z k =
        if k = 0 ∨ 2 * k = n then bin (ofReals (seg s first (first + n))) k
        else if 2 * k < n then 2 * bin (ofReals (seg s first (first + n))) k else 0 := by
  obtain ⟨m', h1, w⟩ := hilbert_ok h0 h31 hs hd
  have hl : (seg s first (first + n)).length = n := by rw [seg_length hs]; omega
  refine ⟨m', _, h1, w, by simp, ?_, ?_⟩
  · generalize seg s first (first + n) = x at *
    conv_rhs => rw [← map_range_getD 0 x, hl]
    rw [List.map_map]
    refine List.map_congr_left fun j hj => ?_
    have hj := List.mem_range.mp hj
    rw [Function.comp]
    set g : ℕ → ℂ := fun k => hilbertBin n k (F n (fun j => ((x.getD j 0 : ℝ) : ℂ)) k) with hg
    have hn : (n : ℂ) ≠ 0 := Nat.cast_ne_zero.mpr (by omega)
    have key : B n g j + (starRingEnd ℂ) (B n g j) = 2 * (n * ((x.getD j 0 : ℝ) : ℂ)) := by
      rw [conj_B (by omega), ← B_F (by omega) (fun j => ((x.getD j 0 : ℝ) : ℂ)) hj]
      unfold B
      rw [← sum_add_distrib, mul_sum]
      refine sum_congr rfl fun k hk => ?_
      have hk := mem_range.mp hk
      rw [← add_mul, ← mul_assoc]
      congr 1
      have hF0 := F_zero_herm (N := n) (by omega) x
      by_cases hk0 : k = 0
      · subst hk0
        simp only [hg, if_true, hilbertBin_eq hk, true_or, hF0]
        ring
      · dsimp only
        rw [if_neg hk0]
        have hk' : n - k < n := by omega
        have hc := F_herm (N := n) (by omega) x (k := n - k) (by omega)
        rw [show n - (n - k) = k by omega] at hc
        simp only [hg, hilbertBin_eq hk, hilbertBin_eq hk']
        by_cases hm : 2 * k = n
        · rw [if_pos (Or.inr hm), if_pos (Or.inr (by omega)), hc]
          ring
        · rw [if_neg (show ¬ (k = 0 ∨ 2 * k = n) by omega),
            if_neg (show ¬ (n - k = 0 ∨ 2 * (n - k) = n) by omega)]
          by_cases hlt : 2 * k < n
          · rw [if_pos hlt, if_neg (by omega), map_zero, add_zero]
          · rw [if_neg hlt, if_pos (by omega), map_mul, hc, zero_add, map_ofNat]
    have hre : (B n g j).re = n * x.getD j 0 := by
      have := congrArg Complex.re key
      rw [Complex.add_re, Complex.conj_re, ← ofReal_natCast, ← ofReal_mul, ← ofReal_ofNat, ← ofReal_mul,
        ofReal_re] at this
      linarith
    have hnr : (n : ℝ) ≠ 0 := Nat.cast_ne_zero.mpr (by omega)
    rw [← ofReal_natCast, Complex.div_ofReal_re, hre]
    field_simp
  · intro k hk
    rw [bin_eq, List.length_map, List.length_range, bin_ofReals, hl, ← hilbertBin_eq hk]
    generalize seg s first (first + n) = x at *
    have hn : (n : ℂ) ≠ 0 := Nat.cast_ne_zero.mpr (by omega)
    rw [F_congr (g := fun j => B n (fun k => hilbertBin n k
        (F n (fun j => ((x.getD j 0 : ℝ) : ℂ)) k)) j * (n : ℂ)⁻¹) (fun j hj => by
          rw [getD_map_range _ _ hj, div_eq_mul_inv])]
    have : ∀ f : ℕ → ℂ, F n (fun j => f j * (n : ℂ)⁻¹) k = F n f k * (n : ℂ)⁻¹ := by
      intro f
      unfold F
      rw [sum_mul]
      refine sum_congr rfl fun j _ => ?_
      ring
    rw [this, F_B (by omega) _ hk]
    field_simp

/-- The samples are determined by their bins: the description in `C67_analytic` leaves no freedom. -/
theorem C67_determined {y z : List ℂ} {n : ℕ} (hy : y.length = n) (hz : z.length = n)
    (h : ∀ k, k < n → bin y k = bin z k) : y = z := by
  rcases Nat.eq_zero_or_pos n with rfl | h0
  · rw [List.length_eq_zero_iff.mp hy, List.length_eq_zero_iff.mp hz]
  have hn : (n : ℂ) ≠ 0 := Nat.cast_ne_zero.mpr (by omega)
  rw [← map_range_getD 0 y, ← map_range_getD 0 z, hy, hz]
  refine List.map_congr_left fun j hj => ?_
  have hj := List.mem_range.mp hj
  have e : B n (F n fun j => y.getD j 0) j = B n (F n fun j => z.getD j 0) j := by
    refine B_congr (fun k hk => ?_) j
    have := h k hk
    rwa [bin_eq, bin_eq, hy, hz] at this
  rw [B_F (by omega) _ hj, B_F (by omega) _ hj] at e
  exact mul_left_cancel₀ hn e

/-- C67: the analytic signal of a cosine with `p` periods in the range, `0 < 2p < n`, is the helix
`cos + i sin`: the imaginary part is the cosine delayed by 90°. -/
theorem C67_tone {s : List ℝ} {m : List ℂ} {first n d p : ℕ} (h31 : n < 2147483648)
    (hs : first + n ≤ s.length) (hd : d + n ≤ m.length) (hp : 0 < p) (hpn : 2 * p < n)
    (hx : seg s first (first + n) = (List.range n).map fun j : ℕ => Real.cos (2 * Real.pi * p * j / n)) :
    ∃ m', hilbert s first (first + n) m d = .ok m' ∧
      Wrote m m' d ((List.range n).map fun j : ℕ => (Real.cos (2 * Real.pi * p * j / n) : ℂ) +
        I * (Real.sin (2 * Real.pi * p * j / n) : ℂ)) := by
  have h0 : 0 < n := by omega
  obtain ⟨m', h1, w⟩ := hilbert_ok h0 h31 hs hd
  refine ⟨m', h1, ?_⟩
  have hn : (n : ℂ) ≠ 0 := Nat.cast_ne_zero.mpr (by omega)
  have hN : n ≠ 0 := by omega
  rw [hx] at w
  have tone : ∀ j : ℕ, exp (2 * Real.pi * I * j * p / n) =
      (Real.cos (2 * Real.pi * p * j / n) : ℂ) + I * (Real.sin (2 * Real.pi * p * j / n) : ℂ) := by
    intro j
    have e := cis_eq n j p
    have : exp (2 * Real.pi * I * j * p / n) = (starRingEnd ℂ) (exp (-(2 * Real.pi * I * j * p / n))) := by
      rw [exp_pos, Fourier.exp_neg, conj_om_zpow, neg_neg]
    rw [this, e, map_sub, map_mul, conj_ofReal, conj_ofReal, conj_I]
    ring
  have hc : ∀ j, j < n → ((((List.range n).map fun j : ℕ =>
      Real.cos (2 * Real.pi * p * j / n)).getD j 0 : ℝ) : ℂ) =
      B n (fun k => if k = p ∨ k = n - p then 1 / 2 else 0) j := by
    intro j hj
    rw [getD_map_range _ _ hj]
    unfold B
    have e : ∀ k ∈ range n, (if k = p ∨ k = n - p then (1 / 2 : ℂ) else 0) * exp (2 * Real.pi * I * j * k / n) =
        (if k = p then 1 / 2 * exp (2 * Real.pi * I * j * p / n) else 0) +
        (if k = n - p then 1 / 2 * exp (-(2 * Real.pi * I * j * p / n)) else 0) := by
      intro k _
      by_cases k1 : k = p
      · rw [if_pos (Or.inl k1), if_pos k1, if_neg (by omega), k1, add_zero]
      · by_cases k2 : k = n - p
        · rw [if_pos (Or.inr k2), if_neg k1, if_pos k2, zero_add, exp_pos, Fourier.exp_neg, k2]
          congr 1
          apply om_zpow_congr hN
          refine ⟨j, ?_⟩
          rw [Nat.cast_sub (by omega)]
          ring
        · rw [if_neg (by tauto), if_neg k1, if_neg k2]
          ring
    rw [sum_congr rfl e, sum_add_distrib, sum_ite_eq', sum_ite_eq', if_pos (mem_range.mpr (by omega)),
      if_pos (mem_range.mpr (by omega)), tone, cis_eq]
    ring
  refine (congrArg (Wrote m m' d) (List.map_congr_left fun j hj => ?_)).mp w
  rw [← tone]
  rw [B_congr (g := fun k => if k = p then (n : ℂ) else 0)]
  · unfold B
    have e : ∀ k ∈ range n, (if k = p then (n : ℂ) else 0) * exp (2 * Real.pi * I * j * k / n) =
        if k = p then n * exp (2 * Real.pi * I * j * p / n) else 0 := by
      intro k _
      split
      · rename_i h; rw [h]
      · rw [zero_mul]
    rw [sum_congr rfl e, sum_ite_eq', if_pos (mem_range.mpr (by omega))]
    field_simp
  · intro k hk
    rw [F_congr hc, F_B hN _ hk, hilbertBin_eq hk]
    by_cases k1 : k = p
    · rw [if_neg (by omega), if_pos (by omega), if_pos (Or.inl k1), if_pos k1]
      ring
    · rw [if_neg k1]
      by_cases k2 : k = n - p
      · rw [if_neg (by omega), if_neg (by omega)]
      · rw [if_neg (fun h : k = p ∨ k = n - p => h.elim k1 k2)]
        split_ifs <;> ring

/-- C67: an empty range is not accepted: no plan of size 0 exists and the null plan is executed. -/
theorem C67_empty (s : List ℝ) (m : List ℂ) (p d : ℕ) (hp : p ≤ s.length) :
    hilbert s p p m d = .error .badHandle := by
  have hm := make_ok (n := 0) (by norm_num)
  simp only [hilbert, distance_ok (Nat.le_refl p), Nat.sub_self, bind, Except.bind,
    readRange_ok (Nat.le_refl p) hp, hm, Engine.cdft, Engine.prepare]
  rfl

/-- A range meeting the hypotheses: the cosine with one period in four samples becomes the helix. -/
example : ∃ m', hilbert [1, 0, -1, 0] 0 (0 + 4) [0, 0, 0, 0, 7] 0 = .ok m' ∧
    Wrote [0, 0, 0, 0, 7] m' 0 [1, I, -1, -I] := by
  have a1 : 2 * Real.pi / 4 = Real.pi / 2 := by ring
  have a2 : 2 * Real.pi * 2 / 4 = Real.pi := by ring
  have a3 : 2 * Real.pi * 3 / 4 = Real.pi + Real.pi / 2 := by ring
  obtain ⟨m', h1, w⟩ := C67_tone (s := [1, 0, -1, 0]) (m := [0, 0, 0, 0, 7]) (first := 0) (n := 4) (d := 0)
    (p := 1) (by norm_num) (by simp) (by simp) (by norm_num) (by norm_num) (by
      simp [List.range, List.range.loop, seg, a1, a2, a3, Real.cos_add])
  refine ⟨m', h1, ?_⟩
  have b1 : 2 * (Real.pi : ℂ) / 4 = Real.pi / 2 := by ring
  have b2 : 2 * (Real.pi : ℂ) * 2 / 4 = Real.pi := by ring
  have b3 : 2 * (Real.pi : ℂ) * 3 / 4 = Real.pi + Real.pi / 2 := by ring
  simpa [List.range, List.range.loop, b1, b2, b3, Complex.cos_add, Complex.sin_add] using w

end Edsp.Spectral
