import Verif.Props.C137_ConvolutionAlgebra
import Mathlib.Algebra.Order.BigOperators.Ring.Finset
import Mathlib.Analysis.Real.Sqrt

/-!
# C145: delay and period from a correlation, with noise
-/

namespace Edsp.C145

open Finset Edsp.Mem Edsp.Spec Edsp.ConvL Edsp.Spectral

/-- The energy of a frame. -/
def energy (x : List ℝ) : ℝ := (x.map fun v => v * v).sum

theorem energy_sum (x : List ℝ) : energy x = ∑ j ∈ range x.length, x.getD j 0 * x.getD j 0 := by
  rw [energy, C137.sum_getD, List.length_map]
  refine sum_congr rfl fun j hj => ?_
  have hj : j < x.length := mem_range.1 hj
  simp only [List.getD, List.getElem?_map, List.getElem?_eq_getElem hj, Option.map_some, Option.getD_some]

theorem part_le {x : List ℝ} {k o : ℕ} (h : o + k ≤ x.length) :
    ∑ j ∈ range k, x.getD (j + o) 0 * x.getD (j + o) 0 ≤ energy x := by
  rw [energy_sum]
  have : ∑ j ∈ range k, x.getD (j + o) 0 * x.getD (j + o) 0 =
      ∑ j ∈ (range k).map (addRightEmbedding o), x.getD j 0 * x.getD j 0 := by
    rw [sum_map]; rfl
  rw [this]
  refine sum_le_sum_of_subset_of_nonneg ?_ fun i _ _ => mul_self_nonneg _
  intro i hi
  simp only [mem_map, mem_range, addRightEmbedding_apply] at hi ⊢
  obtain ⟨j, hj, rfl⟩ := hi
  omega

theorem energy_nonneg (x : List ℝ) : 0 ≤ energy x := by
  rw [energy_sum]
  exact sum_nonneg fun _ _ => mul_self_nonneg _

/-- A correlation is at most the root of the product of the energies. -/
theorem correlation_le (x y : List ℝ) (hl : x.length = y.length) (l : ℕ) :
    |correlation x y l| ≤ Real.sqrt (energy x * energy y) := by
  rw [← Real.sqrt_sq_eq_abs]
  refine Real.sqrt_le_sqrt ?_
  unfold correlation
  rcases le_total x.length l with h | h
  · rw [show x.length - l = 0 by omega]
    simp only [range_zero, sum_empty]
    have := mul_nonneg (energy_nonneg x) (energy_nonneg y)
    nlinarith
  · refine (sum_mul_sq_le_sq_mul_sq _ _ _).trans ?_
    refine mul_le_mul ?_ ?_ (sum_nonneg fun _ _ => sq_nonneg _) (energy_nonneg x)
    · refine le_trans (le_of_eq ?_) (part_le (x := x) (k := x.length - l) (o := l) (by omega))
      exact sum_congr rfl fun j _ => sq _
    · refine le_trans (le_of_eq ?_) (part_le (x := y) (k := x.length - l) (o := 0) (by omega))
      exact sum_congr rfl fun j _ => sq _

/-- The lags of the correlation of a frame with a delayed, amplified copy and an error. -/
theorem correlation_noisy {x u e : List ℝ} {D : ℕ} {a : ℝ} (hx : x.length = D + u.length)
    (h : ∀ i, x.getD i 0 = a * (List.replicate D 0 ++ u).getD i 0 + e.getD i 0) (he : e.length = x.length) (l : ℕ) :
    correlation x (u ++ List.replicate D 0) l =
      a * (if D ≤ l then correlation u u (l - D) else correlation u u (D - l)) +
        correlation e (u ++ List.replicate D 0) l := by
  have hp : ∀ j, (u ++ List.replicate D (0 : ℝ)).getD j 0 = u.getD j 0 := by
    intro j
    rw [List.getD, List.getD]
    by_cases hj : j < u.length
    · rw [List.getElem?_append_left hj]
    · rw [List.getElem?_append_right (by omega), List.getElem?_replicate, List.getElem?_eq_none (l := u) (by omega)]
      split_ifs <;> rfl
  rw [← correlation_delayed]
  unfold correlation
  rw [he, mul_sum, show (List.replicate D (0 : ℝ) ++ u).length = x.length by simp [hx], ← sum_add_distrib]
  refine sum_congr rfl fun j _ => ?_
  rw [h, hp]
  ring

theorem stored_le (scale : Scale) {n : ℕ} (h0 : 0 < n) {a b : ℝ} (h : a ≤ b) : stored scale n a ≤ stored scale n b := by
  rcases h.eq_or_lt with g | g
  · rw [g]
  · exact (C137.stored_lt scale h0 g).le

theorem stored_abs (scale : Scale) {n : ℕ} (a : ℝ) : |stored scale n a| = stored scale n |a| := by
  unfold stored
  split_ifs
  · rw [abs_div, abs_of_nonneg (by positivity : (0 : ℝ) ≤ 2 * n)]
  · rfl

theorem unique_peak {f : ℕ → ℝ} {n D : ℕ} (hD : D < n) {L : List ℝ} (hL : L = (List.range n).map f)
    (h : ∀ i < n, i ≠ D → f i < f D) : Seq.peak L = .ok (D, f D) := by
  subst hL
  obtain ⟨i, v, p1, p2, p3, -⟩ := Props.C34_peak (l := (List.range n).map f) (by
    intro g; have := congrArg List.length g; simp at this; omega)
  have hi : i < n := by
    by_contra g
    rw [List.getElem?_eq_none (by simpa using g)] at p2
    cases p2
  rw [List.getElem?_map, List.getElem?_range hi, Option.map_some] at p2
  injection p2 with p2
  have := p3 (f D) (List.mem_map.2 ⟨D, List.mem_range.2 hD, rfl⟩)
  by_cases g : i = D
  · rw [p1, ← p2, g]
  · have := h i hi g
    linarith

theorem unique_peakabs {f : ℕ → ℝ} {n D : ℕ} (hD : D < n) {L : List ℝ} (hL : L = (List.range n).map f)
    (h : ∀ i < n, i ≠ D → |f i| < |f D|) : Seq.peakabs L = .ok (D, f D) := by
  subst hL
  obtain ⟨i, v, p1, p2, p3, -⟩ := Props.C34_peakabs (l := (List.range n).map f) (by
    intro g; have := congrArg List.length g; simp at this; omega)
  have hi : i < n := by
    by_contra g
    rw [List.getElem?_eq_none (by simpa using g)] at p2
    cases p2
  rw [List.getElem?_map, List.getElem?_range hi, Option.map_some] at p2
  injection p2 with p2
  have := p3 (f D) (List.mem_map.2 ⟨D, List.mem_range.2 hD, rfl⟩)
  rw [← p2] at this
  by_cases g : i = D
  · rw [p1, ← p2, g]
  · have := h i hi g
    linarith

theorem energy_correlation (u : List ℝ) : correlation u u 0 = energy u := by
  rw [energy_sum]; rfl

theorem energy_append_zeros (u : List ℝ) (D : ℕ) : energy (u ++ List.replicate D 0) = energy u := by
  simp [energy]

/-- **C145 (noise).**  The frame received is the frame sent, delayed by `D` samples, amplified by `a` and disturbed by any
error.  If the error is small against the distance between the autocorrelation of the frame at the lag 0 and at the other
lags, the absolute peak of the correlation of the two is at the lag `D`, with every scale option, and its value is the gain
times the energy up to that error; for a positive gain the peak is there as well. -/
theorem C145_noise (scale : Scale) {m u e : List ℝ} {f1 f2 n d D : ℕ} {a : ℝ} (hu : u ≠ []) (hn : n = D + u.length)
    (h31 : 2 * n < 2147483648) (h1 : f1 + n ≤ m.length) (h2 : f2 + n ≤ m.length) (hd : d + n ≤ m.length)
    (hs : seg m f2 (f2 + n) = u ++ List.replicate D 0) (he : e.length = n)
    (hx : ∀ i, (seg m f1 (f1 + n)).getD i 0 = a * (List.replicate D 0 ++ u).getD i 0 + e.getD i 0)
    (hgap : ∀ t, 0 < t → |a| * |correlation u u t| + 2 * Real.sqrt (energy e * energy u) < |a| * energy u) :
    ∃ m' v, xcorr m f1 (f1 + n) f2 d scale = .ok m' ∧ Seq.peakabs (seg m' d (d + n)) = .ok (D, v) ∧
      (0 < a → Seq.peak (seg m' d (d + n)) = .ok (D, v)) ∧
      (scale ≠ .biased → |v - a * energy u| ≤ Real.sqrt (energy e * energy u)) ∧
      (scale = .biased → |v * (2 * n) - a * energy u| ≤ Real.sqrt (energy e * energy u)) := by
  have hu0 : 0 < u.length := List.length_pos_iff.2 hu
  have h0 : 0 < n := by omega
  have hn0 : (0 : ℝ) < n := by exact_mod_cast h0
  obtain ⟨m', ex, w⟩ := xcorr_ok scale h0 h31 h1 h2 hd
  have hl1 : (seg m f1 (f1 + n)).length = n := by rw [seg_length h1]; omega
  have hseg := C137.seg_wrote w
  simp only [List.length_map, List.length_range] at hseg
  rw [hs] at hseg
  set c := fun l => correlation (seg m f1 (f1 + n)) (u ++ List.replicate D 0) l with hc
  set B := Real.sqrt (energy e * energy u) with hB
  have hnoise : ∀ l, |correlation e (u ++ List.replicate D 0) l| ≤ B := by
    intro l
    have := correlation_le e (u ++ List.replicate D 0) (by simp [he, hn]; omega) l
    rwa [energy_append_zeros] at this
  have hcl : ∀ l, c l = a * (if D ≤ l then correlation u u (l - D) else correlation u u (D - l)) +
      correlation e (u ++ List.replicate D 0) l := fun l =>
    correlation_noisy (by omega) hx (by omega) l
  have hcD : |c D - a * energy u| ≤ B := by
    rw [hcl, if_pos le_rfl, Nat.sub_self, energy_correlation]
    simpa using hnoise D
  have hother : ∀ i, i ≠ D → |c i| < |a| * energy u - B := by
    intro i hi
    have key : ∀ t, 0 < t → ∀ w, |w| ≤ B → |a * correlation u u t + w| < |a| * energy u - B := by
      intro t ht w hw
      have := abs_add_le (a * correlation u u t) w
      rw [abs_mul] at this
      have := hgap t ht
      linarith
    rw [hcl]
    split_ifs with g
    · exact key _ (by omega) _ (hnoise i)
    · exact key _ (by omega) _ (hnoise i)
  have hbig : |a| * energy u - B ≤ |c D| := by
    have h3 := abs_sub_abs_le_abs_sub (a * energy u) (c D)
    rw [abs_mul, abs_of_nonneg (energy_nonneg u), abs_sub_comm] at h3
    linarith
  have hDn : D < n := by omega
  refine ⟨m', stored scale n (c D), ex, ?_, ?_, ?_, ?_⟩
  · refine unique_peakabs (f := fun l => stored scale n (c l)) hDn hseg fun i _ hi => ?_
    simp only [stored_abs]
    exact C137.stored_lt scale h0 (lt_of_lt_of_le (hother i hi) hbig)
  · intro ha
    refine unique_peak (f := fun l => stored scale n (c l)) hDn hseg fun i _ hi => ?_
    refine C137.stored_lt scale h0 ?_
    have h4 := hother i hi
    rw [abs_of_pos ha] at h4
    have h5 := (abs_le.1 hcD).1
    have h6 := le_abs_self (c i)
    linarith
  · intro hb
    rw [stored, if_neg hb]
    exact hcD
  · intro hb
    rw [stored, if_pos hb, div_mul_cancel₀ _ (by positivity)]
    exact hcD

/-- **C145 (gain).**  Without an error the peak is at the delay for every gain other than 0, of either sign. -/
theorem C145_gain (scale : Scale) {m u : List ℝ} {f1 f2 n d D : ℕ} {a : ℝ} (ha : a ≠ 0) (hu : ∃ v ∈ u, v ≠ 0)
    (hn : n = D + u.length) (h31 : 2 * n < 2147483648) (h1 : f1 + n ≤ m.length) (h2 : f2 + n ≤ m.length)
    (hd : d + n ≤ m.length) (hs : seg m f2 (f2 + n) = u ++ List.replicate D 0)
    (hx : seg m f1 (f1 + n) = (List.replicate D 0 ++ u).map (a * ·)) :
    ∃ m' v, xcorr m f1 (f1 + n) f2 d scale = .ok m' ∧ Seq.peakabs (seg m' d (d + n)) = .ok (D, v) ∧
      (0 < a → Seq.peak (seg m' d (d + n)) = .ok (D, v)) ∧
      (scale ≠ .biased → v = a * energy u) ∧ (scale = .biased → v = a * energy u / (2 * n)) := by
  have hne : u ≠ [] := by rintro rfl; simp at hu
  have h0 : 0 < n := by have := List.length_pos_iff.2 hne; omega
  have hn0 : (0 : ℝ) < n := by exact_mod_cast h0
  have hz : energy (List.replicate n (0 : ℝ)) = 0 := by simp [energy]
  obtain ⟨m', v, g1, g2, g3, g4, g5⟩ := C145_noise scale (e := List.replicate n 0) (a := a) hne hn h31 h1 h2 hd hs
    (by simp) (by
      intro i
      rw [hx, List.getD, List.getD, List.getD, List.getElem?_map, List.getElem?_replicate]
      cases (List.replicate D (0 : ℝ) ++ u)[i]? <;> split_ifs <;> simp) (by
      intro t ht
      rw [hz, zero_mul, Real.sqrt_zero, mul_zero, add_zero]
      refine mul_lt_mul_of_pos_left ?_ (abs_pos.2 ha)
      rw [← energy_correlation]
      exact correlation_abs_lt hu ht)
  rw [hz, zero_mul, Real.sqrt_zero] at g4 g5
  refine ⟨m', v, g1, g2, g3, fun hb => ?_, fun hb => ?_⟩
  · have := abs_nonpos_iff.1 (g4 hb)
    linarith
  · have := abs_nonpos_iff.1 (g5 hb)
    rw [eq_div_iff (by positivity)]
    linarith

/-- **C145 (period).**  The autocorrelation of a frame that repeats itself after `P` samples is, at the lag `P`, the energy
of all but the last period, and no later lag exceeds it. -/
theorem C145_period (scale : Scale) {m : List ℝ} {f1 n d P : ℕ} (h31 : 2 * n < 2147483648) (h1 : f1 + n ≤ m.length)
    (hd : d + n ≤ m.length) (hP : P < n)
    (hper : ∀ j, j + P < n → (seg m f1 (f1 + n)).getD (j + P) 0 = (seg m f1 (f1 + n)).getD j 0) :
    ∃ m' v, autocorr m f1 (f1 + n) d scale = .ok m' ∧ m'[d + P]? = some v ∧
      (scale ≠ .biased → v = energy ((seg m f1 (f1 + n)).take (n - P))) ∧
      ∀ l, P ≤ l → l < n → ∃ w, m'[d + l]? = some w ∧ |w| ≤ v := by
  have h0 : 0 < n := by omega
  obtain ⟨m', ex, w⟩ := autocorr_ok scale h0 h31 h1 hd
  have hl1 : (seg m f1 (f1 + n)).length = n := by rw [seg_length h1]; omega
  generalize seg m f1 (f1 + n) = x at *
  have hget : ∀ l, l < n → m'[d + l]? = some (stored scale n (correlation x x l)) := by
    intro l hl
    rw [(wrote_iff.mp w).2.2.1 l (by simpa using hl), List.getElem?_map, List.getElem?_range hl, Option.map_some]
  have htl : (x.take (n - P)).length = n - P := by simp [hl1]
  have htg : ∀ j, j < n - P → (x.take (n - P)).getD j 0 = x.getD j 0 := by
    intro j hj
    rw [List.getD, List.getD, List.getElem?_take_of_lt hj]
  have hPv : correlation x x P = energy (x.take (n - P)) := by
    rw [energy_sum, htl, correlation, hl1]
    refine sum_congr rfl fun j hj => ?_
    have hj := mem_range.1 hj
    rw [htg j hj, hper j (by omega)]
  refine ⟨m', _, ex, hget P hP, fun hb => by rw [stored, if_neg hb, hPv], fun l hl hln => ⟨_, hget l hln, ?_⟩⟩
  rw [stored_abs]
  refine stored_le scale h0 ?_
  have he : correlation x x l = correlation (x.take (n - P)) (x.take (n - P)) (l - P) := by
    unfold correlation
    rw [htl, hl1, show n - P - (l - P) = n - l by omega]
    refine sum_congr rfl fun j hj => ?_
    have hj := mem_range.1 hj
    rw [htg j (by omega), htg _ (by omega), ← hper (j + (l - P)) (by omega)]
    congr 2
    omega
  rw [he, hPv]
  refine (correlation_le _ _ rfl _).trans ?_
  rw [Real.sqrt_mul_self (energy_nonneg _)]

/-! ## Cases -/

/-- The frame `2, -1` received two samples later, inverted, halved and with an error of `1/10` in the first sample. -/
example : ∃ m' v, xcorr [1 / 10, 0, -1, 1 / 2, 2, -1, 0, 0] 0 (0 + 4) 4 0 .none = .ok m' ∧
    Seq.peakabs (seg m' 0 (0 + 4)) = .ok (2, v) ∧ |v - -(5 / 2)| ≤ 1 / 4 := by
  have hc : ∀ t, 0 < t → |correlation [2, -1] [2, -1] t| ≤ 2 := by
    intro t ht
    rcases t with _ | _ | t
    · omega
    · norm_num [correlation]
    · simp [correlation]
  have hq : Real.sqrt (energy [1 / 10, 0, 0, 0] * energy [2, -1]) ≤ 1 / 4 := by
    rw [show (1 / 4 : ℝ) = Real.sqrt ((1 / 4) ^ 2) by rw [Real.sqrt_sq (by norm_num)]]
    exact Real.sqrt_le_sqrt (by norm_num [energy])
  obtain ⟨m', v, g1, g2, -, g4, -⟩ := C145_noise .none (m := [1 / 10, 0, -1, 1 / 2, 2, -1, 0, 0]) (u := [2, -1])
    (e := [1 / 10, 0, 0, 0]) (f1 := 0) (f2 := 4) (n := 4) (d := 0) (D := 2) (a := -(1 / 2)) (by simp) rfl (by norm_num)
    (by simp) (by simp) (by simp) (by norm_num [seg, List.replicate]) rfl (by
      intro i
      rcases i with _ | _ | _ | _ | i <;> simp [seg, List.getD, List.replicate] ) (by
      intro t ht
      have := hc t ht
      rw [show |(-(1 / 2) : ℝ)| = 1 / 2 by norm_num, show energy [2, -1] = 5 by norm_num [energy]] at *
      linarith)
  refine ⟨m', v, g1, g2, ?_⟩
  have := g4 (by simp)
  rw [show energy [2, -1] = 5 by norm_num [energy]] at this hq
  rw [show (-(5 / 2) : ℝ) = -(1 / 2) * 5 by norm_num]
  exact this.trans hq

/-- `1, -2, 1, -2, 1` repeats itself after two samples. -/
example : ∃ m' v, autocorr [1, -2, 1, -2, 1] 0 (0 + 5) 0 .none = .ok m' ∧ m'[0 + 2]? = some v ∧ v = 6 := by
  obtain ⟨m', v, g1, g2, g3, -⟩ := C145_period .none (m := [1, -2, 1, -2, 1]) (f1 := 0) (n := 5) (d := 0) (P := 2)
    (by norm_num) (by simp) (by simp) (by norm_num) (by
      intro j hj
      have : j < 3 := by omega
      interval_cases j <;> simp [seg])
  exact ⟨m', v, g1, g2, (g3 (by simp)).trans (by norm_num [seg, energy])⟩

end Edsp.C145
