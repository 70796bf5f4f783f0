import Verif.Props.C51_Temporal
import Verif.Props.C31_Moments

/-!
# C52: flux, slope, decrease, variation, irregularity and signal-to-noise ratio against their formulas
-/

namespace Edsp.Feature

open Finset Edsp.Mem Edsp.Spec Edsp.Stat Edsp.StatL

theorem seg_split (data : List ℝ) {a b c : Nat} (h1 : a ≤ b) (h2 : b ≤ c) :
    seg data a c = seg data a b ++ seg data b c := by
  unfold seg
  rw [show c - a = (b - a) + (c - b) by omega, List.take_add, List.drop_drop, show a + (b - a) = b by omega]

/-- C52 is violated by `decrease` for every sequence: the counter starts at 0 and the first term is 0/0. -/
theorem C52_decrease_violates (x : List ℝ) : ∃ e, decrease x = .error e := by
  cases x with
  | nil => exact ⟨_, rfl⟩
  | cons v l => exact ⟨.divByZero, by simp [decrease, decreaseLoop, fdiv, bind, Except.bind]⟩

theorem slope_sums (x f : List ℝ) (h : x.length = f.length) : loop2 slopeStep (0, 0, 0, 0) x f =
    (total x, total f, ∑ i ∈ range x.length, at0 x i * at0 f i, ∑ i ∈ range x.length, at0 f i * at0 f i) := by
  have p1 := loop2_fst slopeStep (fun s x _ => s + x) (·.1) (fun _ _ _ => rfl) x f (0, 0, 0, 0)
  have p2 := loop2_fst slopeStep (fun s _ f => s + f) (·.2.1) (fun _ _ _ => rfl) x f (0, 0, 0, 0)
  have p3 := loop2_fst slopeStep (fun s x f => s + x * f) (·.2.2.1) (fun _ _ _ => rfl) x f (0, 0, 0, 0)
  have p4 := loop2_fst slopeStep (fun s _ f => s + f * f) (·.2.2.2) (fun _ _ _ => rfl) x f (0, 0, 0, 0)
  rw [loop2_sum (fun x _ => x) x f 0 h] at p1
  rw [loop2_sum (fun _ f => f) x f 0 h] at p2
  rw [loop2_sum (fun x f => x * f) x f 0 h] at p3
  rw [loop2_sum (fun _ f => f * f) x f 0 h] at p4
  rw [zero_add] at p1 p2 p3 p4
  unfold total
  rw [← h, ← p1, ← p2, ← p3, ← p4]

/-- C52 is violated by `slope`: whatever the data, the result is one over the sum of the axis. -/
theorem C52_slope_violates {m : List ℝ} {a n b : ℕ} (h1 : a + n ≤ m.length) (h2 : b + n ≤ m.length)
    (hx : total (seg m a (a + n)) ≠ 0) (hf : total (seg m b (b + n)) ≠ 0) :
    slope m a (a + n) b = .ok (1 / total (seg m b (b + n))) := by
  have e : (seg m a (a + n)).length = (seg m b (b + n)).length := by rw [seg_length h1, seg_length h2]; omega
  have hd : distance (a + n) (a + n) = .ok 0 := by rw [distance_ok le_rfl, Nat.sub_self]
  simp only [slope, ranges_ok h1 h2, bind, Except.bind, hd, slope_sums _ _ e]
  rw [fdiv_ok hx]
  simp only []
  rw [fdiv_ok]
  · congr 1
    simp only [Nat.cast_zero, zero_mul, zero_sub]
    field_simp
  · simp only [Nat.cast_zero, zero_mul, zero_sub]
    exact neg_ne_zero.mpr (mul_ne_zero hf hf)

/-- A flat spectrum has slope 0; `slope` returns 1/3. -/
theorem C52_slope_flat_violates : slope [1, 1, 1, 2] 0 2 2 = .ok (1 / 3) ∧ regressionSlope [1, 1] [1, 2] = 0 := by
  have s1 : seg ([1, 1, 1, 2] : List ℝ) 0 (0 + 2) = [1, 1] := rfl
  have s2 : seg ([1, 1, 1, 2] : List ℝ) 2 (2 + 2) = [1, 2] := rfl
  constructor
  · have := C52_slope_violates (m := [1, 1, 1, 2]) (a := 0) (n := 2) (b := 2) (by simp) (by simp)
      (by rw [s1, total_eq]; norm_num) (by rw [s2, total_eq]; norm_num)
    rw [s2, total_eq] at this
    norm_num at this
    rw [this]
  · unfold regressionSlope
    rw [total_eq, total_eq]
    simp only [List.length_cons, List.length_nil, sum_range_succ, range_zero, sum_empty, at0_cons_zero, at0_cons_succ]
    norm_num

theorem fluxLoop_eq {cur prev : ℝ} (h1 : cur ≠ 0) (h2 : prev ≠ 0) : ∀ (x y : List ℝ) (acc : ℝ), x.length = y.length →
    fluxLoop .euclidean cur prev acc x y =
      .ok (acc + ∑ i ∈ range x.length, (at0 x i / cur - at0 y i / prev) ^ 2)
  | [], [], acc, _ => by simp [fluxLoop]
  | x :: xs, [], acc, h => by simp at h
  | [], y :: ys, acc, h => by simp at h
  | x :: xs, y :: ys, acc, h => by
    simp only [fluxLoop, fdiv_ok h1, fdiv_ok h2, bind, Except.bind, dist]
    rw [fluxLoop_eq h1 h2 xs ys _ (by simpa using h), List.length_cons, sum_range_succ']
    simp only [at0_cons_succ, at0_cons_zero]
    congr 1
    ring

/-- The previous spectrum is divided by the sum of everything from the start of the current one to the end of the
previous one; only if what lies in between sums to 0 is `flux` the documented feature. -/
theorem C52_flux_partial {m : List ℝ} {a n b : ℕ} (h1 : a + n ≤ m.length) (h2 : b + n ≤ m.length) (hab : a ≤ b)
    (hx : total (seg m a (a + n)) ≠ 0) (hy : total (seg m b (b + n)) ≠ 0) (hz : total (seg m a b) = 0) :
    flux .euclidean m a (a + n) b = .ok (fluxOf (seg m a (a + n)) (seg m b (b + n))) := by
  have e : (seg m a (a + n)).length = (seg m b (b + n)).length := by rw [seg_length h1, seg_length h2]; omega
  have hp : total (seg m a (b + n)) = total (seg m b (b + n)) := by
    rw [total_eq, seg_split m hab (Nat.le_add_right b n), List.sum_append, ← total_eq, ← total_eq, hz,
      zero_add]
  have hacc : ∀ l : List ℝ, accumulate id 0 l = total l := by
    intro l
    rw [accumulate_eq, List.map_id, zero_add, total_eq]
  simp only [flux, distance_ok (Nat.le_add_right a n), Nat.add_sub_cancel_left, bind, Except.bind,
    readRange_ok (Nat.le_add_right a n) h1, readRange_ok (by omega : a ≤ b + n) h2,
    readRange_ok (Nat.le_add_right b n) h2, hacc, hp]
  rw [fluxLoop_eq hx hy _ _ _ e, zero_add]
  rfl

example : flux .euclidean [1, -1, 2, 3] 0 (0 + 3) 0 =
    .ok (fluxOf (seg [1, -1, 2, 3] 0 (0 + 3)) (seg [1, -1, 2, 3] 0 (0 + 3))) := by
  have s : seg ([1, -1, 2, 3] : List ℝ) 0 (0 + 3) = [1, -1, 2] := rfl
  have s0 : seg ([1, -1, 2, 3] : List ℝ) 0 0 = [] := rfl
  exact C52_flux_partial (by simp) (by simp) (by omega) (by rw [s, total_eq]; norm_num)
    (by rw [s, total_eq]; norm_num) (by rw [s0, total_eq]; norm_num)

/-- C52 is violated by `flux`: two equal spectra one behind the other do not have flux 0. -/
theorem C52_flux_violates : flux .euclidean [1, 1, 1, 1] 0 2 2 = .ok (1 / 8) ∧ fluxOf [1, 1] [1, 1] = 0 := by
  constructor
  · norm_num [flux, distance, readRange, Mem.read, accumulate, fluxLoop, fdiv, dist, bind, Except.bind, pure,
      Except.pure]
  · simp [fluxOf]

theorem fluxLoop_manhattan {cur prev : ℝ} (h1 : cur ≠ 0) (h2 : prev ≠ 0) : ∀ (x y : List ℝ) (acc : ℝ),
    x.length = y.length → fluxLoop .manhattan cur prev acc x y = .ok (acc + (total x / cur - total y / prev))
  | [], [], acc, _ => by simp [fluxLoop, total_eq]
  | x :: xs, [], acc, h => by simp at h
  | [], y :: ys, acc, h => by simp at h
  | x :: xs, y :: ys, acc, h => by
    simp only [fluxLoop, fdiv_ok h1, fdiv_ok h2, bind, Except.bind, dist]
    rw [fluxLoop_manhattan h1 h2 xs ys _ (by simpa using h), total_eq, total_eq, total_eq, total_eq, List.sum_cons,
      List.sum_cons]
    congr 1
    ring

/-- C52 is violated by `flux` with the Manhattan distance, which sums signed differences: where the sums are taken over the
right ranges, the result is 0 for every two spectra, different or not. -/
theorem C52_flux_manhattan_violates {m : List ℝ} {a n b : ℕ} (h1 : a + n ≤ m.length) (h2 : b + n ≤ m.length) (hab : a ≤ b)
    (hx : total (seg m a (a + n)) ≠ 0) (hy : total (seg m b (b + n)) ≠ 0) (hz : total (seg m a b) = 0) :
    flux .manhattan m a (a + n) b = .ok 0 := by
  have e : (seg m a (a + n)).length = (seg m b (b + n)).length := by rw [seg_length h1, seg_length h2]; omega
  have hp : total (seg m a (b + n)) = total (seg m b (b + n)) := by
    rw [total_eq, seg_split m hab (Nat.le_add_right b n), List.sum_append, ← total_eq, ← total_eq, hz,
      zero_add]
  have hacc : ∀ l : List ℝ, accumulate id 0 l = total l := by
    intro l
    rw [accumulate_eq, List.map_id, zero_add, total_eq]
  simp only [flux, distance_ok (Nat.le_add_right a n), Nat.add_sub_cancel_left, bind, Except.bind,
    readRange_ok (Nat.le_add_right a n) h1, readRange_ok (by omega : a ≤ b + n) h2,
    readRange_ok (Nat.le_add_right b n) h2, hacc, hp]
  rw [fluxLoop_manhattan hx hy _ _ _ e, div_self hx, div_self hy, sub_self, add_zero]

/-- The spectra 1, 3 and 3, 1, four lines apart in storage. -/
example : flux .manhattan [1, 3, -4, 0, 3, 1] 0 (0 + 2) 4 = .ok 0 := by
  have s1 : seg ([1, 3, -4, 0, 3, 1] : List ℝ) 0 (0 + 2) = [1, 3] := rfl
  have s2 : seg ([1, 3, -4, 0, 3, 1] : List ℝ) 4 (4 + 2) = [3, 1] := rfl
  have s0 : seg ([1, 3, -4, 0, 3, 1] : List ℝ) 0 4 = [1, 3, -4, 0] := rfl
  exact C52_flux_manhattan_violates (by simp) (by simp) (by omega) (by rw [s1, total_eq]; norm_num)
    (by rw [s2, total_eq]; norm_num) (by rw [s0, total_eq]; norm_num)

theorem fluxLoop_logarithmic {cur prev : ℝ} (h1 : cur ≠ 0) (h2 : prev ≠ 0) : ∀ (x y : List ℝ) (acc : ℝ),
    x.length = y.length → (∀ v ∈ x, v ≠ 0) → (∀ v ∈ y, v ≠ 0) → fluxLoop .logarithmic cur prev acc x y =
      .ok (acc + ∑ i ∈ range x.length, (Real.log (at0 x i / cur) - Real.log (at0 y i / prev)))
  | [], [], acc, _, _, _ => by simp [fluxLoop]
  | x :: xs, [], acc, h, _, _ => by simp at h
  | [], y :: ys, acc, h, _, _ => by simp at h
  | x :: xs, y :: ys, acc, h, hx, hy => by
    have hx0 : x / cur ≠ 0 := div_ne_zero (hx x List.mem_cons_self) h1
    have hy0 : y / prev ≠ 0 := div_ne_zero (hy y List.mem_cons_self) h2
    have hl : flog (|x / cur| / |y / prev|) = .ok (Real.log (x / cur) - Real.log (y / prev)) := by
      rw [flog, if_neg (not_le.mpr (by positivity)), Real.log_div (abs_ne_zero.mpr hx0) (abs_ne_zero.mpr hy0), Real.log_abs,
        Real.log_abs]
    simp only [fluxLoop, fdiv_ok h1, fdiv_ok h2, bind, Except.bind, dist, fdiv_ok (abs_ne_zero.mpr hy0), hl]
    rw [fluxLoop_logarithmic h1 h2 xs ys _ (by simpa using h) (fun v hv => hx v (List.mem_cons_of_mem _ hv))
      (fun v hv => hy v (List.mem_cons_of_mem _ hv)), List.length_cons, sum_range_succ']
    simp only [at0_cons_succ, at0_cons_zero]
    congr 1
    ring

/-- C52 is violated by `flux` with the logarithmic distance, which is signed too: for spectra without a zero line whose sums
are taken over the right ranges, the flux is a difference of sums of logarithms, so that a permutation of a spectrum has
flux 0. -/
theorem C52_flux_logarithmic_violates {m : List ℝ} {a n b : ℕ} (h1 : a + n ≤ m.length) (h2 : b + n ≤ m.length)
    (hab : a ≤ b) (hx : total (seg m a (a + n)) ≠ 0) (hy : total (seg m b (b + n)) ≠ 0) (hz : total (seg m a b) = 0)
    (hx0 : ∀ v ∈ seg m a (a + n), v ≠ 0) (hy0 : ∀ v ∈ seg m b (b + n), v ≠ 0) :
    flux .logarithmic m a (a + n) b = .ok (∑ i ∈ range n, (Real.log (at0 (seg m a (a + n)) i / total (seg m a (a + n))) -
      Real.log (at0 (seg m b (b + n)) i / total (seg m b (b + n))))) ∧
    ((seg m a (a + n)).Perm (seg m b (b + n)) → flux .logarithmic m a (a + n) b = .ok 0) := by
  have e : (seg m a (a + n)).length = (seg m b (b + n)).length := by rw [seg_length h1, seg_length h2]; omega
  have hl : (seg m a (a + n)).length = n := by rw [seg_length h1]; omega
  have hp : total (seg m a (b + n)) = total (seg m b (b + n)) := by
    rw [total_eq, seg_split m hab (Nat.le_add_right b n), List.sum_append, ← total_eq, ← total_eq, hz,
      zero_add]
  have hacc : ∀ l : List ℝ, accumulate id 0 l = total l := by
    intro l
    rw [accumulate_eq, List.map_id, zero_add, total_eq]
  have main : flux .logarithmic m a (a + n) b = .ok (∑ i ∈ range n, (Real.log (at0 (seg m a (a + n)) i /
      total (seg m a (a + n))) - Real.log (at0 (seg m b (b + n)) i / total (seg m b (b + n))))) := by
    simp only [flux, distance_ok (Nat.le_add_right a n), Nat.add_sub_cancel_left, bind, Except.bind,
      readRange_ok (Nat.le_add_right a n) h1, readRange_ok (by omega : a ≤ b + n) h2,
      readRange_ok (Nat.le_add_right b n) h2, hacc, hp]
    rw [fluxLoop_logarithmic hx hy _ _ _ e hx0 hy0, zero_add, hl]
  refine ⟨main, fun hperm => ?_⟩
  rw [main, sum_sub_distrib]
  have hs : ∀ (l : List ℝ) (c : ℝ), ∑ i ∈ range l.length, Real.log (at0 l i / c) = (l.map fun v => Real.log (v / c)).sum := by
    intro l c
    induction l with
    | nil => simp
    | cons v l ih =>
      rw [List.length_cons, sum_range_succ', List.map_cons, List.sum_cons, ← ih, add_comm]
      simp only [at0_cons_succ, at0_cons_zero]
  have q1 := hs (seg m a (a + n)) (total (seg m a (a + n)))
  have q2 := hs (seg m b (b + n)) (total (seg m b (b + n)))
  rw [hl] at q1
  rw [← e, hl] at q2
  have ht : total (seg m a (a + n)) = total (seg m b (b + n)) := by rw [total_eq, total_eq, hperm.sum_eq]
  rw [q1, q2, ht, (hperm.map _).sum_eq, sub_self]

/-- The spectra 1, 3 and 3, 1 again. -/
example : flux .logarithmic [1, 3, -4, 0, 3, 1] 0 (0 + 2) 4 = .ok 0 := by
  have s1 : seg ([1, 3, -4, 0, 3, 1] : List ℝ) 0 (0 + 2) = [1, 3] := rfl
  have s2 : seg ([1, 3, -4, 0, 3, 1] : List ℝ) 4 (4 + 2) = [3, 1] := rfl
  have s0 : seg ([1, 3, -4, 0, 3, 1] : List ℝ) 0 4 = [1, 3, -4, 0] := rfl
  exact (C52_flux_logarithmic_violates (m := [1, 3, -4, 0, 3, 1]) (a := 0) (n := 2) (b := 4) (by simp) (by simp)
    (by omega) (by rw [s1, total_eq]; norm_num) (by rw [s2, total_eq]; norm_num) (by rw [s0, total_eq]; norm_num)
    (by rw [s1]; simp) (by rw [s2]; simp)).2 (by rw [s1, s2]; exact List.Perm.swap _ _ _)

theorem variation_ok {m : List ℝ} {a n b : ℕ} (h1 : a + n ≤ m.length) (h2 : b + n ≤ m.length)
    (hx : 0 < total (seg m a (a + n))) (hy : 0 < total (seg m b (b + n))) :
    variation m a (a + n) b = .ok (1 - total (seg m b (b + n)) /
      (Real.sqrt (total (seg m a (a + n))) * Real.sqrt (total (seg m b (b + n))))) := by
  have e : (seg m a (a + n)).length = (seg m b (b + n)).length := by rw [seg_length h1, seg_length h2]; omega
  have p1 := loop2_fst (fun (s : ℝ × ℝ × ℝ) x y => (s.1 + x, s.2.1 + y, s.2.2 + x * y)) (fun s x _ => s + x) (·.1)
    (fun _ _ _ => rfl) (seg m a (a + n)) (seg m b (b + n)) (0, 0, 0)
  have p2 := loop2_fst (fun (s : ℝ × ℝ × ℝ) x y => (s.1 + x, s.2.1 + y, s.2.2 + x * y)) (fun s _ y => s + y) (·.2.1)
    (fun _ _ _ => rfl) (seg m a (a + n)) (seg m b (b + n)) (0, 0, 0)
  rw [loop2_sum (fun x _ => x) _ _ 0 e, zero_add] at p1
  rw [loop2_sum (fun _ f => f) _ _ 0 e, zero_add] at p2
  have q1 : (loop2 (fun (s : ℝ × ℝ × ℝ) x y => (s.1 + x, s.2.1 + y, s.2.2 + x * y)) (0, 0, 0) (seg m a (a + n))
    (seg m b (b + n))).1 = total (seg m a (a + n)) := p1
  have q2 : (loop2 (fun (s : ℝ × ℝ × ℝ) x y => (s.1 + x, s.2.1 + y, s.2.2 + x * y)) (0, 0, 0) (seg m a (a + n))
    (seg m b (b + n))).2.1 = total (seg m b (b + n)) := by rw [p2, e]; rfl
  have hne : Real.sqrt (total (seg m a (a + n))) * Real.sqrt (total (seg m b (b + n))) ≠ 0 :=
    (mul_pos (Real.sqrt_pos.mpr hx) (Real.sqrt_pos.mpr hy)).ne'
  simp only [variation, ranges_ok h1 h2, bind, Except.bind, q1, q2, fsqrt_ok hx.le, fsqrt_ok hy.le, fdiv_ok hne]
  rfl

/-- `variation` divides the sum of the second spectrum, not the cross sum; it equals the documented feature exactly
where these two agree. -/
theorem C52_variation_partial {m : List ℝ} {a n b : ℕ} (h1 : a + n ≤ m.length) (h2 : b + n ≤ m.length)
    (hx : 0 < total (seg m a (a + n))) (hy : 0 < total (seg m b (b + n))) :
    variation m a (a + n) b = .ok (variationOf (seg m a (a + n)) (seg m b (b + n))) ↔
      (∑ i ∈ range n, at0 (seg m a (a + n)) i * at0 (seg m b (b + n)) i) = total (seg m b (b + n)) := by
  have hne := mul_pos (Real.sqrt_pos.mpr hx) (Real.sqrt_pos.mpr hy)
  have hl : (seg m a (a + n)).length = n := by rw [seg_length h1]; omega
  rw [variation_ok h1 h2 hx hy, Except.ok.injEq, variationOf, hl, sub_right_inj, div_left_inj' hne.ne', eq_comm]

/-- C52 is violated by `variation`: spectra without a common line have variation 1, `variation` returns 0. -/
theorem C52_variation_violates : variation [1, 0, 0, 1] 0 2 2 = .ok 0 ∧ variationOf [1, 0] [0, 1] = 1 := by
  have s1 : seg ([1, 0, 0, 1] : List ℝ) 0 (0 + 2) = [1, 0] := rfl
  have s2 : seg ([1, 0, 0, 1] : List ℝ) 2 (2 + 2) = [0, 1] := rfl
  constructor
  · have := variation_ok (m := [1, 0, 0, 1]) (a := 0) (n := 2) (b := 2) (by simp) (by simp)
      (by rw [s1, total_eq]; norm_num) (by rw [s2, total_eq]; norm_num)
    rw [s1, s2, total_eq, total_eq] at this
    norm_num at this
    exact this
  · unfold variationOf
    simp only [List.length_cons, List.length_nil, sum_range_succ, range_zero, sum_empty, at0_cons_zero, at0_cons_succ]
    norm_num

theorem irregularityLoop_eq : ∀ (x : List ℝ) (s : ℝ × ℝ), irregularityLoop s x =
    (s.1 + x.length, s.2 + ∑ i ∈ range x.length, at0 x i ^ 2)
  | [], s => by simp [irregularityLoop]
  | v :: l, s => by
    rw [irregularityLoop]
    simp only [irregularityLoop_eq l, List.length_cons, sum_range_succ', at0_cons_succ, at0_cons_zero]
    congr 1
    · push_cast; ring
    · ring

/-- C52 is violated by `spectral_irregularity`: the numerator is the number of lines whatever they are, and the last
line does not count. -/
theorem C52_irregularity_violates {x : List ℝ} (hs : (∑ i ∈ range (x.length - 1), at0 x i ^ 2) ≠ 0) :
    irregularity x = .ok (((x.length : ℝ) - 1) / ∑ i ∈ range (x.length - 1), at0 x i ^ 2) := by
  cases x with
  | nil => simp at hs
  | cons v l =>
    have hl : (v :: l).dropLast.length = (v :: l).length - 1 := List.length_dropLast
    have ht : ∑ i ∈ range ((v :: l).length - 1), at0 (v :: l).dropLast i ^ 2 =
        ∑ i ∈ range ((v :: l).length - 1), at0 (v :: l) i ^ 2 := by
      refine sum_congr rfl fun i hi => ?_
      unfold at0
      rw [List.getD, List.getD, List.getElem?_dropLast, if_pos (mem_range.mp hi)]
    simp only [irregularity, irregularityLoop_eq, hl, ht, zero_add]
    rw [fdiv_ok hs]
    congr 2
    simp

/-- A flat spectrum of at least two lines has irregularity 0, and `spectral_irregularity` never returns 0 for it. -/
theorem C52_irregularity_flat_violates {c : ℝ} (hc : c ≠ 0) (n : ℕ) :
    irregularityOf (List.replicate (n + 2) c) = 0 ∧ irregularity (List.replicate (n + 2) c) = .ok (1 / c ^ 2) := by
  have ha : ∀ i, i < n + 2 → at0 (List.replicate (n + 2) c) i = c := by
    intro i hi
    unfold at0
    rw [List.getD, List.getElem?_replicate, if_pos hi]
    rfl
  have hn : ((n : ℝ) + 1) ≠ 0 := by positivity
  constructor
  · unfold irregularityOf
    rw [List.length_replicate, sum_eq_zero, zero_div]
    intro i hi
    have := mem_range.mp hi
    rw [ha i (by omega), ha (i + 1) (by omega), sub_self]
    norm_num
  · have hs : ∑ i ∈ range ((List.replicate (n + 2) c).length - 1), at0 (List.replicate (n + 2) c) i ^ 2 =
        (n + 1) * c ^ 2 := by
      rw [List.length_replicate, sum_congr rfl fun i hi => by rw [ha i (by have := mem_range.mp hi; omega)], sum_const,
        card_range, nsmul_eq_mul]
      push_cast
      ring
    rw [C52_irregularity_violates (by rw [hs]; positivity), hs, List.length_replicate]
    congr 1
    push_cast
    field_simp
    ring

/-! ### Signal-to-noise ratio -/

theorem variance_eq {x : List ℝ} (h : x ≠ []) : variance x = .ok (varianceOf x) := by
  obtain ⟨v, hv, he, -⟩ := C31.C31_variance x h
  rw [hv, he]
  congr 1
  unfold avgOf avg varianceOf
  rw [sum_eq, total_eq, List.length_map]

/-- If the second signal follows the first immediately, `snr` is the documented ratio in decibels. -/
theorem C52_snr_partial (dbg : Bool) {m : List ℝ} {a n : ℕ} (hn : 0 < n) (h2 : a + n + n ≤ m.length)
    (hx : 0 < varianceOf (seg m a (a + n)))
    (hd : 0 < varianceOf (List.zipWith (fun a b => a - b) (seg m a (a + n)) (seg m (a + n) (a + n + n)))) :
    snr dbg m a (a + n) (a + n) = .ok (snrOf (seg m a (a + n)) (seg m (a + n) (a + n + n))) := by
  have h1 : a + n ≤ m.length := by omega
  have l1 : (seg m a (a + n)).length = n := by rw [seg_length h1]; omega
  have l2 : (seg m (a + n) (a + n + n)).length = n := by rw [seg_length h2]; omega
  have n1 : seg m a (a + n) ≠ [] := by rw [← List.length_pos_iff, l1]; exact hn
  have n2 : List.zipWith (fun a b => a - b) (seg m a (a + n)) (seg m (a + n) (a + n + n)) ≠ [] := by
    rw [← List.length_pos_iff, List.length_zipWith, l1, l2]; omega
  have hp := div_pos hx hd
  simp only [snr, ranges_ok h1 h2, readRange_ok (Nat.le_add_right a n) h1, bind, Except.bind, variance_eq n1,
    variance_eq n2, fdiv_ok hd.ne', Conv.pow2db, Conv.log10]
  rw [if_neg (by rintro ⟨_, h⟩; exact h hp), if_neg (not_le.mpr hp)]
  rfl

/-- C52 is violated by `snr`: a constant signal has no power to compare, and yet with two more samples between the two
signals `snr` answers 10 log10((1/2)/(1/4)); with the signals the other way round in memory it reads backwards and with
both at the same place it divides by 0. -/
theorem C52_snr_violates :
    snr true [1, 1, 0, 2, 1, 0] 0 2 4 = .ok (10 * Real.logb 10 (1 / 2 / (1 / 4))) ∧ varianceOf [1, 1] = 0 ∧
    snr true [1, 0, 1, 1] 2 4 0 = .error .outOfBounds ∧ snr true [1, 0] 0 2 0 = .error .divByZero := by
  refine ⟨?_, ?_, ?_, ?_⟩
  · have r : ranges ([1, 1, 0, 2, 1, 0] : List ℝ) 0 2 4 = .ok ([1, 1], [1, 0]) :=
      ranges_ok (m := [1, 1, 0, 2, 1, 0]) (a := 0) (n := 2) (b := 4) (by simp) (by simp)
    have r2 : readRange ([1, 1, 0, 2, 1, 0] : List ℝ) 0 4 = .ok [1, 1, 0, 2] := readRange_ok (by omega) (by simp)
    have v1 : varianceOf [1, 1, 0, 2] = 1 / 2 := by
      unfold varianceOf
      rw [total_eq]
      simp only [List.length_cons, List.length_nil, sum_range_succ, range_zero, sum_empty, at0_cons_zero, at0_cons_succ]
      norm_num
    have v2 : varianceOf [1 - 1, 1 - 0] = 1 / 4 := by
      unfold varianceOf
      rw [total_eq]
      simp only [List.length_cons, List.length_nil, sum_range_succ, range_zero, sum_empty, at0_cons_zero, at0_cons_succ]
      norm_num
    simp only [snr, r, r2, bind, Except.bind, List.zipWith_cons_cons, List.zipWith_nil_left,
      variance_eq (List.cons_ne_nil _ _), v1, v2]
    rw [fdiv_ok (by norm_num)]
    simp only [Conv.pow2db, Conv.log10]
    norm_num
  · unfold varianceOf
    rw [total_eq]
    simp only [List.length_cons, List.length_nil, sum_range_succ, range_zero, sum_empty, at0_cons_zero, at0_cons_succ]
    norm_num
  · have r : ranges ([1, 0, 1, 1] : List ℝ) 2 4 0 = .ok ([1, 1], [1, 0]) :=
      ranges_ok (m := [1, 0, 1, 1]) (a := 2) (n := 2) (b := 0) (by simp) (by simp)
    simp only [snr, r, bind, Except.bind]
    rfl
  · have r : ranges ([1, 0] : List ℝ) 0 2 0 = .ok ([1, 0], [1, 0]) :=
      ranges_ok (m := [1, 0]) (a := 0) (n := 2) (b := 0) (by simp) (by simp)
    have r2 : readRange ([1, 0] : List ℝ) 0 0 = .ok [] := readRange_ok (by omega) (by simp)
    simp only [snr, r, r2, bind, Except.bind]
    simp [variance, moment, mean, fdiv, bind, Except.bind]

end Edsp.Feature
