import Verif.Props.C179_AverageFilters

/-!
# C181: filtering a frame backwards
-/

namespace Edsp.Props.C181

open Finset Edsp Edsp.Mem Edsp.Spec Edsp.Spectral Edsp.ConvL

/-- The sum of the products of corresponding samples. -/
def dot (x y : List ℝ) : ℝ := ∑ i ∈ range x.length, x.getD i 0 * y.getD i 0

/-- A filter run over the frame from its end to its beginning. -/
def backwards (T : List ℝ → List ℝ) (x : List ℝ) : List ℝ := (T x.reverse).reverse

theorem dot_comm {x y : List ℝ} (h : x.length = y.length) : dot x y = dot y x := by
  unfold dot
  rw [h]
  exact sum_congr rfl fun i _ => mul_comm ..

theorem dot_self_nonneg (x : List ℝ) : 0 ≤ dot x x := sum_nonneg fun _ _ => mul_self_nonneg _

theorem getD_reverse {x : List ℝ} {j : ℕ} (hj : j < x.length) : x.reverse.getD j 0 = x.getD (x.length - 1 - j) 0 := by
  rw [List.getD, List.getD, List.getElem?_reverse hj]

/-- Sums over the pairs `j ≤ i < n`, from either side. -/
theorem pairs (n : ℕ) (f : ℕ → ℕ → ℝ) :
    ∑ i ∈ range n, ∑ j ∈ range (i + 1), f j i = ∑ j ∈ range n, ∑ l ∈ range (n - j), f j (j + l) := by
  rw [sum_sigma', sum_sigma']
  refine sum_nbij' (fun p => ⟨p.2, p.1 - p.2⟩) (fun p => ⟨p.1 + p.2, p.1⟩) ?_ ?_ ?_ ?_ ?_
  · rintro ⟨i, j⟩ h
    simp only [mem_sigma, mem_range] at h ⊢
    omega
  · rintro ⟨j, l⟩ h
    simp only [mem_sigma, mem_range] at h ⊢
    omega
  · rintro ⟨i, j⟩ h
    simp only [mem_sigma, mem_range] at h
    simp only [Sigma.mk.injEq, heq_eq_eq, and_true]
    omega
  · rintro ⟨j, l⟩ h
    simp
  · rintro ⟨i, j⟩ h
    simp only [mem_sigma, mem_range] at h
    simp only
    rw [show j + (i - j) = i by omega]

theorem lti_adjoint {T : List ℝ → List ℝ} (h : Lti T) {x y : List ℝ} (hl : x.length = y.length) :
    dot (T x) y = dot x (backwards T y) := by
  rcases Nat.eq_zero_or_pos x.length with h0 | h0
  · unfold dot; rw [h.len, h0]; rfl
  obtain ⟨n, hn⟩ : ∃ n, x.length = n + 1 := ⟨x.length - 1, by omega⟩
  have hy : y.length = n + 1 := by omega
  have lr : (T y.reverse).length = n + 1 := by rw [h.len, List.length_reverse, hy]
  set g := T (impulse n) with hg
  have e1 : dot (T x) y = ∑ i ∈ range (n + 1), ∑ j ∈ range (i + 1), x.getD j 0 * g.getD (i - j) 0 * y.getD i 0 := by
    unfold dot
    rw [h.len, hn]
    refine sum_congr rfl fun i hi => ?_
    rw [lti_sum h x n hn i (by have := mem_range.1 hi; omega), convolution, sum_mul]
  have e2 : dot x (backwards T y) =
      ∑ j ∈ range (n + 1), ∑ l ∈ range (n + 1 - j), x.getD j 0 * g.getD (j + l - j) 0 * y.getD (j + l) 0 := by
    unfold dot backwards
    rw [hn]
    refine sum_congr rfl fun j hj => ?_
    have hj := mem_range.1 hj
    rw [getD_reverse (by omega), lr, lti_sum h y.reverse n (by simp [hy]) _ (by omega), convolution, mul_sum,
      show n + 1 - 1 - j + 1 = n + 1 - j by omega, ← sum_range_reflect]
    refine sum_congr rfl fun l hl => ?_
    have hl := mem_range.1 hl
    rw [getD_reverse (by omega), hy, show n + 1 - 1 - (n + 1 - j - 1 - l) = j + l by omega,
      show n + 1 - 1 - j - (n + 1 - j - 1 - l) = j + l - j by omega]
    ring
  rw [e1, e2, pairs (n + 1) fun j i => x.getD j 0 * g.getD (i - j) 0 * y.getD i 0]

theorem cascade_lti {N : ℕ} {ops : List (Cascade.Op ℝ)} {c : Cascade ℝ} {o : List (List ℝ)}
    (h : (Cascade.new N).run ops = .ok (c, o)) : Lti fun x => (c.reset.filter x).2 := by
  have hok : c.Ok := by
    rcases Cascade.run_sim ops (Cascade.sim_new (K := ℝ) N) with ⟨e, g1, _⟩ | ⟨c', fs', o', g1, _, g3⟩
    · rw [h] at g1; simp at g1
    · rw [h] at g1; simp at g1; rw [g1.1]; exact g3.1
  obtain ⟨r1, r2, _⟩ := Cascade.reset_active c hok
  have hr : ∀ f ∈ c.reset.active, f.AtRest := by
    rw [r1]; intro f hf
    obtain ⟨g, _, rfl⟩ := List.mem_map.mp hf
    exact Biquad.atRest_reset g
  simp only [Cascade.filter_eq _ r2]
  exact C137.through_lti hr

/-- **C181 (backwards).**  Comparing a filtered frame with a second frame is comparing the frame with the second one
filtered backwards, for every cascade after a reset, whatever calls were made on it before. -/
theorem C181_adjoint {N : ℕ} {ops : List (Cascade.Op ℝ)} {c : Cascade ℝ} {o : List (List ℝ)}
    (h : (Cascade.new N).run ops = .ok (c, o)) {x y : List ℝ} (hl : x.length = y.length) :
    dot (c.reset.filter x).2 y = dot x (c.reset.filter y.reverse).2.reverse :=
  lti_adjoint (cascade_lti h) hl

/-- **C181 (forwards and backwards).**  The frame filtered forwards and then backwards, compared with the frame, gives
the energy of the frame filtered once, so it is never negative; and the comparison of two frames does not depend on
which of them is filtered. -/
theorem C181_both_ways {N : ℕ} {ops : List (Cascade.Op ℝ)} {c : Cascade ℝ} {o : List (List ℝ)}
    (h : (Cascade.new N).run ops = .ok (c, o)) (both : List ℝ → List ℝ)
    (hb : ∀ x, both x = (c.reset.filter (c.reset.filter x).2.reverse).2.reverse) (x : List ℝ) :
    dot x (both x) = Seq.energy (c.reset.filter x).2 ∧ 0 ≤ dot x (both x) ∧
      ∀ y : List ℝ, x.length = y.length → dot (both x) y = dot x (both y) := by
  have hT := cascade_lti h
  have len : ∀ x : List ℝ, (c.reset.filter x).2.length = x.length := hT.len
  have e : ∀ x y : List ℝ, x.length = y.length → dot x (both y) = dot (c.reset.filter x).2 (c.reset.filter y).2 := by
    intro x y hl
    rw [hb, C181_adjoint h (x := x) (by rw [len, hl])]
  have en : dot (c.reset.filter x).2 (c.reset.filter x).2 = Seq.energy (c.reset.filter x).2 := by
    rw [C163.energy_sum]
    exact sum_congr rfl fun i _ => by rw [sq]; rfl
  refine ⟨by rw [e x x rfl, en], by rw [e x x rfl]; exact dot_self_nonneg _, fun y hl => ?_⟩
  have lb : (both x).length = x.length := by rw [hb]; simp [len]
  rw [dot_comm (by rw [lb, hl]), e y x hl.symm, e x y hl, dot_comm (by rw [len, len, hl])]

/-- **C181 (moving average).**  The same for a new moving average. -/
theorem C181_average {N : ℕ} (h0 : 0 < N) (hN : N < 2 ^ 63) {x y : List ℝ} (hl : x.length = y.length) :
    ∃ a p q us vs, MovingAverage.new N = .ok a ∧ a.run (x.map .tick) = .ok (p, us) ∧
      a.run (y.reverse.map .tick) = .ok (q, vs) ∧ dot us y = dot x vs.reverse := by
  obtain ⟨a, p, e1, e2⟩ := C179.average_run h0 hN x
  obtain ⟨a', q, e3, e4⟩ := C179.average_run h0 hN y.reverse
  rw [e1] at e3
  cases e3
  exact ⟨a, p, q, _, _, e1, e2, e4, lti_adjoint (C179.weighted_lti _) hl⟩

/-- **C181 (convolution and correlation).**  Comparing the convolution of two frames with a third one is comparing the
first with the correlation of the third and the second. -/
theorem C181_correlation {m : List ℝ} {f1 f2 f3 n d : ℕ} (h0 : 0 < n) (h31 : 2 * n < 2147483648)
    (h1 : f1 + n ≤ m.length) (h2 : f2 + n ≤ m.length) (h3 : f3 + n ≤ m.length) (hd : d + n ≤ m.length) :
    ∃ p q, conv m f1 (f1 + n) f2 d = .ok p ∧ xcorr m f3 (f3 + n) f2 d .none = .ok q ∧
      dot (seg p d (d + n)) (seg m f3 (f3 + n)) = dot (seg m f1 (f1 + n)) (seg q d (d + n)) := by
  obtain ⟨p, p1, p2⟩ := C46_conv h0 h31 h1 h2 hd
  obtain ⟨q, q1, q2⟩ := C46_xcorr_partial h0 h31 h3 h2 hd
  refine ⟨p, q, p1, q1, ?_⟩
  have sp := wrote_seg p2
  have sq := wrote_seg q2
  rw [List.length_map, List.length_range] at sp sq
  have l1 : (seg m f1 (f1 + n)).length = n := by rw [seg_length h1]; omega
  have l3 : (seg m f3 (f3 + n)).length = n := by rw [seg_length h3]; omega
  rw [sp, sq]
  generalize seg m f1 (f1 + n) = x at *
  generalize seg m f2 (f2 + n) = h at *
  generalize seg m f3 (f3 + n) = y at *
  have g : ∀ (f : ℕ → ℝ) i, i < n → ((List.range n).map f).getD i 0 = f i := fun f i hi => by simp [List.getD, hi]
  have e1 : dot ((List.range n).map (convolution x h)) y =
      ∑ i ∈ range n, ∑ j ∈ range (i + 1), x.getD j 0 * h.getD (i - j) 0 * y.getD i 0 := by
    unfold dot
    rw [List.length_map, List.length_range]
    refine sum_congr rfl fun i hi => ?_
    rw [g _ i (mem_range.1 hi), convolution, sum_mul]
  have e2 : dot x ((List.range n).map (correlation y h)) =
      ∑ j ∈ range n, ∑ l ∈ range (n - j), x.getD j 0 * h.getD (j + l - j) 0 * y.getD (j + l) 0 := by
    unfold dot
    rw [l1]
    refine sum_congr rfl fun j hj => ?_
    rw [g _ j (mem_range.1 hj), correlation, mul_sum, l3]
    refine sum_congr rfl fun l _ => ?_
    rw [Nat.add_sub_cancel_left, add_comm l j]
    ring
  rw [e1, e2, pairs n fun j i => x.getD j 0 * h.getD (i - j) 0 * y.getD i 0]

/-- A recursive section that has filtered a 5 before its reset; the frames 4, 2 and 1, 3. -/
example : ∃ (c : Cascade ℝ) (o : List (List ℝ)),
    (Cascade.new 1).run [.push ⟨0, 0, 1, 0, -1 / 2, 1, 0, 0⟩, .filter [5]] = .ok (c, o) ∧
    dot (c.reset.filter [4, 2]).2 [1, 3] = dot [4, 2] (c.reset.filter [3, 1]).2.reverse ∧
    dot (c.reset.filter [4, 2]).2 [1, 3] = 16 := by
  obtain ⟨c, hc⟩ : ∃ c : Cascade ℝ, c = ⟨1, [⟨0, 0, 1, 0, -1 / 2, 1, 5 / 2, 0⟩]⟩ := ⟨_, rfl⟩
  have hr : (Cascade.new 1).run [.push (⟨0, 0, 1, 0, -1 / 2, 1, 0, 0⟩ : Biquad ℝ), .filter [5]] =
      .ok (c, [[], [5]]) := by
    rw [hc]
    norm_num [Cascade.run, Cascade.step, Cascade.new, Cascade.pushBack, Cascade.filter, Cascade.tick, Cascade.tickLoop,
      Biquad.tick, Except.bind, bind, pure, Except.pure]
  refine ⟨c, _, hr, C181_adjoint hr (x := [4, 2]) (y := [1, 3]) rfl, ?_⟩
  norm_num [hc, dot, sum_range_succ, Cascade.filter, Cascade.tick, Cascade.tickLoop, Cascade.reset, Biquad.tick,
    Biquad.reset]

/-- The frames (1, 3), (5, 2) and (4, 6). -/
example : ∃ p q, conv [1, 3, 5, 2, 4, 6, 0, 0] 0 (0 + 2) 2 6 = .ok p ∧
    xcorr [1, 3, 5, 2, 4, 6, 0, 0] 4 (4 + 2) 2 6 .none = .ok q ∧
    dot (seg p 6 (6 + 2)) (seg [1, 3, 5, 2, 4, 6, 0, 0] 4 (4 + 2)) =
      dot (seg [1, 3, 5, 2, 4, 6, 0, 0] 0 (0 + 2)) (seg q 6 (6 + 2)) :=
  C181_correlation (by norm_num) (by norm_num) (by simp) (by simp) (by simp) (by simp)

/-- Three samples smoothed over two. -/
example : ∃ a p q us vs, MovingAverage.new 2 = .ok a ∧ a.run ([(1 : ℝ), 5, 2].map .tick) = .ok (p, us) ∧
    a.run ([(3 : ℝ), 4, 7].reverse.map .tick) = .ok (q, vs) ∧ dot us [3, 4, 7] = dot [1, 5, 2] vs.reverse :=
  C181_average (by norm_num) (by norm_num) rfl

end Edsp.Props.C181
