import Verif.Props.C60_Rounding
import Verif.Props.C137_ConvolutionAlgebra
import Verif.Props.C163_Differences

/-!
# C178: the derivative among filters, convolutions and correlations
-/

namespace Edsp.Props.C178

open Finset Edsp Edsp.Mem Edsp.Spec Edsp.Spectral Edsp.ConvL

/-- What `derivative` stores (C61): the first sample, then the differences of neighbours. -/
def steps (x : List ℝ) : List ℝ := List.zipWith (· - ·) x (0 :: x)

theorem steps_length (x : List ℝ) : (steps x).length = x.length := by simp [steps]

theorem steps_eq {x : List ℝ} (h : x ≠ []) : steps x = lincomb 1 (-1) x (0 :: x.dropLast) := by
  have hl := List.length_pos_iff.2 h
  apply List.ext_getElem
  · simp [steps, lincomb]; omega
  · intro i h1 h2
    have hi : i < x.length := by rw [steps_length] at h1; exact h1
    simp only [steps, lincomb, List.getElem_zipWith]
    cases i with
    | zero => simp
    | succ i => simp only [List.getElem_cons_succ, List.getElem_dropLast]; ring

/-- A linear, time invariant and causal map exchanges with the derivative. -/
theorem lti_steps {T : List ℝ → List ℝ} (h : Lti T) (x : List ℝ) : T (steps x) = steps (T x) := by
  rcases eq_or_ne x [] with rfl | hx
  · have : T [] = [] := List.eq_nil_of_length_eq_zero (by rw [h.len]; rfl)
    simp [steps, this]
  · have hl := List.length_pos_iff.2 hx
    have hT : T x ≠ [] := List.length_pos_iff.1 (by rw [h.len]; exact hl)
    have hc : T x.dropLast = (T x).dropLast := by
      have := h.causal x.dropLast [x.getLast hx]
      rw [List.dropLast_append_getLast hx] at this
      rw [this, List.length_dropLast, ← h.len x, ← List.dropLast_eq_take]
    rw [steps_eq hx, h.lin 1 (-1) _ _ (by simp; omega), h.shift, hc, ← steps_eq hT]

/-- `derivative` over a range into a range not strictly inside it. -/
theorem derivative_ok {m : List ℝ} {a n d : ℕ} (h0 : 0 < n) (hs : a + n ≤ m.length) (hd : d + n ≤ m.length)
    (ho : d ≤ a ∨ a + n ≤ d) :
    ∃ m', Seq.derivative m a (a + n) d = .ok m' ∧ seg m' d (d + n) = steps (seg m a (a + n)) ∧
      Wrote m m' d (steps (seg m a (a + n))) := by
  obtain ⟨m', e, w⟩ := C61_derivative (m := m) (a := a) (b := a + n) (d := d) (by omega) hs (by omega) ho
  refine ⟨m', e, ?_, w⟩
  have := wrote_seg w
  rw [show (List.zipWith (· - ·) (seg m a (a + n)) (0 :: seg m a (a + n))).length = n by
    have := steps_length (seg m a (a + n)); rw [seg_length hs] at this; unfold steps at this; omega] at this
  exact this

/-- **C178 (filters).**  Whether a frame is differentiated and then filtered, or filtered and then differentiated, is the
same, for every cascade after a reset, whatever calls were made on it before. -/
theorem C178_filter {N : ℕ} {ops : List (Cascade.Op ℝ)} {c : Cascade ℝ} {o : List (List ℝ)}
    (h : (Cascade.new N).run ops = .ok (c, o)) {m m2 : List ℝ} {a n d : ℕ} (h0 : 0 < n)
    (hs : a + n ≤ m.length) (hs2 : a + n ≤ m2.length) (hd : d + n ≤ m.length) (hd2 : d + n ≤ m2.length)
    (ho : d ≤ a ∨ a + n ≤ d) (hf : seg m2 a (a + n) = (c.reset.filter (seg m a (a + n))).2) :
    ∃ u v, Seq.derivative m a (a + n) d = .ok u ∧ Seq.derivative m2 a (a + n) d = .ok v ∧
      seg v d (d + n) = (c.reset.filter (seg u d (d + n))).2 := by
  have hok : c.Ok := by
    rcases Cascade.run_sim ops (Cascade.sim_new (K := ℝ) N) with ⟨e, g1, _⟩ | ⟨c', fs', o', g1, _, g3⟩
    · rw [h] at g1; simp at g1
    · rw [h] at g1; simp at g1; rw [g1.1]; exact g3.1
  obtain ⟨r1, r2, _⟩ := Cascade.reset_active c hok
  have hr : ∀ f ∈ c.reset.active, f.AtRest := by
    rw [r1]; intro f hf
    obtain ⟨g, _, rfl⟩ := List.mem_map.mp hf
    exact Biquad.atRest_reset g
  obtain ⟨u, u1, u2, -⟩ := derivative_ok h0 hs hd ho
  obtain ⟨v, v1, v2, -⟩ := derivative_ok h0 hs2 hd2 ho
  refine ⟨u, v, u1, v1, ?_⟩
  simp only [Cascade.filter_eq _ r2] at hf ⊢
  rw [v2, u2, hf]
  exact (lti_steps (C137.through_lti hr) _).symm

theorem getD_steps (x : List ℝ) (k : ℕ) (hk : k < x.length) :
    (steps x).getD k 0 = x.getD k 0 - if k = 0 then 0 else x.getD (k - 1) 0 := by
  cases k with
  | zero => simp [steps, List.getD, hk]
  | succ k =>
    have : k < x.length := by omega
    simp [steps, List.getD, hk, this]

/-- **C178 (convolution).**  `conv` of a differentiated frame stores the derivative of what it stores for the frame. -/
theorem C178_conv {m : List ℝ} {f1 f2 n d e : ℕ} (h0 : 0 < n) (h31 : 2 * n < 2147483648) (h1 : f1 + n ≤ m.length)
    (h2 : f2 + n ≤ m.length) (hd : d + n ≤ m.length) (he : e + n ≤ m.length) (ho : d ≤ f1 ∨ f1 + n ≤ d)
    (hf : d + n ≤ f2 ∨ f2 + n ≤ d) (ho2 : e ≤ d ∨ d + n ≤ e) :
    ∃ u p q v, Seq.derivative m f1 (f1 + n) d = .ok u ∧ conv u d (d + n) f2 e = .ok p ∧
      conv m f1 (f1 + n) f2 d = .ok q ∧ Seq.derivative q d (d + n) e = .ok v ∧
      seg p e (e + n) = seg v e (e + n) := by
  obtain ⟨u, u1, u2, u3⟩ := derivative_ok h0 h1 hd ho
  have lu := wrote_length u3
  obtain ⟨p, p1, p2⟩ := C46_conv (m := u) (f1 := d) (f2 := f2) (d := e) h0 h31 (by omega) (by omega) (by omega)
  obtain ⟨q, q1, q2⟩ := C46_conv h0 h31 h1 h2 hd
  have lq := wrote_length q2
  obtain ⟨v, v1, v2, -⟩ := derivative_ok (m := q) (a := d) (d := e) h0 (by omega) (by omega) ho2
  refine ⟨u, p, q, v, u1, p1, q1, v1, ?_⟩
  have l1 : (seg m f1 (f1 + n)).length = n := by rw [seg_length h1]; omega
  have sp := wrote_seg p2
  have sq := wrote_seg q2
  rw [List.length_map, List.length_range] at sp sq
  have hh : seg u f2 (f2 + n) = seg m f2 (f2 + n) := by
    obtain ⟨-, -, -, w4⟩ := (wrote_iff ..).1 u3
    rw [steps_length, l1] at w4
    apply List.ext_getElem?
    intro i
    unfold seg
    rw [List.getElem?_take, List.getElem?_take, List.getElem?_drop, List.getElem?_drop]
    split
    · exact w4 _ (by omega)
    · rfl
  rw [sp, v2, sq, u2, hh]
  generalize seg m f1 (f1 + n) = x at l1
  generalize seg m f2 (f2 + n) = y
  apply List.ext_getElem
  · rw [steps_length]; simp
  · intro k k1 k2
    have hk : k < n := by simpa using k1
    have e2 : (steps ((List.range n).map (convolution x y)))[k] =
        (steps ((List.range n).map (convolution x y))).getD k 0 := by
      rw [List.getD, List.getElem?_eq_getElem k2, Option.getD_some]
    have gc : ∀ j, j < n → ((List.range n).map (convolution x y)).getD j 0 = convolution x y j := fun j hj => by
      simp [List.getD, hj]
    rw [e2, getD_steps _ _ (by simpa using hk), gc k hk, List.getElem_map, List.getElem_range]
    have prev : (if k = 0 then 0 else ((List.range n).map (convolution x y)).getD (k - 1) 0) =
        if k = 0 then 0 else ∑ i ∈ range (k - 1 + 1), y.getD i 0 * x.getD (k - 1 - i) 0 := by
      rw [gc (k - 1) (by omega), convolution_comm]; rfl
    rw [prev, convolution_comm, convolution_comm x y]
    unfold convolution
    have e3 : ∀ i ∈ range (k + 1), y.getD i 0 * (steps x).getD (k - i) 0 =
        y.getD i 0 * x.getD (k - i) 0 - y.getD i 0 * (if k - i = 0 then 0 else x.getD (k - i - 1) 0) := by
      intro i hi
      rw [getD_steps x _ (by omega)]; ring
    rw [sum_congr rfl e3, sum_sub_distrib]
    congr 1
    cases k with
    | zero => simp
    | succ k =>
      rw [if_neg (by omega), Nat.add_sub_cancel, sum_range_succ]
      simp only [Nat.sub_self, if_true, mul_zero, add_zero]
      refine sum_congr rfl fun i hi => ?_
      have hi := mem_range.1 hi
      rw [if_neg (by omega), show k + 1 - i - 1 = k - i by omega]

/-- **C178 (energy).**  The energy of the derivative of `n ≥ 1` samples is twice the energy of the samples, less the
square of the last one and twice the correlation at lag 1; and it is at most four times the energy. -/
theorem C178_energy {m : List ℝ} {a n d : ℕ} (h0 : 0 < n) (hs : a + n ≤ m.length) (hd : d + n ≤ m.length)
    (ho : d ≤ a ∨ a + n ≤ d) :
    ∃ m', Seq.derivative m a (a + n) d = .ok m' ∧
      Seq.energy (seg m' d (d + n)) = 2 * Seq.energy (seg m a (a + n)) - (m.getD (a + n - 1) 0) ^ 2 -
        2 * correlation (seg m a (a + n)) (seg m a (a + n)) 1 ∧
      Seq.energy (seg m' d (d + n)) ≤ 4 * Seq.energy (seg m a (a + n)) := by
  obtain ⟨m', e, h, -⟩ := derivative_ok h0 hs hd ho
  have l1 : (seg m a (a + n)).length = n := by rw [seg_length hs]; omega
  have hlast : m.getD (a + n - 1) 0 = (seg m a (a + n)).getD (n - 1) 0 := by
    unfold seg
    rw [List.getD, List.getD, List.getElem?_take, List.getElem?_drop, if_pos (by omega),
      show a + (n - 1) = a + n - 1 by omega]
  refine ⟨m', e, ?_⟩
  rw [h, hlast, C163.energy_sum, C163.energy_sum, steps_length, l1]
  unfold correlation
  rw [l1]
  generalize seg m a (a + n) = x at l1
  obtain ⟨k, rfl⟩ : ∃ k, n = k + 1 := ⟨n - 1, by omega⟩
  have e1 : ∑ j ∈ range (k + 1), at0 (steps x) j ^ 2 =
      x.getD 0 0 ^ 2 + ∑ j ∈ range k, (x.getD (j + 1) 0 - x.getD j 0) ^ 2 := by
    rw [sum_range_succ', add_comm]
    congr 1
    · rw [at0, getD_steps x 0 (by omega)]; simp
    · refine sum_congr rfl fun j hj => ?_
      have hj := mem_range.1 hj
      rw [at0, getD_steps x (j + 1) (by omega), if_neg (by omega), Nat.add_sub_cancel]
  have e2 : ∑ j ∈ range (k + 1), at0 x j ^ 2 = x.getD 0 0 ^ 2 + ∑ j ∈ range k, x.getD (j + 1) 0 ^ 2 := by
    rw [sum_range_succ', add_comm]; rfl
  have e3 : ∑ j ∈ range (k + 1), at0 x j ^ 2 = (∑ j ∈ range k, x.getD j 0 ^ 2) + x.getD k 0 ^ 2 := by
    rw [sum_range_succ]; rfl
  have e4 : ∑ j ∈ range k, (x.getD (j + 1) 0 - x.getD j 0) ^ 2 =
      (∑ j ∈ range k, x.getD (j + 1) 0 ^ 2) + (∑ j ∈ range k, x.getD j 0 ^ 2) -
        2 * ∑ j ∈ range k, x.getD (j + 1) 0 * x.getD j 0 := by
    rw [mul_sum, ← sum_add_distrib, ← sum_sub_distrib]
    exact sum_congr rfl fun j _ => by ring
  have e5 : ∑ j ∈ range k, (x.getD (j + 1) 0 - x.getD j 0) ^ 2 ≤
      2 * (∑ j ∈ range k, x.getD (j + 1) 0 ^ 2) + 2 * ∑ j ∈ range k, x.getD j 0 ^ 2 := by
    rw [mul_sum, mul_sum, ← sum_add_distrib]
    exact sum_le_sum fun j _ => by nlinarith [sq_nonneg (x.getD (j + 1) 0 + x.getD j 0)]
  rw [e1, Nat.add_sub_cancel]
  refine ⟨by rw [e4]; linarith, ?_⟩
  have := sq_nonneg (x.getD 0 0)
  have := sq_nonneg (x.getD k 0)
  linarith

/-- Three samples differentiated: 1, 3 - 1, 2 - 3. -/
example : ∃ m', Seq.derivative [1, 3, 2, 0, 0, 0] 0 (0 + 3) 3 = .ok m' ∧ seg m' 3 (3 + 3) = [1, 2, -1] ∧
    Seq.energy (seg m' 3 (3 + 3)) ≤ 4 * Seq.energy [(1 : ℝ), 3, 2] := by
  obtain ⟨m', e, h, -⟩ := derivative_ok (m := [1, 3, 2, 0, 0, 0]) (a := 0) (n := 3) (d := 3) (by norm_num) (by simp)
    (by simp) (by simp)
  refine ⟨m', e, by rw [h]; norm_num [steps, seg], ?_⟩
  rw [h]
  norm_num [steps, seg, Seq.energy, Seq.innerSelf]

/-- A recursive section that has filtered a 5 before its reset answers 4, 2, 0 with 4, 4, 2. -/
example : ∃ (c : Cascade ℝ) (o : List (List ℝ)) (u v : List ℝ),
    (Cascade.new 1).run [.push ⟨0, 0, 1, 0, -1 / 2, 1, 0, 0⟩, .filter [5]] = .ok (c, o) ∧
    Seq.derivative [4, 2, 0] 0 (0 + 3) 0 = .ok u ∧ Seq.derivative [4, 4, 2] 0 (0 + 3) 0 = .ok v ∧
    seg v 0 (0 + 3) = (c.reset.filter (seg u 0 (0 + 3))).2 := by
  obtain ⟨c, hc⟩ : ∃ c : Cascade ℝ, c = ⟨1, [⟨0, 0, 1, 0, -1 / 2, 1, 5 / 2, 0⟩]⟩ := ⟨_, rfl⟩
  have hr : (Cascade.new 1).run [.push (⟨0, 0, 1, 0, -1 / 2, 1, 0, 0⟩ : Biquad ℝ), .filter [5]] =
      .ok (c, [[], [5]]) := by
    rw [hc]
    norm_num [Cascade.run, Cascade.step, Cascade.new, Cascade.pushBack, Cascade.filter, Cascade.tick, Cascade.tickLoop,
      Biquad.tick, Except.bind, bind, pure, Except.pure]
  obtain ⟨u, v, h1, h2, h3⟩ := C178_filter hr (m := [4, 2, 0]) (m2 := [4, 4, 2]) (a := 0) (n := 3) (d := 0)
    (by norm_num) (by simp) (by simp) (by simp) (by simp) (by simp)
    (by norm_num [hc, seg, Cascade.filter, Cascade.tick, Cascade.tickLoop, Cascade.reset, Biquad.tick, Biquad.reset])
  exact ⟨c, _, u, v, hr, h1, h2, h3⟩

/-- `(1, 3)` and `(5, 2)`, with results behind them. -/
example : ∃ u p q v, Seq.derivative [1, 3, 5, 2, 0, 0, 0, 0] 0 (0 + 2) 4 = .ok u ∧ conv u 4 (4 + 2) 2 6 = .ok p ∧
    conv [1, 3, 5, 2, 0, 0, 0, 0] 0 (0 + 2) 2 4 = .ok q ∧ Seq.derivative q 4 (4 + 2) 6 = .ok v ∧
    seg p 6 (6 + 2) = seg v 6 (6 + 2) :=
  C178_conv (by norm_num) (by norm_num) (by simp) (by simp) (by simp) (by simp) (by simp) (by simp) (by simp)

end Edsp.Props.C178
