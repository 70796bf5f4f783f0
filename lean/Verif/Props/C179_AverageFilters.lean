import Verif.Props.C178_DerivativeFilters

/-!
# C179: the moving average among filters, derivatives and convolutions
-/

namespace Edsp.Props.C179

open Finset Edsp Edsp.Mem Edsp.Spec Edsp.Spectral Edsp.ConvL
open Edsp.Props.C178 (steps getD_steps steps_length derivative_ok lti_steps)

/-- The samples weighted by `g`, the newest first. -/
noncomputable def weighted (g : ℕ → ℝ) (x : List ℝ) : List ℝ :=
  (List.range x.length).map fun i => ∑ j ∈ range (i + 1), g j * x.getD (i - j) 0

theorem weighted_lti (g : ℕ → ℝ) : Lti (weighted g) where
  len := fun x => by simp [weighted]
  lin := fun α β x y hl => by
    apply List.ext_getElem
    · simp [weighted, lincomb, hl]
    · intro i h1 h2
      simp only [weighted, List.getElem_map, List.getElem_range, lincomb, List.getElem_zipWith]
      rw [mul_sum, mul_sum, ← sum_add_distrib]
      refine sum_congr rfl fun j _ => ?_
      have := getD_lincomb (α := α) (β := β) hl (i - j)
      unfold lincomb at this
      rw [this]; ring
  shift := fun x => by
    apply List.ext_getElem
    · simp [weighted]
    · intro i h1 h2
      simp only [weighted, List.getElem_map, List.getElem_range]
      cases i with
      | zero => simp
      | succ i =>
        simp only [List.getElem_cons_succ, List.getElem_map, List.getElem_range]
        rw [sum_range_succ]
        simp only [Nat.sub_self, List.getD_cons_zero, mul_zero, add_zero]
        refine sum_congr rfl fun j hj => ?_
        have hj := mem_range.1 hj
        rw [show i + 1 - j = (i - j) + 1 by omega, List.getD_cons_succ]
  causal := fun x y => by
    apply List.ext_getElem
    · simp [weighted]
    · intro i h1 h2
      have hi : i < x.length := by simpa [weighted] using h1
      simp only [weighted, List.getElem_take, List.getElem_map, List.getElem_range]
      refine sum_congr rfl fun j _ => ?_
      rw [List.getD, List.getD, List.getElem?_append_left (by omega)]

/-- Two linear, time invariant and causal maps can be exchanged. -/
theorem lti_comm {S T : List ℝ → List ℝ} (hS : Lti S) (hT : Lti T) (x : List ℝ) : S (T x) = T (S x) := by
  rcases eq_or_ne x [] with rfl | hx
  · rw [List.eq_nil_of_length_eq_zero (l := S (T [])) (by rw [hS.len, hT.len]; rfl),
      List.eq_nil_of_length_eq_zero (l := T (S [])) (by rw [hT.len, hS.len]; rfl)]
  · obtain ⟨n, hn⟩ : ∃ n, x.length = n + 1 := ⟨x.length - 1, by have := List.length_pos_iff.2 hx; omega⟩
    rw [← C137.lti_convolution hS (x := T x) (n := n) (by rw [hT.len, hn]),
      ← C137.lti_convolution hT (x := S x) (n := n) (by rw [hS.len, hn]),
      ← C137.lti_convolution hT hn, ← C137.lti_convolution hS hn]
    refine List.map_congr_left fun i hi => ?_
    have hi := List.mem_range.1 hi
    rw [convolution_assoc _ _ _ hi, convolution_assoc _ _ _ hi]
    congr 1
    exact List.map_congr_left fun k _ => convolution_comm ..

/-- A new moving average, fed samples, weights the last `N` alike. -/
theorem average_run {N : ℕ} (h0 : 0 < N) (hN : N < 2 ^ 63) (x : List ℝ) :
    ∃ a a', MovingAverage.new N = .ok a ∧
      a.run (x.map .tick) = .ok (a', weighted (fun j => if j < N then 1 / (N : ℝ) else 0) x) := by
  obtain ⟨a, a', e1, e2⟩ := Props.C13_moving_average_partial N h0 hN x
  refine ⟨a, a', e1, ?_⟩
  rw [e2, Props.C13_spec_unfolded]
  congr 2
  refine List.map_congr_left fun i hi => ?_
  have hi : i < x.length := List.mem_range.1 hi
  rw [C137.window_sum, C137.sum_getD]
  simp only [List.length_drop, List.length_take]
  rw [show min (i + 1) x.length = i + 1 by omega]
  have hg : ∀ j, j < i + 1 - (i + 1 - N) → ((x.take (i + 1)).drop (i + 1 - N)).getD j 0 = x.getD (i + 1 - N + j) 0 := by
    intro j hj
    rw [List.getD, List.getD, List.getElem?_drop, List.getElem?_take, if_pos (by omega)]
  rw [sum_congr rfl fun j hj => hg j (mem_range.1 hj), sum_div, ← sum_range_reflect]
  rw [← sum_subset (s₁ := range (i + 1 - (i + 1 - N))) (s₂ := range (i + 1))]
  · refine sum_congr rfl fun j hj => ?_
    have := mem_range.1 hj
    rw [if_pos (by omega), show i + 1 - N + (i + 1 - (i + 1 - N) - 1 - j) = i - j by omega]
    ring
  · exact range_subset_range.2 (by omega)
  · intro j hj hj2
    have h3 := mem_range.1 hj
    rw [mem_range] at hj2
    rw [if_neg (by omega), zero_mul]

/-- **C179 (filters).**  Whether a signal is smoothed by a new moving average and then filtered, or filtered and then
smoothed, is the same, for every cascade after a reset, whatever calls were made on it before. -/
theorem C179_filter {N M : ℕ} (h0 : 0 < N) (hN : N < 2 ^ 63) {ops : List (Cascade.Op ℝ)} {c : Cascade ℝ}
    {o : List (List ℝ)} (h : (Cascade.new M).run ops = .ok (c, o)) (x : List ℝ) :
    ∃ a p q ys zs, MovingAverage.new N = .ok a ∧ a.run (x.map .tick) = .ok (p, ys) ∧
      a.run ((c.reset.filter x).2.map .tick) = .ok (q, zs) ∧ (c.reset.filter ys).2 = zs := by
  have hok : c.Ok := by
    rcases Cascade.run_sim ops (Cascade.sim_new (K := ℝ) M) with ⟨e, g1, _⟩ | ⟨c', fs', o', g1, _, g3⟩
    · rw [h] at g1; simp at g1
    · rw [h] at g1; simp at g1; rw [g1.1]; exact g3.1
  obtain ⟨r1, r2, _⟩ := Cascade.reset_active c hok
  have hr : ∀ f ∈ c.reset.active, f.AtRest := by
    rw [r1]; intro f hf
    obtain ⟨g, _, rfl⟩ := List.mem_map.mp hf
    exact Biquad.atRest_reset g
  obtain ⟨a, p, e1, e2⟩ := average_run h0 hN x
  obtain ⟨a', q, e3, e4⟩ := average_run h0 hN (c.reset.filter x).2
  rw [e1] at e3
  cases e3
  refine ⟨a, p, q, _, _, e1, e2, e4, ?_⟩
  simp only [Cascade.filter_eq _ r2]
  exact lti_comm (C137.through_lti hr) (weighted_lti _) x

/-- **C179 (two averages).**  Smoothing with a length `N` and then with a length `M` is smoothing with `M` and then
`N`. -/
theorem C179_averages {N M : ℕ} (h0 : 0 < N) (hN : N < 2 ^ 63) (h1 : 0 < M) (hM : M < 2 ^ 63) (x : List ℝ) :
    ∃ a b a1 a2 b1 b2 us vs ys, MovingAverage.new N = .ok a ∧ MovingAverage.new M = .ok b ∧
      a.run (x.map .tick) = .ok (a1, us) ∧ b.run (us.map .tick) = .ok (b1, ys) ∧
      b.run (x.map .tick) = .ok (b2, vs) ∧ a.run (vs.map .tick) = .ok (a2, ys) := by
  obtain ⟨a, a1, ea, ea1⟩ := average_run h0 hN x
  obtain ⟨b, b2, eb, eb2⟩ := average_run h1 hM x
  obtain ⟨b', b1, eb', eb1⟩ := average_run h1 hM (weighted (fun j => if j < N then 1 / (N : ℝ) else 0) x)
  obtain ⟨a', a2, ea', ea2⟩ := average_run h0 hN (weighted (fun j => if j < M then 1 / (M : ℝ) else 0) x)
  rw [ea] at ea'; cases ea'
  rw [eb] at eb'; cases eb'
  rw [lti_comm (weighted_lti _) (weighted_lti _)] at ea2
  exact ⟨a, b, a1, a2, b1, b2, _, _, _, ea, eb, ea1, eb1, eb2, ea2⟩

theorem weighted_getD (g : ℕ → ℝ) (x : List ℝ) {i : ℕ} (hi : i < x.length) :
    (weighted g x).getD i 0 = ∑ j ∈ range (i + 1), g j * x.getD (i - j) 0 := by
  simp [weighted, List.getD, hi]

/-- **C179 (derivative).**  The moving average of a differentiated frame is the derivative of its moving average, and
each of its values is the change over the last `N` samples divided by `N`. -/
theorem C179_derivative {N : ℕ} (h0 : 0 < N) (hN : N < 2 ^ 63) {m m2 : List ℝ} {a n d : ℕ} (hn : 0 < n)
    (hs : a + n ≤ m.length) (hs2 : a + n ≤ m2.length) (hd : d + n ≤ m.length) (hd2 : d + n ≤ m2.length)
    (ho : d ≤ a ∨ a + n ≤ d) {v v' : MovingAverage ℝ} (hv : MovingAverage.new N = .ok v)
    (hm2 : v.run ((seg m a (a + n)).map .tick) = .ok (v', seg m2 a (a + n))) :
    ∃ u w q, Seq.derivative m a (a + n) d = .ok u ∧ Seq.derivative m2 a (a + n) d = .ok w ∧
      v.run ((seg u d (d + n)).map .tick) = .ok (q, seg w d (d + n)) ∧
      ∀ i, i < n → (seg w d (d + n)).getD i 0 =
        (m.getD (a + i) 0 - if i < N then 0 else m.getD (a + i - N) 0) / N := by
  obtain ⟨u, u1, u2, -⟩ := derivative_ok hn hs hd ho
  obtain ⟨w, w1, w2, -⟩ := derivative_ok hn hs2 hd2 ho
  obtain ⟨b, b', e1, e2⟩ := average_run h0 hN (seg m a (a + n))
  obtain ⟨b2, q, e3, e4⟩ := average_run h0 hN (seg u d (d + n))
  rw [hv] at e1 e3
  cases e1; cases e3
  rw [hm2] at e2
  have hseg : seg m2 a (a + n) = weighted (fun j => if j < N then 1 / (N : ℝ) else 0) (seg m a (a + n)) := by
    simp only [Except.ok.injEq, Prod.mk.injEq] at e2
    exact e2.2
  have l1 : (seg m a (a + n)).length = n := by rw [seg_length hs]; omega
  have hg : ∀ i, i < n → m.getD (a + i) 0 = (seg m a (a + n)).getD i 0 := fun i hi => by
    unfold seg
    rw [List.getD, List.getD, List.getElem?_take, List.getElem?_drop, if_pos (by omega)]
  have key : seg w d (d + n) = weighted (fun j => if j < N then 1 / (N : ℝ) else 0) (steps (seg m a (a + n))) := by
    rw [w2, hseg, lti_steps (weighted_lti _)]
  refine ⟨u, w, q, u1, w1, by rw [e4, u2, key], fun i hi => ?_⟩
  rw [key, weighted_getD _ _ (by rw [steps_length, l1]; exact hi), hg i hi]
  have hlow : (if i < N then (0 : ℝ) else m.getD (a + i - N) 0) =
      if i < N then 0 else (seg m a (a + n)).getD (i - N) 0 := by
    split_ifs with h
    · rfl
    · rw [← hg (i - N) (by omega), show a + i - N = a + (i - N) by omega]
  rw [hlow]
  generalize seg m a (a + n) = x at l1
  -- the sum over the newest `k` differences telescopes
  have tel : ∀ k, k ≤ i + 1 → ∑ j ∈ range k, (if j < N then 1 / (N : ℝ) else 0) * (steps x).getD (i - j) 0 =
      (x.getD i 0 - if min k N = i + 1 then 0 else x.getD (i - min k N) 0) / N := by
    intro k
    induction k with
    | zero => intro _; simp
    | succ k ih =>
      intro hk
      rw [sum_range_succ, ih (by omega), getD_steps x _ (by omega)]
      by_cases hkN : k < N
      · rw [if_pos hkN, show min k N = k by omega, show min (k + 1) N = k + 1 by omega, if_neg (by omega)]
        by_cases hki : k = i
        · subst hki; simp
          ring
        · rw [if_neg (by omega), if_neg (by omega), show i - k - 1 = i - (k + 1) by omega]
          ring
      · rw [if_neg hkN, show min k N = N by omega, show min (k + 1) N = N by omega]
        ring
  rw [tel (i + 1) le_rfl]
  congr 2
  by_cases h : i < N
  · rw [if_pos h, show min (i + 1) N = i + 1 by omega, if_pos rfl]
  · rw [if_neg h, show min (i + 1) N = N by omega, if_neg (by omega)]

/-- **C179 (convolution).**  `conv` of a smoothed frame with another frame stores the moving average of what it stores
for the frame itself. -/
theorem C179_conv {N : ℕ} (h0 : 0 < N) (hN : N < 2 ^ 63) {m m2 : List ℝ} {f1 f2 n d : ℕ} (hn : 0 < n)
    (h31 : 2 * n < 2147483648) (h1 : f1 + n ≤ m.length) (h2 : f2 + n ≤ m.length) (hd : d + n ≤ m.length)
    (h1' : f1 + n ≤ m2.length) (h2' : f2 + n ≤ m2.length) (hd' : d + n ≤ m2.length)
    {v v' : MovingAverage ℝ} (hv : MovingAverage.new N = .ok v)
    (hx : v.run ((seg m f1 (f1 + n)).map .tick) = .ok (v', seg m2 f1 (f1 + n)))
    (hy : seg m2 f2 (f2 + n) = seg m f2 (f2 + n)) :
    ∃ p q r, conv m f1 (f1 + n) f2 d = .ok p ∧ conv m2 f1 (f1 + n) f2 d = .ok q ∧
      v.run ((seg p d (d + n)).map .tick) = .ok (r, seg q d (d + n)) := by
  obtain ⟨p, p1, p2⟩ := C46_conv hn h31 h1 h2 hd
  obtain ⟨q, q1, q2⟩ := C46_conv hn h31 h1' h2' hd'
  obtain ⟨b, b', e1, e2⟩ := average_run h0 hN (seg m f1 (f1 + n))
  obtain ⟨b2, r, e3, e4⟩ := average_run h0 hN (seg p d (d + n))
  rw [hv] at e1 e3
  cases e1; cases e3
  rw [hx] at e2
  simp only [Except.ok.injEq, Prod.mk.injEq] at e2
  have sp := wrote_seg p2
  have sq := wrote_seg q2
  rw [List.length_map, List.length_range] at sp sq
  refine ⟨p, q, r, p1, q1, ?_⟩
  rw [e4, sp, sq, hy, e2.2]
  have l1 : (seg m f1 (f1 + n)).length = n := by rw [seg_length h1]; omega
  generalize seg m f1 (f1 + n) = x at l1
  generalize seg m f2 (f2 + n) = y
  congr 2
  have hc : ∀ z : List ℝ, z.length = n → (List.range n).map (convolution z y) = weighted (fun j => y.getD j 0) z := by
    intro z hz
    unfold weighted
    rw [hz]
    exact List.map_congr_left fun i _ => convolution_comm ..
  rw [hc x l1, hc _ (by rw [(weighted_lti _).len, l1])]
  exact lti_comm (weighted_lti _) (weighted_lti _) x

/-- 2, 4, 8 smoothed over two samples is 1, 3, 6; the changes 2, 2, 4 smoothed are the changes 1, 2, 3. -/
example : ∃ (u w : List ℝ) (q v : MovingAverage ℝ), MovingAverage.new 2 = .ok v ∧
    Seq.derivative [2, 4, 8] 0 (0 + 3) 0 = .ok u ∧
    Seq.derivative [1, 3, 6] 0 (0 + 3) 0 = .ok w ∧
    v.run ((seg u 0 (0 + 3)).map .tick) = .ok (q, seg w 0 (0 + 3)) := by
  obtain ⟨v, v', e1, e2⟩ := average_run (N := 2) (by norm_num) (by norm_num) [2, 4, 8]
  obtain ⟨u, w, q, h1, h2, h3, -⟩ := C179_derivative (N := 2) (m := [2, 4, 8]) (m2 := [1, 3, 6]) (a := 0) (n := 3)
    (d := 0) (by norm_num) (by norm_num) (by norm_num) (by simp) (by simp) (by simp) (by simp) (by simp) (v' := v') e1
    (by
      have : seg [(2 : ℝ), 4, 8] 0 (0 + 3) = [2, 4, 8] := rfl
      rw [this, e2]
      norm_num [weighted, seg, sum_range_succ, List.range_succ])
  exact ⟨u, w, q, v, e1, h1, h2, h3⟩

/-- 2, 4 smoothed is 1, 3, and so are the convolutions with 5, 1. -/
example : ∃ p q r v, MovingAverage.new 2 = .ok v ∧ conv [2, 4, 5, 1, 0, 0] 0 (0 + 2) 2 4 = .ok p ∧
    conv [1, 3, 5, 1, 0, 0] 0 (0 + 2) 2 4 = .ok q ∧
    v.run ((seg p 4 (4 + 2)).map .tick) = .ok (r, seg q 4 (4 + 2)) := by
  obtain ⟨v, v', e1, e2⟩ := average_run (N := 2) (by norm_num) (by norm_num) [2, 4]
  obtain ⟨p, q, r, h1, h2, h3⟩ := C179_conv (N := 2) (m := [2, 4, 5, 1, 0, 0]) (m2 := [1, 3, 5, 1, 0, 0]) (f1 := 0)
    (f2 := 2) (n := 2) (d := 4) (by norm_num) (by norm_num) (by norm_num) (by norm_num) (by simp) (by simp) (by simp)
    (by simp) (by simp) (by simp) (v' := v') e1
    (by
      have : seg [(2 : ℝ), 4, 5, 1, 0, 0] 0 (0 + 2) = [2, 4] := rfl
      rw [this, e2]
      norm_num [weighted, seg, sum_range_succ, List.range_succ])
    (by simp [seg])
  exact ⟨p, q, r, v, e1, h1, h2, h3⟩

/-- A recursive section that has filtered a 5 before its reset. -/
example (x : List ℝ) : ∃ (c : Cascade ℝ) (o : List (List ℝ)) (a p q : MovingAverage ℝ) (ys zs : List ℝ),
    (Cascade.new 1).run [.push ⟨0, 0, 1, 0, -1 / 2, 1, 0, 0⟩, .filter [5]] = .ok (c, o) ∧
    MovingAverage.new 3 = .ok a ∧ a.run (x.map .tick) = .ok (p, ys) ∧
    a.run ((c.reset.filter x).2.map .tick) = .ok (q, zs) ∧ (c.reset.filter ys).2 = zs := by
  obtain ⟨c, hc⟩ : ∃ c : Cascade ℝ, c = ⟨1, [⟨0, 0, 1, 0, -1 / 2, 1, 5 / 2, 0⟩]⟩ := ⟨_, rfl⟩
  have hr : (Cascade.new 1).run [.push (⟨0, 0, 1, 0, -1 / 2, 1, 0, 0⟩ : Biquad ℝ), .filter [5]] =
      .ok (c, [[], [5]]) := by
    rw [hc]
    norm_num [Cascade.run, Cascade.step, Cascade.new, Cascade.pushBack, Cascade.filter, Cascade.tick, Cascade.tickLoop,
      Biquad.tick, Except.bind, bind, pure, Except.pure]
  obtain ⟨a, p, q, ys, zs, h1, h2, h3, h4⟩ := C179_filter (N := 3) (by norm_num) (by norm_num) hr x
  exact ⟨c, _, a, p, q, ys, zs, hr, h1, h2, h3, h4⟩

end Edsp.Props.C179
