import Verif.Lemmas.Convolution
import Verif.Lemmas.Features
import Verif.Props.C46_Convolution
import Verif.Props.C06_Biquad
import Verif.Props.C13_MovingFilters
import Verif.Props.C34_Extrema

/-!
# C137: filtering, convolution and correlation agree
-/

namespace Edsp.C137

open Finset Edsp.Mem Edsp.Spec Edsp.ConvL Edsp.Spectral

theorem through_length (fs : List (Biquad ℝ)) : ∀ x : List ℝ, (through fs x).2.length = x.length := by
  induction fs with
  | nil => intro x; rfl
  | cons f fs ih => intro x; simp [through, ih]

theorem through_lti {fs : List (Biquad ℝ)} (hr : ∀ f ∈ fs, f.AtRest) : Lti fun x => (through fs x).2 where
  len := through_length fs
  lin := fun α β x y hl => Biquad.chain_lincomb fs hr α β x y hl
  shift := fun x => by simpa using Biquad.chain_zeros fs hr 1 x
  causal := fun x y => by rw [Biquad.through_append, List.take_left' (through_length fs x)]

theorem lti_convolution {T : List ℝ → List ℝ} (h : Lti T) {x : List ℝ} {n : ℕ} (hl : x.length = n + 1) :
    (List.range (n + 1)).map (convolution x (T (impulse n))) = T x := by
  have hT : (T x).length = n + 1 := by rw [h.len, hl]
  apply List.ext_getElem
  · simp [hT]
  · intro i h1 h2
    have := lti_sum h x n hl i (by simp at h1; omega)
    rw [List.getElem_map, List.getElem_range, ← this, List.getD, List.getElem?_eq_getElem h2]
    rfl

/-- The convolution with the impulse response of `T` is `T`. -/
theorem conv_lti {T : List ℝ → List ℝ} (h : Lti T) {m : List ℝ} {f1 f2 n d : ℕ} (h31 : 2 * (n + 1) < 2147483648)
    (h1 : f1 + (n + 1) ≤ m.length) (h2 : f2 + (n + 1) ≤ m.length) (hd : d + (n + 1) ≤ m.length)
    (hh : seg m f2 (f2 + (n + 1)) = T (impulse n)) :
    ∃ m', conv m f1 (f1 + (n + 1)) f2 d = .ok m' ∧ Wrote m m' d (T (seg m f1 (f1 + (n + 1)))) := by
  obtain ⟨m', e, w⟩ := C46_conv (by omega) h31 h1 h2 hd
  refine ⟨m', e, ?_⟩
  rwa [hh, lti_convolution h (by rw [seg_length h1]; omega)] at w

/-- **C137 (filters).**  The convolution of a frame with the impulse response of a cascade, as long as the frame, is the
output of the cascade for the frame; whatever calls were made on the cascade before its reset. -/
theorem C137_cascade {N : ℕ} {ops : List (Cascade.Op ℝ)} {c : Cascade ℝ} {o : List (List ℝ)}
    (h : (Cascade.new N).run ops = .ok (c, o)) {m : List ℝ} {f1 f2 n d : ℕ} (h31 : 2 * (n + 1) < 2147483648)
    (h1 : f1 + (n + 1) ≤ m.length) (h2 : f2 + (n + 1) ≤ m.length) (hd : d + (n + 1) ≤ m.length)
    (hh : seg m f2 (f2 + (n + 1)) = (c.reset.filter (1 :: List.replicate n 0)).2) :
    ∃ m', conv m f1 (f1 + (n + 1)) f2 d = .ok m' ∧
      Wrote m m' d (c.reset.filter (seg m f1 (f1 + (n + 1)))).2 := by
  have hok : c.Ok := by
    rcases Cascade.run_sim ops (Cascade.sim_new (K := ℝ) N) with ⟨e, g1, _⟩ | ⟨c', fs', o', g1, _, g3⟩
    · rw [h] at g1; simp at g1
    · rw [h] at g1; simp at g1; rw [g1.1]; exact g3.1
  obtain ⟨r1, r2, _⟩ := Cascade.reset_active c hok
  have hr : ∀ f ∈ c.reset.active, f.AtRest := by
    rw [r1]; intro f hf
    obtain ⟨g, _, rfl⟩ := List.mem_map.mp hf
    exact Biquad.atRest_reset g
  simp only [Cascade.filter_eq _ r2] at hh ⊢
  exact conv_lti (through_lti hr) h31 h1 h2 hd hh

/-- **C137 (filters)**, one section. -/
theorem C137_biquad (f : Biquad ℝ) {m : List ℝ} {f1 f2 n d : ℕ} (h31 : 2 * (n + 1) < 2147483648)
    (h1 : f1 + (n + 1) ≤ m.length) (h2 : f2 + (n + 1) ≤ m.length) (hd : d + (n + 1) ≤ m.length)
    (hh : seg m f2 (f2 + (n + 1)) = (f.reset.filter (1 :: List.replicate n 0)).2) :
    ∃ m', conv m f1 (f1 + (n + 1)) f2 d = .ok m' ∧
      Wrote m m' d (f.reset.filter (seg m f1 (f1 + (n + 1)))).2 :=
  conv_lti (T := fun x => (f.reset.filter x).2)
    (through_lti (fs := [f.reset]) (by simpa using Biquad.atRest_reset f)) h31 h1 h2 hd hh

theorem window_sum (N : ℕ) (h : List ℝ) : (window N h).sum = (h.drop (h.length - N)).sum := by
  unfold window lastOf
  rw [List.length_append, List.length_replicate, Nat.add_sub_cancel_left, List.drop_append, List.sum_append,
    List.drop_replicate, List.sum_replicate, List.length_replicate]
  simp

theorem sum_getD : ∀ h : List ℝ, h.sum = ∑ j ∈ range h.length, h.getD j 0
  | [] => by simp
  | a :: h => by
    rw [List.sum_cons, sum_getD h, List.length_cons, sum_range_succ', add_comm]
    rfl

/-- **C137 (moving average).**  The outputs of a new moving average of length `N` are the convolution of the samples with
`N` values `1/N`. -/
theorem C137_moving_average {N : ℕ} (h0 : 0 < N) (hN : N < 2 ^ 63) {m : List ℝ} {f1 f2 n d : ℕ} (hn : 0 < n)
    (h31 : 2 * n < 2147483648) (h1 : f1 + n ≤ m.length) (h2 : f2 + n ≤ m.length) (hd : d + n ≤ m.length)
    (hh : seg m f2 (f2 + n) = (List.range n).map fun i => if i < N then 1 / (N : ℝ) else 0) :
    ∃ a a' ys m', MovingAverage.new N = .ok a ∧
      a.run ((seg m f1 (f1 + n)).map .tick) = .ok (a', ys) ∧
      conv m f1 (f1 + n) f2 d = .ok m' ∧ Wrote m m' d ys := by
  obtain ⟨a, a', e1, e2⟩ := Props.C13_moving_average_partial N h0 hN (seg m f1 (f1 + n))
  obtain ⟨m', e, w⟩ := C46_conv hn h31 h1 h2 hd
  refine ⟨a, a', _, m', e1, e2, e, ?_⟩
  rw [Props.C13_spec_unfolded, hh] at *
  have hl : (seg m f1 (f1 + n)).length = n := by rw [seg_length h1]; omega
  generalize seg m f1 (f1 + n) = x at hl w ⊢
  rw [hl]
  have : ((List.range n).map fun i => (window N (x.take (i + 1))).sum / (N : ℝ)) =
      (List.range n).map (convolution x ((List.range n).map fun i => if i < N then 1 / (N : ℝ) else 0)) := by
    refine List.map_congr_left fun i hi => ?_
    have hi : i < n := List.mem_range.1 hi
    rw [window_sum, sum_getD]
    simp only [List.length_drop, List.length_take, hl]
    rw [show min (i + 1) n = i + 1 by omega]
    have hg : ∀ j, j < i + 1 - (i + 1 - N) → ((x.take (i + 1)).drop (i + 1 - N)).getD j 0 = x.getD (i + 1 - N + j) 0 := by
      intro j hj
      rw [List.getD, List.getD, List.getElem?_drop, List.getElem?_take, if_pos (by omega)]
    rw [sum_congr rfl fun j hj => hg j (mem_range.1 hj), ← sum_Ico_eq_sum_range (fun j => x.getD j 0), sum_div]
    unfold convolution
    rw [← sum_subset (s₁ := Ico (i + 1 - N) (i + 1)) (s₂ := range (i + 1))]
    · refine sum_congr rfl fun j hj => ?_
      have := mem_Ico.1 hj
      have hlt : i - j < n := by omega
      simp only [List.getD, List.getElem?_map, List.getElem?_range hlt, Option.map_some, Option.getD_some]
      rw [if_pos (by omega)]
      ring
    · intro j hj
      have := mem_Ico.1 hj
      exact mem_range.2 (by omega)
    · intro j hj hj2
      have h3 := mem_range.1 hj
      rw [mem_Ico, not_and_or] at hj2
      have hlt : i - j < n := by omega
      simp only [List.getD, List.getElem?_map, List.getElem?_range hlt, Option.map_some, Option.getD_some]
      rw [if_neg (by omega), mul_zero]
  rw [this]
  exact w

/-- **C137 (superposition).**  The convolution of a weighted sum is the weighted sum of the convolutions. -/
theorem C137_superposition {m : List ℝ} {f1 g1 s1 f2 n d : ℕ} {α β : ℝ} (h0 : 0 < n) (h31 : 2 * n < 2147483648)
    (h1 : f1 + n ≤ m.length) (hg : g1 + n ≤ m.length) (hs : s1 + n ≤ m.length) (h2 : f2 + n ≤ m.length)
    (hd : d + n ≤ m.length)
    (hsum : seg m s1 (s1 + n) = lincomb α β (seg m f1 (f1 + n)) (seg m g1 (g1 + n))) :
    ∃ ma mb mc A B, conv m f1 (f1 + n) f2 d = .ok ma ∧ conv m g1 (g1 + n) f2 d = .ok mb ∧
      conv m s1 (s1 + n) f2 d = .ok mc ∧ Wrote m ma d A ∧ Wrote m mb d B ∧ Wrote m mc d (lincomb α β A B) := by
  obtain ⟨ma, ea, wa⟩ := C46_conv h0 h31 h1 h2 hd
  obtain ⟨mb, eb, wb⟩ := C46_conv h0 h31 hg h2 hd
  obtain ⟨mc, ec, wc⟩ := C46_conv h0 h31 hs h2 hd
  refine ⟨ma, mb, mc, _, _, ea, eb, ec, wa, wb, ?_⟩
  rw [hsum] at wc
  have e : lincomb α β ((List.range n).map (convolution (seg m f1 (f1 + n)) (seg m f2 (f2 + n))))
      ((List.range n).map (convolution (seg m g1 (g1 + n)) (seg m f2 (f2 + n)))) =
      (List.range n).map (convolution (lincomb α β (seg m f1 (f1 + n)) (seg m g1 (g1 + n))) (seg m f2 (f2 + n))) := by
    unfold lincomb
    rw [List.zipWith_map, List.zipWith_self]
    refine List.map_congr_left fun i _ => ?_
    unfold convolution
    rw [mul_sum, mul_sum, ← sum_add_distrib]
    refine sum_congr rfl fun j _ => ?_
    have := getD_lincomb (α := α) (β := β) (x := seg m f1 (f1 + n)) (y := seg m g1 (g1 + n))
      (by rw [seg_length h1, seg_length hg]; omega) j
    unfold lincomb at this
    rw [this]
    ring
  rw [e]
  exact wc

theorem seg_wrote {m m' v : List ℝ} {d : ℕ} (w : Wrote m m' d v) : seg m' d (d + v.length) = v := by
  obtain ⟨h1, rfl⟩ := w
  have hd : (m.take d).length = d := by simp; omega
  unfold seg
  rw [List.append_assoc, List.drop_append, hd, Nat.sub_self, List.drop_eq_nil_of_le hd.le, Nat.add_sub_cancel_left]
  simp

theorem seg_kept {m m' v : List ℝ} {d a n : ℕ} (w : Wrote m m' d v) (ha : a + n ≤ d ∨ d + v.length ≤ a) :
    seg m' a (a + n) = seg m a (a + n) := by
  obtain ⟨-, -, -, h4⟩ := wrote_iff.1 w
  apply List.ext_getElem?
  intro i
  rw [seg_getElem?, seg_getElem?]
  split_ifs with hi
  · exact h4 _ (by omega)
  · rfl

/-- **C137 (grouping).**  Convolving three frames gives the same in both groupings, as often as frames of this length are
convolved one after the other. -/
theorem C137_grouping {m : List ℝ} {f1 f2 f3 n d e : ℕ} (h0 : 0 < n) (h31 : 2 * n < 2147483648)
    (h1 : f1 + n ≤ m.length) (h2 : f2 + n ≤ m.length) (h3 : f3 + n ≤ m.length) (hd : d + n ≤ m.length)
    (he : e + n ≤ m.length) (o1 : f1 + n ≤ d ∨ d + n ≤ f1) (o3 : f3 + n ≤ d ∨ d + n ≤ f3) :
    ∃ ma mb mc md, conv m f1 (f1 + n) f2 d = .ok ma ∧ conv ma d (d + n) f3 e = .ok mb ∧
      conv m f2 (f2 + n) f3 d = .ok mc ∧ conv mc f1 (f1 + n) d e = .ok md ∧
      seg mb e (e + n) = seg md e (e + n) := by
  obtain ⟨ma, ea, wa⟩ := C46_conv h0 h31 h1 h2 hd
  obtain ⟨mc, ec, wc⟩ := C46_conv h0 h31 h2 h3 hd
  have la := wrote_length wa
  have lc := wrote_length wc
  obtain ⟨mb, eb, wb⟩ := C46_conv (m := ma) (f1 := d) (f2 := f3) (d := e) h0 h31 (by omega) (by omega) (by omega)
  obtain ⟨md, ed, wd⟩ := C46_conv (m := mc) (f1 := f1) (f2 := d) (d := e) h0 h31 (by omega) (by omega) (by omega)
  refine ⟨ma, mb, mc, md, ea, eb, ec, ed, ?_⟩
  have s1 := seg_wrote wb
  have s2 := seg_wrote wd
  have s3 := seg_wrote wa
  have s4 := seg_wrote wc
  simp only [List.length_map, List.length_range] at s1 s2 s3 s4
  rw [s1, s2, s3, s4, seg_kept wa (by simpa using o3), seg_kept wc (by simpa using o1)]
  exact List.map_congr_left fun i hi => convolution_assoc _ _ _ (List.mem_range.1 hi)

/-- **C137 (matched filter).**  The last sample of the convolution with a reversed frame is the lag 0 of the correlation
with the frame. -/
theorem C137_matched {m : List ℝ} {f1 f2 r2 n d : ℕ} (h0 : 0 < n) (h31 : 2 * n < 2147483648)
    (h1 : f1 + n ≤ m.length) (h2 : f2 + n ≤ m.length) (hr : r2 + n ≤ m.length) (hd : d + n ≤ m.length)
    (hrev : seg m r2 (r2 + n) = (seg m f2 (f2 + n)).reverse) :
    ∃ ma mb, conv m f1 (f1 + n) r2 d = .ok ma ∧ xcorr m f1 (f1 + n) f2 d .none = .ok mb ∧
      ma[d + (n - 1)]? = mb[d]? ∧ mb[d]? ≠ none := by
  obtain ⟨ma, ea, wa⟩ := C46_conv h0 h31 h1 hr hd
  obtain ⟨mb, eb, wb⟩ := C46_xcorr_partial h0 h31 h1 h2 hd
  refine ⟨ma, mb, ea, eb, ?_⟩
  have ga := (wrote_iff.1 wa).2.2.1 (n - 1) (by simp; omega)
  have gb := (wrote_iff.1 wb).2.2.1 0 (by simpa using h0)
  rw [Nat.add_zero] at gb
  rw [ga, gb]
  simp only [List.getElem?_map, List.getElem?_range (show n - 1 < n by omega), List.getElem?_range h0, Option.map_some]
  refine ⟨?_, by simp⟩
  congr 1
  have l1 : (seg m f1 (f1 + n)).length = n := by rw [seg_length h1]; omega
  have l2 : (seg m f2 (f2 + n)).length = n := by rw [seg_length h2]; omega
  rw [hrev, convolution, correlation, l1, show n - 1 + 1 = n by omega]
  refine sum_congr rfl fun j hj => ?_
  have hj := mem_range.1 hj
  rw [Nat.add_zero]
  congr 1
  rw [List.getD, List.getD, List.getElem?_reverse (by omega), l2, show n - 1 - (n - 1 - j) = j by omega]

theorem stored_lt (scale : Scale) {n : ℕ} (h0 : 0 < n) {a b : ℝ} (h : a < b) : stored scale n a < stored scale n b := by
  have : (0 : ℝ) < n := by exact_mod_cast h0
  unfold stored
  split_ifs
  · exact div_lt_div_of_pos_right h (by positivity)
  · exact h

/-- **C137 (delay).**  The peak of the correlation of a frame with a copy of itself delayed by `D` samples within the frame
is at the lag `D`, with every scale option; without the division its value is the energy of the frame. -/
theorem C137_delay (scale : Scale) {m u : List ℝ} {f1 f2 n d D : ℕ} (hu : ∃ v ∈ u, v ≠ 0) (hn : n = D + u.length)
    (h31 : 2 * n < 2147483648) (h1 : f1 + n ≤ m.length) (h2 : f2 + n ≤ m.length) (hd : d + n ≤ m.length)
    (hs : seg m f2 (f2 + n) = u ++ List.replicate D 0) (hdel : seg m f1 (f1 + n) = List.replicate D 0 ++ u) :
    ∃ m' v, xcorr m f1 (f1 + n) f2 d scale = .ok m' ∧ Seq.peak (seg m' d (d + n)) = .ok (D, v) ∧
      (scale ≠ .biased → v = (u.map fun a => a * a).sum) := by
  have hu0 : 0 < u.length := by
    obtain ⟨v, hv, -⟩ := hu
    exact List.length_pos_of_mem hv
  have h0 : 0 < n := by omega
  obtain ⟨m', e, w⟩ := xcorr_ok scale h0 h31 h1 h2 hd
  rw [hs, hdel] at w
  have hc : ∀ l, correlation (List.replicate D 0 ++ u) (u ++ List.replicate D 0) l =
      if D ≤ l then correlation u u (l - D) else correlation u u (D - l) := by
    intro l
    rw [← correlation_delayed]
    unfold correlation
    refine sum_congr rfl fun j _ => ?_
    congr 1
    rw [List.getD, List.getD]
    by_cases hj : j < u.length
    · rw [List.getElem?_append_left hj]
    · rw [List.getElem?_append_right (by omega), List.getElem?_replicate, List.getElem?_eq_none (l := u) (by omega)]
      split_ifs <;> rfl
  have hseg := seg_wrote w
  simp only [List.length_map, List.length_range] at hseg
  have hget : ∀ i, (seg m' d (d + n))[i]? = if i < n then
      some (stored scale n (if D ≤ i then correlation u u (i - D) else correlation u u (D - i))) else none := by
    intro i
    rw [hseg, List.getElem?_map]
    split_ifs with hi
    · rw [List.getElem?_range hi, Option.map_some, hc, if_pos ‹_›]
    · rw [List.getElem?_range hi, Option.map_some, hc, if_neg ‹_›]
    · rw [List.getElem?_eq_none (by simpa using hi)]; rfl
  have hlen : (seg m' d (d + n)).length = n := by rw [hseg]; simp
  have hne : seg m' d (d + n) ≠ [] := by intro g; rw [g] at hlen; simp at hlen; omega
  obtain ⟨i, v, p1, p2, p3, -⟩ := Props.C34_peak hne
  refine ⟨m', v, e, ?_⟩
  have hE : correlation u u 0 = (u.map fun a => a * a).sum := by
    rw [sum_getD, correlation, List.length_map]
    refine sum_congr rfl fun j hj => ?_
    have hj : j < u.length := mem_range.1 hj
    simp only [List.getD, List.getElem?_map, List.getElem?_eq_getElem hj, Nat.add_zero, Option.map_some, Option.getD_some]
  have hDn : D < n := by omega
  have hmem : stored scale n (correlation u u 0) ∈ seg m' d (d + n) := by
    have := hget D
    rw [if_pos hDn, if_pos le_rfl, Nat.sub_self] at this
    exact List.mem_of_getElem? this
  have hle := p3 _ hmem
  rw [hget i] at p2
  split_ifs at p2 with hi hDi
  · injection p2 with p2
    rcases hDi.eq_or_lt with g | g
    · refine ⟨by rw [p1, g], fun hb => ?_⟩
      rw [← p2, ← g, Nat.sub_self, hE, stored, if_neg hb]
    · have := stored_lt scale h0 (correlation_lt hu (k := i - D) (by omega))
      linarith
  · injection p2 with p2
    have := stored_lt scale h0 (correlation_lt hu (k := D - i) (by omega))
    linarith

/-- **C137 (shift).**  The convolution with an impulse at the index `D` delays a frame by `D` samples. -/
theorem C137_shift {m : List ℝ} {f1 f2 n d D : ℕ} (h0 : 0 < n) (h31 : 2 * n < 2147483648) (hD : D ≤ n)
    (h1 : f1 + n ≤ m.length) (h2 : f2 + n ≤ m.length) (hd : d + n ≤ m.length)
    (hi : ∀ i, (seg m f2 (f2 + n)).getD i 0 = if i = D then 1 else 0) :
    ∃ m', conv m f1 (f1 + n) f2 d = .ok m' ∧
      Wrote m m' d (List.replicate D 0 ++ (seg m f1 (f1 + n)).take (n - D)) := by
  obtain ⟨m', e, w⟩ := C46_conv h0 h31 h1 h2 hd
  refine ⟨m', e, ?_⟩
  have hl : (seg m f1 (f1 + n)).length = n := by rw [seg_length h1]; omega
  have : List.replicate D 0 ++ (seg m f1 (f1 + n)).take (n - D) =
      (List.range n).map (convolution (seg m f1 (f1 + n)) (seg m f2 (f2 + n))) := by
    apply List.ext_getElem
    · simp [hl]; omega
    · intro i g1 g2
      simp only [List.getElem_map, List.getElem_range, convolution, hi]
      simp only [List.length_map, List.length_range] at g2
      rcases lt_or_ge i D with g | g
      · rw [List.getElem_append_left (by simpa using g), List.getElem_replicate]
        refine (sum_eq_zero fun j hj => ?_).symm
        rw [if_neg (by omega), mul_zero]
      · rw [List.getElem_append_right (by simpa using g), sum_eq_single (i - D)]
        · rw [if_pos (by omega), mul_one, List.getElem_take, List.getD, List.getElem?_eq_getElem (by omega)]
          simp
        · intro j hj hne
          have := mem_range.1 hj
          rw [if_neg (by omega), mul_zero]
        · intro hne
          exact absurd (mem_range.2 (by omega)) hne
  rw [this]
  exact w

/-! ## Cases -/

/-- `y[i] = x[i] + y[i-1]/2` for `4, 2, 0` with its impulse response `1, 1/2, 1/4`: `4, 4, 2`. -/
example : ∃ m', conv ([4, 2, 0, 1, 1 / 2, 1 / 4] : List ℝ) 0 3 3 0 = .ok m' ∧
    Wrote [4, 2, 0, 1, 1 / 2, 1 / 4] m' 0 [4, 4, 2] := by
  obtain ⟨m', e, w⟩ := C137_biquad (m := [4, 2, 0, 1, 1 / 2, 1 / 4]) (f1 := 0) (f2 := 3) (n := 2) (d := 0)
    (⟨0, 0, 1, 0, -1 / 2, 1, 0, 0⟩ : Biquad ℝ) (by omega) (by simp) (by simp) (by simp)
    (by norm_num [seg, Biquad.filter, Biquad.tick, Biquad.reset, List.replicate])
  refine ⟨m', e, ?_⟩
  have : ((⟨0, 0, 1, 0, -1 / 2, 1, 0, 0⟩ : Biquad ℝ).reset.filter
      (seg [4, 2, 0, 1, 1 / 2, 1 / 4] 0 (0 + (2 + 1)))).2 = [4, 4, 2] := by
    norm_num [seg, Biquad.filter, Biquad.tick, Biquad.reset]
  rwa [this] at w

/-- The same section in a cascade that has filtered a 5 before its reset. -/
example : ∃ (c : Cascade ℝ) (o : List (List ℝ)) (m' : List ℝ),
    (Cascade.new 1).run [.push ⟨0, 0, 1, 0, -1 / 2, 1, 0, 0⟩, .filter [5]] = .ok (c, o) ∧
    conv ([4, 2, 0, 1, 1 / 2, 1 / 4] : List ℝ) 0 3 3 0 = .ok m' ∧
    Wrote [4, 2, 0, 1, 1 / 2, 1 / 4] m' 0 (c.reset.filter [4, 2, 0]).2 := by
  obtain ⟨c, hc⟩ : ∃ c : Cascade ℝ, c = ⟨1, [⟨0, 0, 1, 0, -1 / 2, 1, 5 / 2, 0⟩]⟩ := ⟨_, rfl⟩
  have hr : (Cascade.new 1).run [.push (⟨0, 0, 1, 0, -1 / 2, 1, 0, 0⟩ : Biquad ℝ), .filter [5]] =
      .ok (c, [[], [5]]) := by
    rw [hc]
    norm_num [Cascade.run, Cascade.step, Cascade.new, Cascade.pushBack, Cascade.filter, Cascade.tick, Cascade.tickLoop,
      Biquad.tick, Except.bind, bind, pure, Except.pure]
  obtain ⟨m', e, w⟩ := C137_cascade hr (m := [4, 2, 0, 1, 1 / 2, 1 / 4]) (f1 := 0) (f2 := 3) (n := 2) (d := 0)
    (by omega) (by simp) (by simp) (by simp)
    (by norm_num [hc, seg, Cascade.filter, Cascade.tick, Cascade.tickLoop, Cascade.reset, Biquad.tick, Biquad.reset,
      List.replicate])
  exact ⟨c, _, m', hr, e, w⟩

/-- The average of two samples for `2, 4, 6`: `1, 3, 5`. -/
example : ∃ a a' m' : _, MovingAverage.new (K := ℝ) 2 = .ok a ∧
    a.run (([2, 4, 6] : List ℝ).map .tick) = .ok (a', [1, 3, 5]) ∧
    conv ([2, 4, 6, 1 / 2, 1 / 2, 0] : List ℝ) 0 3 3 0 = .ok m' ∧
    Wrote [2, 4, 6, 1 / 2, 1 / 2, 0] m' 0 [1, 3, 5] := by
  obtain ⟨a, a', ys, m', e1, e2, e3, w⟩ := C137_moving_average (N := 2) (by omega) (by norm_num)
    (m := [2, 4, 6, 1 / 2, 1 / 2, 0]) (f1 := 0) (f2 := 3) (n := 3) (d := 0) (by omega) (by omega) (by simp) (by simp)
    (by simp) (by simp [seg, List.range_succ])
  obtain ⟨b, b', g1, g2⟩ := Props.C13_moving_average_partial (K := ℝ) 2 (by omega) (by norm_num) [2, 4, 6]
  have hy : ys = [1, 3, 5] := by
    rw [g1] at e1
    cases e1
    have : seg ([2, 4, 6, 1 / 2, 1 / 2, 0] : List ℝ) 0 (0 + 3) = [2, 4, 6] := by simp [seg]
    rw [this, g2] at e2
    cases e2
    rw [Props.C13_spec_unfolded]
    norm_num [window, lastOf, List.range_succ, List.replicate]
  subst hy
  exact ⟨a, a', m', e1, by simpa [seg] using e2, e3, w⟩

/-- `1, 2` delayed by one sample: the peak is at 1. -/
example : ∃ m' v, xcorr ([0, 1, 2, 1, 2, 0, 9, 9, 9] : List ℝ) 0 3 3 6 .biased = .ok m' ∧
    Seq.peak (seg m' 6 9) = .ok (1, v) := by
  obtain ⟨m', v, e, p, -⟩ := C137_delay .biased (m := [0, 1, 2, 1, 2, 0, 9, 9, 9]) (u := [1, 2]) (f1 := 0) (f2 := 3)
    (n := 3) (d := 6) (D := 1) ⟨1, by simp, by norm_num⟩ (by simp) (by omega) (by simp) (by simp) (by simp)
    (by simp [seg]) (by simp [seg])
  exact ⟨m', v, e, p⟩

/-- `(1,2)`, `(3,4)` and `(5,6)` in both groupings, with results behind them. -/
example : ∃ ma mb mc md, conv ([1, 2, 3, 4, 5, 6, 0, 0, 0, 0] : List ℝ) 0 2 2 6 = .ok ma ∧ conv ma 6 8 4 8 = .ok mb ∧
    conv ([1, 2, 3, 4, 5, 6, 0, 0, 0, 0] : List ℝ) 2 4 4 6 = .ok mc ∧ conv mc 0 2 6 8 = .ok md ∧
    seg mb 8 10 = seg md 8 10 :=
  C137_grouping (m := [1, 2, 3, 4, 5, 6, 0, 0, 0, 0]) (f1 := 0) (f2 := 2) (f3 := 4) (n := 2) (d := 6) (e := 8) (by omega)
    (by omega) (by simp) (by simp) (by simp) (by simp) (by simp) (by omega) (by omega)

/-- `2·(1,2) + 3·(3,4) = (11,16)`. -/
example : ∃ ma mb mc A B, conv ([1, 2, 3, 4, 11, 16, 5, 6] : List ℝ) 0 2 6 0 = .ok ma ∧
    conv ([1, 2, 3, 4, 11, 16, 5, 6] : List ℝ) 2 4 6 0 = .ok mb ∧
    conv ([1, 2, 3, 4, 11, 16, 5, 6] : List ℝ) 4 6 6 0 = .ok mc ∧ Wrote [1, 2, 3, 4, 11, 16, 5, 6] ma 0 A ∧
    Wrote [1, 2, 3, 4, 11, 16, 5, 6] mb 0 B ∧ Wrote [1, 2, 3, 4, 11, 16, 5, 6] mc 0 (lincomb 2 3 A B) :=
  C137_superposition (m := [1, 2, 3, 4, 11, 16, 5, 6]) (f1 := 0) (g1 := 2) (s1 := 4) (f2 := 6) (n := 2) (d := 0)
    (by omega) (by omega) (by simp) (by simp) (by simp) (by simp) (by simp) (by norm_num [seg, lincomb])

/-- `(1,2)` with `(3,4)` and `(4,3)`: 11. -/
example : ∃ ma mb, conv ([1, 2, 3, 4, 4, 3] : List ℝ) 0 2 4 0 = .ok ma ∧
    xcorr ([1, 2, 3, 4, 4, 3] : List ℝ) 0 2 2 0 .none = .ok mb ∧ ma[1]? = mb[0]? ∧ mb[0]? ≠ none :=
  C137_matched (m := [1, 2, 3, 4, 4, 3]) (f1 := 0) (f2 := 2) (r2 := 4) (n := 2) (d := 0) (by omega) (by omega) (by simp)
    (by simp) (by simp) (by simp) (by simp [seg])

/-- `(7,8,9)` with an impulse at 1. -/
example : ∃ m', conv ([7, 8, 9, 0, 1, 0] : List ℝ) 0 3 3 0 = .ok m' ∧ Wrote [7, 8, 9, 0, 1, 0] m' 0 [0, 7, 8] := by
  obtain ⟨m', e, w⟩ := C137_shift (m := [7, 8, 9, 0, 1, 0]) (f1 := 0) (f2 := 3) (n := 3) (d := 0) (D := 1) (by omega)
    (by omega) (by omega) (by simp) (by simp) (by simp)
    (by
      intro i
      rcases i with _ | _ | _ | i <;> simp [seg, List.getD])
  exact ⟨m', e, by simpa [seg] using w⟩

end Edsp.C137
