import Verif.Lemmas.Reversal
import Verif.Props.C137_ConvolutionAlgebra
import Verif.Props.C13_MovingFilters
import Verif.Props.C22_Linspace
import Verif.Props.C34_Extrema
import Verif.Props.C46_Convolution
import Verif.Props.C49_Features
import Verif.Props.C51_Temporal
import Verif.Props.C67_Hilbert
import Verif.Props.C68_Spectrum
import Verif.Props.C69_RealTransforms
import Verif.Props.C70_Cepstrum

/-!
# C139: a frame played backwards
-/

namespace Edsp.C139

open Finset Edsp.Mem Edsp.Spec Edsp.ReverseL Edsp.Spectral

/-- **C139 (spectrum).**  A frame and the same frame played backwards have the same spectrum. -/
theorem C139_spectrum {m m2 : List ℝ} {first n d : ℕ} (h0 : 0 < n) (h31 : n < 2147483648)
    (hs : first + n ≤ m.length) (hs2 : first + n ≤ m2.length) (hd : d + (n / 2 + 1) ≤ m.length)
    (hd2 : d + (n / 2 + 1) ≤ m2.length) (hr : seg m2 first (first + n) = (seg m first (first + n)).reverse) :
    ∃ a b S, spectrum m first (first + n) d = .ok a ∧ spectrum m2 first (first + n) d = .ok b ∧
      Wrote m a d S ∧ Wrote m2 b d S := by
  obtain ⟨a, h1, w1⟩ := C68_spectrum h0 h31 hs hd
  obtain ⟨b, h2, w2⟩ := C68_spectrum h0 h31 hs2 hd2
  refine ⟨a, b, _, h1, h2, w1, ?_⟩
  rw [hr] at w2
  simpa only [bin_norm] using w2

/-- **C139 (cepstrum).**  The same cepstrum, or the same failure. -/
theorem C139_cepstrum {m m2 : List ℝ} {first n d : ℕ} (h0 : 0 < n) (h31 : 2 * n < 2147483648)
    (hs : first + n ≤ m.length) (hs2 : first + n ≤ m2.length) (hd : d + n ≤ m.length) (hd2 : d + n ≤ m2.length)
    (hr : seg m2 first (first + n) = (seg m first (first + n)).reverse) :
    (cepstrum m first (first + n) d = .error .domain ∧ cepstrum m2 first (first + n) d = .error .domain) ∨
    ∃ a b S, cepstrum m first (first + n) d = .ok a ∧ cepstrum m2 first (first + n) d = .ok b ∧
      Wrote m a d S ∧ Wrote m2 b d S := by
  have hl : (seg m first (first + n)).length = n := by rw [seg_length hs]; omega
  have hb : ∀ k, ‖bin (ofReals (zeroPad (seg m2 first (first + n)))) k‖ =
      ‖bin (ofReals (zeroPad (seg m first (first + n)))) k‖ := by
    intro k
    rw [hr, bin_zeroPad (by rw [List.length_reverse, hl]), bin_zeroPad hl, F_norm _ (by omega)]
  by_cases hz : ∃ k, k ≤ n ∧ bin (ofReals (zeroPad (seg m first (first + n)))) k = 0
  · obtain ⟨k, hk, hz⟩ := hz
    refine Or.inl ⟨C70_zero_bin_violates h0 h31 hs hk hz, C70_zero_bin_violates h0 h31 hs2 hk ?_⟩
    rw [← norm_eq_zero, hb, hz, norm_zero]
  · push Not at hz
    obtain ⟨a, h1, w1⟩ := C70_cepstrum_partial h0 h31 hs hd hz
    obtain ⟨b, h2, w2⟩ := C70_cepstrum_partial (d := d) h0 h31 hs2 hd2 fun k hk h => hz k hk (by
      rw [← norm_eq_zero, ← hb, h, norm_zero])
    refine Or.inr ⟨a, b, _, h1, h2, w1, ?_⟩
    have e : realCepstrum (seg m2 first (first + n)) = realCepstrum (seg m first (first + n)) := by
      funext j
      unfold realCepstrum
      simp only [hb]
      rw [hr, List.length_reverse]
    rw [e] at w2
    exact w2

/-- **C139 (cosine transform).**  Coefficient `k` of the frame played backwards is `(-1)^k` times coefficient `k`. -/
theorem C139_dct {s s2 m m2 : List ℝ} {first n d : ℕ} (h0 : 0 < n) (h31 : n < 2147483648)
    (hs : first + n ≤ s.length) (hs2 : first + n ≤ s2.length) (hd : d + n ≤ m.length) (hd2 : d + n ≤ m2.length)
    (hr : seg s2 first (first + n) = (seg s first (first + n)).reverse) :
    ∃ a b S, dct s first (first + n) m d = .ok a ∧ dct s2 first (first + n) m2 d = .ok b ∧
      Wrote m a d S ∧ Wrote m2 b d (S.mapIdx fun k v => (-1) ^ k * v) := by
  obtain ⟨a, h1, w1⟩ := C69_dct h0 h31 hs hd
  obtain ⟨b, h2, w2⟩ := C69_dct h0 h31 hs2 hd2
  refine ⟨a, b, _, h1, h2, w1, ?_⟩
  have e : ((List.range n).map fun k => 2 * cosineSum (seg s first (first + n)) k).mapIdx (fun k v => (-1) ^ k * v) =
      (List.range n).map fun k => 2 * cosineSum (seg s2 first (first + n)) k := by
    apply List.ext_getElem
    · simp
    intro i hi hi'
    simp only [List.getElem_mapIdx, List.getElem_map, List.getElem_range]
    rw [hr, cosineSum_reverse]
    ring
  rw [e]
  exact w2

/-- **C139 (analytic signal).**  `hilbert` of the frame played backwards stores the conjugate analytic signal, backwards. -/
theorem C139_hilbert {s s2 : List ℝ} {m m2 : List ℂ} {first n d : ℕ} (h0 : 0 < n) (h31 : n < 2147483648)
    (hs : first + n ≤ s.length) (hs2 : first + n ≤ s2.length) (hd : d + n ≤ m.length) (hd2 : d + n ≤ m2.length)
    (hr : seg s2 first (first + n) = (seg s first (first + n)).reverse) :
    ∃ a b z, hilbert s first (first + n) m d = .ok a ∧ hilbert s2 first (first + n) m2 d = .ok b ∧
      Wrote m a d z ∧ Wrote m2 b d (z.reverse.map (starRingEnd ℂ)) := by
  obtain ⟨a, z, h1, w1, l1, -, b1⟩ := C67_analytic h0 h31 hs hd
  obtain ⟨b, z2, h2, w2, l2, -, b2⟩ := C67_analytic h0 h31 hs2 hd2
  have hl : (seg s first (first + n)).length = n := by rw [seg_length hs]; omega
  refine ⟨a, b, z, h1, h2, w1, ?_⟩
  have e : z2 = z.reverse.map (starRingEnd ℂ) := by
    refine C67_determined l2 (by simp [l1]) fun k hk => ?_
    have hz : bin (z.reverse.map (starRingEnd ℂ)) k = Fourier.om n ^ (-(((n : ℤ) - 1) * k)) * (starRingEnd ℂ) (bin z k) := by
      rw [bin_eq, bin_eq, List.length_map, List.length_reverse, l1]
      have := F_reverse (N := n) z (z.reverse.map (starRingEnd ℂ)) (by simp) (by omega) (by
        intro j hj
        rw [List.getD, List.getElem?_map, List.getElem?_reverse hj, List.getD]
        cases z[z.length - 1 - j]? <;> simp) k
      rw [this, l1]
    rw [hz, b1 k hk, b2 k hk, hr]
    rw [bin_reverse, hl]
    split_ifs
    · rfl
    · rw [map_mul, show (starRingEnd ℂ) 2 = 2 from map_ofNat (starRingEnd ℂ) 2, mul_left_comm]
    · rw [map_zero, mul_zero]
  rw [← e]
  exact w2

/-- **C139 (correlation).**  The cross correlation of two frames played backwards is that of the frames exchanged; the
autocorrelation is the same; with every scale option. -/
theorem C139_correlation (scale : Scale) {m m2 : List ℝ} {f1 f2 n d : ℕ} (h0 : 0 < n) (h31 : 2 * n < 2147483648)
    (h1 : f1 + n ≤ m.length) (h2 : f2 + n ≤ m.length) (hd : d + n ≤ m.length)
    (h1' : f1 + n ≤ m2.length) (h2' : f2 + n ≤ m2.length) (hd' : d + n ≤ m2.length)
    (hr1 : seg m2 f1 (f1 + n) = (seg m f1 (f1 + n)).reverse) (hr2 : seg m2 f2 (f2 + n) = (seg m f2 (f2 + n)).reverse) :
    (∃ a b S, xcorr m f2 (f2 + n) f1 d scale = .ok a ∧ xcorr m2 f1 (f1 + n) f2 d scale = .ok b ∧
      Wrote m a d S ∧ Wrote m2 b d S) ∧
    ∃ a b S, autocorr m f1 (f1 + n) d scale = .ok a ∧ autocorr m2 f1 (f1 + n) d scale = .ok b ∧
      Wrote m a d S ∧ Wrote m2 b d S := by
  have hl1 : (seg m f1 (f1 + n)).length = n := by rw [seg_length h1]; omega
  have hl2 : (seg m f2 (f2 + n)).length = n := by rw [seg_length h2]; omega
  constructor
  · obtain ⟨a, e1, w1⟩ := xcorr_ok scale h0 h31 h2 h1 hd
    obtain ⟨b, e2, w2⟩ := xcorr_ok scale h0 h31 h1' h2' hd'
    refine ⟨a, b, _, e1, e2, w1, ?_⟩
    rw [hr1, hr2] at w2
    simpa only [correlation_reverse _ _ (hl2.trans hl1.symm)] using w2
  · obtain ⟨a, e1, w1⟩ := autocorr_ok scale h0 h31 h1 hd
    obtain ⟨b, e2, w2⟩ := autocorr_ok scale h0 h31 h1' hd'
    refine ⟨a, b, _, e1, e2, w1, ?_⟩
    rw [hr1] at w2
    simpa only [correlation_reverse _ _ rfl] using w2

/-- **C139 (difference functions).** -/
theorem C139_differences {m m2 : List ℝ} {first n d : ℕ} (h0 : 0 < n) (hm : first + n ≤ m.length) (hd : d + n ≤ m.length)
    (hm2 : first + n ≤ m2.length) (hd2 : d + n ≤ m2.length) (ho : d + n ≤ first ∨ first + n ≤ d)
    (hr : seg m2 first (first + n) = (seg m first (first + n)).reverse) :
    (∃ a b S, Feature.amdf m first (first + n) d = .ok a ∧ Feature.amdf m2 first (first + n) d = .ok b ∧
      Wrote m a d S ∧ Wrote m2 b d S) ∧
    ∃ a b S, Feature.asdf m first (first + n) d = .ok a ∧ Feature.asdf m2 first (first + n) d = .ok b ∧
      Wrote m a d S ∧ Wrote m2 b d S := by
  constructor
  · obtain ⟨a, e1, w1⟩ := Feature.C51_amdf h0 hm hd ho
    obtain ⟨b, e2, w2⟩ := Feature.C51_amdf h0 hm2 hd2 ho
    refine ⟨a, b, _, e1, e2, w1, ?_⟩
    rw [hr] at w2
    have e : magnitudeDifference (seg m first (first + n)).reverse = magnitudeDifference (seg m first (first + n)) :=
      funext (magnitude_reverse _)
    rwa [e] at w2
  · obtain ⟨a, e1, w1⟩ := Feature.C51_asdf h0 hm hd ho
    obtain ⟨b, e2, w2⟩ := Feature.C51_asdf h0 hm2 hd2 ho
    refine ⟨a, b, _, e1, e2, w1, ?_⟩
    rw [hr] at w2
    have e : squareDifference (seg m first (first + n)).reverse = squareDifference (seg m first (first + n)) :=
      funext (square_reverse _)
    rwa [e] at w2

/-- **C139 (zero crossings).**  Any samples, zeros included; the rate of a frame of one sample fails both ways. -/
theorem C139_crossings (x : List ℝ) : Feature.azcr x.reverse = Feature.azcr x := by
  rcases lt_or_ge x.length 2 with h | h
  · match x, h with
    | [], _ => rfl
    | [a], _ => rfl
    | a :: b :: l, h => simp at h
  · obtain ⟨z, e, -, -, c, -⟩ := Feature.C51_azcr_partial h
    obtain ⟨z', e', -, -, c', -⟩ := Feature.C51_azcr_partial (x := x.reverse) (by rwa [List.length_reverse])
    have key : ((range (x.reverse.length - 1)).filter fun t => (at0 x.reverse (t + 1) < 0) ≠ (at0 x.reverse t < 0)).card =
        ((range (x.length - 1)).filter fun t => (at0 x (t + 1) < 0) ≠ (at0 x t < 0)).card := by
      rw [card_filter, card_filter, List.length_reverse]
      have := pairs_reverse (fun a b => if (a < 0) ≠ (b < 0) then 1 else 0) x x rfl 1
      unfold at0
      rw [this]
      refine sum_congr rfl fun j _ => ?_
      simp only [ne_comm]
    rw [key, ← c, List.length_reverse] at c'
    have hn : (x.length : ℝ) - 1 ≠ 0 := by
      have : (2 : ℝ) ≤ x.length := by exact_mod_cast h
      linarith
    rw [e, e', mul_right_cancel₀ hn c']

/-- **C139 (centroid and spread).**  The centre of gravity of the mirrored lines is the mirrored one; their spread is the
same. -/
theorem C139_centroid {x : List ℝ} (h0 : ∀ v ∈ x, 0 ≤ v) (h1 : ∃ v ∈ x, 0 < v) :
    (∃ c, Feature.centroid x = .ok c ∧ Feature.centroid x.reverse = .ok (x.length - 1 - c)) ∧
      Feature.spread x.reverse = Feature.spread x := by
  have h0' : ∀ v ∈ x.reverse, 0 ≤ v := fun v hv => h0 v (List.mem_reverse.1 hv)
  have h1' : ∃ v ∈ x.reverse, 0 < v := by simpa using h1
  obtain ⟨c, e, k, -⟩ := Feature.C49_centroid h0 h1
  obtain ⟨c', e', k', -⟩ := Feature.C49_centroid h0' h1'
  obtain ⟨s, f, q, q0, -⟩ := Feature.C49_spread h0 h1
  obtain ⟨s', f', q', q0', -⟩ := Feature.C49_spread h0' h1'
  have ht := (Feature.total_pos h0 h1).ne'
  have hg : c = gravity (fun i => (i : ℝ)) x := by
    unfold gravity
    rw [← k, mul_div_cancel_right₀ _ ht]
  have hg' : c' = gravity (fun i => (i : ℝ)) x.reverse := by
    unfold gravity
    rw [← k', mul_div_cancel_right₀ _ (by rw [total_reverse]; exact ht)]
  rw [gravity_reverse ht, ← hg] at hg'
  rw [scatter_reverse ht, ← q] at q'
  refine ⟨⟨c, e, by rw [e', hg']⟩, ?_⟩
  rw [f, f', (pow_left_inj₀ q0' q0 two_ne_zero).1 q']

/-- **C139 (ramps).**  `linspace` from `x2` to `x1` stores the values from `x1` to `x2` backwards. -/
theorem C139_linspace {m : List ℝ} {d : ℕ} (x1 x2 : ℝ) {N : ℕ} (hN : 2 ≤ N) (hd : d + N ≤ m.length) :
    ∃ a b v, Seq.linspace m d x1 x2 N = .ok a ∧ Seq.linspace m d x2 x1 N = .ok b ∧
      Wrote m a d v ∧ Wrote m b d v.reverse := by
  obtain ⟨a, e1, w1⟩ := Props.C22_linspace x1 x2 hN hd
  obtain ⟨b, e2, w2⟩ := Props.C22_linspace x2 x1 hN hd
  refine ⟨a, b, _, e1, e2, w1, ?_⟩
  have e : (Props.spaced x1 x2 N).reverse = Props.spaced x2 x1 N := by
    unfold Props.spaced
    apply List.ext_getElem
    · simp
    intro i hi hi'
    have hi : i < N := by simpa using hi
    simp only [List.getElem_reverse, List.getElem_map, List.getElem_range, List.length_map, List.length_range]
    have hc : ((N - 1 - i : ℕ) : ℝ) = N - 1 - i := by
      rw [Nat.cast_sub (by omega), Nat.cast_sub (by omega), Nat.cast_one]
    have hne : (N : ℝ) - 1 ≠ 0 := by
      have : (2 : ℝ) ≤ N := by exact_mod_cast hN
      linarith
    rw [hc]
    field_simp
    ring
  rw [e]
  exact w2

/-- **C139 (peak).**  A peak that is the only one is found at the mirrored position, with the same value. -/
theorem C139_peak {x : List ℝ} {i : ℕ} {v : ℝ} (h : Seq.peak x = .ok (i, v)) (hu : ∀ j, x[j]? = some v → j = i) :
    Seq.peak x.reverse = .ok (x.length - 1 - i, v) := by
  have hne : x ≠ [] := by
    rintro rfl
    cases h
  obtain ⟨i', v', e, g, hm, -⟩ := Props.C34_peak hne
  rw [h] at e
  cases e
  obtain ⟨k, w, e', g', hm', -⟩ := Props.C34_peak (l := x.reverse) (by simpa using hne)
  have hi : i < x.length := (List.getElem?_eq_some_iff.1 g).1
  have hk : k < x.length := by simpa using (List.getElem?_eq_some_iff.1 g').1
  have hv : w = v := by
    refine le_antisymm (hm _ ?_) (hm' _ ?_)
    · exact List.mem_reverse.1 (List.mem_of_getElem? g')
    · exact List.mem_reverse.2 (List.mem_of_getElem? g)
  rw [hv] at e' g'
  rw [List.getElem?_reverse hk] at g'
  have := hu _ g'
  rw [e', show k = x.length - 1 - i by omega]

/-- Value `i` of the moving average in terms of the samples of a signal followed by zeros. -/
theorem average_value {N L : ℕ} (x : List ℝ) (hx : x.length = L) (z : ℕ) {i : ℕ} (hi : i < L + z) :
    (window N ((x ++ List.replicate z 0).take (i + 1))).sum / (N : ℝ) =
      (∑ j ∈ range L, if j ≤ i ∧ i < j + N then x.getD j 0 else 0) / N := by
  congr 1
  have hl : (x ++ List.replicate z (0 : ℝ)).length = L + z := by simp [hx]
  have hx0 : ∀ j, (x ++ List.replicate z (0 : ℝ)).getD j 0 = x.getD j 0 := by
    intro j
    rw [List.getD, List.getD, List.getElem?_append]
    split_ifs with h
    · rfl
    · rw [List.getElem?_replicate, List.getElem?_eq_none (by omega)]
      split_ifs <;> rfl
  rw [C137.window_sum, C137.sum_getD]
  simp only [List.length_drop, List.length_take, hl]
  rw [show min (i + 1) (L + z) = i + 1 by omega]
  have hg : ∀ j, j < i + 1 - (i + 1 - N) →
      (((x ++ List.replicate z (0 : ℝ)).take (i + 1)).drop (i + 1 - N)).getD j 0 = x.getD (i + 1 - N + j) 0 := by
    intro j hj
    rw [← hx0, List.getD, List.getD, List.getElem?_drop, List.getElem?_take, if_pos (by omega)]
  rw [sum_congr rfl fun j hj => hg j (mem_range.1 hj), ← sum_Ico_eq_sum_range (fun j => x.getD j 0), ← sum_filter]
  refine (sum_subset (fun j hj => ?_) fun j hj hn => ?_).symm
  · have := (mem_filter.1 hj).2
    exact mem_Ico.2 (by omega)
  · have h1 := mem_Ico.1 hj
    refine getD_ge x 0 ?_
    by_contra hc
    push Not at hc
    exact hn (mem_filter.2 ⟨mem_range.2 (by omega), by omega, by omega⟩)

/-- **C139 (moving average).**  With room for the tail (`N - 1` zeros after the signal) the output for the signal played
backwards is the output played backwards. -/
theorem C139_moving_average {N : ℕ} (h0 : 0 < N) (hN : N < 2 ^ 63) (x : List ℝ) :
    ∃ a a1 a2 y, MovingAverage.new N = .ok a ∧
      a.run ((x ++ List.replicate (N - 1) 0).map .tick) = .ok (a1, y) ∧
      a.run ((x.reverse ++ List.replicate (N - 1) 0).map .tick) = .ok (a2, y.reverse) := by
  obtain ⟨a, a1, e, e1⟩ := Props.C13_moving_average_partial N h0 hN (x ++ List.replicate (N - 1) 0)
  obtain ⟨a', a2, e', e2⟩ := Props.C13_moving_average_partial N h0 hN (x.reverse ++ List.replicate (N - 1) 0)
  cases e.symm.trans e'
  refine ⟨a, a1, a2, _, e, e1, ?_⟩
  rw [e2, Props.C13_spec_unfolded, Props.C13_spec_unfolded]
  congr 2
  apply List.ext_getElem
  · simp
  intro i hi hi'
  have hi : i < x.length + (N - 1) := by simpa using hi
  simp only [List.getElem_reverse, List.getElem_map, List.getElem_range, List.length_map, List.length_range,
    List.length_append, List.length_replicate]
  rw [average_value x.reverse (List.length_reverse ..) _ hi, average_value x rfl _ (by omega), ← sum_reverse]
  congr 1
  refine sum_congr rfl fun j hj => ?_
  have hj := mem_range.1 hj
  rw [getD_reverse x 0 (by omega), show x.length - 1 - (x.length - 1 - j) = j by omega]
  refine if_congr ?_ rfl rfl
  constructor <;> rintro ⟨h, h'⟩ <;> constructor <;> omega

/-- The frame 1, 2, 5 and the frame 5, 2, 1. -/
example : ∃ a b S, spectrum ([1, 2, 5, 9, 9] : List ℝ) 0 3 3 = .ok a ∧ spectrum ([5, 2, 1, 7, 7] : List ℝ) 0 3 3 = .ok b ∧
    Wrote [1, 2, 5, 9, 9] a 3 S ∧ Wrote [5, 2, 1, 7, 7] b 3 S := by
  simpa using C139_spectrum (m := [1, 2, 5, 9, 9]) (m2 := [5, 2, 1, 7, 7]) (first := 0) (n := 3) (d := 3) (by norm_num)
    (by norm_num) (by simp) (by simp) (by simp) (by simp) (by simp [seg])

example : ∃ a b z, hilbert ([1, 2, 5] : List ℝ) 0 3 [0, 0, 0] 0 = .ok a ∧ hilbert ([5, 2, 1] : List ℝ) 0 3 [0, 0, 0] 0 = .ok b ∧
    Wrote [0, 0, 0] a 0 z ∧ Wrote [0, 0, 0] b 0 (z.reverse.map (starRingEnd ℂ)) := by
  simpa using C139_hilbert (s := [1, 2, 5]) (s2 := [5, 2, 1]) (m := [0, 0, 0]) (m2 := [0, 0, 0]) (first := 0) (n := 3)
    (d := 0) (by norm_num) (by norm_num) (by simp) (by simp) (by simp) (by simp) (by simp [seg])

example : Feature.azcr [-5, 0, 3, -1] = Feature.azcr [-1, 3, 0, -5] := C139_crossings [-1, 3, 0, -5]

example : ∃ c, Feature.centroid [1, 0, 3] = .ok c ∧ Feature.centroid [3, 0, 1] = .ok (2 - c) := by
  obtain ⟨⟨c, h, h'⟩, -⟩ := C139_centroid (x := [1, 0, 3]) (by simp) ⟨1, by simp, by norm_num⟩
  refine ⟨c, h, ?_⟩
  norm_num at h'
  exact h'

example : Seq.peak ([3, 9, 1, 2] : List ℝ).reverse = .ok (2, 9) := by
  refine C139_peak (i := 1) (v := 9) (x := [3, 9, 1, 2]) ?_ ?_
  · norm_num [Seq.peak, Seq.maxElement, Seq.maxLoop, Seq.less]
  · intro j hj
    match j with
    | 0 => norm_num at hj
    | 1 => rfl
    | 2 => norm_num at hj
    | 3 => norm_num at hj
    | j + 4 => simp at hj

example : ∃ a b S, dct ([1, 2, 5] : List ℝ) 0 3 [0, 0, 0] 0 = .ok a ∧ dct ([5, 2, 1] : List ℝ) 0 3 [0, 0, 0] 0 = .ok b ∧
    Wrote [0, 0, 0] a 0 S ∧ Wrote [0, 0, 0] b 0 (S.mapIdx fun k v => (-1) ^ k * v) := by
  simpa using C139_dct (s := [1, 2, 5]) (s2 := [5, 2, 1]) (m := [0, 0, 0]) (m2 := [0, 0, 0]) (first := 0) (n := 3)
    (d := 0) (by norm_num) (by norm_num) (by simp) (by simp) (by simp) (by simp) (by simp [seg])

/-- The second of two frames of two samples each, in both orders. -/
example : ∃ a b S, xcorr ([1, 2, 5, 3, 9, 9] : List ℝ) 2 4 0 4 .biased = .ok a ∧
    xcorr ([2, 1, 3, 5, 9, 9] : List ℝ) 0 2 2 4 .biased = .ok b ∧ Wrote [1, 2, 5, 3, 9, 9] a 4 S ∧
      Wrote [2, 1, 3, 5, 9, 9] b 4 S := by
  simpa using (C139_correlation .biased (m := [1, 2, 5, 3, 9, 9]) (m2 := [2, 1, 3, 5, 9, 9]) (f1 := 0) (f2 := 2) (n := 2)
    (d := 4) (by norm_num) (by norm_num) (by simp) (by simp) (by simp) (by simp) (by simp) (by simp) (by simp [seg])
    (by simp [seg])).1

example : ∃ a b S, Feature.amdf ([1, 2, 5, 9, 9, 9] : List ℝ) 0 3 3 = .ok a ∧
    Feature.amdf ([5, 2, 1, 7, 7, 7] : List ℝ) 0 3 3 = .ok b ∧ Wrote [1, 2, 5, 9, 9, 9] a 3 S ∧
      Wrote [5, 2, 1, 7, 7, 7] b 3 S := by
  simpa using (C139_differences (m := [1, 2, 5, 9, 9, 9]) (m2 := [5, 2, 1, 7, 7, 7]) (first := 0) (n := 3) (d := 3)
    (by norm_num) (by simp) (by simp) (by simp) (by simp) (by simp) (by simp [seg])).1

/-- Samples with a mean: their cepstrum exists or fails both ways. -/
example : (cepstrum ([1, 2, 0] : List ℝ) 0 2 0 = .error .domain ∧ cepstrum ([2, 1, 0] : List ℝ) 0 2 0 = .error .domain) ∨
    ∃ a b S, cepstrum ([1, 2, 0] : List ℝ) 0 2 0 = .ok a ∧ cepstrum ([2, 1, 0] : List ℝ) 0 2 0 = .ok b ∧
      Wrote [1, 2, 0] a 0 S ∧ Wrote [2, 1, 0] b 0 S := by
  simpa using C139_cepstrum (m := [1, 2, 0]) (m2 := [2, 1, 0]) (first := 0) (n := 2) (d := 0) (by norm_num) (by norm_num)
    (by simp) (by simp) (by simp) (by simp) (by simp [seg])

example : ∃ a b v, Seq.linspace ([0, 0, 0, 0] : List ℝ) 0 1 7 4 = .ok a ∧ Seq.linspace ([0, 0, 0, 0] : List ℝ) 0 7 1 4 = .ok b ∧
    Wrote [0, 0, 0, 0] a 0 v ∧ Wrote [0, 0, 0, 0] b 0 v.reverse :=
  C139_linspace 1 7 (by norm_num) (by simp)

/-- The moving average of length 2 of 2, 4, 8 with its tail: 1, 3, 6, 4; of 8, 4, 2: 4, 6, 3, 1. -/
example : ∃ a a1 a2 y, MovingAverage.new (K := ℝ) 2 = .ok a ∧ a.run ([2, 4, 8, 0].map .tick) = .ok (a1, y) ∧
    a.run ([8, 4, 2, 0].map .tick) = .ok (a2, y.reverse) := by
  simpa using C139_moving_average (N := 2) (by norm_num) (by norm_num) [2, 4, 8]

end Edsp.C139
