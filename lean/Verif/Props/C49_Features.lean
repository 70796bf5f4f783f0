import Verif.Lemmas.Features
import Verif.Props.C33_Means
import Verif.Props.C34_Extrema

/-!
# C49: values and ranges of the statistical features of a spectrum
-/

namespace Edsp.Feature

open Finset Edsp.Mem Edsp.Spec Edsp.Stat Edsp.StatL

theorem total_pos {x : List ℝ} (h0 : ∀ v ∈ x, 0 ≤ v) (h1 : ∃ v ∈ x, 0 < v) : 0 < total x := by
  obtain ⟨v, hv, hp⟩ := h1
  obtain ⟨i, hi, e⟩ := mem_at0 hv
  have := single_le_sum (f := fun i => at0 x i) (s := range x.length)
    (fun j hj => h0 _ (at0_mem (mem_range.mp hj))) (mem_range.mpr hi)
  unfold total
  linarith

theorem centroid_ok {x : List ℝ} (h : total x ≠ 0) : centroid x = .ok (gravity (fun i => (i : ℝ)) x) := by
  unfold centroid
  rw [loopI_pair (fun i x => i * x) (fun _ x => x)]
  simp only [zero_add]
  exact fdiv_ok h

/-- `centroid` is the centre of gravity of the indices, between 0 and N-1. -/
theorem C49_centroid {x : List ℝ} (h0 : ∀ v ∈ x, 0 ≤ v) (h1 : ∃ v ∈ x, 0 < v) :
    ∃ c, centroid x = .ok c ∧ c * total x = ∑ i ∈ range x.length, i * at0 x i ∧ 0 ≤ c ∧ c ≤ x.length - 1 := by
  have hs := total_pos h0 h1
  refine ⟨_, centroid_ok hs.ne', ?_, ?_⟩
  · unfold gravity; field_simp
  · refine mean_between (f := fun i => (i : ℝ)) (fun i hi => h0 _ (at0_mem hi)) hs (fun i hi => ⟨Nat.cast_nonneg i, ?_⟩)
    have : (i : ℝ) + 1 ≤ x.length := by exact_mod_cast hi
    linarith

/-- `weighted_centroid` is the centre of gravity over the axis of the second range, within the span of the axis. -/
theorem C49_weighted_centroid {m : List ℝ} {a n b : ℕ} (ha : a + n ≤ m.length) (hb : b + n ≤ m.length)
    (h0 : ∀ v ∈ seg m a (a + n), 0 ≤ v) (h1 : ∃ v ∈ seg m a (a + n), 0 < v) :
    ∃ c, weightedCentroid m a (a + n) b = .ok c ∧
      c = gravity (at0 (seg m b (b + n))) (seg m a (a + n)) ∧
      (∀ lo, (∀ v ∈ seg m b (b + n), lo ≤ v) → lo ≤ c) ∧ ∀ hi, (∀ v ∈ seg m b (b + n), v ≤ hi) → c ≤ hi := by
  have hs := total_pos h0 h1
  have la : (seg m a (a + n)).length = n := by rw [seg_length ha]; omega
  have lb : (seg m b (b + n)).length = n := by rw [seg_length hb]; omega
  have hn : ∀ i, i < n → 0 ≤ at0 (seg m a (a + n)) i := fun i hi => h0 _ (at0_mem (by omega))
  have hs' := hs
  unfold total at hs'
  rw [la] at hs'
  refine ⟨_, ?_, rfl, ?_, ?_⟩
  · have e1 := loop2_fst (fun (s : ℝ × ℝ) x f => (s.1 + f * x, s.2 + x)) (fun s x f => s + f * x) Prod.fst
      (fun _ _ _ => rfl) (seg m a (a + n)) (seg m b (b + n)) (0, 0)
    have e2 := loop2_fst (fun (s : ℝ × ℝ) x f => (s.1 + f * x, s.2 + x)) (fun s x _ => s + x) Prod.snd
      (fun _ _ _ => rfl) (seg m a (a + n)) (seg m b (b + n)) (0, 0)
    rw [loop2_sum (fun x f => f * x) _ _ _ (by omega)] at e1
    rw [loop2_sum (fun x _ => x) _ _ _ (by omega)] at e2
    simp only [zero_add] at e1 e2
    simp only [weightedCentroid, ranges_ok ha hb, bind, Except.bind, e1, e2]
    exact fdiv_ok hs.ne'
  · intro lo hlo
    unfold gravity total
    rw [la]
    have := mean_between (lo := lo) (hi := (∑ i ∈ range n, |at0 (seg m b (b + n)) i|)) hn hs'
      (f := at0 (seg m b (b + n))) (fun i hi => ⟨hlo _ (at0_mem (by omega)), (le_abs_self _).trans
        (single_le_sum (f := fun i => |at0 (seg m b (b + n)) i|) (fun j _ => abs_nonneg _) (mem_range.mpr hi))⟩)
    exact this.1
  · intro hi hhi
    unfold gravity total
    rw [la]
    have := mean_between (hi := hi) (lo := -(∑ i ∈ range n, |at0 (seg m b (b + n)) i|)) hn hs'
      (f := at0 (seg m b (b + n))) (fun _ hi => ⟨(neg_le_neg (single_le_sum
        (f := fun i => |at0 (seg m b (b + n)) i|) (fun j _ => abs_nonneg _) (mem_range.mpr hi))).trans (neg_abs_le _),
        hhi _ (at0_mem (by omega))⟩)
    exact this.2

theorem scatter_nonneg {f : ℕ → ℝ} {x : List ℝ} (h0 : ∀ v ∈ x, 0 ≤ v) (hs : 0 < total x) : 0 ≤ scatter f x :=
  div_nonneg (sum_nonneg fun _ hi => mul_nonneg (sq_nonneg _) (h0 _ (at0_mem (mem_range.mp hi)))) hs.le

/-- `spread` is the root of the mean squared deviation from the centroid; it is at most half the length of the
axis, and 0 for a spectrum of one line. -/
theorem C49_spread {x : List ℝ} (h0 : ∀ v ∈ x, 0 ≤ v) (h1 : ∃ v ∈ x, 0 < v) :
    ∃ s, spread x = .ok s ∧ s ^ 2 = scatter (fun i => (i : ℝ)) x ∧ 0 ≤ s ∧ s ≤ (x.length - 1) / 2 ∧
      ∀ k, (∀ i, i ≠ k → at0 x i = 0) → s = 0 := by
  have hs := total_pos h0 h1
  have hn := scatter_nonneg (f := fun i => (i : ℝ)) h0 hs
  refine ⟨Real.sqrt (scatter (fun i => (i : ℝ)) x), ?_, Real.sq_sqrt hn, Real.sqrt_nonneg _, ?_, ?_⟩
  · simp only [spread, centroid_ok hs.ne', bind, Except.bind]
    rw [loopI_pair (fun i x_1 => (i - gravity (fun i => (i : ℝ)) x) * (i - gravity (fun i => (i : ℝ)) x) * x_1)
      (fun _ x => x)]
    simp only [zero_add]
    have e : ∑ k ∈ range x.length, at0 x k ≠ 0 := hs.ne'
    rw [fdiv_ok e]
    have e2 : (∑ k ∈ range x.length, ((k : ℝ) - gravity (fun i => (i : ℝ)) x) *
        ((k : ℝ) - gravity (fun i => (i : ℝ)) x) * at0 x k) / ∑ k ∈ range x.length, at0 x k =
        scatter (fun i => (i : ℝ)) x := by
      unfold scatter
      congr 1
      exact sum_congr rfl fun k _ => by rw [sq]
    rw [e2]
    exact fsqrt_ok hn
  · have hl : (1 : ℝ) ≤ x.length := by
      obtain ⟨v, hv, _⟩ := h1
      exact_mod_cast List.length_pos_of_mem hv
    apply Real.sqrt_le_iff.mpr
    refine ⟨by linarith, ?_⟩
    have := deviation_le (n := x.length) (f := fun i => (i : ℝ)) (w := at0 x) (lo := 0) (hi := x.length - 1)
      (fun i hi => h0 _ (at0_mem hi)) hs (fun i hi => ⟨Nat.cast_nonneg i, by
        have : (i : ℝ) + 1 ≤ x.length := by exact_mod_cast hi
        linarith⟩)
    rw [sub_zero] at this
    exact this
  · intro k hk
    have hz : scatter (fun i => (i : ℝ)) x = 0 := by
      have hsum : ∀ g : ℕ → ℝ, ∑ i ∈ range x.length, g i * at0 x i = g k * at0 x k := by
        intro g
        refine sum_eq_single k (fun i _ hi => by rw [hk i hi, mul_zero]) (fun hk' => ?_)
        have : at0 x k = 0 := by
          unfold at0
          rw [List.getD, List.getElem?_eq_none (by simpa using hk')]
          rfl
        rw [this, mul_zero]
      have ht : total x = at0 x k := by
        have := hsum fun _ => 1
        simpa [total] using this
      have hk0 : at0 x k ≠ 0 := by rw [← ht]; exact hs.ne'
      unfold scatter
      rw [hsum fun i => ((i : ℝ) - gravity (fun i => (i : ℝ)) x) ^ 2]
      have hg : gravity (fun i => (i : ℝ)) x = k := by
        unfold gravity
        rw [hsum fun i => (i : ℝ), ht]
        field_simp
      rw [hg]
      simp
    rw [hz, Real.sqrt_zero]

/-- `weighted_spread` likewise over the axis of the second range, at most half the span of the axis. -/
theorem C49_weighted_spread {m : List ℝ} {a n b : ℕ} (ha : a + n ≤ m.length) (hb : b + n ≤ m.length)
    (h0 : ∀ v ∈ seg m a (a + n), 0 ≤ v) (h1 : ∃ v ∈ seg m a (a + n), 0 < v) :
    ∃ s, weightedSpread m a (a + n) b = .ok s ∧
      s ^ 2 = scatter (at0 (seg m b (b + n))) (seg m a (a + n)) ∧ 0 ≤ s ∧
      ∀ lo hi, (∀ v ∈ seg m b (b + n), lo ≤ v ∧ v ≤ hi) → s ≤ (hi - lo) / 2 := by
  have hs := total_pos h0 h1
  have la : (seg m a (a + n)).length = n := by rw [seg_length ha]; omega
  have lb : (seg m b (b + n)).length = n := by rw [seg_length hb]; omega
  have hn := scatter_nonneg (f := at0 (seg m b (b + n))) h0 hs
  refine ⟨Real.sqrt (scatter (at0 (seg m b (b + n))) (seg m a (a + n))), ?_, Real.sq_sqrt hn, Real.sqrt_nonneg _, ?_⟩
  · obtain ⟨c, hc, rfl, -⟩ := C49_weighted_centroid ha hb h0 h1
    simp only [weightedSpread, hc, ranges_ok ha hb, bind, Except.bind]
    generalize hg : gravity (at0 (seg m b (b + n))) (seg m a (a + n)) = g
    have e1 := loop2_fst (fun (s : ℝ × ℝ) x f => (s.1 + ((f - g) * (f - g)) * x, s.2 + x))
      (fun s x f => s + ((f - g) * (f - g)) * x) Prod.fst
      (fun _ _ _ => rfl) (seg m a (a + n)) (seg m b (b + n)) (0, 0)
    have e2 := loop2_fst (fun (s : ℝ × ℝ) x f => (s.1 + ((f - g) * (f - g)) * x, s.2 + x)) (fun s x _ => s + x)
      Prod.snd (fun _ _ _ => rfl) (seg m a (a + n)) (seg m b (b + n)) (0, 0)
    rw [loop2_sum (fun x f => ((f - g) * (f - g)) * x) _ _ _ (by omega)] at e1
    rw [loop2_sum (fun x _ => x) _ _ _ (by omega)] at e2
    simp only [zero_add] at e1 e2
    rw [e1, e2]
    have e : ∑ k ∈ range (seg m a (a + n)).length, at0 (seg m a (a + n)) k ≠ 0 := hs.ne'
    rw [fdiv_ok e]
    have e3 : (∑ k ∈ range (seg m a (a + n)).length, (at0 (seg m b (b + n)) k - g) * (at0 (seg m b (b + n)) k - g) *
        at0 (seg m a (a + n)) k) / ∑ k ∈ range (seg m a (a + n)).length, at0 (seg m a (a + n)) k =
        scatter (at0 (seg m b (b + n))) (seg m a (a + n)) := by
      unfold scatter
      rw [hg]
      congr 1
      exact sum_congr rfl fun k _ => by rw [sq]
    rw [e3]
    exact fsqrt_ok hn
  · intro lo hi hlh
    have hpos : 0 < n := by
      obtain ⟨v, hv, _⟩ := h1
      have := List.length_pos_of_mem hv
      omega
    have hh := hlh _ (at0_mem (x := seg m b (b + n)) (i := 0) (by omega))
    apply Real.sqrt_le_iff.mpr
    refine ⟨by linarith, ?_⟩
    have hs' := hs
    unfold total at hs'
    have := deviation_le (n := (seg m a (a + n)).length) (f := at0 (seg m b (b + n))) (w := at0 (seg m a (a + n)))
      (lo := lo) (hi := hi) (fun i hi => h0 _ (at0_mem hi)) hs' (fun i hi => hlh _ (at0_mem (by omega)))
    exact this

/-- The documentation gives the mean squared deviation itself as the spread; the code returns its root. -/
theorem C49_spread_formula_violates : spread [1, 0, 0, 0, 1] = .ok 2 ∧
    scatter (fun i => (i : ℝ)) [1, 0, 0, 0, 1] = 4 := by
  have hg : gravity (fun i => (i : ℝ)) [1, 0, 0, 0, 1] = 2 := by
    norm_num [gravity, total, at0, sum_range_succ]
  have hsc : scatter (fun i => (i : ℝ)) [1, 0, 0, 0, 1] = 4 := by
    unfold scatter
    rw [hg]
    norm_num [total, at0, sum_range_succ]
  obtain ⟨s, h1, h2, h3, -⟩ := C49_spread (x := [1, 0, 0, 0, 1]) (by intro v hv; simp at hv; rcases hv with rfl | rfl | rfl | rfl | rfl <;> norm_num)
    ⟨1, by simp, one_pos⟩
  refine ⟨?_, hsc⟩
  rw [h1]
  rw [hsc] at h2
  congr 1
  nlinarith

/-- `crest` is the largest magnitude over the sum of the magnitudes, between 1/N and 1. -/
theorem C49_crest {x : List ℝ} (h1 : ∃ v ∈ x, v ≠ 0) :
    ∃ c mx, crest x = .ok c ∧ (∃ v ∈ x, mx = |v|) ∧ (∀ v ∈ x, |v| ≤ mx) ∧ c * (x.map fun v => |v|).sum = mx ∧
      1 / x.length ≤ c ∧ c ≤ 1 := by
  obtain ⟨v0, hv0, hne⟩ := h1
  have hl : x ≠ [] := List.ne_nil_of_mem hv0
  obtain ⟨mx, e1, ⟨w, hw, hwm⟩, e3⟩ := (Props.C34_maxabs_minabs hl).1
  have hmx : 0 < mx := lt_of_lt_of_le (abs_pos.mpr hne) (e3 v0 hv0)
  have hsum : mx ≤ (x.map fun v => |v|).sum := by
    rw [sum_eq (fun v => |v|)]
    obtain ⟨i, hi, hiw⟩ := mem_at0 hw
    have := single_le_sum (f := fun i => |at0 x i|) (fun j _ => abs_nonneg _) (mem_range.mpr hi)
    rw [hiw] at this
    rw [hwm]
    exact this
  have hup : (x.map fun v => |v|).sum ≤ x.length * mx := by
    rw [sum_eq (fun v => |v|)]
    have := sum_le_sum (s := range x.length) (f := fun i => |at0 x i|) (g := fun _ => mx)
      (fun i hi => e3 _ (at0_mem (mem_range.mp hi)))
    simpa using this
  have hpos : 0 < (x.map fun v => |v|).sum := lt_of_lt_of_le hmx hsum
  have hlen : (0 : ℝ) < x.length := len_pos hl
  refine ⟨mx / (x.map fun v => |v|).sum, mx, ?_, ⟨w, hw, hwm⟩, e3, ?_, ?_, ?_⟩
  · simp only [crest, e1, bind, Except.bind, accumulate_eq, zero_add]
    exact fdiv_ok hpos.ne'
  · field_simp
  · rw [div_le_div_iff₀ hlen hpos]
    linarith
  · rw [div_le_one hpos]
    exact hsum

/-- `flatness` is the geometric over the arithmetic mean: in (0, 1], and 1 for a flat spectrum. -/
theorem C49_flatness {x : List ℝ} (hl : x ≠ []) (hp : ∀ v ∈ x, 0 < v) :
    ∃ f g a, flatness x = .ok f ∧ geometricMean x = .ok g ∧ mean x = .ok a ∧ f * a = g ∧ 0 < f ∧ f ≤ 1 ∧
      ∀ c, (∀ v ∈ x, v = c) → f = 1 := by
  obtain ⟨-, g', hg', hgp, -⟩ := C33.C33_definitions x hl hp
  obtain ⟨h, g, a, e1, e2, e3, hhg, hga, -, -, hc⟩ := C33.C33_ordered x hl hp
  obtain rfl : g = g' := by rw [e2] at hg'; exact Except.ok.inj hg'
  have ha : 0 < a := lt_of_lt_of_le hgp hga
  refine ⟨g / a, g, a, ?_, e2, e3, by field_simp, div_pos hgp ha, (div_le_one ha).mpr hga, ?_⟩
  · simp only [flatness, e2, e3, bind, Except.bind]
    exact fdiv_ok ha.ne'
  · intro c hcc
    obtain ⟨-, h2, h3⟩ := hc c hcc
    rw [h2, ← h3]
    exact div_self ha.ne'

/-- Non-vacuity: the spectrum 1, 0, 2 over the axis 100, 200, 300 (behind it in memory). -/
example : (∃ c, centroid [1, 0, 2] = .ok c ∧ c * total [1, 0, 2] = ∑ i ∈ range 3, i * at0 [1, 0, 2] i ∧ 0 ≤ c ∧
      c ≤ ([1, 0, 2] : List ℝ).length - 1) ∧
    (∃ c, weightedCentroid [1, 0, 2, 100, 200, 300] 0 (0 + 3) 3 = .ok c ∧ 100 ≤ c ∧ c ≤ 300) ∧
    (∃ s, weightedSpread [1, 0, 2, 100, 200, 300] 0 (0 + 3) 3 = .ok s ∧ s ≤ (300 - 100) / 2) ∧
    (∃ c, crest [1, 0, -2] = .ok c ∧ 1 / 3 ≤ c) ∧ ∃ f, flatness [1, 4] = .ok f ∧ 0 < f ∧ f ≤ 1 := by
  have hx : ∀ v ∈ ([1, 0, 2] : List ℝ), 0 ≤ v := by
    intro v hv
    simp only [List.mem_cons, List.not_mem_nil, or_false] at hv
    rcases hv with rfl | rfl | rfl <;> norm_num
  have hp : ∃ v ∈ ([1, 0, 2] : List ℝ), 0 < v := ⟨1, by simp, one_pos⟩
  have hax : ∀ v ∈ ([100, 200, 300] : List ℝ), 100 ≤ v ∧ v ≤ 300 := by
    intro v hv
    simp only [List.mem_cons, List.not_mem_nil, or_false] at hv
    rcases hv with rfl | rfl | rfl <;> norm_num
  refine ⟨C49_centroid hx hp, ?_, ?_, ?_, ?_⟩
  · obtain ⟨c, h1, -, h3, h4⟩ := C49_weighted_centroid (m := [1, 0, 2, 100, 200, 300]) (a := 0) (n := 3) (b := 3)
      (by simp) (by simp) hx hp
    exact ⟨c, h1, h3 100 fun v hv => (hax v hv).1, h4 300 fun v hv => (hax v hv).2⟩
  · obtain ⟨s, h1, -, -, h4⟩ := C49_weighted_spread (m := [1, 0, 2, 100, 200, 300]) (a := 0) (n := 3) (b := 3)
      (by simp) (by simp) hx hp
    exact ⟨s, h1, h4 100 300 hax⟩
  · obtain ⟨c, _, h1, -, -, -, h5, -⟩ := C49_crest (x := [1, 0, -2]) ⟨1, by simp, one_ne_zero⟩
    exact ⟨c, h1, by simpa using h5⟩
  · obtain ⟨f, _, _, h1, -, -, -, h5, h6, -⟩ := C49_flatness (x := [1, 4]) (by simp) (by
      intro v hv
      simp only [List.mem_cons, List.not_mem_nil, or_false] at hv
      rcases hv with rfl | rfl <;> norm_num)
    exact ⟨f, h1, h5, h6⟩

theorem flog2_ok {x : ℝ} (h : 0 < x) : flog2 x = .ok (Real.logb 2 x) := by
  unfold flog2
  rw [if_neg (not_le.mpr h)]
  rfl

theorem accumulateM_ok {f : ℝ → Except Fault ℝ} {g : ℝ → ℝ} : ∀ (l : List ℝ) (init : ℝ),
    (∀ x ∈ l, f x = .ok (g x)) → accumulateM f init l = .ok (init + (l.map g).sum)
  | [], init, _ => by simp [accumulateM]
  | x :: xs, init, h => by
    simp only [accumulateM, h x (by simp), bind, Except.bind]
    rw [accumulateM_ok xs _ fun y hy => h y (by simp [hy])]
    simp only [List.map_cons, List.sum_cons, add_assoc]

/-- Entropy of `N` probabilities: not negative, at most `log2 N` (Gibbs). -/
theorem bits_bounds {p : List ℝ} (hp : ∀ v ∈ p, 0 < v) (h1 : total p = 1) :
    0 ≤ bits p ∧ bits p ≤ Real.logb 2 p.length := by
  have h2 : (0 : ℝ) < Real.log 2 := Real.log_pos (by norm_num)
  have hl : p ≠ [] := by rintro rfl; simp [total] at h1
  have hn : (0 : ℝ) < p.length := len_pos hl
  have hle : ∀ i, i < p.length → at0 p i ≤ 1 := by
    intro i hi
    rw [← h1]
    exact single_le_sum (f := fun i => at0 p i) (fun j hj => (hp _ (at0_mem (mem_range.mp hj))).le) (mem_range.mpr hi)
  constructor
  · unfold bits
    rw [← sum_neg_distrib]
    refine sum_nonneg fun i hi => ?_
    have hi := mem_range.mp hi
    have hpi := hp _ (at0_mem hi)
    have : Real.logb 2 (at0 p i) ≤ 0 := div_nonpos_of_nonpos_of_nonneg (Real.log_nonpos hpi.le (hle i hi)) h2.le
    nlinarith
  · unfold bits
    have key : ∑ i ∈ range p.length, at0 p i * (Real.log (1 / (p.length * at0 p i))) ≤ 0 := by
      have hb : ∀ i ∈ range p.length, at0 p i * Real.log (1 / (p.length * at0 p i)) ≤ 1 / p.length - at0 p i := by
        intro i hi
        have hpi := hp _ (at0_mem (mem_range.mp hi))
        have := Real.log_le_sub_one_of_pos (show 0 < 1 / (p.length * at0 p i) by positivity)
        calc _ ≤ at0 p i * (1 / (p.length * at0 p i) - 1) := mul_le_mul_of_nonneg_left this hpi.le
          _ = _ := by field_simp
      refine (sum_le_sum hb).trans ?_
      rw [sum_sub_distrib, sum_const, card_range, nsmul_eq_mul]
      have : ∑ i ∈ range p.length, at0 p i = 1 := h1
      rw [this, mul_one_div_cancel hn.ne', sub_self]
    have e : ∑ i ∈ range p.length, at0 p i * Real.log (1 / (p.length * at0 p i)) =
        -(Real.log p.length) - ∑ i ∈ range p.length, at0 p i * Real.log (at0 p i) := by
      have : -(Real.log p.length) = ∑ i ∈ range p.length, at0 p i * -(Real.log p.length) := by
        rw [← sum_mul]
        have : ∑ i ∈ range p.length, at0 p i = 1 := h1
        rw [this, one_mul]
      rw [this, ← sum_sub_distrib]
      refine sum_congr rfl fun i hi => ?_
      have hpi := hp _ (at0_mem (mem_range.mp hi))
      rw [one_div, Real.log_inv, Real.log_mul hn.ne' hpi.ne']
      ring
    rw [e] at key
    have e2 : -∑ i ∈ range p.length, at0 p i * Real.logb 2 (at0 p i) =
        (-∑ i ∈ range p.length, at0 p i * Real.log (at0 p i)) / Real.log 2 := by
      rw [neg_div, sum_div]
      congr 1
      exact sum_congr rfl fun i _ => by unfold Real.logb; ring
    rw [e2]
    unfold Real.logb
    exact div_le_div_of_nonneg_right (by linarith) h2.le

theorem logb_len_pos {p : List ℝ} (h2 : 2 ≤ p.length) : 0 < Real.logb 2 p.length := by
  have : (2 : ℝ) ≤ p.length := by exact_mod_cast h2
  exact Real.logb_pos (by norm_num) (by linarith)

/-- `entropy` of a probability mass function without zeros is its entropy in units of `log2 N`: between 0 and 1, and
1 for the uniform one. -/
theorem C49_entropy {p : List ℝ} (h2 : 2 ≤ p.length) (hp : ∀ v ∈ p, 0 < v) (h1 : total p = 1) :
    ∃ h, entropy p = .ok h ∧ h * Real.logb 2 p.length = bits p ∧ 0 ≤ h ∧ h ≤ 1 ∧
      ((∀ v ∈ p, v = 1 / p.length) → h = 1) := by
  have hN := logb_len_pos h2
  have hlen : (0 : ℝ) < p.length := by
    have : (2 : ℝ) ≤ p.length := by exact_mod_cast h2
    linarith
  obtain ⟨b0, b1⟩ := bits_bounds hp h1
  have hacc : accumulateM (fun x => do return (← flog2 x) * x) 0 p =
      .ok (0 + (p.map fun x => Real.logb 2 x * x).sum) := by
    refine accumulateM_ok p 0 fun x hx => ?_
    simp only [flog2_ok (hp x hx), bind, Except.bind]
    rfl
  have hb : -(0 + (p.map fun x => Real.logb 2 x * x).sum) = bits p := by
    rw [zero_add, sum_eq (fun x => Real.logb 2 x * x)]
    unfold bits
    congr 1
    exact sum_congr rfl fun i _ => mul_comm _ _
  refine ⟨bits p / Real.logb 2 p.length, ?_, by field_simp, div_nonneg b0 hN.le, (div_le_one hN).mpr b1, ?_⟩
  · simp only [bind, Except.bind] at hacc
    simp only [entropy, bind, Except.bind, hacc, flog2_ok hlen, hb]
    exact fdiv_ok hN.ne'
  · intro hu
    have : bits p = Real.logb 2 p.length := by
      unfold bits
      have e : ∀ i ∈ range p.length, at0 p i * Real.logb 2 (at0 p i) = 1 / p.length * -Real.logb 2 p.length := by
        intro i hi
        rw [hu _ (at0_mem (mem_range.mp hi)), one_div, Real.logb_inv]
      rw [sum_congr rfl e, sum_const, card_range, nsmul_eq_mul]
      field_simp
    rw [this]
    exact div_self hN.ne'

example : ∃ h, entropy [1 / 2, 1 / 4, 1 / 4] = .ok h ∧
    h * Real.logb 2 ([1 / 2, 1 / 4, 1 / 4] : List ℝ).length = bits [1 / 2, 1 / 4, 1 / 4] ∧ 0 ≤ h ∧ h ≤ 1 ∧
      ((∀ v ∈ ([1 / 2, 1 / 4, 1 / 4] : List ℝ), v = 1 / ([1 / 2, 1 / 4, 1 / 4] : List ℝ).length) → h = 1) := by
  refine C49_entropy (by simp) ?_ ?_
  · intro v hv
    simp only [List.mem_cons, List.not_mem_nil, or_false] at hv
    rcases hv with rfl | rfl | rfl <;> norm_num
  · norm_num [total, at0, sum_range_succ]

/-- `spectral_entropy` is the entropy of the normalised spectrum, whatever the scale of the spectrum. -/
theorem C49_spectral_entropy {x : List ℝ} (h2 : 2 ≤ x.length) (hp : ∀ v ∈ x, 0 < v) :
    ∃ h, spectralEntropy x = .ok h ∧ entropy (x.map fun v => v / total x) = .ok h ∧ 0 ≤ h ∧ h ≤ 1 ∧
      ∀ c, 0 < c → spectralEntropy (x.map fun v => c * v) = .ok h := by
  have key : ∀ x : List ℝ, 2 ≤ x.length → (∀ v ∈ x, 0 < v) →
      spectralEntropy x = entropy (x.map fun v => v / total x) := by
    intro x h2 hp
    have hs : 0 < total x := total_pos (fun v hv => (hp v hv).le) (by
      obtain ⟨v, hv⟩ := List.exists_mem_of_length_pos (show 0 < x.length by omega)
      exact ⟨v, hv, hp v hv⟩)
    have ha : accumulate id 0 x = total x := by rw [accumulate_eq, zero_add, List.map_id, total_eq]
    have e1 : accumulateM (fun x_1 => do
        let n ← fdiv x_1 (accumulate id 0 x)
        return (← flog2 n) * n) 0 x = .ok (0 + (x.map fun v => Real.logb 2 (v / total x) * (v / total x)).sum) := by
      refine accumulateM_ok x 0 fun v hv => ?_
      rw [ha]
      simp only [fdiv_ok hs.ne', flog2_ok (div_pos (hp v hv) hs), bind, Except.bind]
      rfl
    have e2 : accumulateM (fun x => do return (← flog2 x) * x) 0 (x.map fun v => v / total x) =
        .ok (0 + ((x.map fun v => v / total x).map fun x => Real.logb 2 x * x).sum) := by
      refine accumulateM_ok _ 0 fun v hv => ?_
      obtain ⟨w, hw, rfl⟩ := List.mem_map.mp hv
      simp only [flog2_ok (div_pos (hp w hw) hs), bind, Except.bind]
      rfl
    simp only [bind, Except.bind] at e1 e2
    simp only [spectralEntropy, entropy, bind, Except.bind, e1, e2, List.map_map, List.length_map]
    rfl
  have hs : 0 < total x := total_pos (fun v hv => (hp v hv).le) (by
    obtain ⟨v, hv⟩ := List.exists_mem_of_length_pos (show 0 < x.length by omega)
    exact ⟨v, hv, hp v hv⟩)
  have hmap : ∀ c : ℝ, total (x.map fun v => c * v) = c * total x := by
    intro c
    rw [total_eq, total_eq, List.sum_map_mul_left]
    simp
  have h1 : total (x.map fun v => v / total x) = 1 := by
    have : (x.map fun v => v / total x) = x.map fun v => (total x)⁻¹ * v := by
      refine List.map_congr_left fun v _ => ?_
      ring
    rw [this, hmap, inv_mul_cancel₀ hs.ne']
  obtain ⟨h, a1, -, a3, a4, -⟩ := C49_entropy (p := x.map fun v => v / total x) (by simpa using h2)
    (fun v hv => by obtain ⟨w, hw, rfl⟩ := List.mem_map.mp hv; exact div_pos (hp w hw) hs) h1
  refine ⟨h, by rw [key x h2 hp, a1], a1, a3, a4, fun c hc => ?_⟩
  rw [key _ (by simpa using h2) (fun v hv => by
    obtain ⟨w, hw, rfl⟩ := List.mem_map.mp hv; exact mul_pos hc (hp w hw)), hmap, List.map_map]
  have : (x.map ((fun v => v / (c * total x)) ∘ fun v => c * v)) = x.map fun v => v / total x := by
    refine List.map_congr_left fun v _ => ?_
    simp only [Function.comp_apply]
    field_simp
  rw [this, a1]

/-- C49 is violated when a probability is 0: the entropy is well defined (here 0), the result is not a number. -/
theorem C49_entropy_zero_violates : entropy [1, 0] = .error .domain ∧ spectralEntropy [1, 0] = .error .domain ∧
    bits [1, 0] = 0 := by
  refine ⟨?_, ?_, ?_⟩
  · simp [entropy, accumulateM, flog2, bind, Except.bind, pure, Except.pure, not_le.mpr (one_pos (α := ℝ))]
  · simp [spectralEntropy, accumulateM, accumulate, fdiv, flog2, bind, Except.bind, pure, Except.pure,
      not_le.mpr (one_pos (α := ℝ))]
  · simp [bits, at0, sum_range_succ]

/-- C49 is violated for a spectrum of one line: 0 divided by 0. -/
theorem C49_entropy_one_violates : entropy [1] = .error .divByZero := by
  simp [entropy, accumulateM, flog2, fdiv, bind, Except.bind, pure, Except.pure, not_le.mpr (one_pos (α := ℝ))]

end Edsp.Feature
