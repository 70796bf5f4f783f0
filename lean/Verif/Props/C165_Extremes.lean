import Verif.Props.C49_Features
import Mathlib.Tactic.FieldSimp
import Mathlib.Tactic.Linarith
import Mathlib.Tactic.NormNum

/-! # C165: the extreme values of the spectral features tell what the spectrum looks like -/

namespace Edsp.Props

open Edsp Edsp.Spec Edsp.Mem Edsp.Stat Finset

namespace C165

open Feature

variable {x : List ℝ}

theorem at0_outside {i : ℕ} (h : x.length ≤ i) : at0 x i = 0 := by
  unfold at0
  rw [List.getD_eq_getElem?_getD, List.getElem?_eq_none h]
  rfl

theorem weight_zero {w : ℕ → ℝ} (hw : ∀ i, i < x.length → 0 ≤ w i) (h0 : ∀ v ∈ x, 0 ≤ v) :
    ∑ i ∈ range x.length, w i * at0 x i = 0 ↔ ∀ i, i < x.length → w i = 0 ∨ at0 x i = 0 := by
  rw [sum_eq_zero_iff_of_nonneg fun i hi => mul_nonneg (hw i (mem_range.mp hi)) (h0 _ (at0_mem (mem_range.mp hi)))]
  simp only [mem_range, mul_eq_zero]

/-- Equality in `log z ≤ z - 1`. -/
theorem log_tight {s : Finset ℕ} {w z : ℕ → ℝ} (hw : ∀ i ∈ s, 0 < w i) (hz : ∀ i ∈ s, 0 < z i)
    (h : ∑ i ∈ s, w i * Real.log (z i) = ∑ i ∈ s, w i * (z i - 1)) : ∀ i ∈ s, z i = 1 := by
  have hle : ∀ i ∈ s, w i * Real.log (z i) ≤ w i * (z i - 1) := fun i hi =>
    mul_le_mul_of_nonneg_left (Real.log_le_sub_one_of_pos (hz i hi)) (hw i hi).le
  intro i hi
  by_contra hn
  have := (sum_eq_sum_iff_of_le hle).mp h i hi
  have hlt := Real.log_lt_sub_one_of_pos (hz i hi) hn
  exact hlt.ne (mul_left_cancel₀ (hw i hi).ne' this)

/-- The mean squared deviation, with the distance from the largest value possible written out. -/
theorem scatter_gap (hx : total x ≠ 0) (D : ℝ) : (D / 2) ^ 2 * total x = scatter (fun i => (i : ℝ)) x * total x +
    (gravity (fun i => (i : ℝ)) x - D / 2) ^ 2 * total x + ∑ i ∈ range x.length, ((i : ℝ) * (D - i)) * at0 x i := by
  have hg : gravity (fun i => (i : ℝ)) x * total x = ∑ i ∈ range x.length, (i : ℝ) * at0 x i := by
    unfold gravity
    rw [div_mul_cancel₀ _ hx]
  unfold scatter
  rw [div_mul_cancel₀ _ hx]
  generalize gravity (fun i => (i : ℝ)) x = g at *
  have e : ∑ i ∈ range x.length, ((i : ℝ) - g) ^ 2 * at0 x i + ∑ i ∈ range x.length, ((i : ℝ) * (D - i)) * at0 x i =
      (D - 2 * g) * (∑ i ∈ range x.length, (i : ℝ) * at0 x i) + g ^ 2 * total x := by
    unfold total
    rw [mul_sum, mul_sum, ← sum_add_distrib, ← sum_add_distrib]
    exact sum_congr rfl fun i _ => by ring
  rw [add_right_comm, e, ← hg]
  ring

theorem entropy_tight {p : List ℝ} (hp : ∀ v ∈ p, 0 < v) (h1 : total p = 1) (h : bits p = Real.logb 2 p.length) :
    ∀ v ∈ p, v = 1 / p.length := by
  have hl : p ≠ [] := by rintro rfl; simp [total] at h1
  have hn : (0 : ℝ) < p.length := StatL.len_pos hl
  have h2 : (0 : ℝ) < Real.log 2 := Real.log_pos (by norm_num)
  have hpi : ∀ i ∈ range p.length, 0 < at0 p i := fun i hi => hp _ (at0_mem (mem_range.mp hi))
  have ht : ∑ i ∈ range p.length, at0 p i = 1 := h1
  have hb : ∑ i ∈ range p.length, at0 p i * Real.log (at0 p i) = -Real.log p.length := by
    unfold bits at h
    have e : ∑ i ∈ range p.length, at0 p i * Real.logb 2 (at0 p i) =
        (∑ i ∈ range p.length, at0 p i * Real.log (at0 p i)) / Real.log 2 := by
      rw [sum_div]
      exact sum_congr rfl fun i _ => by unfold Real.logb; ring
    rw [e] at h
    unfold Real.logb at h
    field_simp at h
    linarith
  have key := log_tight (s := range p.length) (w := at0 p) (z := fun i => 1 / (p.length * at0 p i)) hpi
    (fun i hi => by have := hpi i hi; positivity) (by
      have e1 : ∀ i ∈ range p.length, at0 p i * Real.log (1 / (p.length * at0 p i)) =
          -Real.log p.length * at0 p i - at0 p i * Real.log (at0 p i) := by
        intro i hi
        rw [one_div, Real.log_inv, Real.log_mul hn.ne' (hpi i hi).ne']
        ring
      have e2 : ∀ i ∈ range p.length, at0 p i * (1 / (p.length * at0 p i) - 1) = 1 / p.length - at0 p i := by
        intro i hi
        have := (hpi i hi).ne'
        field_simp
      rw [sum_congr rfl e1, sum_congr rfl e2, sum_sub_distrib, sum_sub_distrib, ← mul_sum, ht, hb, sum_const, card_range,
        nsmul_eq_mul, mul_one_div_cancel hn.ne']
      ring)
  intro v hv
  obtain ⟨i, hi, rfl⟩ := mem_at0 hv
  have := key i (mem_range.mpr hi)
  have hne := (hpi i (mem_range.mpr hi)).ne'
  field_simp at this ⊢
  linarith

theorem bits_pos {p : List ℝ} (h2 : 2 ≤ p.length) (hp : ∀ v ∈ p, 0 < v) (h1 : total p = 1) : 0 < bits p := by
  have ht : ∑ i ∈ range p.length, at0 p i = 1 := h1
  have hlt : ∀ i ∈ range p.length, at0 p i < 1 := by
    intro i hi
    obtain ⟨j, hj, hne⟩ : ∃ j, j < p.length ∧ j ≠ i := by
      rcases Nat.eq_zero_or_pos i with rfl | h
      · exact ⟨1, by omega, by omega⟩
      · exact ⟨0, by omega, by omega⟩
    have := add_le_sum (f := at0 p) (fun k hk => (hp _ (at0_mem (mem_range.mp hk))).le) hi (mem_range.mpr hj) hne.symm
    have hj' := hp _ (at0_mem hj)
    linarith
  unfold bits
  rw [← sum_neg_distrib]
  refine sum_pos (fun i hi => ?_) ⟨0, mem_range.mpr (by omega)⟩
  have hpi := hp _ (at0_mem (mem_range.mp hi))
  have := Real.logb_neg (b := 2) (by norm_num) hpi (hlt i hi)
  nlinarith

end C165

open C165 Feature

/-- The centroid is 0 for a spectrum with nothing above bin 0 and for no other, and N-1 for a spectrum with nothing below
the last bin and for no other. -/
theorem C165_centroid {x : List ℝ} (h0 : ∀ v ∈ x, 0 ≤ v) (h1 : ∃ v ∈ x, 0 < v) :
    ∃ c, centroid x = .ok c ∧ (c = 0 ↔ ∀ i, i ≠ 0 → at0 x i = 0) ∧
      (c = x.length - 1 ↔ ∀ i, i ≠ x.length - 1 → at0 x i = 0) := by
  have hx := total_pos h0 h1
  obtain ⟨c, e, hc, -⟩ := C49_centroid h0 h1
  have hlen : 1 ≤ x.length := by obtain ⟨v, hv, -⟩ := h1; exact List.length_pos_of_mem hv
  refine ⟨c, e, ?_, ?_⟩
  · have hz : c = 0 ↔ ∑ i ∈ range x.length, (i : ℝ) * at0 x i = 0 := by
      rw [← hc, mul_eq_zero, or_iff_left hx.ne']
    rw [hz, weight_zero (fun i _ => Nat.cast_nonneg i) h0]
    constructor
    · intro h i hi
      by_cases hl : i < x.length
      · exact (h i hl).resolve_left (by exact_mod_cast hi)
      · exact at0_outside (not_lt.mp hl)
    · intro h i _
      rcases eq_or_ne i 0 with rfl | hi
      · exact Or.inl Nat.cast_zero
      · exact Or.inr (h i hi)
  · have hz : c = x.length - 1 ↔ ∑ i ∈ range x.length, ((x.length : ℝ) - 1 - i) * at0 x i = 0 := by
      have e2 : ∑ i ∈ range x.length, ((x.length : ℝ) - 1 - i) * at0 x i = ((x.length : ℝ) - 1 - c) * total x := by
        rw [sub_mul, hc]
        unfold total
        rw [mul_sum, ← sum_sub_distrib]
        exact sum_congr rfl fun i _ => by ring
      rw [e2, mul_eq_zero, or_iff_left hx.ne', sub_eq_zero, eq_comm]
    have hle : ∀ i, i < x.length → (0 : ℝ) ≤ (x.length : ℝ) - 1 - i := by
      intro i hi
      have : (i : ℝ) + 1 ≤ x.length := by exact_mod_cast hi
      linarith
    rw [hz, weight_zero hle h0]
    constructor
    · intro h i hi
      by_cases hl : i < x.length
      · refine (h i hl).resolve_left fun h' => hi ?_
        have : (x.length : ℝ) = ((i + 1 : ℕ) : ℝ) := by push_cast; linarith
        have : x.length = i + 1 := by exact_mod_cast this
        omega
      · exact at0_outside (not_lt.mp hl)
    · intro h i _
      by_cases hi : i = x.length - 1
      · refine Or.inl ?_
        rw [hi, Nat.cast_sub hlen]
        push_cast
        ring
      · exact Or.inr (h i hi)

/-- The spread is 0 for a spectrum of a single line and no other, and half the length of the axis for two equal lines at the
two ends and no other spectrum. -/
theorem C165_spread {x : List ℝ} (h0 : ∀ v ∈ x, 0 ≤ v) (h1 : ∃ v ∈ x, 0 < v) :
    ∃ s, spread x = .ok s ∧ (s = 0 ↔ ∃ k, ∀ i, i ≠ k → at0 x i = 0) ∧
      (2 ≤ x.length → (s = (x.length - 1) / 2 ↔
        at0 x 0 = at0 x (x.length - 1) ∧ ∀ i, i ≠ 0 → i ≠ x.length - 1 → at0 x i = 0)) := by
  have hx := total_pos h0 h1
  obtain ⟨s, e, hs, s0, -, hline⟩ := C49_spread h0 h1
  have hsum : scatter (fun i => (i : ℝ)) x * total x =
      ∑ i ∈ range x.length, ((i : ℝ) - gravity (fun i => (i : ℝ)) x) ^ 2 * at0 x i := by
    unfold scatter
    rw [div_mul_cancel₀ _ hx.ne']
  refine ⟨s, e, ⟨fun h => ?_, fun ⟨k, hk⟩ => hline k hk⟩, fun h2 => ?_⟩
  · rw [h, zero_pow (by norm_num)] at hs
    rw [← hs, zero_mul] at hsum
    have hz := (weight_zero (fun i _ => sq_nonneg _) h0).mp hsum.symm
    obtain ⟨v, hv, hp⟩ := h1
    obtain ⟨k, hk, rfl⟩ := mem_at0 hv
    refine ⟨k, fun i hi => ?_⟩
    by_cases hl : i < x.length
    · refine (hz i hl).resolve_left fun hi0 => hi ?_
      have hk0 := (hz k hk).resolve_right hp.ne'
      rw [sq_eq_zero_iff, sub_eq_zero] at hi0 hk0
      exact_mod_cast hi0.trans hk0.symm
    · exact at0_outside (not_lt.mp hl)
  · have hD : (1 : ℝ) ≤ x.length - 1 := by
      have : (2 : ℝ) ≤ x.length := by exact_mod_cast h2
      linarith
    have hcast : ((x.length - 1 : ℕ) : ℝ) = (x.length : ℝ) - 1 := by rw [Nat.cast_sub (by omega)]; norm_num
    have gap := scatter_gap hx.ne' ((x.length : ℝ) - 1)
    rw [← hs] at gap
    have hw : ∀ i, i < x.length → (0 : ℝ) ≤ (i : ℝ) * ((x.length : ℝ) - 1 - i) := by
      intro i hi
      have : (i : ℝ) + 1 ≤ x.length := by exact_mod_cast hi
      exact mul_nonneg (Nat.cast_nonneg i) (by linarith)
    have hr : 0 ≤ ∑ i ∈ range x.length, ((i : ℝ) * ((x.length : ℝ) - 1 - i)) * at0 x i :=
      sum_nonneg fun i hi => mul_nonneg (hw i (mem_range.mp hi)) (h0 _ (at0_mem (mem_range.mp hi)))
    have inner : (∀ i, i < x.length → (i : ℝ) * ((x.length : ℝ) - 1 - i) = 0 ∨ at0 x i = 0) ↔
        ∀ i, i ≠ 0 → i ≠ x.length - 1 → at0 x i = 0 := by
      constructor
      · intro h i hi hi'
        by_cases hl : i < x.length
        · refine (h i hl).resolve_left fun h' => ?_
          rcases mul_eq_zero.mp h' with h' | h'
          · exact hi (by exact_mod_cast h')
          · rw [← hcast, sub_eq_zero] at h'
            exact hi' (by exact_mod_cast h'.symm)
        · exact at0_outside (not_lt.mp hl)
      · intro h i _
        by_cases hi : i = 0
        · left; rw [hi]; simp
        · by_cases hi' : i = x.length - 1
          · left; rw [hi', hcast]; ring
          · exact Or.inr (h i hi hi')
    -- with nothing between the ends the sums have two terms
    have two : (∀ i, i ≠ 0 → i ≠ x.length - 1 → at0 x i = 0) → ∀ w : ℕ → ℝ,
        ∑ i ∈ range x.length, w i * at0 x i = w 0 * at0 x 0 + w (x.length - 1) * at0 x (x.length - 1) := by
      intro h w
      have hsub : ({0, x.length - 1} : Finset ℕ) ⊆ range x.length := by
        intro i hi
        rw [mem_insert, mem_singleton] at hi
        exact mem_range.mpr (by omega)
      rw [← sum_subset hsub fun i _ hi => by
        rw [mem_insert, mem_singleton, not_or] at hi
        rw [h i hi.1 hi.2, mul_zero]]
      exact sum_pair (by omega)
    have ends : (∀ i, i ≠ 0 → i ≠ x.length - 1 → at0 x i = 0) →
        (gravity (fun i => (i : ℝ)) x - ((x.length : ℝ) - 1) / 2 = 0 ↔ at0 x 0 = at0 x (x.length - 1)) := by
      intro h
      have t1 := two h fun i => (i : ℝ)
      have t2 := two h fun _ => 1
      simp only [one_mul] at t2
      have t2 : total x = at0 x 0 + at0 x (x.length - 1) := t2
      have hg : gravity (fun i => (i : ℝ)) x * total x = ((x.length : ℝ) - 1) * at0 x (x.length - 1) := by
        unfold gravity
        rw [div_mul_cancel₀ _ hx.ne', t1, hcast]
        simp
      generalize gravity (fun i => (i : ℝ)) x = g at *
      constructor
      · intro hz
        have hz : g = ((x.length : ℝ) - 1) / 2 := by linarith
        rw [hz, t2] at hg
        have : ((x.length : ℝ) - 1) * (at0 x 0 - at0 x (x.length - 1)) = 0 := by linarith
        rcases mul_eq_zero.mp this with h | h
        · linarith
        · linarith
      · intro hz
        rw [hz] at t2
        have : (g - ((x.length : ℝ) - 1) / 2) * total x = 0 := by
          rw [sub_mul, hg, t2]
          ring
        exact (mul_eq_zero.mp this).resolve_right hx.ne'
    constructor
    · intro h
      rw [h] at gap
      have hq : 0 ≤ (gravity (fun i => (i : ℝ)) x - ((x.length : ℝ) - 1) / 2) ^ 2 * total x := by positivity
      have z1 : ∑ i ∈ range x.length, ((i : ℝ) * ((x.length : ℝ) - 1 - i)) * at0 x i = 0 := by linarith
      have z2 : (gravity (fun i => (i : ℝ)) x - ((x.length : ℝ) - 1) / 2) ^ 2 * total x = 0 := by linarith
      have hin := inner.mp ((weight_zero hw h0).mp z1)
      exact ⟨(ends hin).mp (sq_eq_zero_iff.mp ((mul_eq_zero.mp z2).resolve_right hx.ne')), hin⟩
    · rintro ⟨ha, hin⟩
      rw [(weight_zero hw h0).mpr (inner.mpr hin), (ends hin).mpr ha] at gap
      have : (((x.length : ℝ) - 1) / 2) ^ 2 = s ^ 2 := mul_right_cancel₀ hx.ne' (by linarith)
      exact ((pow_left_inj₀ (by linarith) s0 (by norm_num)).mp this).symm

/-- The crest is 1 for a spectrum of a single line and no other, and 1/N for lines of the same magnitude and no others. -/
theorem C165_crest {x : List ℝ} (h1 : ∃ v ∈ x, v ≠ 0) :
    ∃ c, crest x = .ok c ∧ (c = 1 ↔ ∃ k, ∀ i, i ≠ k → at0 x i = 0) ∧
      (c = 1 / x.length ↔ ∀ v ∈ x, ∀ w ∈ x, |v| = |w|) := by
  obtain ⟨v0, hv0, hne⟩ := h1
  obtain ⟨c, mx, e, ⟨w, hw, hwm⟩, hle, hc, -⟩ := C49_crest ⟨v0, hv0, hne⟩
  have hmx : 0 < mx := lt_of_lt_of_le (abs_pos.mpr hne) (hle v0 hv0)
  have hlen : (0 : ℝ) < x.length := StatL.len_pos (List.ne_nil_of_mem hv0)
  rw [sum_eq (fun v => |v|)] at hc
  have hS : 0 < ∑ i ∈ range x.length, |at0 x i| := by
    refine lt_of_le_of_ne (sum_nonneg fun _ _ => abs_nonneg _) fun h => ?_
    rw [← h, mul_zero] at hc
    exact hmx.ne hc
  obtain ⟨k, hk, hkw⟩ := mem_at0 hw
  refine ⟨c, e, ?_, ?_⟩
  · have hz : c = 1 ↔ ∑ i ∈ range x.length, |at0 x i| = |at0 x k| := by
      rw [hkw, ← hwm, ← hc]
      exact ⟨fun h => by rw [h, one_mul], fun h => mul_right_cancel₀ hS.ne' (by rw [one_mul]; exact h.symm)⟩
    rw [hz, ← add_sum_erase _ _ (mem_range.mpr hk), add_eq_left, sum_eq_zero_iff_of_nonneg fun _ _ => abs_nonneg _]
    constructor
    · intro h
      refine ⟨k, fun i hi => ?_⟩
      by_cases hl : i < x.length
      · exact abs_eq_zero.mp (h i (mem_erase.mpr ⟨hi, mem_range.mpr hl⟩))
      · exact at0_outside (not_lt.mp hl)
    · rintro ⟨k', hk'⟩ i hi
      have hkk : k = k' := by
        by_contra h
        have := hk' k h
        rw [hkw] at this
        rw [hwm, this, abs_zero] at hmx
        exact hmx.false
      rw [hk' i (hkk ▸ (mem_erase.mp hi).1), abs_zero]
  · have hz : c = 1 / x.length ↔ ∑ i ∈ range x.length, (mx - |at0 x i|) = 0 := by
      rw [sum_sub_distrib, sum_const, card_range, nsmul_eq_mul, eq_div_iff hlen.ne']
      constructor
      · intro h
        have : (x.length : ℝ) * mx = (c * x.length) * ∑ i ∈ range x.length, |at0 x i| := by rw [← hc]; ring
        rw [this, h, one_mul, sub_self]
      · intro h
        have h' : (c * x.length) * (∑ i ∈ range x.length, |at0 x i|) = 1 * ∑ i ∈ range x.length, |at0 x i| := by
          rw [one_mul, ← sub_eq_zero, ← h, ← hc]
          ring
        exact mul_right_cancel₀ hS.ne' h'
    rw [hz, sum_eq_zero_iff_of_nonneg fun i hi => sub_nonneg.mpr (hle _ (at0_mem (mem_range.mp hi)))]
    constructor
    · intro h v hv u hu
      have : ∀ v ∈ x, |v| = mx := by
        intro v hv
        obtain ⟨i, hi, rfl⟩ := mem_at0 hv
        exact (sub_eq_zero.mp (h i (mem_range.mpr hi))).symm
      rw [this v hv, this u hu]
    · intro h i hi
      rw [hwm, h _ (at0_mem (mem_range.mp hi)) w hw, sub_self]

/-- The flatness is 1 for a constant spectrum and for no other. -/
theorem C165_flatness {x : List ℝ} (hl : x ≠ []) (hp : ∀ v ∈ x, 0 < v) :
    ∃ r, flatness x = .ok r ∧ (r = 1 ↔ ∀ v ∈ x, ∀ w ∈ x, v = w) := by
  obtain ⟨r, g, a, e, eg, ea, hr, -, -, hc⟩ := C49_flatness hl hp
  have hn : (0 : ℝ) < x.length := StatL.len_pos hl
  refine ⟨r, e, fun h => ?_, fun h => ?_⟩
  · rw [h, one_mul] at hr
    have hmean : a = total x / x.length := by
      unfold mean at ea
      rw [StatL.accumulate_eq, zero_add, List.map_id, ← total_eq] at ea
      exact (Except.ok.inj (ea.symm.trans (StatL.fdiv_ok hn.ne')))
    have hgeo : g = Real.exp ((∑ i ∈ range x.length, Real.log (at0 x i)) / x.length) := by
      have key : accumulateM flog 0 x = .ok (0 + (x.map Real.log).sum) :=
        accumulateM_ok x 0 fun v hv => by unfold flog; rw [if_neg (not_le.mpr (hp v hv))]
      unfold geometricMean at eg
      rw [key, zero_add, sum_eq Real.log] at eg
      simp only [bind, Except.bind, pure, Except.pure, Stat.fdiv, hn.ne', if_false] at eg
      exact (Except.ok.inj eg).symm
    have hT : total x = x.length * a := by rw [hmean]; field_simp
    have hT : ∑ i ∈ range x.length, at0 x i = x.length * a := hT
    have ha : 0 < a := by rw [hr, hgeo]; exact Real.exp_pos _
    have hlog : ∑ i ∈ range x.length, Real.log (at0 x i) = x.length * Real.log a := by
      rw [hr, hgeo, Real.log_exp]
      field_simp
    have key := log_tight (s := range x.length) (w := fun _ => 1) (z := fun i => at0 x i / a) (fun _ _ => one_pos)
      (fun i hi => div_pos (hp _ (at0_mem (mem_range.mp hi))) ha) (by
        simp only [one_mul]
        rw [sum_sub_distrib, ← sum_div, hT, sum_const, card_range, nsmul_eq_mul, mul_one, mul_div_cancel_right₀ _ ha.ne', sub_self]
        rw [sum_congr rfl fun i hi => Real.log_div (hp _ (at0_mem (mem_range.mp hi))).ne' ha.ne', sum_sub_distrib, hlog,
          sum_const, card_range, nsmul_eq_mul, sub_self])
    have : ∀ v ∈ x, v = a := by
      intro v hv
      obtain ⟨i, hi, rfl⟩ := mem_at0 hv
      exact (div_eq_one_iff_eq ha.ne').mp (key i (mem_range.mpr hi))
    intro v hv w hw
    rw [this v hv, this w hw]
  · obtain ⟨v, hv⟩ := List.exists_mem_of_ne_nil x hl
    exact hc v fun u hu => h u hu v hv

/-- The spectral entropy of at least two positive lines is positive, and 1 for a constant spectrum and no other. -/
theorem C165_entropy {x : List ℝ} (h2 : 2 ≤ x.length) (hp : ∀ v ∈ x, 0 < v) :
    ∃ h, spectralEntropy x = .ok h ∧ 0 < h ∧ (h = 1 ↔ ∀ v ∈ x, ∀ w ∈ x, v = w) := by
  obtain ⟨h, e, e', -⟩ := C49_spectral_entropy h2 hp
  have hlen : (0 : ℝ) < x.length := by exact_mod_cast (by omega : 0 < x.length)
  have hs : 0 < total x := total_pos (fun v hv => (hp v hv).le) (by
    obtain ⟨v, hv⟩ := List.exists_mem_of_length_pos (show 0 < x.length by omega)
    exact ⟨v, hv, hp v hv⟩)
  have hq : ∀ v ∈ x.map fun v => v / total x, 0 < v := by
    intro v hv
    obtain ⟨w, hw, rfl⟩ := List.mem_map.mp hv
    exact div_pos (hp w hw) hs
  have h1 : total (x.map fun v => v / total x) = 1 := by
    have : (x.map fun v => v / total x) = x.map fun v => (total x)⁻¹ * v := List.map_congr_left fun v _ => by ring
    rw [total_eq, this, List.sum_map_mul_left, List.map_id'', ← total_eq, inv_mul_cancel₀ hs.ne']
    intro; rfl
  obtain ⟨h', a1, a2, -, -, a5⟩ := C49_entropy (p := x.map fun v => v / total x) (by simpa using h2) hq h1
  obtain rfl : h' = h := Except.ok.inj (a1.symm.trans e')
  have hN := logb_len_pos (p := x.map fun v => v / total x) (by simpa using h2)
  have hb := bits_pos (p := x.map fun v => v / total x) (by simpa using h2) hq h1
  refine ⟨h', e, ?_, fun h => ?_, fun h => a5 ?_⟩
  · by_contra hn
    nlinarith [not_lt.mp hn]
  · rw [h, one_mul] at a2
    have key := entropy_tight hq h1 a2.symm
    have : ∀ v ∈ x, v = total x / x.length := by
      intro v hv
      have := key (v / total x) (List.mem_map.mpr ⟨v, hv, rfl⟩)
      rw [List.length_map] at this
      field_simp at this ⊢
      linarith
    intro v hv w hw
    rw [this v hv, this w hw]
  · intro v hv
    obtain ⟨w, hw, rfl⟩ := List.mem_map.mp hv
    have ht : total x = x.length * w := by
      unfold total
      rw [sum_congr rfl fun i hi => h _ (at0_mem (mem_range.mp hi)) w hw, sum_const, card_range, nsmul_eq_mul]
    have hw0 := (hp w hw).ne'
    rw [List.length_map, ht]
    field_simp

/-- The spectrum 1, 2, 1 is at none of the extremes; 0, 5, 0 is a single line; 3, 3 is flat. -/
theorem C165_example :
    (∃ s, spread [1, 2, 1] = .ok s ∧ s ≠ 0 ∧ s ≠ 1) ∧ (∃ c, crest [0, 5, 0] = .ok c ∧ c = 1) ∧
    (∃ r, flatness [3, 3] = .ok r ∧ r = 1) ∧ (∃ r, flatness [1, 2] = .ok r ∧ r ≠ 1) ∧
    (∃ h, spectralEntropy [1, 2] = .ok h ∧ 0 < h ∧ h ≠ 1) := by
  refine ⟨?_, ?_, ?_, ?_, ?_⟩
  · obtain ⟨s, e, h1, h2⟩ := C165_spread (x := [1, 2, 1]) (by simp) ⟨1, by simp, one_pos⟩
    refine ⟨s, e, fun h => ?_, fun h => ?_⟩
    · obtain ⟨k, hk⟩ := h1.mp h
      have a := hk 0
      have b := hk 1
      norm_num [at0] at a b
      omega
    · have := (h2 (by simp)).mp (by rw [h]; norm_num)
      have := this.2 1 (by norm_num) (by norm_num)
      norm_num [at0] at this
  · obtain ⟨c, e, h, -⟩ := C165_crest (x := [0, 5, 0]) ⟨5, by simp, by norm_num⟩
    exact ⟨c, e, h.mpr ⟨1, fun i hi => by rcases i with _ | _ | _ | i <;> simp_all [at0]⟩⟩
  · obtain ⟨r, e, h⟩ := C165_flatness (x := [3, 3]) (by simp) (by simp)
    exact ⟨r, e, h.mpr (by simp)⟩
  · obtain ⟨r, e, h⟩ := C165_flatness (x := [1, 2]) (by simp) (by simp)
    refine ⟨r, e, fun h' => ?_⟩
    have := h.mp h' 1 (by simp) 2 (by simp)
    norm_num at this
  · obtain ⟨r, e, hp, h⟩ := C165_entropy (x := [1, 2]) (by simp) (by simp)
    refine ⟨r, e, hp, fun h' => ?_⟩
    have := h.mp h' 1 (by simp) 2 (by simp)
    norm_num at this

end Edsp.Props
