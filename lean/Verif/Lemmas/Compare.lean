import Verif.Spec.Compare
import Verif.Lemmas.Close
import Verif.Lemmas.Memory
import Verif.Lemmas.Overshoot

/-! # Helper lemmas: signals compared sample by sample -/

namespace Edsp.CompareL

open Edsp Edsp.Spec Edsp.OvershootL Edsp.ConvL Finset

variable {x y : List ℝ}

theorem partner_up {R : ℝ → ℝ → Prop} (h : List.Forall₂ R x y) {a : ℝ} (ha : a ∈ x) : ∃ b ∈ y, R a b := by
  induction h with
  | nil => cases ha
  | cons hab _ ih =>
    rcases List.mem_cons.mp ha with rfl | ha
    · exact ⟨_, by simp, hab⟩
    · obtain ⟨b, hb, h⟩ := ih ha
      exact ⟨b, by simp [hb], h⟩

theorem partner_down {R : ℝ → ℝ → Prop} (h : List.Forall₂ R x y) {b : ℝ} (hb : b ∈ y) : ∃ a ∈ x, R a b := by
  induction h with
  | nil => cases hb
  | cons hab _ ih =>
    rcases List.mem_cons.mp hb with rfl | hb
    · exact ⟨_, by simp, hab⟩
    · obtain ⟨a, ha, h⟩ := ih hb
      exact ⟨a, by simp [ha], h⟩

theorem ne_nil {R : ℝ → ℝ → Prop} (h : List.Forall₂ R x y) (hx : x ≠ []) : y ≠ [] := by
  rintro rfl
  exact hx (by simpa using List.Forall₂.length_eq h)

theorem sum_le (h : AtMost x y) : x.sum ≤ y.sum := by
  induction h with
  | nil => exact le_rfl
  | cons hab _ ih => rw [List.sum_cons, List.sum_cons]; exact add_le_add hab ih

theorem mean_le (h : AtMost x y) : avg x ≤ avg y := by
  unfold avg
  rw [← List.Forall₂.length_eq h]
  exact div_le_div_of_nonneg_right (sum_le h) (Nat.cast_nonneg _)

theorem innerSelf_le (h : Quieter x y) {A B : ℝ} (hAB : A ≤ B) : Seq.innerSelf A x ≤ Seq.innerSelf B y := by
  induction h generalizing A B with
  | nil => exact hAB
  | cons hab _ ih => exact ih (add_le_add hAB (abs_le_iff_mul_self_le.mp hab))

theorem root_mean_le (h : Quieter x y) (A : ℝ) :
    Real.sqrt (Seq.innerSelf A x / x.length) ≤ Real.sqrt (Seq.innerSelf A y / y.length) := by
  rw [← List.Forall₂.length_eq h]
  exact Real.sqrt_le_sqrt (div_le_div_of_nonneg_right (innerSelf_le h le_rfl) (Nat.cast_nonneg _))

theorem rms_le (h : Quieter x y) : Spec.rms x ≤ Spec.rms y := by
  have := root_mean_le h 0
  rw [CloseL.sum_sq, CloseL.sum_sq, zero_add, zero_add] at this
  exact this

theorem window_rel {R : ℝ → ℝ → Prop} (h0 : R 0 0) {n : ℕ} (h : List.Forall₂ R x y) :
    List.Forall₂ R (window n x) (window n y) := by
  rw [Moving.window_eq, Moving.window_eq, List.Forall₂.length_eq h]
  apply List.forall₂_drop
  refine List.rel_append ?_ h
  clear h
  induction n with
  | zero => exact List.Forall₂.nil
  | succ n ih => exact List.Forall₂.cons h0 ih

theorem moving_le {R : ℝ → ℝ → Prop} {agg : List ℝ → ℝ} {n : ℕ} (h0 : R 0 0)
    (ha : ∀ u v : List ℝ, List.Forall₂ R u v → agg u ≤ agg v) (h : List.Forall₂ R x y) :
    ∀ {p q : List ℝ}, List.Forall₂ R p q → AtMost (moving agg n p (x.map .tick)) (moving agg n q (y.map .tick)) := by
  induction h with
  | nil => intro p q _; exact List.Forall₂.nil
  | cons hab _ ih =>
    intro p q hpq
    have hs := List.rel_append hpq (List.Forall₂.cons hab List.Forall₂.nil)
    exact List.Forall₂.cons (ha _ _ (window_rel h0 hs)) (ih hs)

theorem transform_le {f : ℝ → ℝ} (hf : Monotone f) (h : AtMost x y)
    {a b d : Nat} (hab : a ≤ b) (hb : b ≤ x.length) (hd : d + (b - a) ≤ x.length) (ho : d ≤ a ∨ b ≤ d) :
    ∃ x' y', Mem.transform f x a b d = .ok x' ∧ Mem.transform f y a b d = .ok y' ∧ AtMost x' y' := by
  have hl := List.Forall₂.length_eq h
  obtain ⟨x', e1, _, w1⟩ := Mem.transform_ok f hab hb hd ho
  obtain ⟨y', e2, _, w2⟩ := Mem.transform_ok f (m := y) hab (hl ▸ hb) (hl ▸ hd) ho
  refine ⟨x', y', e1, e2, ?_⟩
  have hs : AtMost ((seg x a b).map f) ((seg y a b).map f) := by
    have h1 : AtMost (seg x a b) (seg y a b) := List.forall₂_take _ (List.forall₂_drop _ h)
    generalize seg x a b = u at h1
    generalize seg y a b = v at h1
    induction h1 with
    | nil => exact List.Forall₂.nil
    | cons h _ ih => exact List.Forall₂.cons (hf h) ih
  rw [w1, w2, ← List.Forall₂.length_eq hs]
  exact List.rel_append (List.rel_append (List.forall₂_take _ h) hs) (List.forall₂_drop _ h)

theorem atMost_iff : AtMost x y ↔ x.length = y.length ∧ ∀ n < x.length, x.getD n 0 ≤ y.getD n 0 := by
  unfold AtMost
  rw [List.forall₂_iff_get]
  constructor
  · rintro ⟨hl, h⟩
    refine ⟨hl, fun n hn => ?_⟩
    have := h n hn (hl ▸ hn)
    simpa [hn, hl ▸ hn] using this
  · rintro ⟨hl, h⟩
    refine ⟨hl, fun n hn hn' => ?_⟩
    have := h n hn
    simpa [hn, hn'] using this

/-- A filter is increasing exactly if no value of its impulse response is negative. -/
theorem increasing_iff {T : List ℝ → List ℝ} (h : Lti T) : Increasing T ↔ ∀ k, 0 ≤ imp T k := by
  constructor
  · intro hT k
    have hx : AtMost (List.replicate (k + 1) 0) (impulse k) := by
      rw [atMost_iff]
      refine ⟨by simp [impulse], fun n hn => ?_⟩
      simp only [List.length_replicate] at hn
      unfold impulse
      rcases n with _ | n
      · simp
      · simp [hn]
    have := (atMost_iff.mp (hT _ _ hx)).2 k (by rw [h.len]; simp)
    rw [out_list h _ (by simp)] at this
    have e : ∑ j ∈ range (k + 1), imp T j * (List.replicate (k + 1) (0 : ℝ)).getD (k - j) 0 = 0 := by
      refine sum_eq_zero fun j _ => ?_
      have : k - j < k + 1 := by omega
      simp [this]
    rwa [e] at this
  · intro hk x y hxy
    rw [atMost_iff] at hxy ⊢
    refine ⟨by rw [h.len, h.len, hxy.1], fun n hn => ?_⟩
    rw [h.len] at hn
    rw [out_list h x hn, out_list h y (hxy.1 ▸ hn)]
    exact sum_le_sum fun j _ => mul_le_mul_of_nonneg_left (hxy.2 (n - j) (by omega)) (hk j)

/-- Increasing and turning no rising signal round are the same for a filter. -/
theorem increasing_order {T : List ℝ → List ℝ} (h : Lti T) : Increasing T ↔ KeepsOrder T := by
  rw [increasing_iff h, order_iff h]

end Edsp.CompareL
