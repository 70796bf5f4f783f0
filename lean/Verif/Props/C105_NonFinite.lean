import Verif.Lemmas.Extended
import Verif.Props.C100_RoundedBiquad
import Verif.Props.C92_RoundedMoving

/-!
# C105: samples that are not finite, and overflow

A sample that is infinite or not a number should spoil only the results that depend on it, and ordinary samples should
not give results that are not finite.
-/

namespace Edsp.Extended

open Edsp Edsp.Spec Edsp.Spec.Ext Edsp.FloatL

/-! ### Biquads -/

/-- What the samples of a filter without feedback depend on: the output is determined by the last three samples. -/
theorem fir_depends {f : Biquad ℝ} (ha1 : f.a1 = 0) (ha2 : f.a2 = 0) {x x' : ℕ → ℝ} {n : ℕ} (h0 : x n = x' n)
    (h1 : x (n + 1) = x' (n + 1)) (h2 : x (n + 2) = x' (n + 2)) : f.response x (n + 2) = f.response x' (n + 2) := by
  have w0 : ∀ (x : ℕ → ℝ) m, (f.stateAt x (m + 1)).w0 = f.b1 * x m + (f.stateAt x m).w1 := by
    intro x m
    obtain ⟨d0, d1, d2, d3, d4, -⟩ := Biquad.stateAt_coeffs f x m
    simp [Biquad.stateAt, Biquad.tick, d1, d3, ha1]
  have w1 : ∀ (x : ℕ → ℝ) m, (f.stateAt x (m + 1)).w1 = f.b2 * x m := by
    intro x m
    obtain ⟨d0, d1, d2, d3, d4, -⟩ := Biquad.stateAt_coeffs f x m
    simp [Biquad.stateAt, Biquad.tick, d2, d4, ha2]
  rw [Stability.response_eq, Stability.response_eq, w0, w0, w1, w1, h0, h1, h2]

/-- **C105 is violated** by `biquad`: from a sample that is infinite or not a number on, no output is finite, for ever.
This holds for every filter, also without feedback, whose outputs depend on three samples only (`fir_depends`). -/
theorem C105_biquad_violates (R : ℝ → Ext) (f : Biquad Ext) {x : Ext} (hx : ¬ x.Finite) (xs ys : List Ext) :
    (biquadFilter R f (xs ++ x :: ys)).2.length = xs.length + ys.length + 1 ∧
      ∀ i, xs.length ≤ i → i < xs.length + ys.length + 1 →
        ∃ y, (biquadFilter R f (xs ++ x :: ys)).2[i]? = some y ∧ ¬ y.Finite := by
  have hl : (biquadFilter R f (xs ++ x :: ys)).2.length = xs.length + ys.length + 1 := by
    rw [filter_length, List.length_append, List.length_cons]
    omega
  refine ⟨hl, fun i h1 h2 => ?_⟩
  have ha : ∀ (xs : List Ext) (f : Biquad Ext), ∃ g, (biquadFilter R f (xs ++ x :: ys)).2 =
      (biquadFilter R f xs).2 ++ (biquadFilter R g (x :: ys)).2 := by
    intro xs
    induction xs with
    | nil => exact fun f => ⟨f, rfl⟩
    | cons z zs ih =>
      intro f
      obtain ⟨g, hg⟩ := ih (biquadTick R f z).1
      exact ⟨g, by simp only [List.cons_append, biquadFilter, hg]⟩
  obtain ⟨g, hg⟩ := ha xs f
  refine ⟨(biquadFilter R f (xs ++ x :: ys)).2[i]'(by omega), List.getElem?_eq_getElem _, ?_⟩
  have hm : (biquadFilter R f (xs ++ x :: ys)).2[i]'(by omega) ∈ (biquadFilter R g (x :: ys)).2 := by
    simp only [hg]
    rw [List.getElem_append_right (by rw [filter_length]; exact h1)]
    exact List.getElem_mem _
  obtain ⟨t1, t2⟩ := tick_not (R := R) (f := g) (Or.inl hx)
  generalize (biquadFilter R f (xs ++ x :: ys)).2[i]'(by omega) = y at hm
  simp only [biquadFilter, List.mem_cons] at hm
  rcases hm with rfl | hm
  · exact t1
  · exact (filter_not ys _ t2).1 y hm

/-- **C105 is violated** by cascades as well: no output from the sample on is finite. -/
theorem C105_cascade_violates (R : ℝ → Ext) (fs : List (Biquad Ext)) {x : Ext} (hx : ¬ x.Finite) (ys : List Ext) :
    (cascadeFilter R fs (x :: ys)).length = ys.length + 1 ∧
      (fs ≠ [] → ∀ y ∈ cascadeFilter R fs (x :: ys), ¬ y.Finite) := by
  have hall : ∀ (fs : List (Biquad Ext)) (zs : List Ext), (∀ z ∈ zs, ¬ z.Finite) →
      (cascadeFilter R fs zs).length = zs.length ∧ ∀ y ∈ cascadeFilter R fs zs, ¬ y.Finite := by
    intro fs
    induction fs with
    | nil => exact fun zs h => ⟨rfl, h⟩
    | cons f fs ih =>
      intro zs h
      cases zs with
      | nil => exact ih [] (by simp)
      | cons z zs =>
        obtain ⟨t1, t2⟩ := tick_not (R := R) (f := f) (x := z) (Or.inl (h z (by simp)))
        obtain ⟨i1, i2⟩ := ih (biquadFilter R f (z :: zs)).2 (by
          intro y hy
          simp only [biquadFilter, List.mem_cons] at hy
          rcases hy with rfl | hy
          · exact t1
          · exact (filter_not zs _ t2).1 y hy)
        exact ⟨by rw [cascadeFilter, i1, filter_length], i2⟩
  cases fs with
  | nil => exact ⟨rfl, fun h => absurd rfl h⟩
  | cons f fs =>
    obtain ⟨t1, t2⟩ := tick_not (R := R) (f := f) (Or.inl hx)
    obtain ⟨i1, i2⟩ := hall fs (biquadFilter R f (x :: ys)).2 (by
      intro y hy
      simp only [biquadFilter, List.mem_cons] at hy
      rcases hy with rfl | hy
      · exact t1
      · exact (filter_not ys _ t2).1 y hy)
    exact ⟨by rw [cascadeFilter, i1, filter_length, List.length_cons], fun _ => i2⟩

/-- **C105**, `reset()`: whatever the samples before, the filter then answers as if it had been reset at first. -/
theorem C105_biquad_reset (R : ℝ → Ext) (f : Biquad Ext) (xs ys : List Ext) :
    (biquadFilter R (biquadReset (biquadFilter R f xs).1) ys).2 = (biquadFilter R (biquadReset f) ys).2 := by
  rw [filter_coeffs]

/-- **C105**, one section at rest with coefficients of at most `S ≥ 1` and poles of modulus at most `1 - 1/k`, where
`600 S² k² ≤ 2^p`: no operation on an input within `X` overflows, for ever, if `1972 S⁴ k² X` is below the limit `M`;
the outputs are those of C100.
Missing: larger inputs, and samples that are not finite (`C105_biquad_violates`). -/
theorem C105_biquad_finite_partial {p : ℕ} {f : Biquad ℝ} {S k X M : ℝ} (hS : Rounded.CoeffLe f S) (hk : 1 ≤ k)
    (hpole : ∀ z : ℂ, z ^ 2 + f.a1 * z + f.a2 = 0 → ‖z‖ ≤ 1 - 1 / k) (hp : 600 * S ^ 2 * k ^ 2 ≤ 2 ^ p)
    (h0 : f.w0 = 0) (h1 : f.w1 = 0) {x : ℕ → ℝ} (hx : ∀ n, |x n| ≤ X) (hM : 1972 * S ^ 4 * k ^ 2 * X < M) (n : ℕ) :
    (biquadFilter (round (rnd p) M) (emb f) ((List.range n).map fun i => fin (x i))).2 =
      (List.range n).map fun i => fin (Rounded.biquadResponse (rnd p) f x i) := by
  obtain ⟨a, b, hs, hm⟩ := Stability.split_quadratic f.a1 f.a2
  obtain ⟨ra, rb⟩ := Stability.is_root hs hm
  have hk0 : 0 < k := by linarith
  have hu : (2 : ℝ) ^ (-(p : ℤ)) ≤ 1 := by
    rw [zpow_neg, zpow_natCast]
    exact inv_le_one_of_one_le₀ (one_le_pow₀ (by norm_num))
  have hst := fun n => (Rounded.section_both (rnd_err p) (two_zpow_pos _).le hS hs hm (hpole a ra) (hpole b rb)
    (by have : 0 ≤ 1 / k := by positivity
        linarith)
    (by rw [sub_sub_cancel, one_div, inv_mul_cancel₀ hk0.ne']) hk
    (by rw [zpow_neg, zpow_natCast, ← div_eq_mul_inv]
        exact (div_le_one (by positivity)).mpr hp) h0 h1 hx n).2
  rw [filter_fin (rnd_err p) hu hS hst (lt_of_eq_of_lt (by ring) hM) n]

/-! ### Moving average and moving root mean square -/

theorem average_append (R : ℝ → Ext) (as bs : List (MovingOp Ext)) : ∀ {m m' : MovingAverage Ext} {ys : List Ext},
    averageRun R m (as ++ bs) = .ok (m', ys) →
    ∃ m₁ ys₁ ys₂, averageRun R m as = .ok (m₁, ys₁) ∧ averageRun R m₁ bs = .ok (m', ys₂) ∧ ys = ys₁ ++ ys₂ := by
  induction as with
  | nil => exact fun h => ⟨_, [], _, rfl, h, rfl⟩
  | cons a as ih =>
    intro m m' ys h
    cases a with
    | tick x =>
      simp only [List.cons_append, averageRun, bind, Except.bind, pure, Except.pure] at h
      cases ht : averageTick R m x with
      | error => simp [ht] at h
      | ok v =>
      cases hr : averageRun R v.1 (as ++ bs) with
      | error => simp [ht, hr] at h
      | ok w =>
        simp only [ht, hr, Except.ok.injEq, Prod.mk.injEq] at h
        obtain ⟨rfl, rfl⟩ := h
        obtain ⟨m₁, y₁, y₂, e1, e2, e3⟩ := ih (m' := w.1) (ys := w.2) hr
        exact ⟨m₁, v.2 :: y₁, y₂, by simp [averageRun, ht, e1, bind, Except.bind, pure, Except.pure], e2, by simp [e3]⟩
    | reset => exact ih (m := { m with window := m.window.clear }) h
    | resize n => exact ih (m := { m with window := m.window.resize (fin 0) n }) h

theorem rms_append (R : ℝ → Ext) (as bs : List (MovingOp Ext)) : ∀ {m m' : MovingAverage Ext} {ys : List Ext},
    rmsRun R m (as ++ bs) = .ok (m', ys) →
    ∃ m₁ ys₁ ys₂, rmsRun R m as = .ok (m₁, ys₁) ∧ rmsRun R m₁ bs = .ok (m', ys₂) ∧ ys = ys₁ ++ ys₂ := by
  induction as with
  | nil => exact fun h => ⟨_, [], _, rfl, h, rfl⟩
  | cons a as ih =>
    intro m m' ys h
    cases a with
    | tick x =>
      simp only [List.cons_append, rmsRun, bind, Except.bind, pure, Except.pure] at h
      cases ht : rmsTick R m x with
      | error => simp [ht] at h
      | ok v =>
      cases hr : rmsRun R v.1 (as ++ bs) with
      | error => simp [ht, hr] at h
      | ok w =>
        simp only [ht, hr, Except.ok.injEq, Prod.mk.injEq] at h
        obtain ⟨rfl, rfl⟩ := h
        obtain ⟨m₁, y₁, y₂, e1, e2, e3⟩ := ih (m' := w.1) (ys := w.2) hr
        exact ⟨m₁, v.2 :: y₁, y₂, by simp [rmsRun, ht, e1, bind, Except.bind, pure, Except.pure], e2, by simp [e3]⟩
    | reset => exact ih (m := { m with window := m.window.clear }) h
    | resize n => exact ih (m := { m with window := m.window.resize (fin 0) n }) h

/-- A tick with a sample that is not finite spoils everything after it. -/
theorem average_poison (R : ℝ → Ext) {m m' : MovingAverage Ext} {x : Ext} (hx : ¬ x.Finite)
    (ops : List (MovingOp Ext)) {ys : List Ext} (h : averageRun R m (.tick x :: ops) = .ok (m', ys)) :
    ∀ y ∈ ys, ¬ y.Finite := by
  simp only [averageRun, averageTick, bind, Except.bind, pure, Except.pure] at h
  cases hf : m.window.front with
  | error => simp [hf] at h
  | ok f =>
  cases hp : m.window.pushBack x with
  | error => simp [hf, hp] at h
  | ok w =>
  simp only [hf, hp] at h
  have ha : ¬ (add R (sub R m.accumulated f) x).Finite := add_right _ hx
  cases hr : averageRun R ⟨w, add R (sub R m.accumulated f) x⟩ ops with
  | error => simp [hr] at h
  | ok v =>
    simp only [hr, Except.ok.injEq, Prod.mk.injEq] at h
    obtain ⟨rfl, rfl⟩ := h
    intro y hy
    rw [List.mem_cons] at hy
    rcases hy with rfl | hy
    · exact div_left _ ha
    · exact average_not ops (m := ⟨w, add R (sub R m.accumulated f) x⟩) ha hr y hy

theorem rms_poison (R : ℝ → Ext) {m m' : MovingAverage Ext} {x : Ext} (hx : ¬ x.Finite)
    (ops : List (MovingOp Ext)) {ys : List Ext} (h : rmsRun R m (.tick x :: ops) = .ok (m', ys)) :
    ∀ y ∈ ys, ¬ y.Finite := by
  simp only [rmsRun, rmsTick, bind, Except.bind, pure, Except.pure] at h
  cases hf : m.window.front with
  | error => simp [hf] at h
  | ok f =>
  cases hp : m.window.pushBack (mul R x x) with
  | error => simp [hf, hp] at h
  | ok w =>
  simp only [hf, hp] at h
  have ha : ¬ (add R (sub R m.accumulated f) (mul R x x)).Finite := add_right _ (mul_left _ hx)
  cases hr : rmsRun R ⟨w, add R (sub R m.accumulated f) (mul R x x)⟩ ops with
  | error => simp [hr] at h
  | ok v =>
    simp only [hr, Except.ok.injEq, Prod.mk.injEq] at h
    obtain ⟨rfl, rfl⟩ := h
    intro y hy
    rw [List.mem_cons] at hy
    rcases hy with rfl | hy
    · exact sqrt_not (div_left _ ha)
    · exact rms_not ops (m := ⟨w, add R (sub R m.accumulated f) (mul R x x)⟩) ha hr y hy

/-- **C105 is violated** by `moving_average`: whatever comes before and after a sample that is infinite or not a number,
samples, `reset()` or `resize()`, no later result is finite.  Without `reset` and `resize` every call returns, the
window holds the sample for `n` calls only. -/
theorem C105_average_violates (R : ℝ → Ext) {n : ℕ} (hn : 0 < n) (h63 : n < 2 ^ 63) {x : Ext} (hx : ¬ x.Finite) :
    ∃ m, averageNew n = .ok m ∧
      (∀ (before after : List (MovingOp Ext)) m' ys, averageRun R m (before ++ .tick x :: after) = .ok (m', ys) →
        ∃ ys₁ ys₂ m₁, ys = ys₁ ++ ys₂ ∧ averageRun R m before = .ok (m₁, ys₁) ∧ ∀ y ∈ ys₂, ¬ y.Finite) ∧
      ∀ xs : List Ext, ∃ m' ys, averageRun R m (xs.map .tick) = .ok (m', ys) ∧ ys.length = xs.length := by
  obtain ⟨w, hw, hr⟩ := new_ok h63
  refine ⟨_, hw, fun before after m' ys h => ?_, fun xs => average_ok hn xs _ [] hr⟩
  obtain ⟨m₁, y₁, y₂, e1, e2, e3⟩ := average_append R before _ h
  exact ⟨y₁, y₂, m₁, e3, e1, average_poison R hx after e2⟩

/-- **C105 is violated** by `moving_rms` in the same way. -/
theorem C105_rms_violates (R : ℝ → Ext) {n : ℕ} (hn : 0 < n) (h63 : n < 2 ^ 63) {x : Ext} (hx : ¬ x.Finite) :
    ∃ m, averageNew n = .ok m ∧
      (∀ (before after : List (MovingOp Ext)) m' ys, rmsRun R m (before ++ .tick x :: after) = .ok (m', ys) →
        ∃ ys₁ ys₂ m₁, ys = ys₁ ++ ys₂ ∧ rmsRun R m before = .ok (m₁, ys₁) ∧ ∀ y ∈ ys₂, ¬ y.Finite) ∧
      ∀ xs : List Ext, ∃ m' ys, rmsRun R m (xs.map .tick) = .ok (m', ys) ∧ ys.length = xs.length := by
  obtain ⟨w, hw, hr⟩ := new_ok h63
  refine ⟨_, hw, fun before after m' ys h => ?_, fun xs => rms_ok hn xs _ [] hr⟩
  obtain ⟨m₁, y₁, y₂, e1, e2, e3⟩ := rms_append R before _ h
  exact ⟨y₁, y₂, m₁, e3, e1, rms_poison R hx after e2⟩

/-- **C105 is violated** by overflow: two samples of half the limit, whose mean over any window is below the limit, and
no result of the moving average is finite from the second on. -/
theorem C105_overflow_violates {p n : ℕ} (hp : 1 ≤ p) (hn : 2 ≤ n) (h63 : n < 2 ^ 63) {e : ℕ} (he : 1 ≤ e)
    (zs : List Ext) :
    ∃ m m' y ys, averageNew n = .ok m ∧
      averageRun (round (rnd p) (2 ^ e)) m
        ((fin (2 ^ (e - 1)) :: fin (2 ^ (e - 1)) :: zs).map .tick) = .ok (m', y :: ys) ∧
      ys.length = zs.length + 1 ∧ (∀ y ∈ ys, ¬ y.Finite) ∧
      |mean (window n [(2 : ℝ) ^ (e - 1), 2 ^ (e - 1)])| < 2 ^ e := by
  obtain ⟨w, hw, hr⟩ := new_ok h63
  have hn0 : 0 < n := by omega
  have e2 : (2 : ℝ) ^ e = 2 ^ (e - 1) + 2 ^ (e - 1) := by
    obtain ⟨c, rfl⟩ : ∃ c, e = c + 1 := ⟨e - 1, by omega⟩
    rw [Nat.add_sub_cancel, pow_succ]
    ring
  have hs : (0 : ℝ) < 2 ^ (e - 1) := by positivity
  have rp : ∀ c : ℕ, rnd p ((2 : ℝ) ^ c) = 2 ^ c := by
    intro c
    have := rnd_float (isFloat_int hp (m := 1) (c : ℤ) (by rw [abs_one]; exact one_le_pow₀ (by norm_num)))
    simpa using this
  have r0 : rnd p 0 = 0 := rnd_zero p
  obtain ⟨w1, f1, p1, q1, s1⟩ := window_step hn0 hr (fin (2 ^ (e - 1)))
  obtain ⟨w2, f2, p2, q2, s2⟩ := window_step hn0 q1 (fin (2 ^ (e - 1)))
  have hd1 : (window n ([] : List Ext)).headD 0 = fin 0 := by
    rw [Moving.window_nil]
    cases n with
    | zero => omega
    | succ n => rfl
  have hd2 : (window n (([] : List Ext) ++ [fin (2 ^ (e - 1))])).headD 0 = fin 0 := by
    rw [Moving.window_snoc hn0, Moving.window_nil]
    obtain ⟨c, rfl⟩ : ∃ c, n = c + 2 := ⟨n - 2, by omega⟩
    rfl
  rw [hd1] at f1
  rw [hd2] at f2
  have a1 : add (round (rnd p) (2 ^ e)) (sub (round (rnd p) (2 ^ e)) (fin 0) (fin 0)) (fin (2 ^ (e - 1))) =
      fin (2 ^ (e - 1)) := by
    rw [sub_fin (by rw [sub_zero, r0, abs_zero]; positivity), sub_zero, r0,
      add_fin (by rw [zero_add, rp, abs_of_pos hs]; linarith), zero_add, rp]
  have a2 : ¬ (add (round (rnd p) (2 ^ e)) (sub (round (rnd p) (2 ^ e)) (fin (2 ^ (e - 1))) (fin 0))
      (fin (2 ^ (e - 1)))).Finite := by
    rw [sub_fin (by rw [sub_zero, rp, abs_of_pos hs]; linarith), sub_zero, rp]
    show ¬ (round (rnd p) (2 ^ e) (2 ^ (e - 1) + 2 ^ (e - 1))).Finite
    rw [← e2, round_inf (by rw [rp, abs_of_pos (by positivity)])]
    exact inf_not _
  obtain ⟨m', ys, hm, hl⟩ := average_ok (R := round (rnd p) (2 ^ e)) hn0 zs
    ⟨w2, add (round (rnd p) (2 ^ e)) (sub (round (rnd p) (2 ^ e)) (fin (2 ^ (e - 1))) (fin 0)) (fin (2 ^ (e - 1)))⟩ _ q2
  refine ⟨⟨w, fin 0⟩, m', div (round (rnd p) (2 ^ e)) (fin (2 ^ (e - 1))) (round (rnd p) (2 ^ e) w1.size),
    div (round (rnd p) (2 ^ e)) (add (round (rnd p) (2 ^ e)) (sub (round (rnd p) (2 ^ e)) (fin (2 ^ (e - 1)))
      (fin 0)) (fin (2 ^ (e - 1)))) (round (rnd p) (2 ^ e) w2.size) :: ys, hw, ?_, by rw [List.length_cons, hl], ?_, ?_⟩
  · simp only [List.map_cons, averageRun, averageTick, f1, p1, a1, f2, p2, hm, bind, Except.bind, pure, Except.pure]
  · intro y hy
    rw [List.mem_cons] at hy
    rcases hy with rfl | hy
    · exact div_left _ a2
    · exact average_not _ (m := ⟨w2, _⟩) a2 hm y hy
  · have hsum : (window n [(2 : ℝ) ^ (e - 1), 2 ^ (e - 1)]).sum = 2 ^ e := by
      have h1 := Rounded.window_sum hn0 ([] : List ℝ) ((2 : ℝ) ^ (e - 1))
      have h2 := Rounded.window_sum hn0 ([] ++ [(2 : ℝ) ^ (e - 1)]) ((2 : ℝ) ^ (e - 1))
      have g1 : (window n ([] : List ℝ)).headD 0 = 0 := by
        rw [Moving.window_nil]
        cases n with
        | zero => omega
        | succ n => rfl
      have g2 : (window n (([] : List ℝ) ++ [2 ^ (e - 1)])).headD 0 = 0 := by
        rw [Moving.window_snoc hn0, Moving.window_nil]
        obtain ⟨c, rfl⟩ : ∃ c, n = c + 2 := ⟨n - 2, by omega⟩
        rfl
      have g0 : (window n ([] : List ℝ)).sum = 0 := by rw [Moving.window_nil]; simp
      rw [g1, g0] at h1
      rw [g2, h1] at h2
      rw [e2]
      simpa using h2
    have hn2 : (2 : ℝ) ≤ n := by exact_mod_cast hn
    rw [mean, hsum, Moving.window_length, abs_of_pos (by positivity), div_lt_iff₀ (by linarith)]
    nlinarith [pow_pos (by norm_num : (0 : ℝ) < 2) e]

/-- **C105**, the moving average of samples within `B`: no operation overflows as long as `n B (1 + 2^-p)^(2 L + 1)` is
below the limit, `L` the number of samples; the results are those of C92.
Missing: longer or larger signals (`C105_overflow_violates`) and samples that are not finite (`C105_average_violates`). -/
theorem C105_average_finite_partial {p n : ℕ} (hp : 1 ≤ p) (hn : 0 < n) (h63 : n < 2 ^ 63) (hnp : n ≤ 2 ^ p) {B M : ℝ}
    (hB : 0 ≤ B) (hnM : (n : ℝ) < M) (xs : List ℝ) (hx : ∀ x ∈ xs, |x| ≤ B)
    (hM : (1 + (2 : ℝ) ^ (-(p : ℤ))) ^ (2 * xs.length + 1) * (n * B) < M) :
    ∃ m m' mr mr' ys, averageNew n = .ok m ∧ MovingAverage.new n = .ok mr ∧ Rounded.averageRun p mr xs = .ok (mr', ys) ∧
      averageRun (round (rnd p) M) m (xs.map fun x => .tick (fin x)) = .ok (m', ys.map fin) := by
  obtain ⟨w, hw, hr⟩ := new_ok h63
  obtain ⟨wr, hwr, -, hrr⟩ := Rounded.new_ok h63
  obtain ⟨mr', hmr⟩ := Rounded.averageRun_eq p hn xs ⟨wr, 0⟩ [] hrr
  obtain ⟨m', hm⟩ := average_fin hp hn hnp hB hnM xs ⟨w, fin 0⟩ [] 0 0 (by simpa using hr) rfl (by simp) hx
    (by rw [Moving.window_nil]; simp) (by simpa using hM)
  have hrn : rnd p (n : ℝ) = n := by
    have := rnd_int hp (m := (n : ℤ)) (by rw [abs_of_nonneg (by positivity)]; exact_mod_cast hnp)
    simpa using this
  refine ⟨_, m', _, mr', _, hw, hwr, hmr, ?_⟩
  rw [hm, List.map_map, hrn]
  rfl

/-! ### Cases -/

/-- In `double`: a filter that copies its input, one infinite sample, and every later output is lost. -/
example : ∃ y, (biquadFilter (round (rnd 53) (2 ^ 1024))
    (emb { b2 := 0, b1 := 0, b0 := 1, a2 := 0, a1 := 0, a0 := 1, w0 := 0, w1 := 0 })
    ([fin 1] ++ inf false :: List.replicate 1000 (fin 0))).2[1001]? = some y ∧ ¬ y.Finite :=
  (C105_biquad_violates _ _ (inf_not false) [fin 1] (List.replicate 1000 (fin 0))).2 1001 (by rw [List.length_singleton]; omega)
    (by rw [List.length_singleton, List.length_replicate]; omega)

/-- In `double`: the filter with a double pole at 1/2 and samples within 1. -/
example {x : ℕ → ℝ} (hx : ∀ n, |x n| ≤ 1) (n : ℕ) :
    (biquadFilter (round (rnd 53) (2 ^ 1024))
      (emb { b2 := 0, b1 := 0, b0 := 1, a2 := 1 / 4, a1 := -1, a0 := 1, w0 := 0, w1 := 0 })
      ((List.range n).map fun i => fin (x i))).2 =
      (List.range n).map fun i => fin (Rounded.biquadResponse (rnd 53)
        { b2 := 0, b1 := 0, b0 := 1, a2 := 1 / 4, a1 := -1, a0 := 1, w0 := 0, w1 := 0 } x i) := by
  refine C105_biquad_finite_partial (S := 1) (k := 2) (X := 1)
    ⟨by norm_num, by norm_num, by norm_num, by norm_num, by norm_num, by norm_num⟩ (by norm_num) ?_ ?_ rfl rfl hx ?_ n
  · intro z hz
    have h2 : (z - 1 / 2) ^ 2 = 0 := by
      push_cast at hz
      linear_combination hz
    rw [sub_eq_zero.mp (pow_eq_zero_iff (by norm_num) |>.mp h2)]
    norm_num
  · norm_num
  · calc (1972 : ℝ) * 1 ^ 4 * 2 ^ 2 * 1 < 2 ^ 13 := by norm_num
      _ ≤ 2 ^ 1024 := pow_le_pow_right₀ (by norm_num) (by norm_num)

/-- In `double`: a window of two samples. -/
example : ∃ m m' y ys, averageNew 2 = .ok m ∧
    averageRun (round (rnd 53) (2 ^ 1024)) m
      ((fin (2 ^ (1024 - 1)) :: fin (2 ^ (1024 - 1)) :: [fin 0, fin 0, fin 0]).map .tick) = .ok (m', y :: ys) ∧
    ys.length = 3 + 1 ∧ (∀ y ∈ ys, ¬ y.Finite) ∧
    |mean (window 2 [(2 : ℝ) ^ (1024 - 1), 2 ^ (1024 - 1)])| < 2 ^ 1024 :=
  C105_overflow_violates (by norm_num) le_rfl (by norm_num) (by norm_num) _

/-- In `double`: three samples and a window of two. -/
example : ∃ m m' mr mr' ys, averageNew 2 = .ok m ∧ MovingAverage.new 2 = .ok mr ∧
    Rounded.averageRun 53 mr [1, -1, 1 / 2] = .ok (mr', ys) ∧
    averageRun (round (rnd 53) (2 ^ 1024)) m ([1, -1, 1 / 2].map fun x : ℝ => .tick (fin x)) = .ok (m', ys.map fin) := by
  refine C105_average_finite_partial (B := 1) (by norm_num) (by norm_num) (by norm_num) (by norm_num) (by norm_num)
    ?_ _ ?_ ?_
  · calc ((2 : ℕ) : ℝ) < 2 ^ 2 := by norm_num
      _ ≤ 2 ^ 1024 := pow_le_pow_right₀ (by norm_num) (by norm_num)
  · intro x hx
    simp only [List.mem_cons, List.not_mem_nil, or_false] at hx
    rcases hx with rfl | rfl | rfl <;> norm_num [abs_of_pos]
  · calc (1 + (2 : ℝ) ^ (-((53 : ℕ) : ℤ))) ^ (2 * [(1 : ℝ), -1, 1 / 2].length + 1) * (((2 : ℕ) : ℝ) * 1) < 2 ^ 10 := by
          have h : (1 + (2 : ℝ) ^ (-((53 : ℕ) : ℤ))) ≤ 2 := by norm_num
          have h0 : (0 : ℝ) ≤ 1 + (2 : ℝ) ^ (-((53 : ℕ) : ℤ)) := by positivity
          have := pow_le_pow_left₀ h0 h 7
          simp only [List.length_cons, List.length_nil]
          norm_num at this ⊢
      _ ≤ 2 ^ 1024 := pow_le_pow_right₀ (by norm_num) (by norm_num)

end Edsp.Extended
