import Verif.Model.Extended
import Verif.Lemmas.RoundedMoving
import Verif.Lemmas.RoundedBiquad

/-! Helper lemmas: numbers that are not finite spread; finite ones below the limit are rounded as usual. -/

namespace Edsp.Extended

open Edsp.Spec Edsp.Spec.Ext

variable {R : ℝ → Ext}

theorem nan_not : ¬ nan.Finite := id

theorem inf_not (a : Bool) : ¬ (inf a).Finite := id

theorem fin_is (x : ℝ) : (fin x).Finite := trivial

theorem ite_not {c : Prop} [Decidable c] {a b : Ext} (ha : ¬ a.Finite) (hb : ¬ b.Finite) :
    ¬ (if c then a else b).Finite := by split <;> assumption

theorem add_left {a : Ext} (b : Ext) (h : ¬ a.Finite) : ¬ (add R a b).Finite := by
  cases a with
  | nan => exact nan_not
  | fin x => exact absurd (fin_is x) h
  | inf s => cases b with
    | nan => exact nan_not
    | fin y => exact inf_not _
    | inf t => exact ite_not (inf_not _) nan_not

theorem add_right (a : Ext) {b : Ext} (h : ¬ b.Finite) : ¬ (add R a b).Finite := by
  cases b with
  | fin x => exact absurd (fin_is x) h
  | nan => cases a <;> exact nan_not
  | inf s => cases a with
    | nan => exact nan_not
    | fin y => exact inf_not _
    | inf t => exact ite_not (inf_not _) nan_not

theorem neg_not {a : Ext} (h : ¬ a.Finite) : ¬ a.neg.Finite := by
  cases a with
  | nan => exact nan_not
  | inf s => exact inf_not _
  | fin x => exact absurd (fin_is x) h

theorem sub_left {a : Ext} (b : Ext) (h : ¬ a.Finite) : ¬ (sub R a b).Finite := add_left _ h

theorem sub_right (a : Ext) {b : Ext} (h : ¬ b.Finite) : ¬ (sub R a b).Finite := add_right _ (neg_not h)

theorem mul_left {a : Ext} (b : Ext) (h : ¬ a.Finite) : ¬ (mul R a b).Finite := by
  cases a with
  | nan => exact nan_not
  | fin x => exact absurd (fin_is x) h
  | inf s => cases b with
    | nan => exact nan_not
    | fin y => exact ite_not nan_not (inf_not _)
    | inf t => exact inf_not _

theorem mul_right (a : Ext) {b : Ext} (h : ¬ b.Finite) : ¬ (mul R a b).Finite := by
  cases b with
  | fin x => exact absurd (fin_is x) h
  | nan => cases a <;> exact nan_not
  | inf s => cases a with
    | nan => exact nan_not
    | fin y => exact ite_not nan_not (inf_not _)
    | inf t => exact inf_not _

theorem div_left {a : Ext} (b : Ext) (h : ¬ a.Finite) : ¬ (div R a b).Finite := by
  cases a with
  | nan => exact nan_not
  | fin x => exact absurd (fin_is x) h
  | inf s => cases b with
    | nan => exact nan_not
    | fin y => exact inf_not _
    | inf t => exact nan_not

theorem sqrt_not {a : Ext} (h : ¬ a.Finite) : ¬ (sqrt R a).Finite := by
  cases a with
  | nan => exact nan_not
  | fin x => exact absurd (fin_is x) h
  | inf s => exact ite_not nan_not (inf_not _)

/-! ### Filters -/

theorem tick_not {f : Biquad Ext} {x : Ext} (h : ¬ x.Finite ∨ ¬ f.w0.Finite) :
    ¬ (biquadTick R f x).2.Finite ∧ ¬ (biquadTick R f x).1.w0.Finite := by
  have ho : ¬ (add R (mul R f.b0 x) f.w0).Finite := by
    rcases h with h | h
    · exact add_left _ (mul_right _ h)
    · exact add_right _ h
  exact ⟨ho, add_left _ (sub_right _ (mul_right _ ho))⟩

theorem filter_not (xs : List Ext) : ∀ f : Biquad Ext, ¬ f.w0.Finite →
    (∀ y ∈ (biquadFilter R f xs).2, ¬ y.Finite) ∧ ¬ (biquadFilter R f xs).1.w0.Finite := by
  induction xs with
  | nil => intro f h; exact ⟨by simp [biquadFilter], h⟩
  | cons x xs ih =>
    intro f h
    obtain ⟨h1, h2⟩ := tick_not (R := R) (x := x) (Or.inr h)
    obtain ⟨h3, h4⟩ := ih _ h2
    refine ⟨fun y hy => ?_, h4⟩
    simp only [biquadFilter, List.mem_cons] at hy
    rcases hy with rfl | hy
    · exact h1
    · exact h3 y hy

theorem filter_coeffs (xs : List Ext) : ∀ f : Biquad Ext,
    biquadReset (biquadFilter R f xs).1 = biquadReset f := by
  induction xs with
  | nil => intro f; rfl
  | cons x xs ih =>
    intro f
    simp only [biquadFilter]
    rw [ih]
    rfl

theorem filter_length (xs : List Ext) : ∀ f : Biquad Ext, (biquadFilter R f xs).2.length = xs.length := by
  induction xs with
  | nil => intro f; rfl
  | cons x xs ih => intro f; simp [biquadFilter, ih]

theorem average_not (ops : List (MovingOp Ext)) : ∀ {m m' : MovingAverage Ext} {ys : List Ext},
    ¬ m.accumulated.Finite → averageRun R m ops = .ok (m', ys) → ∀ y ∈ ys, ¬ y.Finite := by
  induction ops with
  | nil => intro m m' ys _ e; simp [averageRun] at e; simp [e.2]
  | cons op ops ih =>
    intro m m' ys h e
    cases op with
    | tick x =>
      simp only [averageRun, averageTick, bind, Except.bind, pure, Except.pure] at e
      cases hf : m.window.front with
      | error => simp [hf] at e
      | ok f =>
      cases hp : m.window.pushBack x with
      | error => simp [hf, hp] at e
      | ok w =>
      simp only [hf, hp] at e
      have ha : ¬ (add R (sub R m.accumulated f) x).Finite := add_left _ (sub_left _ h)
      cases hr : averageRun R ⟨w, add R (sub R m.accumulated f) x⟩ ops with
      | error => simp [hr] at e
      | ok v =>
        simp only [hr, Except.ok.injEq, Prod.mk.injEq] at e
        obtain ⟨rfl, rfl⟩ := e
        intro y hy
        rw [List.mem_cons] at hy
        rcases hy with rfl | hy
        · exact div_left _ ha
        · exact ih (m := ⟨w, add R (sub R m.accumulated f) x⟩) ha hr y hy
    | reset => exact ih (m := { m with window := m.window.clear }) h e
    | resize n => exact ih (m := { m with window := m.window.resize (fin 0) n }) h e

theorem rms_not (ops : List (MovingOp Ext)) : ∀ {m m' : MovingAverage Ext} {ys : List Ext},
    ¬ m.accumulated.Finite → rmsRun R m ops = .ok (m', ys) → ∀ y ∈ ys, ¬ y.Finite := by
  induction ops with
  | nil => intro m m' ys _ e; simp [rmsRun] at e; simp [e.2]
  | cons op ops ih =>
    intro m m' ys h e
    cases op with
    | tick x =>
      simp only [rmsRun, rmsTick, bind, Except.bind, pure, Except.pure] at e
      cases hf : m.window.front with
      | error => simp [hf] at e
      | ok f =>
      cases hp : m.window.pushBack (mul R x x) with
      | error => simp [hf, hp] at e
      | ok w =>
      simp only [hf, hp] at e
      have ha : ¬ (add R (sub R m.accumulated f) (mul R x x)).Finite := add_left _ (sub_left _ h)
      cases hr : rmsRun R ⟨w, add R (sub R m.accumulated f) (mul R x x)⟩ ops with
      | error => simp [hr] at e
      | ok v =>
        simp only [hr, Except.ok.injEq, Prod.mk.injEq] at e
        obtain ⟨rfl, rfl⟩ := e
        intro y hy
        rw [List.mem_cons] at hy
        rcases hy with rfl | hy
        · exact sqrt_not (div_left _ ha)
        · exact ih (m := ⟨w, add R (sub R m.accumulated f) (mul R x x)⟩) ha hr y hy
    | reset => exact ih (m := { m with window := m.window.clear }) h e
    | resize n => exact ih (m := { m with window := m.window.resize (fin 0) n }) h e

/-! ### The window -/

instance : Zero Ext := ⟨fin 0⟩

theorem zero_eq : (0 : Ext) = fin 0 := rfl

/-- One tick on a full window. -/
theorem window_step {K : Type} [Zero K] {n : Nat} (hn : 0 < n) {w : RingBuffer K} {h : List K}
    (hr : RingBuffer.Refines w { cap := n, items := window n h }) (x : K) :
    ∃ w', w.front = .ok ((window n h).headD 0) ∧ w.pushBack x = .ok w' ∧
      RingBuffer.Refines w' { cap := n, items := window n (h ++ [x]) } ∧ w'.size = n := by
  have hl := Moving.window_length n h
  have hne : window n h ≠ [] := by intro h0; rw [h0] at hl; simp at hl; omega
  obtain ⟨r', d', hp, hc, hrep⟩ := RingSpan.pushBack_rep hr.1 (by rw [hr.2]; exact hn) x
  have e : (window n h).length = w.span.cap := by rw [hl, hr.2]
  refine ⟨⟨d', r'⟩, ?_, ?_, ?_, ?_⟩
  · have : w.front = .ok ((window n h).head hne) := RingSpan.frontVal_rep hr.1 hne
    rw [this, List.headD_eq_head?_getD, List.head?_eq_some_head hne]
    rfl
  · simp [RingBuffer.pushBack, hp, bind, Except.bind, pure, Except.pure]
  · refine ⟨?_, hc.trans hr.2⟩
    rw [if_pos e] at hrep
    rw [Moving.window_snoc hn]; exact hrep
  · have := hrep.size
    rw [if_pos e] at this
    simp [hl] at this
    show r'.size = n
    omega

theorem new_ok {n : ℕ} (hn : n < 2 ^ 63) : ∃ w : RingBuffer Ext, averageNew n = .ok ⟨w, fin 0⟩ ∧
    RingBuffer.Refines w { cap := n, items := window n [] } := by
  obtain ⟨w, hw, hr⟩ := RingBuffer.newFilled_refines (fin 0) hn (fin 0)
  refine ⟨w, ?_, ?_⟩
  · simp [averageNew, hw, bind, Except.bind, pure, Except.pure]
  · rw [Moving.window_nil]; exact hr

/-- Ticks on a full window never fail. -/
theorem average_ok {n : ℕ} (hn : 0 < n) (xs : List Ext) : ∀ (m : MovingAverage Ext) (h : List Ext),
    RingBuffer.Refines m.window { cap := n, items := window n h } →
    ∃ m' ys, averageRun R m (xs.map .tick) = .ok (m', ys) ∧ ys.length = xs.length := by
  induction xs with
  | nil => intro m h hr; exact ⟨m, [], rfl, rfl⟩
  | cons x xs ih =>
    intro m h hr
    obtain ⟨w', h1, h2, h3, h4⟩ := window_step hn hr x
    obtain ⟨m', ys, hm, hl⟩ := ih ⟨w', add R (sub R m.accumulated ((window n h).headD 0)) x⟩ (h ++ [x]) h3
    refine ⟨m', div R (add R (sub R m.accumulated ((window n h).headD 0)) x) (R w'.size) :: ys, ?_, by
      rw [List.length_cons, hl, List.length_cons]⟩
    simp only [List.map_cons, averageRun, averageTick, h1, h2, hm, bind, Except.bind, pure, Except.pure]

theorem rms_ok {n : ℕ} (hn : 0 < n) (xs : List Ext) : ∀ (m : MovingAverage Ext) (h : List Ext),
    RingBuffer.Refines m.window { cap := n, items := window n h } →
    ∃ m' ys, rmsRun R m (xs.map .tick) = .ok (m', ys) ∧ ys.length = xs.length := by
  induction xs with
  | nil => intro m h hr; exact ⟨m, [], rfl, rfl⟩
  | cons x xs ih =>
    intro m h hr
    obtain ⟨w', h1, h2, h3, h4⟩ := window_step hn hr (mul R x x)
    obtain ⟨m', ys, hm, hl⟩ :=
      ih ⟨w', add R (sub R m.accumulated ((window n h).headD 0)) (mul R x x)⟩ (h ++ [mul R x x]) h3
    refine ⟨m', sqrt R (div R (add R (sub R m.accumulated ((window n h).headD 0)) (mul R x x)) (R w'.size)) :: ys, ?_,
      by rw [List.length_cons, hl, List.length_cons]⟩
    simp only [List.map_cons, rmsRun, rmsTick, h1, h2, hm, bind, Except.bind, pure, Except.pure]

/-! ### Finite results -/

theorem round_fin {r : ℝ → ℝ} {M x : ℝ} (h : |r x| < M) : round r M x = fin (r x) := if_pos h

theorem round_inf {r : ℝ → ℝ} {M x : ℝ} (h : M ≤ |r x|) : round r M x = inf (decide (x < 0)) := if_neg (not_lt.mpr h)

theorem add_fin {r : ℝ → ℝ} {M a b : ℝ} (h : |r (a + b)| < M) :
    add (round r M) (fin a) (fin b) = fin (r (a + b)) := round_fin h

theorem sub_fin {r : ℝ → ℝ} {M a b : ℝ} (h : |r (a - b)| < M) :
    sub (round r M) (fin a) (fin b) = fin (r (a - b)) := by
  show round r M (a + -b) = _
  rw [← sub_eq_add_neg]
  exact round_fin h

theorem mul_fin {r : ℝ → ℝ} {M a b : ℝ} (h : |r (a * b)| < M) :
    mul (round r M) (fin a) (fin b) = fin (r (a * b)) := round_fin h

theorem div_fin {r : ℝ → ℝ} {M a b : ℝ} (hb : b ≠ 0) (h : |r (a / b)| < M) :
    div (round r M) (fin a) (fin b) = fin (r (a / b)) := by
  show (if b = 0 then _ else round r M (a / b)) = _
  rw [if_neg hb]
  exact round_fin h

/-- A filter with finite coefficients and state. -/
def emb (f : Biquad ℝ) : Biquad Ext :=
  { a0 := fin f.a0, a1 := fin f.a1, a2 := fin f.a2, b0 := fin f.b0, b1 := fin f.b1, b2 := fin f.b2,
    w0 := fin f.w0, w1 := fin f.w1 }

/-- A call of `tick` far from the limit. -/
theorem tick_fin {r : ℝ → ℝ} {ε M : ℝ} (hR : ∀ z, |r z - z| ≤ ε * |z|) (h1 : ε ≤ 1) {f : Biquad ℝ}
    {S Z x : ℝ} (hS : Rounded.CoeffLe f S) (hZ : |x| + |f.w0| + |f.w1| ≤ Z) (hM : 58 * S ^ 2 * Z < M) :
    biquadTick (round r M) (emb f) (fin x) =
      (emb (Rounded.biquadTick r f x).1, fin (Rounded.biquadTick r f x).2) := by
  obtain ⟨s1, sb0, sb1, sb2, sa1, sa2⟩ := hS
  have hx0 := abs_nonneg x
  have hw0 := abs_nonneg f.w0
  have hw1 := abs_nonneg f.w1
  have hZ0 : 0 ≤ Z := by linarith
  have hS0 : 0 ≤ S := by linarith
  have hSS : S * Z ≤ S ^ 2 * Z := mul_le_mul_of_nonneg_right (by nlinarith) hZ0
  have hZS : Z ≤ S * Z := by nlinarith
  have hxZ : |x| ≤ Z := by linarith
  have mulS : ∀ {c y Y : ℝ}, |c| ≤ S → |y| ≤ Y → |c * y| ≤ S * Y := by
    intro c y Y hc hy
    rw [abs_mul]
    exact mul_le_mul hc hy (abs_nonneg _) hS0
  have rb : ∀ {z B : ℝ}, |z| ≤ B → |r z| ≤ 2 * B := fun hz =>
    (Rounded.R_le hR h1 _).trans (by linarith)
  have hM' : 58 * (S ^ 2 * Z) < M := by linarith
  have t0 := rb (mulS sb0 hxZ)
  have o1 : |r (f.b0 * x) + f.w0| ≤ 3 * (S * Z) := (abs_add_le _ _).trans (by linarith)
  have o2 := rb o1
  have e4 : S * (6 * (S * Z)) = 6 * (S ^ 2 * Z) := by ring
  have t1 := rb (mulS sb1 hxZ)
  have t2 := rb (mulS sb2 hxZ)
  have out_le : |r (r (f.b0 * x) + f.w0)| ≤ 6 * (S * Z) := by linarith
  have t3 := rb (mulS sa1 out_le)
  have t4 := rb (mulS sa2 out_le)
  rw [e4] at t3 t4
  have o3 : |r (f.b1 * x) - r (f.a1 * r (r (f.b0 * x) + f.w0))| ≤ 2 * (S * Z) + 2 * (6 * (S ^ 2 * Z)) :=
    (abs_sub _ _).trans (by linarith)
  have o5 : |r (f.b2 * x) - r (f.a2 * r (r (f.b0 * x) + f.w0))| ≤ 2 * (S * Z) + 2 * (6 * (S ^ 2 * Z)) :=
    (abs_sub _ _).trans (by linarith)
  have o4 : |r (r (f.b1 * x) - r (f.a1 * r (r (f.b0 * x) + f.w0))) + f.w1| ≤
      2 * (2 * (S * Z) + 2 * (6 * (S ^ 2 * Z))) + Z :=
    (abs_add_le _ _).trans (by linarith [rb o3])
  have p3 := rb o3
  have p4 := rb o4
  have p5 := rb o5
  simp only [biquadTick, emb, Rounded.biquadTick]
  rw [mul_fin (a := f.b0) (by linarith), add_fin (a := r (f.b0 * x)) (b := f.w0) (by linarith),
    mul_fin (a := f.b1) (by linarith), mul_fin (a := f.a1) (by linarith), sub_fin (a := r (f.b1 * x)) (by linarith),
    add_fin (by linarith), mul_fin (a := f.b2) (by linarith), mul_fin (a := f.a2) (by linarith), sub_fin (by linarith)]

theorem filter_snoc (xs : List Ext) (x : Ext) : ∀ f : Biquad Ext, biquadFilter R f (xs ++ [x]) =
    ((biquadTick R (biquadFilter R f xs).1 x).1,
      (biquadFilter R f xs).2 ++ [(biquadTick R (biquadFilter R f xs).1 x).2]) := by
  induction xs with
  | nil => intro f; rfl
  | cons y ys ih => intro f; simp only [List.cons_append, biquadFilter, ih]

/-- A filter whose samples and state stay below `Z`. -/
theorem filter_fin {r : ℝ → ℝ} {ε M : ℝ} (hR : ∀ z, |r z - z| ≤ ε * |z|) (h1 : ε ≤ 1) {f : Biquad ℝ}
    {S Z : ℝ} (hS : Rounded.CoeffLe f S) {x : ℕ → ℝ}
    (hZ : ∀ n, |x n| + |(Rounded.biquadState r f x n).w0| + |(Rounded.biquadState r f x n).w1| ≤ Z)
    (hM : 58 * S ^ 2 * Z < M) (n : ℕ) :
    biquadFilter (round r M) (emb f) ((List.range n).map fun i => fin (x i)) =
      (emb (Rounded.biquadState r f x n), (List.range n).map fun i => fin (Rounded.biquadResponse r f x i)) := by
  induction n with
  | zero => rfl
  | succ n ih =>
    obtain ⟨c0, c1, c2, c3, c4⟩ := Rounded.state_coeffs r f x n
    have hS' : Rounded.CoeffLe (Rounded.biquadState r f x n) S :=
      ⟨hS.one, by rw [c0]; exact hS.b0, by rw [c1]; exact hS.b1, by rw [c2]; exact hS.b2, by rw [c3]; exact hS.a1,
        by rw [c4]; exact hS.a2⟩
    rw [List.range_succ, List.map_append, List.map_singleton, filter_snoc, ih, tick_fin hR h1 hS' (hZ n) hM,
      List.map_append]
    rfl

theorem window_map (n : ℕ) (h : List ℝ) : window n (h.map fin) = (window n h).map fin := by
  rw [Moving.window_eq, Moving.window_eq, List.map_drop, List.map_append, List.map_replicate, List.length_map]
  rfl

theorem headD_map (l : List ℝ) : (l.map fin).headD 0 = fin (l.headD 0) := by cases l <;> rfl

open Rounded FloatL in
/-- The moving average far from the limit. -/
theorem average_fin {p n : ℕ} (hp : 1 ≤ p) (hn : 0 < n) (hnp : n ≤ 2 ^ p) {B M : ℝ} (hB : 0 ≤ B) (hnM : (n : ℝ) < M)
    (xs : List ℝ) : ∀ (m : MovingAverage Ext) (h : List ℝ) (a e : ℝ),
    RingBuffer.Refines m.window { cap := n, items := window n (h.map fin) } → m.accumulated = fin a →
    (∀ x ∈ h, |x| ≤ B) → (∀ x ∈ xs, |x| ≤ B) → |a - (window n h).sum| ≤ e →
    (1 + (2 : ℝ) ^ (-(p : ℤ))) ^ (2 * xs.length + 1) * (e + n * B) < M →
    ∃ m', averageRun (round (rnd p) M) m (xs.map fun x => .tick (fin x)) =
      .ok (m', (sums p n h a xs).map fun s => fin (rnd p (s / n))) := by
  have hu := two_zpow_pos (-(p : ℤ))
  have hn0 : (0 : ℝ) < n := by exact_mod_cast hn
  have hn1 : (1 : ℝ) ≤ n := by exact_mod_cast hn
  have hrn : rnd p (n : ℝ) = n := by
    have := rnd_int hp (m := (n : ℤ)) (by rw [abs_of_nonneg (by positivity)]; exact_mod_cast hnp)
    simpa using this
  induction xs with
  | nil => intro m h a e hr _ _ _ _ _; exact ⟨m, rfl⟩
  | cons x xs ih =>
    intro m h a e hr ha hh hx he hM
    have hh' : ∀ y ∈ h ++ [x], |y| ≤ B := by
      intro y hy
      rw [List.mem_append, List.mem_singleton] at hy
      rcases hy with hy | rfl
      · exact hh y hy
      · exact hx y (by simp)
    obtain ⟨f, hf⟩ : ∃ f, f = (window n h).headD 0 := ⟨_, rfl⟩
    have b1 : |(window n h).sum - f| ≤ n * B := by
      rw [hf, ← window_tail_sum hn]
      refine (abs_sum_le (B := B) _ fun y hy => window_abs hB hh y (List.mem_of_mem_tail hy)).trans ?_
      rw [List.length_tail, Moving.window_length]
      refine mul_le_mul_of_nonneg_right ?_ hB
      exact_mod_cast Nat.sub_le n 1
    have b2 : |(window n (h ++ [x])).sum| ≤ n * B := by
      have := abs_sum_le (B := B) _ (window_abs (n := n) hB hh')
      rwa [Moving.window_length] at this
    have s1 := rnd_near (p := p) (a := a - f) (e := e) b1 (by rwa [sub_sub_sub_cancel_right])
    have s2 := rnd_near (p := p) (a := rnd p (a - f) + x)
      (e := |rnd p (a - f) - ((window n h).sum - f)|) b2 (by
        rw [window_sum hn, ← hf]
        apply le_of_eq
        congr 1
        ring)
    obtain ⟨u, hu'⟩ : ∃ u, u = 1 + (2 : ℝ) ^ (-(p : ℤ)) := ⟨_, rfl⟩
    rw [← hu'] at s1 s2 hM ih
    have u1 : 1 ≤ u := by linarith
    have e0 : 0 ≤ e + n * B := add_nonneg ((abs_nonneg _).trans he) (by positivity)
    have s3 := s2.trans (mul_le_mul_of_nonneg_left s1 (by linarith : 0 ≤ u))
    have hP : 1 ≤ u ^ (2 * xs.length) := one_le_pow₀ u1
    have hM3 : u ^ (2 * xs.length) * (u * (u * (u * (e + n * B)))) < M := by
      refine lt_of_eq_of_lt ?_ hM
      rw [List.length_cons, Nat.mul_succ, pow_add, pow_add]
      ring
    have m1 : u * (e + n * B) ≤ u * (u * (e + n * B)) :=
      le_mul_of_one_le_left (mul_nonneg (by linarith) e0) u1
    have m2 : u * (u * (e + n * B)) ≤ u * (u * (u * (e + n * B))) :=
      le_mul_of_one_le_left (by positivity) u1
    have m3 : u * (u * (u * (e + n * B))) ≤ u ^ (2 * xs.length) * (u * (u * (u * (e + n * B)))) :=
      le_mul_of_one_le_left (by positivity) hP
    have tri : ∀ {z s : ℝ}, |s| ≤ n * B → |z| ≤ |z - s| + n * B := fun {z s} hs => by
      have := abs_sub_abs_le_abs_sub z s
      linarith
    have k1 : |rnd p (a - f)| < M := by
      have := tri (z := rnd p (a - f)) b1
      linarith
    have k2' : |rnd p (rnd p (a - f) + x)| ≤ u * (u * (e + n * B)) := (tri b2).trans s3
    have k2 : |rnd p (rnd p (a - f) + x)| < M := by linarith
    have k3 : |rnd p (rnd p (rnd p (a - f) + x) / n)| < M := by
      have h1 := rnd_err p (rnd p (rnd p (a - f) + x) / n)
      have h2 : |rnd p (rnd p (a - f) + x) / n| ≤ |rnd p (rnd p (a - f) + x)| := by
        rw [abs_div, abs_of_pos hn0]
        exact div_le_self (abs_nonneg _) hn1
      have h3 := abs_sub_abs_le_abs_sub (rnd p (rnd p (rnd p (a - f) + x) / n)) (rnd p (rnd p (a - f) + x) / n)
      have h4 : |rnd p (rnd p (rnd p (a - f) + x) / n)| ≤ u * |rnd p (rnd p (a - f) + x) / n| := by
        rw [hu']
        linarith
      have h5 : u * |rnd p (rnd p (a - f) + x) / n| ≤ u * (u * (u * (e + n * B))) :=
        mul_le_mul_of_nonneg_left (h2.trans k2') (by linarith)
      linarith
    obtain ⟨w', h1, h2, h3, h4⟩ := window_step hn hr (fin x)
    rw [window_map, headD_map, ← hf] at h1
    have hstep : accStep p n h a x = rnd p (rnd p (a - f) + x) := by rw [accStep, hf]
    obtain ⟨m', hm⟩ := ih ⟨w', fin (accStep p n h a x)⟩ (h ++ [x]) (accStep p n h a x)
      (|accStep p n h a x - (window n (h ++ [x])).sum|) (by rw [List.map_append]; exact h3) rfl hh'
      (fun y hy => hx y (by simp [hy])) le_rfl (by
        rw [hstep]
        refine lt_of_le_of_lt ?_ hM3
        rw [pow_succ, mul_assoc]
        exact mul_le_mul_of_nonneg_left (mul_le_mul_of_nonneg_left s3 (by linarith)) (by positivity))
    refine ⟨m', ?_⟩
    have hnr : round (rnd p) M (n : ℝ) = fin (n : ℝ) := by
      rw [round_fin (by rw [hrn, abs_of_pos hn0]; exact hnM), hrn]
    have ht : averageTick (round (rnd p) M) m (fin x) = .ok (⟨w', fin (accStep p n h a x)⟩,
        fin (rnd p (accStep p n h a x / n))) := by
      unfold averageTick
      simp only [h1, h2, h4, bind, Except.bind, pure, Except.pure, ha]
      rw [sub_fin k1, add_fin k2, hnr, div_fin hn0.ne' k3, hstep]
    simp only [List.map_cons, averageRun, ht, hm, sums, bind, Except.bind, pure, Except.pure]

end Edsp.Extended
