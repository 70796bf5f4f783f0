import Verif.Model.Biquad
import Verif.Spec.Lti
import Mathlib.Tactic.Ring
import Mathlib.Data.List.Induction
import Mathlib.Tactic.Set
import Mathlib.Tactic.LinearCombination
import Mathlib.RingTheory.PowerSeries.Basic

/-! Helper lemmas on the biquad filter loop. -/

namespace Edsp.Biquad

open Edsp.Spec

variable {K : Type*} [Field K]

@[simp] theorem filter_nil (f : Biquad K) : f.filter [] = (f, []) := rfl

@[simp] theorem filter_cons (f : Biquad K) (x : K) (xs : List K) :
    f.filter (x :: xs) =
      (((f.tick x).1.filter xs).1, (f.tick x).2 :: ((f.tick x).1.filter xs).2) := rfl

theorem filter_append (f : Biquad K) (xs ys : List K) :
    f.filter (xs ++ ys) =
      (((f.filter xs).1.filter ys).1, (f.filter xs).2 ++ ((f.filter xs).1.filter ys).2) := by
  induction xs generalizing f with
  | nil => simp
  | cons x xs ih => simp [ih]

@[simp] theorem filter_length (f : Biquad K) (xs : List K) : (f.filter xs).2.length = xs.length := by
  induction xs generalizing f with
  | nil => simp
  | cons x xs ih => simp [ih]

/-- Same coefficients. -/
def SameCoeffs (f g : Biquad K) : Prop :=
  f.b0 = g.b0 ∧ f.b1 = g.b1 ∧ f.b2 = g.b2 ∧ f.a1 = g.a1 ∧ f.a2 = g.a2 ∧ f.a0 = g.a0

theorem tick_coeffs (f : Biquad K) (x : K) : SameCoeffs (f.tick x).1 f :=
  ⟨rfl, rfl, rfl, rfl, rfl, rfl⟩

theorem filter_coeffs (f : Biquad K) (xs : List K) : SameCoeffs (f.filter xs).1 f := by
  induction xs generalizing f with
  | nil => exact ⟨rfl, rfl, rfl, rfl, rfl, rfl⟩
  | cons x xs ih => exact ih (f.tick x).1

theorem reset_of_same {f g : Biquad K} (h : SameCoeffs f g) : f.reset = g.reset := by
  obtain ⟨h1, h2, h3, h4, h5, h6⟩ := h
  cases f; cases g; simp_all [reset]

/-- The last sample of a signal `k` steps back (`0`: last). -/
def past (x : List K) (k : Nat) : K := sample x ((x.length : Int) - 1 - k)

theorem sample_append_left {x y : List K} {n : Int} (h : n < x.length) :
    sample (x ++ y) n = sample x n := by
  unfold sample
  split
  · rename_i h0
    rw [List.getD_eq_getElem?_getD, List.getD_eq_getElem?_getD,
      List.getElem?_append_left (by omega)]
  · rfl

theorem sample_append_single (x : List K) (v : K) : sample (x ++ [v]) x.length = v := by
  unfold sample; simp [List.getD_eq_getElem?_getD]

theorem sample_neg {x : List K} {n : Int} (h : n < 0) : sample x n = 0 := by
  unfold sample; rw [if_neg (by omega)]

/-- The state variables in terms of the signals: the invariant of the filter loop. -/
theorem filter_invariant (f : Biquad K) (hw0 : f.w0 = 0) (hw1 : f.w1 = 0) (xs : List K) :
    SolvesDifferenceEquation f.a1 f.a2 f.b0 f.b1 f.b2 xs (f.filter xs).2 ∧
    (f.filter xs).1.w0 = f.b1 * past xs 0 + f.b2 * past xs 1
      - f.a1 * past (f.filter xs).2 0 - f.a2 * past (f.filter xs).2 1 ∧
    (f.filter xs).1.w1 = f.b2 * past xs 0 - f.a2 * past (f.filter xs).2 0 := by
  induction xs using List.reverseRecOn with
  | nil =>
    refine ⟨⟨rfl, fun n hn => absurd hn (Nat.not_lt_zero _)⟩, ?_, ?_⟩
    · simp [past, sample, hw0]
    · simp [past, sample, hw1]
  | append_singleton xs x ih =>
    obtain ⟨⟨_, hde⟩, h0, h1⟩ := ih
    have hlen : (f.filter xs).2.length = xs.length := filter_length f xs
    set g := (f.filter xs).1 with hg
    set ys := (f.filter xs).2 with hys
    obtain ⟨c1, c2, c3, c4, c5, c6⟩ := filter_coeffs f xs
    rw [← hg] at c1 c2 c3 c4 c5 c6
    have hfil : f.filter (xs ++ [x]) = ((g.tick x).1, ys ++ [(g.tick x).2]) := by
      rw [filter_append]; simp [← hg, ← hys]
    have hout : (g.tick x).2 = f.b0 * x + g.w0 := by simp [tick, c1]
    have hx0 : past (xs ++ [x]) 0 = x := by
      unfold past
      rw [show ((xs ++ [x]).length : Int) - 1 - (0 : Nat) = xs.length by simp]
      exact sample_append_single xs x
    have hx1 : past (xs ++ [x]) 1 = past xs 0 := by
      unfold past
      rw [show ((xs ++ [x]).length : Int) - 1 - (1 : Nat) = (xs.length : Int) - 1 - (0 : Nat) by
        simp]
      exact sample_append_left (by omega)
    have hy0 : past (ys ++ [(g.tick x).2]) 0 = (g.tick x).2 := by
      unfold past
      rw [show ((ys ++ [(g.tick x).2]).length : Int) - 1 - (0 : Nat) = ys.length by simp]
      exact sample_append_single ys _
    have hy1 : past (ys ++ [(g.tick x).2]) 1 = past ys 0 := by
      unfold past
      rw [show ((ys ++ [(g.tick x).2]).length : Int) - 1 - (1 : Nat)
        = (ys.length : Int) - 1 - (0 : Nat) by simp]
      exact sample_append_left (by omega)
    rw [hfil]
    refine ⟨⟨by simp [hlen], ?_⟩, ?_, ?_⟩
    · intro n hn
      simp only [List.length_append, List.length_cons, List.length_nil] at hn
      by_cases hlast : n = xs.length
      · subst hlast
        show sample (ys ++ [(g.tick x).2]) _ = _
        have e1 : sample (ys ++ [(g.tick x).2]) (xs.length : Int) = (g.tick x).2 := by
          rw [← hlen]; exact sample_append_single ys _
        rw [e1, sample_append_single, sample_append_left (by omega), sample_append_left (by omega),
          sample_append_left (by omega), sample_append_left (by omega), hout, h0]
        have p0 : past xs 0 = sample xs ((xs.length : Int) - 1) := by simp [past]
        have p1 : past xs 1 = sample xs ((xs.length : Int) - 2) := by
          unfold past; congr 1; omega
        have q0 : past ys 0 = sample ys ((xs.length : Int) - 1) := by
          unfold past; rw [hlen]; congr 1; omega
        have q1 : past ys 1 = sample ys ((xs.length : Int) - 2) := by
          unfold past; rw [hlen]; congr 1; omega
        rw [p0, p1, q0, q1]; ring
      · have hn' : n < xs.length := by omega
        rw [sample_append_left (by omega), sample_append_left (by omega),
          sample_append_left (by omega), sample_append_left (by omega),
          sample_append_left (by omega), sample_append_left (by omega)]
        exact hde n hn'
    · rw [hx0, hx1, hy0, hy1]
      have : (g.tick x).1.w0 = f.b1 * x - f.a1 * (g.tick x).2 + g.w1 := by
        simp [tick, c1, c2, c4]
      rw [this, h1]; ring
    · rw [hx0, hy0]
      simp [tick, c1, c3, c5]

/-! Linearity. -/

/-- The filter with the same coefficients and the state combined linearly. -/
def withState (f : Biquad K) (u v : K) : Biquad K := { f with w0 := u, w1 := v }

theorem tick_withState (f : Biquad K) (u v x : K) :
    (f.withState u v).tick x =
      (f.withState (f.b1 * x - f.a1 * (f.b0 * x + u) + v) (f.b2 * x - f.a2 * (f.b0 * x + u)),
        f.b0 * x + u) := rfl

theorem filter_lincomb (f : Biquad K) (α β : K) :
    ∀ (xs ys : List K), xs.length = ys.length → ∀ u v u' v' : K,
    ((f.withState (α * u + β * u') (α * v + β * v')).filter (lincomb α β xs ys)).2
      = lincomb α β ((f.withState u v).filter xs).2 ((f.withState u' v').filter ys).2 := by
  intro xs
  induction xs with
  | nil =>
    intro ys hl u v u' v'
    cases ys with
    | nil => simp [lincomb]
    | cons y ys => simp at hl
  | cons x xs ih =>
    intro ys hl u v u' v'
    cases ys with
    | nil => simp at hl
    | cons y ys =>
      simp only [lincomb, List.zipWith_cons_cons, filter_cons, tick_withState, List.cons.injEq]
      refine ⟨by ring, ?_⟩
      have := ih ys (by simpa using hl)
        (f.b1 * x - f.a1 * (f.b0 * x + u) + v) (f.b2 * x - f.a2 * (f.b0 * x + u))
        (f.b1 * y - f.a1 * (f.b0 * y + u') + v') (f.b2 * y - f.a2 * (f.b0 * y + u'))
      simp only [lincomb] at this
      rw [← this]
      congr 3 <;> ring

theorem reset_eq_withState (f : Biquad K) : f.reset = f.withState 0 0 := rfl

theorem filter_zeros_prefix (f : Biquad K) (k : Nat) (xs : List K) :
    (f.reset.filter (List.replicate k 0 ++ xs)).2
      = List.replicate k 0 ++ (f.reset.filter xs).2 := by
  induction k with
  | zero => simp
  | succ k ih =>
    simp only [List.replicate_succ, List.cons_append, filter_cons]
    have ht : f.reset.tick 0 = (f.reset, 0) := by simp [tick, reset]
    rw [ht]; simp [ih]

theorem filterCalls_coeffs (f : Biquad K) (bs : List (List K)) :
    SameCoeffs (f.filterCalls bs).1 f := by
  induction bs generalizing f with
  | nil => exact ⟨rfl, rfl, rfl, rfl, rfl, rfl⟩
  | cons b bs ih =>
    obtain ⟨h1, h2, h3, h4, h5, h6⟩ := ih (f.filter b).1
    obtain ⟨k1, k2, k3, k4, k5, k6⟩ := filter_coeffs f b
    exact ⟨h1.trans k1, h2.trans k2, h3.trans k3, h4.trans k4, h5.trans k5, h6.trans k6⟩

theorem filter_range (f : Biquad K) (u : Nat → K) (n : Nat) :
    (f.filter ((List.range n).map u)).1 = f.stateAt u n ∧
    (f.filter ((List.range n).map u)).2 = (List.range n).map (f.response u) := by
  induction n with
  | zero => exact ⟨rfl, rfl⟩
  | succ n ih =>
    rw [List.range_succ, List.map_append, filter_append, ih.1, ih.2, List.map_append]
    exact ⟨rfl, rfl⟩

theorem stateAt_coeffs (f : Biquad K) (u : Nat → K) (n : Nat) :
    SameCoeffs (f.stateAt u n) f := by
  rw [← (filter_range f u n).1]; exact filter_coeffs _ _

theorem response_zero (f : Biquad K) (u : Nat → K) :
    f.response u 0 = f.b0 * u 0 + f.w0 := rfl

theorem response_one (f : Biquad K) (u : Nat → K) :
    f.response u 1 = f.b0 * u 1 + (f.b1 * u 0 - f.a1 * f.response u 0 + f.w1) := rfl

theorem response_step (f : Biquad K) (u : Nat → K) (n : Nat) :
    f.response u (n + 2) = f.b0 * u (n + 2) + f.b1 * u (n + 1) + f.b2 * u n
      - f.a1 * f.response u (n + 1) - f.a2 * f.response u n := by
  obtain ⟨h1, h2, h3, h4, h5, _⟩ := stateAt_coeffs f u n
  have e : f.response u (n + 2) = (f.stateAt u n).b0 * u (n + 2)
      + ((f.stateAt u n).b1 * u (n + 1) - (f.stateAt u n).a1 * f.response u (n + 1)
        + ((f.stateAt u n).b2 * u n - (f.stateAt u n).a2 * f.response u n)) := rfl
  rw [e, h1, h2, h3, h4, h5]; ring

theorem response_series (f : Biquad K) (h : f.w0 = 0 ∧ f.w1 = 0) (u : Nat → K) :
    (PowerSeries.C 1 + PowerSeries.C f.a1 * PowerSeries.X + PowerSeries.C f.a2 * PowerSeries.X ^ 2)
        * PowerSeries.mk (f.response u)
      = (PowerSeries.C f.b0 + PowerSeries.C f.b1 * PowerSeries.X
          + PowerSeries.C f.b2 * PowerSeries.X ^ 2) * PowerSeries.mk u := by
  have sh : ∀ (c : K) (s : PowerSeries K) (k n : Nat),
      PowerSeries.coeff n (PowerSeries.C c * PowerSeries.X ^ k * s)
        = if k ≤ n then c * PowerSeries.coeff (n - k) s else 0 := by
    intro c s k n
    rw [mul_assoc, PowerSeries.coeff_C_mul, PowerSeries.coeff_X_pow_mul']
    split <;> simp
  have sh1 : ∀ (c : K) (s : PowerSeries K) (n : Nat),
      PowerSeries.coeff n (PowerSeries.C c * PowerSeries.X * s)
        = if 1 ≤ n then c * PowerSeries.coeff (n - 1) s else 0 := by
    intro c s n; rw [← sh, pow_one]
  ext n
  simp only [add_mul, map_add, sh, sh1, PowerSeries.coeff_C_mul, PowerSeries.coeff_mk]
  match n with
  | 0 => simp [response_zero, h.1]
  | 1 => simp [response_one, h.2]; ring
  | n + 2 =>
    simp [response_step]; ring

end Edsp.Biquad

namespace Edsp

open Edsp.Spec

variable {K : Type*} [Field K]

/-- The difference equation determines its solution. -/
theorem solves_unique {a1 a2 b0 b1 b2 : K} {x y y' : List K}
    (h : SolvesDifferenceEquation a1 a2 b0 b1 b2 x y)
    (h' : SolvesDifferenceEquation a1 a2 b0 b1 b2 x y') : y = y' := by
  have key : ∀ n : Nat, n < x.length → sample y n = sample y' n := by
    intro n
    induction n using Nat.strong_induction_on with
    | _ n ih =>
      intro hn
      have back : ∀ k : Int, 0 < k → sample y ((n : Int) - k) = sample y' ((n : Int) - k) := by
        intro k hk
        by_cases h0 : (n : Int) - k < 0
        · rw [Biquad.sample_neg h0, Biquad.sample_neg h0]
        · have := ih ((n : Int) - k).toNat (by omega) (by omega)
          rwa [show ((((n : Int) - k).toNat : Nat) : Int) = (n : Int) - k by omega] at this
      rw [h.2 n hn, h'.2 n hn, back 1 (by omega), back 2 (by omega)]
  apply List.ext_getElem (by rw [h.1, h'.1])
  intro n h1 h2
  have := key n (by rw [← h.1]; exact h1)
  simpa [sample, List.getD_eq_getElem?_getD, h1, h2] using this

end Edsp
