import Verif.Model.ChebShelf
import Verif.Lemmas.Chebyshev
import Verif.Lemmas.Statistics
import Verif.Spec.Shelf

/-! Helper lemmas: the analog Chebyshev low shelf. -/

namespace Edsp.AnalogL

open Edsp Edsp.Spec Edsp.LayoutL Edsp.BilinearL Edsp.Stat Finset

theorem shelfRoot_eq {n : Nat} (hn : 0 < n) (u : ℝ) (k : Nat) :
    ChebyshevI.shelfRoot u n k = (starRingEnd ℂ) (ChebyshevI.pole u n k) := by
  have e : Real.pi * (2 * ((k : ℝ) + 1) - 1) / (2 * n : ℕ) = (2 * (k : ℝ) + 1) * Real.pi / (2 * n) := by
    push_cast; ring
  simp only [ChebyshevI.shelfRoot, ChebyshevI.pole]
  rw [cheb_angle hn, Real.cos_sub_pi_div_two, Real.sin_sub_pi_div_two, e]
  apply Complex.ext
  · simp; ring
  · simp; ring

theorem shelfRoot_lhp {n k : Nat} (hk : k < n / 2) {v : ℝ} (hv : 0 < v) :
    (ChebyshevI.shelfRoot v n k).re < 0 ∧ (ChebyshevI.shelfRoot v n k).im ≠ 0 := by
  rw [shelfRoot_eq (by omega)]
  obtain ⟨h1, h2⟩ := cheb_pole_lhp hk hv
  exact ⟨by simpa using h1, by simpa using h2⟩

theorem shelf_cheb_MA (n : Nat) (hn : 0 < n) (u v y : ℝ) :
    MA (n / 2) (ChebyshevI.shelfRoot u n) (fun k => some (ChebyshevI.shelfRoot v n k))
      (oddSingle n (-Real.sinh u) (some (-Real.sinh v))) (Complex.I * y) =
      Real.sqrt ((Polynomial.Chebyshev.T ℝ n).eval y ^ 2 + Real.sinh (n * v) ^ 2) /
        Real.sqrt ((Polynomial.Chebyshev.T ℝ n).eval y ^ 2 + Real.sinh (n * u) ^ 2) := by
  have h2 : (2 : ℝ) / 2 ^ n ≠ 0 := by positivity
  rw [← mul_div_mul_left _ _ h2, ← cheb_prod n hn v y, ← cheb_prod n hn u y]
  unfold MA
  rw [list_prod, mul_div_mul_comm, ← prod_div_distrib]
  congr 1
  · apply prod_congr rfl
    intro k _
    simp only [RA, E, shelfRoot_eq hn, Pt.conj, Option.map_some, Complex.conj_conj]
    rw [mul_comm ‖Complex.I * (y : ℂ) - (starRingEnd ℂ) (ChebyshevI.pole v n k)‖,
      mul_comm ‖Complex.I * (y : ℂ) - (starRingEnd ℂ) (ChebyshevI.pole u n k)‖]
  · unfold oddSingle
    split
    · simp [SA, E]
    · simp

/-- The two hyperbolic angles, for any level `G` and edge level `Gb` on the same side of 1. -/
theorem shelf_angles {n : Nat} (hn : 0 < n) {G Gb : ℝ} (hG : 0 < G) (hGb : 0 < Gb)
    (h : (G < Gb ∧ Gb < 1) ∨ (1 < Gb ∧ Gb < G)) :
    ∃ eps u v : ℝ, 0 < eps ∧ eps ^ 2 = (G ^ 2 - Gb ^ 2) / (Gb ^ 2 - 1) ∧
      fdiv (G ^ 2 - Gb ^ 2) (Gb ^ 2 - 1) = .ok (eps ^ 2) ∧ fsqrt (eps ^ 2) = .ok eps ∧
      fdiv 1 (eps ^ 2) = .ok (1 / eps ^ 2) ∧ fsqrt (1 + 1 / eps ^ 2) = .ok (Real.sqrt (1 + 1 / eps ^ 2)) ∧
      fdiv G eps = .ok (G / eps) ∧ fdiv 1 eps = .ok (1 / eps) ∧
      fpow (G / eps + Gb * Real.sqrt (1 + 1 / eps ^ 2)) (1 / n) = .ok (Real.exp u) ∧
      fpow (1 / eps + Real.sqrt (1 + 1 / eps ^ 2)) (1 / n) = .ok (Real.exp v) ∧
      0 < u ∧ 0 < v ∧ Real.sinh (n * v) = 1 / eps ∧ Real.sinh (n * u) = G / eps := by
  have hn' : (0 : ℝ) < n := by exact_mod_cast hn
  have hden : Gb ^ 2 - 1 ≠ 0 := by
    rcases h with ⟨h1, h2⟩ | ⟨h1, h2⟩
    · nlinarith
    · nlinarith
  have hq : 0 < (G ^ 2 - Gb ^ 2) / (Gb ^ 2 - 1) := by
    rcases h with ⟨h1, h2⟩ | ⟨h1, h2⟩
    · exact div_pos_of_neg_of_neg (by nlinarith) (by nlinarith)
    · exact div_pos (by nlinarith) (by nlinarith)
  set eps := Real.sqrt ((G ^ 2 - Gb ^ 2) / (Gb ^ 2 - 1)) with heps
  have hpos : 0 < eps := Real.sqrt_pos.mpr hq
  have hsq : eps ^ 2 = (G ^ 2 - Gb ^ 2) / (Gb ^ 2 - 1) := Real.sq_sqrt hq.le
  have hex : Real.sqrt (1 + 1 / eps ^ 2) = Real.sqrt (1 + (1 / eps) ^ 2) := by rw [one_div_pow]
  have hbx : Gb * Real.sqrt (1 + 1 / eps ^ 2) = Real.sqrt (1 + (G / eps) ^ 2) := by
    conv_lhs => rw [← Real.sqrt_sq hGb.le]
    rw [← Real.sqrt_mul (sq_nonneg _)]
    congr 1
    have h3 : eps ^ 2 * (Gb ^ 2 - 1) = G ^ 2 - Gb ^ 2 := by rw [hsq]; field_simp
    field_simp
    linarith
  have key : ∀ x : ℝ, 0 < x → fpow (x + Real.sqrt (1 + x ^ 2)) (1 / n) = .ok (Real.exp (Real.arsinh x / n)) := by
    intro x hx
    have hp : 0 < x + Real.sqrt (1 + x ^ 2) := by positivity
    unfold fpow
    rw [if_neg hp.not_ge, Real.rpow_def_of_pos hp]
    congr 2
    unfold Real.arsinh
    ring
  have hG' : 0 < G / eps := by positivity
  have h1' : 0 < 1 / eps := by positivity
  refine ⟨eps, Real.arsinh (G / eps) / n, Real.arsinh (1 / eps) / n, hpos, hsq, ?_, ?_, ?_, ?_, ?_, ?_,
    ?_, ?_, div_pos (Real.arsinh_pos_iff.mpr hG') hn', div_pos (Real.arsinh_pos_iff.mpr h1') hn', ?_, ?_⟩
  · unfold fdiv; rw [if_neg hden, hsq]
  · unfold fsqrt; rw [if_neg (sq_nonneg _).not_gt, Real.sqrt_sq hpos.le]
  · unfold fdiv; rw [if_neg (pow_pos hpos 2).ne']
  · unfold fsqrt; rw [if_neg (by positivity : (0 : ℝ) ≤ 1 + 1 / eps ^ 2).not_gt]
  · unfold fdiv; rw [if_neg hpos.ne']
  · unfold fdiv; rw [if_neg hpos.ne']
  · rw [hbx]; exact key _ hG'
  · rw [hex]; exact key _ h1'
  · rw [mul_div_cancel₀ _ hn'.ne', Real.sinh_arsinh]
  · rw [mul_div_cancel₀ _ hn'.ne', Real.sinh_arsinh]

theorem flog_exp (u : ℝ) : flog (Real.exp u) = .ok u := by
  unfold flog; rw [if_neg (Real.exp_pos u).not_ge, Real.log_exp]

theorem shelf_levels {gainDb r : ℝ} (hr : 0 < r) (hr2 : r < |gainDb|) :
    (Zoelzer.db2mag (-gainDb) < Zoelzer.db2mag (-edgeDb gainDb r) ∧ Zoelzer.db2mag (-edgeDb gainDb r) < 1) ∨
      (1 < Zoelzer.db2mag (-edgeDb gainDb r) ∧ Zoelzer.db2mag (-edgeDb gainDb r) < Zoelzer.db2mag (-gainDb)) := by
  unfold Zoelzer.db2mag edgeDb
  by_cases h : 0 < gainDb
  · rw [abs_of_pos h] at hr2
    rw [if_pos h]
    left
    constructor
    · exact Real.rpow_lt_rpow_of_exponent_lt (by norm_num) (by linarith)
    · exact Real.rpow_lt_one_of_one_lt_of_neg (by norm_num) (by linarith)
  · have hneg : gainDb < 0 := by
      rcases lt_or_eq_of_le (not_lt.mp h) with h' | h'
      · exact h'
      · rw [h', abs_zero] at hr2; linarith
    rw [abs_of_neg hneg] at hr2
    rw [if_neg h]
    right
    constructor
    · exact Real.one_lt_rpow (by norm_num) (by linarith)
    · exact Real.rpow_lt_rpow_of_exponent_lt (by norm_num) (by linarith)

theorem shelfParams_ok {n : Nat} (hn : 0 < n) {gainDb r : ℝ} (hr : 0 < r) (hr2 : r < |gainDb|) :
    ∃ eps u v : ℝ, 0 < eps ∧ 0 < u ∧ 0 < v ∧ Real.sinh (n * v) = 1 / eps ∧
      Real.sinh (n * u) = Zoelzer.db2mag (-gainDb) / eps ∧
      eps ^ 2 = (Zoelzer.db2mag (-gainDb) ^ 2 - Zoelzer.db2mag (-edgeDb gainDb r) ^ 2) /
        (Zoelzer.db2mag (-edgeDb gainDb r) ^ 2 - 1) ∧
      ChebyshevI.shelfParams n gainDb r = .ok (u, v) ∧ ChebyshevII.shelfParams n gainDb r = .ok (u, v) := by
  have hlev := shelf_levels hr hr2
  have hp : ∀ x, 0 < Zoelzer.db2mag x := fun x => Real.rpow_pos_of_pos (by norm_num) _
  obtain ⟨eps, u, v, h0, h1, e1, e2, e3, e4, e5, e6, e7, e8, hu, hv, s1, s2⟩ :=
    shelf_angles hn (hp (-gainDb)) (hp (-edgeDb gainDb r)) hlev
  have hne : Zoelzer.db2mag (-edgeDb gainDb r) ≠ 1 := by
    rcases hlev with ⟨-, h⟩ | ⟨h, -⟩
    · exact h.ne
    · exact h.ne'
  have hn' : (n : ℝ) ≠ 0 := by exact_mod_cast hn.ne'
  have hed : -gainDb - (if -gainDb < 0 then -r else r) = -edgeDb gainDb r := by
    unfold edgeDb
    by_cases h : 0 < gainDb
    · rw [if_pos (by linarith), if_pos h]; ring
    · rw [if_neg (by linarith), if_neg h]; ring
  have en : fdiv 1 (n : ℝ) = .ok (1 / n) := by unfold fdiv; rw [if_neg hn']
  have ex : ∀ x : ℝ, fdiv (Real.exp x) 1 = .ok (Real.exp x) := by
    intro x; unfold fdiv; rw [if_neg one_ne_zero, div_one]
  refine ⟨eps, u, v, h0, hu, hv, s1, s2, h1, ?_, ?_⟩
  · unfold ChebyshevI.shelfParams
    simp only []
    rw [if_neg (show ¬ |-gainDb| ≤ r by rw [abs_neg]; linarith), hed, if_neg (by omega), if_pos hne, Real.one_rpow]
    simp only [bind, Except.bind, pure, Except.pure, e1, e2, e3, e4, en, e5, e6, e7, e8, ex, flog_exp]
  · unfold ChebyshevII.shelfParams
    simp only []
    rw [if_neg (show ¬ |-gainDb| ≤ r by rw [abs_neg]; linarith), hed, en]
    simp only [bind, Except.bind]
    rw [if_pos hne]
    simp only [bind, Except.bind, pure, Except.pure, Real.one_rpow, e1, e2, e3, e4, en, e5, e6, e7, e8, ex,
      flog_exp]

/-- The prototype, given the parameters. -/
theorem cheb_shelf_holds {N n : Nat} (hN : n ≤ N) (dbg : Bool) {gainDb r u v : ℝ} :
    (ChebyshevI.shelfParams n gainDb r = .ok (u, v) →
      ∃ a, ChebyshevI.shelfAnalog dbg N n gainDb r (Layout.new N) = .ok a ∧ a.w = Real.pi ∧ a.gain = 1 ∧
      Holds N a ((List.range (n / 2)).map fun k =>
          (some (ChebyshevI.shelfRoot u n k), some (ChebyshevI.shelfRoot v n k)))
        ((oddSingle n (-Real.sinh u) (some (-Real.sinh v))).map
          fun q => (some (q.1 : ℂ), q.2.map Complex.ofReal))) ∧
    (ChebyshevII.shelfParams n gainDb r = .ok (u, v) →
      ∃ a, ChebyshevII.shelfAnalog dbg N n gainDb r (Layout.new N) = .ok a ∧ a.w = Real.pi ∧ a.gain = 1 ∧
      Holds N a ((List.range (n / 2)).map fun k =>
          (some (ChebyshevI.shelfRoot u n k), some (ChebyshevI.shelfRoot v n k)))
        ((oddSingle n (-Real.sinh u) (some (-Real.sinh v))).map
          fun q => (some (q.1 : ℂ), q.2.map Complex.ofReal))) := by
  obtain ⟨l1, h1, h2, h3, h4, h5⟩ := build hN (holds_reset (holds_new N) Real.pi 1)
    (ChebyshevI.shelfRoot u n) (fun k => some (ChebyshevI.shelfRoot v n k))
    (fun l i => l.insertConj (some (ChebyshevI.shelfRoot u n i)) (some (ChebyshevI.shelfRoot v n i)))
    (fun _ _ _ => rfl) (-Real.sinh u) (some (-Real.sinh v)) dbg (fun _ _ => rfl)
  constructor
  · intro hp
    unfold ChebyshevI.shelfAnalog
    rw [if_neg (by omega), hp]
    simp only [bind, Except.bind, pure, Except.pure, h1]
    rcases Nat.mod_two_eq_zero_or_one n with h | h
    · rw [if_neg (by omega)]
      exact ⟨_, rfl, h2, h3, h4 h⟩
    · rw [if_pos h]
      obtain ⟨l2, g1, g2, g3, g4⟩ := h5 h
      exact ⟨l2, g1, g2, g3, g4⟩
  · intro hp
    unfold ChebyshevII.shelfAnalog
    rw [if_neg (by omega), hp]
    simp only [bind, Except.bind, pure, Except.pure, h1]
    rcases Nat.mod_two_eq_zero_or_one n with h | h
    · rw [if_neg (by omega)]
      exact ⟨_, rfl, h2, h3, h4 h⟩
    · rw [if_pos h]
      obtain ⟨l2, g1, g2, g3, g4⟩ := h5 h
      exact ⟨l2, g1, g2, g3, g4⟩

end Edsp.AnalogL
