import Verif.Model.AnalogDesign
import Verif.Lemmas.Chain
import Verif.Lemmas.PoleProducts

/-! Helper lemmas: the analog prototypes. -/

namespace Edsp.AnalogL

open Edsp Edsp.Spec Edsp.LayoutL Edsp.BilinearL Edsp.PoleProducts Finset

theorem list_prod {A : Type*} [CommMonoid A] (g : Nat → A) (m : Nat) :
    ((List.range m).map g).prod = ∏ k ∈ range m, g k := by
  induction m with
  | zero => simp
  | succ m ih => rw [List.range_succ, List.map_append, List.prod_append, ih, prod_range_succ]; simp

/-- The real pole of an odd order. -/
def oddSingle (n : Nat) (r : ℝ) (z : Option ℝ) : Option (ℝ × Option ℝ) :=
  if n % 2 = 1 then some (r, z) else none

theorem oddSingle_len (n : Nat) (r : ℝ) (z : Option ℝ) :
    n / 2 + (oddSingle n r z).toList.length = (n + 1) / 2 ∧
      2 * (n / 2) + (oddSingle n r z).toList.length = n := by
  unfold oddSingle
  split <;> simp <;> omega

/-- The product over all `n` poles, folded. -/
theorem fold_poles {n : Nat} (g : Nat → ℝ) (h : Nat → ℝ) (r : ℝ) (z : Option ℝ)
    (e : ℝ → ℝ)
    (h1 : ∀ k < n / 2, h k = g k * g (n - 1 - k)) (h2 : n % 2 = 1 → e r = g (n / 2)) :
    (∏ k ∈ range (n / 2), h k) * ((oddSingle n r z).toList.map fun q => e q.1).prod =
      ∏ k ∈ range n, g k := by
  rcases Nat.even_or_odd' n with ⟨m, hm | hm⟩
  · have e1 : n / 2 = m := by omega
    unfold oddSingle
    rw [if_neg (by omega), e1]
    simp only [Option.toList_none, List.map_nil, List.prod_nil, mul_one]
    rw [hm, fold_even]
    apply prod_congr rfl
    intro k hk
    rw [h1 k (by rw [e1]; exact mem_range.mp hk), hm]
  · have e1 : n / 2 = m := by omega
    unfold oddSingle
    rw [if_pos (by omega), e1]
    simp only [Option.toList_some, List.map_cons, List.map_nil, List.prod_cons, List.prod_nil, mul_one]
    rw [h2 (by omega), e1]
    have e2 : ∏ k ∈ range n, g k = ∏ k ∈ range (2 * m + 1), g k := by rw [← hm]
    rw [e2, fold_odd]
    congr 1
    apply prod_congr rfl
    intro k hk
    rw [h1 k (by rw [e1]; exact mem_range.mp hk), hm]
    congr 2

/-- Magnitude of an all-pole prototype. -/
theorem MA_allpole (m : Nat) (P : Nat → ℂ) (n : Nat) (r : ℝ) (x : ℂ) :
    MA m P (fun _ => none) (oddSingle n r none) x =
      ((∏ k ∈ range m, (‖x - P k‖ * ‖x - (starRingEnd ℂ) (P k)‖)) *
        ((oddSingle n r none).toList.map fun q => ‖x - q.1‖).prod)⁻¹ := by
  unfold MA
  rw [list_prod, mul_inv, ← prod_inv_distrib]
  congr 1
  · apply prod_congr rfl
    intro k _
    simp [RA, E, Pt.conj]
  · unfold oddSingle
    split
    · simp [SA, E]
    · simp

theorem MI_allpole (n : Nat) (hn : 0 < n) (r : ℝ) :
    MI (n / 2) (fun _ => none) (oddSingle n r none) = 0 := by
  unfold MI oddSingle
  split
  · simp
  · rw [list_prod]
    have : n / 2 ≠ 0 := by omega
    simp [this]

/-- Magnitude of a prototype whose zeros are all finite. -/
theorem MI_finite (m : Nat) (Z : Nat → ℂ) (n : Nat) (r z : ℝ) :
    MI m (fun k => some (Z k)) (oddSingle n r (some z)) = 1 := by
  unfold MI oddSingle
  split <;> simp

/-- A loop of conjugate insertions followed by an optional single insertion. -/
theorem build {N n : Nat} (hN : n ≤ N) {l0 : Layout} (h0 : Holds N l0 [] none) (P : Nat → ℂ)
    (Z : Nat → Pt) (step : Layout → Nat → Except Fault Layout)
    (hs : ∀ k < n / 2, ∀ l, step l k = l.insertConj (some (P k)) (Z k)) (r : ℝ) (z : Option ℝ)
    (dbg : Bool) (hd : n % 2 = 1 → dbg = true → z.isSome = true) :
    ∃ l1, (List.range (n / 2)).foldlM step l0 = .ok l1 ∧ l1.w = l0.w ∧ l1.gain = l0.gain ∧
      (n % 2 = 0 → Holds N l1 ((List.range (n / 2)).map fun k => (some (P k), Z k))
          ((oddSingle n r z).map fun q => (some (q.1 : ℂ), q.2.map Complex.ofReal))) ∧
      (n % 2 = 1 → ∃ l2, l1.insert dbg (some (r : ℂ)) (z.map Complex.ofReal) = .ok l2 ∧
        l2.w = l0.w ∧ l2.gain = l0.gain ∧
        Holds N l2 ((List.range (n / 2)).map fun k => (some (P k), Z k))
          ((oddSingle n r z).map fun q => (some (q.1 : ℂ), q.2.map Complex.ofReal))) := by
  obtain ⟨l1, h1, h2, h3, h4⟩ := fold_holds h0 (fun k => (some (P k), Z k)) step (n / 2)
    (by omega) hs
  refine ⟨l1, h1, h3, h4, ?_, ?_⟩
  · intro he
    unfold oddSingle
    rw [if_neg (by omega)]
    exact h2
  · intro ho
    obtain ⟨l2, g1, g2, g3, g4⟩ := insert_holds h2 (by simp; omega)
      ((some (r : ℂ), z.map Complex.ofReal) : Pt × Pt) (dbg := dbg) (by
        intro hdb
        have hz := hd ho hdb
        obtain ⟨y, hy⟩ := Option.isSome_iff_exists.mp hz
        rw [hy]
        simp [Pt.imagZero])
    refine ⟨l2, g1, by rw [g3, h3], by rw [g4, h4], ?_⟩
    unfold oddSingle
    rw [if_pos ho]
    exact g2

theorem insert_inf_dbg (l : Layout) (p : Pt) : l.insert true p none = .error .assertion := by
  unfold Layout.insert PzPair.single
  rw [if_pos ⟨rfl, by rintro ⟨-, h⟩; exact h⟩]
  rfl

/-! ### Butterworth -/

theorem butter_pole (n k : Nat) : Butterworth.pole n k = Complex.I * bq n k := by
  unfold Butterworth.pole polar bq
  have : ((Real.pi / 2 + (2 * (k : ℝ) + 1) * Real.pi / (n * 2 : ℕ) : ℝ) : ℂ) * Complex.I =
      Real.pi / 2 * Complex.I + ((2 * (k : ℝ) + 1) * Real.pi / (2 * n) : ℝ) * Complex.I := by
    push_cast; ring
  rw [this, Complex.exp_add, Complex.exp_pi_div_two_mul_I]
  simp

theorem bq_parts (n k : Nat) :
    (bq n k).re = Real.cos ((2 * (k : ℝ) + 1) * Real.pi / (2 * n)) ∧
      (bq n k).im = Real.sin ((2 * (k : ℝ) + 1) * Real.pi / (2 * n)) := by
  unfold bq
  exact ⟨Complex.exp_ofReal_mul_I_re _, Complex.exp_ofReal_mul_I_im _⟩

theorem angle_lt {n k : Nat} (hk : k < n / 2) :
    0 < (2 * (k : ℝ) + 1) * Real.pi / (2 * n) ∧
      (2 * (k : ℝ) + 1) * Real.pi / (2 * n) < Real.pi / 2 := by
  have hpi := Real.pi_pos
  have hn : (0 : ℝ) < n := by
    have : 0 < n := by omega
    exact_mod_cast this
  have h2 : 2 * (k : ℝ) + 1 < n := by
    have : 2 * k + 1 < n := by omega
    exact_mod_cast this
  refine ⟨by positivity, ?_⟩
  rw [div_lt_div_iff₀ (by positivity) two_pos]
  nlinarith

theorem butter_pole_lhp {n k : Nat} (hk : k < n / 2) :
    (Butterworth.pole n k).re < 0 ∧ (Butterworth.pole n k).im ≠ 0 := by
  obtain ⟨h1, h2⟩ := angle_lt hk
  obtain ⟨e1, e2⟩ := bq_parts n k
  have hpi := Real.pi_pos
  rw [butter_pole]
  simp only [Complex.mul_re, Complex.mul_im, Complex.I_re, Complex.I_im, zero_mul, one_mul, zero_sub,
    zero_add, e1, e2]
  refine ⟨?_, ?_⟩
  · have := Real.sin_pos_of_pos_of_lt_pi h1 (by linarith)
    linarith
  · exact (Real.cos_pos_of_mem_Ioo ⟨by linarith, h2⟩).ne'

theorem butter_analog {N n : Nat} (hN : n ≤ N) {dbg : Bool} (hd : n % 2 = 1 → dbg = false) :
    ∃ a, Butterworth.analog dbg N n (Layout.new N) = .ok a ∧ a.w = 0 ∧ a.gain = 1 ∧
      Holds N a ((List.range (n / 2)).map fun k => (some (Butterworth.pole n k), none))
        ((oddSingle n (-1) none).map fun q => (some (q.1 : ℂ), q.2.map Complex.ofReal)) := by
  obtain ⟨l1, h1, h2, h3, h4, h5⟩ := build hN (holds_reset (holds_new N) 0 1) (Butterworth.pole n)
    (fun _ => none) (fun l i => l.insertConj (some (Butterworth.pole n i)) none) (fun _ _ _ => rfl)
    (-1) none dbg (by intro h h'; rw [hd h] at h'; cases h')
  unfold Butterworth.analog
  rw [if_neg (by omega)]
  simp only [bind, Except.bind, pure, Except.pure, h1]
  rcases Nat.mod_two_eq_zero_or_one n with h | h
  · rw [if_neg (by omega)]
    exact ⟨l1, rfl, h2, h3, h4 h⟩
  · rw [if_pos h]
    obtain ⟨l2, g1, g2, g3, g4⟩ := h5 h
    refine ⟨l2, ?_, g2, g3, g4⟩
    simpa using g1

theorem butter_dist (n k : Nat) (hk : k < n / 2) (y : ℝ) :
    ‖Complex.I * (y : ℂ) - Butterworth.pole n k‖ *
      ‖Complex.I * (y : ℂ) - (starRingEnd ℂ) (Butterworth.pole n k)‖ =
      ‖(y : ℂ) - bq n k‖ * ‖(y : ℂ) - bq n (n - 1 - k)‖ := by
  rw [butter_pole, map_mul, Complex.conj_I, bq_neg_conj n k (by omega)]
  have e1 : Complex.I * (y : ℂ) - Complex.I * bq n k = Complex.I * (y - bq n k) := by ring
  have e2 : Complex.I * (y : ℂ) - -Complex.I * (starRingEnd ℂ) (bq n k) =
      Complex.I * (y - -(starRingEnd ℂ) (bq n k)) := by ring
  rw [e1, e2, norm_mul, norm_mul, Complex.norm_I, one_mul, one_mul]

theorem bq_mid {n : Nat} (h : n % 2 = 1) : bq n (n / 2) = Complex.I := by
  unfold bq
  have hn : (n : ℝ) ≠ 0 := by
    have : n ≠ 0 := by omega
    exact_mod_cast this
  have h2 : 2 * ((n / 2 : ℕ) : ℝ) + 1 = n := by
    have : 2 * (n / 2) + 1 = n := by omega
    exact_mod_cast this
  rw [h2]
  have : (n : ℝ) * Real.pi / (2 * n) = Real.pi / 2 := by field_simp
  rw [this]
  push_cast
  exact Complex.exp_pi_div_two_mul_I

theorem butter_prod (n : Nat) (hn : 0 < n) (y : ℝ) :
    (∏ k ∈ range (n / 2), (‖Complex.I * (y : ℂ) - Butterworth.pole n k‖ *
      ‖Complex.I * (y : ℂ) - (starRingEnd ℂ) (Butterworth.pole n k)‖)) *
        ((oddSingle n (-1) none).toList.map fun q => ‖Complex.I * (y : ℂ) - q.1‖).prod =
      Real.sqrt (1 + y ^ (2 * n)) := by
  rw [fold_poles (fun k => ‖(y : ℂ) - bq n k‖) _ (-1) none (fun r => ‖Complex.I * (y : ℂ) - r‖)
    (fun k hk => butter_dist n k hk y)]
  · rw [← bq_prod_norm n hn y, Real.sqrt_sq (prod_nonneg fun _ _ => norm_nonneg _)]
  · intro h
    rw [bq_mid h]
    have : Complex.I * (y : ℂ) - ((-1 : ℝ) : ℂ) = Complex.I * (y - Complex.I) := by
      rw [mul_sub, Complex.I_mul_I]; simp
    rw [this, norm_mul, Complex.norm_I, one_mul]

theorem butter_MA (n : Nat) (hn : 0 < n) (y : ℝ) :
    MA (n / 2) (Butterworth.pole n) (fun _ => none) (oddSingle n (-1) none) (Complex.I * (y : ℂ)) =
      1 / Real.sqrt (1 + y ^ (2 * n)) := by
  rw [MA_allpole, butter_prod n hn y, one_div]

theorem oddSingle_neg {n : Nat} {r : ℝ} (hr : r < 0) {z : Option ℝ} (hz : ∀ c, z = some c → c ≤ 0) :
    ∀ q, oddSingle n r z = some q → q.1 < 0 ∧ ∀ c, q.2 = some c → c ≤ 0 := by
  intro q hq
  unfold oddSingle at hq
  split at hq
  · injection hq with hq; subst hq; exact ⟨hr, hz⟩
  · cases hq

end Edsp.AnalogL
