import Verif.Model.Lee
import Verif.Spec.Spectral
import Verif.Lemmas.Memory
import Verif.Lemmas.Spectral
import Mathlib.Tactic.Linarith
import Mathlib.Tactic.Positivity

/-!
# Lee's recursion
-/

namespace Edsp.Lee

open Finset Edsp.Mem Edsp.Spec

/-- Cosine sum of `n` samples at frequency `k`. -/
noncomputable def S (n : ℕ) (f : ℕ → ℝ) (k : ℕ) : ℝ :=
  ∑ j ∈ range n, f j * Real.cos (Real.pi / n * (j + 1 / 2) * k)

/-- Sum of `n` cosines at the sample `j`. -/
noncomputable def C (n : ℕ) (f : ℕ → ℝ) (j : ℕ) : ℝ :=
  ∑ k ∈ range n, f k * Real.cos (Real.pi / n * k * (j + 1 / 2))

theorem S_congr {n : ℕ} {f g : ℕ → ℝ} (h : ∀ j, j < n → f j = g j) (k : ℕ) : S n f k = S n g k :=
  sum_congr rfl fun j hj => by rw [h j (mem_range.mp hj)]

theorem C_congr {n : ℕ} {f g : ℕ → ℝ} (h : ∀ j, j < n → f j = g j) (k : ℕ) : C n f k = C n g k :=
  sum_congr rfl fun j hj => by rw [h j (mem_range.mp hj)]

theorem twoCos_pos {i h : ℕ} (hi : i < h) : 0 < twoCos i (2 * h) := by
  unfold twoCos
  have hh : (0 : ℝ) < h := by exact_mod_cast (by omega : 0 < h)
  have hi' : (i : ℝ) + 1 ≤ h := by exact_mod_cast hi
  have hpi := Real.pi_pos
  have : 0 < Real.cos (((i : ℝ) + 1 / 2) * Real.pi / ((2 * h : ℕ) : ℝ)) := by
    apply Real.cos_pos_of_mem_Ioo
    have hnn : 0 ≤ ((i : ℝ) + 1 / 2) * Real.pi / ((2 * h : ℕ) : ℝ) := by positivity
    constructor
    · linarith
    · push_cast
      rw [div_lt_iff₀ (by positivity)]
      nlinarith
  linarith

/-- Splitting a sum over `2h` samples into pairs `i`, `2h-1-i`. -/
theorem sum_pairs (h : ℕ) (f : ℕ → ℝ) :
    ∑ j ∈ range (2 * h), f j = ∑ i ∈ range h, (f i + f (2 * h - 1 - i)) := by
  rw [two_mul, sum_range_add, sum_add_distrib]
  congr 1
  rw [← sum_range_reflect]
  refine sum_congr rfl fun i hi => ?_
  have := mem_range.mp hi
  congr 1
  omega

theorem S_even {h : ℕ} (h0 : 0 < h) (f : ℕ → ℝ) (k : ℕ) :
    S (2 * h) f (2 * k) = S h (fun i => f i + f (2 * h - 1 - i)) k := by
  have hh : (h : ℝ) ≠ 0 := Nat.cast_ne_zero.mpr (by omega)
  unfold S
  rw [sum_pairs]
  refine sum_congr rfl fun i hi => ?_
  have hi := mem_range.mp hi
  have e1 : Real.pi / ((2 * h : ℕ) : ℝ) * (i + 1 / 2) * ((2 * k : ℕ) : ℝ) = Real.pi / h * (i + 1 / 2) * k := by
    push_cast; field_simp
  have e2 : Real.pi / ((2 * h : ℕ) : ℝ) * (((2 * h - 1 - i : ℕ) : ℝ) + 1 / 2) * ((2 * k : ℕ) : ℝ) =
      k * (2 * Real.pi) - Real.pi / h * (i + 1 / 2) * k := by
    have : ((2 * h - 1 - i : ℕ) : ℝ) = 2 * h - 1 - i := by
      rw [Nat.cast_sub (by omega), Nat.cast_sub (by omega)]; push_cast; ring
    rw [this]
    push_cast
    field_simp
    ring
  rw [e1, e2, Real.cos_nat_mul_two_pi_sub]
  ring

theorem S_odd {h : ℕ} (h0 : 0 < h) (f : ℕ → ℝ) (k : ℕ) :
    S (2 * h) f (2 * k + 1) =
      S h (fun i => (f i - f (2 * h - 1 - i)) / twoCos i (2 * h)) k +
        S h (fun i => (f i - f (2 * h - 1 - i)) / twoCos i (2 * h)) (k + 1) := by
  have hh : (h : ℝ) ≠ 0 := Nat.cast_ne_zero.mpr (by omega)
  unfold S
  rw [sum_pairs, ← sum_add_distrib]
  refine sum_congr rfl fun i hi => ?_
  have hi := mem_range.mp hi
  have hp := twoCos_pos hi
  have e2 : Real.pi / ((2 * h : ℕ) : ℝ) * (((2 * h - 1 - i : ℕ) : ℝ) + 1 / 2) * ((2 * k + 1 : ℕ) : ℝ) =
      Real.pi - Real.pi / ((2 * h : ℕ) : ℝ) * (i + 1 / 2) * ((2 * k + 1 : ℕ) : ℝ) + k * (2 * Real.pi) := by
    have : ((2 * h - 1 - i : ℕ) : ℝ) = 2 * h - 1 - i := by
      rw [Nat.cast_sub (by omega), Nat.cast_sub (by omega)]; push_cast; ring
    rw [this]
    push_cast
    field_simp
    ring
  have e3 : Real.cos (Real.pi / h * (i + 1 / 2) * k) + Real.cos (Real.pi / h * (i + 1 / 2) * ((k + 1 : ℕ) : ℝ)) =
      twoCos i (2 * h) * Real.cos (Real.pi / ((2 * h : ℕ) : ℝ) * (i + 1 / 2) * ((2 * k + 1 : ℕ) : ℝ)) := by
    have a1 : Real.pi / h * (i + 1 / 2) * k =
        Real.pi / ((2 * h : ℕ) : ℝ) * (i + 1 / 2) * ((2 * k + 1 : ℕ) : ℝ) -
          ((i : ℝ) + 1 / 2) * Real.pi / ((2 * h : ℕ) : ℝ) := by
      push_cast; field_simp; ring
    have a2 : Real.pi / h * (i + 1 / 2) * ((k + 1 : ℕ) : ℝ) =
        Real.pi / ((2 * h : ℕ) : ℝ) * (i + 1 / 2) * ((2 * k + 1 : ℕ) : ℝ) +
          ((i : ℝ) + 1 / 2) * Real.pi / ((2 * h : ℕ) : ℝ) := by
      push_cast; field_simp; ring
    rw [a1, a2, Real.cos_sub, Real.cos_add]
    unfold twoCos
    ring
  rw [e2, Real.cos_add_nat_mul_two_pi, Real.cos_pi_sub, ← mul_add, e3]
  field_simp
  ring

theorem S_top {h : ℕ} (h0 : 0 < h) (g : ℕ → ℝ) : S h g h = 0 := by
  have hh : (h : ℝ) ≠ 0 := Nat.cast_ne_zero.mpr (by omega)
  unfold S
  refine sum_eq_zero fun i _ => ?_
  have : Real.pi / h * (i + 1 / 2) * h = i * Real.pi + Real.pi / 2 := by field_simp
  rw [this, Real.cos_add_pi_div_two, Real.sin_nat_mul_pi]
  simp

theorem cos_mid {h : ℕ} (h0 : 0 < h) (i : ℕ) : Real.cos (Real.pi / h * h * (i + 1 / 2)) = 0 := by
  have hh : (h : ℝ) ≠ 0 := Nat.cast_ne_zero.mpr (by omega)
  have : Real.pi / h * h * (i + 1 / 2) = i * Real.pi + Real.pi / 2 := by field_simp
  rw [this, Real.cos_add_pi_div_two, Real.sin_nat_mul_pi, neg_zero]

/-- The odd half of the inverse recursion. -/
def oddIn (f : ℕ → ℝ) (k : ℕ) : ℝ := if k = 0 then f 1 else f (k * 2 - 1) + f (k * 2 + 1)

/-- Even and odd terms of a sum of `2h` terms. -/
theorem sum_even_odd (h : ℕ) (f : ℕ → ℝ) :
    ∑ k ∈ range (2 * h), f k = ∑ k ∈ range h, (f (2 * k) + f (2 * k + 1)) := by
  induction h with
  | zero => simp
  | succ h ih => rw [show 2 * (h + 1) = 2 * h + 1 + 1 by ring, sum_range_succ, sum_range_succ, ih, sum_range_succ]; ring

theorem C_odd_half {h : ℕ} (h0 : 0 < h) (f : ℕ → ℝ) (i : ℕ) :
    C h (oddIn f) i = twoCos i (2 * h) *
      ∑ k ∈ range h, f (2 * k + 1) * Real.cos (Real.pi / ((2 * h : ℕ) : ℝ) * ((2 * k + 1 : ℕ) : ℝ) * (i + 1 / 2)) := by
  have hh : (h : ℝ) ≠ 0 := Nat.cast_ne_zero.mpr (by omega)
  have e3 : ∀ k : ℕ, twoCos i (2 * h) * (f (2 * k + 1) *
      Real.cos (Real.pi / ((2 * h : ℕ) : ℝ) * ((2 * k + 1 : ℕ) : ℝ) * (i + 1 / 2))) =
      f (2 * k + 1) * Real.cos (Real.pi / h * k * (i + 1 / 2)) +
        f (2 * k + 1) * Real.cos (Real.pi / h * ((k + 1 : ℕ) : ℝ) * (i + 1 / 2)) := by
    intro k
    have a1 : Real.pi / h * k * (i + 1 / 2) =
        Real.pi / ((2 * h : ℕ) : ℝ) * ((2 * k + 1 : ℕ) : ℝ) * (i + 1 / 2) -
          ((i : ℝ) + 1 / 2) * Real.pi / ((2 * h : ℕ) : ℝ) := by
      push_cast; field_simp; ring
    have a2 : Real.pi / h * ((k + 1 : ℕ) : ℝ) * (i + 1 / 2) =
        Real.pi / ((2 * h : ℕ) : ℝ) * ((2 * k + 1 : ℕ) : ℝ) * (i + 1 / 2) +
          ((i : ℝ) + 1 / 2) * Real.pi / ((2 * h : ℕ) : ℝ) := by
      push_cast; field_simp; ring
    rw [a1, a2, Real.cos_sub, Real.cos_add]
    unfold twoCos
    ring
  rw [mul_sum, sum_congr rfl fun k _ => e3 k, sum_add_distrib]
  -- shift the second sum by one; its last term vanishes
  have shift : ∑ k ∈ range h, f (2 * k + 1) * Real.cos (Real.pi / h * ((k + 1 : ℕ) : ℝ) * (i + 1 / 2)) =
      ∑ k ∈ range h, (if k = 0 then 0 else f (k * 2 - 1)) * Real.cos (Real.pi / h * k * (i + 1 / 2)) := by
    obtain ⟨m, rfl⟩ : ∃ m, h = m + 1 := ⟨h - 1, by omega⟩
    rw [sum_range_succ, cos_mid (by omega) i, mul_zero, add_zero, sum_range_succ', if_pos rfl, zero_mul, add_zero]
    refine sum_congr rfl fun k _ => ?_
    rw [if_neg (by omega)]
    congr 2
    omega
  rw [shift, ← sum_add_distrib]
  unfold C
  refine sum_congr rfl fun k _ => ?_
  rw [← add_mul]
  congr 1
  unfold oddIn
  split
  · rename_i hk; subst hk; simp
  · rw [mul_comm k 2]; ring

theorem C_low {h : ℕ} (h0 : 0 < h) (f : ℕ → ℝ) {i : ℕ} (hi : i < h) :
    C (2 * h) f i = C h (fun k => f (k * 2)) i + C h (oddIn f) i / twoCos i (2 * h) := by
  have hp := twoCos_pos hi
  have hh : (h : ℝ) ≠ 0 := Nat.cast_ne_zero.mpr (by omega)
  rw [C_odd_half h0, mul_div_cancel_left₀ _ hp.ne']
  unfold C
  rw [sum_even_odd, sum_add_distrib]
  congr 1
  refine sum_congr rfl fun k _ => ?_
  have : Real.pi / ((2 * h : ℕ) : ℝ) * ((2 * k : ℕ) : ℝ) * (i + 1 / 2) = Real.pi / h * k * (i + 1 / 2) := by
    push_cast; field_simp
  rw [this, mul_comm 2 k]

theorem C_high {h : ℕ} (h0 : 0 < h) (f : ℕ → ℝ) {i : ℕ} (hi : i < h) :
    C (2 * h) f (2 * h - 1 - i) = C h (fun k => f (k * 2)) i - C h (oddIn f) i / twoCos i (2 * h) := by
  have hp := twoCos_pos hi
  have hh : (h : ℝ) ≠ 0 := Nat.cast_ne_zero.mpr (by omega)
  rw [C_odd_half h0, mul_div_cancel_left₀ _ hp.ne']
  unfold C
  rw [sum_even_odd, sum_add_distrib, sub_eq_add_neg, ← sum_neg_distrib]
  have hc : ((2 * h - 1 - i : ℕ) : ℝ) = 2 * h - 1 - i := by
    rw [Nat.cast_sub (by omega), Nat.cast_sub (by omega)]; push_cast; ring
  congr 1
  · refine sum_congr rfl fun k _ => ?_
    have : Real.pi / ((2 * h : ℕ) : ℝ) * ((2 * k : ℕ) : ℝ) * (((2 * h - 1 - i : ℕ) : ℝ) + 1 / 2) =
        k * (2 * Real.pi) - Real.pi / h * k * (i + 1 / 2) := by
      rw [hc]; push_cast; field_simp; ring
    rw [this, Real.cos_nat_mul_two_pi_sub, mul_comm 2 k]
  · refine sum_congr rfl fun k _ => ?_
    have : Real.pi / ((2 * h : ℕ) : ℝ) * ((2 * k + 1 : ℕ) : ℝ) * (((2 * h - 1 - i : ℕ) : ℝ) + 1 / 2) =
        Real.pi - Real.pi / ((2 * h : ℕ) : ℝ) * ((2 * k + 1 : ℕ) : ℝ) * (i + 1 / 2) + k * (2 * Real.pi) := by
      rw [hc]; push_cast; field_simp; ring
    rw [this, Real.cos_add_nat_mul_two_pi, Real.cos_pi_sub]
    ring

/-! ### The loops -/

theorem loop2_ok (p q : ℕ → ℕ) (f g : ℕ → Except Fault ℝ) (F G : ℕ → ℝ) : ∀ (n i0 : ℕ) (m : List ℝ),
    (∀ i, i0 ≤ i → i < i0 + n → f i = .ok (F i) ∧ g i = .ok (G i) ∧ p i < m.length ∧ q i < m.length) →
    (∀ i j, i0 ≤ i → i < i0 + n → i0 ≤ j → j < i0 + n →
      (p i = p j → i = j) ∧ (q i = q j → i = j) ∧ p i ≠ q j) →
    ∃ m', loop2 p q f g n i0 m = .ok m' ∧ m'.length = m.length ∧
      (∀ i, i0 ≤ i → i < i0 + n → m'[p i]? = some (F i) ∧ m'[q i]? = some (G i)) ∧
      ∀ j, (∀ i, i0 ≤ i → i < i0 + n → j ≠ p i ∧ j ≠ q i) → m'[j]? = m[j]?
  | 0, i0, m, _, _ => ⟨m, rfl, rfl, fun i h1 h2 => absurd h2 (by omega), fun _ _ => rfl⟩
  | n + 1, i0, m, h, hinj => by
    obtain ⟨hf, hg, hp, hq⟩ := h i0 (Nat.le_refl _) (by omega)
    obtain ⟨m', h1, h2, h3, h4⟩ := loop2_ok p q f g F G n (i0 + 1) ((m.set (p i0) (F i0)).set (q i0) (G i0))
      (fun i a b => by simpa using h i (by omega) (by omega))
      (fun i j a b c d => hinj i j (by omega) (by omega) (by omega) (by omega))
    refine ⟨m', ?_, by simpa using h2, ?_, ?_⟩
    · simp only [loop2, hf, hg, bind, Except.bind, write_ok hp]
      rw [write_ok (by simpa using hq)]
      exact h1
    · intro i a b
      rcases Nat.eq_or_lt_of_le a with rfl | hlt
      · have hpq := (hinj i0 i0 a b a b).2.2
        constructor
        · rw [h4 (p i0) (fun i a' b' => ⟨fun e => by have := (hinj i0 i a b (by omega) (by omega)).1 e; omega,
            (hinj i0 i a b (by omega) (by omega)).2.2⟩), List.getElem?_set_ne (Ne.symm hpq),
            List.getElem?_set_self hp]
        · rw [h4 (q i0) (fun i a' b' => ⟨Ne.symm (hinj i i0 (by omega) (by omega) a b).2.2,
            fun e => by have := (hinj i0 i a b (by omega) (by omega)).2.1 e; omega⟩),
            List.getElem?_set_self (by simpa using hq)]
      · exact h3 i (by omega) (by omega)
    · intro j hj
      rw [h4 j (fun i a b => hj i (by omega) (by omega)),
        List.getElem?_set_ne (Ne.symm (hj i0 (Nat.le_refl _) (by omega)).2),
        List.getElem?_set_ne (Ne.symm (hj i0 (Nat.le_refl _) (by omega)).1)]

theorem getD_seg {m : List ℝ} {a n : ℕ} (h : a + n ≤ m.length) {i : ℕ} (hi : i < n) :
    m[a + i]? = some ((seg m a (a + n)).getD i 0) := by
  rw [List.getD, seg_getElem?, if_pos (by omega), List.getElem?_eq_getElem (by omega)]
  rfl

theorem read_seg {m : List ℝ} {a n : ℕ} (h : a + n ≤ m.length) {i : ℕ} (hi : i < n) :
    read m (a + i) = .ok ((seg m a (a + n)).getD i 0) := read_ok (getD_seg h hi)

theorem div_ok {a b : ℝ} (h : b ≠ 0) : div a b = .ok (a / b) := by unfold div; rw [if_neg h]

/-- `V'` is `V` but for the cells `[v, v+n)`. -/
def Kept (V V' : List ℝ) (v n : ℕ) : Prop :=
  V'.length = V.length ∧ ∀ j, j < v ∨ v + n ≤ j → V'[j]? = V[j]?

theorem Kept.trans {V V' V'' : List ℝ} {v n v' n' v'' n'' : ℕ} (h : Kept V V' v' n') (h' : Kept V' V'' v'' n'')
    (a : v ≤ v') (b : v' + n' ≤ v + n) (c : v ≤ v'') (d : v'' + n'' ≤ v + n) : Kept V V'' v n :=
  ⟨h'.1.trans h.1, fun j hj => by rw [h'.2 j (by omega), h.2 j (by omega)]⟩

/-- The forward recursion on `n` samples does what it should, wherever it runs. -/
def FwdOk (n : ℕ) : Prop := ∀ (V : List ℝ) (v : ℕ) (T : List ℝ) (t : ℕ) (f : ℕ → ℝ),
  v + n ≤ V.length → t + n ≤ T.length → (∀ i, i < n → V[v + i]? = some (f i)) →
  ∃ V' T', fwd n V v T t = .ok (V', T') ∧ Kept V V' v n ∧ Kept T T' t n ∧
    ∀ k, k < n → V'[v + k]? = some (S n f k)

theorem fwd_one : FwdOk 1 := by
  intro V v T t f hv ht hf
  refine ⟨V, T, ?_, ⟨rfl, fun _ _ => rfl⟩, ⟨rfl, fun _ _ => rfl⟩, ?_⟩
  · unfold fwd; rw [if_pos rfl]
  · intro k hk
    obtain rfl : k = 0 := by omega
    rw [hf 0 hk]
    simp [S]

theorem fwd_step {h : ℕ} (h0 : 0 < h) (ih : FwdOk h) : FwdOk (2 * h) := by
  intro V v T t f hv ht hf
  have hl : ¬ 2 * h = 1 := by omega
  have hl' : ¬ 2 * h = 0 := by omega
  have hh : 2 * h / 2 = h := by omega
  -- the butterflies
  obtain ⟨T1, e1, l1, s1, k1⟩ := loop2_ok (fun i => t + i) (fun i => t + (i + h))
    (fun i => do
      let x ← read V (v + i)
      let y ← read V (v + (2 * h - 1 - i))
      return x + y)
    (fun i => do
      let x ← read V (v + i)
      let y ← read V (v + (2 * h - 1 - i))
      div (x - y) (twoCos i (2 * h)))
    (fun i => f i + f (2 * h - 1 - i)) (fun i => (f i - f (2 * h - 1 - i)) / twoCos i (2 * h)) h 0 T
    (fun i _ hi => by
      have hp := (twoCos_pos (show i < h by omega)).ne'
      refine ⟨?_, ?_, by omega, by omega⟩
      · simp only [read_ok (hf i (by omega)), read_ok (hf (2 * h - 1 - i) (by omega)), bind, Except.bind]
        rfl
      · simp only [read_ok (hf i (by omega)), read_ok (hf (2 * h - 1 - i) (by omega)), bind, Except.bind,
          div_ok hp])
    (fun i j _ hi _ hj => ⟨fun e => by omega, fun e => by omega,
      by omega⟩)
  -- the halves
  obtain ⟨T2, V2, e2, kT2, kV2, s2⟩ := ih T1 t V v (fun i => f i + f (2 * h - 1 - i)) (by omega) (by omega)
    (fun i hi => (s1 i (by omega) (by omega)).1)
  have lT2 := kT2.1
  have lV2 := kV2.1
  obtain ⟨T3, V3, e3, kT3, kV3, s3⟩ := ih T2 (t + h) V2 v (fun i => (f i - f (2 * h - 1 - i)) / twoCos i (2 * h))
    (by omega) (by omega)
    (fun i hi => by rw [kT2.2 _ (by omega), Nat.add_assoc, Nat.add_comm h i]
                    exact (s1 i (by omega) (by omega)).2)
  have lT3 := kT3.1
  have lV3 := kV3.1
  have A : ∀ i, i < h → T3[t + i]? = some (S (2 * h) f (2 * i)) := fun i hi => by
    rw [kT3.2 _ (by omega), s2 i hi, S_even h0]
  have B : ∀ i, i < h → T3[t + (i + h)]? =
      some (S h (fun i => (f i - f (2 * h - 1 - i)) / twoCos i (2 * h)) i) := fun i hi => by
    rw [← s3 i hi]; congr 1; omega
  -- the merge
  obtain ⟨V4, e4, l4, s4, k4⟩ := loop2_ok (fun i => v + (i * 2 + 0)) (fun i => v + (i * 2 + 1))
    (fun i => read T3 (t + i))
    (fun i => do
      let a ← read T3 (t + (i + h))
      let b ← read T3 (t + (i + h + 1))
      return a + b)
    (fun i => S (2 * h) f (2 * i)) (fun i => S (2 * h) f (2 * i + 1)) (h - 1) 0 V3
    (fun i _ hi => by
      refine ⟨read_ok (A i (by omega)), ?_, by omega, by omega⟩
      have b1 := B (i + 1) (by omega)
      rw [show i + 1 + h = i + h + 1 by omega] at b1
      simp only [read_ok (B i (by omega)), read_ok b1, bind, Except.bind]
      rw [S_odd h0]
      rfl)
    (fun i j _ hi _ hj => ⟨fun e => by omega, fun e => by omega,
      by omega⟩)
  have A' := A (h - 1) (by omega)
  have B' := B (h - 1) (by omega)
  rw [show t + (h - 1 + h) = t + (2 * h - 1) by omega] at B'
  have w1 : v + (2 * h - 2) < V4.length := by omega
  refine ⟨(V4.set (v + (2 * h - 2)) (S (2 * h) f (2 * (h - 1)))).set (v + (2 * h - 1))
    (S h (fun i => (f i - f (2 * h - 1 - i)) / twoCos i (2 * h)) (h - 1)), T3, ?_, ?_, ?_, ?_⟩
  · unfold fwd
    rw [if_neg hl, dif_neg hl']
    simp only [hh]
    simp only [bind, Except.bind] at e1 e4 ⊢
    rw [e1]
    dsimp only
    rw [e2]
    dsimp only
    rw [e3]
    dsimp only
    rw [e4]
    dsimp only
    rw [read_ok A']
    dsimp only
    rw [write_ok w1]
    dsimp only
    rw [read_ok B']
    dsimp only
    rw [write_ok (by rw [List.length_set]; omega)]
    rfl
  · refine ⟨by simp only [List.length_set]; omega, fun j hj => ?_⟩
    rw [List.getElem?_set_ne (by omega), List.getElem?_set_ne (by omega),
      k4 j (fun i _ hi => ⟨by omega, by omega⟩), kV3.2 j (by omega), kV2.2 j (by omega)]
  · refine ⟨by omega, fun j hj => ?_⟩
    rw [kT3.2 j (by omega), kT2.2 j (by omega), k1 j (fun i _ hi => ⟨by omega, by omega⟩)]
  · intro k hk
    by_cases h1 : k = 2 * h - 1
    · subst h1
      rw [List.getElem?_set_self (by rw [List.length_set]; omega)]
      obtain ⟨m, rfl⟩ : ∃ m, h = m + 1 := ⟨h - 1, by omega⟩
      rw [show 2 * (m + 1) - 1 = 2 * m + 1 by omega, S_odd h0, S_top h0, add_zero]
      rfl
    · rw [List.getElem?_set_ne (by omega)]
      by_cases h2 : k = 2 * h - 2
      · subst h2
        rw [List.getElem?_set_self w1, show 2 * (h - 1) = 2 * h - 2 by omega]
      · rw [List.getElem?_set_ne (by omega)]
        rcases Nat.mod_two_eq_zero_or_one k with hk2 | hk2
        · have := (s4 (k / 2) (by omega) (by omega)).1
          rwa [show k / 2 * 2 + 0 = k by omega, show 2 * (k / 2) = k by omega] at this
        · have := (s4 (k / 2) (by omega) (by omega)).2
          rwa [show k / 2 * 2 + 1 = k by omega, show 2 * (k / 2) + 1 = k by omega] at this

theorem fwd_ok : ∀ e : ℕ, FwdOk (2 ^ e)
  | 0 => fwd_one
  | e + 1 => by
    rw [Nat.pow_succ, Nat.mul_comm]
    exact fwd_step (Nat.pos_of_ne_zero (by simp)) (fwd_ok e)

/-- The inverse recursion on `n` samples does what it should. -/
def InvOk (n : ℕ) : Prop := ∀ (V : List ℝ) (v : ℕ) (T : List ℝ) (t : ℕ) (f : ℕ → ℝ),
  v + n ≤ V.length → t + n ≤ T.length → (∀ i, i < n → V[v + i]? = some (f i)) →
  ∃ V' T', inv n V v T t = .ok (V', T') ∧ Kept V V' v n ∧ Kept T T' t n ∧
    ∀ k, k < n → V'[v + k]? = some (C n f k)

theorem inv_one : InvOk 1 := by
  intro V v T t f hv ht hf
  refine ⟨V, T, ?_, ⟨rfl, fun _ _ => rfl⟩, ⟨rfl, fun _ _ => rfl⟩, ?_⟩
  · unfold inv; rw [if_pos rfl]
  · intro k hk
    obtain rfl : k = 0 := by omega
    rw [hf 0 hk]
    simp [C]

theorem inv_step {h : ℕ} (h0 : 0 < h) (ih : InvOk h) : InvOk (2 * h) := by
  intro V v T t f hv ht hf
  have hl : ¬ 2 * h = 1 := by omega
  have hl' : ¬ 2 * h = 0 := by omega
  have hh : 2 * h / 2 = h := by omega
  have f0 := hf 0 (by omega)
  have f1 := hf 1 (by omega)
  have w0 : t + 0 < T.length := by omega
  have w1 : t + h < (T.set (t + 0) (f 0)).length := by rw [List.length_set]; omega
  obtain ⟨T1, e1, l1, s1, k1⟩ := loop2_ok (fun i => t + i) (fun i => t + (i + h))
    (fun i => read V (v + i * 2))
    (fun i => do
      let a ← read V (v + (i * 2 - 1))
      let b ← read V (v + (i * 2 + 1))
      return a + b)
    (fun i => f (i * 2)) (fun i => f (i * 2 - 1) + f (i * 2 + 1)) (h - 1) 1
    ((T.set (t + 0) (f 0)).set (t + h) (f 1))
    (fun i a hi => by
      refine ⟨read_ok (hf (i * 2) (by omega)), ?_, by simp only [List.length_set]; omega,
        by simp only [List.length_set]; omega⟩
      simp only [read_ok (hf (i * 2 - 1) (by omega)), read_ok (hf (i * 2 + 1) (by omega)), bind, Except.bind]
      rfl)
    (fun i j a hi b hj => ⟨fun e => by omega, fun e => by omega,
      by omega⟩)
  simp only [List.length_set] at l1
  have P : ∀ i, i < h → T1[t + i]? = some (f (i * 2)) := by
    intro i hi
    by_cases hz : i = 0
    · subst hz
      rw [k1 _ (fun i a hi => ⟨by omega, by omega⟩), List.getElem?_set_ne (by omega),
        List.getElem?_set_self w0]
    · exact (s1 i (by omega) (by omega)).1
  have Q : ∀ i, i < h → T1[t + h + i]? = some (oddIn f i) := by
    intro i hi
    unfold oddIn
    by_cases hz : i = 0
    · subst hz
      rw [k1 _ (fun i a hi => ⟨by omega, by omega⟩), if_pos rfl]
      exact List.getElem?_set_self w1
    · rw [if_neg hz, show t + h + i = t + (i + h) by omega]
      exact (s1 i (by omega) (by omega)).2
  obtain ⟨T2, V2, e2, kT2, kV2, s2⟩ := ih T1 t V v (fun i => f (i * 2)) (by omega) (by omega) P
  have lT2 := kT2.1
  have lV2 := kV2.1
  obtain ⟨T3, V3, e3, kT3, kV3, s3⟩ := ih T2 (t + h) V2 v (oddIn f) (by omega) (by omega)
    (fun i hi => by rw [kT2.2 _ (by omega)]; exact Q i hi)
  have lT3 := kT3.1
  have lV3 := kV3.1
  have A : ∀ i, i < h → T3[t + i]? = some (C h (fun k => f (k * 2)) i) := fun i hi => by
    rw [kT3.2 _ (by omega), s2 i hi]
  have B : ∀ i, i < h → T3[t + (i + h)]? = some (C h (oddIn f) i) := fun i hi => by
    rw [← s3 i hi]; congr 1; omega
  obtain ⟨V4, e4, l4, s4, k4⟩ := loop2_ok (fun i => v + i) (fun i => v + (2 * h - 1 - i))
    (fun i => do
      let x ← read T3 (t + i)
      let y ← div (← read T3 (t + (i + h))) (twoCos i (2 * h))
      return x + y)
    (fun i => do
      let x ← read T3 (t + i)
      let y ← div (← read T3 (t + (i + h))) (twoCos i (2 * h))
      return x - y)
    (fun i => C (2 * h) f i) (fun i => C (2 * h) f (2 * h - 1 - i)) h 0 V3
    (fun i _ hi => by
      have hp := (twoCos_pos (show i < h by omega)).ne'
      refine ⟨?_, ?_, by omega, by omega⟩
      · simp only [read_ok (A i (by omega)), read_ok (B i (by omega)), bind, Except.bind, div_ok hp]
        rw [C_low h0 f (by omega)]
        rfl
      · simp only [read_ok (A i (by omega)), read_ok (B i (by omega)), bind, Except.bind, div_ok hp]
        rw [C_high h0 f (by omega)]
        rfl)
    (fun i j _ hi _ hj => ⟨fun e => by omega, fun e => by omega,
      by omega⟩)
  refine ⟨V4, T3, ?_, ?_, ?_, ?_⟩
  · unfold inv
    rw [if_neg hl, dif_neg hl']
    simp only [hh]
    simp only [bind, Except.bind] at e1 e4 ⊢
    rw [read_ok f0]
    dsimp only
    rw [write_ok w0]
    dsimp only
    rw [read_ok f1]
    dsimp only
    rw [write_ok w1]
    dsimp only
    rw [e1]
    dsimp only
    rw [e2]
    dsimp only
    rw [e3]
    dsimp only
    rw [e4]
    rfl
  · refine ⟨by omega, fun j hj => ?_⟩
    rw [k4 j (fun i _ hi => ⟨by omega, by omega⟩), kV3.2 j (by omega), kV2.2 j (by omega)]
  · refine ⟨by omega, fun j hj => ?_⟩
    rw [kT3.2 j (by omega), kT2.2 j (by omega), k1 j (fun i _ hi => ⟨by omega, by omega⟩),
      List.getElem?_set_ne (by omega), List.getElem?_set_ne (by omega)]
  · intro k hk
    by_cases h1 : k < h
    · exact (s4 k (by omega) (by omega)).1
    · have := (s4 (2 * h - 1 - k) (by omega) (by omega)).2
      rwa [show 2 * h - 1 - (2 * h - 1 - k) = k by omega] at this

theorem inv_ok : ∀ e : ℕ, InvOk (2 ^ e)
  | 0 => inv_one
  | e + 1 => by
    rw [Nat.pow_succ, Nat.mul_comm]
    exact inv_step (Nat.pos_of_ne_zero (by simp)) (inv_ok e)

theorem wrote_of_kept {V V' : List ℝ} {v n : ℕ} {g : ℕ → ℝ} (hv : v + n ≤ V.length) (k : Kept V V' v n)
    (h : ∀ i, i < n → V'[v + i]? = some (g i)) : Wrote V V' v ((List.range n).map g) := by
  rw [wrote_iff]
  refine ⟨by simpa using hv, k.1, fun i hi => ?_, fun j hj => k.2 j (by simpa using hj)⟩
  have hi' : i < n := by simpa using hi
  rw [h i hi', List.getElem?_map, List.getElem?_range hi']
  rfl

end Edsp.Lee
