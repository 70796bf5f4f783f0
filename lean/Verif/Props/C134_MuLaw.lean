import Verif.Model.MuLaw
import Verif.Spec.MuLaw
import Verif.Spec.Segments
import Verif.Lemmas.Memory
import Mathlib.Analysis.SpecialFunctions.Log.Deriv
import Mathlib.Analysis.Convex.SpecificFunctions.Basic

/-! # C134: the µ-law -/

namespace Edsp.C134

open Edsp Edsp.Spec Edsp.Mem Edsp.MuLaw Edsp.Stat

/-! ### The loop -/

theorem transformN_ok {f : ℝ → Except Fault ℝ} {g : ℝ → ℝ} (hf : ∀ x, f x = .ok (g x)) :
    ∀ (n : ℕ) (m : List ℝ) (s d : ℕ), MuLaw.transformN f n m s d = Mem.transformN g n m s d
  | 0, m, s, d => rfl
  | n + 1, m, s, d => by
    simp only [MuLaw.transformN, Mem.transformN, hf, bind, Except.bind]
    rcases read m s with e | v
    · rfl
    · dsimp only
      rcases write m d (g v) with e | w
      · rfl
      · exact transformN_ok hf n w (s + 1) (d + 1)

theorem run_ok {f : ℝ → ℤ → ℝ → Except Fault ℝ} {g : ℝ → ℝ} {A : ℝ} {mu : ℤ} (hA : 0 < A) (hmu : 0 < mu)
    (hf : ∀ x, f A mu x = .ok (g x)) (dbg : Bool) {m : List ℝ} {a b d : ℕ} (hab : a ≤ b) (hb : b ≤ m.length)
    (hd : d + (b - a) ≤ m.length) (ho : d ≤ a ∨ b ≤ d) :
    ∃ m', run f dbg m a b d A mu = .ok m' ∧ Wrote m m' d ((seg m a b).map g) := by
  obtain ⟨m', h1, h2⟩ := Mem.transform_ok g hab hb hd ho
  refine ⟨m', ?_, h2⟩
  rw [← h1]
  unfold run Mem.transform
  rw [if_neg (by simp [hA]), if_neg (by simp [hmu])]
  simp only [bind, Except.bind]
  rcases distance a b with e | n
  · rfl
  · exact transformN_ok hf n m a d

/-! ### The values -/

theorem log_pos {mu : ℤ} (hmu : 0 < mu) : 0 < Real.log (1 + (mu : ℝ)) := by
  have : (0 : ℝ) < mu := by exact_mod_cast hmu
  exact Real.log_pos (by linarith)

theorem sign_abs (x : ℝ) (g : ℝ → ℝ) (h0 : g 0 = 0) :
    Num.sign x * g |x| = SignType.sign x * g |x| := by
  unfold Num.sign
  rcases lt_trichotomy x 0 with h | h | h
  · rw [if_pos h, sign_neg h]; simp
  · subst h; simp [h0]
  · rw [if_neg (not_lt.mpr h.le), sign_pos h]; simp

theorem compress1_ok {A : ℝ} {mu : ℤ} (hA : 0 < A) (hmu : 0 < mu) (x : ℝ) :
    compress1 A mu x = .ok (muLaw A mu x) := by
  have hl := log_pos hmu
  have hm : (0 : ℝ) < mu := by exact_mod_cast hmu
  have h1 : ¬ (1 + (mu : ℝ) * (|x| / A)) ≤ 0 := by
    have : 0 ≤ (mu : ℝ) * (|x| / A) := by positivity
    linarith
  have h2 : ¬ ((1 + mu : ℤ) : ℝ) ≤ 0 := by push_cast; linarith
  simp only [compress1, fdiv, flog, if_neg hA.ne', if_neg h1, if_neg h2, bind, Except.bind]
  push_cast
  rw [if_neg hl.ne']
  congr 1
  have := sign_abs x (fun t => A * Real.log (1 + mu * (t / A)) / Real.log (1 + mu)) (by simp)
  unfold muLaw
  rw [abs_div, abs_of_pos hA]
  calc _ = Num.sign x * (A * Real.log (1 + mu * (|x| / A)) / Real.log (1 + mu)) := by ring
    _ = _ := this
    _ = _ := by ring

theorem expand1_ok {A : ℝ} {mu : ℤ} (hA : 0 < A) (hmu : 0 < mu) (x : ℝ) :
    expand1 A mu x = .ok (mu / Real.log (1 + mu) * muLawInverse A mu x) := by
  have hl := log_pos hmu
  have hm : (0 : ℝ) < mu := by exact_mod_cast hmu
  have h2 : ¬ ((1 + mu : ℤ) : ℝ) ≤ 0 := by push_cast; linarith
  have h3 : ¬ (((1 + mu : ℤ) : ℝ) = 0 ∧ |x| / A < 0) := fun h => h2 h.1.le
  have h4 : ¬ ((1 + mu : ℤ) : ℝ) < 0 := fun h => h2 h.le
  simp only [expand1, fdiv, flog, fpow, if_neg hA.ne', if_neg h2, if_neg h3, if_neg h4, bind, Except.bind]
  push_cast
  rw [if_neg hl.ne']
  congr 1
  have := sign_abs x (fun t => A * ((1 + (mu : ℝ)) ^ (t / A) - 1) / Real.log (1 + mu)) (by simp)
  unfold muLawInverse
  rw [abs_div, abs_of_pos hA]
  calc _ = Num.sign x * (A * ((1 + (mu : ℝ)) ^ (|x| / A) - 1) / Real.log (1 + mu)) := by ring
    _ = _ := this
    _ = _ := by field_simp

/-- **C134**: compression stores the documented characteristic of every sample, in the checked and in the release build,
also in place. -/
theorem C134_compression {A : ℝ} {mu : ℤ} (hA : 0 < A) (hmu : 0 < mu) (dbg : Bool) {m : List ℝ} {a b d : ℕ}
    (hab : a ≤ b) (hb : b ≤ m.length) (hd : d + (b - a) ≤ m.length) (ho : d ≤ a ∨ b ≤ d) :
    ∃ m', compression dbg m a b d A mu = .ok m' ∧ Wrote m m' d ((seg m a b).map (muLaw A mu)) :=
  run_ok hA hmu (compress1_ok hA hmu) dbg hab hb hd ho

example : ∃ m', compression true [1, -1, 0] 0 3 0 1 255 = .ok m' ∧
    Wrote [1, -1, 0] m' 0 ((seg [1, -1, 0] 0 3).map (muLaw 1 (255 : ℤ))) :=
  C134_compression (by norm_num) (by norm_num) true (by norm_num) (by simp) (by simp) (by norm_num)

theorem muLaw_zero (A mu : ℝ) : muLaw A mu 0 = 0 := by simp [muLaw]

theorem muLaw_neg (A mu x : ℝ) : muLaw A mu (-x) = -muLaw A mu x := by
  unfold muLaw
  rw [Left.sign_neg, neg_div, abs_neg]
  push_cast
  ring

theorem muLaw_of_pos {A mu x : ℝ} (hA : 0 < A) (hx : 0 < x) :
    muLaw A mu x = A * (Real.log (1 + mu * (x / A)) / Real.log (1 + mu)) := by
  unfold muLaw
  rw [sign_pos hx, abs_of_pos (div_pos hx hA)]
  simp

/-- **C134**, the characteristic: it is odd, strictly increasing, fixes 0 and the largest sample, and makes every
sample below the largest louder without passing it. -/
theorem C134_characteristic {A mu : ℝ} (hA : 0 < A) (hmu : 0 < mu) :
    (∀ x, muLaw A mu (-x) = -muLaw A mu x) ∧ muLaw A mu 0 = 0 ∧ muLaw A mu A = A ∧ StrictMono (muLaw A mu) ∧
      (∀ x, |x| ≤ A → |x| ≤ |muLaw A mu x| ∧ |muLaw A mu x| ≤ A) ∧
      ∀ x, 0 < |x| → |x| < A → |x| < |muLaw A mu x| := by
  have hl : 0 < Real.log (1 + mu) := Real.log_pos (by linarith)
  have hAA : muLaw A mu A = A := by
    rw [muLaw_of_pos hA hA, div_self hA.ne', mul_one, div_self hl.ne', mul_one]
  have mono : ∀ x y, 0 ≤ x → x < y → muLaw A mu x < muLaw A mu y := by
    intro x y hx hxy
    have hy : 0 < y := lt_of_le_of_lt hx hxy
    have e : muLaw A mu x = A * (Real.log (1 + mu * (x / A)) / Real.log (1 + mu)) := by
      rcases hx.eq_or_lt with rfl | h
      · simp [muLaw]
      · exact muLaw_of_pos hA h
    rw [e, muLaw_of_pos hA hy]
    have : Real.log (1 + mu * (x / A)) < Real.log (1 + mu * (y / A)) := by
      apply Real.log_lt_log
      · positivity
      · gcongr
    gcongr
  have smono : StrictMono (muLaw A mu) := by
    intro x y hxy
    rcases le_or_gt 0 x with hx | hx
    · exact mono x y hx hxy
    · rcases le_or_gt y 0 with hy | hy
      · have := mono (-y) (-x) (by linarith) (by linarith)
        rw [muLaw_neg, muLaw_neg] at this
        linarith
      · have h1 := mono 0 y le_rfl hy
        have h2 := mono 0 (-x) le_rfl (by linarith)
        rw [muLaw_zero] at h1
        rw [muLaw_zero, muLaw_neg] at h2
        linarith
  have habs : ∀ x, |muLaw A mu x| = muLaw A mu |x| := by
    intro x
    rcases le_or_gt 0 x with hx | hx
    · rw [abs_of_nonneg hx, abs_of_nonneg]
      rw [← muLaw_zero A mu]
      exact smono.monotone hx
    · rw [abs_of_neg hx, muLaw_neg, abs_of_neg]
      rw [← muLaw_zero A mu]
      exact smono hx
  have louder : ∀ t, 0 < t → t < A → t < muLaw A mu t := by
    intro t h0 h1
    rw [muLaw_of_pos hA h0]
    have ht0 : 0 < t / A := div_pos h0 hA
    have ht1 : t / A < 1 := (div_lt_one hA).mpr h1
    have h1m : (1 : ℝ) ≠ 1 + mu := by linarith
    have hc := strictConcaveOn_log_Ioi.2 (show (1 : ℝ) ∈ Set.Ioi (0 : ℝ) by simp)
      (show 1 + mu ∈ Set.Ioi (0 : ℝ) by rw [Set.mem_Ioi]; linarith) h1m
      (show 0 < 1 - t / A by linarith) ht0 (by ring)
    simp only [smul_eq_mul, Real.log_one, mul_zero, zero_add] at hc
    rw [show (1 - t / A) * 1 + t / A * (1 + mu) = 1 + mu * (t / A) by ring] at hc
    calc t = A * (t / A * Real.log (1 + mu) / Real.log (1 + mu)) := by field_simp
      _ < _ := by gcongr
  refine ⟨muLaw_neg A mu, muLaw_zero A mu, hAA, smono, ?_, ?_⟩
  · intro x hx
    rw [habs]
    constructor
    · rcases (abs_nonneg x).eq_or_lt with h | h
      · rw [← h, muLaw_zero]
      · rcases hx.eq_or_lt with h' | h'
        · rw [h', hAA]
        · exact (louder _ h h').le
    · calc muLaw A mu |x| ≤ muLaw A mu A := smono.monotone hx
        _ = A := hAA
  · intro x h0 h1
    rw [habs]
    exact louder _ h0 h1

example : |(1 / 2 : ℝ)| < |muLaw 1 255 (1 / 2)| :=
  (C134_characteristic one_pos (by norm_num)).2.2.2.2.2 _ (by norm_num) (by rw [abs_of_pos] <;> norm_num)

theorem inverse_law {A mu : ℝ} (hA : 0 < A) (hmu : 0 < mu) (x : ℝ) : muLawInverse A mu (muLaw A mu x) = x := by
  have hl : 0 < Real.log (1 + mu) := Real.log_pos (by linarith)
  have pos : ∀ t, 0 < t → muLawInverse A mu (muLaw A mu t) = t := by
    intro t ht
    have hr : 0 < Real.log (1 + mu * (t / A)) := Real.log_pos (by
      have : 0 < mu * (t / A) := by positivity
      linarith)
    have hp : 0 < muLaw A mu t := by
      rw [muLaw_of_pos hA ht]
      positivity
    unfold muLawInverse
    rw [sign_pos hp, abs_of_pos (div_pos hp hA), muLaw_of_pos hA ht, mul_div_cancel_left₀ _ hA.ne']
    rw [Real.rpow_def_of_pos (by linarith), mul_div_assoc', mul_div_cancel_left₀ _ hl.ne',
      Real.exp_log (by positivity)]
    simp
    field_simp
  rcases lt_trichotomy x 0 with h | h | h
  · have := pos (-x) (by linarith)
    have e : muLawInverse A mu (-muLaw A mu x) = -muLawInverse A mu (muLaw A mu x) := by
      unfold muLawInverse
      rw [Left.sign_neg, neg_div, abs_neg]
      push_cast
      ring
    rw [muLaw_neg, e] at this
    linarith
  · subst h; simp [muLaw_zero, muLawInverse]
  · exact pos x h

/-- **C134**: expansion stores the documented inverse times `µ / ln(1 + µ)`.
Missing: the inverse itself (`C134_inverse_violates`): line 90 divides by `ln(1 + µ)` instead of `µ`. -/
theorem C134_expansion_partial {A : ℝ} {mu : ℤ} (hA : 0 < A) (hmu : 0 < mu) (dbg : Bool) {m : List ℝ} {a b d : ℕ}
    (hab : a ≤ b) (hb : b ≤ m.length) (hd : d + (b - a) ≤ m.length) (ho : d ≤ a ∨ b ≤ d) :
    ∃ m', expansion dbg m a b d A mu = .ok m' ∧
      Wrote m m' d ((seg m a b).map fun y => mu / Real.log (1 + mu) * muLawInverse A mu y) :=
  run_ok hA hmu (expand1_ok hA hmu) dbg hab hb hd ho

example : ∃ m', expansion true [1, -1, 0] 0 3 0 1 255 = .ok m' ∧
    Wrote [1, -1, 0] m' 0 ((seg [1, -1, 0] 0 3).map fun y =>
      ((255 : ℤ) : ℝ) / Real.log (1 + (255 : ℤ)) * muLawInverse 1 (255 : ℤ) y) :=
  C134_expansion_partial (by norm_num) (by norm_num) true (by norm_num) (by simp) (by simp) (by norm_num)

/-- **C134 is violated**: expansion does not undo compression.  Every sample comes back multiplied by
`µ / ln(1 + µ) > 1` (46 for `µ = 255`), so every sample but 0 comes back too loud. -/
theorem C134_inverse_violates {A : ℝ} {mu : ℤ} (hA : 0 < A) (hmu : 0 < mu) (dbg : Bool) {m : List ℝ} {n : ℕ}
    (hn : n ≤ m.length) :
    ∃ m1 m2, compression dbg m 0 n 0 A mu = .ok m1 ∧ expansion dbg m1 0 n 0 A mu = .ok m2 ∧
      1 < mu / Real.log (1 + mu) ∧
      seg m2 0 n = (seg m 0 n).map fun x => mu / Real.log (1 + mu) * x := by
  have hm : (0 : ℝ) < mu := by exact_mod_cast hmu
  have hl := log_pos hmu
  obtain ⟨m1, e1, w1⟩ := C134_compression hA hmu dbg (m := m) (a := 0) (b := n) (d := 0) (by omega) hn (by omega)
    (Or.inl le_rfl)
  have l1 := wrote_length w1
  obtain ⟨m2, e2, w2⟩ := C134_expansion_partial hA hmu dbg (m := m1) (a := 0) (b := n) (d := 0) (by omega) (by omega)
    (by omega) (Or.inl le_rfl)
  refine ⟨m1, m2, e1, e2, ?_, ?_⟩
  · rw [one_lt_div hl]
    have := Real.log_lt_sub_one_of_pos (x := 1 + (mu : ℝ)) (by linarith) (by linarith)
    linarith
  · have hlen : (seg m 0 n).length = n := by simp [seg, hn]
    have hlen1 : (seg m1 0 n).length = n := by simp [seg, l1, hn]
    have s1 := wrote_seg w1
    have s2 := wrote_seg w2
    rw [List.length_map, hlen, zero_add] at s1
    rw [List.length_map, hlen1, zero_add, s1, List.map_map] at s2
    rw [s2]
    refine List.map_congr_left fun x _ => ?_
    simp only [Function.comp_apply]
    rw [inverse_law hA hm]

example : ∃ m1 m2, compression true [1, -1, 0] 0 3 0 1 255 = .ok m1 ∧ expansion true m1 0 3 0 1 255 = .ok m2 ∧
    1 < ((255 : ℤ) : ℝ) / Real.log (1 + (255 : ℤ)) ∧
    seg m2 0 3 = (seg [1, -1, 0] 0 3).map fun x => ((255 : ℤ) : ℝ) / Real.log (1 + (255 : ℤ)) * x :=
  C134_inverse_violates (by norm_num) (by norm_num) true (by simp)

end Edsp.C134
