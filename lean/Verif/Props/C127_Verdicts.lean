import Verif.Model.Verdicts
import Verif.Props.C51_Temporal
import Verif.Props.C94_RoundedSums
import Verif.Props.C106_NanReductions

/-!
# C127: `silence` and `equal`

The specification: the power of a frame is the mean of the squares of its samples; two ranges are equal if they are the
same sequence.
-/

namespace Edsp.Props

open Edsp Edsp.Spec Edsp.Verdict Edsp.FloatL

/-- The sum of the squares. -/
def squareSum (x : List ℝ) : ℝ := (x.map fun v => v ^ 2).sum

theorem squareSum_nonneg (x : List ℝ) : 0 ≤ squareSum x := List.sum_nonneg (by
  intro y hy
  obtain ⟨z, _, rfl⟩ := List.mem_map.mp hy
  positivity)

theorem innerSelf_squareSum (x : List ℝ) : ∀ a, Seq.innerSelf a x = a + squareSum x := by
  induction x with
  | nil => intro a; simp [Seq.innerSelf, squareSum]
  | cons v x ih =>
    intro a
    have := ih (a + v * v)
    simp only [Seq.innerSelf, List.foldl_cons, squareSum, List.map_cons, List.sum_cons] at this ⊢
    rw [this]
    ring

theorem silence_ok {x : List ℝ} (hx : x ≠ []) (t : ℝ) : Seq.silence x t = .ok (decide (squareSum x / x.length < t)) := by
  have hl : (x.length : ℝ) ≠ 0 := by exact_mod_cast (List.length_pos_of_ne_nil hx).ne'
  simp only [Seq.silence, Seq.power, if_neg hl, bind, Except.bind, pure, Except.pure, Seq.energy, innerSelf_squareSum, zero_add]

/-- **C127**, `silence`: the verdict of every frame with samples is that the mean of the squares is below the threshold. -/
theorem C127_silence {x : List ℝ} (hx : x ≠ []) (t : ℝ) :
    ∃ b, Seq.silence x t = .ok b ∧ (b = true ↔ (x.map fun v => v ^ 2).sum < t * x.length) := by
  have hl : (0 : ℝ) < x.length := by exact_mod_cast List.length_pos_of_ne_nil hx
  refine ⟨_, silence_ok hx t, ?_⟩
  rw [decide_eq_true_iff, div_lt_iff₀ hl]
  rfl

example : Seq.silence [(3 : ℝ), 4] 12.5 = .ok false ∧ Seq.silence [(3 : ℝ), 4] 12.6 = .ok true := by
  constructor <;> (rw [silence_ok (by simp)]; norm_num [squareSum])

theorem silent_iff {x : List ℝ} (hx : x ≠ []) (t : ℝ) : Seq.silence x t = .ok true ↔ squareSum x < t * x.length := by
  obtain ⟨b, h1, h2⟩ := C127_silence hx t
  rw [h1]
  constructor
  · intro h
    injection h with h
    exact h2.mp h
  · intro h
    rw [h2.mpr h]

/-- **C127**, `silence`: a frame whose samples are no larger than those of a silent one is silent, also for a higher
threshold; two silent frames in a row are a silent frame, and of a silent frame cut in two one part is silent; all-zero
samples are silent for the positive thresholds. -/
theorem C127_silence_laws {x y : List ℝ} (hx : x ≠ []) (hy : y ≠ []) {s t : ℝ} :
    (List.Forall₂ (fun a b => |a| ≤ |b|) y x → s ≤ t → Seq.silence x s = .ok true → Seq.silence y t = .ok true) ∧
    (Seq.silence x t = .ok true → Seq.silence y t = .ok true → Seq.silence (x ++ y) t = .ok true) ∧
    (Seq.silence (x ++ y) t = .ok true → Seq.silence x t = .ok true ∨ Seq.silence y t = .ok true) ∧
    ∀ n : ℕ, (Seq.silence (List.replicate (n + 1) 0) t = .ok true ↔ 0 < t) := by
  have hxy : x ++ y ≠ [] := by simp [hx]
  have happ : squareSum (x ++ y) = squareSum x + squareSum y := by simp [squareSum]
  have hlen : ((x ++ y).length : ℝ) = x.length + y.length := by simp
  rw [silent_iff hx, silent_iff hx, silent_iff hy, silent_iff hxy, happ, hlen]
  refine ⟨?_, ?_, ?_, ?_⟩
  · intro h hst hs
    have h1 : squareSum y ≤ squareSum x := by
      clear hx hy hxy happ hlen hs
      induction h with
      | nil => exact le_rfl
      | cons hab _ ih =>
        have := sq_le_sq.mpr hab
        simp only [squareSum, List.map_cons, List.sum_cons] at ih ⊢
        linarith
    have h2 : (y.length : ℝ) = x.length := by rw [h.length_eq]
    have h3 : s * x.length ≤ t * x.length := mul_le_mul_of_nonneg_right hst (by positivity)
    rw [h2]
    linarith
  · intro h1 h2
    linarith
  · intro h
    by_contra hc
    rw [not_or, not_lt, not_lt] at hc
    linarith [hc.1, hc.2]
  · intro n
    rw [silent_iff (by simp)]
    have : squareSum (List.replicate (n + 1) 0) = 0 := by simp [squareSum]
    rw [this, List.length_replicate]
    exact mul_pos_iff_of_pos_right (by positivity)

/-- Frames that meet the hypotheses: [1, 1] is silent for the threshold 2, [1, -1/2] is no larger. -/
example : Seq.silence [(1 : ℝ), -1 / 2] 3 = .ok true :=
  (C127_silence_laws (x := [1, 1]) (y := [1, -1 / 2]) (by simp) (by simp) (s := 2) (t := 3)).1
    (.cons (by norm_num) (.cons (by norm_num [abs_of_neg]) .nil)) (by norm_num)
    ((silent_iff (by simp) _).mpr (by norm_num [squareSum]))

/-- **C127 is violated** at the threshold: the documentation calls a frame with a power "up to a threshold" silent, but a
frame whose power is the threshold is not; so no frame at all, not even one of zeros, is silent for the threshold 0. -/
theorem C127_upto_violates {x : List ℝ} (hx : x ≠ []) :
    Seq.silence x ((x.map fun v => v ^ 2).sum / x.length) = .ok false ∧ Seq.silence x 0 = .ok false := by
  rw [silence_ok hx, silence_ok hx]
  have h0 : 0 ≤ squareSum x / x.length := div_nonneg (squareSum_nonneg x) (by positivity)
  exact ⟨congrArg _ (decide_eq_false (lt_irrefl _)), by rw [decide_eq_false (not_lt.mpr h0)]⟩

/-- **C127**, `silence` in floating point: of a frame of at most 2^p samples the verdict is right unless the power is
within a factor of `(1 + 2^-p)^(n + 2)` of the threshold.  Missing: powers nearer to the threshold
(`C127_rounded_violates`). -/
theorem C127_rounded_partial {p : ℕ} (hp : 1 ≤ p) {x : List ℝ} (hx : x ≠ []) (hn : x.length ≤ 2 ^ p) (t : ℝ) {P : ℝ}
    (hP : P = (x.map fun v => v ^ 2).sum / x.length) :
    (P * (1 + (2 : ℝ) ^ (-(p : ℤ))) ^ (x.length + 2) < t → silence p x t = true) ∧
    (t ≤ P * (2 - (1 + (2 : ℝ) ^ (-(p : ℤ))) ^ (x.length + 2)) → silence p x t = false) := by
  obtain ⟨w, h1, -, h3⟩ := Rounded.C94_power_partial hp hx hn
  rw [← hP, abs_le] at h3
  simp only [silence, h1]
  constructor
  · intro h
    exact decide_eq_true (by linarith [h3.2])
  · intro h
    exact decide_eq_false (not_lt.mpr (by linarith [h3.1]))

example : silence 24 [3, 4] 12.6 = true ∧ silence 24 [3, 4] 12.4 = false := by
  have h := fun t => C127_rounded_partial (p := 24) (by norm_num) (x := [3, 4]) (by simp) (by norm_num) t rfl
  constructor
  · exact (h _).1 (by norm_num)
  · exact (h _).2 (by norm_num)

theorem two_zpow_float {p : ℕ} (hp : 1 ≤ p) (e : ℤ) : IsFloat p ((2 : ℝ) ^ e) := by
  have := isFloat_int (p := p) hp e (m := 1) (by rw [abs_one]; exact one_le_pow₀ (by norm_num))
  simpa using this

theorem energy_ones {p : ℕ} (hp : 1 ≤ p) {s : ℝ} (h1 : rnd p (s * s) = s * s) (h2 : s * s < 2 ^ (-(p : ℤ))) (n : ℕ) :
    Rounded.energy p (1 :: List.replicate n s) = 1 := by
  have h0 : rnd p 1 = 1 := by simpa using rnd_float (two_zpow_float hp 0)
  have key : ∀ n, (List.replicate n s).foldl (fun a x => rnd p (a + rnd p (x * x))) 1 = 1 := by
    intro n
    induction n with
    | zero => rfl
    | succ n ih =>
      have := FloatL.rnd_absorb (p := p) (t := 1) (d := s * s) (e := 0) (by simpa using two_zpow_float hp 0) (by norm_num)
        (by norm_num) (mul_self_nonneg s) (by simpa using h2)
      rw [List.replicate_succ, List.foldl_cons, h1, this, ih]
  rw [Rounded.energy, List.foldl_cons, one_mul, h0, zero_add, h0, key]

/-- **C127 is violated** in every precision near the threshold: the frame of a 1 and fifteen samples 2^-j, where
p < 2 j ≤ p + 2, is silent for a threshold that is a number with `p` bits and less than its power. -/
theorem C127_rounded_violates {p j : ℕ} (hp : 1 ≤ p) (h1 : p < 2 * j) (h2 : 2 * j ≤ p + 2) {x : List ℝ}
    (hx : x = 1 :: List.replicate 15 ((2 : ℝ) ^ (-(j : ℤ)))) :
    ∃ t, IsFloat p t ∧ t < (x.map fun v => v ^ 2).sum / x.length ∧ silence p x t = true := by
  have hs : (2 : ℝ) ^ (-(j : ℤ)) * 2 ^ (-(j : ℤ)) = 2 ^ (-(2 * j : ℤ)) := by
    rw [← zpow_add₀ (by norm_num)]
    congr 1
    ring
  have hu := two_zpow_pos (-(p : ℤ))
  have hE : Rounded.energy p x = 1 := by
    rw [hx]
    refine energy_ones hp ?_ ?_ 15
    · rw [hs]
      exact rnd_float (two_zpow_float hp _)
    · rw [hs]
      exact zpow_lt_zpow_right₀ (by norm_num) (by omega)
  have hl : (x.length : ℝ) = 16 := by rw [hx]; norm_num
  have h16 : rnd p (16 : ℝ) = 16 := by
    have := rnd_float (two_zpow_float hp 4)
    norm_num at this
    exact this
  have h16' : rnd p (1 / 16 : ℝ) = 1 / 16 := by
    have := rnd_float (two_zpow_float hp (-4))
    norm_num at this ⊢
    exact this
  have hw : Rounded.power p x = some (1 / 16) := by
    rw [Rounded.power, hE, hl, h16, Rounded.quotient, if_neg (by norm_num), h16']
  refine ⟨(1 + 2 * 2 ^ (-(p : ℤ))) / 16, ?_, ?_, ?_⟩
  · obtain ⟨c, rfl⟩ : ∃ c, p = c + 1 := ⟨p - 1, by omega⟩
    have := isFloat_int (p := c + 1) hp (-(c : ℤ) - 4) (m := 2 ^ c + 1) (by
      have h : (1 : ℤ) ≤ 2 ^ c := one_le_pow₀ (by norm_num)
      rw [abs_of_pos (by positivity), pow_succ]
      linarith)
    have e : (((2 ^ c + 1 : ℤ) : ℝ)) * 2 ^ (-(c : ℤ) - 4) = (1 + 2 * 2 ^ (-((c + 1 : ℕ) : ℤ))) / 16 := by
      push_cast
      rw [zpow_sub₀ (by norm_num), neg_add, zpow_add₀ (by norm_num), zpow_neg, zpow_natCast]
      field_simp
      norm_num
    rwa [e] at this
  · have hq : (2 : ℝ) ^ (-(p : ℤ)) / 4 ≤ 2 ^ (-(2 * j : ℤ)) := by
      have : (2 : ℝ) ^ (-(p : ℤ) - 2) ≤ 2 ^ (-(2 * j : ℤ)) := zpow_le_zpow_right₀ (by norm_num) (by omega)
      rw [zpow_sub₀ (by norm_num)] at this
      norm_num at this ⊢
      exact this
    rw [hl, hx]
    have : ((1 :: List.replicate 15 ((2 : ℝ) ^ (-(j : ℤ)))).map fun v => v ^ 2).sum = 1 + 15 * 2 ^ (-(2 * j : ℤ)) := by
      rw [← hs]
      simp only [List.map_cons, List.map_replicate, List.sum_cons, List.sum_replicate, nsmul_eq_mul, pow_two]
      norm_num
    rw [this]
    linarith
  · simp only [silence, hw]
    exact decide_eq_true (by linarith)

/-- `float` with j = 13, `double` with j = 27. -/
example : ∃ t, IsFloat 24 t ∧ silence 24 (1 :: List.replicate 15 ((2 : ℝ) ^ (-((13 : ℕ) : ℤ)))) t = true := by
  obtain ⟨t, h1, -, h3⟩ := C127_rounded_violates (p := 24) (j := 13) (by norm_num) (by norm_num) (by norm_num) rfl
  exact ⟨t, h1, h3⟩

/-- Not below zero: NaN, the positive infinity, or a number that is not negative. -/
def NotNeg : Ext → Prop
  | .nan => True
  | .inf s => s = false
  | .fin x => 0 ≤ x

theorem round_notNeg {p : ℕ} (hp : 1 ≤ p) {M x : ℝ} (hx : 0 ≤ x) : NotNeg (Ext.round (rnd p) M x) := by
  unfold Ext.round
  split
  · have := rnd_mono hp hx
    rwa [rnd_zero] at this
  · exact decide_eq_false (not_lt.mpr hx)

theorem power_notNeg {p : ℕ} (hp : 1 ≤ p) {M : ℝ} (l : List Ext) :
    NotNeg (Extended.power (Ext.round (rnd p) M) l) := by
  have hadd : ∀ a v, NotNeg a → NotNeg (Ext.add (Ext.round (rnd p) M) a (Ext.mul (Ext.round (rnd p) M) v v)) := by
    intro a v ha
    have hm : NotNeg (Ext.mul (Ext.round (rnd p) M) v v) := by
      cases v with
      | nan => trivial
      | inf s => cases s <;> rfl
      | fin x => exact round_notNeg hp (mul_self_nonneg x)
    generalize Ext.mul (Ext.round (rnd p) M) v v = b at hm
    cases a with
    | nan => cases b <;> trivial
    | inf s =>
      cases ha
      cases b with
      | nan => trivial
      | inf s' => cases hm; exact rfl
      | fin y => exact rfl
    | fin x =>
      cases b with
      | nan => trivial
      | inf s' => cases hm; exact rfl
      | fin y => exact round_notNeg hp (add_nonneg ha hm)
  have hs : ∀ a, NotNeg a → NotNeg (Extended.squares (Ext.round (rnd p) M) a l) := by
    induction l with
    | nil => exact fun a ha => ha
    | cons v l ih => exact fun a ha => ih _ (hadd a v ha)
  have hn := round_notNeg (M := M) hp (show (0 : ℝ) ≤ (l.length : ℝ) by positivity)
  have he := hs (.fin 0) (le_refl (0 : ℝ))
  unfold Extended.power Extended.energy
  generalize Ext.round (rnd p) M (l.length : ℝ) = b at hn
  generalize Extended.squares (Ext.round (rnd p) M) (.fin 0) l = a at he
  cases a with
  | nan => cases b <;> trivial
  | inf s =>
    cases he
    cases b with
    | nan => trivial
    | inf s' => trivial
    | fin y => simpa [Ext.div, NotNeg] using hn
  | fin x =>
    cases b with
    | nan => trivial
    | inf s' => exact le_refl (0 : ℝ)
    | fin y =>
      have hx : ¬ x < 0 := not_lt.mpr he
      simp only [Ext.div]
      split
      · split
        · trivial
        · simpa [NotNeg] using hx
      · exact round_notNeg hp (div_nonneg he hn)

/-- **C127**, `silence`: a frame with a sample that is not finite, and a frame without samples, is not silent for any
threshold. -/
theorem C127_not_finite {p : ℕ} (hp : 1 ≤ p) {M : ℝ} (hM : 0 < M) (t : Ext) :
    (∀ l : List Ext, (∃ v ∈ l, ¬ v.Finite) → silenceExt (Ext.round (rnd p) M) l t = false) ∧
    silenceExt (Ext.round (rnd p) M) [] t = false ∧ ∀ t' : ℝ, silence p [] t' = false := by
  have hl : ∀ a : Ext, (a = .nan ∨ a = .inf false) → Extended.less a t = false := by
    intro a ha
    unfold Extended.less
    rw [decide_eq_false_iff_not]
    rcases ha with rfl | rfl <;> cases t <;> simp [Ext.Lt]
  refine ⟨?_, ?_, ?_⟩
  · intro l h
    have h1 := (Extended.C106_sums (Ext.round (rnd p) M) h).2.2.1
    have h2 := power_notNeg hp (M := M) l
    refine hl _ ?_
    generalize Extended.power (Ext.round (rnd p) M) l = a at h1 h2
    cases a with
    | nan => exact Or.inl rfl
    | inf s => exact Or.inr (congrArg _ h2)
    | fin x => exact absurd trivial h1
  · refine hl _ (Or.inl ?_)
    simp [Extended.power, Extended.energy, Extended.squares, Ext.round, rnd_zero, hM, Ext.div]
  · intro t'
    simp [silence, Rounded.power, Rounded.quotient, rnd_zero]

example : silenceExt (Ext.round (rnd 24) (2 ^ 128)) [.fin 0, .nan, .fin 0] (.fin 1) = false :=
  (C127_not_finite (by norm_num) (by norm_num) _).1 _ ⟨.nan, by simp, id⟩

/-- **C127**, `equal`: true of the same sequences and of no others, with a predicate of the sequences of the same length
with related elements. -/
theorem C127_equal {x y : List ℝ} {α β : Type} {r : α → β → Bool} {l : List α} {m : List β} :
    (Seq.equal x y = true ↔ x = y) ∧
    (equalBy r l m = true ↔ l.length = m.length ∧ ∀ (i : ℕ) a b, l[i]? = some a → m[i]? = some b → r a b = true) := by
  constructor
  · induction x generalizing y with
    | nil => cases y <;> simp [Seq.equal]
    | cons a x ih => cases y <;> simp [Seq.equal, ih]
  · induction l generalizing m with
    | nil => cases m <;> simp [equalBy]
    | cons a l ih =>
      cases m with
      | nil => simp [equalBy]
      | cons b m =>
        rw [equalBy, Bool.and_eq_true, ih]
        constructor
        · rintro ⟨h1, h2, h3⟩
          refine ⟨by simp [h2], ?_⟩
          intro i a' b' ha hb
          cases i with
          | zero => simp at ha hb; rw [← ha, ← hb]; exact h1
          | succ i => exact h3 i a' b' (by simpa using ha) (by simpa using hb)
        · rintro ⟨h1, h2⟩
          exact ⟨h2 0 a b rfl rfl, by simpa using h1, fun i a' b' ha hb => h2 (i + 1) a' b' (by simpa using ha) (by simpa using hb)⟩

example : equalBy (fun a b => decide (|a - b| ≤ (1 : ℤ))) [1, 5] [2, 4] = true ∧
    equalBy (fun a b => decide (|a - b| ≤ (1 : ℤ))) [1, 5] [2] = false := by decide

/-- **C127**, `equal` on sequences without NaN: infinities are equal to themselves; true of the same sequences and of no
others.  Missing: NaN (`C127_equal_violates`). -/
theorem C127_equal_partial {x y : List Ext} (hx : Ext.nan ∉ x) : equalExt x y = true ↔ x = y := by
  unfold equalExt
  induction x generalizing y with
  | nil => cases y <;> simp [equalBy]
  | cons a x ih =>
    rw [List.mem_cons, not_or] at hx
    cases y with
    | nil => simp [equalBy]
    | cons b y =>
      rw [equalBy, Bool.and_eq_true, ih hx.2, List.cons.injEq]
      have : eqExt a b = true ↔ a = b := by
        cases a with
        | nan => exact absurd rfl hx.1
        | inf s => cases b <;> simp [eqExt]
        | fin v => cases b <;> simp [eqExt]
      rw [this]

example : equalExt [.fin 1, .inf true] [.fin 1, .inf false] = false := by
  rw [Bool.eq_false_iff, Ne, C127_equal_partial (by simp)]
  simp

/-- **C127 is violated** by NaN: a range with a NaN is not equal to any range, not even to itself. -/
theorem C127_equal_violates {x : List Ext} (hx : Ext.nan ∈ x) (y : List Ext) : equalExt x y = false := by
  unfold equalExt
  induction x generalizing y with
  | nil => cases hx
  | cons a x ih =>
    cases y with
    | nil => rfl
    | cons b y =>
      rw [equalBy]
      rcases List.mem_cons.mp hx with rfl | h
      · simp [eqExt]
      · rw [ih h, Bool.and_false]

end Edsp.Props
