import Verif.Model.Converters
import Mathlib.Analysis.SpecialFunctions.Log.Monotone
import Mathlib.Tactic.NormNum
import Mathlib.Tactic.FieldSimp
import Mathlib.Tactic.Linarith

/-!
# C36: unit converters; C37: the Bark scale
-/

namespace Edsp.C36
open Edsp.Conv

theorem log10_ok {x : ℝ} (h : 0 < x) : log10 x = .ok (Real.logb 10 x) := by simp [log10, not_le.2 h]
theorem log_ok {x : ℝ} (h : 0 < x) : Conv.log x = .ok (Real.log x) := by simp [Conv.log, not_le.2 h]

theorem mag2db_ok (dbg : Bool) {x : ℝ} (h : 0 < x) : mag2db dbg x = .ok (20 * Real.logb 10 x) := by
  simp [mag2db, h, log10_ok h, bind, Except.bind, pure, Except.pure]

theorem pow2db_ok (dbg : Bool) {x : ℝ} (h : 0 < x) : pow2db dbg x = .ok (10 * Real.logb 10 x) := by
  simp [pow2db, h, log10_ok h, bind, Except.bind, pure, Except.pure]

/-- **C36 (decibels).**  For positive arguments `mag2db`/`pow2db` are inverse to `db2mag`/`db2pow` in both
directions and all four are strictly increasing; `pow2db(m²) = mag2db(m)`. -/
theorem C36_decibel (dbg : Bool) :
    (∀ d, mag2db dbg (db2mag d) = .ok d ∧ pow2db dbg (db2pow d) = .ok d ∧ 0 < db2mag d ∧ 0 < db2pow d) ∧
    (∀ x, 0 < x → ∃ d e, mag2db dbg x = .ok d ∧ db2mag d = x ∧ pow2db dbg x = .ok e ∧ db2pow e = x) ∧
    (∀ x y dx dy ex ey, 0 < x → x < y → mag2db dbg x = .ok dx → mag2db dbg y = .ok dy →
      pow2db dbg x = .ok ex → pow2db dbg y = .ok ey → dx < dy ∧ ex < ey) ∧
    (∀ d e, d < e → db2mag d < db2mag e ∧ db2pow d < db2pow e) ∧
    (∀ x, 0 < x → pow2db dbg (x ^ 2) = mag2db dbg x) := by
  have h10 : (0 : ℝ) < 10 := by norm_num
  have h1 : (1 : ℝ) < 10 := by norm_num
  refine ⟨fun d => ?_, fun x hx => ?_, ?_, ?_, fun x hx => ?_⟩
  · have p1 : 0 < db2mag d := Real.rpow_pos_of_pos h10 _
    have p2 : 0 < db2pow d := Real.rpow_pos_of_pos h10 _
    refine ⟨?_, ?_, p1, p2⟩
    · rw [mag2db_ok dbg p1, db2mag, Real.logb_rpow h10 h1.ne']
      congr 1; ring
    · rw [pow2db_ok dbg p2, db2pow, Real.logb_rpow h10 h1.ne']
      congr 1; ring
  · refine ⟨_, _, mag2db_ok dbg hx, ?_, pow2db_ok dbg hx, ?_⟩
    · rw [db2mag, show 20 * Real.logb 10 x / 20 = Real.logb 10 x by ring, Real.rpow_logb h10 h1.ne' hx]
    · rw [db2pow, show 10 * Real.logb 10 x / 10 = Real.logb 10 x by ring, Real.rpow_logb h10 h1.ne' hx]
  · intro x y dx dy ex ey hx hxy e1 e2 e3 e4
    rw [mag2db_ok dbg hx] at e1
    rw [mag2db_ok dbg (hx.trans hxy)] at e2
    rw [pow2db_ok dbg hx] at e3
    rw [pow2db_ok dbg (hx.trans hxy)] at e4
    cases e1; cases e2; cases e3; cases e4
    have := Real.logb_lt_logb h1 hx hxy
    constructor <;> linarith
  · intro d e h
    exact ⟨Real.rpow_lt_rpow_of_exponent_lt h1 (by linarith), Real.rpow_lt_rpow_of_exponent_lt h1 (by linarith)⟩
  · rw [pow2db_ok dbg (by positivity), mag2db_ok dbg hx, Real.logb_pow]
    congr 1; push_cast; ring

/-- **C36 (non-positive levels).**  They fail the assertion in a debug build and leave the domain of the logarithm
in a release build. -/
theorem C36_decibel_domain (x : ℝ) (hx : x ≤ 0) :
    mag2db true x = .error .assertion ∧ mag2db false x = .error .domain ∧
    pow2db true x = .error .assertion ∧ pow2db false x = .error .domain := by
  simp [mag2db, pow2db, not_lt.2 hx, log10, hx, bind, Except.bind, throw, throwThe, MonadExceptOf.throw]

example : (-1 : ℝ) ≤ 0 := by norm_num

/-- **C36 (angles).**  Degrees and radians are converted into each other; 180 degrees are π. -/
theorem C36_angle (x : ℝ) : rad2deg (deg2rad x) = x ∧ deg2rad (rad2deg x) = x ∧ deg2rad 180 = Real.pi ∧
    ∀ y, x < y → deg2rad x < deg2rad y ∧ rad2deg x < rad2deg y := by
  have hp := Real.pi_pos
  refine ⟨by rw [rad2deg, deg2rad]; field_simp, by rw [rad2deg, deg2rad]; field_simp, by rw [deg2rad]; ring, ?_⟩
  intro y h
  have h1 := mul_lt_mul_of_pos_right h hp
  have h2 := div_lt_div_of_pos_right h hp
  rw [deg2rad, deg2rad, rad2deg, rad2deg]
  constructor <;> linarith

theorem hertz2mel_ok {f : ℝ} (h : -700 < f) : hertz2mel f = .ok (1127.01048 * Real.log (1 + f / 700)) := by
  have : 0 < 1 + f / 700 := by linarith
  simp only [hertz2mel, log_ok this, bind, Except.bind, pure, Except.pure]

theorem hertz2erb_ok {f : ℝ} (h : 0 ≤ f) : hertz2erb f = .ok (21.4 * Real.logb 10 (1 + 4.37 * f / 1000)) := by
  have : 0 < 1 + 4.37 * f / 1000 := by positivity
  simp only [hertz2erb, log10_ok this, bind, Except.bind, pure, Except.pure]

/-- **C36 (mel).**  Frequencies from 0 on and mels are converted into each other, 0 Hz is 0 mel, both maps are
strictly increasing. -/
theorem C36_mel :
    (∀ f, 0 ≤ f → ∃ m, hertz2mel f = .ok m ∧ 0 ≤ m ∧ mel2hertz m = f) ∧
    (∀ m, hertz2mel (mel2hertz m) = .ok m) ∧
    (∀ f g mf mg, 0 ≤ f → f < g → hertz2mel f = .ok mf → hertz2mel g = .ok mg → mf < mg) ∧
    StrictMono mel2hertz ∧ hertz2mel 0 = .ok 0 := by
  have sm : StrictMono mel2hertz := by
    intro a b h
    have h2 : a / 1127.01048 < b / 1127.01048 := by norm_num; linarith
    have := Real.exp_lt_exp.2 h2
    rw [mel2hertz, mel2hertz]
    linarith
  refine ⟨fun f hf => ⟨_, hertz2mel_ok (by linarith), ?_, ?_⟩, fun m => ?_, ?_, sm, ?_⟩
  · have : 0 ≤ Real.log (1 + f / 700) := Real.log_nonneg (by linarith [div_nonneg hf (by norm_num : (0 : ℝ) ≤ 700)])
    positivity
  · have h0 : 0 < 1 + f / 700 := by positivity
    rw [mel2hertz, show 1127.01048 * Real.log (1 + f / 700) / 1127.01048 = Real.log (1 + f / 700) by
      rw [mul_comm, mul_div_assoc, div_self (by norm_num), mul_one], Real.exp_log h0]
    ring
  · have h1 : -700 < mel2hertz m := by
      rw [mel2hertz]; linarith [Real.exp_pos (m / 1127.01048)]
    rw [hertz2mel_ok h1, mel2hertz,
      show 1 + 700 * (Real.exp (m / 1127.01048) - 1) / 700 = Real.exp (m / 1127.01048) by ring, Real.log_exp]
    congr 1
    rw [mul_div_assoc', mul_comm, mul_div_assoc, div_self (by norm_num), mul_one]
  · intro f g mf mg hf hfg e1 e2
    rw [hertz2mel_ok (by linarith)] at e1 e2
    cases e1; cases e2
    have h0 : 0 < 1 + f / 700 := by positivity
    have := Real.log_lt_log h0 (by linarith : 1 + f / 700 < 1 + g / 700)
    linarith
  · rw [hertz2mel_ok (by norm_num)]; simp

/-- **C36 (ERB).** -/
theorem C36_erb :
    (∀ f, 0 ≤ f → ∃ e, hertz2erb f = .ok e ∧ 0 ≤ e ∧ erb2hertz e = f) ∧
    (∀ e, 0 ≤ e → 0 ≤ erb2hertz e ∧ hertz2erb (erb2hertz e) = .ok e) ∧
    (∀ f g ef eg, 0 ≤ f → f < g → hertz2erb f = .ok ef → hertz2erb g = .ok eg → ef < eg) ∧
    StrictMono erb2hertz ∧ hertz2erb 0 = .ok 0 := by
  have h10 : (0 : ℝ) < 10 := by norm_num
  have h1 : (1 : ℝ) < 10 := by norm_num
  have sm : StrictMono erb2hertz := by
    intro a b h
    have h2 : a / 21.4 < b / 21.4 := by norm_num; linarith
    have := Real.rpow_lt_rpow_of_exponent_lt h1 h2
    rw [erb2hertz, erb2hertz]
    have h3 : ((10 : ℝ) ^ (a / 21.4) - 1) * 1000 < ((10 : ℝ) ^ (b / 21.4) - 1) * 1000 := by linarith
    exact div_lt_div_of_pos_right h3 (by norm_num)
  refine ⟨fun f hf => ⟨_, hertz2erb_ok hf, ?_, ?_⟩, fun e he => ?_, ?_, sm, ?_⟩
  · have h2 : (1 : ℝ) ≤ 1 + 4.37 * f / 1000 := by
      have : (0 : ℝ) ≤ 4.37 * f / 1000 := by positivity
      linarith
    have := Real.logb_nonneg h1 h2
    positivity
  · have h0 : (0 : ℝ) < 1 + 4.37 * f / 1000 := by positivity
    rw [erb2hertz, show 21.4 * Real.logb 10 (1 + 4.37 * f / 1000) / 21.4 = Real.logb 10 (1 + 4.37 * f / 1000) by
      rw [mul_comm, mul_div_assoc, div_self (by norm_num), mul_one], Real.rpow_logb h10 h1.ne' h0]
    ring
  · have hz : erb2hertz 0 = 0 := by simp [erb2hertz]
    have hp : 0 ≤ erb2hertz e := hz ▸ sm.monotone he
    refine ⟨hp, ?_⟩
    rw [hertz2erb_ok hp, erb2hertz,
      show 1 + 4.37 * (((10 : ℝ) ^ (e / 21.4) - 1) * 1000 / 4.37) / 1000 = (10 : ℝ) ^ (e / 21.4) by ring,
      Real.logb_rpow h10 h1.ne']
    congr 1
    rw [mul_div_assoc', mul_comm, mul_div_assoc, div_self (by norm_num), mul_one]
  · intro f g ef eg hf hfg e1 e2
    rw [hertz2erb_ok hf] at e1
    rw [hertz2erb_ok (by linarith)] at e2
    cases e1; cases e2
    have h0 : (0 : ℝ) < 1 + 4.37 * f / 1000 := by positivity
    have := Real.logb_lt_logb h1 h0 (by norm_num; linarith : 1 + 4.37 * f / 1000 < 1 + 4.37 * g / 1000)
    linarith
  · rw [hertz2erb_ok le_rfl]; simp

theorem centP_pos : 0 < centP := div_pos (by norm_num) (Real.log_pos (by norm_num))

/-- The frequency of 0 cent, 440 · 2^(-5700/1200) (about 16.35 Hz). -/
noncomputable def cent0 : ℝ := 440 * (2 : ℝ) ^ (-(5700 / 1200) : ℝ)

theorem cent_value {f : ℝ} (hf : 0 < f) :
    centP * Real.log f + centQ = 5700 + 1200 * Real.logb 2 (f / 440) := by
  rw [centQ, centP, Real.logb, Real.log_div hf.ne' (by norm_num)]
  ring

theorem cent_nonneg_iff {f : ℝ} (hf : 0 < f) : 0 ≤ centP * Real.log f + centQ ↔ cent0 ≤ f := by
  have h440 : 0 < f / 440 := by positivity
  rw [cent_value hf, cent0, ← le_div_iff₀' (by norm_num : (0 : ℝ) < 440),
    ← Real.le_logb_iff_rpow_le (by norm_num) h440]
  constructor <;> intro h <;> linarith

/-- **C36 (cents).**  For frequencies from `cent0` on `hertz2cent` is 5700 plus 1200 per octave above 440 Hz (a
doubling of the frequency adds 1200), is strictly increasing and inverted by `cent2hertz`; `hertz2cent` inverts
`cent2hertz` everywhere.  Missing: frequencies strictly between 0 and `cent0` (`C36_cent_violates`). -/
theorem C36_cent_partial :
    (∀ f, cent0 ≤ f → ∃ c, hertz2cent f = .ok c ∧ c = 5700 + 1200 * Real.logb 2 (f / 440) ∧ cent2hertz c = f) ∧
    (∀ c, hertz2cent (cent2hertz c) = .ok c) ∧
    (∀ f g cf cg, 0 < f → f < g → hertz2cent f = .ok cf → hertz2cent g = .ok cg → cf < cg) ∧
    (∀ f c, 0 < f → hertz2cent f = .ok c → hertz2cent (2 * f) = .ok (c + 1200)) ∧
    (∀ f c, f ≠ 0 → hertz2cent f = .ok c → hertz2cent (-f) = .ok (-c)) := by
  have pp := centP_pos
  have pos_ok : ∀ f : ℝ, 0 < f → hertz2cent f = .ok (centP * Real.log f + centQ) := by
    intro f hf
    simp only [hertz2cent, log_ok hf, bind, Except.bind, pure, Except.pure, Num.sign, not_lt.2 hf.le, if_false,
      abs_of_pos hf, one_mul]
  have neg_ok : ∀ f : ℝ, f < 0 → hertz2cent f = .ok (-(centP * Real.log (-f) + centQ)) := by
    intro f hf
    simp only [hertz2cent, log_ok (neg_pos.2 hf), bind, Except.bind, pure, Except.pure, Num.sign, hf, if_true, abs_of_neg hf]
    congr 1; ring
  have c0 : 0 < cent0 := mul_pos (by norm_num) (Real.rpow_pos_of_pos (by norm_num) _)
  refine ⟨fun f hf => ?_, fun c => ?_, ?_, ?_, ?_⟩
  · have hf0 := c0.trans_le hf
    have hc := (cent_nonneg_iff hf0).2 hf
    refine ⟨_, pos_ok f hf0, cent_value hf0, ?_⟩
    rw [cent2hertz, Num.sign, if_neg (not_lt.2 hc), abs_of_nonneg hc,
      show (centP * Real.log f + centQ - centQ) / centP = Real.log f by field_simp; ring, Real.exp_log hf0, one_mul]
  · by_cases hc : c < 0
    · have e : cent2hertz c = -Real.exp ((-c - centQ) / centP) := by
        rw [cent2hertz, Num.sign, if_pos hc, abs_of_neg hc]; ring
      have hn : cent2hertz c < 0 := by rw [e]; linarith [Real.exp_pos ((-c - centQ) / centP)]
      rw [neg_ok _ hn, e, neg_neg, Real.log_exp]
      congr 1
      field_simp
      ring
    · have e : cent2hertz c = Real.exp ((c - centQ) / centP) := by
        rw [cent2hertz, Num.sign, if_neg hc, abs_of_nonneg (not_lt.1 hc)]; ring
      rw [pos_ok _ (e ▸ Real.exp_pos _), e, Real.log_exp]
      congr 1
      field_simp
      ring
  · intro f g cf cg hf hfg e1 e2
    rw [pos_ok f hf] at e1
    rw [pos_ok g (hf.trans hfg)] at e2
    cases e1; cases e2
    have := mul_lt_mul_of_pos_left (Real.log_lt_log hf hfg) pp
    linarith
  · intro f c hf e
    rw [pos_ok f hf] at e
    cases e
    rw [pos_ok (2 * f) (by positivity), Real.log_mul (by norm_num) hf.ne']
    congr 1
    have : centP * Real.log 2 = 1200 := div_mul_cancel₀ _ (Real.log_pos (by norm_num)).ne'
    linarith
  · intro f c hf e
    rcases lt_or_gt_of_ne hf with h | h
    · rw [neg_ok f h] at e
      cases e
      rw [pos_ok (-f) (by linarith), neg_neg]
    · rw [pos_ok f h] at e
      cases e
      rw [neg_ok (-f) (by linarith), neg_neg]

example : cent0 ≤ 440 := by
  rw [cent0]
  have : (2 : ℝ) ^ (-(5700 / 1200) : ℝ) ≤ 1 := Real.rpow_le_one_of_one_le_of_nonpos (by norm_num) (by norm_num)
  linarith

/-- **C36 (low frequencies violate the round trip).**  Every frequency strictly between 0 and `cent0` comes back
negative. -/
theorem C36_cent_violates (f : ℝ) (h0 : 0 < f) (h1 : f < cent0) :
    ∃ c, hertz2cent f = .ok c ∧ cent2hertz c < 0 := by
  have hc : centP * Real.log f + centQ < 0 := not_le.1 fun h => not_le.2 h1 ((cent_nonneg_iff h0).1 h)
  refine ⟨centP * Real.log f + centQ, ?_, ?_⟩
  · simp only [hertz2cent, log_ok h0, bind, Except.bind, pure, Except.pure, Num.sign, not_lt.2 h0.le, if_false,
      abs_of_pos h0, one_mul]
  · rw [cent2hertz, Num.sign, if_pos hc]
    linarith [Real.exp_pos ((|centP * Real.log f + centQ| - centQ) / centP)]

example : ∃ f : ℝ, 0 < f ∧ f < cent0 :=
  have c0 : 0 < cent0 := mul_pos (by norm_num) (Real.rpow_pos_of_pos (by norm_num) _)
  ⟨cent0 / 2, by linarith, by linarith⟩

/-! ### C37 -/

/-- Traunmüller's rate before the corrections. -/
noncomputable def rawBark (f : ℝ) : ℝ := 26.81 * f / (1960 + f) - 0.53

/-- The corrections at both ends. -/
noncomputable def corrected (b : ℝ) : ℝ :=
  if b < 2 then b + 0.15 * (2 - b) else if b > 20.1 then b + 0.22 * (b - 20.1) else b

theorem hertz2bark_ok {f : ℝ} (hf : -1960 < f) : hertz2bark f = .ok (corrected (rawBark f)) := by
  have : (1960 : ℝ) + f ≠ 0 := by linarith
  simp only [hertz2bark, Conv.div, this, if_false, bind, Except.bind, pure, Except.pure]
  change (if rawBark f < 2 then Except.ok (rawBark f + 0.15 * (2 - rawBark f))
    else if rawBark f > 20.1 then Except.ok (rawBark f + 0.22 * (rawBark f - 20.1)) else Except.ok (rawBark f)) = _
  rw [corrected]
  by_cases h1 : rawBark f < 2
  · rw [if_pos h1, if_pos h1]
  · rw [if_neg h1, if_neg h1]
    by_cases h2 : rawBark f > 20.1
    · rw [if_pos h2, if_pos h2]
    · rw [if_neg h2, if_neg h2]

theorem corrected_strictMono : StrictMono corrected := by
  intro a b h
  unfold corrected
  split_ifs <;> norm_num at * <;> linarith

theorem uncorrect (b : ℝ) :
    (if corrected b < 2 then (20 * corrected b - 6) / 17
      else if corrected b > 20.1 then (50 * corrected b + 221.1) / 61 else corrected b) = b := by
  unfold corrected
  split_ifs <;> norm_num at * <;> linarith

theorem recorrect (z : ℝ) :
    corrected (if z < 2 then (20 * z - 6) / 17 else if z > 20.1 then (50 * z + 221.1) / 61 else z) = z := by
  unfold corrected
  split_ifs <;> norm_num at * <;> linarith

theorem rawBark_lt {f : ℝ} (hf : 0 ≤ f) : rawBark f < 26.28 := by
  rw [rawBark]
  have : 26.81 * f / (1960 + f) < 26.81 := by
    rw [div_lt_iff₀ (by linarith)]
    norm_num
  norm_num at *
  linarith

/-- **C37 (Bark round trips).**  For every frequency f ≥ 0 `bark2hertz(hertz2bark f) = f`; for every Bark value
below the limit 27.6396 of the scale `hertz2bark(bark2hertz z) = z` (z at least that of 0 Hz). -/
theorem C37_bark_round_trip :
    (∀ f, 0 ≤ f → ∃ z, hertz2bark f = .ok z ∧ bark2hertz z = .ok f) ∧
    (∀ z, -0.1505 ≤ z → z < 27.6396 → ∃ f, bark2hertz z = .ok f ∧ 0 ≤ f ∧ hertz2bark f = .ok z) := by
  constructor
  · intro f hf
    refine ⟨_, hertz2bark_ok (by linarith), ?_⟩
    have hlt := rawBark_lt hf
    have hne : (26.28 : ℝ) - rawBark f ≠ 0 := (sub_pos.2 hlt).ne'
    rw [bark2hertz]
    simp only [uncorrect, Conv.div, hne, if_false]
    congr 1
    have h1 : (1960 : ℝ) + f ≠ 0 := by linarith
    have e1 : rawBark f + 0.53 = 26.81 * f / (1960 + f) := by rw [rawBark]; ring
    have e2 : (26.28 : ℝ) - rawBark f = 26.81 * 1960 / (1960 + f) := by
      rw [rawBark]
      rw [eq_div_iff h1, sub_mul, sub_mul, div_mul_cancel₀ _ h1]
      norm_num
      ring
    rw [e1, e2]
    field_simp
  · intro z hz1 hz2
    set b := (if z < 2 then (20 * z - 6) / 17 else if z > 20.1 then (50 * z + 221.1) / 61 else z) with hb
    have hbz : corrected b = z := recorrect z
    have hb1 : -0.53 ≤ b := by
      rw [hb]; split_ifs <;> norm_num at * <;> linarith
    have hb2 : b < 26.28 := by
      rw [hb]; split_ifs <;> norm_num at * <;> linarith
    have hd : (0 : ℝ) < 26.28 - b := sub_pos.2 hb2
    have hf : 0 ≤ 1960 * (b + 0.53) / (26.28 - b) := by
      apply div_nonneg _ hd.le
      norm_num at *
      linarith
    refine ⟨1960 * (b + 0.53) / (26.28 - b), ?_, hf, ?_⟩
    · rw [bark2hertz]
      simp only [← hb, Conv.div, hd.ne', if_false]
    · rw [hertz2bark_ok (by linarith)]
      have : rawBark (1960 * (b + 0.53) / (26.28 - b)) = b := by
        rw [rawBark]
        have h1 : (1960 : ℝ) + 1960 * (b + 0.53) / (26.28 - b) = 1960 * 26.81 / (26.28 - b) := by
          rw [eq_div_iff hd.ne', add_mul, div_mul_cancel₀ _ hd.ne']
          norm_num
          ring
        rw [h1]
        have := hd.ne'
        field_simp
        norm_num
      rw [this, hbz]

example : (-0.1505 : ℝ) ≤ 10 ∧ (10 : ℝ) < 27.6396 := by norm_num

/-- **C37 (monotone).**  `hertz2bark` is strictly increasing across all its pieces on the non-negative
frequencies. -/
theorem C37_bark_monotone (f g zf zg : ℝ) (hf : 0 ≤ f) (hfg : f < g) (e1 : hertz2bark f = .ok zf)
    (e2 : hertz2bark g = .ok zg) : zf < zg := by
  rw [hertz2bark_ok (by linarith)] at e1 e2
  cases e1; cases e2
  apply corrected_strictMono
  rw [rawBark, rawBark]
  have : 26.81 * f / (1960 + f) < 26.81 * g / (1960 + g) := by
    rw [div_lt_div_iff₀ (by linarith) (by linarith)]
    norm_num
    nlinarith
  linarith

example : (0 : ℝ) ≤ 100 ∧ (100 : ℝ) < 9000 := by norm_num

/-- At the pole -1960 Hz the formula divides by zero. -/
theorem C37_bark_pole : hertz2bark (-1960) = .error .divByZero := by
  simp [hertz2bark, Conv.div, bind, Except.bind]

end Edsp.C36
