import Verif.Model.RoundedEnvelopes
import Verif.Lemmas.RoundedRamp
import Verif.Lemmas.RampDecision
import Verif.Lemmas.Agree
import Verif.Props.C41_Adsr
import Mathlib.Tactic.NormNum
import Mathlib.Tactic.FieldSimp

/-!
# C107: the ADSR envelope in floating point arithmetic
-/

namespace Edsp.C107
open Edsp.Spec Edsp.FloatL Edsp.RampL Edsp.RoundedAdsr
open Edsp.Env (div expects)
open Edsp.Env.Adsr (State Phase Op keyOn setAttackRate setDecayRate setSustainLevel setReleaseRate)

/-! ### Helper lemmas -/

theorem div_ok {x y : ℝ} (h : 0 < y) : div x y = .ok (x / y) := by rw [div, if_neg h.ne']

theorem divT_ok {p : ℕ} {x y : ℝ} (h : 0 < y) : divT p x y = .ok (rnd p (x / y)) := by
  rw [divT, div_ok h]; rfl

theorem divD_ok {p q : ℕ} {x y : ℝ} (h : 0 < y) : divD p q x y = .ok (rnd p (rnd q (x / y))) := by
  rw [divD, div_ok h]; rfl

theorem expects_ok {dbg : Bool} {c : Prop} [Decidable c] (h : c) : expects dbg c = .ok () := by
  rw [expects, if_neg (fun g => g.2 h)]

theorem rnd_nonneg {p : ℕ} (hp : 1 ≤ p) {x : ℝ} (h : 0 ≤ x) : 0 ≤ rnd p x := by
  have := rnd_mono hp h
  rwa [rnd_zero] at this

theorem rnd_one {p : ℕ} (hp : 1 ≤ p) : rnd p 1 = 1 := by
  have := rnd_float (isFloat_two_zpow hp 0)
  simpa using this

theorem rnd_le_one {p : ℕ} (hp : 1 ≤ p) {x : ℝ} (h : x ≤ 1) : rnd p x ≤ 1 := by
  have := rnd_mono hp h
  rwa [rnd_one hp] at this

theorem isFloat_zero (p : ℕ) : IsFloat p 0 := ⟨0, 0, by simp, by simp⟩

theorem isFloat_one {p : ℕ} (hp : 1 ≤ p) : IsFloat p 1 := by simpa using isFloat_two_zpow hp 0

theorem isFloat_half {p : ℕ} (hp : 1 ≤ p) : IsFloat p (0.5 : ℝ) := by
  have := isFloat_two_zpow hp (-1)
  norm_num at this ⊢
  exact this

/-- The arguments a user may pass to the operations of an envelope of `p` bits. -/
def Argument (p : ℕ) : Op → Prop
  | .keyOn => True
  | .keyOff => True
  | .sample x => IsFloat p x
  | .setAttackTarget t => IsFloat p t ∧ 0 ≤ t ∧ t ≤ 1
  | .setAttackRate r => IsFloat p r ∧ 0 ≤ r
  | .setDecayRate r => IsFloat p r ∧ 0 ≤ r
  | .setSustainLevel l => IsFloat p l ∧ 0 ≤ l ∧ l ≤ 1
  | .setReleaseRate r => IsFloat p r ∧ 0 ≤ r
  | .setAttackTime t => IsFloat p t ∧ 0 < t
  | .setDecayTime t => IsFloat p t ∧ 0 < t
  | .setReleaseTime t => IsFloat p t ∧ 0 < t
  | .setTarget t => IsFloat p t ∧ t ≤ 1
  | .setSampleRate r => IsFloat p r ∧ 0 < r

structure Inv (p : ℕ) (s : State) : Prop where
  rate : 0 < s.sampleRate
  target0 : 0 ≤ s.target
  target1 : s.target ≤ 1
  targetF : IsFloat p s.target
  value0 : 0 ≤ s.value
  value1 : s.value ≤ 1
  valueF : IsFloat p s.value
  attack0 : 0 ≤ s.attackRate
  decay0 : 0 ≤ s.decayRate
  release0 : 0 ≤ s.releaseRate
  sustain0 : 0 ≤ s.sustainLevel
  sustain1 : s.sustainLevel ≤ 1
  sustainF : IsFloat p s.sustainLevel
  idle : s.phase = .idle → s.value = 0

theorem init_inv {p q : ℕ} (hp : 1 ≤ p) (hq : 1 ≤ q) : Inv p (init p q) where
  rate := rnd_pos hp (by norm_num)
  target0 := le_rfl
  target1 := zero_le_one
  targetF := isFloat_zero p
  value0 := le_rfl
  value1 := zero_le_one
  valueF := isFloat_zero p
  attack0 := rnd_nonneg hp (rnd_nonneg hq (by norm_num))
  decay0 := rnd_nonneg hp (rnd_nonneg hq (by norm_num))
  release0 := rnd_nonneg hp (rnd_nonneg hq (by norm_num))
  sustain0 := by norm_num [init]
  sustain1 := by norm_num [init]
  sustainF := isFloat_half hp
  idle := fun _ => rfl

theorem clamp_bounds {p q : ℕ} (hp : 1 ≤ p) (hq : 1 ≤ q) {t : ℝ} (h : t ≤ 1) :
    0 ≤ clampTarget p q t ∧ clampTarget p q t ≤ 1 ∧ IsFloat p (clampTarget p q t) := by
  have h0 : 0 < rnd q 0.000000001 := rnd_pos hq (by norm_num)
  have h1 : rnd q 0.000000001 ≤ 1 := rnd_le_one hq (by norm_num)
  refine ⟨?_, ?_, isFloat_rnd hp _⟩
  · rw [clampTarget]
    split_ifs with g
    · exact rnd_nonneg hp (by linarith)
    · exact rnd_nonneg hp h0.le
  · rw [clampTarget]
    split_ifs with g
    · exact rnd_le_one hp h
    · exact rnd_le_one hp h1

theorem tick_inv {p : ℕ} (hp : 1 ≤ p) {s : State} (h : Inv p s) : Inv p (tick p s) := by
  obtain ⟨h1, h2, h3, h3f, h4, h5, h5f, h6, h7, h8, h9, h10, h10f, h11⟩ := h
  have mono : ∀ d : ℝ, 0 ≤ d → rnd p (s.value - d) ≤ s.value := by
    intro d hd
    have := rnd_mono hp (show s.value - d ≤ s.value by linarith)
    rwa [rnd_float h5f] at this
  unfold tick
  cases hp' : s.phase with
  | idle => exact ⟨h1, h2, h3, h3f, h4, h5, h5f, h6, h7, h8, h9, h10, h10f, h11⟩
  | sustain => exact ⟨h1, h2, h3, h3f, h4, h5, h5f, h6, h7, h8, h9, h10, h10f, h11⟩
  | attack =>
    dsimp only
    split_ifs with g
    · exact ⟨h1, h9, h10, h10f, h2, h3, h3f, h6, h7, h8, h9, h10, h10f, fun e => nomatch e⟩
    · exact ⟨h1, h2, h3, h3f, rnd_nonneg hp (by linarith), by dsimp only; linarith, isFloat_rnd hp _, h6, h7, h8, h9,
        h10, h10f, fun e => nomatch e⟩
  | decay =>
    dsimp only
    split_ifs with g1 g2 g3
    · exact ⟨h1, h2, h3, h3f, h9, h10, h10f, h6, h7, h8, h9, h10, h10f, fun e => nomatch e⟩
    · exact ⟨h1, h2, h3, h3f, by dsimp only; linarith, le_trans (mono _ h7) h5, isFloat_rnd hp _, h6, h7, h8, h9, h10,
        h10f, fun e => nomatch e⟩
    · exact ⟨h1, h2, h3, h3f, h9, h10, h10f, h6, h7, h8, h9, h10, h10f, fun e => nomatch e⟩
    · exact ⟨h1, h2, h3, h3f, rnd_nonneg hp (by linarith), by dsimp only; linarith, isFloat_rnd hp _, h6, h7, h8, h9,
        h10, h10f, fun e => nomatch e⟩
  | release =>
    dsimp only
    split_ifs with g
    · exact ⟨h1, h2, h3, h3f, le_rfl, zero_le_one, isFloat_zero p, h6, h7, h8, h9, h10, h10f, fun _ => rfl⟩
    · exact ⟨h1, h2, h3, h3f, by dsimp only; linarith, le_trans (mono _ h8) h5, isFloat_rnd hp _, h6, h7, h8, h9, h10,
        h10f, fun e => nomatch e⟩

theorem step_inv {p q : ℕ} (hp : 1 ≤ p) (hq : 1 ≤ q) {dbg : Bool} {s : State} {op : Op} (h : Inv p s)
    (hr : Argument p op) : ∃ o s', step p q dbg s op = .ok (o, s') ∧ Inv p s' := by
  have hI := h
  obtain ⟨h1, h2, h3, h3f, h4, h5, h5f, h6, h7, h8, h9, h10, h10f, h11⟩ := h
  cases op with
  | keyOn =>
    refine ⟨_, _, rfl, ?_⟩
    unfold keyOn
    refine ⟨h1, ?_, ?_, ?_, h4, h5, h5f, h6, h7, h8, h9, h10, h10f, fun e => nomatch e⟩ <;> dsimp only <;> split_ifs
    · norm_num
    · exact h2
    · norm_num
    · exact h3
    · exact isFloat_one hp
    · exact h3f
  | keyOff =>
    simp only [step, keyOff, bind, Except.bind, pure, Except.pure]
    by_cases g : s.releaseTime > 0
    · have hpos : 0 < rnd p (s.releaseTime * s.sampleRate) := rnd_pos hp (mul_pos g h1)
      rw [if_pos g, divT_ok hpos]
      exact ⟨_, _, rfl, h1, le_rfl, zero_le_one, isFloat_zero p, h4, h5, h5f, h6, h7,
        rnd_nonneg hp (div_nonneg h4 hpos.le), h9, h10, h10f, fun e => nomatch e⟩
    · rw [if_neg g]
      exact ⟨_, _, rfl, h1, le_rfl, zero_le_one, isFloat_zero p, h4, h5, h5f, h6, h7, h8, h9, h10, h10f,
        fun e => nomatch e⟩
  | sample x => exact ⟨_, _, rfl, tick_inv hp hI⟩
  | setAttackTarget t =>
    obtain ⟨c0, c1, c2⟩ := clamp_bounds hp hq hr.2.2
    simp only [step, setAttackTarget, expects_ok (show t ≥ 0 from hr.2.1), bind, Except.bind, pure, Except.pure]
    exact ⟨_, _, rfl, h1, c0, c1, c2, h4, h5, h5f, h6, h7, h8, h9, h10, h10f, h11⟩
  | setAttackRate r =>
    simp only [step, setAttackRate, expects_ok (show r ≥ 0 from hr.2), bind, Except.bind, pure, Except.pure]
    exact ⟨_, _, rfl, h1, h2, h3, h3f, h4, h5, h5f, hr.2, h7, h8, h9, h10, h10f, h11⟩
  | setDecayRate r =>
    simp only [step, setDecayRate, expects_ok (show r ≥ 0 from hr.2), bind, Except.bind, pure, Except.pure]
    exact ⟨_, _, rfl, h1, h2, h3, h3f, h4, h5, h5f, h6, hr.2, h8, h9, h10, h10f, h11⟩
  | setSustainLevel l =>
    simp only [step, setSustainLevel, expects_ok (show l ≥ 0 from hr.2.1), bind, Except.bind, pure, Except.pure]
    exact ⟨_, _, rfl, h1, h2, h3, h3f, h4, h5, h5f, h6, h7, h8, hr.2.1, hr.2.2, hr.1, h11⟩
  | setReleaseRate r =>
    simp only [step, setReleaseRate, expects_ok (show r ≥ 0 from hr.2), bind, Except.bind, pure, Except.pure]
    exact ⟨_, _, rfl, h1, h2, h3, h3f, h4, h5, h5f, h6, h7, hr.2, h9, h10, h10f, h11⟩
  | setAttackTime t =>
    have hpos : 0 < rnd p (t * s.sampleRate) := rnd_pos hp (mul_pos hr.2 h1)
    simp only [step, setAttackTime, expects_ok (show t > 0 from hr.2), divD_ok hpos, bind, Except.bind, pure,
      Except.pure]
    exact ⟨_, _, rfl, h1, h2, h3, h3f, h4, h5, h5f, rnd_nonneg hp (rnd_nonneg hq (div_nonneg zero_le_one hpos.le)), h7,
      h8, h9, h10, h10f, h11⟩
  | setDecayTime t =>
    have hpos : 0 < rnd p (t * s.sampleRate) := rnd_pos hp (mul_pos hr.2 h1)
    simp only [step, setDecayTime, expects_ok (show t > 0 from hr.2), divD_ok hpos, bind, Except.bind, pure,
      Except.pure]
    exact ⟨_, _, rfl, h1, h2, h3, h3f, h4, h5, h5f, h6,
      rnd_nonneg hp (rnd_nonneg hq (div_nonneg (rnd_nonneg hq (by linarith)) hpos.le)), h8, h9, h10, h10f, h11⟩
  | setReleaseTime t =>
    have hpos : 0 < rnd p (t * s.sampleRate) := rnd_pos hp (mul_pos hr.2 h1)
    simp only [step, setReleaseTime, expects_ok (show t > 0 from hr.2), divT_ok hpos, bind, Except.bind, pure,
      Except.pure]
    exact ⟨_, _, rfl, h1, h2, h3, h3f, h4, h5, h5f, h6, h7, rnd_nonneg hp (div_nonneg h9 hpos.le), h9, h10, h10f, h11⟩
  | setTarget t =>
    obtain ⟨c0, c1, c2⟩ := clamp_bounds (t := t) hp hq hr.2
    simp only [step, setTarget, setSustainLevel, expects_ok (show clampTarget p q t ≥ 0 from c0), bind, Except.bind,
      pure, Except.pure]
    by_cases g1 : s.value < clampTarget p q t
    · rw [if_pos g1]
      exact ⟨_, _, rfl, h1, c0, c1, c2, h4, h5, h5f, h6, h7, h8, c0, c1, c2, fun e => nomatch e⟩
    · rw [if_neg g1]
      by_cases g2 : s.value > clampTarget p q t
      · rw [if_pos g2]
        exact ⟨_, _, rfl, h1, c0, c1, c2, h4, h5, h5f, h6, h7, h8, c0, c1, c2, fun e => nomatch e⟩
      · rw [if_neg g2]
        exact ⟨_, _, rfl, h1, c0, c1, c2, h4, h5, h5f, h6, h7, h8, c0, c1, c2, h11⟩
  | setSampleRate r =>
    simp only [step, setSampleRate, divT_ok (show 0 < r from hr.2), bind, Except.bind, pure, Except.pure]
    have hn : ∀ a : ℝ, 0 ≤ a → 0 ≤ rnd p (rnd p (s.sampleRate * a) / r) := fun a ha =>
      rnd_nonneg hp (div_nonneg (rnd_nonneg hp (mul_nonneg h1.le ha)) hr.2.le)
    exact ⟨_, _, rfl, hr.2, h2, h3, h3f, h4, h5, h5f, hn _ h6, hn _ h7, hn _ h8, h9, h10, h10f, h11⟩

theorem run_inv {p q : ℕ} (hp : 1 ≤ p) (hq : 1 ≤ q) {dbg : Bool} {s : State} {ops : List Op} (h : Inv p s)
    (hr : ∀ op ∈ ops, Argument p op) : ∃ s', run p q dbg s ops = .ok s' ∧ Inv p s' := by
  induction ops generalizing s with
  | nil => exact ⟨s, rfl, h⟩
  | cons op ops ih =>
    obtain ⟨o, s1, e, h1⟩ := step_inv hp hq (dbg := dbg) h (hr op List.mem_cons_self)
    obtain ⟨s2, e2, h2⟩ := ih h1 (fun x hx => hr x (List.mem_cons_of_mem _ hx))
    refine ⟨s2, ?_, h2⟩
    simp only [run, e, bind, Except.bind, e2]

theorem apply_length (p : ℕ) (s : State) (xs : List ℝ) : (apply p s xs).1.length = xs.length := by
  induction xs generalizing s with
  | nil => rfl
  | cons x xs ih => simp only [apply, call, List.length_cons, ih]

theorem apply_state (p : ℕ) (s : State) (xs : List ℝ) : (apply p s xs).2 = (tick p)^[xs.length] s := by
  induction xs generalizing s with
  | nil => rfl
  | cons x xs ih => simp only [apply, call, ih, List.length_cons, Function.iterate_succ_apply]

theorem abs_rnd_le {p : ℕ} (hp : 1 ≤ p) {v x : ℝ} (h0 : 0 ≤ v) (h1 : v ≤ 1) (hx : IsFloat p x) :
    |rnd p (v * x)| ≤ |x| := by
  rcases le_total 0 x with h | h
  · have := rnd_mono hp (show v * x ≤ x by nlinarith)
    rw [rnd_float hx] at this
    rwa [abs_of_nonneg (rnd_nonneg hp (by positivity)), abs_of_nonneg h]
  · have := rnd_mono hp (show x ≤ v * x by nlinarith)
    rw [rnd_float hx] at this
    have h2 := rnd_mono hp (show v * x ≤ 0 by nlinarith)
    rw [rnd_zero] at h2
    rw [abs_of_nonpos h2, abs_of_nonpos h]
    linarith

theorem apply_bound {p : ℕ} (hp : 1 ≤ p) {s : State} (h : Inv p s) (xs : List ℝ) (hx : ∀ x ∈ xs, IsFloat p x) :
    List.Forall₂ (fun y x => |y| ≤ |x|) (apply p s xs).1 xs := by
  induction xs generalizing s with
  | nil => exact List.Forall₂.nil
  | cons x xs ih =>
    simp only [apply, call]
    have h' := tick_inv hp h
    exact List.Forall₂.cons (abs_rnd_le hp h'.value0 h'.value1 (hx x List.mem_cons_self))
      (ih h' (fun y hy => hx y (List.mem_cons_of_mem _ hy)))

theorem attack_iter {p : ℕ} {s : State} (hp : s.phase = .attack) (k : ℕ)
    (h : ∀ j ≤ k, 1 ≤ j → (up p s.attackRate)^[j] s.value < s.target) :
    (tick p)^[k] s = { s with value := (up p s.attackRate)^[k] s.value } := by
  induction k with
  | zero => rfl
  | succ k ih =>
    rw [Function.iterate_succ_apply', ih (fun j hj => h j (by omega))]
    have h' := h (k + 1) le_rfl (by omega)
    rw [Function.iterate_succ_apply'] at h' ⊢
    unfold tick
    rw [hp]
    dsimp only
    rw [if_neg (show ¬rnd p ((up p s.attackRate)^[k] s.value + s.attackRate) ≥ s.target from not_le.mpr h')]
    rfl

theorem attack_end {p : ℕ} {s : State} (hp : s.phase = .attack) (k : ℕ)
    (h : ∀ j < k + 1, 1 ≤ j → (up p s.attackRate)^[j] s.value < s.target)
    (he : s.target ≤ (up p s.attackRate)^[k + 1] s.value) :
    (tick p)^[k + 1] s = { s with value := s.target, target := s.sustainLevel, phase := .decay } := by
  rw [Function.iterate_succ_apply', attack_iter hp k (fun j hj => h j (by omega))]
  rw [Function.iterate_succ_apply'] at he
  unfold tick
  rw [hp]
  dsimp only
  rw [if_pos (show rnd p ((up p s.attackRate)^[k] s.value + s.attackRate) ≥ s.target from he)]

theorem decay_iter {p : ℕ} {s : State} (hp : s.phase = .decay) (k : ℕ)
    (h : ∀ j ≤ k, s.sustainLevel < (down p s.decayRate)^[j] s.value) :
    (tick p)^[k] s = { s with value := (down p s.decayRate)^[k] s.value } := by
  induction k with
  | zero => rfl
  | succ k ih =>
    rw [Function.iterate_succ_apply', ih (fun j hj => h j (by omega))]
    have h0 := h k (by omega)
    have h' := h (k + 1) le_rfl
    rw [Function.iterate_succ_apply'] at h' ⊢
    unfold tick
    rw [hp]
    dsimp only
    rw [if_pos h0,
      if_neg (show ¬rnd p ((down p s.decayRate)^[k] s.value - s.decayRate) ≤ s.sustainLevel from not_le.mpr h')]
    rfl

theorem decay_end {p : ℕ} {s : State} (hp : s.phase = .decay) (k : ℕ)
    (h : ∀ j < k + 1, s.sustainLevel < (down p s.decayRate)^[j] s.value)
    (he : (down p s.decayRate)^[k + 1] s.value ≤ s.sustainLevel) :
    (tick p)^[k + 1] s = { s with value := s.sustainLevel, phase := .sustain } := by
  rw [Function.iterate_succ_apply', decay_iter hp k (fun j hj => h j (by omega))]
  rw [Function.iterate_succ_apply'] at he
  unfold tick
  rw [hp]
  dsimp only
  rw [if_pos (h k (by omega)),
    if_pos (show rnd p ((down p s.decayRate)^[k] s.value - s.decayRate) ≤ s.sustainLevel from he)]

theorem release_iter {p : ℕ} {s : State} (hp : s.phase = .release) (k : ℕ)
    (h : ∀ j ≤ k, 1 ≤ j → 0 < (down p s.releaseRate)^[j] s.value) :
    (tick p)^[k] s = { s with value := (down p s.releaseRate)^[k] s.value } := by
  induction k with
  | zero => rfl
  | succ k ih =>
    rw [Function.iterate_succ_apply', ih (fun j hj => h j (by omega))]
    have h' := h (k + 1) le_rfl (by omega)
    rw [Function.iterate_succ_apply'] at h' ⊢
    unfold tick
    rw [hp]
    dsimp only
    rw [if_neg (show ¬rnd p ((down p s.releaseRate)^[k] s.value - s.releaseRate) ≤ 0 from not_le.mpr h')]
    rfl

theorem release_end {p : ℕ} {s : State} (hp : s.phase = .release) (k : ℕ)
    (h : ∀ j < k + 1, 1 ≤ j → 0 < (down p s.releaseRate)^[j] s.value)
    (he : (down p s.releaseRate)^[k + 1] s.value ≤ 0) :
    (tick p)^[k + 1] s = { s with value := 0, phase := .idle } := by
  rw [Function.iterate_succ_apply', release_iter hp k (fun j hj => h j (by omega))]
  rw [Function.iterate_succ_apply'] at he
  unfold tick
  rw [hp]
  dsimp only
  rw [if_pos (show rnd p ((down p s.releaseRate)^[k] s.value - s.releaseRate) ≤ 0 from he)]

/-! ### The range -/

/-- **C107, range**: whatever the history, no operation fails, the level lies between 0 and 1 and is 0 when idle, and no
sample is amplified. -/
theorem C107_range {p q : ℕ} (hp : 1 ≤ p) (hq : 1 ≤ q) (dbg : Bool) {ops : List Op} (h : ∀ op ∈ ops, Argument p op) :
    ∃ s, run p q dbg (init p q) ops = .ok s ∧ 0 ≤ s.value ∧ s.value ≤ 1 ∧ (s.phase = .idle → s.value = 0) ∧
      ∀ xs : List ℝ, (∀ x ∈ xs, IsFloat p x) → List.Forall₂ (fun y x => |y| ≤ |x|) (apply p s xs).1 xs := by
  obtain ⟨s, h1, h2⟩ := run_inv hp hq (dbg := dbg) (init_inv hp hq) h
  exact ⟨s, h1, h2.value0, h2.value1, h2.idle, fun xs hx => apply_bound hp h2 xs hx⟩

example : ∃ s, run 24 53 true (init 24 53) [.setAttackRate 0.25, .keyOn, .sample 1, .sample (-3), .keyOff] = .ok s ∧
    0 ≤ s.value ∧ s.value ≤ 1 := by
  obtain ⟨s, h1, h2, h3, -⟩ := C107_range (p := 24) (q := 53) (by norm_num) (by norm_num) true
    (ops := [.setAttackRate 0.25, .keyOn, .sample 1, .sample (-3), .keyOff]) (by
      intro op hop
      simp only [List.mem_cons, List.not_mem_nil, or_false] at hop
      rcases hop with rfl | rfl | rfl | rfl | rfl
      · exact ⟨⟨1, -2, by norm_num, by norm_num⟩, by norm_num⟩
      · trivial
      · exact ⟨1, 0, by norm_num, by norm_num⟩
      · exact ⟨-3, 0, by norm_num, by norm_num⟩
      · trivial)
  exact ⟨s, h1, h2, h3⟩

/-! ### The phases end -/

/-- **C107, attack**: an attack by more than half a unit in the last place below its target ends, after about the
expected number of samples, and on the way the level is near the exact one. -/
theorem C107_attack_partial {p : ℕ} (hp : 1 ≤ p) {s : State} (hs : s.phase = .attack) {e : ℤ} (h0 : 0 ≤ s.value)
    (h1 : s.value < s.target) (h2 : s.target ≤ 2 ^ e) (hr : (2 : ℝ) ^ (e - p - 1) < s.attackRate) :
    ∃ n : ℕ, 1 ≤ n ∧
      (∀ xs : List ℝ, xs.length = n →
        (apply p s xs).2 = { s with value := s.target, target := s.sustainLevel, phase := .decay }) ∧
      (∀ xs : List ℝ, xs.length < n → (apply p s xs).2.phase = .attack ∧
        |(apply p s xs).2.value - (s.value + xs.length * s.attackRate)| ≤ xs.length * 2 ^ (e - p - 1)) ∧
      ((n : ℝ) - 1) * (s.attackRate - 2 ^ (e - p - 1)) < s.target - s.value ∧
      s.target - s.value ≤ n * (s.attackRate + 2 ^ (e - p - 1)) := by
  obtain ⟨n, n1, n2, n3, n4, n5, n6⟩ := up_arrives hp h0 h1 h2 hr
  refine ⟨n, n1, ?_, ?_, n5, n6⟩
  · intro xs hx
    obtain ⟨m, rfl⟩ : ∃ m, n = m + 1 := ⟨n - 1, by omega⟩
    rw [apply_state, hx]
    exact attack_end hs m (fun j hj _ => n3 j hj) n2
  · intro xs hx
    rw [apply_state, attack_iter hs _ (fun j hj _ => n3 j (by omega))]
    exact ⟨hs, n4 _ hx⟩

/-- **C107, decay**: likewise the decay from a level above the sustain level. -/
theorem C107_decay_partial {p : ℕ} (hp : 1 ≤ p) {s : State} (hs : s.phase = .decay) {e : ℤ} (h0 : 0 ≤ s.sustainLevel)
    (h1 : s.sustainLevel < s.value) (h2 : s.value ≤ 2 ^ e) (hr : (2 : ℝ) ^ (e - p - 1) < s.decayRate) :
    ∃ n : ℕ, 1 ≤ n ∧
      (∀ xs : List ℝ, xs.length = n → (apply p s xs).2 = { s with value := s.sustainLevel, phase := .sustain }) ∧
      (∀ xs : List ℝ, xs.length < n → (apply p s xs).2.phase = .decay ∧
        |(apply p s xs).2.value - (s.value - xs.length * s.decayRate)| ≤ xs.length * 2 ^ (e - p - 1)) ∧
      ((n : ℝ) - 1) * (s.decayRate - 2 ^ (e - p - 1)) < s.value - s.sustainLevel ∧
      s.value - s.sustainLevel ≤ n * (s.decayRate + 2 ^ (e - p - 1)) := by
  obtain ⟨n, n1, n2, n3, n4, n5, n6⟩ := down_arrives hp h0 h1 h2 hr
  refine ⟨n, n1, ?_, ?_, n5, n6⟩
  · intro xs hx
    obtain ⟨m, rfl⟩ : ∃ m, n = m + 1 := ⟨n - 1, by omega⟩
    rw [apply_state, hx]
    exact decay_end hs m n3 n2
  · intro xs hx
    rw [apply_state, decay_iter hs _ (fun j hj => n3 j (by omega))]
    exact ⟨hs, n4 _ hx⟩

/-- **C107, release**: likewise the release. -/
theorem C107_release_partial {p : ℕ} (hp : 1 ≤ p) {s : State} (hs : s.phase = .release) {e : ℤ}
    (h1 : 0 < s.value) (h2 : s.value ≤ 2 ^ e) (hr : (2 : ℝ) ^ (e - p - 1) < s.releaseRate) :
    ∃ n : ℕ, 1 ≤ n ∧
      (∀ xs : List ℝ, xs.length = n → (apply p s xs).2 = { s with value := 0, phase := .idle }) ∧
      (∀ xs : List ℝ, xs.length < n → (apply p s xs).2.phase = .release ∧
        |(apply p s xs).2.value - (s.value - xs.length * s.releaseRate)| ≤ xs.length * 2 ^ (e - p - 1)) ∧
      ((n : ℝ) - 1) * (s.releaseRate - 2 ^ (e - p - 1)) < s.value ∧
      s.value ≤ n * (s.releaseRate + 2 ^ (e - p - 1)) := by
  obtain ⟨n, n1, n2, n3, n4, n5, n6⟩ := down_arrives hp le_rfl h1 h2 hr
  refine ⟨n, n1, ?_, ?_, by simpa using n5, by simpa using n6⟩
  · intro xs hx
    obtain ⟨m, rfl⟩ : ∃ m, n = m + 1 := ⟨n - 1, by omega⟩
    rw [apply_state, hx]
    exact release_end hs m (fun j hj _ => n3 j hj) n2
  · intro xs hx
    rw [apply_state, release_iter hs _ (fun j hj _ => n3 j (by omega))]
    exact ⟨hs, n4 _ hx⟩

/-- A note with an attack of 1 ms at 48 kHz in `float`: 1/48 per sample, far above 2^-25. -/
noncomputable def shortNote : State where
  phase := .attack
  sampleRate := 48000
  target := 1
  value := 0
  attackRate := 1 / 48
  decayRate := 1 / 48
  releaseRate := 1 / 48
  releaseTime := -1
  sustainLevel := 1 / 2

example : ∃ n : ℕ, 1 ≤ n ∧ ∀ xs : List ℝ, xs.length = n → (apply 24 shortNote xs).2.phase = .decay := by
  obtain ⟨n, h1, h2, -⟩ := C107_attack_partial (p := 24) (by norm_num) (e := 0) (s := shortNote) rfl le_rfl
    (by norm_num [shortNote]) (by norm_num [shortNote]) (by norm_num [shortNote])
  exact ⟨n, h1, fun xs hx => by rw [h2 xs hx]⟩

example : ∃ n : ℕ, 1 ≤ n ∧ ∀ xs : List ℝ, xs.length = n →
    (apply 24 { shortNote with phase := .decay, value := 1 } xs).2.phase = .sustain := by
  obtain ⟨n, h1, h2, -⟩ := C107_decay_partial (p := 24) (by norm_num) (e := 0)
    (s := { shortNote with phase := .decay, value := 1 }) rfl (by norm_num [shortNote])
    (by norm_num [shortNote]) (by norm_num [shortNote]) (by norm_num [shortNote])
  exact ⟨n, h1, fun xs hx => by rw [h2 xs hx]⟩

example : ∃ n : ℕ, 1 ≤ n ∧ ∀ xs : List ℝ, xs.length = n →
    (apply 24 { shortNote with phase := .release, value := 1 } xs).2.phase = .idle := by
  obtain ⟨n, h1, h2, -⟩ := C107_release_partial (p := 24) (by norm_num) (e := 0)
    (s := { shortNote with phase := .release, value := 1 }) rfl (by norm_num [shortNote])
    (by norm_num [shortNote]) (by norm_num [shortNote])
  exact ⟨n, h1, fun xs hx => by rw [h2 xs hx]⟩

/-! ### Without error -/

/-- A multiple of `2^j` between 0 and `2^(j+p)`. -/
def OnGrid (p : ℕ) (j : ℤ) (x : ℝ) : Prop := 0 ≤ x ∧ x ≤ 2 ^ (j + p) ∧ ∃ z : ℤ, x = z * 2 ^ j

theorem OnGrid.float {p : ℕ} (hp : 1 ≤ p) {j : ℤ} {x : ℝ} (h : OnGrid p j x) : rnd p x = x := by
  obtain ⟨h0, h1, z, rfl⟩ := h
  exact rnd_float (isFloat_grid hp (by rwa [abs_of_nonneg h0]))

/-- Comparing the rounded sum of two grid values with a grid value is comparing the sum. -/
theorem sum_compare {p : ℕ} (hp : 1 ≤ p) {j : ℤ} {x r t : ℝ} (hx : OnGrid p j x) (hr : OnGrid p j r)
    (ht : OnGrid p j t) :
    (t ≤ rnd p (x + r) ↔ t ≤ x + r) ∧ (x + r < t → rnd p (x + r) = x + r ∧ OnGrid p j (x + r)) := by
  have key : x + r < t → OnGrid p j (x + r) := by
    intro h
    obtain ⟨a, ha⟩ := hx.2.2
    obtain ⟨b, hb⟩ := hr.2.2
    exact ⟨add_nonneg hx.1 hr.1, by linarith [ht.2.1], a + b, by rw [ha, hb]; push_cast; ring⟩
  refine ⟨⟨fun h => ?_, fun h => ?_⟩, fun h => ⟨(key h).float hp, key h⟩⟩
  · by_contra g
    rw [(key (not_le.mp g)).float hp] at h
    exact g h
  · have := rnd_mono hp h
    rwa [ht.float hp] at this

theorem diff_compare {p : ℕ} (hp : 1 ≤ p) {j : ℤ} {x r t : ℝ} (hx : OnGrid p j x) (hr : OnGrid p j r)
    (ht : OnGrid p j t) :
    (rnd p (x - r) ≤ t ↔ x - r ≤ t) ∧ (t < x - r → rnd p (x - r) = x - r ∧ OnGrid p j (x - r)) := by
  have key : t < x - r → OnGrid p j (x - r) := by
    intro h
    obtain ⟨a, ha⟩ := hx.2.2
    obtain ⟨b, hb⟩ := hr.2.2
    exact ⟨by linarith [ht.1], by linarith [hx.2.1, hr.1], a - b, by rw [ha, hb]; push_cast; ring⟩
  refine ⟨⟨fun h => ?_, fun h => ?_⟩, fun h => ⟨(key h).float hp, key h⟩⟩
  · by_contra g
    rw [(key (not_le.mp g)).float hp] at h
    exact g h
  · have := rnd_mono hp h
    rwa [ht.float hp] at this

structure GridState (p : ℕ) (j : ℤ) (s : State) : Prop where
  value : OnGrid p j s.value
  target : OnGrid p j s.target
  sustain : OnGrid p j s.sustainLevel
  attack : OnGrid p j s.attackRate
  decay : OnGrid p j s.decayRate
  release : OnGrid p j s.releaseRate

theorem tick_grid {p : ℕ} (hp : 1 ≤ p) {j : ℤ} {s : State} (h : GridState p j s) :
    tick p s = Env.Adsr.tick s ∧ GridState p j (tick p s) := by
  obtain ⟨hv, ht, hs, ha, hd, hr⟩ := h
  have h0 : OnGrid p j 0 := ⟨le_rfl, (two_zpow_pos _).le, 0, by simp⟩
  unfold tick Env.Adsr.tick
  cases hph : s.phase with
  | idle => exact ⟨rfl, hv, ht, hs, ha, hd, hr⟩
  | sustain => exact ⟨rfl, hv, ht, hs, ha, hd, hr⟩
  | attack =>
    obtain ⟨c1, c2⟩ := sum_compare hp hv ha ht
    dsimp only
    by_cases g : s.target ≤ s.value + s.attackRate
    · rw [if_pos (c1.mpr g), if_pos g]
      exact ⟨rfl, ht, hs, hs, ha, hd, hr⟩
    · rw [if_neg (fun h => g (c1.mp h)), if_neg g]
      obtain ⟨e1, e2⟩ := c2 (not_le.mp g)
      rw [e1]
      exact ⟨rfl, e2, ht, hs, ha, hd, hr⟩
  | decay =>
    dsimp only
    by_cases g1 : s.value > s.sustainLevel
    · rw [if_pos g1, if_pos g1]
      obtain ⟨c1, c2⟩ := diff_compare hp hv hd hs
      by_cases g : s.value - s.decayRate ≤ s.sustainLevel
      · rw [if_pos (c1.mpr g), if_pos g]
        exact ⟨rfl, hs, ht, hs, ha, hd, hr⟩
      · rw [if_neg (fun h => g (c1.mp h)), if_neg g]
        obtain ⟨e1, e2⟩ := c2 (not_le.mp g)
        rw [e1]
        exact ⟨rfl, e2, ht, hs, ha, hd, hr⟩
    · rw [if_neg g1, if_neg g1]
      obtain ⟨c1, c2⟩ := sum_compare hp hv hd hs
      by_cases g : s.sustainLevel ≤ s.value + s.decayRate
      · rw [if_pos (c1.mpr g), if_pos g]
        exact ⟨rfl, hs, ht, hs, ha, hd, hr⟩
      · rw [if_neg (fun h => g (c1.mp h)), if_neg g]
        obtain ⟨e1, e2⟩ := c2 (not_le.mp g)
        rw [e1]
        exact ⟨rfl, e2, ht, hs, ha, hd, hr⟩
  | release =>
    obtain ⟨c1, c2⟩ := diff_compare hp hv hr h0
    dsimp only
    by_cases g : s.value - s.releaseRate ≤ 0
    · rw [if_pos (c1.mpr g), if_pos g]
      exact ⟨rfl, h0, ht, hs, ha, hd, hr⟩
    · rw [if_neg (fun h => g (c1.mp h)), if_neg g]
      obtain ⟨e1, e2⟩ := c2 (not_le.mp g)
      rw [e1]
      exact ⟨rfl, e2, ht, hs, ha, hd, hr⟩

/-- **C107, without error**: when levels and rates are multiples of one power of two that `p` bits span, the envelope is
the exact one of C41 for ever, and its output is the exact output rounded once. -/
theorem C107_exact_partial {p : ℕ} (hp : 1 ≤ p) {j : ℤ} {s : State} (h : GridState p j s) (xs : List ℝ) :
    (apply p s xs).2 = (Env.Adsr.apply s xs).2 ∧ (apply p s xs).1 = (Env.Adsr.apply s xs).1.map (rnd p) := by
  induction xs generalizing s with
  | nil => exact ⟨rfl, rfl⟩
  | cons x xs ih =>
    obtain ⟨e1, e2⟩ := tick_grid hp h
    obtain ⟨i1, i2⟩ := ih e2
    simp only [apply, call, Env.Adsr.apply, Env.Adsr.call, List.map_cons]
    rw [e1] at i1 i2 ⊢
    exact ⟨i1, by rw [i2]⟩

example : GridState 24 (-20) { shortNote with attackRate := 3 * 2 ^ (-20 : ℤ), decayRate := 1 / 1024, releaseRate := 1 / 4 } where
  value := ⟨le_rfl, by norm_num [shortNote], 0, by norm_num [shortNote]⟩
  target := ⟨by norm_num [shortNote], by norm_num [shortNote], 2 ^ 20, by norm_num [shortNote]⟩
  sustain := ⟨by norm_num [shortNote], by norm_num [shortNote], 2 ^ 19, by norm_num [shortNote]⟩
  attack := ⟨by norm_num, by norm_num, 3, by norm_num⟩
  decay := ⟨by norm_num, by norm_num, 2 ^ 10, by norm_num⟩
  release := ⟨by norm_num, by norm_num, 2 ^ 18, by norm_num⟩

/-! ### Times -/

theorem recip_err {p q : ℕ} (hp : 3 ≤ p) (hq : p ≤ q) {c : ℝ} (hc : 0 < c) :
    (1 - 4 * 2 ^ (-(p : ℤ))) / c ≤ rnd p (rnd q (1 / rnd p c)) ∧
      rnd p (rnd q (1 / rnd p c)) ≤ (1 + 4 * 2 ^ (-(p : ℤ))) / c := by
  have hp1 : 1 ≤ p := by omega
  set u : ℝ := 2 ^ (-(p : ℤ)) with hu
  have hu0 : 0 < u := two_zpow_pos _
  have hu1 : u ≤ 1 / 8 := by
    have : (2 : ℝ) ^ (-(p : ℤ)) ≤ 2 ^ (-3 : ℤ) := zpow_le_zpow_right₀ (by norm_num) (by omega)
    norm_num at this ⊢
    simpa [hu] using this
  have hvu : (2 : ℝ) ^ (-(q : ℤ)) ≤ u := zpow_le_zpow_right₀ (by norm_num) (by omega)
  have e1 := rnd_err p c
  rw [abs_of_pos hc, ← hu, abs_le] at e1
  have hP : 0 < rnd p c := rnd_pos hp1 hc
  have hI : 0 < 1 / rnd p c := by positivity
  have e2 := rnd_err q (1 / rnd p c)
  rw [abs_of_pos hI, abs_le] at e2
  have hJ : 0 < rnd q (1 / rnd p c) := rnd_pos (by omega) hI
  have e3 := rnd_err p (rnd q (1 / rnd p c))
  rw [abs_of_pos hJ, ← hu, abs_le] at e3
  set P := rnd p c
  set J := rnd q (1 / P)
  have l1 : (1 - u) * (1 / P) ≤ J := by nlinarith
  have l2 : J ≤ (1 + u) * (1 / P) := by nlinarith
  have l3 : (1 - u) * J ≤ rnd p J := by linarith
  have l4 : rnd p J ≤ (1 + u) * J := by linarith
  have k1 : (1 - u) * ((1 - u) * (1 / P)) ≤ rnd p J := le_trans (mul_le_mul_of_nonneg_left l1 (by linarith)) l3
  have k2 : rnd p J ≤ (1 + u) * ((1 + u) * (1 / P)) := le_trans l4 (mul_le_mul_of_nonneg_left l2 (by linarith))
  constructor
  · refine le_trans ?_ k1
    rw [← mul_assoc, mul_one_div, div_le_div_iff₀ hc hP]
    have : (1 - 4 * u) * P ≤ (1 - 4 * u) * ((1 + u) * c) :=
      mul_le_mul_of_nonneg_left (by linarith) (by linarith)
    nlinarith [mul_pos hu0 hc, mul_pos (mul_pos hu0 hu0) hc]
  · refine le_trans k2 ?_
    rw [← mul_assoc, mul_one_div, div_le_div_iff₀ hP hc]
    have : (1 + 4 * u) * ((1 - u) * c) ≤ (1 + 4 * u) * P :=
      mul_le_mul_of_nonneg_left (by linarith) (by linarith)
    nlinarith [mul_pos hu0 hc, mul_nonneg (mul_nonneg hu0.le (show 0 ≤ 1 / 8 - u by linarith)) hc.le]

/-- **C107, attack time**: a fresh note whose attack time was set to `t` seconds, the samples in it being fewer than
about `2^(p+1)`, attacks for about `t · sample_rate` samples. -/
theorem C107_time_partial {p q : ℕ} (hp : 3 ≤ p) (hq : p ≤ q) {dbg : Bool} {s s' : State} {t : ℝ}
    (hfs : 0 < s.sampleRate) (ht : 0 < t) (hset : setAttackTime p q dbg s t = .ok s') (hv : s.value = 0)
    (hg : s.target ≤ 0) (hlong : 2 ^ (-(p : ℤ) - 1) * (t * s.sampleRate) < 1 - 4 * 2 ^ (-(p : ℤ))) :
    ∃ n : ℕ, 1 ≤ n ∧ (∀ xs : List ℝ, xs.length = n → (apply p (keyOn s') xs).2.phase = .decay ∧
        (apply p (keyOn s') xs).2.value = 1) ∧
      (∀ xs : List ℝ, xs.length < n → (apply p (keyOn s') xs).2.phase = .attack) ∧
      ((n : ℝ) - 1) * (1 - 4 * 2 ^ (-(p : ℤ)) - 2 ^ (-(p : ℤ) - 1) * (t * s.sampleRate)) < t * s.sampleRate ∧
      t * s.sampleRate ≤ n * (1 + 4 * 2 ^ (-(p : ℤ)) + 2 ^ (-(p : ℤ) - 1) * (t * s.sampleRate)) := by
  have hp1 : 1 ≤ p := by omega
  have hc : 0 < t * s.sampleRate := mul_pos ht hfs
  simp only [setAttackTime, expects_ok (show t > 0 from ht), divD_ok (rnd_pos hp1 hc), bind, Except.bind, pure,
    Except.pure] at hset
  cases hset
  obtain ⟨r1, r2⟩ := recip_err hp hq hc
  set c := t * s.sampleRate
  set a := rnd p (rnd q (1 / rnd p c))
  have hlow : (2 : ℝ) ^ (-(p : ℤ) - 1) < a := lt_of_lt_of_le (by rwa [lt_div_iff₀ hc]) r1
  obtain ⟨n, n1, n2, n3, n4, n5⟩ := C107_attack_partial hp1 (e := 0) (s := keyOn { s with attackRate := a }) rfl
    (by simp [keyOn, hv]) (by simp [keyOn, hv, hg]) (by simp [keyOn, hg]) (by simpa [keyOn] using hlow)
  simp only [keyOn, hv, if_pos hg, zero_sub, sub_zero] at n4 n5
  refine ⟨n, n1, fun xs hx => ?_, fun xs hx => (n3 xs hx).1, ?_, ?_⟩
  · rw [n2 xs hx]
    exact ⟨rfl, by simp [keyOn, hg]⟩
  · have hn : (0 : ℝ) ≤ (n : ℝ) - 1 := by
      have : (1 : ℝ) ≤ n := by exact_mod_cast n1
      linarith
    have h1 : ((n : ℝ) - 1) * ((1 - 4 * 2 ^ (-(p : ℤ))) / c - 2 ^ (-(p : ℤ) - 1)) < 1 :=
      lt_of_le_of_lt (mul_le_mul_of_nonneg_left (by linarith) hn) n4
    have h2 := mul_lt_mul_of_pos_right h1 hc
    have e : ((n : ℝ) - 1) * ((1 - 4 * 2 ^ (-(p : ℤ))) / c - 2 ^ (-(p : ℤ) - 1)) * c =
        ((n : ℝ) - 1) * (1 - 4 * 2 ^ (-(p : ℤ)) - 2 ^ (-(p : ℤ) - 1) * c) := by
      field_simp
    rwa [e, one_mul] at h2
  · have h1 : 1 ≤ (n : ℝ) * ((1 + 4 * 2 ^ (-(p : ℤ))) / c + 2 ^ (-(p : ℤ) - 1)) :=
      le_trans n5 (mul_le_mul_of_nonneg_left (by linarith) (Nat.cast_nonneg n))
    have h2 := mul_le_mul_of_nonneg_right h1 hc.le
    have e : (n : ℝ) * ((1 + 4 * 2 ^ (-(p : ℤ))) / c + 2 ^ (-(p : ℤ) - 1)) * c =
        n * (1 + 4 * 2 ^ (-(p : ℤ)) + 2 ^ (-(p : ℤ) - 1) * c) := by
      field_simp
    rwa [e, one_mul] at h2

/-- Ten seconds at 44.1 kHz in `float`: 441000 samples, below 2^25. -/
example : (2 : ℝ) ^ (-(24 : ℕ) - 1 : ℤ) * (10 * 44100) < 1 - 4 * 2 ^ (-(24 : ℕ) : ℤ) := by norm_num

lemma rnd_factor (r : ℕ) {u x : ℝ} (hx : 0 ≤ x) (hu : (2 : ℝ) ^ (-(r : ℤ)) ≤ u) :
    (1 - u) * x ≤ rnd r x ∧ rnd r x ≤ (1 + u) * x := by
  have e := rnd_err r x
  rw [abs_of_nonneg hx, abs_le] at e
  have := mul_le_mul_of_nonneg_right hu hx
  constructor <;> linarith

/-- Three factors `1 ± u` above and one below. -/
lemma factors {u x c X P Q R : ℝ} (h0 : 0 ≤ u) (h1 : u ≤ 1 / 8) (hx : 0 ≤ x) (hc : 0 < c)
    (hX : (1 - u) * x ≤ X ∧ X ≤ (1 + u) * x) (hP : (1 - u) * c ≤ P ∧ P ≤ (1 + u) * c)
    (hQ : (1 - u) * (X / P) ≤ Q ∧ Q ≤ (1 + u) * (X / P)) (hR : (1 - u) * Q ≤ R ∧ R ≤ (1 + u) * Q) :
    |R - x / c| ≤ 8 * u * (x / c) := by
  have P0 : 0 < P := lt_of_lt_of_le (mul_pos (by linarith) hc) hP.1
  have X0 : 0 ≤ X := le_trans (mul_nonneg (by linarith) hx) hX.1
  have y0 : 0 ≤ x / c := by positivity
  have l1 : (1 - u) * (x / c) ≤ (1 + u) * (X / P) := by
    rw [← mul_div_assoc, ← mul_div_assoc, div_le_div_iff₀ hc P0]
    calc (1 - u) * x * P ≤ X * ((1 + u) * c) := mul_le_mul hX.1 hP.2 P0.le X0
      _ = (1 + u) * X * c := by ring
  have l2 : (1 - u) * (X / P) ≤ (1 + u) * (x / c) := by
    rw [← mul_div_assoc, ← mul_div_assoc, div_le_div_iff₀ P0 hc]
    calc (1 - u) * X * c = X * ((1 - u) * c) := by ring
      _ ≤ (1 + u) * x * P := mul_le_mul hX.2 hP.1 (mul_nonneg (by linarith) hc.le) (mul_nonneg (by linarith) hx)
  set y := x / c
  set Z := X / P
  have m1 : (1 - u) * ((1 - u) * Z) ≤ R := le_trans (mul_le_mul_of_nonneg_left hQ.1 (by linarith)) hR.1
  have m2 : R ≤ (1 + u) * ((1 + u) * Z) := le_trans hR.2 (mul_le_mul_of_nonneg_left hQ.2 (by linarith))
  have k1 : (1 - u) * (1 - u) * ((1 - u) * y) ≤ (1 + u) * R := by
    have := mul_le_mul_of_nonneg_left l1 (mul_nonneg (show 0 ≤ 1 - u by linarith) (show 0 ≤ 1 - u by linarith))
    have := mul_le_mul_of_nonneg_left m1 (show 0 ≤ 1 + u by linarith)
    linarith
  have k2 : (1 - u) * R ≤ (1 + u) * (1 + u) * ((1 + u) * y) := by
    have := mul_le_mul_of_nonneg_left l2 (mul_nonneg (show 0 ≤ 1 + u by linarith) (show 0 ≤ 1 + u by linarith))
    have := mul_le_mul_of_nonneg_left m2 (show 0 ≤ 1 - u by linarith)
    linarith
  have hu2 : 0 ≤ u * u * y := by positivity
  have hu3 : 0 ≤ u * u * u * y := by positivity
  have s1 : u * u * y ≤ 1 / 8 * (u * y) := by
    have := mul_le_mul_of_nonneg_right h1 (mul_nonneg h0 y0)
    linarith
  have s2 : u * u * u * y ≤ 1 / 8 * (u * u * y) := by
    have := mul_le_mul_of_nonneg_right h1 hu2
    linarith
  have uy : 0 ≤ u * y := mul_nonneg h0 y0
  rw [abs_le]
  constructor
  · refine le_of_mul_le_mul_left (a := 1 + u) ?_ (by linarith)
    linarith
  · refine le_of_mul_le_mul_left (a := 1 - u) ?_ (by linarith)
    linarith

/-- **C107, the rates of the times**: setting a decay or a release time of `t` seconds succeeds and changes nothing but
the rate (and the time) of that phase; the rate covers the span of the phase, from 1 to the sustain level or from the
sustain level to 0, in `t · sample_rate` samples, up to a few roundings. -/
theorem C107_rates_partial {p q : ℕ} (hp : 3 ≤ p) (hq : p ≤ q) (dbg : Bool) {s : State} {t : ℝ}
    (hfs : 0 < s.sampleRate) (ht : 0 < t) (h0 : 0 ≤ s.sustainLevel) (h1 : s.sustainLevel ≤ 1) :
    (∃ r, setDecayTime p q dbg s t = .ok { s with decayRate := r } ∧
      |r - (1 - s.sustainLevel) / (t * s.sampleRate)| ≤
        8 * 2 ^ (-(p : ℤ)) * ((1 - s.sustainLevel) / (t * s.sampleRate))) ∧
    ∃ r, setReleaseTime p dbg s t = .ok { s with releaseRate := r, releaseTime := t } ∧
      |r - s.sustainLevel / (t * s.sampleRate)| ≤ 8 * 2 ^ (-(p : ℤ)) * (s.sustainLevel / (t * s.sampleRate)) := by
  have hp1 : 1 ≤ p := by omega
  have hc : 0 < t * s.sampleRate := mul_pos ht hfs
  have u0 : (0 : ℝ) < 2 ^ (-(p : ℤ)) := two_zpow_pos _
  have u1 : (2 : ℝ) ^ (-(p : ℤ)) ≤ 1 / 8 := by
    have : (2 : ℝ) ^ (-(p : ℤ)) ≤ 2 ^ (-3 : ℤ) := zpow_le_zpow_right₀ (by norm_num) (by omega)
    norm_num at this ⊢
    exact this
  have hvu : (2 : ℝ) ^ (-(q : ℤ)) ≤ 2 ^ (-(p : ℤ)) := zpow_le_zpow_right₀ (by norm_num) (by omega)
  have fP := rnd_factor p hc.le le_rfl
  have P0 : 0 < rnd p (t * s.sampleRate) := rnd_pos hp1 hc
  constructor
  · have x0 : 0 ≤ 1 - s.sustainLevel := by linarith
    have fX := rnd_factor q x0 hvu
    have X0 : 0 ≤ rnd q (1 - s.sustainLevel) := le_trans (mul_nonneg (by linarith) x0) fX.1
    have fQ := rnd_factor q (div_nonneg X0 P0.le) hvu
    have Q0 : 0 ≤ rnd q (rnd q (1 - s.sustainLevel) / rnd p (t * s.sampleRate)) :=
      le_trans (mul_nonneg (by linarith) (div_nonneg X0 P0.le)) fQ.1
    refine ⟨_, ?_, factors u0.le u1 x0 hc fX fP fQ (rnd_factor p Q0 le_rfl)⟩
    simp only [setDecayTime, expects_ok (show t > 0 from ht), divD_ok P0, bind, Except.bind, pure, Except.pure]
  · have X0 := h0
    have fR := rnd_factor p (div_nonneg X0 P0.le) le_rfl
    have trivial_factor : ∀ {y : ℝ}, 0 ≤ y → (1 - (2 : ℝ) ^ (-(p : ℤ))) * y ≤ y ∧ y ≤ (1 + (2 : ℝ) ^ (-(p : ℤ))) * y := by
      intro y hy
      have := mul_nonneg u0.le hy
      constructor <;> linarith
    refine ⟨_, ?_, factors u0.le u1 X0 hc (trivial_factor X0) fP (trivial_factor (div_nonneg X0 P0.le)) fR⟩
    simp only [setReleaseTime, expects_ok (show t > 0 from ht), divT_ok P0, bind, Except.bind, pure, Except.pure]

/-- A sustain level of 3/4 and a decay of one second at 44.1 kHz: a quarter in 44100 samples. -/
example : ∃ r, setDecayTime 24 53 true { shortNote with sampleRate := 44100, sustainLevel := 3 / 4 } 1 =
      .ok { shortNote with sampleRate := 44100, sustainLevel := 3 / 4, decayRate := r } ∧
    |r - 1 / 4 / 44100| ≤ 8 * 2 ^ (-24 : ℤ) * (1 / 4 / 44100) := by
  obtain ⟨⟨r, h1, h2⟩, -⟩ := C107_rates_partial (p := 24) (q := 53) (by norm_num) (by norm_num) true
    (s := { shortNote with sampleRate := 44100, sustainLevel := 3 / 4 }) (t := 1) (by norm_num) (by norm_num)
    (by norm_num) (by norm_num)
  refine ⟨r, h1, ?_⟩
  norm_num at h2 ⊢
  exact h2

/-! ### Phases that never end -/

/-- **C107, attack violated**: a rate of at most `2^(-p-1)` never brings a fresh note above one half; the exact envelope
of C41 arrives. -/
theorem C107_attack_violates {p : ℕ} (hp : 2 ≤ p) {s : State} (hs : s.phase = .attack) (hv : s.value = 0)
    (ht : 1 / 2 < s.target) (h0 : 0 < s.attackRate) (hr : s.attackRate ≤ 2 ^ (-(p : ℤ) - 1)) :
    (∀ xs : List ℝ, (apply p s xs).2.phase = .attack ∧ (apply p s xs).2.value ≤ 1 / 2) ∧
      ∃ n : ℕ, ∀ xs : List ℝ, xs.length = n → (Env.Adsr.apply s xs).2.phase = .decay := by
  have hstuck : ∀ k, (up p s.attackRate)^[k] s.value ≤ 1 / 2 := by
    intro k
    have := up_stuck hp (r := s.attackRate) (x := s.value) (e := -1) (by rw [hv]; norm_num)
      (by rwa [show (-1 : ℤ) - p = -(p : ℤ) - 1 by ring]) k
    simpa using this
  constructor
  · intro xs
    rw [apply_state, attack_iter hs _ (fun j _ _ => lt_of_le_of_lt (hstuck j) ht)]
    exact ⟨hs, hstuck _⟩
  · refine ⟨Spec.attackSamples s.value s.target s.attackRate, fun xs hx => ?_⟩
    rw [C41.apply_state, hx, C41.attack_end hs h0 (by rw [hv]; linarith)]

/-- **C107, attack, sharp**: a fresh note of level 1 ends its attack exactly when its rate is above `2^(-p-1)`. -/
theorem C107_attack_sharp {p : ℕ} (hp : 2 ≤ p) {s : State} (hs : s.phase = .attack) (hv : s.value = 0)
    (ht : s.target = 1) (h0 : 0 < s.attackRate) :
    (∃ xs : List ℝ, (apply p s xs).2.phase ≠ .attack) ↔ (2 : ℝ) ^ (-(p : ℤ) - 1) < s.attackRate := by
  constructor
  · rintro ⟨xs, hx⟩
    by_contra g
    exact hx ((C107_attack_violates hp hs hv (by rw [ht]; norm_num) h0 (not_lt.mp g)).1 xs).1
  · intro g
    obtain ⟨n, -, n2, -⟩ := C107_attack_partial (p := p) (by omega) hs (e := 0) hv.ge (by rw [hv, ht]; norm_num)
      (by rw [ht]; norm_num) (by simpa using g)
    refine ⟨List.replicate n 0, ?_⟩
    rw [n2 _ (List.length_replicate)]
    exact fun e => nomatch e

example : ∀ xs : List ℝ, (apply 24 { shortNote with attackRate := 2 ^ (-25 : ℤ) } xs).2.phase = .attack := fun xs =>
  ((C107_attack_violates (p := 24) (by norm_num) (s := { shortNote with attackRate := 2 ^ (-25 : ℤ) }) rfl rfl
    (by norm_num [shortNote]) (by norm_num) (by norm_num)).1 xs).1

/-- **C107, decay violated**: from 1 a decay by at most `2^(-p-1)` stays at 1 for ever. -/
theorem C107_decay_violates {p : ℕ} (hp : 2 ≤ p) {s : State} (hs : s.phase = .decay) (hv : s.value = 1)
    (hl : s.sustainLevel < 1) (h0 : 0 < s.decayRate) (hr : s.decayRate ≤ 2 ^ (-(p : ℤ) - 1)) (xs : List ℝ) :
    (apply p s xs).2 = s := by
  have hstuck : ∀ k, (down p s.decayRate)^[k] s.value = 1 := by
    intro k
    have := down_stuck hp (e := 0) h0.le (by simpa using hr) k
    rw [hv]
    simpa using this
  rw [apply_state, decay_iter hs _ (fun j _ => by rw [hstuck]; exact hl), hstuck, ← hv]

example (xs : List ℝ) : (apply 24 { shortNote with phase := .decay, value := 1, decayRate := 2 ^ (-25 : ℤ) } xs).2.phase =
    .decay := by
  rw [C107_decay_violates (p := 24) (by norm_num) rfl rfl (by norm_num [shortNote]) (by norm_num) (by norm_num) xs]

/-- **C107, release violated**: from 1 a release by at most `2^(-p-1)` stays at 1 for ever. -/
theorem C107_release_violates {p : ℕ} (hp : 2 ≤ p) {s : State} (hs : s.phase = .release) (hv : s.value = 1)
    (h0 : 0 < s.releaseRate) (hr : s.releaseRate ≤ 2 ^ (-(p : ℤ) - 1)) (xs : List ℝ) : (apply p s xs).2 = s := by
  have hstuck : ∀ k, (down p s.releaseRate)^[k] s.value = 1 := by
    intro k
    have := down_stuck hp (e := 0) h0.le (by simpa using hr) k
    rw [hv]
    simpa using this
  rw [apply_state, release_iter hs _ (fun j _ _ => by rw [hstuck]; exact zero_lt_one), hstuck, ← hv]

/-! ### Exactly which phases end -/

/-- **C107, attack decided**: below a target in the binade `2^(k+p-1) … 2^(k+p)`, whose numbers are `2^k` apart, an
attack ends exactly when its rate is above `2^k / 2`, or equal to it and the target is the next number, an even multiple
of `2^k`. -/
theorem C107_attack_iff {p : ℕ} (hp : 2 ≤ p) {s : State} (hs : s.phase = .attack) {k : ℤ} (hv : IsFloat p s.value)
    (ht : IsFloat p s.target) (h0 : 0 ≤ s.value) (h1 : s.value < s.target) (h2 : (2 : ℝ) ^ (k + p - 1) < s.target)
    (h3 : s.target ≤ 2 ^ (k + p)) (hr : 0 ≤ s.attackRate) :
    (∃ xs : List ℝ, (apply p s xs).2.phase ≠ .attack) ↔ 2 ^ (k - 1) < s.attackRate ∨
      (s.attackRate = 2 ^ (k - 1) ∧ s.target = s.value + 2 ^ k ∧ ∃ m : ℤ, Odd m ∧ s.value = m * 2 ^ k) := by
  rw [← up_decided hp hv ht h0 h1 h2 h3 hr]
  constructor
  · rintro ⟨xs, hx⟩
    by_contra hc
    push Not at hc
    rw [apply_state, attack_iter hs _ (fun j _ _ => hc j)] at hx
    exact hx hs
  · intro hex
    classical
    have hn := Nat.find_spec hex
    have hlt : ∀ j < Nat.find hex, (up p s.attackRate)^[j] s.value < s.target :=
      fun j hj => not_le.mp (Nat.find_min hex hj)
    rcases e : Nat.find hex with _ | n
    · rw [e] at hn
      exact absurd hn (not_le.mpr h1)
    · rw [e] at hn hlt
      refine ⟨List.replicate (n + 1) 0, ?_⟩
      rw [apply_state, List.length_replicate, attack_end hs n (fun j hj _ => hlt j hj) hn]
      exact fun e => nomatch e

/-- **C107, decay decided**: from a level in the binade `2^(k+p-1) … 2^(k+p)` a decay ends exactly when its rate is above
`2^k / 2`, or equal to it, the level an odd multiple of `2^k`, and the next number below is not above the sustain level
or is the end of the binade. -/
theorem C107_decay_iff {p : ℕ} (hp : 2 ≤ p) {s : State} (hs : s.phase = .decay) {k : ℤ} (hv : IsFloat p s.value)
    (h0 : 0 ≤ s.sustainLevel) (h1 : s.sustainLevel < s.value) (h2 : (2 : ℝ) ^ (k + p - 1) < s.value)
    (h3 : s.value ≤ 2 ^ (k + p)) (hr : 0 ≤ s.decayRate) :
    (∃ xs : List ℝ, (apply p s xs).2.phase ≠ .decay) ↔ 2 ^ (k - 1) < s.decayRate ∨
      (s.decayRate = 2 ^ (k - 1) ∧ (∃ m : ℤ, Odd m ∧ s.value = m * 2 ^ k) ∧
        (s.value ≤ s.sustainLevel + 2 ^ k ∨ s.value = 2 ^ (k + p - 1) + 2 ^ k)) := by
  rw [← down_decided hp hv h0 h1 h2 h3 hr]
  constructor
  · rintro ⟨xs, hx⟩
    by_contra hc
    push Not at hc
    rw [apply_state, decay_iter hs _ (fun j _ => hc j)] at hx
    exact hx hs
  · intro hex
    classical
    have hn := Nat.find_spec hex
    have hlt : ∀ j < Nat.find hex, s.sustainLevel < (down p s.decayRate)^[j] s.value :=
      fun j hj => not_le.mp (Nat.find_min hex hj)
    rcases e : Nat.find hex with _ | n
    · rw [e] at hn
      exact absurd hn (not_le.mpr h1)
    · rw [e] at hn hlt
      refine ⟨List.replicate (n + 1) 0, ?_⟩
      rw [apply_state, List.length_replicate, decay_end hs n hlt hn]
      exact fun e => nomatch e

/-- **C107, release decided**: from a level in the binade `2^(k+p-1) … 2^(k+p)` a release ends, and the note becomes
idle, exactly when its rate is above `2^k / 2`, or equal to it and the level the first number above `2^(k+p-1)`. -/
theorem C107_release_iff {p : ℕ} (hp : 2 ≤ p) {s : State} (hs : s.phase = .release) {k : ℤ} (hv : IsFloat p s.value)
    (h2 : (2 : ℝ) ^ (k + p - 1) < s.value) (h3 : s.value ≤ 2 ^ (k + p)) (hr : 0 ≤ s.releaseRate) :
    (∃ xs : List ℝ, (apply p s xs).2.phase = .idle) ↔ 2 ^ (k - 1) < s.releaseRate ∨
      (s.releaseRate = 2 ^ (k - 1) ∧ s.value = 2 ^ (k + p - 1) + 2 ^ k) := by
  have hk := two_zpow_pos k
  have hb := two_zpow_pos (k + p - 1)
  have h1 : 0 < s.value := hb.trans h2
  have hle : (2 : ℝ) ^ k < 2 ^ (k + p - 1) := zpow_lt_zpow_right₀ (by norm_num) (by omega)
  have simp_tie : (s.releaseRate = 2 ^ (k - 1) ∧ s.value = 2 ^ (k + p - 1) + 2 ^ k) ↔
      (s.releaseRate = 2 ^ (k - 1) ∧ (∃ m : ℤ, Odd m ∧ s.value = m * 2 ^ k) ∧
        (s.value ≤ 0 + 2 ^ k ∨ s.value = 2 ^ (k + p - 1) + 2 ^ k)) := by
    constructor
    · rintro ⟨e1, e2⟩
      refine ⟨e1, ⟨2 ^ (p - 1) + 1, (even_bot hp).add_one, ?_⟩, .inr e2⟩
      rw [e2, unit_bot (by omega)]; push_cast; ring
    · rintro ⟨e1, -, e2 | e2⟩
      · linarith
      · exact ⟨e1, e2⟩
  rw [simp_tie, ← down_decided hp hv le_rfl h1 h2 h3 hr]
  constructor
  · rintro ⟨xs, hx⟩
    by_contra hc
    push Not at hc
    rw [apply_state, release_iter hs _ (fun j _ _ => hc j)] at hx
    rw [hs] at hx
    exact nomatch hx
  · intro hex
    classical
    have hn := Nat.find_spec hex
    have hlt : ∀ j < Nat.find hex, 0 < (down p s.releaseRate)^[j] s.value :=
      fun j hj => not_le.mp (Nat.find_min hex hj)
    rcases e : Nat.find hex with _ | n
    · rw [e] at hn
      exact absurd hn (not_le.mpr h1)
    · rw [e] at hn hlt
      refine ⟨List.replicate (n + 1) 0, ?_⟩
      rw [apply_state, List.length_replicate, release_end hs n (fun j hj _ => hlt j hj) hn]

/-- A `float` note released at 3/4 becomes idle at a rate of more than `2^-25`, and not at `2^-25`. -/
example : (∃ xs : List ℝ, (apply 24 { shortNote with phase := .release, value := 3 / 4, releaseRate := 2 ^ (-24 : ℤ) }
      xs).2.phase = .idle) ∧
    ¬ ∃ xs : List ℝ, (apply 24 { shortNote with phase := .release, value := 3 / 4, releaseRate := 2 ^ (-25 : ℤ) }
      xs).2.phase = .idle := by
  have hf : IsFloat 24 ((3 : ℝ) / 4) := ⟨3, -2, by norm_num, by norm_num⟩
  constructor
  · rw [C107_release_iff (p := 24) (k := -24) (by norm_num) rfl hf (by norm_num) (by norm_num) (by norm_num)]
    left; norm_num
  · rw [C107_release_iff (p := 24) (k := -24) (by norm_num) rfl hf (by norm_num) (by norm_num) (by norm_num)]
    norm_num

/-- At the sustain level 1/2, one unit below the level, the slowest decay ends; from two units it does not. -/
example : (∃ xs : List ℝ, (apply 24
      { shortNote with phase := .decay, value := 1 / 2 + 2 ^ (-24 : ℤ), decayRate := 2 ^ (-25 : ℤ) } xs).2.phase ≠
        .decay) ∧
    ¬ ∃ xs : List ℝ, (apply 24
      { shortNote with phase := .decay, value := 1 / 2 + 2 ^ (-23 : ℤ), decayRate := 2 ^ (-25 : ℤ) } xs).2.phase ≠
        .decay := by
  constructor
  · rw [C107_decay_iff (p := 24) (k := -24) (by norm_num) rfl ⟨2 ^ 23 + 1, -24, by norm_num, by norm_num⟩
      (by norm_num [shortNote]) (by norm_num [shortNote]) (by norm_num) (by norm_num) (by norm_num)]
    right
    exact ⟨by norm_num, ⟨2 ^ 23 + 1, ⟨2 ^ 22, by norm_num⟩, by norm_num⟩, by norm_num⟩
  · rw [C107_decay_iff (p := 24) (k := -24) (by norm_num) rfl ⟨2 ^ 22 + 1, -23, by norm_num, by norm_num⟩
      (by norm_num [shortNote]) (by norm_num [shortNote]) (by norm_num) (by norm_num) (by norm_num)]
    rintro (h | ⟨-, -, h | h⟩) <;> norm_num [shortNote] at h

/-- An attack from 1/4 to 3/4 by `2^-25`, which is half a unit at 3/4, does not end. -/
example : ¬ ∃ xs : List ℝ, (apply 24 { shortNote with value := 1 / 4, target := 3 / 4, attackRate := 2 ^ (-25 : ℤ) }
    xs).2.phase ≠ .attack := by
  rw [C107_attack_iff (p := 24) (k := -24) (by norm_num) rfl ⟨1, -2, by norm_num, by norm_num⟩
    ⟨3, -2, by norm_num, by norm_num⟩ (by norm_num) (by norm_num) (by norm_num) (by norm_num) (by norm_num)]
  rintro (h | ⟨-, h, -⟩) <;> norm_num at h

theorem rnd24_44100 : rnd 24 44100 = 44100 := rnd_float ⟨44100, 0, by norm_num, by norm_num⟩

theorem rnd24_800 : rnd 24 (800 * 44100) = 35280000 := by
  rw [show (800 * 44100 : ℝ) = 35280000 by norm_num]
  exact rnd_float ⟨275625, 7, by norm_num, by norm_num⟩

theorem rnd24_1000 : rnd 24 (1000 * 44100) = 44100000 := by
  rw [show (1000 * 44100 : ℝ) = 44100000 by norm_num]
  exact rnd_float ⟨1378125, 5, by norm_num, by norm_num⟩

theorem tiny {c : ℝ} (h0 : 0 < c) (h1 : c ≤ 2 ^ (-25 : ℤ)) : 0 < rnd 24 c ∧ rnd 24 c ≤ 2 ^ (-25 : ℤ) :=
  ⟨rnd_pos (by norm_num) h0, by
    have := rnd_mono (p := 24) (by norm_num) h1
    rwa [rnd_float (isFloat_two_zpow (by norm_num) _)] at this⟩

/-- **C107, attack time violated**: with an attack time of 800 seconds at 44.1 kHz a `float` note never ends its attack
and never gets above one half. -/
theorem C107_attackTime_violates (dbg : Bool) :
    ∃ s, run 24 53 dbg (init 24 53) [.setAttackTime 800, .keyOn] = .ok s ∧
      ∀ xs : List ℝ, (apply 24 s xs).2.phase = .attack ∧ (apply 24 s xs).2.value ≤ 1 / 2 := by
  have hpos : (0 : ℝ) < rnd 24 (800 * rnd 24 44100) := rnd_pos (by norm_num) (by rw [rnd24_44100]; norm_num)
  refine ⟨keyOn { init 24 53 with attackRate := rnd 24 (rnd 53 (1 / rnd 24 (800 * rnd 24 44100))) }, ?_, ?_⟩
  · simp only [run, step, setAttackTime, init, expects_ok (show (800 : ℝ) > 0 by norm_num), divD_ok hpos, bind,
      Except.bind, pure, Except.pure]
  · intro xs
    have h1 : (0 : ℝ) < rnd 53 (1 / 35280000) := rnd_pos (by norm_num) (by norm_num)
    have h2 : rnd 53 (1 / 35280000) ≤ (2 : ℝ) ^ (-25 : ℤ) := by
      have := rnd_mono (p := 53) (by norm_num) (show (1 / 35280000 : ℝ) ≤ 2 ^ (-25 : ℤ) by norm_num)
      rwa [rnd_float (isFloat_two_zpow (by norm_num) _)] at this
    obtain ⟨h3, h4⟩ := tiny h1 h2
    refine (C107_attack_violates (p := 24) (by norm_num) ?_ ?_ ?_ ?_ ?_).1 xs
    · rfl
    · rfl
    · norm_num [keyOn, init]
    · simp only [keyOn, rnd24_44100, rnd24_800]
      exact h3
    · simp only [keyOn, rnd24_44100, rnd24_800]
      simpa using h4

/-- **C107, release time violated**: a `float` note held at level 1 with a release time of 1000 seconds at 44.1 kHz stays
at level 1 for ever after `key_off`. -/
theorem C107_releaseTime_violates (dbg : Bool) (x y : ℝ) :
    ∃ s, run 24 53 dbg (init 24 53) [.setSustainLevel 1, .setAttackRate 1, .keyOn, .sample x, .sample y,
        .setReleaseTime 1000, .keyOff] = .ok s ∧
      ∀ xs : List ℝ, (apply 24 s xs).2.phase = .release ∧ (apply 24 s xs).2.value = 1 := by
  set d := rnd 24 (rnd 53 0.001) with hd
  have hd0 : 0 < d := rnd_pos (by norm_num) (rnd_pos (by norm_num) (by norm_num))
  have h1 : (rnd 24 (0 + 1) : ℝ) = 1 := by rw [zero_add, rnd_one (by norm_num)]
  have h2 : (1 : ℝ) ≤ rnd 24 (1 + d) := by
    have := rnd_mono (p := 24) (by norm_num) (show (1 : ℝ) ≤ 1 + d by linarith)
    rwa [rnd_one (by norm_num)] at this
  have hdiv : divT 24 1 44100000 = .ok (rnd 24 (1 / 44100000)) := divT_ok (by norm_num)
  obtain ⟨h3, h4⟩ := tiny (c := 1 / 44100000) (by norm_num) (by norm_num)
  refine ⟨⟨.release, 44100, 0, 1, 1, d, rnd 24 (1 / 44100000), 1000, 1⟩, ?_, fun xs => ?_⟩
  · simp only [run, step, setSustainLevel, setAttackRate, setReleaseTime, keyOff, init, keyOn, call, tick,
      expects_ok (show (1 : ℝ) ≥ 0 by norm_num), expects_ok trivial, bind, Except.bind, pure,
      Except.pure, ← hd, le_refl, if_true, h1, ge_iff_le, gt_iff_lt, lt_irrefl, if_false, h2, rnd24_44100, rnd24_1000,
      hdiv, show (0 : ℝ) < 1000 by norm_num]
  · rw [C107_release_violates (p := 24) (by norm_num) rfl rfl h3 (by simpa using h4) xs]
    exact ⟨rfl, rfl⟩

/-! ### The times reported -/

theorem rnd_within {p q : ℕ} (hpq : p ≤ q) (hp : 1 ≤ p) {x : ℝ} (hx : 0 < x) : Agree p 1 (rnd q x) x := by
  have h := AgreeL.rnd_agree (hp.trans hpq) hx.le
  have hx' := rnd_pos (hp.trans hpq) hx
  have hu : (2 : ℝ) ^ (-(q : ℤ)) ≤ 2 ^ (-(p : ℤ)) := zpow_le_zpow_right₀ (by norm_num) (by omega)
  rw [Agree, pow_one] at h ⊢
  exact ⟨h.1.trans (mul_le_mul_of_nonneg_left (by linarith) hx.le),
    h.2.trans (mul_le_mul_of_nonneg_left (by linarith) hx'.le)⟩

theorem time_back {p q : ℕ} (hpq : p ≤ q) (hp : 1 ≤ p) {D t f : ℝ} (hD : 0 < D) (ht : 0 < t) (hf : 0 < f) :
    0 < rnd p (rnd p (rnd q (D / rnd p (t * f))) * f) ∧
    Agree p 6 (rnd p (rnd q (D / rnd p (rnd p (rnd q (D / rnd p (t * f))) * f)))) t := by
  have hq : 1 ≤ q := hp.trans hpq
  have r : ∀ {x : ℝ}, 0 < x → 0 < rnd p x := fun h => rnd_pos hp h
  have a1 : 0 < t * f := mul_pos ht hf
  have a2 := r a1
  have a3 : 0 < D / rnd p (t * f) := div_pos hD a2
  have a4 : 0 < rnd q (D / rnd p (t * f)) := rnd_pos hq a3
  have a5 := r a4
  have a6 := mul_pos a5 hf
  have a7 := r a6
  have a8 := div_pos hD a7
  have a9 : 0 < rnd q (D / rnd p (rnd p (rnd q (D / rnd p (t * f))) * f)) := rnd_pos hq a8
  refine ⟨a7, ?_⟩
  have b0 : Agree p 0 D D := AgreeL.refl D
  have bf : Agree p 0 f f := AgreeL.refl f
  have b1 := rnd_within le_rfl hp a1
  have b2 := AgreeL.div hD.le hD.le a2 a1 b0 b1
  have b3 := AgreeL.trans (rnd_within hpq hp a3) b2
  have b4 := AgreeL.trans (rnd_within le_rfl hp a4) b3
  have c4 : 0 < D / (t * f) := div_pos hD a1
  have b5 := AgreeL.mul a5.le c4.le hf.le hf.le b4 bf
  have b6 := AgreeL.trans (rnd_within le_rfl hp a6) b5
  have c6 : 0 < D / (t * f) * f := mul_pos c4 hf
  have b7 := AgreeL.div hD.le hD.le a7 c6 b0 b6
  have b8 := AgreeL.trans (rnd_within hpq hp a8) b7
  have b9 := AgreeL.trans (rnd_within le_rfl hp a9) b8
  have e : D / (D / (t * f) * f) = t := by field_simp
  rw [e] at b9
  exact b9

/-- **C107, times**: after `set_attack_time(t)` and `set_decay_time(t)` the time reported is `t` up to six roundings, for
every sample rate and every sustain level below 1. -/
theorem C107_times {p q : ℕ} (hp : 1 ≤ p) (hpq : p ≤ q) (dbg : Bool) (s : State) {t : ℝ} (ht : 0 < t)
    (hf : 0 < s.sampleRate) :
    (∃ s' v, setAttackTime p q dbg s t = .ok s' ∧ attackTime p q s' = .ok v ∧ Agree p 6 v t) ∧
    (s.sustainLevel < 1 → ∃ s' v, setDecayTime p q dbg s t = .ok s' ∧ decayTime p q s' = .ok v ∧ Agree p 6 v t) := by
  have hq : 1 ≤ q := hp.trans hpq
  have h1 : 0 < rnd p (t * s.sampleRate) := rnd_pos hp (mul_pos ht hf)
  constructor
  · obtain ⟨h2, h3⟩ := time_back hpq hp one_pos ht hf
    refine ⟨{ s with attackRate := rnd p (rnd q (1 / rnd p (t * s.sampleRate))) }, _, ?_, ?_, h3⟩
    · simp only [setAttackTime, expects_ok (show t > 0 from ht), divD_ok h1, bind, Except.bind, pure, Except.pure]
    · exact divD_ok h2
  · intro hs
    obtain ⟨h2, h3⟩ := time_back hpq hp (rnd_pos hq (sub_pos.mpr hs)) ht hf
    refine ⟨{ s with decayRate := rnd p (rnd q (rnd q (1 - s.sustainLevel) / rnd p (t * s.sampleRate))) }, _, ?_, ?_, h3⟩
    · simp only [setDecayTime, expects_ok (show t > 0 from ht), divD_ok h1, bind, Except.bind, pure, Except.pure]
    · exact divD_ok h2

example : ∃ s' v, setDecayTime 24 53 true (init 24 53) (1 / 4) = .ok s' ∧ decayTime 24 53 s' = .ok v ∧
    Agree 24 6 v (1 / 4) :=
  (C107_times (by norm_num) (by norm_num) true (init 24 53) (by norm_num) (rnd_pos (by norm_num) (by norm_num))).2
    (by norm_num [init])

end Edsp.C107
