import Verif.Model.Envelopes
import Verif.Spec.Envelopes
import Mathlib.Tactic.Linarith
import Mathlib.Tactic.NormNum
import Mathlib.Tactic.FieldSimp
import Mathlib.Tactic.Ring
import Mathlib.Tactic.Positivity

/-!
# C41: the ADSR envelope stays in [0,1] and follows its phases; C65: its times
-/

namespace Edsp.C41
open Edsp.Env Edsp.Env.Adsr Edsp.Spec

/-! ### Helper lemmas -/

/-- The arguments a user may pass. -/
def InRange : Op → Prop
  | .keyOn => True
  | .keyOff => True
  | .sample _ => True
  | .setAttackTarget t => 0 ≤ t ∧ t ≤ 1
  | .setAttackRate r => 0 ≤ r
  | .setDecayRate r => 0 ≤ r
  | .setSustainLevel l => 0 ≤ l ∧ l ≤ 1
  | .setReleaseRate r => 0 ≤ r
  | .setAttackTime t => 0 < t
  | .setDecayTime t => 0 < t
  | .setReleaseTime t => 0 < t
  | .setTarget t => t ≤ 1
  | .setSampleRate r => 0 < r

structure Inv (s : State) : Prop where
  rate : 0 < s.sampleRate
  target0 : 0 ≤ s.target
  target1 : s.target ≤ 1
  value0 : 0 ≤ s.value
  value1 : s.value ≤ 1
  attack0 : 0 ≤ s.attackRate
  decay0 : 0 ≤ s.decayRate
  release0 : 0 ≤ s.releaseRate
  sustain0 : 0 ≤ s.sustainLevel
  sustain1 : s.sustainLevel ≤ 1
  idle : s.phase = .idle → s.value = 0

theorem init_inv : Inv init := by
  constructor <;> norm_num [init]

theorem div_ok {x y : ℝ} (h : 0 < y) : div x y = .ok (x / y) := by rw [div, if_neg h.ne']

theorem expects_ok {dbg : Bool} {c : Prop} [Decidable c] (h : c) : expects dbg c = .ok () := by
  rw [expects, if_neg (fun g => g.2 h)]

theorem clamp_bounds {t : ℝ} (h : t ≤ 1) : 0 < clampTarget t ∧ clampTarget t ≤ 1 := by
  rw [clampTarget]
  split_ifs with g
  · exact ⟨by linarith, h⟩
  · norm_num

theorem tick_inv {s : State} (h : Inv s) : Inv (tick s) := by
  obtain ⟨h1, h2, h3, h4, h5, h6, h7, h8, h9, h10, h11⟩ := h
  unfold tick
  cases hp : s.phase with
  | idle => exact ⟨h1, h2, h3, h4, h5, h6, h7, h8, h9, h10, h11⟩
  | sustain => exact ⟨h1, h2, h3, h4, h5, h6, h7, h8, h9, h10, h11⟩
  | attack =>
    dsimp only
    split_ifs with g
    · exact ⟨h1, h9, h10, h2, h3, h6, h7, h8, h9, h10, fun e => nomatch e⟩
    · exact ⟨h1, h2, h3, by dsimp only; linarith, by dsimp only; linarith, h6, h7, h8, h9, h10,
        fun e => nomatch e⟩
  | decay =>
    dsimp only
    split_ifs with g1 g2 g3
    · exact ⟨h1, h2, h3, h9, h10, h6, h7, h8, h9, h10, fun e => nomatch e⟩
    · exact ⟨h1, h2, h3, by dsimp only; linarith, by dsimp only; linarith, h6, h7, h8, h9, h10,
        fun e => nomatch e⟩
    · exact ⟨h1, h2, h3, h9, h10, h6, h7, h8, h9, h10, fun e => nomatch e⟩
    · exact ⟨h1, h2, h3, by dsimp only; linarith, by dsimp only; linarith, h6, h7, h8, h9, h10,
        fun e => nomatch e⟩
  | release =>
    dsimp only
    split_ifs with g
    · exact ⟨h1, h2, h3, le_rfl, zero_le_one, h6, h7, h8, h9, h10, fun _ => rfl⟩
    · exact ⟨h1, h2, h3, by dsimp only; linarith, by dsimp only; linarith, h6, h7, h8, h9, h10,
        fun e => nomatch e⟩

theorem step_inv {dbg : Bool} {s : State} {op : Op} (h : Inv s) (hr : InRange op) :
    ∃ o s', step dbg s op = .ok (o, s') ∧ Inv s' := by
  have hI := h
  obtain ⟨h1, h2, h3, h4, h5, h6, h7, h8, h9, h10, h11⟩ := h
  cases op with
  | keyOn =>
    refine ⟨_, _, rfl, ?_⟩
    unfold keyOn
    refine ⟨h1, ?_, ?_, h4, h5, h6, h7, h8, h9, h10, fun e => nomatch e⟩ <;> dsimp only <;> split_ifs <;> linarith
  | keyOff =>
    simp only [step, keyOff, bind, Except.bind, pure, Except.pure]
    by_cases g : s.releaseTime > 0
    · have hpos : 0 < s.releaseTime * s.sampleRate := mul_pos g h1
      rw [if_pos g, div_ok hpos]
      exact ⟨_, _, rfl, h1, le_rfl, zero_le_one, h4, h5, h6, h7, div_nonneg h4 hpos.le, h9, h10, fun e => nomatch e⟩
    · rw [if_neg g]
      exact ⟨_, _, rfl, h1, le_rfl, zero_le_one, h4, h5, h6, h7, h8, h9, h10, fun e => nomatch e⟩
  | sample x => exact ⟨_, _, rfl, tick_inv hI⟩
  | setAttackTarget t =>
    obtain ⟨c0, c1⟩ := clamp_bounds hr.2
    simp only [step, setAttackTarget, expects_ok (show t ≥ 0 from hr.1), bind, Except.bind, pure, Except.pure]
    exact ⟨_, _, rfl, h1, c0.le, c1, h4, h5, h6, h7, h8, h9, h10, h11⟩
  | setAttackRate r =>
    simp only [step, setAttackRate, expects_ok (show r ≥ 0 from hr), bind, Except.bind, pure, Except.pure]
    exact ⟨_, _, rfl, h1, h2, h3, h4, h5, hr, h7, h8, h9, h10, h11⟩
  | setDecayRate r =>
    simp only [step, setDecayRate, expects_ok (show r ≥ 0 from hr), bind, Except.bind, pure, Except.pure]
    exact ⟨_, _, rfl, h1, h2, h3, h4, h5, h6, hr, h8, h9, h10, h11⟩
  | setSustainLevel l =>
    simp only [step, setSustainLevel, expects_ok (show l ≥ 0 from hr.1), bind, Except.bind, pure, Except.pure]
    exact ⟨_, _, rfl, h1, h2, h3, h4, h5, h6, h7, h8, hr.1, hr.2, h11⟩
  | setReleaseRate r =>
    simp only [step, setReleaseRate, expects_ok (show r ≥ 0 from hr), bind, Except.bind, pure, Except.pure]
    exact ⟨_, _, rfl, h1, h2, h3, h4, h5, h6, h7, hr, h9, h10, h11⟩
  | setAttackTime t =>
    have hpos : 0 < t * s.sampleRate := mul_pos hr h1
    simp only [step, setAttackTime, expects_ok (show t > 0 from hr), div_ok hpos, bind, Except.bind, pure, Except.pure]
    exact ⟨_, _, rfl, h1, h2, h3, h4, h5, div_nonneg zero_le_one hpos.le, h7, h8, h9, h10, h11⟩
  | setDecayTime t =>
    have hpos : 0 < t * s.sampleRate := mul_pos hr h1
    simp only [step, setDecayTime, expects_ok (show t > 0 from hr), div_ok hpos, bind, Except.bind, pure, Except.pure]
    exact ⟨_, _, rfl, h1, h2, h3, h4, h5, h6, div_nonneg (by linarith) hpos.le, h8, h9, h10, h11⟩
  | setReleaseTime t =>
    have hpos : 0 < t * s.sampleRate := mul_pos hr h1
    simp only [step, setReleaseTime, expects_ok (show t > 0 from hr), div_ok hpos, bind, Except.bind, pure, Except.pure]
    exact ⟨_, _, rfl, h1, h2, h3, h4, h5, h6, h7, div_nonneg h9 hpos.le, h9, h10, h11⟩
  | setTarget t =>
    obtain ⟨c0, c1⟩ := clamp_bounds (t := t) hr
    simp only [step, setTarget, setSustainLevel, expects_ok c0.le, bind, Except.bind, pure, Except.pure]
    by_cases g1 : s.value < clampTarget t
    · rw [if_pos g1]
      exact ⟨_, _, rfl, h1, c0.le, c1, h4, h5, h6, h7, h8, c0.le, c1, fun e => nomatch e⟩
    · rw [if_neg g1]
      by_cases g2 : s.value > clampTarget t
      · rw [if_pos g2]
        exact ⟨_, _, rfl, h1, c0.le, c1, h4, h5, h6, h7, h8, c0.le, c1, fun e => nomatch e⟩
      · rw [if_neg g2]
        exact ⟨_, _, rfl, h1, c0.le, c1, h4, h5, h6, h7, h8, c0.le, c1, h11⟩
  | setSampleRate r =>
    simp only [step, setSampleRate, div_ok (show 0 < r from hr), bind, Except.bind, pure, Except.pure]
    exact ⟨_, _, rfl, hr, h2, h3, h4, h5, div_nonneg (mul_nonneg h1.le h6) (le_of_lt hr),
      div_nonneg (mul_nonneg h1.le h7) (le_of_lt hr), div_nonneg (mul_nonneg h1.le h8) (le_of_lt hr), h9, h10, h11⟩

theorem run_inv {dbg : Bool} {s : State} {ops : List Op} (h : Inv s) (hr : ∀ op ∈ ops, InRange op) :
    ∃ s', run dbg s ops = .ok s' ∧ Inv s' := by
  induction ops generalizing s with
  | nil => exact ⟨s, rfl, h⟩
  | cons op ops ih =>
    obtain ⟨o, s1, e, h1⟩ := step_inv (dbg := dbg) h (hr op List.mem_cons_self)
    obtain ⟨s2, e2, h2⟩ := ih h1 (fun x hx => hr x (List.mem_cons_of_mem _ hx))
    refine ⟨s2, ?_, h2⟩
    simp only [run, e, bind, Except.bind, e2]

/-- A state reached from the construction by operations with arguments in range. -/
def Reachable (dbg : Bool) (s : State) : Prop := ∃ ops, (∀ op ∈ ops, InRange op) ∧ run dbg init ops = .ok s

theorem reachable_inv {dbg : Bool} {s : State} (h : Reachable dbg s) : Inv s := by
  obtain ⟨ops, hr, e⟩ := h
  obtain ⟨s', e', h'⟩ := run_inv (dbg := dbg) init_inv hr
  rw [e] at e'
  cases e'
  exact h'

theorem apply_length (s : State) (xs : List ℝ) : (apply s xs).1.length = xs.length := by
  induction xs generalizing s with
  | nil => rfl
  | cons x xs ih => simp only [apply, call, List.length_cons, ih]

theorem apply_get (s : State) (xs : List ℝ) (i : Nat) (hi : i < xs.length) :
    (apply s xs).1[i]'(by rw [apply_length]; exact hi) = (tick^[i + 1] s).value * xs[i] := by
  induction xs generalizing s i with
  | nil => simp at hi
  | cons x xs ih =>
    cases i with
    | zero => rfl
    | succ i =>
      simp only [apply, call, List.getElem_cons_succ]
      rw [ih (tick s) i (by simpa using hi), Function.iterate_succ_apply tick (i + 1)]

theorem apply_state (s : State) (xs : List ℝ) : (apply s xs).2 = tick^[xs.length] s := by
  induction xs generalizing s with
  | nil => rfl
  | cons x xs ih => simp only [apply, call, ih, List.length_cons, Function.iterate_succ_apply]

/-! #### Decay -/

theorem approach_zero (v L d : ℝ) : approach v L d 0 = v := by
  rw [approach]
  split_ifs with h
  · simp [h]
  · simp [(not_le.1 h).le]

theorem approach_succ {v L d : ℝ} (hd : 0 ≤ d) (n : Nat) :
    approach (approach v L d n) L d 1 = approach v L d (n + 1) := by
  simp only [approach]
  have hn : 0 ≤ (n : ℝ) * d := by positivity
  push_cast
  split_ifs with h1 h2 h2
  · rcases le_total L (v - n * d) with g | g
    · rw [max_eq_right g]; congr 1; ring
    · rw [max_eq_left g, max_eq_left (by linarith), max_eq_left (by linarith)]
  · exact absurd (le_max_left _ _) h2
  · have h3 : L ≤ v + n * d := le_trans h2 (min_le_right _ _)
    rw [min_eq_left h3, max_eq_left (by linarith), min_eq_left (by linarith)]
  · have h3 : v + n * d < L := by
      by_contra hc
      exact h2 (le_min le_rfl (not_lt.1 hc))
    rw [min_eq_right h3.le]; congr 1; ring

structure Settling (s0 s : State) : Prop where
  phase : s.phase = .decay ∨ (s.phase = .sustain ∧ s.value = s0.sustainLevel)
  level : s.sustainLevel = s0.sustainLevel
  rate : s.decayRate = s0.decayRate

theorem settling_tick {s0 s : State} (hd : 0 ≤ s0.decayRate) (h : Settling s0 s) :
    Settling s0 (tick s) ∧ (tick s).value = approach s.value s0.sustainLevel s0.decayRate 1 := by
  obtain ⟨hp, hL, hr⟩ := h
  rcases hp with hp | ⟨hp, hv⟩
  · unfold tick
    rw [hp]
    dsimp only
    rw [hL, hr, approach]
    simp only [Nat.cast_one, one_mul]
    split_ifs with g1 g2 g3 g4 g5 g6
    · exact ⟨⟨Or.inr ⟨rfl, rfl⟩, rfl, rfl⟩, (max_eq_left g2).symm⟩
    · exact absurd g1.le g3
    · exact ⟨⟨Or.inl rfl, rfl, rfl⟩, (max_eq_right (not_le.1 g2).le).symm⟩
    · exact absurd g1.le g4
    · refine ⟨⟨Or.inr ⟨rfl, rfl⟩, rfl, rfl⟩, ?_⟩
      rw [max_eq_left]
      linarith [not_lt.1 g1]
    · exact ⟨⟨Or.inr ⟨rfl, rfl⟩, rfl, rfl⟩, (min_eq_left g5).symm⟩
    · rename_i g7
      exact absurd (show s.value + s0.decayRate ≥ s0.sustainLevel by linarith) g5
    · exact ⟨⟨Or.inl rfl, rfl, rfl⟩, (min_eq_right (not_le.1 g5).le).symm⟩
  · have e : tick s = s := by unfold tick; rw [hp]
    rw [e, approach, hv, if_pos le_rfl, max_eq_left (by simp; exact hd)]
    exact ⟨⟨Or.inr ⟨hp, hv⟩, hL, hr⟩, rfl⟩

theorem settling_iter {s0 s : State} (hd : 0 ≤ s0.decayRate) (h : Settling s0 s) (n : Nat) :
    Settling s0 (tick^[n] s) ∧ (tick^[n] s).value = approach s.value s0.sustainLevel s0.decayRate n := by
  induction n with
  | zero => exact ⟨h, (approach_zero _ _ _).symm⟩
  | succ n ih =>
    rw [Function.iterate_succ_apply']
    obtain ⟨h1, h2⟩ := settling_tick hd ih.1
    exact ⟨h1, by rw [h2, ih.2, approach_succ hd]⟩

/-! #### Attack -/

theorem attack_iter {s : State} (hp : s.phase = .attack) (n : Nat)
    (hn : ∀ i : Nat, i < n → s.value + (i + 1) * s.attackRate < s.target) :
    tick^[n] s = { s with value := s.value + n * s.attackRate } := by
  induction n with
  | zero => simp
  | succ n ih =>
    rw [Function.iterate_succ_apply', ih (fun i hi => hn i (by omega))]
    have := hn n (by omega)
    unfold tick
    rw [hp]
    dsimp only
    rw [if_neg (by push Not; linarith)]
    congr 1
    push_cast
    ring

theorem attackSamples_lt {v A a : ℝ} (ha : 0 < a) {n : Nat} : n < attackSamples v A a ↔ v + n * a < A := by
  rw [attackSamples, Nat.lt_ceil, lt_div_iff₀ ha]
  constructor <;> intro h <;> linarith

theorem attack_end {s : State} (hp : s.phase = .attack) (ha : 0 < s.attackRate) (hv : s.value < s.target) :
    tick^[attackSamples s.value s.target s.attackRate] s =
      { s with value := s.target, target := s.sustainLevel, phase := .decay } := by
  have hK : 0 < attackSamples s.value s.target s.attackRate := (attackSamples_lt ha).2 (by simpa using hv)
  obtain ⟨k, hk⟩ := Nat.exists_eq_add_of_lt hK
  rw [zero_add] at hk
  rw [hk, Function.iterate_succ_apply', attack_iter hp k]
  · unfold tick
    rw [hp]
    dsimp only
    rw [if_pos]
    have := (attackSamples_lt (v := s.value) (A := s.target) ha (n := k + 1)).not.1 (by omega)
    push_cast at this
    linarith
  · intro i hi
    have := (attackSamples_lt (v := s.value) (A := s.target) ha (n := i + 1)).1 (by omega)
    push_cast at this
    exact this

theorem attack_value {s : State} (hp : s.phase = .attack) (ha : 0 < s.attackRate) (hv : s.value < s.target) {n : Nat}
    (hn : n ≤ attackSamples s.value s.target s.attackRate) :
    (tick^[n] s).value = min s.target (s.value + n * s.attackRate) := by
  rcases hn.lt_or_eq with h | h
  · have hlt := (attackSamples_lt ha).1 h
    rw [attack_iter hp n, min_eq_right hlt.le]
    intro i hi
    have := (attackSamples_lt (v := s.value) (A := s.target) ha (n := i + 1)).1 (by omega)
    push_cast at this
    exact this
  · rw [h, attack_end hp ha hv, min_eq_left]
    have := (attackSamples_lt (v := s.value) (A := s.target) ha (n := n)).not.1 (by omega)
    rw [← h]
    exact not_lt.1 this

theorem note_value {s : State} (hp : s.phase = .attack) (ha : 0 < s.attackRate) (hd : 0 ≤ s.decayRate)
    (hv : s.value < s.target) (n : Nat) :
    (tick^[n] s).value = noteGain s.value s.target s.attackRate s.sustainLevel s.decayRate n := by
  rw [noteGain]
  split_ifs with h
  · exact attack_value hp ha hv h
  · obtain ⟨m, rfl⟩ := Nat.exists_eq_add_of_lt (not_le.1 h)
    have e : attackSamples s.value s.target s.attackRate + m + 1 =
      (m + 1) + attackSamples s.value s.target s.attackRate := by omega
    rw [e, Function.iterate_add_apply, attack_end hp ha hv, Nat.add_sub_cancel]
    exact (settling_iter (s0 := { s with value := s.target, target := s.sustainLevel, phase := .decay }) hd
      ⟨Or.inl rfl, rfl, rfl⟩ (m + 1)).2

/-! #### Release -/

theorem release_iter {s : State} (hp : s.phase = .release) (hr : 0 ≤ s.releaseRate) (hv : 0 ≤ s.value) (n : Nat) :
    ((tick^[n] s).phase = .release ∧ (tick^[n] s).releaseRate = s.releaseRate ∧
        (tick^[n] s).value = s.value - n * s.releaseRate ∧ (n = 0 ∨ 0 < s.value - n * s.releaseRate)) ∨
      ((tick^[n] s).phase = .idle ∧ (tick^[n] s).value = 0 ∧ 0 < n ∧ s.value - n * s.releaseRate ≤ 0) := by
  induction n with
  | zero => left; exact ⟨hp, rfl, by simp, Or.inl rfl⟩
  | succ n ih =>
    rw [Function.iterate_succ_apply']
    set t := tick^[n] s with ht
    push_cast
    rcases ih with ⟨h1, h2, h3, _⟩ | ⟨h1, h2, _, h3⟩
    · unfold tick
      rw [h1]
      dsimp only
      rw [h2, h3]
      split_ifs with g
      · right
        exact ⟨rfl, rfl, by omega, by linarith⟩
      · left
        exact ⟨rfl, rfl, by dsimp only; ring, Or.inr (by linarith [not_le.1 g])⟩
    · right
      have e : tick t = t := by unfold tick; rw [h1]
      rw [e]
      exact ⟨h1, h2, by omega, by linarith⟩

/-! ### Theorems: C41 -/

/-- **C41 (bounded).**  No history of operations with arguments in range fails, even with assertions enabled, and after it
every output is the input times a gain in [0, 1]. -/
theorem C41_bounded {dbg : Bool} {ops : List Op} (hr : ∀ op ∈ ops, InRange op) :
    ∃ s, run dbg init ops = .ok s ∧ ∀ xs : List ℝ, (apply s xs).1.length = xs.length ∧
      ∀ (i : Nat) (hi : i < xs.length) (hi' : i < (apply s xs).1.length),
        ∃ g : ℝ, 0 ≤ g ∧ g ≤ 1 ∧ (apply s xs).1[i] = g * xs[i] := by
  obtain ⟨s, e, h⟩ := run_inv (dbg := dbg) init_inv hr
  refine ⟨s, e, fun xs => ⟨apply_length s xs, fun i hi hi' => ?_⟩⟩
  have hk : ∀ n, Inv (tick^[n] s) := by
    intro n
    induction n with
    | zero => exact h
    | succ n ih => rw [Function.iterate_succ_apply']; exact tick_inv ih
  exact ⟨_, (hk (i + 1)).value0, (hk (i + 1)).value1, apply_get s xs i hi⟩

example : ∀ op ∈ [Op.setAttackTime 0.1, .setSustainLevel 0.7, .keyOn, .sample 3, .keyOff, .sample 2, .setSampleRate 8000],
    InRange op := by
  intro op hop
  simp only [List.mem_cons, List.not_mem_nil, or_false] at hop
  rcases hop with rfl | rfl | rfl | rfl | rfl | rfl | rfl <;> norm_num [InRange]

/-- **C41 (silence).**  An idle envelope outputs zeros and stays idle, in every reachable state. -/
theorem C41_idle {dbg : Bool} {s : State} (h : Reachable dbg s) (hp : s.phase = .idle) (xs : List ℝ) :
    apply s xs = (List.replicate xs.length 0, s) := by
  have h0 := (reachable_inv h).idle hp
  have e : tick s = s := by unfold tick; rw [hp]
  induction xs with
  | nil => rfl
  | cons x xs ih => simp only [apply, call, e, ih, h0, zero_mul, List.length_cons, List.replicate_succ]

/-- **C41 (phases).**  A sample moves the phase only along idle, attack → decay → sustain and release → idle; `key_on`
starts the attack, `key_off` the release, and no setter but `set_target` changes the phase. -/
theorem C41_phases {dbg : Bool} {s s' : State} {op : Op} {o : Option ℝ} (h : step dbg s op = .ok (o, s')) :
    match op with
    | .keyOn => s'.phase = .attack
    | .keyOff => s'.phase = .release
    | .sample _ => s'.phase = s.phase ∨ (s.phase = .attack ∧ s'.phase = .decay) ∨
        (s.phase = .decay ∧ s'.phase = .sustain) ∨ (s.phase = .release ∧ s'.phase = .idle)
    | .setTarget _ => s'.phase = s.phase ∨ (s.value < s'.target ∧ s'.phase = .attack) ∨
        (s'.target < s.value ∧ s'.phase = .decay)
    | _ => s'.phase = s.phase := by
  cases op with
  | keyOn => cases h; rfl
  | keyOff =>
    simp only [step, keyOff, bind, Except.bind, pure, Except.pure, div] at h
    split_ifs at h <;> cases h <;> rfl
  | sample x =>
    cases h
    dsimp only
    simp only [call]
    unfold tick
    cases hp : s.phase <;> dsimp only <;> (try split_ifs) <;> simp [hp]
  | setTarget t =>
    have hc : 0 ≤ clampTarget t := by rw [clampTarget]; split_ifs <;> linarith
    simp only [step, setTarget, setSustainLevel, expects_ok (show clampTarget t ≥ 0 from hc), bind, Except.bind, pure,
      Except.pure] at h
    by_cases h1 : s.value < clampTarget t
    · rw [if_pos h1] at h
      cases h
      exact Or.inr (Or.inl ⟨h1, rfl⟩)
    · rw [if_neg h1] at h
      by_cases h2 : s.value > clampTarget t
      · rw [if_pos h2] at h
        cases h
        exact Or.inr (Or.inr ⟨h2, rfl⟩)
      · rw [if_neg h2] at h
        cases h
        exact Or.inl rfl
  | setAttackTarget t =>
    simp only [step, setAttackTarget, expects, bind, Except.bind, pure, Except.pure] at h
    split_ifs at h <;> cases h <;> rfl
  | setAttackRate t =>
    simp only [step, setAttackRate, expects, bind, Except.bind, pure, Except.pure] at h
    split_ifs at h <;> cases h <;> rfl
  | setDecayRate t =>
    simp only [step, setDecayRate, expects, bind, Except.bind, pure, Except.pure] at h
    split_ifs at h <;> cases h <;> rfl
  | setSustainLevel t =>
    simp only [step, setSustainLevel, expects, bind, Except.bind, pure, Except.pure] at h
    split_ifs at h <;> cases h <;> rfl
  | setReleaseRate t =>
    simp only [step, setReleaseRate, expects, bind, Except.bind, pure, Except.pure] at h
    split_ifs at h <;> cases h <;> rfl
  | setAttackTime t =>
    simp only [step, setAttackTime, expects, div, bind, Except.bind, pure, Except.pure] at h
    split_ifs at h <;> cases h <;> rfl
  | setDecayTime t =>
    simp only [step, setDecayTime, expects, div, bind, Except.bind, pure, Except.pure] at h
    split_ifs at h <;> cases h <;> rfl
  | setReleaseTime t =>
    simp only [step, setReleaseTime, expects, div, bind, Except.bind, pure, Except.pure] at h
    split_ifs at h <;> cases h <;> rfl
  | setSampleRate t =>
    simp only [step, setSampleRate, div, bind, Except.bind, pure, Except.pure] at h
    split_ifs at h <;> cases h <;> rfl

/-- **C41 (a note).**  A `key_on` while the level is below the attack target gives gains that rise by the attack rate up to
the target, then move by the decay rate to the sustain level and stay there, for ever.  Missing: a `key_on` while the level
is above the target in force (`C41_retrigger_violates`). -/
theorem C41_note_partial {dbg : Bool} {s : State} (h : Reachable dbg s) (ha : 0 < s.attackRate)
    (hv : s.target ≤ 0 ∧ s.value < 1 ∨ 0 < s.target ∧ s.value < s.target) (xs : List ℝ) :
    (apply (keyOn s) xs).1.length = xs.length ∧
      ∀ (i : Nat) (hi : i < xs.length) (hi' : i < (apply (keyOn s) xs).1.length), (apply (keyOn s) xs).1[i] =
        noteGain s.value (if s.target ≤ 0 then 1 else s.target) s.attackRate s.sustainLevel s.decayRate (i + 1) *
          xs[i] := by
  refine ⟨apply_length _ xs, fun i hi hi' => ?_⟩
  rw [apply_get _ xs i hi, note_value (s := keyOn s) rfl ha (reachable_inv h).decay0]
  · rfl
  · simp only [keyOn]
    rcases hv with ⟨h1, h2⟩ | ⟨h1, h2⟩
    · rw [if_pos h1]; exact h2
    · rw [if_neg (by linarith)]; exact h2

example : Reachable true init ∧ 0 < init.attackRate ∧ init.target ≤ 0 ∧ init.value < 1 := by
  refine ⟨⟨[], by simp, rfl⟩, ?_⟩
  norm_num [init]

/-- **C41 (release).**  After `key_off` the gains fall by the release rate in force to zero and stay there, for ever. -/
theorem C41_release {dbg : Bool} {s s' : State} (h : Reachable dbg s) (hk : keyOff s = .ok s') (xs : List ℝ) :
    (apply s' xs).1.length = xs.length ∧
      ∀ (i : Nat) (hi : i < xs.length) (hi' : i < (apply s' xs).1.length),
        (apply s' xs).1[i] = max 0 (s.value - (i + 1 : Nat) * s'.releaseRate) * xs[i] := by
  have hI := reachable_inv h
  have hs' : s'.phase = .release ∧ s'.value = s.value ∧ 0 ≤ s'.releaseRate := by
    simp only [keyOff, bind, Except.bind, pure, Except.pure] at hk
    by_cases g : s.releaseTime > 0
    · rw [if_pos g, div_ok (mul_pos g hI.rate)] at hk
      cases hk
      exact ⟨rfl, rfl, div_nonneg hI.value0 (mul_pos g hI.rate).le⟩
    · rw [if_neg g] at hk
      cases hk
      exact ⟨rfl, rfl, hI.release0⟩
  refine ⟨apply_length _ xs, fun i hi hi' => ?_⟩
  rw [apply_get _ xs i hi]
  congr 1
  have := release_iter hs'.1 hs'.2.2 (hs'.2.1 ▸ hI.value0) (i + 1)
  rw [hs'.2.1] at this
  rcases this with ⟨_, _, h3, h4⟩ | ⟨_, h2, _, h4⟩
  · rw [h3, max_eq_right]
    rcases h4 with h4 | h4
    · omega
    · exact h4.le
  · rw [h2, max_eq_left h4]

/-- **C41 (sustain).**  In the sustain phase the gain does not change. -/
theorem C41_sustain {s : State} (hp : s.phase = .sustain) (xs : List ℝ) :
    apply s xs = (xs.map (s.value * ·), s) := by
  have e : tick s = s := by unfold tick; rw [hp]
  induction xs with
  | nil => rfl
  | cons x xs ih => simp only [apply, call, e, ih, List.map_cons]

example : ({ init with phase := .sustain, value := 0.5 } : State).phase = .sustain := rfl

/-- **C41 is violated by a second `key_on`** before `key_off`: the attack is then aimed at the sustain level, and one
sample after `key_on` the gain drops from 3/4 to 1/2 where it should rise. -/
theorem C41_retrigger_violates :
    ∃ s, Reachable true s ∧ s.attackRate > 0 ∧ s.value = 3 / 4 ∧
      (call (keyOn s) 1).1 = 1 / 2 ∧ (keyOn s).phase = .attack := by
  refine ⟨{ init with phase := .decay, value := 3 / 4, target := 0.5, attackRate := 1, decayRate := 1 / 4 },
    ⟨[.setAttackRate 1, .setDecayRate (1 / 4), .keyOn, .sample 1, .sample 1], ?_, ?_⟩, ?_, rfl, ?_, rfl⟩
  · intro op hop
    simp only [List.mem_cons, List.not_mem_nil, or_false] at hop
    rcases hop with rfl | rfl | rfl | rfl | rfl <;> norm_num [InRange]
  · norm_num [run, step, setAttackRate, setDecayRate, expects, keyOn, call, tick, init, bind, Except.bind, pure,
      Except.pure]
  · norm_num
  · norm_num [call, keyOn, tick, init]

/-! ### C65: times and getters -/

/-- **C65 (attack time).**  With `set_attack_time(t)` at sample rate `fs`, the attack of a note played from silence lasts
exactly the smallest number of samples covering `t` seconds. -/
theorem C65_attack {dbg : Bool} {s s' : State} {t : ℝ} (hfs : 0 < s.sampleRate) (ht : 0 < t)
    (hset : setAttackTime dbg s t = .ok s') (hv : s.value = 0) (hg : s.target ≤ 0) (xs : List ℝ) :
    (apply (keyOn s') xs).2.phase = .attack ↔ xs.length < t * s.sampleRate := by
  have hpos := mul_pos ht hfs
  simp only [setAttackTime, expects_ok (show t > 0 from ht), div_ok hpos, bind, Except.bind, pure, Except.pure] at hset
  cases hset
  rw [apply_state]
  set u : State := keyOn { s with attackRate := 1 / (t * s.sampleRate) } with hu
  have hut : u.target = 1 := by simp [hu, keyOn, hg]
  have huv : u.value = 0 := hv
  have hup : u.phase = .attack := rfl
  have hua : u.attackRate = 1 / (t * s.sampleRate) := rfl
  have hapos : 0 < u.attackRate := by rw [hua]; positivity
  have hiff : ∀ n : Nat, n < attackSamples u.value u.target u.attackRate ↔ (n : ℝ) < t * s.sampleRate := by
    intro n
    rw [attackSamples_lt hapos, huv, hut, hua, zero_add, mul_one_div, div_lt_one hpos]
  rw [← hiff]
  constructor
  · intro h
    by_contra hc
    obtain ⟨m, hm⟩ := Nat.exists_eq_add_of_le (not_lt.1 hc)
    rw [hm, Nat.add_comm, Function.iterate_add_apply, attack_end hup hapos (by rw [huv, hut]; norm_num)] at h
    have key : ∀ (m : Nat) (w : State), (w.phase = .decay ∨ w.phase = .sustain) →
        ((tick^[m] w).phase = .decay ∨ (tick^[m] w).phase = .sustain) := by
      intro m
      induction m with
      | zero => exact fun w h => h
      | succ m ih =>
        intro w hw
        rw [Function.iterate_succ_apply]
        apply ih
        rcases hw with hw | hw <;> unfold tick <;> rw [hw] <;> dsimp only <;> (try split_ifs) <;> simp [hw]
    rcases key m { u with value := u.target, target := u.sustainLevel, phase := .decay } (Or.inl rfl) with g | g <;> rw [g] at h <;> exact nomatch h
  · intro h
    rw [attack_iter hup]
    · exact hup
    · intro i hi
      have := (attackSamples_lt (v := u.value) (A := u.target) hapos (n := i + 1)).1 (by omega)
      push_cast at this
      exact this

example : ∃ s', setAttackTime true init 0.1 = .ok s' ∧ 0 < init.sampleRate ∧ init.value = 0 ∧ init.target ≤ 0 := by
  refine ⟨{ init with attackRate := 1 / (0.1 * init.sampleRate) }, ?_, ?_⟩
  · simp only [setAttackTime, expects_ok (show (0.1 : ℝ) > 0 by norm_num), div_ok (show (0 : ℝ) < 0.1 * init.sampleRate by
      norm_num [init]), bind, Except.bind, pure, Except.pure]
  · norm_num [init]

/-- **C65 (release time).**  With a release time `t` set, a `key_off` from any level other than zero fades out in exactly
the smallest number of samples covering `t` seconds. -/
theorem C65_release {dbg : Bool} {s s' : State} (h : Reachable dbg s) (ht : 0 < s.releaseTime) (hv : s.value ≠ 0)
    (hk : keyOff s = .ok s') (xs : List ℝ) :
    (apply s' xs).2.phase = .release ↔ xs.length < s.releaseTime * s.sampleRate := by
  have hI := reachable_inv h
  have hpos := mul_pos ht hI.rate
  have hvp : 0 < s.value := lt_of_le_of_ne hI.value0 (Ne.symm hv)
  simp only [keyOff, bind, Except.bind, pure, Except.pure] at hk
  rw [if_pos ht, div_ok hpos] at hk
  cases hk
  rw [apply_state]
  set n := xs.length
  set u : State := { s with target := 0, phase := .release, releaseRate := s.value / (s.releaseTime * s.sampleRate) }
    with hu
  have hur : u.releaseRate = s.value / (s.releaseTime * s.sampleRate) := rfl
  have huv : u.value = s.value := rfl
  have hiff : 0 < s.value - n * (s.value / (s.releaseTime * s.sampleRate)) ↔ (n : ℝ) < s.releaseTime * s.sampleRate := by
    have e : s.value - n * (s.value / (s.releaseTime * s.sampleRate)) =
        s.value * (1 - n / (s.releaseTime * s.sampleRate)) := by
      field_simp
    rw [e, mul_pos_iff_of_pos_left hvp, sub_pos, div_lt_one hpos]
  have := release_iter (s := u) rfl (by rw [hur]; positivity) (by rw [huv]; exact hI.value0) n
  rw [hur, huv] at this
  rcases this with ⟨h1, _, _, h4⟩ | ⟨h1, _, _, h4⟩
  · refine ⟨fun _ => ?_, fun _ => h1⟩
    rcases h4 with h4 | h4
    · rw [h4]; simpa using hpos
    · exact hiff.1 h4
  · constructor
    · intro g; rw [h1] at g; exact nomatch g
    · intro g; exact absurd (hiff.2 g) (not_lt.2 h4)

example : ∃ s, Reachable true s ∧ 0 < s.releaseTime ∧ s.value ≠ 0 := by
  refine ⟨
    { init with
      phase := .decay, value := 1, target := 0.5, attackRate := 1, releaseTime := 2, releaseRate := 0.5 / (2 * 44100) },
    ⟨[.setReleaseTime 2, .setAttackRate 1, .keyOn, .sample 1], ?_, ?_⟩, ?_, ?_⟩
  · intro op hop
    simp only [List.mem_cons, List.not_mem_nil, or_false] at hop
    rcases hop with rfl | rfl | rfl | rfl <;> norm_num [InRange]
  · norm_num [run, step, setAttackRate, setReleaseTime, expects, keyOn, call, tick, init, div, bind, Except.bind, pure,
      Except.pure]
  · norm_num
  · norm_num

/-- **C65 (getters).**  The times and levels set are the times and levels reported, and a change of the sample rate keeps
the reported attack and decay times. -/
theorem C65_getters_partial {dbg : Bool} {s : State} (hfs : 0 < s.sampleRate) :
    (∀ t s', 0 < t → setAttackTime dbg s t = .ok s' → attackTime s' = .ok t) ∧
    (∀ t s', 0 < t → s.sustainLevel ≠ 1 → setDecayTime dbg s t = .ok s' → decayTime s' = .ok t) ∧
    (∀ t s', setReleaseTime dbg s t = .ok s' → getReleaseTime s' = t) ∧
    (∀ fs s', 0 < fs → setSampleRate s fs = .ok s' →
      attackTime s' = attackTime s ∧ decayTime s' = decayTime s ∧ getReleaseTime s' = getReleaseTime s) := by
  refine ⟨?_, ?_, ?_, ?_⟩
  · intro t s' ht h
    have hpos := mul_pos ht hfs
    simp only [setAttackTime, expects_ok (show t > 0 from ht), div_ok hpos, bind, Except.bind, pure, Except.pure] at h
    cases h
    simp only [attackTime]
    rw [div, if_neg (by positivity)]
    congr 1
    field_simp
  · intro t s' ht hL h
    have hpos := mul_pos ht hfs
    have hL' : 1 - s.sustainLevel ≠ 0 := fun g => hL (by linarith)
    simp only [setDecayTime, expects_ok (show t > 0 from ht), div_ok hpos, bind, Except.bind, pure, Except.pure] at h
    cases h
    simp only [decayTime]
    have hne : (1 - s.sustainLevel) / (t * s.sampleRate) * s.sampleRate ≠ 0 :=
      mul_ne_zero (div_ne_zero hL' hpos.ne') hfs.ne'
    rw [div, if_neg hne]
    congr 1
    field_simp
  · intro t s' h
    simp only [setReleaseTime, expects, div, bind, Except.bind, pure, Except.pure] at h
    split_ifs at h <;> cases h <;> rfl
  · intro fs s' hf h
    simp only [setSampleRate, div_ok hf, bind, Except.bind, pure, Except.pure] at h
    cases h
    simp only [attackTime, decayTime, getReleaseTime]
    have e : ∀ r : ℝ, s.sampleRate * r / fs * fs = r * s.sampleRate := fun r => by field_simp
    simp only [e, and_self]

example : 0 < init.sampleRate ∧ init.sustainLevel ≠ 1 := by norm_num [init]

/-- **C65 is violated by `release_rate()`**: it returns the release time, so that after `set_release_rate(r)` it reports
-1, never the rate. -/
theorem C65_release_rate_violates {dbg : Bool} {s : State} {r : ℝ} (hr : 0 ≤ r) :
    ∃ s', setReleaseRate dbg s r = .ok s' ∧ getReleaseRate s' = -1 ∧ getReleaseRate s' ≠ r := by
  simp only [setReleaseRate, expects_ok (show r ≥ 0 from hr), bind, Except.bind, pure, Except.pure]
  refine ⟨_, rfl, rfl, ?_⟩
  simp only [getReleaseRate]
  linarith

example : (0 : ℝ) ≤ 0.25 := by norm_num

/-- **C65 is violated by the attack target**: the target set by the user is used for the first note only; after the next
`key_off` the following note rises to 1, whatever target had been set. -/
theorem C65_target_violates {s s' : State} (hk : keyOff s = .ok s') : (keyOn s').target = 1 := by
  simp only [keyOff, bind, Except.bind, pure, Except.pure, div] at hk
  split_ifs at hk <;> cases hk <;> simp [keyOn]

example : ∃ s', keyOff { init with target := 0.25 } = .ok s' := by
  refine ⟨{ init with phase := .release }, ?_⟩
  norm_num [keyOff, init, bind, Except.bind, pure, Except.pure]

end Edsp.C41
