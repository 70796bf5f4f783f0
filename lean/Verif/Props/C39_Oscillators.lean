import Verif.Model.Oscillators
import Verif.Spec.Oscillators
import Mathlib.Tactic.Linarith
import Mathlib.Tactic.FieldSimp
import Mathlib.Tactic.NormNum

/-!
# C39: oscillators; C40: the duty cycle
-/

namespace Edsp.C39
open Edsp.Osc Edsp.Spec

theorem fmod_eq {x y : ℝ} (hy : 0 < y) (hx : 0 ≤ x) : fmod x y = y * Int.fract (x / y) := by
  have : 0 ≤ x / y := div_nonneg hx hy.le
  rw [fmod, if_pos this, Int.fract, mul_sub, mul_div_cancel₀ _ hy.ne']

theorem inv?_ne {x : ℝ} (h : x ≠ 0) : inv? x = some (1 / x) := by rw [inv?, if_neg h]

/-- The sampling period always belongs to the sample rate. -/
def Inv (s : State) : Prop := s.samplingPeriod = inv? s.sampleRate

theorem advance_eq {s s' : State} (h : advance s = .ok s') :
    ∃ T, s.samplingPeriod = some T ∧ s' = { s with timestamp := s.timestamp + T } := by
  unfold advance finite at h
  cases hp : s.samplingPeriod with
  | none => rw [hp] at h; cases h
  | some T =>
    rw [hp] at h
    refine ⟨T, rfl, ?_⟩
    cases h
    rfl

theorem call_state {k : Kind} {s s' : State} {x : ℝ} (h : call k s = .ok (x, s')) : advance s = .ok s' := by
  cases k with
  | sin =>
    simp only [call, sinCall, bind, Except.bind] at h
    split at h
    · cases h
    · rename_i v hv; cases h; exact hv
  | square =>
    simp only [call, squareCall, bind, Except.bind] at h
    split at h
    · cases h
    · split at h
      · cases h
      · rename_i v hv; cases h; exact hv
  | saw =>
    simp only [call, sawCall, bind, Except.bind] at h
    split at h
    · cases h
    · rename_i v hv
      split at h
      · cases h; exact hv
      · split at h <;> (cases h; exact hv)

theorem setDuty_eq {dbg : Bool} {s s' : State} {d : ℝ} (h : setDuty dbg s d = .ok s') :
    ∃ T, s.inverseFrequency = some T ∧ s' = { s with shape := d * T } ∧ (dbg = true → 0 ≤ d ∧ d ≤ 1) := by
  simp only [setDuty, bind, Except.bind, pure, Except.pure] at h
  by_cases hc : dbg = true ∧ ¬ (d ≥ 0 ∧ d ≤ 1)
  · rw [if_pos hc] at h; cases h
  · rw [if_neg hc] at h
    cases hT : s.inverseFrequency with
    | none => rw [hT] at h; cases h
    | some T =>
      rw [hT] at h
      cases h
      refine ⟨T, rfl, rfl, fun hd => ?_⟩
      by_contra h2
      exact hc ⟨hd, h2⟩

theorem setWidth_eq {dbg : Bool} {s s' : State} {w : ℝ} (h : setWidth dbg s w = .ok s') :
    s' = { s with shape := w } ∧ (dbg = true → 0 ≤ w ∧ w ≤ 1) := by
  simp only [setWidth, bind, Except.bind, pure, Except.pure] at h
  by_cases hc : dbg = true ∧ ¬ (w ≥ 0 ∧ w ≤ 1)
  · rw [if_pos hc] at h; cases h
  · rw [if_neg hc] at h
    cases h
    refine ⟨rfl, fun hd => ?_⟩
    by_contra h2
    exact hc ⟨hd, h2⟩

theorem step_call {dbg : Bool} {k : Kind} {s s' : State} {o : Option ℝ} (h : step dbg k s .call = .ok (o, s')) :
    ∃ x, o = some x ∧ call k s = .ok (x, s') := by
  simp only [step, bind, Except.bind, pure, Except.pure] at h
  cases hc : call k s with
  | error e => rw [hc] at h; cases h
  | ok v =>
    rw [hc] at h
    cases h
    exact ⟨_, rfl, rfl⟩

theorem step_shape {dbg : Bool} {k : Kind} {s s' : State} {o : Option ℝ} {v : ℝ}
    (h : step dbg k s (.setShape v) = .ok (o, s')) :
    match k with
    | .sin => s' = s
    | .square => setDuty dbg s v = .ok s'
    | .saw => setWidth dbg s v = .ok s' := by
  cases k with
  | sin => cases h; rfl
  | square =>
    simp only [step, bind, Except.bind, pure, Except.pure] at h
    cases hc : setDuty dbg s v with
    | error e => rw [hc] at h; cases h
    | ok w => rw [hc] at h; cases h; rfl
  | saw =>
    simp only [step, bind, Except.bind, pure, Except.pure] at h
    cases hc : setWidth dbg s v with
    | error e => rw [hc] at h; cases h
    | ok w => rw [hc] at h; cases h; rfl

theorem step_inv {dbg : Bool} {k : Kind} {s s' : State} {o : Option ℝ} {op : Op} (h : step dbg k s op = .ok (o, s'))
    (hs : Inv s) : Inv s' := by
  cases op with
  | call =>
    obtain ⟨x, _, hc⟩ := step_call h
    obtain ⟨T, _, rfl⟩ := advance_eq (call_state hc)
    exact hs
  | setShape v =>
    have := step_shape h
    cases k with
    | sin => dsimp only at this; rw [this]; exact hs
    | square => obtain ⟨T, _, rfl, _⟩ := setDuty_eq this; exact hs
    | saw => obtain ⟨rfl, _⟩ := setWidth_eq this; exact hs
  | setSampleRate r => cases h; rfl
  | _ => cases h; exact hs

theorem run_inv {dbg : Bool} {k : Kind} {s s' : State} {ops : List Op} (h : run dbg k s ops = .ok s') (hs : Inv s) :
    Inv s' := by
  induction ops generalizing s with
  | nil => cases h; exact hs
  | cons op ops ih =>
    simp only [run, bind, Except.bind] at h
    cases hc : step dbg k s op with
    | error e => rw [hc] at h; cases h
    | ok v =>
      rw [hc] at h
      exact ih h (step_inv hc hs)

/-- The state left by a constructor. -/
def Constructed (dbg : Bool) (k : Kind) (s : State) : Prop :=
  ∃ a r f v, match k with
    | .sin => s = sinOscillator a r f v
    | .square => squareOscillator dbg a r f v = .ok s
    | .saw => sawtoothOscillator dbg a r f v = .ok s

/-- A state reached from a constructor by calls of member functions. -/
def Reachable (dbg : Bool) (k : Kind) (s : State) : Prop :=
  ∃ s0 ops, Constructed dbg k s0 ∧ run dbg k s0 ops = .ok s

theorem constructed_inv {dbg : Bool} {k : Kind} {s : State} (h : Constructed dbg k s) : Inv s := by
  obtain ⟨a, r, f, v, h⟩ := h
  cases k with
  | sin => dsimp only at h; rw [h]; rfl
  | square => obtain ⟨T, _, rfl, _⟩ := setDuty_eq h; rfl
  | saw => obtain ⟨rfl, _⟩ := setWidth_eq h; rfl

theorem reachable_inv {dbg : Bool} {k : Kind} {s : State} (h : Reachable dbg k s) : Inv s := by
  obtain ⟨s0, ops, h0, h1⟩ := h
  exact run_inv h1 (constructed_inv h0)

/-- The value expected at time `τ` from the values reported by the getters.  The square oscillator uses the frequency
`1/inverseFrequency` of its construction and is the negated square wave of its duty (see C40). -/
noncomputable def expected (k : Kind) (s : State) (τ : ℝ) : ℝ :=
  match k with
  | .sin => s.amplitude * sineWave s.phase (s.frequency * τ)
  | .square =>
    match s.inverseFrequency with
    | some T => s.amplitude * -squareWave (s.shape / T) (τ / T)
    | none => 0
  | .saw => s.amplitude * sawWave s.shape (s.frequency * τ)

/-- The conditions under which the square and sawtooth oscillators are used: time and frequency not negative, a width
in [0, 1]. -/
def Ready (k : Kind) (s : State) : Prop :=
  match k with
  | .sin => True
  | .square => 0 ≤ s.timestamp ∧ ∃ T, s.inverseFrequency = some T ∧ 0 < T
  | .saw => 0 ≤ s.timestamp ∧ 0 ≤ s.frequency ∧ 0 ≤ s.shape ∧ s.shape ≤ 1

theorem fmod_one {x : ℝ} (hx : 0 ≤ x) : fmod x 1 = Int.fract x := by
  rw [fmod_eq one_pos hx, one_mul, div_one]

theorem call_value {k : Kind} {s : State} (hs : Inv s) (hr : s.sampleRate ≠ 0) (h : Ready k s) :
    call k s = .ok (expected k s s.timestamp, { s with timestamp := s.timestamp + 1 / s.sampleRate }) := by
  have hadv : advance s = .ok { s with timestamp := s.timestamp + 1 / s.sampleRate } := by
    unfold advance
    rw [hs, inv?_ne hr]
    rfl
  cases k with
  | sin =>
    simp only [call, sinCall, hadv, bind, Except.bind, pure, Except.pure, expected, sineWave]
    rw [mul_comm, mul_assoc (2 * Real.pi)]
  | square =>
    obtain ⟨ht, T, hT, hTp⟩ := h
    simp only [call, squareCall, hadv, bind, Except.bind, pure, Except.pure, expected, hT, finite, squareWave,
      fmod_eq hTp ht]
    congr 2
    have : T * Int.fract (s.timestamp / T) ≥ s.shape ↔ ¬ Int.fract (s.timestamp / T) < s.shape / T := by
      rw [not_lt, ge_iff_le, div_le_iff₀' hTp]
    by_cases hc : Int.fract (s.timestamp / T) < s.shape / T
    · rw [if_pos hc, if_neg (fun h => (this.1 h) hc)]; ring
    · rw [if_neg hc, if_pos (this.2 hc)]; ring
  | saw =>
    obtain ⟨ht, hf, hw0, hw1⟩ := h
    simp only [call, sawCall, hadv, bind, Except.bind, pure, Except.pure, expected, sawWave,
      fmod_one (mul_nonneg hf ht)]
    have hfr := Int.fract_lt_one (s.frequency * s.timestamp)
    have hf0 := Int.fract_nonneg (s.frequency * s.timestamp)
    by_cases hc : Int.fract (s.frequency * s.timestamp) < s.shape
    · rw [if_pos ⟨by linarith, hc⟩, if_pos hc]
      congr 2
      ring
    · rw [if_neg (fun h => hc h.2), if_pos ⟨by linarith, not_lt.1 hc⟩, if_neg hc]
      congr 2
      ring

/-- **C39 (every call, in every reachable state).**  After any history of member function calls, the next sample is the
waveform of the reported amplitude, phase or width at the reported frequency times the reported time, and the time
advances by one over the reported sample rate. -/
theorem C39_call {dbg : Bool} {k : Kind} {s : State} (hreach : Reachable dbg k s) (hr : s.sampleRate ≠ 0)
    (h : Ready k s) :
    call k s = .ok (expected k s s.timestamp, { s with timestamp := s.timestamp + 1 / s.sampleRate }) :=
  call_value (reachable_inv hreach) hr h

theorem gen_value {k : Kind} : ∀ (n : Nat) {s : State}, Inv s → 0 < s.sampleRate → Ready k s →
    gen k n s = .ok ((List.range n).map (fun i : Nat => expected k s (s.timestamp + i / s.sampleRate)),
      { s with timestamp := s.timestamp + n / s.sampleRate })
  | 0, s, _, _, _ => by simp [gen]
  | n + 1, s, hs, hr, h => by
    have hrdy : Ready k { s with timestamp := s.timestamp + 1 / s.sampleRate } := by
      have hp : 0 < 1 / s.sampleRate := by positivity
      cases k with
      | sin => trivial
      | square => exact ⟨by have := h.1; dsimp only; linarith, h.2⟩
      | saw => exact ⟨by have := h.1; dsimp only; linarith, h.2⟩
    have ih := gen_value (k := k) n (s := { s with timestamp := s.timestamp + 1 / s.sampleRate }) hs hr hrdy
    simp only [gen, call_value hs hr.ne' h, bind, Except.bind, pure, Except.pure, ih]
    congr 2
    · rw [List.range_succ_eq_map, List.map_cons, List.map_map]
      congr 1
      · simp
      · apply List.map_congr_left
        intro i _
        have e : s.timestamp + 1 / s.sampleRate + (i : ℝ) / s.sampleRate =
            s.timestamp + ((i.succ : Nat) : ℝ) / s.sampleRate := by
          push_cast; ring
        simp only [Function.comp, e]
        cases k <;> rfl
    · congr 1
      push_cast
      ring

/-- **C39 (time and samples).**  In every reachable state with a positive sample rate, n calls give the n samples of the
waveform at the times t, t + 1/fs, …, and the time is then t + n/fs (after a reset, t = 0). -/
theorem C39_samples {dbg : Bool} {k : Kind} {s : State} (hreach : Reachable dbg k s) (hr : 0 < s.sampleRate)
    (h : Ready k s) (n : Nat) :
    gen k n s = .ok ((List.range n).map (fun i : Nat => expected k s (s.timestamp + i / s.sampleRate)),
      { s with timestamp := s.timestamp + n / s.sampleRate }) :=
  gen_value n (reachable_inv hreach) hr h

/-- **C39 (chunks).**  Generating n + m samples is generating n and then m. -/
theorem C39_chunks (k : Kind) (n m : Nat) (s : State) :
    gen k (n + m) s = (do
      let (xs, s1) ← gen k n s
      let (ys, s2) ← gen k m s1
      return (xs ++ ys, s2)) := by
  induction n generalizing s with
  | zero =>
    simp only [Nat.zero_add, gen, bind, Except.bind, pure, Except.pure, List.nil_append]
    cases gen k m s <;> rfl
  | succ n ih =>
    rw [Nat.add_right_comm]
    simp only [gen, ih, bind, Except.bind, pure, Except.pure]
    cases call k s with
    | error e => rfl
    | ok v =>
      simp only
      cases gen k n v.2 with
      | error e => rfl
      | ok w =>
        simp only
        cases gen k m w.2 <;> rfl

theorem saw_bound {w p : ℝ} (h0 : 0 ≤ w) (h1 : w ≤ 1) : |sawWave w p| ≤ 1 := by
  have hf := Int.fract_lt_one p
  have hf0 := Int.fract_nonneg p
  rw [sawWave]
  split_ifs with hc
  · have hw : 0 < w := by linarith
    have a1 : 0 ≤ Int.fract p / w := by positivity
    have a2 : Int.fract p / w ≤ 1 := (div_le_one hw).2 hc.le
    rw [abs_le]; constructor <;> linarith
  · have hw : 0 < 1 - w := by linarith
    have a1 : 0 ≤ (Int.fract p - w) / (1 - w) := div_nonneg (by linarith) hw.le
    have a2 : (Int.fract p - w) / (1 - w) ≤ 1 := (div_le_one hw).2 (by linarith)
    rw [abs_le]; constructor <;> linarith

theorem expected_bound {k : Kind} {s : State} (h : Ready k s) (τ : ℝ) : |expected k s τ| ≤ |s.amplitude| := by
  cases k with
  | sin =>
    rw [expected, abs_mul]
    exact mul_le_of_le_one_right (abs_nonneg _) (Real.abs_sin_le_one _)
  | square =>
    obtain ⟨_, T, hT, _⟩ := h
    simp only [expected, hT]
    rw [abs_mul, abs_neg]
    refine mul_le_of_le_one_right (abs_nonneg _) ?_
    rw [squareWave]
    split_ifs <;> simp
  | saw =>
    rw [expected, abs_mul]
    exact mul_le_of_le_one_right (abs_nonneg _) (saw_bound h.2.2.1 h.2.2.2)

/-- **C39 (bound).**  No sample exceeds the amplitude. -/
theorem C39_bounded {dbg : Bool} {k : Kind} {s s' : State} (hreach : Reachable dbg k s) (hr : 0 < s.sampleRate)
    (h : Ready k s) (n : Nat) (xs : List ℝ) (hg : gen k n s = .ok (xs, s')) : ∀ x ∈ xs, |x| ≤ |s.amplitude| := by
  rw [C39_samples hreach hr h n] at hg
  cases hg
  intro x hx
  obtain ⟨i, _, rfl⟩ := List.mem_map.1 hx
  exact expected_bound h _

/-- The duration `P` is a whole number of periods. -/
def WholePeriods (k : Kind) (s : State) (P : ℝ) : Prop :=
  ∃ j : ℤ, match k with
    | .square => ∀ T, s.inverseFrequency = some T → P / T = j
    | .sin => s.frequency * P = j
    | .saw => s.frequency * P = j

theorem expected_periodic {k : Kind} {s : State} (h : Ready k s) (τ P : ℝ) (hP : WholePeriods k s P) :
    expected k s (τ + P) = expected k s τ := by
  obtain ⟨j, hj⟩ := hP
  cases k with
  | sin =>
    dsimp only at hj
    simp only [expected, sineWave, mul_add, hj]
    rw [add_right_comm, show 2 * Real.pi * (j : ℝ) = j * (2 * Real.pi) by ring, Real.sin_add_int_mul_two_pi]
  | square =>
    obtain ⟨_, T, hT, _⟩ := h
    simp only [expected, hT, squareWave, add_div, hj T hT, Int.fract_add_intCast]
  | saw =>
    dsimp only at hj
    simp only [expected, sawWave, mul_add, hj, Int.fract_add_intCast]

/-- **C39 (periodicity).**  If K samples are a whole number of periods, sample i + K equals sample i. -/
theorem C39_periodic {dbg : Bool} {k : Kind} {s s' : State} (hreach : Reachable dbg k s) (hr : 0 < s.sampleRate)
    (h : Ready k s) (K : Nat)
    (hK : WholePeriods k s (K / s.sampleRate))
    (n : Nat) (xs : List ℝ) (hg : gen k n s = .ok (xs, s')) (i : Nat) (hi : i + K < n) : xs[i + K]? = xs[i]? := by
  rw [C39_samples hreach hr h n] at hg
  cases hg
  rw [List.getElem?_map, List.getElem?_map, List.getElem?_range hi, List.getElem?_range (by omega)]
  simp only [Option.map_some]
  congr 1
  rw [← expected_periodic h (s.timestamp + i / s.sampleRate) (K / s.sampleRate) hK]
  congr 1
  push_cast
  ring

/-- A sawtooth oscillator of amplitude 2, 8 samples per period, width 1/4, after one sample. -/
noncomputable def sample : State := { base 2 8 1 0 with shape := 1 / 4, timestamp := 1 / 8 }

example : Reachable true .saw sample ∧ 0 < sample.sampleRate ∧ Ready .saw sample ∧
    WholePeriods .saw sample (((8 : Nat) : ℝ) / sample.sampleRate) := by
  have e : sawtoothOscillator true 2 8 1 (1 / 4) = .ok { base 2 8 1 0 with shape := (1 / 4 : ℝ) } := by
    norm_num [sawtoothOscillator, setWidth, bind, Except.bind, pure, Except.pure]
  refine ⟨⟨_, [.call], ⟨2, 8, 1, 1 / 4, e⟩, ?_⟩, ?_, ?_, 1, ?_⟩
  · have h : Inv { base 2 8 1 0 with shape := (1 / 4 : ℝ) } := rfl
    have := call_value (k := .saw) h (by norm_num [base]) (by norm_num [Ready, base])
    simp only [run, step, bind, Except.bind, pure, Except.pure, this]
    norm_num [sample, base]
  · norm_num [sample, base]
  · norm_num [Ready, sample, base]
  · norm_num [sample, base]

/-- **C39 (triangle).**  A new triangular oscillator gives the triangle wave. -/
theorem C39_triangular {dbg : Bool} {a r f : ℝ} (hr : 0 < r) (hf : 0 ≤ f) (n : Nat) :
    ∃ s0 s', triangularOscillator dbg a r f = .ok s0 ∧
      gen .saw n s0 = .ok ((List.range n).map (fun i : Nat => a * triangleWave (f * (i / r))), s') := by
  have e : triangularOscillator dbg a r f = .ok { base a r f 0 with shape := (1 / 2 : ℝ) } := by
    norm_num [triangularOscillator, sawtoothOscillator, setWidth, bind, Except.bind, pure, Except.pure]
  refine ⟨_, { base a r f 0 with shape := (1 / 2 : ℝ), timestamp := 0 + n / r }, e, ?_⟩
  rw [gen_value n (k := .saw) (s := { base a r f 0 with shape := (1 / 2 : ℝ) }) rfl hr
    ⟨le_refl _, hf, by norm_num, by norm_num⟩]
  congr 2
  apply List.map_congr_left
  intro i _
  simp only [expected, base, zero_add]
  congr 1
  rw [sawWave, triangleWave]
  split_ifs with hc
  · rw [abs_of_neg (by linarith)]; ring
  · rw [abs_of_nonneg (by linarith)]; ring

example : ∃ s0 s', triangularOscillator true 2 4 1 = .ok s0 ∧
    gen .saw 3 s0 = .ok ((List.range 3).map (fun i : Nat => 2 * triangleWave (1 * ((i : ℝ) / 4))), s') :=
  C39_triangular (by norm_num) (by norm_num) 3

/-- **C39 is violated at negative times** (reachable through `set_timestamp`): a sawtooth of amplitude 1, width 1/2 and
frequency 1 gives -2 at the time -1/4, because `std::fmod` is negative there. -/
theorem C39_negative_time_violates :
    ∃ s, Reachable true .saw s ∧ s.amplitude = 1 ∧ 0 < s.sampleRate ∧ ∃ s', call .saw s = .ok (-2, s') := by
  have e : sawtoothOscillator true 1 8 1 (1 / 2) = .ok { base 1 8 1 0 with shape := (1 / 2 : ℝ) } := by
    norm_num [sawtoothOscillator, setWidth, bind, Except.bind, pure, Except.pure]
  refine ⟨{ base 1 8 1 0 with shape := (1 / 2 : ℝ), timestamp := -1 / 4 },
    ⟨_, [.setTimestamp (-1 / 4)], ⟨1, 8, 1, 1 / 2, e⟩, rfl⟩, rfl, by norm_num [base],
    { base 1 8 1 0 with shape := (1 / 2 : ℝ), timestamp := -1 / 4 + 1 / 8 }, ?_⟩
  have hc : ⌈(-1 / 4 : ℝ)⌉ = 0 := by rw [Int.ceil_eq_iff]; norm_num
  have hf : fmod (1 * (-1 / 4)) 1 = -1 / 4 := by
    rw [fmod, one_mul, div_one, if_neg (by norm_num), hc]; norm_num
  simp only [call, sawCall, base, hf, advance, inv?_ne (by norm_num : (8 : ℝ) ≠ 0), finite, bind, Except.bind, pure,
    Except.pure]
  rw [if_pos (by norm_num)]
  norm_num

/-! ### C40 -/

/-- The duty last requested: by the constructor (`d`) or by `set_duty`. -/
def lastDuty : ℝ → List Op → ℝ
  | d, [] => d
  | _, .setShape v :: ops => lastDuty v ops
  | d, _ :: ops => lastDuty d ops

/-- Calls of `set_frequency`. -/
def isSetFrequency : Op → Bool
  | .setFrequency _ => true
  | _ => false

theorem duty_run {dbg : Bool} {f : ℝ} {s s' : State} {d : ℝ} {ops : List Op}
    (hno : ∀ op ∈ ops, isSetFrequency op = false) (h : run dbg .square s ops = .ok s')
    (h1 : s.inverseFrequency = some (1 / f)) (h2 : s.frequency = f) (h3 : s.shape = d * (1 / f)) :
    s'.inverseFrequency = some (1 / f) ∧ s'.frequency = f ∧ s'.shape = lastDuty d ops * (1 / f) := by
  induction ops generalizing s d with
  | nil => cases h; exact ⟨h1, h2, h3⟩
  | cons op ops ih =>
    simp only [run, bind, Except.bind] at h
    cases hc : step dbg .square s op with
    | error e => rw [hc] at h; cases h
    | ok v =>
      rw [hc] at h
      obtain ⟨o, s1⟩ := v
      dsimp only at h
      have hno' : ∀ op ∈ ops, isSetFrequency op = false := fun x hx => hno x (List.mem_cons_of_mem _ hx)
      cases op with
      | call =>
        obtain ⟨x, _, hx⟩ := step_call hc
        obtain ⟨T, _, rfl⟩ := advance_eq (call_state hx)
        exact ih hno' h h1 h2 h3
      | setShape v =>
        obtain ⟨T, hT, rfl, _⟩ := setDuty_eq (step_shape hc)
        rw [h1] at hT
        cases hT
        exact ih hno' h h1 h2 rfl
      | setFrequency g => exact absurd (hno _ List.mem_cons_self) (by simp [isSetFrequency])
      | setPhase p => cases hc; exact ih hno' h h1 h2 h3
      | setTimestamp p => cases hc; exact ih hno' h h1 h2 h3
      | setSampleRate p => cases hc; exact ih hno' h h1 h2 h3
      | setAmplitude p => cases hc; exact ih hno' h h1 h2 h3
      | reset => cases hc; exact ih hno' h h1 h2 h3

/-- **C40 (reported duty, without `set_frequency`).**  After any history of calls other than `set_frequency`, `duty()`
is the duty last set.  Missing: histories with `set_frequency` (`C40_frequency_violates`). -/
theorem C40_duty_partial {dbg : Bool} {a r f d : ℝ} (hf : f ≠ 0) {s0 s : State} {ops : List Op}
    (h0 : squareOscillator dbg a r f d = .ok s0) (hno : ∀ op ∈ ops, isSetFrequency op = false)
    (h : run dbg .square s0 ops = .ok s) : duty s = lastDuty d ops := by
  obtain ⟨T, hT, rfl, _⟩ := setDuty_eq h0
  have hT' : T = 1 / f := by
    simp only [base, inv?_ne hf] at hT
    cases hT
    rfl
  subst hT'
  obtain ⟨_, h2, h3⟩ := duty_run (f := f) (d := d) hno h hT rfl rfl
  rw [duty, h2, h3, mul_assoc, one_div, inv_mul_cancel₀ hf, mul_one]

example : ∃ s0 s, squareOscillator true 1 8 2 (1 / 4) = .ok s0 ∧
    run true .square s0 [.setShape (1 / 2), .setAmplitude 3, .reset] = .ok s ∧
    ∀ op ∈ [Op.setShape (1 / 2), .setAmplitude 3, .reset], isSetFrequency op = false := by
  refine ⟨{ base 1 8 2 0 with shape := 1 / 4 * (1 / 2) },
    { base 1 8 2 0 with shape := 1 / 2 * (1 / 2), amplitude := 3 }, ?_, ?_, ?_⟩
  · norm_num [squareOscillator, setDuty, base, inv?, finite, bind, Except.bind, pure, Except.pure]
  · norm_num [run, step, setDuty, base, inv?, finite, bind, Except.bind, pure, Except.pure]
  · intro op hop
    simp only [List.mem_cons, List.not_mem_nil, or_false] at hop
    rcases hop with rfl | rfl | rfl <;> rfl

/-- **C40 is violated by `set_frequency`**: for every non-zero duty, `duty()` changes with the frequency, while the
samples generated stay those of the frequency of the construction. -/
theorem C40_frequency_violates {dbg : Bool} {a r f d g : ℝ} (hf : f ≠ 0) (hd : d ≠ 0) (hfg : g ≠ f) {s0 : State}
    (h0 : squareOscillator dbg a r f d = .ok s0) :
    ∃ s1, step dbg .square s0 (.setFrequency g) = .ok (none, s1) ∧ duty s0 = d ∧ duty s1 = d * g / f ∧
      duty s1 ≠ d ∧ ∀ n xs s', gen .square n s0 = .ok (xs, s') →
        ∃ s'', gen .square n s1 = .ok (xs, s'') := by
  obtain ⟨T, hT, rfl, _⟩ := setDuty_eq h0
  have hT' : T = 1 / f := by
    simp only [base, inv?_ne hf] at hT
    cases hT
    rfl
  subst hT'
  refine ⟨_, rfl, ?_, ?_, ?_, ?_⟩
  · simp only [duty, base]; field_simp
  · simp only [duty]; field_simp
  · simp only [duty]
    intro h
    apply hfg
    field_simp at h
    exact h
  · have gen_freq : ∀ (n : Nat) (s : State) (g : ℝ) (xs : List ℝ) (s' : State), gen .square n s = .ok (xs, s') →
        ∃ s'', gen .square n { s with frequency := g } = .ok (xs, s'') := by
      intro n
      induction n with
      | zero => intro s g xs s' h; cases h; exact ⟨_, rfl⟩
      | succ n ih =>
        intro s g xs s' h
        simp only [gen, bind, Except.bind, pure, Except.pure] at h
        cases hc : call .square s with
        | error e => rw [hc] at h; cases h
        | ok v =>
          obtain ⟨x, s1⟩ := v
          rw [hc] at h
          dsimp only at h
          have hc' : call .square { s with frequency := g } = .ok (x, { s1 with frequency := g }) := by
            simp only [call, squareCall, bind, Except.bind, pure, Except.pure] at hc ⊢
            cases hi : s.inverseFrequency with
            | none => rw [hi] at hc; cases hc
            | some T =>
              rw [hi] at hc
              simp only [finite, advance, bind, Except.bind, pure, Except.pure] at hc ⊢
              cases hp : s.samplingPeriod with
              | none => rw [hp] at hc; cases hc
              | some T' =>
                rw [hp] at hc
                simp only at hc ⊢
                cases hc
                simp only [hi]
          cases hg : gen .square n s1 with
          | error e => rw [hg] at h; cases h
          | ok w =>
            obtain ⟨ys, s2⟩ := w
            rw [hg] at h
            cases h
            obtain ⟨s'', hs''⟩ := ih s1 g ys _ hg
            refine ⟨s'', ?_⟩
            simp only [gen, hc', hs'', bind, Except.bind, pure, Except.pure]
    exact fun n xs s' h => gen_freq n _ g xs s' h

example : ∃ s0, squareOscillator true 1 8 2 (1 / 4) = .ok s0 :=
  ⟨{ base 1 8 2 0 with shape := 1 / 4 * (1 / 2) }, by
    norm_num [squareOscillator, setDuty, base, inv?, finite, bind, Except.bind, pure, Except.pure]⟩

/-- **C40 is violated by the output**: with N samples per period and the duty k/N, one period is k samples of -A
followed by N - k samples of A, so the signal is active for the fraction 1 - duty of the period. -/
theorem C40_inverted_violates {dbg : Bool} {A F : ℝ} (hF : 0 < F) {N k : Nat} (hN : 0 < N) (hk : k ≤ N) :
    ∃ s0 s', squareOscillator dbg A (N * F) F ((k : ℝ) / N) = .ok s0 ∧ duty s0 = (k : ℝ) / N ∧
      gen .square N s0 = .ok (List.replicate k (-A) ++ List.replicate (N - k) A, s') := by
  have hNr : (0 : ℝ) < N := by exact_mod_cast hN
  have hkN : (k : ℝ) / N ≤ 1 := (div_le_one hNr).2 (by exact_mod_cast hk)
  have hk0 : 0 ≤ (k : ℝ) / N := by positivity
  set s0 : State := { base A (N * F) F 0 with shape := (k : ℝ) / N * (1 / F) } with hs0
  have hc : squareOscillator dbg A (N * F) F ((k : ℝ) / N) = .ok s0 := by
    rw [squareOscillator, setDuty, if_neg (fun h => h.2 ⟨hk0, hkN⟩)]
    simp only [base, inv?_ne hF.ne', finite, bind, Except.bind, pure, Except.pure, hs0]
  have hrdy : Ready .square s0 := by
    refine ⟨le_rfl, 1 / F, ?_, by positivity⟩
    simp only [hs0, base, inv?_ne hF.ne']
  have hg := gen_value (k := .square) N (s := s0) rfl (by simp only [hs0, base]; positivity) hrdy
  refine ⟨s0, { s0 with timestamp := s0.timestamp + N / s0.sampleRate }, hc, ?_, ?_⟩
  · simp only [duty, hs0, base]; field_simp
  · rw [hg]
    congr 2
    have hval : ∀ i : Nat, i < N → expected .square s0 (s0.timestamp + i / s0.sampleRate) = if i < k then -A else A := by
      intro i hi
      have e1 : s0.shape / (1 / F) = (k : ℝ) / N := by simp only [hs0]; field_simp
      have e2 : (s0.timestamp + (i : ℝ) / s0.sampleRate) / (1 / F) = (i : ℝ) / N := by
        simp only [hs0, base]; field_simp; ring
      have hfr : Int.fract ((i : ℝ) / N) = (i : ℝ) / N := by
        rw [Int.fract_eq_self]
        exact ⟨by positivity, (div_lt_one hNr).2 (by exact_mod_cast hi)⟩
      have hinv : s0.inverseFrequency = some (1 / F) := by simp only [hs0, base, inv?_ne hF.ne']
      simp only [expected, hinv, e1, e2, squareWave, hfr, div_lt_div_iff_of_pos_right hNr, Nat.cast_lt]
      have hA : s0.amplitude = A := rfl
      rw [hA]
      split_ifs <;> ring
    rw [List.map_congr_left (fun i hi => hval i (List.mem_range.1 hi))]
    apply List.ext_getElem?
    intro i
    rw [List.getElem?_map]
    by_cases hi : i < N
    · rw [List.getElem?_range hi]
      by_cases hik : i < k
      · rw [List.getElem?_append_left (by simpa using hik), List.getElem?_replicate, if_pos hik]
        simp [hik]
      · rw [List.getElem?_append_right (by simpa using not_lt.1 hik), List.getElem?_replicate,
          List.length_replicate, if_pos (by omega)]
        simp [hik]
    · rw [List.getElem?_eq_none (by simpa using hi), List.getElem?_eq_none (by
        rw [List.length_append, List.length_replicate, List.length_replicate]; omega)]
      rfl

example : (0 : ℝ) < 440 ∧ 0 < 100 ∧ 25 ≤ 100 := by norm_num

end Edsp.C39
