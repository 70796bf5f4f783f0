import Verif.Model.RoundedOscillators
import Verif.Lemmas.Float
import Verif.Spec.Oscillators
import Mathlib.Data.List.GetD
import Mathlib.Analysis.SpecialFunctions.Trigonometric.Bounds

/-!
# C93: the oscillators in floating point arithmetic

`timestamp()` after `k` calls should be `k` times the sampling period, and the waveform should go on.
-/

namespace Edsp.Rounded

open Edsp.Spec Edsp.Osc Edsp.FloatL

/-- The members of an oscillator that generates: a finite sampling period, and a finite period for the square wave. -/
def Running (k : Kind) (d : ℝ) (s : State) : Prop :=
  s.samplingPeriod = some d ∧ (k = .square → s.inverseFrequency ≠ none)

theorem advance_ok {p : ℕ} {d : ℝ} {s : State} (h : s.samplingPeriod = some d) :
    advance p s = .ok { s with timestamp := rnd p (s.timestamp + d) } := by
  unfold advance
  rw [h]
  rfl

/-- A call changes the timestamp only. -/
theorem call_ok (p q : ℕ) (sine : ℝ → ℝ) {k : Kind} {d : ℝ} {s : State} (h : Running k d s) :
    ∃ x, call p q sine k s = .ok (x, { s with timestamp := rnd p (s.timestamp + d) }) := by
  obtain ⟨h1, h2⟩ := h
  cases k with
  | sin =>
    refine ⟨rnd p (sine (rnd p (rnd p (rnd p (rnd p (2 * Real.pi) * s.frequency) * s.timestamp) + s.phase))
      * s.amplitude), ?_⟩
    simp only [call, sinCall, advance_ok h1, bind, Except.bind, pure, Except.pure]
  | square =>
    obtain ⟨f, hf⟩ := Option.ne_none_iff_exists'.mp (h2 rfl)
    refine ⟨rnd p ((if fmod s.timestamp f ≥ s.shape then 1 else -1) * s.amplitude), ?_⟩
    simp only [call, squareCall, advance_ok h1, hf, finite, bind, Except.bind, pure, Except.pure]
  | saw =>
    simp only [call, sawCall, advance_ok h1, bind, Except.bind, pure, Except.pure]
    split
    · exact ⟨_, rfl⟩
    · split
      · exact ⟨_, rfl⟩
      · exact ⟨_, rfl⟩

/-- The timestamps of successive calls. -/
noncomputable def times (p : ℕ) (d t : ℝ) : ℕ → ℝ
  | 0 => t
  | k + 1 => rnd p (times p d t k + d)

theorem times_succ' (p : ℕ) (d t : ℝ) (k : ℕ) : times p d t (k + 1) = times p d (rnd p (t + d)) k := by
  induction k with
  | zero => rfl
  | succ k ih =>
    show rnd p (times p d t (k + 1) + d) = rnd p (times p d (rnd p (t + d)) k + d)
    rw [ih]

theorem times_add (p : ℕ) (d t : ℝ) (j k : ℕ) : times p d t (j + k) = times p d (times p d t j) k := by
  induction k with
  | zero => rfl
  | succ k ih =>
    show rnd p (times p d t (j + k) + d) = rnd p (times p d (times p d t j) k + d)
    rw [ih]

theorem gen_ok (p q : ℕ) (sine : ℝ → ℝ) {k : Kind} {d : ℝ} (n : ℕ) : ∀ {s : State}, Running k d s →
    ∃ ys, gen p q sine k n s = .ok (ys, { s with timestamp := times p d s.timestamp n }) ∧ ys.length = n ∧
      ∀ i < n, ∃ x s', call p q sine k { s with timestamp := times p d s.timestamp i } = .ok (x, s') ∧
        ys.getD i 0 = x := by
  induction n with
  | zero => intro s h; exact ⟨[], rfl, rfl, by simp⟩
  | succ n ih =>
    intro s h
    obtain ⟨x, hx⟩ := call_ok p q sine h
    obtain ⟨ys, h1, h2, h3⟩ := ih (s := { s with timestamp := rnd p (s.timestamp + d) }) h
    refine ⟨x :: ys, ?_, by simp [h2], ?_⟩
    · simp only [gen, hx, h1, bind, Except.bind, pure, Except.pure, times_succ']
    · intro i hi
      cases i with
      | zero => exact ⟨x, _, hx, by simp⟩
      | succ i =>
        obtain ⟨x', s', e1, e2⟩ := h3 i (by omega)
        refine ⟨x', s', ?_, by simpa using e2⟩
        rw [times_succ']
        exact e1

/-! ### The clock stops -/

theorem isFloat_times {p : ℕ} (hp : 1 ≤ p) {d t : ℝ} (ht : IsFloat p t) : ∀ k, IsFloat p (times p d t k)
  | 0 => ht
  | _ + 1 => isFloat_rnd hp _

theorem times_mono {p : ℕ} (hp : 1 ≤ p) {d t : ℝ} (ht : IsFloat p t) (hd : 0 ≤ d) (k : ℕ) :
    times p d t k ≤ times p d t (k + 1) := by
  have h := rnd_mono hp (by linarith : times p d t k ≤ times p d t k + d)
  rwa [rnd_float (isFloat_times hp ht k)] at h

/-- The clock does not pass a power of two with respect to which the sampling period is less than half a unit. -/
theorem times_le {p : ℕ} (hp : 1 ≤ p) {d t : ℝ} {e : ℤ} (hd0 : 0 ≤ d) (hd : d < 2 ^ (e - p)) (ht : t ≤ 2 ^ e) :
    ∀ k, times p d t k ≤ 2 ^ e := by
  have hf : IsFloat p ((2 : ℝ) ^ e) := by
    refine ⟨1, e, ?_, by simp⟩
    rw [abs_one]
    exact one_lt_pow₀ (by norm_num) (by omega)
  intro k
  induction k with
  | zero => exact ht
  | succ k ih =>
    have h := rnd_mono hp (by linarith : times p d t k + d ≤ 2 ^ e + d)
    rw [rnd_absorb hf le_rfl (zpow_lt_zpow_right₀ (by norm_num) (by omega)) hd0 hd] at h
    exact h

/-- Numbers of `p` bits not below a power of two are multiples of its unit. -/
theorem multiple {p : ℕ} {t : ℝ} {e : ℤ} (ht : IsFloat p t) (h : (2 : ℝ) ^ e ≤ |t|) :
    ∃ n : ℤ, t = n * 2 ^ (e - p + 1) := by
  obtain ⟨m, k, hm, rfl⟩ := ht
  have hk := two_zpow_pos k
  have hmr : |(m : ℝ)| < 2 ^ p := by exact_mod_cast hm
  have hku : e - p + 1 ≤ k := by
    have : (2 : ℝ) ^ e < 2 ^ (k + p) := by
      refine lt_of_le_of_lt h ?_
      rw [abs_mul, abs_of_pos hk, zpow_add₀ (by norm_num : (2 : ℝ) ≠ 0), mul_comm, zpow_natCast]
      exact mul_lt_mul_of_pos_left hmr hk
    have := (zpow_lt_zpow_iff_right₀ (by norm_num : (1 : ℝ) < 2)).mp this
    omega
  obtain ⟨c, hc⟩ := Int.eq_ofNat_of_zero_le (by omega : 0 ≤ k - (e - p + 1))
  refine ⟨m * 2 ^ c, ?_⟩
  push_cast
  rw [mul_assoc, ← zpow_natCast (2 : ℝ) c, ← zpow_add₀ (by norm_num : (2 : ℝ) ≠ 0)]
  congr 2
  omega

/-- The clock stops. -/
theorem times_stop {p : ℕ} (hp : 1 ≤ p) {d t : ℝ} (hd : IsFloat p d) (hd0 : 0 < d) (ht : IsFloat p t) (ht0 : 0 ≤ t) :
    ∃ T, ∀ k, times p d t (T + k) = times p d t T := by
  -- an upper bound
  obtain ⟨e, he⟩ : ∃ e : ℤ, d < 2 ^ (e - p) ∧ t ≤ 2 ^ e := by
    obtain ⟨a, ha⟩ := pow_unbounded_of_one_lt d (by norm_num : (1 : ℝ) < 2)
    obtain ⟨b, hb⟩ := pow_unbounded_of_one_lt t (by norm_num : (1 : ℝ) < 2)
    refine ⟨a + b + p, ?_, ?_⟩
    · rw [show (a : ℤ) + b + p - p = (a : ℤ) + b by ring]
      refine lt_of_lt_of_le ha ?_
      rw [← zpow_natCast]
      exact zpow_le_zpow_right₀ (by norm_num) (by omega)
    · refine hb.le.trans ?_
      rw [← zpow_natCast]
      exact zpow_le_zpow_right₀ (by norm_num) (by omega)
  have hle := times_le hp hd0.le he.1 he.2
  -- the unit
  set g : ℤ := Int.log 2 |d| - p + 1 with hg
  have hgp := two_zpow_pos g
  have hge : ∀ k, d ≤ times p d t (k + 1) := by
    intro k
    induction k with
    | zero =>
      have h := rnd_mono hp (by linarith : d ≤ t + d)
      rwa [rnd_float hd] at h
    | succ k ih => exact ih.trans (times_mono hp ht hd0.le (k + 1))
  have hmul : ∀ k, ∃ n : ℤ, times p d t (k + 1) = n * 2 ^ g := by
    intro k
    refine multiple (isFloat_times hp ht _) ?_
    refine (log_spec hd0.ne').1.trans ?_
    rw [abs_of_pos hd0, abs_of_pos (lt_of_lt_of_le hd0 (hge k))]
    exact hge k
  choose n hn using hmul
  -- it cannot go on for ever
  have hstop : ∃ T, times p d t (T + 1 + 1) = times p d t (T + 1) := by
    by_contra hc
    push Not at hc
    have hup : ∀ k, n k + 1 ≤ n (k + 1) := by
      intro k
      have h1 := lt_of_le_of_ne (times_mono hp ht hd0.le (k + 1)) (Ne.symm (hc k))
      rw [hn k, hn (k + 1)] at h1
      have := lt_of_mul_lt_mul_right h1 hgp.le
      have : n k < n (k + 1) := by exact_mod_cast this
      omega
    have hk : ∀ k : ℕ, n 0 + k ≤ n k := by
      intro k
      induction k with
      | zero => simp
      | succ k ih =>
        have := hup k
        push_cast
        omega
    have h0 : (0 : ℝ) ≤ n 0 := by
      have := hge 0
      rw [hn 0] at this
      by_contra hneg
      have : (n 0 : ℝ) * 2 ^ g ≤ 0 := mul_nonpos_of_nonpos_of_nonneg (by linarith) hgp.le
      linarith
    obtain ⟨K, hK⟩ := exists_nat_gt ((2 : ℝ) ^ e / 2 ^ g)
    have h1 := hle (K + 1)
    rw [hn K, ← le_div_iff₀ hgp] at h1
    have h2 : (n 0 : ℝ) + K ≤ n K := by exact_mod_cast hk K
    linarith
  obtain ⟨T, hT⟩ := hstop
  refine ⟨T + 1, fun k => ?_⟩
  induction k with
  | zero => rfl
  | succ k ih =>
    show rnd p (times p d t (T + 1 + k) + d) = _
    rw [ih]
    exact hT

/-- **C93 is violated**: whatever the precision, the waveform, the sampling period and the sine of the library, after some
number of samples every further sample is the same and `timestamp()` does not change any more. -/
theorem C93_stop_violates {p : ℕ} (hp : 1 ≤ p) (q : ℕ) (sine : ℝ → ℝ) {k : Kind} {d : ℝ} {s : State} (h : Running k d s)
    (hd : IsFloat p d) (hd0 : 0 < d) (ht : IsFloat p s.timestamp) (ht0 : 0 ≤ s.timestamp) :
    ∃ T, ∃ x τ, ∀ n, ∃ ys s', gen p q sine k (T + n) s = .ok (ys, s') ∧ ys.length = T + n ∧ s'.timestamp = τ ∧
      ∀ i, T ≤ i → i < T + n → ys.getD i 0 = x := by
  obtain ⟨T, hT⟩ := times_stop hp hd hd0 ht ht0
  obtain ⟨x, hx⟩ := call_ok p q sine (s := { s with timestamp := times p d s.timestamp T }) h
  refine ⟨T, x, times p d s.timestamp T, fun n => ?_⟩
  obtain ⟨ys, h1, h2, h3⟩ := gen_ok p q sine (T + n) h
  refine ⟨ys, _, h1, h2, hT n, fun i hi hi2 => ?_⟩
  obtain ⟨x', s', e1, e2⟩ := h3 i hi2
  obtain ⟨c, rfl⟩ : ∃ c, i = T + c := ⟨i - T, by omega⟩
  rw [hT c, hx] at e1
  rw [e2]
  injection e1 with e1
  injection e1 with e1 _
  exact e1.symm

/-- The rounded sampling period of 44100 Hz in `float` lies between 2^-16 and 2^-15. -/
theorem period_44100 : ∃ d, inv 24 44100 = some d ∧ IsFloat 24 d ∧ (2 : ℝ) ^ (-16 : ℤ) < d ∧ d < 2 ^ (-15 : ℤ) := by
  refine ⟨rnd 24 (1 / 44100), by unfold inv; rw [if_neg (by norm_num)], isFloat_rnd (by norm_num) _, ?_, ?_⟩
  · have h := abs_le.mp (rnd_err 24 (1 / 44100))
    rw [abs_of_pos (by norm_num)] at h
    have : (2 : ℝ) ^ (-16 : ℤ) < 1 / 44100 - 2 ^ (-((24 : ℕ) : ℤ)) * (1 / 44100) := by norm_num
    linarith
  · have h := abs_le.mp (rnd_err 24 (1 / 44100))
    rw [abs_of_pos (by norm_num)] at h
    have : 1 / 44100 + 2 ^ (-((24 : ℕ) : ℤ)) * (1 / 44100) < (2 : ℝ) ^ (-15 : ℤ) := by norm_num
    linarith

/-- **C93 is violated**: the clock of every `float` oscillator at 44100 Hz never passes 512 seconds, however many samples
are generated. -/
theorem C93_clock_violates (q : ℕ) (sine : ℝ → ℝ) (k : Kind) {a f φ : ℝ} (hf : f ≠ 0) (n : ℕ) :
    ∃ ys s', gen 24 q sine k n (oscillator 24 a 44100 f φ) = .ok (ys, s') ∧ s'.timestamp ≤ 512 := by
  obtain ⟨d, h1, h2, h3, h4⟩ := period_44100
  have hr : Running k d (oscillator 24 a 44100 f φ) := by
    refine ⟨h1, fun _ => ?_⟩
    show inv 24 f ≠ none
    unfold inv
    rw [if_neg hf]
    simp
  obtain ⟨ys, e, _, _⟩ := gen_ok 24 q sine n hr
  refine ⟨ys, _, e, ?_⟩
  have hd0 : 0 < d := lt_trans (by norm_num) h3
  have := times_le (p := 24) (e := 9) (d := d) (t := 0) (by norm_num) hd0.le
    (lt_of_lt_of_le h4 (by norm_num)) (by norm_num) n
  norm_num at this
  exact this

/-- A step of one unit. -/
theorem rnd_step {p : ℕ} {t d : ℝ} {e : ℤ} (ht : IsFloat p t) (h1 : (2 : ℝ) ^ e ≤ t) (h2 : t < 2 ^ (e + 1))
    (hd1 : (2 : ℝ) ^ (e - p) < d) (hd2 : d < 2 ^ (e - p + 1)) : rnd p (t + d) = t + 2 ^ (e - p + 1) := by
  have ht0 : 0 < t := lt_of_lt_of_le (two_zpow_pos e) h1
  obtain ⟨n, hn⟩ := multiple ht (by rwa [abs_of_pos ht0])
  set u : ℤ := e - p + 1 with hu
  have hup := two_zpow_pos u
  have hhalf : (2 : ℝ) ^ (e - p) = 1 / 2 * 2 ^ u := by
    rw [hu, zpow_add_one₀ (by norm_num : (2 : ℝ) ≠ 0)]
    ring
  have hint : n + 1 ≤ 2 ^ p := by
    have : (n : ℝ) * 2 ^ u < 2 ^ p * 2 ^ u := by
      rw [← hn, ← zpow_natCast (2 : ℝ) p, ← zpow_add₀ (by norm_num : (2 : ℝ) ≠ 0),
        show (p : ℤ) + u = e + 1 by omega]
      exact h2
    have := lt_of_mul_lt_mul_right this hup.le
    have : n < 2 ^ p := by exact_mod_cast this
    omega
  have htop : t + d < 2 ^ (u + p) := by
    have h3 : ((n : ℝ) + 1) * 2 ^ u ≤ 2 ^ p * 2 ^ u := by
      refine mul_le_mul_of_nonneg_right ?_ hup.le
      exact_mod_cast hint
    rw [zpow_add₀ (by norm_num : (2 : ℝ) ≠ 0), zpow_natCast, hn, mul_comm ((2 : ℝ) ^ u)]
    linarith
  have hd0 : 0 < d := lt_trans (two_zpow_pos _) hd1
  have hpos : 0 < t + d := by linarith
  rw [hhalf] at hd1
  have q1 : 1 / 2 < d / 2 ^ u := by rwa [lt_div_iff₀ hup]
  have q2 : d / 2 ^ u < 1 := by rwa [div_lt_iff₀ hup, one_mul]
  rw [rnd_of (p := p) (k := u) (by rw [abs_of_pos hpos, show u + (p : ℤ) - 1 = e by omega]; linarith)
    (by rwa [abs_of_pos hpos]), hn, add_div, mul_div_cancel_right₀ _ hup.ne',
    ne_of_lt (n := n + 1) (by push_cast; linarith) (by push_cast; linarith)]
  push_cast
  ring

/-- **C93 is violated**: from 256 seconds on, every sample of a `float` oscillator at 44100 Hz advances the clock by
1/32768 of a second: the frequency is 34 percent too high (a 440 Hz tone sounds at 592 Hz). -/
theorem C93_pitch_violates (q : ℕ) (sine : ℝ → ℝ) (k : Kind) {a f φ : ℝ} (hf : f ≠ 0) {n : ℕ} {ys : List ℝ} {s : State}
    (hs : gen 24 q sine k n (oscillator 24 a 44100 f φ) = .ok (ys, s)) (h1 : 256 ≤ s.timestamp)
    (h2 : s.timestamp < 512) :
    ∃ x s', call 24 q sine k s = .ok (x, s') ∧ s'.timestamp = s.timestamp + 1 / 32768 := by
  obtain ⟨d, p1, p2, p3, p4⟩ := period_44100
  have hr : Running k d (oscillator 24 a 44100 f φ) := by
    refine ⟨p1, fun _ => ?_⟩
    show inv 24 f ≠ none
    unfold inv
    rw [if_neg hf]
    simp
  obtain ⟨ys', e, _, _⟩ := gen_ok 24 q sine n hr
  rw [hs] at e
  injection e with e
  injection e with e1 e2
  have hrs : Running k d s := by rw [e2]; exact hr
  have hfs : IsFloat 24 s.timestamp := by
    rw [e2]
    exact isFloat_times (by norm_num) ⟨0, 0, by norm_num, by simp [oscillator]⟩ n
  obtain ⟨x, hx⟩ := call_ok 24 q sine hrs
  refine ⟨x, _, hx, ?_⟩
  show rnd 24 (s.timestamp + d) = _
  rw [rnd_step (e := 8) hfs (by norm_num; linarith) (by norm_num; linarith)
    (lt_of_le_of_lt (by norm_num) p3) (lt_of_lt_of_le p4 (by norm_num))]
  norm_num

/-- The state of `C93_pitch_violates` is reached: after some number of samples the clock is between 256 and 512. -/
theorem C93_pitch_reached (q : ℕ) (sine : ℝ → ℝ) (k : Kind) {a f φ : ℝ} (hf : f ≠ 0) :
    ∃ n ys s, gen 24 q sine k n (oscillator 24 a 44100 f φ) = .ok (ys, s) ∧ 256 ≤ s.timestamp ∧ s.timestamp < 512 := by
  set d := rnd 24 (1 / 44100) with hd
  have hr : Running k d (oscillator 24 a 44100 f φ) := by
    refine ⟨?_, fun _ => ?_⟩
    · show inv 24 44100 = _
      unfold inv
      rw [if_neg (by norm_num)]
    · show inv 24 f ≠ none
      unfold inv
      rw [if_neg hf]
      simp
  have hdl : 1 / 44101 < d ∧ d < 1 := by
    have h := abs_le.mp (rnd_err 24 (1 / 44100))
    rw [abs_of_pos (by norm_num)] at h
    have h1 : 1 / 44101 < (1 : ℝ) / 44100 - 2 ^ (-((24 : ℕ) : ℤ)) * (1 / 44100) := by norm_num
    have h2 : (1 : ℝ) / 44100 + 2 ^ (-((24 : ℕ) : ℤ)) * (1 / 44100) < 1 := by norm_num
    constructor <;> linarith
  have h0 : IsFloat 24 0 := ⟨0, 0, by norm_num, by simp⟩
  have hpos : ∀ n, 0 ≤ times 24 d 0 n := by
    intro n
    induction n with
    | zero => exact le_rfl
    | succ n ih => exact ih.trans (times_mono (by norm_num) h0 (by linarith) n)
  -- the steps below 256 seconds
  have hstep : ∀ n, times 24 d 0 n < 256 →
      times 24 d 0 n + 1 / 1000000 ≤ times 24 d 0 (n + 1) ∧ times 24 d 0 (n + 1) < 512 := by
    intro n hn
    have h := abs_le.mp (rnd_err 24 (times 24 d 0 n + d))
    rw [abs_of_nonneg (by have := hpos n; linarith)] at h
    have hu : (2 : ℝ) ^ (-((24 : ℕ) : ℤ)) * (times 24 d 0 n + d) ≤ 2 ^ (-((24 : ℕ) : ℤ)) * 257 :=
      mul_le_mul_of_nonneg_left (by linarith) (by positivity)
    have hv : (2 : ℝ) ^ (-((24 : ℕ) : ℤ)) * 257 ≤ 1 / 44101 - 1 / 1000000 := by norm_num
    show _ ≤ rnd 24 (times 24 d 0 n + d) ∧ rnd 24 (times 24 d 0 n + d) < 512
    obtain ⟨g1, g2⟩ := h
    have hw := hu.trans hv
    generalize (2 : ℝ) ^ (-((24 : ℕ) : ℤ)) * (times 24 d 0 n + d) = U at g1 g2 hw
    generalize rnd 24 (times 24 d 0 n + d) = r at g1 g2 ⊢
    have hc : (1 : ℝ) / 44101 - 1 / 1000000 < 1 := by norm_num
    constructor <;> linarith [hdl.1, hdl.2]
  have hex : ∃ n, 256 ≤ times 24 d 0 n := by
    by_contra hc
    push Not at hc
    have : ∀ n : ℕ, (n : ℝ) * (1 / 1000000) ≤ times 24 d 0 n := by
      intro n
      induction n with
      | zero => simp [times]
      | succ n ih =>
        have := (hstep n (hc n)).1
        push_cast
        linarith
    have h1 := this 256000000
    have h2 := hc 256000000
    norm_num at h1
    linarith
  classical
  have hfind := Nat.find_spec hex
  have hlt : times 24 d 0 (Nat.find hex) < 512 := by
    rcases hz : Nat.find hex with _ | m
    · norm_num [times]
    · have := Nat.find_min hex (m := m) (by omega)
      exact (hstep m (by linarith [lt_of_not_ge this])).2
  obtain ⟨ys, e, _, _⟩ := gen_ok 24 q sine (Nat.find hex) hr
  exact ⟨_, ys, _, e, hfind, hlt⟩

/-! ### What holds -/

/-- **C93** for a sampling period of `m` units 2^j (a sample rate that is a power of two: `m = 1`): as long as
`n * m ≤ 2^p`, the clock after `n` samples is exactly `n` periods.
Missing: later samples and other sample rates (`C93_stop_violates`). -/
theorem C93_exact_partial {p : ℕ} (hp : 1 ≤ p) (q : ℕ) (sine : ℝ → ℝ) {k : Kind} {s : State} {m : ℕ} {j : ℤ}
    (h : Running k (m * 2 ^ j) s) (h0 : s.timestamp = 0) {n : ℕ} (hn : n * m ≤ 2 ^ p) :
    ∃ ys s', gen p q sine k n s = .ok (ys, s') ∧ s'.timestamp = n * (m * 2 ^ j) := by
  obtain ⟨ys, e, _, _⟩ := gen_ok p q sine n h
  refine ⟨ys, _, e, ?_⟩
  show times p _ s.timestamp n = _
  rw [h0]
  have : ∀ i, i ≤ n → times p (m * 2 ^ j) 0 i = i * (m * 2 ^ j) := by
    intro i
    induction i with
    | zero => intro _; simp [times]
    | succ i ih =>
      intro hi
      show rnd p (times p (m * 2 ^ j) 0 i + m * 2 ^ j) = _
      rw [ih (by omega)]
      have e : (i : ℝ) * (m * 2 ^ j) + m * 2 ^ j = (((i + 1) * m : ℕ) : ℤ) * 2 ^ j := by
        push_cast
        ring
      have hle : (i + 1) * m ≤ 2 ^ p := le_trans (Nat.mul_le_mul_right m hi) hn
      rw [e, rnd_float (isFloat_int hp j (by rw [abs_of_nonneg (by positivity)]; exact_mod_cast hle))]
      push_cast
      ring
  exact this n le_rfl

/-- **C93** for every sampling period `d`: the clock after `n` samples differs from `n d` by at most
`((1 + 2^-p)^n - 1) n d`. -/
theorem C93_error_partial (p q : ℕ) (sine : ℝ → ℝ) {k : Kind} {s : State} {d : ℝ} (hd : 0 ≤ d) (h : Running k d s)
    (h0 : s.timestamp = 0) (n : ℕ) :
    ∃ ys s', gen p q sine k n s = .ok (ys, s') ∧
      |s'.timestamp - n * d| ≤ ((1 + (2 : ℝ) ^ (-(p : ℤ))) ^ n - 1) * (n * d) := by
  obtain ⟨ys, e, -, -⟩ := gen_ok p q sine n h
  refine ⟨ys, _, e, ?_⟩
  show |times p d s.timestamp n - _| ≤ _
  rw [h0]
  clear e ys
  induction n with
  | zero => simp [times]
  | succ n ih =>
    have hu := two_zpow_pos (-(p : ℤ))
    show |rnd p (times p d 0 n + d) - _| ≤ _
    have h1 := rnd_err p (times p d 0 n + d)
    set t := times p d 0 n
    set u := (2 : ℝ) ^ (-(p : ℤ))
    have h2 : |t + d| ≤ |t - n * d| + (n + 1) * d := by
      have := abs_add_le (t - n * d) ((n + 1) * d)
      rw [abs_of_nonneg (by positivity : (0 : ℝ) ≤ (n + 1) * d)] at this
      rwa [show t - n * d + (n + 1) * d = t + d by ring] at this
    have h3 : |rnd p (t + d) - ((n + 1 : ℕ) : ℝ) * d| ≤ |rnd p (t + d) - (t + d)| + |t - n * d| := by
      have := abs_add_le (rnd p (t + d) - (t + d)) (t - n * d)
      rw [show rnd p (t + d) - (t + d) + (t - n * d) = rnd p (t + d) - ((n + 1 : ℕ) : ℝ) * d by push_cast; ring] at this
      exact this
    have h4 : u * |t + d| ≤ u * (|t - n * d| + (n + 1) * d) := mul_le_mul_of_nonneg_left h2 hu.le
    have h5 : (1 + u) * |t - n * d| ≤ (1 + u) * (((1 + u) ^ n - 1) * (n * d)) :=
      mul_le_mul_of_nonneg_left ih (by positivity)
    have hone : (1 : ℝ) ≤ (1 + u) ^ n := one_le_pow₀ (by linarith)
    have h6 : (1 + u) * (((1 + u) ^ n - 1) * (n * d)) ≤ (1 + u) * (((1 + u) ^ n - 1) * ((n + 1) * d)) := by
      have : (n : ℝ) * d ≤ (n + 1) * d := by linarith
      have := mul_le_mul_of_nonneg_left this (by linarith : (0 : ℝ) ≤ (1 + u) ^ n - 1)
      exact mul_le_mul_of_nonneg_left this (by positivity)
    have h7 : (1 + u) * (((1 + u) ^ n - 1) * ((n + 1) * d)) + u * ((n + 1) * d)
        = ((1 + u) ^ (n + 1) - 1) * (((n + 1 : ℕ) : ℝ) * d) := by
      rw [pow_succ]
      push_cast
      ring
    linarith

/-- An oscillator of 1 Hz at 32768 Hz in `float`: exact for 512 seconds. -/
example (sine : ℝ → ℝ) : ∃ ys s', gen 24 53 sine .sin (2 ^ 24) (oscillator 24 1 32768 1 0) = .ok (ys, s') ∧
    s'.timestamp = ((2 ^ 24 : ℕ) : ℝ) * ((1 : ℕ) * 2 ^ (-15 : ℤ)) := by
  refine C93_exact_partial (by norm_num) 53 sine ⟨?_, by simp⟩ rfl (by norm_num)
  show inv 24 32768 = _
  unfold inv
  have : IsFloat 24 (1 / 32768) := ⟨1, -15, by norm_num, by norm_num⟩
  rw [if_neg (by norm_num), rnd_float this]
  norm_num

/-- The hypotheses of `C93_stop_violates` for a square wave in `float`. -/
example (f : ℝ) (hf : f ≠ 0) : ∃ d, Running .square d (oscillator 24 1 44100 f 0) ∧ IsFloat 24 d ∧ 0 < d := by
  obtain ⟨d, p1, p2, p3, p4⟩ := period_44100
  refine ⟨d, ⟨p1, fun _ => ?_⟩, p2, lt_trans (by norm_num) p3⟩
  show inv 24 f ≠ none
  unfold inv
  rw [if_neg hf]
  simp

/-! ### The samples -/

/-- One rounding more. -/
theorem round_more {p q : ℕ} (hpq : p ≤ q) {z y e B : ℝ} (hz : |z - y| ≤ e) (hy : |y| ≤ B) :
    |rnd q z - y| ≤ e + 2 ^ (-(p : ℤ)) * (B + e) := by
  have hu := two_zpow_pos (-(p : ℤ))
  have hr := rnd_err q z
  have hv : (2 : ℝ) ^ (-(q : ℤ)) ≤ 2 ^ (-(p : ℤ)) := zpow_le_zpow_right₀ (by norm_num) (by omega)
  have h1 : |z| ≤ B + e := by
    have := abs_add_le (z - y) y
    rw [sub_add_cancel] at this
    linarith
  have h2 : (2 : ℝ) ^ (-(q : ℤ)) * |z| ≤ 2 ^ (-(p : ℤ)) * (B + e) :=
    mul_le_mul hv h1 (abs_nonneg z) hu.le
  have := abs_sub_le (rnd q z) z y
  linarith

/-- Relative version: `rnd q z` is `z` times a factor near 1. -/
theorem rnd_rel {p q : ℕ} (hpq : p ≤ q) (z : ℝ) : |rnd q z - z| ≤ 2 ^ (-(p : ℤ)) * |z| := by
  have := round_more hpq (z := z) (y := z) (e := 0) (B := |z|) (by simp) le_rfl
  simpa using this

theorem rel_mul {u x x' y K L : ℝ} (h : |x' - x| ≤ K * |x|) (hy : |y - x'| ≤ L * |x'|) (hL : 0 ≤ L)
    (hu : u = (1 + K) * (1 + L) - 1) : |y - x| ≤ u * |x| := by
  have h1 : |x'| ≤ (1 + K) * |x| := by
    have := abs_add_le (x' - x) x
    rw [sub_add_cancel] at this
    linarith
  have h2 := mul_le_mul_of_nonneg_left h1 hL
  have h3 := abs_sub_le y x' x
  rw [hu]
  linarith

/-- The last three operations: subtraction of (or from) one, product with the amplitude, conversion. -/
theorem tail_err {p q : ℕ} (hp : 1 ≤ p) (hpq : p ≤ q) {a z y K : ℝ} (hz : |z - y| ≤ K * 2 ^ (-(p : ℤ))) (hy : |y| ≤ 1)
    (hK : 0 ≤ K) :
    |rnd p (rnd q (a * rnd q z)) - a * y| ≤ (27 / 8 * K + 19 / 4) * 2 ^ (-(p : ℤ)) * |a| := by
  have hu := two_zpow_pos (-(p : ℤ))
  have hu2 : (2 : ℝ) ^ (-(p : ℤ)) ≤ 1 / 2 := by
    have : (2 : ℝ) ^ (-(p : ℤ)) ≤ 2 ^ (-1 : ℤ) := zpow_le_zpow_right₀ (by norm_num) (by omega)
    rw [zpow_neg_one] at this
    linarith
  have h1 := round_more hpq hz hy
  set u := (2 : ℝ) ^ (-(p : ℤ))
  have huu : u * u ≤ 1 / 2 * u := mul_le_mul_of_nonneg_right hu2 hu.le
  have hKu : K * (u * u) ≤ K * (1 / 2 * u) := mul_le_mul_of_nonneg_left huu hK
  have h2 : |rnd q z - y| ≤ (3 / 2 * K + 1) * u := by linarith
  have h3 : |a * rnd q z - a * y| ≤ (3 / 2 * K + 1) * u * |a| := by
    rw [← mul_sub, abs_mul, mul_comm]
    exact mul_le_mul_of_nonneg_right h2 (abs_nonneg a)
  have hay : |a * y| ≤ |a| := by
    rw [abs_mul]
    exact mul_le_of_le_one_right (abs_nonneg a) hy
  have h4 := round_more hpq h3 hay
  have h5 : |rnd q (a * rnd q z) - a * y| ≤ (9 / 4 * K + 5 / 2) * u * |a| := by
    have : u * ((3 / 2 * K + 1) * u * |a|) ≤ (3 / 4 * K + 1 / 2) * u * |a| := by
      have h := mul_le_mul_of_nonneg_right huu (by positivity : 0 ≤ (3 / 2 * K + 1) * |a|)
      calc _ = u * u * ((3 / 2 * K + 1) * |a|) := by ring
        _ ≤ _ := h
        _ = _ := by ring
    linarith
  have h6 := round_more (le_refl p) h5 hay
  have : u * ((9 / 4 * K + 5 / 2) * u * |a|) ≤ (9 / 8 * K + 5 / 4) * u * |a| := by
    have h := mul_le_mul_of_nonneg_right huu (by positivity : 0 ≤ (9 / 4 * K + 5 / 2) * |a|)
    calc _ = u * u * ((9 / 4 * K + 5 / 2) * |a|) := by ring
      _ ≤ _ := h
      _ = _ := by ring
  linarith

/-- **C93**, the samples of the sawtooth: the sample is the wave at the rounded product of frequency and clock, with an
error of at most `83 * 2^-p` times the amplitude.
Missing: the clock, which goes wrong and stops (`C93_pitch_violates`, `C93_stop_violates`). -/
theorem C93_saw_partial {p q : ℕ} (hp : 1 ≤ p) (hpq : p ≤ q) (sine : ℝ → ℝ) {d : ℝ} {s : State} (h : Running .saw d s)
    (ht : 0 ≤ s.frequency * s.timestamp) :
    ∃ x s', call p q sine .saw s = .ok (x, s') ∧
      |x - s.amplitude * sawWave s.shape (rnd p (s.frequency * s.timestamp))|
        ≤ 83 * 2 ^ (-(p : ℤ)) * |s.amplitude| := by
  have hu := two_zpow_pos (-(p : ℤ))
  have hu2 : (2 : ℝ) ^ (-(p : ℤ)) ≤ 1 / 2 := by
    have : (2 : ℝ) ^ (-(p : ℤ)) ≤ 2 ^ (-1 : ℤ) := zpow_le_zpow_right₀ (by norm_num) (by omega)
    rw [zpow_neg_one] at this
    linarith
  have hr0 : 0 ≤ rnd p (s.frequency * s.timestamp) := by
    have := rnd_mono hp ht
    rwa [rnd_zero] at this
  have hf : fmod (rnd p (s.frequency * s.timestamp)) 1 = Int.fract (rnd p (s.frequency * s.timestamp)) := by
    unfold fmod
    rw [div_one, if_pos hr0, one_mul]
    rfl
  have hφ0 := Int.fract_nonneg (rnd p (s.frequency * s.timestamp))
  have hφ1 := Int.fract_lt_one (rnd p (s.frequency * s.timestamp))
  simp only [call, sawCall, advance_ok h.1, bind, Except.bind, pure, Except.pure, hf, sawWave]
  generalize Int.fract (rnd p (s.frequency * s.timestamp)) = φ at hφ0 hφ1
  generalize s.shape = w
  generalize s.amplitude = a
  by_cases hc : φ < w
  · have hw : 0 < w := lt_of_le_of_lt hφ0 hc
    rw [if_pos ⟨hw.ne', hc⟩, if_pos hc]
    refine ⟨_, _, rfl, ?_⟩
    have e1 := rnd_rel hpq (2 * φ)
    have e2 := rnd_rel hpq (rnd q (2 * φ) / w)
    have e1' : |rnd q (2 * φ) / w - 2 * (φ / w)| ≤ 2 ^ (-(p : ℤ)) * |2 * (φ / w)| := by
      rw [← mul_div_assoc 2 φ w, ← sub_div, abs_div, abs_div, ← mul_div_assoc]
      gcongr
    have e3 := rel_mul e1' e2 hu.le rfl
    have hx : φ / w ≤ 1 := (div_le_one hw).mpr hc.le
    have hx0 : 0 ≤ φ / w := div_nonneg hφ0 hw.le
    rw [neg_add_eq_sub]
    generalize φ / w = r at hx hx0 e3 ⊢
    generalize rnd q (rnd q (2 * φ) / w) = z at e3 ⊢
    rw [abs_of_nonneg (by linarith : 0 ≤ 2 * r)] at e3
    have huu : (2 : ℝ) ^ (-(p : ℤ)) * 2 ^ (-(p : ℤ)) ≤ 1 / 2 * 2 ^ (-(p : ℤ)) := mul_le_mul_of_nonneg_right hu2 hu.le
    have e4 : |z - 1 - (2 * r - 1)| ≤ 5 * 2 ^ (-(p : ℤ)) := by
      rw [sub_sub_sub_cancel_right]
      refine e3.trans ?_
      generalize (2 : ℝ) ^ (-(p : ℤ)) = u at hu hu2 huu
      have : ((1 + u) * (1 + u) - 1) * (2 * r) ≤ ((1 + u) * (1 + u) - 1) * 2 := by
        refine mul_le_mul_of_nonneg_left (by linarith) ?_
        have := mul_pos hu hu
        linarith
      linarith
    have := tail_err hp hpq (a := a) e4 (abs_le.mpr ⟨by linarith, by linarith⟩) (by norm_num)
    refine this.trans ?_
    have := mul_nonneg hu.le (abs_nonneg a)
    linarith
  · have hw : w < 1 := lt_of_le_of_lt (not_lt.mp hc) hφ1
    rw [if_neg (fun h => hc h.2), if_pos ⟨hw.ne, not_lt.mp hc⟩, if_neg hc]
    refine ⟨_, _, rfl, ?_⟩
    have hw' : 0 < 1 - w := by linarith
    have huu : (2 : ℝ) ^ (-(p : ℤ)) * 2 ^ (-(p : ℤ)) ≤ 1 / 2 * 2 ^ (-(p : ℤ)) := mul_le_mul_of_nonneg_right hu2 hu.le
    have e1 := rnd_rel hpq (φ - w)
    have e2 := rnd_rel hpq (-2 * rnd q (φ - w))
    have e1' : |-2 * rnd q (φ - w) - -2 * (φ - w)| ≤ 2 ^ (-(p : ℤ)) * |-2 * (φ - w)| := by
      rw [← mul_sub, abs_mul, abs_mul (-2)]
      have := mul_le_mul_of_nonneg_left e1 (abs_nonneg (-2 : ℝ))
      linarith
    have e3 := rel_mul e1' e2 hu.le rfl
    have ed := rnd_err p (1 - w)
    rw [abs_of_pos hw'] at ed
    have hd : 0 < rnd p (1 - w) := by
      have := (abs_le.mp ed).1
      have := mul_le_mul_of_nonneg_right hu2 hw'.le
      linarith
    have e4 : |rnd q (-2 * rnd q (φ - w)) / rnd p (1 - w) - rnd q (-2 * rnd q (φ - w)) / (1 - w)|
        ≤ 2 * 2 ^ (-(p : ℤ)) * |rnd q (-2 * rnd q (φ - w)) / (1 - w)| := by
      generalize rnd q (-2 * rnd q (φ - w)) = b
      generalize rnd p (1 - w) = c at ed hd
      generalize 1 - w = m at ed hw'
      have e : b / c - b / m = b / m * ((m - c) / c) := by field_simp
      rw [e, abs_mul, mul_comm]
      refine mul_le_mul_of_nonneg_right ?_ (abs_nonneg _)
      rw [abs_div, abs_of_pos hd, div_le_iff₀ hd, abs_sub_comm]
      refine ed.trans ?_
      have hmc : m ≤ 2 * c := by
        have := (abs_le.mp ed).1
        have := mul_le_mul_of_nonneg_right hu2 hw'.le
        linarith
      have := mul_le_mul_of_nonneg_left hmc hu.le
      linarith
    have e3' : |rnd q (-2 * rnd q (φ - w)) / (1 - w) - -2 * ((φ - w) / (1 - w))|
        ≤ ((1 + 2 ^ (-(p : ℤ))) * (1 + 2 ^ (-(p : ℤ))) - 1) * |-2 * ((φ - w) / (1 - w))| := by
      rw [← mul_div_assoc (-2) (φ - w) (1 - w), ← sub_div, abs_div, abs_div, ← mul_div_assoc]
      gcongr
    have e5 := rel_mul e3' e4 (by positivity) rfl
    have e6 := rel_mul e5 (rnd_rel hpq (rnd q (-2 * rnd q (φ - w)) / rnd p (1 - w))) hu.le rfl
    have hx : (φ - w) / (1 - w) ≤ 1 := (div_le_one hw').mpr (by linarith)
    have hx0 : 0 ≤ (φ - w) / (1 - w) := div_nonneg (by linarith [not_lt.mp hc]) hw'.le
    generalize (φ - w) / (1 - w) = r at hx hx0 e6
    generalize rnd q (rnd q (-2 * rnd q (φ - w)) / rnd p (1 - w)) = z at e6 ⊢
    have e7 : |z + 1 - (1 - 2 * r)| ≤ 23 * 2 ^ (-(p : ℤ)) := by
      rw [show z + 1 - (1 - 2 * r) = z - -2 * r by ring]
      refine e6.trans ?_
      rw [show -2 * r = -(2 * r) by ring, abs_neg, abs_of_nonneg (by linarith : 0 ≤ 2 * r)]
      generalize (2 : ℝ) ^ (-(p : ℤ)) = u at hu hu2 huu
      have h3 : u * u * u ≤ 1 / 4 * u := by
        have := mul_le_mul_of_nonneg_right huu hu.le
        linarith
      have h4 : u * u * u * u ≤ 1 / 8 * u := by
        have := mul_le_mul_of_nonneg_right h3 hu.le
        linarith
      have hk : (1 + ((1 + ((1 + u) * (1 + u) - 1)) * (1 + 2 * u) - 1)) * (1 + u) - 1 ≤ 23 / 2 * u := by
        have : (1 + ((1 + ((1 + u) * (1 + u) - 1)) * (1 + 2 * u) - 1)) * (1 + u) - 1
            = 5 * u + 9 * (u * u) + 7 * (u * u * u) + 2 * (u * u * u * u) := by ring
        rw [this]
        linarith
      have := mul_le_mul hk (by linarith : 2 * r ≤ 2) (by linarith) (by linarith)
      linarith
    have := tail_err hp hpq (a := a) e7 (abs_le.mpr ⟨by linarith, by linarith⟩) (by norm_num)
    refine this.trans ?_
    have := mul_nonneg hu.le (abs_nonneg a)
    linarith

/-- **C93**, the samples of the square wave, `T` the rounded period: exactly the amplitude from `shape` to the end of each
period of the clock, and its negative before.
Missing: the clock (`C93_stop_violates`); the two halves are exchanged (`C27`). -/
theorem C93_square_partial {p : ℕ} (q : ℕ) (sine : ℝ → ℝ) {d T : ℝ} {s : State} (h : Running .square d s)
    (hT : s.inverseFrequency = some T) (hT0 : 0 < T) (ht : 0 ≤ s.timestamp) (ha : IsFloat p s.amplitude) :
    ∃ x s', call p q sine .square s = .ok (x, s') ∧
      x = if s.shape ≤ T * Int.fract (s.timestamp / T) then s.amplitude else -s.amplitude := by
  have hf : fmod s.timestamp T = T * Int.fract (s.timestamp / T) := by
    unfold fmod Int.fract
    rw [if_pos (div_nonneg ht hT0.le), mul_sub, mul_div_cancel₀ _ hT0.ne']
  refine ⟨_, _, by
    simp only [call, squareCall, advance_ok h.1, hT, finite, bind, Except.bind, pure, Except.pure]
    rfl, ?_⟩
  rw [hf]
  by_cases hc : s.shape ≤ T * Int.fract (s.timestamp / T)
  · rw [if_pos hc, if_pos hc, one_mul, rnd_float ha]
  · rw [if_neg hc, if_neg hc, neg_one_mul, rnd_neg, rnd_float ha]

/-- **C93**, the samples of the sine: if the sine of the library has an error of at most `η`, the sample differs from the
sine of the phase `2 π f t + φ` by at most `(1 + u) (η + ((1 + u)^4 - 1) (2 π f t + |φ|)) + u` times the amplitude,
`u = 2^-p`.
Missing: a bound that does not grow with the clock, and the clock itself (`C93_stop_violates`). -/
theorem C93_sine_partial (p q : ℕ) {sine : ℝ → ℝ} {η : ℝ} (hs : ∀ z, |sine z - Real.sin z| ≤ η) {d : ℝ} {s : State}
    (h : Running .sin d s) :
    ∃ x s', call p q sine .sin s = .ok (x, s') ∧
      |x - s.amplitude * sineWave s.phase (s.frequency * s.timestamp)|
        ≤ ((1 + 2 ^ (-(p : ℤ))) * (η + ((1 + 2 ^ (-(p : ℤ))) ^ 4 - 1)
            * (|2 * Real.pi * (s.frequency * s.timestamp)| + |s.phase|)) + 2 ^ (-(p : ℤ))) * |s.amplitude| := by
  have hu := two_zpow_pos (-(p : ℤ))
  refine ⟨_, _, by
    simp only [call, sinCall, advance_ok h.1, bind, Except.bind, pure, Except.pure]
    rfl, ?_⟩
  unfold sineWave
  generalize s.frequency = f
  generalize s.timestamp = t
  generalize s.phase = φ
  generalize s.amplitude = a
  have e1 := rnd_err p (2 * Real.pi)
  have e1' : |rnd p (2 * Real.pi) * f - 2 * Real.pi * f| ≤ 2 ^ (-(p : ℤ)) * |2 * Real.pi * f| := by
    rw [← sub_mul, abs_mul, abs_mul _ f, ← mul_assoc]
    exact mul_le_mul_of_nonneg_right e1 (abs_nonneg f)
  have e2 := rel_mul e1' (rnd_err p (rnd p (2 * Real.pi) * f)) hu.le rfl
  have e2' : |rnd p (rnd p (2 * Real.pi) * f) * t - 2 * Real.pi * f * t|
      ≤ ((1 + 2 ^ (-(p : ℤ))) * (1 + 2 ^ (-(p : ℤ))) - 1) * |2 * Real.pi * f * t| := by
    rw [← sub_mul, abs_mul, abs_mul _ t, ← mul_assoc]
    exact mul_le_mul_of_nonneg_right e2 (abs_nonneg t)
  have e3 := rel_mul e2' (rnd_err p (rnd p (rnd p (2 * Real.pi) * f) * t)) hu.le rfl
  rw [mul_assoc (2 * Real.pi) f t] at e3
  generalize rnd p (rnd p (rnd p (2 * Real.pi) * f) * t) = z at e3
  generalize 2 * Real.pi * (f * t) = y at e3
  have e4 := rnd_err p (z + φ)
  have hz : |z + φ| ≤ |z - y| + |y| + |φ| := by
    have h1 := abs_add_le z φ
    have h2 := abs_add_le (z - y) y
    rw [sub_add_cancel] at h2
    linarith
  have e5 : |rnd p (z + φ) - (y + φ)| ≤ ((1 + 2 ^ (-(p : ℤ))) ^ 4 - 1) * (|y| + |φ|) := by
    have h1 := abs_sub_le (rnd p (z + φ)) (z + φ) (y + φ)
    rw [add_sub_add_right_eq_sub] at h1
    have h2 := mul_le_mul_of_nonneg_left hz hu.le
    generalize (2 : ℝ) ^ (-(p : ℤ)) = u at *
    have h3 := mul_le_mul_of_nonneg_left e3 (by linarith : 0 ≤ 1 + u)
    have h4 : u * |φ| ≤ ((1 + u) ^ 4 - 1) * |φ| := by
      refine mul_le_mul_of_nonneg_right ?_ (abs_nonneg φ)
      have : (1 + u) ^ 4 - 1 = u + (3 * u + 6 * u ^ 2 + 4 * u ^ 3 + u ^ 4) := by ring
      have h5 : 0 ≤ 3 * u + 6 * u ^ 2 + 4 * u ^ 3 + u ^ 4 := by positivity
      linarith
    linarith
  have e6 : |sine (rnd p (z + φ)) - Real.sin (y + φ)| ≤ η + ((1 + 2 ^ (-(p : ℤ))) ^ 4 - 1) * (|y| + |φ|) := by
    have h1 := abs_sub_le (sine (rnd p (z + φ))) (Real.sin (rnd p (z + φ))) (Real.sin (y + φ))
    have h2 := hs (rnd p (z + φ))
    have h3 := Real.abs_sin_sub_sin_le (rnd p (z + φ)) (y + φ)
    linarith
  generalize η + ((1 + 2 ^ (-(p : ℤ))) ^ 4 - 1) * (|y| + |φ|) = E at e6 ⊢
  have e7 : |sine (rnd p (z + φ)) * a - a * Real.sin (y + φ)| ≤ E * |a| := by
    rw [mul_comm a, ← sub_mul, abs_mul]
    exact mul_le_mul_of_nonneg_right e6 (abs_nonneg a)
  have h8 : |a * Real.sin (y + φ)| ≤ |a| := by
    rw [abs_mul]
    exact mul_le_of_le_one_right (abs_nonneg a) (Real.abs_sin_le_one _)
  refine (round_more (le_refl p) e7 h8).trans (le_of_eq ?_)
  ring

/-- A sawtooth of 440 Hz in `float` after one sample. -/
example (sine : ℝ → ℝ) {d : ℝ} (hd : 0 ≤ d) : ∃ x s',
    call 24 53 sine .saw { oscillator 24 1 44100 440 0 with samplingPeriod := some d, timestamp := d } = .ok (x, s') ∧
      |x - 1 * sawWave 0 (rnd 24 (440 * d))| ≤ 83 * 2 ^ (-((24 : ℕ) : ℤ)) * |(1 : ℝ)| :=
  C93_saw_partial (by norm_num) (by norm_num) sine (d := d) ⟨rfl, by simp⟩ (mul_nonneg (by norm_num [oscillator]) hd)

/-- A square wave of 1/2 Hz. -/
example (sine : ℝ → ℝ) : ∃ x s', call 24 53 sine .square { oscillator 24 1 1 1 0 with
      samplingPeriod := some 1, inverseFrequency := some 2, shape := 1, timestamp := 3 } = .ok (x, s') ∧
      x = if (1 : ℝ) ≤ 2 * Int.fract (3 / 2 : ℝ) then 1 else -1 :=
  C93_square_partial 53 sine (d := 1) (T := 2) ⟨rfl, by simp⟩ rfl (by norm_num) (by norm_num)
    ⟨1, 0, by norm_num, by norm_num [oscillator]⟩

end Edsp.Rounded
