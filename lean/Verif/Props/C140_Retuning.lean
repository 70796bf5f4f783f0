import Verif.Spec.Tone
import Verif.Props.C39_Oscillators
import Verif.Props.C06_Biquad
import Verif.Lemmas.RoundedBiquad
import Verif.Lemmas.Perturbation

/-!
# C140: settings changed while an oscillator or a filter is running
-/

namespace Edsp.C140
open Edsp.Spec Edsp.Osc Edsp.C39
open Edsp.Rounded (CoeffLe exact_bound)

/-! ### Oscillators -/

/-- The two waveforms whose frequency can be changed (that of a square oscillator cannot, C40). -/
inductive Voice | sin | saw

/-- The class of the oscillator. -/
def Voice.kind : Voice → Kind
  | .sin => .sin
  | .saw => .saw

/-- The waveform. -/
noncomputable def Voice.wave : Voice → ℝ → ℝ → ℝ
  | .sin => sineWave
  | .saw => sawWave

/-- The member functions behind the events: `set_phase` of a sine is its shape, `set_width` that of a sawtooth. -/
def Voice.op : Voice → Knob → Op
  | _, .sample => .call
  | _, .frequency f => .setFrequency f
  | _, .amplitude a => .setAmplitude a
  | .sin, .shape v => .setPhase v
  | .saw, .shape v => .setShape v
  | _, .rate r => .setSampleRate r
  | _, .restart => .reset

/-- A newly constructed oscillator. -/
noncomputable def Voice.new (dbg : Bool) (v : Voice) (a r f w : ℝ) : Except Fault State :=
  match v with
  | .sin => .ok (sinOscillator a r f w)
  | .saw => sawtoothOscillator dbg a r f w

/-- The samples returned by a sequence of calls. -/
noncomputable def played (dbg : Bool) (v : Voice) : State → List Knob → Except Fault (List ℝ)
  | _, [] => .ok []
  | s, k :: ks => do
    let (x, s') ← step dbg v.kind s (v.op k)
    return x.toList ++ (← played dbg v s' ks)

/-- Arguments in range: positive sample rates; for a sawtooth a width in [0, 1] and a frequency that is not negative. -/
def InRange : Voice → Knob → Prop
  | _, .rate r => 0 < r
  | .saw, .frequency f => 0 ≤ f
  | .saw, .shape w => 0 ≤ w ∧ w ≤ 1
  | _, _ => True

/-- The frequency is only changed before the first sample or the first one after a restart; `start` tells whether this
is such a moment. -/
def Calm : Bool → List Knob → Prop
  | _, [] => True
  | _, .sample :: ks => Calm false ks
  | _, .restart :: ks => Calm true ks
  | start, .frequency _ :: ks => start = true ∧ Calm start ks
  | start, _ :: ks => Calm start ks

/-- The oscillator `s` sounds like the tone `t`. -/
structure Sounds (v : Voice) (s : State) (t : Tone) : Prop where
  inv : Inv s
  amplitude : s.amplitude = t.amplitude
  rate : s.sampleRate = t.rate
  positive : 0 < t.rate
  frequency : s.frequency = t.frequency
  frequency0 : v = .saw → 0 ≤ s.frequency
  time0 : 0 ≤ s.timestamp
  sinShape : v = .sin → s.phase = t.shape
  sawShape : v = .saw → s.shape = t.shape
  width : v = .saw → 0 ≤ s.shape ∧ s.shape ≤ 1
  position : t.position = s.frequency * s.timestamp

theorem Sounds.ready {v : Voice} {s : State} {t : Tone} (h : Sounds v s t) : Ready v.kind s := by
  cases v with
  | sin => trivial
  | saw => exact ⟨h.time0, h.frequency0 rfl, h.width rfl⟩

theorem Sounds.expected_eq {v : Voice} {s : State} {t : Tone} (h : Sounds v s t) :
    expected v.kind s s.timestamp = t.amplitude * v.wave t.shape t.position := by
  cases v with
  | sin => simp only [Voice.kind, expected, Voice.wave, h.amplitude, h.sinShape rfl, h.position]
  | saw => simp only [Voice.kind, expected, Voice.wave, h.amplitude, h.sawShape rfl, h.position]

/-- One event, the frequency excepted. -/
theorem Sounds.step_ok {dbg : Bool} {v : Voice} {s : State} {t : Tone} (h : Sounds v s t) {k : Knob} (hk : InRange v k)
    (hf : ∀ f, k = .frequency f → s.timestamp = 0) :
    ∃ s', step dbg v.kind s (v.op k) = .ok ((t.step v.wave k).1, s') ∧ Sounds v s' (t.step v.wave k).2 ∧
      (k ≠ .sample → s.timestamp = 0 → s'.timestamp = 0) ∧ (k = .restart → s'.timestamp = 0) ∧
      (k = .sample → s'.timestamp = s.timestamp + 1 / t.rate) := by
  have hrn : s.sampleRate ≠ 0 := by rw [h.rate]; exact h.positive.ne'
  have hr : 0 < s.sampleRate := by rw [h.rate]; exact h.positive
  cases k with
  | sample =>
    have e := call_value h.inv hrn h.ready
    refine ⟨{ s with timestamp := s.timestamp + 1 / s.sampleRate }, ?_, ?_, fun g => absurd rfl g, nofun, fun _ => by rw [h.rate]⟩
    · cases v <;>
      · simp only [Voice.op, step, Tone.step, ← h.expected_eq]
        rw [e]
        rfl
    · have hp : 0 ≤ 1 / s.sampleRate := by positivity
      refine ⟨h.inv, h.amplitude, h.rate, h.positive, h.frequency, h.frequency0, by have := h.time0; dsimp only; linarith,
        h.sinShape, h.sawShape, h.width, ?_⟩
      simp only [Tone.step]
      rw [h.position, ← h.frequency, ← h.rate]
      ring
  | frequency f =>
    have h0 := hf f rfl
    refine ⟨{ s with frequency := f }, by cases v <;> rfl, ?_, fun _ g => g, nofun, nofun⟩
    refine ⟨h.inv, h.amplitude, h.rate, h.positive, rfl, ?_, h.time0, h.sinShape, h.sawShape, h.width, ?_⟩
    · rintro rfl; exact hk
    · have := h.position
      rw [h0] at this
      simp only [Tone.step, h0, this, mul_zero]
  | amplitude a =>
    exact ⟨{ s with amplitude := a }, by cases v <;> rfl, ⟨h.inv, rfl, h.rate, h.positive, h.frequency, h.frequency0,
      h.time0, h.sinShape, h.sawShape, h.width, h.position⟩, fun _ g => g, nofun, nofun⟩
  | shape w =>
    cases v with
    | sin =>
      exact ⟨{ s with phase := w }, rfl, ⟨h.inv, h.amplitude, h.rate, h.positive, h.frequency, h.frequency0,
        h.time0, fun _ => rfl, nofun, nofun, h.position⟩, fun _ g => g, nofun, nofun⟩
    | saw =>
      refine ⟨{ s with shape := w }, ?_, ⟨h.inv, h.amplitude, h.rate, h.positive, h.frequency, h.frequency0,
        h.time0, nofun, fun _ => rfl, fun _ => hk, h.position⟩, fun _ g => g, nofun, nofun⟩
      have : ¬ (dbg = true ∧ ¬ (w ≥ 0 ∧ w ≤ 1)) := fun g => g.2 ⟨hk.1, hk.2⟩
      simp only [Voice.op, Voice.kind, step, setWidth, if_neg this, bind, Except.bind, pure, Except.pure, Tone.step]
  | rate r =>
    exact ⟨{ s with sampleRate := r, samplingPeriod := inv? r }, by cases v <;> rfl, ⟨rfl, h.amplitude, rfl,
      (by cases v <;> exact hk), h.frequency, h.frequency0, h.time0, h.sinShape, h.sawShape, h.width, h.position⟩, fun _ g => g, nofun, nofun⟩
  | restart =>
    exact ⟨{ s with timestamp := 0 }, by cases v <;> rfl, ⟨h.inv, h.amplitude, h.rate, h.positive, h.frequency,
      h.frequency0, le_rfl, h.sinShape, h.sawShape, h.width, by simp [Tone.step]⟩, fun _ _ => rfl, fun _ => rfl, nofun⟩

theorem played_calm {dbg : Bool} {v : Voice} {ks : List Knob} (hk : ∀ k ∈ ks, InRange v k) {s : State} {t : Tone}
    (h : Sounds v s t) {start : Bool} (hs : start = true → s.timestamp = 0) (hc : Calm start ks) :
    played dbg v s ks = .ok (t.samples v.wave ks) := by
  induction ks generalizing s t start with
  | nil => rfl
  | cons k ks ih =>
    have hf : ∀ f, k = .frequency f → s.timestamp = 0 := by
      rintro f rfl
      exact hs hc.1
    obtain ⟨s', e, h', h1, h2, -⟩ := h.step_ok (dbg := dbg) (hk k List.mem_cons_self) hf
    have hk' := fun x hx => hk x (List.mem_cons_of_mem _ hx)
    have : played dbg v s' ks = .ok (Tone.samples v.wave (t.step v.wave k).2 ks) := by
      cases k with
      | sample => exact ih hk' h' (start := false) nofun hc
      | restart => exact ih hk' h' (start := true) (fun _ => h2 rfl) hc
      | frequency f => exact ih hk' h' (start := start) (fun g => h1 nofun (hs g)) hc.2
      | amplitude a => exact ih hk' h' (start := start) (fun g => h1 nofun (hs g)) hc
      | shape w => exact ih hk' h' (start := start) (fun g => h1 nofun (hs g)) hc
      | rate r => exact ih hk' h' (start := start) (fun g => h1 nofun (hs g)) hc
    simp only [played, e, this, bind, Except.bind, pure, Except.pure, Tone.samples]

/-- The arguments of a constructor in range. -/
def NewInRange : Voice → ℝ → ℝ → Prop
  | .sin, _, _ => True
  | .saw, f, w => 0 ≤ f ∧ 0 ≤ w ∧ w ≤ 1

theorem new_sounds {dbg : Bool} {v : Voice} {a r f w : ℝ} (hr : 0 < r) (hn : NewInRange v f w) :
    ∃ s, v.new dbg a r f w = .ok s ∧ s.timestamp = 0 ∧ Sounds v s ⟨a, r, f, w, 0⟩ := by
  cases v with
  | sin =>
    exact ⟨_, rfl, rfl, rfl, rfl, rfl, hr, rfl, nofun, le_rfl, fun _ => rfl, nofun, nofun,
      by simp [sinOscillator, base]⟩
  | saw =>
    have : ¬ (dbg = true ∧ ¬ (w ≥ 0 ∧ w ≤ 1)) := fun g => g.2 ⟨hn.2.1, hn.2.2⟩
    refine ⟨{ base a r f 0 with shape := w }, ?_, rfl, rfl, rfl, rfl, hr, rfl, fun _ => hn.1, le_rfl, nofun,
      fun _ => rfl, fun _ => hn.2, by simp [base]⟩
    simp only [Voice.new, sawtoothOscillator, setWidth, if_neg this, bind, Except.bind, pure, Except.pure]

/-- **C140, oscillators**: whatever is set while an oscillator runs, amplitude, phase or width, sample rate, it sounds
like the tone that goes on from where it is with the new setting, as long as the frequency is set at the start or after
a reset only.  Missing: the frequency of a running oscillator, for which it is false. -/
theorem C140_tone_partial (dbg : Bool) (v : Voice) {a r f w : ℝ} (hr : 0 < r) (hn : NewInRange v f w) {ks : List Knob}
    (hk : ∀ k ∈ ks, InRange v k) (hc : Calm true ks) :
    ∃ s, v.new dbg a r f w = .ok s ∧ played dbg v s ks = .ok (Tone.samples v.wave ⟨a, r, f, w, 0⟩ ks) := by
  obtain ⟨s, e, h0, h⟩ := new_sounds (dbg := dbg) (a := a) hr hn
  exact ⟨s, e, played_calm hk h (fun _ => h0) hc⟩

/-- A sine that is turned down and shifted while it sounds, restarted and retuned. -/
example : ∃ s, Voice.sin.new true 1 8 1 0 = .ok s ∧
    played true .sin s [.sample, .amplitude (1 / 2), .sample, .shape 1, .rate 16, .sample, .restart, .frequency 2, .sample,
      .sample] = .ok (Tone.samples sineWave ⟨1, 8, 1, 0, 0⟩ [.sample, .amplitude (1 / 2), .sample, .shape 1, .rate 16,
        .sample, .restart, .frequency 2, .sample, .sample]) := by
  refine C140_tone_partial true .sin (by norm_num) trivial ?_ ⟨rfl, trivial⟩
  intro k hk
  simp only [List.mem_cons, List.not_mem_nil, or_false] at hk
  rcases hk with rfl | rfl | rfl | rfl | rfl | rfl | rfl | rfl | rfl | rfl <;> first | trivial | (show (0 : ℝ) < 16; norm_num)

theorem played_samples {dbg : Bool} {v : Voice} (n : ℕ) {s : State} {t : Tone} (h : Sounds v s t) :
    ∃ s', Sounds v s' { t with position := t.position + n * (t.frequency / t.rate) } ∧
      s'.timestamp = s.timestamp + n / t.rate ∧
      ∀ ks ys, played dbg v s' ks = .ok ys →
        played dbg v s (List.replicate n .sample ++ ks) = .ok (t.samples v.wave (List.replicate n .sample) ++ ys) := by
  induction n generalizing s t with
  | zero => exact ⟨s, by simpa using h, by simp, fun ks ys hy => by simpa [Tone.samples] using hy⟩
  | succ n ih =>
    obtain ⟨s1, e, h1, -, -, h3⟩ := h.step_ok (dbg := dbg) (k := .sample) (by cases v <;> trivial) nofun
    have e1 := h3 rfl
    obtain ⟨s2, h2, ht2, hp⟩ := ih h1
    refine ⟨s2, ?_, ?_, fun ks ys hy => ?_⟩
    · have ep : t.position + ((n + 1 : ℕ) : ℝ) * (t.frequency / t.rate) =
          t.position + t.frequency / t.rate + n * (t.frequency / t.rate) := by push_cast; ring
      rw [ep]
      exact h2
    · rw [ht2, e1]
      simp only [Tone.step]
      push_cast
      ring
    · have := hp ks ys hy
      simp only [List.replicate_succ, List.cons_append, played, e, this, bind, Except.bind, pure, Except.pure,
        Tone.samples, List.append_assoc]

theorem tone_samples (wave : ℝ → ℝ → ℝ) (n : ℕ) (t : Tone) (ks : List Knob) :
    t.samples wave (List.replicate n .sample ++ ks) = t.samples wave (List.replicate n .sample) ++
      Tone.samples wave { t with position := t.position + n * (t.frequency / t.rate) } ks := by
  induction n generalizing t with
  | zero => simp [Tone.samples]
  | succ n ih =>
    have ep : t.position + ((n + 1 : ℕ) : ℝ) * (t.frequency / t.rate) =
        t.position + t.frequency / t.rate + n * (t.frequency / t.rate) := by push_cast; ring
    rw [ep]
    simp only [List.replicate_succ, List.cons_append, Tone.samples, ih, List.append_assoc]
    rfl

/-- After `set_frequency` the oscillator sounds like a tone at another position. -/
theorem Sounds.retune {v : Voice} {s : State} {t : Tone} (h : Sounds v s t) {F : ℝ} (hF : InRange v (.frequency F)) :
    Sounds v { s with frequency := F } { t with frequency := F, position := F * s.timestamp } :=
  ⟨h.inv, h.amplitude, h.rate, h.positive, rfl, (by rintro rfl; exact hF), h.time0, h.sinShape, h.sawShape, h.width, rfl⟩

theorem played_frequency (dbg : Bool) (v : Voice) (s : State) (F : ℝ) (ks : List Knob) :
    played dbg v s (.frequency F :: ks) = played dbg v { s with frequency := F } ks := by
  have e : step dbg v.kind s (v.op (.frequency F)) = .ok (none, { s with frequency := F }) := by cases v <;> rfl
  simp only [played, e, bind, Except.bind, pure, Except.pure, Option.toList_none, List.nil_append]
  cases played dbg v { s with frequency := F } ks <;> rfl

theorem played_retune {dbg : Bool} {v : Voice} {s : State} {t : Tone} (h : Sounds v s t) {F : ℝ}
    (hF : InRange v (.frequency F)) :
    ∃ s', Sounds v s' { t with frequency := F, position := F * s'.timestamp } ∧
      s'.timestamp = s.timestamp + 1 / t.rate ∧ ∀ ks ys, played dbg v s' ks = .ok ys →
        played dbg v s (.frequency F :: .sample :: ks) = .ok (t.amplitude * v.wave t.shape (F * s.timestamp) :: ys) := by
  obtain ⟨s2, h2, ht2, hp⟩ := played_samples (dbg := dbg) 1 (h.retune hF)
  refine ⟨s2, ?_, ?_, fun ks ys hy => ?_⟩
  · convert h2 using 2
    rw [ht2]
    simp only [Nat.cast_one]
    ring
  · rw [ht2]; simp
  · rw [played_frequency]
    exact hp ks ys hy

theorem sine_half (φ p : ℝ) : sineWave φ (p + 1 / 2) = -sineWave φ p := by
  unfold sineWave
  rw [show 2 * Real.pi * (p + 1 / 2) + φ = 2 * Real.pi * p + φ + Real.pi by ring, Real.sin_add_pi]

theorem triangle_half (p : ℝ) : sawWave (1 / 2) (p + 1 / 2) = -sawWave (1 / 2) p := by
  have h0 := Int.fract_nonneg p
  have h1 := Int.fract_lt_one p
  unfold sawWave
  by_cases hc : Int.fract p < 1 / 2
  · have e : Int.fract (p + 1 / 2) = Int.fract p + 1 / 2 := by
      rw [Int.fract_eq_iff]
      exact ⟨by linarith, by linarith, ⌊p⌋, by rw [Int.fract]; ring⟩
    rw [e, if_neg (by linarith), if_pos hc]
    ring
  · have e : Int.fract (p + 1 / 2) = Int.fract p - 1 / 2 := by
      rw [Int.fract_eq_iff]
      exact ⟨by linarith, by linarith, ⌊p⌋ + 1, by rw [Int.fract]; push_cast; ring⟩
    rw [e, if_pos (by linarith), if_neg hc]
    ring

/-- **C140, frequency violated**: after `n` samples of a sine or a triangle, raising the frequency by `r / (2n)`, ever
less as `n` grows, turns the signal over: the next sample is the negative of that of the tone that goes on. -/
theorem C140_frequency_violates (dbg : Bool) (v : Voice) {a r f w : ℝ} (hr : 0 < r) (hn : NewInRange v f w)
    (hw : v = .saw → w = 1 / 2) {n : ℕ} (h0 : 0 < n) :
    ∃ s xs y, v.new dbg a r f w = .ok s ∧
      played dbg v s (List.replicate n .sample ++ [.frequency (f + r / (2 * n)), .sample]) = .ok (xs ++ [-y]) ∧
      Tone.samples v.wave ⟨a, r, f, w, 0⟩ (List.replicate n .sample ++ [.frequency (f + r / (2 * n)), .sample]) = xs ++ [y] ∧
      y = a * v.wave w (f * (n / r)) := by
  have hnr : (0 : ℝ) < n := by exact_mod_cast h0
  obtain ⟨s, e, ht, h⟩ := new_sounds (dbg := dbg) (a := a) hr hn
  obtain ⟨s1, h1, ht1, hp⟩ := played_samples (dbg := dbg) n h
  have hF : InRange v (.frequency (f + r / (2 * n))) := by
    cases v with
    | sin => trivial
    | saw => exact add_nonneg hn.1 (by positivity)
  obtain ⟨s2, h2, ht2, hq⟩ := played_retune (dbg := dbg) h1 hF
  have half : v.wave w (f * (n / r) + 1 / 2) = -v.wave w (f * (n / r)) := by
    cases v with
    | sin => exact sine_half w _
    | saw => rw [hw rfl]; exact triangle_half _
  have e1 : (f + r / (2 * n)) * s1.timestamp = f * (n / r) + 1 / 2 := by
    rw [ht1, ht]
    field_simp
    ring
  have e2 : f * (n / r) = n * (f / r) := by ring
  refine ⟨s, Tone.samples v.wave ⟨a, r, f, w, 0⟩ (List.replicate n .sample), a * v.wave w (f * (n / r)), e, ?_, ?_, rfl⟩
  · rw [hp _ _ (hq [] [] rfl)]
    dsimp only
    rw [e1, half, mul_neg]
  · rw [tone_samples]
    simp only [Tone.samples, Tone.step, Option.toList_none, Option.toList_some, List.nil_append, List.append_nil, zero_add,
      e2]

/-- At 8 kHz, after 800 samples of 1 kHz: 5 Hz more. -/
example : ∃ s xs, Voice.sin.new true 1 8000 1000 (Real.pi / 2) = .ok s ∧
    played true .sin s (List.replicate 800 .sample ++ [.frequency 1005, .sample]) = .ok (xs ++ [-1]) ∧
    Tone.samples sineWave ⟨1, 8000, 1000, Real.pi / 2, 0⟩ (List.replicate 800 .sample ++ [.frequency 1005, .sample]) =
      xs ++ [1] := by
  obtain ⟨s, xs, y, h1, h2, h3, h4⟩ := C140_frequency_violates true .sin (a := 1) (r := 8000) (f := 1000)
    (w := Real.pi / 2) (by norm_num) trivial nofun (n := 800) (by norm_num)
  have hy : y = 1 := by
    rw [h4]
    simp only [Voice.wave, sineWave, one_mul]
    rw [show 2 * Real.pi * (1000 * (((800 : ℕ) : ℝ) / 8000)) + Real.pi / 2 = Real.pi / 2 + (100 : ℕ) * (2 * Real.pi) by
      push_cast; ring, Real.sin_add_nat_mul_two_pi, Real.sin_pi_div_two]
  have hf : (1000 : ℝ) + 8000 / (2 * ((800 : ℕ) : ℝ)) = 1005 := by norm_num
  rw [hy, hf] at h2 h3
  exact ⟨s, xs, h1, h2, h3⟩

theorem osc_sweep {dbg : Bool} {v : Voice} {f c : ℝ} (hF : ∀ τ : ℝ, 0 ≤ τ → InRange v (.frequency (f + c * τ))) (n m : ℕ)
    {s : State} {t : Tone} (h : Sounds v s t) (ht : s.timestamp = m / t.rate) :
    played dbg v s ((List.range' m n).flatMap fun i : ℕ => [.frequency (f + c * (i / t.rate)), .sample]) =
      .ok ((List.range' m n).map fun i : ℕ => t.amplitude * v.wave t.shape (f * (i / t.rate) + c * (i / t.rate) ^ 2)) := by
  induction n generalizing s t m with
  | zero => rfl
  | succ n ih =>
    have hr := h.positive
    obtain ⟨s', h', ht', hp⟩ := played_retune (dbg := dbg) h (hF (m / t.rate) (by positivity))
    have := ih (m + 1) h' (by rw [ht', ht]; push_cast; ring)
    rw [List.range'_succ, List.flatMap_cons, List.map_cons, List.cons_append, List.cons_append, List.nil_append,
      hp _ _ this, ht]
    congr 4
    ring

theorem tone_sweep (wave : ℝ → ℝ → ℝ) {f c : ℝ} (n m : ℕ) {t : Tone} (hr : t.rate ≠ 0)
    (hp : t.position = f * (m / t.rate) + c * (m / t.rate) ^ 2) :
    t.samples wave ((List.range' m n).flatMap fun i : ℕ => [.frequency (f + c / t.rate + 2 * c * (i / t.rate)), .sample]) =
      (List.range' m n).map fun i : ℕ => t.amplitude * wave t.shape (f * (i / t.rate) + c * (i / t.rate) ^ 2) := by
  induction n generalizing t m with
  | zero => rfl
  | succ n ih =>
    rw [List.range'_succ, List.flatMap_cons, List.map_cons, List.cons_append, List.cons_append, List.nil_append]
    simp only [Tone.samples, Tone.step, Option.toList_none, Option.toList_some, List.nil_append, List.cons_append, hp]
    congr 1
    refine ih (m + 1) (t := ⟨t.amplitude, t.rate, f + c / t.rate + 2 * c * (m / t.rate), t.shape,
      f * (m / t.rate) + c * (m / t.rate) ^ 2 + (f + c / t.rate + 2 * c * (m / t.rate)) / t.rate⟩) hr ?_
    dsimp only
    push_cast
    field_simp
    ring

/-- **C140, sweeps violated**: a sweep that sets the frequency to `f + c t` before the sample at time `t` is not the tone
of these frequencies but that of `f + 2 c t` (half a sample later): it ends twice as far away as asked for. -/
theorem C140_sweep_violates (dbg : Bool) (v : Voice) {a r f0 w f c : ℝ} (hr : 0 < r) (hn : NewInRange v f0 w)
    (hv : v = .saw → 0 ≤ f ∧ 0 ≤ c) (n : ℕ) :
    ∃ s, v.new dbg a r f0 w = .ok s ∧
      played dbg v s (sweep r f c n) = .ok (Tone.samples v.wave ⟨a, r, f0, w, 0⟩ (sweep r (f + c / r) (2 * c) n)) := by
  obtain ⟨s, e, ht, h⟩ := new_sounds (dbg := dbg) (a := a) hr hn
  refine ⟨s, e, ?_⟩
  unfold sweep
  rw [List.range_eq_range']
  have hF : ∀ τ : ℝ, 0 ≤ τ → InRange v (.frequency (f + c * τ)) := by
    intro τ hτ
    cases v with
    | sin => trivial
    | saw => exact add_nonneg (hv rfl).1 (mul_nonneg (hv rfl).2 hτ)
  have h1 := osc_sweep (dbg := dbg) hF n 0 h (by rw [ht]; simp)
  have h2 := tone_sweep v.wave (f := f) (c := c) n 0 (t := ⟨a, r, f0, w, 0⟩) hr.ne' (by simp)
  dsimp only at h1 h2
  rw [h1, h2]

/-- One second from 100 Hz to 1100 Hz at 48 kHz is a sweep to 2100 Hz. -/
example : ∃ s, Voice.sin.new true 1 48000 100 0 = .ok s ∧
    played true .sin s (sweep 48000 100 1000 48000) =
      .ok (Tone.samples sineWave ⟨1, 48000, 100, 0, 0⟩ (sweep 48000 (100 + 1000 / 48000) 2000 48000)) := by
  have := C140_sweep_violates true .sin (a := 1) (r := 48000) (f0 := 100) (w := 0) (f := 100) (c := 1000) (by norm_num)
    trivial nofun 48000
  norm_num at this ⊢
  exact this

/-- **C140, frequency with the phase made up for**: setting the frequency of a running sine and adding
`2π (old - new) · timestamp` to its phase gives the tone that goes on with the new frequency. -/
theorem C140_compensated_partial {dbg : Bool} {s : State} (hreach : Reachable dbg .sin s) (hr : 0 < s.sampleRate) (f : ℝ)
    (n : ℕ) :
    ∃ s1 s2 s3, step dbg .sin s (.setFrequency f) = .ok (none, s1) ∧
      step dbg .sin s1 (.setPhase (s.phase + 2 * Real.pi * ((s.frequency - f) * s.timestamp))) = .ok (none, s2) ∧
      gen .sin n s2 = .ok (Tone.samples sineWave ⟨s.amplitude, s.sampleRate, f, s.phase, s.frequency * s.timestamp⟩
        (List.replicate n .sample), s3) := by
  have hinv : Inv s := reachable_inv hreach
  let s2 : State := { s with frequency := f, phase := s.phase + 2 * Real.pi * ((s.frequency - f) * s.timestamp) }
  refine ⟨_, s2, { s2 with timestamp := s2.timestamp + n / s2.sampleRate }, rfl, rfl,
    (gen_value (k := .sin) n (s := s2) hinv hr trivial).trans ?_⟩
  · congr 2
    have key : ∀ (n : ℕ) (p : ℝ), Tone.samples sineWave ⟨s.amplitude, s.sampleRate, f, s.phase, p⟩
        (List.replicate n .sample) =
        (List.range n).map fun i : ℕ => s.amplitude * sineWave s.phase (p + f * (i / s.sampleRate)) := by
      intro n
      induction n with
      | zero => intro p; rfl
      | succ n ih =>
        intro p
        rw [List.replicate_succ, List.range_succ_eq_map, List.map_cons, List.map_map]
        simp only [Tone.samples, Tone.step, Option.toList_some, List.cons_append, List.nil_append, ih]
        congr 1
        · simp
        · apply List.map_congr_left
          intro i _
          simp only [Function.comp]
          congr 2
          push_cast
          ring
    rw [key]
    apply List.map_congr_left
    intro i _
    simp only [expected, sineWave]
    congr 2
    ring

/-- A sine of 440 Hz that has returned one sample. -/
example : ∃ s, Reachable true .sin s ∧ 0 < s.sampleRate ∧ s.frequency = 440 ∧ s.timestamp = 1 / 48000 := by
  refine ⟨{ sinOscillator 1 48000 440 0 with timestamp := 1 / 48000 },
    ⟨sinOscillator 1 48000 440 0, [.call], ⟨1, 48000, 440, 0, rfl⟩, ?_⟩, ?_, rfl, rfl⟩
  · have h : Inv (sinOscillator 1 48000 440 0) := rfl
    have := call_value (k := .sin) h (by norm_num [sinOscillator, base]) trivial
    simp only [run, step, bind, Except.bind, pure, Except.pure, this]
    norm_num [sinOscillator, base]
  · norm_num [sinOscillator, base]

/-! ### Filters -/

/-- What can be done to a running filter. -/
inductive Turn
  | sample (x : ℝ)
  | b0 (v : ℝ) | b1 (v : ℝ) | b2 (v : ℝ) | a1 (v : ℝ) | a2 (v : ℝ)

/-- One call: the output, if any, and the filter afterwards. -/
noncomputable def turn (f : Biquad ℝ) : Turn → Option ℝ × Biquad ℝ
  | .sample x => (some (f.tick x).2, (f.tick x).1)
  | .b0 v => (none, f.setB0 v)
  | .b1 v => (none, f.setB1 v)
  | .b2 v => (none, f.setB2 v)
  | .a1 v => (none, f.setA1 v)
  | .a2 v => (none, f.setA2 v)

/-- The outputs of a sequence of calls. -/
noncomputable def outputs : Biquad ℝ → List Turn → List ℝ
  | _, [] => []
  | f, t :: ts => (turn f t).1.toList ++ outputs (turn f t).2 ts

/-- All samples are at most `X`, and whenever one is filtered the coefficients are at most `S` and the poles at most
`1 - 1/k` from the origin. -/
def Tuned (S k X : ℝ) : Biquad ℝ → List Turn → Prop
  | _, [] => True
  | f, t :: ts => (∀ x, t = .sample x → |x| ≤ X ∧ CoeffLe f S ∧ ∀ z : ℂ, z ^ 2 + f.a1 * z + f.a2 = 0 → ‖z‖ ≤ 1 - 1 / k) ∧
      Tuned S k X (turn f t).2 ts

/-- A filter that has filtered `n` samples since it was silent. -/
structure Since (X : ℝ) (f : Biquad ℝ) (g : Biquad ℝ) (x : ℕ → ℝ) (n : ℕ) : Prop where
  w0 : g.w0 = 0
  w1 : g.w1 = 0
  bound : ∀ i, |x i| ≤ X
  state : f = g.stateAt x n

theorem stateAt_congr (g : Biquad ℝ) {x y : ℕ → ℝ} (n : ℕ) (h : ∀ i < n, x i = y i) : g.stateAt x n = g.stateAt y n := by
  induction n with
  | zero => rfl
  | succ n ih => rw [Biquad.stateAt, Biquad.stateAt, ih (fun i hi => h i (by omega)), h n (by omega)]

/-- **C140, retuned filters stay bounded**: whatever coefficients of a running filter are set, and however often, as long
as the filter is stable by a margin `1/k` whenever a sample comes, its output is bounded by a constant times the largest
sample. -/
theorem C140_bounded {S k X : ℝ} (hk : 1 ≤ k) {f : Biquad ℝ} (h0 : f.w0 = 0) (h1 : f.w1 = 0)
    {ts : List Turn} (ht : Tuned S k X f ts) : ∀ y ∈ outputs f ts, |y| ≤ 17 * S ^ 3 * k ^ 2 * X := by
  by_cases hX : 0 ≤ X
  · suffices ∀ (ts : List Turn) (f g : Biquad ℝ) (x : ℕ → ℝ) (n : ℕ), Since X f g x n → Tuned S k X f ts →
        ∀ y ∈ outputs f ts, |y| ≤ 17 * S ^ 3 * k ^ 2 * X from
      this ts f f (fun _ => 0) 0 ⟨h0, h1, fun _ => by simpa using hX, rfl⟩ ht
    intro ts
    induction ts with
    | nil => intro f g x n _ _ y hy; simp [outputs] at hy
    | cons t ts ih =>
      intro f g x n hs ht y hy
      rw [outputs, List.mem_append] at hy
      obtain ⟨h2, h3⟩ := ht
      have fresh : ∀ f' : Biquad ℝ, f'.w0 = 0 → f'.w1 = 0 → Tuned S k X f' ts →
          ∀ y ∈ outputs f' ts, |y| ≤ 17 * S ^ 3 * k ^ 2 * X := fun f' e0 e1 ht' =>
        ih f' f' (fun _ => 0) 0 ⟨e0, e1, fun _ => by simpa using hX, rfl⟩ ht'
      cases t with
      | sample v =>
        obtain ⟨hv, hS, hpole⟩ := h2 v rfl
        let x' : ℕ → ℝ := fun i => if i < n then x i else v
        have hx' : ∀ i, |x' i| ≤ X := by
          intro i
          dsimp only [x']
          split_ifs
          · exact hs.bound i
          · exact hv
        have hst : f = g.stateAt x' n := by
          rw [hs.state]
          exact stateAt_congr g n fun i hi => by simp [x', hi]
        have hxn : x' n = v := by simp [x']
        rcases hy with hy | hy
        · simp only [turn, Option.toList_some, List.mem_singleton] at hy
          have hcoef := Biquad.stateAt_coeffs g x' n
          rw [← hst] at hcoef
          have hSg : CoeffLe g S := by
            obtain ⟨c1, c2, c3, c4, c5, -⟩ := hcoef
            obtain ⟨s0, s1, s2, s3, s4, s5⟩ := hS
            exact ⟨s0, by rwa [← c1], by rwa [← c2], by rwa [← c3], by rwa [← c4], by rwa [← c5]⟩
          have hpg : ∀ z : ℂ, z ^ 2 + g.a1 * z + g.a2 = 0 → ‖z‖ ≤ 1 - 1 / k := by
            obtain ⟨c1, c2, c3, c4, c5, -⟩ := hcoef
            rw [← c4, ← c5]
            exact hpole
          obtain ⟨p, q, e1, e2, e3, e4, e5, e6⟩ := PerturbL.split_radius hk hpg
          have hb := exact_bound hSg e1 e2 e3 e4 e5 e6 hk hs.w0 hs.w1 hx' n
          rw [← hst, hxn] at hb
          have hS1 := hS.one
          have e : y = f.b0 * v + f.w0 := hy
          rw [e]
          refine (abs_add_le _ _).trans ?_
          rw [abs_mul]
          have b1 : |f.b0| * |v| ≤ S * |v| := mul_le_mul_of_nonneg_right hS.b0 (abs_nonneg _)
          have b2 : |f.w0| ≤ S * |f.w0| := le_mul_of_one_le_left (abs_nonneg _) hS1
          have b3 : 0 ≤ S * |f.w1| := by positivity
          have b4 := mul_le_mul_of_nonneg_left hb (show 0 ≤ S by linarith)
          have b5 : S * (17 * S ^ 2 * k ^ 2 * X) = 17 * S ^ 3 * k ^ 2 * X := by ring
          rw [b5] at b4
          linarith
        · refine ih (f.tick v).1 g x' (n + 1) ⟨hs.w0, hs.w1, hx', ?_⟩ h3 y hy
          rw [Biquad.stateAt, ← hst, hxn]
      | b0 v => exact fresh _ rfl rfl h3 y (hy.resolve_left (by simp [turn]))
      | b1 v => exact fresh _ rfl rfl h3 y (hy.resolve_left (by simp [turn]))
      | b2 v => exact fresh _ rfl rfl h3 y (hy.resolve_left (by simp [turn]))
      | a1 v => exact fresh _ rfl rfl h3 y (hy.resolve_left (by simp [turn]))
      | a2 v => exact fresh _ rfl rfl h3 y (hy.resolve_left (by simp [turn]))
  · -- without samples there is no output
    suffices ∀ (ts : List Turn) (f : Biquad ℝ), Tuned S k X f ts → outputs f ts = [] by
      rw [this ts f ht]; simp
    intro ts
    induction ts with
    | nil => intro f _; rfl
    | cons t ts ih =>
      intro f ⟨h2, h3⟩
      cases t with
      | sample v => exact absurd ((abs_nonneg v).trans (h2 v rfl).1) hX
      | b0 v => exact ih _ h3
      | b1 v => exact ih _ h3
      | b2 v => exact ih _ h3
      | a1 v => exact ih _ h3
      | a2 v => exact ih _ h3

/-- The coefficients of a filter, each set to the value it has. -/
def sameAgain (f : Biquad ℝ) : List Turn := [.b0 f.b0, .b1 f.b1, .b2 f.b2, .a1 f.a1, .a2 f.a2]

/-- **C140, filters violated**: setting a coefficient to the value it already has is heard: what the filter holds is
thrown away, and the output jumps by it. -/
theorem C140_setter_violates (f : Biquad ℝ) (x : ℝ) {t : Turn} (ht : t ∈ sameAgain f) :
    ∃ y, outputs f [.sample x] = [y] ∧ outputs f [t, .sample x] = [y - f.w0] := by
  refine ⟨f.b0 * x + f.w0, rfl, ?_⟩
  simp only [sameAgain, List.mem_cons, List.not_mem_nil, or_false] at ht
  rcases ht with rfl | rfl | rfl | rfl | rfl <;>
    simp [outputs, turn, Biquad.setB0, Biquad.setB1, Biquad.setB2, Biquad.setA1, Biquad.setA2, Biquad.reset, Biquad.tick]

/-- A one-pole low-pass and a constant input: 1/2, 3/4, and with `set_b0(b0())` in between 1/2 again. -/
example : ∃ f : Biquad ℝ, Biquad.ofCoeffs 1 (-1 / 2) 0 (1 / 2) 0 0 = .ok f ∧
    outputs f [.sample 1, .sample 1] = [1 / 2, 3 / 4] ∧
    outputs f [.sample 1, .b0 (1 / 2), .sample 1] = [1 / 2, 1 / 2] := by
  refine ⟨_, by unfold Biquad.ofCoeffs; rw [if_neg one_ne_zero], ?_, ?_⟩ <;>
    norm_num [outputs, turn, Biquad.setB0, Biquad.reset, Biquad.tick]

/-- **C140, what setting does to a filter**: after any coefficient was set, the outputs are those of a filter newly
constructed with the coefficients, whatever went before. -/
theorem C140_forgets (f : Biquad ℝ) (w0 w1 : ℝ) {t : Turn} (ht : ∀ x, t ≠ .sample x) (ts : List Turn) :
    outputs f (t :: ts) = outputs { f with w0 := w0, w1 := w1 } (t :: ts) := by
  cases t with
  | sample x => exact absurd rfl (ht x)
  | b0 v => rfl
  | b1 v => rfl
  | b2 v => rfl
  | a1 v => rfl
  | a2 v => rfl

/-- A low-pass whose pole is moved to and fro, sample by sample. -/
example : ∃ f : Biquad ℝ, Biquad.ofCoeffs 1 (-1 / 2) 0 (1 / 2) 0 0 = .ok f ∧ f.w0 = 0 ∧ f.w1 = 0 ∧
    Tuned 1 2 1 f [.sample 1, .a1 (1 / 2), .sample (-1), .a1 0, .sample 1] := by
  refine ⟨_, by unfold Biquad.ofCoeffs; rw [if_neg one_ne_zero], rfl, rfl, ?_⟩
  have pole : ∀ a : ℝ, |a| ≤ 1 / 2 → ∀ z : ℂ, z ^ 2 + (a : ℂ) * z + ((0 : ℝ) : ℂ) = 0 → ‖z‖ ≤ 1 - 1 / 2 := by
    intro a ha z hz
    have : z * (z + a) = 0 := by
      rw [Complex.ofReal_zero, add_zero] at hz
      rw [← hz]; ring
    rcases mul_eq_zero.mp this with h | h
    · rw [h]; norm_num
    · rw [eq_neg_of_add_eq_zero_left h, norm_neg, Complex.norm_real, Real.norm_eq_abs]
      linarith
  refine ⟨fun x hx => ?_, nofun, fun x hx => ?_, nofun, fun x hx => ?_, trivial⟩
  all_goals
    cases hx
    refine ⟨by norm_num, ⟨le_rfl, ?_, ?_, ?_, ?_, ?_⟩, ?_⟩
    all_goals
      first
      | (norm_num [turn, Biquad.setA1, Biquad.reset, Biquad.tick, abs_le]; done)
      | (simp only [turn, Biquad.setA1, Biquad.reset, Biquad.tick, zero_div]; exact pole _ (by norm_num [abs_le]))

end Edsp.C140
