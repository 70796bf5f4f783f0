import Verif.Lemmas.Units
import Verif.Model.Features

/-!
# C129: the unit of time
-/

namespace Edsp.C129

open Edsp.Spec Edsp.UnitsL

/-- **C129 (RBJ and Zoelzer designs).**  The filter depends on the frequency and the sample rate only through their ratio:
multiplying both by any factor that is not zero gives the same coefficients, or the same fault. -/
theorem C129_biquads {c : ℝ} (hc : c ≠ 0) :
    (∀ fc fs Q, Rbj.lowPass (c * fc) (c * fs) Q = Rbj.lowPass fc fs Q) ∧
    (∀ fc fs Q, Rbj.highPass (c * fc) (c * fs) Q = Rbj.highPass fc fs Q) ∧
    (∀ fc fs Q, Rbj.bandPass (c * fc) (c * fs) Q = Rbj.bandPass fc fs Q) ∧
    (∀ fc fs Q, Rbj.allPass (c * fc) (c * fs) Q = Rbj.allPass fc fs Q) ∧
    (∀ fc fs Q g, Rbj.lowShelf (c * fc) (c * fs) Q g = Rbj.lowShelf fc fs Q g) ∧
    (∀ fc fs Q g, Rbj.highShelf (c * fc) (c * fs) Q g = Rbj.highShelf fc fs Q g) ∧
    (∀ fc fs Q, Zoelzer.lowPass (c * fc) (c * fs) Q = Zoelzer.lowPass fc fs Q) ∧
    (∀ fc fs Q, Zoelzer.highPass (c * fc) (c * fs) Q = Zoelzer.highPass fc fs Q) ∧
    (∀ fc fs Q, Zoelzer.bandPass (c * fc) (c * fs) Q = Zoelzer.bandPass fc fs Q) ∧
    (∀ fc fs g, Zoelzer.lowShelf (c * fc) (c * fs) g = Zoelzer.lowShelf fc fs g) ∧
    (∀ fc fs g, Zoelzer.highShelf (c * fc) (c * fs) g = Zoelzer.highShelf fc fs g) := by
  refine ⟨?_, ?_, ?_, ?_, ?_, ?_, ?_, ?_, ?_, ?_, ?_⟩
  · intro fc fs Q; unfold Rbj.lowPass; rw [mul_left_comm, fdiv_unit hc]
  · intro fc fs Q; unfold Rbj.highPass; rw [mul_left_comm, fdiv_unit hc]
  · intro fc fs Q; unfold Rbj.bandPass; rw [mul_left_comm, fdiv_unit hc]
  · intro fc fs Q; unfold Rbj.allPass; rw [mul_left_comm, fdiv_unit hc]
  · intro fc fs Q g; unfold Rbj.lowShelf; rw [mul_left_comm, fdiv_unit hc]
  · intro fc fs Q g; unfold Rbj.highShelf; rw [mul_left_comm, fdiv_unit hc]
  · intro fc fs Q; unfold Zoelzer.lowPass; rw [mul_left_comm, fdiv_unit hc]
  · intro fc fs Q; unfold Zoelzer.highPass; rw [mul_left_comm, fdiv_unit hc]
  · intro fc fs Q; unfold Zoelzer.bandPass; rw [mul_left_comm, fdiv_unit hc]
  · intro fc fs g; unfold Zoelzer.lowShelf; rw [mul_left_comm, fdiv_unit hc]
  · intro fc fs g; unfold Zoelzer.highShelf; rw [mul_left_comm, fdiv_unit hc]

/-- A low pass filter at 1 kHz for 48 kHz is the one at 1 for 48. -/
example : Rbj.lowPass 1000 48000 2 = Rbj.lowPass 1 48 2 := by
  have := (C129_biquads (c := 1000) (by norm_num)).1 1 48 2
  norm_num at this
  exact this

/-- **C129 (Butterworth and Chebyshev designs).**  The same for the cascades, of any order; a band width is multiplied
too. -/
theorem C129_cascades {c : ℝ} (hc : c ≠ 0) :
    (∀ dbg N n fs fc, Butterworth.lowPass dbg N n (c * fs) (c * fc) = Butterworth.lowPass dbg N n fs fc) ∧
    (∀ dbg N n fs fc, Butterworth.highPass dbg N n (c * fs) (c * fc) = Butterworth.highPass dbg N n fs fc) ∧
    (∀ dbg N n fs fc g, Butterworth.lowShelf dbg N n (c * fs) (c * fc) g = Butterworth.lowShelf dbg N n fs fc g) ∧
    (∀ dbg N n fs fc g, Butterworth.highShelf dbg N n (c * fs) (c * fc) g = Butterworth.highShelf dbg N n fs fc g) ∧
    (∀ dbg N n fs fc bw, Butterworth.bandPass dbg N n (c * fs) (c * fc) (c * bw) = Butterworth.bandPass dbg N n fs fc bw) ∧
    (∀ dbg N n fs fc bw, Butterworth.bandStop dbg N n (c * fs) (c * fc) (c * bw) = Butterworth.bandStop dbg N n fs fc bw) ∧
    (∀ dbg N n fs fc bw g, Butterworth.bandShelf dbg N n (c * fs) (c * fc) (c * bw) g =
      Butterworth.bandShelf dbg N n fs fc bw g) ∧
    (∀ dbg N n fs fc e, ChebyshevI.lowPass dbg N n (c * fs) (c * fc) e = ChebyshevI.lowPass dbg N n fs fc e) ∧
    (∀ dbg N n fs fc e, ChebyshevI.highPass dbg N n (c * fs) (c * fc) e = ChebyshevI.highPass dbg N n fs fc e) ∧
    (∀ dbg N n fs fc g e, ChebyshevI.lowShelf dbg N n (c * fs) (c * fc) g e = ChebyshevI.lowShelf dbg N n fs fc g e) ∧
    (∀ dbg N n fs fc g e, ChebyshevI.highShelf dbg N n (c * fs) (c * fc) g e = ChebyshevI.highShelf dbg N n fs fc g e) ∧
    (∀ dbg N n fs fc bw e, ChebyshevI.bandPass dbg N n (c * fs) (c * fc) (c * bw) e = ChebyshevI.bandPass dbg N n fs fc bw e) ∧
    (∀ dbg N n fs fc bw e, ChebyshevI.bandStop dbg N n (c * fs) (c * fc) (c * bw) e = ChebyshevI.bandStop dbg N n fs fc bw e) ∧
    (∀ dbg N n fs fc bw g e, ChebyshevI.bandShelf dbg N n (c * fs) (c * fc) (c * bw) g e =
      ChebyshevI.bandShelf dbg N n fs fc bw g e) ∧
    (∀ dbg N n fs fc e, ChebyshevII.lowPass dbg N n (c * fs) (c * fc) e = ChebyshevII.lowPass dbg N n fs fc e) ∧
    (∀ dbg N n fs fc e, ChebyshevII.highPass dbg N n (c * fs) (c * fc) e = ChebyshevII.highPass dbg N n fs fc e) ∧
    (∀ dbg N n fs fc g e, ChebyshevII.lowShelf dbg N n (c * fs) (c * fc) g e = ChebyshevII.lowShelf dbg N n fs fc g e) ∧
    (∀ dbg N n fs fc g e, ChebyshevII.highShelf dbg N n (c * fs) (c * fc) g e = ChebyshevII.highShelf dbg N n fs fc g e) ∧
    (∀ dbg N n fs fc bw e, ChebyshevII.bandPass dbg N n (c * fs) (c * fc) (c * bw) e = ChebyshevII.bandPass dbg N n fs fc bw e) ∧
    (∀ dbg N n fs fc bw e, ChebyshevII.bandStop dbg N n (c * fs) (c * fc) (c * bw) e = ChebyshevII.bandStop dbg N n fs fc bw e) ∧
    (∀ dbg N n fs fc bw g e, ChebyshevII.bandShelf dbg N n (c * fs) (c * fc) (c * bw) g e =
      ChebyshevII.bandShelf dbg N n fs fc bw g e) := by
  refine ⟨?_, ?_, ?_, ?_, ?_, ?_, ?_, ?_, ?_, ?_, ?_, ?_, ?_, ?_, ?_, ?_, ?_, ?_, ?_, ?_, ?_⟩
  · intro dbg N n fs fc; unfold Butterworth.lowPass; rw [fdiv_unit hc]
  · intro dbg N n fs fc; unfold Butterworth.highPass; rw [fdiv_unit hc]
  · intro dbg N n fs fc g; unfold Butterworth.lowShelf; rw [fdiv_unit hc]
  · intro dbg N n fs fc g; unfold Butterworth.highShelf; rw [fdiv_unit hc]
  · intro dbg N n fs fc bw; unfold Butterworth.bandPass; rw [fdiv_unit hc, fdiv_unit hc]
  · intro dbg N n fs fc bw; unfold Butterworth.bandStop; rw [fdiv_unit hc, fdiv_unit hc]
  · intro dbg N n fs fc bw g; unfold Butterworth.bandShelf; rw [fdiv_unit hc, fdiv_unit hc]
  · intro dbg N n fs fc e; unfold ChebyshevI.lowPass; rw [fdiv_unit hc]
  · intro dbg N n fs fc e; unfold ChebyshevI.highPass; rw [fdiv_unit hc]
  · intro dbg N n fs fc g e; unfold ChebyshevI.lowShelf; rw [fdiv_unit hc]
  · intro dbg N n fs fc g e; unfold ChebyshevI.highShelf; rw [fdiv_unit hc]
  · intro dbg N n fs fc bw e; unfold ChebyshevI.bandPass; rw [fdiv_unit hc, fdiv_unit hc]
  · intro dbg N n fs fc bw e; unfold ChebyshevI.bandStop; rw [fdiv_unit hc, fdiv_unit hc]
  · intro dbg N n fs fc bw g e; unfold ChebyshevI.bandShelf; rw [fdiv_unit hc, fdiv_unit hc]
  · intro dbg N n fs fc e; unfold ChebyshevII.lowPass; rw [fdiv_unit hc]
  · intro dbg N n fs fc e; unfold ChebyshevII.highPass; rw [fdiv_unit hc]
  · intro dbg N n fs fc g e; unfold ChebyshevII.lowShelf; rw [fdiv_unit hc]
  · intro dbg N n fs fc g e; unfold ChebyshevII.highShelf; rw [fdiv_unit hc]
  · intro dbg N n fs fc bw e; unfold ChebyshevII.bandPass; rw [fdiv_unit hc, fdiv_unit hc]
  · intro dbg N n fs fc bw e; unfold ChebyshevII.bandStop; rw [fdiv_unit hc, fdiv_unit hc]
  · intro dbg N n fs fc bw g e; unfold ChebyshevII.bandShelf; rw [fdiv_unit hc, fdiv_unit hc]

/-- A Butterworth low pass filter of order 4. -/
example : Butterworth.lowPass true 4 4 48000 1000 = Butterworth.lowPass true 4 4 48 1 := by
  have := (C129_cascades (c := 1000) (by norm_num)).1 true 4 4 48 1
  norm_num at this
  exact this

/-- **C129 (oscillators).**  An oscillator with the sample rate and the frequency multiplied by a positive factor gives,
for every history of calls in that unit, exactly the samples of the original, and fails where it fails. -/
theorem C129_oscillators {c : ℝ} (hc : 0 < c) (dbg : Bool) (A r f : ℝ) (ops : List Osc.Op) :
    (∀ ph, heard (Osc.step dbg .sin) (Osc.sinOscillator A (c * r) (c * f) ph) (ops.map (oscUnit c)) =
      heard (Osc.step dbg .sin) (Osc.sinOscillator A r f ph) ops) ∧
    (∀ d, (∃ e, Osc.squareOscillator dbg A r f d = .error e ∧ Osc.squareOscillator dbg A (c * r) (c * f) d = .error e) ∨
      ∃ s t, Osc.squareOscillator dbg A r f d = .ok s ∧ Osc.squareOscillator dbg A (c * r) (c * f) d = .ok t ∧
        heard (Osc.step dbg .square) t (ops.map (oscUnit c)) = heard (Osc.step dbg .square) s ops) ∧
    (∀ w, (∃ e, Osc.sawtoothOscillator dbg A r f w = .error e ∧ Osc.sawtoothOscillator dbg A (c * r) (c * f) w = .error e) ∨
      ∃ s t, Osc.sawtoothOscillator dbg A r f w = .ok s ∧ Osc.sawtoothOscillator dbg A (c * r) (c * f) w = .ok t ∧
        heard (Osc.step dbg .saw) t (ops.map (oscUnit c)) = heard (Osc.step dbg .saw) s ops) := by
  refine ⟨fun ph => ?_, fun d => ?_, fun w => ?_⟩
  · unfold Osc.sinOscillator
    rw [base_unit hc .sin]
    exact osc_heard hc dbg .sin _ ops
  · unfold Osc.squareOscillator
    rw [base_unit hc .square, setDuty_unit]
    cases Osc.setDuty dbg (Osc.base A r f 0) d with
    | error e => exact Or.inl ⟨e, rfl, rfl⟩
    | ok s => exact Or.inr ⟨s, _, rfl, rfl, osc_heard hc dbg .square s ops⟩
  · unfold Osc.sawtoothOscillator
    rw [base_unit hc .saw, setWidth_unit]
    cases Osc.setWidth dbg (Osc.base A r f 0) w with
    | error e => exact Or.inl ⟨e, rfl, rfl⟩
    | ok s => exact Or.inr ⟨s, _, rfl, rfl, osc_heard hc dbg .saw s ops⟩

/-- A sine of 1 Hz at 4 Hz, heard twice, and one of 1 kHz at 4 kHz. -/
example : heard (Osc.step true .sin) (Osc.sinOscillator 1 4000 1000 0) [.call, .setTimestamp 0.0005, .call] =
    heard (Osc.step true .sin) (Osc.sinOscillator 1 4 1 0) [.call, .setTimestamp 0.5, .call] := by
  have := (C129_oscillators (c := 1000) (by norm_num) true 1 4 1 [.call, .setTimestamp 0.5, .call]).1 0
  simp only [List.map, oscUnit] at this
  norm_num at this ⊢
  exact this

/-- **C129 (ADSR).**  A fresh envelope that is told its sample rate and its three times gives, for every history of calls
in the other unit, the same samples. -/
theorem C129_adsr {c : ℝ} (hc : 0 < c) (dbg : Bool) (r a d e : ℝ) (ops : List Env.Adsr.Op) :
    heard (Env.Adsr.step dbg) Env.Adsr.init ((adsrTimes r a d e ++ ops).map (adsrUnit c)) =
      heard (Env.Adsr.step dbg) Env.Adsr.init (adsrTimes r a d e ++ ops) := by
  have hx : ∀ x : ℝ, Env.expects dbg (x / c > 0) = Env.expects dbg (x > 0) := fun x => by
    simp only [Env.expects, gt_iff_lt, div_pos_iff_of_pos_right hc]
  by_cases hr : r = 0
  · simp [heard, adsrTimes, adsrUnit, Env.Adsr.step, Env.Adsr.setSampleRate, Env.div, hr, bind, Except.bind]
  have hr' : c * r ≠ 0 := mul_ne_zero hc.ne' hr
  obtain ⟨b1, b2, b3, h1⟩ : ∃ b1 b2 b3, Env.Adsr.setSampleRate Env.Adsr.init r =
      .ok ⟨.idle, r, 0, 0, b1, b2, b3, -1, 0.5⟩ := by
    simp [Env.Adsr.setSampleRate, Env.Adsr.init, Env.div, hr, bind, Except.bind, pure, Except.pure]
  obtain ⟨c1, c2, c3, h2⟩ : ∃ b1 b2 b3, Env.Adsr.setSampleRate Env.Adsr.init (c * r) =
      .ok ⟨.idle, c * r, 0, 0, b1, b2, b3, -1, 0.5⟩ := by
    simp [Env.Adsr.setSampleRate, Env.Adsr.init, Env.div, hr', bind, Except.bind, pure, Except.pure]
  refine heard_step (Or.inr ⟨none, ⟨.idle, r, 0, 0, b1, b2, b3, -1, 0.5⟩, ⟨.idle, c * r, 0, 0, c1, c2, c3, -1, 0.5⟩, ?_, ?_, ?_⟩)
  · simp only [Env.Adsr.step, h1, bind, Except.bind, pure, Except.pure]
  · simp only [adsrUnit, Env.Adsr.step, h2, bind, Except.bind, pure, Except.pure]
  refine heard_step ?_
  simp only [adsrUnit, Env.Adsr.step, Env.Adsr.setAttackTime, hx, div_unit hc]
  cases Env.expects dbg (a > 0) with
  | error e => exact Or.inl ⟨e, rfl, rfl⟩
  | ok _ =>
  cases Env.div 1 (a * r) with
  | error e => exact Or.inl ⟨e, rfl, rfl⟩
  | ok ar =>
  refine Or.inr ⟨_, _, _, rfl, rfl, ?_⟩
  refine heard_step ?_
  simp only [adsrUnit, Env.Adsr.step, Env.Adsr.setDecayTime, hx, div_unit hc]
  cases Env.expects dbg (d > 0) with
  | error e => exact Or.inl ⟨e, rfl, rfl⟩
  | ok _ =>
  cases Env.div (1 - 0.5) (d * r) with
  | error e => exact Or.inl ⟨e, rfl, rfl⟩
  | ok dr =>
  refine Or.inr ⟨_, _, _, rfl, rfl, ?_⟩
  refine heard_step ?_
  simp only [adsrUnit, Env.Adsr.step, Env.Adsr.setReleaseTime, hx, div_unit hc]
  cases Env.expects dbg (e > 0) with
  | error e => exact Or.inl ⟨e, rfl, rfl⟩
  | ok _ =>
  cases Env.div 0.5 (e * r) with
  | error e => exact Or.inl ⟨e, rfl, rfl⟩
  | ok rr =>
  refine Or.inr ⟨_, _, _, rfl, rfl, ?_⟩
  exact heard_map (AdsrRel c) (adsrUnit c) (adsr_step hc dbg) ops ⟨.idle, r, 0, 0, ar, dr, rr, e, 0.5⟩
    ⟨.idle, c * r, 0, 0, ar, dr, rr, e / c, 0.5⟩ ⟨rfl, Or.inl rfl⟩

/-- An attack of half a second at 4 Hz, and of half a millisecond at 4 kHz. -/
example : heard (Env.Adsr.step true) Env.Adsr.init (adsrTimes 4000 0.0005 0.001 0.002 ++ [.keyOn, .sample 1, .sample 1]) =
    heard (Env.Adsr.step true) Env.Adsr.init (adsrTimes 4 0.5 1 2 ++ [.keyOn, .sample 1, .sample 1]) := by
  have := C129_adsr (c := 1000) (by norm_num) true 4 0.5 1 2 [.keyOn, .sample 1, .sample 1]
  simp only [adsrTimes, List.cons_append, List.nil_append, List.map, adsrUnit] at this ⊢
  norm_num at this ⊢
  exact this

/-- **C129 (attack/release follower).**  The same for a follower constructed in the other unit. -/
theorem C129_follower {c : ℝ} (hc : 0 < c) (tiny r a t : ℝ) (rect : Bool) (ops : List Env.Ar.Op) :
    ∃ s s', Env.Ar.make r a t rect = .ok s ∧ Env.Ar.make (c * r) (a / c) (t / c) rect = .ok s' ∧
      heard (arStep tiny) s' (ops.map (arUnit c)) = heard (arStep tiny) s ops := by
  refine ⟨⟨r, a, 0, t, 0, 0, rect⟩, ⟨c * r, a / c, 0, t / c, 0, 0, rect⟩, by simp [Env.Ar.make, Env.Ar.reset, bind, Except.bind, pure, Except.pure],
    by simp [Env.Ar.make, Env.Ar.reset, bind, Except.bind, pure, Except.pure], ?_⟩
  refine heard_map (fun s t => t = arState c s) (arUnit c) ?_ ops _ _ rfl
  rintro s t op rfl
  rw [ar_step hc]
  cases arStep tiny s op with
  | error e => exact Or.inl ⟨e, rfl, rfl⟩
  | ok r => exact Or.inr ⟨r.1, r.2, _, rfl, rfl, rfl⟩

/-- **C129 (durations).**  A duration is divided by the factor. -/
theorem C129_durations {c : ℝ} (hc : c ≠ 0) (xs : List ℝ) (r : ℝ) :
    Feature.duration xs (c * r) = (Feature.duration xs r).map (· / c) ∧
    ∀ threshold, Feature.effectiveDuration xs (c * r) threshold = (Feature.effectiveDuration xs r threshold).map (· / c) := by
  have h : ∀ a : ℝ, fdiv a (c * r) = (fdiv a r).map (· / c) := fun a => by
    unfold fdiv
    by_cases hr : r = 0
    · simp [hr, Except.map]
    · rw [if_neg hr, if_neg (mul_ne_zero hc hr), Except.map, div_div, mul_comm]
  refine ⟨h _, fun t => ?_⟩
  unfold Feature.effectiveDuration
  cases Seq.maxabs xs with
  | error e => rfl
  | ok m => exact h _

/-- **C129 (floating point).**  For a power of two the designs and oscillators do not change in a bit: RBJ filters with the
library functions `s`, `k`, `P` for the sine, the cosine and the power. -/
theorem C129_rbj_rounded (p : ℕ) {c : ℝ} (hc : Gain c) (s k P : ℝ → ℝ) :
    (∀ fc fs Q, RndRbj.lowPass p s k (c * fc) (c * fs) Q = RndRbj.lowPass p s k fc fs Q) ∧
    (∀ fc fs Q, RndRbj.highPass p s k (c * fc) (c * fs) Q = RndRbj.highPass p s k fc fs Q) ∧
    (∀ fc fs Q, RndRbj.bandPass p s k (c * fc) (c * fs) Q = RndRbj.bandPass p s k fc fs Q) ∧
    (∀ fc fs Q, RndRbj.allPass p s k (c * fc) (c * fs) Q = RndRbj.allPass p s k fc fs Q) ∧
    (∀ fc fs Q g, RndRbj.lowShelf p s k P (c * fc) (c * fs) Q g =
      RndRbj.lowShelf p s k P fc fs Q g) ∧
    (∀ fc fs Q g, RndRbj.highShelf p s k P (c * fc) (c * fs) Q g =
      RndRbj.highShelf p s k P fc fs Q g) := by
  refine ⟨?_, ?_, ?_, ?_, ?_, ?_⟩
  · intro fc fs Q; unfold RndRbj.lowPass; rw [omega_unit p hc]
  · intro fc fs Q; unfold RndRbj.highPass; rw [omega_unit p hc]
  · intro fc fs Q; unfold RndRbj.bandPass; rw [omega_unit p hc]
  · intro fc fs Q; unfold RndRbj.allPass; rw [omega_unit p hc]
  · intro fc fs Q g; unfold RndRbj.lowShelf; rw [omega_unit p hc]
  · intro fc fs Q g; unfold RndRbj.highShelf; rw [omega_unit p hc]

/-- **C129 (ADSR in floating point).**  The same samples, bit for bit, for a positive power of two. -/
theorem C129_adsr_rounded (p q : ℕ) {c : ℝ} (hg : Gain c) (hc : 0 < c) (dbg : Bool) (r a d e : ℝ) (ops : List Env.Adsr.Op) :
    heard (RoundedAdsr.step p q dbg) (RoundedAdsr.init p q) ((adsrTimes r a d e ++ ops).map (adsrUnit c)) =
      heard (RoundedAdsr.step p q dbg) (RoundedAdsr.init p q) (adsrTimes r a d e ++ ops) := by
  have hx : ∀ x : ℝ, Env.expects dbg (x / c > 0) = Env.expects dbg (x > 0) := fun x => by
    simp only [Env.expects, gt_iff_lt, div_pos_iff_of_pos_right hc]
  by_cases hr : r = 0
  · simp [heard, adsrTimes, adsrUnit, RoundedAdsr.step, RoundedAdsr.setSampleRate, RoundedAdsr.divT, Env.div, hr, bind, Except.bind]
  have hr' : c * r ≠ 0 := mul_ne_zero hc.ne' hr
  obtain ⟨b1, b2, b3, h1⟩ : ∃ b1 b2 b3, RoundedAdsr.setSampleRate p (RoundedAdsr.init p q) r =
      .ok ⟨.idle, r, 0, 0, b1, b2, b3, -1, 0.5⟩ := by
    simp [RoundedAdsr.setSampleRate, RoundedAdsr.init, RoundedAdsr.divT, Env.div, hr, bind, Except.bind, pure, Except.pure]
  obtain ⟨c1, c2, c3, h2⟩ : ∃ b1 b2 b3, RoundedAdsr.setSampleRate p (RoundedAdsr.init p q) (c * r) =
      .ok ⟨.idle, c * r, 0, 0, b1, b2, b3, -1, 0.5⟩ := by
    simp [RoundedAdsr.setSampleRate, RoundedAdsr.init, RoundedAdsr.divT, Env.div, hr', bind, Except.bind, pure, Except.pure]
  refine heard_step (Or.inr ⟨none, ⟨.idle, r, 0, 0, b1, b2, b3, -1, 0.5⟩, ⟨.idle, c * r, 0, 0, c1, c2, c3, -1, 0.5⟩, ?_, ?_, ?_⟩)
  · simp only [RoundedAdsr.step, h1, bind, Except.bind, pure, Except.pure]
  · simp only [adsrUnit, RoundedAdsr.step, h2, bind, Except.bind, pure, Except.pure]
  refine heard_step ?_
  simp only [adsrUnit, RoundedAdsr.step, RoundedAdsr.setAttackTime, hx, time_unit hc]
  cases Env.expects dbg (a > 0) with
  | error e => exact Or.inl ⟨e, rfl, rfl⟩
  | ok _ =>
  cases RoundedAdsr.divD p q 1 (rnd p (a * r)) with
  | error e => exact Or.inl ⟨e, rfl, rfl⟩
  | ok ar =>
  refine Or.inr ⟨_, _, _, rfl, rfl, ?_⟩
  refine heard_step ?_
  simp only [adsrUnit, RoundedAdsr.step, RoundedAdsr.setDecayTime, hx, time_unit hc]
  cases Env.expects dbg (d > 0) with
  | error e => exact Or.inl ⟨e, rfl, rfl⟩
  | ok _ =>
  cases RoundedAdsr.divD p q (rnd q (1 - 0.5)) (rnd p (d * r)) with
  | error e => exact Or.inl ⟨e, rfl, rfl⟩
  | ok dr =>
  refine Or.inr ⟨_, _, _, rfl, rfl, ?_⟩
  refine heard_step ?_
  simp only [adsrUnit, RoundedAdsr.step, RoundedAdsr.setReleaseTime, hx, time_unit hc]
  cases Env.expects dbg (e > 0) with
  | error e => exact Or.inl ⟨e, rfl, rfl⟩
  | ok _ =>
  cases RoundedAdsr.divT p 0.5 (rnd p (e * r)) with
  | error e => exact Or.inl ⟨e, rfl, rfl⟩
  | ok rr =>
  refine Or.inr ⟨_, _, _, rfl, rfl, ?_⟩
  exact heard_map (AdsrRel c) (adsrUnit c) (rounded_adsr_step p q hg hc dbg) ops ⟨.idle, r, 0, 0, ar, dr, rr, e, 0.5⟩
    ⟨.idle, c * r, 0, 0, ar, dr, rr, e / c, 0.5⟩ ⟨rfl, Or.inl rfl⟩

/-- **C129 (oscillators in floating point).**  An oscillator in any state and the same oscillator in the other unit give the
same samples, bit for bit, for a positive power of two; so do the constructed ones. -/
theorem C129_oscillators_rounded (p q : ℕ) {c : ℝ} (hg : Gain c) (hc : 0 < c) (sine : ℝ → ℝ) (k : Osc.Kind) (n : ℕ) :
    (∀ s : Osc.State, (Rounded.gen p q sine k n (oscState c k s)).map (·.1) = (Rounded.gen p q sine k n s).map (·.1)) ∧
    (∀ A r f ph : ℝ, Rounded.oscillator p A (c * r) (c * f) ph = oscState c k (Rounded.oscillator p A r f ph)) := by
  refine ⟨fun s => ?_, rounded_oscillator p hg k⟩
  rw [rounded_gen p q hg hc]
  cases Rounded.gen p q sine k n s <;> rfl

/-- A sine in `double` of 440 Hz at 44100 Hz, and of 110 Hz at 11025 Hz. -/
example (sine : ℝ → ℝ) : (Rounded.gen 53 53 sine .sin 1000 (Rounded.oscillator 53 1 44100 440 0)).map (·.1) =
    (Rounded.gen 53 53 sine .sin 1000 (Rounded.oscillator 53 1 11025 110 0)).map (·.1) := by
  have h := C129_oscillators_rounded 53 53 (c := 4) ⟨2, Or.inl (by norm_num)⟩ (by norm_num) sine .sin 1000
  rw [← h.1 (Rounded.oscillator 53 1 11025 110 0), ← h.2]
  norm_num

/-- **C129 (durations in floating point).** -/
theorem C129_durations_rounded (p q : ℕ) {c : ℝ} (hc : Gain c) (xs : List ℝ) (r : ℝ) :
    Rounded.duration p q xs (c * r) = (Rounded.duration p q xs r).map (· / c) ∧
    ∀ t, Rounded.effectiveDuration p q xs (c * r) t = (Rounded.effectiveDuration p q xs r t).map (· / c) := by
  have e : (fun x : ℝ => x / c) = (c⁻¹ * ·) := funext fun x => div_eq_inv_mul x c
  refine ⟨?_, fun t => ?_⟩
  · unfold Rounded.duration
    rw [GainL.quotient_under q hc, e]
  · unfold Rounded.effectiveDuration
    rw [GainL.rnd_gain p hc, e, ← GainL.quotient_under p hc]

open FloatL in
/-- **C129 is violated in floating point for other factors**: a rising sawtooth of 1 Hz at 2 Hz in `double` starts its second
period at -1, as it started the first; at 49 Hz and 98 Hz, where the product of the frequency and the accumulated time
is rounded to just below 1, it is at the other end of its range. -/
theorem C129_sawtooth_violates (sine : ℝ → ℝ) :
    (∃ a s, Rounded.gen 53 53 sine .saw 3 { Rounded.oscillator 53 1 2 1 0 with shape := 1 } = .ok ([-1, a, -1], s)) ∧
    (∃ a s, Rounded.gen 53 53 sine .saw 3 { Rounded.oscillator 53 1 98 49 0 with shape := 1 } =
      .ok ([-1, a, 1 - 2 ^ (-52 : ℤ)], s)) := by
  let v : ℝ → ℝ := fun x => rnd 53 (rnd 53 (1 * rnd 53 (rnd 53 (rnd 53 (2 * Osc.fmod (rnd 53 x) 1) / 1) - 1)))
  have i : ∀ (m : ℤ) (k : ℤ), |m| ≤ 2 ^ 53 → rnd 53 (m * 2 ^ k) = m * 2 ^ k := fun m k h =>
    rnd_float (isFloat_int (by norm_num) k h)
  have i0 : rnd 53 0 = 0 := rnd_zero 53
  have i1 : rnd 53 1 = 1 := by have := i 1 0 (by norm_num); simpa using this
  have i2 : rnd 53 (-1) = -1 := by have := i (-1) 0 (by norm_num); simpa using this
  have i3 : rnd 53 (1 / 2) = 1 / 2 := by have := i 1 (-1) (by norm_num); norm_num at this ⊢; exact this
  have f0 : Osc.fmod 0 1 = 0 := by simp [Osc.fmod]
  have f1 : Osc.fmod 1 1 = 0 := by simp [Osc.fmod]
  have lt : ∀ x : ℝ, 0 ≤ x → Osc.fmod x 1 < 1 := fun x hx => by
    simp only [Osc.fmod, div_one, if_pos hx, one_mul]
    linarith [Int.lt_floor_add_one x]
  have gen : ∀ f T r t1 t2 : ℝ, ∀ F, rnd 53 (0 + T) = t1 → rnd 53 (t1 + T) = t2 → 0 ≤ rnd 53 (f * 0) → 0 ≤ rnd 53 (f * t1) →
      0 ≤ rnd 53 (f * t2) → ∃ s, Rounded.gen 53 53 sine .saw 3 ⟨1, 0, r, some T, f, F, 0, 1⟩ = .ok
        ([v (f * 0), v (f * t1), v (f * t2)], s) := by
    intro f T r t1 t2 F e1 e2 h0 h1 h2
    refine ⟨⟨1, rnd 53 (t2 + T), r, some T, f, F, 0, 1⟩, ?_⟩
    simp only [Rounded.gen, Rounded.call, Rounded.sawCall, Rounded.advance, Osc.finite, bind, Except.bind, pure, Except.pure, e1]
    rw [if_pos ⟨one_ne_zero, lt _ h0⟩]
    simp only []
    rw [if_pos ⟨one_ne_zero, lt _ h1⟩]
    simp only [e2]
    rw [if_pos ⟨one_ne_zero, lt _ h2⟩]
  constructor
  · obtain ⟨s, hs⟩ := gen 1 (1 / 2) 2 (1 / 2) 1 (Rounded.inv 53 1) (by rw [zero_add, i3]) (by norm_num [i1]) (by simp [i0])
      (by rw [one_mul, i3]; norm_num) (by rw [one_mul, i1]; norm_num)
    refine ⟨v (1 * (1 / 2)), s, ?_⟩
    have e : ({ Rounded.oscillator 53 1 2 1 0 with shape := 1 } : Osc.State) = ⟨1, 0, 2, some (1 / 2), 1, Rounded.inv 53 1, 0, 1⟩ := by
      simp only [Rounded.oscillator, Rounded.inv, if_neg (two_ne_zero' ℝ), i3]
    rw [e, hs, show v (1 * 0) = -1 by simp [v, i0, f0, i2], show v (1 * 1) = -1 by simp [v, i0, i1, f1, i2]]
  · have hP : rnd 53 (1 / 98) = 5882252574524729 * 2 ^ (-59 : ℤ) := by
      rw [rnd_of (k := -59) (by norm_num) (by norm_num),
        FloatL.ne_of_lt (n := 5882252574524729) (by norm_num) (by norm_num)]
      norm_num
    have hP1 : rnd 53 (0 + 5882252574524729 * 2 ^ (-59 : ℤ)) = 5882252574524729 * 2 ^ (-59 : ℤ) := by
      have := i 5882252574524729 (-59) (by norm_num)
      rw [zero_add]
      exact_mod_cast this
    have hP2 : rnd 53 (5882252574524729 * 2 ^ (-59 : ℤ) + 5882252574524729 * 2 ^ (-59 : ℤ)) = 5882252574524729 * 2 ^ (-58 : ℤ) := by
      have := i 5882252574524729 (-58) (by norm_num)
      push_cast at this
      rw [← this]
      congr 1
      norm_num
    have hF : rnd 53 (49 * (5882252574524729 * 2 ^ (-58 : ℤ))) = 1 - 2 ^ (-53 : ℤ) := by
      rw [rnd_of (k := -53) (by norm_num [abs_of_pos]) (by norm_num [abs_of_pos]),
        FloatL.ne_of_lt (n := 9007199254740991) (by norm_num) (by norm_num)]
      norm_num
    obtain ⟨s, hs⟩ := gen 49 (5882252574524729 * 2 ^ (-59 : ℤ)) 98 _ _ (Rounded.inv 53 49) hP1 hP2 (by simp [i0])
      (by
        rcases eq_or_ne (49 * (5882252574524729 * 2 ^ (-59 : ℤ) : ℝ)) 0 with h | h
        · rw [h, i0]
        · exact (rnd_pos (by norm_num) (by norm_num)).le) (by rw [hF]; norm_num)
    refine ⟨v (49 * (5882252574524729 * 2 ^ (-59 : ℤ))), s, ?_⟩
    have e : ({ Rounded.oscillator 53 1 98 49 0 with shape := 1 } : Osc.State) =
        ⟨1, 0, 98, some (5882252574524729 * 2 ^ (-59 : ℤ)), 49, Rounded.inv 53 49, 0, 1⟩ := by
      simp only [Rounded.oscillator, Rounded.inv]
      rw [if_neg (by norm_num), hP]
    have hv : v (49 * (5882252574524729 * 2 ^ (-58 : ℤ))) = 1 - 2 ^ (-52 : ℤ) := by
      have hm : Osc.fmod (1 - 2 ^ (-53 : ℤ)) 1 = 1 - 2 ^ (-53 : ℤ) := by
        have : ⌊(1 : ℝ) - 2 ^ (-53 : ℤ)⌋ = 0 := Int.floor_eq_iff.mpr ⟨by norm_num, by norm_num⟩
        simp only [Osc.fmod, div_one]
        rw [if_pos (by norm_num), this]
        norm_num
      have a1 : rnd 53 (2 * (1 - 2 ^ (-53 : ℤ))) = 2 * (1 - 2 ^ (-53 : ℤ)) := by
        have := i 9007199254740991 (-52) (by norm_num)
        norm_num at this ⊢
        exact this
      have a2 : rnd 53 (2 * (1 - 2 ^ (-53 : ℤ)) - 1) = 1 - 2 ^ (-52 : ℤ) := by
        have := i 4503599627370495 (-52) (by norm_num)
        norm_num at this ⊢
        exact this
      have a3 : rnd 53 (1 - 2 ^ (-52 : ℤ)) = 1 - 2 ^ (-52 : ℤ) := by
        rw [← a2, FloatL.rnd_float (isFloat_rnd (by norm_num) _)]
      simp only [v, hF, hm, a1, div_one, a2, a3, one_mul]
    rw [e, hs, hv, show v (49 * 0) = -1 by simp [v, i0, f0, i2]]

end Edsp.C129
