import Verif.Spec.Units
import Verif.Model.ChebShelf
import Verif.Model.Bands
import Verif.Model.RoundedShelves
import Verif.Lemmas.Gain

/-!
# Lemmas about a change of the unit of time
-/

namespace Edsp.UnitsL

open Edsp.Spec

variable {c : ℝ}

theorem fdiv_unit (hc : c ≠ 0) (a b : ℝ) : fdiv (c * a) (c * b) = fdiv a b := by
  unfold fdiv
  by_cases hb : b = 0
  · simp [hb]
  · rw [if_neg hb, if_neg (mul_ne_zero hc hb), mul_div_mul_left _ _ hc]

theorem heard_map {σ τ ω υ : Type} {f : σ → ω → Except Fault (Option ℝ × σ)} {g : τ → υ → Except Fault (Option ℝ × τ)}
    (R : σ → τ → Prop) (m : ω → υ)
    (h : ∀ s t op, R s t → (∃ e, f s op = .error e ∧ g t (m op) = .error e) ∨
      ∃ x s' t', f s op = .ok (x, s') ∧ g t (m op) = .ok (x, t') ∧ R s' t') :
    ∀ (ops : List ω) (s : σ) (t : τ), R s t → heard g t (ops.map m) = heard f s ops
  | [], _, _, _ => rfl
  | op :: ops, s, t, hR => by
    rcases h s t op hR with ⟨e, h1, h2⟩ | ⟨x, s', t', h1, h2, h3⟩
    · simp only [List.map_cons, heard, h1, h2]
    · simp only [List.map_cons, heard, h1, h2, heard_map R m h ops s' t' h3]

theorem heard_step {σ τ ω υ : Type} {f : σ → ω → Except Fault (Option ℝ × σ)} {g : τ → υ → Except Fault (Option ℝ × τ)}
    {s : σ} {t : τ} {op : ω} {op' : υ} {ops : List ω} {ops' : List υ}
    (h : (∃ e, f s op = .error e ∧ g t op' = .error e) ∨
      ∃ x s' t', f s op = .ok (x, s') ∧ g t op' = .ok (x, t') ∧ heard g t' ops' = heard f s' ops) :
    heard g t (op' :: ops') = heard f s (op :: ops) := by
  rcases h with ⟨e, h1, h2⟩ | ⟨x, s', t', h1, h2, h3⟩
  · simp only [heard, h1, h2]
  · simp only [heard, h1, h2, h3]

theorem fmod_unit (hc : 0 < c) (x y : ℝ) : Osc.fmod (x / c) (y / c) = Osc.fmod x y / c := by
  unfold Osc.fmod
  rw [div_div_div_cancel_right₀ hc.ne']
  ring

theorem inv_unit (hc : 0 < c) (x : ℝ) : Osc.inv? (c * x) = (Osc.inv? x).map (· / c) := by
  unfold Osc.inv?
  by_cases hx : x = 0
  · simp [hx]
  · rw [if_neg hx, if_neg (mul_ne_zero hc.ne' hx), Option.map_some, div_div, mul_comm]

theorem finite_unit (x : Option ℝ) : Osc.finite (x.map (· / c)) = (Osc.finite x).map (· / c) := by
  cases x <;> rfl

theorem base_unit (hc : 0 < c) (k : Osc.Kind) (A r f ph : ℝ) :
    Osc.base A (c * r) (c * f) ph = oscState c k (Osc.base A r f ph) := by
  cases k <;> simp [Osc.base, oscState, inv_unit hc]

theorem setDuty_unit (dbg : Bool) (s : Osc.State) (d : ℝ) :
    Osc.setDuty dbg (oscState c .square s) d = (Osc.setDuty dbg s d).map (oscState c .square) := by
  unfold Osc.setDuty
  split
  · rfl
  · show (Osc.finite ((s.inverseFrequency).map (· / c)) >>= _) = _
    rw [finite_unit]
    cases Osc.finite s.inverseFrequency with
    | error e => rfl
    | ok v => simp [bind, Except.bind, pure, Except.pure, Except.map, oscState, mul_div_assoc]

theorem setWidth_unit (dbg : Bool) (s : Osc.State) (w : ℝ) :
    Osc.setWidth dbg (oscState c .saw s) w = (Osc.setWidth dbg s w).map (oscState c .saw) := by
  unfold Osc.setWidth
  split <;> rfl

theorem advance_unit (k : Osc.Kind) (s : Osc.State) :
    Osc.advance (oscState c k s) = (Osc.advance s).map (oscState c k) := by
  unfold Osc.advance
  show (Osc.finite ((s.samplingPeriod).map (· / c)) >>= _) = _
  rw [finite_unit]
  cases Osc.finite s.samplingPeriod with
  | error e => rfl
  | ok v => simp [bind, Except.bind, pure, Except.pure, Except.map, oscState, add_div]

theorem call_unit (hc : 0 < c) (k : Osc.Kind) (s : Osc.State) :
    Osc.call k (oscState c k s) = (Osc.call k s).map fun r => (r.1, oscState c k r.2) := by
  have e : ∀ x y : ℝ, c * x * (y / c) = x * y := fun x y => by field_simp
  cases k with
  | sin =>
    simp only [Osc.call, Osc.sinCall, advance_unit]
    have h : 2 * Real.pi * (oscState c .sin s).frequency * (oscState c .sin s).timestamp + (oscState c .sin s).phase =
        2 * Real.pi * s.frequency * s.timestamp + s.phase := by
      show 2 * Real.pi * (c * s.frequency) * (s.timestamp / c) + s.phase = _
      rw [mul_assoc (2 * Real.pi), e, ← mul_assoc]
    rw [h]
    cases Osc.advance s <;> rfl
  | square =>
    simp only [Osc.call, Osc.squareCall, advance_unit]
    show (Osc.finite ((s.inverseFrequency).map (· / c)) >>= _) = _
    rw [finite_unit]
    cases Osc.finite s.inverseFrequency with
    | error e => rfl
    | ok v =>
      show (do
        let s' ← (Osc.advance s).map (oscState c .square)
        return ((if Osc.fmod (s.timestamp / c) (v / c) ≥ s.shape / c then (1 : ℝ) else -1) * s.amplitude, s')) = _
      rw [fmod_unit hc]
      simp only [ge_iff_le, div_le_div_iff_of_pos_right hc]
      cases Osc.advance s <;> simp [bind, Except.bind, Except.map, pure, Except.pure]
  | saw =>
    simp only [Osc.call, Osc.sawCall, advance_unit]
    show (do
      let s' ← (Osc.advance s).map (oscState c .saw)
      if s.shape ≠ 0 ∧ Osc.fmod (c * s.frequency * (s.timestamp / c)) 1 < s.shape then
        return (s.amplitude * (2 * Osc.fmod (c * s.frequency * (s.timestamp / c)) 1 / s.shape - 1), s')
      else if s.shape ≠ 1 ∧ Osc.fmod (c * s.frequency * (s.timestamp / c)) 1 ≥ s.shape then
        return (s.amplitude * (-2 * (Osc.fmod (c * s.frequency * (s.timestamp / c)) 1 - s.shape) / (1 - s.shape) + 1), s')
      else return (0, s')) = _
    rw [e]
    cases Osc.advance s with
    | error e => rfl
    | ok v =>
      simp only [bind, Except.bind, Except.map]
      split
      · rfl
      · split <;> rfl

theorem step_unit (hc : 0 < c) (dbg : Bool) (k : Osc.Kind) (s : Osc.State) (op : Osc.Op) :
    Osc.step dbg k (oscState c k s) (oscUnit c op) = (Osc.step dbg k s op).map fun r => (r.1, oscState c k r.2) := by
  cases op with
  | call =>
    simp only [oscUnit, Osc.step, call_unit hc]
    cases Osc.call k s <;> rfl
  | setFrequency f => rfl
  | setPhase p => rfl
  | setTimestamp t => rfl
  | setSampleRate r =>
    simp only [oscUnit, Osc.step, Except.map, inv_unit hc, oscState]
  | setAmplitude a => rfl
  | setShape v =>
    cases k with
    | sin => rfl
    | square =>
      simp only [oscUnit, Osc.step, setDuty_unit]
      cases Osc.setDuty dbg s v <;> rfl
    | saw =>
      simp only [oscUnit, Osc.step, setWidth_unit]
      cases Osc.setWidth dbg s v <;> rfl
  | reset => simp [oscUnit, Osc.step, Except.map, oscState]

theorem osc_heard (hc : 0 < c) (dbg : Bool) (k : Osc.Kind) (s : Osc.State) (ops : List Osc.Op) :
    heard (Osc.step dbg k) (oscState c k s) (ops.map (oscUnit c)) = heard (Osc.step dbg k) s ops := by
  refine heard_map (fun s t => t = oscState c k s) (oscUnit c) ?_ ops s _ rfl
  rintro s t op rfl
  rw [step_unit hc]
  cases Osc.step dbg k s op with
  | error e => exact Or.inl ⟨e, rfl, rfl⟩
  | ok r => exact Or.inr ⟨r.1, r.2, _, rfl, rfl, rfl⟩

/-- Two envelopes that differ in the unit of time; a release time that is not positive is not used. -/
def AdsrRel (c : ℝ) (s t : Env.Adsr.State) : Prop :=
  t = { s with sampleRate := c * s.sampleRate, releaseTime := t.releaseTime } ∧
    (t.releaseTime = s.releaseTime / c ∨ t.releaseTime ≤ 0 ∧ s.releaseTime ≤ 0)

theorem div_unit (hc : 0 < c) (a x r : ℝ) : Env.div a (x / c * (c * r)) = Env.div a (x * r) := by
  rw [show x / c * (c * r) = x * r by field_simp]

theorem rate_unit (hc : 0 < c) (a b r : ℝ) : Env.div (c * a * b) (c * r) = Env.div (a * b) r := by
  unfold Env.div
  by_cases h : r = 0
  · simp [h]
  · rw [if_neg h, if_neg (mul_ne_zero hc.ne' h), mul_assoc, mul_div_mul_left _ _ hc.ne']

theorem release_pos (hc : 0 < c) {x y : ℝ} (h : y = x / c ∨ y ≤ 0 ∧ x ≤ 0) : 0 < y ↔ 0 < x := by
  rcases h with rfl | ⟨h1, h2⟩
  · exact div_pos_iff_of_pos_right hc
  · exact iff_of_false (not_lt.mpr h1) (not_lt.mpr h2)

theorem adsr_step (hc : 0 < c) (dbg : Bool) (s t : Env.Adsr.State) (op : Env.Adsr.Op) (h : AdsrRel c s t) :
    (∃ e, Env.Adsr.step dbg s op = .error e ∧ Env.Adsr.step dbg t (adsrUnit c op) = .error e) ∨
    ∃ x s' t', Env.Adsr.step dbg s op = .ok (x, s') ∧ Env.Adsr.step dbg t (adsrUnit c op) = .ok (x, t') ∧
      AdsrRel c s' t' := by
  obtain ⟨ht, hr⟩ := h
  obtain ⟨ph, sr, tg, v, ar, dr, rr, rt, sl⟩ := s
  obtain ⟨ph', sr', tg', v', ar', dr', rr', rt', sl'⟩ := t
  simp only [Env.Adsr.State.mk.injEq, true_and] at ht hr
  obtain ⟨rfl, rfl, rfl, rfl, rfl, rfl, rfl, rfl⟩ := ht
  have hp := release_pos hc hr
  cases op with
  | keyOn => exact Or.inr ⟨_, _, _, rfl, rfl, rfl, hr⟩
  | keyOff =>
    simp only [adsrUnit, Env.Adsr.step, Env.Adsr.keyOff, gt_iff_lt, hp]
    by_cases h0 : 0 < rt
    · simp only [if_pos h0]
      have e : rt' = rt / c := hr.resolve_right fun h => absurd h0 (not_lt.mpr h.2)
      rw [e, div_unit hc]
      cases Env.div v' (rt * sr) with
      | error e => exact Or.inl ⟨e, rfl, rfl⟩
      | ok w => exact Or.inr ⟨_, _, _, rfl, rfl, rfl, Or.inl rfl⟩
    · simp only [if_neg h0]
      exact Or.inr ⟨_, _, _, rfl, rfl, rfl, hr⟩
  | sample x =>
    refine Or.inr ⟨_, _, (Env.Adsr.call ⟨ph', c * sr, tg', v', ar', dr', rr', rt', sl'⟩ x).2, rfl, ?_, ?_⟩
    · cases ph' <;> simp only [adsrUnit, Env.Adsr.step, Env.Adsr.call, Env.Adsr.tick] <;> (repeat' split) <;> rfl
    · cases ph' <;> simp only [Env.Adsr.call, Env.Adsr.tick] <;> (repeat' split) <;> exact ⟨rfl, hr⟩
  | setAttackTarget x =>
    simp only [adsrUnit, Env.Adsr.step, Env.Adsr.setAttackTarget]
    cases Env.expects dbg (x ≥ 0) with
    | error e => exact Or.inl ⟨e, rfl, rfl⟩
    | ok _ => exact Or.inr ⟨_, _, _, rfl, rfl, rfl, hr⟩
  | setAttackRate x =>
    simp only [adsrUnit, Env.Adsr.step, Env.Adsr.setAttackRate]
    cases Env.expects dbg (x ≥ 0) with
    | error e => exact Or.inl ⟨e, rfl, rfl⟩
    | ok _ => exact Or.inr ⟨_, _, _, rfl, rfl, rfl, hr⟩
  | setDecayRate x =>
    simp only [adsrUnit, Env.Adsr.step, Env.Adsr.setDecayRate]
    cases Env.expects dbg (x ≥ 0) with
    | error e => exact Or.inl ⟨e, rfl, rfl⟩
    | ok _ => exact Or.inr ⟨_, _, _, rfl, rfl, rfl, hr⟩
  | setSustainLevel x =>
    simp only [adsrUnit, Env.Adsr.step, Env.Adsr.setSustainLevel]
    cases Env.expects dbg (x ≥ 0) with
    | error e => exact Or.inl ⟨e, rfl, rfl⟩
    | ok _ => exact Or.inr ⟨_, _, _, rfl, rfl, rfl, hr⟩
  | setReleaseRate x =>
    simp only [adsrUnit, Env.Adsr.step, Env.Adsr.setReleaseRate]
    cases Env.expects dbg (x ≥ 0) with
    | error e => exact Or.inl ⟨e, rfl, rfl⟩
    | ok _ => exact Or.inr ⟨_, _, _, rfl, rfl, rfl, Or.inr ⟨by norm_num, by norm_num⟩⟩
  | setAttackTime x =>
    have hx : Env.expects dbg (x / c > 0) = Env.expects dbg (x > 0) := by simp only [Env.expects, gt_iff_lt, div_pos_iff_of_pos_right hc]
    simp only [adsrUnit, Env.Adsr.step, Env.Adsr.setAttackTime, hx, div_unit hc]
    cases Env.expects dbg (x > 0) with
    | error e => exact Or.inl ⟨e, rfl, rfl⟩
    | ok _ =>
      cases Env.div 1 (x * sr) with
      | error e => exact Or.inl ⟨e, rfl, rfl⟩
      | ok w => exact Or.inr ⟨_, _, _, rfl, rfl, rfl, hr⟩
  | setDecayTime x =>
    have hx : Env.expects dbg (x / c > 0) = Env.expects dbg (x > 0) := by simp only [Env.expects, gt_iff_lt, div_pos_iff_of_pos_right hc]
    simp only [adsrUnit, Env.Adsr.step, Env.Adsr.setDecayTime, hx, div_unit hc]
    cases Env.expects dbg (x > 0) with
    | error e => exact Or.inl ⟨e, rfl, rfl⟩
    | ok _ =>
      cases Env.div (1 - sl') (x * sr) with
      | error e => exact Or.inl ⟨e, rfl, rfl⟩
      | ok w => exact Or.inr ⟨_, _, _, rfl, rfl, rfl, hr⟩
  | setReleaseTime x =>
    have hx : Env.expects dbg (x / c > 0) = Env.expects dbg (x > 0) := by simp only [Env.expects, gt_iff_lt, div_pos_iff_of_pos_right hc]
    simp only [adsrUnit, Env.Adsr.step, Env.Adsr.setReleaseTime, hx, div_unit hc]
    cases Env.expects dbg (x > 0) with
    | error e => exact Or.inl ⟨e, rfl, rfl⟩
    | ok _ =>
      cases Env.div sl' (x * sr) with
      | error e => exact Or.inl ⟨e, rfl, rfl⟩
      | ok w => exact Or.inr ⟨_, _, _, rfl, rfl, rfl, Or.inl rfl⟩
  | setTarget x =>
    simp only [adsrUnit, Env.Adsr.step, Env.Adsr.setTarget, Env.Adsr.setSustainLevel]
    cases Env.expects dbg (Env.Adsr.clampTarget x ≥ 0) with
    | error e => exact Or.inl ⟨e, rfl, rfl⟩
    | ok _ =>
      simp only [bind, Except.bind, pure, Except.pure]
      by_cases h1 : v' < Env.Adsr.clampTarget x
      · simp only [if_pos h1]
        exact Or.inr ⟨_, _, _, rfl, rfl, rfl, hr⟩
      · by_cases h2 : v' > Env.Adsr.clampTarget x
        · simp only [if_neg h1, if_pos h2]
          exact Or.inr ⟨_, _, _, rfl, rfl, rfl, hr⟩
        · simp only [if_neg h1, if_neg h2]
          exact Or.inr ⟨_, _, _, rfl, rfl, rfl, hr⟩
  | setSampleRate r =>
    simp only [adsrUnit, Env.Adsr.step, Env.Adsr.setSampleRate, rate_unit hc]
    cases Env.div (sr * ar') r with
    | error e => exact Or.inl ⟨e, rfl, rfl⟩
    | ok _ =>
      cases Env.div (sr * dr') r with
      | error e => exact Or.inl ⟨e, rfl, rfl⟩
      | ok _ =>
        cases Env.div (sr * rr') r with
        | error e => exact Or.inl ⟨e, rfl, rfl⟩
        | ok _ => exact Or.inr ⟨_, _, _, rfl, rfl, rfl, hr⟩

theorem time_unit (hc : 0 < c) (x r : ℝ) : x / c * (c * r) = x * r := by field_simp

theorem rounded_rate_unit (p : ℕ) (hc : Gain c) (a b r : ℝ) :
    RoundedAdsr.divT p (rnd p (c * a * b)) (c * r) = RoundedAdsr.divT p (rnd p (a * b)) r := by
  have h0 := GainL.ne_zero hc
  rw [mul_assoc, GainL.rnd_gain p hc]
  unfold RoundedAdsr.divT Env.div
  by_cases h : r = 0
  · simp [h]
  · rw [if_neg h, if_neg (mul_ne_zero h0 h), mul_div_mul_left _ _ h0]

theorem rounded_adsr_step (p q : ℕ) (hg : Gain c) (hc : 0 < c) (dbg : Bool) (s t : Env.Adsr.State) (op : Env.Adsr.Op) (h : AdsrRel c s t) :
    (∃ e, RoundedAdsr.step p q dbg s op = .error e ∧ RoundedAdsr.step p q dbg t (adsrUnit c op) = .error e) ∨
    ∃ x s' t', RoundedAdsr.step p q dbg s op = .ok (x, s') ∧ RoundedAdsr.step p q dbg t (adsrUnit c op) = .ok (x, t') ∧
      AdsrRel c s' t' := by
  obtain ⟨ht, hr⟩ := h
  obtain ⟨ph, sr, tg, v, ar, dr, rr, rt, sl⟩ := s
  obtain ⟨ph', sr', tg', v', ar', dr', rr', rt', sl'⟩ := t
  simp only [Env.Adsr.State.mk.injEq, true_and] at ht hr
  obtain ⟨rfl, rfl, rfl, rfl, rfl, rfl, rfl, rfl⟩ := ht
  have hp := release_pos hc hr
  cases op with
  | keyOn => exact Or.inr ⟨_, _, _, rfl, rfl, rfl, hr⟩
  | keyOff =>
    simp only [adsrUnit, RoundedAdsr.step, RoundedAdsr.keyOff, gt_iff_lt, hp]
    by_cases h0 : 0 < rt
    · simp only [if_pos h0]
      have e : rt' = rt / c := hr.resolve_right fun h => absurd h0 (not_lt.mpr h.2)
      rw [e, time_unit hc]
      cases RoundedAdsr.divT p v' (rnd p (rt * sr)) with
      | error e => exact Or.inl ⟨e, rfl, rfl⟩
      | ok w => exact Or.inr ⟨_, _, _, rfl, rfl, rfl, Or.inl rfl⟩
    · simp only [if_neg h0]
      exact Or.inr ⟨_, _, _, rfl, rfl, rfl, hr⟩
  | sample x =>
    refine Or.inr ⟨_, _, (RoundedAdsr.call p ⟨ph', c * sr, tg', v', ar', dr', rr', rt', sl'⟩ x).2, rfl, ?_, ?_⟩
    · cases ph' <;> simp only [adsrUnit, RoundedAdsr.step, RoundedAdsr.call, RoundedAdsr.tick] <;> (repeat' split) <;> rfl
    · cases ph' <;> simp only [RoundedAdsr.call, RoundedAdsr.tick] <;> (repeat' split) <;> exact ⟨rfl, hr⟩
  | setAttackTarget x =>
    simp only [adsrUnit, RoundedAdsr.step, RoundedAdsr.setAttackTarget]
    cases Env.expects dbg (x ≥ 0) with
    | error e => exact Or.inl ⟨e, rfl, rfl⟩
    | ok _ => exact Or.inr ⟨_, _, _, rfl, rfl, rfl, hr⟩
  | setAttackRate x =>
    simp only [adsrUnit, RoundedAdsr.step, Env.Adsr.setAttackRate]
    cases Env.expects dbg (x ≥ 0) with
    | error e => exact Or.inl ⟨e, rfl, rfl⟩
    | ok _ => exact Or.inr ⟨_, _, _, rfl, rfl, rfl, hr⟩
  | setDecayRate x =>
    simp only [adsrUnit, RoundedAdsr.step, Env.Adsr.setDecayRate]
    cases Env.expects dbg (x ≥ 0) with
    | error e => exact Or.inl ⟨e, rfl, rfl⟩
    | ok _ => exact Or.inr ⟨_, _, _, rfl, rfl, rfl, hr⟩
  | setSustainLevel x =>
    simp only [adsrUnit, RoundedAdsr.step, Env.Adsr.setSustainLevel]
    cases Env.expects dbg (x ≥ 0) with
    | error e => exact Or.inl ⟨e, rfl, rfl⟩
    | ok _ => exact Or.inr ⟨_, _, _, rfl, rfl, rfl, hr⟩
  | setReleaseRate x =>
    simp only [adsrUnit, RoundedAdsr.step, Env.Adsr.setReleaseRate]
    cases Env.expects dbg (x ≥ 0) with
    | error e => exact Or.inl ⟨e, rfl, rfl⟩
    | ok _ => exact Or.inr ⟨_, _, _, rfl, rfl, rfl, Or.inr ⟨by norm_num, by norm_num⟩⟩
  | setAttackTime x =>
    have hx : Env.expects dbg (x / c > 0) = Env.expects dbg (x > 0) := by simp only [Env.expects, gt_iff_lt, div_pos_iff_of_pos_right hc]
    simp only [adsrUnit, RoundedAdsr.step, RoundedAdsr.setAttackTime, hx, time_unit hc]
    cases Env.expects dbg (x > 0) with
    | error e => exact Or.inl ⟨e, rfl, rfl⟩
    | ok _ =>
      cases RoundedAdsr.divD p q 1 (rnd p (x * sr)) with
      | error e => exact Or.inl ⟨e, rfl, rfl⟩
      | ok w => exact Or.inr ⟨_, _, _, rfl, rfl, rfl, hr⟩
  | setDecayTime x =>
    have hx : Env.expects dbg (x / c > 0) = Env.expects dbg (x > 0) := by simp only [Env.expects, gt_iff_lt, div_pos_iff_of_pos_right hc]
    simp only [adsrUnit, RoundedAdsr.step, RoundedAdsr.setDecayTime, hx, time_unit hc]
    cases Env.expects dbg (x > 0) with
    | error e => exact Or.inl ⟨e, rfl, rfl⟩
    | ok _ =>
      cases RoundedAdsr.divD p q (rnd q (1 - sl')) (rnd p (x * sr)) with
      | error e => exact Or.inl ⟨e, rfl, rfl⟩
      | ok w => exact Or.inr ⟨_, _, _, rfl, rfl, rfl, hr⟩
  | setReleaseTime x =>
    have hx : Env.expects dbg (x / c > 0) = Env.expects dbg (x > 0) := by simp only [Env.expects, gt_iff_lt, div_pos_iff_of_pos_right hc]
    simp only [adsrUnit, RoundedAdsr.step, RoundedAdsr.setReleaseTime, hx, time_unit hc]
    cases Env.expects dbg (x > 0) with
    | error e => exact Or.inl ⟨e, rfl, rfl⟩
    | ok _ =>
      cases RoundedAdsr.divT p sl' (rnd p (x * sr)) with
      | error e => exact Or.inl ⟨e, rfl, rfl⟩
      | ok w => exact Or.inr ⟨_, _, _, rfl, rfl, rfl, Or.inl rfl⟩
  | setTarget x =>
    simp only [adsrUnit, RoundedAdsr.step, RoundedAdsr.setTarget, Env.Adsr.setSustainLevel]
    cases Env.expects dbg (RoundedAdsr.clampTarget p q x ≥ 0) with
    | error e => exact Or.inl ⟨e, rfl, rfl⟩
    | ok _ =>
      simp only [bind, Except.bind, pure, Except.pure]
      by_cases h1 : v' < RoundedAdsr.clampTarget p q x
      · simp only [if_pos h1]
        exact Or.inr ⟨_, _, _, rfl, rfl, rfl, hr⟩
      · by_cases h2 : v' > RoundedAdsr.clampTarget p q x
        · simp only [if_neg h1, if_pos h2]
          exact Or.inr ⟨_, _, _, rfl, rfl, rfl, hr⟩
        · simp only [if_neg h1, if_neg h2]
          exact Or.inr ⟨_, _, _, rfl, rfl, rfl, hr⟩
  | setSampleRate r =>
    simp only [adsrUnit, RoundedAdsr.step, RoundedAdsr.setSampleRate, rounded_rate_unit p hg]
    cases RoundedAdsr.divT p (rnd p (sr * ar')) r with
    | error e => exact Or.inl ⟨e, rfl, rfl⟩
    | ok _ =>
      cases RoundedAdsr.divT p (rnd p (sr * dr')) r with
      | error e => exact Or.inl ⟨e, rfl, rfl⟩
      | ok _ =>
        cases RoundedAdsr.divT p (rnd p (sr * rr')) r with
        | error e => exact Or.inl ⟨e, rfl, rfl⟩
        | ok _ => exact Or.inr ⟨_, _, _, rfl, rfl, rfl, hr⟩

theorem ar_reset (hc : 0 < c) (s : Env.Ar.State) :
    Env.Ar.reset { s with sampleRate := c * s.sampleRate, attackTime := s.attackTime / c, releaseTime := s.releaseTime / c } =
      (Env.Ar.reset s).map fun s =>
        { s with sampleRate := c * s.sampleRate, attackTime := s.attackTime / c, releaseTime := s.releaseTime / c } := by
  unfold Env.Ar.reset
  simp only [div_unit hc]
  by_cases h1 : s.attackGain > 0 <;> by_cases h2 : s.releaseGain > 0 <;> simp only [h1, h2, if_true, if_false]
  · cases Env.div (-1) (s.attackTime * s.sampleRate) <;> cases Env.div (-1) (s.releaseTime * s.sampleRate) <;> rfl
  · cases Env.div (-1) (s.attackTime * s.sampleRate) <;> rfl
  · cases Env.div (-1) (s.releaseTime * s.sampleRate) <;> rfl
  · rfl

/-- The follower in the other unit. -/
noncomputable def arState (c : ℝ) (s : Env.Ar.State) : Env.Ar.State :=
  { s with sampleRate := c * s.sampleRate, attackTime := s.attackTime / c, releaseTime := s.releaseTime / c }

theorem ar_step (hc : 0 < c) (tiny : ℝ) (s : Env.Ar.State) (op : Env.Ar.Op) :
    arStep tiny (arState c s) (arUnit c op) = (arStep tiny s op).map fun r => (r.1, arState c r.2) := by
  cases op with
  | sample x => rfl
  | setSampleRate x =>
    have h := ar_reset hc { s with sampleRate := x }
    simp only [arStep, arUnit, Env.Ar.step, Env.Ar.setSampleRate, arState] at h ⊢
    rw [h]
    cases Env.Ar.reset { s with sampleRate := x } <;> rfl
  | setAttackTime x =>
    have h := ar_reset hc { s with attackTime := x }
    simp only [arStep, arUnit, Env.Ar.step, Env.Ar.setAttackTime, arState] at h ⊢
    rw [h]
    cases Env.Ar.reset { s with attackTime := x } <;> rfl
  | setReleaseTime x =>
    have h := ar_reset hc { s with releaseTime := x }
    simp only [arStep, arUnit, Env.Ar.step, Env.Ar.setReleaseTime, arState] at h ⊢
    rw [h]
    cases Env.Ar.reset { s with releaseTime := x } <;> rfl
  | setRectification b => rfl
  | reset =>
    have h := ar_reset hc s
    simp only [arStep, arUnit, Env.Ar.step, arState] at h ⊢
    rw [h]
    cases Env.Ar.reset s <;> rfl

theorem rounded_inv (p : ℕ) (hc : Gain c) (x : ℝ) : Rounded.inv p (c * x) = (Rounded.inv p x).map (· / c) := by
  have h0 := GainL.ne_zero hc
  unfold Rounded.inv
  by_cases hx : x = 0
  · simp [hx]
  · rw [if_neg hx, if_neg (mul_ne_zero h0 hx), Option.map_some, div_eq_inv_mul (rnd p (1 / x)) c,
      ← GainL.rnd_gain p (GainL.inv hc)]
    congr 2
    field_simp

theorem rounded_oscillator (p : ℕ) (hc : Gain c) (k : Osc.Kind) (A r f ph : ℝ) :
    Rounded.oscillator p A (c * r) (c * f) ph = oscState c k (Rounded.oscillator p A r f ph) := by
  cases k <;> simp [Rounded.oscillator, oscState, rounded_inv p hc]

theorem rounded_advance (p : ℕ) (hc : Gain c) (k : Osc.Kind) (s : Osc.State) :
    Rounded.advance p (oscState c k s) = (Rounded.advance p s).map (oscState c k) := by
  unfold Rounded.advance
  show (Osc.finite ((s.samplingPeriod).map (· / c)) >>= _) = _
  rw [finite_unit]
  cases Osc.finite s.samplingPeriod with
  | error e => rfl
  | ok v =>
    have e : rnd p (s.timestamp / c + v / c) = rnd p (s.timestamp + v) / c := by
      rw [div_eq_inv_mul, div_eq_inv_mul, GainL.rnd_add p (GainL.inv hc), div_eq_inv_mul]
    simp [bind, Except.bind, pure, Except.pure, Except.map, oscState, e]

theorem rounded_call (p q : ℕ) (hg : Gain c) (hc : 0 < c) (sine : ℝ → ℝ) (k : Osc.Kind) (s : Osc.State) :
    Rounded.call p q sine k (oscState c k s) = (Rounded.call p q sine k s).map fun r => (r.1, oscState c k r.2) := by
  have e : ∀ x y : ℝ, c * x * (y / c) = x * y := fun x y => by field_simp
  cases k with
  | sin =>
    simp only [Rounded.call, Rounded.sinCall, rounded_advance p hg]
    have h : rnd p (rnd p (2 * Real.pi) * (oscState c .sin s).frequency) * (oscState c .sin s).timestamp =
        rnd p (rnd p (2 * Real.pi) * s.frequency) * s.timestamp := by
      show rnd p (rnd p (2 * Real.pi) * (c * s.frequency)) * (s.timestamp / c) = _
      rw [mul_left_comm, GainL.rnd_gain p hg, e]
    rw [h]
    cases Rounded.advance p s <;> rfl
  | square =>
    simp only [Rounded.call, Rounded.squareCall, rounded_advance p hg]
    show (Osc.finite ((s.inverseFrequency).map (· / c)) >>= _) = _
    rw [finite_unit]
    cases Osc.finite s.inverseFrequency with
    | error e => rfl
    | ok v =>
      show (do
        let s' ← (Rounded.advance p s).map (oscState c .square)
        return (rnd p ((if Osc.fmod (s.timestamp / c) (v / c) ≥ s.shape / c then (1 : ℝ) else -1) * s.amplitude), s')) = _
      rw [fmod_unit hc]
      simp only [ge_iff_le, div_le_div_iff_of_pos_right hc]
      cases Rounded.advance p s <;> simp [bind, Except.bind, Except.map, pure, Except.pure]
  | saw =>
    simp only [Rounded.call, Rounded.sawCall, rounded_advance p hg]
    have h : (oscState c .saw s).frequency * (oscState c .saw s).timestamp = s.frequency * s.timestamp := e _ _
    rw [h]
    cases Rounded.advance p s with
    | error e => rfl
    | ok v =>
      have hs : (oscState c .saw s).shape = s.shape := rfl
      have ha : (oscState c .saw s).amplitude = s.amplitude := rfl
      simp only [bind, Except.bind, Except.map, hs, ha]
      by_cases h1 : s.shape ≠ 0 ∧ Osc.fmod (rnd p (s.frequency * s.timestamp)) 1 < s.shape
      · simp only [if_pos h1]
        rfl
      · by_cases h2 : s.shape ≠ 1 ∧ Osc.fmod (rnd p (s.frequency * s.timestamp)) 1 ≥ s.shape
        · simp only [if_neg h1, if_pos h2]
          rfl
        · simp only [if_neg h1, if_neg h2]
          rfl

theorem rounded_gen (p q : ℕ) (hg : Gain c) (hc : 0 < c) (sine : ℝ → ℝ) (k : Osc.Kind) : ∀ (n : ℕ) (s : Osc.State),
    Rounded.gen p q sine k n (oscState c k s) = (Rounded.gen p q sine k n s).map fun r => (r.1, oscState c k r.2)
  | 0, _ => rfl
  | n + 1, s => by
    simp only [Rounded.gen, rounded_call p q hg hc]
    cases Rounded.call p q sine k s with
    | error e => rfl
    | ok r =>
      simp only [Except.map, bind, Except.bind, rounded_gen p q hg hc sine k n r.2]
      cases Rounded.gen p q sine k n r.2 <;> rfl

theorem omega_unit (p : ℕ) (hc : Gain c) (fc fs : ℝ) : RndRbj.omega p (c * fc) (c * fs) = RndRbj.omega p fc fs := by
  have h0 := GainL.ne_zero hc
  unfold RndRbj.omega RndWin.div
  rw [mul_left_comm, GainL.rnd_gain p hc]
  unfold Win.div
  by_cases h : fs = 0
  · simp [h]
  · rw [if_neg h, if_neg (mul_ne_zero h0 h), mul_div_mul_left _ _ h0]

end Edsp.UnitsL
