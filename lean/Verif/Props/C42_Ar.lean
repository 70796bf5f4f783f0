import Verif.Model.Envelopes
import Verif.Spec.Envelopes
import Mathlib.Tactic.Linarith
import Mathlib.Tactic.NormNum
import Mathlib.Tactic.Ring

/-!
# C42: the AR envelope follower tracks the signal level

The gains of the follower are computed by `reset` only when they are already positive, and they start at zero: they are
zero in every reachable state, so the follower never smooths.
-/

namespace Edsp.C42
open Edsp.Env Edsp.Env.Ar Edsp.Spec

/-! ### Helper lemmas -/

structure Inv (s : State) : Prop where
  attack : s.attackGain = 0
  release : s.releaseGain = 0

theorem reset_ok {s : State} (h : Inv s) : reset s = .ok { s with last := 0 } := by
  have h1 := h.attack
  have h2 := h.release
  cases s
  simp only at h1 h2
  subst h1 h2
  simp [reset, bind, Except.bind, pure, Except.pure]

theorem make_ok (fs a r : ℝ) (b : Bool) :
    make fs a r b = .ok { sampleRate := fs, attackTime := a, attackGain := 0, releaseTime := r, releaseGain := 0,
                          last := 0, rectification := b } := by
  rw [make, reset_ok ⟨rfl, rfl⟩]

theorem step_inv {tiny : ℝ} {s : State} (h : Inv s) (op : Op) : ∃ s', step tiny s op = .ok s' ∧ Inv s' := by
  cases op with
  | sample x => exact ⟨_, rfl, h.1, h.2⟩
  | setSampleRate x => exact ⟨_, reset_ok (s := { s with sampleRate := x }) ⟨h.1, h.2⟩, h.1, h.2⟩
  | setAttackTime x => exact ⟨_, reset_ok (s := { s with attackTime := x }) ⟨h.1, h.2⟩, h.1, h.2⟩
  | setReleaseTime x => exact ⟨_, reset_ok (s := { s with releaseTime := x }) ⟨h.1, h.2⟩, h.1, h.2⟩
  | setRectification b => exact ⟨_, rfl, h.1, h.2⟩
  | reset => exact ⟨_, reset_ok h, h.1, h.2⟩

theorem run_inv {tiny : ℝ} {s : State} (h : Inv s) (ops : List Op) : ∃ s', run tiny s ops = .ok s' ∧ Inv s' := by
  induction ops generalizing s with
  | nil => exact ⟨s, rfl, h⟩
  | cons op ops ih =>
    obtain ⟨s1, e1, h1⟩ := step_inv (tiny := tiny) h op
    obtain ⟨s2, e2, h2⟩ := ih h1
    exact ⟨s2, by simp only [run, e1, bind, Except.bind, e2], h2⟩

/-- A state reached from a construction by any history. -/
def Reachable (tiny : ℝ) (s : State) : Prop :=
  ∃ fs a r b s0 ops, make fs a r b = .ok s0 ∧ run tiny s0 ops = .ok s

theorem reachable_inv {tiny : ℝ} {s : State} (h : Reachable tiny s) : Inv s := by
  obtain ⟨fs, a, r, b, s0, ops, h0, h1⟩ := h
  rw [make_ok] at h0
  cases h0
  obtain ⟨s', e, h'⟩ := run_inv (tiny := tiny)
    (s := { sampleRate := fs, attackTime := a, attackGain := 0, releaseTime := r, releaseGain := 0, last := 0,
            rectification := b }) ⟨rfl, rfl⟩ ops
  rw [h1] at e
  cases e
  exact h'

/-- The level of the input: its magnitude when rectification is on. -/
noncomputable def level (s : State) (x : ℝ) : ℝ := if s.rectification then |x| else x

/-! ### Theorems -/

/-- **C42 (moves towards the level, never past it).**  In every reachable state the output is the level of the input, or
zero when that level is subnormal (smaller than the least normal number).  Missing: the attack and release times have no
effect (`C42_violates`). -/
theorem C42_output_partial {tiny : ℝ} {s : State} (h : Reachable tiny s) (x : ℝ) :
    ((call tiny s x).1 = level s x ∨ (call tiny s x).1 = 0 ∧ |level s x| < tiny) ∧
      |level s x - (call tiny s x).1| ≤ max tiny 0 := by
  obtain ⟨h1, h2⟩ := reachable_inv h
  have e : (call tiny s x).1 = level s x ∨ (call tiny s x).1 = 0 ∧ |level s x| < tiny := by
    have hc : (if s.last < level s x then (1 - s.attackGain) * level s x + s.attackGain * s.last
        else (1 - s.releaseGain) * level s x + s.releaseGain * s.last) = level s x := by
      rw [h1, h2, ite_self]; ring
    have hu : ∀ c : ℝ, c = level s x → ∀ d : Decidable (isDenormal tiny c),
        (@ite ℝ (isDenormal tiny c) d 0 c = level s x ∨
          @ite ℝ (isDenormal tiny c) d 0 c = 0 ∧ |level s x| < tiny) := by
      rintro c rfl d
      by_cases hd : isDenormal tiny (level s x)
      · rw [if_pos hd]; exact Or.inr ⟨rfl, hd.2⟩
      · rw [if_neg hd]; exact Or.inl rfl
    exact hu _ hc _
  refine ⟨e, ?_⟩
  rcases e with e | ⟨e, e'⟩
  · rw [e, sub_self, abs_zero]; exact le_max_right _ _
  · rw [e, sub_zero]; exact le_trans e'.le (le_max_left _ _)

example : ∃ s, Reachable 0 s ∧ s.rectification = true ∧ s.last = 3 := by
  refine ⟨{ sampleRate := 44100, attackTime := 10, attackGain := 0, releaseTime := 1500, releaseGain := 0, last := 3,
            rectification := true }, ⟨44100, 10, 1500, true, _, [.sample (-3)], make_ok _ _ _ _, ?_⟩, rfl, rfl⟩
  norm_num [run, step, call, isDenormal, bind, Except.bind]

/-- **C42 is violated by every follower**: whatever its times, its sample rate and its history, one sample takes the output
to a normal input level exactly, where a follower with positive times keeps a fraction `exp(-1/(T fs)) > 0` of the distance
it starts from. -/
theorem C42_violates {tiny : ℝ} {s : State} (h : Reachable tiny s) (x : ℝ) (hx : tiny ≤ |level s x|)
    (hne : s.last ≠ level s x) (T fs : ℝ) :
    (call tiny s x).1 = level s x ∧ (call tiny s x).1 ≠ follow (Real.exp (-1 / (T * fs))) s.last (level s x) := by
  have e : (call tiny s x).1 = level s x := by
    rcases (C42_output_partial h x).1 with e | ⟨_, e⟩
    · exact e
    · exact absurd e (not_lt.2 hx)
  refine ⟨e, ?_⟩
  rw [e, follow]
  intro hc
  have : Real.exp (-1 / (T * fs)) * (s.last - level s x) = 0 := by linarith
  rcases mul_eq_zero.1 this with g | g
  · exact (Real.exp_pos _).ne' g
  · exact hne (by linarith)

example : ∃ s, Reachable (1 / 1000) s ∧ (1 / 1000 : ℝ) ≤ |level s 1| ∧ s.last ≠ level s 1 := by
  refine ⟨{ sampleRate := 44100, attackTime := 10, attackGain := 0, releaseTime := 1500, releaseGain := 0, last := 0,
            rectification := true }, ⟨44100, 10, 1500, true, _, [], make_ok _ _ _ _, rfl⟩, ?_⟩
  norm_num [level]

end Edsp.C42
