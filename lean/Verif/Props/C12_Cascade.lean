import Verif.Lemmas.Cascade
import Mathlib.Tactic.NormNum

/-! # Property C12: the biquad cascade -/

namespace Edsp.Props

open Edsp Edsp.Spec

variable {K : Type*} [Field K]

/-- **C12.** For every capacity `N` and every history of calls, the cascade writes exactly what
the list-of-stages specification writes — each stage filtering the whole output of the previous
one — and stops with the same fault at the same call, if any; afterwards `size()` is the number
of stages of the specification and `capacity()` is still `N`. -/
theorem C12_history (N : Nat) (ops : List (Cascade.Op K)) :
    match (Cascade.new N).run ops with
    | .error e => cascadeRun N [] ops = .error e
    | .ok (c, written) => ∃ stages, cascadeRun N [] ops = .ok (stages, written) ∧
        c.size = stages.length ∧ c.capacity = N := by
  rcases Cascade.run_sim ops (Cascade.sim_new (K := K) N) with
    ⟨e, h1, h2⟩ | ⟨c, fs, o, h1, h2, h3⟩
  · simp only [h1]; exact h2
  · simp only [h1]; exact ⟨fs, h2, h3.num, h3.2.1⟩

/-- `size()` is the number of stages pushed since the last `clear`. -/
theorem C12_size (N : Nat) (ops : List (Cascade.Op K)) {c : Cascade K} {w : List (List K)}
    (h : (Cascade.new N).run ops = .ok (c, w)) :
    c.size = pushedSinceClear ops ∧ c.size ≤ N := by
  rcases Cascade.run_sim ops (Cascade.sim_new (K := K) N) with
    ⟨e, h1, h2⟩ | ⟨c', fs, o, h1, h2, h3⟩
  · rw [h] at h1; simp at h1
  · rw [h] at h1
    simp only [Except.ok.injEq, Prod.mk.injEq] at h1
    rw [h1.1]
    constructor
    · show c'.num = _
      rw [h3.num, Cascade.run_count ops h2, ← Cascade.foldl_count]; rfl
    · have := h3.1; unfold Cascade.Ok at this; rw [h3.2.1] at this; exact this

/-- The only fault is a push onto a full cascade: a history faults exactly when one of its pushes
comes after at least `N` pushes since the last `clear` (and the fault is the failed `ensure`). -/
theorem C12_fault_iff (N : Nat) (ops : List (Cascade.Op K)) :
    ((Cascade.new N).run ops = .error .assertion ↔
      ∃ before f after, ops = before ++ .push f :: after ∧ N ≤ pushedSinceClear before) ∧
    (∀ e, (Cascade.new N).run ops = .error e → e = .assertion) := by
  have only : ∀ (ops : List (Cascade.Op K)) (fs : List (Biquad K)) e,
      cascadeRun N fs ops = .error e → e = .assertion := by
    intro ops
    induction ops with
    | nil => intro fs e h; simp [cascadeRun] at h
    | cons op ops ih =>
      intro fs e h
      simp only [cascadeRun, bind, Except.bind] at h
      cases hs : cascadeStep N fs op with
      | error e' =>
        simp only [hs, Except.error.injEq] at h
        subst h
        cases op with
        | push f =>
          simp only [cascadeStep] at hs
          split at hs <;> simp at hs
          exact hs.symm
        | clear => simp [cascadeStep] at hs
        | reset => simp [cascadeStep] at hs
        | filter xs => simp [cascadeStep] at hs
      | ok r =>
        simp only [hs] at h
        cases hr : cascadeRun N r.1 ops with
        | error e' => simp only [hr, Except.error.injEq] at h; subst h; exact ih _ _ hr
        | ok r2 => simp [hr, pure, Except.pure] at h
  have tr : ∀ e, (Cascade.new N).run ops = .error e ↔ cascadeRun N [] ops = .error e := by
    intro e
    rcases Cascade.run_sim ops (Cascade.sim_new (K := K) N) with
      ⟨e', h1, h2⟩ | ⟨c, fs, o, h1, h2, h3⟩
    · simp only [h1, h2, Except.error.injEq]
    · rw [h1, h2]; simp
  refine ⟨?_, fun e h => only _ _ _ ((tr e).mp h)⟩
  rw [tr]
  have := Cascade.run_error_iff (N := N) ops (fs := [])
  simp only [List.length_nil, Cascade.foldl_count] at this
  rw [← this]
  exact ⟨fun h => ⟨_, h⟩, fun ⟨e, h⟩ => by rw [h, only _ _ _ h]⟩

/-- A cascade built by pushing `k ≤ N` stages outputs stage `k` of … of stage 1 of the signal;
with no stage it is the identity. -/
theorem C12_composition (N : Nat) (stages : List (Biquad K)) (hk : stages.length ≤ N)
    (x : List K) :
    ∃ c w, (Cascade.new N).run (stages.map .push) = .ok (c, w) ∧
      (c.filter x).2 = stages.foldl (fun signal stage => (stage.filter signal).2) x := by
  have key : ∀ (stages fs : List (Biquad K)), fs.length + stages.length ≤ N →
      ∃ w, cascadeRun N fs (stages.map .push) = .ok (fs ++ stages, w) := by
    intro stages
    induction stages with
    | nil => intro fs _; exact ⟨[], by simp [cascadeRun]⟩
    | cons s ss ih =>
      intro fs h
      simp only [List.length_cons] at h
      obtain ⟨w, hw⟩ := ih (fs ++ [s]) (by simp; omega)
      refine ⟨[] :: w, ?_⟩
      simp only [List.map_cons, cascadeRun, cascadeStep, bind, Except.bind]
      rw [if_pos (by omega)]
      simp [hw, pure, Except.pure]
  obtain ⟨w, hw⟩ := key stages [] (by simpa using hk)
  rcases Cascade.run_sim (stages.map .push) (Cascade.sim_new (K := K) N) with
    ⟨e', h1, h2⟩ | ⟨c, fs, o, h1, h2, h3⟩
  · rw [hw] at h2; simp at h2
  · rw [hw] at h2
    simp at h2
    refine ⟨c, o, h1, ?_⟩
    rw [Cascade.filter_eq c h3.1, h3.2.2, Biquad.through_eq_foldl, ← h2.1]

/-- A cleared cascade is the identity, whatever its history. -/
theorem C12_cleared (N : Nat) (ops : List (Cascade.Op K)) {c : Cascade K} {w : List (List K)}
    (h : (Cascade.new N).run (ops ++ [.clear]) = .ok (c, w)) (x : List K) :
    (c.filter x).2 = x ∧ c.size = 0 := by
  have hz : c.size = 0 := by
    rw [(C12_size N _ h).1]; simp [pushedSinceClear]
  refine ⟨?_, hz⟩
  have ht : ∀ (c : Cascade K), c.num = 0 → ∀ x : List K, (c.filter x).2 = x := by
    intro c hc x
    induction x with
    | nil => rfl
    | cons a x ih =>
      have : c.tick a = (c, a) := by unfold Cascade.tick; rw [hc]; cases c; simp_all [Cascade.tickLoop]
      show (c.tick a).2 :: ((c.tick a).1.filter x).2 = _
      rw [this]; simp [ih]
  exact ht c hz x

/-- From rest the order of the stages does not matter. -/
theorem C12_order_irrelevant (N : Nat) (stages stages' : List (Biquad K))
    (hp : stages.Perm stages') (hk : stages.length ≤ N)
    (hrest : ∀ f ∈ stages, f.w0 = 0 ∧ f.w1 = 0) (x : List K) :
    ∃ c w c' w', (Cascade.new N).run (stages.map .push) = .ok (c, w) ∧
      (Cascade.new N).run (stages'.map .push) = .ok (c', w') ∧
      (c.filter x).2 = (c'.filter x).2 := by
  obtain ⟨c, w, h1, h2⟩ := C12_composition N stages hk x
  obtain ⟨c', w', h1', h2'⟩ := C12_composition N stages' (hp.length_eq ▸ hk) x
  refine ⟨c, w, c', w', h1, h1', ?_⟩
  rw [h2, h2', ← Biquad.through_eq_foldl, ← Biquad.through_eq_foldl]
  exact Biquad.chain_perm hp hrest x

/-- A gain of two followed by a delay of one sample. -/
example : ∃ c w, (Cascade.new 2 : Cascade ℚ).run
      [.push { Biquad.default with b0 := 2 }, .push { Biquad.default with b0 := 0, b1 := 1 }]
        = .ok (c, w) ∧ (c.filter [1, 3, 5]).2 = [(0 : ℚ), 2, 6] := by
  obtain ⟨c, w, h1, h2⟩ := C12_composition (K := ℚ) 2
    [{ Biquad.default with b0 := 2 }, { Biquad.default with b0 := 0, b1 := 1 }] (by simp) [1, 3, 5]
  refine ⟨c, w, h1, ?_⟩
  rw [h2]; norm_num [Biquad.filter, Biquad.tick, Biquad.default]

/-- A third push on a cascade of capacity two faults. -/
example (f : Biquad ℚ) : (Cascade.new 2).run [.push f, .reset, .push f, .push f]
    = .error .assertion :=
  ((C12_fault_iff 2 _).1).mpr ⟨[.push f, .reset, .push f], f, [], rfl, by simp [pushedSinceClear]⟩

end Edsp.Props
