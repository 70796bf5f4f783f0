import Verif.Spec.Moving
import Verif.Lemmas.RingBuffer
import Mathlib.Tactic.Ring
import Mathlib.Algebra.BigOperators.Group.List.Basic

/-! Helper lemmas: the window of the moving filters. -/

namespace Edsp.Moving

open Edsp Edsp.Spec

variable {K : Type}

theorem window_eq [Zero K] (n : Nat) (h : List K) :
    window n h = (List.replicate n 0 ++ h).drop h.length := by
  simp [window, lastOf]

theorem window_length [Zero K] (n : Nat) (h : List K) : (window n h).length = n := by
  simp [window_eq]

theorem window_snoc [Zero K] {n : Nat} (hn : 0 < n) (h : List K) (x : K) :
    window n (h ++ [x]) = (window n h).tail ++ [x] := by
  rw [window_eq, window_eq, ← List.append_assoc, List.length_append, List.length_singleton,
    List.drop_append_of_le_length (by simp; omega), List.tail_drop]

theorem window_nil [Zero K] (n : Nat) : window n ([] : List K) = List.replicate n 0 := by
  simp [window_eq]

theorem window_map [Zero K] (g : K → K) (hg : g 0 = 0) (n : Nat) (h : List K) :
    window n (h.map g) = (window n h).map g := by
  simp [window_eq, List.map_drop, hg]

/-- One tick on a full window. -/
theorem window_step [AddCommGroup K] {n : Nat} (hn : 0 < n) {w : RingBuffer K} {h : List K}
    (hr : RingBuffer.Refines w { cap := n, items := window n h }) (x : K) :
    ∃ f w', w.front = .ok f ∧ w.pushBack x = .ok w' ∧
      RingBuffer.Refines w' { cap := n, items := window n (h ++ [x]) } ∧ w'.size = n ∧
      (window n (h ++ [x])).sum = (window n h).sum - f + x := by
  have hl := window_length n h
  have hne : window n h ≠ [] := by intro h0; rw [h0] at hl; simp at hl; omega
  obtain ⟨r', d', hp, hc, hrep⟩ := RingSpan.pushBack_rep hr.1 (by rw [hr.2]; exact hn) x
  refine ⟨(window n h).head hne, ⟨d', r'⟩, RingSpan.frontVal_rep hr.1 hne, ?_, ?_, ?_, ?_⟩
  · simp [RingBuffer.pushBack, hp, bind, Except.bind, pure, Except.pure]
  · refine ⟨?_, hc.trans hr.2⟩
    have : (window n h).length = w.span.cap := by rw [hl, hr.2]
    rw [if_pos this] at hrep
    rw [window_snoc hn]; exact hrep
  · have := hrep.size
    have e : (window n h).length = w.span.cap := by rw [hl, hr.2]
    rw [if_pos e] at this
    simp [hl] at this
    show r'.size = n
    omega
  · rw [window_snoc hn, List.sum_append, List.sum_singleton]
    have e : (window n h).sum = (window n h).head hne + (window n h).tail.sum := by
      conv_lhs => rw [← List.cons_head_tail hne, List.sum_cons]
    rw [e]; simp

/-- The running sum of the moving average. -/
theorem average_run [Field K] {n : Nat} (hn : 0 < n) (xs : List K) :
    ∀ (m : MovingAverage K) (h : List K),
    RingBuffer.Refines m.window { cap := n, items := window n h } →
    m.accumulated = (window n h).sum →
    ∃ m', m.run (xs.map .tick) = .ok (m', moving mean n h (xs.map .tick)) ∧
      RingBuffer.Refines m'.window { cap := n, items := window n (h ++ xs) } := by
  induction xs with
  | nil => intro m h hr ha; exact ⟨m, rfl, by simpa using hr⟩
  | cons x xs ih =>
    intro m h hr ha
    obtain ⟨f, w', h1, h2, h3, h4, h5⟩ := window_step hn hr x
    obtain ⟨m', hm, hm'⟩ := ih ⟨w', m.accumulated - f + x⟩ (h ++ [x]) h3 (by rw [h5, ha])
    refine ⟨m', ?_, by simpa using hm'⟩
    have ht : m.tick x = .ok (⟨w', m.accumulated - f + x⟩, mean (window n (h ++ [x]))) := by
      unfold MovingAverage.tick
      simp only [h1, h2, bind, Except.bind, pure, Except.pure]
      rw [mean, window_length, h5, ha, h4]
    simp only [List.map_cons, MovingAverage.run, moving, ht, hm, bind, Except.bind, pure, Except.pure]

theorem rms_tick {m : MovingRms} {x f : ℝ} {w' : RingBuffer ℝ} (h1 : m.window.front = .ok f)
    (h2 : m.window.pushBack (x * x) = .ok w') :
    m.tick x = if (m.accumulated - f + x * x) / (w'.size : ℝ) < 0 then .error .domain
      else .ok (⟨w', m.accumulated - f + x * x⟩,
        Real.sqrt ((m.accumulated - f + x * x) / (w'.size : ℝ))) := by
  unfold MovingRms.tick
  simp only [h1, h2, bind, Except.bind]
  split <;> rfl

/-- The running sum of the moving root mean square. -/
theorem rms_run {n : Nat} (hn : 0 < n) (xs : List ℝ) :
    ∀ (m : MovingRms) (h : List ℝ),
    RingBuffer.Refines m.window { cap := n, items := window n (h.map fun x => x * x) } →
    m.accumulated = (window n (h.map fun x => x * x)).sum →
    ∃ m', m.run (xs.map .tick) = .ok (m', moving rms n h (xs.map .tick)) := by
  induction xs with
  | nil => intro m h hr ha; exact ⟨m, rfl⟩
  | cons x xs ih =>
    intro m h hr ha
    obtain ⟨f, w', h1, h2, h3, h4, h5⟩ := window_step hn hr (x * x)
    have e : (h ++ [x]).map (fun x => x * x) = h.map (fun x => x * x) ++ [x * x] := by simp
    obtain ⟨m', hm⟩ := ih ⟨w', m.accumulated - f + x * x⟩ (h ++ [x]) (by rw [e]; exact h3)
      (by rw [e, h5, ha])
    refine ⟨m', ?_⟩
    have hs : m.accumulated - f + x * x = ((window n (h ++ [x])).map fun x => x ^ 2).sum := by
      rw [ha, ← h5, ← e, window_map (fun x => x * x) (by simp)]
      congr 1
      apply List.map_congr_left
      intro a _; ring
    have hnn : 0 ≤ ((window n (h ++ [x])).map fun x => x ^ 2).sum := by
      apply List.sum_nonneg
      intro a ha
      obtain ⟨b, _, rfl⟩ := List.mem_map.mp ha
      exact sq_nonneg b
    have ht : m.tick x = .ok (⟨w', m.accumulated - f + x * x⟩, rms (window n (h ++ [x]))) := by
      unfold MovingRms.tick
      simp only [h1, h2, bind, Except.bind, pure, Except.pure]
      rw [if_neg]
      · rw [rms, window_length, hs, h4]
      · rw [hs, h4]
        exact not_lt.mpr (div_nonneg hnn (Nat.cast_nonneg n))
    simp only [List.map_cons, MovingRms.run, moving, ht, hm, bind, Except.bind, pure, Except.pure]

end Edsp.Moving
