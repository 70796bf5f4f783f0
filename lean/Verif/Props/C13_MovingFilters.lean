import Verif.Lemmas.Moving
import Mathlib.Tactic.NormNum

/-!
# C13, C14, C15: moving average, moving root mean square, (moving) median

`moving agg n [] calls` (Spec/Moving.lean) is what a moving filter of length `n` should return for
a sequence of calls: the aggregate of the last `n` samples, the history restarting at `reset`
and `resize`.
-/

namespace Edsp.Props

open Edsp Edsp.Spec

/-- **C13** without `reset`/`resize`: for every length `n > 0` and every sample sequence, every
returned value is the mean of the last `n` samples.
Missing: histories with `reset` or `resize`, for which the law is false
(`C13_reset_violates`, `C13_resize_violates`). -/
theorem C13_moving_average_partial {K : Type} [Field K] (n : Nat) (h0 : 0 < n) (hn : n < 2 ^ 63)
    (xs : List K) :
    ∃ m m', MovingAverage.new n = .ok m ∧
      m.run (xs.map .tick) = .ok (m', moving mean n [] (xs.map .tick)) := by
  obtain ⟨w, hw, hr⟩ := RingBuffer.newFilled_refines (0 : K) hn 0
  obtain ⟨m', h1, _⟩ := Moving.average_run h0 xs ⟨w, 0⟩ []
    (by rw [Moving.window_nil]; exact hr) (by simp [Moving.window_nil])
  exact ⟨⟨w, 0⟩, m', by simp [MovingAverage.new, hw, bind, Except.bind, pure, Except.pure], h1⟩

/-- What `moving` says for a sequence of samples: value number `i` is the mean of the samples
`i-n+1 .. i` (zeros before the start). -/
theorem C13_spec_unfolded {K : Type} [Field K] (n : Nat) (xs : List K) :
    moving mean n [] (xs.map .tick)
      = (List.range xs.length).map fun i => (window n (xs.take (i + 1))).sum / n := by
  have key : ∀ (xs h : List K), moving mean n h (xs.map .tick)
      = (List.range xs.length).map fun i => (window n (h ++ xs.take (i + 1))).sum / n := by
    intro xs
    induction xs with
    | nil => intro h; rfl
    | cons x xs ih =>
      intro h
      simp only [List.map_cons, moving, ih, List.length_cons, List.range_succ_eq_map,
        List.take_succ_cons, List.take_zero, List.map_map, mean, Moving.window_length]
      congr 1
      apply List.map_congr_left
      intro i _
      simp
  simpa using key xs []

/-- **C13 is false with `reset`**: length 2, samples 4, 4, then `reset`, then 1 returns 5; the mean
of the samples since the reset is 1 (1/2 with a leading zero). -/
theorem C13_reset_violates :
    (do let m ← (MovingAverage.new 2 : Except Fault (MovingAverage ℚ))
        let (_, ys) ← m.run [.tick 4, .tick 4, .reset, .tick 1]
        return ys) = .ok [2, 4, 5] ∧
    moving mean 2 [] [.tick (4 : ℚ), .tick 4, .reset, .tick 1] = [2, 4, 1 / 2] := by
  constructor
  · decide +kernel
  · norm_num [moving, mean, window, lastOf]

/-- **C13 is false with `resize`**: even on a new filter, `resize(2)` and the samples 6, 2 return 6
and 1 instead of 3 and 4. -/
theorem C13_resize_violates :
    (do let m ← (MovingAverage.new 3 : Except Fault (MovingAverage ℚ))
        let (_, ys) ← m.run [.resize 2, .tick 6, .tick 2]
        return ys) = .ok [6, 1] ∧
    moving mean 3 [] [.resize 2, .tick (6 : ℚ), .tick 2] = [3, 4] := by
  constructor
  · decide +kernel
  · norm_num [moving, mean, window, lastOf]

/-- The length in force after a sequence of calls: that of the last `resize`. -/
def lengthAfter {K : Type} (n : Nat) : List (MovingOp K) → Nat
  | [] => n
  | .resize k :: ops => lengthAfter k ops
  | _ :: ops => lengthAfter n ops

private theorem Except.bind_ok {α β : Type} {a : Except Fault α} {f : α → Except Fault β} {b : β}
    (h : (a >>= f) = .ok b) : ∃ x, a = .ok x ∧ f x = .ok b := by
  cases a with
  | error e => cases h
  | ok x => exact ⟨x, rfl, h⟩

private theorem store_length {α : Type} {l l' : List α} {i : Nat} {v : α} (h : RingSpan.store l i v = .ok l') :
    l'.length = l.length := by
  unfold RingSpan.store at h
  split at h
  · injection h with h; rw [← h, List.length_set]
  · cases h

private theorem pushBack_size {α : Type} {w w' : RingBuffer α} {v : α} (h : w.pushBack v = .ok w')
    (hw : w.buffer.length = w.capacity) : w'.buffer.length = w'.capacity ∧ w'.capacity = w.capacity := by
  have key : ∀ {r : RingSpan} {l : List α}, w.span.pushBack w.buffer v = .ok (r, l) →
      r.cap = w.span.cap ∧ l.length = w.buffer.length := by
    intro r l h
    have hk : ∃ r', r'.cap = w.span.cap ∧ (do
        let i ← r'.backIdx
        let data' ← RingSpan.store w.buffer i v
        return (r', data')) = Except.ok (r, l) := by
      unfold RingSpan.pushBack at h
      dsimp only at h
      split at h
      · obtain ⟨r', h1, h⟩ := Except.bind_ok h
        obtain ⟨f, -, h1⟩ := Except.bind_ok h1
        injection h1 with h1
        exact ⟨r', by rw [← h1], h⟩
      · exact ⟨w.span.incrementBack, rfl, h⟩
    obtain ⟨r', hc, h⟩ := hk
    obtain ⟨i, -, h⟩ := Except.bind_ok h
    obtain ⟨d, h3, h⟩ := Except.bind_ok h
    injection h with h
    injection h with ha hb
    subst ha hb
    exact ⟨hc, store_length h3⟩
  unfold RingBuffer.pushBack at h
  obtain ⟨⟨r, l⟩, h1, h⟩ := Except.bind_ok h
  injection h with h
  obtain ⟨h2, h3⟩ := key h1
  rw [← h]
  exact ⟨h3.trans (hw.trans h2.symm), h2⟩

/-- **C13**, `size`: whatever the calls, it is the length of the constructor or of the last `resize`. -/
theorem C13_size {K : Type} [Field K] {n : Nat} {ops : List (MovingOp K)} {m m' : MovingAverage K} {ys : List K}
    (hm : MovingAverage.new n = .ok m) (h : m.run ops = .ok (m', ys)) : m'.size = lengthAfter n ops := by
  have key : ∀ (ops : List (MovingOp K)) (m : MovingAverage K) (ys : List K), m.window.buffer.length = m.size →
      m.run ops = .ok (m', ys) → m'.size = lengthAfter m.size ops := by
    intro ops
    induction ops with
    | nil =>
      intro m ys _ h
      injection h with h
      injection h with h _
      rw [← h]; rfl
    | cons op ops ih =>
      intro m ys hw h
      cases op with
      | tick x =>
        obtain ⟨⟨m1, y⟩, h1, h⟩ := Except.bind_ok h
        obtain ⟨⟨m2, zs⟩, h2, h⟩ := Except.bind_ok h
        injection h with h
        injection h with h _
        subst h
        unfold MovingAverage.tick at h1
        obtain ⟨f, -, h1⟩ := Except.bind_ok h1
        obtain ⟨w', h3, h1⟩ := Except.bind_ok h1
        injection h1 with h1
        injection h1 with h1 _
        obtain ⟨h4, h5⟩ := pushBack_size h3 hw
        have := ih m1 zs (by rw [← h1]; exact h4) h2
        rw [this, ← h1]
        exact congrArg (lengthAfter · ops) h5
      | reset => exact ih m.reset ys rfl h |>.trans (congrArg (lengthAfter · ops) hw)
      | resize k =>
        have hk : (m.resize k).size = k := by
          simp [MovingAverage.resize, MovingAverage.size, RingBuffer.resize, RingBuffer.capacity, RingSpan.mk2,
            RingBuffer.vecResize]
          omega
        have := ih (m.resize k) ys rfl h
        rw [hk] at this
        exact this
  have hn : m.size = n ∧ m.window.buffer.length = n := by
    simp only [MovingAverage.new, RingBuffer.newFilled, bind, Except.bind, pure, Except.pure] at hm
    split at hm
    · cases hm
    rename_i w hw
    split at hw
    · cases hw
    rename_i b hb
    injection hm with hm
    injection hw with hw
    rw [← hm, ← hw]
    have hf : ∀ (r : RingSpan) (c : Nat) (l l' : List K) (i : Nat), r.fillFrom 0 l i c = .ok l' → l'.length = l.length := by
      intro r c
      induction c with
      | zero => intro l l' i h; injection h with h; rw [← h]
      | succ c ih =>
        intro l l' i h
        simp only [RingSpan.fillFrom, bind, Except.bind] at h
        split at h
        · cases h
        split at h
        · cases h
        rename_i d hd
        exact (ih _ _ _ h).trans (store_length hd)
    have := hf _ _ _ _ _ hb
    simp only [RingBuffer.vecResize, List.take_nil, List.nil_append, List.length_replicate, List.length_nil,
      Nat.sub_zero] at this
    exact ⟨by simp [MovingAverage.size, RingBuffer.capacity, RingSpan.mk4, RingBuffer.vecResize], this⟩
  have := key ops m ys (hn.2.trans hn.1.symm) h
  rwa [hn.1] at this

/-- Length 3, then 2. -/
example : (do let m ← (MovingAverage.new 3 : Except Fault (MovingAverage ℚ))
              let (m', _) ← m.run [.tick 4, .resize 2, .tick 6, .reset]
              return m'.size) = .ok 2 := by decide +kernel

/-- Length 3 on 3, 6, 9, 12. -/
example : ∃ m m', (MovingAverage.new 3 : Except Fault (MovingAverage ℚ)) = .ok m ∧
    m.run [.tick 3, .tick 6, .tick 9, .tick 12] = .ok (m', [1, 3, 6, 9]) := by
  obtain ⟨m, m', h1, h2⟩ := C13_moving_average_partial (K := ℚ) 3 (by decide) (by decide) [3, 6, 9, 12]
  refine ⟨m, m', h1, ?_⟩
  have e : moving mean 3 [] ([3, 6, 9, 12].map .tick) = [(1 : ℚ), 3, 6, 9] := by
    norm_num [moving, mean, window, lastOf]
  rw [e] at h2; exact h2

/-- **C14** without `reset`/`resize`: every returned value is the root mean square of the last `n`
samples; the square root is never taken of a negative number.
Missing: histories with `reset` or `resize` (`C14_resize_violates`). -/
theorem C14_moving_rms_partial (n : Nat) (h0 : 0 < n) (hn : n < 2 ^ 63) (xs : List ℝ) :
    ∃ m m', MovingRms.new n = .ok m ∧
      m.run (xs.map .tick) = .ok (m', moving rms n [] (xs.map .tick)) := by
  obtain ⟨w, hw, hr⟩ := RingBuffer.newFilled_refines (0 : ℝ) hn 0
  obtain ⟨m', h1⟩ := Moving.rms_run h0 xs ⟨w, 0⟩ []
    (by simpa [Moving.window_nil] using hr) (by simp [Moving.window_nil])
  exact ⟨⟨w, 0⟩, m', by simp [MovingRms.new, hw, bind, Except.bind, pure, Except.pure], h1⟩

/-- **C14 is false with `resize`**: on a new filter, after `resize(2)`, the samples 2, 1, 1 make the
filter take the square root of a negative number. -/
theorem C14_resize_violates :
    ∃ m, MovingRms.new 3 = .ok m ∧
      m.run [.resize 2, .tick 2, .tick 1, .tick 1] = .error .domain := by
  refine ⟨⟨⟨[0, 0, 0], ⟨3, 3, 0⟩⟩, 0⟩, rfl, ?_⟩
  have t1 : MovingRms.tick ⟨⟨[0, 0], ⟨0, 2, 0⟩⟩, 0⟩ 2
      = .ok (⟨⟨[2 * 2, 0], ⟨1, 2, 0⟩⟩, 0 - 0 + 2 * 2⟩, Real.sqrt ((0 - 0 + 2 * 2) / (1 : Nat))) := by
    have hf : RingBuffer.front ⟨[(0 : ℝ), 0], ⟨0, 2, 0⟩⟩ = .ok 0 := rfl
    have hp : RingBuffer.pushBack ⟨[(0 : ℝ), 0], ⟨0, 2, 0⟩⟩ (2 * 2)
        = .ok ⟨[2 * 2, 0], ⟨1, 2, 0⟩⟩ := rfl
    rw [Moving.rms_tick (m := ⟨⟨[0, 0], ⟨0, 2, 0⟩⟩, 0⟩) (x := 2) hf hp, if_neg (by norm_num [RingBuffer.size])]; rfl
  have t2 : MovingRms.tick ⟨⟨[2 * 2, 0], ⟨1, 2, 0⟩⟩, 0 - 0 + 2 * 2⟩ 1
      = .ok (⟨⟨[2 * 2, 1 * 1], ⟨2, 2, 0⟩⟩, 0 - 0 + 2 * 2 - 2 * 2 + 1 * 1⟩,
          Real.sqrt ((0 - 0 + 2 * 2 - 2 * 2 + 1 * 1) / (2 : Nat))) := by
    have hf : RingBuffer.front ⟨[(2 * 2 : ℝ), 0], ⟨1, 2, 0⟩⟩ = .ok (2 * 2) := rfl
    have hp : RingBuffer.pushBack ⟨[(2 * 2 : ℝ), 0], ⟨1, 2, 0⟩⟩ (1 * 1)
        = .ok ⟨[2 * 2, 1 * 1], ⟨2, 2, 0⟩⟩ := rfl
    rw [Moving.rms_tick (m := ⟨⟨[2 * 2, 0], ⟨1, 2, 0⟩⟩, 0 - 0 + 2 * 2⟩) (x := 1) hf hp, if_neg (by norm_num [RingBuffer.size])]; rfl
  have t3 : MovingRms.tick ⟨⟨[2 * 2, 1 * 1], ⟨2, 2, 0⟩⟩, 0 - 0 + 2 * 2 - 2 * 2 + 1 * 1⟩ 1
      = .error .domain := by
    have hf : RingBuffer.front ⟨[(2 * 2 : ℝ), 1 * 1], ⟨2, 2, 0⟩⟩ = .ok (2 * 2) := rfl
    have hp : RingBuffer.pushBack ⟨[(2 * 2 : ℝ), 1 * 1], ⟨2, 2, 0⟩⟩ (1 * 1)
        = .ok ⟨[1 * 1, 1 * 1], ⟨2, 2, 1⟩⟩ := rfl
    rw [Moving.rms_tick (m := ⟨⟨[2 * 2, 1 * 1], ⟨2, 2, 0⟩⟩, 0 - 0 + 2 * 2 - 2 * 2 + 1 * 1⟩) (x := 1) hf hp, if_pos (by norm_num [RingBuffer.size])]
  have hz : MovingRms.resize ⟨⟨[0, 0, 0], ⟨3, 3, 0⟩⟩, 0⟩ 2 = ⟨⟨[0, 0], ⟨0, 2, 0⟩⟩, 0⟩ := rfl
  simp only [MovingRms.run, hz, t1, t2, t3, bind, Except.bind]

/-- Length 2 on 3, 4: the second value is the root mean square of both. -/
example : ∃ m m', MovingRms.new 2 = .ok m ∧
    m.run [.tick 3, .tick 4] = .ok (m', [Real.sqrt (9 / 2), Real.sqrt (25 / 2)]) := by
  obtain ⟨m, m', h1, h2⟩ := C14_moving_rms_partial 2 (by decide) (by decide) [3, 4]
  refine ⟨m, m', h1, ?_⟩
  have e : moving rms 2 [] ([3, 4].map .tick) = [Real.sqrt (9 / 2), Real.sqrt (25 / 2)] := by
    norm_num [moving, rms, window, lastOf]
  rw [e] at h2; exact h2

/-- **C15 is false**: `median` of a sequence of ones is not a median of it. -/
theorem C15_median_violates : ∃ l : List ℚ, l ≠ [] ∧ ¬ IsMedian l (median l) :=
  ⟨[1, 1, 1], by simp, by simp [IsMedian, median, List.countP_cons, List.countP_nil]; norm_num⟩

/-- **C15** where it does hold: the returned value is a median exactly when 0 is one.
Missing: every other sequence. -/
theorem C15_median_partial {K : Type} [Zero K] [LE K] [DecidableLE K] (l : List K) :
    IsMedian l (median l) ↔ IsMedian l 0 := Iff.rfl

/-- `moving_median` returns 0 whatever the samples, and so is wrong on the constant signal 1. -/
theorem C15_moving_median_violates :
    ∃ m m' : MovingMedian ℚ, MovingMedian.new 1 = .ok m ∧ m.tick 1 = .ok (m', 0) ∧
      ¬ IsMedian (window 1 [(1 : ℚ)]) 0 := by
  refine ⟨_, _, rfl, rfl, ?_⟩
  simp [IsMedian, window, lastOf]

end Edsp.Props
