import Verif.Model.InPlace
import Verif.Model.Features
import Verif.Lemmas.Memory
import Verif.Lemmas.Statistics
import Verif.Spec.Streams

/-!
# Loops over overlapping ranges
-/

namespace Edsp.InPlaceL
open Edsp Edsp.Spec Edsp.Mem Edsp.InPlace

variable {σ α : Type}

theorem runN_ok (f : σ → α → Except Fault (σ × α)) : ∀ (n : ℕ) (s s' : σ) (m : List α) (p d : ℕ) (ys : List α),
    p + n ≤ m.length → d + n ≤ m.length → (d ≤ p ∨ p + n ≤ d) → stream f s (seg m p (p + n)) = .ok (s', ys) →
    ∃ m', runN f n s m p d = .ok (s', m') ∧ Wrote m m' d ys
  | 0, s, s', m, p, d, ys, _, hd, _, h => by
    have e : seg m p (p + 0) = [] := by unfold seg; simp
    rw [e] at h
    simp only [stream, Except.ok.injEq, Prod.mk.injEq] at h
    obtain ⟨rfl, rfl⟩ := h
    exact ⟨m, rfl, wrote_nil m (by omega)⟩
  | n + 1, s, s', m, p, d, ys, hp, hd, ho, h => by
    have hv : m[p]? = some (m[p]'(by omega)) := List.getElem?_eq_getElem _
    rw [seg_cons hv] at h
    simp only [stream, bind, Except.bind, pure, Except.pure] at h
    cases h1 : f s (m[p]'(by omega)) with
    | error e => rw [h1] at h; simp at h
    | ok r =>
      obtain ⟨s1, y⟩ := r
      rw [h1] at h
      simp only at h
      cases h2 : stream f s1 (seg m (p + 1) (p + 1 + n)) with
      | error e => rw [h2] at h; simp at h
      | ok r =>
        obtain ⟨s2, zs⟩ := r
        rw [h2] at h
        simp only [Except.ok.injEq, Prod.mk.injEq] at h
        obtain ⟨rfl, rfl⟩ := h
        rw [← seg_set_of_out y (by omega : d < p + 1 ∨ p + 1 + n ≤ d)] at h2
        obtain ⟨m', h3, h4⟩ := runN_ok f n s1 s2 (m.set d y) (p + 1) (d + 1) zs (by rw [List.length_set]; omega)
          (by rw [List.length_set]; omega) (by omega) h2
        refine ⟨m', ?_, wrote_cons (by omega) h4⟩
        simp only [runN, bind, Except.bind, read_ok hv, h1, write_ok (by omega : d < m.length)]
        exact h3

theorem runN_error (f : σ → α → Except Fault (σ × α)) : ∀ (n : ℕ) (s : σ) (m : List α) (p d : ℕ) (e : Fault),
    p + n ≤ m.length → d + n ≤ m.length → (d ≤ p ∨ p + n ≤ d) → stream f s (seg m p (p + n)) = .error e →
    runN f n s m p d = .error e
  | 0, s, m, p, d, e, _, hd, _, h => by
    have e' : seg m p (p + 0) = [] := by unfold seg; simp
    rw [e'] at h
    simp [stream] at h
  | n + 1, s, m, p, d, e, hp, hd, ho, h => by
    have hv : m[p]? = some (m[p]'(by omega)) := List.getElem?_eq_getElem _
    rw [seg_cons hv] at h
    simp only [stream, bind, Except.bind, pure, Except.pure] at h
    cases h1 : f s (m[p]'(by omega)) with
    | error e' =>
      rw [h1] at h
      simp only [Except.error.injEq] at h
      simp only [runN, bind, Except.bind, read_ok hv, h1, h]
    | ok r =>
      obtain ⟨s1, y⟩ := r
      rw [h1] at h
      simp only at h
      simp only [runN, bind, Except.bind, read_ok hv, h1, write_ok (by omega : d < m.length)]
      refine runN_error f n s1 (m.set d y) (p + 1) (d + 1) e (by rw [List.length_set]; omega)
        (by rw [List.length_set]; omega) (by omega) ?_
      rw [seg_set_of_out y (by omega)]
      cases h2 : stream f s1 (seg m (p + 1) (p + 1 + n)) with
      | error e' => rw [h2] at h; simpa using h
      | ok r => rw [h2] at h; simp at h

theorem biquad_stream {K : Type} [Field K] : ∀ (xs : List K) (F : Biquad K),
    stream (fun (F : Biquad K) x => .ok (F.tick x)) F xs = .ok (F.filter xs)
  | [], F => rfl
  | x :: xs, F => by
    simp only [stream, bind, Except.bind, biquad_stream xs, Biquad.filter, pure, Except.pure]

theorem cascade_stream {K : Type} [Field K] : ∀ (xs : List K) (C : Cascade K),
    stream (fun (C : Cascade K) x => .ok (C.tick x)) C xs = .ok (C.filter xs)
  | [], C => rfl
  | x :: xs, C => by
    simp only [stream, bind, Except.bind, cascade_stream xs, Cascade.filter, pure, Except.pure]

theorem average_stream {K : Type} [Field K] : ∀ (xs : List K) (A : MovingAverage K),
    stream (fun (A : MovingAverage K) x => A.tick x) A xs = A.run (xs.map .tick)
  | [], A => rfl
  | x :: xs, A => by
    simp only [stream, List.map_cons, MovingAverage.run, average_stream xs]

theorem rms_stream : ∀ (xs : List ℝ) (A : MovingRms),
    stream (fun (A : MovingRms) x => A.tick x) A xs = A.run (xs.map .tick)
  | [], A => rfl
  | x :: xs, A => by
    simp only [stream, List.map_cons, MovingRms.run, rms_stream xs]

theorem adsr_stream : ∀ (xs : List ℝ) (S : Env.Adsr.State),
    stream (fun S x => .ok ((Env.Adsr.call S x).2, (Env.Adsr.call S x).1)) S xs =
      .ok ((Env.Adsr.apply S xs).2, (Env.Adsr.apply S xs).1)
  | [], S => rfl
  | x :: xs, S => by
    simp only [stream, bind, Except.bind, adsr_stream xs, Env.Adsr.apply, pure, Except.pure]

/-- The cells before the destination are not changed by the loop of `std::transform`. -/
theorem transformN_frame (f : α → α) : ∀ (n : ℕ) (m m' : List α) (s d j : ℕ), transformN f n m s d = .ok m' → j < d →
    m'[j]? = m[j]?
  | 0, m, m', s, d, j, h, _ => by
    simp only [transformN, Except.ok.injEq] at h
    rw [h]
  | n + 1, m, m', s, d, j, h, hj => by
    simp only [transformN, bind, Except.bind] at h
    cases h1 : read m s with
    | error e => rw [h1] at h; simp at h
    | ok v =>
      rw [h1] at h
      simp only at h
      by_cases hd : d < m.length
      · rw [write_ok hd] at h
        rw [transformN_frame f n _ m' (s + 1) (d + 1) j h (by omega), List.getElem?_set_ne (by omega)]
      · simp [write, hd] at h

/-- The loop of `std::transform` with a destination `k` cells after the source. -/
theorem transformN_echo (f : α → α) {k : ℕ} (hk : 0 < k) : ∀ (n : ℕ) (m m' : List α) (a : ℕ),
    transformN f n m a (a + k) = .ok m' → ∀ i < n, m'[a + k + i]? = (m[a + i % k]?).map (f^[i / k + 1])
  | 0, _, _, _, _, i, hi => by omega
  | n + 1, m, m', a, h, i, hi => by
    simp only [transformN, bind, Except.bind] at h
    cases h1 : m[a]? with
    | none => simp [Mem.read, h1] at h
    | some v =>
      rw [read_ok h1] at h
      simp only at h
      by_cases hd : a + k < m.length
      · rw [write_ok hd] at h
        simp only at h
        rw [show a + k + 1 = a + 1 + k by omega] at h
        cases i with
        | zero =>
          rw [Nat.add_zero (a + k), transformN_frame f n _ m' (a + 1) (a + 1 + k) (a + k) h (by omega),
            List.getElem?_set_self hd, Nat.zero_mod, Nat.add_zero a, h1, Nat.zero_div]
          rfl
        | succ i =>
          have ih := transformN_echo f hk n _ m' (a + 1) h i (by omega)
          rw [show a + k + (i + 1) = a + 1 + k + i by omega, ih]
          have hlt := Nat.mod_lt i hk
          have hdm := Nat.div_add_mod i k
          by_cases hc : i % k = k - 1
          · have e1 : (i + 1) % k = 0 := by
              have : i + 1 = k * (i / k + 1) := by rw [mul_add, mul_one]; omega
              rw [this, Nat.mul_mod_right]
            have e2 : (i + 1) / k = i / k + 1 := by
              have : i + 1 = k * (i / k + 1) := by rw [mul_add, mul_one]; omega
              rw [this, Nat.mul_div_cancel_left _ hk]
            rw [show a + 1 + i % k = a + k by omega, List.getElem?_set_self hd, e1, e2, Nat.add_zero a, h1]
            simp only [Option.map_some, Function.iterate_succ_apply]
          · have hs : i + 1 = (i % k + 1) + k * (i / k) := by omega
            have e1 : (i + 1) % k = i % k + 1 := by
              rw [hs, Nat.add_mul_mod_self_left, Nat.mod_eq_of_lt (by omega)]
            have e2 : (i + 1) / k = i / k := by
              rw [hs, Nat.add_mul_div_left _ _ hk, Nat.div_eq_of_lt (by omega), Nat.zero_add]
            rw [List.getElem?_set_ne (by omega), e1, e2, show a + 1 + i % k = a + (i % k + 1) by omega]
      · simp [write, hd] at h

open Feature Stat Edsp.StatL

theorem set_self {m : List ℝ} {d : ℕ} {v : ℝ} (hv : m[d]? = some v) : d < m.length ∧ m.set d v = m := by
  obtain ⟨hd, e⟩ := List.getElem?_eq_some_iff.mp hv
  subst e
  exact ⟨hd, List.set_getElem_self hd⟩

/-- The inner loop for lag 0 adds nothing. -/
theorem inner_zero {g : ℝ → ℝ} (hg : g 0 = 0) {first d : ℕ} : ∀ (c j : ℕ) (m : List ℝ) (v : ℝ),
    first + j + c ≤ m.length → m[d]? = some v → differenceInner g first 0 d c j m = .ok m
  | 0, j, m, v, _, _ => rfl
  | c + 1, j, m, v, h, hv => by
    have hj : m[first + j]? = some (m[first + j]'(by omega)) := List.getElem?_eq_getElem _
    obtain ⟨hd, hs⟩ := set_self hv
    simp only [differenceInner, bind, Except.bind, read_ok hj, Nat.add_zero, read_ok hv, sub_self, hg, add_zero,
      write_ok hd, hs]
    exact inner_zero hg c (j + 1) m v (by omega) hv

/-- The inner loop on zeros adds nothing. -/
theorem inner_zeros {g : ℝ → ℝ} (hg : g 0 = 0) {first i d : ℕ} : ∀ (c j : ℕ) (m : List ℝ),
    (∀ k < j + c + i, m[first + k]? = some 0) → m[d]? = some 0 → differenceInner g first i d c j m = .ok m
  | 0, j, m, _, _ => rfl
  | c + 1, j, m, h, hv => by
    obtain ⟨hd, hs⟩ := set_self hv
    simp only [differenceInner, bind, Except.bind, read_ok (h j (by omega)), read_ok (h (j + i) (by omega)), read_ok hv,
      sub_self, hg, add_zero, write_ok hd, hs]
    exact inner_zeros hg c (j + 1) m (fun k hk => h k (by omega)) hv

/-- In place on zeros the outer loop changes nothing. -/
theorem outer_zeros {g : ℝ → ℝ} (hg : g 0 = 0) {N first : ℕ} (hN : 0 < N) : ∀ (c i : ℕ) (m : List ℝ), i + c = N →
    (∀ k < N, m[first + k]? = some 0) → differenceOuter g N first c i (first + i) m = .ok m
  | 0, i, m, _, _ => rfl
  | c + 1, i, m, hc, h => by
    have hi := h i (by omega)
    obtain ⟨hd, hs⟩ := set_self hi
    have hN' : (N : ℝ) ≠ 0 := Nat.cast_ne_zero.mpr (by omega)
    simp only [differenceOuter, bind, Except.bind, write_ok hd, hs,
      inner_zeros hg (first := first) (i := i) (d := first + i) (N - i) 0 m (fun k hk => h k (by omega)) hi, read_ok hi, fdiv_ok hN', zero_div]
    exact outer_zeros hg hN c (i + 1) m (by omega) h

/-- In place, the first two cells are overwritten with 0 before any other result is computed. -/
theorem outer_start {g : ℝ → ℝ} (hg : g 0 = 0) {N first : ℕ} (hN : 2 ≤ N) {m : List ℝ} (hm : first + N ≤ m.length) :
    differenceOuter g N first N 0 first m =
      (do
        let m ← differenceInner g first 1 (first + 1) (N - 1) 0 ((m.set first 0).set (first + 1) 0)
        let v ← read m (first + 1)
        let m ← write m (first + 1) (← fdiv v (N : ℝ))
        differenceOuter g N first (N - 2) 2 (first + 2) m) := by
  obtain ⟨n, rfl⟩ : ∃ n, N = n + 2 := ⟨N - 2, by omega⟩
  have hd : first < m.length := by omega
  have hN' : ((n + 2 : ℕ) : ℝ) ≠ 0 := Nat.cast_ne_zero.mpr (by omega)
  have h0 : (m.set first 0)[first]? = some 0 := List.getElem?_set_self hd
  have hd' : first < (m.set first 0).length := by rw [List.length_set]; omega
  have h1 : first + 1 < (m.set first 0).length := by rw [List.length_set]; omega
  have hi := inner_zero hg (d := first) (n + 2 - 0) 0 (m.set first 0) 0 (by rw [List.length_set]; omega) h0
  conv_lhs => rw [differenceOuter]
  simp only [bind, Except.bind, write_ok hd, hi, read_ok h0, fdiv_ok hN', zero_div, write_ok hd', List.set_set]
  conv_lhs => rw [differenceOuter]
  simp only [bind, Except.bind, write_ok h1, Nat.add_sub_cancel, fdiv_ok hN']

end Edsp.InPlaceL
