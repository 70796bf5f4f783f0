import Verif.Lemmas.IntSamples
import Verif.Lemmas.Moving
import Verif.Model.IntMoving
import Mathlib.Tactic.NormNum

/-!
# C114: moving filters on samples of a signed integer type

`window N h` (Spec/Moving.lean) are the last `N` samples of the history `h`, zeros before the first.
-/

namespace Edsp.Props

open Edsp Edsp.Spec Edsp.IntSamples

namespace C114

/-- The values returned, `g` of the window after each sample. -/
def outs (g : List Int → Int) (N : Nat) : List Int → List Int → List Int
  | _, [] => []
  | h, x :: xs => g (window N (h ++ [x])) :: outs g N (h ++ [x]) xs

theorem outs_length (g : List Int → Int) (N : Nat) (xs : List Int) : ∀ h, (outs g N h xs).length = xs.length := by
  induction xs with
  | nil => intro h; rfl
  | cons x xs ih => intro h; simp [outs, ih]

theorem outs_get (g : List Int → Int) (N : Nat) (xs : List Int) :
    ∀ h i, i < xs.length → (outs g N h xs)[i]? = some (g (window N (h ++ xs.take (i + 1)))) := by
  induction xs with
  | nil => intro h i hi; simp at hi
  | cons x xs ih =>
    intro h i hi
    cases i with
    | zero => simp [outs]
    | succ i =>
      simp only [outs, List.getElem?_cons_succ]
      rw [ih (h ++ [x]) i (by simpa using hi)]
      simp

theorem update_narrow {w : Nat} (hw : w < 32) (h0 : 0 < w) {a s f x : Int} (ha : a = wrap w s) (hf : Fits w f)
    (hx : Fits (max w 32) (wrap w (a - f) + x)) : update w a f x = .ok (wrap w (s - f + x)) := by
  have h1 : Fits w a := ha ▸ wrap_fits h0 s
  unfold update
  simp only [op_ok (fits_sub hw h0 h1 hf), op_ok hx, bind, Except.bind, pure, Except.pure]
  rw [wrap_wrap_add h0, ha, show wrap w s - f + x = wrap w s + (-f + x) by ring, wrap_wrap_add h0,
    show s + (-f + x) = s - f + x by ring]

theorem window_mem {N : Nat} {h : List Int} {y : Int} (hy : y ∈ window N h) : y = 0 ∨ y ∈ h := by
  unfold window lastOf at hy
  rcases List.mem_append.mp (List.mem_of_mem_drop hy) with h1 | h1
  · exact Or.inl (List.eq_of_mem_replicate h1)
  · exact Or.inr h1

theorem front_mem {N : Nat} (hN : 0 < N) {w : RingBuffer Int} {h : List Int}
    (hr : RingBuffer.Refines w { cap := N, items := window N h }) {f : Int} (hf : w.front = .ok f) :
    f ∈ window N h := by
  have hl := Moving.window_length N h
  have hne : window N h ≠ [] := by intro h0; rw [h0] at hl; simp at hl; omega
  have : w.front = .ok ((window N h).head hne) := RingSpan.frontVal_rep hr.1 hne
  rw [this] at hf
  cases hf
  exact List.head_mem hne

theorem average_narrow {w N : Nat} (hw : w < 32) (h0 : 0 < w) (hN : 0 < N) (hN' : (N : Int) < 2 ^ (w - 1))
    (xs : List Int) :
    ∀ (m : Moving) (h : List Int), (∀ x ∈ h ++ xs, Fits w x) →
      RingBuffer.Refines m.window { cap := N, items := window N h } → m.accumulated = wrap w (window N h).sum →
      ∃ m', runTicks (averageTick w) m xs = .ok (m', outs (fun l => Int.tdiv (wrap w l.sum) N) N h xs) := by
  have hz : Fits w 0 := ⟨by simp, by positivity⟩
  induction xs with
  | nil => intro m h _ _ _; exact ⟨m, rfl⟩
  | cons x xs ih =>
    intro m h hfit hr hacc
    obtain ⟨f, w', h1, h2, h3, h4, h5⟩ := Moving.window_step hN hr x
    have hff : Fits w f := by
      rcases window_mem (front_mem hN hr h1) with h | h
      · rw [h]; exact hz
      · exact hfit f (by simp [h])
    have hx : Fits w x := hfit x (by simp)
    have hu := update_narrow hw h0 hacc hff (x := x) (fits_add hw h0 (wrap_fits h0 _) hx)
    rw [← h5] at hu
    have hwn : wrap w (w'.size : Int) = N := by
      rw [h4]
      exact wrap_self h0 ⟨by have : (0 : Int) < 2 ^ (w - 1) := by positivity
                             omega, hN'⟩
    have hq := tdiv_fits (wrap_fits h0 (window N (h ++ [x])).sum) (show (0 : Int) < N by exact_mod_cast hN)
    obtain ⟨m', hm⟩ := ih ⟨w', wrap w (window N (h ++ [x])).sum⟩ (h ++ [x]) (by simpa using hfit) h3 rfl
    refine ⟨m', ?_⟩
    have ht : averageTick w m x
        = .ok (⟨w', wrap w (window N (h ++ [x])).sum⟩, Int.tdiv (wrap w (window N (h ++ [x])).sum) N) := by
      unfold averageTick
      simp only [h1, hu, h2, hwn, quot, bind, Except.bind, pure, Except.pure]
      rw [if_neg (by omega), op_ok (fits_mono (le_max_left w 32) hq)]
      simp only [wrap_self h0 hq]
    simp only [runTicks, ht, hm, outs, bind, Except.bind, pure, Except.pure]

theorem new_ok {N : Nat} (hN : N < 2 ^ 63) :
    ∃ m, Moving.new N = .ok m ∧ RingBuffer.Refines m.window { cap := N, items := window N [] } ∧ m.accumulated = 0 := by
  obtain ⟨w, h1, h2⟩ := RingBuffer.newFilled_refines (0 : Int) hN 0
  exact ⟨⟨w, 0⟩, by simp [Moving.new, h1, bind, Except.bind, pure, Except.pure], by rw [Moving.window_nil]; exact h2, rfl⟩

theorem lt63 {w N : Nat} (hw : w < 32) (hN : (N : Int) < 2 ^ (w - 1)) : N < 2 ^ 63 := by
  have : (2 : Int) ^ (w - 1) ≤ 2 ^ 63 := pow_le_pow_right₀ (by norm_num) (by omega)
  have : (N : Int) < 2 ^ 63 := by linarith
  exact_mod_cast this

end C114

open C114

/-- **C114, moving average** of a type narrower than `int`: each value returned is the mean of the last `N` samples
without its fraction, provided the sum of these samples is a value of the type; it does not matter how often the sums
before were not, and no error builds up however long the signal is.
Missing: windows whose sum the type does not hold (`C114_average_violates`), lengths the type does not hold
(`C114_average_length_violates`). -/
theorem C114_average_partial {w N : Nat} (hw : w < 32) (h0 : 0 < w) (hN : 0 < N) (hN' : (N : Int) < 2 ^ (w - 1))
    {xs : List Int} (hx : ∀ x ∈ xs, Fits w x) :
    ∃ m m' ys, Moving.new N = .ok m ∧ runTicks (averageTick w) m xs = .ok (m', ys) ∧ ys.length = xs.length ∧
      ∀ i, i < xs.length → Fits w (window N (xs.take (i + 1))).sum →
        ys[i]? = some (intMean (window N (xs.take (i + 1)))) := by
  obtain ⟨m, h1, h2, h3⟩ := new_ok (lt63 hw hN')
  obtain ⟨m', hm⟩ := average_narrow hw h0 hN hN' xs m [] (by simpa using hx) h2
    (by rw [h3, Moving.window_nil, List.sum_replicate, smul_zero]; exact (wrap_self h0 ⟨by simp, by positivity⟩).symm)
  refine ⟨m, m', _, h1, hm, outs_length _ _ _ _, fun i hi hf => ?_⟩
  rw [outs_get _ _ _ _ _ hi, List.nil_append, wrap_self h0 hf, tdiv_eq_cut _ hN, intMean, Moving.window_length]

/-- 16 bits, length 3: the second and third windows overflow, the fourth value is right again. -/
example : ∃ m m' ys, Moving.new 3 = .ok m ∧ runTicks (averageTick 16) m [30000, 30000, 20, -40] = .ok (m', ys) ∧
    ys[3]? = some 9993 := by
  obtain ⟨m, m', ys, h1, h2, -, h3⟩ := C114_average_partial (w := 16) (N := 3) (by decide) (by decide) (by decide)
    (by decide) (xs := [30000, 30000, 20, -40]) (by decide)
  refine ⟨m, m', ys, h1, h2, ?_⟩
  rw [h3 3 (by decide) (by decide), intMean, Moving.window_length, ← tdiv_eq_cut _ (by decide)]
  rfl

/-- **C114, moving average** of wider types: right if the samples are so small that `N` of them cannot leave the type. -/
theorem C114_average_wide_partial {w N : Nat} (hw : 32 ≤ w) (hN : 0 < N) (hN63 : N < 2 ^ 63) {A : Int}
    (hA : (N : Int) * A < 2 ^ (w - 1)) (hN' : (N : Int) < 2 ^ (w - 1)) {xs : List Int} (hx : ∀ x ∈ xs, |x| ≤ A) :
    ∃ m m' ys, Moving.new N = .ok m ∧ runTicks (averageTick w) m xs = .ok (m', ys) ∧ ys.length = xs.length ∧
      ∀ i, i < xs.length → ys[i]? = some (intMean (window N (xs.take (i + 1)))) := by
  have h0 : 0 < w := by omega
  have hp : (0 : Int) < 2 ^ (w - 1) := by positivity
  cases hxs : xs with
  | nil =>
    obtain ⟨m, h1, -, -⟩ := new_ok hN63
    exact ⟨m, m, [], h1, rfl, rfl, fun i hi => by simp at hi⟩
  | cons z zs =>
  have hA0 : 0 ≤ A := (abs_nonneg z).trans (hx z (by rw [hxs]; simp))
  rw [← hxs]
  have hsum : ∀ l : List Int, (∀ y ∈ l, |y| ≤ A) → (l.length : Int) ≤ N → Fits w l.sum := by
    intro l hl hlen
    have h1 : |l.sum| ≤ l.length * A := by
      clear hlen
      induction l with
      | nil => simp
      | cons y l ih =>
        rw [List.sum_cons, List.length_cons]
        have := abs_add_le y l.sum
        have := hl y (by simp)
        have := ih fun z hz => hl z (by simp [hz])
        push_cast
        linarith
    have h2 : (l.length : Int) * A ≤ N * A := mul_le_mul_of_nonneg_right hlen hA0
    have h3 := abs_le.mp (h1.trans h2)
    exact ⟨by linarith [h3.1], by linarith [h3.2]⟩
  have hwin : ∀ h : List Int, (∀ x ∈ h, |x| ≤ A) → ∀ y ∈ window N h, |y| ≤ A := by
    intro h hh y hy
    rcases window_mem hy with rfl | h1
    · simpa using hA0
    · exact hh y h1
  have key : ∀ (xs : List Int) (m : Moving) (h : List Int), (∀ x ∈ h ++ xs, |x| ≤ A) →
      RingBuffer.Refines m.window { cap := N, items := window N h } → m.accumulated = (window N h).sum →
      ∃ m', runTicks (averageTick w) m xs = .ok (m', outs (fun l => Int.tdiv l.sum N) N h xs) := by
    intro xs
    induction xs with
    | nil => intro m h _ _ _; exact ⟨m, rfl⟩
    | cons x xs ih =>
      intro m h hfit hr hacc
      obtain ⟨f, w', h1, h2, h3, h4, h5⟩ := Moving.window_step hN hr x
      have hnew : Fits w (window N (h ++ [x])).sum :=
        hsum _ (hwin _ fun y hy => hfit y (by simp at hy ⊢; tauto)) (by rw [Moving.window_length])
      have hmid : Fits w (m.accumulated - f) := by
        have e : m.accumulated - f = ((window N (h ++ [x])).take (N - 1)).sum := by
          have hl := Moving.window_length N h
          rw [Moving.window_snoc hN, List.take_left' (by simp [hl])]
          rw [Moving.window_snoc hN, List.sum_append, List.sum_singleton] at h5
          rw [hacc]; linarith
        rw [e]
        refine hsum _ (fun y hy => hwin (h ++ [x]) (fun z hz => hfit z (by simp at hz ⊢; tauto)) y (List.mem_of_mem_take hy)) ?_
        rw [List.length_take, Moving.window_length]
        have : min (N - 1) N ≤ N := by omega
        exact_mod_cast this
      have hu : update w m.accumulated f x = .ok (window N (h ++ [x])).sum := by
        have hnew' : Fits w (m.accumulated - f + x) := by rw [hacc, ← h5]; exact hnew
        unfold update
        simp only [op_ok (fits_mono (le_max_left w 32) hmid), wrap_self h0 hmid,
          op_ok (fits_mono (le_max_left w 32) hnew'), wrap_self h0 hnew', bind, Except.bind, pure, Except.pure]
        rw [hacc, ← h5]
      have hwn : wrap w (w'.size : Int) = N := by
        rw [h4]; exact wrap_self h0 ⟨by omega, hN'⟩
      have hq := tdiv_fits hnew (show (0 : Int) < N by exact_mod_cast hN)
      obtain ⟨m', hm⟩ := ih ⟨w', (window N (h ++ [x])).sum⟩ (h ++ [x]) (by simpa using hfit) h3 rfl
      refine ⟨m', ?_⟩
      have ht : averageTick w m x
          = .ok (⟨w', (window N (h ++ [x])).sum⟩, Int.tdiv (window N (h ++ [x])).sum N) := by
        unfold averageTick
        simp only [h1, hu, h2, hwn, quot, bind, Except.bind, pure, Except.pure]
        rw [if_neg (by omega), op_ok (fits_mono (le_max_left w 32) hq)]
        simp only [wrap_self h0 hq]
      simp only [runTicks, ht, hm, outs, bind, Except.bind, pure, Except.pure]
  obtain ⟨m, h1, h2, h3⟩ := new_ok hN63
  obtain ⟨m', hm⟩ := key xs m [] (by simpa using hx) h2
    (by rw [h3, Moving.window_nil, List.sum_replicate, smul_zero])
  refine ⟨m, m', _, h1, hm, outs_length _ _ _ _, fun i hi => ?_⟩
  rw [outs_get _ _ _ _ _ hi, List.nil_append, tdiv_eq_cut _ hN, intMean, Moving.window_length]

/-- 32 bits, length 4. -/
example : ∃ m m' ys, Moving.new 4 = .ok m ∧ runTicks (averageTick 32) m [40000, 60001] = .ok (m', ys) ∧
    ys[1]? = some 25000 := by
  obtain ⟨m, m', ys, h1, h2, -, h3⟩ := C114_average_wide_partial (w := 32) (N := 4) (A := 100000) (by decide) (by decide)
    (by decide) (by decide) (by decide) (xs := [40000, 60001]) (by decide)
  refine ⟨m, m', ys, h1, h2, ?_⟩
  rw [h3 1 (by decide), intMean, Moving.window_length, ← tdiv_eq_cut _ (by decide)]
  rfl

/-- **C114 is violated by loud constant signals**: the average of samples `A` whose `N`-fold is not a value of the type
settles below `A` (for ever). -/
theorem C114_average_violates {w N : Nat} (hw : w < 32) (h0 : 0 < w) (hN' : (N : Int) < 2 ^ (w - 1))
    {A : Int} (hA : 0 < A) (hf : Fits w A) (hbig : 2 ^ (w - 1) ≤ N * A) (k : Nat) :
    ∃ m m' ys, Moving.new N = .ok m ∧ runTicks (averageTick w) m (List.replicate k A) = .ok (m', ys) ∧
      ∀ i, N ≤ i + 1 → i < k → ∃ y, ys[i]? = some y ∧ y < A := by
  have hp : (0 : Int) < 2 ^ (w - 1) := by positivity
  have hN : 0 < N := by
    rcases Nat.eq_zero_or_pos N with rfl | h
    · simp at hbig; omega
    · exact h
  obtain ⟨m, h1, h2, h3⟩ := new_ok (lt63 hw hN')
  obtain ⟨m', hm⟩ := average_narrow hw h0 hN hN' (List.replicate k A) m []
    (by intro x hx; rw [List.nil_append] at hx; rw [List.eq_of_mem_replicate hx]; exact hf) h2
    (by rw [h3, Moving.window_nil, List.sum_replicate, smul_zero]; exact (wrap_self h0 ⟨by simp, by positivity⟩).symm)
  refine ⟨m, m', _, h1, hm, fun i hi hik => ⟨_, outs_get _ _ _ _ _ (by simpa using hik), ?_⟩⟩
  have hwin : window N ([] ++ (List.replicate k A).take (i + 1)) = List.replicate N A := by
    rw [Moving.window_eq, List.nil_append, List.take_replicate, List.length_replicate, min_eq_left (by omega),
      List.drop_append, List.drop_replicate, List.length_replicate, List.drop_replicate]
    rw [show N - (i + 1) = 0 by omega, List.replicate_zero, List.nil_append]
    congr 1; omega
  rw [hwin, List.sum_replicate, nsmul_eq_mul]
  have hsf := wrap_fits h0 ((N : Int) * A)
  by_contra hge
  push Not at hge
  have e1 : (N : Int) * A ≤ N * Int.tdiv (wrap w (N * A)) N := mul_le_mul_of_nonneg_left hge (by positivity)
  have hpos : 0 ≤ wrap w (N * A) := by
    by_contra hneg
    push Not at hneg
    have := Int.tdiv_nonneg (show 0 ≤ -wrap w (N * A) by omega) (show (0 : Int) ≤ N by positivity)
    rw [Int.neg_tdiv] at this
    omega
  have e2 : N * Int.tdiv (wrap w (N * A)) N ≤ wrap w (N * A) := by
    rw [Int.tdiv_eq_ediv_of_nonneg hpos]
    exact Int.mul_ediv_self_le (by omega)
  have := hsf.2
  omega

/-- 16 bits, length 8, samples 5000. -/
example (k : Nat) : ∃ m m' ys, Moving.new 8 = .ok m ∧
    runTicks (averageTick 16) m (List.replicate k 5000) = .ok (m', ys) ∧
      ∀ i, 8 ≤ i + 1 → i < k → ∃ y, ys[i]? = some y ∧ y < 5000 :=
  C114_average_violates (by decide) (by decide) (by decide) (by decide) (by decide) (by decide) k

/-- A length that is a multiple of `2^w` makes the first sample a division by zero. -/
theorem C114_average_length_violates {w N : Nat} (hw : w < 32) (h0 : 0 < w) (hN : 0 < N) (hN63 : N < 2 ^ 63)
    (hd : 2 ^ w ∣ N) {x : Int} (hx : Fits w x) (xs : List Int) :
    ∃ m, Moving.new N = .ok m ∧ runTicks (averageTick w) m (x :: xs) = .error .divByZero := by
  have hz : Fits w 0 := ⟨by simp, by positivity⟩
  obtain ⟨m, e1, e2, e3⟩ := new_ok hN63
  refine ⟨m, e1, ?_⟩
  obtain ⟨f, w', h1, h2, h3, h4, h5⟩ := Moving.window_step hN e2 x
  have hff : Fits w f := by
    rcases window_mem (front_mem hN e2 h1) with h | h
    · rw [h]; exact hz
    · simp at h
  have hu := update_narrow hw h0 (a := m.accumulated) (s := 0) (by rw [e3, wrap_self h0 hz]) hff (x := x)
    (fits_add hw h0 (wrap_fits h0 _) hx)
  have hwn : wrap w (w'.size : Int) = 0 := by
    rw [h4]
    refine wrap_eq h0 hz ?_
    rw [zero_sub, dvd_neg]
    exact_mod_cast hd
  have ht : averageTick w m x = .error .divByZero := by
    unfold averageTick
    simp only [h1, hu, h2, hwn, quot, bind, Except.bind, if_true]
  simp only [runTicks, ht, bind, Except.bind]

/-- 8 bits, length 256. -/
example : ∃ m, Moving.new 256 = .ok m ∧ runTicks (averageTick 8) m [1, 2] = .error .divByZero :=
  C114_average_length_violates (by decide) (by decide) (by decide) (by decide) (by decide) (by decide) _

namespace C114

/-- The root of the integer mean. -/
theorem sqrtI_ok {w N : Nat} (hN : 0 < N) {S : Int} (hS : 0 ≤ S) (hf : Fits w S) :
    ∃ y : Int, sqrtI w (Int.tdiv S N) = .ok y ∧ 0 ≤ y ∧ N * (y * y) ≤ S ∧ S < N * ((y + 1) * (y + 1)) := by
  have hN' : (0 : Int) < N := by exact_mod_cast hN
  have hq := tdiv_fits hf hN'
  rw [Int.tdiv_eq_ediv_of_nonneg hS] at *
  have hq0 : 0 ≤ S / (N : Int) := Int.ediv_nonneg hS hN'.le
  obtain ⟨q, hqe⟩ := Int.eq_ofNat_of_zero_le hq0
  have h1 : Nat.sqrt q * Nat.sqrt q ≤ q := Nat.sqrt_le q
  have h2 : q < (Nat.sqrt q + 1) * (Nat.sqrt q + 1) := Nat.lt_succ_sqrt q
  have h3 : (Nat.sqrt q : Int) ≤ q := by exact_mod_cast Nat.sqrt_le_self q
  have hp : (0 : Int) < 2 ^ (w - 1) := by positivity
  refine ⟨Nat.sqrt q, ?_, by positivity, ?_, ?_⟩
  · unfold sqrtI
    rw [hqe, if_neg (by omega), Int.toNat_natCast, if_pos]
    rw [hqe] at hq
    exact fits_iff.mpr ⟨by omega, by have := hq.2; omega⟩
  · have e1 : (N : Int) * (Nat.sqrt q * Nat.sqrt q) ≤ N * q := by
      apply mul_le_mul_of_nonneg_left _ hN'.le; exact_mod_cast h1
    have e2 := Int.mul_ediv_self_le (x := S) (k := (N : Int)) hN'.ne'
    rw [hqe] at e2
    exact e1.trans e2
  · have e1 : (q : Int) + 1 ≤ (Nat.sqrt q + 1) * (Nat.sqrt q + 1) := by exact_mod_cast h2
    have e2 : (N : Int) * (q + 1) ≤ N * ((Nat.sqrt q + 1) * (Nat.sqrt q + 1)) := mul_le_mul_of_nonneg_left e1 hN'.le
    have e3 := Int.lt_mul_ediv_self_add (x := S) hN'
    rw [hqe] at e3
    linarith

theorem window_squares (N : Nat) (h : List Int) :
    (window N (h.map fun x => x * x)).sum = sumSquares (window N h) := by
  rw [Moving.window_map (fun x => x * x) (by simp)]; rfl

/-- The window of the moving root mean square holds the squares converted to the type. -/
theorem rms_run {w N : Nat} (h0 : 0 < w) (hN : 0 < N) (hN' : (N : Int) < 2 ^ (w - 1))
    (xs : List Int) :
    ∀ (m : Moving) (h : List Int), (∀ x ∈ h ++ xs, Fits w x) →
      (∀ i, i ≤ xs.length → sumSquares (window N (h ++ xs.take i)) < 2 ^ (w - 1)) →
      RingBuffer.Refines m.window { cap := N, items := window N (h.map fun x => x * x) } →
      m.accumulated = sumSquares (window N h) →
      ∃ m' ys, runTicks (rmsTick w) m xs = .ok (m', ys) ∧ ys.length = xs.length ∧
        ∀ i, i < xs.length → ∃ y, ys[i]? = some y ∧ IsFloorRms (window N (h ++ xs.take (i + 1))) y := by
  have hp : (0 : Int) < 2 ^ (w - 1) := by positivity
  induction xs with
  | nil => intro m h _ _ _ _; exact ⟨m, [], rfl, rfl, fun i hi => by simp at hi⟩
  | cons x xs ih =>
    intro m h hfit hsum hr hacc
    have hS1 := hsum 1 (by simp)
    simp only [List.take_succ_cons, List.take_zero] at hS1
    have hS0 := sumSquares_nonneg (window N (h ++ [x]))
    have hSf : Fits w (sumSquares (window N (h ++ [x]))) := ⟨by linarith, hS1⟩
    have hsnoc : sumSquares (window N (h ++ [x])) = sumSquares (window N h).tail + x * x := by
      rw [Moving.window_snoc hN]; simp [sumSquares]
    have hxx : Fits w (x * x) := by
      have := sumSquares_nonneg (window N h).tail
      have := mul_self_nonneg x
      exact ⟨by linarith, by linarith⟩
    obtain ⟨f, w', h1, h2, h3, h4, h5⟩ := Moving.window_step hN hr (x * x)
    have e : h.map (fun x => x * x) ++ [x * x] = (h ++ [x]).map fun x => x * x := by simp
    rw [e, window_squares, window_squares] at h5
    rw [e] at h3
    have hmid : m.accumulated - f = sumSquares (window N h).tail := by rw [hacc]; linarith
    have hmf : Fits w (m.accumulated - f) := by
      rw [hmid]
      have := sumSquares_nonneg (window N h).tail
      have := mul_self_nonneg x
      exact ⟨by linarith, by linarith⟩
    have hu : update w m.accumulated f (x * x) = .ok (sumSquares (window N (h ++ [x]))) := by
      have hnew : Fits w (m.accumulated - f + x * x) := by rw [hacc, ← h5]; exact hSf
      unfold update
      simp only [op_ok (fits_mono (le_max_left w 32) hmf), wrap_self h0 hmf,
        op_ok (fits_mono (le_max_left w 32) hnew), wrap_self h0 hnew, bind, Except.bind, pure, Except.pure]
      rw [hacc, ← h5]
    have hwn : wrap w (w'.size : Int) = N := by
      rw [h4]; exact wrap_self h0 ⟨by omega, hN'⟩
    have hq := tdiv_fits hSf (show (0 : Int) < N by exact_mod_cast hN)
    obtain ⟨y, hy1, hy2, hy3, hy4⟩ := sqrtI_ok hN hS0 hSf
    obtain ⟨m', ys, hm, hl, hys⟩ := ih ⟨w', sumSquares (window N (h ++ [x]))⟩ (h ++ [x]) (by simpa using hfit)
      (fun i hi => by simpa using hsum (i + 1) (by simpa using hi)) h3 rfl
    have ht : rmsTick w m x = .ok (⟨w', sumSquares (window N (h ++ [x]))⟩, y) := by
      unfold rmsTick
      simp only [op_ok (fits_mono (le_max_left w 32) hxx), h1, hu, wrap_self h0 hxx, h2, hwn, quot, bind, Except.bind,
        pure, Except.pure]
      rw [if_neg (by omega), op_ok (fits_mono (le_max_left w 32) hq)]
      simp only [hy1]
    refine ⟨m', y :: ys, ?_, by simp [hl], ?_⟩
    · simp only [runTicks, ht, hm, bind, Except.bind, pure, Except.pure]
    · intro i hi
      cases i with
      | zero =>
        refine ⟨y, rfl, ?_⟩
        simp only [List.take_succ_cons, List.take_zero, IsFloorRms, Moving.window_length]
        exact ⟨hy2, hy3, hy4⟩
      | succ i =>
        obtain ⟨z, hz1, hz2⟩ := hys i (by simpa using hi)
        exact ⟨z, by simpa using hz1, by simpa using hz2⟩

end C114

/-- **C114, moving root mean square**: each value returned is the root mean square of
the last `N` samples without its fraction, provided the sums of the squares are values of the type.
Missing: louder signals (`C114_rms_violates`, `C114_rms_overflow_violates`). -/
theorem C114_rms_partial {w N : Nat} (h0 : 0 < w) (hN : 0 < N) (hN63 : N < 2 ^ 63)
    (hN' : (N : Int) < 2 ^ (w - 1)) {xs : List Int} (hx : ∀ x ∈ xs, Fits w x)
    (hs : ∀ i, i ≤ xs.length → sumSquares (window N (xs.take i)) < 2 ^ (w - 1)) :
    ∃ m m' ys, Moving.new N = .ok m ∧ runTicks (rmsTick w) m xs = .ok (m', ys) ∧ ys.length = xs.length ∧
      ∀ i, i < xs.length → ∃ y, ys[i]? = some y ∧ IsFloorRms (window N (xs.take (i + 1))) y := by
  obtain ⟨m, h1, h2, h3⟩ := new_ok hN63
  obtain ⟨m', ys, hm, hl, hys⟩ := C114.rms_run h0 hN hN' xs m [] (by simpa using hx) (by simpa using hs)
    (by simpa using h2) (by rw [h3, Moving.window_nil]; simp [sumSquares])
  exact ⟨m, m', ys, h1, hm, hl, by simpa using hys⟩

/-- 16 bits, length 2. -/
example : ∃ m m' ys, Moving.new 2 = .ok m ∧ runTicks (rmsTick 16) m [100, -50, 30] = .ok (m', ys) ∧
    ys.length = 3 ∧ ∀ i, i < 3 → ∃ y, ys[i]? = some y ∧ IsFloorRms (window 2 ([100, -50, 30].take (i + 1))) y :=
  C114_rms_partial (by decide) (by decide) (by decide) (by decide) (by decide) (by decide)

/-- **C114 is violated by ordinary samples** of at most 16 bits: one sample whose square is between `2^(w-1)` and
`2^w - N` makes a new filter take the root of a negative number and convert the result, which is undefined. -/
theorem C114_rms_violates {w N : Nat} (hw : w ≤ 16) (h0 : 0 < w) (hN : 0 < N) (hN' : (N : Int) < 2 ^ (w - 1)) {x : Int}
    (hx : Fits w x) (h1 : 2 ^ (w - 1) ≤ x * x) (h2 : x * x + N ≤ 2 ^ w) (xs : List Int) :
    ∃ m, Moving.new N = .ok m ∧ runTicks (rmsTick w) m (x :: xs) = .error .domain := by
  have hz : Fits w 0 := ⟨by simp, by positivity⟩
  have hp : (0 : Int) < 2 ^ (w - 1) := by positivity
  obtain ⟨m, e1, e2, e3⟩ := new_ok (lt63 (by omega) hN')
  refine ⟨m, e1, ?_⟩
  obtain ⟨g1, g2⟩ := sum_square_fits hw hz hx
  obtain ⟨f, w', k1, k2, k3, k4, k5⟩ := Moving.window_step hN e2 (wrap w (x * x))
  have hf0 : f = 0 := by
    rcases window_mem (front_mem hN e2 k1) with h | h
    · exact h
    · simp at h
  have hu := update_narrow (w := w) (by omega) h0 (a := m.accumulated) (s := 0) (by rw [e3, wrap_self h0 hz])
    (f := f) (by rw [hf0]; exact hz) (x := x * x) (by rw [e3, hf0, sub_zero, wrap_self h0 hz]; exact g2)
  rw [hf0, sub_zero, zero_add] at hu
  have h2w := two_pow h0
  have hwr : wrap w (x * x) = x * x - 2 ^ w :=
    wrap_eq h0 ⟨by linarith, by linarith⟩ ⟨-1, by ring⟩
  have hwn : wrap w (w'.size : Int) = N := by
    rw [k4]; exact wrap_self h0 ⟨by omega, hN'⟩
  have hq := tdiv_fits (wrap_fits h0 (x * x)) (show (0 : Int) < N by exact_mod_cast hN)
  have hneg : Int.tdiv (wrap w (x * x)) N < 0 := by
    have h3 : 1 ≤ Int.tdiv (-(wrap w (x * x))) N := by
      rw [Int.tdiv_eq_ediv_of_nonneg (by omega)]
      exact (Int.le_ediv_iff_mul_le (by omega)).mpr (by omega)
    rw [Int.neg_tdiv] at h3
    omega
  have ht : rmsTick w m x = .error .domain := by
    unfold rmsTick
    rw [hf0] at k1
    simp only [op_ok g1, k1, hu, k2, hwn, quot, bind, Except.bind]
    rw [if_neg (by omega), op_ok (fits_mono (le_max_left w 32) hq)]
    simp only [sqrtI]
    rw [if_pos hneg]
  simp only [runTicks, ht, bind, Except.bind]

/-- 16 bits, length 64, one sample of 182. -/
example : ∃ m, Moving.new 64 = .ok m ∧ runTicks (rmsTick 16) m [182, 5] = .error .domain :=
  C114_rms_violates (by decide) (by decide) (by decide) (by decide) (by decide) (by decide) (by decide) _

/-- In wider types a square that does not fit is undefined at once. -/
theorem C114_rms_overflow_violates {w : Nat} (hw : 32 ≤ w) {x : Int} (hx : ¬ Fits w (x * x)) (m : Moving) (xs : List Int) :
    runTicks (rmsTick w) m (x :: xs) = .error .overflow := by
  have ht : rmsTick w m x = .error .overflow := by
    unfold rmsTick
    rw [op_err (by rwa [max_eq_left hw])]; rfl
  simp only [runTicks, ht, bind, Except.bind]

/-- 32 bits, a sample of 46341. -/
example (m : Moving) : runTicks (rmsTick 32) m [46341] = .error .overflow :=
  C114_rms_overflow_violates (by decide) (by decide) m _

end Edsp.Props
