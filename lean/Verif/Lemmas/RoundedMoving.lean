import Verif.Model.RoundedMoving
import Verif.Lemmas.Moving
import Verif.Lemmas.Float

/-!
# Running sums with rounding
-/

namespace Edsp.Rounded

open Edsp.Spec Edsp.FloatL

/-- The running sum after a sample. -/
noncomputable def accStep (p n : ℕ) (h : List ℝ) (a x : ℝ) : ℝ := rnd p (rnd p (a - (window n h).headD 0) + x)

/-- The running sum after a history of samples, `h` before. -/
noncomputable def accs (p n : ℕ) : List ℝ → ℝ → List ℝ → ℝ
  | _, a, [] => a
  | h, a, x :: xs => accs p n (h ++ [x]) (accStep p n h a x) xs

/-- The running sums after every sample. -/
noncomputable def sums (p n : ℕ) : List ℝ → ℝ → List ℝ → List ℝ
  | _, _, [] => []
  | h, a, x :: xs => accStep p n h a x :: sums p n (h ++ [x]) (accStep p n h a x) xs

theorem sums_length (p n : ℕ) (xs : List ℝ) : ∀ h a, (sums p n h a xs).length = xs.length := by
  induction xs with
  | nil => intro h a; rfl
  | cons x xs ih => intro h a; simp [sums, ih]

theorem sums_append (p n : ℕ) (xs ys : List ℝ) : ∀ h a,
    sums p n h a (xs ++ ys) = sums p n h a xs ++ sums p n (h ++ xs) (accs p n h a xs) ys := by
  induction xs with
  | nil => intro h a; simp [sums, accs]
  | cons x xs ih => intro h a; simp [sums, accs, ih]

theorem accs_append (p n : ℕ) (xs ys : List ℝ) : ∀ h a,
    accs p n h a (xs ++ ys) = accs p n (h ++ xs) (accs p n h a xs) ys := by
  induction xs with
  | nil => intro h a; simp [accs]
  | cons x xs ih => intro h a; simp [accs, ih]

theorem sums_get (p n : ℕ) (xs : List ℝ) : ∀ (h : List ℝ) (a : ℝ) (i : ℕ) (hi : i < (sums p n h a xs).length),
    (sums p n h a xs)[i] = accs p n h a (xs.take (i + 1)) := by
  induction xs with
  | nil => intro h a i hi; simp [sums] at hi
  | cons x xs ih =>
    intro h a i hi
    cases i with
    | zero => simp [sums, accs]
    | succ i => simp [sums, accs, ih]

theorem step_front {n : Nat} (hn : 0 < n) {w : RingBuffer ℝ} {h : List ℝ}
    (hr : RingBuffer.Refines w { cap := n, items := window n h }) (x : ℝ) :
    ∃ w', w.front = .ok ((window n h).headD 0) ∧ w.pushBack x = .ok w' ∧
      RingBuffer.Refines w' { cap := n, items := window n (h ++ [x]) } ∧ w'.size = n := by
  obtain ⟨f, w', h1, h2, h3, h4, h5⟩ := Moving.window_step hn hr x
  have hl := Moving.window_length n h
  have hne : window n h ≠ [] := by intro h0; rw [h0] at hl; simp at hl; omega
  refine ⟨w', ?_, h2, h3, h4⟩
  rw [h1]
  have e : (window n (h ++ [x])).sum = (window n h).sum - (window n h).headD 0 + x := by
    rw [Moving.window_snoc hn, List.sum_append, List.sum_singleton]
    obtain ⟨a, l, hal⟩ := List.exists_cons_of_ne_nil hne
    rw [hal]
    simp
  rw [h5] at e
  congr 1
  linarith

theorem window_sum {n : ℕ} (hn : 0 < n) (h : List ℝ) (x : ℝ) :
    (window n (h ++ [x])).sum = (window n h).sum - (window n h).headD 0 + x := by
  have hl := Moving.window_length n h
  have hne : window n h ≠ [] := by intro h0; rw [h0] at hl; simp at hl; omega
  rw [Moving.window_snoc hn, List.sum_append, List.sum_singleton]
  obtain ⟨a, l, hal⟩ := List.exists_cons_of_ne_nil hne
  rw [hal]
  simp

/-- The filter returns the running sums, divided. -/
theorem averageRun_eq (p : ℕ) {n : Nat} (hn : 0 < n) (xs : List ℝ) : ∀ (m : MovingAverage ℝ) (h : List ℝ),
    RingBuffer.Refines m.window { cap := n, items := window n h } →
    ∃ m', averageRun p m xs
      = .ok (m', (sums p n h m.accumulated xs).map fun a => rnd p (a / rnd p (n : ℝ))) := by
  induction xs with
  | nil => intro m h hr; exact ⟨m, rfl⟩
  | cons x xs ih =>
    intro m h hr
    obtain ⟨w', h1, h2, h3, h4⟩ := step_front hn hr x
    obtain ⟨m', hm⟩ := ih ⟨w', accStep p n h m.accumulated x⟩ (h ++ [x]) h3
    refine ⟨m', ?_⟩
    have ht : averageTick p m x = .ok (⟨w', accStep p n h m.accumulated x⟩,
        rnd p (accStep p n h m.accumulated x / rnd p (n : ℝ))) := by
      unfold averageTick
      simp only [h1, h2, h4, bind, Except.bind, pure, Except.pure]
      rfl
    simp only [averageRun, ht, hm, sums, List.map_cons, bind, Except.bind, pure, Except.pure]

/-- The same for the root mean square; the samples of the window are the rounded squares. -/
theorem rmsRun_eq (p : ℕ) {n : Nat} (hn : 0 < n) (xs : List ℝ) : ∀ (m : MovingRms) (h : List ℝ),
    RingBuffer.Refines m.window { cap := n, items := window n h } →
    ∃ m', rmsRun p m xs = .ok (m', (sums p n h m.accumulated (xs.map fun x => rnd p (x * x))).map
      fun a => sqrt p (rnd p (a / rnd p (n : ℝ)))) := by
  induction xs with
  | nil => intro m h hr; exact ⟨m, rfl⟩
  | cons x xs ih =>
    intro m h hr
    obtain ⟨w', h1, h2, h3, h4⟩ := step_front hn hr (rnd p (x * x))
    obtain ⟨m', hm⟩ := ih ⟨w', accStep p n h m.accumulated (rnd p (x * x))⟩ (h ++ [rnd p (x * x)]) h3
    refine ⟨m', ?_⟩
    have ht : rmsTick p m x = .ok (⟨w', accStep p n h m.accumulated (rnd p (x * x))⟩,
        sqrt p (rnd p (accStep p n h m.accumulated (rnd p (x * x)) / rnd p (n : ℝ)))) := by
      unfold rmsTick
      simp only [h1, h2, h4, bind, Except.bind, pure, Except.pure]
      rfl
    simp only [rmsRun, ht, hm, sums, List.map_cons, bind, Except.bind, pure, Except.pure]

/-! ### Exact sums -/

theorem grid_zero (k : ℤ) (M : ℕ) : Grid k M 0 := ⟨0, by simp, by simp⟩

theorem grid_sum {k : ℤ} {M : ℕ} : ∀ l : List ℝ, (∀ x ∈ l, Grid k M x) → Grid k (l.length * M) l.sum
  | [], _ => ⟨0, by simp, by simp⟩
  | x :: l, h => by
    obtain ⟨a, ha, hx⟩ := h x (by simp)
    obtain ⟨b, hb, hl⟩ := grid_sum l fun y hy => h y (by simp [hy])
    refine ⟨a + b, ?_, ?_⟩
    · have := abs_add_le a b
      push_cast at hb ⊢
      rw [List.length_cons]
      push_cast
      linarith
    · rw [List.sum_cons, hx, hl]
      push_cast
      ring

theorem grid_rnd {p : ℕ} (hp : 1 ≤ p) {k : ℤ} {M : ℕ} (hM : M ≤ 2 ^ p) {x : ℝ} (h : Grid k M x) : rnd p x = x := by
  obtain ⟨z, hz, rfl⟩ := h
  refine rnd_float (isFloat_int hp k (le_trans hz ?_))
  exact_mod_cast hM

theorem grid_mono {k : ℤ} {M N : ℕ} (h : M ≤ N) {x : ℝ} (hx : Grid k M x) : Grid k N x := by
  obtain ⟨z, hz, rfl⟩ := hx
  exact ⟨z, le_trans hz (by exact_mod_cast h), rfl⟩

theorem window_mem {n : ℕ} {h : List ℝ} {x : ℝ} (hx : x ∈ window n h) : x = 0 ∨ x ∈ h := by
  rw [Moving.window_eq] at hx
  have := List.mem_of_mem_drop hx
  rw [List.mem_append, List.mem_replicate] at this
  rcases this with h | h
  · exact Or.inl h.2
  · exact Or.inr h

theorem window_grid {n : ℕ} {k : ℤ} {M : ℕ} {h : List ℝ} (hh : ∀ x ∈ h, Grid k M x) :
    ∀ x ∈ window n h, Grid k M x := by
  intro x hx
  rcases window_mem hx with rfl | h
  · exact grid_zero k M
  · exact hh x h

theorem window_tail_sum {n : ℕ} (hn : 0 < n) (h : List ℝ) :
    (window n h).tail.sum = (window n h).sum - (window n h).headD 0 := by
  have hl := Moving.window_length n h
  have hne : window n h ≠ [] := by intro h0; rw [h0] at hl; simp at hl; omega
  obtain ⟨a, l, hal⟩ := List.exists_cons_of_ne_nil hne
  rw [hal]
  simp

/-- Without rounding errors the running sum is the sum of the window. -/
theorem accs_exact {p : ℕ} (hp : 1 ≤ p) {n : ℕ} (hn : 0 < n) {k : ℤ} {M : ℕ} (hM : n * M ≤ 2 ^ p) (xs : List ℝ) :
    ∀ h : List ℝ, (∀ x ∈ h, Grid k M x) → (∀ x ∈ xs, Grid k M x) →
    accs p n h (window n h).sum xs = (window n (h ++ xs)).sum := by
  induction xs with
  | nil => intro h _ _; simp [accs]
  | cons x xs ih =>
    intro h hh hx
    have hh' : ∀ y ∈ h ++ [x], Grid k M y := by
      intro y hy
      rw [List.mem_append, List.mem_singleton] at hy
      rcases hy with hy | rfl
      · exact hh y hy
      · exact hx y (by simp)
    have e : accStep p n h (window n h).sum x = (window n (h ++ [x])).sum := by
      unfold accStep
      have g1 : Grid k (n * M) ((window n h).sum - (window n h).headD 0) := by
        rw [← window_tail_sum hn]
        refine grid_mono ?_ (grid_sum (k := k) (M := M) (window n h).tail ?_)
        · rw [List.length_tail, Moving.window_length]
          exact Nat.mul_le_mul_right _ (by omega)
        · intro y hy
          exact window_grid hh y (List.mem_of_mem_tail hy)
      have g2 : Grid k (n * M) ((window n (h ++ [x])).sum) := by
        have := grid_sum (k := k) (M := M) (window n (h ++ [x])) (window_grid hh')
        rwa [Moving.window_length] at this
      rw [grid_rnd hp hM g1, ← window_sum hn, grid_rnd hp hM g2]
    simp only [accs]
    rw [e, ih (h ++ [x]) hh' (fun y hy => hx y (by simp [hy]))]
    simp

/-! ### Error bounds -/

theorem abs_sum_le {B : ℝ} : ∀ l : List ℝ, (∀ x ∈ l, |x| ≤ B) → |l.sum| ≤ l.length * B
  | [], _ => by simp
  | x :: l, h => by
    have h1 := h x (by simp)
    have h2 := abs_sum_le l fun y hy => h y (by simp [hy])
    have := abs_add_le x l.sum
    rw [List.sum_cons, List.length_cons]
    push_cast
    linarith

theorem window_abs {n : ℕ} {B : ℝ} (hB : 0 ≤ B) {h : List ℝ} (hh : ∀ x ∈ h, |x| ≤ B) : ∀ x ∈ window n h, |x| ≤ B := by
  intro x hx
  rcases window_mem hx with rfl | h
  · simpa using hB
  · exact hh x h

/-- One rounding next to a bounded number. -/
theorem rnd_near {p : ℕ} {a s C e : ℝ} (hs : |s| ≤ C) (he : |a - s| ≤ e) :
    |rnd p a - s| + C ≤ (1 + (2 : ℝ) ^ (-(p : ℤ))) * (e + C) := by
  have hu := two_zpow_pos (-(p : ℤ))
  have h1 := rnd_err p a
  have h2 : |a| ≤ e + C := by
    have := abs_add_le (a - s) s
    rw [sub_add_cancel] at this
    linarith
  have h3 : |rnd p a - s| ≤ |rnd p a - a| + |a - s| := by
    have := abs_add_le (rnd p a - a) (a - s)
    rwa [sub_add_sub_cancel] at this
  have h4 : (2 : ℝ) ^ (-(p : ℤ)) * |a| ≤ (2 : ℝ) ^ (-(p : ℤ)) * (e + C) := mul_le_mul_of_nonneg_left h2 hu.le
  linarith

/-- The error of the running sum grows with every sample. -/
theorem accs_err {p : ℕ} {n : ℕ} (hn : 0 < n) {B : ℝ} (hB : 0 ≤ B) (xs : List ℝ) :
    ∀ (h : List ℝ) (a e : ℝ), (∀ x ∈ h, |x| ≤ B) → (∀ x ∈ xs, |x| ≤ B) → |a - (window n h).sum| ≤ e →
    |accs p n h a xs - (window n (h ++ xs)).sum| + n * B
      ≤ (1 + (2 : ℝ) ^ (-(p : ℤ))) ^ (2 * xs.length) * (e + n * B) := by
  have hu := two_zpow_pos (-(p : ℤ))
  induction xs with
  | nil => intro h a e _ _ he; simpa [accs] using he
  | cons x xs ih =>
    intro h a e hh hx he
    have hh' : ∀ y ∈ h ++ [x], |y| ≤ B := by
      intro y hy
      rw [List.mem_append, List.mem_singleton] at hy
      rcases hy with hy | rfl
      · exact hh y hy
      · exact hx y (by simp)
    set f := (window n h).headD 0 with hf
    have b1 : |(window n h).sum - f| ≤ n * B := by
      rw [hf, ← window_tail_sum hn]
      refine (abs_sum_le (B := B) _ fun y hy => window_abs hB hh y (List.mem_of_mem_tail hy)).trans ?_
      rw [List.length_tail, Moving.window_length]
      refine mul_le_mul_of_nonneg_right ?_ hB
      exact_mod_cast Nat.sub_le n 1
    have b2 : |(window n (h ++ [x])).sum| ≤ n * B := by
      have := abs_sum_le (B := B) _ (window_abs (n := n) hB hh')
      rwa [Moving.window_length] at this
    have s1 := rnd_near (p := p) (a := a - f) (e := e) b1 (by rwa [sub_sub_sub_cancel_right])
    have s2 := rnd_near (p := p) (a := rnd p (a - f) + x)
      (e := |rnd p (a - f) - ((window n h).sum - f)|) b2 (by
        rw [window_sum hn]
        apply le_of_eq
        congr 1
        ring)
    have s3 := ih (h ++ [x]) (accStep p n h a x) (|accStep p n h a x - (window n (h ++ [x])).sum|) hh'
      (fun y hy => hx y (by simp [hy])) le_rfl
    have e1 : h ++ [x] ++ xs = h ++ x :: xs := by simp
    rw [e1] at s3
    simp only [accs]
    refine s3.trans ?_
    have hq : (0 : ℝ) ≤ (1 + (2 : ℝ) ^ (-(p : ℤ))) ^ (2 * xs.length) := by positivity
    have s4 : |accStep p n h a x - (window n (h ++ [x])).sum| + n * B
        ≤ (1 + (2 : ℝ) ^ (-(p : ℤ))) * ((1 + (2 : ℝ) ^ (-(p : ℤ))) * (e + n * B)) :=
      s2.trans (mul_le_mul_of_nonneg_left s1 (by positivity))
    calc _ ≤ (1 + (2 : ℝ) ^ (-(p : ℤ))) ^ (2 * xs.length)
            * ((1 + (2 : ℝ) ^ (-(p : ℤ))) * ((1 + (2 : ℝ) ^ (-(p : ℤ))) * (e + n * B))) :=
          mul_le_mul_of_nonneg_left s4 hq
      _ = _ := by
          rw [List.length_cons, Nat.mul_succ, pow_add]
          ring

/-! ### A sample that is lost -/

theorem window_zeros (n j : ℕ) (l : List ℝ) (hl : l.length + j ≤ n) :
    (window n (l ++ List.replicate j 0)) = List.replicate (n - l.length - j) 0 ++ l ++ List.replicate j 0 := by
  rw [Moving.window_eq, List.length_append, List.length_replicate,
    List.drop_append_of_le_length (by simp; omega), List.drop_replicate, List.append_assoc]
  congr 2
  omega

theorem head_zeros {n j : ℕ} {l : List ℝ} (hl : l.length + j < n) :
    (window n (l ++ List.replicate j 0)).headD 0 = 0 := by
  rw [window_zeros n j l (by omega)]
  obtain ⟨c, hc⟩ : ∃ c, n - l.length - j = c + 1 := ⟨n - l.length - j - 1, by omega⟩
  rw [hc, List.replicate_succ]
  rfl

/-- Zeros do not change the running sum as long as zeros leave the window. -/
theorem accs_zeros {p n : ℕ} {a : ℝ} (ha : rnd p a = a) (j : ℕ) : ∀ h : List ℝ,
    (∀ i < j, (window n (h ++ List.replicate i 0)).headD 0 = 0) → accs p n h a (List.replicate j 0) = a := by
  induction j with
  | zero => intro h _; rfl
  | succ j ih =>
    intro h hh
    rw [List.replicate_succ]
    have h0 := hh 0 (by omega)
    simp only [List.replicate_zero, List.append_nil] at h0
    have e : accStep p n h a 0 = a := by
      unfold accStep
      rw [h0, sub_zero, ha, add_zero, ha]
    simp only [accs]
    rw [e]
    refine ih (h ++ [0]) fun i hi => ?_
    have := hh (i + 1) (by omega)
    rwa [List.replicate_succ, ← List.singleton_append, ← List.append_assoc] at this

theorem head_drop (n : ℕ) (h : List ℝ) (hh : n ≤ h.length) :
    (window n h).headD 0 = h.getD (h.length - n) 0 := by
  rw [Moving.window_eq, List.drop_append, List.length_replicate, List.drop_eq_nil_of_le (by simpa using hh),
    List.nil_append, List.headD_eq_head?_getD, List.head?_drop, List.getD_eq_getElem?_getD]

end Edsp.Rounded
