import Verif.Model.RoundedSums
import Verif.Lemmas.Float

/-!
# C96: normalize in floating point arithmetic

Whatever the rounding, the result of `normalize` should lie within -1 and 1, its largest element should be exactly 1 or
-1, and signs and order should be those of the input.
-/

namespace Edsp.Rounded

open Edsp.Spec Edsp.FloatL

/-- The largest absolute value, as `maxabs` finds it. -/
theorem peak_spec (xs : List ℝ) : ∀ a : ℝ,
    a ≤ xs.foldl (fun a x => if a < |x| then |x| else a) a ∧
    (∀ x ∈ xs, |x| ≤ xs.foldl (fun a x => if a < |x| then |x| else a) a) ∧
    (xs.foldl (fun a x => if a < |x| then |x| else a) a = a ∨
      ∃ x ∈ xs, |x| = xs.foldl (fun a x => if a < |x| then |x| else a) a) := by
  induction xs with
  | nil => intro a; simp
  | cons x xs ih =>
    intro a
    rw [List.foldl_cons]
    by_cases h : a < |x|
    · rw [if_pos h]
      obtain ⟨h1, h2, h3⟩ := ih |x|
      refine ⟨by linarith, ?_, ?_⟩
      · intro y hy
        rcases List.mem_cons.mp hy with rfl | hy
        · exact h1
        · exact h2 y hy
      · right
        rcases h3 with h3 | ⟨y, hy, h3⟩
        · exact ⟨x, List.mem_cons_self, h3.symm⟩
        · exact ⟨y, List.mem_cons_of_mem _ hy, h3⟩
    · rw [if_neg h]
      obtain ⟨h1, h2, h3⟩ := ih a
      refine ⟨h1, ?_, ?_⟩
      · intro y hy
        rcases List.mem_cons.mp hy with rfl | hy
        · linarith
        · exact h2 y hy
      · rcases h3 with h3 | ⟨y, hy, h3⟩
        · exact Or.inl h3
        · exact Or.inr ⟨y, List.mem_cons_of_mem _ hy, h3⟩

theorem rnd_one {p : ℕ} (hp : 1 ≤ p) : rnd p 1 = 1 := by
  have := rnd_int hp (m := 1) (by simp; exact one_le_pow₀ (by norm_num))
  exact_mod_cast this

theorem rnd_within {p : ℕ} (hp : 1 ≤ p) {x : ℝ} (h : |x| ≤ 1) : |rnd p x| ≤ 1 := by
  obtain ⟨h1, h2⟩ := abs_le.mp h
  refine abs_le.mpr ⟨?_, ?_⟩
  · have := rnd_mono hp h1
    rwa [rnd_neg, rnd_one hp] at this
  · have := rnd_mono hp h2
    rwa [rnd_one hp] at this

/-- What `normalize` computes for a sequence with an element other than 0. -/
theorem normalize_eq {p : ℕ} {xs : List ℝ} (hz : ∃ x ∈ xs, x ≠ 0) :
    ∃ P, 0 < P ∧ (∃ x ∈ xs, |x| = P) ∧ (∀ x ∈ xs, |x| ≤ P) ∧
      normalize p xs = (xs.map fun x => rnd p (x / P)).map some := by
  obtain ⟨h1, h2, h3⟩ := peak_spec xs 0
  obtain ⟨x0, hx0, hn⟩ := hz
  have hP := lt_of_lt_of_le (abs_pos.mpr hn) (h2 x0 hx0)
  refine ⟨_, hP, ?_, h2, ?_⟩
  · rcases h3 with h3 | h3
    · exact absurd h3 hP.ne'
    · exact h3
  · unfold normalize quotient
    rw [List.map_map]
    apply List.map_congr_left
    intro x _
    rw [if_neg hP.ne']
    rfl

/-- **C96**: for every precision and every sequence with an element other than 0, `normalize` gives a number for every
element; all are within -1 and 1, one is exactly 1 or -1; larger elements never become smaller than smaller ones, the
signs are kept, and every result is the quotient by the peak up to a relative error of 2^-p. -/
theorem C96_normalize {p : ℕ} (hp : 1 ≤ p) {xs : List ℝ} (hz : ∃ x ∈ xs, x ≠ 0) :
    ∃ (P : ℝ) (f : ℝ → ℝ), 0 < P ∧ (∃ x ∈ xs, |x| = P) ∧ (∀ x ∈ xs, |x| ≤ P) ∧
      normalize p xs = (xs.map f).map some ∧
      (∀ y ∈ xs.map f, |y| ≤ 1) ∧ (∃ y ∈ xs.map f, |y| = 1) ∧
      (∀ x ∈ xs, ∀ x' ∈ xs, x ≤ x' → f x ≤ f x') ∧
      (∀ x ∈ xs, (0 < f x ↔ 0 < x) ∧ (f x = 0 ↔ x = 0) ∧ (f x < 0 ↔ x < 0)) ∧
      (∀ x ∈ xs, |f x - x / P| ≤ (2 : ℝ) ^ (-(p : ℤ)) * |x / P|) := by
  obtain ⟨P, hP, hx, hle, he⟩ := normalize_eq (p := p) hz
  refine ⟨P, fun x => rnd p (x / P), hP, hx, hle, he, ?_, ?_, ?_, ?_, ?_⟩
  · intro y hy
    obtain ⟨x, hm, rfl⟩ := List.mem_map.mp hy
    apply rnd_within hp
    rw [abs_div, abs_of_pos hP, div_le_one hP]
    exact hle x hm
  · obtain ⟨x, hm, hxP⟩ := hx
    refine ⟨_, List.mem_map.mpr ⟨x, hm, rfl⟩, ?_⟩
    rcases abs_choice x with h | h
    · rw [show x = P by rw [← h, hxP], div_self hP.ne', rnd_one hp, abs_one]
    · rw [show x = -P by rw [← hxP, h, neg_neg], neg_div, div_self hP.ne', rnd_neg, rnd_one hp, abs_neg, abs_one]
  · intro x _ x' _ h
    exact rnd_mono hp (div_le_div_of_nonneg_right h hP.le)
  · have pos : ∀ x, 0 < x → 0 < rnd p (x / P) := fun x h => rnd_pos hp (div_pos h hP)
    have neg : ∀ x, x < 0 → rnd p (x / P) < 0 := by
      intro x h
      have := pos (-x) (by linarith)
      rw [neg_div, rnd_neg] at this
      linarith
    intro x _
    rcases lt_trichotomy x 0 with h | h | h
    · have := neg x h
      exact ⟨⟨fun _ => by linarith, fun _ => by linarith⟩, ⟨fun _ => by linarith, fun _ => by linarith⟩,
        fun _ => h, fun _ => this⟩
    · subst h
      simp [rnd_zero]
    · have := pos x h
      exact ⟨⟨fun _ => h, fun _ => this⟩, ⟨fun _ => by linarith, fun _ => by linarith⟩,
        fun _ => by linarith, fun _ => by linarith⟩
  · intro x _
    exact rnd_err p (x / P)

/-- **C96**: normalising twice gives what normalising once gives, bit by bit. -/
theorem C96_again {p : ℕ} (hp : 1 ≤ p) {xs : List ℝ} (hz : ∃ x ∈ xs, x ≠ 0) :
    ∃ ys, normalize p xs = ys.map some ∧ normalize p ys = ys.map some := by
  obtain ⟨P, hP, hx, hle, he⟩ := normalize_eq (p := p) hz
  obtain ⟨_, f, _, _, _, hf, h1, ⟨y, hy, hy1⟩, _⟩ := C96_normalize hp hz
  have hfe : xs.map f = xs.map fun x => rnd p (x / P) := by
    rw [he] at hf
    exact (List.map_injective_iff.mpr (Option.some_injective ℝ) hf).symm
  refine ⟨_, hf, ?_⟩
  obtain ⟨Q, hQ, ⟨z, hz', hzQ⟩, hleQ, heQ⟩ := normalize_eq (p := p) (xs := xs.map f)
    ⟨y, hy, fun h => by rw [h, abs_zero] at hy1; exact zero_ne_one hy1⟩
  have hQ1 : Q = 1 := le_antisymm (hzQ ▸ h1 z hz') (hy1 ▸ hleQ y hy)
  rw [heQ, hQ1]
  congr 1
  rw [List.map_congr_left (g := fun x => x), List.map_id']
  intro w hw
  rw [hfe] at hw
  obtain ⟨x, _, rfl⟩ := List.mem_map.mp hw
  rw [div_one, rnd_rnd hp]

/-- **C96**: of a sequence of zeros no element becomes a number. -/
theorem C96_silence (p : ℕ) {xs : List ℝ} (hz : ∀ x ∈ xs, x = 0) : normalize p xs = xs.map fun _ => none := by
  obtain ⟨-, -, h3⟩ := peak_spec xs 0
  have h0 : xs.foldl (fun a x => if a < |x| then |x| else a) 0 = 0 := by
    rcases h3 with h3 | ⟨x, hx, h3⟩
    · exact h3
    · rw [← h3, hz x hx, abs_zero]
  unfold normalize quotient
  rw [h0]
  simp

/-- Thirds are not representable, yet the peak is exactly 1. -/
example : ∃ x ∈ [(1 : ℝ), -3, 2], x ≠ 0 := ⟨1, by simp, by norm_num⟩

end Edsp.Rounded
