import Verif.Model.Statistics
import Verif.Spec.Statistics
import Mathlib.Algebra.Order.BigOperators.Group.List
import Mathlib.Tactic.Ring
import Mathlib.Tactic.FieldSimp
import Mathlib.Tactic.Linarith

/-!
# Lemmas on sums and means of lists
-/

set_option linter.unusedSectionVars false

namespace Edsp.StatL
open Edsp.Stat Edsp.Spec

section
variable {K : Type} [Field K] [LinearOrder K] [IsStrictOrderedRing K]

omit [LinearOrder K] [IsStrictOrderedRing K] in
theorem accumulate_eq (f : K → K) (init : K) (l : List K) : accumulate f init l = init + (l.map f).sum := by
  unfold accumulate
  induction l generalizing init with
  | nil => simp
  | cons x xs ih => rw [List.foldl_cons, ih]; simp; ring

omit [LinearOrder K] [IsStrictOrderedRing K] in
theorem nthPower_eq (n : Nat) (x : K) : nthPower (n + 1) x = x ^ (n + 1) := by
  induction n with
  | zero => simp [nthPower]
  | succ n ih => rw [nthPower, ih]; ring

theorem len_ne {l : List K} (h : l ≠ []) : (l.length : K) ≠ 0 := by
  have : l.length ≠ 0 := by simpa using h
  exact_mod_cast this

theorem len_pos {l : List K} (h : l ≠ []) : (0 : K) < (l.length : K) := by
  have : 0 < l.length := List.length_pos_iff.2 h
  exact_mod_cast this

theorem fdiv_ok {a b : K} (h : b ≠ 0) : fdiv a b = .ok (a / b) := by simp [fdiv, h]

theorem mean_ok {l : List K} (h : l ≠ []) : mean l = .ok (avg l) := by
  rw [mean, fdiv_ok (len_ne h), accumulate_eq]
  simp [avg]

theorem nthMoment_ok {l : List K} (h : l ≠ []) (n : Nat) (m : K) :
    nthMoment (n + 1) l m = .ok (avgOf (fun x => (x - m) ^ (n + 1)) l) := by
  rw [nthMoment, fdiv_ok (len_ne h), accumulate_eq]
  simp only [zero_add, avgOf, avg, List.length_map, nthPower_eq]

theorem moment_ok {l : List K} (h : l ≠ []) (n : Nat) :
    moment (n + 1) l = .ok (centralMoment (n + 1) l) := by
  rw [moment, mean_ok h]
  exact nthMoment_ok h n _

theorem sum_map_add (f g : K → K) (l : List K) :
    (l.map fun x => f x + g x).sum = (l.map f).sum + (l.map g).sum := by
  induction l with
  | nil => simp
  | cons x xs ih => simp [ih]; ring

theorem sum_map_mul (c : K) (f : K → K) (l : List K) :
    (l.map fun x => c * f x).sum = c * (l.map f).sum := by
  induction l with
  | nil => simp
  | cons x xs ih => simp [ih]; ring

theorem sum_map_const (c : K) (l : List K) : (l.map fun _ => c).sum = (l.length : K) * c := by
  induction l with
  | nil => simp
  | cons x xs ih => simp; ring

theorem avgOf_add (f g : K → K) (l : List K) : avgOf (fun x => f x + g x) l = avgOf f l + avgOf g l := by
  simp only [avgOf, avg, List.length_map, sum_map_add, add_div]

theorem avgOf_mul (c : K) (f : K → K) (l : List K) : avgOf (fun x => c * f x) l = c * avgOf f l := by
  simp only [avgOf, avg, List.length_map, sum_map_mul, mul_div_assoc]

theorem avgOf_const {l : List K} (h : l ≠ []) (c : K) : avgOf (fun _ => c) l = c := by
  simp only [avgOf, avg, List.length_map, sum_map_const]
  field_simp [len_ne h]

theorem avgOf_id (l : List K) : avgOf (fun x => x) l = avg l := by simp [avgOf]

theorem avgOf_map (f g : K → K) (l : List K) : avgOf f (l.map g) = avgOf (fun x => f (g x)) l := by
  simp only [avgOf, List.map_map, Function.comp_def]

theorem sum_map_nonneg {f : K → K} {l : List K} (hf : ∀ x ∈ l, 0 ≤ f x) : 0 ≤ (l.map f).sum := by
  induction l with
  | nil => simp
  | cons x xs ih =>
    rw [List.map_cons, List.sum_cons]
    exact add_nonneg (hf x (by simp)) (ih fun y hy => hf y (by simp [hy]))

theorem avgOf_nonneg {f : K → K} {l : List K} (hf : ∀ x ∈ l, 0 ≤ f x) : 0 ≤ avgOf f l := by
  rw [avgOf, avg]
  exact div_nonneg (sum_map_nonneg hf) (Nat.cast_nonneg _)

theorem sum_map_eq_zero {f : K → K} {l : List K} (hf : ∀ x ∈ l, 0 ≤ f x) (h : (l.map f).sum = 0) :
    ∀ x ∈ l, f x = 0 := by
  induction l with
  | nil => simp
  | cons x xs ih =>
    rw [List.map_cons, List.sum_cons] at h
    have h1 := hf x (by simp)
    have h2 : 0 ≤ (xs.map f).sum := sum_map_nonneg fun y hy => hf y (by simp [hy])
    intro y hy
    rcases List.mem_cons.1 hy with rfl | hy
    · linarith
    · exact ih (fun y hy => hf y (by simp [hy])) (by linarith) y hy

theorem avgOf_eq_zero {f : K → K} {l : List K} (hl : l ≠ []) (hf : ∀ x ∈ l, 0 ≤ f x) (h : avgOf f l = 0) :
    ∀ x ∈ l, f x = 0 := by
  apply sum_map_eq_zero hf
  rw [avgOf, avg, List.length_map, div_eq_zero_iff] at h
  exact h.resolve_right (len_ne hl)

theorem avgOf_mono {f g : K → K} {l : List K} (hfg : ∀ x ∈ l, f x ≤ g x) : avgOf f l ≤ avgOf g l := by
  have h : 0 ≤ avgOf (fun x => g x + (-1) * f x) l := avgOf_nonneg fun x hx => by linarith [hfg x hx]
  rw [avgOf_add, avgOf_mul] at h
  linarith

theorem avgOf_congr {f g : K → K} {l : List K} (hfg : ∀ x ∈ l, f x = g x) : avgOf f l = avgOf g l := by
  rw [avgOf, avgOf, List.map_congr_left hfg]

theorem avgOf_pos {f : K → K} {l : List K} (hl : l ≠ []) (hf : ∀ x ∈ l, 0 < f x) : 0 < avgOf f l := by
  refine lt_of_le_of_ne (avgOf_nonneg fun x hx => (hf x hx).le) fun h => ?_
  obtain ⟨x, hx⟩ := List.exists_mem_of_ne_nil l hl
  exact (hf x hx).ne' (avgOf_eq_zero hl (fun x hx => (hf x hx).le) h.symm x hx)

theorem avg_affine {l : List K} (h : l ≠ []) (a b : K) : avg (l.map fun x => a * x + b) = a * avg l + b := by
  have : avg (l.map fun x => a * x + b) = avgOf (fun x => a * x + b) l := rfl
  rw [this, avgOf_add, avgOf_mul, avgOf_const h, avgOf_id]

theorem centralMoment_affine {l : List K} (h : l ≠ []) (n : Nat) (a b : K) :
    centralMoment n (l.map fun x => a * x + b) = a ^ n * centralMoment n l := by
  rw [centralMoment, avg_affine h, avgOf_map, centralMoment, ← avgOf_mul]
  exact avgOf_congr fun x _ => by rw [← mul_pow]; congr 1; ring

theorem centralMoment_one {l : List K} (h : l ≠ []) : centralMoment 1 l = 0 := by
  rw [centralMoment]
  have : avgOf (fun x => (x - avg l) ^ 1) l = avgOf (fun x => x + (-avg l)) l :=
    avgOf_congr fun x _ => by ring
  rw [this, avgOf_add, avgOf_const h, avgOf_id]
  ring

theorem centralMoment_two_nonneg (l : List K) : 0 ≤ centralMoment 2 l :=
  avgOf_nonneg fun _ _ => sq_nonneg _

theorem centralMoment_two_eq_zero {l : List K} (h : l ≠ []) :
    centralMoment 2 l = 0 ↔ ∀ x ∈ l, ∀ y ∈ l, x = y := by
  constructor
  · intro hz x hx y hy
    have := avgOf_eq_zero h (fun x _ => sq_nonneg (x - avg l)) hz
    have h1 := pow_eq_zero_iff (two_ne_zero) |>.1 (this x hx)
    have h2 := pow_eq_zero_iff (two_ne_zero) |>.1 (this y hy)
    linarith
  · intro hall
    obtain ⟨c, hc⟩ := List.exists_mem_of_ne_nil l h
    have e : avg l = c := by
      rw [← avgOf_id, avgOf_congr (g := fun _ => c) fun x hx => hall x hx c hc, avgOf_const h]
    rw [centralMoment, e, avgOf_congr (g := fun _ => 0) fun x hx => by rw [hall x hx c hc]; ring,
      avgOf_const h]

end

end Edsp.StatL
