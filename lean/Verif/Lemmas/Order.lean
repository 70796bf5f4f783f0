import Verif.Lemmas.Statistics
import Verif.Lemmas.Extremum
import Verif.Model.Features

/-! # Reductions and the order of the elements -/

namespace Edsp.OrderL

open Edsp Edsp.Stat

section
variable {K : Type} [Field K]

theorem accumulate_perm (f : K → K) (a : K) {l l' : List K} (h : l.Perm l') : accumulate f a l = accumulate f a l' := by
  rw [StatL.accumulate_eq, StatL.accumulate_eq, (h.map f).sum_eq]

theorem innerSelf_perm (a : K) {l l' : List K} (h : l.Perm l') : Seq.innerSelf a l = Seq.innerSelf a l' :=
  accumulate_perm (fun x => x * x) a h

theorem accumulateM_swap (f : K → Except Fault K) {e : Fault} (he : ∀ x e', f x = .error e' → e' = e) (a x y : K)
    (l : List K) : accumulateM f a (x :: y :: l) = accumulateM f a (y :: x :: l) := by
  simp only [accumulateM]
  rcases hx : f x with ex | vx <;> rcases hy : f y with ey | vy
  · rw [he _ _ hx, he _ _ hy]
  · rfl
  · rfl
  · simp only [bind, Except.bind]
    rw [add_right_comm]

/-- All failures of the element function are alike, so it does not matter which comes first. -/
theorem accumulateM_perm (f : K → Except Fault K) {e : Fault} (he : ∀ x e', f x = .error e' → e' = e) {l l' : List K}
    (h : l.Perm l') : ∀ a, accumulateM f a l = accumulateM f a l' := by
  induction h with
  | nil => intro a; rfl
  | cons x _ ih =>
    intro a
    simp only [accumulateM]
    rcases f x with ex | vx
    · rfl
    · exact ih _
  | swap x y l => intro a; exact accumulateM_swap f he a y x l
  | trans _ _ ih1 ih2 => intro a; rw [ih1, ih2]

end

theorem fdiv_fault {K : Type} [Field K] [LinearOrder K] {a b : K} {e : Fault} (h : fdiv a b = .error e) :
    e = .divByZero := by
  unfold fdiv at h
  split at h
  · exact (Except.error.inj h).symm
  · cases h

theorem flog_fault {x : ℝ} {e : Fault} (h : flog x = .error e) : e = .domain := by
  unfold flog at h
  split at h
  · exact (Except.error.inj h).symm
  · cases h

theorem fpowi_fault {x : ℝ} {b : ℤ} {e : Fault} (h : fpowi x b = .error e) : e = .divByZero := by
  unfold fpowi at h
  split at h
  · exact (Except.error.inj h).symm
  · cases h

theorem flog2_fault {x : ℝ} {e : Fault} (h : Feature.flog2 x = .error e) : e = .domain := by
  unfold Feature.flog2 at h
  split at h
  · exact (Except.error.inj h).symm
  · cases h

section
variable {K : Type} [LinearOrder K]

omit [LinearOrder K] in
theorem nil_or {l l' : List K} (h : l.Perm l') : (l = [] ∧ l' = []) ∨ (l ≠ [] ∧ l' ≠ []) := by
  by_cases h0 : l = []
  · subst h0
    exact Or.inl ⟨rfl, h.symm.eq_nil⟩
  · refine Or.inr ⟨h0, ?_⟩
    rintro rfl
    exact h0 h.eq_nil

theorem max_perm {l l' : List K} (h : l.Perm l') : Seq.max l = Seq.max l' := by
  rcases nil_or h with ⟨rfl, rfl⟩ | ⟨h0, h1⟩
  · rfl
  · obtain ⟨v, e, hv, hm⟩ := ExtremumL.max_ok h0
    obtain ⟨w, e', hw, hm'⟩ := ExtremumL.max_ok h1
    rw [e, e', le_antisymm (hm' v (h.mem_iff.mp hv)) (hm w (h.mem_iff.mpr hw))]

theorem min_perm {l l' : List K} (h : l.Perm l') : Seq.min l = Seq.min l' := by
  rcases nil_or h with ⟨rfl, rfl⟩ | ⟨h0, h1⟩
  · rfl
  · obtain ⟨v, e, hv, hm⟩ := ExtremumL.min_ok h0
    obtain ⟨w, e', hw, hm'⟩ := ExtremumL.min_ok h1
    rw [e, e', le_antisymm (hm w (h.mem_iff.mpr hw)) (hm' v (h.mem_iff.mp hv))]

variable [AddCommGroup K]

theorem maxabs_perm {l l' : List K} (h : l.Perm l') : Seq.maxabs l = Seq.maxabs l' := by
  rcases nil_or h with ⟨rfl, rfl⟩ | ⟨h0, h1⟩
  · rfl
  · obtain ⟨v, e, ⟨x, hx, rfl⟩, hm⟩ := ExtremumL.maxabs_ok h0
    obtain ⟨w, e', ⟨y, hy, rfl⟩, hm'⟩ := ExtremumL.maxabs_ok h1
    rw [e, e', le_antisymm (hm' x (h.mem_iff.mp hx)) (hm y (h.mem_iff.mpr hy))]

theorem minabs_perm {l l' : List K} (h : l.Perm l') : Seq.minabs l = Seq.minabs l' := by
  rcases nil_or h with ⟨rfl, rfl⟩ | ⟨h0, h1⟩
  · rfl
  · obtain ⟨v, e, ⟨x, hx, rfl⟩, hm⟩ := ExtremumL.minabs_ok h0
    obtain ⟨w, e', ⟨y, hy, rfl⟩, hm'⟩ := ExtremumL.minabs_ok h1
    rw [e, e', le_antisymm (hm y (h.mem_iff.mpr hy)) (hm' x (h.mem_iff.mp hx))]

end

end Edsp.OrderL
