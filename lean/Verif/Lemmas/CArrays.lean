import Verif.Model.CArrays
import Verif.Spec.CArrays
import Verif.Lemmas.Memory

/-! # Complex numbers in real cells -/

namespace Edsp.CArrays

open Edsp.Spec Edsp.Mem

theorem asComplex_getElem? : ∀ (x : List ℝ) (i : ℕ) (v : ℂ),
    (PySpectral.asComplex x)[i]? = some v ↔ x[2 * i]? = some v.re ∧ x[2 * i + 1]? = some v.im
  | [], i, v => by simp [PySpectral.asComplex]
  | [a], i, v => by simp [PySpectral.asComplex]
  | a :: b :: l, 0, v => by
    simp only [PySpectral.asComplex, List.getElem?_cons_zero, Option.some.injEq, Nat.mul_zero, Nat.zero_add,
      List.getElem?_cons_succ]
    constructor
    · rintro rfl
      exact ⟨rfl, rfl⟩
    · rintro ⟨h1, h2⟩
      exact Complex.ext h1 h2
  | a :: b :: l, i + 1, v => by
    have e1 : 2 * (i + 1) = 2 * i + 1 + 1 := by ring
    rw [e1]
    simp only [PySpectral.asComplex, List.getElem?_cons_succ]
    exact asComplex_getElem? l i v

theorem asComplex_len : ∀ x : List ℝ, (PySpectral.asComplex x).length = x.length / 2
  | [] => rfl
  | [_] => by simp [PySpectral.asComplex]
  | a :: b :: l => by
    simp only [PySpectral.asComplex, List.length_cons, asComplex_len l]
    omega

theorem view_getElem? (m : List ℝ) (d i : ℕ) (v : ℂ) :
    (view m d)[i]? = some v ↔ m[d + 2 * i]? = some v.re ∧ m[d + 2 * i + 1]? = some v.im := by
  unfold view
  rw [asComplex_getElem?, List.getElem?_drop, List.getElem?_drop, Nat.add_assoc]

theorem view_length (m : List ℝ) (d : ℕ) : (view m d).length = (m.length - d) / 2 := by
  unfold view
  rw [asComplex_len, List.length_drop]

theorem cells_length (X : List ℂ) : (cells X).length = 2 * X.length := by
  induction X with
  | nil => rfl
  | cons z l ih => simp only [cells, List.length_cons, ih]; ring

theorem cells_getElem? : ∀ (X : List ℂ) (i : ℕ) (v : ℂ), X[i]? = some v →
    (cells X)[2 * i]? = some v.re ∧ (cells X)[2 * i + 1]? = some v.im
  | [], i, v, h => by simp at h
  | z :: l, 0, v, h => by
    simp only [List.getElem?_cons_zero, Option.some.injEq] at h
    subst h
    simp [cells]
  | z :: l, i + 1, v, h => by
    have e1 : 2 * (i + 1) = 2 * i + 1 + 1 := by ring
    rw [e1]
    simp only [cells, List.getElem?_cons_succ] at h ⊢
    exact cells_getElem? l i v h

/-- Complex numbers stored in the complex view are stored in the cells. -/
theorem putBack_wrote {m : List ℝ} {d : ℕ} {X vs : List ℂ} (h : Wrote (view m d) X 0 vs) :
    HoldsComplex (putBack m d X) d vs ∧ OnlyIn (fun j => d ≤ j ∧ j < d + 2 * vs.length) m (putBack m d X) := by
  obtain ⟨h1, h2, h3, h4⟩ := wrote_iff.mp h
  rw [view_length] at h2
  by_cases hd : m.length ≤ d
  · have hX : X = [] := by
      apply List.length_eq_zero_iff.mp
      rw [h2]
      omega
    subst hX
    have hv : vs = [] := by
      apply List.length_eq_zero_iff.mp
      rw [view_length] at h1
      omega
    subst hv
    refine ⟨fun i v hi => by simp at hi, ?_⟩
    have e : putBack m d [] = m := by simp [putBack, cells]
    rw [e]
    exact ⟨rfl, fun _ _ => rfl⟩
  push Not at hd
  have ht : (m.take d).length = d := by rw [List.length_take]; omega
  have hlen : (putBack m d X).length = m.length := by
    unfold putBack
    rw [List.length_append, List.length_append, ht, cells_length, List.length_drop]
    omega
  have inX : ∀ k, k < 2 * X.length → (putBack m d X)[d + k]? = (cells X)[k]? := by
    intro k hk
    unfold putBack
    rw [List.append_assoc, List.getElem?_append_right (by omega), ht, Nat.add_sub_cancel_left,
      List.getElem?_append_left (by rw [cells_length]; exact hk)]
  refine ⟨?_, hlen, ?_⟩
  · intro i v hi
    have hi' : i < vs.length := by
      by_contra hc
      rw [List.getElem?_eq_none (by omega)] at hi
      exact absurd hi (by simp)
    have hX := h3 i hi'
    rw [Nat.zero_add, hi] at hX
    have hXl : vs.length ≤ X.length := by rw [h2, ← view_length]; omega
    have hc := cells_getElem? X i v hX
    rw [inX _ (by omega), Nat.add_assoc, inX _ (by omega)]
    exact hc
  · intro j hj
    rcases Nat.lt_or_ge j d with hjd | hjd
    · unfold putBack
      rw [List.append_assoc, List.getElem?_append_left (by omega), List.getElem?_take_of_lt hjd]
    rcases Nat.lt_or_ge j (d + 2 * X.length) with hjX | hjX
    · obtain ⟨k, rfl⟩ := Nat.exists_eq_add_of_le hjd
      rw [inX k (by omega)]
      have hi : k / 2 < X.length := by omega
      have hk : vs.length ≤ k / 2 := by
        by_contra hc
        exact hj ⟨by omega, by omega⟩
      have e := h4 (k / 2) (Or.inr (by omega))
      obtain ⟨v, hv⟩ : ∃ v, X[k / 2]? = some v := ⟨X[k / 2], List.getElem?_eq_getElem hi⟩
      rw [hv] at e
      have hm := (view_getElem? m d (k / 2) v).mp e.symm
      have hc := cells_getElem? X _ v hv
      rcases Nat.mod_two_eq_zero_or_one k with h0 | h0
      · have ek : 2 * (k / 2) = k := by omega
        rw [ek] at hm hc
        rw [hc.1, hm.1]
      · have ek : 2 * (k / 2) + 1 = k := by omega
        rw [Nat.add_assoc, ek] at hm
        rw [ek] at hc
        rw [hc.2, hm.2]
    · unfold putBack
      rw [List.getElem?_append_right (by rw [List.length_append, ht, cells_length]; exact hjX),
        List.getElem?_drop, List.length_append, ht, cells_length, Nat.add_sub_cancel' hjX]

theorem holds_seg {m : List ℝ} {a : ℕ} {x : List ℝ} (h : HoldsReal m a x) : seg m a (a + x.length) = x := by
  apply List.ext_getElem?
  intro i
  rw [seg_getElem?]
  rcases Nat.lt_or_ge i x.length with hi | hi
  · rw [if_pos (by omega), List.getElem?_eq_getElem hi]
    exact h i _ (List.getElem?_eq_getElem hi)
  · rw [if_neg (by omega), List.getElem?_eq_none hi]

theorem holds_bound {m : List ℝ} {a : ℕ} {x : List ℝ} (h : HoldsReal m a x) (h0 : 0 < x.length) :
    a + x.length ≤ m.length := by
  have := h (x.length - 1) _ (List.getElem?_eq_getElem (by omega))
  by_contra hc
  rw [List.getElem?_eq_none (by omega)] at this
  exact absurd this (by simp)

theorem holdsC_seg {m : List ℝ} {a : ℕ} {z : List ℂ} (h : HoldsComplex m a z) :
    seg (view m a) 0 z.length = z := by
  apply List.ext_getElem?
  intro i
  rw [seg_getElem?]
  rcases Nat.lt_or_ge i z.length with hi | hi
  · rw [if_pos (by omega), List.getElem?_eq_getElem hi, Nat.zero_add, view_getElem?]
    exact h i _ (List.getElem?_eq_getElem hi)
  · rw [if_neg (by omega), List.getElem?_eq_none hi]

theorem holdsC_bound {m : List ℝ} {a : ℕ} {z : List ℂ} (h : HoldsComplex m a z) (h0 : 0 < z.length) :
    a + 2 * z.length ≤ m.length := by
  have := (h (z.length - 1) _ (List.getElem?_eq_getElem (by omega))).2
  by_contra hc
  rw [List.getElem?_eq_none (by omega)] at this
  exact absurd this (by simp)

theorem wrote_holds {m m' : List ℝ} {d : ℕ} {vs : List ℝ} (h : Wrote m m' d vs) :
    HoldsReal m' d vs ∧ OnlyIn (fun j => d ≤ j ∧ j < d + vs.length) m m' := by
  obtain ⟨-, h2, h3, h4⟩ := wrote_iff.mp h
  refine ⟨fun i v hi => ?_, h2, fun j hj => h4 j (by by_contra hc; exact hj (by omega))⟩
  have hi' : i < vs.length := by
    by_contra hc
    rw [List.getElem?_eq_none (by omega)] at hi
    exact absurd hi (by simp)
  rw [h3 i hi', hi]

theorem onlyIn_holds {P : ℕ → Prop} {m m' : List ℝ} (h : OnlyIn P m m') {a : ℕ} {x : List ℝ}
    (hx : HoldsReal m a x) (hP : ∀ j, a ≤ j → j < a + x.length → ¬ P j) : HoldsReal m' a x := by
  intro i v hi
  have hi' : i < x.length := by
    by_contra hc
    rw [List.getElem?_eq_none (by omega)] at hi
    exact absurd hi (by simp)
  rw [h.2 _ (hP _ (by omega) (by omega))]
  exact hx i v hi

theorem onlyIn_holdsC {P : ℕ → Prop} {m m' : List ℝ} (h : OnlyIn P m m') {a : ℕ} {z : List ℂ}
    (hz : HoldsComplex m a z) (hP : ∀ j, a ≤ j → j < a + 2 * z.length → ¬ P j) : HoldsComplex m' a z := by
  intro i v hi
  have hi' : i < z.length := by
    by_contra hc
    rw [List.getElem?_eq_none (by omega)] at hi
    exact absurd hi (by simp)
  rw [h.2 _ (hP _ (by omega) (by omega)), h.2 _ (hP _ (by omega) (by omega))]
  exact hz i v hi

theorem holds_cons {m : List ℝ} {a : ℕ} {v : ℝ} {x : List ℝ} :
    HoldsReal m a (v :: x) ↔ m[a]? = some v ∧ HoldsReal m (a + 1) x := by
  constructor
  · intro h
    refine ⟨h 0 v rfl, fun i w hi => ?_⟩
    have := h (i + 1) w (by simpa using hi)
    rwa [Nat.add_assoc, Nat.add_comm 1 i]
  · rintro ⟨h0, h⟩ i w hi
    cases i with
    | zero =>
      simp only [List.getElem?_cons_zero, Option.some.injEq] at hi
      rw [← hi]
      exact h0
    | succ i =>
      have := h i w (by simpa using hi)
      rwa [Nat.add_assoc, Nat.add_comm 1 i] at this

theorem holdsC_cons {m : List ℝ} {a : ℕ} {v : ℂ} {z : List ℂ} :
    HoldsComplex m a (v :: z) ↔ (m[a]? = some v.re ∧ m[a + 1]? = some v.im) ∧ HoldsComplex m (a + 2) z := by
  have e : ∀ i, a + 2 + 2 * i = a + 2 * (i + 1) := fun i => by ring
  constructor
  · intro h
    refine ⟨h 0 v rfl, fun i w hi => ?_⟩
    have := h (i + 1) w (by simpa using hi)
    rwa [e]
  · rintro ⟨h0, h⟩ i w hi
    cases i with
    | zero =>
      simp only [List.getElem?_cons_zero, Option.some.injEq] at hi
      rw [← hi]
      exact h0
    | succ i =>
      have := h i w (by simpa using hi)
      rwa [e] at this

theorem set_out {m : List ℝ} {d j : ℕ} {v : ℝ} (h : j ≠ d) : (m.set d v)[j]? = m[j]? := by
  rw [List.getElem?_set_ne (Ne.symm h)]

theorem writeC_ok {m : List ℝ} {d : ℕ} (h : d + 2 ≤ m.length) (x y : ℝ) :
    ∃ m', writeC m d x y = .ok m' ∧ m'[d]? = some x ∧ m'[d + 1]? = some y ∧
      OnlyIn (fun j => d ≤ j ∧ j < d + 2) m m' := by
  refine ⟨(m.set d x).set (d + 1) y, ?_, ?_, ?_, ?_, ?_⟩
  · unfold writeC
    rw [write_ok (by omega)]
    exact write_ok (by rw [List.length_set]; omega) y
  · rw [set_out (by omega), List.getElem?_set_self (by omega)]
  · rw [List.getElem?_set_self (by rw [List.length_set]; omega)]
  · simp
  · intro j hj
    have : j ≠ d ∧ j ≠ d + 1 := by
      constructor <;> (rintro rfl; exact hj (by omega))
    rw [set_out this.2, set_out this.1]

theorem ri2complexN_ok : ∀ (z : List ℂ) (m : List ℝ) (s1 s2 d : ℕ), HoldsReal m s1 (z.map Complex.re) →
    HoldsReal m s2 (z.map Complex.im) → d + 2 * z.length ≤ m.length →
    (s1 + z.length ≤ d ∨ d + 2 * z.length ≤ s1) → (s2 + z.length ≤ d ∨ d + 2 * z.length ≤ s2) →
    ∃ m', ri2complexN z.length m s1 s2 d = .ok m' ∧ HoldsComplex m' d z ∧
      OnlyIn (fun j => d ≤ j ∧ j < d + 2 * z.length) m m'
  | [], m, s1, s2, d, _, _, _, _, _ => ⟨m, rfl, fun i v hi => by simp at hi, rfl, fun _ _ => rfl⟩
  | v :: z, m, s1, s2, d, h1, h2, hd, a1, a2 => by
    simp only [List.map_cons, List.length_cons] at *
    rw [holds_cons] at h1 h2
    obtain ⟨m1, w, wre, wim, wo⟩ := writeC_ok (m := m) (d := d) (by omega) v.re v.im
    obtain ⟨m', hr, hz, ho⟩ := ri2complexN_ok z m1 (s1 + 1) (s2 + 1) (d + 2)
      (onlyIn_holds wo h1.2 (by rw [List.length_map]; intros; omega))
      (onlyIn_holds wo h2.2 (by rw [List.length_map]; intros; omega)) (by rw [wo.1]; omega) (by omega) (by omega)
    refine ⟨m', ?_, holdsC_cons.mpr ⟨⟨?_, ?_⟩, hz⟩, ho.1.trans wo.1, fun j hj => ?_⟩
    · simp only [ri2complexN, read_ok h1.1, read_ok h2.1, w, bind, Except.bind]
      exact hr
    · rw [ho.2 _ (by omega)]
      exact wre
    · rw [ho.2 _ (by omega)]
      exact wim
    · rw [ho.2 _ (by omega), wo.2 _ (by omega)]

theorem real2complexN_ok : ∀ (x : List ℝ) (m : List ℝ) (s d : ℕ), HoldsReal m s x →
    d + 2 * x.length ≤ m.length → (s + x.length ≤ d ∨ d + 2 * x.length ≤ s) →
    ∃ m', real2complexN x.length m s d = .ok m' ∧ HoldsComplex m' d (x.map fun v : ℝ => (v : ℂ)) ∧
      OnlyIn (fun j => d ≤ j ∧ j < d + 2 * x.length) m m'
  | [], m, s, d, _, _, _ => ⟨m, rfl, fun i v hi => by simp at hi, rfl, fun _ _ => rfl⟩
  | v :: x, m, s, d, h1, hd, a1 => by
    simp only [List.map_cons, List.length_cons] at *
    rw [holds_cons] at h1
    obtain ⟨m1, w, wre, wim, wo⟩ := writeC_ok (m := m) (d := d) (by omega) v 0
    obtain ⟨m', hr, hz, ho⟩ := real2complexN_ok x m1 (s + 1) (d + 2)
      (onlyIn_holds wo h1.2 (by intros; omega)) (by rw [wo.1]; omega) (by omega)
    refine ⟨m', ?_, holdsC_cons.mpr ⟨⟨?_, ?_⟩, hz⟩, ho.1.trans wo.1, fun j hj => ?_⟩
    · simp only [real2complexN, read_ok h1.1, w, bind, Except.bind]
      exact hr
    · rw [ho.2 _ (by omega)]
      exact wre
    · rw [ho.2 _ (by omega)]
      exact wim
    · rw [ho.2 _ (by omega), wo.2 _ (by omega)]

theorem complex2realN_ok : ∀ (z : List ℂ) (m : List ℝ) (s d1 d2 : ℕ), HoldsComplex m s z →
    d1 + z.length ≤ m.length → d2 + z.length ≤ m.length →
    (d1 ≤ s ∨ s + 2 * z.length ≤ d1) → (d2 ≤ s + 1 ∨ s + 2 * z.length ≤ d2) →
    (d1 + z.length ≤ d2 ∨ d2 + z.length ≤ d1) →
    ∃ m', complex2realN z.length m s d1 d2 = .ok m' ∧ HoldsReal m' d1 (z.map Complex.re) ∧
      HoldsReal m' d2 (z.map Complex.im) ∧
      OnlyIn (fun j => d1 ≤ j ∧ j < d1 + z.length ∨ d2 ≤ j ∧ j < d2 + z.length) m m'
  | [], m, s, d1, d2, _, _, _, _, _, _ =>
    ⟨m, rfl, fun i v hi => by simp at hi, fun i v hi => by simp at hi, rfl, fun _ _ => rfl⟩
  | v :: z, m, s, d1, d2, h, b1, b2, a1, a2, a3 => by
    simp only [List.map_cons, List.length_cons] at *
    rw [holdsC_cons] at h
    have hs1 : (m.set d1 v.re)[s + 1]? = some v.im := by
      rw [set_out (by omega)]
      exact h.1.2
    obtain ⟨m', hr, hre, him, ho⟩ := complex2realN_ok z ((m.set d1 v.re).set d2 v.im) (s + 2) (d1 + 1) (d2 + 1)
      (by
        refine onlyIn_holdsC (P := fun j => j = d1 ∨ j = d2) ⟨by simp, fun j hj => ?_⟩ h.2 (by intros; omega)
        rw [set_out (fun e => hj (Or.inr e)), set_out (fun e => hj (Or.inl e))])
      (by simp only [List.length_set]; omega) (by simp only [List.length_set]; omega) (by omega) (by omega) (by omega)
    refine ⟨m', ?_, holds_cons.mpr ⟨?_, hre⟩, holds_cons.mpr ⟨?_, him⟩, by rw [ho.1]; simp, fun j hj => ?_⟩
    · simp only [complex2realN, read_ok h.1.1, write_ok (m := m) (p := d1) (by omega), read_ok hs1, bind, Except.bind,
        write_ok (m := m.set d1 v.re) (p := d2) (by simp only [List.length_set]; omega)]
      exact hr
    · rw [ho.2 _ (by omega), set_out (by omega), List.getElem?_set_self (by omega)]
    · rw [ho.2 _ (by omega), List.getElem?_set_self (by simp only [List.length_set]; omega)]
    · rw [ho.2 _ (by omega), set_out (by omega), set_out (by omega)]

end Edsp.CArrays
