import Verif.Model.StringView
import Verif.Spec.StringView
import Verif.Lemmas.Memory

/-! # Lemmas about `string_view` -/

namespace Edsp.SV

open Edsp.Mem Edsp.Spec

/-- A view refers to characters that exist, fewer than `npos` of them. -/
def View.Valid (v : View) : Prop := v.data + v.size ≤ v.mem.length ∧ v.size < npos

/-- The characters a view refers to. -/
def View.text (v : View) : List Nat := seg v.mem v.data (v.data + v.size)

theorem View.Valid.length {v : View} (h : v.Valid) : v.text.length = v.size := by
  unfold View.text; rw [seg_length h.1]; omega

theorem ofChar_valid (c : Nat) : (ofChar c).Valid := by simp [View.Valid, ofChar, npos]

theorem ofChar_text (c : Nat) : (ofChar c).text = [c] := by simp [View.text, ofChar, seg]

theorem seg_self (m : List Nat) (a : Nat) : seg m a a = [] := by simp [seg]

theorem seg_drop (m : List Nat) (a b i : Nat) : (seg m a b).drop i = seg m (a + i) b := by
  unfold seg
  rw [List.drop_take, List.drop_drop]
  congr 1; omega

theorem seg_take (m : List Nat) (a b i : Nat) : (seg m a b).take i = seg m a (min b (a + i)) := by
  unfold seg
  rw [List.take_take]
  congr 1; omega

theorem read_exists {m : List Nat} {p : Nat} (h : p < m.length) : m[p]? = some m[p] ∧ read m p = .ok m[p] :=
  ⟨List.getElem?_eq_getElem h, read_ok (List.getElem?_eq_getElem h)⟩

theorem seg_cons' {m : List Nat} {a b : Nat} (h : a < b) (hb : a < m.length) :
    seg m a b = m[a] :: seg m (a + 1) b := by
  unfold seg
  rw [show b - a = (b - (a + 1)) + 1 by omega, List.drop_eq_getElem_cons hb, List.take_succ_cons]

/-- The inner loop compares the needle with the characters from `it` on. -/
theorem inner_spec (h : List Nat) (last : Nat) (w : List Nat) (hl : last ≤ h.length) :
    ∀ (n it s : Nat), it ≤ last → s + n ≤ w.length →
    ∃ c, inner h last w n it s = .ok c ∧ (c = .found → seg w s (s + n) <+: seg h it last) ∧
      (c = .exhausted → last - it < n) ∧
      (c = .differ → ¬ seg w s (s + n) <+: seg h it last ∧ it < last)
  | 0, it, s, _, _ => ⟨.found, rfl, by simp [seg], by simp, by simp⟩
  | n + 1, it, s, hit, hs => by
    unfold inner
    by_cases e : it = last
    · rw [if_pos e]
      exact ⟨.exhausted, rfl, by simp, by intro; omega, by simp⟩
    · rw [if_neg e]
      have h1 := read_exists (m := h) (p := it) (by omega)
      have h2 := read_exists (m := w) (p := s) (by omega)
      simp only [bind, Except.bind, h1.2, h2.2]
      have e1 := seg_cons' (m := h) (a := it) (b := last) (by omega) (by omega)
      have e2 := seg_cons' (m := w) (a := s) (b := s + (n + 1)) (by omega) (by omega)
      rw [e1, e2]
      split
      · rename_i heq
        obtain ⟨c, hc, p1, p2, p3⟩ := inner_spec h last w hl n (it + 1) (s + 1) (by omega) (by omega)
        rw [show s + 1 + n = s + (n + 1) by omega] at p1 p3
        refine ⟨c, hc, ?_, ?_, ?_⟩
        · intro hf; rw [heq]; exact List.cons_prefix_cons.mpr ⟨rfl, p1 hf⟩
        · intro hf; have := p2 hf; omega
        · intro hf; refine ⟨?_, by omega⟩
          rw [List.cons_prefix_cons]; rintro ⟨-, hp⟩; exact (p3 hf).1 hp
      · rename_i hne
        refine ⟨.differ, rfl, by simp, by simp, fun _ => ⟨?_, by omega⟩⟩
        rw [List.cons_prefix_cons]; rintro ⟨hp, -⟩; exact hne hp.symm

theorem prefix_length {xs ys : List Nat} (h : xs <+: ys) : xs.length ≤ ys.length := h.length_le

/-- `std::search` returns the first position of the needle, or the end. -/
theorem searchN_spec (h : List Nat) (last : Nat) (w : List Nat) (s n : Nat) (hl : last ≤ h.length)
    (hs : s + n ≤ w.length) : ∀ (k first : Nat), first + k = last →
    ∃ r, searchN h last w s n k first = .ok r ∧ first ≤ r ∧ r ≤ last ∧
      (∀ i, first ≤ i → i < r → ¬ seg w s (s + n) <+: seg h i last) ∧
      (r < last → seg w s (s + n) <+: seg h r last) := by
  have hn : (seg w s (s + n)).length = n := by rw [seg_length hs]; omega
  have hexh : ∀ first, last - first < n → ∀ i, first ≤ i → ¬ seg w s (s + n) <+: seg h i last := by
    intro first hf i hi hp
    have := prefix_length hp
    rw [hn, seg_length hl] at this
    omega
  intro k
  induction k with
  | zero =>
    intro first hk
    obtain ⟨c, hc, p1, p2, p3⟩ := inner_spec h last w hl n first s (by omega) hs
    unfold searchN
    simp only [bind, Except.bind, hc]
    cases c with
    | found => exact ⟨first, rfl, Nat.le_refl _, by omega, by intro i _ _; omega, by intro; omega⟩
    | exhausted => exact ⟨last, rfl, by omega, Nat.le_refl _, by intro i _ _; omega, by intro; omega⟩
    | differ => have := (p3 rfl).2; omega
  | succ k ih =>
    intro first hk
    obtain ⟨c, hc, p1, p2, p3⟩ := inner_spec h last w hl n first s (by omega) hs
    unfold searchN
    simp only [bind, Except.bind, hc]
    cases c with
    | found => exact ⟨first, rfl, Nat.le_refl _, by omega, by intro i _ _; omega, fun _ => p1 rfl⟩
    | exhausted =>
      exact ⟨last, rfl, by omega, Nat.le_refl _, fun i hi _ => hexh first (p2 rfl) i hi, by intro; omega⟩
    | differ =>
      obtain ⟨r, hr, q1, q2, q3, q4⟩ := ih (first + 1) (by omega)
      refine ⟨r, hr, by omega, q2, ?_, q4⟩
      intro i hi hir
      by_cases e : i = first
      · subst e; exact (p3 rfl).1
      · exact q3 i (by omega) hir

theorem search_spec {h : List Nat} {first last : Nat} {w : View} (hl : last ≤ h.length) (hf : first ≤ last)
    (hw : w.Valid) : ∃ r, search h first last w = .ok r ∧ first ≤ r ∧ r ≤ last ∧
      (∀ i, first ≤ i → i < r → ¬ w.text <+: seg h i last) ∧ (r < last → w.text <+: seg h r last) :=
  searchN_spec h last w.mem w.data w.size hl hw.1 (last - first) first (by omega)

theorem findEndN_spec {h : List Nat} {last : Nat} {w : View} (hl : last ≤ h.length) (hw : w.Valid)
    (hne : w.text ≠ []) (lo : Nat) : ∀ (k first result : Nat), first ≤ last → last - first < k →
    (result = last ∧ (∀ i, lo ≤ i → i < first → ¬ w.text <+: seg h i last) ∨
      (lo ≤ result ∧ result < last ∧ w.text <+: seg h result last ∧
        ∀ i, result < i → i < first → ¬ w.text <+: seg h i last)) → lo ≤ first →
    ∃ r, findEndN h last w k first result = .ok r ∧
      (r = last ∧ (∀ i, lo ≤ i → i ≤ last → ¬ w.text <+: seg h i last) ∨
        (lo ≤ r ∧ r < last ∧ w.text <+: seg h r last ∧
          ∀ i, r < i → i ≤ last → ¬ w.text <+: seg h i last)) := by
  have hend : ¬ w.text <+: seg h last last := by
    rw [seg_self]; intro hp; exact hne (List.prefix_nil.mp hp)
  intro k
  induction k with
  | zero => intro first result _ hk; omega
  | succ k ih =>
    intro first result hf hk hinv hlo
    obtain ⟨r, hr, q1, q2, q3, q4⟩ := search_spec hl hf hw
    unfold findEndN
    simp only [bind, Except.bind, hr]
    split
    · rename_i e
      refine ⟨result, rfl, ?_⟩
      have hrest : ∀ i, first ≤ i → i ≤ last → ¬ w.text <+: seg h i last := by
        intro i hi hil
        by_cases e2 : i = last
        · rw [e2]; exact hend
        · exact q3 i hi (by omega)
      rcases hinv with ⟨a, b⟩ | ⟨a, b, c, d⟩
      · left; refine ⟨a, fun i hi hil => ?_⟩
        by_cases e3 : i < first
        · exact b i hi e3
        · exact hrest i (by omega) hil
      · right; refine ⟨a, b, c, fun i hi hil => ?_⟩
        by_cases e3 : i < first
        · exact d i hi e3
        · exact hrest i (by omega) hil
    · rename_i e
      exact ih (r + 1) r (by omega) (by omega)
        (Or.inr ⟨by omega, by omega, q4 (by omega), fun i hi hi2 => by omega⟩) (by omega)

theorem findEnd_spec {h : List Nat} {first last : Nat} {w : View} (hl : last ≤ h.length) (hf : first ≤ last)
    (hw : w.Valid) (hne : w.size ≠ 0) :
    ∃ r, findEnd h first last w = .ok r ∧
      (r = last ∧ (∀ i, first ≤ i → i ≤ last → ¬ w.text <+: seg h i last) ∨
        (first ≤ r ∧ r < last ∧ w.text <+: seg h r last ∧
          ∀ i, r < i → i ≤ last → ¬ w.text <+: seg h i last)) := by
  unfold findEnd
  rw [if_neg hne]
  have hne' : w.text ≠ [] := by
    intro e; have := hw.length; rw [e] at this; simp at this; omega
  exact findEndN_spec hl hw hne' first _ first last hf (by omega)
    (Or.inl ⟨rfl, fun i _ _ => by omega⟩) (Nat.le_refl _)

/-- `std::find_if`. -/
theorem findIfN_spec (h : List Nat) (p : Nat → Except Fault Bool) (P : Nat → Prop)
    (hp : ∀ c, ∃ b, p c = .ok b ∧ (b = true ↔ P c)) : ∀ (k first : Nat), first + k ≤ h.length →
    ∃ r, findIfN h p k first = .ok r ∧ first ≤ r ∧ r ≤ first + k ∧
      (∀ i, first ≤ i → i < r → ∀ c, h[i]? = some c → ¬ P c) ∧
      (r < first + k → ∃ c, h[r]? = some c ∧ P c)
  | 0, first, _ => ⟨first, rfl, Nat.le_refl _, Nat.le_refl _, by intro i _ _; omega, by intro; omega⟩
  | k + 1, first, hk => by
    have h1 := read_exists (m := h) (p := first) (by omega)
    obtain ⟨b, hb, hbP⟩ := hp h[first]
    unfold findIfN
    simp only [bind, Except.bind, h1.2, hb]
    cases b with
    | true =>
      exact ⟨first, rfl, Nat.le_refl _, by omega, by intro i _ _; omega, fun _ => ⟨_, h1.1, hbP.mp rfl⟩⟩
    | false =>
      obtain ⟨r, hr, q1, q2, q3, q4⟩ := findIfN_spec h p P hp k (first + 1) (by omega)
      refine ⟨r, by simpa using hr, by omega, by omega, ?_, ?_⟩
      · intro i hi hir c hc
        by_cases e : i = first
        · subst e
          rw [h1.1] at hc; injection hc with hc; subst hc
          intro hP; have := hbP.mpr hP; simp at this
        · exact q3 i (by omega) hir c hc
      · intro hr2; exact q4 (by omega)

/-- `std::find_if` on reverse iterators. -/
theorem findIfRevN_spec (h : List Nat) (p : Nat → Except Fault Bool) (P : Nat → Prop)
    (hp : ∀ c, ∃ b, p c = .ok b ∧ (b = true ↔ P c)) : ∀ (k base : Nat), k ≤ base → base ≤ h.length →
    ∃ r, findIfRevN h p k base = .ok r ∧ base - k ≤ r ∧ r ≤ base ∧
      (∀ i, r ≤ i → i < base → ∀ c, h[i]? = some c → ¬ P c) ∧
      (base - k < r → ∃ c, h[r - 1]? = some c ∧ P c)
  | 0, base, _, _ => ⟨base, rfl, by omega, Nat.le_refl _, by intro i _ _; omega, by intro; omega⟩
  | k + 1, base, hk, hb => by
    have h1 := read_exists (m := h) (p := base - 1) (by omega)
    obtain ⟨b, hbv, hbP⟩ := hp h[base - 1]
    unfold findIfRevN
    simp only [bind, Except.bind, h1.2, hbv]
    cases b with
    | true =>
      exact ⟨base, rfl, by omega, Nat.le_refl _, by intro i _ _; omega, fun _ => ⟨_, h1.1, hbP.mp rfl⟩⟩
    | false =>
      obtain ⟨r, hr, q1, q2, q3, q4⟩ := findIfRevN_spec h p P hp k (base - 1) (by omega) (by omega)
      refine ⟨r, by simpa using hr, by omega, by omega, ?_, ?_⟩
      · intro i hi hir c hc
        by_cases e : i = base - 1
        · subst e
          rw [h1.1] at hc; injection hc with hc; subst hc
          intro hP; have := hbP.mpr hP; simp at this
        · exact q3 i hi (by omega) c hc
      · intro hr2; exact q4 (by omega)

/-- The inner loop of `std::find_first_of`. -/
theorem anyN_spec (w : List Nat) (c : Nat) : ∀ (n s : Nat), s + n ≤ w.length →
    ∃ b, anyN w c n s = .ok b ∧ (b = true ↔ c ∈ seg w s (s + n))
  | 0, s, _ => ⟨false, rfl, by simp [seg]⟩
  | n + 1, s, hs => by
    have h1 := read_exists (m := w) (p := s) (by omega)
    unfold anyN
    simp only [bind, Except.bind, h1.2]
    rw [seg_cons' (m := w) (a := s) (b := s + (n + 1)) (by omega) (by omega)]
    split
    · rename_i e
      exact ⟨true, rfl, by simp [e]⟩
    · rename_i e
      obtain ⟨b, hb, hbp⟩ := anyN_spec w c n (s + 1) (by omega)
      refine ⟨b, hb, ?_⟩
      rw [hbp, show s + 1 + n = s + (n + 1) by omega]
      simp [e]

theorem any_spec {w : View} (hw : w.Valid) (c : Nat) :
    ∃ b, anyN w.mem c w.size w.data = .ok b ∧ (b = true ↔ c ∈ w.text) := anyN_spec w.mem c w.size w.data hw.1

/-- The characters of a view by position. -/
theorem text_getElem? (v : View) (i : Nat) :
    v.text[i]? = if i < v.size then v.mem[v.data + i]? else none := by
  unfold View.text seg
  rw [List.getElem?_take]
  by_cases h : i < v.size
  · rw [if_pos (by omega), if_pos h, List.getElem?_drop]
  · rw [if_neg (by omega), if_neg h]

theorem text_drop (v : View) (i : Nat) : v.text.drop i = seg v.mem (v.data + i) (v.data + v.size) := by
  unfold View.text; rw [seg_drop]

theorem occursAt_iff {v : View} (hv : v.Valid) (s : List Nat) (i : Nat) :
    OccursAt v.text s i ↔ i ≤ v.size ∧ s <+: seg v.mem (v.data + i) (v.data + v.size) := by
  unfold OccursAt; rw [hv.length, text_drop]

/-- The view of a part of a view. -/
theorem substr_text {v : View} (pos n : Nat) (h : pos ≤ v.size) :
    ({ v with data := v.data + pos, size := min n (v.size - pos) } : View).text =
      (v.text.drop pos).take n := by
  rw [text_drop, seg_take]
  unfold View.text
  dsimp only
  congr 1
  omega

end Edsp.SV
