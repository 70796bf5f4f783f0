import Verif.Model.Strings
import Verif.Spec.Strings
import Mathlib.Data.List.TakeWhile
import Mathlib.Data.List.Forall2

/-!
# C28: trimming and letter case
-/

namespace Edsp.C28
open Edsp.Str Edsp.Spec

theorem isspace_ok (c : Int) (h1 : -1 ≤ c) (h2 : c ≤ 255) : ∃ b, isspace c = .ok b ∧ (b = true ↔ Blank c) := by
  refine ⟨c == 32 || (9 ≤ c && c ≤ 13), by simp [isspace, ctypeArg, h1, h2, bind, Except.bind, pure, Except.pure], ?_⟩
  unfold Blank
  simp only [Bool.or_eq_true, beq_iff_eq, Bool.and_eq_true, decide_eq_true_eq]
  omega

theorem isspace_fault (c : Int) (h : c < -1 ∨ 255 < c) : isspace c = .error .domain := by
  have : ¬ (-1 ≤ c ∧ c ≤ 255) := by omega
  simp [isspace, ctypeArg, this, bind, Except.bind]

theorem blank_range {c : Int} (h : Blank c) : -1 ≤ c ∧ c ≤ 255 := by unfold Blank at h; omega

theorem findNotSpace_append (pre r : List Int) (hpre : ∀ c ∈ pre, Blank c) :
    findNotSpace (pre ++ r) = findNotSpace r := by
  induction pre with
  | nil => rfl
  | cons c cs ih =>
    have hc := hpre c (by simp)
    obtain ⟨b, hb, hb'⟩ := isspace_ok c (blank_range hc).1 (blank_range hc).2
    rw [List.cons_append, findNotSpace, hb, hb'.2 hc]
    simpa [bind, Except.bind] using ih (fun c h => hpre c (by simp [h]))

theorem findNotSpace_stop (r : List Int) (h : ∀ c ∈ r.head?, ¬ Blank c ∧ -1 ≤ c ∧ c ≤ 255) :
    findNotSpace r = .ok r := by
  cases r with
  | nil => rfl
  | cons c cs =>
    obtain ⟨h1, h2, h3⟩ := h c (by simp)
    obtain ⟨b, hb, hb'⟩ := isspace_ok c h2 h3
    have : b = false := by
      cases b with
      | true => exact absurd (hb'.1 rfl) h1
      | false => rfl
    simp [findNotSpace, hb, this, bind, Except.bind, pure, Except.pure]

/-- Every string is a blank run followed by a string not starting with a blank. -/
theorem exists_prefix (s : List Int) :
    ∃ pre r : List Int, s = pre ++ r ∧ (∀ c ∈ pre, Blank c) ∧ (∀ c ∈ r.head?, ¬ Blank c) := by
  induction s with
  | nil => exact ⟨[], [], rfl, by simp, by simp⟩
  | cons c cs ih =>
    by_cases hc : Blank c
    · obtain ⟨pre, r, h1, h2, h3⟩ := ih
      refine ⟨c :: pre, r, by simp [h1], ?_, h3⟩
      intro x hx
      rcases List.mem_cons.1 hx with rfl | hx
      · exact hc
      · exact h2 x hx
    · exact ⟨[], c :: cs, rfl, by simp, by simpa using hc⟩

theorem exists_suffix (s : List Int) :
    ∃ r post : List Int, s = r ++ post ∧ (∀ c ∈ post, Blank c) ∧ (∀ c ∈ r.getLast?, ¬ Blank c) := by
  obtain ⟨pre, r, h1, h2, h3⟩ := exists_prefix s.reverse
  refine ⟨r.reverse, pre.reverse, ?_, by simpa using h2, by simpa using h3⟩
  rw [← List.reverse_append, ← h1, List.reverse_reverse]

/-- **C28 (ltrim).**  For a string split as a blank run followed by text not starting with a blank,
`ltrim` returns exactly that text, provided its first character has a non-negative code. -/
theorem C28_ltrim_partial (pre r : List Int) (hpre : ∀ c ∈ pre, Blank c)
    (hr : ∀ c ∈ r.head?, ¬ Blank c ∧ 0 ≤ c ∧ c ≤ 255) : ltrim (pre ++ r) = .ok r := by
  rw [ltrim, findNotSpace_append pre r hpre, findNotSpace_stop]
  intro c hc
  have := hr c hc
  exact ⟨this.1, by omega, this.2.2⟩

example : ltrim [32, 9, 97, 32] = .ok [97, 32] :=
  C28_ltrim_partial [32, 9] [97, 32] (by unfold Blank; decide) (by simp [Blank])

/-- **C28 (rtrim).**  The same at the other end. -/
theorem C28_rtrim_partial (r post : List Int) (hpost : ∀ c ∈ post, Blank c)
    (hr : ∀ c ∈ r.getLast?, ¬ Blank c ∧ 0 ≤ c ∧ c ≤ 255) : rtrim (r ++ post) = .ok r := by
  have h := C28_ltrim_partial post.reverse r.reverse (by simpa using hpost) (by simpa using hr)
  rw [ltrim] at h
  simp [rtrim, List.reverse_append, h, bind, Except.bind, pure, Except.pure]

example : rtrim [32, 97, 98, 32, 10] = .ok [32, 97, 98] :=
  C28_rtrim_partial [32, 97, 98] [32, 10] (by unfold Blank; decide) (by simp [Blank])

theorem plain_append {a b : List Int} (h : Plain (a ++ b)) : Plain a ∧ Plain b :=
  ⟨fun c hc => h c (by simp [hc]), fun c hc => h c (by simp [hc])⟩

/-- **C28 (trim).**  `trim` of a string of non-negative characters removes a blank run at each end and
nothing else, and what remains neither starts nor ends with a blank.  Missing for the full claim:
negative characters (`C28_trim_violates`). -/
theorem C28_trim_partial (s : List Int) (h : Plain s) :
    ∃ pre r post : List Int, trim s = .ok r ∧ s = pre ++ r ++ post ∧ (∀ c ∈ pre, Blank c) ∧
      (∀ c ∈ post, Blank c) ∧ (∀ c ∈ r.head?, ¬ Blank c) ∧ (∀ c ∈ r.getLast?, ¬ Blank c) := by
  obtain ⟨pre, r', h1, h2, h3⟩ := exists_prefix s
  obtain ⟨r, post, h4, h5, h6⟩ := exists_suffix r'
  subst h4
  subst h1
  have hl : ltrim (pre ++ (r ++ post)) = .ok (r ++ post) := by
    apply C28_ltrim_partial _ _ h2
    intro c hc
    have hm : c ∈ r ++ post := List.mem_of_mem_head? hc
    exact ⟨h3 c hc, (plain_append h).2 c hm⟩
  have hr : rtrim (r ++ post) = .ok r := by
    apply C28_rtrim_partial _ _ h5
    intro c hc
    have hm : c ∈ r ++ post := List.mem_append_left _ (List.mem_of_getLast? hc)
    exact ⟨h6 c hc, (plain_append h).2 c hm⟩
  refine ⟨pre, r, post, ?_, by simp, h2, h5, ?_, h6⟩
  · simp [trim, hl, hr, bind, Except.bind]
  · intro c hc
    apply h3
    cases r with
    | nil => simp at hc
    | cons x xs => simpa using hc

example : Plain [32, 104, 105, 32, 33, 9] := by unfold Plain; decide

/-- **C28 (trim is determined).**  The text described by `C28_trim_partial` is unique. -/
theorem C28_unique (pre₁ r₁ post₁ pre₂ r₂ post₂ : List Int)
    (h : pre₁ ++ r₁ ++ post₁ = pre₂ ++ r₂ ++ post₂)
    (hpre₁ : ∀ c ∈ pre₁, Blank c) (hpre₂ : ∀ c ∈ pre₂, Blank c)
    (hpost₁ : ∀ c ∈ post₁, Blank c) (hpost₂ : ∀ c ∈ post₂, Blank c)
    (hh₁ : ∀ c ∈ r₁.head?, ¬ Blank c) (hh₂ : ∀ c ∈ r₂.head?, ¬ Blank c)
    (hl₁ : ∀ c ∈ r₁.getLast?, ¬ Blank c) (hl₂ : ∀ c ∈ r₂.getLast?, ¬ Blank c) : r₁ = r₂ := by
  classical
  have key : ∀ pre r : List Int, (∀ c ∈ pre, Blank c) → (∀ c ∈ r.head?, ¬ Blank c) →
      (pre ++ r).dropWhile (fun c => decide (Blank c)) = r := by
    intro pre r hp hr
    induction pre with
    | nil =>
      cases r with
      | nil => rfl
      | cons x xs => simp [hr x (by simp)]
    | cons x xs ih =>
      simp only [List.cons_append, List.dropWhile_cons, hp x (by simp), decide_true, if_true]
      exact ih fun c hc => hp c (by simp [hc])
  have key2 : ∀ pre r post : List Int, (∀ c ∈ pre, Blank c) → (∀ c ∈ post, Blank c) →
      (∀ c ∈ r.head?, ¬ Blank c) → (∀ c ∈ r.getLast?, ¬ Blank c) →
      (((pre ++ r ++ post).dropWhile (fun c => decide (Blank c))).reverse.dropWhile
        (fun c => decide (Blank c))).reverse = r := by
    intro pre r post hp hq hr hl
    by_cases hr0 : r = []
    · subst hr0
      have : (pre ++ [] ++ post).dropWhile (fun c => decide (Blank c)) = [] := by
        rw [List.dropWhile_eq_nil_iff]
        intro c hc
        simp only [List.append_nil, List.mem_append] at hc
        simpa using hc.elim (hp c) (hq c)
      rw [this]; rfl
    · rw [List.append_assoc, key pre (r ++ post) hp, List.reverse_append,
        key post.reverse r.reverse (by simpa using hq) (by simpa using hl), List.reverse_reverse]
      intro c hc
      apply hr
      cases r with
      | nil => simp at hr0
      | cons x xs => simpa using hc
  rw [← key2 pre₁ r₁ post₁ hpre₁ hpost₁ hh₁ hl₁, h, key2 pre₂ r₂ post₂ hpre₂ hpost₂ hh₂ hl₂]

/-- **C28 (idempotence).**  Trimming twice is trimming once. -/
theorem C28_idempotent_partial (s : List Int) (h : Plain s) :
    (do let t ← trim s; trim t) = trim s := by
  obtain ⟨pre, r, post, h1, h2, _, _, h5, h6⟩ := C28_trim_partial s h
  have hr : Plain r := fun c hc => h c (by rw [h2]; simp [hc])
  obtain ⟨pre', r', post', g1, g2, g3, g4, g5, g6⟩ := C28_trim_partial r hr
  have : r' = r := C28_unique pre' r' post' [] r [] (by simp [← g2]) g3 (by simp) g4 (by simp) g5 h5 g6 h6
  rw [h1]
  simp [bind, Except.bind, g1, this]

/-- **C28 (order of the ends).**  Trimming the right end first gives the same text. -/
theorem C28_commute_partial (s : List Int) (h : Plain s) :
    (do let t ← rtrim s; ltrim t) = (do let t ← ltrim s; rtrim t) := by
  obtain ⟨pre, r, post, h1, h2, h3, h4, h5, h6⟩ := C28_trim_partial s h
  have hr : Plain r := fun c hc => h c (by rw [h2]; simp [hc])
  have e : (do let t ← ltrim s; rtrim t) = .ok r := h1
  rw [e]
  by_cases hr0 : r = []
  · subst hr0
    have hb : ∀ c ∈ s, Blank c := by
      intro c hc
      rw [h2] at hc
      simp only [List.append_nil, List.mem_append] at hc
      exact hc.elim (h3 c) (h4 c)
    have := C28_rtrim_partial [] s hb (by simp)
    rw [List.nil_append] at this
    rw [this]; rfl
  · have h7 : rtrim s = .ok (pre ++ r) := by
      rw [h2]
      apply C28_rtrim_partial _ _ h4
      intro c hc
      have hc : c ∈ r.getLast? := by
        rw [List.getLast?_append, List.getLast?_eq_getLast_of_ne_nil hr0] at hc
        rw [List.getLast?_eq_getLast_of_ne_nil hr0]
        simpa using hc
      exact ⟨h6 c hc, hr c (List.mem_of_getLast? hc)⟩
    rw [h7]
    exact C28_ltrim_partial _ _ h3 fun c hc => ⟨h5 c hc, hr c (List.mem_of_mem_head? hc)⟩

/-- **C28 (negative characters violate the claim).**  Text whose first non-blank character is below −1
(every non-ASCII character of a signed `char` except 255) is passed to `std::isspace` outside its domain. -/
theorem C28_trim_violates (pre r : List Int) (c : Int) (hpre : ∀ c ∈ pre, Blank c) (hc : c < -1) :
    ltrim (pre ++ c :: r) = .error .domain ∧ trim (pre ++ c :: r) = .error .domain := by
  have h : ltrim (pre ++ c :: r) = .error .domain := by
    rw [ltrim, findNotSpace_append pre _ hpre, findNotSpace, isspace_fault c (.inl hc)]
    rfl
  exact ⟨h, by simp [trim, h, bind, Except.bind]⟩

example : trim [32, -61, -87] = .error .domain :=
  (C28_trim_violates [32] [-87] (-61) (by unfold Blank; decide) (by decide)).2

/-- The characters of the two results are related one by one. -/
theorem tolower_ok (s : List Int) (h : Plain s) : ∃ t, tolower s = .ok t ∧ Plain t ∧
    List.Forall₂ (fun c d => CasePair c d ∨ (d = c ∧ ¬ ∃ l, CasePair c l)) s t := by
  induction s with
  | nil => exact ⟨[], rfl, h, .nil⟩
  | cons c cs ih =>
    obtain ⟨t, h1, h2, h3⟩ := ih fun x hx => h x (by simp [hx])
    have hc := h c (by simp)
    have hc' : -1 ≤ c ∧ c ≤ 255 := by omega
    by_cases hu : 65 ≤ c ∧ c ≤ 90
    · refine ⟨(c + 32) :: t, ?_, ?_, .cons (.inl ⟨c - 65, by omega, by omega, by omega, by omega⟩) h3⟩
      · simp [tolower, tolower1, ctypeArg, hc', hu, h1, bind, Except.bind, pure, Except.pure]
      · intro x hx
        rcases List.mem_cons.1 hx with rfl | hx
        · omega
        · exact h2 x hx
    · refine ⟨c :: t, ?_, ?_, .cons (.inr ⟨rfl, ?_⟩) h3⟩
      · simp [tolower, tolower1, ctypeArg, hc', hu, h1, bind, Except.bind, pure, Except.pure]
      · intro x hx
        rcases List.mem_cons.1 hx with rfl | hx
        · exact hc
        · exact h2 x hx
      · rintro ⟨l, k, hk⟩; omega

theorem toupper_ok (s : List Int) (h : Plain s) : ∃ t, toupper s = .ok t ∧ Plain t ∧
    List.Forall₂ (fun c d => CasePair d c ∨ (d = c ∧ ¬ ∃ u, CasePair u c)) s t := by
  induction s with
  | nil => exact ⟨[], rfl, h, .nil⟩
  | cons c cs ih =>
    obtain ⟨t, h1, h2, h3⟩ := ih fun x hx => h x (by simp [hx])
    have hc := h c (by simp)
    have hc' : -1 ≤ c ∧ c ≤ 255 := by omega
    by_cases hu : 97 ≤ c ∧ c ≤ 122
    · refine ⟨(c - 32) :: t, ?_, ?_, .cons (.inl ⟨c - 97, by omega, by omega, by omega, by omega⟩) h3⟩
      · simp [toupper, toupper1, ctypeArg, hc', hu, h1, bind, Except.bind, pure, Except.pure]
      · intro x hx
        rcases List.mem_cons.1 hx with rfl | hx
        · omega
        · exact h2 x hx
    · refine ⟨c :: t, ?_, ?_, .cons (.inr ⟨rfl, ?_⟩) h3⟩
      · simp [toupper, toupper1, ctypeArg, hc', hu, h1, bind, Except.bind, pure, Except.pure]
      · intro x hx
        rcases List.mem_cons.1 hx with rfl | hx
        · exact hc
        · exact h2 x hx
      · rintro ⟨l, k, hk⟩; omega

/-- **C28 (letter case).**  `tolower` (`toupper`) of a string of non-negative characters replaces each
capital (small) ASCII letter by its counterpart and leaves every other character alone; applying it
again changes nothing. -/
theorem C28_case_partial (s : List Int) (h : Plain s) :
    (∃ t, tolower s = .ok t ∧ tolower t = .ok t ∧
      List.Forall₂ (fun c d => CasePair c d ∨ (d = c ∧ ¬ ∃ l, CasePair c l)) s t) ∧
    (∃ t, toupper s = .ok t ∧ toupper t = .ok t ∧
      List.Forall₂ (fun c d => CasePair d c ∨ (d = c ∧ ¬ ∃ u, CasePair u c)) s t) := by
  constructor
  · obtain ⟨t, h1, h2, h3⟩ := tolower_ok s h
    refine ⟨t, h1, ?_, h3⟩
    obtain ⟨t', g1, -, g3⟩ := tolower_ok t h2
    rw [g1]
    refine congrArg Except.ok ?_
    clear h1 g1 h h2
    induction h3 generalizing t' with
    | nil => cases g3; rfl
    | cons hcd _ ih =>
      cases g3 with
      | cons hde hrest =>
        rw [ih _ hrest]
        congr 1
        rcases hde with ⟨k, hk⟩ | hde
        · rcases hcd with ⟨k', hk'⟩ | hcd
          · omega
          · exact absurd ⟨_, k, by rw [← hcd.1]; exact hk⟩ hcd.2
        · exact hde.1
  · obtain ⟨t, h1, h2, h3⟩ := toupper_ok s h
    refine ⟨t, h1, ?_, h3⟩
    obtain ⟨t', g1, -, g3⟩ := toupper_ok t h2
    rw [g1]
    refine congrArg Except.ok ?_
    clear h1 g1 h h2
    induction h3 generalizing t' with
    | nil => cases g3; rfl
    | cons hcd _ ih =>
      cases g3 with
      | cons hde hrest =>
        rw [ih _ hrest]
        congr 1
        rcases hde with ⟨k, hk⟩ | hde
        · rcases hcd with ⟨k', hk'⟩ | hcd
          · omega
          · exact absurd ⟨_, k, by rw [← hcd.1]; exact hk⟩ hcd.2
        · exact hde.1

example : tolower [65, 98, 33, 90] = .ok [97, 98, 33, 122] ∧ toupper [65, 98, 33] = .ok [65, 66, 33] := by
  constructor <;> rfl

end Edsp.C28
