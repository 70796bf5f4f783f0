import Verif.Model.PyCreate
import Verif.Props.C21_Clipping
import Verif.Props.C22_Linspace
import Verif.Props.C25_PadConcat
import Verif.Props.C26_Normalize
import Verif.Props.C38_Windows
import Verif.Props.C60_Rounding

/-!
# C91: the arrays returned by the Python package hold computed values only

The statements are for every content `mem` of the memory of the new array: the result depends on the arguments only.
-/

namespace Edsp.PyCreate

open Edsp.Mem Edsp.Spec Edsp.Props

theorem toInt_within {n : ℕ} (h : n < 2147483648) : toInt n = n := by
  unfold toInt
  omega

theorem empty_nat (mem : ℕ → ℝ) (n : ℕ) : empty mem n = .ok ((List.range n).map mem) := by
  unfold empty
  rw [if_neg (by omega)]
  rfl

theorem end_nat (a n : ℕ) : end_ a n = .ok (a + n) := by
  unfold end_
  rw [if_neg (by omega)]
  rfl

theorem end_within {a n : ℕ} (h : n < 2147483648) : end_ a (toInt n) = .ok (a + n) := by
  rw [toInt_within h, end_nat]

theorem seg_left {α : Type} (x y : List α) : seg (x ++ y) 0 (0 + x.length) = x := by
  unfold seg
  simp

theorem drop_wrote {x r m' v : List ℝ} (w : Wrote (x ++ r) m' x.length v) (hl : v.length = r.length) :
    m'.drop x.length = v := by
  rw [w.2]
  simp [hl]

theorem full_wrote {r m' v : List ℝ} (w : Wrote r m' 0 v) (hl : v.length = r.length) : m' = v := by
  rw [w.2]
  simp [hl]

theorem mapping_of {f : List ℝ → ℕ → ℕ → ℕ → Except Fault (List ℝ)} {mem : ℕ → ℝ} {x v m' : List ℝ}
    (h31 : x.length < 2147483648) (hv : v.length = x.length)
    (hf : f (x ++ (List.range x.length).map mem) 0 (0 + x.length) x.length = .ok m')
    (w : Wrote (x ++ (List.range x.length).map mem) m' x.length v) : mapping f mem x = .ok v := by
  have hd := drop_wrote w (by simpa using hv)
  unfold mapping
  rw [empty_nat, end_within h31]
  simp only [bind, Except.bind, hf, hd, pure, Except.pure]

/-- C91, functions of one array: as many numbers as the array has, each the documented function of the element.
Missing: `normalize` of an array of zeros, and arrays of 2^31 and more elements. -/
theorem C91_mapping_partial (mem : ℕ → ℝ) {x : List ℝ} (h31 : x.length < 2147483648) :
    (∀ c, scale mem x c = .ok (x.map fun v => c * v)) ∧
    (∀ c lo hi, lo ≤ hi → scaleClip mem x c lo hi = .ok (x.map fun v => max lo (min hi (c * v)))) ∧
    (∀ lo hi, lo ≤ hi → clip mem x lo hi = .ok (x.map fun v => max lo (min hi v))) ∧
    abs mem x = .ok (x.map fun v => |v|) ∧
    (∃ y, ceil mem x = .ok y ∧ List.Forall₂ IsCeil x y) ∧
    (∃ y, floor mem x = .ok y ∧ List.Forall₂ IsFloor x y) ∧
    (∃ y, round mem x = .ok y ∧ List.Forall₂ IsRound x y) ∧
    (∃ y, trunc mem x = .ok y ∧ List.Forall₂ IsTrunc x y) := by
  have hb : 0 + x.length ≤ (x ++ (List.range x.length).map mem).length := by simp
  have hd : x.length + (0 + x.length - 0) ≤ (x ++ (List.range x.length).map mem).length := by simp
  have ha : 0 ≤ 0 + x.length := Nat.zero_le _
  have ho : x.length ≤ 0 ∨ 0 + x.length ≤ x.length := Or.inr (by omega)
  have hs := seg_left x ((List.range x.length).map mem)
  refine ⟨fun c => ?_, fun c lo hi h => ?_, fun lo hi h => ?_, ?_, ?_⟩
  · obtain ⟨m', h1, w⟩ := C21_amplifier c ha hb hd ho
    rw [hs] at w
    exact mapping_of h31 (by simp) h1 w
  · obtain ⟨m', h1, w, _⟩ := C21_amplifier_clip c h ha hb hd ho
    rw [hs] at w
    exact mapping_of h31 (by simp) h1 w
  · obtain ⟨m', h1, w, _⟩ := C21_clipper h ha hb hd ho
    rw [hs] at w
    exact mapping_of h31 (by simp) h1 w
  · obtain ⟨m', h1, w⟩ := Mem.transform_ok (fun v : ℝ => |v|) ha hb hd ho
    rw [hs] at w
    exact mapping_of h31 (by simp) h1 w
  · obtain ⟨⟨m1, y1, a1, b1, c1⟩, ⟨m2, y2, a2, b2, c2⟩, ⟨m3, y3, a3, b3, c3⟩, ⟨m4, y4, a4, b4, c4⟩⟩ :=
      C60_rounding ha hb hd ho
    rw [hs] at c1 c2 c3 c4
    exact ⟨⟨y2, mapping_of h31 c2.length_eq.symm a2 b2, c2⟩, ⟨y1, mapping_of h31 c1.length_eq.symm a1 b1, c1⟩,
      ⟨y4, mapping_of h31 c4.length_eq.symm a4 b4, c4⟩, ⟨y3, mapping_of h31 c3.length_eq.symm a3 b3, c3⟩⟩

/-- C91, `normalize`: the elements divided by the largest absolute value, if that is not 0. -/
theorem C91_normalize_partial (mem : ℕ → ℝ) {x : List ℝ} (h31 : x.length < 2147483648) (hz : ∃ v ∈ x, v ≠ 0) :
    ∃ P, 0 < P ∧ (∃ v ∈ x, |v| = P) ∧ (∀ v ∈ x, |v| ≤ P) ∧ normalize mem x = .ok (x.map fun v => v / P) := by
  have hs := seg_left x ((List.range x.length).map mem)
  obtain ⟨m', P, h1, h2, h3, w, _, h4⟩ := C26_normalize (m := x ++ (List.range x.length).map mem) (a := 0)
    (b := 0 + x.length) (d := x.length) (Nat.zero_le _) (by simp) (by simp) (Or.inr (by omega)) (by rw [hs]; exact hz)
  rw [hs] at h3 w
  have hr := mapping_of h31 (by simp) h1 w
  refine ⟨P, h2, h3, fun v hv => ?_, hr⟩
  have hmem : v / P ∈ seg m' x.length (x.length + (0 + x.length - 0)) := by
    have := Mem.wrote_seg w
    simp only [List.length_map] at this
    rw [Nat.zero_add, Nat.sub_zero, this]
    exact List.mem_map.mpr ⟨v, hv, rfl⟩
  have := h4 _ hmem
  rwa [abs_div, abs_of_pos h2, div_le_one h2] at this

theorem sized_of {f : List ℝ → ℤ → Except Fault (List ℝ)} {mem : ℕ → ℝ} {n : ℕ} (h31 : n < 2147483648) :
    sized f mem n = f ((List.range n).map mem) n := by
  unfold sized
  rw [empty_nat, toInt_within h31]
  rfl

/-- C91, `linspace` and `logspace`: `size` values, the first is `x1` and the last `x2` (their powers of ten). -/
theorem C91_spaced_partial (mem : ℕ → ℝ) (x1 x2 : ℝ) {n : ℕ} (hn : 2 ≤ n) (h31 : n < 2147483648) :
    linspace mem x1 x2 n = .ok (spaced x1 x2 n) ∧
    logspace mem x1 x2 n = .ok ((spaced x1 x2 n).map fun x => (10 : ℝ) ^ x) := by
  constructor
  · obtain ⟨m', h1, w⟩ := C22_linspace (m := (List.range n).map mem) (d := 0) x1 x2 hn (by simp)
    unfold linspace
    rw [sized_of h31, h1, full_wrote w (by simp [spaced])]
  · obtain ⟨m', h1, w⟩ := C22_logspace (m := (List.range n).map mem) (d := 0) x1 x2 hn (by simp)
    unfold logspace
    rw [sized_of h31, h1, full_wrote w (by simp [spaced])]

/-- C91, windows: `size ≥ 2` values of the documented window. Missing: `welch` for even sizes and the windows of one
sample (C38), sizes of 2^31 and more. -/
theorem C91_windows_partial (k : Window) (mem : ℕ → ℝ) {n : ℕ} (hn : 2 ≤ n) (h31 : n < 2147483648)
    (hk : k = .welch → n % 2 = 1) :
    window (C38.fn k) mem n = .ok ((List.range n).map (k.value n)) := by
  have hf : ∃ m', C38.fn k ((List.range n).map mem) 0 (0 + n) = .ok m' ∧
      Wrote ((List.range n).map mem) m' 0 ((List.range (0 + n - 0)).map (k.value (0 + n - 0))) := by
    by_cases hw : k = .welch
    · subst hw
      exact C38.C38_welch_odd_partial (by omega) (by simp) (by simpa using hk rfl)
    · exact C38.C38_values_partial k hw (by omega) (by simp)
  obtain ⟨m', h1, w⟩ := hf
  rw [Nat.zero_add, Nat.sub_zero] at w
  unfold window
  rw [sized_of h31, end_nat]
  simp only [bind, Except.bind]
  rw [h1, full_wrote w (by simp)]

/-- C91, `pad` to at least the length of the array, in both builds: the elements, then zeros. -/
theorem C91_pad_partial (dbg : Bool) (mem : ℕ → ℝ) {x : List ℝ} {n : ℕ} (h : x.length ≤ n) (h31 : n < 2147483648) :
    pad dbg mem x n = .ok (x ++ List.replicate (n - x.length) 0) := by
  have hs := seg_left x ((List.range n).map mem)
  obtain ⟨m', h1, w⟩ := C25_padder dbg (m := x ++ (List.range n).map mem) (a := 0) (b := 0 + x.length)
    (d := x.length) (e := x.length + n) (Nat.zero_le _) (by simp) (by omega) (by simp) (Or.inr (by omega))
  rw [hs] at w
  have hd := drop_wrote w (by simp; omega)
  unfold pad
  rw [empty_nat, end_within (by omega : x.length < 2147483648), end_within h31]
  simp only [bind, Except.bind, h1, pure, Except.pure]
  rw [hd]
  congr 3
  omega

/-- C91 is violated: `pad` to a smaller size aborts in a debug build and writes behind the new array in a release
build. -/
theorem C91_pad_violates (mem : ℕ → ℝ) {x : List ℝ} {n : ℕ} (h : n < x.length) (h31 : x.length < 2147483648) :
    pad true mem x n = .error .assertion ∧ pad false mem x n = .error .outOfBounds := by
  obtain ⟨h1, h2⟩ := C25_padder_short (m := x ++ (List.range n).map mem) (a := 0) (b := 0 + x.length)
    (d := x.length) (e := x.length + n) (Nat.zero_le _) (by simp) (by omega) (by simp) (by omega) (Or.inr (by omega))
  constructor
  · unfold pad
    rw [empty_nat, end_within h31, end_within (by omega : n < 2147483648)]
    simp only [bind, Except.bind, h1]
  · unfold pad
    rw [empty_nat, end_within h31, end_within (by omega : n < 2147483648)]
    simp only [bind, Except.bind, h2]

theorem toInt_wrap : toInt 4294967296 = 0 := by
  unfold toInt
  norm_num

/-- C91 is violated: a size is cut to 32 bits, so an array of 2^32 numbers is returned as it came, whatever its memory
holds. -/
theorem C91_uninitialised_violates (mem : ℕ → ℝ) (x1 x2 : ℝ) {r : List ℝ} (hr : empty mem 4294967296 = .ok r) :
    linspace mem x1 x2 4294967296 = .ok r := by
  unfold linspace sized
  rw [hr, toInt_wrap]
  exact C22_none r 0 x1 x2 (Int.le_refl 0)

/-- Negative sizes are rejected with an exception. -/
theorem C91_negative (mem : ℕ → ℝ) (x1 x2 : ℝ) {n : ℤ} (hn : n < 0) (f : List ℝ → ℕ → ℕ → Except Fault (List ℝ))
    (dbg : Bool) (x : List ℝ) :
    linspace mem x1 x2 n = .error .exception ∧ logspace mem x1 x2 n = .error .exception ∧
    window f mem n = .error .exception ∧ pad dbg mem x n = .error .exception := by
  have he : empty mem n = .error .exception := by
    unfold empty
    rw [if_pos hn]
  refine ⟨?_, ?_, ?_, ?_⟩
  · unfold linspace sized
    rw [he]
    rfl
  · unfold logspace sized
    rw [he]
    rfl
  · unfold window sized
    rw [he]
    rfl
  · unfold pad
    rw [he]
    rfl

/-! ### Concrete cases -/

example (mem : ℕ → ℝ) : pad true mem [1, 2] 4 = .ok [1, 2, 0, 0] :=
  C91_pad_partial true mem (x := [1, 2]) (n := 4) (by simp) (by norm_num)

example (mem : ℕ → ℝ) : linspace mem 0 1 3 = .ok [0, 1 / 2, 1] := by
  have := (C91_spaced_partial mem 0 1 (n := 3) (by norm_num) (by norm_num)).1
  rw [show ((3 : ℕ) : ℤ) = 3 from rfl] at this
  rw [this]
  congr 1
  simp [spaced, List.range_succ]
  norm_num

example (mem : ℕ → ℝ) : clip mem [-3, 0, 7] (-1) 1 = .ok [-1, 0, 1] := by
  rw [(C91_mapping_partial mem (x := [-3, 0, 7]) (by simp)).2.2.1 (-1) 1 (by norm_num)]
  norm_num

end Edsp.PyCreate
