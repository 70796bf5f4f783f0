import Verif.Props.C36_Converters
import Verif.Props.C22_Linspace

/-!
# C63: melspace, erbspace, barkspace, centspace; C64: real and complex sequences
-/

namespace Edsp.C63
open Edsp Edsp.Conv Edsp.Spec Edsp.Props

theorem mapRange_ok {α : Type} {g : α → Except Fault α} {h : α → α} : ∀ (n : Nat) (m : List α) (p : Nat),
    p + n ≤ m.length → (∀ v ∈ seg m p (p + n), g v = .ok (h v)) →
    ∃ m', mapRange g n m p = .ok m' ∧ Wrote m m' p ((seg m p (p + n)).map h)
  | 0, m, p, hp, _ => ⟨m, rfl, by simpa [seg] using Mem.wrote_nil m (by omega)⟩
  | n + 1, m, p, hp, hg => by
    obtain ⟨v, hv⟩ : ∃ v, m[p]? = some v := ⟨m[p], List.getElem?_eq_getElem (by omega)⟩
    have hs := Mem.seg_cons (n := n) hv
    rw [hs] at hg ⊢
    have hs2 : seg (m.set p (h v)) (p + 1) (p + 1 + n) = seg m (p + 1) (p + 1 + n) :=
      Mem.seg_set_of_out _ (Or.inl (by omega))
    obtain ⟨m', h1, h2⟩ := mapRange_ok (g := g) (h := h) n (m.set p (h v)) (p + 1)
      (by rw [List.length_set]; omega)
      (by rw [hs2]; exact fun w hw => hg w (List.mem_cons_of_mem _ hw))
    rw [hs2] at h2
    refine ⟨m', ?_, ?_⟩
    · simp only [mapRange, Mem.read_ok hv, hg v List.mem_cons_self, Mem.write_ok (by omega : p < m.length),
        bind, Except.bind]
      exact h1
    · rw [List.map_cons]
      exact Mem.wrote_cons (by omega) h2

/-- Every spaced value lies between the end points. -/
theorem spaced_mem {x1 x2 : ℝ} (h : x1 ≤ x2) {N : Nat} (hN : 2 ≤ N) {v : ℝ} (hv : v ∈ spaced x1 x2 N) :
    x1 ≤ v ∧ v ≤ x2 := by
  unfold spaced at hv
  obtain ⟨i, hi, rfl⟩ := List.mem_map.1 hv
  rw [List.mem_range] at hi
  have hN1 : (0 : ℝ) < (N : ℝ) - 1 := by
    have : (2 : ℝ) ≤ N := by exact_mod_cast hN
    linarith
  have hi1 : (i : ℝ) ≤ (N : ℝ) - 1 := by
    have : ((i + 1 : Nat) : ℝ) ≤ N := by exact_mod_cast hi
    push_cast at this; linarith
  have hi0 : (0 : ℝ) ≤ i := Nat.cast_nonneg i
  have hd : 0 ≤ (x2 - x1) / ((N : ℝ) - 1) := div_nonneg (by linarith) hN1.le
  refine ⟨by nlinarith, ?_⟩
  have : (i : ℝ) * ((x2 - x1) / ((N : ℝ) - 1)) ≤ ((N : ℝ) - 1) * ((x2 - x1) / ((N : ℝ) - 1)) :=
    mul_le_mul_of_nonneg_right hi1 hd
  rw [mul_div_cancel₀ _ hN1.ne'] at this
  linarith

/-- All four functions at once: `g` is the converter, defined with value `h` on `[lo, hi]`. -/
theorem audSpace_ok {g : ℝ → Except Fault ℝ} {h : ℝ → ℝ} {lo hi : ℝ} (hlh : lo ≤ hi)
    (hg : ∀ v, lo ≤ v → v ≤ hi → g v = .ok (h v)) {m : List ℝ} {a b : Nat} (hN : a + 2 ≤ b) (hb : b ≤ m.length) :
    ∃ m', audSpace g m a b lo hi = .ok m' ∧ Wrote m m' a ((spaced lo hi (b - a)).map h) := by
  obtain ⟨m1, e1, w1⟩ := C22_linspace (m := m) (d := a) lo hi (N := b - a) (by omega) (by omega)
  have hl := (C22_endpoints lo hi (N := b - a) (by omega)).1
  have hs := Mem.wrote_seg w1
  rw [hl] at hs
  have hl1 := Mem.wrote_length w1
  obtain ⟨m2, e2, w2⟩ := mapRange_ok (g := g) (h := h) (b - a) m1 a (by omega) (by
    rw [hs]
    intro v hv
    have := spaced_mem hlh (by omega) hv
    exact hg v this.1 this.2)
  rw [hs] at w2
  refine ⟨m2, ?_, ?_⟩
  · simp only [audSpace, Mem.distance_ok (by omega : a ≤ b), bind, Except.bind, e1]
    exact e2
  · rw [Mem.wrote_iff] at *
    obtain ⟨a1, a2, a3, a4⟩ := w1
    obtain ⟨b1, b2, b3, b4⟩ := w2
    rw [List.length_map] at *
    refine ⟨a1, by omega, b3, fun j hj => ?_⟩
    rw [b4 j hj, a4 j hj]

/-- The scales and the converter of each. -/
inductive Scale | mel | erb | bark | cent

/-- The function called by `melspace`, `erbspace`, `barkspace`, `centspace`. -/
noncomputable def Scale.conv : Scale → ℝ → Except Fault ℝ
  | .mel => hertz2mel
  | .erb => hertz2erb
  | .bark => hertz2bark
  | .cent => hertz2cent

theorem conv_ok (s : Scale) {f : ℝ} (hf : 0 < f) : ∃ v, s.conv f = .ok v := by
  cases s with
  | mel => exact ⟨_, C36.hertz2mel_ok (by linarith)⟩
  | erb => exact ⟨_, C36.hertz2erb_ok hf.le⟩
  | bark => exact ⟨_, C36.hertz2bark_ok (by linarith)⟩
  | cent =>
    refine ⟨centP * Real.log f + centQ, ?_⟩
    simp only [Scale.conv, hertz2cent, C36.log_ok hf, bind, Except.bind, pure, Except.pure, Num.sign,
      not_lt.2 hf.le, if_false, abs_of_pos hf, one_mul]

theorem conv_mono (s : Scale) {f g x y : ℝ} (hf : 0 < f) (hfg : f < g) (e1 : s.conv f = .ok x)
    (e2 : s.conv g = .ok y) : x < y := by
  cases s with
  | mel => exact C36.C36_mel.2.2.1 f g x y hf.le hfg e1 e2
  | erb => exact C36.C36_erb.2.2.1 f g x y hf.le hfg e1 e2
  | bark => exact C36.C37_bark_monotone f g x y hf.le hfg e1 e2
  | cent => exact C36.C36_cent_partial.2.2.1 f g x y hf hfg e1 e2

/-- **C63 (what is stored).**  For 0 < min < max and a range of at least two cells, `melspace` (and the other three)
stores values `vs`, one per cell and nothing else; the first is the converted minimum, the last the converted
maximum, they strictly increase, and the i-th is the converted i-th of the frequencies equally spaced **in Hertz**.
Missing: the values are not equally spaced on the scale as documented (`C63_spacing_violates`). -/
theorem C63_space_partial (s : Scale) {m : List ℝ} {a b : Nat} {lo hi : ℝ} (h0 : 0 < lo) (hlh : lo < hi)
    (hN : a + 2 ≤ b) (hb : b ≤ m.length) :
    ∃ m' vs, audSpace s.conv m a b lo hi = .ok m' ∧ Wrote m m' a vs ∧ vs.length = b - a ∧
      (∃ v, vs[0]? = some v ∧ s.conv lo = .ok v) ∧ (∃ v, vs[b - a - 1]? = some v ∧ s.conv hi = .ok v) ∧
      (∀ i x y, vs[i]? = some x → vs[i + 1]? = some y → x < y) ∧
      ∀ i : Nat, i < b - a → ∃ v, vs[i]? = some v ∧
        s.conv (lo + (i : ℝ) * ((hi - lo) / (((b - a : Nat) : ℝ) - 1))) = .ok v := by
  classical
  let h : ℝ → ℝ := fun f => if hf : 0 < f then (conv_ok s hf).choose else 0
  have hh : ∀ v, 0 < v → s.conv v = .ok (h v) := by
    intro v hv
    simp only [h, hv, dif_pos]
    exact (conv_ok s hv).choose_spec
  obtain ⟨m', e, w⟩ := audSpace_ok (g := s.conv) (h := h) hlh.le (fun v h1 _ => hh v (h0.trans_le h1)) hN hb
  obtain ⟨l1, l2, l3, l4⟩ := C22_endpoints lo hi (N := b - a) (by omega)
  refine ⟨m', _, e, w, by rw [List.length_map, l1], ⟨h lo, by rw [List.getElem?_map, l2]; rfl, hh lo h0⟩,
    ⟨h hi, by rw [List.getElem?_map, l3]; rfl, hh hi (h0.trans hlh)⟩, ?_, ?_⟩
  · intro i x y hx hy
    rw [List.getElem?_map, Option.map_eq_some_iff] at hx hy
    obtain ⟨f, hf, rfl⟩ := hx
    obtain ⟨g, hg, rfl⟩ := hy
    have hd := l4 i f g hf hg
    have hN1 : (0 : ℝ) < ((b - a : Nat) : ℝ) - 1 := by
      have : (2 : ℝ) ≤ ((b - a : Nat) : ℝ) := by exact_mod_cast (by omega : 2 ≤ b - a)
      linarith
    have hp : 0 < (hi - lo) / (((b - a : Nat) : ℝ) - 1) := div_pos (by linarith) hN1
    have hf0 := (spaced_mem hlh.le (by omega) (List.mem_of_getElem? hf)).1
    exact conv_mono s (by linarith) (by linarith : f < g) (hh f (by linarith)) (hh g (by linarith))
  · intro i hi'
    have hget : (spaced lo hi (b - a))[i]? = some (lo + (i : ℝ) * ((hi - lo) / (((b - a : Nat) : ℝ) - 1))) := by
      unfold spaced
      rw [List.getElem?_map, List.getElem?_range hi']
      rfl
    refine ⟨_, by rw [List.getElem?_map, hget]; rfl, hh _ ?_⟩
    have := (spaced_mem hlh.le (by omega) (List.mem_of_getElem? hget)).1
    linarith

example : (0 : ℝ) < 20 ∧ (20 : ℝ) < 20000 ∧ 0 + 2 ≤ 8 ∧ 8 ≤ (List.replicate 8 (0 : ℝ)).length := by
  norm_num

/-- **C63 is violated**: `melspace` over [0, 1400] Hz with three cells stores three values whose first step is larger
than the second, so they are not uniformly spaced on the mel scale. -/
theorem C63_spacing_violates (m : List ℝ) (hm : 3 ≤ m.length) :
    ∃ m' x y z, audSpace hertz2mel m 0 3 0 1400 = .ok m' ∧ Wrote m m' 0 [x, y, z] ∧ z - y < y - x := by
  obtain ⟨m', e, w⟩ := audSpace_ok (g := hertz2mel) (h := fun f => 1127.01048 * Real.log (1 + f / 700))
    (lo := 0) (hi := 1400) (by norm_num) (fun v h1 _ => C36.hertz2mel_ok (by linarith)) (m := m) (a := 0) (b := 3)
    (by norm_num) hm
  have hs : spaced (0 : ℝ) 1400 (3 - 0) = [0, 700, 1400] := by
    norm_num [spaced, List.range_succ]
  rw [hs] at w
  refine ⟨m', _, _, _, e, w, ?_⟩
  have h1 : Real.log (1 + 0 / 700) = 0 := by norm_num
  have h4 : Real.log 4 = 2 * Real.log 2 := by
    rw [show (4 : ℝ) = 2 ^ 2 by norm_num, Real.log_pow]; norm_num
  have h3 : Real.log 3 < Real.log 4 := Real.log_lt_log (by norm_num) (by norm_num)
  beta_reduce
  rw [h1, show (1 : ℝ) + 700 / 700 = 2 by norm_num, show (1 : ℝ) + 1400 / 700 = 3 by norm_num]
  norm_num
  linarith

example : 3 ≤ (List.replicate 3 (0 : ℝ)).length := by norm_num

/-! ### C64 -/

theorem complex2real_ok {K : Type} : ∀ (zs : List (K × K)) (i : Nat) (d1 d2 : List K), i + zs.length ≤ d1.length →
    i + zs.length ≤ d2.length →
    ∃ o1 o2, complex2real zs i d1 d2 = .ok (o1, o2) ∧ Wrote d1 o1 i (zs.map Prod.fst) ∧
      Wrote d2 o2 i (zs.map Prod.snd)
  | [], i, d1, d2, h1, h2 => ⟨d1, d2, rfl, Mem.wrote_nil _ (by simpa using h1), Mem.wrote_nil _ (by simpa using h2)⟩
  | z :: zs, i, d1, d2, h1, h2 => by
    rw [List.length_cons] at h1 h2
    obtain ⟨o1, o2, e, w1, w2⟩ := complex2real_ok zs (i + 1) (d1.set i z.1) (d2.set i z.2)
      (by rw [List.length_set]; omega) (by rw [List.length_set]; omega)
    refine ⟨o1, o2, ?_, Mem.wrote_cons (by omega) w1, Mem.wrote_cons (by omega) w2⟩
    simp only [complex2real, Mem.write_ok (by omega : i < d1.length), Mem.write_ok (by omega : i < d2.length), bind,
      Except.bind]
    exact e

theorem real2complex_ok {K : Type} [Zero K] : ∀ (xs : List K) (i : Nat) (d : List (K × K)),
    i + xs.length ≤ d.length →
    ∃ o, real2complex xs i d = .ok o ∧ Wrote d o i (xs.map fun x => (x, 0))
  | [], i, d, h => ⟨d, rfl, Mem.wrote_nil _ (by simpa using h)⟩
  | x :: xs, i, d, h => by
    rw [List.length_cons] at h
    obtain ⟨o, e, w⟩ := real2complex_ok xs (i + 1) (d.set i (x, 0)) (by rw [List.length_set]; omega)
    refine ⟨o, ?_, Mem.wrote_cons (by omega) w⟩
    simp only [real2complex, Mem.write_ok (by omega : i < d.length), bind, Except.bind]
    exact e

theorem real2complex2_ok {K : Type} (im : List K) : ∀ (xs : List K) (i : Nat) (d : List (K × K)),
    i + xs.length ≤ d.length → i + xs.length ≤ im.length →
    ∃ o, real2complex2 xs im i d = .ok o ∧ Wrote d o i (xs.zip (im.drop i))
  | [], i, d, h, _ => ⟨d, rfl, Mem.wrote_nil _ (by simpa using h)⟩
  | x :: xs, i, d, h, h' => by
    rw [List.length_cons] at h h'
    obtain ⟨o, e, w⟩ := real2complex2_ok im xs (i + 1) (d.set i (x, im[i])) (by rw [List.length_set]; omega)
      (by omega)
    refine ⟨o, ?_, ?_⟩
    · simp only [real2complex2, Mem.read_ok (List.getElem?_eq_getElem (by omega : i < im.length)),
        Mem.write_ok (by omega : i < d.length), bind, Except.bind]
      exact e
    · rw [List.drop_eq_getElem_cons (by omega : i < im.length), List.zip_cons_cons]
      exact Mem.wrote_cons (by omega) w

/-- **C64.**  Splitting a complex sequence into real and imaginary parts and joining the two outputs gives the
sequence back; splitting a real sequence turned complex gives it back with imaginary parts 0.  The outputs may be
longer than the input: cells behind it are untouched. -/
theorem C64_complex_round_trip {K : Type} [Zero K] (zs : List (K × K)) (xs : List K) (d1 d2 : List K)
    (dz : List (K × K)) (h1 : zs.length ≤ d1.length) (h2 : zs.length ≤ d2.length) (hz : zs.length ≤ dz.length)
    (hx1 : xs.length ≤ d1.length) (hx2 : xs.length ≤ d2.length) (hx : xs.length ≤ dz.length) :
    (∃ o1 o2 o, complex2real zs 0 d1 d2 = .ok (o1, o2) ∧ Wrote d1 o1 0 (zs.map Prod.fst) ∧
      Wrote d2 o2 0 (zs.map Prod.snd) ∧
      real2complex2 (seg o1 0 zs.length) o2 0 dz = .ok o ∧ Wrote dz o 0 zs) ∧
    (∃ o o1 o2, real2complex xs 0 dz = .ok o ∧ Wrote dz o 0 (xs.map fun x => (x, 0)) ∧
      complex2real (seg o 0 xs.length) 0 d1 d2 = .ok (o1, o2) ∧ Wrote d1 o1 0 xs ∧
      Wrote d2 o2 0 (List.replicate xs.length 0)) := by
  constructor
  · obtain ⟨o1, o2, e, w1, w2⟩ := complex2real_ok zs 0 d1 d2 (by omega) (by omega)
    have s1 := Mem.wrote_seg w1
    rw [List.length_map, Nat.zero_add] at s1
    obtain ⟨o, e', w⟩ := real2complex2_ok o2 (zs.map Prod.fst) 0 dz (by simpa using hz)
      (by rw [Mem.wrote_length w2]; simpa using h2)
    refine ⟨o1, o2, o, e, w1, w2, by rw [s1]; exact e', ?_⟩
    have : (zs.map Prod.fst).zip (o2.drop 0) = zs := by
      have w2' := w2.2
      simp only [List.take_zero, List.nil_append, Nat.zero_add, List.length_map] at w2'
      rw [List.drop_zero, w2']
      clear w2' w2 w w1 s1 e e' hz h1 h2 hx2
      induction zs generalizing d2 with
      | nil => simp
      | cons z zs ih =>
        rw [List.map_cons, List.map_cons, List.cons_append, List.zip_cons_cons]
        congr 1
        have := ih (d2.drop 1)
        rwa [List.drop_drop, Nat.add_comm] at this
    rwa [this] at w
  · obtain ⟨o, e, w⟩ := real2complex_ok xs 0 dz (by omega)
    have s := Mem.wrote_seg w
    rw [List.length_map, Nat.zero_add] at s
    obtain ⟨o1, o2, e', w1, w2⟩ := complex2real_ok (xs.map fun x => (x, (0 : K))) 0 d1 d2 (by simpa using hx1)
      (by simpa using hx2)
    refine ⟨o, o1, o2, e, w, by rw [s]; exact e', ?_, ?_⟩
    · simpa [Function.comp_def] using w1
    · simpa [Function.comp_def, List.map_const'] using w2

example : [((1 : ℤ), 2), (3, 4)].length ≤ [(0 : ℤ), 0, 0].length := by decide

end Edsp.C63
