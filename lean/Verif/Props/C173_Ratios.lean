import Verif.Props.C63_AudSpace
import Mathlib.Tactic.NormNum
import Mathlib.Tactic.Linarith

/-!
# C173: ratios and steps on the logarithmic scales

C36 says that the converters undo each other.  Here: what a *step* on a scale means in the linear unit, and what equal
steps in Hertz become on the scale.
-/

namespace Edsp.Props.C173
open Edsp Edsp.Conv Edsp.Spec Edsp.C63

/-- **C173 (levels).**  The level of a product is the sum of the levels, of a reciprocal the negated level; a sum of
levels stands for the product; 20 dB of magnitude and 10 dB of power stand for the factor ten. -/
theorem C173_levels (dbg : Bool) :
    (∀ x y dx dy, 0 < x → 0 < y → mag2db dbg x = .ok dx → mag2db dbg y = .ok dy →
      mag2db dbg (x * y) = .ok (dx + dy) ∧ mag2db dbg x⁻¹ = .ok (-dx)) ∧
    (∀ x y dx dy, 0 < x → 0 < y → pow2db dbg x = .ok dx → pow2db dbg y = .ok dy →
      pow2db dbg (x * y) = .ok (dx + dy) ∧ pow2db dbg x⁻¹ = .ok (-dx)) ∧
    (∀ d e, db2mag (d + e) = db2mag d * db2mag e ∧ db2pow (d + e) = db2pow d * db2pow e ∧
      db2pow d = db2mag d ^ 2) ∧
    db2mag 20 = 10 ∧ db2pow 10 = 10 := by
  have h10 : (0 : ℝ) < 10 := by norm_num
  refine ⟨?_, ?_, fun d e => ⟨?_, ?_, ?_⟩, ?_, ?_⟩
  · intro x y dx dy hx hy e1 e2
    rw [C36.mag2db_ok dbg hx] at e1
    rw [C36.mag2db_ok dbg hy] at e2
    rw [C36.mag2db_ok dbg (mul_pos hx hy), C36.mag2db_ok dbg (inv_pos.2 hx), Real.logb_mul hx.ne' hy.ne', Real.logb_inv,
      ← Except.ok.inj e1, ← Except.ok.inj e2]
    exact ⟨by congr 1; ring, by congr 1; ring⟩
  · intro x y dx dy hx hy e1 e2
    rw [C36.pow2db_ok dbg hx] at e1
    rw [C36.pow2db_ok dbg hy] at e2
    rw [C36.pow2db_ok dbg (mul_pos hx hy), C36.pow2db_ok dbg (inv_pos.2 hx), Real.logb_mul hx.ne' hy.ne', Real.logb_inv,
      ← Except.ok.inj e1, ← Except.ok.inj e2]
    exact ⟨by congr 1; ring, by congr 1; ring⟩
  · rw [db2mag, db2mag, db2mag, ← Real.rpow_add h10]; congr 1; ring
  · rw [db2pow, db2pow, db2pow, ← Real.rpow_add h10]; congr 1; ring
  · rw [db2pow, db2mag, ← Real.rpow_natCast, ← Real.rpow_mul h10.le]; congr 1; push_cast; ring
  · rw [db2mag]; norm_num
  · rw [db2pow]; norm_num

example : ∃ d, mag2db true 2 = .ok d ∧ mag2db true (2 * 2) = .ok (d + d) :=
  ⟨_, C36.mag2db_ok true (by norm_num),
    ((C173_levels true).1 2 2 _ _ (by norm_num) (by norm_num) (C36.mag2db_ok true (by norm_num))
      (C36.mag2db_ok true (by norm_num))).1⟩

theorem hertz2cent_ok {f : ℝ} (hf : 0 < f) : hertz2cent f = .ok (centP * Real.log f + centQ) := by
  simp only [hertz2cent, C36.log_ok hf, bind, Except.bind, pure, Except.pure, Num.sign,
    not_lt.2 hf.le, if_false, abs_of_pos hf, one_mul]

/-- **C173 (intervals).**  Multiplying a frequency by a ratio `r` moves it by `1200 log₂ r` cents, an octave by 1200,
wherever it starts; 440 Hz is at 5700; negative frequencies are mirrored.  On the way back a step of `d` cents
multiplies the frequency by `2 ^ (d / 1200)`, as long as neither end is below zero cents. -/
theorem C173_intervals :
    (∀ f r c, 0 < f → 0 < r → hertz2cent f = .ok c → hertz2cent (r * f) = .ok (c + 1200 * Real.logb 2 r)) ∧
    (∀ f c, 0 < f → hertz2cent f = .ok c → hertz2cent (2 * f) = .ok (c + 1200) ∧ hertz2cent (-f) = .ok (-c)) ∧
    hertz2cent 440 = .ok 5700 ∧
    (∀ c d, 0 ≤ c → 0 ≤ c + d → cent2hertz (c + d) = cent2hertz c * 2 ^ (d / 1200)) := by
  have h2 : (0 : ℝ) < Real.log 2 := Real.log_pos (by norm_num)
  have key : ∀ f r c, 0 < f → 0 < r → hertz2cent f = .ok c → hertz2cent (r * f) = .ok (c + 1200 * Real.logb 2 r) := by
    intro f r c hf hr e
    rw [hertz2cent_ok hf] at e
    rw [hertz2cent_ok (mul_pos hr hf), ← Except.ok.inj e, Real.log_mul hr.ne' hf.ne', Real.logb, centP]
    congr 1; ring
  refine ⟨key, fun f c hf e => ⟨?_, ?_⟩, ?_, ?_⟩
  · have := key f 2 c hf (by norm_num) e
    rwa [Real.logb_self_eq_one (by norm_num), mul_one] at this
  · rw [hertz2cent_ok hf] at e
    have hn : -f < 0 := by linarith
    rw [← Except.ok.inj e]
    simp only [hertz2cent, abs_neg, abs_of_pos hf, C36.log_ok hf, bind, Except.bind, pure, Except.pure, Num.sign, hn,
      if_true, neg_mul, one_mul]
  · rw [hertz2cent_ok (by norm_num), centQ]
    congr 1; ring
  · intro c d hc hcd
    rw [cent2hertz, cent2hertz, abs_of_nonneg hc, abs_of_nonneg hcd, Num.sign, Num.sign, if_neg (not_lt.2 hc),
      if_neg (not_lt.2 hcd), one_mul, one_mul, Real.rpow_def_of_pos (by norm_num), ← Real.exp_add]
    congr 1
    rw [centP]
    field_simp
    ring

example : hertz2cent 880 = .ok 6900 := by
  have := (C173_intervals.2.1 440 5700 (by norm_num) C173_intervals.2.2.1).1
  norm_num at this
  exact this

/-- **C173 (steps).**  Equal steps on the mel scale multiply the frequency, counted from -700 Hz, by equal factors;
on the ERB scale, counted from -1000/4.37 Hz. -/
theorem C173_steps (a d : ℝ) :
    mel2hertz (a + d) + 700 = (mel2hertz a + 700) * Real.exp (d / 1127.01048) ∧
    erb2hertz (a + d) + 1000 / 4.37 = (erb2hertz a + 1000 / 4.37) * 10 ^ (d / 21.4) := by
  constructor
  · rw [mel2hertz, mel2hertz, add_div, Real.exp_add]; ring
  · rw [erb2hertz, erb2hertz, add_div, Real.rpow_add (by norm_num)]; ring

/-- Equal steps under a logarithm shrink. -/
theorem log_steps {x y z : ℝ} (hx : 0 < x) (hxy : x < y) (he : z - y = y - x) :
    Real.log z - Real.log y < Real.log y - Real.log x := by
  have hy : 0 < y := by linarith
  have hz : 0 < z := by linarith
  have : Real.log (x * z) < Real.log (y * y) := by
    apply Real.log_lt_log (mul_pos hx hz)
    have : z = 2 * y - x := by linarith
    subst this
    nlinarith [mul_pos (sub_pos.2 hxy) (sub_pos.2 hxy)]
  rw [Real.log_mul hx.ne' hz.ne', Real.log_mul hy.ne' hy.ne'] at this
  linarith

/-- **C173 (equal distances in Hertz).**  On the mel, ERB and cent scales the higher of two neighbouring bands of equal
width in Hertz is the narrower one. -/
theorem C173_shrink {s : Scale} (hs : s ≠ .bark) {f g h x y z : ℝ} (hf : 0 < f) (hfg : f < g) (he : h - g = g - f)
    (e1 : s.conv f = .ok x) (e2 : s.conv g = .ok y) (e3 : s.conv h = .ok z) : z - y < y - x := by
  have hg : 0 < g := by linarith
  have hh : 0 < h := by linarith
  cases s with
  | bark => exact absurd rfl hs
  | mel =>
    simp only [Scale.conv] at e1 e2 e3
    rw [C36.hertz2mel_ok (by linarith)] at e1 e2 e3
    rw [← Except.ok.inj e1, ← Except.ok.inj e2, ← Except.ok.inj e3]
    have := log_steps (x := 1 + f / 700) (y := 1 + g / 700) (z := 1 + h / 700) (by positivity) (by linarith)
      (by linarith)
    linarith
  | erb =>
    simp only [Scale.conv] at e1 e2 e3
    rw [C36.hertz2erb_ok hf.le] at e1
    rw [C36.hertz2erb_ok hg.le] at e2
    rw [C36.hertz2erb_ok hh.le] at e3
    rw [← Except.ok.inj e1, ← Except.ok.inj e2, ← Except.ok.inj e3]
    have := log_steps (x := 1 + 4.37 * f / 1000) (y := 1 + 4.37 * g / 1000) (z := 1 + 4.37 * h / 1000) (by positivity)
      (by linarith) (by linarith)
    have h10 : (0 : ℝ) < Real.log 10 := Real.log_pos (by norm_num)
    have := div_lt_div_of_pos_right this h10
    rw [sub_div, sub_div] at this
    simp only [Real.logb]
    linarith
  | cent =>
    simp only [Scale.conv] at e1 e2 e3
    rw [hertz2cent_ok hf] at e1
    rw [hertz2cent_ok hg] at e2
    rw [hertz2cent_ok hh] at e3
    rw [← Except.ok.inj e1, ← Except.ok.inj e2, ← Except.ok.inj e3]
    have := mul_lt_mul_of_pos_left (log_steps hf hfg he) C36.centP_pos
    linarith

/-- **C173 (melspace, erbspace, centspace).**  For 0 < min < max the distances between neighbouring stored values
strictly shrink along the whole range, whatever its length. -/
theorem C173_space {s : Scale} (hs : s ≠ .bark) {m : List ℝ} {a b : Nat} {lo hi : ℝ} (h0 : 0 < lo) (hlh : lo < hi)
    (hN : a + 2 ≤ b) (hb : b ≤ m.length) :
    ∃ m' vs, audSpace s.conv m a b lo hi = .ok m' ∧ Wrote m m' a vs ∧ vs.length = b - a ∧
      ∀ i x y z, vs[i]? = some x → vs[i + 1]? = some y → vs[i + 2]? = some z → z - y < y - x := by
  obtain ⟨m', vs, e, w, hl, -, -, -, hv⟩ := C63_space_partial s h0 hlh hN hb
  refine ⟨m', vs, e, w, hl, fun i x y z hx hy hz => ?_⟩
  have hi2 : i + 2 < b - a := by
    by_contra hc
    rw [List.getElem?_eq_none (by omega)] at hz
    cases hz
  obtain ⟨x', hx', ex⟩ := hv i (by omega)
  obtain ⟨y', hy', ey⟩ := hv (i + 1) (by omega)
  obtain ⟨z', hz', ez⟩ := hv (i + 2) (by omega)
  obtain rfl : x = x' := Option.some.inj (hx.symm.trans hx')
  obtain rfl : y = y' := Option.some.inj (hy.symm.trans hy')
  obtain rfl : z = z' := Option.some.inj (hz.symm.trans hz')
  have hn : (0 : ℝ) < ((b - a : Nat) : ℝ) - 1 := by
    have : (2 : ℝ) ≤ ((b - a : Nat) : ℝ) := by exact_mod_cast (by omega : 2 ≤ b - a)
    linarith
  have hd : 0 < (hi - lo) / (((b - a : Nat) : ℝ) - 1) := div_pos (by linarith) hn
  have hi0 : (0 : ℝ) ≤ i := Nat.cast_nonneg i
  refine C173_shrink hs ?_ ?_ ?_ ex ey ez
  · positivity
  · push_cast; linarith
  · push_cast; ring

/-- **C173 (barkspace).**  Not so on the Bark scale, whose corrections widen the bands: from 100 Hz to 300 Hz in three
cells the second distance is the larger one. -/
theorem C173_bark (m : List ℝ) (hm : 3 ≤ m.length) :
    ∃ m' x y z, audSpace hertz2bark m 0 3 100 300 = .ok m' ∧ Wrote m m' 0 [x, y, z] ∧ y - x < z - y := by
  obtain ⟨m', e, w⟩ := audSpace_ok (g := hertz2bark) (h := fun f => C36.corrected (C36.rawBark f))
    (lo := 100) (hi := 300) (by norm_num) (fun v h1 _ => C36.hertz2bark_ok (by linarith)) (m := m) (a := 0) (b := 3)
    (by norm_num) hm
  have hs : spaced (100 : ℝ) 300 (3 - 0) = [100, 200, 300] := by
    norm_num [spaced, List.range_succ]
  rw [hs] at w
  refine ⟨m', _, _, _, e, w, ?_⟩
  norm_num [C36.corrected, C36.rawBark]

example : ∃ m' vs, audSpace Scale.mel.conv [0, 0, 0, 0] 0 4 100 400 = .ok m' ∧ Wrote [0, 0, 0, 0] m' 0 vs ∧
    vs.length = 4 ∧
      ∀ i x y z, vs[i]? = some x → vs[i + 1]? = some y → vs[i + 2]? = some z → z - y < y - x :=
  C173_space (by simp) (by norm_num) (by norm_num) (by norm_num) (by simp)

end Edsp.Props.C173
