import Verif.Lemmas.Chain
import Verif.Model.Bands

/-! Helper lemmas: layouts whose entries are matched pairs of poles and zeros, and the cascade built
from them. -/

namespace Edsp.BandL

open Edsp Edsp.Spec Edsp.LayoutL Edsp.BilinearL

/-- Two poles and two zeros. -/
structure Quad where
  p1 : ℂ
  p2 : ℂ
  z1 : ℂ
  z2 : ℂ

noncomputable def mkQuad (e : Quad) : PzPair := ⟨some e.p1, some e.z1, some e.p2, some e.z2⟩

/-- Conjugate, or both real. -/
def Match (a b : ℂ) : Prop := (a.im ≠ 0 → b = (starRingEnd ℂ) a) ∧ (a.im = 0 → b.im = 0)

theorem match_conj (a : ℂ) : Match a ((starRingEnd ℂ) a) := by
  refine ⟨fun _ => rfl, fun h => by simp [h]⟩

theorem match_sum {a b : ℂ} (h : Match a b) : (((a + b).re : ℝ) : ℂ) = a + b := by
  by_cases ha : a.im = 0
  · have := h.2 ha
    apply Complex.ext <;> simp [ha, this]
  · rw [h.1 ha]; apply Complex.ext <;> simp

theorem match_prod {a b : ℂ} (h : Match a b) : (((a * b).re : ℝ) : ℂ) = a * b := by
  by_cases ha : a.im = 0
  · have := h.2 ha
    apply Complex.ext <;> simp [ha, this]
  · rw [h.1 ha]; apply Complex.ext <;> simp; ring

noncomputable def secQuad (e : Quad) : Biquad ℝ :=
  ⟨(e.z1 * e.z2).re, -(e.z1 + e.z2).re, 1, (e.p1 * e.p2).re, -(e.p1 + e.p2).re, 1, 0, 0⟩

theorem quadOfRoots_match {a b : ℂ} (h : Match a b) :
    Biquad.quadOfRoots a.re a.im b.re b.im = .ok (-(a + b).re, (a * b).re) := by
  unfold Biquad.quadOfRoots
  by_cases ha : a.im = 0
  · have := h.2 ha
    simp [ha, this]
  · rw [h.1 ha]
    simp [ha]; ring

theorem makeBiquad_quad (e : Quad) (hp : Match e.p1 e.p2) (hz : Match e.z1 e.z2)
    (h : ¬ (e.p2 = 0 ∧ e.z2 = 0)) : makeBiquad (mkQuad e) = .ok (secQuad e) := by
  unfold makeBiquad mkQuad
  simp only [PzPair.singlePole, Option.some.injEq]
  rw [if_neg h]
  unfold Biquad.ofPoleZeroPair
  rw [quadOfRoots_match hp, quadOfRoots_match hz]
  rfl

theorem denAt_quad (e : Quad) (hp : Match e.p1 e.p2) {z : ℂ} (hz : z ≠ 0) :
    denAt (secQuad e) z = (z - e.p1) * (z - e.p2) / z ^ 2 := by
  have : (z - e.p1) * (z - e.p2) = z ^ 2 - (e.p1 + e.p2) * z + e.p1 * e.p2 := by ring
  rw [this, ← match_sum hp, ← match_prod hp]
  simp only [denAt, secQuad, Complex.ofReal_neg]
  field_simp
  ring

theorem numAt_quad (e : Quad) (hq : Match e.z1 e.z2) {z : ℂ} (hz : z ≠ 0) :
    numAt (secQuad e) z = (z - e.z1) * (z - e.z2) / z ^ 2 := by
  have : (z - e.z1) * (z - e.z2) = z ^ 2 - (e.z1 + e.z2) * z + e.z1 * e.z2 := by ring
  rw [this, ← match_sum hq, ← match_prod hq]
  simp only [numAt, secQuad, Complex.ofReal_neg, Complex.ofReal_one]
  field_simp
  ring

/-- Magnitude of one entry. -/
noncomputable def rho (z : ℂ) (e : Quad) : ℝ :=
  ‖z - e.z1‖ * ‖z - e.z2‖ / (‖z - e.p1‖ * ‖z - e.p2‖)

theorem tf_quad_norm (e : Quad) (hp : Match e.p1 e.p2) (hq : Match e.z1 e.z2) {z : ℂ} (hz : z ≠ 0) :
    ‖tf (secQuad e) z‖ = rho z e := by
  unfold tf rho
  rw [denAt_quad e hp hz, numAt_quad e hq hz, div_div_div_cancel_right₀ (pow_ne_zero 2 hz), norm_div,
    norm_mul, norm_mul]

theorem stable_quad (e : Quad) (hp : Match e.p1 e.p2) (h1 : ‖e.p1‖ < 1) (h2 : ‖e.p2‖ < 1) :
    (secQuad e).stability = true := by
  by_cases ha : e.p1.im = 0
  · have hb := hp.2 ha
    have g1 : |e.p1.re| < 1 := lt_of_le_of_lt (Complex.abs_re_le_norm _) h1
    have g2 : |e.p2.re| < 1 := lt_of_le_of_lt (Complex.abs_re_le_norm _) h2
    rw [abs_lt] at g1 g2
    unfold Biquad.stability
    rw [Bool.and_eq_true, decide_eq_true_eq, decide_eq_true_eq]
    simp only [secQuad, Complex.mul_re, Complex.add_re, ha, hb, mul_zero, sub_zero]
    rw [abs_lt, abs_lt]
    refine ⟨⟨?_, ?_⟩, ?_, ?_⟩ <;> nlinarith [mul_pos (sub_pos.mpr g1.2) (sub_pos.mpr g2.2),
      mul_pos (neg_lt_iff_pos_add.mp g1.1) (neg_lt_iff_pos_add.mp g2.1),
      mul_pos (neg_lt_iff_pos_add.mp g1.1) (sub_pos.mpr g2.2),
      mul_pos (sub_pos.mpr g1.2) (neg_lt_iff_pos_add.mp g2.1)]
  · have := stable_conj e.p1 0 h1
    unfold Biquad.stability at this ⊢
    rw [Bool.and_eq_true, decide_eq_true_eq, decide_eq_true_eq] at this ⊢
    have hb := hp.1 ha
    simp only [secQuad, secConj, hb, Complex.mul_re, Complex.add_re, Complex.conj_re,
      Complex.conj_im] at this ⊢
    have e1 : e.p1.re * e.p1.re - e.p1.im * -e.p1.im = e.p1.re * e.p1.re + e.p1.im * e.p1.im := by ring
    have e2 : -(e.p1.re + e.p1.re) = -2 * e.p1.re := by ring
    rw [e1, e2]; exact this

/-- The layout holds the entries `es`. -/
def QHolds (N : Nat) (l : Layout) (es : List Quad) : Prop :=
  l.poles = 2 * es.length ∧ l.pairs.length = N ∧ ∃ rest, l.pairs = es.map mkQuad ++ rest

theorem qstore {N : Nat} {l : Layout} {es : List Quad} (h : QHolds N l es) (hN : es.length < N)
    (e : Quad) : ∃ l', l.store (mkQuad e) 2 = .ok l' ∧ QHolds N l' (es ++ [e]) := by
  obtain ⟨h1, h2, rest, h3⟩ := h
  have hp : l.poles / 2 = es.length := by omega
  refine ⟨{ l with pairs := l.pairs.set (l.poles / 2) (mkQuad e), poles := l.poles + 2 }, ?_, ?_, ?_, ?_⟩
  · unfold Layout.store
    rw [if_neg (by omega), if_pos (by omega)]
  · simp [h1]; omega
  · simp [h2]
  · cases rest with
    | nil => rw [h3] at h2; simp at h2; omega
    | cons r rest =>
      refine ⟨rest, ?_⟩
      simp only []
      rw [hp, h3]
      have : es.length = (es.map mkQuad).length := by simp
      rw [this, List.set_append_right _ _ le_rfl]
      simp

theorem qget {N : Nat} {l : Layout} {es : List Quad} (h : QHolds N l es) (i : Nat)
    (hi : i < es.length) : l.get i = .ok (mkQuad es[i]) := by
  obtain ⟨h1, h2, rest, h3⟩ := h
  unfold Layout.get Layout.size
  rw [if_pos (by omega), h3, List.getElem?_append_left (by simpa using hi)]
  simp [hi]

open Classical in
/-- The section the code makes of an entry: one whose second pole and zero are 0 passes for a single pole and zero. -/
noncomputable def sec (e : Quad) : Biquad ℝ := if e.p2 = 0 ∧ e.z2 = 0 then secSingle (e.p1, e.z1) else secQuad e

theorem match_zero {a b : ℂ} (h : Match a b) (hb : b = 0) : a.im = 0 := by
  by_contra ha
  have := h.1 ha
  rw [hb] at this
  exact ha (by rw [(map_eq_zero (starRingEnd ℂ)).mp this.symm]; simp)

theorem makeBiquad_sec (e : Quad) (hp : Match e.p1 e.p2) (hz : Match e.z1 e.z2) : makeBiquad (mkQuad e) = .ok (sec e) := by
  unfold sec
  split_ifs with h
  · have := makeBiquad_single e.p1 e.z1 (match_zero hp h.1) (match_zero hz h.2)
    rw [← this, mkQuad, mkSingle, h.1, h.2]
  · exact makeBiquad_quad e hp hz h

/-- On the unit circle a real zero and its mirror image are equally far away. -/
theorem single_norm {p q z : ℂ} (hp : p.im = 0) (hq : q.im = 0) (hz : ‖z‖ = 1) :
    ‖tf (secSingle (p, q)) z‖ = ‖z - q‖ / ‖z - p‖ := by
  have h0 : z ≠ 0 := by intro h; rw [h] at hz; simp at hz
  have hpr : ((p.re : ℝ) : ℂ) = p := Complex.ext (by simp) (by simp [hp])
  have hqr : ((q.re : ℝ) : ℂ) = q := Complex.ext (by simp) (by simp [hq])
  have hqc : (starRingEnd ℂ) q = q := by rw [← hqr]; simp
  have hinv : z⁻¹ = (starRingEnd ℂ) z := by
    rw [Complex.inv_def, Complex.normSq_eq_norm_sq, hz]; simp
  have hn : numAt (secSingle (p, q)) z = z⁻¹ - q := by
    simp only [numAt, secSingle, Complex.ofReal_neg, hqr, Complex.ofReal_one, Complex.ofReal_zero]
    ring
  have hd : denAt (secSingle (p, q)) z = (z - p) / z := by
    simp only [denAt, secSingle, Complex.ofReal_neg, hpr, Complex.ofReal_zero]
    field_simp
    ring
  unfold tf
  rw [hn, hd, norm_div, norm_div, hz, div_one, hinv]
  congr 1
  rw [← Complex.norm_conj (z - q), map_sub, hqc]

theorem tf_sec_norm (e : Quad) (hp : Match e.p1 e.p2) (hq : Match e.z1 e.z2) {z : ℂ} (hz : ‖z‖ = 1) :
    ‖tf (sec e) z‖ = rho z e := by
  have h0 : z ≠ 0 := by intro h; rw [h] at hz; simp at hz
  unfold sec
  split_ifs with h
  · rw [single_norm (match_zero hp h.1) (match_zero hq h.2) hz]
    unfold rho
    rw [h.1, h.2, sub_zero, hz, mul_one, mul_one]
  · exact tf_quad_norm e hp hq h0

theorem stable_sec (e : Quad) (hp : Match e.p1 e.p2) (h1 : ‖e.p1‖ < 1) (h2 : ‖e.p2‖ < 1) : (sec e).stability = true := by
  unfold sec
  split_ifs with h
  · have hre : ((e.p1.re : ℝ) : ℂ) = e.p1 := Complex.ext (by simp) (by simp [match_zero hp h.1])
    have hb : |e.p1.re| < 1 := lt_of_le_of_lt (Complex.abs_re_le_norm _) h1
    unfold Biquad.stability
    rw [Bool.and_eq_true, decide_eq_true_eq, decide_eq_true_eq]
    simp only [secSingle]
    rw [abs_neg]
    simpa using hb
  · exact stable_quad e hp h1 h2

/-- A good entry: a real-coefficient stable section. -/
structure Good (e : Quad) : Prop where
  mp : Match e.p1 e.p2
  mz : Match e.z1 e.z2
  s1 : ‖e.p1‖ < 1
  s2 : ‖e.p2‖ < 1

theorem prod_norm (es : List Quad) (hg : ∀ e ∈ es, Good e) {z : ℂ} (hz : ‖z‖ = 1) :
    ‖((es.map sec).map fun g => tf g z).prod‖ = (es.map (rho z)).prod := by
  induction es with
  | nil => simp
  | cons e es ih =>
    have h := hg e (by simp)
    simp only [List.map_cons, List.prod_cons, norm_mul]
    rw [tf_sec_norm e h.mp h.mz hz, ih (fun e he => hg e (by simp [he]))]

/-- **The cascade of a layout of good entries**, with its sections. -/
theorem quads_struct {N : Nat} {d : Layout} {es : List Quad} (hold : QHolds N d es)
    (hpos : 0 < es.length) (hN : es.length ≤ (N + 1) / 2) (hg : ∀ e ∈ es, Good e)
    (hgain : 0 ≤ d.gain) (hnum : (es.map (rho (Complex.exp (d.w * Complex.I)))).prod ≠ 0) :
    ∃ c, makeCascade N d = .ok c ∧ c.num = es.length ∧ (∀ g ∈ active c, g.stability = true) ∧
      (∃ κ g0 gs, 0 ≤ κ ∧ es.map sec = g0 :: gs ∧ active c = applyScale g0 κ :: gs) ∧
      ∀ w : ℝ, ChainGainAt (active c) w (d.gain *
        ((es.map (rho (Complex.exp (w * Complex.I)))).prod /
          (es.map (rho (Complex.exp (d.w * Complex.I)))).prod)) := by
  have hunit : ∀ w : ℝ, ‖Complex.exp (w * Complex.I)‖ = 1 := Complex.norm_exp_ofReal_mul_I
  have hstab : ∀ g ∈ es.map sec, g.stability = true := by
    intro g h
    obtain ⟨e, he, rfl⟩ := List.mem_map.mp h
    exact stable_sec e (hg e he).mp (hg e he).s1 (hg e he).s2
  have hden : ∀ (w : ℝ), ∀ g ∈ es.map sec, denAt g (Complex.exp (w * Complex.I)) ≠ 0 :=
    fun w g h => Response.denAt_ne_zero (hstab g h) (hunit w)
  have hprod : ∀ w : ℝ, ‖((es.map sec).map fun g => tf g (Complex.exp (w * Complex.I))).prod‖ =
      (es.map (rho (Complex.exp (w * Complex.I)))).prod := fun w => prod_norm es hg (hunit w)
  have hnum' : ∀ g ∈ es.map sec, numAt g (Complex.exp (d.w * Complex.I)) ≠ 0 := by
    intro g h h0
    apply hnum
    rw [← hprod d.w, norm_eq_zero, List.prod_eq_zero_iff, List.mem_map]
    exact ⟨g, h, by simp [tf, h0]⟩
  have ha0 : ∀ g ∈ es.map sec, g.a0 = 1 := by
    intro g h
    obtain ⟨e, -, rfl⟩ := List.mem_map.mp h
    unfold sec
    split_ifs <;> rfl
  have hget : ∀ i (hi : i < (es.map sec).length),
      ∃ q, d.get i = .ok q ∧ makeBiquad q = .ok (es.map sec)[i] := by
    intro i hi
    have hi' : i < es.length := by simpa using hi
    have h := hg es[i] (List.getElem_mem hi')
    refine ⟨_, qget hold i hi', ?_⟩
    rw [makeBiquad_sec _ h.mp h.mz, List.getElem_map]
  have hdp : (d.poles + 1) / 2 = es.length := by rw [hold.1]; omega
  have hlen : (es.map sec).length = es.length := by simp
  cases hAB : es.map sec with
  | nil => rw [hAB] at hlen; simp at hlen; omega
  | cons g0 gs =>
    rw [hAB] at hget ha0 hden hnum' hlen hprod hstab
    obtain ⟨c, hc1, hc2, hc3⟩ := makeCascade_eq g0 gs (by rw [hlen, hdp]) (by rw [hlen]; omega)
      hget ha0 (hden d.w) hnum' (N := N)
    refine ⟨c, hc1, by rw [hc2, hdp], ?_, ⟨_, g0, gs, div_nonneg hgain (norm_nonneg _), rfl, hc3⟩, ?_⟩
    · intro g hg
      rw [hc3] at hg
      rcases List.mem_cons.mp hg with rfl | hg
      · rw [applyScale_eq]; exact hstab g0 (by simp)
      · exact hstab g (by simp [hg])
    · intro w
      rw [hc3]
      refine ⟨_, chain_scaled (hden w), ?_⟩
      rw [norm_mul, hprod w, hprod d.w, Complex.norm_real, Real.norm_eq_abs, abs_of_nonneg]
      · ring
      · apply div_nonneg hgain
        rw [← hprod d.w]; exact norm_nonneg _

/-- **The cascade of a layout of good entries.** -/
theorem quads_gain {N : Nat} {d : Layout} {es : List Quad} (hold : QHolds N d es)
    (hpos : 0 < es.length) (hN : es.length ≤ (N + 1) / 2) (hg : ∀ e ∈ es, Good e)
    (hgain : 0 ≤ d.gain) (hnum : (es.map (rho (Complex.exp (d.w * Complex.I)))).prod ≠ 0) :
    ∃ c, makeCascade N d = .ok c ∧ c.num = es.length ∧ (∀ g ∈ active c, g.stability = true) ∧
      ∀ w : ℝ, ChainGainAt (active c) w (d.gain *
        ((es.map (rho (Complex.exp (w * Complex.I)))).prod /
          (es.map (rho (Complex.exp (d.w * Complex.I)))).prod)) := by
  obtain ⟨c, h1, h2, h3, -, h4⟩ := quads_struct hold hpos hN hg hgain hnum
  exact ⟨c, h1, h2, h3, h4⟩

end Edsp.BandL
