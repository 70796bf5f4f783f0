import Verif.Lemmas.Undo
import Verif.Lemmas.BandChains

/-!
# Sections of the band shelves that cancel each other
-/

namespace Edsp.UndoL

open Edsp.Spec Edsp.EnergyL Edsp.LayoutL Edsp.BilinearL Edsp.AnalogL Edsp.BandL

/-- Poles and zeros exchanged. -/
def swapQ (e : Quad) : Quad := ⟨e.z1, e.z2, e.p1, e.p2⟩

theorem quads_num (es : List Quad) : numC (es.map secQuad) = denC ((es.map swapQ).map secQuad) := by
  unfold numC denC
  rw [List.map_map, List.map_map, List.map_map]
  rfl

theorem quads_den (es : List Quad) : numC ((es.map swapQ).map secQuad) = denC (es.map secQuad) := by
  unfold numC denC
  rw [List.map_map, List.map_map, List.map_map]
  rfl

/-- The entries of a band shelf. -/
noncomputable def entries (n : ℕ) (p z : ℕ → ℂ × ℂ) (ps zs : ℂ × ℂ) : List Quad :=
  ((List.range (n / 2)).flatMap fun k => two (p k) (z k)) ++
    if n % 2 = 1 then [⟨ps.1, ps.2, zs.1, zs.2⟩] else []

theorem entries_swap (n : ℕ) {p z p' z' : ℕ → ℂ × ℂ} {ps zs ps' zs' : ℂ × ℂ}
    (h : ∀ k < n / 2, p' k = z k ∧ z' k = p k) (hs : n % 2 = 1 → ps' = zs ∧ zs' = ps) :
    entries n p' z' ps' zs' = (entries n p z ps zs).map swapQ := by
  unfold entries
  rw [List.map_append]
  congr 1
  · have : ∀ l : List ℕ, (∀ k ∈ l, k < n / 2) → (l.flatMap fun k => two (p' k) (z' k)) =
        (l.flatMap fun k => two (p k) (z k)).map swapQ := by
      intro l
      induction l with
      | nil => intro _; rfl
      | cons k l ih =>
        intro hl
        obtain ⟨e1, e2⟩ := h k (hl k (by simp))
        rw [List.flatMap_cons, List.flatMap_cons, List.map_append, ih fun j hj => hl j (by simp [hj]), e1, e2]
        rfl
    exact this _ fun k hk => List.mem_range.mp hk
  · split_ifs with ho
    · obtain ⟨e1, e2⟩ := hs ho
      rw [e1, e2]
      rfl
    · rfl

/-- What a band shelf is made of: `T` depends on the band only. -/
structure BandMade (T : Pt → Except Fault (ℂ × ℂ)) (n : ℕ) (gainDb : ℝ) (c : Cascade ℝ) : Prop where
  rest : ∀ s ∈ active c, s.AtRest
  parts : ∃ κ g p z ps zs g0 gs, 0 ≤ κ ∧ 0 < g ∧ g ^ (2 * n) = (10 : ℝ) ^ (gainDb / 20) ∧
    (∀ k < n / 2, T (some (polar (-(1 / g)) (theta n k))) = .ok (p k) ∧ T (some (polar (-g) (theta n k))) = .ok (z k)) ∧
    (n % 2 = 1 → T (some ((-(1 / g) : ℝ) : ℂ)) = .ok ps ∧ T (some ((-g : ℝ) : ℂ)) = .ok zs) ∧
    (entries n p z ps zs).map secQuad = g0 :: gs ∧ active c = applyScale g0 κ :: gs
  one : ∃ h, ChainTransferAt (active c) 1 h ∧ ‖h‖ = 1
  stable : ∀ s ∈ active c, s.stability = true

theorem quads_rest {es : List Quad} {κ : ℝ} {g0 : Biquad ℝ} {gs : List (Biquad ℝ)}
    (h : es.map secQuad = g0 :: gs) : ∀ s ∈ applyScale g0 κ :: gs, s.AtRest := by
  intro s hs
  rcases List.mem_cons.mp hs with rfl | hs
  · rw [applyScale_eq]; exact ⟨rfl, rfl⟩
  · have : s ∈ es.map secQuad := by rw [h]; simp [hs]
    obtain ⟨e, -, rfl⟩ := List.mem_map.mp this
    exact ⟨rfl, rfl⟩

theorem band_undone {T : Pt → Except Fault (ℂ × ℂ)} {n : ℕ} (hn : n ≠ 0) {G : ℝ} {c c' : Cascade ℝ}
    (h : BandMade T n G c) (h' : BandMade T n (-G) c') :
    numC (active c ++ active c') = denC (active c ++ active c') := by
  obtain ⟨κ, g, p, z, ps, zs, g0, gs, k1, k2, k3, k4, k5, k6, k7⟩ := h.parts
  obtain ⟨κ', g', p', z', ps', zs', g0', gs', k1', k2', k3', k4', k5', k6', k7'⟩ := h'.parts
  have hg : g' = 1 / g := by
    refine (pow_left_inj₀ k2'.le (by positivity) (by omega : 2 * n ≠ 0)).mp ?_
    rw [k3', one_div_pow, k3, neg_div, Real.rpow_neg (by norm_num), one_div]
  have hg' : 1 / g' = g := by rw [hg, one_div_one_div]
  have hsw : entries n p' z' ps' zs' = (entries n p z ps zs).map swapQ := by
    refine entries_swap n (fun k hk => ?_) fun ho => ?_
    · obtain ⟨a1, a2⟩ := k4 k hk
      obtain ⟨b1, b2⟩ := k4' k hk
      rw [hg'] at b1
      rw [hg] at b2
      rw [a2] at b1
      rw [a1] at b2
      injection b1 with b1
      injection b2 with b2
      exact ⟨b1.symm, b2.symm⟩
    · obtain ⟨a1, a2⟩ := k5 ho
      obtain ⟨b1, b2⟩ := k5' ho
      rw [hg'] at b1
      rw [hg] at b2
      rw [a2] at b1
      rw [a1] at b2
      injection b1 with b1
      injection b2 with b2
      exact ⟨b1.symm, b2.symm⟩
  have hnum : numC (active c) = Polynomial.C κ * denC (active c') := by
    rw [k7, k7', numC_scaled, denC_scaled, ← k6, ← k6', hsw, quads_num]
  have hnum' : numC (active c') = Polynomial.C κ' * denC (active c) := by
    rw [k7, k7', numC_scaled, denC_scaled, ← k6, ← k6', hsw, quads_den]
  obtain ⟨t, t1, t2⟩ := h.one
  obtain ⟨t', t1', t2'⟩ := h'.one
  have e1 := transfer_poly _ t1
  have e1' := transfer_poly _ t1'
  rw [hnum, map_mul, Polynomial.aeval_C] at e1
  rw [hnum', map_mul, Polynomial.aeval_C] at e1'
  have d := aeval_denC_ne_zero h.stable (u := 1) (by simp)
  have d' := aeval_denC_ne_zero h'.stable (u := 1) (by simp)
  have hk : κ * κ' = 1 := by
    have : (κ : ℂ) * κ' = t * t' := by
      have := congrArg₂ (· * ·) e1 e1'
      refine mul_right_cancel₀ (mul_ne_zero d d') ?_
      linear_combination this
    have := congrArg norm this
    rw [norm_mul, norm_mul, t2, t2', Complex.norm_real, Complex.norm_real, Real.norm_of_nonneg k1,
      Real.norm_of_nonneg k1', mul_one] at this
    exact this
  rw [numC_append, denC_append, hnum, hnum']
  have : Polynomial.C κ * Polynomial.C κ' = (1 : Polynomial ℝ) := by
    rw [← map_mul, hk, map_one]
  linear_combination (denC (active c) * denC (active c')) * this

theorem band_flat {T : Pt → Except Fault (ℂ × ℂ)} {n : ℕ} (hn : n ≠ 0) {c : Cascade ℝ}
    (h : BandMade T n 0 c) : numC (active c) = denC (active c) := by
  obtain ⟨κ, g, p, z, ps, zs, g0, gs, k1, k2, k3, k4, k5, k6, k7⟩ := h.parts
  have hg : g = 1 := by
    refine (pow_left_inj₀ k2.le zero_le_one (by omega : 2 * n ≠ 0)).mp ?_
    rw [k3, zero_div, Real.rpow_zero, one_pow]
  have hg' : 1 / g = g := by rw [hg]; norm_num
  have hsw : entries n p z ps zs = (entries n p z ps zs).map swapQ := by
    refine entries_swap n (fun k hk => ?_) fun ho => ?_
    · obtain ⟨a1, a2⟩ := k4 k hk
      rw [hg', a2] at a1
      injection a1 with a1
      exact ⟨a1.symm, a1⟩
    · obtain ⟨a1, a2⟩ := k5 ho
      rw [hg', a2] at a1
      injection a1 with a1
      exact ⟨a1.symm, a1⟩
  have hnum : numC (active c) = Polynomial.C κ * denC (active c) := by
    rw [k7, numC_scaled, denC_scaled, ← k6, quads_num, ← hsw]
  obtain ⟨t, t1, t2⟩ := h.one
  have e1 := transfer_poly _ t1
  rw [hnum, map_mul, Polynomial.aeval_C] at e1
  have hk : κ = 1 := by
    have := congrArg norm (mul_right_cancel₀ (aeval_denC_ne_zero h.stable (u := 1) (by simp)) e1)
    rw [t2, Complex.coe_algebraMap, Complex.norm_real, Real.norm_of_nonneg k1] at this
    exact this
  rw [hnum, hk, map_one, one_mul]

/-- What every band shelf is made of. -/
structure BandRaw (B : BandParams) (n : ℕ) (gainDb : ℝ) (c : Cascade ℝ) : Prop where
  parts : ∃ κ g p z ps zs g0 gs, 0 ≤ κ ∧ 0 < g ∧ g ^ (2 * n) = (10 : ℝ) ^ (gainDb / 20) ∧
    (∀ k < n / 2, bpMap B (some (polar (-(1 / g)) (theta n k))) = .ok (p k) ∧
      bpMap B (some (polar (-g) (theta n k))) = .ok (z k)) ∧
    (n % 2 = 1 → bpMap B (some ((-(1 / g) : ℝ) : ℂ)) = .ok ps ∧ bpMap B (some ((-g : ℝ) : ℂ)) = .ok zs) ∧
    (∀ k < n / 2, (p k).1 ≠ 0 ∧ (p k).2 ≠ 0) ∧ (n % 2 = 1 → (1 / g ≠ B.b → ps.2 ≠ 0) ∧ (g ≠ B.b → zs.2 ≠ 0)) ∧
    (entries n p z ps zs).map sec = g0 :: gs ∧ active c = applyScale g0 κ :: gs
  one : ∃ h, ChainTransferAt (active c) 1 h ∧ ‖h‖ = 1
  stable : ∀ s ∈ active c, s.stability = true

/-- The centre of the band against a quarter of the sample rate. -/
theorem params_a {fs fc bw : ℝ} (hB : BandOk fs fc bw) {B : BandParams}
    (hpar : Params (Real.tan (bandLo fs fc bw / 2)) (Real.tan (bandHi fs fc bw / 2)) B) : B.a ≤ 0 ↔ fs / 4 ≤ fc := by
  obtain ⟨-, -, -, -, -, h0, hlt, hpi⟩ := bandInit_ok hB
  obtain ⟨t1, c1, -⟩ := tan_facts h0 (hlt.trans hpi)
  obtain ⟨t2, c2, -⟩ := tan_facts (h0.trans hlt) hpi
  have hfs := hB.fs_pos
  have hsum : bandHi fs fc bw / 2 + bandLo fs fc bw / 2 = 2 * Real.pi * (fc / fs) := by
    unfold bandHi bandLo; field_simp; ring
  have hcs : Real.cos (2 * Real.pi * (fc / fs)) = Real.cos (bandHi fs fc bw / 2) * Real.cos (bandLo fs fc bw / 2) *
      (1 - Real.tan (bandLo fs fc bw / 2) * Real.tan (bandHi fs fc bw / 2)) := by
    rw [← hsum, Real.cos_add, Real.tan_eq_sin_div_cos, Real.tan_eq_sin_div_cos]
    field_simp
  have hlt' : 2 * Real.pi * (fc / fs) < Real.pi := by rw [← hsum]; linarith
  have hP : 0 < 1 + Real.tan (bandLo fs fc bw / 2) * Real.tan (bandHi fs fc bw / 2) := by positivity
  have e1 : B.a ≤ 0 ↔ Real.cos (2 * Real.pi * (fc / fs)) ≤ 0 := by
    rw [hpar.a_eq, hcs, div_le_iff₀ hP, zero_mul]
    constructor
    · intro h; exact mul_nonpos_of_nonneg_of_nonpos (mul_pos c2 c1).le h
    · intro h
      by_contra hc
      push Not at hc
      exact absurd (mul_pos (mul_pos c2 c1) hc) (not_lt.mpr h)
  rw [e1]
  have hp := Real.pi_pos
  constructor
  · intro h
    by_contra hc
    push Not at hc
    have hq : fc / fs < 1 / 4 := by rw [div_lt_iff₀ hfs]; linarith
    exact absurd (Real.cos_pos_of_mem_Ioo ⟨by linarith, by nlinarith⟩) (not_lt.mpr h)
  · intro h
    have hq : 1 / 4 ≤ fc / fs := by rw [le_div_iff₀ hfs]; linarith
    exact Real.cos_nonpos_of_pi_div_two_le_of_le (by nlinarith) (by linarith)

theorem band_raw (dbg : Bool) {N n : Nat} (hn : 1 ≤ n) (hN : n ≤ N) {fs fc bw : ℝ} (hB : BandOk fs fc bw) :
    ∃ B : BandParams, |B.a| < 1 ∧ B.b = 1 / Real.tan (Real.pi * bw / fs) ∧ (B.a ≤ 0 ↔ fs / 4 ≤ fc) ∧ ∀ gainDb : ℝ,
      (n % 2 = 1 → dbg = true →
        (10 : ℝ) ^ (gainDb / 20) ≠ (1 / Real.tan (Real.pi * bw / fs)) ^ (2 * n) ∧
        1 / (10 : ℝ) ^ (gainDb / 20) ≠ (1 / Real.tan (Real.pi * bw / fs)) ^ (2 * n)) →
      ∃ c, Butterworth.bandShelf dbg N n fs fc bw gainDb = .ok c ∧ BandRaw B n gainDb c := by
  obtain ⟨B, hB1, hB2, hB3, hpar, h0, hlt, hpi⟩ := bandInit_ok hB
  obtain ⟨t1, -, -⟩ := tan_facts h0 (hlt.trans hpi)
  have ht := tan_half_strict h0 hlt hpi
  obtain ⟨ha', hb⟩ := params_pos t1 ht hpar
  have hbt := params_b hB hpar
  refine ⟨B, ha', hbt, params_a hB hpar, fun gainDb hd => ?_⟩
  obtain ⟨a, g, hg, hgp, ha, haw, hag, hold⟩ := shelf_analog hn hN dbg gainDb
  have hlen := oddSingle_len n (-(1 / g)) (some (-g))
  have hgi : 0 < 1 / g := one_div_pos.mpr hg
  have hrel : ∀ q, oddSingle n (-(1 / g)) (some (-g)) = some q → q.1 < 0 ∧ (∀ c, q.2 = some c → c ≤ 0) := by
    intro q hq
    unfold oddSingle at hq
    split at hq
    · injection hq with hq; subst hq
      exact ⟨by linarith, by intro c hc; injection hc with hc; linarith⟩
    · cases hq
  have hdb : dbg = true → ∀ q, oddSingle n (-(1 / g)) (some (-g)) = some q → q.1 ≠ -B.b ∧ q.2 ≠ some (-B.b) := by
    intro hdb q hq
    unfold oddSingle at hq
    split at hq
    · rename_i hodd
      injection hq with hq; subst hq
      obtain ⟨d1, d2⟩ := hd hodd hdb
      rw [hbt]
      refine ⟨fun h => d2 ?_, fun h => d1 ?_⟩
      · rw [← neg_inj.mp h, one_div_pow, hgp]
      · injection h with h
        rw [← neg_inj.mp h, hgp]
    · cases hq
  obtain ⟨D, hD1, p, z, ps, zs, hp, hz, hD2⟩ := band_struct hold (by omega) (by omega)
    (fun k hk => polar_lhp hgi (shelf_theta hk).1 (shelf_theta hk).2)
    (by
      intro k hk c hc
      injection hc with hc
      rw [← hc]
      exact (polar_lhp hg (shelf_theta hk).1 (shelf_theta hk).2).1.le) (b := B.b) hrel
    (bp_root ha' hb) keeps_id (dbg := dbg) hdb
    (fun w hY h => by
      rcases mul_eq_zero.mp h with h | h
      · exact hb.ne' (by exact_mod_cast h)
      · exact no_common ha' h hY)
  have hv : ∀ w0 : ℝ, w0 = 0 ∨ w0 = Real.pi →
      V (fun z => B.b * qX B.a z) qY (n / 2)
      (fun k : ℕ => polar (-(1 / g)) (Real.pi * (1 / 2 - (2 * ((k : ℝ) + 1) - 1) / (n * 2 : ℕ))))
      (fun k : ℕ => some (polar (-g) (Real.pi * (1 / 2 - (2 * ((k : ℝ) + 1) - 1) / (n * 2 : ℕ)))))
      (oddSingle n (-(1 / g)) (some (-g))) (Complex.exp (w0 * Complex.I)) = 1 := by
    rintro w0 (rfl | rfl)
    · rw [exp_zero_I, V_of_eq (by simp [qY]), MI_finite]
    · rw [Complex.exp_pi_mul_I, V_of_eq (by simp [qY]), MI_finite]
  have hw0 : (if fc / fs < 1 / 4 then Real.pi else 0) = 0 ∨ (if fc / fs < 1 / 4 then Real.pi else 0) = Real.pi := by
    split_ifs
    · exact .inr rfl
    · exact .inl rfl
  obtain ⟨c, c1, c2, c3, ⟨κ, g0, gs, q1, q2, q3⟩, c4⟩ := hD2 (if fc / fs < 1 / 4 then Real.pi else 0) 1 zero_le_one
    (by rw [hv _ hw0]; exact one_ne_zero)
  have he : (((List.range (n / 2)).flatMap fun k => two (p k) (id (z k))) ++
      (oddSingle n (-(1 / g)) (some (-g))).toList.map fun _ => (⟨ps.1, ps.2, zs.1, zs.2⟩ : Quad)) =
      entries n p z ps zs := by
    unfold entries oddSingle
    split_ifs <;> rfl
  rw [he] at q2
  have hsingle : n % 2 = 1 → oddSingle n (-(1 / g)) (some (-g)) = some (-(1 / g), some (-g)) := fun ho => by
    unfold oddSingle; rw [if_pos ho]
  refine ⟨c, ?_, ⟨κ, g, p, z, ps, zs, g0, gs, q1, hg, hgp, fun k hk => ⟨(hp k hk).1, (hp k hk).2.1⟩, fun ho => ?_,
    fun k hk => (hp k hk).2.2, fun ho => ?_, q2, q3⟩, ?_, c3⟩
  · have hfs := hB.fs_pos
    have e1 : fdiv fc fs = .ok (fc / fs) := by unfold fdiv; rw [if_neg hfs.ne']
    have e2 : fdiv bw fs = .ok (bw / fs) := by unfold fdiv; rw [if_neg hfs.ne']
    unfold Butterworth.bandShelf bandShelfTransform
    rw [e1, e2, ha]
    simp only [bind, Except.bind]
    rw [hB1]
    simp only [hD1, pure, Except.pure, c1]
  · obtain ⟨x1, x2, -⟩ := hz _ (hsingle ho)
    exact ⟨x1, x2⟩
  · obtain ⟨-, -, n1, n2⟩ := hz _ (hsingle ho)
    exact ⟨fun h => n1 fun e => h (neg_inj.mp e), fun h => n2 fun e => h (by injection e with e; exact neg_inj.mp e)⟩
  · obtain ⟨h, x1, x2⟩ := c4 0
    rw [exp_zero_I] at x1
    refine ⟨h, x1, ?_⟩
    rw [x2, hv 0 (.inl rfl), hv _ hw0]
    norm_num

theorem gain_zero {G : ℝ} (h : (10 : ℝ) ^ (G / 20) = 1) : G = 0 := by
  rcases lt_trichotomy G 0 with h' | h' | h'
  · exact absurd h (Real.rpow_lt_one_of_one_lt_of_neg (by norm_num) (by linarith)).ne
  · exact h'
  · exact absurd h (Real.one_lt_rpow (by norm_num) (by linarith)).ne'

/-- The images of the only real pole when the gain is 0 dB and `b = 1`. -/
theorem corner_map {B : BandParams} (hb : B.b = 1) :
    bpMap B (some ((-1 : ℝ) : ℂ)) = .ok ((((B.a - |B.a|) / 2 : ℝ) : ℂ), (((B.a + |B.a|) / 2 : ℝ) : ℂ)) := by
  unfold bpMap addmul
  have h1 : ¬ (1 - ((-1 : ℝ) : ℂ) = 0) := by norm_num
  have hc : (1 + ((-1 : ℝ) : ℂ)) / (1 - ((-1 : ℝ) : ℂ)) = 0 := by norm_num
  simp only [if_neg h1]
  simp only [hb, hc, mul_zero, add_zero, zero_add, mul_one, one_mul, Complex.zero_re, Complex.zero_im]
  have hs : csqrt ((4 * (B.a * B.a - 1 + 1) : ℝ) : ℂ) = ((2 * |B.a| : ℝ) : ℂ) := by
    have : 4 * (B.a * B.a - 1 + 1) = (2 * |B.a|) ^ 2 := by rw [mul_pow, sq_abs]; ring
    unfold csqrt
    rw [this, show (1 / 2 : ℂ) = ((1 / 2 : ℝ) : ℂ) by push_cast; rfl, ← Complex.ofReal_cpow (by positivity),
      ← Real.sqrt_eq_rpow, Real.sqrt_sq (by positivity)]
  have e0 : (⟨0, 0⟩ : ℂ) + ((2 * (1 + 1) : ℝ) : ℂ) = ((4 : ℝ) : ℂ) := by
    rw [show (⟨0, 0⟩ : ℂ) = 0 from rfl, zero_add]; norm_num
  rw [e0, hs, if_neg (by norm_num)]
  have ev : ∀ w : ℂ, (⟨w.re, w.im⟩ : ℂ) = w := fun w => rfl
  rw [ev, ev]
  congr 2
  · push_cast; ring
  · push_cast; ring

/-- No section of a band shelf degenerates, or order, gain and band are those of the corner. -/
theorem BandRaw.made {B : BandParams} {n : ℕ} {G : ℝ} {c : Cascade ℝ} (h : BandRaw B n G c)
    (hx : n % 2 = 1 → G = 0 → B.b = 1 → 0 < B.a) : BandMade (bpMap B) n G c := by
  obtain ⟨κ, g, p, z, ps, zs, g0, gs, k1, hg, hgp, k4, k5, k6, k7, k8, k9⟩ := h.parts
  have hsec : (entries n p z ps zs).map sec = (entries n p z ps zs).map secQuad := by
    refine List.map_congr_left fun e hm => ?_
    unfold sec
    rw [if_neg]
    rintro ⟨e1, e2⟩
    unfold entries at hm
    rcases List.mem_append.mp hm with hm | hm
    · obtain ⟨k, hk, hm⟩ := List.mem_flatMap.mp hm
      obtain ⟨n1, n2⟩ := k6 k (List.mem_range.mp hk)
      simp only [two, List.mem_cons, List.not_mem_nil, or_false] at hm
      rcases hm with rfl | rfl
      · exact n1 (by simpa using e1)
      · exact n2 (by simpa using e1)
    · split_ifs at hm with ho
      · simp only [List.mem_cons, List.not_mem_nil, or_false] at hm
        subst hm
        obtain ⟨n1, n2⟩ := k7 ho
        have f1 : 1 / g = B.b := by
          by_contra hne
          exact n1 hne e1
        have f2 : g = B.b := by
          by_contra hne
          exact n2 hne e2
        have f3 : g = 1 := by
          rw [← f2, div_eq_iff hg.ne'] at f1
          nlinarith
        have f4 : B.b = 1 := by rw [← f2, f3]
        have ha := hx ho (gain_zero (by rw [f3, one_pow] at hgp; exact hgp.symm)) f4
        have := (k5 ho).1
        rw [f3, one_div_one] at this
        rw [corner_map f4] at this
        injection this with this
        rw [← this] at e1
        simp only [abs_of_pos ha] at e1
        have : ((B.a : ℝ) : ℂ) ≠ 0 := by exact_mod_cast ha.ne'
        apply this
        rw [← e1]
        push_cast
        ring
      · simp at hm
  rw [hsec] at k8
  exact ⟨by rw [k9]; exact quads_rest k8, ⟨κ, g, p, z, ps, zs, g0, gs, k1, hg, hgp, k4, k5, k8, k9⟩, h.one, h.stable⟩

theorem band_made (dbg : Bool) {N n : Nat} (hn : 1 ≤ n) (hN : n ≤ N) {fs fc bw : ℝ} (hB : BandOk fs fc bw) :
    ∃ T, ∀ gainDb : ℝ,
      (n % 2 = 1 → dbg = true →
        (10 : ℝ) ^ (gainDb / 20) ≠ (1 / Real.tan (Real.pi * bw / fs)) ^ (2 * n) ∧
        1 / (10 : ℝ) ^ (gainDb / 20) ≠ (1 / Real.tan (Real.pi * bw / fs)) ^ (2 * n)) →
      (n % 2 = 1 → gainDb = 0 → Real.tan (Real.pi * bw / fs) = 1 → fc < fs / 4) →
      ∃ c, Butterworth.bandShelf dbg N n fs fc bw gainDb = .ok c ∧ BandMade T n gainDb c := by
  obtain ⟨B, -, hb, ha, h⟩ := band_raw dbg hn hN hB
  refine ⟨bpMap B, fun G hd hx => ?_⟩
  obtain ⟨c, hc, r⟩ := h G hd
  refine ⟨c, hc, r.made fun ho hG hb' => ?_⟩
  rw [hb, one_div, inv_eq_one] at hb'
  have := hx ho hG hb'
  rw [← not_le] at this ⊢
  exact fun h => this (ha.mp h)

/-- A band shelf in the corner passes the first sample multiplied by `-a`. -/
theorem corner_flat {B : BandParams} {n : ℕ} {c : Cascade ℝ} (h : BandRaw B n 0 c) (ho : n % 2 = 1) (hb : B.b = 1)
    (ha : B.a ≤ 0) :
    (∀ s ∈ active c, s.AtRest) ∧ (numC (active c)).coeff 0 = -B.a := by
  obtain ⟨κ, g, p, z, ps, zs, g0, gs, k1, k2, k3, k4, k5, k6, k7, k8, k9⟩ := h.parts
  have hg : g = 1 := by
    refine (pow_left_inj₀ k2.le zero_le_one (by omega : 2 * n ≠ 0)).mp ?_
    rw [k3, zero_div, Real.rpow_zero, one_pow]
  have hg' : 1 / g = g := by rw [hg]; norm_num
  set es := (List.range (n / 2)).flatMap fun k => two (p k) (z k) with hes
  have hone := (k5 ho).1
  have hone' := (k5 ho).2
  rw [hg, one_div_one, corner_map hb] at hone
  rw [hg, corner_map hb] at hone'
  injection hone with hone
  injection hone' with hone'
  have z0 : (((B.a + |B.a|) / 2 : ℝ) : ℂ) = 0 := by rw [abs_of_nonpos ha]; simp
  have a0 : (B.a - |B.a|) / 2 = B.a := by rw [abs_of_nonpos ha]; ring
  rw [z0, a0] at hone hone'
  have hent : entries n p z ps zs = es ++ [⟨ps.1, ps.2, zs.1, zs.2⟩] := by
    unfold entries; rw [if_pos ho]
  have hsec : (entries n p z ps zs).map sec = es.map secQuad ++ [secSingle ((B.a : ℂ), (B.a : ℂ))] := by
    rw [hent, List.map_append]
    congr 1
    · refine List.map_congr_left fun e hm => ?_
      unfold sec
      rw [if_neg]
      rintro ⟨e1, -⟩
      obtain ⟨k, hk, hm⟩ := List.mem_flatMap.mp hm
      obtain ⟨n1, n2⟩ := k6 k (List.mem_range.mp hk)
      simp only [two, List.mem_cons, List.not_mem_nil, or_false] at hm
      rcases hm with rfl | rfl
      · exact n1 (by simpa using e1)
      · exact n2 (by simpa using e1)
    · rw [← hone, ← hone']
      simp [sec]
  have hsw : es = es.map swapQ := by
    have := entries_swap (n / 2 * 2) (p := p) (z := z) (p' := p) (z' := z) (ps := ps) (zs := zs) (ps' := ps) (zs' := zs)
      (fun k hk => by
        rw [Nat.mul_div_cancel _ (by norm_num)] at hk
        obtain ⟨a1, a2⟩ := k4 k hk
        rw [hg', a2] at a1
        injection a1 with a1
        exact ⟨a1.symm, a1⟩) (fun h => by omega)
    unfold entries at this
    rw [if_neg (by omega), List.append_nil, Nat.mul_div_cancel _ (by norm_num)] at this
    exact this
  have hq : numC (es.map secQuad) = denC (es.map secQuad) := by rw [quads_num, ← hsw]
  rw [hsec] at k8
  have hnum : numC (active c) = Polynomial.C κ * (denC (es.map secQuad) * numC [secSingle ((B.a : ℂ), (B.a : ℂ))]) := by
    rw [k9, numC_scaled, ← k8, numC_append, hq]
  have hden : denC (active c) = denC (es.map secQuad) * denC [secSingle ((B.a : ℂ), (B.a : ℂ))] := by
    rw [k9, denC_scaled, ← k8, denC_append]
  obtain ⟨t, t1, t2⟩ := h.one
  have e1 := transfer_poly _ t1
  have d := aeval_denC_ne_zero h.stable (u := 1) (by simp)
  have hk : κ = 1 := by
    have : Polynomial.aeval (1 : ℂ)⁻¹ (numC (active c)) = κ * Polynomial.aeval (1 : ℂ)⁻¹ (denC (active c)) := by
      have s1 : Polynomial.aeval (1 : ℂ)⁻¹ (numC [secSingle ((B.a : ℂ), (B.a : ℂ))]) =
          Polynomial.aeval (1 : ℂ)⁻¹ (denC [secSingle ((B.a : ℂ), (B.a : ℂ))]) := by
        simp [numC, denC, numP, denP, secSingle]
        ring
      rw [hnum, hden, map_mul, map_mul, map_mul, s1, Polynomial.aeval_C]
      rfl
    rw [this] at e1
    have := congrArg norm (mul_right_cancel₀ d e1)
    rw [t2, Complex.norm_real, Real.norm_of_nonneg k1] at this
    exact this
  refine ⟨?_, ?_⟩
  · rw [k9]
    intro s hs
    rcases List.mem_cons.mp hs with rfl | hs
    · rw [applyScale_eq]; exact ⟨rfl, rfl⟩
    · have : s ∈ es.map secQuad ++ [secSingle ((B.a : ℂ), (B.a : ℂ))] := by rw [k8]; simp [hs]
      rcases List.mem_append.mp this with hs | hs
      · obtain ⟨e, -, rfl⟩ := List.mem_map.mp hs
        exact ⟨rfl, rfl⟩
      · rw [List.mem_singleton.mp hs]; exact ⟨rfl, rfl⟩
  · rw [hnum, hk]
    simp only [Polynomial.mul_coeff_zero, Polynomial.coeff_C_zero, denC_coeff_zero, one_mul]
    simp [numC, numP, secSingle]

end Edsp.UndoL
