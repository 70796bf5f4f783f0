import Verif.Model.AnalogDesign
import Verif.Spec.CascadeResponse
import Verif.Lemmas.Response

/-! Helper lemmas: what a layout holds, and the cascade built from it. -/

namespace Edsp.LayoutL

open Edsp Edsp.Spec

/-- The stored pair of a conjugate insertion. -/
noncomputable def mkConj (q : Pt × Pt) : PzPair := ⟨q.1, q.2, q.1.conj, q.2.conj⟩
/-- The stored pair of a single insertion. -/
noncomputable def mkSingle (q : Pt × Pt) : PzPair := ⟨q.1, q.2, some 0, some 0⟩

/-- The layout holds the conjugate pairs `prs` and possibly one single. -/
def Holds (N : Nat) (l : Layout) (prs : List (Pt × Pt)) (s : Option (Pt × Pt)) : Prop :=
  l.poles = 2 * prs.length + s.toList.length ∧ l.pairs.length = N ∧
    ∃ rest, l.pairs = prs.map mkConj ++ s.toList.map mkSingle ++ rest

theorem holds_reset {N : Nat} {l : Layout} (h : l.pairs.length = N) (w g : ℝ) :
    Holds N { l.reset with w := w, gain := g } [] none := by
  exact ⟨rfl, h, l.pairs, rfl⟩

theorem holds_new (N : Nat) : (Layout.new N).pairs.length = N := by simp [Layout.new]

theorem store_holds {N : Nat} {l : Layout} {prs : List (Pt × Pt)} (h : Holds N l prs none)
    (hN : prs.length < N) (q : PzPair) (k : Nat) :
    ∃ l', l.store q k = .ok l' ∧ l'.poles = 2 * prs.length + k ∧ l'.pairs.length = N ∧
      (∃ rest, l'.pairs = prs.map mkConj ++ q :: rest) ∧ l'.w = l.w ∧ l'.gain = l.gain := by
  obtain ⟨h1, h2, rest, h3⟩ := h
  simp at h1 h3
  have hp : l.poles / 2 = prs.length := by omega
  refine ⟨{ l with pairs := l.pairs.set (l.poles / 2) q, poles := l.poles + k }, ?_, ?_, ?_, ?_,
    rfl, rfl⟩
  · unfold Layout.store
    rw [if_neg (by omega), if_pos (by omega)]
  · simp [h1]
  · simp [h2]
  · cases rest with
    | nil => rw [h3] at h2; simp at h2; omega
    | cons r rest =>
      refine ⟨rest, ?_⟩
      simp only []
      rw [hp, h3]
      have : prs.length = (prs.map mkConj).length := by simp
      rw [this, List.set_append_right _ _ le_rfl]
      simp

theorem insertConj_holds {N : Nat} {l : Layout} {prs : List (Pt × Pt)} (h : Holds N l prs none)
    (hN : prs.length < N) (q : Pt × Pt) :
    ∃ l', l.insertConj q.1 q.2 = .ok l' ∧ Holds N l' (prs ++ [q]) none ∧ l'.w = l.w ∧
      l'.gain = l.gain := by
  obtain ⟨l', h1, h2, h3, ⟨rest, h4⟩, h5, h6⟩ := store_holds h hN (mkConj q) 2
  refine ⟨l', h1, ⟨?_, h3, rest, ?_⟩, h5, h6⟩
  · simp [h2]; omega
  · simp [h4]

theorem insert_holds {N : Nat} {l : Layout} {prs : List (Pt × Pt)} (h : Holds N l prs none)
    (hN : prs.length < N) (q : Pt × Pt) {dbg : Bool}
    (hq : dbg = true → q.1.imagZero ∧ q.2.imagZero) :
    ∃ l', l.insert dbg q.1 q.2 = .ok l' ∧ Holds N l' prs (some q) ∧ l'.w = l.w ∧
      l'.gain = l.gain := by
  obtain ⟨l', h1, h2, h3, ⟨rest, h4⟩, h5, h6⟩ := store_holds h hN (mkSingle q) 1
  refine ⟨l', ?_, ⟨?_, h3, rest, ?_⟩, h5, h6⟩
  · unfold Layout.insert PzPair.single
    rw [if_neg (by rintro ⟨a, b⟩; exact b (hq a))]
    exact h1
  · simp [h2]
  · simp [h4]

/-- A loop of conjugate insertions. -/
theorem fold_holds {N : Nat} {l : Layout} (h : Holds N l [] none) (P : Nat → Pt × Pt)
    (step : Layout → Nat → Except Fault Layout) (m : Nat) (hm : m ≤ N)
    (hs : ∀ k < m, ∀ l, step l k = l.insertConj (P k).1 (P k).2) :
    ∃ l', (List.range m).foldlM step l = .ok l' ∧ Holds N l' ((List.range m).map P) none ∧
      l'.w = l.w ∧ l'.gain = l.gain := by
  induction m with
  | zero => exact ⟨l, rfl, by simpa using h, rfl, rfl⟩
  | succ m ih =>
    obtain ⟨l1, h1, h2, h3, h4⟩ := ih (by omega) (fun k hk => hs k (by omega))
    obtain ⟨l2, g1, g2, g3, g4⟩ := insertConj_holds h2 (by simp; omega) (P m)
    refine ⟨l2, ?_, ?_, by rw [g3, h3], by rw [g4, h4]⟩
    · rw [List.range_succ, List.foldlM_append, h1]
      simp only [bind, Except.bind, List.foldlM_cons, List.foldlM_nil]
      rw [hs m (by omega), g1]
      rfl
    · rw [List.range_succ, List.map_append]; exact g2

theorem get_holds {N : Nat} {l : Layout} {prs : List (Pt × Pt)} {s : Option (Pt × Pt)}
    (h : Holds N l prs s) (i : Nat) (hi : i < prs.length) :
    l.get i = .ok (mkConj prs[i]) := by
  obtain ⟨h1, h2, rest, h3⟩ := h
  unfold Layout.get Layout.size
  rw [if_pos (by omega), h3, List.append_assoc, List.getElem?_append_left (by simpa using hi)]
  simp [hi]

theorem get_holds_single {N : Nat} {l : Layout} {prs : List (Pt × Pt)} {q : Pt × Pt}
    (h : Holds N l prs (some q)) :
    l.get prs.length = .ok (mkSingle q) := by
  obtain ⟨h1, h2, rest, h3⟩ := h
  unfold Layout.get Layout.size
  simp at h1
  rw [if_pos (by omega), h3, List.append_assoc, List.getElem?_append_right (by simp)]
  simp

/-- The bilinear transformers map point by point. -/
theorem transform_holds {N N' : Nat} {a d : Layout} {P : Nat → Pt × Pt} {m : Nat}
    {s : Option (Pt × Pt)}
    (h : Holds N a ((List.range m).map P) s) (hd : d.pairs.length = N') (hN : m + s.toList.length ≤ N')
    (T : Pt → Except Fault Pt) (T' : Pt → Pt) (w : ℝ) (dbg : Bool)
    (hT : ∀ k < m, T (P k).1 = .ok (T' (P k).1) ∧ T (P k).2.conj = .ok (T' (P k).2.conj))
    (hTs : ∀ q, s = some q → T q.1 = .ok (T' q.1) ∧ T q.2 = .ok (T' q.2) ∧
      (dbg = true → (T' q.1).imagZero ∧ (T' q.2).imagZero)) :
    ∃ d', transformWith dbg T w a d = .ok d' ∧
      Holds N' d' ((List.range m).map fun k => (T' (P k).1, T' (P k).2.conj))
        (s.map fun q => (T' q.1, T' q.2)) ∧ d'.w = w ∧ d'.gain = a.gain := by
  have hp : a.poles = 2 * m + s.toList.length := by simpa using h.1
  have hsl : s.toList.length ≤ 1 := by cases s <;> simp
  have hp2 : a.poles / 2 = m := by omega
  unfold transformWith
  rw [hp2]
  obtain ⟨d1, h1, h2, h3, h4⟩ := fold_holds (holds_reset hd w a.gain)
    (fun k => (T' (P k).1, T' (P k).2.conj)) (transformStep T a) m (by omega) (by
      intro k hk l
      unfold transformStep
      rw [get_holds h k (by simpa using hk)]
      simp only [bind, Except.bind, mkConj, List.getElem_map, List.getElem_range]
      rw [(hT k hk).1, (hT k hk).2])
  simp only [h1, bind, Except.bind]
  cases s with
  | none =>
    simp at hp
    rw [if_neg (by omega)]
    exact ⟨d1, rfl, h2, h3, h4⟩
  | some q =>
    simp at hp hN
    rw [if_pos (by omega)]
    have hg := get_holds_single h
    simp only [List.length_map, List.length_range] at hg
    rw [hg]
    obtain ⟨t1, t2, t3⟩ := hTs q rfl
    simp only [mkSingle, t1, t2]
    obtain ⟨d2, g1, g2, g3, g4⟩ := insert_holds h2 (by simp; omega) (T' q.1, T' q.2) t3
    exact ⟨d2, g1, g2, by rw [g3, h3], by rw [g4, h4]⟩

/-- The section of a conjugate pole pair and a conjugate zero pair. -/
noncomputable def secConj (q : ℂ × ℂ) : Biquad ℝ :=
  ⟨q.2.re * q.2.re + q.2.im * q.2.im, -2 * q.2.re, 1, q.1.re * q.1.re + q.1.im * q.1.im, -2 * q.1.re,
    1, 0, 0⟩

/-- The section of a real pole and a real zero. -/
noncomputable def secSingle (q : ℂ × ℂ) : Biquad ℝ := ⟨0, 1, -q.2.re, 0, -q.1.re, 1, 0, 0⟩

theorem makeBiquad_conj (p z : ℂ) (hpz : ¬ (p = 0 ∧ z = 0)) :
    makeBiquad (mkConj (some p, some z)) = .ok (secConj (p, z)) := by
  unfold makeBiquad mkConj
  simp only [Pt.conj, Option.map_some, PzPair.singlePole, Option.some.injEq, map_eq_zero]
  rw [if_neg hpz]
  unfold Biquad.ofPoleZeroPair Biquad.quadOfRoots
  have key : ∀ q : ℂ, (if q.im ≠ 0 then
      if ((starRingEnd ℂ) q).re = q.re ∧ ((starRingEnd ℂ) q).im = -q.im then
        (Except.ok (-2 * q.re, q.re * q.re + q.im * q.im) : Except Fault (ℝ × ℝ))
      else .error .assertion
      else if ((starRingEnd ℂ) q).im = 0 then
        .ok (-(q.re + ((starRingEnd ℂ) q).re), q.re * ((starRingEnd ℂ) q).re)
      else .error .assertion) = .ok (-2 * q.re, q.re * q.re + q.im * q.im) := by
    intro q
    by_cases h : q.im = 0
    · simp [h]; ring
    · simp [h]
  rw [key, key]
  rfl

theorem makeBiquad_single (p z : ℂ) (hp : p.im = 0) (hz : z.im = 0) :
    makeBiquad (mkSingle (some p, some z)) = .ok (secSingle (p, z)) := by
  unfold makeBiquad mkSingle
  simp [PzPair.singlePole, Biquad.ofPoleZero, hp, hz, secSingle]

/-- The transfer value of a section at `z`, as a fraction. -/
noncomputable def tf (f : Biquad ℝ) (z : ℂ) : ℂ := numAt f z / denAt f z

theorem transferAt_tf {f : Biquad ℝ} {z : ℂ} (h : denAt f z ≠ 0) : TransferAt f z (tf f z) :=
  ⟨h, by unfold tf; rw [div_mul_cancel₀ _ h]⟩

theorem chain_tf {fs : List (Biquad ℝ)} {z : ℂ} (h : ∀ f ∈ fs, denAt f z ≠ 0) :
    ChainTransferAt fs z (fs.map fun f => tf f z).prod := by
  induction fs with
  | nil => simp [ChainTransferAt]
  | cons f fs ih =>
    refine ⟨tf f z, _, transferAt_tf (h f (by simp)), ih (fun g hg => h g (by simp [hg])), by simp⟩

/-- The response loop computes the products of numerators and denominators. -/
theorem responseLoop_eq (w : ℝ) (fs : List (Biquad ℝ)) (h : ∀ f ∈ fs, f.a0 = 1) (acc : ℂ × ℂ) :
    responseLoop (Complex.exp ((-w : ℝ) * Complex.I)) (Complex.exp ((-2 * w : ℝ) * Complex.I)) fs acc =
      .ok (acc.1 * (fs.map fun f => numAt f (Complex.exp (w * Complex.I))).prod,
        acc.2 * (fs.map fun f => denAt f (Complex.exp (w * Complex.I))).prod) := by
  induction fs generalizing acc with
  | nil => simp [responseLoop]
  | cons f fs ih =>
    obtain ⟨ch, cbot⟩ := acc
    unfold responseLoop
    rw [h f (by simp)]
    have hd : ∀ a : ℝ, fdiv a 1 = .ok a := by intro a; unfold fdiv; simp
    simp only [hd, bind, Except.bind]
    rw [ih (fun g hg => h g (by simp [hg]))]
    have am : ∀ (l : ℂ) (k : ℝ) (r : ℂ), addmul l k r = l + k * r := by
      intro l k r; apply Complex.ext <;> simp [addmul]
    have e1 : Complex.exp ((-w : ℝ) * Complex.I) = (Complex.exp (w * Complex.I))⁻¹ := by
      rw [← Complex.exp_neg]; congr 1; push_cast; ring
    have e2 : Complex.exp ((-2 * w : ℝ) * Complex.I) = (Complex.exp (w * Complex.I))⁻¹ ^ 2 := by
      rw [← Complex.exp_neg, ← Complex.exp_nat_mul]; congr 1; push_cast; ring
    simp only [am, List.map_cons, List.prod_cons, numAt, denAt, e1, e2, mul_assoc]

/-- The loop that builds the cascade. -/
theorem cascade_loop {d : Layout} (fs : List (Biquad ℝ)) (M : Nat) (hM : fs.length ≤ M)
    (hg : ∀ i (hi : i < fs.length), ∃ q, d.get i = .ok q ∧ makeBiquad q = .ok fs[i]) (k : Nat)
    (hk : k ≤ fs.length) :
    ∃ c : Cascade ℝ, (List.range k).foldlM (cascadeStep d) (Cascade.new M) = .ok c ∧ c.num = k ∧
      c.stages.length = M ∧ c.stages.take k = fs.take k := by
  induction k with
  | zero => exact ⟨_, rfl, rfl, by simp [Cascade.new], by simp⟩
  | succ k ih =>
    obtain ⟨c, h1, h2, h3, h4⟩ := ih (by omega)
    obtain ⟨q, g1, g2⟩ := hg k (by omega)
    refine ⟨{ num := c.num + 1, stages := c.stages.set c.num fs[k] }, ?_, by simp [h2], by simp [h3], ?_⟩
    · rw [List.range_succ, List.foldlM_append, h1]
      simp only [bind, Except.bind, List.foldlM_cons, List.foldlM_nil, cascadeStep, g1, g2,
        Cascade.pushBack]
      rw [if_pos (by omega)]
      rfl
    · simp only [h2]
      rw [List.take_add_one, List.take_add_one, List.take_set_of_le le_rfl, h4]
      rw [List.getElem?_set_self (by omega), List.getElem?_eq_getElem (by omega)]

/-- Scaling the numerator scales the numerator. -/
theorem applyScale_eq (f : Biquad ℝ) (s : ℝ) :
    applyScale f s = { f with b0 := f.b0 * s, b1 := f.b1 * s, b2 := f.b2 * s, w0 := 0, w1 := 0 } := by
  simp [applyScale, Biquad.setB0, Biquad.setB1, Biquad.setB2, Biquad.reset]

/-- **The cascade of a digital layout.**  If the layout's stages make the sections `f :: fs` and the
response at the normalisation frequency is defined and not zero, the cascade consists of these
sections, the first one scaled by `gain / |response|`. -/
theorem makeCascade_eq {d : Layout} {N : Nat} (f : Biquad ℝ) (fs : List (Biquad ℝ))
    (hlen : (f :: fs).length = (d.poles + 1) / 2) (hN : (f :: fs).length ≤ (N + 1) / 2)
    (hg : ∀ i (hi : i < (f :: fs).length), ∃ q, d.get i = .ok q ∧ makeBiquad q = .ok (f :: fs)[i])
    (ha : ∀ g ∈ f :: fs, g.a0 = 1)
    (hden : ∀ g ∈ f :: fs, denAt g (Complex.exp (d.w * Complex.I)) ≠ 0)
    (hnum : ∀ g ∈ f :: fs, numAt g (Complex.exp (d.w * Complex.I)) ≠ 0) :
    ∃ c, makeCascade N d = .ok c ∧ c.num = (d.poles + 1) / 2 ∧
      active c = applyScale f (d.gain / ‖((f :: fs).map fun g => tf g (Complex.exp (d.w * Complex.I))).prod‖) :: fs := by
  obtain ⟨c, h1, h2, h3, h4⟩ := cascade_loop (f :: fs) ((N + 1) / 2) hN hg (f :: fs).length le_rfl
  have hdp : ((f :: fs).map fun g => denAt g (Complex.exp (d.w * Complex.I))).prod ≠ 0 := by
    intro h
    rw [List.prod_eq_zero_iff, List.mem_map] at h
    obtain ⟨g, hg, h⟩ := h
    exact hden g hg h
  have hnp : ((f :: fs).map fun g => numAt g (Complex.exp (d.w * Complex.I))).prod ≠ 0 := by
    intro h
    rw [List.prod_eq_zero_iff, List.mem_map] at h
    obtain ⟨g, hg, h⟩ := h
    exact hnum g hg h
  have htf : ((f :: fs).map fun g => tf g (Complex.exp (d.w * Complex.I))).prod =
      ((f :: fs).map fun g => numAt g (Complex.exp (d.w * Complex.I))).prod /
      ((f :: fs).map fun g => denAt g (Complex.exp (d.w * Complex.I))).prod := by
    generalize (f :: fs) = l
    induction l with
    | nil => simp
    | cons a l ih => rw [List.map_cons, List.prod_cons, ih]; simp only [List.map_cons, List.prod_cons, tf]; rw [div_mul_div_comm]
  rw [List.take_length] at h4
  have hw : 2 * Real.pi * (d.w / (2 * Real.pi)) = d.w := by
    have := Real.pi_pos; field_simp
  have hresp : makeResponse c (d.w / (2 * Real.pi)) =
      .ok ((f :: fs).map fun g => tf g (Complex.exp (d.w * Complex.I))).prod := by
    unfold makeResponse
    simp only [hw, h2, h4]
    rw [responseLoop_eq d.w (f :: fs) ha]
    simp only [bind, Except.bind, one_mul]
    rw [if_neg hdp, htf]
    rfl
  unfold makeCascade
  simp only [← hlen, h1, bind, Except.bind, hresp]
  have hr : ‖((f :: fs).map fun g => tf g (Complex.exp (d.w * Complex.I))).prod‖ ≠ 0 := by
    rw [norm_ne_zero_iff, htf]
    exact div_ne_zero hnp hdp
  rw [show fdiv d.gain _ = .ok _ by unfold fdiv; rw [if_neg hr]]
  cases hc : c.stages with
  | nil => rw [hc] at h4; simp at h4
  | cons g gs =>
    rw [hc] at h4
    simp at h4
    simp only [List.getElem?_cons_zero, pure, Except.pure]
    refine ⟨_, rfl, h2, ?_⟩
    simp only [active, h2, List.set_cons_zero, List.length_cons, List.take_succ_cons, h4.1, h4.2]

/-- The response of the built cascade. -/
theorem chain_scaled {f : Biquad ℝ} {fs : List (Biquad ℝ)} {s : ℝ} {z : ℂ}
    (hden : ∀ g ∈ f :: fs, denAt g z ≠ 0) :
    ChainTransferAt (applyScale f s :: fs) z (s * ((f :: fs).map fun g => tf g z).prod) := by
  have e : ∀ z, denAt (applyScale f s) z = denAt f z := by intro z; rw [applyScale_eq]; rfl
  have en : ∀ z, numAt (applyScale f s) z = s * numAt f z := by
    intro z; rw [applyScale_eq]; simp only [numAt]; push_cast; ring
  have := chain_tf (fs := applyScale f s :: fs) (z := z) (by
    intro g hg
    rcases List.mem_cons.mp hg with rfl | hg
    · rw [e]; exact hden f (by simp)
    · exact hden g (by simp [hg]))
  convert this using 1
  simp only [List.map_cons, List.prod_cons, tf, e, en]
  ring

end Edsp.LayoutL
