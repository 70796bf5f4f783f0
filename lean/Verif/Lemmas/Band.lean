import Verif.Lemmas.Quads

/-! Helper lemmas: a frequency map of degree two applied to a prototype; the magnitude response of the
resulting design in terms of the prototype. -/

namespace Edsp.BandL

open Edsp Edsp.Spec Edsp.LayoutL Edsp.BilinearL

/-- The code's point map `T` inverts `s = n(z) / d(z)`: a finite point goes to the two roots of
`n - s d`, the point at infinity to the two roots of `d`. -/
structure RootMap (b : ℝ) (n d : ℂ → ℂ) (T : Pt → Except Fault (ℂ × ℂ)) : Prop where
  fin : ∀ s : ℂ, s.re ≤ 0 → ∃ r : ℂ × ℂ, T (some s) = .ok r ∧
    (∀ z, (z - r.1) * (z - r.2) * (b - s) = n z - s * d z) ∧
    (s.re < 0 → ‖r.1‖ < 1 ∧ ‖r.2‖ < 1) ∧ (s.im = 0 → Match r.1 r.2)
  inf : ∃ r : ℂ × ℂ, T none = .ok r ∧ (∀ z, (z - r.1) * (z - r.2) = d z) ∧ Match r.1 r.2
  bpos : 0 < b
  nconj : ∀ z, n ((starRingEnd ℂ) z) = (starRingEnd ℂ) (n z)
  dconj : ∀ z, d ((starRingEnd ℂ) z) = (starRingEnd ℂ) (d z)
  d0 : d 0 ≠ 0
  n0 : n 0 = -b * d 0

/-- Product of the distances to two points. -/
noncomputable def PD (r : ℂ × ℂ) (z : ℂ) : ℝ := ‖z - r.1‖ * ‖z - r.2‖

/-- What is known of the image of a point with non-positive real part. -/
structure Img (b : ℝ) (n d : ℂ → ℂ) (q : Pt) (r : ℂ × ℂ) : Prop where
  fin : ∀ s, q = some s → ∀ z, (z - r.1) * (z - r.2) * (b - s) = n z - s * d z
  inf : q = none → ∀ z, (z - r.1) * (z - r.2) = d z

noncomputable def G (b : ℝ) : Pt → ℝ
  | none => 1
  | some s => ‖(b : ℂ) - s‖

theorem b_sub_ne {b : ℝ} (hb : 0 < b) {s : ℂ} (hs : s.re ≤ 0) : (b : ℂ) - s ≠ 0 := by
  intro h
  have := congrArg Complex.re h
  simp at this
  linarith

theorem G_pos {b : ℝ} (hb : 0 < b) {q : Pt} (hq : ∀ c, q = some c → c.re ≤ 0) : 0 < G b q := by
  cases q with
  | none => exact one_pos
  | some c => exact norm_pos_iff.mpr (b_sub_ne hb (hq c rfl))

theorem G_conj (b : ℝ) (q : Pt) : G b q.conj = G b q := by
  cases q with
  | none => rfl
  | some s =>
    simp only [G, Pt.conj, Option.map_some]
    rw [← Complex.norm_conj ((b : ℂ) - s)]
    simp

theorem E_conj (x : ℂ) (q : Pt) : E ((starRingEnd ℂ) x) q = E x q.conj := by
  cases q with
  | none => rfl
  | some s =>
    simp only [E, Pt.conj, Option.map_some]
    rw [← Complex.norm_conj (x - _)]
    simp

theorem PD_conj (r : ℂ × ℂ) (z : ℂ) :
    ‖z - (starRingEnd ℂ) r.1‖ * ‖z - (starRingEnd ℂ) r.2‖ = PD r ((starRingEnd ℂ) z) := by
  unfold PD
  rw [← Complex.norm_conj (z - _), ← Complex.norm_conj (z - (starRingEnd ℂ) r.2)]
  simp

section
variable {b : ℝ} {n d : ℂ → ℂ}

theorem PD_eq (hb : 0 < b) {q : Pt} (hq : ∀ c, q = some c → c.re ≤ 0) {r : ℂ × ℂ}
    (h : Img b n d q r) {z : ℂ} (hd : d z ≠ 0) : PD r z = ‖d z‖ * (E (n z / d z) q * (1 / G b q)) := by
  unfold PD
  cases q with
  | none =>
    have := h.inf rfl z
    rw [← norm_mul, this]
    simp [E, G]
  | some s =>
    have h1 := h.fin s rfl z
    have hne := b_sub_ne hb (hq s rfl)
    have hn : ‖(b : ℂ) - s‖ ≠ 0 := norm_ne_zero_iff.mpr hne
    have h2 : n z - s * d z = d z * (n z / d z - s) := by field_simp
    simp only [E, G]
    rw [← norm_mul, ← norm_mul_eq hn, h1, h2, norm_mul]
    field_simp
where
  norm_mul_eq {x y : ℂ} (hn : ‖y‖ ≠ 0) : ‖x * y‖ * (1 / ‖y‖) = ‖x‖ := by
    rw [norm_mul]; field_simp

theorem PD_fin0 (hb : 0 < b) {s : ℂ} (hs : s.re ≤ 0) {r : ℂ × ℂ} (h : Img b n d (some s) r) {z : ℂ}
    (hd : d z = 0) : PD r z = ‖n z‖ * (1 / G b (some s)) := by
  have h1 := h.fin s rfl z
  have hne := b_sub_ne hb hs
  have hn : ‖(b : ℂ) - s‖ ≠ 0 := norm_ne_zero_iff.mpr hne
  unfold PD
  rw [hd, mul_zero, sub_zero] at h1
  simp only [G]
  rw [← norm_mul, ← h1, norm_mul _ ((b : ℂ) - s)]
  field_simp

theorem PD_inf0 {r : ℂ × ℂ} (h : Img b n d none r) {z : ℂ} (hd : d z = 0) : PD r z = 0 := by
  unfold PD
  rw [← norm_mul, h.inf rfl z, hd, norm_zero]

end

/-- The two entries of a conjugate pair of the prototype. -/
noncomputable def two (p z : ℂ × ℂ) : List Quad :=
  [⟨p.1, (starRingEnd ℂ) p.1, z.1, (starRingEnd ℂ) z.1⟩,
    ⟨p.2, (starRingEnd ℂ) p.2, z.2, (starRingEnd ℂ) z.2⟩]

/-- The value of the prototype at the image of `z`. -/
noncomputable def V (n d : ℂ → ℂ) (m : Nat) (P : Nat → ℂ) (Z : Nat → Pt) (s : Option (ℝ × Option ℝ))
    (z : ℂ) : ℝ :=
  open Classical in if d z = 0 then MI m Z s else MA m P Z s (n z / d z)

theorem rho_two (p z : ℂ × ℂ) (x : ℂ) :
    ((two p z).map (rho x)).prod =
      PD z x * PD z ((starRingEnd ℂ) x) / (PD p x * PD p ((starRingEnd ℂ) x)) := by
  rw [← PD_conj z, ← PD_conj p]
  simp only [two, List.map_cons, List.map_nil, List.prod_cons, List.prod_nil, mul_one, rho, PD]
  rw [div_mul_div_comm]
  congr 1 <;> ring

theorem conj_le {q : Pt} (hq : ∀ c, q = some c → c.re ≤ 0) : ∀ c, q.conj = some c → c.re ≤ 0 := by
  intro c hc
  cases hz : q with
  | none => rw [hz] at hc; simp [Pt.conj] at hc
  | some x =>
    rw [hz] at hc; simp [Pt.conj] at hc
    rw [← hc]; simpa using hq x hz

theorem alg8 {t : ℝ} (ht : t ≠ 0) (x y u v g h : ℝ) :
    t * (x * (1 / g)) * (t * (y * (1 / g))) / (t * (u * (1 / h)) * (t * (v * (1 / h)))) =
      (h * h) / (g * g) * (x * y / (u * v)) := by
  have e1 : t * (x * (1 / g)) * (t * (y * (1 / g))) = (t * t) * ((x * y) / (g * g)) := by
    rw [one_div, div_eq_mul_inv, mul_inv]; ring
  have e2 : t * (u * (1 / h)) * (t * (v * (1 / h))) = (t * t) * ((u * v) / (h * h)) := by
    rw [one_div, div_eq_mul_inv, mul_inv]; ring
  rw [e1, e2, mul_div_mul_left _ _ (mul_ne_zero ht ht), div_div_div_eq, mul_comm (x * y) (h * h),
    mul_div_mul_comm]

/-- **The response of the mapped layout is the response of the prototype at the mapped point**, up to a
constant. -/
theorem rho_V {b : ℝ} {n d : ℂ → ℂ} (hb : 0 < b)
    (hnc : ∀ z, n ((starRingEnd ℂ) z) = (starRingEnd ℂ) (n z))
    (hdc : ∀ z, d ((starRingEnd ℂ) z) = (starRingEnd ℂ) (d z)) {m : Nat}
    {P : Nat → ℂ} {Z : Nat → Pt} {s : Option (ℝ × Option ℝ)}
    (hP : ∀ k < m, (P k).re < 0) (hZ : ∀ k < m, ∀ c, Z k = some c → c.re ≤ 0)
    (hs : ∀ q, s = some q → q.1 < 0 ∧ ∀ c, q.2 = some c → c ≤ 0)
    {p z : Nat → ℂ × ℂ} {ps zs : ℂ × ℂ}
    (hp : ∀ k < m, Img b n d (some (P k)) (p k)) (hz : ∀ k < m, Img b n d (Z k) (z k))
    (hps : ∀ q, s = some q → Img b n d (some (q.1 : ℂ)) ps ∧ Img b n d (q.2.map Complex.ofReal) zs) :
    ∃ K, 0 < K ∧ ∀ x, (d x = 0 → n x ≠ 0) →
      ((((List.range m).flatMap fun k => two (p k) (z k)) ++
        s.toList.map fun _ => (⟨ps.1, ps.2, zs.1, zs.2⟩ : Quad)).map (rho x)).prod = K * V n d m P Z s x := by
  have h1 : ∃ K, 0 < K ∧ ∀ x, (d x = 0 → n x ≠ 0) →
      (((List.range m).flatMap fun k => two (p k) (z k)).map (rho x)).prod =
        K * (open Classical in if d x = 0 then
          ((List.range m).map fun k => if (Z k).isSome then (1 : ℝ) else 0).prod
          else ((List.range m).map fun k => RA (n x / d x) (P k) (Z k)).prod) := by
    have hmem : ∀ k ∈ List.range m, k < m := fun k => List.mem_range.mp
    revert hmem
    generalize List.range m = l
    induction l with
    | nil => intro _; exact ⟨1, one_pos, by simp⟩
    | cons k l ih =>
      intro hmem
      obtain ⟨K, hK, hK1⟩ := ih (fun j hj => hmem j (by simp [hj]))
      have hk := hmem k (by simp)
      have hp1 : ∀ c, (some (P k) : Pt) = some c → c.re ≤ 0 := by
        intro c hc; injection hc with hc; rw [← hc]; exact (hP k hk).le
      have hz1 := hZ k hk
      have G1 := G_pos hb hz1
      have G2 := G_pos hb hp1
      refine ⟨G b (some (P k)) * G b (some (P k)) / (G b (Z k) * G b (Z k)) * K, by positivity, ?_⟩
      intro x hx
      have e := hK1 x hx
      simp only [List.flatMap_cons, List.map_append, List.prod_append, List.map_cons, List.prod_cons]
      rw [e, rho_two]
      by_cases hd : d x = 0
      · have hd' : d ((starRingEnd ℂ) x) = 0 := by rw [hdc, hd, map_zero]
        have hn := norm_ne_zero_iff.mpr (hx hd)
        have hn' : ‖n ((starRingEnd ℂ) x)‖ = ‖n x‖ := by rw [hnc, Complex.norm_conj]
        rw [if_pos hd, if_pos hd]
        rw [PD_fin0 hb (hP k hk).le (hp k hk) hd, PD_fin0 hb (hP k hk).le (hp k hk) hd', hn']
        cases hq : Z k with
        | none =>
          have := hz k hk
          rw [hq] at this
          rw [PD_inf0 this hd]; simp
        | some c =>
          have := hz k hk
          rw [hq] at this hz1 G1
          rw [PD_fin0 hb (hz1 c rfl) this hd, PD_fin0 hb (hz1 c rfl) this hd', hn']
          have := alg8 hn 1 1 1 1 (G b (some c)) (G b (some (P k)))
          simp only [one_mul, mul_one, div_one] at this
          rw [this]
          simp only [Option.isSome_some, if_true]
          ring
      · have hd' : d ((starRingEnd ℂ) x) ≠ 0 := by rw [hdc]; simpa using hd
        rw [if_neg hd, if_neg hd]
        have hnd : ‖d ((starRingEnd ℂ) x)‖ = ‖d x‖ := by rw [hdc, Complex.norm_conj]
        have hq : n ((starRingEnd ℂ) x) / d ((starRingEnd ℂ) x) = (starRingEnd ℂ) (n x / d x) := by
          rw [hnc, hdc, map_div₀]
        rw [PD_eq hb hz1 (hz k hk) hd, PD_eq hb hz1 (hz k hk) hd', PD_eq hb hp1 (hp k hk) hd,
          PD_eq hb hp1 (hp k hk) hd', hnd, hq, E_conj, E_conj, alg8 (norm_ne_zero_iff.mpr hd)]
        simp only [RA, Pt.conj, Option.map_some]
        ring
  obtain ⟨K, hK, hK1⟩ := h1
  cases s with
  | none =>
    refine ⟨K, hK, ?_⟩
    intro x hx
    simp only [Option.toList_none, List.map_nil, List.append_nil]
    rw [hK1 x hx]
    unfold V MI MA
    split_ifs <;> simp
  | some q =>
    obtain ⟨hq1, hq2⟩ := hs q rfl
    obtain ⟨i1, i2⟩ := hps q rfl
    have hp1 : ∀ c, (some (q.1 : ℂ) : Pt) = some c → c.re ≤ 0 := by
      intro c hc; injection hc with hc; rw [← hc]; simpa using hq1.le
    have hz1 : ∀ c, (q.2.map Complex.ofReal : Pt) = some c → c.re ≤ 0 := by
      intro c hc
      cases hx : q.2 with
      | none => rw [hx] at hc; simp at hc
      | some y => rw [hx] at hc; simp at hc; rw [← hc]; simpa using hq2 y hx
    have G1 := G_pos hb hz1
    have G2 := G_pos hb hp1
    refine ⟨K * (G b (some (q.1 : ℂ)) / G b (q.2.map Complex.ofReal)), by positivity, ?_⟩
    intro x hx
    rw [List.map_append, List.prod_append, hK1 x hx]
    simp only [Option.toList_some, List.map_cons, List.map_nil, List.prod_cons, List.prod_nil, mul_one]
    have er : rho x ⟨ps.1, ps.2, zs.1, zs.2⟩ = PD zs x / PD ps x := rfl
    rw [er]
    unfold V MI MA
    by_cases hd : d x = 0
    · rw [if_pos hd, if_pos hd, PD_fin0 hb (hp1 _ rfl) i1 hd]
      have hn := norm_ne_zero_iff.mpr (hx hd)
      simp only [Option.toList_some, List.map_cons, List.map_nil, List.prod_cons, List.prod_nil, mul_one]
      cases hy : q.2 with
      | none =>
        rw [hy] at i2
        rw [PD_inf0 i2 hd]; simp
      | some y =>
        rw [hy] at i2 hz1 G1
        rw [PD_fin0 hb (hz1 _ rfl) i2 hd]
        simp only [Option.map_some, Option.isSome_some, if_true]
        simp only [Option.map_some] at G1
        field_simp
    · rw [if_neg hd, if_neg hd, PD_eq hb hp1 i1 hd, PD_eq hb hz1 i2 hd]
      have hn := norm_ne_zero_iff.mpr hd
      simp only [Option.toList_some, List.map_cons, List.map_nil, List.prod_cons, List.prod_nil, mul_one, SA]
      rw [mul_div_mul_left _ _ hn, mul_div_mul_comm]
      rw [div_div_div_eq, one_mul, mul_one]
      ring

/-- A change of the two zeros that keeps the four points `z1, z2` and their conjugates. -/
def Keeps (fix : ℂ × ℂ → ℂ × ℂ) : Prop :=
  ∀ r x, PD (fix r) x * PD (fix r) ((starRingEnd ℂ) x) = PD r x * PD r ((starRingEnd ℂ) x)

theorem keeps_id : Keeps id := fun _ _ => rfl

theorem keeps_bsFix : Keeps bsFix := by
  intro r x
  unfold bsFix
  split_ifs with h
  · rw [← PD_conj, ← PD_conj r]
    unfold PD
    rw [h]
    simp
    ring
  · rfl

theorem two_good {p z : ℂ × ℂ} (n1 : ‖p.1‖ < 1) (n2 : ‖p.2‖ < 1) :
    ∀ e ∈ two p z, Good e := by
  intro e he
  simp only [two, List.mem_cons, List.not_mem_nil, or_false] at he
  rcases he with rfl | rfl
  · exact ⟨match_conj _, match_conj _, n1, by simpa using n1⟩
  · exact ⟨match_conj _, match_conj _, n2, by simpa using n2⟩

/-- The loop of the band transformers. -/
theorem band_loop {N N' m : Nat} {a D : Layout} {P : Nat → Pt × Pt} {s : Option (Pt × Pt)}
    (h : Holds N a ((List.range m).map P) s) (hD : QHolds N' D [])
    {T : Pt → Except Fault (ℂ × ℂ)} {fix : ℂ × ℂ → ℂ × ℂ} {p z : Nat → ℂ × ℂ}
    (hT : ∀ k < m, T (P k).1 = .ok (p k) ∧ T (P k).2 = .ok (z k)) (j : Nat) (hj : j ≤ m)
    (hN : 2 * j ≤ N') :
    ∃ D', (List.range j).foldlM (bandStep T fix a) D = .ok D' ∧
      QHolds N' D' ((List.range j).flatMap fun k => two (p k) (fix (z k))) := by
  induction j with
  | zero => exact ⟨D, rfl, by simpa using hD⟩
  | succ j ih =>
    obtain ⟨D1, h1, h2⟩ := ih (by omega) (by omega)
    have hlen : ∀ j, ((List.range j).flatMap fun k => two (p k) (fix (z k))).length = 2 * j := by
      intro j
      induction j with
      | zero => rfl
      | succ j ih => rw [List.range_succ, List.flatMap_append, List.length_append, ih]; simp [two]; omega
    have hl := hlen j
    obtain ⟨D2, g1, g2⟩ := qstore h2 (by omega)
      ⟨(p j).1, (starRingEnd ℂ) (p j).1, (fix (z j)).1, (starRingEnd ℂ) (fix (z j)).1⟩
    obtain ⟨D3, g3, g4⟩ := qstore g2 (by rw [List.length_append, hl, List.length_singleton]; omega)
      ⟨(p j).2, (starRingEnd ℂ) (p j).2, (fix (z j)).2, (starRingEnd ℂ) (fix (z j)).2⟩
    refine ⟨D3, ?_, ?_⟩
    · rw [List.range_succ, List.foldlM_append, h1]
      simp only [bind, Except.bind, List.foldlM_cons, List.foldlM_nil]
      unfold bandStep
      rw [get_holds h j (by simp; omega)]
      simp only [bind, Except.bind, mkConj, List.getElem_map, List.getElem_range]
      rw [(hT j (by omega)).1, (hT j (by omega)).2]
      simp only []
      have e1 : D1.insertConj (some (p j).1) (some (fix (z j)).1) = .ok D2 := g1
      have e2 : D2.insertConj (some (p j).2) (some (fix (z j)).2) = .ok D3 := g3
      rw [e1]
      simp only []
      rw [e2]
      rfl
    · rw [List.range_succ, List.flatMap_append]
      simpa [two] using g4

/-- **The sections and the response of a band design.** -/
theorem band_struct {N m : Nat} {a : Layout} {P : Nat → ℂ} {Z : Nat → Pt} {s : Option (ℝ × Option ℝ)}
    (hold : Holds N a ((List.range m).map fun k => (some (P k), Z k))
      (s.map fun q => (some (q.1 : ℂ), q.2.map Complex.ofReal)))
    (hpos : 0 < m + s.toList.length) (hN : 2 * m + s.toList.length ≤ N)
    (hP : ∀ k < m, (P k).re < 0 ∧ (P k).im ≠ 0) (hZ : ∀ k < m, ∀ c, Z k = some c → c.re ≤ 0)
    {b : ℝ} (hs : ∀ q, s = some q → q.1 < 0 ∧ (∀ c, q.2 = some c → c ≤ 0))
    {n d : ℂ → ℂ} {T : Pt → Except Fault (ℂ × ℂ)} (hT : RootMap b n d T)
    {fix : ℂ × ℂ → ℂ × ℂ} (hfix : Keeps fix) {dbg : Bool}
    (hdbg : dbg = true → ∀ q, s = some q → q.1 ≠ -b ∧ q.2 ≠ some (-b))
    (hnd : ∀ w : ℝ, d (Complex.exp (w * Complex.I)) = 0 → n (Complex.exp (w * Complex.I)) ≠ 0) :
    ∃ D, bandPairs dbg T fix a (Layout.new (2 * N)) = .ok D ∧ ∃ (p z : ℕ → ℂ × ℂ) (ps zs : ℂ × ℂ),
      (∀ k < m, T (some (P k)) = .ok (p k) ∧ T (Z k) = .ok (z k) ∧ (p k).1 ≠ 0 ∧ (p k).2 ≠ 0) ∧
      (∀ q, s = some q → T (some (q.1 : ℂ)) = .ok ps ∧ T (q.2.map Complex.ofReal) = .ok zs ∧
        (q.1 ≠ -b → ps.2 ≠ 0) ∧ (q.2 ≠ some (-b) → zs.2 ≠ 0)) ∧
      ∀ w0 g : ℝ, 0 ≤ g → V n d m P Z s (Complex.exp (w0 * Complex.I)) ≠ 0 →
        ∃ c, makeCascade (2 * N) { D with w := w0, gain := g } = .ok c ∧
          c.num = 2 * m + s.toList.length ∧ (∀ f ∈ active c, f.stability = true) ∧
          (∃ κ g0 gs, 0 ≤ κ ∧ (((List.range m).flatMap fun k => two (p k) (fix (z k))) ++
            s.toList.map fun _ => (⟨ps.1, ps.2, zs.1, zs.2⟩ : Quad)).map sec = g0 :: gs ∧
            active c = applyScale g0 κ :: gs) ∧
          ∀ w : ℝ, ChainGainAt (active c) w (g * (V n d m P Z s (Complex.exp (w * Complex.I)) /
            V n d m P Z s (Complex.exp (w0 * Complex.I)))) := by
  -- images of the points
  have himg : ∀ q : Pt, (∀ c, q = some c → c.re ≤ 0) → ∃ r, T q = .ok r ∧ Img b n d q r := by
    intro q hq
    cases q with
    | none =>
      obtain ⟨r, h1, h2, -⟩ := hT.inf
      exact ⟨r, h1, (by intro s h; cases h), fun _ => h2⟩
    | some s =>
      obtain ⟨r, h1, h2, -⟩ := hT.fin s (hq s rfl)
      exact ⟨r, h1, (by intro t h; injection h with h; rw [← h]; exact h2), (by intro h; cases h)⟩
  have hPle : ∀ k < m, ∀ c, (some (P k) : Pt) = some c → c.re ≤ 0 := by
    intro k hk c hc; injection hc with hc; rw [← hc]; exact (hP k hk).1.le
  have hpch : ∀ k, ∃ r, k < m → T (some (P k)) = .ok r ∧ Img b n d (some (P k)) r := by
    intro k
    by_cases hk : k < m
    · obtain ⟨r, h1, h2⟩ := himg _ (hPle k hk); exact ⟨r, fun _ => ⟨h1, h2⟩⟩
    · exact ⟨0, fun h => absurd h hk⟩
  have hzch : ∀ k, ∃ r, k < m → T (Z k) = .ok r ∧ Img b n d (Z k) r := by
    intro k
    by_cases hk : k < m
    · obtain ⟨r, h1, h2⟩ := himg _ (hZ k hk); exact ⟨r, fun _ => ⟨h1, h2⟩⟩
    · exact ⟨0, fun h => absurd h hk⟩
  choose p hp using hpch
  choose z hz using hzch
  -- zero is not an image of a point off the real axis
  have hne0 : ∀ {s : ℂ} {r : ℂ × ℂ}, Img b n d (some s) r → s ≠ -b → r.1 ≠ 0 ∧ r.2 ≠ 0 := by
    intro s r h hsb
    have h0 := h.fin s rfl 0
    rw [hT.n0] at h0
    have h1 : -(b : ℂ) * d 0 - s * d 0 ≠ 0 := by
      have : -(b : ℂ) * d 0 - s * d 0 = -(b + s) * d 0 := by ring
      rw [this]
      refine mul_ne_zero (neg_ne_zero.mpr ?_) hT.d0
      intro h; exact hsb (by linear_combination h)
    constructor
    · intro hr; rw [hr] at h0; exact h1 (by rw [← h0]; ring)
    · intro hr; rw [hr] at h0; exact h1 (by rw [← h0]; ring)
  have hne0' : ∀ {r : ℂ × ℂ}, Img b n d none r → r.1 ≠ 0 ∧ r.2 ≠ 0 := by
    intro r h
    have h0 := h.inf rfl 0
    constructor
    · intro hr; rw [hr] at h0; simp at h0; exact hT.d0 h0.symm
    · intro hr; rw [hr] at h0; simp at h0; exact hT.d0 h0.symm
  have hst : ∀ k < m, ‖(p k).1‖ < 1 ∧ ‖(p k).2‖ < 1 := by
    intro k hk
    obtain ⟨r, h1, -, h3, -⟩ := hT.fin (P k) (hP k hk).1.le
    have := (hp k hk).1
    rw [h1] at this
    injection this with this
    rw [← this]
    exact h3 (hP k hk).1
  have hD0 : QHolds (2 * N) (Layout.new (2 * N)).reset [] :=
    ⟨rfl, holds_new _, _, rfl⟩
  obtain ⟨D1, l1, l2⟩ := band_loop hold hD0 (T := T) (fix := fix) (p := p) (z := z)
    (fun k hk => ⟨(hp k hk).1, (hz k hk).1⟩) m le_rfl (by omega)
  have hlen : ((List.range m).flatMap fun k => two (p k) (fix (z k))).length = 2 * m := by
    have : ∀ j, ((List.range j).flatMap fun k => two (p k) (fix (z k))).length = 2 * j := by
      intro j
      induction j with
      | zero => rfl
      | succ j ih => rw [List.range_succ, List.flatMap_append, List.length_append, ih]; simp [two]; omega
    exact this m
  have hgoodA : ∀ e ∈ (List.range m).flatMap fun k => two (p k) (fix (z k)), Good e := by
    intro e he
    obtain ⟨k, hk, he⟩ := List.mem_flatMap.mp he
    have hk := List.mem_range.mp hk
    exact two_good (hst k hk).1 (hst k hk).2 e he
  -- the image of the single pole and zero
  have hsingle : ∃ ps zs : ℂ × ℂ, ∀ q, s = some q → T (some (q.1 : ℂ)) = .ok ps ∧
      T (q.2.map Complex.ofReal) = .ok zs ∧ Img b n d (some (q.1 : ℂ)) ps ∧
      Img b n d (q.2.map Complex.ofReal) zs ∧ Match ps.1 ps.2 ∧ Match zs.1 zs.2 ∧
      ‖ps.1‖ < 1 ∧ ‖ps.2‖ < 1 := by
    cases s with
    | none => exact ⟨0, 0, by intro q h; cases h⟩
    | some q =>
      obtain ⟨hq1, hq2⟩ := hs q rfl
      obtain ⟨r, h1, h2, h3, h4⟩ := hT.fin (q.1 : ℂ) (by simpa using hq1.le)
      have i1 : Img b n d (some (q.1 : ℂ)) r :=
        ⟨by intro t h; injection h with h; rw [← h]; exact h2, by intro h; cases h⟩
      have key : ∃ u, T (q.2.map Complex.ofReal) = .ok u ∧ Img b n d (q.2.map Complex.ofReal) u ∧
          Match u.1 u.2 := by
        cases hy : q.2 with
        | none =>
          obtain ⟨u, g1, g2, g3⟩ := hT.inf
          exact ⟨u, g1, ⟨(by intro s h; cases h), fun _ => g2⟩, g3⟩
        | some y =>
          obtain ⟨u, g1, g2, -, g4⟩ := hT.fin (y : ℂ) (by simpa using hq2 y hy)
          exact ⟨u, g1, ⟨by intro t h; injection h with h; rw [← h]; exact g2, by intro h; cases h⟩,
            g4 (by simp)⟩
      obtain ⟨u, g1, g2, g3⟩ := key
      refine ⟨r, u, ?_⟩
      intro q' hq'
      injection hq' with hq'
      subst hq'
      have := h3 (by simpa using hq1)
      exact ⟨h1, g1, i1, g2, h4 (by simp), g3, this.1, this.2⟩
  obtain ⟨ps, zs, hsg⟩ := hsingle
  have hgoodB : ∀ e ∈ s.toList.map fun _ => (⟨ps.1, ps.2, zs.1, zs.2⟩ : Quad), Good e := by
    intro e he
    obtain ⟨q, hq, rfl⟩ := List.mem_map.mp he
    have hq : s = some q := by simpa using hq
    obtain ⟨-, -, -, -, m1, m2, n1, n2⟩ := hsg q hq
    exact ⟨m1, m2, n1, n2⟩
  have hpoles : a.poles = 2 * m + s.toList.length := by
    have := hold.1
    cases s <;> simpa using this
  have hsl : s.toList.length ≤ 1 := by cases s <;> simp
  have hpo2 : a.poles / 2 = m := by omega
  -- the digital layout
  have hD : ∃ D, bandPairs dbg T fix a (Layout.new (2 * N)) = .ok D ∧
      QHolds (2 * N) D (((List.range m).flatMap fun k => two (p k) (fix (z k))) ++
        s.toList.map fun _ => (⟨ps.1, ps.2, zs.1, zs.2⟩ : Quad)) := by
    unfold bandPairs
    rw [hpo2]
    simp only [l1, bind, Except.bind]
    cases s with
    | none =>
      simp at hpoles
      rw [if_neg (by omega)]
      exact ⟨D1, rfl, by simpa using l2⟩
    | some q =>
      simp at hpoles hN
      rw [if_pos (by omega)]
      have hg := get_holds_single hold
      simp only [List.length_map, List.length_range] at hg
      rw [hg]
      obtain ⟨t1, t2, i1, i2, m1, m2, -, -⟩ := hsg q rfl
      simp only [mkSingle, t1, t2]
      obtain ⟨D2, g1, g2⟩ := qstore l2 (by omega) ⟨ps.1, ps.2, zs.1, zs.2⟩
      refine ⟨D2, ?_, g2⟩
      unfold Layout.insertMatched
      by_cases hdb : dbg = true
      · rw [if_pos hdb]
        obtain ⟨b1, b2⟩ := hdbg hdb q rfl
        have hb1 : (q.1 : ℂ) ≠ -b := by intro h; exact b1 (by exact_mod_cast h)
        have k1 : matchedPair (some ps.1) (some ps.2) := by
          obtain ⟨j1, j2⟩ := hne0 i1 hb1
          exact matched_of m1 j1 j2
        have k2 : matchedPair (some zs.1) (some zs.2) := by
          cases hy : q.2 with
          | none => rw [hy] at i2; exact matched_of m2 (hne0' i2).1 (hne0' i2).2
          | some y =>
            rw [hy] at i2 b2
            have : (y : ℂ) ≠ -b := by
              intro h; exact b2 (by rw [show y = -b by exact_mod_cast h])
            exact matched_of m2 (hne0 i2 this).1 (hne0 i2 this).2
        unfold Layout.insertPair
        rw [if_pos ⟨k1, k2⟩]
        exact g1
      · rw [if_neg hdb]; exact g1
  obtain ⟨D, hD1, hD2⟩ := hD
  refine ⟨D, hD1, p, z, ps, zs, fun k hk => ⟨(hp k hk).1, (hz k hk).1, hne0 (hp k hk).2 ?_⟩,
    fun q hq => ⟨(hsg q hq).1, (hsg q hq).2.1, fun h => (hne0 (hsg q hq).2.2.1 ?_).2, fun h => ?_⟩, ?_⟩
  · intro e
    have := (hP k hk).2
    rw [e] at this
    simp at this
  · intro e; exact h (by exact_mod_cast e)
  · have i2 := (hsg q hq).2.2.2.1
    cases hy : q.2 with
    | none => rw [hy] at i2; exact (hne0' i2).2
    | some y =>
      rw [hy] at i2 h
      refine (hne0 i2 ?_).2
      intro e
      exact h (by rw [show y = -b by exact_mod_cast e])
  intro w0 g hg0 hV
  obtain ⟨K, hK, hKV⟩ := rho_V hT.bpos hT.nconj hT.dconj (fun k hk => (hP k hk).1) hZ
    hs (fun k hk => (hp k hk).2) (fun k hk => (hz k hk).2)
    (fun q hq => ⟨(hsg q hq).2.2.1, (hsg q hq).2.2.2.1⟩)
  have hprod : ∀ w : ℝ, ((((List.range m).flatMap fun k => two (p k) (fix (z k))) ++
        s.toList.map fun _ => (⟨ps.1, ps.2, zs.1, zs.2⟩ : Quad)).map
          (rho (Complex.exp (w * Complex.I)))).prod = K * V n d m P Z s (Complex.exp (w * Complex.I)) := by
    intro w
    rw [← hKV _ (hnd w), List.map_append, List.map_append, List.prod_append, List.prod_append]
    congr 1
    generalize List.range m = l
    induction l with
    | nil => rfl
    | cons k l ih =>
      simp only [List.flatMap_cons, List.map_append, List.prod_append]
      rw [ih, rho_two, rho_two, hfix]
  obtain ⟨c, c1, c2, c3, c5, c4⟩ := quads_struct (d := { D with w := w0, gain := g }) (N := 2 * N)
    (es := ((List.range m).flatMap fun k => two (p k) (fix (z k))) ++
        s.toList.map fun _ => (⟨ps.1, ps.2, zs.1, zs.2⟩ : Quad))
    hD2 (by rw [List.length_append, hlen]; simp; omega)
    (by rw [List.length_append, hlen]; simp; omega)
    (by
      intro e he
      rcases List.mem_append.mp he with he | he
      · exact hgoodA e he
      · exact hgoodB e he) hg0
    (by simp only []; rw [hprod w0]; exact mul_ne_zero hK.ne' hV)
  refine ⟨c, c1, ?_, c3, c5, ?_⟩
  · rw [c2, List.length_append, hlen]; simp
  · intro w
    have := c4 w
    simp only [] at this
    rw [hprod w, hprod w0, mul_div_mul_left _ _ hK.ne'] at this
    exact this
where
  matched_of {x y : ℂ} (h : Match x y) (hx : x ≠ 0) (hy : y ≠ 0) : matchedPair (some x) (some y) := by
    show if x.im ≠ 0 then y = (starRingEnd ℂ) x else y.im = 0 ∧ y.re ≠ 0 ∧ x.re ≠ 0
    split_ifs with him
    · exact h.1 him
    · have h0 : x.im = 0 := by simpa using him
      have h1 := h.2 h0
      refine ⟨h1, ?_, ?_⟩
      · intro e; exact hy (Complex.ext e h1)
      · intro e; exact hx (Complex.ext e h0)

/-- **The response of a band design.** -/
theorem band_chain {N m : Nat} {a : Layout} {P : Nat → ℂ} {Z : Nat → Pt} {s : Option (ℝ × Option ℝ)}
    (hold : Holds N a ((List.range m).map fun k => (some (P k), Z k))
      (s.map fun q => (some (q.1 : ℂ), q.2.map Complex.ofReal)))
    (hpos : 0 < m + s.toList.length) (hN : 2 * m + s.toList.length ≤ N)
    (hP : ∀ k < m, (P k).re < 0 ∧ (P k).im ≠ 0) (hZ : ∀ k < m, ∀ c, Z k = some c → c.re ≤ 0)
    {b : ℝ} (hs : ∀ q, s = some q → q.1 < 0 ∧ (∀ c, q.2 = some c → c ≤ 0))
    {n d : ℂ → ℂ} {T : Pt → Except Fault (ℂ × ℂ)} (hT : RootMap b n d T)
    {fix : ℂ × ℂ → ℂ × ℂ} (hfix : Keeps fix) {dbg : Bool}
    (hdbg : dbg = true → ∀ q, s = some q → q.1 ≠ -b ∧ q.2 ≠ some (-b))
    (hnd : ∀ w : ℝ, d (Complex.exp (w * Complex.I)) = 0 → n (Complex.exp (w * Complex.I)) ≠ 0) :
    ∃ D, bandPairs dbg T fix a (Layout.new (2 * N)) = .ok D ∧
      ∀ w0 g : ℝ, 0 ≤ g → V n d m P Z s (Complex.exp (w0 * Complex.I)) ≠ 0 →
        ∃ c, makeCascade (2 * N) { D with w := w0, gain := g } = .ok c ∧
          c.num = 2 * m + s.toList.length ∧ (∀ f ∈ active c, f.stability = true) ∧
          ∀ w : ℝ, ChainGainAt (active c) w (g * (V n d m P Z s (Complex.exp (w * Complex.I)) /
            V n d m P Z s (Complex.exp (w0 * Complex.I)))) := by
  obtain ⟨D, h1, _, _, _, _, -, -, h2⟩ := band_struct hold hpos hN hP hZ hs hT hfix hdbg hnd
  refine ⟨D, h1, fun w0 g hg hV => ?_⟩
  obtain ⟨c, c1, c2, c3, -, c4⟩ := h2 w0 g hg hV
  exact ⟨c, c1, c2, c3, c4⟩

theorem matched_ne {x y : ℂ} (h : matchedPair (some x) (some y)) : x * y ≠ 0 := by
  change (if x.im ≠ 0 then y = starRingEnd ℂ x else y.im = 0 ∧ y.re ≠ 0 ∧ x.re ≠ 0) at h
  by_cases hx : x.im ≠ 0
  · rw [if_pos hx] at h
    have : x ≠ 0 := by intro h0; rw [h0] at hx; simp at hx
    rw [h]
    exact mul_ne_zero this (by simpa using this)
  · rw [if_neg hx] at h
    refine mul_ne_zero ?_ ?_
    · intro h0; rw [h0] at h; exact h.2.2 rfl
    · intro h0; rw [h0] at h; exact h.2.1 rfl

/-- A single real pole or zero at `-b` has 0 as one of its images; the debug build rejects it. -/
theorem band_single_fails {N m : Nat} {a : Layout} {P : Nat → ℂ} {Z : Nat → Pt} {q : ℝ × Option ℝ}
    (hold : Holds N a ((List.range m).map fun k => (some (P k), Z k))
      (some (some (q.1 : ℂ), q.2.map Complex.ofReal)))
    (hN : 2 * m + 1 ≤ N)
    (hP : ∀ k < m, (P k).re < 0) (hZ : ∀ k < m, ∀ c, Z k = some c → c.re ≤ 0)
    {b : ℝ} (hq : q.1 ≤ 0 ∧ (∀ c, q.2 = some c → c ≤ 0))
    {n d : ℂ → ℂ} {T : Pt → Except Fault (ℂ × ℂ)} (hT : RootMap b n d T)
    {fix : ℂ × ℂ → ℂ × ℂ} (hbad : q.1 = -b ∨ q.2 = some (-b)) :
    bandPairs true T fix a (Layout.new (2 * N)) = .error .assertion := by
  have himg : ∀ q : Pt, (∀ c, q = some c → c.re ≤ 0) → ∃ r, T q = .ok r := by
    intro q hq
    cases q with
    | none => obtain ⟨r, h1, -⟩ := hT.inf; exact ⟨r, h1⟩
    | some s => obtain ⟨r, h1, -⟩ := hT.fin s (hq s rfl); exact ⟨r, h1⟩
  have hpch : ∀ k, ∃ r, k < m → T (some (P k)) = .ok r := by
    intro k
    by_cases hk : k < m
    · obtain ⟨r, h1⟩ := himg (some (P k)) (by
        intro c hc; injection hc with hc; rw [← hc]; exact (hP k hk).le)
      exact ⟨r, fun _ => h1⟩
    · exact ⟨0, fun h => absurd h hk⟩
  have hzch : ∀ k, ∃ r, k < m → T (Z k) = .ok r := by
    intro k
    by_cases hk : k < m
    · obtain ⟨r, h1⟩ := himg _ (hZ k hk); exact ⟨r, fun _ => h1⟩
    · exact ⟨0, fun h => absurd h hk⟩
  choose p hp using hpch
  choose z hz using hzch
  have hzero : ∀ r, T (some ((-b : ℝ) : ℂ)) = .ok r → r.1 * r.2 = 0 := by
    intro r hr
    obtain ⟨r', h1, h2, -⟩ := hT.fin ((-b : ℝ) : ℂ) (by simpa using hT.bpos.le)
    rw [h1] at hr
    injection hr with hr
    subst hr
    have h0 := h2 0
    rw [hT.n0] at h0
    have hb : (b : ℂ) ≠ 0 := by exact_mod_cast hT.bpos.ne'
    push_cast at h0
    have : r'.1 * r'.2 * (2 * b) = 0 := by linear_combination h0
    rcases mul_eq_zero.mp this with h | h
    · exact h
    · exact absurd h (mul_ne_zero two_ne_zero hb)
  have hD0 : QHolds (2 * N) (Layout.new (2 * N)).reset [] :=
    ⟨rfl, holds_new _, _, rfl⟩
  obtain ⟨D1, l1, -⟩ := band_loop hold hD0 (T := T) (fix := fix) (p := p) (z := z)
    (fun k hk => ⟨hp k hk, hz k hk⟩) m le_rfl (by omega)
  have hpoles : a.poles = 2 * m + 1 := by simpa using hold.1
  obtain ⟨ps, t1⟩ := himg (some (q.1 : ℂ)) (by
    intro c hc; injection hc with hc; rw [← hc]; simpa using hq.1)
  obtain ⟨zs, t2⟩ := himg (q.2.map Complex.ofReal) (by
    intro c hc
    cases hx : q.2 with
    | none => rw [hx] at hc; simp at hc
    | some y => rw [hx] at hc; simp at hc; rw [← hc]; simpa using hq.2 y hx)
  unfold bandPairs
  rw [show a.poles / 2 = m by omega]
  simp only [l1, bind, Except.bind]
  rw [if_pos (by omega)]
  have hg := get_holds_single hold
  simp only [List.length_map, List.length_range] at hg
  rw [hg]
  simp only [mkSingle, t1, t2]
  unfold Layout.insertMatched Layout.insertPair
  rw [if_pos rfl, if_neg]
  rintro ⟨k1, k2⟩
  rcases hbad with h | h
  · rw [h] at t1
    exact matched_ne k1 (hzero _ t1)
  · rw [h] at t2
    exact matched_ne k2 (hzero _ t2)

end Edsp.BandL
