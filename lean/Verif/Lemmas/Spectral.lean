import Verif.Model.Spectral
import Verif.Spec.Spectral
import Verif.Lemmas.Memory
import Verif.Lemmas.Fourier

/-!
# Running the Fourier engine
-/

namespace Edsp.Spectral

open Complex Finset Edsp.Mem Edsp.Spec Edsp.Fourier

theorem store_ok {α : Type} : ∀ (vs m : List α) (d : Nat), d + vs.length ≤ m.length →
    ∃ m', store vs m d = .ok m' ∧ Wrote m m' d vs
  | [], m, d, h => ⟨m, rfl, wrote_nil m (by simpa using h)⟩
  | v :: vs, m, d, h => by
    rw [List.length_cons] at h
    obtain ⟨m', h1, h2⟩ := store_ok vs (m.set d v) (d + 1) (by rw [List.length_set]; omega)
    refine ⟨m', ?_, wrote_cons (by omega) h2⟩
    simp only [store, write_ok (by omega : d < m.length), bind, Except.bind]
    exact h1

theorem wrote_full {α : Type} {m m' vs : List α} (h : Wrote m m' 0 vs) (hl : vs.length = m.length) :
    m' = vs := by
  rw [h.2, hl]
  simp

theorem wrote_trans {α : Type} {m m1 m2 xs ys : List α} {d : Nat} (h1 : Wrote m m1 d xs)
    (h2 : Wrote m1 m2 d ys) (hl : ys.length = xs.length) : Wrote m m2 d ys := by
  have l1 := wrote_length h1
  have hw1 := h1.1
  have hw2 := h2.1
  rw [wrote_iff] at *
  obtain ⟨a1, a2, a3, a4⟩ := h1
  obtain ⟨b1, b2, b3, b4⟩ := h2
  refine ⟨by omega, by omega, b3, fun j hj => ?_⟩
  rw [b4 j hj, a4 j (by omega)]

theorem make_ok {n : ℕ} (h : n < 2147483648) : Engine.make (n : ℤ) = .ok ⟨n, none⟩ := by
  unfold Engine.make
  rw [if_pos ⟨by omega, by omega⟩]

theorem prepare_none {n : ℕ} (h : 0 < n) (k : Kind) :
    Engine.prepare ⟨n, none⟩ k = .ok ⟨n, some k⟩ := by
  simp only [Engine.prepare]
  rw [if_pos (by omega)]

theorem prepare_some (n : ℤ) (k k' : Kind) : Engine.prepare ⟨n, some k'⟩ k = .ok ⟨n, some k'⟩ := rfl

theorem prepare_ok {n : ℕ} (h : 0 < n) {pl : Option Kind} {k : Kind} (hp : pl = none ∨ pl = some k) :
    Engine.prepare ⟨n, pl⟩ k = .ok ⟨n, some k⟩ := by
  rcases hp with rfl | rfl
  · exact prepare_none h k
  · rfl

theorem cdft_exec {n : ℕ} (h : 0 < n) {pl : Option Kind} (hp : pl = none ∨ pl = some .forward)
    {s m : List ℂ} {p d : ℕ} (hs : p + n ≤ s.length) (hd : d + n ≤ m.length) :
    ∃ m', Engine.cdft ⟨n, pl⟩ s p m d = .ok (⟨n, some .forward⟩, m') ∧
      Wrote m m' d (forward n (seg s p (p + n))) := by
  obtain ⟨m', h1, h2⟩ := store_ok (forward n (seg s p (p + n))) m d (by simpa [forward] using hd)
  refine ⟨m', ?_, h2⟩
  simp only [Engine.cdft, prepare_ok h hp, bind, Except.bind, Engine.executeDft, Int.toNat_natCast,
    readRange_ok (Nat.le_add_right p n) hs, h1, pure, Except.pure]

theorem cidft_exec {n : ℕ} (h : 0 < n) {pl : Option Kind} (hp : pl = none ∨ pl = some .backward)
    {s m : List ℂ} {p d : ℕ} (hs : p + n ≤ s.length) (hd : d + n ≤ m.length) :
    ∃ m', Engine.cidft ⟨n, pl⟩ s p m d = .ok (⟨n, some .backward⟩, m') ∧
      Wrote m m' d (backward n (seg s p (p + n))) := by
  obtain ⟨m', h1, h2⟩ := store_ok (backward n (seg s p (p + n))) m d (by simpa [backward] using hd)
  refine ⟨m', ?_, h2⟩
  simp only [Engine.cidft, prepare_ok h hp, bind, Except.bind, Engine.executeDft, Int.toNat_natCast,
    readRange_ok (Nat.le_add_right p n) hs, h1, pure, Except.pure]

theorem dft_exec {n : ℕ} (h : 0 < n) {pl : Option Kind} (hp : pl = none ∨ pl = some .r2c)
    {s : List ℝ} {m : List ℂ} {p d : ℕ} (hs : p + n ≤ s.length) (hd : d + (n / 2 + 1) ≤ m.length) :
    ∃ m', Engine.dft ⟨n, pl⟩ s p m d = .ok (⟨n, some .r2c⟩, m') ∧
      Wrote m m' d (r2c n (seg s p (p + n))) := by
  obtain ⟨m', h1, h2⟩ := store_ok (r2c n (seg s p (p + n))) m d (by simpa [r2c] using hd)
  refine ⟨m', ?_, h2⟩
  simp only [Engine.dft, prepare_ok h hp, bind, Except.bind, Engine.executeR2c, Int.toNat_natCast,
    readRange_ok (Nat.le_add_right p n) hs, h1, pure, Except.pure]

theorem idft_exec {n : ℕ} (h : 0 < n) {pl : Option Kind} (hp : pl = none ∨ pl = some .c2r)
    {s : List ℂ} {m : List ℝ} {p d : ℕ} (hs : p + (n / 2 + 1) ≤ s.length) (hd : d + n ≤ m.length) :
    ∃ m', Engine.idft ⟨n, pl⟩ s p m d = .ok (⟨n, some .c2r⟩, m') ∧
      Wrote m m' d (c2r n (seg s p (p + (n / 2 + 1)))) := by
  obtain ⟨m', h1, h2⟩ := store_ok (c2r n (seg s p (p + (n / 2 + 1)))) m d (by simpa [c2r] using hd)
  refine ⟨m', ?_, h2⟩
  simp only [Engine.idft, prepare_ok h hp, bind, Except.bind, Engine.executeC2r, Int.toNat_natCast,
    readRange_ok (Nat.le_add_right p (n / 2 + 1)) hs, h1, pure, Except.pure]

theorem dht_exec {n : ℕ} (h : 0 < n) {pl : Option Kind} (hp : pl = none ∨ pl = some .dht)
    {s m : List ℝ} {p d : ℕ} (hs : p + n ≤ s.length) (hd : d + n ≤ m.length) :
    ∃ m', Engine.dht ⟨n, pl⟩ s p m d = .ok (⟨n, some .dht⟩, m') ∧
      Wrote m m' d (dhtSum n (seg s p (p + n))) := by
  obtain ⟨m', h1, h2⟩ := store_ok (dhtSum n (seg s p (p + n))) m d (by simpa [dhtSum] using hd)
  refine ⟨m', ?_, h2⟩
  simp only [Engine.dht, prepare_ok h hp, bind, Except.bind, Engine.executeR2r, Int.toNat_natCast,
    readRange_ok (Nat.le_add_right p n) hs, h1, pure, Except.pure]

theorem dct_exec {n : ℕ} (h : 0 < n) {pl : Option Kind} (hp : pl = none ∨ pl = some .redft10)
    {s m : List ℝ} {p d : ℕ} (hs : p + n ≤ s.length) (hd : d + n ≤ m.length) :
    ∃ m', Engine.dct ⟨n, pl⟩ s p m d = .ok (⟨n, some .redft10⟩, m') ∧
      Wrote m m' d (redft10 n (seg s p (p + n))) := by
  obtain ⟨m', h1, h2⟩ := store_ok (redft10 n (seg s p (p + n))) m d (by simpa [redft10] using hd)
  refine ⟨m', ?_, h2⟩
  simp only [Engine.dct, prepare_ok h hp, bind, Except.bind, Engine.executeR2r, Int.toNat_natCast,
    readRange_ok (Nat.le_add_right p n) hs, h1, pure, Except.pure]

theorem idct_exec {n : ℕ} (h : 0 < n) {pl : Option Kind} (hp : pl = none ∨ pl = some .redft01)
    {s m : List ℝ} {p d : ℕ} (hs : p + n ≤ s.length) (hd : d + n ≤ m.length) :
    ∃ m', Engine.idct ⟨n, pl⟩ s p m d = .ok (⟨n, some .redft01⟩, m') ∧
      Wrote m m' d (redft01 n (seg s p (p + n))) := by
  obtain ⟨m', h1, h2⟩ := store_ok (redft01 n (seg s p (p + n))) m d (by simpa [redft01] using hd)
  refine ⟨m', ?_, h2⟩
  simp only [Engine.idct, prepare_ok h hp, bind, Except.bind, Engine.executeR2r, Int.toNat_natCast,
    readRange_ok (Nat.le_add_right p n) hs, h1, pure, Except.pure]

theorem scaleK {K : Type} (f : K → K) {n d : ℕ} {m m1 vs : List K} (hw : Wrote m m1 d vs)
    (hl : vs.length = n) : ∃ m', Mem.transform f m1 d (d + n) d = .ok m' ∧ Wrote m m' d (vs.map f) := by
  have hlen := wrote_length hw
  have hb := hw.1
  obtain ⟨m', h1, h2⟩ := transform_ok f (m := m1) (a := d) (b := d + n) (d := d) (by omega) (by omega)
    (by omega) (Or.inl (Nat.le_refl _))
  refine ⟨m', h1, ?_⟩
  have : seg m1 d (d + n) = vs := by rw [← hl]; exact wrote_seg hw
  rw [this] at h2
  exact wrote_trans hw h2 (by simp)

theorem idftScale_exec {K : Type} [Field K] {n d : ℕ} {pl : Option Kind} {m m1 vs : List K}
    (hw : Wrote m m1 d vs) (hl : vs.length = n) :
    ∃ m', Engine.idftScale ⟨n, pl⟩ m1 d = .ok m' ∧ Wrote m m' d (vs.map fun v => v / (n : K)) := by
  obtain ⟨m', h1, h2⟩ := scaleK (fun v => v / (n : K)) hw hl
  refine ⟨m', ?_, h2⟩
  simpa only [Engine.idftScale, Int.toNat_natCast, Int.cast_natCast] using h1

theorem idctScale_exec {n d : ℕ} {pl : Option Kind} {m m1 vs : List ℝ}
    (hw : Wrote m m1 d vs) (hl : vs.length = n) :
    ∃ m', Engine.idctScale ⟨n, pl⟩ m1 d = .ok m' ∧ Wrote m m' d (vs.map fun v => v / (2 * n : ℝ)) := by
  obtain ⟨m', h1, h2⟩ := scaleK (fun v : ℝ => v / (2 * n : ℝ)) hw hl
  refine ⟨m', ?_, h2⟩
  simpa only [Engine.idctScale, Int.toNat_natCast, Int.cast_mul, Int.cast_ofNat, Int.cast_natCast] using h1

/-! ### The contracts as Fourier sums -/

theorem getD_map_range {α : Type} (f : ℕ → α) (z : α) {n k : ℕ} (h : k < n) :
    ((List.range n).map f).getD k z = f k := by
  simp [List.getD, List.getElem?_map, List.getElem?_range h]

theorem map_range_getD {α : Type} (z : α) (x : List α) :
    (List.range x.length).map (fun j => x.getD j z) = x := by
  apply List.ext_getElem
  · simp
  · intro i h1 h2
    simp [List.getD, List.getElem?_eq_getElem h2]

theorem seg_all {α : Type} (x : List α) : seg x 0 (0 + x.length) = x := by
  unfold seg; simp

theorem forward_eq (n : ℕ) (x : List ℂ) :
    forward n x = (List.range n).map (F n fun j => x.getD j 0) := rfl

theorem backward_eq (n : ℕ) (x : List ℂ) :
    backward n x = (List.range n).map (B n fun j => x.getD j 0) := rfl

theorem r2c_eq (n : ℕ) (x : List ℝ) :
    r2c n x = (List.range (n / 2 + 1)).map (F n fun j => ((x.getD j 0 : ℝ) : ℂ)) := rfl

theorem hermitian_eq {N : ℕ} {g : ℕ → ℂ} (h0 : (starRingEnd ℂ) (g 0) = g 0)
    (hg : ∀ k, 0 < k → k < N → (starRingEnd ℂ) (g k) = g (N - k)) {k : ℕ} (hk : k < N) :
    hermitian N ((List.range (N / 2 + 1)).map g) k = g k := by
  unfold hermitian
  split
  · rename_i h
    rw [getD_map_range _ _ (by omega)]
    apply Complex.conj_eq_iff_re.mp
    rcases h with rfl | h
    · exact h0
    · rcases Nat.eq_zero_or_pos k with rfl | hp
      · exact h0
      rw [hg k hp hk]
      congr 1
      omega
  · split
    · rw [getD_map_range _ _ (by omega)]
    · rw [getD_map_range _ _ (by omega), hg _ (by omega) (by omega)]
      congr 1
      omega

theorem c2r_eq {N : ℕ} {g : ℕ → ℂ} (h0 : (starRingEnd ℂ) (g 0) = g 0)
    (hg : ∀ k, 0 < k → k < N → (starRingEnd ℂ) (g k) = g (N - k)) :
    c2r N ((List.range (N / 2 + 1)).map g) = (List.range N).map fun j => (B N g j).re := by
  unfold c2r B
  refine List.map_congr_left fun j _ => ?_
  congr 1
  refine sum_congr rfl fun k hk => ?_
  rw [hermitian_eq h0 hg (mem_range.mp hk)]

theorem conj_getD (x : List ℝ) (j : ℕ) :
    (starRingEnd ℂ) (((x.getD j 0 : ℝ) : ℂ)) = ((x.getD j 0 : ℝ) : ℂ) := conj_ofReal _

theorem F_herm {N : ℕ} (h : N ≠ 0) (x : List ℝ) {k : ℕ} (hk : k ≤ N) :
    (starRingEnd ℂ) (F N (fun j => ((x.getD j 0 : ℝ) : ℂ)) k) =
      F N (fun j => ((x.getD j 0 : ℝ) : ℂ)) (N - k) := by
  apply F_conj h (conj_getD x)
  have : ((k : ℤ) + (N - k : ℕ)) = N := by omega
  rw [this]

theorem F_zero_herm {N : ℕ} (h : N ≠ 0) (x : List ℝ) :
    (starRingEnd ℂ) (F N (fun j => ((x.getD j 0 : ℝ) : ℂ)) 0) =
      F N (fun j => ((x.getD j 0 : ℝ) : ℂ)) 0 := by
  apply F_conj h (conj_getD x)
  simp

/-! ### The sums of the specification -/

theorem cis_eq (N j k : ℕ) : exp (-(2 * Real.pi * I * j * k / N)) =
    (Real.cos (2 * Real.pi * k * j / N) : ℂ) - I * (Real.sin (2 * Real.pi * k * j / N) : ℂ) := by
  have : -(2 * (Real.pi : ℂ) * I * j * k / N) = ((-(2 * Real.pi * k * j / N) : ℝ) : ℂ) * I := by
    push_cast; ring
  rw [this, Complex.exp_mul_I, ← Complex.ofReal_cos, ← Complex.ofReal_sin, Real.cos_neg, Real.sin_neg]
  push_cast
  ring

theorem bin_eq (x : List ℂ) (k : ℕ) : bin x k = F x.length (fun j => x.getD j 0) k := by
  unfold bin F
  refine sum_congr rfl fun j _ => ?_
  rw [cis_eq]

theorem ofReals_getD (x : List ℝ) (j : ℕ) : (ofReals x).getD j 0 = ((x.getD j 0 : ℝ) : ℂ) := by
  unfold ofReals
  simp only [List.getD, List.getElem?_map]
  cases x[j]? <;> simp

theorem bin_ofReals (x : List ℝ) (k : ℕ) :
    bin (ofReals x) k = F x.length (fun j => ((x.getD j 0 : ℝ) : ℂ)) k := by
  rw [bin_eq]
  unfold ofReals
  rw [List.length_map]
  exact F_congr (fun j _ => ofReals_getD x j) k

theorem re_F_div (N : ℕ) (z : ℂ) (r : ℝ) (h : z = N * (r : ℂ)) : z.re = N * r := by
  rw [h, ← ofReal_natCast, ← ofReal_mul, ofReal_re]

/-- The padded circular convolution is the plain convolution on the first half. -/
theorem circ_conv {n : ℕ} {x y : List ℝ} (hx : x.length = n) (hy : y.length = n) {m : ℕ} (hm : m < n) :
    ∑ a ∈ range (2 * n), ∑ b ∈ range (2 * n),
      (if ((2 * n : ℕ) : ℤ) ∣ (m : ℤ) - a - b then
        ((x.getD a 0 : ℝ) : ℂ) * ((y.getD b 0 : ℝ) : ℂ) else 0) = (convolution x y m : ℂ) := by
  have out : ∀ (z : List ℝ) (i : ℕ), z.length ≤ i → z.getD i 0 = 0 := by
    intro z i hi; simp [List.getD, List.getElem?_eq_none hi]
  have inner : ∀ a ∈ range (2 * n), ∑ b ∈ range (2 * n),
      (if ((2 * n : ℕ) : ℤ) ∣ (m : ℤ) - a - b then
        ((x.getD a 0 : ℝ) : ℂ) * ((y.getD b 0 : ℝ) : ℂ) else 0) =
      if a < m + 1 then ((x.getD a 0 * y.getD (m - a) 0 : ℝ) : ℂ) else 0 := by
    intro a _
    rcases Nat.lt_or_ge a n with ha | ha
    · have key : ∀ b ∈ range (2 * n), (if ((2 * n : ℕ) : ℤ) ∣ (m : ℤ) - a - b then
          ((x.getD a 0 : ℝ) : ℂ) * ((y.getD b 0 : ℝ) : ℂ) else 0) =
          if a ≤ m then (if m - a = b then ((x.getD a 0 * y.getD (m - a) 0 : ℝ) : ℂ) else 0) else 0 := by
        intro b _
        rcases Nat.lt_or_ge b n with hb | hb
        · have hd : (((2 * n : ℕ) : ℤ) ∣ (m : ℤ) - a - b) ↔ a ≤ m ∧ m - a = b := by
            constructor
            · intro h
              have h1 : |(m : ℤ) - a - b| < (2 * n : ℕ) := by rw [abs_lt]; push_cast; omega
              have := Int.eq_zero_of_abs_lt_dvd h h1
              omega
            · rintro ⟨h1, h2⟩
              have : (m : ℤ) - a - b = 0 := by omega
              rw [this]; exact dvd_zero _
          by_cases hc : a ≤ m ∧ m - a = b
          · rw [if_pos (hd.mpr hc), if_pos hc.1, if_pos hc.2, hc.2]; push_cast; rfl
          · rw [if_neg (fun h => hc (hd.mp h))]
            by_cases h1 : a ≤ m
            · rw [if_pos h1, if_neg (fun h => hc ⟨h1, h⟩)]
            · rw [if_neg h1]
        · rw [out y b (by omega)]
          have : ¬ (m - a = b) := by omega
          rw [if_neg this]
          simp
      rw [sum_congr rfl key]
      by_cases h1 : a ≤ m
      · simp only [if_pos h1]
        rw [sum_ite_eq, if_pos (mem_range.mpr (by omega)), if_pos (by omega)]
      · simp only [if_neg h1]
        rw [if_neg (by omega)]
        simp
    · rw [out x a (by omega), if_neg (by omega)]
      simp
  rw [sum_congr rfl inner, ← sum_filter]
  unfold convolution
  push_cast
  apply sum_congr
  · ext i; simp only [mem_filter, mem_range]; omega
  · intro i _; rfl

/-- The padded circular correlation is the plain correlation on the first half. -/
theorem circ_corr {n : ℕ} {x y : List ℝ} (hx : x.length = n) (hy : y.length = n) {m : ℕ} (hm : m < n) :
    ∑ a ∈ range (2 * n), ∑ b ∈ range (2 * n),
      (if ((2 * n : ℕ) : ℤ) ∣ (m : ℤ) - a + b then
        ((x.getD a 0 : ℝ) : ℂ) * (starRingEnd ℂ) ((y.getD b 0 : ℝ) : ℂ) else 0) =
      (correlation x y m : ℂ) := by
  have out : ∀ (z : List ℝ) (i : ℕ), z.length ≤ i → z.getD i 0 = 0 := by
    intro z i hi; simp [List.getD, List.getElem?_eq_none hi]
  rw [sum_comm]
  have inner : ∀ b ∈ range (2 * n), ∑ a ∈ range (2 * n),
      (if ((2 * n : ℕ) : ℤ) ∣ (m : ℤ) - a + b then
        ((x.getD a 0 : ℝ) : ℂ) * (starRingEnd ℂ) ((y.getD b 0 : ℝ) : ℂ) else 0) =
      if b < n - m then ((x.getD (b + m) 0 * y.getD b 0 : ℝ) : ℂ) else 0 := by
    intro b _
    rcases Nat.lt_or_ge b n with hb | hb
    · have key : ∀ a ∈ range (2 * n), (if ((2 * n : ℕ) : ℤ) ∣ (m : ℤ) - a + b then
          ((x.getD a 0 : ℝ) : ℂ) * (starRingEnd ℂ) ((y.getD b 0 : ℝ) : ℂ) else 0) =
          if b + m = a then ((x.getD (b + m) 0 * y.getD b 0 : ℝ) : ℂ) else 0 := by
        intro a _
        rcases Nat.lt_or_ge a n with ha | ha
        · have hd : (((2 * n : ℕ) : ℤ) ∣ (m : ℤ) - a + b) ↔ b + m = a := by
            constructor
            · intro h
              have h1 : |(m : ℤ) - a + b| < (2 * n : ℕ) := by rw [abs_lt]; push_cast; omega
              have := Int.eq_zero_of_abs_lt_dvd h h1
              omega
            · intro h
              have : (m : ℤ) - a + b = 0 := by omega
              rw [this]; exact dvd_zero _
          by_cases hc : b + m = a
          · rw [if_pos (hd.mpr hc), if_pos hc, hc, conj_ofReal]; push_cast; rfl
          · rw [if_neg (fun h => hc (hd.mp h)), if_neg hc]
        · rw [out x a (by omega)]
          by_cases hc : b + m = a
          · rw [if_pos hc, hc, out x a (by omega)]; simp
          · rw [if_neg hc]; simp
      rw [sum_congr rfl key, sum_ite_eq, if_pos (mem_range.mpr (by omega))]
      by_cases h1 : b < n - m
      · rw [if_pos h1]
      · rw [if_neg h1, out x (b + m) (by omega)]; simp
    · rw [out y b (by omega), if_neg (by omega)]
      simp
  rw [sum_congr rfl inner, ← sum_filter]
  unfold correlation
  rw [hx]
  push_cast
  apply sum_congr
  · ext i; simp only [mem_filter, mem_range]; omega
  · intro i _; rfl

end Edsp.Spectral
