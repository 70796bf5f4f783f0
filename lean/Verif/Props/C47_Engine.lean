import Verif.Lemmas.Spectral
import Mathlib.Tactic.Linarith
import Mathlib.Tactic.NormNum

/-!
# C47: one engine, many transforms
-/

namespace Edsp.Spectral

open Complex Finset Edsp.Mem Edsp.Spec Edsp.Fourier

/-! ### The contracts in the form of the specification -/

theorem cis_pos (N j k : ℕ) : exp (2 * Real.pi * I * j * k / N) =
    (Real.cos (2 * Real.pi * k * j / N) : ℂ) + I * (Real.sin (2 * Real.pi * k * j / N) : ℂ) := by
  have : 2 * (Real.pi : ℂ) * I * j * k / N = ((2 * Real.pi * k * j / N : ℝ) : ℂ) * I := by
    push_cast; ring
  rw [this, Complex.exp_mul_I, ← Complex.ofReal_cos, ← Complex.ofReal_sin]
  ring

theorem forward_spec {x : List ℂ} {n : ℕ} (h : x.length = n) : forward n x = (List.range n).map (bin x) := by
  rw [forward_eq]
  refine List.map_congr_left fun k _ => ?_
  rw [bin_eq, h]

theorem backward_spec {x : List ℂ} {n : ℕ} (h : x.length = n) :
    backward n x = (List.range n).map (inverseSum x) := by
  unfold backward inverseSum
  refine List.map_congr_left fun j _ => ?_
  rw [h]
  refine sum_congr rfl fun k _ => ?_
  rw [cis_pos]

theorem r2c_spec {x : List ℝ} {n : ℕ} (h : x.length = n) :
    r2c n x = (List.range (n / 2 + 1)).map (bin (ofReals x)) := by
  rw [r2c_eq]
  refine List.map_congr_left fun k _ => ?_
  rw [bin_ofReals, h]

theorem dht_spec {x : List ℝ} {n : ℕ} (h : x.length = n) :
    dhtSum n x = (List.range n).map (hartleySum x) := by
  unfold dhtSum hartleySum
  refine List.map_congr_left fun k _ => ?_
  rw [h]
  refine sum_congr rfl fun j _ => ?_
  have e : 2 * Real.pi * j * k / n = 2 * Real.pi / n * j * k := by ring
  rw [e]

theorem redft10_spec {x : List ℝ} {n : ℕ} (h : x.length = n) :
    redft10 n x = (List.range n).map fun k => 2 * cosineSum x k := by
  unfold redft10 cosineSum
  refine List.map_congr_left fun k _ => ?_
  rw [h]
  congr 1
  refine sum_congr rfl fun j _ => ?_
  have e : Real.pi * (j + 1 / 2) * k / n = Real.pi / n * (j + 1 / 2) * k := by ring
  rw [e]

theorem redft01_spec {x : List ℝ} {n : ℕ} (h : x.length = n) :
    redft01 n x = (List.range n).map fun k => 2 * inverseCosineSum x k := by
  unfold redft01 inverseCosineSum
  refine List.map_congr_left fun k _ => ?_
  rw [h, mul_add]
  have e : ∀ j : ℕ, Real.pi * j * (k + 1 / 2) / n = Real.pi / n * j * (k + 1 / 2) := by intro j; ring
  simp only [e]
  ring

theorem re_mul_cis (z : ℂ) (t : ℝ) :
    (z * ((Real.cos t : ℂ) + I * (Real.sin t : ℂ))).re = z.re * Real.cos t - z.im * Real.sin t := by
  simp only [Complex.mul_re, Complex.add_re, Complex.add_im, Complex.mul_im, ofReal_re, ofReal_im, I_re, I_im]
  ring

theorem conj_re_mul_cis (z : ℂ) (t : ℝ) :
    ((starRingEnd ℂ) z * ((Real.cos t : ℂ) + I * (Real.sin t : ℂ))).re =
      z.re * Real.cos t + z.im * Real.sin t := by
  rw [re_mul_cis, Complex.conj_re, Complex.conj_im]
  ring

/-- The angle of the bin `n - k` is, up to whole turns, the negative of that of the bin `k`. -/
theorem reflect_angle {n k : ℕ} (h0 : 0 < n) (hk : k ≤ n) (j : ℕ) :
    Real.cos (2 * Real.pi * ((n - k : ℕ) : ℝ) * j / n) = Real.cos (2 * Real.pi * k * j / n) ∧
    Real.sin (2 * Real.pi * ((n - k : ℕ) : ℝ) * j / n) = -Real.sin (2 * Real.pi * k * j / n) := by
  have hn : (n : ℝ) ≠ 0 := Nat.cast_ne_zero.mpr (by omega)
  have e : 2 * Real.pi * ((n - k : ℕ) : ℝ) * j / n = j * (2 * Real.pi) - 2 * Real.pi * k * j / n := by
    rw [Nat.cast_sub hk]
    field_simp
  rw [e, Real.cos_nat_mul_two_pi_sub, Real.sin_nat_mul_two_pi_sub]
  exact ⟨rfl, rfl⟩

theorem c2r_spec {n : ℕ} (h0 : 0 < n) (x : List ℂ) :
    c2r n x = (List.range n).map (halfInverseSum n x) := by
  unfold c2r
  refine List.map_congr_left fun j _ => ?_
  simp only [cis_pos]
  have term : ∀ k, (hermitian n x k *
      ((Real.cos (2 * Real.pi * k * j / n) : ℂ) + I * (Real.sin (2 * Real.pi * k * j / n) : ℂ))).re =
      if k = 0 ∨ 2 * k = n then (x.getD k 0).re * Real.cos (2 * Real.pi * k * j / n)
      else if 2 * k < n then (x.getD k 0).re * Real.cos (2 * Real.pi * k * j / n) -
        (x.getD k 0).im * Real.sin (2 * Real.pi * k * j / n)
      else (x.getD (n - k) 0).re * Real.cos (2 * Real.pi * k * j / n) +
        (x.getD (n - k) 0).im * Real.sin (2 * Real.pi * k * j / n) := by
    intro k
    unfold hermitian
    split
    · rw [re_mul_cis, ofReal_re, ofReal_im]; ring
    · split
      · rw [re_mul_cis]
      · rw [conj_re_mul_cis]
  rw [Complex.re_sum]
  simp only [term]
  -- the bins 1 … below the middle, and their reflections
  have low : ∀ k ∈ Ico 1 ((n + 1) / 2),
      (if k = 0 ∨ 2 * k = n then (x.getD k 0).re * Real.cos (2 * Real.pi * k * j / n)
      else if 2 * k < n then (x.getD k 0).re * Real.cos (2 * Real.pi * k * j / n) -
        (x.getD k 0).im * Real.sin (2 * Real.pi * k * j / n)
      else (x.getD (n - k) 0).re * Real.cos (2 * Real.pi * k * j / n) +
        (x.getD (n - k) 0).im * Real.sin (2 * Real.pi * k * j / n)) =
      (x.getD k 0).re * Real.cos (2 * Real.pi * k * j / n) -
        (x.getD k 0).im * Real.sin (2 * Real.pi * k * j / n) := by
    intro k hk
    have hk := mem_Ico.mp hk
    rw [if_neg (by omega), if_pos (by omega)]
  have high : ∑ k ∈ Ico (n / 2 + 1) n,
      (if k = 0 ∨ 2 * k = n then (x.getD k 0).re * Real.cos (2 * Real.pi * k * j / n)
      else if 2 * k < n then (x.getD k 0).re * Real.cos (2 * Real.pi * k * j / n) -
        (x.getD k 0).im * Real.sin (2 * Real.pi * k * j / n)
      else (x.getD (n - k) 0).re * Real.cos (2 * Real.pi * k * j / n) +
        (x.getD (n - k) 0).im * Real.sin (2 * Real.pi * k * j / n)) =
      ∑ k ∈ Ico 1 ((n + 1) / 2), ((x.getD k 0).re * Real.cos (2 * Real.pi * k * j / n) -
        (x.getD k 0).im * Real.sin (2 * Real.pi * k * j / n)) := by
    refine sum_nbij' (fun k => n - k) (fun k => n - k) ?_ ?_ ?_ ?_ ?_
    · intro k hk; have hk := mem_Ico.mp hk; exact mem_Ico.mpr ⟨by omega, by omega⟩
    · intro k hk; have hk := mem_Ico.mp hk; exact mem_Ico.mpr ⟨by omega, by omega⟩
    · intro k hk; have hk := mem_Ico.mp hk; omega
    · intro k hk; have hk := mem_Ico.mp hk; omega
    · intro k hk
      have hk := mem_Ico.mp hk
      rw [if_neg (by omega), if_neg (by omega)]
      obtain ⟨hc, hs⟩ := reflect_angle h0 (by omega : k ≤ n) j
      rw [hc, hs]
      ring
  have split1 : ∀ f : ℕ → ℝ, ∑ k ∈ range n, f k =
      f 0 + (if n % 2 = 0 then f (n / 2) else 0) + ∑ k ∈ Ico 1 ((n + 1) / 2), f k +
        ∑ k ∈ Ico (n / 2 + 1) n, f k := by
    intro f
    rw [range_eq_Ico, ← sum_Ico_consecutive f (Nat.zero_le (n / 2 + 1)) (by omega : n / 2 + 1 ≤ n),
      sum_eq_sum_Ico_succ_bot (by omega : 0 < n / 2 + 1)]
    split
    · rename_i he
      have e1 : (n + 1) / 2 = n / 2 := by omega
      rw [e1, zero_add, sum_Ico_succ_top (by omega : 1 ≤ n / 2)]
      ring
    · rename_i he
      have e1 : (n + 1) / 2 = n / 2 + 1 := by omega
      rw [e1, zero_add]
      ring
  rw [split1, sum_congr rfl low, high]
  unfold halfInverseSum
  have z : (if 0 = 0 ∨ 2 * 0 = n then (x.getD 0 0).re * Real.cos (2 * Real.pi * (0 : ℕ) * j / n)
      else if 2 * 0 < n then (x.getD 0 0).re * Real.cos (2 * Real.pi * (0 : ℕ) * j / n) -
        (x.getD 0 0).im * Real.sin (2 * Real.pi * (0 : ℕ) * j / n)
      else (x.getD (n - 0) 0).re * Real.cos (2 * Real.pi * (0 : ℕ) * j / n) +
        (x.getD (n - 0) 0).im * Real.sin (2 * Real.pi * (0 : ℕ) * j / n)) = (x.getD 0 0).re := by
    simp
  rw [z]
  have mid : (if n % 2 = 0 then
      (if n / 2 = 0 ∨ 2 * (n / 2) = n then
        (x.getD (n / 2) 0).re * Real.cos (2 * Real.pi * ((n / 2 : ℕ) : ℝ) * j / n)
      else if 2 * (n / 2) < n then (x.getD (n / 2) 0).re * Real.cos (2 * Real.pi * ((n / 2 : ℕ) : ℝ) * j / n) -
        (x.getD (n / 2) 0).im * Real.sin (2 * Real.pi * ((n / 2 : ℕ) : ℝ) * j / n)
      else (x.getD (n - n / 2) 0).re * Real.cos (2 * Real.pi * ((n / 2 : ℕ) : ℝ) * j / n) +
        (x.getD (n - n / 2) 0).im * Real.sin (2 * Real.pi * ((n / 2 : ℕ) : ℝ) * j / n)) else 0) =
      if n % 2 = 0 then (-1) ^ j * (x.getD (n / 2) 0).re else 0 := by
    split
    · rename_i he
      rw [if_pos (Or.inr (by omega))]
      have hn : (n : ℝ) ≠ 0 := Nat.cast_ne_zero.mpr (by omega)
      have e : 2 * Real.pi * ((n / 2 : ℕ) : ℝ) * j / n = j * Real.pi := by
        have h2 : (n : ℝ) = 2 * ((n / 2 : ℕ) : ℝ) := by
          rw [show (2 : ℝ) = ((2 : ℕ) : ℝ) from rfl, ← Nat.cast_mul]
          congr 1
          omega
        have h3 : ((n / 2 : ℕ) : ℝ) ≠ 0 := Nat.cast_ne_zero.mpr (by omega)
        rw [h2]
        field_simp
      rw [e, Real.cos_nat_mul_pi]
      ring
    · rfl
  rw [mid]
  ring

/-! ### Requests to one engine -/

/-- A call of a transform of the engine: the source block and position, the destination block and position. -/
inductive Request where
  | cdft (s : List ℂ) (p : ℕ) (m : List ℂ) (d : ℕ)
  | cidft (s : List ℂ) (p : ℕ) (m : List ℂ) (d : ℕ)
  | dft (s : List ℝ) (p : ℕ) (m : List ℂ) (d : ℕ)
  | idft (s : List ℂ) (p : ℕ) (m : List ℝ) (d : ℕ)
  | dht (s : List ℝ) (p : ℕ) (m : List ℝ) (d : ℕ)
  | dct (s : List ℝ) (p : ℕ) (m : List ℝ) (d : ℕ)
  | idct (s : List ℝ) (p : ℕ) (m : List ℝ) (d : ℕ)

/-- The destination block after the call. -/
abbrev Result := List ℂ ⊕ List ℝ

/-- Making one call. -/
noncomputable def perform (e : Engine) : Request → Except Fault (Engine × Result)
  | .cdft s p m d => do let (e, r) ← e.cdft s p m d; return (e, .inl r)
  | .cidft s p m d => do let (e, r) ← e.cidft s p m d; return (e, .inl r)
  | .dft s p m d => do let (e, r) ← e.dft s p m d; return (e, .inl r)
  | .idft s p m d => do let (e, r) ← e.idft s p m d; return (e, .inr r)
  | .dht s p m d => do let (e, r) ← e.dht s p m d; return (e, .inr r)
  | .dct s p m d => do let (e, r) ← e.dct s p m d; return (e, .inr r)
  | .idct s p m d => do let (e, r) ← e.idct s p m d; return (e, .inr r)

/-- Making calls one after the other on the same engine. -/
noncomputable def performAll (e : Engine) : List Request → Except Fault (Engine × List Result)
  | [] => .ok (e, [])
  | r :: rs => do
    let (e, v) ← perform e r
    let (e, vs) ← performAll e rs
    return (e, v :: vs)

/-- Which transform is asked for. -/
def Request.kind : Request → Kind
  | .cdft .. => .forward
  | .cidft .. => .backward
  | .dft .. => .r2c
  | .idft .. => .c2r
  | .dht .. => .dht
  | .dct .. => .redft10
  | .idct .. => .redft01

/-- The blocks are long enough for transforms of size `n`. -/
def Request.fits (n : ℕ) : Request → Prop
  | .cdft s p m d => p + n ≤ s.length ∧ d + n ≤ m.length
  | .cidft s p m d => p + n ≤ s.length ∧ d + n ≤ m.length
  | .dft s p m d => p + n ≤ s.length ∧ d + (n / 2 + 1) ≤ m.length
  | .idft s p m d => p + (n / 2 + 1) ≤ s.length ∧ d + n ≤ m.length
  | .dht s p m d => p + n ≤ s.length ∧ d + n ≤ m.length
  | .dct s p m d => p + n ≤ s.length ∧ d + n ≤ m.length
  | .idct s p m d => p + n ≤ s.length ∧ d + n ≤ m.length

/-- The requested transform of size `n` was stored. -/
def Stored (n : ℕ) : Request → Result → Prop
  | .cdft s p m d, .inl r => Wrote m r d ((List.range n).map (bin (seg s p (p + n))))
  | .cidft s p m d, .inl r => Wrote m r d ((List.range n).map (inverseSum (seg s p (p + n))))
  | .dft s p m d, .inl r => Wrote m r d ((List.range (n / 2 + 1)).map (bin (ofReals (seg s p (p + n)))))
  | .idft s p m d, .inr r => Wrote m r d ((List.range n).map (halfInverseSum n (seg s p (p + (n / 2 + 1)))))
  | .dht s p m d, .inr r => Wrote m r d ((List.range n).map (hartleySum (seg s p (p + n))))
  | .dct s p m d, .inr r => Wrote m r d ((List.range n).map fun k => 2 * cosineSum (seg s p (p + n)) k)
  | .idct s p m d, .inr r => Wrote m r d ((List.range n).map fun k => 2 * inverseCosineSum (seg s p (p + n)) k)
  | _, _ => False

theorem seg_len {α : Type} {s : List α} {p n : ℕ} (h : p + n ≤ s.length) : (seg s p (p + n)).length = n := by
  rw [seg_length h]; omega

theorem perform_ok {n : ℕ} (h0 : 0 < n) (r : Request) {pl : Option Kind} (hp : pl = none ∨ pl = some r.kind)
    (hf : r.fits n) : ∃ v, perform ⟨n, pl⟩ r = .ok (⟨n, some r.kind⟩, v) ∧ Stored n r v := by
  cases r with
  | cdft s p m d =>
    obtain ⟨m', h1, w⟩ := cdft_exec h0 hp hf.1 hf.2
    refine ⟨.inl m', by simp only [perform, h1, bind, Except.bind]; rfl, ?_⟩
    rwa [forward_spec (seg_len hf.1)] at w
  | cidft s p m d =>
    obtain ⟨m', h1, w⟩ := cidft_exec h0 hp hf.1 hf.2
    refine ⟨.inl m', by simp only [perform, h1, bind, Except.bind]; rfl, ?_⟩
    rwa [backward_spec (seg_len hf.1)] at w
  | dft s p m d =>
    obtain ⟨m', h1, w⟩ := dft_exec h0 hp hf.1 hf.2
    refine ⟨.inl m', by simp only [perform, h1, bind, Except.bind]; rfl, ?_⟩
    rwa [r2c_spec (seg_len hf.1)] at w
  | idft s p m d =>
    obtain ⟨m', h1, w⟩ := idft_exec h0 hp hf.1 hf.2
    refine ⟨.inr m', by simp only [perform, h1, bind, Except.bind]; rfl, ?_⟩
    rwa [c2r_spec h0] at w
  | dht s p m d =>
    obtain ⟨m', h1, w⟩ := dht_exec h0 hp hf.1 hf.2
    refine ⟨.inr m', by simp only [perform, h1, bind, Except.bind]; rfl, ?_⟩
    rwa [dht_spec (seg_len hf.1)] at w
  | dct s p m d =>
    obtain ⟨m', h1, w⟩ := dct_exec h0 hp hf.1 hf.2
    refine ⟨.inr m', by simp only [perform, h1, bind, Except.bind]; rfl, ?_⟩
    rwa [redft10_spec (seg_len hf.1)] at w
  | idct s p m d =>
    obtain ⟨m', h1, w⟩ := idct_exec h0 hp hf.1 hf.2
    refine ⟨.inr m', by simp only [perform, h1, bind, Except.bind]; rfl, ?_⟩
    rwa [redft01_spec (seg_len hf.1)] at w

theorem performAll_ok {n : ℕ} (h0 : 0 < n) (k : Kind) : ∀ (rs : List Request) {pl : Option Kind},
    (pl = none ∨ pl = some k) → (∀ r ∈ rs, r.kind = k ∧ r.fits n) →
    ∃ e vs, performAll ⟨n, pl⟩ rs = .ok (e, vs) ∧ List.Forall₂ (Stored n) rs vs
  | [], _, _, _ => ⟨_, [], rfl, .nil⟩
  | r :: rs, pl, hp, hr => by
    obtain ⟨hk, hf⟩ := hr r (List.mem_cons_self ..)
    obtain ⟨v, h1, w⟩ := perform_ok h0 r (pl := pl) (by rw [hk]; exact hp) hf
    obtain ⟨e, vs, h2, w2⟩ := performAll_ok h0 k rs (pl := some r.kind) (Or.inr (by rw [hk]))
      (fun r' h' => hr r' (List.mem_cons_of_mem _ h'))
    refine ⟨e, v :: vs, ?_, .cons w w2⟩
    simp only [performAll, h1, h2, bind, Except.bind]
    rfl

/-- C47, engines used for one kind of transform: every call of any sequence stores the requested transform.  The
full claim has no restriction on the kinds; it is violated (`C47_inverse_violates`, `C47_idct_violates`,
`C47_mixed_violates`). -/
theorem C47_one_kind_partial {n : ℕ} (h0 : 0 < n) (h31 : n < 2147483648) (k : Kind) (rs : List Request)
    (hr : ∀ r ∈ rs, r.kind = k ∧ r.fits n) :
    ∃ e0 e vs, Engine.make n = .ok e0 ∧ performAll e0 rs = .ok (e, vs) ∧ List.Forall₂ (Stored n) rs vs := by
  obtain ⟨e, vs, h1, h2⟩ := performAll_ok h0 k rs (pl := none) (Or.inl rfl) hr
  exact ⟨_, e, vs, make_ok h31, h1, h2⟩

/-- C47 is violated: an inverse complex transform on an engine that has made a forward one makes a forward one
again. -/
theorem C47_inverse_violates {n : ℕ} (h0 : 0 < n) {s m s' m' : List ℂ} {p d p' d' : ℕ}
    (h1 : p + n ≤ s.length) (h2 : d + n ≤ m.length) (h3 : p' + n ≤ s'.length) (h4 : d' + n ≤ m'.length) :
    ∃ e r r', performAll ⟨n, none⟩ [.cdft s p m d, .cidft s' p' m' d'] = .ok (e, [.inl r, .inl r']) ∧
      Wrote m' r' d' ((List.range n).map (bin (seg s' p' (p' + n)))) := by
  obtain ⟨r, e1, _⟩ := cdft_exec (pl := none) h0 (Or.inl rfl) h1 h2
  obtain ⟨r', e2, w⟩ := cdft_exec (pl := some .forward) h0 (Or.inr rfl) h3 h4
  have e3 : Engine.cidft ⟨n, some .forward⟩ s' p' m' d' = Engine.cdft ⟨n, some .forward⟩ s' p' m' d' := rfl
  rw [forward_spec (seg_len h3)] at w
  refine ⟨⟨n, some .forward⟩, r, r', ?_, w⟩
  simp only [performAll, perform, e1, e3, e2, bind, Except.bind, pure, Except.pure]

/-- Concretely: with 4 points, the inverse transform of the unit impulse at bin 1 has the sample `i` at time 1;
the engine stores `-i`. -/
example : ∃ e r r', performAll ⟨4, none⟩
      [.cdft [1, 1, 1, 1] 0 [0, 0, 0, 0] 0, .cidft [0, 1, 0, 0] 0 [0, 0, 0, 0] 0] = .ok (e, [.inl r, .inl r']) ∧
    r'[1]? = some (-I) ∧ inverseSum [0, 1, 0, 0] 1 = I := by
  obtain ⟨e, r, r', h, w⟩ := C47_inverse_violates (n := 4) (s := [1, 1, 1, 1]) (m := [0, 0, 0, 0])
    (s' := [0, 1, 0, 0]) (m' := [0, 0, 0, 0]) (p := 0) (d := 0) (p' := 0) (d' := 0) (by omega) (by simp)
    (by simp) (by simp) (by simp)
  have e1 : 2 * Real.pi / 4 = Real.pi / 2 := by ring
  refine ⟨e, r, r', h, ?_, ?_⟩
  · rw [wrote_full w (by simp)]
    have hr : List.range 4 = [0, 1, 2, 3] := rfl
    have hs : seg [(0 : ℂ), 1, 0, 0] 0 (0 + 4) = [0, 1, 0, 0] := rfl
    rw [hs]
    simp [hr, bin, sum_range_succ, List.getD]
    simp [← Complex.ofReal_ofNat, ← Complex.ofReal_mul, ← Complex.ofReal_div, ← Complex.ofReal_cos,
      ← Complex.ofReal_sin, e1]
  · simp [inverseSum, sum_range_succ, List.getD]
    simp [← Complex.ofReal_ofNat, ← Complex.ofReal_mul, ← Complex.ofReal_div, ← Complex.ofReal_cos,
      ← Complex.ofReal_sin, e1]

/-- C47 is violated: an inverse cosine transform on an engine that has made a cosine transform makes a cosine
transform again. -/
theorem C47_idct_violates {n : ℕ} (h0 : 0 < n) {s m s' m' : List ℝ} {p d p' d' : ℕ}
    (h1 : p + n ≤ s.length) (h2 : d + n ≤ m.length) (h3 : p' + n ≤ s'.length) (h4 : d' + n ≤ m'.length) :
    ∃ e r r', performAll ⟨n, none⟩ [.dct s p m d, .idct s' p' m' d'] = .ok (e, [.inr r, .inr r']) ∧
      Wrote m' r' d' ((List.range n).map fun k => 2 * cosineSum (seg s' p' (p' + n)) k) := by
  obtain ⟨r, e1, _⟩ := dct_exec (pl := none) h0 (Or.inl rfl) h1 h2
  obtain ⟨r', e2, w⟩ := dct_exec (pl := some .redft10) h0 (Or.inr rfl) h3 h4
  have e3 : Engine.idct ⟨n, some .redft10⟩ s' p' m' d' = Engine.dct ⟨n, some .redft10⟩ s' p' m' d' := rfl
  rw [redft10_spec (seg_len h3)] at w
  refine ⟨⟨n, some .redft10⟩, r, r', ?_, w⟩
  simp only [performAll, perform, e1, e3, e2, bind, Except.bind, pure, Except.pure]

/-- C47 is violated: an inverse real transform on an engine that has made a real transform executes the wrong
sort of plan, whatever the data. -/
theorem C47_mixed_violates {n : ℕ} (h0 : 0 < n) {s : List ℝ} {m s' : List ℂ} {m' : List ℝ} {p d p' d' : ℕ}
    (h1 : p + n ≤ s.length) (h2 : d + (n / 2 + 1) ≤ m.length) (h3 : p' + (n / 2 + 1) ≤ s'.length) :
    performAll ⟨n, none⟩ [.dft s p m d, .idft s' p' m' d'] = .error .badHandle := by
  obtain ⟨r, e1, _⟩ := dft_exec (pl := none) h0 (Or.inl rfl) h1 h2
  simp only [performAll, perform, e1, bind, Except.bind, Engine.idft, Engine.prepare, Engine.executeC2r,
    Int.toNat_natCast, readRange_ok (Nat.le_add_right p' _) h3, pure, Except.pure]
  rfl

/-- Three cosine transforms on one engine of size 2. -/
example : ∀ r ∈ [Request.dct [1, 2] 0 [0, 0] 0, .dct [3, 4, 5] 1 [0, 0] 0, .dct [1, 2] 0 [0, 0, 0] 1],
    r.kind = .redft10 ∧ r.fits 2 := by
  intro r hr
  simp only [List.mem_cons, List.not_mem_nil, or_false] at hr
  rcases hr with rfl | rfl | rfl <;> exact ⟨rfl, by simp [Request.fits]⟩

end Edsp.Spectral
