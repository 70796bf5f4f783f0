import Verif.Lemmas.CArrays
import Verif.Props.C45_Transforms
import Verif.Props.C47_Engine
import Verif.Props.C67_Hilbert

/-!
# C147: the C functions exchange complex numbers as pairs of real cells
-/

namespace Edsp.C147

open Edsp.Spec Edsp.Mem Edsp.CArrays

theorem count_nat (n : ℕ) : count (n : ℤ) = .ok n := by
  unfold count
  rw [if_neg (by omega)]
  rfl

/-- C147: `ri2complex` stores the real and the imaginary parts in turn, and nothing else; the arrays do not overlap. -/
theorem C147_join {z : List ℂ} {m : List ℝ} {a b d : ℕ} (ha : HoldsReal m a (z.map Complex.re))
    (hb : HoldsReal m b (z.map Complex.im)) (hd : d + 2 * z.length ≤ m.length)
    (had : a + z.length ≤ d ∨ d + 2 * z.length ≤ a) (hbd : b + z.length ≤ d ∨ d + 2 * z.length ≤ b) :
    ∃ m', ri2complex m a b z.length d = .ok m' ∧ HoldsComplex m' d z ∧
      OnlyIn (fun j => d ≤ j ∧ j < d + 2 * z.length) m m' := by
  unfold ri2complex
  rw [count_nat]
  exact ri2complexN_ok z m a b d ha hb hd had hbd

/-- C147: `real2complex` stores every number and a zero. -/
theorem C147_real {x : List ℝ} {m : List ℝ} {a d : ℕ} (ha : HoldsReal m a x) (hd : d + 2 * x.length ≤ m.length)
    (had : a + x.length ≤ d ∨ d + 2 * x.length ≤ a) :
    ∃ m', real2complex m a x.length d = .ok m' ∧ HoldsComplex m' d (ofReals x) ∧
      OnlyIn (fun j => d ≤ j ∧ j < d + 2 * x.length) m m' := by
  unfold real2complex
  rw [count_nat]
  exact real2complexN_ok x m a d ha hd had

/-- C147: `complex2real` stores the real parts in one array and the imaginary parts in the other, and nothing else. One
of the two may be the beginning of the complex array itself (`d1 = a` or `d2 = a`). -/
theorem C147_split {z : List ℂ} {m : List ℝ} {a d1 d2 : ℕ} (ha : HoldsComplex m a z)
    (h1 : d1 + z.length ≤ m.length) (h2 : d2 + z.length ≤ m.length) (o1 : d1 ≤ a ∨ a + 2 * z.length ≤ d1)
    (o2 : d2 ≤ a + 1 ∨ a + 2 * z.length ≤ d2) (o3 : d1 + z.length ≤ d2 ∨ d2 + z.length ≤ d1) :
    ∃ m', complex2real m a z.length d1 d2 = .ok m' ∧ HoldsReal m' d1 (z.map Complex.re) ∧
      HoldsReal m' d2 (z.map Complex.im) ∧
      OnlyIn (fun j => d1 ≤ j ∧ j < d1 + z.length ∨ d2 ≤ j ∧ j < d2 + z.length) m m' := by
  unfold complex2real
  rw [count_nat]
  exact complex2realN_ok z m a d1 d2 ha h1 h2 o1 o2 o3

/-- C147: joining two arrays and splitting the result back into them changes no cell of theirs. -/
theorem C147_join_split {z : List ℂ} {m : List ℝ} {a b d : ℕ} (ha : HoldsReal m a (z.map Complex.re))
    (hb : HoldsReal m b (z.map Complex.im)) (h0 : 0 < z.length) (hd : d + 2 * z.length ≤ m.length)
    (had : a + z.length ≤ d ∨ d + 2 * z.length ≤ a) (hbd : b + z.length ≤ d ∨ d + 2 * z.length ≤ b)
    (hab : a + z.length ≤ b ∨ b + z.length ≤ a) :
    ∃ m1 m', ri2complex m a b z.length d = .ok m1 ∧ complex2real m1 d z.length a b = .ok m' ∧
      ∀ j, j < d ∨ d + 2 * z.length ≤ j → m'[j]? = m[j]? := by
  obtain ⟨m1, r1, hz, o⟩ := C147_join ha hb hd had hbd
  have ba := holds_bound ha (by simpa using h0)
  have bb := holds_bound hb (by simpa using h0)
  rw [List.length_map] at ba bb
  obtain ⟨m', r2, hre, him, o'⟩ := C147_split (d1 := a) (d2 := b) hz (by rw [o.1]; omega) (by rw [o.1]; omega)
    (by omega) (by omega) hab
  refine ⟨m1, m', r1, r2, fun j hj => ?_⟩
  by_cases ja : a ≤ j ∧ j < a + z.length
  · obtain ⟨k, rfl⟩ := Nat.exists_eq_add_of_le ja.1
    have hk : k < z.length := by omega
    have e : (z.map Complex.re)[k]? = some (z[k].re) := by simp [hk]
    rw [hre k _ e, ha k _ e]
  by_cases jb : b ≤ j ∧ j < b + z.length
  · obtain ⟨k, rfl⟩ := Nat.exists_eq_add_of_le jb.1
    have hk : k < z.length := by omega
    have e : (z.map Complex.im)[k]? = some (z[k].im) := by simp [hk]
    rw [him k _ e, hb k _ e]
  rw [o'.2 j (by tauto), o.2 j (by omega)]

/-- Splitting in place is allowed, joining in place is not: `real2complex` of an array onto itself keeps the first
number only, every other cell of the result is 0. -/
theorem C147_real_in_place {x : ℝ} {l m : List ℝ} (hm : HoldsReal m 0 (x :: l))
    (hl : 2 * (l.length + 1) ≤ m.length) :
    ∃ m', real2complex m 0 (l.length + 1 : ℕ) 0 = .ok m' ∧
      HoldsComplex m' 0 ((x : ℂ) :: List.replicate l.length 0) := by
  have key : ∀ (n : ℕ) (m : List ℝ) (s : ℕ), 1 ≤ s → m[s]? = some 0 → 2 * s + 2 * n ≤ m.length →
      (∀ j, s ≤ j → j < 2 * s → m[j]? = some 0) →
      ∃ m', real2complexN n m s (2 * s) = .ok m' ∧ HoldsComplex m' (2 * s) (List.replicate n 0) ∧
        OnlyIn (fun j => 2 * s ≤ j) m m' := by
    intro n
    induction n with
    | zero => intro m s _ _ _ _; exact ⟨m, rfl, fun i v hi => by simp at hi, rfl, fun _ _ => rfl⟩
    | succ n ih =>
      intro m s hs h0 hb hz
      obtain ⟨m1, w, wre, wim, wo⟩ := writeC_ok (m := m) (d := 2 * s) (by omega) 0 0
      have hz1 : ∀ j, s + 1 ≤ j → j < 2 * (s + 1) → m1[j]? = some 0 := by
        intro j h1 h2
        rcases Nat.lt_or_ge j (2 * s) with h | h
        · rw [wo.2 j (by omega)]
          exact hz j (by omega) h
        · rcases Nat.eq_or_lt_of_le h with h | h
          · rw [← h]; exact wre
          · have : j = 2 * s + 1 := by omega
            rw [this]; exact wim
      obtain ⟨m', r, hc, ho⟩ := ih m1 (s + 1) (by omega) (hz1 _ (by omega) (by omega)) (by rw [wo.1]; omega) hz1
      refine ⟨m', ?_, ?_, ho.1.trans wo.1, fun j hj => by rw [ho.2 j (by omega), wo.2 j (by omega)]⟩
      · simp only [real2complexN, read_ok h0, w, bind, Except.bind]
        exact r
      · rw [List.replicate_succ, holdsC_cons]
        refine ⟨⟨?_, ?_⟩, hc⟩
        · rw [ho.2 _ (by omega)]; exact wre
        · rw [ho.2 _ (by omega)]; exact wim
  obtain ⟨m1, w, wre, wim, wo⟩ := writeC_ok (m := m) (d := 0) (by omega) x 0
  have h0 : m[0]? = some x := (holds_cons.mp hm).1
  obtain ⟨m', r, hc, ho⟩ := key l.length m1 1 (by omega) wim (by rw [wo.1]; omega)
    (fun j h1 h2 => by have : j = 1 := by omega
                       rw [this]; exact wim)
  refine ⟨m', ?_, holdsC_cons.mpr ⟨⟨?_, ?_⟩, hc⟩⟩
  · unfold real2complex
    rw [count_nat]
    simp only [real2complexN, read_ok h0, w, bind, Except.bind]
    exact r
  · rw [ho.2 _ (by omega)]; exact wre
  · rw [ho.2 _ (by omega)]; exact wim

/-- C147: a negative size is not taken for an empty array. -/
theorem C147_negative (m : List ℝ) (a b d : ℕ) {size : ℤ} (h : size < 0) :
    real2complex m a size d = .error .outOfBounds ∧ ri2complex m a b size d = .error .outOfBounds ∧
      complex2real m a size b d = .error .outOfBounds := by
  have : count size = .error .outOfBounds := by unfold count; rw [if_pos h]
  unfold real2complex ri2complex complex2real
  rw [this]
  exact ⟨rfl, rfl, rfl⟩

theorem apart_ok {a k d l : ℕ} (h : a = d ∨ a + k ≤ d ∨ d + l ≤ a) : apart a k d l = .ok () := if_pos h

/-- C147: `fft` stores the first `n/2 + 1` bins as pairs, in an array of its own or over the samples. -/
theorem C147_fft {x m : List ℝ} {a d : ℕ} (ha : HoldsReal m a x) (h0 : 0 < x.length)
    (h31 : x.length < 2147483648) (hd : d + 2 * (x.length / 2 + 1) ≤ m.length)
    (had : a = d ∨ a + x.length ≤ d ∨ d + 2 * (x.length / 2 + 1) ≤ a) :
    ∃ m', fft m a x.length d = .ok m' ∧
      HoldsComplex m' d ((List.range (x.length / 2 + 1)).map (bin (ofReals x))) ∧
      OnlyIn (fun j => d ≤ j ∧ j < d + 2 * (x.length / 2 + 1)) m m' := by
  obtain ⟨X, r, w⟩ := Spectral.C45_dft (s := m) (m := view m d) (first := a) (d := 0) h0 h31 (holds_bound ha h0)
    (by rw [view_length]; omega)
  rw [holds_seg ha] at w
  have p := putBack_wrote w
  refine ⟨putBack m d X, ?_, p.1, ?_⟩
  · unfold fft
    rw [count_nat]
    simp only [bind, Except.bind, apart_ok had, r]
    rfl
  · simpa using p.2

/-- C147: `ifft` of `h + 1` bins stores `2h` samples: the inverse sums divided by `2h`. -/
theorem C147_ifft {z : List ℂ} {m : List ℝ} {a d h : ℕ} (ha : HoldsComplex m a z) (hz : z.length = h + 1)
    (h0 : 0 < h) (h31 : 2 * h < 2147483648) (hd : d + 2 * h ≤ m.length)
    (had : a = d ∨ a + 2 * (h + 1) ≤ d ∨ d + 2 * h ≤ a) :
    ∃ m', ifft m a (h + 1 : ℕ) d = .ok m' ∧
      HoldsReal m' d ((List.range (2 * h)).map fun j => halfInverseSum (2 * h) z j / (2 * h : ℕ)) ∧
      OnlyIn (fun j => d ≤ j ∧ j < d + 2 * h) m m' := by
  have hb := holdsC_bound ha (by omega)
  obtain ⟨m', r, w⟩ := Spectral.idft_ok (s := view m a) (m := m) (first := 0) (d := d) h0 h31
    (by rw [view_length]; omega) hd
  have hs := holdsC_seg ha
  rw [hz] at hs
  rw [Nat.zero_add] at r w
  rw [hs, Spectral.c2r_spec (by omega), List.map_map] at w
  have p := wrote_holds w
  refine ⟨m', ?_, p.1, ?_⟩
  · unfold ifft
    rw [count_nat]
    simp only [bind, Except.bind, Nat.add_sub_cancel, apart_ok had]
    exact r
  · simpa using p.2

/-- C147: the samples come back from `fft` and `ifft`, in the same array or elsewhere, for even sizes (`C45_odd_violates`
has the odd ones). -/
theorem C147_fft_ifft {x m : List ℝ} {a d e h : ℕ} (ha : HoldsReal m a x) (hx : x.length = 2 * h) (h0 : 0 < h)
    (h31 : 2 * h < 2147483648) (hd : d + 2 * (h + 1) ≤ m.length) (he : e + 2 * h ≤ m.length)
    (had : a = d ∨ a + 2 * h ≤ d ∨ d + 2 * (h + 1) ≤ a) (hde : d = e ∨ d + 2 * (h + 1) ≤ e ∨ e + 2 * h ≤ d) :
    ∃ m1 m', fft m a (2 * h : ℕ) d = .ok m1 ∧ ifft m1 d (h + 1 : ℕ) e = .ok m' ∧ HoldsReal m' e x := by
  have e2 : x.length / 2 + 1 = h + 1 := by omega
  obtain ⟨m1, r1, hz, o⟩ := C147_fft (d := d) ha (by omega) (by omega) (by rw [e2]; exact hd) (by rw [e2, hx]; exact had)
  rw [hx] at r1
  rw [e2] at hz
  obtain ⟨m', r2, hy, -⟩ := C147_ifft (d := e) hz (by simp) h0 h31 (by rw [o.1]; exact he) hde
  refine ⟨m1, m', r1, r2, ?_⟩
  obtain ⟨X, n', s1, s2, w⟩ := Spectral.C45_idft_dft_partial (s := x) (m := List.replicate (h + 1) 0)
    (m2 := List.replicate (2 * h) 0) (first := 0) (d := 0) (d2 := 0) h0 h31 (by omega) (by simp) (by simp)
  obtain ⟨X', s1', wX⟩ := Spectral.C45_dft (s := x) (m := List.replicate (h + 1) 0) (first := 0) (n := 2 * h) (d := 0)
    (by omega) h31 (by omega) (by simp)
  rw [s1] at s1'
  cases s1'
  have e3 : 2 * h / 2 + 1 = h + 1 := by omega
  have hX := Spectral.wrote_full wX (by simp)
  obtain ⟨n'', s2', w'⟩ := Spectral.idft_ok (s := X) (m := List.replicate (2 * h) 0) (first := 0) (d := 0) h0 h31
    (by rw [hX]; simp) (by simp)
  rw [s2] at s2'
  cases s2'
  have sx : seg x 0 (0 + 2 * h) = x := by simp [seg, ← hx]
  have sX : seg X 0 (0 + (h + 1)) = X := by
    have : X.length = h + 1 := by rw [hX]; simp
    simp [seg, ← this]
  rw [sX, Spectral.c2r_spec (by omega), List.map_map] at w'
  rw [sx] at w hX
  have q1 := Spectral.wrote_full w (by simp [hx])
  have q2 := Spectral.wrote_full w' (by simp)
  rw [q1, hX, e3] at q2
  rw [q2]
  exact hy

/-- C147: `complex_fft` and `complex_ifft` store the bins, and the inverse sums divided by their number, as pairs; in an
array of their own or in place. -/
theorem C147_complex {z : List ℂ} {m : List ℝ} {a d : ℕ} (ha : HoldsComplex m a z) (h0 : 0 < z.length)
    (h31 : z.length < 2147483648) (hd : d + 2 * z.length ≤ m.length)
    (had : a = d ∨ a + 2 * z.length ≤ d ∨ d + 2 * z.length ≤ a) :
    (∃ m', complexFft m a z.length d = .ok m' ∧ HoldsComplex m' d ((List.range z.length).map (bin z)) ∧
      OnlyIn (fun j => d ≤ j ∧ j < d + 2 * z.length) m m') ∧
    (∃ m', complexIfft m a z.length d = .ok m' ∧
      HoldsComplex m' d ((List.range z.length).map fun j => inverseSum z j / z.length) ∧
      OnlyIn (fun j => d ≤ j ∧ j < d + 2 * z.length) m m') := by
  have hb := holdsC_bound ha h0
  have hs := holdsC_seg ha
  constructor
  · obtain ⟨X, r, w⟩ := Spectral.C45_cdft (s := view m a) (m := view m d) (first := 0) (n := z.length) (d := 0) h0 h31
      (by rw [view_length]; omega) (by rw [view_length]; omega)
    rw [Nat.zero_add] at r w
    rw [hs] at w
    have p := putBack_wrote w
    refine ⟨putBack m d X, ?_, p.1, by simpa using p.2⟩
    unfold complexFft
    rw [count_nat]
    simp only [bind, Except.bind, apart_ok had, r]
    rfl
  · obtain ⟨X, r, w⟩ := Spectral.cidft_ok (s := view m a) (m := view m d) (first := 0) (n := z.length) (d := 0) h0 h31
      (by rw [view_length]; omega) (by rw [view_length]; omega)
    rw [Nat.zero_add] at r w
    rw [hs, Spectral.backward_spec rfl, List.map_map] at w
    have p := putBack_wrote w
    refine ⟨putBack m d X, ?_, p.1, by simpa using p.2⟩
    unfold complexIfft
    rw [count_nat]
    simp only [bind, Except.bind, apart_ok had, r]
    rfl

/-- C147: `complex_ifft` of `complex_fft` gives the numbers back, in place too. -/
theorem C147_complex_round_trip {z : List ℂ} {m : List ℝ} {a d e : ℕ} (ha : HoldsComplex m a z) (h0 : 0 < z.length)
    (h31 : z.length < 2147483648) (hd : d + 2 * z.length ≤ m.length) (he : e + 2 * z.length ≤ m.length)
    (had : a = d ∨ a + 2 * z.length ≤ d ∨ d + 2 * z.length ≤ a)
    (hde : d = e ∨ d + 2 * z.length ≤ e ∨ e + 2 * z.length ≤ d) :
    ∃ m1 m', complexFft m a z.length d = .ok m1 ∧ complexIfft m1 d z.length e = .ok m' ∧ HoldsComplex m' e z := by
  obtain ⟨m1, r1, hz, o⟩ := (C147_complex ha h0 h31 hd had).1
  obtain ⟨m', r2, hy, -⟩ := (C147_complex (d := e) hz (by simpa using h0) (by simpa using h31)
    (by rw [o.1]; simpa using he) (by simpa using hde)).2
  rw [List.length_map, List.length_range] at r2 hy
  refine ⟨m1, m', r1, r2, ?_⟩
  obtain ⟨X, n', s1, s2, w⟩ := Spectral.C45_cidft_cdft (s := z) (m := List.replicate z.length 0)
    (m2 := List.replicate z.length 0) (first := 0) (d := 0) (d2 := 0) h0 h31 (by omega) (by simp) (by simp)
  obtain ⟨X', s1', wX⟩ := Spectral.C45_cdft (s := z) (m := List.replicate z.length 0) (first := 0) (d := 0) h0 h31
    (by omega) (by simp)
  rw [s1] at s1'
  cases s1'
  have sz : seg z 0 (0 + z.length) = z := by simp [seg]
  have hX := Spectral.wrote_full wX (by simp)
  have hXl : X.length = z.length := by rw [hX]; simp
  obtain ⟨n'', s2', w'⟩ := Spectral.cidft_ok (s := X) (m := List.replicate z.length 0) (first := 0) (d := 0) h0 h31
    (by omega) (by simp)
  rw [s2] at s2'
  cases s2'
  have sX : seg X 0 (0 + z.length) = X := by simp [seg, ← hXl]
  rw [sX, Spectral.backward_spec hXl, List.map_map] at w'
  rw [sz] at w hX
  have q1 := Spectral.wrote_full w (by simp)
  have q2 := Spectral.wrote_full w' (by simp)
  rw [q1, hX] at q2
  rw [q2]
  exact hy

/-- C147: `hilbert` stores the analytic signal as pairs, wherever its output is: the real parts are the samples, the
bins of the positive frequencies are doubled and those of the negative ones are 0. -/
theorem C147_hilbert {x m : List ℝ} {a d : ℕ} (ha : HoldsReal m a x) (h0 : 0 < x.length)
    (h31 : x.length < 2147483648) (hd : d + 2 * x.length ≤ m.length) :
    ∃ m' z, hilbert m a x.length d = .ok m' ∧ HoldsComplex m' d z ∧ z.map Complex.re = x ∧
      OnlyIn (fun j => d ≤ j ∧ j < d + 2 * x.length) m m' ∧
      ∀ k, k < x.length → bin z k = if k = 0 ∨ 2 * k = x.length then bin (ofReals x) k
        else if 2 * k < x.length then 2 * bin (ofReals x) k else 0 := by
  obtain ⟨X, z, r, w, hl, hre, hbin⟩ := Spectral.C67_analytic (s := m) (m := view m d) (first := a) (d := 0) h0 h31
    (holds_bound ha h0) (by rw [view_length]; omega)
  rw [holds_seg ha] at hre hbin
  have p := putBack_wrote w
  rw [hl] at p
  refine ⟨putBack m d X, z, ?_, p.1, hre, p.2, hbin⟩
  unfold hilbert
  rw [count_nat]
  simp only [bind, Except.bind, r]
  rfl

/-! ### Concrete cases -/

/-- Two arrays of two numbers joined behind them, and split again. -/
example : ∃ m1 m', ri2complex [1, 2, 3, 4, 0, 0, 0, 0] 0 2 (2 : ℕ) 4 = .ok m1 ∧
    complex2real m1 4 (2 : ℕ) 0 2 = .ok m' ∧
    ∀ j, j < 4 ∨ 4 + 2 * 2 ≤ j → m'[j]? = ([1, 2, 3, 4, 0, 0, 0, 0] : List ℝ)[j]? := by
  have h := C147_join_split (z := [⟨1, 3⟩, ⟨2, 4⟩]) (m := [1, 2, 3, 4, 0, 0, 0, 0]) (a := 0) (b := 2) (d := 4)
    (by intro i v hi; rcases i with _ | _ | i <;> simp_all)
    (by intro i v hi; rcases i with _ | _ | i <;> simp_all) (by simp) (by simp) (by simp) (by simp) (by simp)
  simpa using h

/-- The real parts of two complex numbers moved to the beginning of their own array. -/
example : ∃ m', complex2real [1, 2, 3, 4, 0, 0] 0 (2 : ℕ) 0 4 = .ok m' ∧ HoldsReal m' 0 [1, 3] ∧
    HoldsReal m' 4 [2, 4] := by
  obtain ⟨m', r, h1, h2, -⟩ := C147_split (z := [⟨1, 2⟩, ⟨3, 4⟩]) (m := [1, 2, 3, 4, 0, 0]) (a := 0) (d1 := 0) (d2 := 4)
    (by intro i v hi; rcases i with _ | _ | i <;> simp_all [Complex.ext_iff]) (by simp) (by simp) (by simp) (by simp) (by simp)
  exact ⟨m', by simpa using r, by simpa using h1, by simpa using h2⟩

/-- Four samples transformed in place and back. -/
example : ∃ m1 m', fft [1, 2, 3, 4, 0, 0] 0 (2 * 2 : ℕ) 0 = .ok m1 ∧ ifft m1 0 (2 + 1 : ℕ) 0 = .ok m' ∧
    HoldsReal m' 0 [1, 2, 3, 4] :=
  C147_fft_ifft (x := [1, 2, 3, 4]) (m := [1, 2, 3, 4, 0, 0]) (a := 0) (d := 0) (e := 0) (h := 2)
    (by intro i v hi; rcases i with _ | _ | _ | _ | i <;> simp_all) (by simp) (by simp) (by simp) (by simp) (by simp)
    (by simp) (by simp)

end Edsp.C147
