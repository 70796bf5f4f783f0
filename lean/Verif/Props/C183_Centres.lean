import Verif.Props.C157_Ramps
import Verif.Props.C182_Totals

/-!
# C183: how late the bulk of a frame comes out of a filter
-/

namespace Edsp.Props.C183

open Finset Filter Edsp Edsp.Spec Edsp.ConvL Edsp.OvershootL

/-- The sum of the samples, each times its position. -/
def moment (l : List ℝ) : ℝ := ∑ i ∈ range l.length, i * l.getD i 0

/-- The mean position of the samples, weighted with their values. -/
noncomputable def centre (l : List ℝ) : ℝ := moment l / l.sum

/-- Fed any frame whose samples do not add up to zero, and then zeros, the device returns samples whose centre tends to
that of the frame, moved by `τ`. -/
def MovesCentre (filt : List ℝ → List ℝ) (τ : ℝ) : Prop :=
  ∀ xs : List ℝ, xs.sum ≠ 0 → Tendsto (fun k => centre (filt (xs ++ List.replicate k 0))) atTop (nhds (centre xs + τ))

theorem answers_bound {T : List ℝ → List ℝ} (h : Lti T) {x y : ℕ → ℝ} (ha : Answers T x y) :
    ∃ D ρ : ℝ, 0 ≤ ρ ∧ ρ < 1 ∧ ∀ n, |(∑ j ∈ range (n + 1), imp T j * x (n - j)) - y n| ≤ D * ρ ^ n := by
  obtain ⟨D, ρ, h0, h1, hd⟩ := ha
  refine ⟨D, ρ, h0, h1, fun n => ?_⟩
  obtain ⟨v, hv, hb⟩ := (hd (n + 1)).2 n (by omega)
  have := out_eq h x (N := n + 1) (n := n) (by omega)
  rw [List.getD, hv] at this
  simp only [Option.getD_some] at this
  rw [← this]
  exact hb

/-- The first moment of the impulse response. -/
theorem imp_moment {T : List ℝ → List ℝ} (h : Lti T) {g τ : ℝ} (hd : DelaysRamps T g τ) :
    Tendsto (fun M => ∑ j ∈ range M, (j : ℝ) * imp T j) atTop (nhds (g * τ)) := by
  have h1 := hd 0 1
  have h2 := hd 1 0
  obtain ⟨D, ρ, r0, r1, hb⟩ := answers_bound h h1
  have hz : Tendsto (fun n : ℕ => D * ((n : ℝ) * ρ ^ n)) atTop (nhds 0) := by
    simpa using (tendsto_self_mul_const_pow_of_lt_one r0 r1).const_mul D
  have ha : Tendsto (fun n : ℕ => (n : ℝ) * ((∑ j ∈ range (n + 1), imp T j) - g)) atTop (nhds 0) := by
    refine squeeze_zero_norm (fun n => ?_) hz
    have := hb n
    simp only [ramp, zero_mul, zero_add, mul_one] at this
    rw [Real.norm_eq_abs, abs_mul, Nat.abs_cast]
    have hn : (0 : ℝ) ≤ n := Nat.cast_nonneg n
    nlinarith [mul_le_mul_of_nonneg_left this hn]
  have hr := answers_sum h h2
  have e := (ha.sub hr).add_const (g * τ)
  simp only [sub_zero, zero_add] at e
  refine (tendsto_add_atTop_iff_nat 1).1 (e.congr fun n => ?_)
  have e1 : ∑ j ∈ range (n + 1), imp T j * ramp 1 0 (n - j) =
      n * (∑ j ∈ range (n + 1), imp T j) - ∑ j ∈ range (n + 1), (j : ℝ) * imp T j := by
    rw [mul_sum, ← sum_sub_distrib]
    refine sum_congr rfl fun j hj => ?_
    have hj := mem_range.1 hj
    simp only [ramp]
    rw [Nat.cast_sub (by omega)]
    ring
  rw [e1]
  ring

/-- What comes out of a frame followed by zeros, weighted with the positions. -/
theorem lti_moment {T : List ℝ → List ℝ} (h : Lti T) {g τ : ℝ} (hd : DelaysRamps T g τ) (xs : List ℝ) :
    Tendsto (fun k => moment (T (xs ++ List.replicate k 0))) atTop (nhds (g * (moment xs + τ * xs.sum))) := by
  have hdc : Answers T (constant 1) (constant g) := by
    have := hd 0 1
    simp only [zero_mul, zero_add, mul_one] at this
    have e : ramp 0 1 = constant 1 := by funext n; simp [ramp, constant]
    rw [e] at this
    exact this
  have hlim : Tendsto (fun M => ∑ j ∈ range M, imp T j) atTop (nhds g) := (tendsto_add_atTop_iff_nat 1).1 (dc_sum h hdc)
  have hlim1 := imp_moment h hd
  have hx : ∀ k j, xs.length ≤ j → (xs ++ List.replicate k 0).getD j 0 = 0 := fun k j hj => by
    rw [List.getD, List.getElem?_append_right hj, List.getElem?_replicate]
    split_ifs <;> rfl
  have hx' : ∀ k j, j < xs.length → (xs ++ List.replicate k 0).getD j 0 = xs.getD j 0 := fun k j hj => by
    rw [List.getD, List.getD, List.getElem?_append_left hj]
  have e : ∀ k, moment (T (xs ++ List.replicate k 0)) =
      ∑ j ∈ range xs.length, xs.getD j 0 * (j * ∑ l ∈ range (xs.length + k - j), imp T l +
        ∑ l ∈ range (xs.length + k - j), (l : ℝ) * imp T l) := by
    intro k
    set u := xs ++ List.replicate k 0 with hu
    have lu : u.length = xs.length + k := by simp [hu]
    unfold moment
    rw [h.len]
    have e1 : ∀ i ∈ range u.length, (i : ℝ) * (T u).getD i 0 =
        ∑ j ∈ range (i + 1), u.getD j 0 * ((i : ℝ) * imp T (i - j)) := by
      intro i hi
      rw [out_list h u (mem_range.1 hi), ← sum_range_reflect, mul_sum]
      refine sum_congr rfl fun j hj => ?_
      have hj := mem_range.1 hj
      rw [show i - (i + 1 - 1 - j) = j by omega, show i + 1 - 1 - j = i - j by omega]
      ring
    rw [sum_congr rfl e1, C181.pairs u.length fun j i => u.getD j 0 * ((i : ℝ) * imp T (i - j))]
    rw [← sum_subset (s₁ := range xs.length) (s₂ := range u.length)]
    · refine sum_congr rfl fun j hj => ?_
      rw [hx' k j (mem_range.1 hj), mul_sum, ← sum_add_distrib, mul_sum, lu]
      refine sum_congr rfl fun l _ => ?_
      rw [Nat.add_sub_cancel_left]
      push_cast
      ring
    · exact range_subset_range.2 (by omega)
    · intro j _ hj
      have : u.getD j 0 = 0 := hx k j (by simpa using hj)
      exact sum_eq_zero fun l _ => by rw [this, zero_mul]
  have e2 : g * (moment xs + τ * xs.sum) = ∑ j ∈ range xs.length, xs.getD j 0 * (j * g + g * τ) := by
    unfold moment
    rw [C137.sum_getD, mul_sum (a := τ), ← sum_add_distrib, mul_sum]
    exact sum_congr rfl fun j _ => by ring
  simp only [e]
  rw [e2]
  refine tendsto_finsetSum _ fun j hj => ?_
  have hj := mem_range.1 hj
  have ht : Tendsto (fun k => xs.length + k - j) atTop atTop := by
    refine tendsto_atTop_mono (fun k => ?_) tendsto_id
    simp only [id_eq]
    omega
  exact (((hlim.comp ht).const_mul _).add (hlim1.comp ht)).const_mul _

theorem lti_centre {T : List ℝ → List ℝ} (h : Lti T) {g τ : ℝ} (hg : g ≠ 0) (hd : DelaysRamps T g τ) :
    MovesCentre T τ := by
  intro xs hx
  have hdc : Answers T (constant 1) (constant g) := by
    have := hd 0 1
    simp only [zero_mul, zero_add, mul_one] at this
    have e : ramp 0 1 = constant 1 := by funext n; simp [ramp, constant]
    rw [e] at this
    exact this
  have := (lti_moment h hd xs).div (C182.lti_totals h hdc xs) (mul_ne_zero hg hx)
  have e : g * (moment xs + τ * xs.sum) / (g * xs.sum) = centre xs + τ := by
    unfold centre
    field_simp
  rw [e] at this
  exact this

/-- **C183 (cascades).**  A cascade after a reset, whatever calls were made on it before, that makes ramps `τ` samples
late moves the centre of every frame by `τ` samples, as long as it lets a constant through. -/
theorem C183_cascade {N : ℕ} {ops : List (Cascade.Op ℝ)} {c : Cascade ℝ} {o : List (List ℝ)}
    (h : (Cascade.new N).run ops = .ok (c, o)) {g τ : ℝ} (hg : g ≠ 0)
    (hd : DelaysRamps (fun xs => (c.reset.filter xs).2) g τ) : MovesCentre (fun xs => (c.reset.filter xs).2) τ :=
  lti_centre (C181.cascade_lti h) hg hd

theorem section_centre (f : Biquad ℝ) {g τ : ℝ} (hg : g ≠ 0) (hd : DelaysRamps (fromState f (0, 0)) g τ) :
    MovesCentre (fun xs => (f.reset.filter xs).2) τ := by
  have hl : Lti fun xs => (f.reset.filter xs).2 := section_lti (Biquad.atRest_reset f)
  exact lti_centre hl hg hd

/-- **C183 (second-order designs).**  After a reset: low-passes move the centre by `1 / (2 Q tan(π fc / fs))` samples, the
all-pass by twice as many, and the shelves of `G` dB by `(A - 1) / (2 Q √A tan(π fc / fs))` samples with
`A = 10 ^ (G / 40)`, the low shelf to later and the high shelf to earlier positions. -/
theorem C183_designs (fc fs Q G A : ℝ) (h0 : 0 < fc) (h1 : fc < fs / 2) (hQ : 0 < Q) (hA : A = (10 : ℝ) ^ (G / 40)) :
    (∀ design ∈ [Rbj.lowPass, Zoelzer.lowPass], ∃ f, design fc fs Q = .ok f ∧
      MovesCentre (fun xs => (f.reset.filter xs).2) (1 / (2 * Q * Real.tan (Real.pi * fc / fs)))) ∧
    (∃ f, Rbj.allPass fc fs Q = .ok f ∧
      MovesCentre (fun xs => (f.reset.filter xs).2) (1 / (Q * Real.tan (Real.pi * fc / fs)))) ∧
    (∃ f, Rbj.lowShelf fc fs Q G = .ok f ∧ MovesCentre (fun xs => (f.reset.filter xs).2)
      ((A - 1) / (2 * Q * Real.sqrt A * Real.tan (Real.pi * fc / fs)))) ∧
    ∃ f, Rbj.highShelf fc fs Q G = .ok f ∧ MovesCentre (fun xs => (f.reset.filter xs).2)
      (-((A - 1) / (2 * Q * Real.sqrt A * Real.tan (Real.pi * fc / fs)))) := by
  have hpos : 0 < A := by rw [hA]; exact Real.rpow_pos_of_pos (by norm_num) _
  obtain ⟨⟨l, hl, al⟩, u, hu, au⟩ := C157_shelves fc fs Q G A h0 h1 hQ hA
  obtain ⟨a, ha, aa⟩ := C157_all_pass fc fs Q h0 h1 hQ
  refine ⟨fun design hd => ?_, ⟨a, ha, section_centre a one_ne_zero (aa (0, 0))⟩,
    ⟨l, hl, section_centre l (by positivity) (al (0, 0))⟩, ⟨u, hu, section_centre u one_ne_zero (au (0, 0))⟩⟩
  obtain ⟨f, hf, af⟩ := C157_low_passes fc fs Q h0 h1 hQ design hd
  exact ⟨f, hf, section_centre f one_ne_zero (af (0, 0))⟩

/-- **C183 (Butterworth).**  A Butterworth low-pass of order `n` moves the centre of every frame by
`1 / (2 sin(π / 2n) tan(π fc / fs))` samples. -/
theorem C183_butterworth (dbg : Bool) {N n : Nat} (hn : 1 ≤ n) (hN : n ≤ N) (hd : n % 2 = 1 → dbg = false)
    {fs fc : ℝ} (h0 : 0 < fc) (h1 : fc < fs / 2) :
    ∃ c, Butterworth.lowPass dbg N n fs fc = .ok c ∧ MovesCentre (fun xs => (c.filter xs).2)
      (1 / (2 * Real.sin (Real.pi / (2 * n)) * Real.tan (Real.pi * fc / fs))) := by
  obtain ⟨⟨c, hc, hp⟩, -⟩ := butter_parts dbg hn hN hd h0 h1
  obtain ⟨c', hc', a⟩ := C157_butterworth_low dbg hn hN hd h0 h1
  obtain rfl := same_ok hc hc'
  exact ⟨c, hc, lti_centre (cascade_lti (parts_rest hp)) one_ne_zero a⟩

/-- 1, 3 has its centre at 3/4; an all-pass at a quarter of the sample rate with quality 1/2 moves it to 11/4. -/
example : ∃ f, Rbj.allPass 12000 48000 (1 / 2) = .ok f ∧
    Tendsto (fun k => centre (f.reset.filter ([1, 3] ++ List.replicate k 0)).2) atTop (nhds (11 / 4)) := by
  obtain ⟨-, ⟨f, hf, h⟩, -⟩ := C183_designs 12000 48000 (1 / 2) 0 1 (by norm_num) (by norm_num) (by norm_num) (by simp)
  refine ⟨f, hf, ?_⟩
  have := h [1, 3] (by norm_num)
  rw [show Real.pi * 12000 / 48000 = Real.pi / 4 by ring, Real.tan_pi_div_four] at this
  have e : centre [1, 3] + 1 / (1 / 2 * 1) = 11 / 4 := by norm_num [centre, moment, sum_range_succ]
  rw [e] at this
  exact this

example : ∃ c, Butterworth.lowPass true 8 4 48000 1000 = .ok c ∧ MovesCentre (fun xs => (c.filter xs).2)
    (1 / (2 * Real.sin (Real.pi / (2 * (4 : ℕ))) * Real.tan (Real.pi * 1000 / 48000))) :=
  C183_butterworth true (by norm_num) (by norm_num) (by norm_num) (by norm_num) (by norm_num)

/-- A cascade of one low-pass that has filtered a 5 before its reset. -/
example : ∃ (f : Biquad ℝ) (c : Cascade ℝ) (o : List (List ℝ)), Rbj.lowPass 1000 48000 2 = .ok f ∧
    (Cascade.new 1).run [.push f, .filter [5]] = .ok (c, o) ∧
    MovesCentre (fun xs => (c.reset.filter xs).2) (1 / (2 * 2 * Real.tan (Real.pi * 1000 / 48000))) := by
  obtain ⟨f, hf, a⟩ := C157_low_passes 1000 48000 2 (by norm_num) (by norm_num) (by norm_num) Rbj.lowPass (by simp)
  obtain ⟨c, o, hc, hr⟩ : ∃ c o, (Cascade.new 1).run [.push f, .filter [5]] = .ok (c, o) ∧
      c.reset = ⟨1, [f.reset]⟩ := by
    refine ⟨⟨1, [(f.tick 5).1]⟩, [[], [(f.tick 5).2]], ?_, ?_⟩
    · simp [Cascade.run, Cascade.step, Cascade.new, Cascade.pushBack, Cascade.filter, Cascade.tick, Cascade.tickLoop,
        Except.bind, Bind.bind, pure, Except.pure]
    · simp [Cascade.reset, Biquad.reset, Biquad.tick]
  refine ⟨f, c, o, hf, hc, C183_cascade hc one_ne_zero ?_⟩
  have e : (fun xs => (c.reset.filter xs).2) = fromState f (0, 0) := by
    funext xs
    rw [hr, SteadyL.filter_out]
    rfl
  rw [e]
  exact a (0, 0)

end Edsp.Props.C183
