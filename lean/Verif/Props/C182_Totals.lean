import Verif.Props.C156_Overshoot
import Verif.Props.C181_Backward

/-!
# C182: what the samples coming out of a filter add up to
-/

namespace Edsp.Props.C182

open Finset Filter Edsp Edsp.Spec Edsp.ConvL Edsp.OvershootL

/-- Fed any frame and then zeros, the device returns samples whose sum tends to `g` times the sum of the frame. -/
def Totals (filt : List ℝ → List ℝ) (g : ℝ) : Prop :=
  ∀ xs : List ℝ, Tendsto (fun k => (filt (xs ++ List.replicate k 0)).sum) atTop (nhds (g * xs.sum))

theorem lti_totals {T : List ℝ → List ℝ} (h : Lti T) {g : ℝ} (ha : Answers T (constant 1) (constant g)) : Totals T g := by
  intro xs
  have hlim : Tendsto (fun M => ∑ j ∈ range M, imp T j) atTop (nhds g) := (tendsto_add_atTop_iff_nat 1).1 (dc_sum h ha)
  have hx : ∀ k j, xs.length ≤ j → (xs ++ List.replicate k 0).getD j 0 = 0 := fun k j hj => by
    rw [List.getD, List.getElem?_append_right hj, List.getElem?_replicate]
    split_ifs <;> rfl
  have hx' : ∀ k j, j < xs.length → (xs ++ List.replicate k 0).getD j 0 = xs.getD j 0 := fun k j hj => by
    rw [List.getD, List.getD, List.getElem?_append_left hj]
  have e : ∀ k, (T (xs ++ List.replicate k 0)).sum =
      ∑ j ∈ range xs.length, xs.getD j 0 * ∑ l ∈ range (xs.length + k - j), imp T l := by
    intro k
    set u := xs ++ List.replicate k 0 with hu
    have lu : u.length = xs.length + k := by simp [hu]
    rw [C137.sum_getD, h.len]
    have e1 : ∀ i ∈ range u.length, (T u).getD i 0 = ∑ j ∈ range (i + 1), u.getD j 0 * imp T (i - j) := by
      intro i hi
      rw [out_list h u (mem_range.1 hi), ← sum_range_reflect]
      refine sum_congr rfl fun j hj => ?_
      have hj := mem_range.1 hj
      rw [show i - (i + 1 - 1 - j) = j by omega, show i + 1 - 1 - j = i - j by omega, mul_comm]
    rw [sum_congr rfl e1, C181.pairs u.length fun j i => u.getD j 0 * imp T (i - j)]
    rw [← sum_subset (s₁ := range xs.length) (s₂ := range u.length)]
    · refine sum_congr rfl fun j hj => ?_
      rw [hx' k j (mem_range.1 hj), mul_sum, lu]
      exact sum_congr rfl fun l _ => by rw [Nat.add_sub_cancel_left]
    · exact range_subset_range.2 (by omega)
    · intro j _ hj
      have : u.getD j 0 = 0 := hx k j (by simpa using hj)
      exact sum_eq_zero fun l _ => by rw [this, zero_mul]
  simp only [e]
  rw [mul_comm, C137.sum_getD, sum_mul]
  refine tendsto_finsetSum _ fun j hj => (hlim.comp ?_).const_mul _
  have hj := mem_range.1 hj
  refine tendsto_atTop_mono (fun k => ?_) tendsto_id
  simp only [id_eq]
  omega

/-- **C182 (cascades).**  A cascade after a reset, whatever calls were made on it before, that answers a constant 1 by
settling to `g`, multiplies the sum of every frame by `g`. -/
theorem C182_cascade {N : ℕ} {ops : List (Cascade.Op ℝ)} {c : Cascade ℝ} {o : List (List ℝ)}
    (h : (Cascade.new N).run ops = .ok (c, o)) {g : ℝ}
    (hg : Answers (fun xs => (c.reset.filter xs).2) (constant 1) (constant g)) :
    Totals (fun xs => (c.reset.filter xs).2) g :=
  lti_totals (C181.cascade_lti h) hg

theorem section_totals (f : Biquad ℝ) {g : ℝ} (hg : Answers (fromState f (0, 0)) (constant 1) (constant g)) :
    Totals (fun xs => (f.reset.filter xs).2) g := by
  have hl : Lti fun xs => (f.reset.filter xs).2 := section_lti (Biquad.atRest_reset f)
  exact lti_totals hl hg

/-- **C182 (second-order designs).**  After a reset, low-passes, all-passes and high shelves keep the sum of every frame,
high-passes and band-passes bring it to zero, and a low shelf of `G` dB multiplies it by `10 ^ (G / 20)`. -/
theorem C182_designs (fc fs Q G : ℝ) (h0 : 0 < fc) (h1 : fc < fs / 2) (hQ : 0 < Q) :
    (∀ design ∈ [Rbj.lowPass, Zoelzer.lowPass, Rbj.allPass], ∃ f, design fc fs Q = .ok f ∧
      Totals (fun xs => (f.reset.filter xs).2) 1) ∧
    (∀ design ∈ [Rbj.highPass, Zoelzer.highPass, Rbj.bandPass, Zoelzer.bandPass], ∃ f, design fc fs Q = .ok f ∧
      Totals (fun xs => (f.reset.filter xs).2) 0) ∧
    (∃ f, Rbj.lowShelf fc fs Q G = .ok f ∧ Totals (fun xs => (f.reset.filter xs).2) ((10 : ℝ) ^ (G / 20))) ∧
    ∃ f, Rbj.highShelf fc fs Q G = .ok f ∧ Totals (fun xs => (f.reset.filter xs).2) 1 := by
  obtain ⟨⟨l, hl, al⟩, u, hu, au⟩ := C155_shelves fc fs Q G h0 h1 hQ
  refine ⟨fun design hd => ?_, fun design hd => ?_, ⟨l, hl, section_totals l ?_⟩, ⟨u, hu, section_totals u ?_⟩⟩
  · simp only [List.mem_cons, List.not_mem_nil, or_false] at hd
    rcases hd with rfl | rfl | rfl
    · obtain ⟨f, hf, a⟩ := C155_low_passes fc fs Q h0 h1 hQ Rbj.lowPass (by simp)
      exact ⟨f, hf, section_totals f (a (0, 0) 1 0).1⟩
    · obtain ⟨f, hf, a⟩ := C155_low_passes fc fs Q h0 h1 hQ Zoelzer.lowPass (by simp)
      exact ⟨f, hf, section_totals f (a (0, 0) 1 0).1⟩
    · obtain ⟨f, hf, a⟩ := C155_all_pass fc fs Q h0 h1 hQ
      exact ⟨f, hf, section_totals f (a (0, 0) 1 0).1⟩
  · simp only [List.mem_cons, List.not_mem_nil, or_false] at hd
    rcases hd with rfl | rfl | rfl | rfl
    · obtain ⟨f, hf, a⟩ := C155_high_passes fc fs Q h0 h1 hQ Rbj.highPass (by simp)
      exact ⟨f, hf, section_totals f (a (0, 0) 1 0).1⟩
    · obtain ⟨f, hf, a⟩ := C155_high_passes fc fs Q h0 h1 hQ Zoelzer.highPass (by simp)
      exact ⟨f, hf, section_totals f (a (0, 0) 1 0).1⟩
    · obtain ⟨f, hf, a⟩ := C155_band_passes fc fs Q h0 h1 hQ (Rbj.bandPass, Q) (by simp)
      exact ⟨f, hf, section_totals f (a (0, 0) 1 0).1⟩
    · obtain ⟨f, hf, a⟩ := C155_band_passes fc fs Q h0 h1 hQ (Zoelzer.bandPass, 1) (by simp)
      exact ⟨f, hf, section_totals f (a (0, 0) 1 0).1⟩
  · simpa using (al (0, 0) 1).1
  · exact (au (0, 0) 1).1

/-- **C182 (Butterworth).**  A Butterworth low-pass of any order keeps the sum of every frame, a Butterworth high-pass
brings it to zero. -/
theorem C182_butterworth (dbg : Bool) {N n : Nat} (hn : 1 ≤ n) (hN : n ≤ N) (hd : n % 2 = 1 → dbg = false)
    {fs fc : ℝ} (h0 : 0 < fc) (h1 : fc < fs / 2) :
    (∃ c, Butterworth.lowPass dbg N n fs fc = .ok c ∧ Totals (fun xs => (c.filter xs).2) 1) ∧
    ∃ c, Butterworth.highPass dbg N n fs fc = .ok c ∧ Totals (fun xs => (c.filter xs).2) 0 := by
  obtain ⟨⟨c, hc, hp⟩, ⟨e, he, hq⟩⟩ := butter_parts dbg hn hN hd h0 h1
  obtain ⟨c', hc', a⟩ := C155_butterworth_low dbg hn hN hd h0 h1
  obtain ⟨e', he', b⟩ := C155_butterworth_high_all dbg hn hN hd h0 h1 rfl
  obtain rfl := same_ok hc hc'
  obtain rfl := same_ok he he'
  exact ⟨⟨c, hc, lti_totals (cascade_lti (parts_rest hp)) (a 1 0).1⟩,
    ⟨e, he, lti_totals (cascade_lti (parts_rest hq)) (b 1 0).1⟩⟩

/-- The samples 1, 5, 2 through a low-pass at 1 kHz: what comes out adds up to 8. -/
example : ∃ f, Rbj.lowPass 1000 48000 2 = .ok f ∧
    Tendsto (fun k => (f.reset.filter ([1, 5, 2] ++ List.replicate k 0)).2.sum) atTop (nhds 8) := by
  obtain ⟨f, hf, h⟩ := (C182_designs 1000 48000 2 6 (by norm_num) (by norm_num) (by norm_num)).1 Rbj.lowPass (by simp)
  refine ⟨f, hf, ?_⟩
  have := h [1, 5, 2]
  norm_num at this ⊢
  exact this

example : ∃ c, Butterworth.highPass true 8 4 48000 1000 = .ok c ∧ Totals (fun xs => (c.filter xs).2) 0 :=
  (C182_butterworth true (by norm_num) (by norm_num) (by norm_num) (by norm_num) (by norm_num)).2

/-- A cascade of one low-pass that has filtered a 5 before its reset. -/
example : ∃ (f : Biquad ℝ) (c : Cascade ℝ) (o : List (List ℝ)), Rbj.lowPass 1000 48000 2 = .ok f ∧
    (Cascade.new 1).run [.push f, .filter [5]] = .ok (c, o) ∧ Totals (fun xs => (c.reset.filter xs).2) 1 := by
  obtain ⟨f, hf, a⟩ := C155_low_passes 1000 48000 2 (by norm_num) (by norm_num) (by norm_num) Rbj.lowPass (by simp)
  obtain ⟨c, o, hc, hr⟩ : ∃ c o, (Cascade.new 1).run [.push f, .filter [5]] = .ok (c, o) ∧
      c.reset = ⟨1, [f.reset]⟩ := by
    refine ⟨⟨1, [(f.tick 5).1]⟩, [[], [(f.tick 5).2]], ?_, ?_⟩
    · simp [Cascade.run, Cascade.step, Cascade.new, Cascade.pushBack, Cascade.filter, Cascade.tick, Cascade.tickLoop,
        Except.bind, Bind.bind, pure, Except.pure]
    · simp [Cascade.reset, Biquad.reset, Biquad.tick]
  refine ⟨f, c, o, hf, hc, C182_cascade hc ?_⟩
  have e : (fun xs => (c.reset.filter xs).2) = fromState f (0, 0) := by
    funext xs
    rw [hr, SteadyL.filter_out]
    rfl
  rw [e]
  exact (a (0, 0) 1 0).1

end Edsp.Props.C182
