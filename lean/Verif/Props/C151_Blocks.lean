import Verif.Spec.Blocks
import Verif.Lemmas.Order
import Verif.Props.C33_Means
import Verif.Props.C34_Extrema

/-! # C151: the statistics of a signal and those of its blocks -/

namespace Edsp.C151

open Edsp Edsp.Spec Edsp.Stat Edsp.StatL

/-! ### Tools -/

theorem each_nil {α β ε : Type} {F : α → Except ε β} {vs : List β} (h : Each F [] vs) : vs = [] := by
  cases h; rfl

theorem each_eq {α β ε : Type} {F : α → Except ε β} {g : α → β} {bs : List α} {vs : List β}
    (hg : ∀ b ∈ bs, F b = .ok (g b)) (h : Each F bs vs) : vs = bs.map g := by
  induction h with
  | nil => rfl
  | @cons b v bs vs hb _ ih =>
    rw [List.map_cons, ← ih fun c hc => hg c (by simp [hc])]
    have := hg b (by simp)
    rw [hb] at this
    rw [Except.ok.inj this]

theorem each_mem {α β ε : Type} {F : α → Except ε β} {bs : List α} {vs : List β} (h : Each F bs vs) {b : α} (hb : b ∈ bs) :
    ∃ v ∈ vs, F b = .ok v := by
  induction h with
  | nil => simp at hb
  | cons h0 _ ih =>
    rcases List.mem_cons.mp hb with rfl | hb
    · exact ⟨_, by simp, h0⟩
    · obtain ⟨v, hv, e⟩ := ih hb
      exact ⟨v, by simp [hv], e⟩

theorem each_mem' {α β ε : Type} {F : α → Except ε β} {bs : List α} {vs : List β} (h : Each F bs vs) {v : β} (hv : v ∈ vs) :
    ∃ b ∈ bs, F b = .ok v := by
  induction h with
  | nil => simp at hv
  | cons h0 _ ih =>
    rcases List.mem_cons.mp hv with rfl | hv
    · exact ⟨_, by simp, h0⟩
    · obtain ⟨b, hb, e⟩ := ih hv
      exact ⟨b, by simp [hb], e⟩

theorem flatten_length {α : Type} {n : ℕ} : ∀ {bs : List (List α)}, EqualBlocks n bs → bs.flatten.length = bs.length * n
  | [], _ => by simp
  | b :: bs, h => by
    rw [List.flatten_cons, List.length_append, flatten_length fun c hc => h c (by simp [hc]), h b (by simp)]
    simp [Nat.add_mul, Nat.add_comm]

theorem avgOf_flatten {f : ℝ → ℝ} {n : ℕ} {bs : List (List ℝ)} (h : EqualBlocks n bs) :
    avgOf f bs.flatten = avg (bs.map (avgOf f)) := by
  have key : ∀ {bs : List (List ℝ)}, EqualBlocks n bs → (bs.map (avgOf f)).sum = (bs.flatten.map f).sum / n := by
    intro bs
    induction bs with
    | nil => intro _; simp
    | cons b bs ih =>
      intro h
      rw [List.map_cons, List.sum_cons, ih fun c hc => h c (by simp [hc]), List.flatten_cons, List.map_append, List.sum_append,
        add_div, avgOf, avg, List.length_map, h b (by simp)]
  rw [avg, key h, avgOf, avg, List.length_map, List.length_map, flatten_length h, div_div]
  push_cast
  ring_nf

theorem flatten_ne {α : Type} {n : ℕ} (hn : 0 < n) {bs : List (List α)} (h : EqualBlocks n bs) (h0 : bs ≠ []) :
    bs.flatten ≠ [] := by
  rw [← List.length_pos_iff, flatten_length h]
  exact Nat.mul_pos (List.length_pos_iff.mpr h0) hn

theorem block_ne {α : Type} {n : ℕ} (hn : 0 < n) {bs : List (List α)} (h : EqualBlocks n bs) {b : List α} (hb : b ∈ bs) :
    b ≠ [] := by
  rw [← List.length_pos_iff, h b hb]; exact hn

/-! ### Extrema -/

section
variable {K : Type} [LinearOrder K]

/-- **C151**, extrema, for every ordered type of samples (in floating point arithmetic as well), blocks of any lengths:
the extremum of the signal is the extremum of the extrema of its blocks. -/
theorem C151_extrema {bs : List (List K)} {los his : List K} (h1 : Each Seq.min bs los) (h2 : Each Seq.max bs his) :
    Seq.min bs.flatten = Seq.min los ∧ Seq.max bs.flatten = Seq.max his := by
  rcases bs with _ | ⟨b, bs⟩
  · rw [each_nil h1, each_nil h2]; exact ⟨rfl, rfl⟩
  have hne : ∀ c ∈ b :: bs, c ≠ [] := by
    rintro c hc rfl
    obtain ⟨v, -, e⟩ := each_mem h2 hc
    cases e
  have hb : b ≠ [] := hne b (by simp)
  have hf : (b :: bs).flatten ≠ [] := by simp [hb]
  have hlos : los ≠ [] := by rintro rfl; cases h1
  have hhis : his ≠ [] := by rintro rfl; cases h2
  constructor
  · obtain ⟨v, e, hv, hm⟩ := ExtremumL.min_ok hf
    obtain ⟨w, e', hw, hm'⟩ := ExtremumL.min_ok hlos
    obtain ⟨c, hc, ec⟩ := each_mem' h1 hw
    obtain ⟨u, eu, hu, -⟩ := ExtremumL.min_ok (hne c hc)
    rw [eu] at ec
    obtain rfl := Except.ok.inj ec
    obtain ⟨d, hd, hvd⟩ := List.mem_flatten.mp hv
    obtain ⟨x, hx, ex⟩ := each_mem h1 hd
    obtain ⟨y, ey, -, hy⟩ := ExtremumL.min_ok (hne d hd)
    rw [ey] at ex
    obtain rfl := Except.ok.inj ex
    rw [e, e', le_antisymm (hm u (List.mem_flatten.mpr ⟨c, hc, hu⟩)) ((hm' y hx).trans (hy v hvd))]
  · obtain ⟨v, e, hv, hm⟩ := ExtremumL.max_ok hf
    obtain ⟨w, e', hw, hm'⟩ := ExtremumL.max_ok hhis
    obtain ⟨c, hc, ec⟩ := each_mem' h2 hw
    obtain ⟨u, eu, hu, -⟩ := ExtremumL.max_ok (hne c hc)
    rw [eu] at ec
    obtain rfl := Except.ok.inj ec
    obtain ⟨d, hd, hvd⟩ := List.mem_flatten.mp hv
    obtain ⟨x, hx, ex⟩ := each_mem h2 hd
    obtain ⟨y, ey, -, hy⟩ := ExtremumL.max_ok (hne d hd)
    rw [ey] at ex
    obtain rfl := Except.ok.inj ex
    rw [e, e', le_antisymm ((hy v hvd).trans (hm' y hx)) (hm u (List.mem_flatten.mpr ⟨c, hc, hu⟩))]

/-- **C151**, extrema of the absolute values. -/
theorem C151_absolute [AddCommGroup K] [IsOrderedAddMonoid K] {bs : List (List K)} {los his : List K}
    (h1 : Each Seq.minabs bs los) (h2 : Each Seq.maxabs bs his) :
    Seq.minabs bs.flatten = Seq.min los ∧ Seq.maxabs bs.flatten = Seq.max his := by
  rcases bs with _ | ⟨b, bs⟩
  · rw [each_nil h1, each_nil h2]; exact ⟨rfl, rfl⟩
  have hne : ∀ c ∈ b :: bs, c ≠ [] := by
    rintro c hc rfl
    obtain ⟨v, -, e⟩ := each_mem h2 hc
    cases e
  have hb : b ≠ [] := hne b (by simp)
  have hf : (b :: bs).flatten ≠ [] := by simp [hb]
  have hlos : los ≠ [] := by rintro rfl; cases h1
  have hhis : his ≠ [] := by rintro rfl; cases h2
  constructor
  · obtain ⟨v, e, ⟨z, hz, rfl⟩, hm⟩ := ExtremumL.minabs_ok hf
    obtain ⟨w, e', hw, hm'⟩ := ExtremumL.min_ok hlos
    obtain ⟨c, hc, ec⟩ := each_mem' h1 hw
    obtain ⟨u, eu, ⟨t, ht, rfl⟩, -⟩ := ExtremumL.minabs_ok (hne c hc)
    rw [eu] at ec
    obtain rfl := Except.ok.inj ec
    obtain ⟨d, hd, hvd⟩ := List.mem_flatten.mp hz
    obtain ⟨x, hx, ex⟩ := each_mem h1 hd
    obtain ⟨y, ey, -, hy⟩ := ExtremumL.minabs_ok (hne d hd)
    rw [ey] at ex
    obtain rfl := Except.ok.inj ex
    rw [e, e', le_antisymm (hm t (List.mem_flatten.mpr ⟨c, hc, ht⟩)) ((hm' y hx).trans (hy z hvd))]
  · obtain ⟨v, e, ⟨z, hz, rfl⟩, hm⟩ := ExtremumL.maxabs_ok hf
    obtain ⟨w, e', hw, hm'⟩ := ExtremumL.max_ok hhis
    obtain ⟨c, hc, ec⟩ := each_mem' h2 hw
    obtain ⟨u, eu, ⟨t, ht, rfl⟩, -⟩ := ExtremumL.maxabs_ok (hne c hc)
    rw [eu] at ec
    obtain rfl := Except.ok.inj ec
    obtain ⟨d, hd, hvd⟩ := List.mem_flatten.mp hz
    obtain ⟨x, hx, ex⟩ := each_mem h2 hd
    obtain ⟨y, ey, -, hy⟩ := ExtremumL.maxabs_ok (hne d hd)
    rw [ey] at ex
    obtain rfl := Except.ok.inj ex
    rw [e, e', le_antisymm ((hy z hvd).trans (hm' y hx)) (hm t (List.mem_flatten.mpr ⟨c, hc, ht⟩))]

end

example : Seq.max ([[1, -4], [2, 7, 3]] : List (List ℤ)).flatten = Seq.max ([1, 7] : List ℤ) :=
  (C151_extrema (los := [-4, 2]) (List.Forall₂.cons rfl (List.Forall₂.cons rfl List.Forall₂.nil))
    (List.Forall₂.cons rfl (List.Forall₂.cons rfl List.Forall₂.nil))).2

example : Seq.maxabs ([[1, -4], [2, 7, 3]] : List (List ℤ)).flatten = Seq.max ([4, 7] : List ℤ) :=
  (C151_absolute (los := [1, 2]) (List.Forall₂.cons rfl (List.Forall₂.cons rfl List.Forall₂.nil))
    (List.Forall₂.cons rfl (List.Forall₂.cons rfl List.Forall₂.nil))).2

/-! ### Sums -/

theorem energy_eq (l : List ℝ) : Seq.energy l = (l.map fun x => x * x).sum := by
  show accumulate (fun x => x * x) 0 l = _
  rw [accumulate_eq, zero_add]

theorem energy_nonneg (l : List ℝ) : 0 ≤ Seq.energy l := by
  rw [energy_eq]; exact sum_map_nonneg fun x _ => mul_self_nonneg x

theorem energy_flatten : ∀ bs : List (List ℝ), Seq.energy bs.flatten = (bs.map Seq.energy).sum
  | [] => rfl
  | b :: bs => by
    rw [List.map_cons, List.sum_cons, ← energy_flatten bs, energy_eq, energy_eq, energy_eq, List.flatten_cons, List.map_append,
      List.sum_append]

/-- **C151**, sums, blocks of any lengths: energies and durations add up, and the root of the sum of squares and the norm
of the signal are those of the list of the values of the blocks. -/
theorem C151_sums (bs : List (List ℝ)) :
    Seq.energy bs.flatten = (bs.map Seq.energy).sum ∧ Seq.rssq bs.flatten = Seq.rssq (bs.map Seq.rssq) ∧
      (∀ vs, Each Stat.norm bs vs → Stat.norm bs.flatten = Stat.norm vs) ∧
      ∀ fs ds, Each (fun b => Feature.duration b fs) bs ds → bs ≠ [] → Feature.duration bs.flatten fs = .ok ds.sum := by
  have hsq : ∀ bs : List (List ℝ), Seq.energy (bs.map Seq.rssq) = (bs.map Seq.energy).sum := by
    intro bs
    rw [energy_eq, List.map_map]
    congr 1
    refine List.map_congr_left fun b _ => ?_
    exact Real.mul_self_sqrt (energy_nonneg b)
  have hn : ∀ l : List ℝ, Stat.norm l = .ok (Seq.rssq l) := by
    intro l
    have e : accumulate (fun x : ℝ => |x| * |x|) 0 l = Seq.energy l := by
      rw [accumulate_eq, zero_add, energy_eq]
      simp only [abs_mul_abs_self]
    rw [Stat.norm, e, fsqrt, if_neg (not_lt.mpr (energy_nonneg l))]
    rfl
  have hr : Seq.rssq bs.flatten = Seq.rssq (bs.map Seq.rssq) := by
    show Real.sqrt (Seq.energy _) = Real.sqrt (Seq.energy _)
    rw [energy_flatten, hsq]
  refine ⟨energy_flatten bs, hr, fun vs h => ?_, fun fs ds h h0 => ?_⟩
  · rw [each_eq (fun b _ => hn b) h, hn, hn, hr]
  · have hfs : fs ≠ 0 := by
      rintro rfl
      rcases bs with _ | ⟨b, bs⟩
      · exact h0 rfl
      · obtain ⟨v, -, e⟩ := each_mem h (List.mem_cons_self (a := b))
        simp [Feature.duration, fdiv] at e
    rw [each_eq (fun b _ => fdiv_ok hfs) h, Feature.duration, fdiv_ok hfs]
    congr 1
    clear h h0 hr
    induction bs with
    | nil => simp
    | cons b bs ih =>
      rw [List.flatten_cons, List.length_append, List.map_cons, List.sum_cons, ← ih]
      push_cast
      rw [add_div]

example : Seq.rssq ([[3, 4], [12]] : List (List ℝ)).flatten = Seq.rssq [Seq.rssq [3, 4], Seq.rssq [12]] :=
  (C151_sums _).2.1

/-! ### Means of blocks of the same length -/

theorem mean_of {l : List ℝ} : mean l = if l = [] then .error .divByZero else .ok (avg l) := by
  split
  · next h => subst h; simp [mean, fdiv]
  · next h => exact mean_ok h

theorem power_of {l : List ℝ} (h : l ≠ []) : Seq.power l = .ok (avgOf (fun x => x * x) l) := by
  rw [Seq.power, if_neg (len_ne h), energy_eq, avgOf, avg, List.length_map]

/-- **C151**, averages, blocks of the same length: the mean of the signal is the mean of the means of the blocks, its
power the mean of the powers. -/
theorem C151_averages {n : ℕ} (hn : 0 < n) {bs : List (List ℝ)} (hb : EqualBlocks n bs) {ms ps : List ℝ}
    (h1 : Each mean bs ms) (h2 : Each Seq.power bs ps) :
    mean bs.flatten = mean ms ∧ Seq.power bs.flatten = mean ps := by
  rcases eq_or_ne bs [] with rfl | h0
  · rw [each_nil h1, each_nil h2]
    simp [mean, Seq.power, fdiv]
  have hf := flatten_ne hn hb h0
  rw [each_eq (fun b hc => mean_ok (block_ne hn hb hc)) h1, each_eq (fun b hc => power_of (block_ne hn hb hc)) h2,
    mean_ok hf, power_of hf, mean_ok (by simpa using h0), mean_ok (by simpa using h0), avgOf_flatten hb]
  refine ⟨?_, rfl⟩
  rw [← avgOf_id, avgOf_flatten hb]
  congr 2
  exact congrArg (fun g => bs.map g) (funext fun b => avgOf_id b)

/-- Two blocks of two samples, with their means. -/
theorem two_means : Each mean ([[1, 3], [4, 8]] : List (List ℝ)) [2, 6] := by
  refine List.Forall₂.cons ?_ (List.Forall₂.cons ?_ List.Forall₂.nil) <;>
    norm_num [mean, accumulate, fdiv]

theorem two_blocks : EqualBlocks 2 ([[1, 3], [4, 8]] : List (List ℝ)) := by
  intro b hb
  simp only [List.mem_cons, List.not_mem_nil, or_false] at hb
  rcases hb with rfl | rfl <;> rfl

theorem two_powers : Each Seq.power ([[1, 3], [4, 8]] : List (List ℝ)) [5, 40] := by
  refine List.Forall₂.cons ?_ (List.Forall₂.cons ?_ List.Forall₂.nil) <;>
    norm_num [Seq.power, Seq.energy, Seq.innerSelf]

example : Seq.power ([[1, 3], [4, 8]] : List (List ℝ)).flatten = mean [5, 40] :=
  (C151_averages (by norm_num) two_blocks two_means two_powers).2

/-- Blocks of any lengths: the mean and the power of the signal weigh the blocks by their lengths. -/
theorem C151_weighted {bs : List (List ℝ)} {ms ps : List ℝ} (h1 : Each mean bs ms) (h2 : Each Seq.power bs ps)
    (h0 : bs ≠ []) :
    mean bs.flatten = .ok ((List.zipWith (fun b m => (b.length : ℝ) * m) bs ms).sum / bs.flatten.length) ∧
      Seq.power bs.flatten = .ok ((List.zipWith (fun b p => (b.length : ℝ) * p) bs ps).sum / bs.flatten.length) := by
  have hne : ∀ b ∈ bs, b ≠ [] := by
    rintro b hb rfl
    obtain ⟨v, -, e⟩ := each_mem h1 hb
    simp [mean, fdiv] at e
  have hf : bs.flatten ≠ [] := by
    rcases bs with _ | ⟨b, bs⟩
    · exact absurd rfl h0
    · simp [hne b (by simp)]
  have key : ∀ f : ℝ → ℝ, (List.zipWith (fun b m => (b.length : ℝ) * m) bs (bs.map (avgOf f))).sum =
      (bs.flatten.map f).sum := by
    intro f
    clear h1 h2 h0 hf
    induction bs with
    | nil => rfl
    | cons b bs ih =>
      rw [List.map_cons, List.zipWith_cons_cons, List.sum_cons, ih fun c hc => hne c (by simp [hc]), List.flatten_cons,
        List.map_append, List.sum_append, avgOf, avg, List.length_map,
        mul_div_cancel₀ _ (len_ne (hne b (by simp)))]
  constructor
  · rw [each_eq (g := avgOf fun x => x) (fun b hc => by rw [avgOf_id]; exact mean_ok (hne b hc)) h1, key, mean_ok hf,
      List.map_id', avg]
  · rw [each_eq (fun b hc => power_of (hne b hc)) h2, key, power_of hf, avgOf, avg, List.length_map]

example : mean ([[1, 3], [4, 8]] : List (List ℝ)).flatten = .ok (16 / 4) := by
  rw [(C151_weighted two_means two_powers (by simp)).1]
  norm_num

/-- **C151**, the other means, of positive samples in blocks of the same length: the mean of the signal is the same kind
of mean of the means of the blocks. -/
theorem C151_means {n : ℕ} (hn : 0 < n) {bs : List (List ℝ)} (hb : EqualBlocks n bs) (h0 : bs ≠ [])
    (hp : ∀ b ∈ bs, ∀ x ∈ b, 0 < x) {hs gs : List ℝ} (h1 : Each harmonicMean bs hs) (h2 : Each geometricMean bs gs) :
    harmonicMean bs.flatten = harmonicMean hs ∧ geometricMean bs.flatten = geometricMean gs ∧
      ∀ (e : ℤ), e ≠ 0 → ∀ vs, Each (fun b => generalizedMean b e) bs vs →
        generalizedMean bs.flatten e = generalizedMean vs e := by
  have hf := flatten_ne hn hb h0
  have hpf : ∀ x ∈ bs.flatten, 0 < x := by
    intro x hx
    obtain ⟨b, hc, hx⟩ := List.mem_flatten.mp hx
    exact hp b hc x hx
  have hgen : ∀ (e : ℤ), e ≠ 0 → ∀ l : List ℝ, l ≠ [] → (∀ x ∈ l, 0 < x) →
      generalizedMean l e = .ok ((avgOf (fun x => x ^ e) l) ^ (1 / (e : ℝ))) := by
    intro e he l hl hl0
    have ha : 0 < avgOf (fun x => x ^ e) l := avgOf_pos hl fun x hx => zpow_pos (hl0 x hx) e
    have he' : (e : ℝ) ≠ 0 := by exact_mod_cast he
    rw [generalizedMean, C33.accumulateM_ok _ (fun x => x ^ e) 0 l fun x hx => by simp [fpowi, (hl0 x hx).ne']]
    simp only [Bind.bind, Except.bind, zero_add, fdiv_ok (len_ne hl), fdiv_ok he']
    rw [show (l.map fun x => x ^ e).sum / (l.length : ℝ) = avgOf (fun x => x ^ e) l by rw [avgOf, avg, List.length_map]]
    simp [fpow, ha.ne', ha.not_gt]
  refine ⟨?_, ?_, fun e he vs h3 => ?_⟩
  · rw [each_eq (fun b hc => C33.harmonic_ok (block_ne hn hb hc) (hp b hc)) h1, C33.harmonic_ok hf hpf,
      C33.harmonic_ok (by simpa using h0) ?_, avgOf_flatten hb]
    · rw [avgOf, List.map_map]
      congr 4
      funext b
      simp
    · intro x hx
      obtain ⟨b, hc, rfl⟩ := List.mem_map.mp hx
      exact one_div_pos.mpr (avgOf_pos (block_ne hn hb hc) fun x hx => one_div_pos.mpr (hp b hc x hx))
  · rw [each_eq (fun b hc => C33.geometric_ok (block_ne hn hb hc) (hp b hc)) h2, C33.geometric_ok hf hpf,
      C33.geometric_ok (by simpa using h0) ?_, avgOf_flatten hb]
    · rw [avgOf, List.map_map]
      congr 4
      funext b
      simp
    · intro x hx
      obtain ⟨b, hc, rfl⟩ := List.mem_map.mp hx
      exact Real.exp_pos _
  · have hpos : ∀ b ∈ bs, 0 < avgOf (fun x => x ^ e) b := fun b hc =>
      avgOf_pos (block_ne hn hb hc) fun x hx => zpow_pos (hp b hc x hx) e
    rw [each_eq (fun b hc => hgen e he b (block_ne hn hb hc) (hp b hc)) h3, hgen e he _ hf hpf,
      hgen e he _ (by simpa using h0) ?_, avgOf_flatten hb]
    · rw [avgOf, List.map_map]
      congr 3
      refine List.map_congr_left fun b hc => ?_
      show _ = ((avgOf (fun x => x ^ e) b) ^ (1 / (e : ℝ))) ^ e
      rw [← Real.rpow_intCast, ← Real.rpow_mul (hpos b hc).le, one_div, inv_mul_cancel₀ (by exact_mod_cast he),
        Real.rpow_one]
    · intro x hx
      obtain ⟨b, hc, rfl⟩ := List.mem_map.mp hx
      exact Real.rpow_pos_of_pos (hpos b hc) _

example : geometricMean ([[1, 3], [4, 8]] : List (List ℝ)).flatten =
    geometricMean [Real.exp (avgOf Real.log [1, 3]), Real.exp (avgOf Real.log [4, 8])] := by
  have hp : ∀ b ∈ ([[1, 3], [4, 8]] : List (List ℝ)), ∀ x ∈ b, 0 < x := by
    intro b hb
    simp only [List.mem_cons, List.not_mem_nil, or_false] at hb
    rcases hb with rfl | rfl <;> simp
  exact (C151_means (by norm_num) two_blocks (by simp) hp
    (List.Forall₂.cons (C33.harmonic_ok (by simp) (hp _ (by simp)))
      (List.Forall₂.cons (C33.harmonic_ok (by simp) (hp _ (by simp))) List.Forall₂.nil))
    (List.Forall₂.cons (C33.geometric_ok (by simp) (hp _ (by simp)))
      (List.Forall₂.cons (C33.geometric_ok (by simp) (hp _ (by simp))) List.Forall₂.nil))).2.1

/-- **C151**, variance, blocks of the same length: the variance of the signal is the mean of the variances of the blocks
plus the variance of their means. -/
theorem C151_variance {n : ℕ} (hn : 0 < n) {bs : List (List ℝ)} (hb : EqualBlocks n bs) (h0 : bs ≠ []) {ms vs : List ℝ}
    (h1 : Each mean bs ms) (h2 : Each variance bs vs) :
    ∃ within between, mean vs = .ok within ∧ variance ms = .ok between ∧
      variance bs.flatten = .ok (within + between) := by
  have hf := flatten_ne hn hb h0
  have hvar : ∀ {l : List ℝ}, l ≠ [] → variance l = .ok (avgOf (fun x => x ^ 2) l - avg l ^ 2) := by
    intro l hl
    rw [variance, moment_ok hl]
    congr 1
    unfold centralMoment
    rw [avgOf_congr (g := fun x => x ^ 2 + ((-(2 * avg l)) * x + avg l ^ 2)) (fun x _ => by ring), avgOf_add,
      avgOf_add, avgOf_mul, avgOf_const hl, avgOf_id]
    ring
  have e1 := each_eq (fun b hc => mean_ok (block_ne hn hb hc)) h1
  have e2 := each_eq (fun b hc => hvar (block_ne hn hb hc)) h2
  have hm : ms ≠ [] := by rw [e1]; simpa using h0
  have hv : vs ≠ [] := by rw [e2]; simpa using h0
  refine ⟨_, _, mean_ok hv, hvar hm, ?_⟩
  rw [hvar hf]
  congr 1
  have a1 : avg bs.flatten = avg ms := by
    rw [← avgOf_id, avgOf_flatten hb, e1]
    exact congrArg (fun g => avg (bs.map g)) (funext fun b => avgOf_id b)
  have a2 : avgOf (fun x => x ^ 2) ms = avg (bs.map fun b => avg b ^ 2) := by rw [e1, avgOf, List.map_map]; rfl
  have a3 : avg vs = avg (bs.map (avgOf fun x => x ^ 2)) - avg (bs.map fun b => avg b ^ 2) := by
    rw [e2, avg, avg, avg, List.length_map, List.length_map, List.length_map, ← sub_div]
    congr 1
    clear h1 h2 h0 hb hf e1 e2 a1 a2
    induction bs with
    | nil => simp
    | cons b bs ih => simp only [List.map_cons, List.sum_cons, ih]; ring
  rw [avgOf_flatten hb, a1, a2, a3]
  ring

example : ∃ within between, mean [1, 4] = .ok within ∧ variance ([2, 6] : List ℝ) = .ok between ∧
    variance ([[1, 3], [4, 8]] : List (List ℝ)).flatten = .ok (within + between) :=
  C151_variance (by norm_num) two_blocks (by simp) two_means (by
    refine List.Forall₂.cons ?_ (List.Forall₂.cons ?_ List.Forall₂.nil) <;>
      norm_num [variance, moment, nthMoment, mean, accumulate, fdiv, nthPower, Bind.bind, Except.bind])

end Edsp.C151
