import Verif.Lemmas.Order
import Verif.Spec.Sounding
import Verif.Props.C45_Transforms
import Verif.Props.C94_RoundedSums
import Verif.Model.RoundedFeatures

/-! # C133: zeros before, between and after the samples -/

namespace Edsp.C133

open Edsp Edsp.Spec Edsp.Stat Edsp.FloatL

/-! ### Loops that skip zeros -/

theorem foldl_sounding {S : Type} (I : S → Prop) (f : S → ℝ → S) (hI : ∀ s x, I s → I (f s x))
    (h0 : ∀ s, I s → f s 0 = s) : ∀ (xs : List ℝ) (s : S), I s → xs.foldl f s = (sounding xs).foldl f s := by
  intro xs
  induction xs with
  | nil => intro s _; rfl
  | cons x xs ih =>
    intro s hs
    rw [List.foldl_cons, ih _ (hI s x hs)]
    by_cases hx : x = 0
    · subst hx
      rw [h0 s hs, sounding, sounding, List.filter_cons_of_neg (by simp)]
    · rw [sounding, sounding, List.filter_cons_of_pos (by simpa using hx), List.foldl_cons]

theorem foldl_same {S : Type} (I : S → Prop) (f : S → ℝ → S) (hI : ∀ s x, I s → I (f s x))
    (h0 : ∀ s, I s → f s 0 = s) {xs ys : List ℝ} (h : sounding xs = sounding ys) {s : S} (hs : I s) :
    xs.foldl f s = ys.foldl f s := by
  rw [foldl_sounding I f hI h0 xs s hs, foldl_sounding I f hI h0 ys s hs, h]

theorem innerSelf_same {xs ys : List ℝ} (h : sounding xs = sounding ys) (a : ℝ) :
    Seq.innerSelf a xs = Seq.innerSelf a ys :=
  foldl_same (fun _ => True) _ (fun _ _ _ => trivial) (fun s _ => by ring) h trivial

theorem mem_sounding {xs ys : List ℝ} (h : sounding xs = sounding ys) {x : ℝ} (hx : x ∈ xs) (h0 : x ≠ 0) : x ∈ ys := by
  have : x ∈ sounding xs := List.mem_filter.mpr ⟨hx, by simpa using h0⟩
  rw [h] at this
  exact (List.mem_filter.mp this).1

theorem maxabs_same {xs ys : List ℝ} (h : sounding xs = sounding ys) (h0 : xs ≠ []) (h1 : ys ≠ []) :
    Seq.maxabs xs = Seq.maxabs ys := by
  obtain ⟨v, e, ⟨x, hx, rfl⟩, hm⟩ := ExtremumL.maxabs_ok h0
  obtain ⟨w, e', ⟨y, hy, rfl⟩, hm'⟩ := ExtremumL.maxabs_ok h1
  have a : |x| ≤ |y| := by
    by_cases hz : x = 0
    · rw [hz, abs_zero]; exact abs_nonneg y
    · exact hm' x (mem_sounding h hx hz)
  have b : |y| ≤ |x| := by
    by_cases hz : y = 0
    · rw [hz, abs_zero]; exact abs_nonneg x
    · exact hm y (mem_sounding h.symm hy hz)
  rw [e, e', le_antisymm a b]

/-- **C133**: energy, root sum of squares, norm and loudness depend on the samples that are not zero only, and so do
the power times the number of samples and, for ranges that are not empty, the largest absolute value and the crest. -/
theorem C133_sums {xs ys : List ℝ} (h : sounding xs = sounding ys) :
    Seq.energy xs = Seq.energy ys ∧ Seq.rssq xs = Seq.rssq ys ∧ Stat.norm xs = Stat.norm ys ∧
      Feature.loudness xs = Feature.loudness ys ∧
      (xs ≠ [] → ys ≠ [] → Seq.maxabs xs = Seq.maxabs ys ∧ Feature.crest xs = Feature.crest ys ∧
        ∃ v w, Seq.power xs = .ok v ∧ Seq.power ys = .ok w ∧ xs.length * v = ys.length * w) := by
  have hE : Seq.energy xs = Seq.energy ys := innerSelf_same h 0
  refine ⟨hE, ?_, ?_, ?_, ?_⟩
  · unfold Seq.rssq; rw [innerSelf_same h]
  · unfold Stat.norm
    rw [show accumulate (fun x => |x| * |x|) 0 xs = accumulate (fun x => |x| * |x|) 0 ys from
      foldl_same (fun _ => True) _ (fun _ _ _ => trivial) (fun s _ => by simp) h trivial]
  · unfold Feature.loudness; rw [hE]
  · intro h0 h1
    refine ⟨maxabs_same h h0 h1, ?_, ?_⟩
    · unfold Feature.crest
      rw [maxabs_same h h0 h1, show accumulate (fun x => |x|) 0 xs = accumulate (fun x => |x|) 0 ys from
        foldl_same (fun _ => True) _ (fun _ _ _ => trivial) (fun s _ => by simp) h trivial]
    · have hx : (xs.length : ℝ) ≠ 0 := StatL.len_ne h0
      have hy : (ys.length : ℝ) ≠ 0 := StatL.len_ne h1
      refine ⟨_, _, by unfold Seq.power; rw [if_neg hx], by unfold Seq.power; rw [if_neg hy], ?_⟩
      rw [hE]
      field_simp

example : Seq.energy ([0, 3, 0, 0, 4] : List ℝ) = Seq.energy [3, 4, 0] :=
  (C133_sums (by norm_num [sounding, List.filter])).1

/-- **C133** in floating point arithmetic, exactly: sums, energy, norm and crest do not change by a single bit when
zeros are inserted or removed anywhere. -/
theorem C133_rounded {p : ℕ} (hp : 1 ≤ p) {xs ys : List ℝ} (h : sounding xs = sounding ys) :
    Rounded.accumulate p 0 xs = Rounded.accumulate p 0 ys ∧ Rounded.energy p xs = Rounded.energy p ys ∧
      Rounded.norm p xs = Rounded.norm p ys ∧ Rounded.maxabs xs = Rounded.maxabs ys ∧
      Rounded.crest p xs = Rounded.crest p ys := by
  have z : IsFloat p 0 := rnd_zero p ▸ isFloat_rnd hp 0
  have hs : ∀ g : ℝ → ℝ, g 0 = 0 → xs.foldl (fun s x => rnd p (s + g x)) 0 = ys.foldl (fun s x => rnd p (s + g x)) 0 := by
    intro g hg
    exact foldl_same (IsFloat p) _ (fun _ _ _ => isFloat_rnd hp _) (fun s hs => by rw [hg, add_zero, rnd_float hs]) h z
  have hm : Rounded.maxabs xs = Rounded.maxabs ys :=
    foldl_same (fun a : ℝ => 0 ≤ a) _
      (fun a x ha => by split <;> [exact abs_nonneg x; exact ha])
      (fun a ha => by rw [abs_zero, if_neg (not_lt.mpr ha)]) h le_rfl
  refine ⟨hs (fun x => x) rfl, hs (fun x => rnd p (x * x)) (by simp [rnd_zero]), ?_, hm, ?_⟩
  · unfold Rounded.norm
    rw [hs (fun x => rnd p (|x| * |x|)) (by simp [rnd_zero])]
  · unfold Rounded.crest Rounded.accumulate
    rw [hm, List.foldl_map, List.foldl_map, hs abs abs_zero]

example : Rounded.energy 24 [0, 0.1, 0, 0, 0.3] = Rounded.energy 24 [0.1, 0.3, 0] :=
  (C133_rounded (by norm_num) (by norm_num [sounding, List.filter])).2.1

/-! ### Zeros at the end of a spectrum, and before its first bin -/

theorem loopI_append {S : Type} (f : S → ℝ → ℝ → S) : ∀ (xs ys : List ℝ) (i : ℝ) (s : S),
    Feature.loopI f i s (xs ++ ys) = Feature.loopI f (i + xs.length) (Feature.loopI f i s xs) ys := by
  intro xs
  induction xs with
  | nil => intro ys i s; simp [Feature.loopI]
  | cons x xs ih =>
    intro ys i s
    rw [List.cons_append]
    simp only [Feature.loopI]
    rw [ih]
    congr 1
    push_cast [List.length_cons]
    ring

theorem loopI_zeros {S : Type} (f : S → ℝ → ℝ → S) (h : ∀ s i, f s i 0 = s) : ∀ (k : ℕ) (i : ℝ) (s : S),
    Feature.loopI f i s (List.replicate k 0) = s := by
  intro k
  induction k with
  | zero => intro i s; rfl
  | succ k ih => intro i s; rw [List.replicate_succ]; simp only [Feature.loopI]; rw [h, ih]

/-- **C133**: zeros at the end of a spectrum change neither its centroid nor its spread. -/
theorem C133_tail (l : List ℝ) (k : ℕ) :
    Feature.centroid (l ++ List.replicate k 0) = Feature.centroid l ∧
      Feature.spread (l ++ List.replicate k 0) = Feature.spread l := by
  have hc : Feature.centroid (l ++ List.replicate k 0) = Feature.centroid l := by
    unfold Feature.centroid
    rw [loopI_append, loopI_zeros _ (fun s i => by simp)]
  refine ⟨hc, ?_⟩
  unfold Feature.spread
  rw [hc]
  refine congrArg (fun f => Feature.centroid l >>= f) (funext fun c => ?_)
  dsimp only
  rw [loopI_append, loopI_zeros _ (fun s i => by simp)]

example : Feature.centroid [1, 2, 0, 0] = Feature.centroid [1, 2] := (C133_tail [1, 2] 2).1

theorem loopI_shift {S : Type} (f : S → ℝ → ℝ → S) (k : ℝ) : ∀ (xs : List ℝ) (i : ℝ) (s : S),
    Feature.loopI f (i + k) s xs = Feature.loopI (fun s i x => f s (i + k) x) i s xs := by
  intro xs
  induction xs with
  | nil => intro i s; rfl
  | cons x xs ih =>
    intro i s
    simp only [Feature.loopI]
    rw [show i + k + 1 = i + 1 + k by ring, ih]

theorem centroid_shift (k : ℝ) : ∀ (xs : List ℝ) (i : ℝ) (s t : ℝ × ℝ), t = (s.1 + k * s.2, s.2) →
    Feature.loopI (fun (s : ℝ × ℝ) i x => (s.1 + (i + k) * x, s.2 + x)) i t xs =
      ((Feature.loopI (fun (s : ℝ × ℝ) i x => (s.1 + i * x, s.2 + x)) i s xs).1 +
        k * (Feature.loopI (fun (s : ℝ × ℝ) i x => (s.1 + i * x, s.2 + x)) i s xs).2,
        (Feature.loopI (fun (s : ℝ × ℝ) i x => (s.1 + i * x, s.2 + x)) i s xs).2) := by
  intro xs
  induction xs with
  | nil => intro i s t h; exact h
  | cons x xs ih =>
    intro i s t h
    simp only [Feature.loopI]
    refine ih _ _ _ ?_
    rw [h]
    ext <;> simp
    ring

/-- **C133**: `k` zeros before the first bin move the centroid by `k` bins and leave the spread as it is. -/
theorem C133_delay (l : List ℝ) (k : ℕ) :
    Feature.centroid (List.replicate k 0 ++ l) = (Feature.centroid l).map (· + (k : ℝ)) ∧
      Feature.spread (List.replicate k 0 ++ l) = Feature.spread l := by
  have hc : Feature.centroid (List.replicate k 0 ++ l) = (Feature.centroid l).map (· + (k : ℝ)) := by
    unfold Feature.centroid
    rw [loopI_append, loopI_zeros _ (fun s i => by simp), List.length_replicate, loopI_shift,
      centroid_shift (k : ℝ) l 0 (0, 0) (0, 0) (by simp)]
    dsimp only
    unfold fdiv
    split
    · rfl
    · rename_i h
      simp only [Except.map]
      rw [add_div, mul_div_assoc, div_self h, mul_one]
  refine ⟨hc, ?_⟩
  unfold Feature.spread
  rw [hc]
  rcases Feature.centroid l with e | c
  · rfl
  · simp only [Except.map, bind, Except.bind]
    rw [loopI_append, loopI_zeros _ (fun s i => by simp), List.length_replicate, loopI_shift]
    simp only [add_sub_add_right_eq_sub]

example : Feature.centroid [0, 0, 1, 3] = (Feature.centroid [1, 3]).map (· + ((2 : ℕ) : ℝ)) := (C133_delay [1, 3] 2).1

theorem centroidLoop_zeros {p : ℕ} : ∀ (k : ℕ) (i : ℝ) (s : ℝ × ℝ), IsFloat p s.1 → IsFloat p s.2 →
    Rounded.centroidLoop p i s (List.replicate k 0) = s := by
  intro k
  induction k with
  | zero => intro i s _ _; rfl
  | succ k ih =>
    intro i s h1 h2
    rw [List.replicate_succ]
    simp only [Rounded.centroidLoop, mul_zero, rnd_zero, add_zero, rnd_float h1, rnd_float h2]
    exact ih _ _ h1 h2

theorem centroidLoop_append {p : ℕ} (ys : List ℝ) : ∀ (xs : List ℝ) (i : ℝ) (s : ℝ × ℝ),
    ∃ j, Rounded.centroidLoop p i s (xs ++ ys) = Rounded.centroidLoop p j (Rounded.centroidLoop p i s xs) ys := by
  intro xs
  induction xs with
  | nil => intro i s; exact ⟨i, rfl⟩
  | cons x xs ih => intro i s; simp only [List.cons_append, Rounded.centroidLoop]; exact ih _ _

theorem centroidLoop_float {p : ℕ} (hp : 1 ≤ p) : ∀ (xs : List ℝ) (i : ℝ) (s : ℝ × ℝ), IsFloat p s.1 → IsFloat p s.2 →
    IsFloat p (Rounded.centroidLoop p i s xs).1 ∧ IsFloat p (Rounded.centroidLoop p i s xs).2 := by
  intro xs
  induction xs with
  | nil => intro i s h1 h2; exact ⟨h1, h2⟩
  | cons x xs ih => intro i s _ _; exact ih _ _ (isFloat_rnd hp _) (isFloat_rnd hp _)

theorem spreadLoop_zeros {p : ℕ} (c : ℝ) : ∀ (k : ℕ) (i : ℝ) (s : ℝ × ℝ), IsFloat p s.1 → IsFloat p s.2 →
    Rounded.spreadLoop p c i s (List.replicate k 0) = s := by
  intro k
  induction k with
  | zero => intro i s _ _; rfl
  | succ k ih =>
    intro i s h1 h2
    rw [List.replicate_succ]
    simp only [Rounded.spreadLoop, mul_zero, rnd_zero, add_zero, rnd_float h1, rnd_float h2]
    exact ih _ _ h1 h2

theorem spreadLoop_append {p : ℕ} (c : ℝ) (ys : List ℝ) : ∀ (xs : List ℝ) (i : ℝ) (s : ℝ × ℝ),
    ∃ j, Rounded.spreadLoop p c i s (xs ++ ys) = Rounded.spreadLoop p c j (Rounded.spreadLoop p c i s xs) ys := by
  intro xs
  induction xs with
  | nil => intro i s; exact ⟨i, rfl⟩
  | cons x xs ih => intro i s; simp only [List.cons_append, Rounded.spreadLoop]; exact ih _ _

theorem spreadLoop_float {p : ℕ} (hp : 1 ≤ p) (c : ℝ) : ∀ (xs : List ℝ) (i : ℝ) (s : ℝ × ℝ), IsFloat p s.1 →
    IsFloat p s.2 → IsFloat p (Rounded.spreadLoop p c i s xs).1 ∧ IsFloat p (Rounded.spreadLoop p c i s xs).2 := by
  intro xs
  induction xs with
  | nil => intro i s h1 h2; exact ⟨h1, h2⟩
  | cons x xs ih => intro i s _ _; exact ih _ _ (isFloat_rnd hp _) (isFloat_rnd hp _)

/-- **C133** in floating point arithmetic, exactly: zeros at the end change neither the centroid nor the spread. -/
theorem C133_rounded_tail {p : ℕ} (hp : 1 ≤ p) (l : List ℝ) (k : ℕ) :
    Rounded.centroid p (l ++ List.replicate k 0) = Rounded.centroid p l ∧
      Rounded.spread p (l ++ List.replicate k 0) = Rounded.spread p l := by
  have z : IsFloat p 0 := rnd_zero p ▸ isFloat_rnd hp 0
  have hc : Rounded.centroid p (l ++ List.replicate k 0) = Rounded.centroid p l := by
    unfold Rounded.centroid
    obtain ⟨j, hj⟩ := centroidLoop_append (p := p) (List.replicate k 0) l 0 (0, 0)
    obtain ⟨h1, h2⟩ := centroidLoop_float hp l 0 (0, 0) z z
    rw [hj, centroidLoop_zeros k j _ h1 h2]
  refine ⟨hc, ?_⟩
  unfold Rounded.spread
  rw [hc]
  congr 1
  funext c
  obtain ⟨j, hj⟩ := spreadLoop_append (p := p) c (List.replicate k 0) l 0 (0, 0)
  obtain ⟨h1, h2⟩ := spreadLoop_float hp c l 0 (0, 0) z z
  dsimp only
  rw [hj, spreadLoop_zeros c k j _ h1 h2]

example : Rounded.centroid 53 [1, 0.2, 0, 0] = Rounded.centroid 53 [1, 0.2] := (C133_rounded_tail (by norm_num) [1, 0.2] 2).1

theorem rolloffLoop_append (limit : ℝ) (ys : List ℝ) : ∀ (xs : List ℝ) (a : ℝ), limit < Seq.innerSelf a xs →
    Feature.rolloffLoop limit a (xs ++ ys) = Feature.rolloffLoop limit a xs := by
  intro xs
  induction xs with
  | nil =>
    intro a h
    rcases ys with _ | ⟨y, ys⟩
    · rfl
    · simp only [List.nil_append, Feature.rolloffLoop]
      rw [if_neg (not_le.mpr (show limit < a from h))]
  | cons x xs ih =>
    intro a h
    simp only [List.cons_append, Feature.rolloffLoop]
    split
    · rw [ih _ h]
    · rfl

/-- **C133**: zeros at the end leave the bin of the roll-off where it is (the function returns its index divided by the
number of bins), for every fraction below 1 of an energy that is not 0. -/
theorem C133_rolloff {l : List ℝ} (k : ℕ) {q : ℝ} (hq : q < 1) (hE : 0 < Seq.energy l) :
    ∃ v w, Feature.rolloff l q = .ok v ∧ Feature.rolloff (l ++ List.replicate k 0) q = .ok w ∧
      l.length * v = (l ++ List.replicate k 0).length * w := by
  have h0 : l ≠ [] := by rintro rfl; simp [Seq.energy, Seq.innerSelf] at hE
  have h1 : l ++ List.replicate k 0 ≠ [] := by simp [h0]
  have hx : (l.length : ℝ) ≠ 0 := StatL.len_ne h0
  have hy : ((l ++ List.replicate k (0 : ℝ)).length : ℝ) ≠ 0 := StatL.len_ne h1
  have e : Seq.energy (l ++ List.replicate k 0) = Seq.energy l :=
    (C133_sums (by simp [sounding, List.filter_append])).1
  have hlt : q * Seq.energy l < Seq.innerSelf 0 l := by
    have := mul_lt_mul_of_pos_right hq hE
    rwa [one_mul] at this
  refine ⟨_, _, StatL.fdiv_ok hx, StatL.fdiv_ok hy, ?_⟩
  rw [e, rolloffLoop_append _ _ _ _ hlt]
  field_simp

example : ∃ v w, Feature.rolloff [3, 4] (1 / 2) = .ok v ∧ Feature.rolloff ([3, 4] ++ List.replicate 2 0) (1 / 2) = .ok w ∧
    ([3, 4] : List ℝ).length * v = ([3, 4] ++ List.replicate 2 (0 : ℝ)).length * w :=
  C133_rolloff 2 (by norm_num) (by norm_num [Seq.energy, Seq.innerSelf])

/-! ### Zero padding and the spectrum -/

theorem bin_padded (x : List ℂ) {L : ℕ} (hL : 0 < L) (k : ℕ) :
    bin (x ++ List.replicate ((L - 1) * x.length) 0) (L * k) = bin x k := by
  have hlen : (x ++ List.replicate ((L - 1) * x.length) (0 : ℂ)).length = L * x.length := by
    rw [List.length_append, List.length_replicate]
    obtain ⟨L, rfl⟩ : ∃ L', L = L' + 1 := ⟨L - 1, by omega⟩
    rw [Nat.add_sub_cancel]
    ring
  unfold bin
  rw [hlen]
  have hsub : Finset.range x.length ⊆ Finset.range (L * x.length) := by
    intro j hj
    rw [Finset.mem_range] at hj ⊢
    exact lt_of_lt_of_le hj (Nat.le_mul_of_pos_left _ hL)
  rw [← Finset.sum_subset hsub]
  · refine Finset.sum_congr rfl fun j hj => ?_
    rw [Finset.mem_range] at hj
    have hn : (x.length : ℝ) ≠ 0 := by exact_mod_cast (by omega : x.length ≠ 0)
    have hL' : (L : ℝ) ≠ 0 := by exact_mod_cast hL.ne'
    have e : 2 * Real.pi * ((L * k : ℕ) : ℝ) * j / ((L * x.length : ℕ) : ℝ) = 2 * Real.pi * k * j / x.length := by
      push_cast
      field_simp
    rw [e]
    simp only [List.getD_eq_getElem?_getD, List.getElem?_append_left hj]
  · intro j _ hj
    rw [Finset.mem_range, not_lt] at hj
    have : (x ++ List.replicate ((L - 1) * x.length) (0 : ℂ)).getD j 0 = 0 := by
      simp only [List.getD_eq_getElem?_getD, List.getElem?_append_right hj, List.getElem?_replicate]
      split <;> rfl
    rw [this, zero_mul]

theorem wrote_at {m m' : List ℂ} {d n k : ℕ} {g : ℕ → ℂ} (h : Wrote m m' d ((List.range n).map g)) (hk : k < n) :
    m'[d + k]? = some (g k) := by
  have := (Mem.wrote_iff.mp h).2.2.1 k (by simpa using hk)
  rw [this, List.getElem?_map, List.getElem?_range hk]
  rfl

/-- **C133**: the transform of a frame continued with zeros to `L` times its length has the bins of the frame at every
`L`-th place; the bins between interpolate the same spectrum. -/
theorem C133_spectrum {s t : List ℝ} {m m2 : List ℂ} {f1 f2 n d d2 L : ℕ} (h0 : 0 < n) (hL : 0 < L)
    (h31 : L * n < 2147483648) (hs : f1 + n ≤ s.length) (ht : f2 + L * n ≤ t.length) (hd : d + (n / 2 + 1) ≤ m.length)
    (hd2 : d2 + (L * n / 2 + 1) ≤ m2.length)
    (hpad : seg t f2 (f2 + L * n) = seg s f1 (f1 + n) ++ List.replicate ((L - 1) * n) 0) :
    ∃ A B, Spectral.dft s f1 (f1 + n) m d = .ok A ∧ Spectral.dft t f2 (f2 + L * n) m2 d2 = .ok B ∧
      ∀ k ≤ n / 2, ∃ v, A[d + k]? = some v ∧ B[d2 + L * k]? = some v := by
  have hn : n ≤ L * n := Nat.le_mul_of_pos_left _ hL
  obtain ⟨A, eA, wA⟩ := Spectral.C45_dft h0 (by omega) hs hd
  obtain ⟨B, eB, wB⟩ := Spectral.C45_dft (n := L * n) (by positivity) h31 ht hd2
  refine ⟨A, B, eA, eB, fun k hk => ⟨_, wrote_at wA (by omega), ?_⟩⟩
  have hk2 : L * k ≤ L * n / 2 := by
    rw [Nat.le_div_iff_mul_le (by norm_num), mul_assoc]
    exact Nat.mul_le_mul_left L (by omega)
  rw [wrote_at wB (by omega), hpad]
  have hlen : (ofReals (seg s f1 (f1 + n))).length = n := by
    unfold ofReals seg
    simp
    omega
  have := bin_padded (ofReals (seg s f1 (f1 + n))) hL k
  rw [hlen] at this
  rw [← this]
  simp [ofReals]

example : ∃ A B, Spectral.dft [1, 2] 0 (0 + 2) [0, 0] 0 = .ok A ∧
    Spectral.dft [1, 2, 0, 0, 0, 0] 0 (0 + 3 * 2) [0, 0, 0, 0] 0 = .ok B ∧
    ∀ k ≤ 2 / 2, ∃ v, A[0 + k]? = some v ∧ B[0 + 3 * k]? = some v :=
  C133_spectrum (by norm_num) (by norm_num) (by norm_num) (by simp) (by simp) (by simp) (by simp) (by simp [seg])

end Edsp.C133
