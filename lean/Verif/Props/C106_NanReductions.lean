import Verif.Model.ExtendedReductions
import Verif.Lemmas.Extended
import Verif.Props.C94_RoundedSums

/-!
# C106: extrema, sums, normalization and clipping of samples that are not finite, and overflow

A NaN should be ignored or reported whatever its position; clipped samples should be within the limits; the mean and the
root sum of squares of finite numbers should be finite.
-/

namespace Edsp.Extended

open Edsp Edsp.Spec Edsp.Spec.Ext Edsp.FloatL

/-! ### Extrema -/

/-- An order that answers false for NaN and is a weak order otherwise. -/
structure NanOrder (lt : Ext → Ext → Bool) : Prop where
  left : ∀ b, lt nan b = false
  right : ∀ a, lt a nan = false
  irrefl : ∀ a, lt a a = false
  trans : ∀ a b c, b ≠ nan → lt a b = false → lt b c = false → lt a c = false
  asymm : ∀ a b, lt a b = true → lt b a = false

theorem less_iff {a b : Ext} : less a b = true ↔ Lt a b := by simp [less]

theorem less_false {a b : Ext} : less a b = false ↔ ¬ Lt a b := by simp [less]

theorem less_order : NanOrder less where
  left b := by rw [less_false]; exact id
  right a := by rw [less_false]; cases a <;> exact id
  irrefl a := by
    rw [less_false]
    cases a with
    | nan => exact id
    | inf s => cases s <;> simp [Lt]
    | fin x => exact lt_irrefl x
  trans a b c hb := by
    rw [less_false, less_false, less_false]
    rcases a with _ | (_ | _) | x <;> rcases b with _ | (_ | _) | y <;> rcases c with _ | (_ | _) | z <;>
      simp_all [Lt]
    intro h1 h2
    exact h2.trans h1
  asymm a b := by
    rw [less_iff, less_false]
    rcases a with _ | (_ | _) | x <;> rcases b with _ | (_ | _) | y <;> simp [Lt]
    exact fun h => h.le

theorem abs_nan {a : Ext} : a.abs = nan ↔ a = nan := by cases a <;> simp [Ext.abs]

theorem lessAbs_order : NanOrder lessAbs where
  left _ := less_order.left _
  right _ := less_order.right _
  irrefl _ := less_order.irrefl _
  trans _ _ _ hb := less_order.trans _ _ _ (fun h => hb (abs_nan.mp h))
  asymm _ _ := less_order.asymm _ _

theorem NanOrder.flip {lt : Ext → Ext → Bool} (h : NanOrder lt) : NanOrder fun b y => lt y b where
  left b := h.right b
  right a := h.left a
  irrefl := h.irrefl
  trans a b c hb h1 h2 := h.trans c b a hb h2 h1
  asymm a b := h.asymm b a

theorem maxLoop_nan {lt : Ext → Ext → Bool} (h : NanOrder lt) (xs : List Ext) : ∀ i k,
    Seq.maxLoop lt xs i (k, nan) = (k, nan) := by
  induction xs with
  | nil => intro i k; rfl
  | cons x xs ih => intro i k; rw [Seq.maxLoop, h.left, if_neg (by simp), ih]

/-- The loop with a best value that is not NaN. -/
theorem maxLoop_best {lt : Ext → Ext → Bool} (h : NanOrder lt) (xs : List Ext) : ∀ (pre : List Ext) (b : ℕ × Ext),
    b.2 ≠ nan → pre[b.1]? = some b.2 → (∀ z ∈ pre, lt b.2 z = false) →
    (Seq.maxLoop lt xs pre.length b).2 ≠ nan ∧
      (pre ++ xs)[(Seq.maxLoop lt xs pre.length b).1]? = some (Seq.maxLoop lt xs pre.length b).2 ∧
      ∀ z ∈ pre ++ xs, lt (Seq.maxLoop lt xs pre.length b).2 z = false := by
  induction xs with
  | nil => intro pre b h1 h2 h3; simpa [Seq.maxLoop] using ⟨h1, h2, h3⟩
  | cons x xs ih =>
    intro pre b h1 h2 h3
    have e : pre ++ x :: xs = pre ++ [x] ++ xs := by simp
    have hl : pre.length + 1 = (pre ++ [x]).length := by simp
    have hb : b.1 < pre.length := by
      by_contra hc
      rw [List.getElem?_eq_none (by omega)] at h2
      cases h2
    rw [e, Seq.maxLoop, hl]
    cases hx : lt b.2 x with
    | true =>
      rw [if_pos rfl]
      refine ih (pre ++ [x]) (pre.length, x) ?_ (by simp) ?_
      · rintro rfl
        rw [h.right] at hx
        cases hx
      · intro z hz
        rw [List.mem_append, List.mem_singleton] at hz
        rcases hz with hz | rfl
        · exact h.trans _ _ _ h1 (h.asymm _ _ hx) (h3 z hz)
        · exact h.irrefl z
    | false =>
      rw [if_neg (by simp)]
      refine ih (pre ++ [x]) b h1 (by rw [List.getElem?_append_left hb]; exact h2) ?_
      intro z hz
      rw [List.mem_append, List.mem_singleton] at hz
      rcases hz with hz | rfl
      · exact h3 z hz
      · exact hx

theorem maxElement_best {lt : Ext → Ext → Bool} (h : NanOrder lt) {x : Ext} (hx : x ≠ nan) (xs : List Ext) :
    ∃ i v, Seq.maxElement lt (x :: xs) = .ok (i, v) ∧ v ≠ nan ∧ (x :: xs)[i]? = some v ∧
      ∀ z ∈ x :: xs, lt v z = false := by
  obtain ⟨h1, h2, h3⟩ := maxLoop_best h xs [x] (0, x) hx rfl (by
    intro z hz
    rw [List.mem_singleton] at hz
    rw [hz]
    exact h.irrefl x)
  exact ⟨_, _, rfl, h1, h2, h3⟩

/-- **C106**, `max`, `min`, `peak` and the functions of the magnitude, if the first sample is not NaN: NaNs are ignored;
the result is a sample, not NaN, and no sample exceeds it (falls below it).
Missing: NaN as the first sample (`C106_extrema_violates`). -/
theorem C106_extrema_partial {x : Ext} (hx : x ≠ nan) (xs : List Ext) :
    (∃ v, max (x :: xs) = .ok v ∧ v ≠ nan ∧ v ∈ x :: xs ∧ ∀ z ∈ x :: xs, ¬ Lt v z) ∧
    (∃ v, min (x :: xs) = .ok v ∧ v ≠ nan ∧ v ∈ x :: xs ∧ ∀ z ∈ x :: xs, ¬ Lt z v) ∧
    (∃ v, maxabs (x :: xs) = .ok v.abs ∧ v ≠ nan ∧ v ∈ x :: xs ∧ ∀ z ∈ x :: xs, ¬ Lt v.abs z.abs) ∧
    (∃ v, minabs (x :: xs) = .ok v.abs ∧ v ≠ nan ∧ v ∈ x :: xs ∧ ∀ z ∈ x :: xs, ¬ Lt z.abs v.abs) ∧
    (∃ i v, peak (x :: xs) = .ok (i, v) ∧ v ≠ nan ∧ (x :: xs)[i]? = some v ∧ ∀ z ∈ x :: xs, ¬ Lt v z) ∧
    (∃ i v, peakabs (x :: xs) = .ok (i, v) ∧ v ≠ nan ∧ (x :: xs)[i]? = some v ∧
      ∀ z ∈ x :: xs, ¬ Lt v.abs z.abs) := by
  obtain ⟨i, v, a1, a2, a3, a4⟩ := maxElement_best less_order hx xs
  obtain ⟨j, w, b1, b2, b3, b4⟩ := maxElement_best less_order.flip hx xs
  obtain ⟨k, u, c1, c2, c3, c4⟩ := maxElement_best lessAbs_order hx xs
  obtain ⟨l, t, d1, d2, d3, d4⟩ := maxElement_best lessAbs_order.flip hx xs
  have f1 : Seq.minElement less (x :: xs) = .ok (j, w) := b1
  have f2 : Seq.minElement lessAbs (x :: xs) = .ok (l, t) := d1
  refine ⟨⟨v, by rw [max, a1]; rfl, a2, List.mem_of_getElem? a3, fun z hz => less_false.mp (a4 z hz)⟩,
    ⟨w, by rw [min, f1]; rfl, b2, List.mem_of_getElem? b3, fun z hz => less_false.mp (b4 z hz)⟩,
    ⟨u, by rw [maxabs, c1]; rfl, c2, List.mem_of_getElem? c3, fun z hz => less_false.mp (c4 z hz)⟩,
    ⟨t, by rw [minabs, f2]; rfl, d2, List.mem_of_getElem? d3, fun z hz => less_false.mp (d4 z hz)⟩,
    ⟨i, v, a1, a2, a3, fun z hz => less_false.mp (a4 z hz)⟩,
    ⟨k, u, c1, c2, c3, fun z hz => less_false.mp (c4 z hz)⟩⟩

/-- **C106 is violated**: a NaN as the first sample is the maximum, the minimum and the peak, whatever follows. -/
theorem C106_extrema_violates (xs : List Ext) :
    max (nan :: xs) = .ok nan ∧ min (nan :: xs) = .ok nan ∧ maxabs (nan :: xs) = .ok nan ∧
      minabs (nan :: xs) = .ok nan ∧ peak (nan :: xs) = .ok (0, nan) ∧ peakabs (nan :: xs) = .ok (0, nan) := by
  have a := maxLoop_nan less_order xs 1 0
  have b := maxLoop_nan less_order.flip xs 1 0
  have c := maxLoop_nan lessAbs_order xs 1 0
  have d := maxLoop_nan lessAbs_order.flip xs 1 0
  have a1 : Seq.maxElement less (nan :: xs) = .ok (0, nan) := congrArg _ a
  have b1 : Seq.minElement less (nan :: xs) = .ok (0, nan) := congrArg _ b
  have c1 : Seq.maxElement lessAbs (nan :: xs) = .ok (0, nan) := congrArg _ c
  have d1 : Seq.minElement lessAbs (nan :: xs) = .ok (0, nan) := congrArg _ d
  refine ⟨?_, ?_, ?_, ?_, a1, c1⟩
  · rw [max, a1]; rfl
  · rw [min, b1]; rfl
  · rw [maxabs, c1]; rfl
  · rw [minabs, d1]; rfl

/-- **C106 is violated**: the same samples in another order have another maximum. -/
theorem C106_order_violates {x : Ext} (hx : x ≠ nan) (xs : List Ext) :
    ∃ v, List.Perm (nan :: x :: xs) (x :: xs ++ [nan]) ∧ max (nan :: x :: xs) = .ok nan ∧
      max (x :: xs ++ [nan]) = .ok v ∧ v ≠ nan := by
  obtain ⟨⟨v, h1, h2, -, -⟩, -⟩ := C106_extrema_partial hx (xs ++ [nan])
  exact ⟨v, (List.perm_append_singleton nan (x :: xs)).symm, (C106_extrema_violates _).1, h1, h2⟩

/-! ### Normalization -/

/-- **C106 is violated** by `normalize`: if the first sample is NaN, all results are. -/
theorem C106_normalize_violates (R : ℝ → Ext) (xs : List Ext) :
    normalize R (nan :: xs) = .ok (List.replicate (xs.length + 1) nan) := by
  have h := (C106_extrema_violates xs).2.2.1
  have hd : ∀ v, div R v nan = nan := by intro v; cases v <;> rfl
  simp only [normalize, h, bind, Except.bind, pure, Except.pure, hd]
  rw [List.map_const', List.length_cons]

/-- **C106 is violated** by `normalize`: if there is an infinite sample, all finite samples become 0 and the infinite
ones NaN. -/
theorem C106_normalize_inf_violates (R : ℝ → Ext) {x : Ext} (hx : x ≠ nan) {xs : List Ext} {s : Bool}
    (hs : inf s ∈ x :: xs) :
    ∃ ys, normalize R (x :: xs) = .ok ys ∧ ys.length = xs.length + 1 ∧
      (∀ (i : ℕ) a, (x :: xs)[i]? = some (fin a) → ys[i]? = some (fin 0)) ∧
      ∀ (i : ℕ) v, (x :: xs)[i]? = some v → ¬ v.Finite → ys[i]? = some nan := by
  obtain ⟨-, -, ⟨v, h1, h2, h3, h4⟩, -⟩ := C106_extrema_partial hx xs
  have hv : v.abs = inf false := by
    have := h4 _ hs
    cases v with
    | nan => exact absurd rfl h2
    | inf t => rfl
    | fin a => exact absurd rfl this
  refine ⟨(x :: xs).map fun w => div R w (inf false), ?_, by simp, fun i a hw => ?_, fun i w hw hn => ?_⟩
  · simp only [normalize, h1, hv, bind, Except.bind, pure, Except.pure]
  · rw [List.getElem?_map, hw]; rfl
  · rw [List.getElem?_map, hw]
    cases w with
    | nan => rfl
    | inf t => rfl
    | fin a => exact absurd (fin_is a) hn

theorem rnd_one {p : ℕ} (hp : 1 ≤ p) : rnd p 1 = 1 := by
  have := rnd_int hp (m := 1) (by rw [abs_one]; exact one_le_pow₀ (by norm_num))
  simpa using this

/-- **C106**, `normalize` without infinite samples, the first not NaN and one other than 0: NaNs stay, the others are
divided by the greatest magnitude and lie within 1.
Missing: infinite samples and NaN as the first sample (`C106_normalize_violates`, `C106_normalize_inf_violates`). -/
theorem C106_normalize_partial {p : ℕ} (hp : 1 ≤ p) {M : ℝ} (hM : 1 < M) {x : Ext} (hx : x ≠ nan) {xs : List Ext}
    (hf : ∀ s, inf s ∉ x :: xs) {a₀ : ℝ} (h0 : a₀ ≠ 0) (ha : fin a₀ ∈ x :: xs) :
    ∃ F ys, (∃ a, fin a ∈ x :: xs ∧ |a| = F) ∧ (∀ a, fin a ∈ x :: xs → |a| ≤ F) ∧ 0 < F ∧
      normalize (round (rnd p) M) (x :: xs) = .ok ys ∧ ys.length = xs.length + 1 ∧
      (∀ i : ℕ, (x :: xs)[i]? = some nan → ys[i]? = some nan) ∧
      ∀ (i : ℕ) a, (x :: xs)[i]? = some (fin a) → ys[i]? = some (fin (rnd p (a / F))) ∧ |rnd p (a / F)| ≤ 1 := by
  obtain ⟨-, -, ⟨v, h1, h2, h3, h4⟩, -⟩ := C106_extrema_partial hx xs
  obtain ⟨b, rfl⟩ : ∃ b, v = fin b := by
    cases v with
    | nan => exact absurd rfl h2
    | inf t => exact absurd h3 (hf t)
    | fin a => exact ⟨a, rfl⟩
  have hle : ∀ a, fin a ∈ x :: xs → |a| ≤ |b| := fun a h => not_lt.mp (h4 _ h)
  have hb : 0 < |b| := (abs_pos.mpr h0).trans_le (hle _ ha)
  have h1r : ∀ a, fin a ∈ x :: xs → |rnd p (a / |b|)| ≤ 1 := by
    intro a h
    have h2 := hle a h
    rw [abs_le] at h2
    have u : a / |b| ≤ 1 := (div_le_one hb).mpr h2.2
    have l : -1 ≤ a / |b| := by rw [le_div_iff₀ hb]; linarith
    rw [abs_le]
    constructor
    · have := rnd_mono hp l
      rwa [rnd_neg, rnd_one hp] at this
    · have := rnd_mono hp u
      rwa [rnd_one hp] at this
  refine ⟨|b|, (x :: xs).map fun w => div (round (rnd p) M) w (fin |b|), ⟨b, h3, rfl⟩, hle, hb, ?_, by simp,
    fun i h => ?_, fun i a h => ?_⟩
  · simp only [normalize, h1, Ext.abs, bind, Except.bind, pure, Except.pure]
  · rw [List.getElem?_map, h]; rfl
  · have hm := h1r a (List.mem_of_getElem? h)
    refine ⟨?_, hm⟩
    rw [List.getElem?_map, h, Option.map_some, div_fin hb.ne' (by linarith)]

/-! ### Clipping -/

/-- **C106 is violated** by `clipper`: a NaN is not clipped. -/
theorem C106_clip_violates (lo hi : Ext) (n : ℕ) : clipper lo hi (List.replicate n nan) = List.replicate n nan := by
  have : clip1 lo hi nan = nan := by
    have h : ¬ Lt hi nan := by cases hi <;> exact id
    rw [clip1, if_neg (show ¬ Lt nan lo from id), if_neg h]
  rw [clipper, List.map_replicate, this]

/-- **C106**, `clipper` of samples that are not NaN: all results are within the limits, infinite samples become the
limits, and samples within the limits are unchanged.  Missing: NaN (`C106_clip_violates`). -/
theorem C106_clip_partial {lo hi : ℝ} (h : lo ≤ hi) (l : List Ext) (hl : nan ∉ l) :
    ∃ ys : List ℝ, clipper (fin lo) (fin hi) l = ys.map fin ∧ ys.length = l.length ∧ (∀ y ∈ ys, lo ≤ y ∧ y ≤ hi) ∧
      (∀ (i : ℕ) s, l[i]? = some (inf s) → ys[i]? = some (if s then lo else hi)) ∧
      ∀ (i : ℕ) a, l[i]? = some (fin a) → ys[i]? = some (Max.max lo (Min.min a hi)) := by
  classical
  let g : Ext → ℝ := fun v => match v with
    | nan => lo
    | inf s => if s then lo else hi
    | fin a => Max.max lo (Min.min a hi)
  have hg : ∀ v, v ≠ nan → clip1 (fin lo) (fin hi) v = fin (g v) := by
    intro v hv
    cases v with
    | nan => exact absurd rfl hv
    | inf s =>
      cases s
      · show (if Lt (inf false) (fin lo) then _ else if Lt (fin hi) (inf false) then _ else _) = _
        rw [if_neg (by simp [Lt]), if_pos (by simp [Lt])]
        rfl
      · show (if Lt (inf true) (fin lo) then _ else _) = _
        rw [if_pos (by simp [Lt])]
        rfl
    | fin a =>
      show (if a < lo then fin lo else if hi < a then fin hi else fin a) = fin (Max.max lo (Min.min a hi))
      split
      · rename_i h1
        rw [min_eq_left (by linarith), max_eq_left h1.le]
      · split
        · rename_i h1 h2
          rw [min_eq_right h2.le, max_eq_right h]
        · rename_i h1 h2
          rw [min_eq_left (not_lt.mp h2), max_eq_right (not_lt.mp h1)]
  refine ⟨l.map g, ?_, by simp, ?_, ?_, ?_⟩
  · rw [clipper, List.map_map]
    refine List.map_congr_left fun v hv => hg v fun h => hl (h ▸ hv)
  · intro y hy
    obtain ⟨v, hv, rfl⟩ := List.mem_map.mp hy
    cases v with
    | nan => exact ⟨le_rfl, h⟩
    | inf s => cases s <;> simp [g, h]
    | fin a => exact ⟨le_max_left _ _, max_le h (min_le_right _ _)⟩
  · intro i s hi'
    rw [List.getElem?_map, hi']
    rfl
  · intro i a hi'
    rw [List.getElem?_map, hi']
    rfl

/-- **C106**, `amplifier` with limits, of finite samples by a finite factor: the results are within the limits even if the
product overflows.  Missing: samples that are not finite (`C106_amplifier_violates`). -/
theorem C106_amplifier_partial (r : ℝ → ℝ) (M : ℝ) {lo hi : ℝ} (h : lo ≤ hi) (c : ℝ) (xs : List ℝ) :
    ∃ ys : List ℝ, amplifierClip (round r M) (fin c) (fin lo) (fin hi) (xs.map fin) = ys.map fin ∧
      ys.length = xs.length ∧ (∀ y ∈ ys, lo ≤ y ∧ y ≤ hi) ∧
      ∀ (i : ℕ) x, xs[i]? = some x → (|r (c * x)| < M → ys[i]? = some (Max.max lo (Min.min (r (c * x)) hi))) ∧
        (M ≤ |r (c * x)| → ys[i]? = some (if c * x < 0 then lo else hi)) := by
  have hn : nan ∉ (xs.map fun x => mul (round r M) (fin c) (fin x)) := by
    intro hc
    obtain ⟨x, _, hx⟩ := List.mem_map.mp hc
    have : round r M (c * x) = nan := hx
    unfold Ext.round at this
    split at this <;> cases this
  obtain ⟨ys, h1, h2, h3, h4, h5⟩ := C106_clip_partial h _ hn
  refine ⟨ys, ?_, by simpa using h2, h3, fun i x hx => ⟨fun hm => ?_, fun hm => ?_⟩⟩
  · rw [← h1, clipper, amplifierClip, List.map_map, List.map_map]
    rfl
  · exact h5 i _ (by rw [List.getElem?_map, hx, Option.map_some, mul_fin hm])
  · have := h4 i (decide (c * x < 0)) (by
      rw [List.getElem?_map, hx, Option.map_some]
      exact congrArg some (round_inf hm))
    simpa using this

/-- **C106 is violated** by `amplifier`: the factor 0, which silences every signal, turns an infinite sample into NaN, and
the limits let it pass. -/
theorem C106_amplifier_violates (R : ℝ → Ext) (lo hi : Ext) (s : Bool) :
    amplifierClip R (fin 0) lo hi [inf s] = [nan] := by
  have h1 : mul R (fin 0) (inf s) = nan := if_pos rfl
  have h2 := C106_clip_violates lo hi 1
  simpa [amplifierClip, clipper, h1] using h2

/-- **C106**, `amplifier` without limits: samples that are not a number stay so, infinite samples times a factor other
than 0 stay infinite, with the sign of the product, and finite samples become the rounded product or, if that overflows,
an infinity of its sign. -/
theorem C106_amplifier_plain (r : ℝ → ℝ) (M c : ℝ) (l : List Ext) :
    (amplifier (round r M) (fin c) l).length = l.length ∧
    ∀ i : ℕ, (l[i]? = some nan → (amplifier (round r M) (fin c) l)[i]? = some nan) ∧
      (∀ s, c ≠ 0 → l[i]? = some (inf s) → (amplifier (round r M) (fin c) l)[i]? = some (inf (if c < 0 then !s else s))) ∧
      ∀ x, l[i]? = some (fin x) →
        (|r (c * x)| < M → (amplifier (round r M) (fin c) l)[i]? = some (fin (r (c * x)))) ∧
        (M ≤ |r (c * x)| → (amplifier (round r M) (fin c) l)[i]? = some (inf (decide (c * x < 0)))) := by
  refine ⟨List.length_map _, fun i => ⟨?_, ?_, ?_⟩⟩
  · intro h
    rw [amplifier, List.getElem?_map, h]
    rfl
  · intro s hc h
    rw [amplifier, List.getElem?_map, h]
    by_cases h0 : c < 0 <;> cases s <;> simp [mul, hc, h0]
  · intro x h
    rw [amplifier, List.getElem?_map, h]
    exact ⟨fun h1 => by simp [mul, Ext.round, h1], fun h1 => by simp [mul, Ext.round, not_lt.mpr h1]⟩

example : amplifier (round (rnd 24) (2 ^ 128)) (fin (-2)) [inf false] = [inf true] := by
  have h := (C106_amplifier_plain (rnd 24) (2 ^ 128) (-2) [inf false]).2 0
  have h1 := h.2.1 false (by norm_num) rfl
  rw [if_pos (by norm_num)] at h1
  simpa [amplifier] using h1

/-! ### Sums -/

theorem accumulate_not (R : ℝ → Ext) (l : List Ext) : ∀ a, (¬ a.Finite ∨ ∃ v ∈ l, ¬ v.Finite) →
    ¬ (accumulate R a l).Finite := by
  induction l with
  | nil => intro a h; simpa [accumulate] using h
  | cons x l ih =>
    intro a h
    refine ih (add R a x) ?_
    rcases h with h | ⟨v, hv, h⟩
    · exact Or.inl (add_left _ h)
    · rcases List.mem_cons.mp hv with rfl | hv
      · exact Or.inl (add_right _ h)
      · exact Or.inr ⟨v, hv, h⟩

theorem squares_eq (R : ℝ → Ext) (a : Ext) (l : List Ext) :
    squares R a l = accumulate R a (l.map fun v => mul R v v) := by
  rw [squares, accumulate, List.foldl_map]

/-- **C106**, sums: one sample that is not finite, at any position, shows in the mean, the energy, the power, the root mean
square and the root sum of squares. -/
theorem C106_sums (R : ℝ → Ext) {l : List Ext} (h : ∃ v ∈ l, ¬ v.Finite) :
    ¬ (mean R l).Finite ∧ ¬ (energy R l).Finite ∧ ¬ (power R l).Finite ∧ ¬ (rms R l).Finite ∧ ¬ (rssq R l).Finite := by
  have hs : ∀ a, ¬ (squares R a l).Finite := by
    intro a
    obtain ⟨v, hv, hn⟩ := h
    rw [squares_eq]
    exact accumulate_not R _ _ (Or.inr ⟨_, List.mem_map_of_mem hv, mul_left _ hn⟩)
  exact ⟨div_left _ (accumulate_not R _ _ (Or.inr h)), hs _, div_left _ (hs _), sqrt_not (div_left _ (hs _)),
    sqrt_not (hs _)⟩

theorem rnd_pow {p : ℕ} (hp : 1 ≤ p) (c : ℕ) : rnd p ((2 : ℝ) ^ c) = 2 ^ c := by
  have := rnd_float (isFloat_int hp (m := 1) (c : ℤ) (by rw [abs_one]; exact one_le_pow₀ (by norm_num)))
  simpa using this

/-- **C106 is violated** by `mean`: the mean of two samples of half the limit `2^e` is infinite, though the exact mean is
one of them. -/
theorem C106_mean_violates {p e : ℕ} (hp : 1 ≤ p) (he : 1 ≤ e) :
    ¬ (mean (round (rnd p) (2 ^ e)) [fin (2 ^ (e - 1)), fin (2 ^ (e - 1))]).Finite ∧
      Spec.mean [(2 : ℝ) ^ (e - 1), 2 ^ (e - 1)] = 2 ^ (e - 1) ∧ (2 : ℝ) ^ (e - 1) < 2 ^ e := by
  have e2 : (2 : ℝ) ^ e = 2 ^ (e - 1) + 2 ^ (e - 1) := by
    obtain ⟨c, rfl⟩ : ∃ c, e = c + 1 := ⟨e - 1, by omega⟩
    rw [Nat.add_sub_cancel, pow_succ]
    ring
  have hs : (0 : ℝ) < 2 ^ (e - 1) := by positivity
  refine ⟨div_left _ ?_, ?_, by linarith⟩
  · show ¬ (add _ (add _ (fin 0) (fin (2 ^ (e - 1)))) (fin (2 ^ (e - 1)))).Finite
    rw [add_fin (by rw [zero_add, rnd_pow hp, abs_of_pos hs]; linarith), zero_add, rnd_pow hp]
    show ¬ (round (rnd p) (2 ^ e) (2 ^ (e - 1) + 2 ^ (e - 1))).Finite
    rw [← e2, round_inf (by rw [rnd_pow hp, abs_of_pos (by positivity)])]
    exact inf_not _
  · rw [Spec.mean, List.sum_cons, List.sum_singleton, List.length_cons, List.length_singleton]
    push_cast
    linarith

/-- **C106 is violated** by `rssq`, `rms` and `energy`-like sums: the root sum of squares of one sample, its magnitude, is
infinite from the square root of the limit on. -/
theorem C106_rssq_violates {p e c : ℕ} (hp : 1 ≤ p) (h1 : c < e) (h2 : e ≤ 2 * c) :
    ¬ (rssq (round (rnd p) (2 ^ e)) [fin (2 ^ c)]).Finite ∧ ¬ (rms (round (rnd p) (2 ^ e)) [fin (2 ^ c)]).Finite ∧
      Real.sqrt ([(2 : ℝ) ^ c].map fun x => x ^ 2).sum = 2 ^ c ∧ (2 : ℝ) ^ c < 2 ^ e := by
  have hm : ¬ (mul (round (rnd p) (2 ^ e)) (fin (2 ^ c)) (fin (2 ^ c))).Finite := by
    show ¬ (round (rnd p) (2 ^ e) (2 ^ c * 2 ^ c)).Finite
    rw [← pow_add, round_inf]
    · exact inf_not _
    · rw [rnd_pow hp, abs_of_pos (by positivity)]
      exact pow_le_pow_right₀ (by norm_num) (by omega)
  refine ⟨sqrt_not ?_, sqrt_not (div_left _ ?_), ?_, pow_lt_pow_right₀ (by norm_num) h1⟩
  · exact add_right _ hm
  · exact add_right _ hm
  · simp

theorem accumulate_fin {p : ℕ} {M : ℝ} (xs : List ℝ) : ∀ a : ℝ,
    (1 + (2 : ℝ) ^ (-(p : ℤ))) ^ xs.length * (|a| + (xs.map fun x => |x|).sum) < M →
    accumulate (round (rnd p) M) (fin a) (xs.map fin) = fin (Rounded.accumulate p a xs) ∧
      |Rounded.accumulate p a xs| ≤ (1 + (2 : ℝ) ^ (-(p : ℤ))) ^ xs.length * (|a| + (xs.map fun x => |x|).sum) := by
  have hu := two_zpow_pos (-(p : ℤ))
  induction xs with
  | nil => intro a _; exact ⟨rfl, by simp [Rounded.accumulate]⟩
  | cons x xs ih =>
    intro a h
    have hS : 0 ≤ (xs.map fun x => |x|).sum := List.sum_nonneg (by
      intro y hy
      obtain ⟨z, _, rfl⟩ := List.mem_map.mp hy
      exact abs_nonneg z)
    have hr := rnd_err p (a + x)
    have h1 := abs_sub_abs_le_abs_sub (rnd p (a + x)) (a + x)
    have h2 := abs_add_le a x
    have h3 : |rnd p (a + x)| ≤ (1 + (2 : ℝ) ^ (-(p : ℤ))) * (|a| + |x|) := by
      have := mul_le_mul_of_nonneg_left h2 hu.le
      linarith
    have hP : 1 ≤ (1 + (2 : ℝ) ^ (-(p : ℤ))) ^ xs.length := one_le_pow₀ (by linarith)
    have h4 : (1 + (2 : ℝ) ^ (-(p : ℤ))) ^ xs.length * (|rnd p (a + x)| + (xs.map fun x => |x|).sum) ≤
        (1 + (2 : ℝ) ^ (-(p : ℤ))) ^ (x :: xs).length * (|a| + ((x :: xs).map fun x => |x|).sum) := by
      rw [List.length_cons, pow_succ, mul_assoc, List.map_cons, List.sum_cons]
      refine mul_le_mul_of_nonneg_left ?_ (by linarith)
      have := mul_nonneg hu.le hS
      linarith
    have h5 : |rnd p (a + x)| ≤ (1 + (2 : ℝ) ^ (-(p : ℤ))) ^ xs.length * (|rnd p (a + x)| + (xs.map fun x => |x|).sum) := by
      have := le_mul_of_one_le_left (add_nonneg (abs_nonneg (rnd p (a + x))) hS) hP
      linarith
    obtain ⟨i1, i2⟩ := ih (rnd p (a + x)) (lt_of_le_of_lt h4 h)
    refine ⟨?_, i2.trans h4⟩
    show accumulate _ (add _ (fin a) (fin x)) (xs.map fin) = _
    rw [add_fin (by linarith), i1]
    rfl

/-- **C106**, the mean of finite samples far from the limit is that of C94.
Missing: larger samples (`C106_mean_violates`). -/
theorem C106_mean_partial {p : ℕ} (hp : 1 ≤ p) {M : ℝ} {xs : List ℝ} (h0 : xs ≠ []) (hn : xs.length ≤ 2 ^ p)
    (hnM : (xs.length : ℝ) < M) (hM : (1 + (2 : ℝ) ^ (-(p : ℤ))) ^ (xs.length + 1) * (xs.map fun x => |x|).sum < M) :
    ∃ m, Rounded.mean p xs = some m ∧ mean (round (rnd p) M) (xs.map fin) = fin m := by
  have hu := two_zpow_pos (-(p : ℤ))
  have hl : 0 < xs.length := List.length_pos_iff.mpr h0
  have hn0 : (0 : ℝ) < xs.length := by exact_mod_cast hl
  have hn1 : (1 : ℝ) ≤ xs.length := by exact_mod_cast hl
  have hS : 0 ≤ (xs.map fun x => |x|).sum := List.sum_nonneg (by
    intro y hy
    obtain ⟨z, _, rfl⟩ := List.mem_map.mp hy
    exact abs_nonneg z)
  have hP : 1 ≤ (1 + (2 : ℝ) ^ (-(p : ℤ))) ^ xs.length := one_le_pow₀ (by linarith)
  have hM' : (1 + (2 : ℝ) ^ (-(p : ℤ))) * ((1 + (2 : ℝ) ^ (-(p : ℤ))) ^ xs.length * (xs.map fun x => |x|).sum) < M := by
    refine lt_of_eq_of_lt ?_ hM
    rw [pow_succ]
    ring
  have hQ : 0 ≤ (1 + (2 : ℝ) ^ (-(p : ℤ))) ^ xs.length * (xs.map fun x => |x|).sum := by positivity
  have hQ' := mul_nonneg hu.le hQ
  obtain ⟨a1, a2⟩ := accumulate_fin (p := p) (M := M) xs 0 (by rw [abs_zero, zero_add]; linarith)
  rw [abs_zero, zero_add] at a2
  have hrn := Rounded.rnd_nat hp hn
  refine ⟨rnd p (Rounded.accumulate p 0 xs / xs.length), ?_, ?_⟩
  · rw [Rounded.mean, hrn, Rounded.quotient_pos p hn0.ne']
  · rw [mean, a1, List.length_map, round_fin (by rw [hrn, abs_of_pos hn0]; exact hnM), hrn, div_fin hn0.ne']
    have h1 := rnd_err p (Rounded.accumulate p 0 xs / xs.length)
    have h2 : |Rounded.accumulate p 0 xs / xs.length| ≤ |Rounded.accumulate p 0 xs| := by
      rw [abs_div, abs_of_pos hn0]
      exact div_le_self (abs_nonneg _) hn1
    have h3 := abs_sub_abs_le_abs_sub (rnd p (Rounded.accumulate p 0 xs / xs.length))
      (Rounded.accumulate p 0 xs / xs.length)
    have h4 := mul_le_mul_of_nonneg_left (h2.trans a2) hu.le
    linarith [h2.trans a2]

theorem accumulate_exact (xs : List ℝ) : ∀ a, accumulate fin (fin a) (xs.map fin) = fin (a + xs.sum) := by
  induction xs with
  | nil => intro a; simp [accumulate]
  | cons x xs ih =>
    intro a
    show accumulate fin (fin (a + x)) (xs.map fin) = _
    rw [ih, List.sum_cons, add_assoc]

theorem squares_exact (xs : List ℝ) : ∀ a, squares fin (fin a) (xs.map fin) = fin (a + (xs.map fun x => x ^ 2).sum) := by
  induction xs with
  | nil => intro a; simp [squares]
  | cons x xs ih =>
    intro a
    show squares fin (fin (a + x * x)) (xs.map fin) = _
    rw [ih, List.map_cons, List.sum_cons, add_assoc, sq x]

/-- **C106**, what the sums are but for rounding and overflow: the mean, the sum of squares, its mean and its root; the
root mean square has 1 added to its sum (C51).  Of no samples the mean and the power are not a number, the root mean square
is infinite. -/
theorem C106_exact_partial (xs : List ℝ) :
    energy fin (xs.map fin) = fin (xs.map fun x => x ^ 2).sum ∧
    rssq fin (xs.map fin) = fin (Real.sqrt (xs.map fun x => x ^ 2).sum) ∧
    (xs ≠ [] → mean fin (xs.map fin) = fin (Spec.mean xs) ∧
      power fin (xs.map fin) = fin (Spec.mean (xs.map fun x => x ^ 2)) ∧
      rms fin (xs.map fin) = fin (Real.sqrt ((1 + (xs.map fun x => x ^ 2).sum) / xs.length))) ∧
    (xs = [] → mean fin (xs.map fin) = nan ∧ power fin (xs.map fin) = nan ∧ rms fin (xs.map fin) = inf false) := by
  have hS : 0 ≤ (xs.map fun x => x ^ 2).sum := List.sum_nonneg (by
    intro y hy
    obtain ⟨z, _, rfl⟩ := List.mem_map.mp hy
    exact sq_nonneg z)
  have hd : ∀ x : ℝ, xs ≠ [] → div fin (fin x) (fin ((xs.map fin).length : ℝ)) = fin (x / xs.length) := by
    intro x h0
    have hn0 : ((xs.map fin).length : ℝ) ≠ 0 := by
      rw [List.length_map]
      exact_mod_cast (List.length_pos_iff.mpr h0).ne'
    simp only [div]
    rw [if_neg hn0, List.length_map]
  refine ⟨?_, ?_, fun h0 => ⟨?_, ?_, ?_⟩, fun h0 => ?_⟩
  · rw [energy, squares_exact, zero_add]
  · rw [rssq, squares_exact, zero_add, sqrt, if_neg (not_lt.mpr hS)]
  · rw [mean, accumulate_exact, zero_add, hd _ h0, Spec.mean]
  · rw [power, energy, squares_exact, zero_add, hd _ h0, Spec.mean, List.length_map]
  · rw [rms, squares_exact, hd _ h0, sqrt, if_neg]
    rw [not_lt]
    positivity
  · subst h0
    simp [mean, power, energy, rms, accumulate, squares, div, sqrt]

/-! ### Cases -/

example : rssq fin ([3, 4].map fin) = fin 5 := by
  rw [(C106_exact_partial [3, 4]).2.1]
  rw [show (([3, 4] : List ℝ).map fun x => x ^ 2).sum = 5 ^ 2 by norm_num, Real.sqrt_sq (by norm_num)]

example : max [fin 1, nan, fin 3, inf true] = .ok (fin 3) := by
  obtain ⟨⟨v, h1, h2, h3, h4⟩, -⟩ := C106_extrema_partial (x := fin 1) (by simp) [nan, fin 3, inf true]
  rw [h1]
  simp only [List.mem_cons, List.not_mem_nil, or_false] at h3
  rcases h3 with rfl | rfl | rfl | rfl
  · exact absurd (show (1 : ℝ) < 3 by norm_num) (h4 (fin 3) (by simp))
  · exact absurd rfl h2
  · rfl
  · exact absurd (show Lt (inf true) (fin 3) from rfl) (h4 (fin 3) (by simp))

example : ∃ F ys, (∃ a, fin a ∈ [fin 1, nan, fin (-4)] ∧ |a| = F) ∧ (∀ a, fin a ∈ [fin 1, nan, fin (-4)] → |a| ≤ F) ∧
    0 < F ∧ normalize (round (rnd 53) 2) [fin 1, nan, fin (-4)] = .ok ys ∧ ys.length = 2 + 1 ∧
    (∀ i : ℕ, [fin 1, nan, fin (-4)][i]? = some nan → ys[i]? = some nan) ∧
    ∀ (i : ℕ) a, [fin 1, nan, fin (-4)][i]? = some (fin a) →
      ys[i]? = some (fin (rnd 53 (a / F))) ∧ |rnd 53 (a / F)| ≤ 1 :=
  C106_normalize_partial (by norm_num) (by norm_num) (by simp) (by simp) one_ne_zero (by simp)

example : ∃ ys : List ℝ, clipper (fin (-1)) (fin 1) [fin 3, inf true, fin 0] = ys.map fin ∧
    ys.length = [fin 3, inf true, fin 0].length ∧ ys[1]? = some (-1 : ℝ) := by
  obtain ⟨ys, h1, h2, _, h4, _⟩ := C106_clip_partial (by norm_num : (-1 : ℝ) ≤ 1) [fin 3, inf true, fin 0] (by simp)
  exact ⟨ys, h1, h2, by simpa using h4 1 true rfl⟩

example : ¬ (rssq (round (rnd 53) (2 ^ 1024)) [fin (2 ^ 600)]).Finite :=
  (C106_rssq_violates (by norm_num) (by norm_num) (by norm_num)).1

example : ¬ (mean (round (rnd 53) (2 ^ 1024)) [fin (2 ^ (1024 - 1)), fin (2 ^ (1024 - 1))]).Finite :=
  (C106_mean_violates (by norm_num) (by norm_num)).1

end Edsp.Extended
