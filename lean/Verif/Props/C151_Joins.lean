import Verif.Props.C151_Blocks

/-! # C151, continued: peaks, zero crossings, silence, repeated frames -/

namespace Edsp.C151

open Edsp Edsp.Spec Edsp.Stat Edsp.StatL

/-- **C151**, peaks, for every ordered type of samples and blocks of any lengths: the peak of the signal is the one of
the first block whose peak is highest, counted from the beginning of the signal. -/
theorem C151_peak {K : Type} [LinearOrder K] {bs : List (List K)} {ps : List (ℕ × K)} (h : Each Seq.peak bs ps) {k : ℕ}
    {v : K} (hk : Seq.peak (ps.map Prod.snd) = .ok (k, v)) :
    ∃ i, ps[k]? = some (i, v) ∧ Seq.peak bs.flatten = .ok ((bs.take k).flatten.length + i, v) := by
  have arg : ∀ {l : List K} {i : ℕ} {w : K}, Seq.peak l = .ok (i, w) → ExtremumL.IsArgmax (fun x : K => x) l i w := by
    intro l i w hl
    have hne : l ≠ [] := by rintro rfl; cases hl
    obtain ⟨i', w', e, h1, h2, h3⟩ := Props.C34_peak hne
    rw [e] at hl
    cases hl
    exact ⟨h1, h2, h3⟩
  obtain ⟨a1, a2, a3⟩ := arg hk
  rw [List.getElem?_map, Option.map_eq_some_iff] at a1
  obtain ⟨⟨i, w⟩, hp, rfl⟩ := a1
  have hlen := h.length_eq
  have hkl : k < bs.length := by rw [hlen]; exact (List.getElem?_eq_some_iff.mp hp).1
  have each_at : ∀ {j : ℕ} {b : List K}, bs[j]? = some b → ∃ p, ps[j]? = some p ∧ Seq.peak b = .ok p := by
    intro j b hb
    obtain ⟨hj, e⟩ := List.getElem?_eq_some_iff.mp hb
    refine ⟨ps[j]'(hlen ▸ hj), List.getElem?_eq_getElem _, ?_⟩
    rw [← e]
    exact (List.forall₂_iff_get.mp h).2 j hj (hlen ▸ hj)
  have hbk : bs[k]? = some bs[k] := List.getElem?_eq_getElem hkl
  obtain ⟨p, ep, hpk⟩ := each_at hbk
  rw [hp] at ep
  obtain rfl := Option.some.inj ep
  obtain ⟨b1, b2, b3⟩ := arg hpk
  refine ⟨i, hp, ?_⟩
  have hsplit : bs.flatten = (bs.take k).flatten ++ (bs[k] ++ (bs.drop (k + 1)).flatten) := by
    conv_lhs => rw [← List.take_append_drop k bs, List.drop_eq_getElem_cons hkl]
    rw [List.flatten_append, List.flatten_cons]
  have hil : i < bs[k].length := (List.getElem?_eq_some_iff.mp b1).1
  have hne : bs.flatten ≠ [] := by
    rw [hsplit]
    intro e
    have := congrArg List.length e
    simp only [List.length_append, List.length_nil] at this
    omega
  obtain ⟨j, u, e, h1, h2, h3⟩ := Props.C34_peak hne
  have hA : ExtremumL.IsArgmax (fun x : K => x) bs.flatten ((bs.take k).flatten.length + i) w := by
    refine ⟨?_, ?_, ?_⟩
    · rw [hsplit, List.getElem?_append_right (by omega), Nat.add_sub_cancel_left, List.getElem?_append_left hil]
      exact b1
    · intro x hx
      obtain ⟨c, hc, hx⟩ := List.mem_flatten.mp hx
      obtain ⟨j, hj⟩ := List.mem_iff_getElem?.mp hc
      obtain ⟨p, ep, hpc⟩ := each_at hj
      exact ((arg hpc).2.1 x hx).trans (a2 p.2 (List.mem_map.mpr ⟨p, List.mem_of_getElem? ep, rfl⟩))
    · intro j x hj hx
      rw [hsplit] at hx
      rcases lt_or_ge j (bs.take k).flatten.length with hjl | hjl
      · rw [List.getElem?_append_left hjl] at hx
        obtain ⟨c, hc, hx⟩ := List.mem_flatten.mp (List.mem_of_getElem? hx)
        obtain ⟨m, hm⟩ := List.mem_iff_getElem?.mp hc
        have hmk : m < k := by
          have := (List.getElem?_eq_some_iff.mp hm).1
          rw [List.length_take] at this
          omega
        rw [List.getElem?_take_of_lt hmk] at hm
        obtain ⟨p, ep, hpc⟩ := each_at hm
        refine lt_of_le_of_lt ((arg hpc).2.1 x hx) (a3 m p.2 hmk ?_)
        rw [List.getElem?_map, ep]
        rfl
      · rw [List.getElem?_append_right hjl, List.getElem?_append_left (by omega)] at hx
        exact b3 _ x (by omega) hx
  obtain ⟨rfl, rfl⟩ := ExtremumL.argmax_unique (show ExtremumL.IsArgmax (fun x : K => x) bs.flatten j u from ⟨h1, h2, h3⟩) hA
  exact e

example : Seq.peak ([[1, 4], [2, 7, 7], [7]] : List (List ℤ)).flatten = .ok (3, 7) := by
  obtain ⟨i, h1, h2⟩ := C151_peak (bs := ([[1, 4], [2, 7, 7], [7]] : List (List ℤ))) (ps := [(1, 4), (1, 7), (0, 7)])
    (k := 1) (v := 7) (List.Forall₂.cons rfl (List.Forall₂.cons rfl (List.Forall₂.cons rfl List.Forall₂.nil))) rfl
  obtain rfl : i = 1 := by simpa using h1.symm
  exact h2

/-! ### Zero crossings -/

/-- Two neighbouring samples of which one is negative and the other is not. -/
noncomputable def crossing (a b : ℝ) : ℝ := if (a < 0 ↔ b < 0) then 0 else 1

theorem sign_crossing (a b : ℝ) : (if Feature.sign b ≠ Feature.sign a then (1 : ℝ) else 0) = crossing a b := by
  unfold Feature.sign crossing
  by_cases ha : a < 0 <;> by_cases hb : b < 0 <;> norm_num [ha, hb]

theorem azcrLoop_acc : ∀ (xs : List ℝ) (p a : ℝ), Feature.azcrLoop a p xs = a + Feature.azcrLoop 0 p xs
  | [], _, a => by simp [Feature.azcrLoop]
  | x :: xs, p, a => by
    rw [Feature.azcrLoop, Feature.azcrLoop, azcrLoop_acc xs x, azcrLoop_acc xs x (0 + _)]
    ring

theorem azcrLoop_append (y : ℝ) (ys : List ℝ) : ∀ (xs : List ℝ) (p : ℝ), Feature.azcrLoop 0 p (xs ++ y :: ys) =
    Feature.azcrLoop 0 p xs + crossing ((p :: xs).getLast (by simp)) y + Feature.azcrLoop 0 y ys
  | [], p => by
    simp only [List.nil_append, Feature.azcrLoop, List.getLast_singleton]
    rw [azcrLoop_acc, sign_crossing]
  | x :: xs, p => by
    rw [List.cons_append, Feature.azcrLoop, Feature.azcrLoop, azcrLoop_acc, azcrLoop_append y ys xs x, azcrLoop_acc xs x (0 + _),
      List.getLast_cons (List.cons_ne_nil _ _)]
    ring

/-- **C151**, zero crossings: the crossings of two parts and the one where they meet, if there is one, are those of the
whole.  The rate counts them per pair of neighbours. -/
theorem C151_crossings {x y : List ℝ} (hx : x ≠ []) (hy : y ≠ []) {r s : ℝ} (h1 : Feature.azcr x = .ok r)
    (h2 : Feature.azcr y = .ok s) :
    ∃ t, Feature.azcr (x ++ y) = .ok t ∧
      t * ((x ++ y).length - 1) = r * (x.length - 1) + s * (y.length - 1) + crossing (x.getLast hx) (y.head hy) := by
  rcases x with _ | ⟨a, xs⟩
  · exact absurd rfl hx
  rcases y with _ | ⟨b, ys⟩
  · exact absurd rfl hy
  have val : ∀ {a : ℝ} {l : List ℝ} {r : ℝ}, Feature.azcr (a :: l) = .ok r →
      r * ((((a :: l).length : ℕ) : ℝ) - 1) = Feature.azcrLoop 0 a l := by
    intro a l r h
    unfold Feature.azcr fdiv at h
    dsimp only at h
    split at h
    · cases h
    · next hn =>
      rw [← Except.ok.inj h]
      push_cast at hn ⊢
      exact div_mul_cancel₀ _ hn
  have hn : ((((((a :: xs) ++ b :: ys).length : ℕ) : ℤ) - 1 : ℤ) : ℝ) ≠ 0 := by
    have : (((((a :: xs) ++ b :: ys).length : ℕ) : ℤ) - 1 : ℤ) ≠ 0 := by simp; omega
    exact_mod_cast this
  have e : Feature.azcr ((a :: xs) ++ b :: ys) = .ok (Feature.azcrLoop 0 a (xs ++ b :: ys) /
      ((((((a :: xs) ++ b :: ys).length : ℕ) : ℤ) - 1 : ℤ) : ℝ)) := fdiv_ok hn
  refine ⟨_, e, ?_⟩
  rw [val h1, val h2, List.head_cons]
  push_cast at hn ⊢
  rw [div_mul_cancel₀ _ hn, azcrLoop_append]
  ring

example : ∃ t, Feature.azcr (([1, -1] : List ℝ) ++ [2, 3]) = .ok t ∧ t = 2 / 3 := by
  obtain ⟨t, e, h⟩ := C151_crossings (x := [1, -1]) (y := [2, 3]) (r := 1) (s := 0) (by simp) (by simp)
    (by norm_num [Feature.azcr, Feature.azcrLoop, Feature.sign, fdiv]) (by norm_num [Feature.azcr, Feature.azcrLoop, Feature.sign, fdiv])
  refine ⟨t, e, ?_⟩
  norm_num [crossing] at h
  linarith

/-! ### Silence -/

theorem silence_of {l : List ℝ} (h : l ≠ []) (t : ℝ) :
    Seq.silence l t = .ok (decide (Seq.energy l < t * l.length)) := by
  have hl : (0 : ℝ) < l.length := len_pos h
  rw [Seq.silence, Seq.power, if_neg hl.ne']
  simp only [Bind.bind, Except.bind, pure, Except.pure, div_lt_iff₀ hl]

/-- **C151**, silence, blocks of any lengths: a signal all blocks of which are silent is silent, and a signal none of
whose blocks is silent is not. -/
theorem C151_silence {bs : List (List ℝ)} (h0 : bs ≠ []) (hne : ∀ b ∈ bs, b ≠ []) (t : ℝ) (v : Bool)
    (h : ∀ b ∈ bs, Seq.silence b t = .ok v) : Seq.silence bs.flatten t = .ok v := by
  have hf : bs.flatten ≠ [] := by
    rcases bs with _ | ⟨b, bs⟩
    · exact absurd rfl h0
    · simp [hne b (by simp)]
  have hlen : ((bs.flatten.length : ℕ) : ℝ) = (bs.map fun b => (b.length : ℝ)).sum := by
    clear h0 hne h hf
    induction bs with
    | nil => simp
    | cons b bs ih => rw [List.flatten_cons, List.length_append, List.map_cons, List.sum_cons, ← ih]; push_cast; rfl
  have hd : ∀ b ∈ bs, decide (Seq.energy b < t * b.length) = v := by
    intro b hb
    have := h b hb
    rw [silence_of (hne b hb)] at this
    exact Except.ok.inj this
  rw [silence_of hf, energy_flatten, hlen]
  congr 1
  clear hf hlen h
  have hsum : ∀ cs : List (List ℝ), (cs.map fun b => t * (b.length : ℝ)).sum = t * (cs.map fun b => (b.length : ℝ)).sum := by
    intro cs
    induction cs with
    | nil => simp
    | cons c cs ih => simp only [List.map_cons, List.sum_cons, ih]; ring
  rw [← hsum]
  cases v with
  | false =>
    rw [decide_eq_false_iff_not, not_lt]
    refine List.sum_le_sum fun b hb => ?_
    exact not_lt.mp (of_decide_eq_false (hd b hb))
  | true =>
    rw [decide_eq_true_iff]
    obtain ⟨b, hb⟩ := List.exists_mem_of_ne_nil bs h0
    exact List.sum_lt_sum _ _ (fun c hc => (of_decide_eq_true (hd c hc)).le) ⟨b, hb, of_decide_eq_true (hd b hb)⟩

example : Seq.silence ([[0, 1 / 2], [1 / 4]] : List (List ℝ)).flatten 1 = .ok true := by
  refine C151_silence (by simp) (by simp) 1 true fun b hb => ?_
  rw [silence_of (by rintro rfl; simp at hb)]
  simp only [List.mem_cons, List.not_mem_nil, or_false] at hb
  rcases hb with rfl | rfl <;> norm_num [Seq.energy, Seq.innerSelf]

/-! ### Repeated frames -/

/-- A frame played `k` times. -/
def repeated {α : Type} (k : ℕ) (l : List α) : List α := (List.replicate k l).flatten

theorem repeated_length {α : Type} (k : ℕ) (l : List α) : (repeated k l).length = k * l.length := by
  simp [repeated]

theorem accumulate_repeated (f : ℝ → ℝ) (k : ℕ) (l : List ℝ) :
    accumulate f 0 (repeated k l) = k * accumulate f 0 l := by
  rw [accumulate_eq, accumulate_eq, zero_add, zero_add]
  induction k with
  | zero => simp [repeated]
  | succ k ih =>
    rw [show repeated (k + 1) l = l ++ repeated k l by simp [repeated, List.replicate_succ], List.map_append,
      List.sum_append, ih]
    push_cast
    ring

theorem fdiv_scale {k : ℝ} (hk : k ≠ 0) (a b : ℝ) : fdiv (k * a) (k * b) = fdiv a b := by
  unfold fdiv
  by_cases hb : b = 0
  · simp [hb]
  · rw [if_neg hb, if_neg (mul_ne_zero hk hb), mul_div_mul_left _ _ hk]

/-- **C151**, repetition: playing a frame `k` times multiplies its energy by `k` and leaves its mean, its moments and what
is made of them, its power, its level and the verdict of `silence` as they are, empty frames included. -/
theorem C151_repeated {k : ℕ} (hk : 0 < k) (l : List ℝ) :
    Seq.energy (repeated k l) = k * Seq.energy l ∧ mean (repeated k l) = mean l ∧
      (∀ n m, momentAbout n (repeated k l) m = momentAbout n l m) ∧ (∀ n, moment n (repeated k l) = moment n l) ∧
      variance (repeated k l) = variance l ∧ standardDeviation (repeated k l) = standardDeviation l ∧
      skewness (repeated k l) = skewness l ∧ kurtosis (repeated k l) = kurtosis l ∧
      Seq.power (repeated k l) = Seq.power l ∧ (∀ dbg, Feature.leq dbg (repeated k l) = Feature.leq dbg l) ∧
      ∀ t, Seq.silence (repeated k l) t = Seq.silence l t := by
  have hk' : (k : ℝ) ≠ 0 := by exact_mod_cast hk.ne'
  have hE : Seq.energy (repeated k l) = k * Seq.energy l := accumulate_repeated (fun x => x * x) k l
  have h1 : mean (repeated k l) = mean l := by
    rw [mean, mean, accumulate_repeated, repeated_length]
    push_cast
    exact fdiv_scale hk' _ _
  have h2 : ∀ n m, momentAbout n (repeated k l) m = momentAbout n l m := by
    intro n m
    rw [momentAbout, nthMoment, momentAbout, nthMoment, accumulate_repeated, repeated_length]
    push_cast
    exact fdiv_scale hk' _ _
  have h3 : ∀ n, moment n (repeated k l) = moment n l := by
    intro n
    unfold moment
    rw [h1]
    exact congrArg (fun g => mean l >>= g) (funext fun m => h2 n m)
  have h4 : Seq.power (repeated k l) = Seq.power l := by
    have := fdiv_scale hk' (Seq.energy l) (l.length : ℝ)
    rw [Seq.power, Seq.power, hE, repeated_length]
    push_cast
    exact this
  have hv : variance (repeated k l) = variance l := h3 2
  refine ⟨hE, h1, h2, h3, hv, ?_, ?_, ?_, h4, ?_, ?_⟩
  · unfold standardDeviation; rw [hv]
  · unfold skewness; simp only [h1, h2]
  · unfold kurtosis; simp only [h1, h2]
  · intro d; unfold Feature.leq; rw [h4]
  · intro t; unfold Seq.silence; rw [h4]

example : kurtosis (repeated 3 ([1, 2, 4] : List ℝ)) = kurtosis [1, 2, 4] :=
  (C151_repeated (by norm_num) _).2.2.2.2.2.2.2.1

/-! ### What does not add up -/

theorem innerSelf_one (l : List ℝ) : Seq.innerSelf 1 l = 1 + Seq.energy l := by
  show accumulate (fun x => x * x) 1 l = _
  rw [accumulate_eq, energy_eq]

/-- **C151 is violated by `rms`**, for every signal of two or more blocks of the same length: the square of the RMS is not
the mean of the squares of those of the blocks, nor is the RMS the RMS of them, since each sum starts with 1. -/
theorem C151_rms_violates {n : ℕ} (hn : 0 < n) {bs : List (List ℝ)} (hb : EqualBlocks n bs) (h2 : 2 ≤ bs.length)
    {rs : List ℝ} (h : Each Seq.rms bs rs) :
    ∃ r s, Seq.rms bs.flatten = .ok r ∧ Seq.rms rs = .ok s ∧ r ^ 2 < avgOf (fun x => x ^ 2) rs ∧ r < s := by
  have h0 : bs ≠ [] := by rintro rfl; simp at h2
  have hrms : ∀ {l : List ℝ}, l ≠ [] → Seq.rms l = .ok (Real.sqrt ((1 + Seq.energy l) / l.length)) := by
    intro l hl
    rw [Seq.rms, innerSelf_one, if_neg (len_ne hl)]
  have hnn : ∀ l : List ℝ, 0 ≤ (1 + Seq.energy l) / (l.length : ℝ) := fun l =>
    div_nonneg (by linarith [energy_nonneg l]) (Nat.cast_nonneg _)
  have hr := each_eq (fun b hc => hrms (block_ne hn hb hc)) h
  have hrl : rs.length = bs.length := by rw [hr, List.length_map]
  have hr0 : rs ≠ [] := by rintro rfl; simp at hrl; omega
  have hn' : (0 : ℝ) < n := by exact_mod_cast hn
  have hk' : (2 : ℝ) ≤ bs.length := by exact_mod_cast h2
  have hk0 : (0 : ℝ) < bs.length := by linarith
  have hE : Seq.energy rs = (bs.length + Seq.energy bs.flatten) / n := by
    rw [energy_flatten, energy_eq, hr, List.map_map]
    have : ∀ cs : List (List ℝ), EqualBlocks n cs → (cs.map ((fun x : ℝ => x * x) ∘ fun b =>
        Real.sqrt ((1 + Seq.energy b) / (b.length : ℝ)))).sum = ((cs.length : ℝ) + (cs.map Seq.energy).sum) / n := by
      intro cs
      induction cs with
      | nil => intro _; simp
      | cons c cs ih =>
        intro hc
        rw [List.map_cons, List.sum_cons, ih fun d hd => hc d (by simp [hd]), Function.comp_apply,
          Real.mul_self_sqrt (hnn c), hc c (by simp), List.map_cons, List.sum_cons, List.length_cons]
        push_cast
        field_simp
        ring
    exact this bs hb
  refine ⟨_, _, hrms (flatten_ne hn hb h0), hrms hr0, ?_, ?_⟩
  · rw [Real.sq_sqrt (hnn _), flatten_length hb, avgOf, avg, List.length_map, hrl]
    rw [show (rs.map fun x => x ^ 2).sum = Seq.energy rs by rw [energy_eq]; simp only [pow_two], hE, div_div]
    push_cast
    rw [mul_comm (n : ℝ)]
    exact div_lt_div_of_pos_right (by linarith) (mul_pos hk0 hn')
  · refine Real.sqrt_lt_sqrt (hnn _) ?_
    rw [hE, flatten_length hb, hrl]
    push_cast
    rw [mul_comm, ← div_div]
    refine div_lt_div_of_pos_right ?_ hk0
    rw [add_div]
    have := div_lt_div_of_pos_right (show (1 : ℝ) < bs.length by linarith) hn'
    rw [add_div]
    linarith

/-- **C151 is violated by `rms`**: playing a frame more than once lowers its RMS. -/
theorem C151_repeated_rms_violates {k : ℕ} (hk : 2 ≤ k) {l : List ℝ} (hl : l ≠ []) :
    ∃ r s, Seq.rms l = .ok r ∧ Seq.rms (repeated k l) = .ok s ∧ s < r := by
  have hn : (0 : ℝ) < l.length := len_pos hl
  have hk' : (2 : ℝ) ≤ k := by exact_mod_cast hk
  have hL : ((repeated k l).length : ℝ) = k * l.length := by rw [repeated_length]; push_cast; rfl
  have hkl : (0 : ℝ) < k * l.length := mul_pos (by linarith) hn
  refine ⟨_, _, if_neg hn.ne', if_neg (by rw [hL]; exact hkl.ne'), Real.sqrt_lt_sqrt ?_ ?_⟩
  · rw [innerSelf_one]
    exact div_nonneg (by linarith [energy_nonneg (repeated k l)]) (Nat.cast_nonneg _)
  · rw [innerSelf_one, innerSelf_one, (C151_repeated (by omega) l).1, hL, ← div_div]
    refine div_lt_div_of_pos_right ?_ hn
    rw [div_lt_iff₀ (by linarith)]
    nlinarith [energy_nonneg l]

/-- **C151 is violated by `peak2peak`**: the whole may have a smaller value than one of its parts. -/
theorem C151_peak2peak_violates :
    peak2peak ([1, 5] : List ℚ) = .ok 4 ∧ peak2peak ([1, 5] ++ [-5] : List ℚ) = .ok 0 := by
  constructor <;> decide +kernel

end Edsp.C151
