import Verif.Model.LibResample
import Verif.Model.Resampler
import Mathlib.Tactic.Linarith
import Mathlib.Tactic.Positivity
import Mathlib.Tactic.NormNum
import Mathlib.Tactic.Ring

/-!
# C143: the resampler in builds with libresample
-/

namespace Edsp.C143

open Edsp Edsp.LibResample

/-! ## Converters used as examples -/

/-- Every sample twice. -/
def twice : Lrs where
  State := Unit
  init := ()
  process := fun _ xs o => ((), min xs.length (o / 2), (xs.take (min xs.length (o / 2))).flatMap fun x => [x, x])

/-- The samples one sample later. -/
def delay : Lrs where
  State := ℝ
  init := 0
  process := fun s xs o =>
    let k := min xs.length o
    (((s :: xs.take k).getLast?).getD s, k, (s :: xs.take k).take k)

/-- The samples as they are. -/
def same : Lrs where
  State := Unit
  init := ()
  process := fun _ xs o => ((), min xs.length o, xs.take (min xs.length o))

/-- Every second sample; the state tells whether the next one is kept. -/
def halfLoop : Bool → List ℝ → ℕ → Bool × ℕ × List ℝ
  | keep, [], _ => (keep, 0, [])
  | true, x :: xs, o + 1 => let (k, u, out) := halfLoop false xs o; (k, u + 1, x :: out)
  | true, _ :: _, 0 => (true, 0, [])
  | false, _ :: xs, o => let (k, u, out) := halfLoop true xs o; (k, u + 1, out)

def half : Lrs where
  State := Bool
  init := true
  process := halfLoop

theorem flatMap_length (xs : List ℝ) : (xs.flatMap fun x => [x, x]).length = 2 * xs.length := by
  induction xs with
  | nil => rfl
  | cons x xs ih => rw [List.flatMap_cons, List.length_append, ih]; simp; ring

theorem twice_conforms : twice.Conforms := by
  intro s xs o
  simp only [twice, flatMap_length, List.length_take]
  omega

theorem run_cons (L : Lrs) (s : L.State) (xs : List ℝ) (o : ℕ) (calls : List (List ℝ × ℕ)) :
    L.run s ((xs, o) :: calls) = ((L.run (L.process s xs o).1 calls).1,
      (L.process s xs o).2.1 + (L.run (L.process s xs o).1 calls).2.1,
      (L.process s xs o).2.2.length + (L.run (L.process s xs o).1 calls).2.2) := rfl

/-- A converter whose state accounts for what it holds back is balanced. -/
theorem balanced_of {L : Lrs} {factor K : ℝ} (φ : L.State → ℝ)
    (h : ∀ s xs o, ((L.process s xs o).2.2.length : ℝ) - factor * (L.process s xs o).2.1 = φ (L.process s xs o).1 - φ s)
    (hK : ∀ s, |φ s - φ L.init| ≤ K) : L.Balanced factor K := by
  have key : ∀ calls s, ((L.run s calls).2.2 : ℝ) - factor * (L.run s calls).2.1 = φ (L.run s calls).1 - φ s := by
    intro calls
    induction calls with
    | nil => intro s; simp [Lrs.run]
    | cons c calls ih =>
      intro s
      have h1 := ih (L.process s c.1 c.2).1
      have h2 := h s c.1 c.2
      simp only [Lrs.run]
      push_cast
      linarith
  intro calls
  rw [key]
  exact hK _

theorem twice_balanced : twice.Balanced 2 0 := by
  refine balanced_of (fun _ => (0 : ℝ)) (fun s xs o => ?_) (fun s => by simp)
  simp only [twice, flatMap_length, List.length_take]
  rw [show min (min xs.length (o / 2)) xs.length = min xs.length (o / 2) by omega]
  push_cast
  ring

theorem same_conforms : same.Conforms := by
  intro s xs o
  simp only [same, List.length_take]
  omega

theorem delay_conforms : delay.Conforms := by
  intro s xs o
  simp only [delay, List.length_take]
  omega

theorem delay_balanced : delay.Balanced 1 0 := by
  refine balanced_of (fun _ => (0 : ℝ)) (fun (s : ℝ) xs o => ?_) (fun s => by simp)
  show ((((s :: xs.take (min xs.length o)).take (min xs.length o)).length : ℕ) : ℝ) - 1 * (min xs.length o : ℕ) = 0 - 0
  rw [List.length_take, List.length_cons, List.length_take, show min (min xs.length o) (min (min xs.length o) xs.length + 1) = min xs.length o by omega]
  ring

theorem halfLoop_facts : ∀ (keep : Bool) (xs : List ℝ) (o : ℕ), (halfLoop keep xs o).2.1 ≤ xs.length ∧
    (halfLoop keep xs o).2.2.length ≤ o ∧
    ((halfLoop keep xs o).2.1 = xs.length ∨ (halfLoop keep xs o).2.2.length = o) ∧
    2 * (halfLoop keep xs o).2.2.length + (if keep then 0 else 1) =
      (halfLoop keep xs o).2.1 + (if (halfLoop keep xs o).1 then 0 else 1)
  | keep, [], o => by cases keep <;> simp [halfLoop]
  | true, x :: xs, o + 1 => by
    have h := halfLoop_facts false xs o
    rcases hp : halfLoop false xs o with ⟨k, u, out⟩
    rw [hp] at h
    obtain ⟨h1, h2, h3, h4⟩ := h
    simp only [halfLoop, hp, List.length_cons, if_true, Bool.false_eq_true, if_false] at h1 h2 h3 h4 ⊢
    omega
  | true, _ :: _, 0 => by simp [halfLoop]
  | false, x :: xs, o => by
    have h := halfLoop_facts true xs o
    rcases hp : halfLoop true xs o with ⟨k, u, out⟩
    rw [hp] at h
    obtain ⟨h1, h2, h3, h4⟩ := h
    simp only [halfLoop, hp, List.length_cons, if_true, Bool.false_eq_true, if_false] at h1 h2 h3 h4 ⊢
    omega

theorem half_conforms : half.Conforms := fun s xs o => ⟨(halfLoop_facts s xs o).1, (halfLoop_facts s xs o).2.1⟩

theorem half_eager : half.Eager := fun s xs o => (halfLoop_facts s xs o).2.2.1

theorem half_balanced : half.Balanced (1 / 2) (1 / 2) := by
  refine balanced_of (fun k : Bool => if k then (0 : ℝ) else 1 / 2) (fun (s : Bool) xs o => ?_) (fun (s : Bool) => ?_)
  · have h := (halfLoop_facts s xs o).2.2.2
    have h' : 2 * ((halfLoop s xs o).2.2.length : ℝ) + (if s then 0 else 1) =
        (halfLoop s xs o).2.1 + (if (halfLoop s xs o).1 then 0 else 1) := by exact_mod_cast h
    show ((halfLoop s xs o).2.2.length : ℝ) - 1 / 2 * (halfLoop s xs o).2.1 =
      (if (halfLoop s xs o).1 then (0 : ℝ) else 1 / 2) - (if s then (0 : ℝ) else 1 / 2)
    revert h'
    split_ifs <;> intro h' <;> linarith
  · show |(if s then (0 : ℝ) else 1 / 2) - (if true then (0 : ℝ) else 1 / 2)| ≤ 1 / 2
    cases s <;> norm_num

/-! ## One call -/

/-- A call into a destination as long as the input stays inside it, stores as many samples as it reports and leaves the rest
of the destination alone. -/
theorem C143_room {L : Lrs} (hL : L.Conforms) {r : LibResample L} {s : L.State} (hs : r.handle = some s) {input dst : List ℝ}
    (h31 : input.length < 2 ^ 31) (hd : input.length ≤ dst.length) :
    ∃ r' written out used, r.process input dst = .ok (r', (input.length, written), out ++ dst.drop written, used) ∧
      out.length = written ∧ written ≤ input.length ∧ used ≤ input.length ∧
      (L.process s input input.length).2 = (used, out) ∧ r'.handle = some (L.process s input input.length).1 := by
  obtain ⟨h1, h2⟩ := hL s input input.length
  refine ⟨{ r with handle := some (L.process s input input.length).1 }, _, (L.process s input input.length).2.2,
    (L.process s input input.length).2.1, ?_, rfl, h2, h1, rfl, rfl⟩
  unfold LibResample.process
  dsimp only
  rw [if_neg (by omega), hs]
  dsimp only
  rw [if_pos (le_trans h2 hd)]

/-- **C143 is violated by destinations of the documented size**, `λ N` samples with `λ` the input rate divided by the output
rate: a factor of at least 2 and a converter that fills the room it is told it has. -/
theorem C143_documented_size_violates {factor : ℝ} (hf : 2 ≤ factor) (x : ℝ) (xs : List ℝ) (h31 : (x :: xs).length < 2 ^ 31) :
    ∃ L : Lrs, L.Conforms ∧ (LibResample.new L 1 0 factor).process (x :: xs)
      (List.replicate ⌊(1 / factor) * (x :: xs).length⌋₊ 0) = .error .outOfBounds := by
  refine ⟨same, same_conforms, ?_⟩
  have hlen : ⌊(1 / factor) * ((x :: xs).length : ℝ)⌋₊ < (x :: xs).length := by
    have hn : (0 : ℝ) < ((x :: xs).length : ℝ) := by
      have : 0 < (x :: xs).length := Nat.succ_pos _
      exact_mod_cast this
    have h1 : 1 / factor < 1 := by rw [div_lt_one (by linarith)]; linarith
    have h2 : (1 / factor) * ((x :: xs).length : ℝ) < (x :: xs).length := by
      calc _ < 1 * ((x :: xs).length : ℝ) := mul_lt_mul_of_pos_right h1 hn
        _ = _ := one_mul _
    exact (Nat.floor_lt (by positivity)).mpr h2
  generalize hl : x :: xs = l at *
  unfold LibResample.process LibResample.new
  dsimp only
  rw [if_neg (by omega), if_pos (by linarith)]
  dsimp only
  rw [if_neg]
  simp only [same, List.length_replicate, List.length_take]
  omega

/-- **C143 is violated by factors that are not positive**: the constructor accepts them, reports no error, and every call uses
a handle that does not exist; `valid_ratio` accepts everything. -/
theorem C143_factor_violates (L : Lrs) (channels quality : ℤ) {factor : ℝ} (hf : factor ≤ 0) (input dst : List ℝ)
    (h31 : input.length < 2 ^ 31) :
    (LibResample.new L channels quality factor).error = 0 ∧ LibResample.validRatio factor = true ∧
      (LibResample.new L channels quality factor).process input dst = .error .badHandle := by
  refine ⟨rfl, rfl, ?_⟩
  unfold LibResample.process LibResample.new
  dsimp only
  rw [if_neg (by omega), if_neg (by linarith)]

/-! ## Streams -/

/-- What a stream of blocks delivers is what the library delivers to the same calls; what it reports as read is everything. -/
theorem stream_ok {L : Lrs} (hL : L.Conforms) : ∀ (bs : List (List ℝ)) {r : LibResample L} {s : L.State}, r.handle = some s →
    (∀ b ∈ bs, b.length < 2 ^ 31) →
    ∃ r' out, r.stream bs = .ok (r', (bs.map List.length).sum, (L.run s (bs.map fun b => (b, b.length))).2.2, out,
        (L.run s (bs.map fun b => (b, b.length))).2.1) ∧
      out.length = (L.run s (bs.map fun b => (b, b.length))).2.2 ∧
      r'.handle = some (L.run s (bs.map fun b => (b, b.length))).1
  | [], r, s, hs, _ => ⟨r, [], rfl, rfl, hs⟩
  | b :: bs, r, s, hs, hb => by
    obtain ⟨r1, w, out1, used, e1, hw, hwb, -, hp, hr1⟩ := C143_room hL hs (dst := List.replicate b.length 0)
      (hb b (by simp)) (by rw [List.length_replicate])
    obtain ⟨r2, out2, e2, h2, hr2⟩ := stream_ok hL bs hr1 fun c hc => hb c (List.mem_cons_of_mem _ hc)
    have hu : (L.process s b b.length).2.1 = used := by rw [hp]
    have ho : (L.process s b b.length).2.2.length = w := by rw [hp, hw]
    refine ⟨r2, out1 ++ out2, ?_, ?_, ?_⟩
    · simp only [LibResample.stream, e1, e2, bind, Except.bind, pure, Except.pure, List.map_cons, List.sum_cons, Lrs.run, hu, ho]
      rw [← hw, List.take_left']
      rfl
    · simp only [List.map_cons, Lrs.run, ho, List.length_append, hw, h2]
    · simpa only [List.map_cons, Lrs.run] using hr2

/-- **C143 is violated by every factor above 1**: the room the library is told it has is the length of the input, not
`factor` times it.  Whatever the converter, as long as it changes the rate by `factor`, it can use at most the `factor`-th part
of a stream, and all of it is reported as read. -/
theorem C143_lost_violates {L : Lrs} (hL : L.Conforms) {factor K : ℝ} (hf : 1 < factor) (hB : L.Balanced factor K)
    (channels quality : ℤ) (bs : List (List ℝ)) (hb : ∀ b ∈ bs, b.length < 2 ^ 31) :
    ∃ r' written out used, (LibResample.new L channels quality factor).stream bs =
        .ok (r', (bs.map List.length).sum, written, out, used) ∧
      factor * used ≤ (bs.map List.length).sum + K ∧
      (K < (factor - 1) * (bs.map List.length).sum → used < (bs.map List.length).sum) := by
  have hh : (LibResample.new L channels quality factor).handle = some L.init := by
    simp only [LibResample.new]; rw [if_pos (by linarith)]
  obtain ⟨r', out, e, -, -⟩ := stream_ok hL bs hh hb
  refine ⟨r', _, out, _, e, ?_⟩
  set calls := bs.map fun b => (b, b.length) with hcalls
  have hroom : ∀ (bs : List (List ℝ)) (s : L.State), (L.run s (bs.map fun b => (b, b.length))).2.2 ≤ (bs.map List.length).sum := by
    intro bs
    induction bs with
    | nil => intro s; simp [Lrs.run]
    | cons b bs ih =>
      intro s
      have h1 := ih (L.process s b b.length).1
      have h2 := (hL s b b.length).2
      simp only [List.map_cons, run_cons, List.sum_cons]
      omega
  have h1 := (abs_le.mp (hB calls)).1
  have h2 : ((L.run L.init calls).2.2 : ℝ) ≤ ((bs.map List.length).sum : ℕ) := by exact_mod_cast hroom bs L.init
  have h3 : factor * (L.run L.init calls).2.1 ≤ ((bs.map List.length).sum : ℕ) + K := by linarith
  refine ⟨h3, fun hK => ?_⟩
  by_contra hlt
  have hge : (((bs.map List.length).sum : ℕ) : ℝ) ≤ (L.run L.init calls).2.1 := by exact_mod_cast not_lt.mp hlt
  have : factor * (((bs.map List.length).sum : ℕ) : ℝ) ≤ factor * (L.run L.init calls).2.1 :=
    mul_le_mul_of_nonneg_left hge (by linarith)
  linarith

/-- Twice the rate: the second half of each block is dropped. -/
example : ∃ r', (LibResample.new twice 1 0 2).stream [[1, 2, 3, 4], [5, 6]] = .ok (r', 6, 6, [1, 1, 2, 2, 5, 5], 3) := by
  refine ⟨⟨1, 2, 0, some (), 0⟩, ?_⟩
  simp [LibResample.stream, LibResample.process, LibResample.new, twice, bind, Except.bind, pure, Except.pure]

example : ∃ r' written out used, (LibResample.new twice 1 0 2).stream [[1, 2, 3, 4], [5, 6]] =
    .ok (r', 6, written, out, used) ∧ (2 : ℝ) * used ≤ (6 : ℕ) + 0 ∧ ((0 : ℝ) < (2 - 1) * (6 : ℕ) → used < 6) :=
  C143_lost_violates twice_conforms one_lt_two twice_balanced 1 0 [[1, 2, 3, 4], [5, 6]] (by simp)

/-- **C143 (partial).** With a factor below 1 and blocks that are not too short, every sample is used, and what is written is
`factor` times what was read up to what the converter holds back.  Missing: factors of at least 1. -/
theorem C143_down_partial {L : Lrs} (hL : L.Conforms) (hE : L.Eager) {factor K : ℝ} (h0 : 0 < factor)
    (hB : L.Balanced factor K) (channels quality : ℤ) (bs : List (List ℝ)) (hb : ∀ b ∈ bs, b.length < 2 ^ 31)
    (hlong : ∀ b ∈ bs, 2 * K < (1 - factor) * b.length) :
    ∃ r' written out, (LibResample.new L channels quality factor).stream bs =
        .ok (r', (bs.map List.length).sum, written, out, (bs.map List.length).sum) ∧ out.length = written ∧
      |(written : ℝ) - factor * (bs.map List.length).sum| ≤ K := by
  have hh : (LibResample.new L channels quality factor).handle = some L.init := by
    simp only [LibResample.new]; rw [if_pos h0]
  obtain ⟨r', out, e, ho, -⟩ := stream_ok hL bs hh hb
  have hrun : ∀ (pre post : List (List ℝ × ℕ)), (L.run L.init (pre ++ post)) =
      ((L.run (L.run L.init pre).1 post).1, (L.run L.init pre).2.1 + (L.run (L.run L.init pre).1 post).2.1,
        (L.run L.init pre).2.2 + (L.run (L.run L.init pre).1 post).2.2) := by
    intro pre
    generalize L.init = s
    induction pre generalizing s with
    | nil => intro post; simp [Lrs.run]
    | cons c pre ih =>
      intro post
      rw [List.cons_append]
      simp only [Lrs.run, ih]
      rw [Nat.add_assoc, Nat.add_assoc]
  have hall : ∀ (bs : List (List ℝ)) (pre : List (List ℝ × ℕ)), (∀ b ∈ bs, 2 * K < (1 - factor) * b.length) →
      (L.run (L.run L.init pre).1 (bs.map fun b => (b, b.length))).2.1 = (bs.map List.length).sum := by
    intro bs
    induction bs with
    | nil => intro pre _; rfl
    | cons b bs ih =>
      intro pre hlong
      have hone : (L.process (L.run L.init pre).1 b b.length).2.1 = b.length := by
        rcases hE (L.run L.init pre).1 b b.length with h | h
        · exact h
        · by_contra hne
          have hlt : (L.process (L.run L.init pre).1 b b.length).2.1 < b.length :=
            lt_of_le_of_ne (hL _ _ _).1 hne
          have b1 := (abs_le.mp (hB pre)).1
          have b2 := (abs_le.mp (hB (pre ++ [(b, b.length)]))).2
          rw [hrun] at b2
          simp only [Lrs.run, h, Nat.add_zero] at b2
          push_cast at b2
          have hlt' : ((L.process (L.run L.init pre).1 b b.length).2.1 : ℝ) ≤ b.length := by exact_mod_cast hlt.le
          have := mul_le_mul_of_nonneg_left hlt' h0.le
          have := hlong b (by simp)
          linarith
      have ih' := ih (pre ++ [(b, b.length)]) fun c hc => hlong c (List.mem_cons_of_mem _ hc)
      rw [hrun] at ih'
      simp only [Lrs.run] at ih'
      simp only [List.map_cons, Lrs.run, List.sum_cons, hone, ih']
  have hu := hall bs [] hlong
  simp only [Lrs.run] at hu
  have hbal := hB (bs.map fun b => (b, b.length))
  rw [hu] at e hbal
  exact ⟨r', _, out, e, ho, hbal⟩

/-- Half the rate, two blocks of three samples. -/
example : ∃ r' written out, (LibResample.new half 1 0 (1 / 2)).stream [[1, 2, 3], [4, 5, 6]] =
    .ok (r', 6, written, out, 6) ∧ out.length = written ∧ |(written : ℝ) - 1 / 2 * (6 : ℕ)| ≤ 1 / 2 :=
  C143_down_partial half_conforms half_eager (by norm_num) half_balanced 1 0 [[1, 2, 3], [4, 5, 6]] (by simp)
    (by intro b hb; simp at hb; rcases hb with rfl | rfl <;> norm_num)

/-! ## Channels, and starting again -/

/-- The samples of one of two channels. -/
def channel : ℕ → List ℝ → List ℝ
  | 0, x :: _ :: xs => x :: channel 0 xs
  | c + 1, _ :: x :: xs => x :: channel (c + 1) xs
  | _, _ => []

/-- **C143 is violated by more than one channel**: the number of channels is not passed on, so that the samples of all
channels are converted as those of one.  A converter that is one sample late gives the left channel the samples of the
right one. -/
theorem C143_channels_violates :
    (∀ (L : Lrs) (c c' quality : ℤ) (factor : ℝ) (input dst : List ℝ),
      ((LibResample.new L c quality factor).process input dst).map (fun p => p.2.2.1) =
        ((LibResample.new L c' quality factor).process input dst).map (fun p => p.2.2.1)) ∧
    ∃ L : Lrs, L.Conforms ∧ L.Balanced 1 0 ∧ ∃ (r' : LibResample L) (out : List ℝ) (used : ℕ) (input : List ℝ),
      (LibResample.new L 2 0 1).process input (List.replicate 6 0) = .ok (r', (6, 6), out, used) ∧
        channel 0 out ≠ (L.process L.init (channel 0 input) 3).2.2 ∧ channel 0 out = 0 :: (channel 1 input).take 2 := by
  constructor
  · intro L c c' quality factor input dst
    unfold LibResample.process LibResample.new
    dsimp only
    by_cases h31 : 2 ^ 31 ≤ input.length
    · rw [if_pos h31, if_pos h31]
    · rw [if_neg h31, if_neg h31]
      by_cases hf : 0 < factor
      · rw [if_pos hf]
        dsimp only
        split <;> rfl
      · rw [if_neg hf]
  · refine ⟨delay, delay_conforms, delay_balanced, ⟨2, 1, 0, some (6 : ℝ), 0⟩, [0, 1, 4, 2, 5, 3], 6, [1, 4, 2, 5, 3, 6], ?_, ?_, ?_⟩
    · simp [LibResample.process, LibResample.new, delay]
    · simp [channel, delay]
    · simp [channel]

/-- **C143, starting again is violated**: `reset` reports success and does nothing; a converter that is one sample late
begins the next signal with the last sample of the previous one. -/
theorem C143_reset_violates :
    (∀ (L : Lrs) (r : LibResample L), r.reset = (r, r.error)) ∧
    ∃ L : Lrs, L.Conforms ∧ L.Balanced 1 0 ∧ ∃ (r1 : LibResample L) (p : ℕ × ℕ) (out : List ℝ) (used : ℕ),
      (LibResample.new L 1 0 1).process [5] [0] = .ok (r1, p, out, used) ∧
        ((r1.reset).1.process [1] [0]).map (fun p => p.2.2.1) ≠
          ((LibResample.new L 1 0 1).process [1] [0]).map (fun p => p.2.2.1) := by
  refine ⟨fun _ _ => rfl, delay, delay_conforms, delay_balanced, ⟨1, 1, 0, some (5 : ℝ), 0⟩, (1, 1), [0], 1, ?_, ?_⟩
  · simp [LibResample.process, LibResample.new, delay]
  · simp [LibResample.process, LibResample.new, LibResample.reset, delay, Except.map]

/-- A converter of libsamplerate that leaves the samples as they are. -/
def sameSrc (channels : ℕ) : Src where
  State := Unit
  init := ()
  process := fun _ xs i o _ => ((), min i (min o (xs.length / channels)), min i (min o (xs.length / channels)),
    xs.take (min i (min o (xs.length / channels)) * channels))

/-- **C143, the two libraries are violated**: the same program, with two channels, is told the numbers of frames by one build
and the numbers of samples by the other. -/
theorem C143_builds_violates (input : List ℝ) (hn : 2 ≤ input.length) (h31 : input.length < 2 ^ 31) :
    ∃ (r : Resampler (sameSrc 2)) (r' : LibResample same) (a b : List ℝ) (used : ℕ),
      (sameSrc 2).Conforms 2 ∧ same.Conforms ∧
      (Resampler.new (sameSrc 2) 2 1).process input (List.replicate input.length 0) =
        .ok (r, (input.length / 2, input.length / 2), a) ∧
      (LibResample.new same 2 0 1).process input (List.replicate input.length 0) =
        .ok (r', (input.length, input.length), b, used) ∧ input.length / 2 < input.length := by
  refine ⟨⟨2, 1, ()⟩, ⟨2, 1, 0, some (), 0⟩, input.take (input.length / 2 * 2) ++
    (List.replicate input.length 0).drop (input.length / 2 * 2), input, input.length, ?_, same_conforms, ?_, ?_, by omega⟩
  · intro s xs i o r
    simp only [sameSrc, List.length_take]
    omega
  · have hfl : ⌊(1 : ℝ) * (input.length / 2 : ℕ)⌋₊ = input.length / 2 := by rw [one_mul, Nat.floor_natCast]
    have h0 : ¬ (1 : ℝ) * (input.length / 2 : ℕ) < 0 := not_lt.mpr (by positivity)
    unfold Resampler.process Resampler.new Resampler.outputFrames
    simp only [OfNat.ofNat_ne_zero, if_false, if_neg h0, hfl, bind, Except.bind, sameSrc, Nat.min_self, List.length_take,
      List.length_replicate]
    rw [if_pos (by omega), show min (input.length / 2 * 2) input.length = input.length / 2 * 2 by omega]
  · unfold LibResample.process LibResample.new
    dsimp only
    rw [if_neg (by omega), if_pos one_pos]
    simp [same]

end Edsp.C143
