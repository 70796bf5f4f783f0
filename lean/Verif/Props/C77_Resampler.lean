import Verif.Model.Resampler
import Mathlib.Tactic.Linarith
import Mathlib.Tactic.Positivity
import Mathlib.Tactic.NormNum
import Mathlib.Algebra.Order.Floor.Semiring
import Mathlib.Data.List.Nodup

/-! # C77, C78: the resampler and its Python binding

Every statement holds for every converter that keeps the documented contract of libsamplerate. -/

namespace Edsp.Props

open Edsp Edsp.Resampler

/-- The samples that `⌊ratio · frames⌋` frames need fit in `⌊ratio · N⌋` samples. -/
theorem need_le {ratio : ℝ} (hr : 0 ≤ ratio) (N ch : ℕ) :
    ⌊ratio * (N / ch : ℕ)⌋₊ * ch ≤ ⌊ratio * N⌋₊ := by
  apply Nat.le_floor
  push_cast
  have h1 : (⌊ratio * (N / ch : ℕ)⌋₊ : ℝ) ≤ ratio * (N / ch : ℕ) := Nat.floor_le (by positivity)
  have h2 : ((N / ch : ℕ) : ℝ) * ch ≤ N := by exact_mod_cast Nat.div_mul_le_self N ch
  calc (⌊ratio * (N / ch : ℕ)⌋₊ : ℝ) * ch ≤ ratio * (N / ch : ℕ) * ch :=
        mul_le_mul_of_nonneg_right h1 (by positivity)
    _ = ratio * (((N / ch : ℕ) : ℝ) * ch) := by ring
    _ ≤ ratio * N := mul_le_mul_of_nonneg_left h2 hr

theorem process_eq {L : Src} {r : Resampler L} (hc : r.channels ≠ 0) (hr : 0 ≤ r.ratio) (input dst : List ℝ) :
    r.process input dst =
      (let o := L.process r.state input (input.length / r.channels)
          ⌊r.ratio * (input.length / r.channels : ℕ)⌋₊ r.ratio
       if o.2.2.2.length ≤ dst.length then
         .ok ({ r with state := o.1 }, (o.2.1, o.2.2.1), o.2.2.2 ++ dst.drop o.2.2.2.length)
       else .error .outOfBounds) := by
  have h0 : ¬ r.ratio * (input.length / r.channels : ℕ) < 0 := not_lt.mpr (by positivity)
  have e : outputFrames r.ratio (input.length / r.channels) =
      .ok ⌊r.ratio * (input.length / r.channels : ℕ)⌋₊ := by
    unfold outputFrames; rw [if_neg h0]
  unfold process
  rw [if_neg hc]
  dsimp only
  rw [e]
  rfl

/-- **C77, room (partial).** For every number of channels, every ratio, every state of the stream, every
input of `N` samples and every destination with room for `ratio · N` samples: the call stays inside the
destination, uses at most the whole frames of the input and stores exactly `generated · channels` samples,
leaving the rest of the destination alone; at most `ratio` times the input frames are generated.
Missing: the number returned is the number of samples stored only for one channel (see below). -/
theorem C77_room_partial {L : Src} {r : Resampler L} (hL : L.Conforms r.channels) (hc : r.channels ≠ 0)
    (hr : 0 ≤ r.ratio) (input dst : List ℝ) (hd : ⌊r.ratio * input.length⌋₊ ≤ dst.length) :
    ∃ r' used gen out, r.process input dst = .ok (r', (used, gen), out ++ dst.drop (gen * r.channels)) ∧
      out.length = gen * r.channels ∧ gen * r.channels ≤ dst.length ∧
      used * r.channels ≤ input.length ∧ (gen : ℝ) ≤ r.ratio * (input.length / r.channels : ℕ) ∧
      r'.channels = r.channels ∧ r'.ratio = r.ratio ∧ (r.channels = 1 → out.length = gen) := by
  rw [process_eq hc hr]
  dsimp only
  set o := L.process r.state input (input.length / r.channels)
          ⌊r.ratio * (input.length / r.channels : ℕ)⌋₊ r.ratio with ho
  obtain ⟨h1, h2, h3⟩ := hL r.state input (input.length / r.channels)
          ⌊r.ratio * (input.length / r.channels : ℕ)⌋₊ r.ratio
  rw [← ho] at h1 h2 h3
  have hfit : o.2.2.1 * r.channels ≤ dst.length :=
    (Nat.mul_le_mul_right _ h2).trans ((need_le hr _ _).trans hd)
  refine ⟨{ r with state := o.1 }, o.2.1, o.2.2.1, o.2.2.2, ?_, h3, hfit, ?_, ?_, rfl, rfl, ?_⟩
  · rw [if_pos (by rw [h3]; exact hfit), h3]
  · exact (Nat.mul_le_mul_right _ h1).trans (Nat.div_mul_le_self _ _)
  · exact (Nat.cast_le.mpr h2).trans (Nat.floor_le (by positivity))
  · intro h; rw [h3, h, mul_one]

/-- A converter for two channels that repeats or drops frames: conforming, used for the examples. -/
noncomputable def holdSrc (ch : ℕ) : Src where
  State := Unit
  init := ()
  process := fun _ _ i o _ => ((), i, o, List.replicate (o * ch) 0)

theorem holdSrc_conforms (ch : ℕ) : (holdSrc ch).Conforms ch := by
  intro s xs i o r
  exact ⟨le_rfl, le_rfl, by simp [holdSrc]⟩

example : ∃ r' out, (Resampler.new (holdSrc 2) 2 2).process [1, 2, 3, 4, 5] (List.replicate 10 7) =
    .ok (r', (2, 4), out ++ [7, 7]) ∧ out.length = 8 := by
  have e : ⌊(2 : ℝ) * 2⌋₊ = 4 := by
    have : (2 : ℝ) * 2 = ((4 : ℕ) : ℝ) := by norm_num
    rw [this, Nat.floor_natCast]
  refine ⟨⟨2, 2, ()⟩, List.replicate 8 0, ?_, by simp⟩
  rw [process_eq (by simp [Resampler.new]) (by simp [Resampler.new])]
  simp [Resampler.new, holdSrc, e, List.replicate]

/-- **C77 is violated for more than one channel**: the counter returned, documented as the number of
samples computed and recommended for resizing the destination, is smaller than the number of samples
stored, whenever something is generated. -/
theorem C77_counter_violates {L : Src} {r : Resampler L} (hL : L.Conforms r.channels) (hc : 2 ≤ r.channels)
    (hr : 0 ≤ r.ratio) {input dst : List ℝ} {r' used gen res}
    (h : r.process input dst = .ok (r', (used, gen), res)) (hg : 0 < gen) :
    ∃ out, res = out ++ dst.drop out.length ∧ gen < out.length := by
  rw [process_eq (by omega) hr] at h
  dsimp only at h
  set o := L.process r.state input (input.length / r.channels)
          ⌊r.ratio * (input.length / r.channels : ℕ)⌋₊ r.ratio with ho
  obtain ⟨-, -, h3⟩ := hL r.state input (input.length / r.channels)
          ⌊r.ratio * (input.length / r.channels : ℕ)⌋₊ r.ratio
  rw [← ho] at h3
  split at h
  · simp only [Except.ok.injEq, Prod.mk.injEq] at h
    obtain ⟨-, ⟨-, hgen⟩, hres⟩ := h
    refine ⟨o.2.2.2, hres.symm, ?_⟩
    rw [h3, hgen]
    nlinarith
  · cases h

/-- **C77 is violated by the documented destination size.** The documentation asks for `λN` samples with
`λ` the input rate divided by the output rate, the inverse of the factor given to the constructor. For
every factor of at least 2 and every input of at least one frame a conforming converter then makes the
call write outside the destination. -/
theorem C77_documented_size_violates {factor : ℝ} (hf : 2 ≤ factor) (x : ℝ) (xs : List ℝ) :
    ∃ L : Src, L.Conforms 1 ∧ (Resampler.new L 1 factor).process (x :: xs)
      (List.replicate ⌊(1 / factor) * (x :: xs).length⌋₊ 0) = .error .outOfBounds := by
  refine ⟨holdSrc 1, holdSrc_conforms 1, ?_⟩
  rw [process_eq (by simp [Resampler.new]) (by simp [Resampler.new]; linarith)]
  dsimp only
  rw [if_neg]
  simp only [holdSrc, Resampler.new, List.length_replicate, Nat.div_one, mul_one]
  push Not
  have hn : (1 : ℝ) ≤ ((x :: xs).length : ℝ) := by
    rw [List.length_cons]; push_cast; have : (0 : ℝ) ≤ xs.length := Nat.cast_nonneg _
    linarith
  generalize hl : (x :: xs).length = l at hn ⊢
  set n : ℝ := (l : ℝ) with hnd
  have h1 : (1 / factor) * n < n := by
    rw [one_div, inv_mul_lt_iff₀ (by linarith)]
    nlinarith
  have h2 : (⌊1 / factor * n⌋₊ : ℝ) ≤ 1 / factor * n := Nat.floor_le (by positivity)
  have h3 : (⌊1 / factor * n⌋₊ : ℝ) < n := by linarith
  have h4 : ⌊1 / factor * n⌋₊ < l := by rw [hnd] at h3 ⊢; exact_mod_cast h3
  refine lt_of_lt_of_le h4 (Nat.le_floor ?_)
  rw [← hnd]
  nlinarith

/-- **C77 is violated by short blocks.** If no block has as many as `1/ratio` frames, nothing is ever
generated, however many blocks are sent and whatever the converter does with them. -/
theorem C77_short_blocks_violates {L : Src} {r : Resampler L} (hL : L.Conforms r.channels)
    (hc : r.channels ≠ 0) (hr : 0 ≤ r.ratio) (size : ℕ) (blocks : List (List ℝ))
    (hb : ∀ b ∈ blocks, r.ratio * (b.length / r.channels : ℕ) < 1) :
    ∃ ps, r.stream size blocks = .ok ps ∧ ps.length = blocks.length ∧ ∀ p ∈ ps, p.2 = 0 := by
  induction blocks generalizing r with
  | nil => exact ⟨[], rfl, rfl, by simp⟩
  | cons b bs ih =>
    rw [stream, process_eq hc hr]
    dsimp only
    set o := L.process r.state b (b.length / r.channels)
          ⌊r.ratio * (b.length / r.channels : ℕ)⌋₊ r.ratio with ho
    obtain ⟨-, h2, h3⟩ := hL r.state b (b.length / r.channels)
          ⌊r.ratio * (b.length / r.channels : ℕ)⌋₊ r.ratio
    rw [← ho] at h2 h3
    have hz : ⌊r.ratio * (b.length / r.channels : ℕ)⌋₊ = 0 := Nat.floor_eq_zero.mpr (hb b (by simp))
    have hg : o.2.2.1 = 0 := by omega
    rw [if_pos (by rw [h3, hg]; simp)]
    obtain ⟨ps, e1, e2, e3⟩ := ih (r := { r with state := o.1 }) hL hc hr
      (fun b' hb' => hb b' (by simp [hb']))
    refine ⟨(o.2.1, o.2.2.1) :: ps, ?_, by simp [e2], ?_⟩
    · simp only [bind, Except.bind, e1, pure, Except.pure]
    · intro p hp
      rcases List.mem_cons.mp hp with rfl | hp
      · exact hg
      · exact e3 p hp

example : ∃ ps, (Resampler.new (holdSrc 1) 1 (1/2)).stream 10 (List.replicate 1000 [1]) = .ok ps ∧
    ps.length = 1000 ∧ ∀ p ∈ ps, p.2 = 0 := by
  obtain ⟨ps, h1, h2, h3⟩ := C77_short_blocks_violates (r := Resampler.new (holdSrc 1) 1 (1/2))
    (holdSrc_conforms 1) (by simp [Resampler.new]) (by simp [Resampler.new]) 10 (List.replicate 1000 [1]) (by
      intro b hb
      rw [List.eq_of_mem_replicate hb]
      norm_num [Resampler.new])
  exact ⟨ps, h1, by rw [h2, List.length_replicate], h3⟩

/-- **C77, a constructor without channels is violated**: with 0 channels, accepted by the constructor,
every call divides by zero. -/
theorem C77_zero_channels_violates (L : Src) (factor : ℝ) (input dst : List ℝ) :
    (Resampler.new L 0 factor).process input dst = .error .divByZero := by
  unfold process Resampler.new
  rw [if_pos rfl]

/-- **C77, copies are violated**: copying a resampler and letting both go releases the library handle
twice, in any program that has kept its books until then. -/
theorem C77_copy_violates (w : SrcWorld) (i h : ℕ) (hi : w.objects[i]? = some (some h)) (hl : h ∈ w.live)
    (hn : w.live.Nodup) :
    w.run [.copy i, .destroy i, .destroy w.objects.length] = .error .badHandle := by
  have hlt : i < w.objects.length := (List.getElem?_eq_some_iff.mp hi).1
  have e1 : w.step (.copy i) = .ok { w with objects := w.objects ++ [some h] } := by
    simp only [SrcWorld.step, hi]
  have e2 : ({ w with objects := w.objects ++ [some h] } : SrcWorld).step (.destroy i) =
      .ok { w with objects := (w.objects ++ [some h]).set i none, live := w.live.erase h } := by
    unfold SrcWorld.step
    simp only [List.getElem?_append_left hlt, hi, if_pos hl]
  have e3 : ({ w with objects := (w.objects ++ [some h]).set i none, live := w.live.erase h } : SrcWorld).step
      (.destroy w.objects.length) = .error .badHandle := by
    unfold SrcWorld.step
    simp only
    rw [List.getElem?_set_ne (by omega), List.getElem?_concat_length]
    simp only
    rw [if_neg (by intro hm; exact hn.not_mem_erase hm)]
  simp only [SrcWorld.run, e1, e2, e3, bind, Except.bind]

example : SrcWorld.empty.run [.construct, .copy 0, .destroy 0, .destroy 1] = .error .badHandle := by
  have h : (⟨[some 0], [0], 1⟩ : SrcWorld).run [.copy 0, .destroy 0, .destroy 1] = .error .badHandle :=
    C77_copy_violates ⟨[some 0], [0], 1⟩ 0 0 rfl (by simp) (by simp)
  rw [SrcWorld.run]
  exact h

/-- The books: the handles of the objects that exist are exactly the ones not released, each once. -/
def Books (w : SrcWorld) : Prop :=
  (w.objects.filterMap id).Perm w.live ∧ w.live.Nodup ∧ ∀ h ∈ w.live, h < w.next

theorem books_step {w : SrcWorld} (hw : Books w) (op : SrcOp) (hop : ∀ i, op ≠ .copy i) :
    (∃ w', w.step op = .ok w' ∧ Books w') ∨ w.step op = .error .dangling := by
  obtain ⟨hp, hn, hl⟩ := hw
  cases op with
  | construct =>
    refine Or.inl ⟨_, rfl, ?_, ?_, ?_⟩
    · dsimp only
      rw [List.filterMap_append]
      exact (List.perm_append_comm.trans (List.Perm.cons _ hp))
    · exact List.nodup_cons.mpr ⟨fun h => lt_irrefl _ (hl _ h), hn⟩
    · intro h hh
      rcases List.mem_cons.mp hh with rfl | hh
      · exact Nat.lt_succ_self _
      · exact (hl h hh).trans (Nat.lt_succ_self _)
  | copy i => exact absurd rfl (hop i)
  | destroy i =>
    rcases ho : w.objects[i]? with _ | _ | h
    · right; simp only [SrcWorld.step, ho]
    · right; simp only [SrcWorld.step, ho]
    · left
      obtain ⟨hlt, hget⟩ := List.getElem?_eq_some_iff.mp ho
      have hsplit : w.objects = w.objects.take i ++ some h :: w.objects.drop (i + 1) := by
        rw [← hget, List.cons_getElem_drop_succ, List.take_append_drop]
      have hfm : w.objects.filterMap id =
          (w.objects.take i).filterMap id ++ h :: (w.objects.drop (i + 1)).filterMap id := by
        conv_lhs => rw [hsplit]
        simp
      have hset : (w.objects.set i none).filterMap id =
          (w.objects.take i).filterMap id ++ (w.objects.drop (i + 1)).filterMap id := by
        rw [List.set_eq_take_append_cons_drop, if_pos hlt]
        simp
      have hmem : h ∈ w.live := hp.mem_iff.mp (by rw [hfm]; simp)
      refine ⟨{ objects := w.objects.set i none, live := w.live.erase h, next := w.next },
        by simp only [SrcWorld.step, ho, if_pos hmem], ?_, hn.erase h, ?_⟩
      · dsimp only
        rw [hset]
        have h1 := hp.erase h
        rw [hfm] at h1
        have h2 : ((w.objects.take i).filterMap id ++ h :: (w.objects.drop (i + 1)).filterMap id).Perm
            (h :: ((w.objects.take i).filterMap id ++ (w.objects.drop (i + 1)).filterMap id)) :=
          List.perm_middle
        have h3 := h2.erase h
        rw [List.erase_cons_head] at h3
        exact h3.symm.trans h1
      · intro k hk
        exact hl k (List.mem_of_mem_erase hk)

/-- **C77, ownership (partial).** In every program that copies no resampler no handle is released twice,
and when no object is left no handle is: nothing leaks. (Destroying an object that does not exist, the
other possible fault, is ruled out by C++ scopes.) Missing: programs that copy. -/
theorem C77_ownership_partial (ops : List SrcOp) (h : ∀ i, SrcOp.copy i ∉ ops) :
    (∃ w, SrcWorld.empty.run ops = .ok w ∧ ((∀ o ∈ w.objects, o = none) → w.live = [])) ∨
      SrcWorld.empty.run ops = .error .dangling := by
  have key : ∀ (ops : List SrcOp) (w : SrcWorld), Books w → (∀ i, SrcOp.copy i ∉ ops) →
      (∃ w', w.run ops = .ok w' ∧ Books w') ∨ w.run ops = .error .dangling := by
    intro ops
    induction ops with
    | nil => intro w hw _; exact Or.inl ⟨w, rfl, hw⟩
    | cons op ops ih =>
      intro w hw hops
      rcases books_step hw op (by rintro i rfl; exact hops i (by simp)) with ⟨w', e, hw'⟩ | e
      · rcases ih w' hw' (fun i hi => hops i (by simp [hi])) with ⟨w'', e', hw''⟩ | e'
        · exact Or.inl ⟨w'', by simp only [SrcWorld.run, e, bind, Except.bind, e'], hw''⟩
        · exact Or.inr (by simp only [SrcWorld.run, e, bind, Except.bind, e'])
      · exact Or.inr (by simp only [SrcWorld.run, e, bind, Except.bind])
  rcases key ops SrcWorld.empty ⟨List.Perm.refl _, List.nodup_nil, by intro h hh; cases hh⟩ h with
    ⟨w, e, hp, -, -⟩ | e
  · refine Or.inl ⟨w, e, fun hnone => ?_⟩
    have : w.objects.filterMap id = [] := by
      rw [List.filterMap_eq_nil_iff]
      intro o ho
      rw [hnone o ho]; rfl
    rw [this] at hp
    exact hp.nil_eq.symm
  · exact Or.inr e

example : ∃ w, SrcWorld.empty.run [.construct, .construct, .destroy 0, .destroy 1] = .ok w ∧ w.live = [] :=
  ⟨⟨[none, none], [], 2⟩, rfl, rfl⟩

/-! ## C78 -/

/-- **C78, one channel (partial).** In Python `process` of a mono resampler stays inside its arrays for
every input, ratio and state, and returns exactly the samples generated. Missing: more channels. -/
theorem C78_mono_partial {L : Src} {r : Resampler L} (hL : L.Conforms r.channels) (hc : r.channels = 1)
    (hr : 0 ≤ r.ratio) (input : List ℝ) :
    ∃ r' res used, pyResample r input = .ok (r', res, used) ∧
      res = (L.process r.state input input.length ⌊r.ratio * input.length⌋₊ r.ratio).2.2.2 ∧
      used ≤ input.length := by
  have h1 : r.channels ≠ 0 := by omega
  have hconf := hL r.state input input.length ⌊r.ratio * input.length⌋₊ r.ratio
  unfold pyResample
  rw [process_eq h1 hr]
  dsimp only
  rw [hc, Nat.div_one]
  rw [hc] at hconf
  set o := L.process r.state input input.length ⌊r.ratio * input.length⌋₊ r.ratio with ho
  obtain ⟨h2, h3, h4⟩ := hconf
  rw [mul_one] at h4
  have hlen : o.2.2.2.length ≤ ⌊(input.length : ℝ) * r.ratio⌋₊ := by
    rw [h4, mul_comm]; exact h3
  rw [List.length_replicate, if_pos hlen]
  simp only [bind, Except.bind, mul_one, List.length_replicate, List.length_append, List.drop_replicate,
    Nat.sub_self, List.replicate_zero, List.append_nil]
  rw [if_pos ⟨le_rfl, by rw [← h4]; omega⟩]
  refine ⟨_, _, _, rfl, ?_, h2⟩
  rw [← h4, List.take_left]

/-- **C78 is violated for more than one channel**: whenever something is generated the result is copied
into an array that is too short. -/
theorem C78_channels_violates {L : Src} {r : Resampler L} (hL : L.Conforms r.channels) (hc : 2 ≤ r.channels)
    (hr : 0 ≤ r.ratio) (input : List ℝ)
    (hg : 0 < (L.process r.state input (input.length / r.channels)
      ⌊r.ratio * (input.length / r.channels : ℕ)⌋₊ r.ratio).2.2.1) :
    pyResample r input = .error .outOfBounds := by
  obtain ⟨r', used, gen, out, e, h1, h2, h3, h4, h5, h6, -⟩ := C77_room_partial hL (by omega) hr input
    (List.replicate ⌊input.length * r.ratio⌋₊ 0) (by rw [List.length_replicate, mul_comm])
  have hgen : gen = (L.process r.state input (input.length / r.channels)
      ⌊r.ratio * (input.length / r.channels : ℕ)⌋₊ r.ratio).2.2.1 := by
    rw [process_eq (by omega) hr] at e
    dsimp only at e
    split at e
    · simp only [Except.ok.injEq, Prod.mk.injEq] at e
      exact e.2.1.2.symm
    · cases e
  rw [← hgen] at hg
  unfold pyResample
  simp only [e, bind, Except.bind, List.length_replicate]
  rw [if_neg]
  rintro ⟨h, -⟩
  nlinarith

example : pyResample (Resampler.new (holdSrc 2) 2 1) [1, 2, 3, 4] = .error .outOfBounds := by
  apply C78_channels_violates (holdSrc_conforms 2) (by simp [Resampler.new]) (by simp [Resampler.new])
  simp [Resampler.new, holdSrc]

end Edsp.Props
