import Verif.Lemmas.Tracks

/-!
# C142: files with several channels
-/

namespace Edsp.C142

open Edsp.Spec Edsp.Tracks Edsp.TracksL

variable {α : Type}

/-- Frames of `c` samples. -/
def Frames (c : Nat) (fr : List (List α)) : Prop := 0 < c ∧ ∀ f ∈ fr, f.length = c

/-- The file holds the frames `fr`, interleaved, and stands before frame `k`. -/
def Holds (t : Track α) (c : Nat) (fr : List (List α)) (k : Nat) : Prop :=
  Frames c fr ∧ t.channels = c ∧ t.data = fr.flatten ∧ k ≤ fr.length ∧ t.pos = k * c

theorem flatten_length {c : Nat} : ∀ {fr : List (List α)}, (∀ f ∈ fr, f.length = c) → fr.flatten.length = fr.length * c
  | [], _ => by simp
  | f :: fr, h => by
    rw [List.flatten_cons, List.length_append, List.length_cons, h f (by simp),
      flatten_length fun g hg => h g (List.mem_cons_of_mem _ hg), Nat.add_mul, Nat.one_mul, Nat.add_comm]

theorem flatten_drop {c : Nat} : ∀ (k : Nat) {fr : List (List α)}, (∀ f ∈ fr, f.length = c) →
    fr.flatten.drop (k * c) = (fr.drop k).flatten
  | 0, _, _ => by simp
  | _ + 1, [], _ => by simp
  | k + 1, f :: fr, h => by
    rw [List.flatten_cons, List.drop_succ_cons, ← flatten_drop k fun g hg => h g (List.mem_cons_of_mem _ hg),
      Nat.add_mul, Nat.one_mul, List.drop_append, h f (by simp), Nat.add_sub_cancel,
      List.drop_eq_nil_of_le (by rw [h f (by simp)]; omega), List.nil_append]

theorem flatten_take {c : Nat} : ∀ (k : Nat) {fr : List (List α)}, (∀ f ∈ fr, f.length = c) →
    fr.flatten.take (k * c) = (fr.take k).flatten
  | 0, _, _ => by simp
  | _ + 1, [], _ => by simp
  | k + 1, f :: fr, h => by
    rw [List.flatten_cons, List.take_succ_cons, List.flatten_cons,
      ← flatten_take k fun g hg => h g (List.mem_cons_of_mem _ hg),
      Nat.add_mul, Nat.one_mul, List.take_append, h f (by simp), Nat.add_sub_cancel,
      List.take_of_length_le (by rw [h f (by simp)]; omega)]

theorem flatten_seg {c : Nat} {fr : List (List α)} (h : ∀ f ∈ fr, f.length = c) (k j : Nat) :
    seg fr.flatten (k * c) (k * c + j * c) = ((fr.drop k).take j).flatten := by
  unfold seg
  rw [Nat.add_sub_cancel_left, flatten_drop k h, flatten_take j fun g hg => h g (List.mem_of_mem_drop hg)]

theorem take_min (l : List α) (k j : Nat) : (l.drop k).take (min j (l.length - k)) = (l.drop k).take j := by
  rw [← List.length_drop, ← List.take_eq_take_min]

/-- A request for `j` whole frames, with a buffer of whole frames or a request no longer than the buffer, is met as far as
the file reaches: the next frames, all channels of each in their order, and the file stands behind them. -/
theorem C142_read_partial {c k j : Nat} {fr : List (List α)} {t : Track α} (ht : Holds t c fr k) {buffer m : List α}
    {first : Nat} (hb : 0 < buffer.length) (hm : first + j * c ≤ m.length) (hN : c ∣ buffer.length ∨ j * c ≤ buffer.length) :
    ∃ t' buffer' m', Tracks.read t buffer m first (first + j * c) = .ok (min j (fr.length - k) * c, t', buffer', m') ∧
      Wrote m m' first ((fr.drop k).take j).flatten ∧ Holds t' c fr (k + min j (fr.length - k)) ∧
      current t' = (k + min j (fr.length - k) : Nat) ∧ buffer'.length = buffer.length := by
  obtain ⟨⟨hc, hf⟩, hch, hd, hk, hp⟩ := ht
  have hlen := flatten_length hf
  have hple : t.pos ≤ t.data.length := by rw [hp, hd, hlen]; exact Nat.mul_le_mul_right c hk
  obtain ⟨b', m', e, hb', w⟩ := read_exact (t := t) hb (Nat.le_add_right first (j * c)) hm hple
  have hleft : t.data.length - t.pos = (fr.length - k) * c := by rw [hp, hd, hlen, Nat.sub_mul]
  have hD : delivered t.channels buffer.length (first + j * c - first) (t.data.length - t.pos) =
      min j (fr.length - k) * c := by
    rw [Nat.add_sub_cancel_left, hleft, hch]
    have hcd : c ∣ j * c := Nat.dvd_mul_left c j
    have hmin : min (j * c) ((fr.length - k) * c) = min j (fr.length - k) * c := by
      rw [Nat.mul_min_mul_right]
    rcases hN with h | h
    · unfold delivered
      rw [if_pos h, if_pos hcd, hmin]
    · rw [delivered_short h, if_pos hcd, hmin]
  rw [hD] at e w
  refine ⟨_, b', m', e, ?_, ⟨⟨hc, hf⟩, hch, hd, ?_, ?_⟩, ?_, hb'⟩
  · rw [hd, hp, flatten_seg hf, take_min] at w
    exact w
  · omega
  · simp only [hp, Nat.add_mul]
  · simp only [current, hch, hp, ← Nat.add_mul, Nat.mul_div_cancel _ hc]

/-- The six samples of three stereo frames, a buffer of four: the two frames behind the first one. -/
example : Tracks.read (⟨2, [1, 2, 3, 4, 5, 6], 2⟩ : Track Nat) [0, 0, 0, 0] [9, 9, 9, 9, 9, 9, 9] 1 7 =
    .ok (4, ⟨2, [1, 2, 3, 4, 5, 6], 6⟩, [3, 4, 5, 6], [9, 3, 4, 5, 6, 9, 9]) := by
  simp [Tracks.read, Tracks.readLoop, Tracks.sfRead, Io.copyBuffer, Io.copyOut, Mem.distance, Mem.write, bind, Except.bind, pure, Except.pure]

example : Holds (⟨2, [1, 2, 3, 4, 5, 6], 2⟩ : Track Nat) 2 [[1, 2], [3, 4], [5, 6]] 1 := by
  refine ⟨⟨by decide, by decide⟩, rfl, rfl, by decide, rfl⟩

/-- A request longer than the buffer, when the buffer does not hold whole frames: nothing is delivered and nothing moves,
however many frames are left — whole frames asked for or not. -/
theorem C142_long_violates {t : Track α} (hp : t.pos ≤ t.data.length) {buffer m : List α} {first last : Nat}
    (hN : ¬ t.channels ∣ buffer.length) (h1 : first + buffer.length < last) (h2 : last ≤ m.length) :
    ∃ buffer', Tracks.read t buffer m first last = .ok (0, t, buffer', m) ∧ buffer'.length = buffer.length := by
  have hb : 0 < buffer.length := Nat.pos_of_ne_zero fun h => hN (h ▸ Nat.dvd_zero _)
  obtain ⟨b', m', e, hb', w⟩ := read_exact (t := t) hb (show first ≤ last by omega) h2 hp
  have hD : delivered t.channels buffer.length (last - first) (t.data.length - t.pos) = 0 := by
    rw [delivered_long hb (by omega), if_neg hN]
  rw [hD] at e w
  have hm : m' = m := by
    have := w.2
    simpa [seg] using this
  rw [hm] at e
  exact ⟨b', e, hb'⟩

/-- The default buffer, 1024 samples, and a file with six channels: 171 frames at once, of a file that has a thousand. -/
example : ∃ buffer', Tracks.read (⟨6, List.replicate 6000 (1 : Nat), 0⟩ : Track Nat) (List.replicate 1024 0)
    (List.replicate 1026 7) 0 1026 = .ok (0, ⟨6, List.replicate 6000 1, 0⟩, buffer', List.replicate 1026 7) ∧
    buffer'.length = (List.replicate 1024 0).length :=
  C142_long_violates (Nat.zero_le _) (by rw [List.length_replicate]; decide) (by rw [List.length_replicate]; decide)
    (by rw [List.length_replicate]; decide)

/-- A request that is not a number of whole frames and no longer than the buffer delivers nothing. -/
theorem C142_ragged_violates {t : Track α} (hp : t.pos ≤ t.data.length) {buffer m : List α} {first last : Nat}
    (hb : 0 < buffer.length) (h1 : first ≤ last) (hN : last ≤ first + buffer.length) (h2 : last ≤ m.length)
    (hr : ¬ t.channels ∣ last - first) :
    ∃ buffer', Tracks.read t buffer m first last = .ok (0, t, buffer', m) ∧ buffer'.length = buffer.length := by
  obtain ⟨b', m', e, hb', w⟩ := read_exact (t := t) hb h1 h2 hp
  have hD : delivered t.channels buffer.length (last - first) (t.data.length - t.pos) = 0 := by
    rw [delivered_short (by omega), if_neg hr]
  rw [hD] at e w
  have hm : m' = m := by
    have := w.2
    simpa [seg] using this
  rw [hm] at e
  exact ⟨b', e, hb'⟩

/-- Three samples of a stereo file. -/
example : ∃ buffer', Tracks.read (⟨2, [1, 2, 3, 4], 0⟩ : Track Nat) [0, 0, 0, 0] [7, 7, 7] 0 3 =
    .ok (0, ⟨2, [1, 2, 3, 4], 0⟩, buffer', [7, 7, 7]) ∧ buffer'.length = [0, 0, 0, 0].length :=
  C142_ragged_violates (by decide) (by decide) (by decide) (by decide) (by decide) (by decide)

/-- A request that is not a number of whole frames, longer than a buffer of whole frames: the buffers that fit in it are
delivered, and the rest is not, even the whole frames of it. -/
theorem C142_ragged_long {c k q r : Nat} {fr : List (List α)} {t : Track α} (ht : Holds t c fr k) {buffer m : List α}
    {first b : Nat} (hb : 0 < b) (hB : buffer.length = b * c) (hr : ¬ c ∣ r) (hrb : r < b * c)
    (hm : first + (q * (b * c) + r) ≤ m.length) :
    ∃ t' buffer' m', Tracks.read t buffer m first (first + (q * (b * c) + r)) =
        .ok (min (q * b) (fr.length - k) * c, t', buffer', m') ∧
      Wrote m m' first ((fr.drop k).take (q * b)).flatten ∧ Holds t' c fr (k + min (q * b) (fr.length - k)) := by
  obtain ⟨⟨hc, hf⟩, hch, hd, hk, hp⟩ := ht
  have hlen := flatten_length hf
  have hple : t.pos ≤ t.data.length := by rw [hp, hd, hlen]; exact Nat.mul_le_mul_right c hk
  have hbc : 0 < b * c := Nat.mul_pos hb hc
  obtain ⟨b', m', e, hb', w⟩ := read_exact (t := t) (buffer := buffer) (by rw [hB]; exact hbc)
    (Nat.le_add_right first (q * (b * c) + r)) hm hple
  have hleft : t.data.length - t.pos = (fr.length - k) * c := by rw [hp, hd, hlen, Nat.sub_mul]
  have hD : delivered t.channels buffer.length (first + (q * (b * c) + r) - first) (t.data.length - t.pos) =
      min (q * b) (fr.length - k) * c := by
    rw [Nat.add_sub_cancel_left, hleft, hch, hB]
    unfold delivered
    have hcb : c ∣ b * c := Nat.dvd_mul_left c b
    have hnd : ¬ c ∣ q * (b * c) + r := fun h => hr ((Nat.dvd_add_right (Nat.dvd_trans hcb (Nat.dvd_mul_left _ q))).mp h)
    rw [if_pos hcb, if_neg hnd, Nat.add_comm (q * (b * c)) r, Nat.add_mul_div_right _ _ hbc, Nat.div_eq_of_lt hrb,
      Nat.zero_add, ← Nat.mul_assoc, Nat.mul_min_mul_right]
  rw [hD] at e w
  refine ⟨_, b', m', e, ?_, ⟨⟨hc, hf⟩, hch, hd, ?_, ?_⟩⟩
  · rw [hd, hp, flatten_seg hf, take_min] at w
    exact w
  · omega
  · simp only [hp, Nat.add_mul]

/-- Seven samples of a stereo file through a buffer of four: the first two frames only, although three were asked for. -/
example : ∃ t' buffer' m', Tracks.read (⟨2, [1, 2, 3, 4, 5, 6, 7, 8], 0⟩ : Track Nat) [0, 0, 0, 0] [9, 9, 9, 9, 9, 9, 9] 0
      (0 + (1 * (2 * 2) + 3)) = .ok (4, t', buffer', m') ∧ Wrote [9, 9, 9, 9, 9, 9, 9] m' 0 [1, 2, 3, 4] ∧
      Holds t' 2 [[1, 2], [3, 4], [5, 6], [7, 8]] 2 :=
  C142_ragged_long (k := 0) (fr := [[1, 2], [3, 4], [5, 6], [7, 8]])
    ⟨⟨by decide, by decide⟩, rfl, rfl, by decide, rfl⟩ (by decide) rfl (by decide) (by decide) (by decide)

/-- A position of the file, its end included, is accepted, reported, and is where the next frames come from; any other is
refused with -1 and nothing moves. -/
theorem C142_seek {c k : Nat} {fr : List (List α)} {t : Track α} (ht : Holds t c fr k) (position : Int) :
    (∀ p : Nat, position = p → p ≤ fr.length →
      ∃ t', seek t position = (position, t') ∧ Holds t' c fr p ∧ current t' = position) ∧
    (position < 0 ∨ (fr.length : Int) < position → seek t position = (-1, t)) := by
  obtain ⟨⟨hc, hf⟩, hch, hd, hk, hp⟩ := ht
  have hF : t.data.length / t.channels = fr.length := by
    rw [hd, hch, flatten_length hf, Nat.mul_div_cancel _ hc]
  constructor
  · rintro p rfl hpl
    refine ⟨{ t with pos := p * c }, ?_, ⟨⟨hc, hf⟩, hch, hd, hpl, rfl⟩, ?_⟩
    · unfold seek
      rw [if_pos ⟨by omega, by rw [hF]; omega⟩, Int.toNat_natCast, hch]
    · simp only [current, hch, Nat.mul_div_cancel _ hc]
  · intro h
    unfold seek
    rw [if_neg (by rw [hF]; omega)]

example : seek (⟨2, [1, 2, 3, 4, 5, 6], 0⟩ : Track Nat) 2 = (2, ⟨2, [1, 2, 3, 4, 5, 6], 4⟩) ∧
    seek (⟨2, [1, 2, 3, 4, 5, 6], 0⟩ : Track Nat) 4 = (-1, ⟨2, [1, 2, 3, 4, 5, 6], 0⟩) := ⟨rfl, rfl⟩

/-- `frames` and `samples` count the frames and the samples of all channels. -/
theorem C142_sizes {c k : Nat} {fr : List (List α)} {t : Track α} (ht : Holds t c fr k) :
    frames t = fr.length ∧ samples t = fr.flatten.length ∧ current t = k := by
  obtain ⟨⟨hc, hf⟩, hch, hd, hk, hp⟩ := ht
  have hF : t.data.length / t.channels = fr.length := by
    rw [hd, hch, flatten_length hf, Nat.mul_div_cancel _ hc]
  refine ⟨by simp only [frames, hF], ?_, by simp only [current, hch, hp, Nat.mul_div_cancel _ hc]⟩
  have hs : samples t = (t.channels : Int) * ((t.data.length / t.channels : Nat) : Int) := rfl
  rw [hs, hF, hch, flatten_length hf, Int.natCast_mul, Int.mul_comm]

/-- Whole frames are appended to the file and counted. -/
theorem C142_write_partial {c : Nat} {fr new : List (List α)} (hf : Frames c fr) (hn : Frames c new) {m : List α} {first : Nat}
    (hpos : first < m.length) (hm : first + new.length * c ≤ m.length) (h31 : new.length * c < 2 ^ 31)
    (hs : seg m first (first + new.length * c) = new.flatten) :
    Tracks.write c fr.flatten m first (first + new.length * c) = .ok (new.length * c, (fr ++ new).flatten) ∧
      Frames c (fr ++ new) := by
  have hint : (BitVec.ofNat 32 (new.length * c)).toInt.toNat = new.length * c := by
    rw [BitVec.toInt_eq_toNat_of_lt (by rw [BitVec.toNat_ofNat]; omega), BitVec.toNat_ofNat]
    omega
  constructor
  · unfold seg at hs
    rw [Nat.add_sub_cancel_left] at hs
    simp only [Tracks.write, Mem.distance_ok (Nat.le_add_right first (new.length * c)), bind, Except.bind, pure, Except.pure,
      Nat.add_sub_cancel_left, hint]
    simp [Mem.read, hpos, hm, hs]
  · exact ⟨hf.1, fun f h => (List.mem_append.mp h).elim (hf.2 f) (hn.2 f)⟩

/-- A number of samples that is not a number of whole frames: none of them is stored. -/
theorem C142_write_violates {c : Nat} {out m : List α} {first last : Nat} (h1 : first ≤ last) (hpos : first < m.length)
    (h31 : last - first < 2 ^ 31) (hr : ¬ c ∣ last - first) :
    Tracks.write c out m first last = .ok (0, out) := by
  have hint : (BitVec.ofNat 32 (last - first)).toInt.toNat = last - first := by
    rw [BitVec.toInt_eq_toNat_of_lt (by rw [BitVec.toNat_ofNat]; omega), BitVec.toNat_ofNat]
    omega
  have hmod : (last - first) % c ≠ 0 := fun h => hr (Nat.dvd_of_mod_eq_zero h)
  simp only [Tracks.write, Mem.distance_ok h1, bind, Except.bind, pure, Except.pure, hint]
  simp [Mem.read, hpos, hmod]

/-- Two stereo frames stored, and three samples not stored. -/
example : Tracks.write 2 [1, 2] [3, 4, 5, 6] 0 4 = .ok (4, [1, 2, 3, 4, 5, 6]) ∧
    Tracks.write 2 [1, 2] [3, 4, 5, 6] 0 3 = .ok (0, [1, 2]) :=
  ⟨(C142_write_partial (c := 2) (fr := [[1, 2]]) (new := [[3, 4], [5, 6]]) ⟨by decide, by decide⟩ ⟨by decide, by decide⟩
    (by decide) (by decide) (by decide) rfl).1,
   C142_write_violates (by decide) (by decide) (by decide) (by decide)⟩

/-- A file read block by block, `j` frames at a time: after any number of calls the frames so far, in their order. -/
theorem C142_blocks_partial {c j : Nat} {fr : List (List α)} : ∀ (count : Nat) {k : Nat} {t : Track α} {buffer block : List α},
    Holds t c fr k → 0 < buffer.length → block.length = j * c → (c ∣ buffer.length ∨ j * c ≤ buffer.length) →
    ∃ t', blocks count t buffer block = .ok (((fr.drop k).take (count * j)).flatten, t') ∧
      Holds t' c fr (min (k + count * j) fr.length)
  | 0, k, t, buffer, block, ht, hb, hB, hN => by
    refine ⟨t, by simp [blocks], ?_⟩
    rw [Nat.zero_mul, Nat.add_zero, Nat.min_eq_left ht.2.2.2.1]
    exact ht
  | count + 1, k, t, buffer, block, ht, hb, hB, hN => by
    obtain ⟨t1, b1, m1, e1, w1, h1, -, hl1⟩ := C142_read_partial (first := 0) (m := block) (j := j) ht hb (by omega) hN
    have hk := ht.2.2.2.1
    obtain ⟨t2, e2, h2⟩ := C142_blocks_partial (j := j) count (buffer := b1) (block := m1) h1 (by omega) (by rw [Mem.wrote_length w1, hB])
      (by rw [hl1]; exact hN)
    have hgl : ((fr.drop k).take j).flatten.length = min j (fr.length - k) * c := by
      rw [flatten_length fun f h => ht.1.2 f (List.mem_of_mem_drop (List.mem_of_mem_take h)), List.length_take,
        List.length_drop]
    have htake : m1.take (min j (fr.length - k) * c) = ((fr.drop k).take j).flatten := by
      have := Mem.wrote_seg w1
      rw [hgl] at this
      simpa [seg] using this
    refine ⟨t2, ?_, ?_⟩
    · rw [Nat.zero_add, ← hB] at e1
      simp only [blocks, e1, e2, bind, Except.bind, pure, Except.pure, htake, Except.ok.injEq, Prod.mk.injEq, and_true]
      rw [← List.flatten_append]
      congr 1
      rw [Nat.add_mul, Nat.one_mul, Nat.add_comm (count * j) j, List.take_add, List.drop_drop]
      congr 1
      by_cases hj : j ≤ fr.length - k
      · rw [Nat.min_eq_left hj]
      · rw [Nat.min_eq_right (by omega), List.drop_eq_nil_of_le (by omega), List.drop_eq_nil_of_le (by omega)]
    · have : min (k + min j (fr.length - k) + count * j) fr.length = min (k + (count + 1) * j) fr.length := by
        rw [Nat.add_mul, Nat.one_mul]
        omega
      rw [← this]
      exact h2

/-- What was written frame by frame and is read back block by block is what was written. -/
theorem C142_round_trip_partial {c j count : Nat} {fr : List (List α)} (hf : Frames c fr) {m buffer block : List α}
    (hm : m = fr.flatten) (hne : 0 < fr.length) (h31 : fr.length * c < 2 ^ 31) (hb : 0 < buffer.length)
    (hB : block.length = j * c) (hN : c ∣ buffer.length ∨ j * c ≤ buffer.length) (hcount : fr.length ≤ count * j) :
    ∃ data t', Tracks.write c [] m 0 m.length = .ok (m.length, data) ∧
      blocks count ⟨c, data, 0⟩ buffer block = .ok (m, t') := by
  have hml : m.length = fr.length * c := by rw [hm, flatten_length hf.2]
  have hmp : 0 < m.length := by rw [hml]; exact Nat.mul_pos hne hf.1
  have hw := (C142_write_partial (c := c) (fr := []) (new := fr) (m := m) (first := 0) ⟨hf.1, by simp⟩ hf hmp (by omega) h31
    (by rw [Nat.zero_add, ← hml]; simp [seg, hm])).1
  rw [Nat.zero_add, ← hml] at hw
  simp only [List.flatten_nil, List.nil_append] at hw
  obtain ⟨t', e, -⟩ := C142_blocks_partial (c := c) (j := j) (fr := fr) count (k := 0) (t := ⟨c, fr.flatten, 0⟩)
    (buffer := buffer) (block := block) ⟨hf, rfl, rfl, Nat.zero_le _, (Nat.zero_mul c).symm⟩ hb hB hN
  refine ⟨_, t', hw, ?_⟩
  rw [e, List.drop_zero, List.take_of_length_le hcount, hm]

/-- Five stereo frames, three at a time through a buffer of four samples, twice. -/
example : ∃ data t', Tracks.write 2 [] [1, 2, 3, 4, 5, 6, 7, 8, 9, 10] 0 10 = .ok (10, data) ∧
    blocks 2 ⟨2, data, 0⟩ [0, 0, 0, 0] [0, 0, 0, 0, 0, 0] = .ok ([1, 2, 3, 4, 5, 6, 7, 8, 9, 10], t') :=
  C142_round_trip_partial (c := 2) (j := 3) (fr := [[1, 2], [3, 4], [5, 6], [7, 8], [9, 10]]) ⟨by decide, by decide⟩ rfl
    (by decide) (by decide) (by decide) rfl (by decide) (by decide)

/-- The same program with blocks longer than a buffer that does not hold whole frames receives nothing, ever. -/
theorem C142_blocks_violates : ∀ (count : Nat) {t : Track α} {buffer block : List α}, t.pos ≤ t.data.length →
    ¬ t.channels ∣ buffer.length → buffer.length < block.length → blocks count t buffer block = .ok ([], t)
  | 0, _, _, _, _, _, _ => rfl
  | count + 1, t, buffer, block, hp, hN, hB => by
    obtain ⟨b', e, hl⟩ := C142_long_violates (first := 0) (last := block.length) (m := block) hp hN (by omega) (Nat.le_refl _)
    simp only [blocks, e, C142_blocks_violates count (buffer := b') (block := block) hp (by rw [hl]; exact hN) (by omega), bind, Except.bind, pure,
      Except.pure, List.take_zero, List.nil_append]

/-- The default buffer of 1024 samples holds whole frames of 1, 2, 4 or 8 channels, and of no other number up to 8. -/
theorem C142_default_buffer (c : Nat) (h : 1 ≤ c) (h8 : c ≤ 8) : c ∣ 1024 ↔ c = 1 ∨ c = 2 ∨ c = 4 ∨ c = 8 := by
  have : c = 1 ∨ c = 2 ∨ c = 3 ∨ c = 4 ∨ c = 5 ∨ c = 6 ∨ c = 7 ∨ c = 8 := by omega
  rcases this with rfl | rfl | rfl | rfl | rfl | rfl | rfl | rfl <;> decide

/-- Five channels: blocks of 2048 samples, whatever the file holds. -/
example (data : List Nat) : blocks 100 ⟨5, data, 0⟩ (List.replicate 1024 0) (List.replicate 2048 0) =
    .ok ([], ⟨5, data, 0⟩) :=
  C142_blocks_violates 100 (Nat.zero_le _) (by rw [List.length_replicate]; show ¬ 5 ∣ 1024; decide)
    (by rw [List.length_replicate, List.length_replicate]; decide)

end Edsp.C142
