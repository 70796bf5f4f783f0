import Verif.Model.Io
import Verif.Spec.Segments
import Verif.Lemmas.Memory

/-!
# C44: a decoder delivers the file in order, never past the buffer; C66: an encoder stores the range
-/

namespace Edsp.C44
open Edsp.Io Edsp.Spec

variable {α : Type}

/-! ### Helper lemmas -/

theorem copyOut_ok : ∀ (vs m : List α) (d : Nat), d + vs.length ≤ m.length →
    ∃ m', copyOut vs m d = .ok m' ∧ Wrote m m' d vs
  | [], m, d, h => ⟨m, rfl, Mem.wrote_nil m (by simpa using h)⟩
  | v :: vs, m, d, h => by
    simp only [List.length_cons] at h
    obtain ⟨m', h1, h2⟩ := copyOut_ok vs (m.set d v) (d + 1) (by rw [List.length_set]; omega)
    refine ⟨m', ?_, Mem.wrote_cons (by omega) h2⟩
    simp only [copyOut, Mem.write_ok (show d < m.length by omega), bind, Except.bind, h1]

theorem copyBuffer_ok {buffer m : List α} {n first : Nat} (hn : n ≤ buffer.length) (hm : first + n ≤ m.length) :
    ∃ m', copyBuffer buffer n m first = .ok m' ∧ Wrote m m' first (buffer.take n) := by
  unfold copyBuffer
  rw [if_pos hn]
  exact copyOut_ok _ _ _ (by rw [List.length_take]; omega)

theorem seg_take (data : List α) (a r : Nat) : (data.drop a).take r = seg data a (a + r) := by
  unfold seg
  rw [Nat.add_sub_cancel_left]

theorem seg_append (data : List α) {a b c : Nat} (h1 : a ≤ b) (h2 : b ≤ c) :
    seg data a b ++ seg data b c = seg data a c := by
  unfold seg
  have h3 : c - a = (b - a) + (c - b) := by omega
  rw [h3, List.take_add, List.drop_drop, show a + (b - a) = b by omega]

/-- The loop delivers some number of samples: as many as asked, or fewer because the library returned none. -/
theorem readLoop_ok (limit : Nat → Nat) (n : Nat) : ∀ (i : Nat) (s : Source α) (buffer m : List α) (first : Nat),
    first + n ≤ m.length → s.pos ≤ s.data.length →
    ∃ k buffer' m', readLoop buffer.length limit i s buffer m first n = .ok (n - k, { s with pos := s.pos + k }, buffer', m') ∧
      buffer'.length = buffer.length ∧ k ≤ n ∧ s.pos + k ≤ s.data.length ∧
      Wrote m m' first (seg s.data s.pos (s.pos + k)) ∧
      ((∀ j, 0 < limit j) → 0 < buffer.length → k = min n (s.data.length - s.pos)) := by
  induction n using Nat.strongRecOn with
  | _ n ih =>
    intro i s buffer m first hm hp
    rw [readLoop]
    set counter := if n > buffer.length then buffer.length else n with hcounter
    have hc1 : counter ≤ buffer.length := by rw [hcounter]; split <;> omega
    have hc2 : counter ≤ n := by rw [hcounter]; split <;> omega
    have hc3 : 0 < n → 0 < buffer.length → 0 < counter := by rw [hcounter]; split <;> omega
    unfold sfRead
    rw [if_neg (by omega)]
    dsimp only
    set r := min (limit i) (min counter (s.data.length - s.pos)) with hr
    have hr1 : r ≤ counter := by omega
    have hr2 : s.pos + r ≤ s.data.length := by omega
    set items := (s.data.drop s.pos).take r with hitems
    have hil : items.length = r := by rw [hitems, List.length_take, List.length_drop]; omega
    have hbl : (items ++ buffer.drop r).length = buffer.length := by
      rw [List.length_append, List.length_drop, hil]; omega
    obtain ⟨m1, e1, w1⟩ := copyBuffer_ok (buffer := items ++ buffer.drop r) (n := r) (m := m) (first := first)
      (by rw [hbl]; omega) (by omega)
    have htake : (items ++ buffer.drop r).take r = seg s.data s.pos (s.pos + r) := by
      rw [List.take_append_of_le_length (by omega), List.take_of_length_le (by omega), hitems, seg_take]
    rw [htake] at w1
    rw [e1]
    dsimp only
    by_cases hgo : n - r > 0 ∧ r > 0
    · rw [dif_pos hgo]
      obtain ⟨k, b2, m2, e2, hb2, hk, hkp, w2, hfull⟩ := ih (n - r) (by omega) (i + 1) { s with pos := s.pos + r }
        (items ++ buffer.drop r) m1 (first + r) (by rw [Mem.wrote_length w1]; omega) hr2
      rw [hbl] at e2 hb2
      refine ⟨r + k, b2, m2, ?_, hb2, by omega, ?_, ?_, ?_⟩
      · rw [e2]
        rw [show n - r - k = n - (r + k) by omega]
        simp only [Nat.add_assoc]
      · dsimp only at hkp; omega
      · dsimp only at w2 hkp
        have hseglen : (seg s.data s.pos (s.pos + r)).length = r := by rw [Mem.seg_length (by omega)]; omega
        have := Mem.wrote_append w1 (by rw [hseglen]; exact w2)
        rw [seg_append s.data (by omega) (by omega)] at this
        rw [← Nat.add_assoc]
        exact this
      · intro hl hb
        have := hfull hl (by rw [hbl]; exact hb)
        dsimp only at this
        omega
    · rw [dif_neg hgo]
      refine ⟨r, _, m1, rfl, hbl, by omega, hr2, w1, ?_⟩
      intro hl hb
      have hli := hl i
      by_cases hn : n = 0
      · omega
      · have := hc3 (by omega) hb
        omega

/-! ### Theorems -/

/-- **C44 (one read).**  Whatever the library's short reads and the size of the internal buffer, `read(first, last)` never
fails, returns at most `last - first`, writes exactly that many samples, the next ones of the file, in order, from `first`
on, changes no other cell, and advances the file by the same amount. -/
theorem C44_read (limit : Nat → Nat) {s : Source α} {buffer m : List α} {first last : Nat} (h1 : first ≤ last)
    (h2 : last ≤ m.length) (hp : s.pos ≤ s.data.length) :
    ∃ k s' buffer' m', read limit s buffer m first last = .ok (k, s', buffer', m') ∧ k ≤ last - first ∧
      s' = { s with pos := s.pos + k } ∧ s'.pos ≤ s.data.length ∧ buffer'.length = buffer.length ∧
      Wrote m m' first (seg s.data s.pos (s.pos + k)) ∧
      ((∀ j, 0 < limit j) → 0 < buffer.length → k = min (last - first) (s.data.length - s.pos)) := by
  obtain ⟨k, b', m', e, hb, hk, hkp, w, hf⟩ := readLoop_ok limit (last - first) 0 s buffer m first (by omega) hp
  refine ⟨k, _, b', m', ?_, hk, rfl, hkp, hb, w, hf⟩
  simp only [Io.read, Mem.distance_ok h1, e, bind, Except.bind, pure, Except.pure]
  rw [show last - first - (last - first - k) = k by omega]

example : (3 : Nat) ≤ 7 ∧ 7 ≤ (List.replicate 9 (0 : Int)).length ∧
    (⟨[1, 2, 3, 4, 5], 1⟩ : Source Int).pos ≤ (⟨[1, 2, 3, 4, 5], 1⟩ : Source Int).data.length := by simp

/-- Consecutive reads of the given sizes, each into a block of its own; the samples delivered. -/
def reads (limit : Nat → Nat → Nat) : Nat → Source α → List α → List (List α) → Except Fault (List α)
  | _, _, _, [] => .ok []
  | i, s, buffer, block :: blocks => do
    let (k, s, buffer, block) ← Io.read (limit i) s buffer block 0 block.length
    let rest ← reads limit (i + 1) s buffer blocks
    return seg block 0 k ++ rest

/-- **C44 (consecutive reads).**  With a library that returns no sample only at the end of the file, consecutive reads into
blocks of any sizes deliver, concatenated, the next samples of the file: as many as the blocks hold or the file has. -/
theorem C44_consecutive (limit : Nat → Nat → Nat) (hl : ∀ i j, 0 < limit i j) {s : Source α} {buffer : List α}
    (hb : 0 < buffer.length) (hp : s.pos ≤ s.data.length) (blocks : List (List α)) :
    reads limit 0 s buffer blocks = .ok ((s.data.drop s.pos).take (blocks.map List.length).sum) := by
  suffices H : ∀ i, reads limit i s buffer blocks = .ok ((s.data.drop s.pos).take (blocks.map List.length).sum) from H 0
  induction blocks generalizing s buffer with
  | nil => intro i; simp [reads]
  | cons block blocks ih =>
    intro i
    obtain ⟨k, s', b', m', e, hk, hs, hsp, hbl, w, hf⟩ := C44_read (limit i) (s := s) (buffer := buffer) (m := block)
      (first := 0) (last := block.length) (by omega) (Nat.le_refl _) hp
    subst hs
    have hkv := hf (hl i) hb
    have hrest := ih (s := { s with pos := s.pos + k }) (buffer := b') (by rw [hbl]; exact hb) hsp (i + 1)
    simp only [reads, e, hrest, bind, Except.bind, pure, Except.pure]
    have hseg : seg m' 0 k = seg s.data s.pos (s.pos + k) := by
      have := Mem.wrote_seg w
      have hlen : (seg s.data s.pos (s.pos + k)).length = k := by rw [Mem.seg_length hsp]; simp
      rw [hlen, Nat.zero_add] at this
      exact this
    rw [hseg, ← seg_take, List.map_cons, List.sum_cons]
    refine congrArg Except.ok ?_
    rw [List.take_add, List.drop_drop]
    rw [Nat.sub_zero] at hkv
    by_cases hfit : block.length ≤ s.data.length - s.pos
    · rw [show k = block.length by omega]
    · have hk' : k = s.data.length - s.pos := by omega
      have h1 : s.data.drop (s.pos + k) = [] := List.drop_eq_nil_of_le (by omega)
      have h2 : s.data.drop (s.pos + block.length) = [] := List.drop_eq_nil_of_le (by omega)
      rw [h1, h2, List.take_of_length_le (i := k) (l := s.data.drop s.pos) (by rw [List.length_drop]; omega),
        List.take_of_length_le (i := block.length) (l := s.data.drop s.pos) (by rw [List.length_drop]; omega)]

example : (∀ i j, 0 < (fun _ _ => 3 : Nat → Nat → Nat) i j) ∧ 0 < [0, 0].length ∧
    (⟨[1, 2, 3, 4, 5], 0⟩ : Source Nat).pos ≤ (⟨[1, 2, 3, 4, 5], 0⟩ : Source Nat).data.length := by simp

/-- **C44 is violated by the libaudiofile decoder** on files with several channels: it asks for frames where its buffer
holds samples.  Any request for at least one internal buffer's worth of samples of a file long enough overruns the buffer. -/
theorem C44_audiofile_violates {channels : Nat} (hc : 2 ≤ channels) {s : Source α} {buffer m : List α} {first last : Nat}
    (h1 : first ≤ last) (hN : 0 < buffer.length) (hreq : buffer.length ≤ last - first)
    (hfile : buffer.length * channels ≤ s.data.length - s.pos) :
    afReadAll channels s buffer m first last = .error .outOfBounds := by
  have hcounter : (if last - first > buffer.length then buffer.length else last - first) = buffer.length := by
    split <;> omega
  have hr : min buffer.length ((s.data.length - s.pos) / channels) = buffer.length := by
    apply Nat.min_eq_left
    rw [Nat.le_div_iff_mul_le (by omega)]
    exact hfile
  have hover : buffer.length * channels > buffer.length := by
    have : buffer.length * 2 ≤ buffer.length * channels := Nat.mul_le_mul_left _ hc
    omega
  simp only [afReadAll, Mem.distance_ok h1, bind, Except.bind]
  rw [afReadLoop]
  simp only [hcounter, afRead, hr, if_pos hover]

example : 2 ≤ 2 ∧ 0 < (List.replicate 4 (0 : Int)).length ∧ (List.replicate 4 (0 : Int)).length ≤ 10 - 0 ∧
    (List.replicate 4 (0 : Int)).length * 2 ≤ (List.replicate 100 (1 : Int)).length - 0 := by simp

/-- **C44 is violated by the libaudiofile decoder** also when its buffer is large enough: reading 2 samples of the
two-channel file 1, 2, 3, 4 delivers 1 and 2 but skips 3 and 4: the next read finds the end of the file. -/
theorem C44_audiofile_skips_violates :
    ∃ s' b' m', afReadAll 2 (⟨[1, 2, 3, 4], 0⟩ : Source Int) (List.replicate 8 0) [0, 0] 0 2 = .ok (2, s', b', m') ∧
      m' = [1, 2] ∧ s'.pos = 4 := by
  refine ⟨⟨[1, 2, 3, 4], 4⟩, [1, 2, 3, 4, 0, 0, 0, 0], [1, 2], ?_, rfl, rfl⟩
  simp only [afReadAll, Mem.distance, bind, Except.bind, pure, Except.pure, Nat.zero_le, if_true]
  rw [afReadLoop]
  simp [afRead, copyBuffer, copyOut, Mem.write, bind, Except.bind]

/-- With one channel a frame is a sample, and the loop is that of the other decoder. -/
theorem afReadLoop_mono (n : Nat) : ∀ (i : Nat) (s : Source α) (buffer m : List α) (first L : Nat), s.data.length < L →
    afReadLoop buffer.length 1 s buffer m first n = readLoop buffer.length (fun _ => L) i s buffer m first n := by
  induction n using Nat.strongRecOn with
  | _ n ih =>
    intro i s buffer m first L hL
    rw [afReadLoop, readLoop]
    set counter := if n > buffer.length then buffer.length else n with hcounter
    have hc : counter ≤ buffer.length := by rw [hcounter]; split <;> omega
    have hr : min L (min counter (s.data.length - s.pos)) = min counter (s.data.length - s.pos) := by omega
    unfold afRead sfRead
    rw [if_neg (show ¬ counter > buffer.length by omega)]
    simp only [Nat.div_one, Nat.mul_one, hr]
    rw [if_neg (show ¬ min counter (s.data.length - s.pos) > buffer.length by omega)]
    set r := min counter (s.data.length - s.pos) with hrd
    dsimp only
    have hbl : ((s.data.drop s.pos).take r ++ buffer.drop r).length = buffer.length := by
      rw [List.length_append, List.length_drop, List.length_take, List.length_drop]; omega
    cases copyBuffer ((s.data.drop s.pos).take r ++ buffer.drop r) r m first with
    | error e => rfl
    | ok m' =>
      dsimp only
      by_cases hgo : n - r > 0 ∧ r > 0
      · rw [dif_pos hgo, dif_pos hgo]
        have := ih (n - r) (by omega) (i + 1) { s with pos := s.pos + r } ((s.data.drop s.pos).take r ++ buffer.drop r) m'
          (first + r) L hL
        rw [hbl] at this
        exact this
      · rw [dif_neg hgo, dif_neg hgo]

/-- **C44 (libaudiofile, one channel).**  On a file with one channel the libaudiofile decoder does what is claimed: it
writes the next `min (last - first) (remaining)` samples of the file, in order, from `first` on, changes no other cell,
returns their number and advances the file by it.  Missing: several channels (`C44_audiofile_violates`). -/
theorem C44_audiofile_mono_partial {s : Source α} {buffer m : List α} {first last : Nat} (h1 : first ≤ last)
    (h2 : last ≤ m.length) (hp : s.pos ≤ s.data.length) (hN : 0 < buffer.length) :
    ∃ k s' buffer' m', afReadAll 1 s buffer m first last = .ok (k, s', buffer', m') ∧
      k = min (last - first) (s.data.length - s.pos) ∧ s' = { s with pos := s.pos + k } ∧
      buffer'.length = buffer.length ∧ Wrote m m' first (seg s.data s.pos (s.pos + k)) := by
  obtain ⟨k, s', b', m', e, _, hs, _, hb, w, hf⟩ := C44_read (fun _ => s.data.length + 1) (buffer := buffer) h1 h2 hp
  refine ⟨k, s', b', m', ?_, hf (fun _ => Nat.succ_pos _) hN, hs, hb, w⟩
  rw [← e]
  simp only [afReadAll, Io.read]
  cases Mem.distance first last with
  | error e => rfl
  | ok total =>
    simp only [bind, Except.bind]
    rw [afReadLoop_mono total 0 s buffer m first (s.data.length + 1) (Nat.lt_succ_self _)]

example : (3 : Nat) ≤ 7 ∧ 7 ≤ (List.replicate 9 (0 : Int)).length ∧ 0 < (List.replicate 2 (0 : Int)).length ∧
    (⟨[1, 2, 3, 4, 5], 1⟩ : Source Int).pos ≤ (⟨[1, 2, 3, 4, 5], 1⟩ : Source Int).data.length := by simp

/-! ### C66 -/

/-- Consecutive writes of ranges of one block. -/
def writes (m : List α) : List α → List (Nat × Nat) → Except Fault (List α)
  | out, [] => .ok out
  | out, (a, b) :: rs => do writes m (← Io.write out m a b) rs

theorem write_ok {out m : List α} {a b : Nat} (h1 : a < b) (h2 : b ≤ m.length) (h3 : b - a < 2 ^ 31) :
    Io.write out m a b = .ok (out ++ seg m a b) := by
  have hn : (BitVec.ofNat 32 (b - a)).toInt.toNat = b - a := by
    rw [BitVec.toInt_eq_toNat_cond, BitVec.toNat_ofNat, Nat.mod_eq_of_lt (by omega), if_pos (by omega)]
    rfl
  have hr : Mem.read m a = .ok (m[a]'(by omega)) := Mem.read_ok (List.getElem?_eq_getElem (by omega))
  simp only [Io.write, Mem.distance_ok (show a ≤ b by omega), hr, bind, Except.bind, pure, Except.pure]
  rw [hn, if_pos (by omega), seg]

/-- **C66 (writing).**  Consecutive writes of non-empty ranges, each of fewer than 2^31 samples, store the samples of those
ranges, in order, after what was stored before.  Missing: empty ranges at the end of their storage and longer ranges
(`C66_empty_violates`, `C66_long_violates`). -/
theorem C66_write_partial {m out : List α} {rs : List (Nat × Nat)}
    (h : ∀ r ∈ rs, r.1 < r.2 ∧ r.2 ≤ m.length ∧ r.2 - r.1 < 2 ^ 31) :
    writes m out rs = .ok (out ++ (rs.map fun r => seg m r.1 r.2).flatten) := by
  induction rs generalizing out with
  | nil => simp [writes]
  | cons r rs ih =>
    obtain ⟨h1, h2, h3⟩ := h r List.mem_cons_self
    obtain ⟨a, b⟩ := r
    simp only [writes, write_ok h1 h2 h3, bind, Except.bind]
    rw [ih (fun x hx => h x (List.mem_cons_of_mem _ hx))]
    simp [List.append_assoc]

example : ∀ r ∈ [(0, 2), (2, 5)], r.1 < r.2 ∧ r.2 ≤ [10, 20, 30, 40, 50].length ∧ r.2 - r.1 < 2 ^ 31 := by
  intro r hr
  simp only [List.mem_cons, List.not_mem_nil, or_false] at hr
  rcases hr with rfl | rfl <;> decide

/-- **C66 (round trip).**  What an encoder stored, a decoder reads back, whatever the blocks written and the blocks read. -/
theorem C66_round_trip_partial {m : List α} {rs : List (Nat × Nat)}
    (h : ∀ r ∈ rs, r.1 < r.2 ∧ r.2 ≤ m.length ∧ r.2 - r.1 < 2 ^ 31)
    (limit : Nat → Nat → Nat) (hl : ∀ i j, 0 < limit i j) {buffer : List α} (hb : 0 < buffer.length)
    {blocks : List (List α)} :
    ∃ data, writes m [] rs = .ok data ∧ reads limit 0 ⟨data, 0⟩ buffer blocks =
      .ok (((rs.map fun r => seg m r.1 r.2).flatten).take (blocks.map List.length).sum) := by
  refine ⟨_, C66_write_partial h, ?_⟩
  rw [C44_consecutive limit hl hb (Nat.zero_le _), List.nil_append, List.drop_zero]

/-- **C66 is violated by empty ranges**: writing an empty range that ends its storage, as `write(v.begin(), v.end())` of an
empty vector, dereferences its past-the-end iterator. -/
theorem C66_empty_violates (out m : List α) : Io.write out m m.length m.length = .error .outOfBounds := by
  have hr : Mem.read m m.length = .error .outOfBounds := by
    unfold Mem.read
    rw [List.getElem?_eq_none (Nat.le_refl _)]
  simp only [Io.write, Mem.distance_ok (Nat.le_refl m.length), hr, bind, Except.bind]

/-- **C66 is violated by long ranges**: the length is narrowed to 32 bits, so that 2^32 samples and more lose 2^32 of
them without any error. -/
theorem C66_long_violates {out m : List α} {n : Nat} (hn : n < 2 ^ 31) (hm : 2 ^ 32 + n ≤ m.length) :
    Io.write out m 0 (2 ^ 32 + n) = .ok (out ++ seg m 0 n) := by
  have hk : (BitVec.ofNat 32 (2 ^ 32 + n)).toInt.toNat = n := by
    rw [BitVec.toInt_eq_toNat_cond, BitVec.toNat_ofNat, Nat.add_mod_left, Nat.mod_eq_of_lt (by omega), if_pos (by omega)]
    rfl
  have hr : ∃ v, Mem.read m 0 = .ok v := ⟨m[0]'(by omega), Mem.read_ok (List.getElem?_eq_getElem (by omega))⟩
  obtain ⟨v, hr⟩ := hr
  simp only [Io.write, Mem.distance_ok (Nat.zero_le _), hr, bind, Except.bind, pure, Except.pure, Nat.sub_zero]
  rw [hk, if_pos (by omega), seg, Nat.sub_zero]

example : ∃ m : List Unit, 2 ^ 32 + 5 ≤ m.length := ⟨List.replicate (2 ^ 32 + 5) (), Nat.le_of_eq (List.length_replicate ..).symm⟩

end Edsp.C44
