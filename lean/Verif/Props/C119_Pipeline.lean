import Verif.Model.Pipeline
import Verif.Lemmas.InPlace
import Verif.Props.C44_Read

/-!
# C119: processing a file block by block
-/

namespace Edsp.C119
open Edsp Edsp.Spec Edsp.Io Edsp.InPlace Edsp.InPlaceL Edsp.Pipeline

variable {σ α : Type}

theorem stream_append (f : σ → α → Except Fault (σ × α)) : ∀ (xs ys : List α) (s : σ),
    stream f s (xs ++ ys) = (do
      let (s, a) ← stream f s xs
      let (s, b) ← stream f s ys
      return (s, a ++ b))
  | [], ys, s => by
    simp only [List.nil_append, stream, bind, Except.bind, pure, Except.pure]
    cases stream f s ys <;> rfl
  | x :: xs, ys, s => by
    simp only [List.cons_append, stream, bind, Except.bind, pure, Except.pure]
    cases f s x with
    | error e => rfl
    | ok r =>
      simp only [stream_append f xs ys, bind, Except.bind, pure, Except.pure]
      cases stream f r.1 xs with
      | error e => rfl
      | ok r =>
        simp only
        cases stream f r.1 ys <;> rfl

theorem stream_length (f : σ → α → Except Fault (σ × α)) : ∀ (xs : List α) (s s' : σ) (ys : List α),
    stream f s xs = .ok (s', ys) → ys.length = xs.length
  | [], s, s', ys, h => by
    simp only [stream, Except.ok.injEq, Prod.mk.injEq] at h
    rw [← h.2]
  | x :: xs, s, s', ys, h => by
    simp only [stream, bind, Except.bind, pure, Except.pure] at h
    cases h1 : f s x with
    | error e => rw [h1] at h; simp at h
    | ok r =>
      rw [h1] at h
      simp only at h
      cases h2 : stream f r.1 xs with
      | error e => rw [h2] at h; simp at h
      | ok q =>
        rw [h2] at h
        simp only [Except.ok.injEq, Prod.mk.injEq] at h
        rw [← h.2, List.length_cons, List.length_cons, stream_length f xs r.1 q.1 q.2 h2]

/-- One round of the loop: `k` is the number of samples it handles. -/
theorem round (limit : ℕ → ℕ) (hl : ∀ j, 0 < limit j) {src : Source α} {buffer block : List α} (hb : 0 < buffer.length)
    (hp : src.pos ≤ src.data.length) (hB : 0 < block.length) :
    ∃ k buffer' block', Io.read limit src buffer block 0 block.length =
        .ok (k, { src with pos := src.pos + k }, buffer', block') ∧ buffer'.length = buffer.length ∧
      block'.length = block.length ∧ k ≤ block.length ∧ src.pos + k ≤ src.data.length ∧
      seg block' 0 (0 + k) = (src.data.drop src.pos).take k ∧ (k = 0 → src.pos = src.data.length) := by
  obtain ⟨k, s', b', m', e, hk, rfl, hsp, hbl, w, hf⟩ := C44.C44_read limit (s := src) (buffer := buffer) (m := block)
    (first := 0) (last := block.length) (by omega) le_rfl hp
  have hkv := hf hl hb
  simp only at hsp
  have hw := Mem.wrote_length w
  have hs := Mem.wrote_seg w
  have hlen : (seg src.data src.pos (src.pos + k)).length = k := by rw [Mem.seg_length hsp]; omega
  rw [hlen] at hs
  refine ⟨k, b', m', e, hbl, hw, by omega, hsp, ?_, fun h => ?_⟩
  · rw [hs, C44.seg_take]
  · have : src.pos ≤ src.data.length := hp
    omega

theorem loop_ok (f : σ → α → Except Fault (σ × α)) (limit : ℕ → ℕ → ℕ) (hl : ∀ i j, 0 < limit i j) :
    ∀ (fuel i : ℕ) (st st' : σ) (src : Source α) (buffer block out ys : List α), 0 < buffer.length → 0 < block.length →
    block.length < 2 ^ 31 → src.pos ≤ src.data.length → src.data.length - src.pos < fuel →
    stream f st (src.data.drop src.pos) = .ok (st', ys) →
    loop f limit fuel i st src buffer block out = .ok (some (st', out ++ ys))
  | 0, _, _, _, _, _, _, _, _, _, _, _, _, h, _ => by omega
  | fuel + 1, i, st, st', src, buffer, block, out, ys, hb, hB, hB2, hp, hfuel, h => by
    obtain ⟨k, buffer', block', e, hbl, hBl, hk, hkp, hseg, hend⟩ := round (limit i) (hl i) hb hp hB
    simp only [loop, e, bind, Except.bind, pure, Except.pure]
    by_cases hk0 : k = 0
    · have := hend hk0
      rw [this, List.drop_length] at h
      simp only [stream, Except.ok.injEq, Prod.mk.injEq] at h
      rw [if_pos hk0, h.1, ← h.2, List.append_nil]
    · rw [if_neg hk0]
      have hsplit : src.data.drop src.pos = (src.data.drop src.pos).take k ++ src.data.drop (src.pos + k) := by
        rw [← List.drop_drop, List.take_append_drop]
      rw [hsplit, stream_append] at h
      simp only [bind, Except.bind, pure, Except.pure] at h
      cases h1 : stream f st ((src.data.drop src.pos).take k) with
      | error e => rw [h1] at h; simp at h
      | ok r =>
        rw [h1] at h
        simp only at h
        cases h2 : stream f r.1 (src.data.drop (src.pos + k)) with
        | error e => rw [h2] at h; simp at h
        | ok q =>
          rw [h2] at h
          simp only [Except.ok.injEq, Prod.mk.injEq] at h
          rw [← hseg] at h1
          obtain ⟨m', g1, g2⟩ := runN_ok f k st r.1 block' 0 0 r.2 (by omega) (by omega) (Or.inl le_rfl) h1
          have hm' := Mem.wrote_length g2
          have hw := C44.write_ok (out := out) (m := m') (a := 0) (b := k) (by omega) (by omega) (by omega)
          have hys := Mem.wrote_seg g2
          have hlen : r.2.length = k := by
            rw [stream_length f _ _ _ _ h1, Mem.seg_length (by omega)]; omega
          rw [hlen, Nat.zero_add] at hys
          simp only [g1, hw, hys]
          rw [loop_ok f limit hl fuel (i + 1) r.1 q.1 { src with pos := src.pos + k } buffer' m' (out ++ r.2) q.2
            (by omega) (by omega) (by omega) hkp (by simp only; omega) h2, ← h.2, h.1, List.append_assoc]

theorem loop_error (f : σ → α → Except Fault (σ × α)) (limit : ℕ → ℕ → ℕ) (hl : ∀ i j, 0 < limit i j) :
    ∀ (fuel i : ℕ) (st : σ) (src : Source α) (buffer block out : List α) (e : Fault), 0 < buffer.length → 0 < block.length →
    block.length < 2 ^ 31 → src.pos ≤ src.data.length → src.data.length - src.pos < fuel →
    stream f st (src.data.drop src.pos) = .error e → loop f limit fuel i st src buffer block out = .error e
  | 0, _, _, _, _, _, _, _, _, _, _, _, h, _ => by omega
  | fuel + 1, i, st, src, buffer, block, out, e, hb, hB, hB2, hp, hfuel, h => by
    obtain ⟨k, buffer', block', er, hbl, hBl, hk, hkp, hseg, hend⟩ := round (limit i) (hl i) hb hp hB
    simp only [loop, er, bind, Except.bind, pure, Except.pure]
    by_cases hk0 : k = 0
    · have := hend hk0
      rw [this, List.drop_length] at h
      simp [stream] at h
    · rw [if_neg hk0]
      have hsplit : src.data.drop src.pos = (src.data.drop src.pos).take k ++ src.data.drop (src.pos + k) := by
        rw [← List.drop_drop, List.take_append_drop]
      rw [hsplit, stream_append] at h
      simp only [bind, Except.bind, pure, Except.pure] at h
      cases h1 : stream f st ((src.data.drop src.pos).take k) with
      | error e' =>
        rw [h1] at h
        simp only [Except.error.injEq] at h
        rw [← hseg] at h1
        simp only [runN_error f k st block' 0 0 e' (by omega) (by omega) (Or.inl le_rfl) h1, h]
      | ok r =>
        rw [h1] at h
        simp only at h
        cases h2 : stream f r.1 (src.data.drop (src.pos + k)) with
        | ok q => rw [h2] at h; simp at h
        | error e' =>
          rw [h2] at h
          simp only [Except.error.injEq] at h
          rw [← hseg] at h1
          obtain ⟨m', g1, g2⟩ := runN_ok f k st r.1 block' 0 0 r.2 (by omega) (by omega) (Or.inl le_rfl) h1
          have hm' := Mem.wrote_length g2
          have hw := C44.write_ok (out := out) (m := m') (a := 0) (b := k) (by omega) (by omega) (by omega)
          simp only [g1, hw]
          rw [loop_error f limit hl fuel (i + 1) r.1 { src with pos := src.pos + k } buffer' m' _ e'
            (by omega) (by omega) (by omega) hkp (by simp only; omega) h2, h]

/-- **C119.**  Reading a file block by block, processing each block in place with any object that turns samples into
samples, and writing it: whatever the size of the blocks (from 1 to 2^31 - 1), of the decoder's buffer and of the library's
short reads, the loop ends, the output file receives exactly the samples that the object returns for the whole rest of the
input, in one piece, and the object ends in the same state; a call that fails, fails alike. -/
theorem C119_blocks (f : σ → α → Except Fault (σ × α)) (limit : ℕ → ℕ → ℕ) (hl : ∀ i j, 0 < limit i j) (st : σ)
    {src : Source α} {buffer block out : List α} (hb : 0 < buffer.length) (hB : 0 < block.length)
    (hB2 : block.length < 2 ^ 31) (hp : src.pos ≤ src.data.length) {fuel : ℕ} (hf : src.data.length - src.pos < fuel) :
    loop f limit fuel 0 st src buffer block out =
      (stream f st (src.data.drop src.pos)).map fun r => some (r.1, out ++ r.2) := by
  cases h : stream f st (src.data.drop src.pos) with
  | error e => exact loop_error f limit hl fuel 0 st src buffer block out e hb hB hB2 hp hf h
  | ok r => exact loop_ok f limit hl fuel 0 st r.1 src buffer block out r.2 hb hB hB2 hp hf h

/-- **C119 (filters).**  With a biquad or a cascade, the file written is the response of the filter to the whole file,
whatever the block size. -/
theorem C119_filter {K : Type} [Field K] (limit : ℕ → ℕ → ℕ) (hl : ∀ i j, 0 < limit i j) {data buffer block : List K}
    (hb : 0 < buffer.length) (hB : 0 < block.length) (hB2 : block.length < 2 ^ 31) (F : Biquad K) (C : Cascade K) :
    loop (fun (F : Biquad K) x => .ok (F.tick x)) limit (data.length + 1) 0 F ⟨data, 0⟩ buffer block [] =
      .ok (some (F.filter data)) ∧
    loop (fun (C : Cascade K) x => .ok (C.tick x)) limit (data.length + 1) 0 C ⟨data, 0⟩ buffer block [] =
      .ok (some (C.filter data)) := by
  constructor
  · rw [C119_blocks _ limit hl F hb hB hB2 (Nat.zero_le _) (by simp only; omega), List.drop_zero, biquad_stream]
    rfl
  · rw [C119_blocks _ limit hl C hb hB hB2 (Nat.zero_le _) (by simp only; omega), List.drop_zero, cascade_stream]
    rfl

/-- Five samples in blocks of two, with a buffer of one sample and a library that reads one or two samples at a time. -/
example : (∀ i j, 0 < (fun i j : ℕ => (i + j) % 2 + 1) i j) ∧ 0 < ([0] : List ℚ).length ∧ 0 < ([0, 0] : List ℚ).length ∧
    ([0, 0] : List ℚ).length < 2 ^ 31 ∧ (⟨[1, 2, 3, 4, 5], 0⟩ : Source ℚ).data.length - 0 < 6 := by
  refine ⟨fun i j => by simp, by simp, by simp, by simp, by simp⟩

end Edsp.C119
