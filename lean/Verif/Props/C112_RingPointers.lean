import Verif.Lemmas.RingPointers

/-!
# C112: functions given the iterators of a ring buffer work on its contents

Full statement: every function of the library that takes a pair of iterators may be given those of a ring buffer and then
works on its contents, front first.  That is false of the functions that use the address of the first element as an array
(`amdf`, `asdf`, the Fourier, cosine, Hartley and Hilbert transforms, the resamplers, the encoder): they do so exactly if the
elements lie one after the other in memory, and leave the storage otherwise.
-/

namespace Edsp.C112

open Edsp.Spec Edsp.RingBuffer Edsp.RingPointer

variable {α β : Type}

/-- The elements of the buffer lie one after the other in memory. -/
def Contiguous (rb : RingBuffer α) : Prop :=
  ∀ k, k < rb.size → ∃ a, address rb 0 = .ok a ∧ address rb k = .ok (a + k)

theorem contiguous_iff {rb : RingBuffer α} {d : Deque α} (h : Refines rb d) (hne : d.items ≠ []) :
    Contiguous rb ↔ rb.span.front + rb.span.size ≤ rb.span.cap := by
  have hpos : 0 < d.items.length := List.length_pos_iff.mpr hne
  have h1 := h.1.size
  have h2 := h.1.le
  have hp : 0 < rb.span.cap := by omega
  have hf := h.1.lt hp
  have h0 : address rb 0 = .ok rb.span.front := address_zero h.1 hp
  constructor
  · intro hc
    by_contra hw
    obtain ⟨a, ha, hk⟩ := hc (rb.span.cap - rb.span.front) (show _ < rb.span.size by omega)
    rw [h0] at ha
    cases ha
    rw [address_eq h.1 hp (by omega), show rb.span.front + (rb.span.cap - rb.span.front) = rb.span.cap by omega,
      Nat.mod_self] at hk
    have := Except.ok.inj hk
    omega
  · intro hw k hk
    replace hk : k < rb.span.size := hk
    exact ⟨_, h0, by rw [address_eq h.1 hp (by omega), Nat.mod_eq_of_lt (by omega)]⟩

/-- **C112, part.** After every history that leaves a buffer whose elements lie one after the other, a function that works
on the address of the first element gets the contents of the deque. -/
theorem C112_input_partial (dflt : α) (moved : α → α) (f : List α → β) {c : Nat} (hc : c < 2 ^ 63) (ops : List (Op α))
    (hs : ∀ op ∈ ops, SmallOp op) {rb : RingBuffer α} {d : Deque α}
    (hr : (RingBuffer.new dflt c).run dflt moved ops = .ok rb) (hd : Deque.run ⟨c, []⟩ ops = .ok d) (hne : d.items ≠ [])
    (hcont : Contiguous rb) : input f rb = .ok (f d.items) := by
  have h := run_refines dflt moved ops (new_refines dflt hc) hs
  rw [hr, hd] at h
  have hpos : 0 < d.items.length := List.length_pos_iff.mpr hne
  have h1 := h.1.size
  have h2 := h.1.le
  exact input_ok f h.1 (by omega) ((contiguous_iff h hne).mp hcont)

/-- **C112, part.** And results written to that address replace the first elements, whatever is called next. -/
theorem C112_output_partial (dflt : α) (moved : α → α) {c : Nat} (hc : c < 2 ^ 63) (ops : List (Op α))
    (hs : ∀ op ∈ ops, SmallOp op) {rb : RingBuffer α} {d : Deque α}
    (hr : (RingBuffer.new dflt c).run dflt moved ops = .ok rb) (hd : Deque.run ⟨c, []⟩ ops = .ok d) (hne : d.items ≠ [])
    (hcont : Contiguous rb) {vs : List α} (hv : vs.length ≤ d.items.length) (next : List (Op α))
    (hn : ∀ op ∈ next, SmallOp op) :
    ∃ rb', output rb vs = .ok rb' ∧ rb'.run dflt moved next >>= observe =
      Deque.observe <$> Deque.run ⟨d.cap, vs ++ d.items.drop vs.length⟩ next := by
  have h := run_refines dflt moved ops (new_refines dflt hc) hs
  rw [hr, hd] at h
  have hpos : 0 < d.items.length := List.length_pos_iff.mpr hne
  have h1 := h.1.size
  have h2 := h.1.le
  have h3 := h.2
  have hw := (contiguous_iff h hne).mp hcont
  obtain ⟨rb', ho, hrf⟩ := output_ok h (show 0 < d.cap by omega) hv (by omega)
  exact ⟨rb', ho, run_observe hrf hn⟩

/-- **C112 violated.** After every history that leaves a buffer whose elements do not lie one after the other, every
function that works on the address of the first element leaves the storage. -/
theorem C112_wrapped_violates (dflt : α) (moved : α → α) (f : List α → β) {c : Nat} (hc : c < 2 ^ 63) (ops : List (Op α))
    (hs : ∀ op ∈ ops, SmallOp op) {rb : RingBuffer α} {d : Deque α}
    (hr : (RingBuffer.new dflt c).run dflt moved ops = .ok rb) (hd : Deque.run ⟨c, []⟩ ops = .ok d) (hne : d.items ≠ [])
    (hcont : ¬ Contiguous rb) : input f rb = .error .outOfBounds := by
  have h := run_refines dflt moved ops (new_refines dflt hc) hs
  rw [hr, hd] at h
  have hpos : 0 < d.items.length := List.length_pos_iff.mpr hne
  have h1 := h.1.size
  have h2 := h.1.le
  exact input_bad f h.1 (by omega) (fun hw => hcont ((contiguous_iff h hne).mpr hw))

/-- Pushing to a fresh buffer succeeds and leaves this span. -/
theorem pushes (dflt : α) (moved : α → α) {n : Nat} (h0 : 0 < n) (hn : n < 2 ^ 63) (xs : List α) :
    ∃ rb, (RingBuffer.new dflt n).run dflt moved (xs.map .pushBack) = .ok rb ∧
      rb.span = ⟨min xs.length n, n, (xs.length - n) % n⟩ ∧ Refines rb ⟨n, xs.drop (xs.length - n)⟩ := by
  have hs : ∀ op ∈ xs.map (Op.pushBack (α := α)), SmallOp op := by
    intro op ho
    obtain ⟨x, -, rfl⟩ := List.mem_map.mp ho
    trivial
  have hp := pushBacks_run xs ⟨n, []⟩ h0 (by simp)
  have h := run_refines dflt moved _ (new_refines dflt hn) hs
  rw [hp] at h
  have hl : (RingBuffer.new dflt n).span = ⟨0, n, 0⟩ := by simp [RingBuffer.new, vecResize_length, RingSpan.mk2]
  revert h
  cases hr : (RingBuffer.new dflt n).run dflt moved (xs.map .pushBack) with
  | error e => intro h; exact h.elim
  | ok rb =>
    intro h
    have hsp := pushes_span dflt moved xs (by rw [hl]; exact h0) (by rw [hl]; exact hn) (by rw [hl]; exact h0)
      (by rw [hl]; exact Nat.zero_le _) hr
    refine ⟨rb, rfl, ?_, ?_⟩
    · rw [hsp, hl]; simp
    · have h' : Refines rb _ := h
      simpa using h'

/-- **C112, part.** A buffer used as a sliding window of `n` samples: after `m` pushes, a function that works on the address
of the first sample gets the last `n` of them if no more than `n`, or a multiple of `n`, have been pushed. -/
theorem C112_window_partial (dflt : α) (moved : α → α) (f : List α → β) {n : Nat} (h0 : 0 < n) (hn : n < 2 ^ 63)
    (xs : List α) (hm : xs.length ≤ n ∨ n ∣ xs.length) :
    ((RingBuffer.new dflt n).run dflt moved (xs.map .pushBack) >>= input f) = .ok (f (xs.drop (xs.length - n))) := by
  obtain ⟨rb, hr, hsp, h⟩ := pushes dflt moved h0 hn xs
  simp only [hr, bind, Except.bind]
  have hmod : (xs.length - n) % n = 0 := by
    rcases hm with hm | hm
    · rw [Nat.sub_eq_zero_of_le hm, Nat.zero_mod]
    · exact Nat.mod_eq_zero_of_dvd (Nat.dvd_sub hm (Nat.dvd_refl n))
  exact input_ok f h.1 (by rw [hsp]; exact h0) (by rw [hsp]; simp only [hmod]; omega)

/-- **C112 violated.** And it leaves the storage after every other number of pushes: with a window that slides by one
sample, `n - 1` times out of `n`. -/
theorem C112_window_violates (dflt : α) (moved : α → α) (f : List α → β) {n : Nat} (h0 : 0 < n) (hn : n < 2 ^ 63)
    (xs : List α) (hm : n < xs.length) (hd : ¬ n ∣ xs.length) :
    ((RingBuffer.new dflt n).run dflt moved (xs.map .pushBack) >>= input f) = .error .outOfBounds := by
  obtain ⟨rb, hr, hsp, h⟩ := pushes dflt moved h0 hn xs
  simp only [hr, bind, Except.bind]
  have hmod : 0 < (xs.length - n) % n := by
    rw [Nat.pos_iff_ne_zero]
    intro hz
    have := Nat.dvd_of_mod_eq_zero hz
    exact hd ((Nat.dvd_sub_iff_left (by omega) (Nat.dvd_refl n)).mp this)
  exact input_bad f h.1 (by rw [hsp]; exact h0) (by rw [hsp]; simp only; omega)

/-- Both happen: a window of three samples after three and after four pushes. -/
example : ((RingBuffer.new 0 3).run 0 id ([1, 2, 3].map .pushBack) >>= input id) = .ok [1, 2, 3] ∧
    ((RingBuffer.new 0 3).run 0 id ([1, 2, 3, 4].map .pushBack) >>= input id) = .error .outOfBounds := by
  constructor <;> rfl

end Edsp.C112
