import Verif.Model.Io
import Mathlib.Data.List.Nodup

/-!
# C43: decoder and encoder handles are released exactly once
-/

namespace Edsp.C43
open Edsp.Io

/-! ### Specification -/

/-- In the log of the library every handle opened is closed later, exactly once, and nothing else is closed. -/
def ReleasedOnce (log : List Event) : Prop :=
  ∀ h, log.count (.closed h) = log.count (.opened h) ∧ log.count (.opened h) ≤ 1 ∧
    ∀ k, (log.take k).count (.closed h) ≤ (log.take k).count (.opened h)

/-- A call of `close` while a file is open: `open` tells whether one is. -/
def closesOpen : Bool → List Op → Bool
  | _, [] => false
  | b, .openPath ok :: ops => let _ := b; closesOpen ok ops
  | b, .close :: ops => b || closesOpen b ops
  | b, .use :: ops => closesOpen b ops

/-! ### Helper lemmas -/

/-- The library's books: handles below `next`, no duplicates, and the log agrees with the open handles. -/
structure Inv (l : Lib) : Prop where
  nodup : l.live.Nodup
  fresh : ∀ h ∈ l.live, h < l.next
  future : ∀ h, l.next ≤ h → l.log.count (.opened h) = 0
  once : ∀ h, l.log.count (.opened h) ≤ 1
  books : ∀ h, l.log.count (.opened h) = l.log.count (.closed h) + l.live.count h
  prefixes : ∀ h k, (l.log.take k).count (.closed h) ≤ (l.log.take k).count (.opened h)

theorem empty_inv : Inv Lib.empty := by
  constructor <;> simp [Lib.empty]

theorem take_snoc_count (log : List Event) (e x : Event) (k : Nat) :
    ((log ++ [e]).take k).count x = (log.take k).count x + if log.length < k ∧ e = x then 1 else 0 := by
  rw [List.take_append, List.count_append]
  congr 1
  by_cases h : log.length < k
  · rw [List.take_of_length_le (by simp; omega)]
    by_cases hx : e = x
    · simp [h, hx]
    · simp [hx]
  · rw [show k - log.length = 0 by omega]
    simp [h]

theorem open_inv {l : Lib} (h : Inv l) (ok : Bool) : Inv (l.openFile ok).2 := by
  unfold Lib.openFile
  cases ok with
  | false => exact h
  | true =>
    simp only [if_true]
    have hn : l.next ∉ l.live := fun hm => absurd (h.fresh _ hm) (by omega)
    have hb := h.books
    refine ⟨List.nodup_cons.2 ⟨hn, h.nodup⟩, ?_, ?_, ?_, ?_, ?_⟩
    · intro x hx
      rcases List.mem_cons.1 hx with rfl | hx
      · exact Nat.lt_succ_self _
      · exact Nat.lt_succ_of_lt (h.fresh x hx)
    · intro x hx
      dsimp only at hx ⊢
      rw [List.count_append, h.future x (by omega), List.count_singleton]
      have : l.next ≠ x := by omega
      simp [this]
    · intro x
      rw [List.count_append, List.count_singleton]
      by_cases hx : l.next = x
      · rw [h.future x (by omega)]
        split <;> omega
      · have := h.once x
        have hne : (Event.opened l.next == Event.opened x) = false := by simp [hx]
        simp [hne, this]
    · intro x
      dsimp only
      rw [List.count_append, List.count_append, List.count_singleton, List.count_singleton, List.count_cons, hb x]
      by_cases hx : l.next = x
      · subst hx; simp; omega
      · simp [hx]
    · intro x k
      dsimp only
      rw [take_snoc_count, take_snoc_count]
      have := h.prefixes x k
      simp only [reduceCtorEq, and_false, if_false]
      omega

theorem close_inv {l l' : Lib} {x : Nat} (h : Inv l) (hc : l.closeFile x = .ok l') :
    Inv l' ∧ l'.live = l.live.erase x ∧ x ∈ l.live := by
  unfold Lib.closeFile at hc
  by_cases hx : x ∈ l.live
  · rw [if_pos hx] at hc
    cases hc
    refine ⟨⟨h.nodup.erase x, fun y hy => h.fresh y (List.mem_of_mem_erase hy), ?_, ?_, ?_, ?_⟩, rfl, hx⟩
    · intro y hy
      simpa [List.count_append] using h.future y hy
    · intro y
      simpa [List.count_append] using h.once y
    · intro y
      dsimp only
      rw [List.count_append, List.count_append, List.count_singleton, List.count_singleton, h.books y]
      have hcount : l.live.count x = 1 := List.count_eq_one_of_mem h.nodup hx
      by_cases hxy : x = y
      · subst hxy
        rw [List.count_erase_self]
        simp
        omega
      · rw [List.count_erase_of_ne (fun e => hxy e.symm)]
        simp [hxy]
    · intro y k
      dsimp only
      rw [take_snoc_count, take_snoc_count]
      simp only [reduceCtorEq, and_false, if_false, Nat.add_zero]
      have hp := h.prefixes y k
      by_cases hk : l.log.length < k ∧ Event.closed x = Event.closed y
      · obtain ⟨hk, hxy⟩ := hk
        cases hxy
        rw [if_pos ⟨hk, rfl⟩, List.take_of_length_le (by omega)]
        have := h.books x
        have hcount : l.live.count x = 1 := List.count_eq_one_of_mem h.nodup hx
        omega
      · rw [if_neg hk]
        exact hp
  · rw [if_neg hx] at hc
    cases hc

theorem closeFile_ok {l : Lib} {x : Nat} (hx : x ∈ l.live) : ∃ l', l.closeFile x = .ok l' := by
  unfold Lib.closeFile
  rw [if_pos hx]
  exact ⟨_, rfl⟩

/-- The object and the library agree: `file_` is the only open handle of this object. -/
structure Owns (f : File) (l : Lib) : Prop where
  inv : Inv l
  live : l.live = f.toList

theorem owns_init : Owns none Lib.empty := ⟨empty_inv, rfl⟩

theorem owns_open {l : Lib} (h : Owns none l) (ok : Bool) :
    Owns (l.openFile ok).1 (l.openFile ok).2 ∧ ((l.openFile ok).1.isSome = ok) := by
  refine ⟨⟨open_inv h.inv ok, ?_⟩, ?_⟩
  · cases ok with
    | false => simpa [Lib.openFile] using h.live
    | true => simp [Lib.openFile, h.live]
  · cases ok <;> simp [Lib.openFile]

theorem owns_release {x : Nat} {l : Lib} (h : Owns (some x) l) : ∃ l', l.closeFile x = .ok l' ∧ Owns none l' := by
  obtain ⟨l', e⟩ := closeFile_ok (x := x) (by rw [h.live]; simp)
  obtain ⟨h1, h2, _⟩ := close_inv h.inv e
  exact ⟨l', e, h1, by rw [h2, h.live]; simp⟩

theorem audio_close {f : File} {l : Lib} (h : Owns f l) :
    ∃ l', close .audiofileDecoder f l = .ok (none, l') ∧ Owns none l' := by
  cases f with
  | none => exact ⟨l, rfl, h⟩
  | some x =>
    obtain ⟨l', e, h'⟩ := owns_release h
    exact ⟨l', by simp only [close, e, bind, Except.bind, pure, Except.pure], h'⟩

theorem use_ok {f : File} {l : Lib} (h : Owns f l) : l.use f = .ok () := by
  cases f with
  | none => rfl
  | some x =>
    unfold Lib.use
    dsimp only
    rw [if_pos (by rw [h.live]; simp)]

theorem audio_step {f : File} {l : Lib} (h : Owns f l) (op : Op) :
    ∃ f' l', step .audiofileDecoder f l op = .ok (f', l') ∧ Owns f' l' := by
  cases op with
  | openPath ok =>
    obtain ⟨l1, e, h1⟩ := audio_close h
    refine ⟨_, _, ?_, (owns_open h1 ok).1⟩
    simp only [step, openPath, e, bind, Except.bind, pure, Except.pure]
  | close =>
    obtain ⟨l1, e, h1⟩ := audio_close h
    exact ⟨_, _, e, h1⟩
  | use =>
    refine ⟨f, l, ?_, h⟩
    simp only [step, use_ok h, bind, Except.bind, pure, Except.pure]

theorem audio_run {f : File} {l : Lib} (h : Owns f l) (ops : List Op) :
    ∃ f' l', run .audiofileDecoder f l ops = .ok (f', l') ∧ Owns f' l' := by
  induction ops generalizing f l with
  | nil => exact ⟨f, l, rfl, h⟩
  | cons op ops ih =>
    obtain ⟨f1, l1, e1, h1⟩ := audio_step h op
    obtain ⟨f2, l2, e2, h2⟩ := ih h1
    exact ⟨f2, l2, by simp only [run, e1, bind, Except.bind, e2], h2⟩

theorem released {l : Lib} (h : Owns none l) : ReleasedOnce l.log := by
  intro x
  have := h.inv.books x
  rw [h.live] at this
  exact ⟨by simpa using this.symm, h.inv.once x, h.inv.prefixes x⟩

/-- A libsndfile class. -/
def Sndfile (i : Impl) : Prop := i = .sndfileDecoder ∨ i = .sndfileEncoder

/-- After a `close`, the object keeps the closed handle. -/
structure Stale (x : Nat) (l : Lib) : Prop where
  gone : x ∉ l.live

theorem stale_close {i : Impl} {x : Nat} {l : Lib} (h : Stale x l) : close i (some x) l = .error .badHandle := by
  simp only [close, Lib.closeFile, if_neg h.gone, bind, Except.bind]

/-- Every history that continues with a stale handle fails, at the latest in the destructor. -/
theorem stale_run {i : Impl} {x : Nat} {l : Lib} (h : Stale x l) (ops : List Op) :
    run i (some x) l ops = .error .badHandle ∨ run i (some x) l ops = .ok (some x, l) := by
  induction ops with
  | nil => exact Or.inr rfl
  | cons op ops ih =>
    left
    cases op with
    | openPath ok => simp only [run, step, openPath, stale_close h, bind, Except.bind]
    | close => simp only [run, step, stale_close h, bind, Except.bind]
    | use => simp only [run, step, Lib.use, if_neg h.gone, bind, Except.bind]

theorem snd_close {i : Impl} (hi : Sndfile i) {x : Nat} {l : Lib} (h : Owns (some x) l) :
    ∃ l', close i (some x) l = .ok (some x, l') ∧ Owns none l' ∧ Stale x l' := by
  obtain ⟨l', e, h'⟩ := owns_release h
  refine ⟨l', ?_, h', ⟨by rw [h'.live]; simp⟩⟩
  rcases hi with rfl | rfl <;> simp only [close, e, bind, Except.bind, pure, Except.pure]

theorem snd_life {i : Impl} (hi : Sndfile i) (ops : List Op) {f : File} {l : Lib} (h : Owns f l) :
    (closesOpen f.isSome ops = true →
      (do let (f, l) ← run i f l ops; destroy i f l) = (.error .badHandle : Except Fault Lib)) ∧
    (closesOpen f.isSome ops = false →
      ∃ l', (do let (f, l) ← run i f l ops; destroy i f l) = .ok l' ∧ Owns none l') := by
  induction ops generalizing f l with
  | nil =>
    refine ⟨fun hc => by simp [closesOpen] at hc, fun _ => ?_⟩
    cases f with
    | none => exact ⟨l, rfl, h⟩
    | some x =>
      obtain ⟨l', e, h', _⟩ := snd_close hi h
      exact ⟨l', by simp only [run, destroy, e, bind, Except.bind, pure, Except.pure], h'⟩
  | cons op ops ih =>
    cases op with
    | openPath ok =>
      have hc : ∃ f0 l0, close i f l = .ok (f0, l0) ∧ Owns none l0 := by
        cases f with
        | none => exact ⟨none, l, rfl, h⟩
        | some x =>
          obtain ⟨l', e, h', _⟩ := snd_close hi h
          exact ⟨some x, l', e, h'⟩
      obtain ⟨f0, l0, e0, h0⟩ := hc
      obtain ⟨h1, hs⟩ := owns_open h0 ok
      have hstep : run i f l (.openPath ok :: ops) = run i (l0.openFile ok).1 (l0.openFile ok).2 ops := by
        simp only [run, step, openPath, e0, bind, Except.bind, pure, Except.pure]
      rw [hstep]
      have := ih h1
      rw [hs] at this
      simpa only [closesOpen] using this
    | close =>
      cases f with
      | none =>
        have hstep : run i none l (.close :: ops) = run i none l ops := by
          simp only [run, step, close, bind, Except.bind]
        rw [hstep]
        simpa only [closesOpen, Option.isSome_none, Bool.false_or] using ih h
      | some x =>
        refine ⟨fun _ => ?_, fun hc => by simp [closesOpen] at hc⟩
        obtain ⟨l', e, _, hst⟩ := snd_close hi h
        have hstep : run i (some x) l (.close :: ops) = run i (some x) l' ops := by
          simp only [run, step, e, bind, Except.bind]
        rw [hstep]
        rcases stale_run (i := i) hst ops with g | g
        · simp only [g, bind, Except.bind]
        · simp only [g, bind, Except.bind, destroy, stale_close hst]
    | use =>
      have hstep : run i f l (.use :: ops) = run i f l ops := by
        simp only [run, step, use_ok h, bind, Except.bind, pure, Except.pure]
      rw [hstep]
      simpa only [closesOpen] using ih h

/-! ### Theorems -/

/-- **C43 (libaudiofile).**  Whatever the calls, no closed handle is used, and when the object is gone every handle it
opened has been closed exactly once, after it was opened. -/
theorem C43_audiofile (ops : List Op) :
    ∃ l, life .audiofileDecoder Lib.empty ops = .ok l ∧ ReleasedOnce l.log := by
  obtain ⟨f, l, e, h⟩ := audio_run owns_init ops
  obtain ⟨l', e', h'⟩ := audio_close h
  exact ⟨l', by simp only [life, destroy, e, e', bind, Except.bind, pure, Except.pure], released h'⟩

/-- **C43 (libaudiofile, `is_open`).**  After any calls `is_open()` tells whether the library has an open handle. -/
theorem C43_audiofile_is_open (ops : List Op) {f : File} {l : Lib}
    (h : run .audiofileDecoder none Lib.empty ops = .ok (f, l)) : isOpen f = true ↔ l.live ≠ [] := by
  obtain ⟨f', l', e, h'⟩ := audio_run owns_init ops
  rw [h] at e
  cases e
  rw [h'.live]
  cases f <;> simp [isOpen]

example : ∃ f l, run .audiofileDecoder none Lib.empty [.openPath true, .use, .openPath true, .close, .openPath true] =
    .ok (f, l) := ⟨_, _, rfl⟩

/-- **C43 (libsndfile).**  An object of the libsndfile classes lives without using a closed handle exactly when `close` is
never called while a file is open, and then every handle is closed exactly once.  Missing: histories that call `close` on
an open file, all of which fail. -/
theorem C43_sndfile_partial {i : Impl} (hi : Sndfile i) (ops : List Op) :
    (closesOpen false ops = false → ∃ l, life i Lib.empty ops = .ok l ∧ ReleasedOnce l.log) ∧
    (closesOpen false ops = true → life i Lib.empty ops = .error .badHandle) := by
  obtain ⟨h1, h2⟩ := snd_life hi ops owns_init
  refine ⟨fun hc => ?_, h1⟩
  obtain ⟨l, e, h⟩ := h2 hc
  exact ⟨l, e, released h⟩

example : closesOpen false [.openPath true, .use, .openPath false, .close, .openPath true] = false := rfl

/-- **C43 is violated by the libsndfile classes**: opening a file and closing it makes the destructor close it again; and
after `close`, `is_open()` is still true. -/
theorem C43_sndfile_violates {i : Impl} (hi : Sndfile i) :
    life i Lib.empty [.openPath true, .close] = .error .badHandle ∧
      ∃ f l, run i none Lib.empty [.openPath true, .close] = .ok (f, l) ∧ isOpen f = true ∧ l.live = [] := by
  rcases hi with rfl | rfl
  · exact ⟨rfl, _, _, rfl, rfl, rfl⟩
  · exact ⟨rfl, _, _, rfl, rfl, rfl⟩

example : Sndfile .sndfileDecoder ∧ Sndfile .sndfileEncoder := ⟨Or.inl rfl, Or.inr rfl⟩

/-- **C43 is violated by copies**: the classes declare a destructor but keep the implicit copy; a copy of an object with an
open file, and the object, both close it. -/
theorem C43_copy_violates (i : Impl) :
    ∃ f l, run i none Lib.empty [.openPath true] = .ok (f, l) ∧ ∃ l', destroy i f l = .ok l' ∧
      destroy i f l' = .error .badHandle := by
  cases i <;> exact ⟨_, _, rfl, _, rfl, rfl⟩

end Edsp.C43
