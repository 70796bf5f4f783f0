import Verif.Model.PyObjects
import Verif.Lemmas.Memory
import Verif.Lemmas.Moving
import Verif.Props.C39_Oscillators
import Verif.Props.C13_MovingFilters

/-!
# C97: oscillators and moving filters in Python programs

Whatever the sizes of the blocks asked for and whatever happens to the other objects, an object gives the same samples,
in the same order.
-/

namespace Edsp.PyObj

open Edsp.Spec Edsp.Props Edsp.Osc Edsp.C39

/-- The object that a statement uses. -/
def Cmd.target : Cmd → Option Nat
  | .generate i _ | .set i _ | .filter i _ | .apply i _ => some i
  | _ => none

/-- The numbers of a result. -/
def Result.values : Result → List ℝ
  | .number x => [x]
  | .array xs => xs
  | _ => []

/-- All numbers that the program got from object `i`, in order. -/
def heard (i : Nat) : List Cmd → List Result → List ℝ
  | c :: cs, r :: rs => (if c.target = some i then r.values else []) ++ heard i cs rs
  | _, _ => []

/-- All numbers that the program gave to object `i`, in order. -/
def said (i : Nat) : List Cmd → List ℝ
  | [] => []
  | .filter j xs :: cs => (if j = i then xs else []) ++ said i cs
  | .apply j x :: cs => (if j = i then [x] else []) ++ said i cs
  | _ :: cs => said i cs

/-- The number of samples asked for from object `i`. -/
def asked (i : Nat) : List Cmd → Nat
  | [] => 0
  | .generate j n :: cs => (if j = i then n.toNat else 0) + asked i cs
  | _ :: cs => asked i cs

/-- The program does not change the settings of object `i`. -/
def Untouched (i : Nat) (cs : List Cmd) : Prop := ∀ op, Cmd.set i op ∉ cs

/-! ### Single statements -/

theorem generateLoop_eq (k : Osc.Kind) : ∀ (n : Nat) (m : List ℝ) (p : Nat) (s : Osc.State), p + n ≤ m.length →
    (∀ e, Osc.gen k n s = .error e → generateLoop k n m p s = .error e) ∧
    (∀ xs s', Osc.gen k n s = .ok (xs, s') → ∃ m', generateLoop k n m p s = .ok (m', s') ∧ Wrote m m' p xs)
  | 0, m, p, s, h => by
    refine ⟨fun e he => (by cases he), fun xs s' he => ?_⟩
    cases he
    exact ⟨m, rfl, Mem.wrote_nil m (by omega)⟩
  | n + 1, m, p, s, h => by
    simp only [Osc.gen, generateLoop]
    cases hc : Osc.call k s with
    | error e => exact ⟨fun e' he => he, fun xs s' he => by cases he⟩
    | ok v =>
      obtain ⟨x, s1⟩ := v
      have hp : p < m.length := by omega
      obtain ⟨h1, h2⟩ := generateLoop_eq k n (m.set p x) (p + 1) s1 (by rw [List.length_set]; omega)
      simp only [bind, Except.bind, Mem.write_ok hp, pure, Except.pure]
      cases hg : Osc.gen k n s1 with
      | error e => exact ⟨fun e' he => (by cases he; exact h1 e hg), fun xs s' he => by cases he⟩
      | ok v =>
        obtain ⟨xs, s2⟩ := v
        obtain ⟨m', h3, h4⟩ := h2 xs s2 hg
        refine ⟨fun e he => (by cases he), fun ys s' he => ?_⟩
        cases he
        exact ⟨m', h3, Mem.wrote_cons hp h4⟩

theorem gen_length (k : Osc.Kind) : ∀ (n : Nat) {s s' : Osc.State} {xs : List ℝ}, Osc.gen k n s = .ok (xs, s') →
    xs.length = n
  | 0, s, s', xs, h => by cases h; rfl
  | n + 1, s, s', xs, h => by
    simp only [Osc.gen, bind, Except.bind, pure, Except.pure] at h
    cases hc : Osc.call k s with
    | error e => rw [hc] at h; cases h
    | ok v =>
      rw [hc] at h
      dsimp only at h
      cases hg : Osc.gen k n v.2 with
      | error e => rw [hg] at h; cases h
      | ok u => rw [hg] at h; cases h; simp [gen_length k n hg]

theorem wrote_all {m m' xs : List ℝ} (h : Wrote m m' 0 xs) (hl : xs.length = m.length) : m' = xs := by
  have h1 := Mem.wrote_seg h
  have h2 := Mem.wrote_length h
  unfold seg at h1
  rw [List.drop_zero, Nat.zero_add, Nat.sub_zero, List.take_of_length_le (by omega)] at h1
  exact h1

/-- **C97**: `generate(n)` returns the next `n` samples of the oscillator, whatever the new array held. -/
theorem C97_generate (dbg : Bool) (mem : Nat → ℝ) {w : List Obj} {i : Nat} {k : Osc.Kind} {s : Osc.State}
    (h : w[i]? = some (.osc k s)) (n : Nat) :
    step dbg mem w (.generate i n) = (do
      let (xs, s') ← Osc.gen k n s
      return (.array xs, w.set i (.osc k s'))) := by
  obtain ⟨h1, h2⟩ := generateLoop_eq k n ((List.range n).map mem) 0 s (by simp)
  simp only [step, h]
  rw [if_neg (by omega), Int.toNat_natCast]
  cases hg : Osc.gen k n s with
  | error e => rw [h1 e hg]
  | ok v =>
    obtain ⟨xs, s'⟩ := v
    obtain ⟨m', h3, h4⟩ := h2 xs s' hg
    rw [h3, wrote_all h4 (by simp [gen_length k n hg])]

/-- **C97**: a negative size is an exception; nothing changes. -/
theorem C97_negative (dbg : Bool) (mem : Nat → ℝ) (w : List Obj) (i : Nat) {n : Int} (h : n < 0) :
    step dbg mem w (.generate i n) = .ok (.raised, w) := by
  simp only [step]
  split
  · rw [if_pos h]
  · rfl

/-- **C97**: a setter changes its own setting of the oscillator and no other; `set_duty` and `set_width` exist only for
the oscillators that have one, and a sinusoidal one raises and stays as it is. -/
theorem C97_set (dbg : Bool) (mem : Nat → ℝ) {w : List Obj} {i : Nat} {k : Osc.Kind} {s : Osc.State}
    (h : w[i]? = some (.osc k s)) (x : ℝ) :
    step dbg mem w (.set i (.setFrequency x)) = .ok (.done, w.set i (.osc k { s with frequency := x })) ∧
    step dbg mem w (.set i (.setPhase x)) = .ok (.done, w.set i (.osc k { s with phase := x })) ∧
    step dbg mem w (.set i (.setAmplitude x)) = .ok (.done, w.set i (.osc k { s with amplitude := x })) ∧
    step dbg mem w (.set i (.setTimestamp x)) = .ok (.done, w.set i (.osc k { s with timestamp := x })) ∧
    step dbg mem w (.set i .reset) = .ok (.done, w.set i (.osc k { s with timestamp := 0 })) ∧
    (x ≠ 0 → step dbg mem w (.set i (.setSampleRate x)) =
      .ok (.done, w.set i (.osc k { s with sampleRate := x, samplingPeriod := some (1 / x) }))) ∧
    (k = .sin → step dbg mem w (.set i (.setShape x)) = .ok (.raised, w)) ∧
    (k = .saw → 0 ≤ x → x ≤ 1 →
      step dbg mem w (.set i (.setShape x)) = .ok (.done, w.set i (.osc k { s with shape := x }))) ∧
    (∀ v, k = .square → 0 ≤ x → x ≤ 1 → s.inverseFrequency = some v →
      step dbg mem w (.set i (.setShape x)) = .ok (.done, w.set i (.osc k { s with shape := x * v }))) ∧
    step dbg mem w (.set i .call) = .ok (.raised, w) := by
  refine ⟨?_, ?_, ?_, ?_, ?_, ?_, ?_, ?_, ?_, ?_⟩
  all_goals intros
  all_goals simp only [step, h, exposed, Osc.step, if_true, Bool.false_eq_true, if_false]
  all_goals first | rfl | skip
  · rename_i h0
    simp only [Osc.inv?, if_neg h0]; rfl
  · rename_i h0; subst h0; rfl
  · rename_i h0 h1 h2; subst h0
    simp [Osc.setWidth, h1, h2, bind, Except.bind, pure, Except.pure]
  · rename_i v h0 h1 h2 h3; subst h0
    simp [Osc.setDuty, h1, h2, h3, Osc.finite, bind, Except.bind, pure, Except.pure]

section Filter

variable {M : Type} (tick : M → ℝ → Except Fault (M × ℝ))

/-- One tick after the other. -/
def ticks (f : M) : List ℝ → Except Fault (M × List ℝ)
  | [] => .ok (f, [])
  | x :: xs => do
    let (f', y) ← tick f x
    let (f'', ys) ← ticks f' xs
    return (f'', y :: ys)

theorem ticks_length : ∀ (xs : List ℝ) {f f' : M} {ys : List ℝ}, ticks tick f xs = .ok (f', ys) → ys.length = xs.length
  | [], f, f', ys, h => by cases h; rfl
  | x :: xs, f, f', ys, h => by
    simp only [ticks, bind, Except.bind, pure, Except.pure] at h
    cases hc : tick f x with
    | error e => rw [hc] at h; cases h
    | ok v =>
      rw [hc] at h
      dsimp only at h
      cases hg : ticks tick v.1 xs with
      | error e => rw [hg] at h; cases h
      | ok u => rw [hg] at h; cases h; simp [ticks_length xs hg]

theorem ticks_append (xs zs : List ℝ) : ∀ f : M, ticks tick f (xs ++ zs) = (do
    let (f1, ys) ← ticks tick f xs
    let (f2, us) ← ticks tick f1 zs
    return (f2, ys ++ us)) := by
  induction xs with
  | nil =>
    intro f
    simp only [ticks, List.nil_append, bind, Except.bind, pure, Except.pure]
    cases ticks tick f zs <;> rfl
  | cons x xs ih =>
    intro f
    simp only [ticks, List.cons_append, bind, Except.bind, pure, Except.pure]
    cases tick f x with
    | error e => rfl
    | ok v =>
      simp only [ih, bind, Except.bind, pure, Except.pure]
      cases ticks tick v.1 xs with
      | error e => rfl
      | ok u =>
        simp only
        cases ticks tick u.1 zs <;> rfl

theorem filterLoop_eq : ∀ (xs : List ℝ) (m : List ℝ) (src dst : Nat) (f : M), seg m src (src + xs.length) = xs →
    src + xs.length ≤ dst → dst + xs.length ≤ m.length →
    (∀ e, ticks tick f xs = .error e → filterLoop tick xs.length m src dst f = .error e) ∧
    (∀ f' ys, ticks tick f xs = .ok (f', ys) → ∃ m', filterLoop tick xs.length m src dst f = .ok (m', f') ∧
      Wrote m m' dst ys)
  | [], m, src, dst, f, _, _, h => by
    refine ⟨fun e he => (by cases he), fun f' ys he => ?_⟩
    cases he
    exact ⟨m, rfl, Mem.wrote_nil m (by simpa using h)⟩
  | x :: xs, m, src, dst, f, hs, h1, h2 => by
    rw [List.length_cons] at hs h1 h2
    have hx : m[src]? = some x := by
      have := congrArg (fun l => l[0]?) hs
      simp only [Mem.seg_getElem?, List.getElem?_cons_zero] at this
      rw [if_pos (by omega)] at this
      simpa using this
    have hd : dst < m.length := by omega
    simp only [ticks, filterLoop, List.length_cons, Mem.read_ok hx, bind, Except.bind, pure, Except.pure]
    cases hc : tick f x with
    | error e => exact ⟨fun e' he => (by cases he; rfl), fun f' ys he => (by cases he)⟩
    | ok v =>
      obtain ⟨f1, y⟩ := v
      have hs' : seg (m.set dst y) (src + 1) (src + 1 + xs.length) = xs := by
        rw [Mem.seg_set_of_out _ (Or.inr (by omega))]
        have := Mem.seg_cons (n := xs.length) hx
        rw [show src + (xs.length + 1) = src + xs.length + 1 by omega] at hs
        rw [show src + (xs.length + 1) = src + xs.length + 1 by omega, hs] at this
        exact (List.cons.inj this).2.symm
      obtain ⟨g1, g2⟩ := filterLoop_eq xs (m.set dst y) (src + 1) (dst + 1) f1 hs' (by omega)
        (by rw [List.length_set]; omega)
      simp only [Mem.write_ok hd]
      cases hg : ticks tick f1 xs with
      | error e => exact ⟨fun e' he => (by cases he; exact g1 e hg), fun f' ys he => by cases he⟩
      | ok v =>
        obtain ⟨f2, ys⟩ := v
        obtain ⟨m', h3, h4⟩ := g2 f2 ys hg
        refine ⟨fun e he => (by cases he), fun f' us he => ?_⟩
        cases he
        exact ⟨m', h3, Mem.wrote_cons hd h4⟩

theorem filterArray_eq (mem : Nat → ℝ) (f : M) (xs : List ℝ) :
    filterArray tick mem f xs = (do
      let (f', ys) ← ticks tick f xs
      return (ys, f')) := by
  obtain ⟨h1, h2⟩ := filterLoop_eq tick xs (xs ++ (List.range xs.length).map mem) 0 xs.length f
    (by simp [seg]) (by omega) (by simp)
  unfold filterArray
  cases hg : ticks tick f xs with
  | error e => rw [h1 e hg]; rfl
  | ok v =>
    obtain ⟨f', ys⟩ := v
    obtain ⟨m', h3, h4⟩ := h2 f' ys hg
    have hl := ticks_length tick xs hg
    have e1 := Mem.wrote_seg h4
    have e2 := Mem.wrote_length h4
    rw [h3]
    have : m'.drop xs.length = ys := by
      unfold seg at e1
      rw [List.length_append, List.length_map, List.length_range] at e2
      rw [List.take_of_length_le (by rw [List.length_drop]; omega)] at e1
      exact e1
    simp only [bind, Except.bind, pure, Except.pure, this]

end Filter

/-! ### Programs -/

theorem bind_ok {α β : Type} {x : Except Fault α} {f : α → Except Fault β} {r : β} (h : x.bind f = .ok r) :
    ∃ v, x = .ok v ∧ f v = .ok r := by
  cases x with
  | error e => cases h
  | ok v => exact ⟨v, rfl, h⟩

theorem getElem?_append_one {w : List Obj} {j : Nat} (hj : j < w.length) (o : Obj) : (w ++ [o])[j]? = w[j]? := by
  rw [List.getElem?_append_left hj]

/-- **C97**: a statement changes no object but the one it uses. -/
theorem C97_others {dbg : Bool} {mem : Nat → ℝ} {w w' : List Obj} {c : Cmd} {r : Result}
    (h : step dbg mem w c = .ok (r, w')) {j : Nat} (hj : j < w.length) (hc : c.target ≠ some j) : w'[j]? = w[j]? := by
  have set_ne : ∀ (i : Nat) (o : Obj), i ≠ j → (w.set i o)[j]? = w[j]? := fun i o hi => List.getElem?_set_ne hi
  cases c with
  | sinusoidal a r f p => cases h; exact getElem?_append_one hj _
  | square a r f d => obtain ⟨v, _, h2⟩ := bind_ok h; cases h2; exact getElem?_append_one hj _
  | sawtooth a r f d => obtain ⟨v, _, h2⟩ := bind_ok h; cases h2; exact getElem?_append_one hj _
  | triangular a r f => obtain ⟨v, _, h2⟩ := bind_ok h; cases h2; exact getElem?_append_one hj _
  | movingAverage n =>
    obtain ⟨v, _, h2⟩ := bind_ok h
    obtain ⟨u, _, h3⟩ := bind_ok h2
    cases h3
    exact getElem?_append_one hj _
  | movingRms n =>
    obtain ⟨v, _, h2⟩ := bind_ok h
    obtain ⟨u, _, h3⟩ := bind_ok h2
    cases h3
    exact getElem?_append_one hj _
  | movingMedian n =>
    obtain ⟨v, _, h2⟩ := bind_ok h
    obtain ⟨u, _, h3⟩ := bind_ok h2
    cases h3
    exact getElem?_append_one hj _
  | generate i n =>
    have hi : i ≠ j := fun e => hc (by rw [e]; rfl)
    simp only [step] at h
    split at h
    · split at h
      · cases h; rfl
      · obtain ⟨v, _, h2⟩ := bind_ok h; cases h2; exact set_ne _ _ hi
    · cases h; rfl
  | set i op =>
    have hi : i ≠ j := fun e => hc (by rw [e]; rfl)
    simp only [step] at h
    split at h
    · split at h
      · obtain ⟨v, _, h2⟩ := bind_ok h; cases h2; exact set_ne _ _ hi
      · cases h; rfl
    · cases h; rfl
  | filter i xs =>
    have hi : i ≠ j := fun e => hc (by rw [e]; rfl)
    simp only [step] at h
    split at h
    · obtain ⟨v, _, h2⟩ := bind_ok h; cases h2; exact set_ne _ _ hi
    · obtain ⟨v, _, h2⟩ := bind_ok h; cases h2; exact set_ne _ _ hi
    · obtain ⟨v, _, h2⟩ := bind_ok h; cases h2; exact set_ne _ _ hi
    · cases h; rfl
  | apply i x =>
    have hi : i ≠ j := fun e => hc (by rw [e]; rfl)
    simp only [step] at h
    split at h
    · obtain ⟨v, _, h2⟩ := bind_ok h; cases h2; exact set_ne _ _ hi
    · obtain ⟨v, _, h2⟩ := bind_ok h; cases h2; exact set_ne _ _ hi
    · obtain ⟨v, _, h2⟩ := bind_ok h; cases h2; exact set_ne _ _ hi
    · cases h; rfl

theorem lt_of_getElem? {w : List Obj} {i : Nat} {o : Obj} (h : w[i]? = some o) : i < w.length := by
  by_contra hc
  rw [List.getElem?_eq_none (by omega)] at h
  cases h

theorem getElem?_set_self' {w : List Obj} {i : Nat} {o : Obj} (h : w[i]? = some o) (o' : Obj) :
    (w.set i o')[i]? = some o' := by
  rw [List.getElem?_set_self (lt_of_getElem? h)]

theorem heard_other {i : Nat} {c : Cmd} {cs : List Cmd} {r : Result} {rs : List Result} (h : c.target ≠ some i) :
    heard i (c :: cs) (r :: rs) = heard i cs rs := by
  simp only [heard, if_neg h, List.nil_append]

theorem heard_self {i : Nat} {c : Cmd} {cs : List Cmd} {r : Result} {rs : List Result} (h : c.target = some i) :
    heard i (c :: cs) (r :: rs) = r.values ++ heard i cs rs := by
  simp only [heard, if_pos h]

theorem asked_other {i : Nat} {c : Cmd} {cs : List Cmd} (h : c.target ≠ some i) : asked i (c :: cs) = asked i cs := by
  cases c with
  | generate j n =>
    have : j ≠ i := fun e => h (by rw [e]; rfl)
    simp only [asked, if_neg this, Nat.zero_add]
  | _ => rfl

theorem said_other {i : Nat} {c : Cmd} {cs : List Cmd} (h : c.target ≠ some i) : said i (c :: cs) = said i cs := by
  cases c with
  | filter j n =>
    have : j ≠ i := fun e => h (by rw [e]; rfl)
    simp only [said, if_neg this, List.nil_append]
  | apply j n =>
    have : j ≠ i := fun e => h (by rw [e]; rfl)
    simp only [said, if_neg this, List.nil_append]
  | _ => rfl

/-- **C97 (oscillators)**: the samples that a program gets from an oscillator whose settings it does not change are the
first samples of the oscillator, as many as were asked for, whatever the blocks and the other statements. -/
theorem C97_stream {dbg : Bool} {mem : Nat → Nat → ℝ} {i : Nat} {k : Osc.Kind} : ∀ (cs : List Cmd) {w w' : List Obj}
    {s : Osc.State} {rs : List Result}, w[i]? = some (.osc k s) → Untouched i cs → run dbg mem w cs = .ok (rs, w') →
    ∃ s', Osc.gen k (asked i cs) s = .ok (heard i cs rs, s') ∧ w'[i]? = some (.osc k s')
  | [], w, w', s, rs, hw, _, h => by
    cases h
    exact ⟨s, rfl, hw⟩
  | c :: cs, w, w', s, rs, hw, hu, h => by
    obtain ⟨⟨r, w1⟩, h1, h2⟩ := bind_ok h
    obtain ⟨⟨rs', w2⟩, h3, h4⟩ := bind_ok h2
    cases h4
    have hu' : Untouched i cs := fun op hm => hu op (List.mem_cons_of_mem _ hm)
    by_cases ht : c.target = some i
    · rw [heard_self ht]
      cases c with
      | generate j n =>
        obtain rfl : j = i := by injection ht
        by_cases hn : n < 0
        · rw [C97_negative _ _ _ _ hn] at h1
          cases h1
          obtain ⟨s', g1, g2⟩ := C97_stream cs hw hu' h3
          refine ⟨s', ?_, g2⟩
          have : asked j (Cmd.generate j n :: cs) = asked j cs := by
            simp only [asked, if_true]
            rw [Int.toNat_of_nonpos (by omega), Nat.zero_add]
          rw [this]
          exact g1
        · obtain ⟨a, rfl⟩ : ∃ a : Nat, n = a := ⟨n.toNat, by omega⟩
          rw [C97_generate _ _ hw] at h1
          obtain ⟨⟨xs, s1⟩, g1, g2⟩ := bind_ok h1
          cases g2
          obtain ⟨s', g3, g4⟩ := C97_stream cs (getElem?_set_self' hw _) hu' h3
          refine ⟨s', ?_, g4⟩
          have : asked j (Cmd.generate j (a : Int) :: cs) = a + asked j cs := by
            simp only [asked, if_true, Int.toNat_natCast]
          rw [this, C39_chunks, g1]
          simp only [bind, Except.bind, g3, pure, Except.pure, Result.values]
      | set j op =>
        obtain rfl : j = i := by injection ht
        exact absurd List.mem_cons_self (hu op)
      | filter j xs =>
        obtain rfl : j = i := by injection ht
        simp only [step, hw] at h1
        cases h1
        exact C97_stream cs hw hu' h3
      | apply j xs =>
        obtain rfl : j = i := by injection ht
        simp only [step, hw] at h1
        cases h1
        exact C97_stream cs hw hu' h3
      | _ => cases ht
    · rw [heard_other ht, asked_other ht]
      have := C97_others h1 (lt_of_getElem? hw) ht
      exact C97_stream cs (by rw [this]; exact hw) hu' h3

/-- A filter: the statements `filter` and `apply` tick it, the others do not concern it. -/
theorem filter_stream {M : Type} (tick : M → ℝ → Except Fault (M × ℝ)) (inj : M → Obj)
    (h1 : ∀ dbg mem w i m xs, w[i]? = some (inj m) → step dbg mem w (.filter i xs) = (do
      let (ys, m') ← filterArray tick mem m xs
      return (.array ys, w.set i (inj m'))))
    (h2 : ∀ dbg mem w i m x, w[i]? = some (inj m) → step dbg mem w (.apply i x) = (do
      let (m', y) ← tick m x
      return (.number y, w.set i (inj m'))))
    (h3 : ∀ dbg mem w i m n, w[i]? = some (inj m) → step dbg mem w (.generate i n) = .ok (.raised, w))
    (h4 : ∀ dbg mem w i m op, w[i]? = some (inj m) → step dbg mem w (.set i op) = .ok (.raised, w))
    {dbg : Bool} {mem : Nat → Nat → ℝ} {i : Nat} : ∀ (cs : List Cmd) {w w' : List Obj}
    {m : M} {rs : List Result}, w[i]? = some (inj m) → run dbg mem w cs = .ok (rs, w') →
    ∃ m', ticks tick m (said i cs) = .ok (m', heard i cs rs) ∧ w'[i]? = some (inj m')
  | [], w, w', m, rs, hw, h => by
    cases h
    exact ⟨m, rfl, hw⟩
  | c :: cs, w, w', m, rs, hw, h => by
    obtain ⟨⟨r, w1⟩, e1, e2⟩ := bind_ok h
    obtain ⟨⟨rs', w2⟩, e3, e4⟩ := bind_ok e2
    cases e4
    by_cases ht : c.target = some i
    · rw [heard_self ht]
      cases c with
      | generate j n =>
        obtain rfl : j = i := by injection ht
        rw [h3 _ _ _ _ _ _ hw] at e1
        cases e1
        exact filter_stream tick inj h1 h2 h3 h4 cs hw e3
      | set j op =>
        obtain rfl : j = i := by injection ht
        rw [h4 _ _ _ _ _ _ hw] at e1
        cases e1
        exact filter_stream tick inj h1 h2 h3 h4 cs hw e3
      | filter j xs =>
        obtain rfl : j = i := by injection ht
        rw [h1 _ _ _ _ _ _ hw, filterArray_eq] at e1
        obtain ⟨⟨ys, m1⟩, g1, g2⟩ := bind_ok e1
        obtain ⟨⟨m1', ys'⟩, g3, g4⟩ := bind_ok g1
        cases g4
        cases g2
        obtain ⟨m', g5, g6⟩ := filter_stream tick inj h1 h2 h3 h4 cs (getElem?_set_self' hw _) e3
        refine ⟨m', ?_, g6⟩
        have : said j (Cmd.filter j xs :: cs) = xs ++ said j cs := by simp only [said, if_true]
        rw [this, ticks_append, g3]
        simp only [bind, Except.bind, g5, pure, Except.pure, Result.values]
      | apply j x =>
        obtain rfl : j = i := by injection ht
        rw [h2 _ _ _ _ _ _ hw] at e1
        obtain ⟨⟨m1, y⟩, g1, g2⟩ := bind_ok e1
        cases g2
        obtain ⟨m', g5, g6⟩ := filter_stream tick inj h1 h2 h3 h4 cs (getElem?_set_self' hw _) e3
        refine ⟨m', ?_, g6⟩
        have : said j (Cmd.apply j x :: cs) = x :: said j cs := by
          simp only [said, if_true, List.singleton_append]
        rw [this]
        simp only [ticks, g1, bind, Except.bind, g5, pure, Except.pure, Result.values, List.singleton_append]
      | _ => cases ht
    · rw [heard_other ht, said_other ht]
      have := C97_others e1 (lt_of_getElem? hw) ht
      exact filter_stream tick inj h1 h2 h3 h4 cs (by rw [this]; exact hw) e3

theorem ticks_average (m : MovingAverage ℝ) : ∀ xs : List ℝ,
    ticks MovingAverage.tick m xs = m.run (xs.map .tick)
  | [] => rfl
  | x :: xs => by
    simp only [ticks, List.map_cons, MovingAverage.run]
    congr 1
    funext v
    rw [ticks_average v.1 xs]

theorem ticks_rms (m : MovingRms) : ∀ xs : List ℝ, ticks MovingRms.tick m xs = m.run (xs.map .tick)
  | [] => rfl
  | x :: xs => by
    simp only [ticks, List.map_cons, MovingRms.run]
    congr 1
    funext v
    rw [ticks_rms v.1 xs]

theorem toSize_ok {v : ℝ} (h1 : 0 ≤ v) (h2 : v < 2 ^ 64) : toSize v = .ok ⌊v⌋₊ := by
  unfold toSize
  rw [if_pos ⟨by linarith, h2⟩]
  rfl

theorem floor_bounds {v : ℝ} (h1 : 1 ≤ v) (h2 : v < 2 ^ 63) : 0 < ⌊v⌋₊ ∧ ⌊v⌋₊ < 2 ^ 63 := by
  refine ⟨Nat.floor_pos.mpr h1, ?_⟩
  rw [Nat.floor_lt (by linarith)]
  exact_mod_cast h2

/-- **C97 (moving average)**: `MovingAverageFilter(v)`, 1 ≤ v < 2^63, in any program: the numbers it returns are the means
of the last ⌊v⌋ numbers passed to it, whether by `filter` in blocks or one by one. -/
theorem C97_average {dbg : Bool} {mem : Nat → Nat → ℝ} {v : ℝ} (h1 : 1 ≤ v) (h2 : v < 2 ^ 63) {cs : List Cmd}
    {w w' : List Obj} {r : Result} {rs : List Result} (h : run dbg mem w (.movingAverage v :: cs) = .ok (r :: rs, w')) :
    heard w.length cs rs = moving mean ⌊v⌋₊ [] ((said w.length cs).map .tick) := by
  obtain ⟨g1, g2⟩ := floor_bounds h1 h2
  obtain ⟨m, m', e1, e2⟩ := C13_moving_average_partial ⌊v⌋₊ g1 g2 (said w.length cs)
  obtain ⟨⟨r1, w1⟩, e3, e4⟩ := bind_ok h
  obtain ⟨⟨rs1, w2⟩, e5, e6⟩ := bind_ok e4
  cases e6
  simp only [step, toSize_ok (by linarith : (0 : ℝ) ≤ v) (lt_trans h2 (by norm_num)), bind, Except.bind, e1, pure,
    Except.pure] at e3
  cases e3
  obtain ⟨m2, e7, _⟩ := filter_stream MovingAverage.tick .average (fun _ _ _ _ _ _ hw => by simp only [step, hw])
    (fun _ _ _ _ _ _ hw => by simp only [step, hw]) (fun _ _ _ _ _ _ hw => by simp only [step, hw])
    (fun _ _ _ _ _ _ hw => by simp only [step, hw]) (i := w.length) (m := m) cs (by simp) e5
  rw [ticks_average, e2] at e7
  injection e7 with e7
  exact (Prod.mk.inj e7).2.symm

/-- **C97 (moving root mean square)**, in the same way. -/
theorem C97_rms {dbg : Bool} {mem : Nat → Nat → ℝ} {v : ℝ} (h1 : 1 ≤ v) (h2 : v < 2 ^ 63) {cs : List Cmd}
    {w w' : List Obj} {r : Result} {rs : List Result} (h : run dbg mem w (.movingRms v :: cs) = .ok (r :: rs, w')) :
    heard w.length cs rs = moving rms ⌊v⌋₊ [] ((said w.length cs).map .tick) := by
  obtain ⟨g1, g2⟩ := floor_bounds h1 h2
  obtain ⟨m, m', e1, e2⟩ := C14_moving_rms_partial ⌊v⌋₊ g1 g2 (said w.length cs)
  obtain ⟨⟨r1, w1⟩, e3, e4⟩ := bind_ok h
  obtain ⟨⟨rs1, w2⟩, e5, e6⟩ := bind_ok e4
  cases e6
  simp only [step, toSize_ok (by linarith : (0 : ℝ) ≤ v) (lt_trans h2 (by norm_num)), bind, Except.bind, e1, pure,
    Except.pure] at e3
  cases e3
  obtain ⟨m2, e7, _⟩ := filter_stream MovingRms.tick .rms (fun _ _ _ _ _ _ hw => by simp only [step, hw])
    (fun _ _ _ _ _ _ hw => by simp only [step, hw]) (fun _ _ _ _ _ _ hw => by simp only [step, hw])
    (fun _ _ _ _ _ _ hw => by simp only [step, hw]) (i := w.length) (m := m) cs (by simp) e5
  rw [ticks_rms, e2] at e7
  injection e7 with e7
  exact (Prod.mk.inj e7).2.symm

/-- **C97 (sine)**: the samples a program gets from `Sinusoidal(a, r, f, p)` are a sin(2π f n / r + p), n = 0, 1, …, in
blocks of any size. -/
theorem C97_sine {dbg : Bool} {mem : Nat → Nat → ℝ} {a r f p : ℝ} (hr : 0 < r) {cs : List Cmd}
    {w w' : List Obj} {x : Result} {rs : List Result} (hu : Untouched w.length cs)
    (h : run dbg mem w (.sinusoidal a r f p :: cs) = .ok (x :: rs, w')) :
    heard w.length cs rs = (List.range (asked w.length cs)).map fun n : Nat =>
      a * Real.sin (2 * Real.pi * (f * (n / r)) + p) := by
  obtain ⟨⟨rs1, w2⟩, e5, e6⟩ := bind_ok h
  cases e6
  obtain ⟨s', e7, _⟩ := C97_stream cs (i := w.length) (k := .sin) (s := Osc.sinOscillator a r f p) (by simp) hu e5
  rw [gen_value (k := .sin) _ (s := sinOscillator a r f p) rfl hr trivial] at e7
  injection e7 with e7
  rw [← (Prod.mk.inj e7).1]
  apply List.map_congr_left
  intro n _
  simp [expected, Osc.sinOscillator, Osc.base, sineWave]

/-- **C97 (triangle)**: the same for `Triangular(a, r, f)`. -/
theorem C97_triangle {dbg : Bool} {mem : Nat → Nat → ℝ} {a r f : ℝ} (hr : 0 < r) (hf : 0 ≤ f) {cs : List Cmd}
    {w w' : List Obj} {x : Result} {rs : List Result} (hu : Untouched w.length cs)
    (h : run dbg mem w (.triangular a r f :: cs) = .ok (x :: rs, w')) :
    heard w.length cs rs = (List.range (asked w.length cs)).map fun n : Nat => a * triangleWave (f * (n / r)) := by
  obtain ⟨⟨r1, w1⟩, e3, e4⟩ := bind_ok h
  obtain ⟨⟨rs1, w2⟩, e5, e6⟩ := bind_ok e4
  cases e6
  obtain ⟨s0, s1, g1, g2⟩ := C39_triangular (dbg := dbg) (a := a) hr hf (asked w.length cs)
  simp only [step, g1, bind, Except.bind, pure, Except.pure] at e3
  cases e3
  obtain ⟨s', e7, _⟩ := C97_stream cs (i := w.length) (k := .saw) (s := s0) (by simp) hu e5
  rw [g2] at e7
  injection e7 with e7
  exact (Prod.mk.inj e7).1.symm

/-- **C97 is violated**: the size of a moving filter is a floating point number; a negative one (or 2^64) is converted to
an unsigned number, which is undefined. -/
theorem C97_size_violates (dbg : Bool) (mem : Nat → ℝ) (w : List Obj) {v : ℝ} (h : v ≤ -1 ∨ 2 ^ 64 ≤ v) :
    step dbg mem w (.movingAverage v) = .error .domain ∧ step dbg mem w (.movingRms v) = .error .domain ∧
    step dbg mem w (.movingMedian v) = .error .domain := by
  have e : toSize v = .error .domain := by
    unfold toSize
    rw [if_neg]
    rintro ⟨h1, h2⟩
    rcases h with h | h <;> linarith
  simp only [step, e, bind, Except.bind, and_self]

/-- **C97 is violated**: a size below 1, such as 0 or 0.5, is accepted, and the first sample then divides by the
size of the window, 0, to find its first element. -/
theorem C97_empty_violates (dbg : Bool) (mem : Nat → Nat → ℝ) (w : List Obj) {v : ℝ} (h0 : -1 < v) (h1 : v < 1) (x : ℝ) :
    run dbg mem w [.movingAverage v, .apply w.length x] = .error .divByZero := by
  have e : toSize v = .ok 0 := by
    unfold toSize
    rw [if_pos ⟨h0, lt_trans h1 (by norm_num)⟩]
    congr 1
    have : ⌊v⌋ < 1 := Int.floor_lt.mpr (by exact_mod_cast h1)
    omega
  have e2 : (MovingAverage.new 0 : Except Fault (MovingAverage ℝ)) = .ok ⟨⟨[], ⟨0, 0, 0⟩⟩, 0⟩ := rfl
  simp only [run, step, e, bind, Except.bind, e2, pure, Except.pure, List.getElem?_append_right (le_refl _),
    Nat.sub_self, List.getElem?_cons_zero]
  rfl

/-- An oscillator, blocks of 2, -3 (an exception) and 1 samples. -/
example (mem : Nat → Nat → ℝ) : ∃ r rs w', run true mem []
    [.sinusoidal 1 8 1 0, .generate 0 2, .generate 0 (-3), .generate 0 1] = .ok (r :: rs, w') ∧
    heard 0 [.generate 0 2, .generate 0 (-3), .generate 0 1] rs = (List.range 3).map fun n : Nat =>
      1 * Real.sin (2 * Real.pi * (1 * (n / 8)) + 0) := by
  have g : ∀ (mem : Nat → ℝ) (s : State) (n : Nat), C39.Inv s → 0 < s.sampleRate → ∃ xs s',
      step true mem [.osc .sin s] (.generate 0 n) = .ok (.array xs, [.osc .sin s']) ∧ C39.Inv s' ∧ 0 < s'.sampleRate := by
    intro mem s n hI hr
    rw [C97_generate true mem (i := 0) (k := .sin) (s := s) rfl n, gen_value (k := .sin) n hI hr trivial]
    exact ⟨_, _, rfl, hI, hr⟩
  obtain ⟨xs, s1, e1, i1, r1⟩ := g (mem 2) (sinOscillator 1 8 1 0) 2 rfl (by norm_num [sinOscillator, base])
  obtain ⟨ys, s2, e2, _, _⟩ := g (mem 0) s1 1 i1 r1
  have e : run true mem [] [.sinusoidal 1 8 1 0, .generate 0 2, .generate 0 (-3), .generate 0 1]
      = .ok ([.done, .array xs, .raised, .array ys], [.osc .sin s2]) := by
    have e0 : step true (mem 3) [] (.sinusoidal 1 8 1 0) = .ok (.done, [.osc .sin (sinOscillator 1 8 1 0)]) := rfl
    have e3 := C97_negative true (mem 1) [.osc .sin s1] 0 (n := -3) (by norm_num)
    simp only [run, List.length_cons, List.length_nil, Nat.zero_add, bind, Except.bind, pure, Except.pure]
    simp only [Nat.reduceAdd, e0]
    have e1' : step true (mem 2) [.osc .sin (sinOscillator 1 8 1 0)] (.generate 0 2) = .ok (.array xs, [.osc .sin s1]) := e1
    have e2' : step true (mem 0) [.osc .sin s1] (.generate 0 1) = .ok (.array ys, [.osc .sin s2]) := e2
    simp only [e1', e3, e2']
  refine ⟨_, _, _, e, ?_⟩
  exact C97_sine (by norm_num) (fun op hm => by simp at hm) e

end Edsp.PyObj
