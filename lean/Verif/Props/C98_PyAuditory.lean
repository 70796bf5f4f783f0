import Verif.Model.PyAuditory
import Verif.Props.C63_AudSpace

/-!
# C98: the auditory arrays of the Python package
-/

namespace Edsp.PyAud
open Edsp Edsp.Conv Edsp.Spec Edsp.Props Edsp.C63

/-- The four Python functions. -/
noncomputable def call : Scale → (Nat → ℝ) → ℝ → ℝ → Int → Except Fault Outcome
  | .mel => melspace
  | .erb => erbspace
  | .bark => barkspace
  | .cent => centspace

theorem call_eq (s : Scale) (junk : Nat → ℝ) (lo hi : ℝ) (size : Int) :
    call s junk lo hi size = generate s.conv junk lo hi size := by
  cases s <;> rfl

theorem wrote_all {m m' vs : List ℝ} (h : Wrote m m' 0 vs) (hl : vs.length = m.length) : m' = vs := by
  have h1 := Mem.wrote_seg h
  have h2 := Mem.wrote_length h
  rw [seg, List.drop_zero, Nat.sub_zero, Nat.zero_add, List.take_of_length_le (by omega)] at h1
  exact h1

theorem generate_ok {g : ℝ → Except Fault ℝ} {junk : Nat → ℝ} {lo hi : ℝ} {n : Nat} {vs : List ℝ}
    (hl : vs.length = n)
    (h : ∃ m', audSpace g ((List.range n).map junk) 0 n lo hi = .ok m' ∧
      Wrote ((List.range n).map junk) m' 0 vs) :
    generate g junk lo hi n = .ok (.array vs) := by
  obtain ⟨m', e, w⟩ := h
  have := wrote_all w (by simp [hl])
  subst this
  have hn : ¬ ((n : Int) < 0) := by omega
  simp only [generate, empty, if_neg hn, Int.toNat_natCast, e, bind, Except.bind, pure, Except.pure]

theorem spaced_length (lo hi : ℝ) (n : Nat) : (spaced lo hi n).length = n := by simp [spaced]

/-- **C98 (what is returned).**  For 0 < min < max and a size of at least two, each function returns an array of
`size` numbers that does not depend on what the fresh memory held: the first is the converted minimum, the last the
converted maximum, they strictly increase, and the i-th is the conversion of the i-th of the frequencies equally
spaced in Hertz.  Missing: equal spacing on the scale (C63). -/
theorem C98_space_partial (s : Scale) {lo hi : ℝ} (h0 : 0 < lo) (hlh : lo < hi) {n : Nat} (hn : 2 ≤ n) :
    ∃ vs : List ℝ, (∀ junk, call s junk lo hi n = .ok (.array vs)) ∧ vs.length = n ∧
      (∃ v, vs[0]? = some v ∧ s.conv lo = .ok v) ∧ (∃ v, vs[n - 1]? = some v ∧ s.conv hi = .ok v) ∧
      (∀ i x y, vs[i]? = some x → vs[i + 1]? = some y → x < y) ∧
      ∀ i : Nat, i < n → ∃ v, vs[i]? = some v ∧
        s.conv (lo + (i : ℝ) * ((hi - lo) / ((n : ℝ) - 1))) = .ok v := by
  have key : ∀ junk : Nat → ℝ, ∃ vs : List ℝ, call s junk lo hi n = .ok (.array vs) ∧ vs.length = n ∧
      (∃ v, vs[0]? = some v ∧ s.conv lo = .ok v) ∧ (∃ v, vs[n - 1]? = some v ∧ s.conv hi = .ok v) ∧
      (∀ i x y, vs[i]? = some x → vs[i + 1]? = some y → x < y) ∧
      ∀ i : Nat, i < n → ∃ v, vs[i]? = some v ∧
        s.conv (lo + (i : ℝ) * ((hi - lo) / ((n : ℝ) - 1))) = .ok v := by
    intro junk
    obtain ⟨m', vs, e, w, l, a, b, c, d⟩ := C63_space_partial s (m := (List.range n).map junk) (a := 0) (b := n)
      h0 hlh (by omega) (by simp)
    refine ⟨vs, ?_, by simpa using l, a, by simpa using b, c, by simpa using d⟩
    rw [call_eq]
    exact generate_ok (by simpa using l) ⟨m', e, w⟩
  obtain ⟨vs, e, l, a, b, c, d⟩ := key (fun _ => 0)
  refine ⟨vs, fun junk => ?_, l, a, b, c, d⟩
  obtain ⟨ws, e', l', -, -, -, d'⟩ := key junk
  rw [e']
  have : ws = vs := by
    apply List.ext_getElem? 
    intro i
    by_cases hi' : i < n
    · obtain ⟨v, hv, cv⟩ := d i hi'
      obtain ⟨v', hv', cv'⟩ := d' i hi'
      rw [cv] at cv'
      rw [hv, hv']
      injection cv' with h
      rw [h]
    · rw [List.getElem?_eq_none (by omega), List.getElem?_eq_none (by omega)]
  rw [this]

example : (0 : ℝ) < 20 ∧ (20 : ℝ) < 20000 ∧ 2 ≤ 8 := by norm_num

/-- **C98 (there and back).**  Converting the values of `melspace` back with `mel2hertz`, and those of `erbspace`
with `erb2hertz`, gives frequencies equally spaced from the minimum to the maximum, both included, for any
0 ≤ min ≤ max. -/
theorem C98_back {lo hi : ℝ} (h0 : 0 ≤ lo) (hlh : lo ≤ hi) {n : Nat} (hn : 2 ≤ n) (junk : Nat → ℝ) :
    (∃ vs, melspace junk lo hi n = .ok (.array vs) ∧ vs.map mel2hertz = spaced lo hi n) ∧
      ∃ vs, erbspace junk lo hi n = .ok (.array vs) ∧ vs.map erb2hertz = spaced lo hi n := by
  have key : ∀ (g : ℝ → Except Fault ℝ) (back : ℝ → ℝ),
      (∀ f, 0 ≤ f → ∃ v, g f = .ok v ∧ back v = f) →
      ∃ vs, generate g junk lo hi n = .ok (.array vs) ∧ vs.map back = spaced lo hi n := by
    intro g back hg
    classical
    let h : ℝ → ℝ := fun f => if hf : 0 ≤ f then (hg f hf).choose else 0
    have hh : ∀ v, 0 ≤ v → g v = .ok (h v) ∧ back (h v) = v := by
      intro v hv
      simp only [h, hv, dif_pos]
      exact (hg v hv).choose_spec
    refine ⟨(spaced lo hi n).map h, generate_ok (by simp [spaced_length]) ?_, ?_⟩
    · have := audSpace_ok (g := g) (h := h) hlh (fun v h1 _ => (hh v (h0.trans h1)).1)
        (m := (List.range n).map junk) (a := 0) (b := n) (by omega) (by simp)
      simpa using this
    · rw [List.map_map]
      conv_rhs => rw [← List.map_id (spaced lo hi n)]
      apply List.map_congr_left
      intro v hv
      exact (hh v (h0.trans (spaced_mem hlh hn hv).1)).2
  refine ⟨key _ _ fun f hf => ?_, key _ _ fun f hf => ?_⟩
  · obtain ⟨v, a, -, b⟩ := C36.C36_mel.1 f hf
    exact ⟨v, a, b⟩
  · obtain ⟨v, a, -, b⟩ := C36.C36_erb.1 f hf
    exact ⟨v, a, b⟩

example : (0 : ℝ) ≤ 0 ∧ (0 : ℝ) ≤ 8000 ∧ 2 ≤ 5 := by norm_num

/-- **C98 (short arrays).**  Size 0 gives an empty array, size 1 the converted minimum alone. -/
theorem C98_short (s : Scale) {lo : ℝ} (hi : ℝ) (h0 : 0 < lo) (junk : Nat → ℝ) :
    call s junk lo hi 0 = .ok (.array []) ∧ ∃ v, s.conv lo = .ok v ∧ call s junk lo hi 1 = .ok (.array [v]) := by
  refine ⟨?_, ?_⟩
  · rw [call_eq]
    rfl
  · obtain ⟨v, hv⟩ := conv_ok s h0
    refine ⟨v, hv, ?_⟩
    rw [call_eq]
    simp only [generate, empty, show ¬ ((1 : Int) < 0) by decide, if_false, Int.toNat_one, List.range_one,
      List.map_cons, List.map_nil, audSpace, Mem.distance_ok (by omega : 0 ≤ 1), bind, Except.bind, Nat.sub_zero,
      Seq.linspace, Nat.cast_one, Int.cast_one, sub_self, if_true, Seq.linspaceN,
      Mem.write_ok (show 0 < [junk 0].length by simp), List.set_cons_zero, mapRange,
      Mem.read_ok (show [lo][0]? = some lo from rfl), hv, Mem.write_ok (show 0 < [lo].length by simp),
      pure, Except.pure]

/-- **C98 is violated**: a negative size does not raise a Python exception; in all four functions, whatever the
frequencies, it ends the interpreter. -/
theorem C98_negative_violates (s : Scale) (junk : Nat → ℝ) (lo hi : ℝ) (size : Int) :
    call s junk lo hi size = .ok .terminated ↔ size < 0 := by
  rw [call_eq]
  unfold generate empty
  constructor
  · intro h
    by_contra hs
    rw [if_neg hs] at h
    cases hx : audSpace s.conv ((List.range size.toNat).map junk) 0 size.toNat lo hi with
    | error e => simp [hx, bind, Except.bind] at h
    | ok m => simp [hx, bind, Except.bind, pure, Except.pure] at h
  · intro hs
    rw [if_pos hs]

end Edsp.PyAud
