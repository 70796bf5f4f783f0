import Verif.Lemmas.StringView

/-!
# C80: parts, order, copies and output of a `string_view`
-/

namespace Edsp.Props

open Edsp.SV Edsp.Spec Edsp.Mem

/-- **C80, substr.** It throws exactly if the position lies beyond the end; otherwise the result views the
characters from there on, at most `n` of them. -/
theorem C80_substr {v : View} (hv : v.Valid) (pos n : Nat) :
    (v.size < pos ∧ v.substr pos n = .error .exception) ∨
    (pos ≤ v.size ∧ ∃ w, v.substr pos n = .ok w ∧ w.Valid ∧ w.text = (v.text.drop pos).take n) := by
  have h1 := hv.1
  have h2 := hv.2
  unfold View.substr
  by_cases h : pos > v.size
  · exact Or.inl ⟨h, if_pos h⟩
  · rw [if_neg h]
    exact Or.inr ⟨by omega, _, rfl, ⟨by dsimp only; omega, by dsimp only; omega⟩, substr_text pos n (by omega)⟩

private theorem reports_nil_left (s : List Nat) : Reports (if s = [] then 0 else -1) [] s := by
  cases s with
  | nil => simp [Reports]
  | cons a s => simp [Reports]

private theorem reports_cons {r : Int} {a b : Nat} {t s : List Nat} (h : Reports r t s) (e : a = b) :
    Reports r (a :: t) (b :: s) := by
  subst e
  obtain ⟨h1, h2, h3⟩ := h
  refine ⟨?_, ?_, ?_⟩
  · rw [h1]; simp [List.cons_lt_cons_iff]
  · rw [h2]; simp
  · rw [h3]; simp [List.cons_lt_cons_iff]

private theorem reports_lt {a b : Nat} (t s : List Nat) (h : a < b) : Reports (-1) (a :: t) (b :: s) := by
  refine ⟨?_, ?_, ?_⟩
  · simp [List.cons_lt_cons_iff, h]
  · simp; omega
  · simp [List.cons_lt_cons_iff]; omega

private theorem reports_gt {a b : Nat} (t s : List Nat) (h : b < a) : Reports 1 (a :: t) (b :: s) := by
  refine ⟨?_, ?_, ?_⟩
  · simp [List.cons_lt_cons_iff]; omega
  · simp; omega
  · simp [List.cons_lt_cons_iff, h]

/-- `Traits::compare` followed by the comparison of the lengths. -/
private theorem compareN_spec (a b : List Nat) : ∀ (k p q n m : Nat), p + n ≤ a.length → q + m ≤ b.length →
    k = min n m → ∃ r, View.compareN a b k p q = .ok r ∧
      Reports (if r ≠ 0 then r else if n = m then 0 else if n < m then -1 else 1)
        (seg a p (p + n)) (seg b q (q + m))
  | 0, p, q, n, m, hn, hm, hk => by
    refine ⟨0, rfl, ?_⟩
    rw [if_neg (by simp)]
    by_cases hn0 : n = 0
    · subst hn0
      have e : seg a p (p + 0) = [] := seg_self _ _
      rw [e]
      by_cases hm0 : m = 0
      · subst hm0
        rw [show seg b q (q + 0) = [] from seg_self _ _]
        simp [Reports]
      · rw [if_neg (by omega), if_pos (by omega)]
        rw [seg_cons' (m := b) (a := q) (b := q + m) (by omega) (by omega)]
        simp [Reports]
    · have hm0 : m = 0 := by omega
      subst hm0
      rw [if_neg hn0, if_neg (by omega), show seg b q (q + 0) = [] from seg_self _ _]
      rw [seg_cons' (m := a) (a := p) (b := p + n) (by omega) (by omega)]
      simp [Reports]
  | k + 1, p, q, n, m, hn, hm, hk => by
    have h1 := read_exists (m := a) (p := p) (by omega)
    have h2 := read_exists (m := b) (p := q) (by omega)
    unfold View.compareN
    simp only [bind, Except.bind, h1.2, h2.2]
    rw [seg_cons' (m := a) (a := p) (b := p + n) (by omega) (by omega),
      seg_cons' (m := b) (a := q) (b := q + m) (by omega) (by omega)]
    split
    · rename_i h
      exact ⟨-1, rfl, reports_lt _ _ h⟩
    · split
      · rename_i h
        exact ⟨1, rfl, reports_gt _ _ h⟩
      · obtain ⟨r, hr, q1⟩ := compareN_spec a b k (p + 1) (q + 1) (n - 1) (m - 1) (by omega) (by omega) (by omega)
        refine ⟨r, hr, ?_⟩
        rw [show p + 1 + (n - 1) = p + n by omega, show q + 1 + (m - 1) = q + m by omega] at q1
        have e : (if r ≠ 0 then r else if n - 1 = m - 1 then 0 else if n - 1 < m - 1 then (-1 : Int) else 1) =
            (if r ≠ 0 then r else if n = m then 0 else if n < m then -1 else 1) := by
          have e1 : (n - 1 = m - 1) = (n = m) := by apply propext; omega
          have e2 : (n - 1 < m - 1) = (n < m) := by apply propext; omega
          simp only [e1, e2]
        rw [e] at q1
        exact reports_cons q1 (by omega)

/-- **C80, compare.** The sign of the result tells the lexicographic order of the texts, characters taken
as unsigned; in particular the operators `==`, `<`, … built on it are the equality and the order of texts. -/
theorem C80_compare {v w : View} (hv : v.Valid) (hw : w.Valid) :
    ∃ r, v.compare w = .ok r ∧ Reports r v.text w.text := by
  obtain ⟨r, hr, q⟩ := compareN_spec v.mem w.mem _ v.data w.data v.size w.size hv.1 hw.1 rfl
  unfold View.compare
  simp only [bind, Except.bind, hr]
  by_cases h : r ≠ 0
  · rw [if_pos h] at q ⊢
    exact ⟨_, rfl, q⟩
  · rw [if_neg h] at q ⊢
    exact ⟨_, rfl, q⟩

/-- **C80, compare of parts.** -/
theorem C80_compare_parts {v w : View} (hv : v.Valid) (hw : w.Valid) (pos1 n1 pos2 n2 : Nat)
    (h1 : pos1 ≤ v.size) (h2 : pos2 ≤ w.size) :
    ∃ r, v.compareAt2 pos1 n1 w pos2 n2 = .ok r ∧
      Reports r ((v.text.drop pos1).take n1) ((w.text.drop pos2).take n2) := by
  rcases C80_substr hv pos1 n1 with ⟨h, -⟩ | ⟨-, v', e1, hv', t1⟩
  · omega
  rcases C80_substr hw pos2 n2 with ⟨h, -⟩ | ⟨-, w', e2, hw', t2⟩
  · omega
  obtain ⟨r, hr, q⟩ := C80_compare hv' hw'
  refine ⟨r, ?_, by rw [← t1, ← t2]; exact q⟩
  unfold View.compareAt2
  simp only [bind, Except.bind, e1, e2, hr]

/-- **C80, starts_with.** It never throws and tells whether the text begins with the other one. -/
theorem C80_starts_with {v w : View} (hv : v.Valid) (hw : w.Valid) :
    ∃ b, v.startsWith w = .ok b ∧ (b = true ↔ w.text <+: v.text) := by
  unfold View.startsWith
  by_cases h : v.size ≥ w.size
  · rw [if_pos h]
    rcases C80_substr hv 0 w.size with ⟨h, -⟩ | ⟨-, v', e1, hv', t1⟩
    · omega
    obtain ⟨r, hr, -, q, -⟩ := C80_compare hv' hw
    unfold View.compareAt
    simp only [bind, Except.bind, e1, hr]
    refine ⟨_, rfl, ?_⟩
    rw [decide_eq_true_eq, q, t1, List.drop_zero]
    constructor
    · intro e; rw [← e]; exact List.take_prefix _ _
    · intro e
      have := List.prefix_iff_eq_take.mp e
      rw [hw.length] at this
      exact this.symm
  · rw [if_neg h]
    refine ⟨false, rfl, by simp; intro hp; have := hp.length_le; rw [hv.length, hw.length] at this; omega⟩

/-- **C80, ends_with.** -/
theorem C80_ends_with {v w : View} (hv : v.Valid) (hw : w.Valid) :
    ∃ b, v.endsWith w = .ok b ∧ (b = true ↔ w.text <:+ v.text) := by
  unfold View.endsWith
  by_cases h : v.size ≥ w.size
  · rw [if_pos h]
    rcases C80_substr hv (v.size - w.size) npos with ⟨h, -⟩ | ⟨-, v', e1, hv', t1⟩
    · omega
    obtain ⟨r, hr, -, q, -⟩ := C80_compare hv' hw
    unfold View.compareAt
    simp only [bind, Except.bind, e1, hr]
    refine ⟨_, rfl, ?_⟩
    have hfull : (v.text.drop (v.size - w.size)).take npos = v.text.drop (v.size - w.size) := by
      apply List.take_of_length_le
      rw [List.length_drop, hv.length]
      have := hv.2; omega
    rw [decide_eq_true_eq, q, t1, hfull]
    constructor
    · intro e; rw [← e]; exact List.drop_suffix _ _
    · intro e
      have := List.suffix_iff_eq_drop.mp e
      rw [hw.length, hv.length] at this
      exact this.symm
  · rw [if_neg h]
    refine ⟨false, rfl, by simp; intro hp; have := hp.length_le; rw [hv.length, hw.length] at this; omega⟩

/-- **C80, at, [], front and back.** Checked access throws exactly outside the text; the other accesses
deliver the characters inside it. -/
theorem C80_access (dbg : Bool) {v : View} (hv : v.Valid) (pos : Nat) :
    (∀ c, v.text[pos]? = some c → v.atPos dbg pos = .ok c ∧ v.get dbg pos = .ok c) ∧
    (v.text[pos]? = none → v.atPos dbg pos = .error .exception ∧ v.get true pos = .error .assertion) ∧
    (∀ c, v.text.head? = some c → v.front dbg = .ok c) ∧ (∀ c, v.text.getLast? = some c → v.back dbg = .ok c) := by
  have h1 := hv.1
  have h2 := hv.2
  have hget : ∀ p c, v.text[p]? = some c → v.dataAt dbg p = .ok c := by
    intro p c hc
    rw [text_getElem?] at hc
    split at hc
    · rename_i hlt
      unfold View.dataAt
      rw [if_neg (by simp [hlt])]
      exact read_ok hc
    · cases hc
  refine ⟨fun c hc => ?_, fun hn => ?_, fun c hc => ?_, fun c hc => ?_⟩
  · have hlt : pos < v.size := by
      rw [text_getElem?] at hc
      split at hc
      · assumption
      · cases hc
    exact ⟨by unfold View.atPos; rw [if_pos hlt, hget pos c hc], hget pos c hc⟩
  · have hge : ¬ pos < v.size := by
      intro hlt
      rw [text_getElem?, if_pos hlt, List.getElem?_eq_none_iff] at hn
      omega
    refine ⟨by unfold View.atPos; rw [if_neg hge], ?_⟩
    unfold View.get View.dataAt
    rw [if_pos (by simp; omega)]
  · exact hget 0 c (by rwa [List.head?_eq_getElem?] at hc)
  · rw [List.getLast?_eq_getElem?, hv.length] at hc
    have h0 : v.size ≠ 0 := by
      intro h0
      rw [text_getElem?, h0] at hc
      simp at hc
    unfold View.back
    have e : usub v.size 1 = v.size - 1 := by unfold usub npos at *; omega
    rw [e]
    exact hget _ c hc

/-- **C80, remove_prefix and remove_suffix.** -/
theorem C80_remove (dbg : Bool) {v : View} (hv : v.Valid) {n : Nat} (hn : n ≤ v.size) :
    (∃ w, v.removePrefix dbg n = .ok w ∧ w.Valid ∧ w.text = v.text.drop n) ∧
    (∃ w, v.removeSuffix dbg n = .ok w ∧ w.Valid ∧ w.text = v.text.take (v.size - n)) := by
  have h1 := hv.1
  have h2 := hv.2
  have e : usub v.size n = v.size - n := by unfold usub npos at *; omega
  refine ⟨⟨_, by unfold View.removePrefix; rw [if_neg (by simp [hn])], ?_, ?_⟩,
    ⟨_, by unfold View.removeSuffix; rw [if_neg (by simp [hn])], ?_, ?_⟩⟩
  · rw [e]; exact ⟨by dsimp only; omega, by dsimp only; omega⟩
  · rw [text_drop, e]; unfold View.text; dsimp only; congr 1; omega
  · rw [e]; exact ⟨by dsimp only; omega, by dsimp only; omega⟩
  · rw [e]; unfold View.text; dsimp only; rw [seg_take]; congr 1; omega

/-- **C80, removing more than there is**, unlike the checks of the other members, is only caught in debug
builds: a release build turns every such call into a view of more than 2⁶³ characters. -/
theorem C80_remove_unchecked {v : View} (hv : v.size < 2 ^ 62) {n : Nat} (hn : v.size < n) (hn2 : n < 2 ^ 62) :
    v.removeSuffix true n = .error .assertion ∧
    ∃ w, v.removeSuffix false n = .ok w ∧ 2 ^ 63 < w.size := by
  refine ⟨by unfold View.removeSuffix; rw [if_pos (by simp; omega)], _, by unfold View.removeSuffix; rw [if_neg (by simp)], ?_⟩
  dsimp only
  unfold usub
  omega

/-- The copying loop. -/
private theorem copyN_spec (src : List Nat) : ∀ (n p : Nat) (dst : List Nat) (d : Nat), p + n ≤ src.length →
    d + n ≤ dst.length → ∃ dst', View.copyN src n p dst d = .ok dst' ∧ Wrote dst dst' d (seg src p (p + n))
  | 0, p, dst, d, _, hd => ⟨dst, rfl, by rw [show seg src p (p + 0) = [] from seg_self _ _]; exact wrote_nil dst hd⟩
  | n + 1, p, dst, d, hp, hd => by
    have h1 := read_exists (m := src) (p := p) (by omega)
    obtain ⟨dst', e, hw⟩ := copyN_spec src n (p + 1) (dst.set d src[p]) (d + 1) (by omega) (by simp; omega)
    refine ⟨dst', ?_, ?_⟩
    · unfold View.copyN
      simp only [bind, Except.bind, h1.2, write_ok (show d < dst.length by omega), e]
    · rw [seg_cons' (m := src) (a := p) (b := p + (n + 1)) (by omega) (by omega)]
      rw [show p + 1 + n = p + (n + 1) by omega] at hw
      exact wrote_cons (by omega) hw

/-- **C80, copy.** It throws exactly if the position lies beyond the end; otherwise it writes the characters
from there on, at most `n`, and returns how many. -/
theorem C80_copy {v : View} (hv : v.Valid) (dst : List Nat) (d n pos : Nat)
    (hd : d + min n (v.size - pos) ≤ dst.length) :
    (v.size < pos ∧ v.copyTo dst d n pos = .error .exception) ∨
    (pos ≤ v.size ∧ ∃ dst', v.copyTo dst d n pos = .ok (dst', ((v.text.drop pos).take n).length) ∧
      Wrote dst dst' d ((v.text.drop pos).take n)) := by
  have h1 := hv.1
  unfold View.copyTo
  by_cases h : pos > v.size
  · exact Or.inl ⟨h, if_pos h⟩
  · rw [if_neg h]
    refine Or.inr ⟨by omega, ?_⟩
    obtain ⟨dst', e, hw⟩ := copyN_spec v.mem (min n (v.size - pos)) (v.data + pos) dst d (by omega) hd
    have et : seg v.mem (v.data + pos) (v.data + pos + min n (v.size - pos)) = (v.text.drop pos).take n := by
      rw [text_drop, seg_take]; congr 1; omega
    refine ⟨dst', ?_, by rw [← et]; exact hw⟩
    simp only [bind, Except.bind, e]
    have el : ((v.text.drop pos).take n).length = min n (v.size - pos) := by
      rw [List.length_take, List.length_drop, hv.length]
    rw [el]
    rfl

private theorem strlenN_spec (mem : List Nat) : ∀ (k p n : Nat), n < k → mem[p + n]? = some 0 →
    (∀ i, i < n → ∃ c, mem[p + i]? = some c ∧ c ≠ 0) → strlenN mem k p = .ok n
  | 0, _, _, h, _, _ => by omega
  | k + 1, p, 0, _, h0, _ => by
    unfold strlenN
    simp only [bind, Except.bind, read_ok (show mem[p]? = some 0 from h0)]
    rfl
  | k + 1, p, n + 1, hk, h0, hn => by
    obtain ⟨c, hc, hc0⟩ := hn 0 (by omega)
    have := strlenN_spec mem k (p + 1) n (by omega) (by rw [show p + 1 + n = p + (n + 1) by omega]; exact h0)
      (fun i hi => by
        obtain ⟨c, h⟩ := hn (i + 1) (by omega)
        exact ⟨c, by rw [show p + 1 + i = p + (i + 1) by omega]; exact h⟩)
    unfold strlenN
    simp only [bind, Except.bind, read_ok (show mem[p]? = some c from hc), if_neg hc0, this]
    rfl

/-- **C80, the view of a C string** holds the characters before the first NUL. -/
theorem C80_cstring {mem : List Nat} {p : Nat} {t : List Nat} (ht : (0 : Nat) ∉ t)
    (hm : t ++ [0] <+: mem.drop p) :
    ∃ v, ofCString mem p = .ok v ∧ v.text = t ∧ v.size = t.length := by
  have hcell : ∀ i c, (t ++ [0])[i]? = some c → mem[p + i]? = some c := by
    intro i c hc
    obtain ⟨z, hz⟩ := hm
    have hi := (List.getElem?_eq_some_iff.mp hc).1
    have : (mem.drop p)[i]? = some c := by rw [← hz, List.getElem?_append_left hi]; exact hc
    rwa [List.getElem?_drop] at this
  have hlen : t.length + 1 ≤ mem.length := by
    have := hm.length_le
    simp at this
    omega
  have hs := strlenN_spec mem (mem.length + 1) p t.length (by omega)
    (hcell t.length 0 (by simp))
    (fun i hi => ⟨t[i], hcell i _ (by rw [List.getElem?_append_left hi]; exact List.getElem?_eq_getElem hi),
      fun h => ht (h ▸ List.getElem_mem hi)⟩)
  refine ⟨⟨mem, p, t.length⟩, ?_, ?_, rfl⟩
  · unfold ofCString
    simp only [bind, Except.bind, hs]
    rfl
  · unfold View.text seg
    obtain ⟨z, hz⟩ := hm
    dsimp only
    rw [← hz, show p + t.length - p = t.length by omega, List.append_assoc, List.take_left']
    rfl

/-- The characters a stream receives for a text, by the rules of the standard for formatted output
([ostream.formatted.reqmts]): filled up to the width, on the right if the flags say `left`, else on the
left. -/
def Formatted (width fill : Nat) (adjust : Adjust) (t : List Nat) : List Nat :=
  let padding := List.replicate (width - t.length) fill
  if adjust = .left then t ++ padding else padding ++ t

private theorem insert_eq {os : Stream} {v : View} (hv : v.Valid) :
    ∃ os', os.insert v = .ok os' ∧ os'.width = 0 ∧ os'.fill = os.fill ∧ os'.adjust = os.adjust ∧
      os'.out = os.out ++ (if os.adjust = .right then List.replicate (os.width - v.size) os.fill ++ v.text
        else v.text ++ List.replicate (os.width - v.size) os.fill) := by
  have hr : readRange v.mem v.data (v.data + v.size) = .ok v.text := readRange_ok (by omega) hv.1
  unfold Stream.insert
  dsimp only
  simp only [bind, Except.bind, hr]
  refine ⟨_, rfl, rfl, ?_⟩
  by_cases h1 : v.size < os.width
  · by_cases h2 : os.adjust = .right
    · simp [h1, h2, Stream.pad]
    · simp [h1, h2, Stream.pad]
  · have e : os.width - v.size = 0 := by omega
    by_cases h2 : os.adjust = .right
    · simp [h1, h2, e]
    · simp [h1, h2, e]

/-- **C80, output, for the flags `left` and `right` and whenever no filling is needed.** -/
theorem C80_output_partial {os : Stream} {v : View} (hv : v.Valid)
    (h : os.adjust = .left ∨ os.adjust = .right ∨ os.width ≤ v.size) :
    ∃ os', os.insert v = .ok os' ∧ os'.width = 0 ∧
      os'.out = os.out ++ Formatted os.width os.fill os.adjust v.text := by
  obtain ⟨os', e, hw, -, -, ho⟩ := insert_eq (os := os) hv
  refine ⟨os', e, hw, ?_⟩
  rw [ho]
  congr 1
  unfold Formatted
  rw [hv.length]
  rcases h with h | h | h
  · rw [h]; simp
  · rw [h]; simp
  · have e : os.width - v.size = 0 := by omega
    simp [e]

/-- **C80, output is violated on a stream without adjustment flags** (every fresh stream): each text that
is to be filled up is filled on the wrong side, which shows as soon as it does not begin with fill
characters. -/
theorem C80_output_violates {os : Stream} {v : View} (hv : v.Valid) (ha : os.adjust = .none)
    (hw : v.size < os.width) {c : Nat} {t : List Nat} (ht : v.text = c :: t) (hc : c ≠ os.fill) :
    ∃ os', os.insert v = .ok os' ∧ os'.out ≠ os.out ++ Formatted os.width os.fill os.adjust v.text := by
  obtain ⟨os', e, -, -, -, ho⟩ := insert_eq (os := os) hv
  refine ⟨os', e, ?_⟩
  rw [ho, ha, if_neg (by simp)]
  unfold Formatted
  intro h
  have h := List.append_cancel_left h
  rw [hv.length, if_neg (by simp), ht, show os.width - v.size = (os.width - v.size - 1) + 1 by omega,
    List.replicate_succ] at h
  simp only [List.cons_append, List.cons.injEq] at h
  exact hc h.1

/-- "abc" against "abd", a suffix, and a padded insertion. -/
example : (⟨[97, 98, 99], 0, 3⟩ : View).compare ⟨[97, 98, 100], 0, 3⟩ = .ok (-1) ∧
    (⟨[97, 98, 99], 0, 3⟩ : View).endsWith ⟨[98, 99], 0, 2⟩ = .ok true ∧
    (⟨[97, 98, 99], 0, 3⟩ : View).substr 4 1 = .error .exception ∧
    (⟨[], 5, 32, .none⟩ : Stream).insert ⟨[97, 98, 99], 0, 3⟩ = .ok ⟨[97, 98, 99, 32, 32], 0, 32, .none⟩ := by
  refine ⟨rfl, rfl, rfl, rfl⟩

example : (⟨[97, 98, 99], 0, 3⟩ : View).Valid := by simp [View.Valid, npos]

end Edsp.Props
