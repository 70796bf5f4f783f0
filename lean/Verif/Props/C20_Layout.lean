import Verif.Spec.PoleZero

/-! # C20: pole/zero layouts -/

namespace Edsp.Props

open Edsp Edsp.Spec

/-- A stored pair, seen from outside. -/
def pairView (q : PzPair) : Pt × Pt × Pt × Pt := (q.p1, q.z1, q.p2, q.z2)

/-- The layout holds the recorded insertions. -/
def LayoutRep (N : Nat) (l : Layout) (es : List Entry) : Prop :=
  l.pairs.length = N ∧ l.poles = poleCount es ∧ es.length = (l.poles + 1) / 2 ∧
    es.length ≤ N ∧ (l.pairs.map pairView).take es.length = es.map (·.1)

theorem rep_new (N : Nat) : LayoutRep N (Layout.new N) [] := by
  simp [LayoutRep, Layout.new, poleCount]

theorem rep_store {N : Nat} {l l' : Layout} {es : List Entry} (h : LayoutRep N l es) {q : PzPair}
    {k : Nat} (hk : k = 1 ∨ k = 2) (hs : l.store q k = .ok l') :
    LayoutRep N l' (es ++ [(pairView q, k)]) := by
  obtain ⟨h1, h2, h3, h4, h5⟩ := h
  unfold Layout.store at hs
  split at hs
  · cases hs
  · split at hs
    · rename_i hodd hlt
      cases hs
      have hlen : es.length = l.poles / 2 := by omega
      refine ⟨by simp [h1], by simp [poleCount, h2], ?_, ?_, ?_⟩
      · simp; omega
      · simp; omega
      · have hl2 : es.length < l.pairs.length := by omega
        simp only [List.length_append, List.length_cons, List.length_nil, List.map_append,
          List.map_cons, List.map_nil]
        rw [List.take_add_one, ← hlen, List.map_set, List.take_set_of_le le_rfl, h5,
          List.getElem?_set_self (by simpa using hl2)]
        rfl
    · cases hs

/-- **C20, counting and contents.** After every history of calls on an empty layout of every
capacity, in every build, that does not fail: the reported number of poles is the number inserted
since the last reset, the number of stages in use is that number halved and rounded up, and `at(i)`
returns for each of these stages what was inserted there. -/
theorem C20_contents (dbg : Bool) (N : Nat) (ops : List Layout.Op) (l : Layout)
    (h : (Layout.new N).run dbg ops = .ok l) :
    l.poles = poleCount (ops.foldl record []) ∧
      (ops.foldl record []).length = (l.poles + 1) / 2 ∧
      ∀ i (hi : i < (ops.foldl record []).length),
        ∃ q, l.at' i = .ok q ∧ (q.p1, q.z1, q.p2, q.z2) = (ops.foldl record [])[i].1 := by
  have key : ∀ (ops : List Layout.Op) (l0 l : Layout) (es : List Entry), LayoutRep N l0 es →
      l0.run dbg ops = .ok l → LayoutRep N l (ops.foldl record es) := by
    intro ops
    induction ops with
    | nil => intro l0 l es h0 h; cases h; exact h0
    | cons o ops ih =>
      intro l0 l es h0 h
      unfold Layout.run at h
      cases hs : l0.step dbg o with
      | error e => rw [hs] at h; cases h
      | ok l1 =>
        rw [hs] at h
        refine ih l1 l _ ?_ h
        cases o with
        | insert p z =>
          simp only [Layout.step, Layout.insert, bind, Except.bind] at hs
          unfold PzPair.single at hs
          split at hs
          · cases hs
          · rename_i q hq
            split at hq
            · cases hq
            · cases hq
              exact rep_store h0 (Or.inl rfl) hs
        | insertConj p z => exact rep_store h0 (Or.inr rfl) hs
        | insertPair p1 p2 z1 z2 =>
          simp only [Layout.step, Layout.insertPair] at hs
          split at hs
          · exact rep_store h0 (Or.inr rfl) hs
          · cases hs
        | reset =>
          cases hs
          refine ⟨h0.1, rfl, by simp [record, Layout.reset], Nat.zero_le _, by simp [record]⟩
  obtain ⟨h1, h2, h3, h4, h5⟩ := key ops _ l [] (rep_new N) h
  refine ⟨h2, h3, ?_⟩
  intro i hi
  have hl : i < l.pairs.length := by omega
  refine ⟨l.pairs[i], ?_, ?_⟩
  · unfold Layout.at' Layout.size
    rw [if_pos (by omega), List.getElem?_eq_getElem hl]
  · have : ((l.pairs.map pairView).take (ops.foldl record []).length)[i]? =
        ((ops.foldl record []).map (·.1))[i]? := by rw [h5]
    rw [List.getElem?_take, if_pos hi, List.getElem?_map, List.getElem?_map,
      List.getElem?_eq_getElem hl, List.getElem?_eq_getElem hi] at this
    simpa [pairView] using this

example : ∃ l, (Layout.new 2).run true [.insertConj (some Complex.I) none, .insert (some 1) (some 0)] = .ok l ∧
    l.poles = 3 := by
  refine ⟨⟨3, [⟨some Complex.I, none, some ((starRingEnd ℂ) Complex.I), none⟩, ⟨some 1, some 0, some 0, some 0⟩],
    0, 1⟩, ?_, rfl⟩
  simp [Layout.run, Layout.step, Layout.insertConj, Layout.insert, Layout.store, PzPair.single,
    Pt.imagZero, Layout.new, Pt.conj, bind, Except.bind, List.replicate]

/-- **C20, which calls are accepted.** A conjugate insertion succeeds exactly when no single pole has
been inserted before and a stage is free. -/
theorem C20_insert_conjugate_defined (l : Layout) (p z : Pt) :
    (∃ l', l.insertConj p z = .ok l') ↔ l.poles % 2 = 0 ∧ l.poles / 2 < l.pairs.length := by
  unfold Layout.insertConj Layout.store
  split
  · simp; omega
  · split
    · simp; omega
    · simp; omega

/-- A single insertion in a debug build needs, beyond that, a real pole and a real, finite zero. -/
theorem C20_insert_defined (dbg : Bool) (l : Layout) (p z : Pt) :
    (∃ l', l.insert dbg p z = .ok l') ↔ l.poles % 2 = 0 ∧ l.poles / 2 < l.pairs.length ∧
      (dbg = true → p.imagZero ∧ z.imagZero) := by
  unfold Layout.insert PzPair.single Layout.store
  by_cases hd : dbg = true ∧ ¬ (p.imagZero ∧ z.imagZero)
  · rw [if_pos hd]
    simp only [bind, Except.bind]
    constructor
    · rintro ⟨_, ⟨⟩⟩
    · rintro ⟨-, -, h⟩; exact absurd (h hd.1) hd.2
  · rw [if_neg hd]
    simp only [bind, Except.bind]
    have hd' : dbg = true → p.imagZero ∧ z.imagZero := by
      intro h; by_contra hc; exact hd ⟨h, hc⟩
    split
    · simp; omega
    · split
      · simp only [Except.ok.injEq, exists_eq', true_iff]
        exact ⟨by omega, by assumption, hd'⟩
      · simp; omega

example : ∃ l', (Layout.new 1).insert true (some (-1)) (some 0) = .ok l' :=
  (C20_insert_defined true (Layout.new 1) (some (-1)) (some 0)).mpr
    ⟨rfl, by simp [Layout.new], fun _ => by simp [Pt.imagZero]⟩

/-- **C20, reported stages (partial).** With an odd number of poles `size()` is the number of biquads
needed and `at(i)` is defined exactly below it.  Missing: even numbers, for which the statement is
false, see `C20_size_violates`. -/
theorem C20_size_partial (dbg : Bool) (N : Nat) (ops : List Layout.Op) (l : Layout)
    (h : (Layout.new N).run dbg ops = .ok l) (hodd : poleCount (ops.foldl record []) % 2 = 1) :
    l.size = (poleCount (ops.foldl record []) + 1) / 2 ∧
      ∀ i, (∃ q, l.at' i = .ok q) ↔ i < (poleCount (ops.foldl record []) + 1) / 2 := by
  obtain ⟨h1, h2, h3⟩ := C20_contents dbg N ops l h
  rw [← h1] at hodd ⊢
  have hsz : l.size = (l.poles + 1) / 2 := by unfold Layout.size; omega
  refine ⟨hsz, fun i => ⟨?_, ?_⟩⟩
  · rintro ⟨q, hq⟩
    unfold Layout.at' at hq
    split at hq
    · rw [← hsz]; assumption
    · cases hq
  · intro hi
    obtain ⟨q, hq, -⟩ := h3 i (by omega)
    exact ⟨q, hq⟩

example : ∃ l, (Layout.new 1).run true [.insert (some 1) (some 0)] = .ok l ∧ l.size = 1 := by
  refine ⟨⟨1, [⟨some 1, some 0, some 0, some 0⟩], 0, 1⟩, ?_, rfl⟩
  simp [Layout.run, Layout.step, Layout.insert, Layout.store, PzPair.single,
    Pt.imagZero, Layout.new, bind, Except.bind, List.replicate]

/-- **C20 is violated.** After every history that leaves an even number of poles, `size()` reports one
stage too many; and an empty layout, which needs no biquad, has a stage 0 that `at` returns. -/
theorem C20_size_violates :
    (∀ (dbg : Bool) (N : Nat) (ops : List Layout.Op) (l : Layout),
      (Layout.new N).run dbg ops = .ok l → poleCount (ops.foldl record []) % 2 = 0 →
        l.size = (poleCount (ops.foldl record []) + 1) / 2 + 1) ∧
    ∃ l, (Layout.new 1).run true [] = .ok l ∧ l.poles = 0 ∧ l.size = 1 ∧ ∃ q, l.at' 0 = .ok q := by
  refine ⟨?_, _, rfl, rfl, rfl, PzPair.zero, ?_⟩
  · intro dbg N ops l h he
    rw [← (C20_contents dbg N ops l h).1] at he ⊢
    unfold Layout.size; omega
  · simp [Layout.at', Layout.size, Layout.new]

end Edsp.Props
