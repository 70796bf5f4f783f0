import Verif.Model.AnyBox

/-!
# Lemmas: the objects of class `any` own their holders
-/

namespace Edsp.Box

open Edsp.Spec

variable {β : Type}

namespace World

/-- What a pointer stands for. -/
def val (h : List (Option β)) (c : Option Nat) : Option β := c.bind fun p => (h[p]?).join

/-- The boxes that the objects represent. -/
def abs (w : World β) : Boxes β := ⟨w.obj.map (Option.map (val w.heap)), w.var⟩

/-- Every object that is not empty owns a holder, no two the same, and every holder is owned. -/
structure Owned (w : World β) : Prop where
  own : ∀ (i p : Nat), w.obj[i]? = some (some (some p)) → ∃ x, w.heap[p]? = some (some x)
  inj : ∀ (i j p : Nat), w.obj[i]? = some (some (some p)) → w.obj[j]? = some (some (some p)) → i = j
  full : ∀ (p : Nat) (x : β), w.heap[p]? = some (some x) → ∃ i : Nat, w.obj[i]? = some (some (some p))

theorem ptr_ok {w : World β} {i : Nat} {p : Option Nat} (h : w.obj[i]? = some (some p)) : w.ptr i = .ok p := by
  unfold ptr; rw [h]

theorem held_ok {w : World β} {p : Nat} {x : β} (h : w.heap[p]? = some (some x)) : w.held p = .ok x := by
  unfold held; rw [h]

theorem content_abs {w : World β} {i : Nat} {c : Option β} (h : w.abs.content i = some c) :
    ∃ p, w.obj[i]? = some (some p) ∧ val w.heap p = c := by
  unfold Boxes.content abs at h
  simp only [List.getElem?_map] at h
  cases e : w.obj[i]? with
  | none => rw [e] at h; cases h
  | some a =>
    cases a with
    | none => rw [e] at h; cases h
    | some p => rw [e] at h; exact ⟨p, rfl, by injection h⟩

theorem val_none (h : List (Option β)) : val h none = none := rfl

theorem val_some {h : List (Option β)} {p : Nat} {x : β} (e : h[p]? = some (some x)) : val h (some p) = some x := by
  unfold val; simp [e]

theorem val_append {h : List (Option β)} {y : Option β} {p : Nat} {x : β} (e : h[p]? = some (some x)) :
    val (h ++ [y]) (some p) = val h (some p) := by
  unfold val
  have := (List.getElem?_eq_some_iff.mp e).1
  simp [List.getElem?_append_left this]

/-- Two lists of pointers that name the same values. -/
theorem map_val_congr {o : List (Option (Option Nat))} {h h' : List (Option β)}
    (e : ∀ (i p : Nat), o[i]? = some (some (some p)) → val h' (some p) = val h (some p)) :
    o.map (Option.map (val h')) = o.map (Option.map (val h)) := by
  apply List.ext_getElem?
  intro i
  rw [List.getElem?_map, List.getElem?_map]
  cases a : o[i]? with
  | none => rfl
  | some b =>
    cases b with
    | none => rfl
    | some c =>
      cases c with
      | none => rfl
      | some p => simp only [Option.map_some]; rw [e i p a]

theorem owned_mkEmpty {w : World β} (h : w.Owned) : w.mkEmpty.Owned := by
  have key : ∀ (i p : Nat), (w.obj ++ [some none])[i]? = some (some (some p)) ↔ w.obj[i]? = some (some (some p)) := by
    intro i p
    rw [List.getElem?_append]
    split
    · rfl
    · rename_i hi
      rw [List.getElem?_eq_none (by omega : w.obj.length ≤ i)]
      constructor
      · intro q
        rcases Nat.eq_zero_or_pos (i - w.obj.length) with e | e
        · rw [e] at q; cases q
        · rw [List.getElem?_eq_none (by simp; omega)] at q; cases q
      · intro q; cases q
  constructor
  · intro i p q; exact h.own i p ((key i p).mp q)
  · intro i j p q r; exact h.inj i j p ((key i p).mp q) ((key j p).mp r)
  · intro p x q; obtain ⟨i, hi⟩ := h.full p x q; exact ⟨i, (key i p).mpr hi⟩

theorem abs_mkEmpty (w : World β) : w.mkEmpty.abs = { w.abs with box := w.abs.box ++ [some none] } := by
  unfold mkEmpty abs; simp [val_none]

theorem owned_mkHolder {w : World β} (h : w.Owned) (x : β) : (w.mkHolder x).Owned := by
  have key : ∀ (i p : Nat), (w.obj ++ [some (some w.heap.length)])[i]? = some (some (some p)) ↔
      (w.obj[i]? = some (some (some p)) ∨ (i = w.obj.length ∧ p = w.heap.length)) := by
    intro i p
    rw [List.getElem?_append]
    split
    · rename_i hi
      constructor
      · exact Or.inl
      · rintro (q | ⟨q, _⟩)
        · exact q
        · omega
    · rename_i hi
      rw [List.getElem?_eq_none (by omega : w.obj.length ≤ i)]
      constructor
      · intro q
        rcases Nat.eq_zero_or_pos (i - w.obj.length) with e | e
        · rw [e] at q
          simp at q
          exact Or.inr ⟨by omega, q.symm⟩
        · rw [List.getElem?_eq_none (by simp; omega)] at q; cases q
      · rintro (q | ⟨q, r⟩)
        · cases q
        · subst q; subst r; simp
  have lt : ∀ (i p : Nat), w.obj[i]? = some (some (some p)) → p < w.heap.length := by
    intro i p q
    obtain ⟨y, hy⟩ := h.own i p q
    exact (List.getElem?_eq_some_iff.mp hy).1
  constructor
  · intro i p q
    rcases (key i p).mp q with r | ⟨_, r⟩
    · obtain ⟨y, hy⟩ := h.own i p r
      exact ⟨y, by simp only [mkHolder]; rw [List.getElem?_append_left (lt i p r)]; exact hy⟩
    · exact ⟨x, by simp only [mkHolder]; subst r; simp⟩
  · intro i j p q r
    rcases (key i p).mp q with a | ⟨a, b⟩ <;> rcases (key j p).mp r with c | ⟨c, d⟩
    · exact h.inj i j p a c
    · have := lt i p a; omega
    · have := lt j p c; omega
    · omega
  · intro p y q
    simp only [mkHolder] at q ⊢
    rw [List.getElem?_append] at q
    split at q
    · obtain ⟨i, hi⟩ := h.full p y q
      exact ⟨i, (key i p).mpr (Or.inl hi)⟩
    · rename_i hp
      rcases Nat.eq_zero_or_pos (p - w.heap.length) with e | e
      · exact ⟨w.obj.length, (key _ p).mpr (Or.inr ⟨rfl, by omega⟩)⟩
      · rw [List.getElem?_eq_none (by simp; omega)] at q; cases q

theorem abs_mkHolder {w : World β} (h : w.Owned) (x : β) :
    (w.mkHolder x).abs = { w.abs with box := w.abs.box ++ [some (some x)] } := by
  unfold mkHolder abs
  simp only [List.map_append, List.map_cons, List.map_nil, Option.map_some]
  rw [map_val_congr (h := w.heap) (h' := w.heap ++ [some x])]
  · rw [val_some (x := x) (by simp)]
  · intro i p q
    obtain ⟨y, hy⟩ := h.own i p q
    exact val_append hy

/-- Only the owners of holders matter. -/
theorem owned_perm {w w' : World β} (h : w.Owned) (hh : w'.heap = w.heap) (f : Nat → Nat)
    (hf : ∀ (i p : Nat), w'.obj[i]? = some (some (some p)) → w.obj[f i]? = some (some (some p)))
    (hi : ∀ (i j p q : Nat), w'.obj[i]? = some (some (some p)) → w'.obj[j]? = some (some (some q)) → f i = f j → i = j)
    (hs : ∀ (i p : Nat), w.obj[i]? = some (some (some p)) → ∃ j : Nat, w'.obj[j]? = some (some (some p))) : w'.Owned := by
  constructor
  · intro i p q; rw [hh]; exact h.own _ p (hf i p q)
  · intro i j p q r
    exact hi i j p p q r (h.inj _ _ p (hf i p q) (hf j p r))
  · intro p x q
    rw [hh] at q
    obtain ⟨i, e⟩ := h.full p x q
    exact hs i p e

theorem owned_mkMove {w w' : World β} (h : w.Owned) {i : Nat} {p : Option Nat} (hp : w.obj[i]? = some (some p))
    (e : w' = { w with obj := w.obj.set i (some none) ++ [some p] }) : w'.Owned := by
  have hl := (List.getElem?_eq_some_iff.mp hp).1
  have get : ∀ k : Nat, w'.obj[k]? = if k < w.obj.length then (if i = k then some (some none) else w.obj[k]?)
      else if k = w.obj.length then some (some p) else none := by
    intro k
    subst e
    simp only
    rw [List.getElem?_append, List.length_set, List.getElem?_set]
    split
    · split
      · rename_i a b
        first | rfl | rw [if_pos (by omega)]
      · rfl
    · split
      · rename_i a b; subst b; simp
      · rename_i a b; rw [List.getElem?_eq_none]; simp; omega
  refine owned_perm h (by subst e; rfl) (fun k => if k = w.obj.length then i else k) ?_ ?_ ?_
  · intro k q hk
    rw [get] at hk
    split at hk
    · rename_i a
      rw [if_neg (by omega)]
      split at hk
      · cases hk
      · exact hk
    · split at hk
      · rename_i a b
        rw [if_pos b, hp]; exact hk
      · cases hk
  · intro k l q r hk hl' hkl
    rw [get] at hk hl'
    split at hk <;> split at hl'
    · rw [if_neg (by omega), if_neg (by omega)] at hkl; exact hkl
    · split at hl'
      · rename_i a b c
        rw [if_neg (by omega), if_pos c] at hkl
        subst hkl
        rw [if_pos rfl] at hk; cases hk
      · cases hl'
    · split at hk
      · rename_i a b c
        rw [if_pos c, if_neg (by omega)] at hkl
        subst hkl
        rw [if_pos rfl] at hl'; cases hl'
      · cases hk
    · split at hk
      · split at hl'
        · omega
        · cases hl'
      · cases hk
  · intro k q hk
    have := (List.getElem?_eq_some_iff.mp hk).1
    by_cases a : i = k
    · subst a
      refine ⟨w.obj.length, ?_⟩
      rw [get, if_neg (by omega), if_pos rfl, ← hk, hp]
    · exact ⟨k, by rw [get, if_pos this, if_neg a]; exact hk⟩

theorem owned_swap {w w' : World β} (h : w.Owned) {i j : Nat} {p q : Option Nat} (hp : w.obj[i]? = some (some p))
    (hq : w.obj[j]? = some (some q)) (e : w' = { w with obj := (w.obj.set i (some q)).set j (some p) }) :
    w'.Owned := by
  have hi := (List.getElem?_eq_some_iff.mp hp).1
  have hj := (List.getElem?_eq_some_iff.mp hq).1
  have get : ∀ k : Nat, w'.obj[k]? = if j = k then some (some p) else if i = k then some (some q) else w.obj[k]? := by
    intro k
    subst e
    simp only
    rw [List.getElem?_set, List.length_set, List.getElem?_set]
    split
    · first | rfl | rw [if_pos (by omega)]
    · split
      · first | rfl | rw [if_pos (by omega)]
      · rfl
  have get' : ∀ k : Nat, w'.obj[k]? = w.obj[if j = k then i else if i = k then j else k]? := by
    intro k
    rw [get]
    split
    · rw [hp]
    · split
      · rw [hq]
      · rfl
  refine owned_perm h (by subst e; rfl) (fun k => if j = k then i else if i = k then j else k) ?_ ?_ ?_
  · intro k r hk; rw [get'] at hk; exact hk
  · intro k l r s _ _ hkl
    split at hkl <;> split at hkl <;> (try split at hkl) <;> (try split at hkl) <;> omega
  · intro k r hk
    refine ⟨if j = k then i else if i = k then j else k, ?_⟩
    rw [get']
    have : (if j = (if j = k then i else if i = k then j else k) then i
        else if i = (if j = k then i else if i = k then j else k) then j
        else (if j = k then i else if i = k then j else k)) = k := by
      split <;> split <;> (try split) <;> (try split) <;> omega
    rw [this]; exact hk

theorem reset_spec {w : World β} (h : w.Owned) {i : Nat} {p : Option Nat} (hp : w.obj[i]? = some (some p)) :
    ∃ w', w.reset i = .ok w' ∧ w'.Owned ∧ w'.abs = { w.abs with box := w.abs.box.set i (some none) } ∧
      w'.obj = w.obj.set i (some none) := by
  have hl := (List.getElem?_eq_some_iff.mp hp).1
  have get : ∀ k : Nat, (w.obj.set i (some none))[k]? = if i = k then some (some none) else w.obj[k]? := by
    intro k
    rw [List.getElem?_set]
    split
    · first | rfl | rw [if_pos (by omega)]
    · rfl
  cases p with
  | none =>
    refine ⟨{ w with obj := w.obj.set i (some none) }, by unfold reset; rw [ptr_ok hp]; rfl, ?_, ?_, rfl⟩
    · refine owned_perm h rfl id ?_ (fun _ _ _ _ _ _ e => e) ?_
      · intro k q hk
        simp only [get] at hk
        split at hk
        · cases hk
        · exact hk
      · intro k q hk
        refine ⟨k, ?_⟩
        simp only [get]
        split
        · rename_i e; subst e; rw [hp] at hk; cases hk
        · exact hk
    · unfold abs; simp [List.map_set, val_none]
  | some p =>
    obtain ⟨x, hx⟩ := h.own i p hp
    have hlp := (List.getElem?_eq_some_iff.mp hx).1
    have heap : ∀ k, (w.heap.set p none)[k]? = if p = k then some none else w.heap[k]? := by
      intro k
      rw [List.getElem?_set]
      split
      · first | rfl | rw [if_pos (by omega)]
      · rfl
    have ne : ∀ (k q : Nat), (w.obj.set i (some none))[k]? = some (some (some q)) → i ≠ k ∧ p ≠ q ∧
        w.obj[k]? = some (some (some q)) := by
      intro k q hk
      rw [get] at hk
      split at hk
      · cases hk
      · rename_i e
        refine ⟨e, ?_, hk⟩
        rintro rfl
        exact e (h.inj i k p hp hk)
    refine ⟨{ w with heap := w.heap.set p none, obj := w.obj.set i (some none) }, ?_, ?_, ?_, rfl⟩
    · unfold reset; rw [ptr_ok hp]; simp only [bind, Except.bind]; rw [held_ok hx]; rfl
    · constructor
      · intro k q hk
        obtain ⟨_, b, c⟩ := ne k q hk
        obtain ⟨y, hy⟩ := h.own k q c
        exact ⟨y, by rw [heap, if_neg b]; exact hy⟩
      · intro k l q hk hl'
        exact h.inj k l q (ne k q hk).2.2 (ne l q hl').2.2
      · intro q y hq
        rw [heap] at hq
        split at hq
        · cases hq
        · rename_i e
          obtain ⟨k, hk⟩ := h.full q y hq
          refine ⟨k, ?_⟩
          rw [get, if_neg]
          · exact hk
          · rintro rfl
            rw [hp] at hk; injection hk with hk; injection hk with hk; injection hk with hk; exact e hk
    · have := map_val_congr (o := w.obj.set i (some none)) (h := w.heap) (h' := w.heap.set p none) (by
        intro k q hk
        obtain ⟨_, b, c⟩ := ne k q hk
        unfold val
        simp only [Option.bind_some]
        rw [heap, if_neg b])
      unfold abs
      simp only
      rw [this]
      simp [List.map_set, val_none]

theorem destroy_spec {w : World β} (h : w.Owned) {i : Nat} {p : Option Nat} (hp : w.obj[i]? = some (some p)) :
    ∃ w', w.destroy i = .ok w' ∧ w'.Owned ∧ w'.abs = { w.abs with box := w.abs.box.set i none } ∧
      w'.obj = w.obj.set i none := by
  obtain ⟨w1, e1, o1, a1, b1⟩ := reset_spec h hp
  have hl := (List.getElem?_eq_some_iff.mp hp).1
  have get : ∀ k : Nat, (w1.obj.set i none)[k]? = if i = k then some none else w.obj[k]? := by
    intro k
    rw [b1, List.set_set, List.getElem?_set]
    split
    · first | rfl | rw [if_pos (by omega)]
    · rfl
  have get1 : ∀ k : Nat, w1.obj[k]? = if i = k then some (some none) else w.obj[k]? := by
    intro k
    rw [b1, List.getElem?_set]
    split
    · first | rfl | rw [if_pos (by omega)]
    · rfl
  refine ⟨{ w1 with obj := w1.obj.set i none }, by unfold destroy; rw [e1]; rfl, ?_, ?_, by rw [b1, List.set_set]⟩
  · refine owned_perm o1 rfl id ?_ (fun _ _ _ _ _ _ e => e) ?_
    · intro k q hk
      simp only [get] at hk
      simp only [id, get1]
      split at hk
      · cases hk
      · rename_i a; rw [if_neg a]; exact hk
    · intro k q hk
      refine ⟨k, ?_⟩
      simp only [get1] at hk
      simp only [get]
      split at hk
      · cases hk
      · rename_i a; rw [if_neg a]; exact hk
  · have a2 : w1.abs.box = w.abs.box.set i (some none) := by rw [a1]
    have a3 : w1.var = w.var := by
      have := congrArg Boxes.var a1; exact this
    unfold abs at a2 ⊢
    simp only [List.map_set, Option.map_none] at a2 ⊢
    rw [a2, a3, List.set_set]

theorem swap_spec {w : World β} (h : w.Owned) {i j : Nat} {p q : Option Nat} (hp : w.obj[i]? = some (some p))
    (hq : w.obj[j]? = some (some q)) :
    ∃ w', w.swap i j = .ok w' ∧ w'.Owned ∧
      w'.abs = { w.abs with box := (w.abs.box.set i (some (val w.heap q))).set j (some (val w.heap p)) } ∧
      w'.obj = (w.obj.set i (some q)).set j (some p) := by
  refine ⟨_, by unfold swap; rw [ptr_ok hp, ptr_ok hq]; rfl, owned_swap h hp hq rfl, ?_, rfl⟩
  unfold abs; simp [List.map_set]

theorem pop_spec {w : World β} (h : w.Owned) {o : List (Option (Option Nat))} (ho : w.obj = o ++ [none]) :
    ({ w with obj := w.obj.dropLast } : World β).Owned ∧
      ({ w with obj := w.obj.dropLast } : World β).abs = { w.abs with box := w.abs.box.dropLast } := by
  constructor
  · have e : w.obj.dropLast = o := by rw [ho]; simp
    refine owned_perm h rfl id ?_ (fun _ _ _ _ _ _ e => e) ?_
    · intro k q hk
      simp only [e] at hk
      rw [ho]
      exact (List.getElem?_append_left (List.getElem?_eq_some_iff.mp hk).1).trans hk
    · intro k q hk
      refine ⟨k, ?_⟩
      simp only [e]
      rw [ho, List.getElem?_append] at hk
      split at hk
      · exact hk
      · rename_i a
        rcases Nat.eq_zero_or_pos (k - o.length) with r | r
        · rw [r] at hk; cases hk
        · rw [List.getElem?_eq_none (by simp; omega)] at hk; cases hk
  · unfold abs; rw [List.map_dropLast]

theorem list_temporary {γ : Type} (B : List (Option γ)) (i : Nat) (hi : i < B.length) (b c : γ) :
    ((((B ++ [some b]).set B.length (some c)).set i (some b)).set B.length none).dropLast = B.set i (some b) := by
  simp [hi]

/-- A temporary object is swapped in: its value replaces that of object `i`. -/
theorem temporary_spec {w : World β} (h : w.Owned) {i : Nat} {p t : Option Nat} {o : List (Option (Option Nat))}
    (ho : w.obj = o ++ [some t]) (hp : o[i]? = some (some p)) :
    ∃ w', w.swapTemporary i = .ok w' ∧ w'.Owned ∧
      w'.abs = { w.abs with box := w.abs.box.dropLast.set i (some (val w.heap t)) } := by
  have hi := (List.getElem?_eq_some_iff.mp hp).1
  have hlen : w.obj.length - 1 = o.length := by rw [ho]; simp
  have ht : w.obj[o.length]? = some (some t) := by rw [ho]; simp
  have hp' : w.obj[i]? = some (some p) := by rw [ho, List.getElem?_append_left hi]; exact hp
  obtain ⟨w1, e1, o1, a1, b1⟩ := swap_spec h ht hp'
  have ht1 : w1.obj[o.length]? = some (some p) := by
    rw [b1, List.getElem?_set_ne (by omega), ho]; simp
  obtain ⟨w2, e2, o2, a2, b2⟩ := destroy_spec o1 ht1
  have b3 : w2.obj = o.set i (some t) ++ [none] := by
    rw [b2, b1, ho]; simp [hi]
  obtain ⟨o3, a3⟩ := pop_spec o2 b3
  refine ⟨{ w2 with obj := w2.obj.dropLast }, ?_, o3, ?_⟩
  · unfold swapTemporary
    simp only [hlen, bind, Except.bind, e1, e2]
    rfl
  · rw [a3, a2, a1]
    have hb : w.abs.box = (o.map (Option.map (val w.heap))) ++ [some (val w.heap t)] := by
      unfold abs; rw [ho]; simp
    have hB : (o.map (Option.map (val w.heap))).length = o.length := List.length_map _
    have := list_temporary (o.map (Option.map (val w.heap))) i (by omega) (val w.heap t) (val w.heap p)
    rw [hB] at this
    simp only [hb]
    rw [this]; simp

end World

end Edsp.Box
