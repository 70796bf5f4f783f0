import Verif.Model.RingSpan
import Verif.Model.RingBuffer
import Mathlib.Data.Int.ModEq

/-! Helper lemmas: the ring span represents a list. -/

namespace Edsp.RingSpan

variable {α : Type}

/-- `Rep r data l`: the span `r` over the storage `data` is well formed and its
elements, front first, are `l`. -/
structure Rep (r : RingSpan) (data : List α) (l : List α) : Prop where
  len  : data.length = r.cap
  small : r.cap < 2 ^ 63
  zero : r.cap = 0 → r.front = 0
  lt   : 0 < r.cap → r.front < r.cap
  le   : r.size ≤ r.cap
  size : l.length = r.size
  get  : ∀ i, i < r.size → data[(r.front + i) % r.cap]? = l[i]?

theorem wadd_eq {a b : Nat} (h : a + b < 2 ^ 64) : wadd a b = a + b := by
  unfold wadd sizeMod; exact Nat.mod_eq_of_lt h

theorem wsub_eq {a b : Nat} (ha : a < 2 ^ 64) (h : b ≤ a) : wsub a b = a - b := by
  unfold wsub sizeMod
  rw [Nat.mod_eq_of_lt (by omega : b < 2 ^ 64)]
  omega

theorem mod_inj {f i j c : Nat} (hi : i < c) (hj : j < c) (h : (f + i) % c = (f + j) % c) :
    i = j := by
  have h1 : (f + i) ≡ (f + j) [MOD c] := h
  have := Nat.ModEq.add_left_cancel' f h1
  unfold Nat.ModEq at this
  rwa [Nat.mod_eq_of_lt hi, Nat.mod_eq_of_lt hj] at this

theorem normalize_ok {r : RingSpan} (h : 0 < r.cap) (i : Nat) :
    r.normalize i = .ok (i % r.cap) := by
  unfold normalize; rw [if_neg (by omega)]

theorem store_ok {data : List α} {i : Nat} (h : i < data.length) (v : α) :
    store data i v = .ok (data.set i v) := by
  unfold store; rw [if_pos h]

theorem load_ok {data : List α} {i : Nat} {v : α} (h : data[i]? = some v) :
    load data i = .ok v := by
  unfold load; rw [h]

theorem backIdx_ok {r : RingSpan} (hc : 0 < r.cap) (hs : r.cap < 2 ^ 63) (hf : r.front < r.cap)
    (hz : 0 < r.size) (hle : r.size ≤ r.cap) :
    r.backIdx = .ok ((r.front + (r.size - 1)) % r.cap) := by
  unfold backIdx
  rw [wadd_eq (by omega), wsub_eq (by omega) (by omega), normalize_ok hc]
  congr 2; omega

theorem get_set {data : List α} {i j : Nat} (h : i < data.length) (v : α) :
    (data.set i v)[j]? = if i = j then some v else data[j]? := by
  rw [List.getElem?_set]
  by_cases hij : i = j
  · subst hij; simp [h]
  · simp [hij]

theorem mod_mod_add {f c k i : Nat} : ((f + k) % c + i) % c = (f + (k + i)) % c := by
  rw [Nat.mod_add_mod]; congr 1; omega

theorem pushBack_rep {r : RingSpan} {data l : List α} (h : Rep r data l) (hc : 0 < r.cap) (v : α) :
    ∃ r' d', pushBack r data v = .ok (r', d') ∧ r'.cap = r.cap ∧
      Rep r' d' (if l.length = r.cap then l.tail ++ [v] else l ++ [v]) := by
  obtain ⟨hlen, hsmall, hzero, hlt, hle, hsize, hget⟩ := h
  have hf := hlt hc
  by_cases hfull : r.size = r.cap
  · -- full: evict the front
    refine ⟨{ r with front := (r.front + 1) % r.cap },
      data.set (((r.front + 1) % r.cap + (r.cap - 1)) % r.cap) v, ?_, rfl, ?_⟩
    · have hb := backIdx_ok (r := { r with front := (r.front + 1) % r.cap }) hc hsmall
        (Nat.mod_lt _ hc) (by simpa using (by omega : 0 < r.size)) hle
      simp only [pushBack, full, hfull, beq_self_eq_true, if_true, incrementFrontAndBack,
        normalize_ok hc, wadd_eq (show r.front + 1 < 2 ^ 64 by omega)]
      simp only [hfull] at hb
      simp only [bind, Except.bind, pure, Except.pure, hb]
      rw [store_ok (by rw [hlen]; exact Nat.mod_lt _ hc)]
    · rw [if_pos (by omega)]
      refine ⟨by simpa using hlen, hsmall, by intro h0; exact absurd h0 (Nat.pos_iff_ne_zero.mp hc), fun _ => Nat.mod_lt _ hc,
        hle, by simp; omega, ?_⟩
      intro i hi
      replace hi : i < r.size := hi
      show (data.set _ v)[((r.front + 1) % r.cap + i) % r.cap]? = _
      rw [get_set (by rw [hlen]; exact Nat.mod_lt _ hc)]
      by_cases hlast : i = r.cap - 1
      · subst hlast
        rw [if_pos rfl, List.getElem?_append_right (by simp; omega)]
        simp [show r.cap - 1 - (l.length - 1) = 0 by omega]
      · rw [if_neg, mod_mod_add, show (1 + i) = i + 1 by omega, hget (i + 1) (by omega),
          List.getElem?_append_left (by simp; omega)]
        · simp
        · intro e
          exact hlast (mod_inj (by omega) (by omega) e).symm
  · refine ⟨{ r with size := r.size + 1 }, data.set ((r.front + r.size) % r.cap) v, ?_, rfl, ?_⟩
    · have hb := backIdx_ok (r := { r with size := r.size + 1 }) hc hsmall hf
        (by simp) (by simp; omega)
      simp only [pushBack, full, incrementBack,
        wadd_eq (show r.size + 1 < 2 ^ 64 by omega), beq_eq_false_iff_ne.mpr hfull]
      simp only [bind, Except.bind, pure, Except.pure] at *
      simp only [Bool.false_eq_true, if_false]
      rw [hb]
      simp only [Nat.add_sub_cancel]
      rw [store_ok (by rw [hlen]; exact Nat.mod_lt _ hc)]
    · rw [if_neg (by omega)]
      refine ⟨by simpa using hlen, hsmall, hzero, hlt, by simp; omega, by simp; omega, ?_⟩
      intro i hi
      replace hi : i < r.size + 1 := hi
      show (data.set _ v)[(r.front + i) % r.cap]? = _
      rw [get_set (by rw [hlen]; exact Nat.mod_lt _ hc)]
      by_cases hlast : i = r.size
      · subst hlast
        rw [if_pos rfl, List.getElem?_append_right (by omega)]
        simp [hsize]
      · rw [if_neg, hget i (by omega), List.getElem?_append_left (by omega)]
        intro e
        exact hlast (mod_inj (by omega) (by omega) e).symm

theorem pushFront_rep {r : RingSpan} {data l : List α} (h : Rep r data l) (hc : 0 < r.cap) (v : α) :
    ∃ r' d', pushFront r data v = .ok (r', d') ∧ r'.cap = r.cap ∧
      Rep r' d' (if l.length = r.cap then v :: l.dropLast else v :: l) := by
  obtain ⟨hlen, hsmall, hzero, hlt, hle, hsize, hget⟩ := h
  have hf := hlt hc
  have hw : wsub (wadd r.front r.cap) 1 = r.front + (r.cap - 1) := by
    rw [wadd_eq (by omega), wsub_eq (by omega) (by omega)]; omega
  have key : ∀ i, ((r.front + (r.cap - 1)) % r.cap + (i + 1)) % r.cap = (r.front + i) % r.cap := by
    intro i
    rw [mod_mod_add, show r.front + (r.cap - 1 + (i + 1)) = (r.front + i) + r.cap by omega,
      Nat.add_mod_right]
  have hidx : (r.front + (r.cap - 1)) % r.cap < r.cap := Nat.mod_lt _ hc
  have main : ∀ s, s ≤ r.cap → ∀ l' : List α, (v :: l').length = s →
      (∀ i, i < l'.length → data[(r.front + i) % r.cap]? = l'[i]?) →
      Rep { r with front := (r.front + (r.cap - 1)) % r.cap, size := s }
        (data.set ((r.front + (r.cap - 1)) % r.cap) v) (v :: l') := by
    intro s hs l' hl' hg
    refine ⟨by simpa using hlen, hsmall, by intro h0; exact absurd h0 (Nat.pos_iff_ne_zero.mp hc),
      fun _ => hidx, hs, hl', ?_⟩
    intro i hi
    replace hi : i < s := hi
    show (data.set _ v)[((r.front + (r.cap - 1)) % r.cap + i) % r.cap]? = _
    rw [get_set (by rw [hlen]; exact hidx)]
    cases i with
    | zero => simp
    | succ i =>
      simp only [List.length_cons] at hl'
      rw [if_neg, key, hg i (by omega)]
      · simp
      · intro e
        have e' : (((r.front + (r.cap - 1)) % r.cap) + 0) % r.cap
            = (((r.front + (r.cap - 1)) % r.cap) + (i + 1)) % r.cap := by
          rw [← e]; simp
        have := mod_inj (by omega) (by omega) e'
        omega
  by_cases hfull : r.size = r.cap
  · refine ⟨{ r with front := (r.front + (r.cap - 1)) % r.cap },
      data.set ((r.front + (r.cap - 1)) % r.cap) v, ?_, rfl, ?_⟩
    · simp only [pushFront, full, hfull, beq_self_eq_true, if_true, decrementFrontAndBack, hw,
        normalize_ok hc]
      simp only [bind, Except.bind, pure, Except.pure]
      rw [store_ok (by rw [hlen]; exact hidx)]
    · rw [if_pos (by omega)]
      have := main r.size hle l.dropLast (by simp; omega) (by
        intro i hi
        simp only [List.length_dropLast] at hi
        rw [hget i (by omega), List.getElem?_dropLast, if_pos (by omega)])
      exact this
  · refine ⟨{ r with front := (r.front + (r.cap - 1)) % r.cap, size := r.size + 1 },
      data.set ((r.front + (r.cap - 1)) % r.cap) v, ?_, rfl, ?_⟩
    · simp only [pushFront, full, beq_eq_false_iff_ne.mpr hfull, Bool.false_eq_true, if_false,
        decrementFront, hw, normalize_ok hc, wadd_eq (show r.size + 1 < 2 ^ 64 by omega)]
      simp only [bind, Except.bind, pure, Except.pure]
      rw [store_ok (by rw [hlen]; exact hidx)]
    · rw [if_neg (by omega)]
      exact main (r.size + 1) (by omega) l (by simp; omega) (by
        intro i hi; exact hget i (by omega))

theorem popFront_rep (moved : α → α) {r : RingSpan} {data l : List α} {x : α}
    (h : Rep r data (x :: l)) :
    ∃ r' d', popFront moved r data = .ok (r', d', x) ∧ r'.cap = r.cap ∧ Rep r' d' l := by
  obtain ⟨hlen, hsmall, hzero, hlt, hle, hsize, hget⟩ := h
  simp only [List.length_cons] at hsize
  have hc : 0 < r.cap := by omega
  have hf := hlt hc
  have h0 : data[r.front]? = some x := by
    have := hget 0 (by omega)
    rwa [Nat.add_zero, Nat.mod_eq_of_lt hf] at this
  refine ⟨{ r with front := (r.front + 1) % r.cap, size := r.size - 1 },
    data.set r.front (moved x), ?_, rfl, ?_⟩
  · simp only [popFront, empty, beq_eq_false_iff_ne.mpr (show r.size ≠ 0 by omega),
      Bool.false_eq_true, if_false, load_ok h0, incrementFront, normalize_ok hc,
      wadd_eq (show r.front + 1 < 2 ^ 64 by omega), wsub_eq (show r.size < 2 ^ 64 by omega)
        (show 1 ≤ r.size by omega)]
    simp only [bind, Except.bind, pure, Except.pure]
    rw [store_ok (by rw [hlen]; exact hf)]
  · refine ⟨by simpa using hlen, hsmall, by intro h0; exact absurd h0 (Nat.pos_iff_ne_zero.mp hc), fun _ => Nat.mod_lt _ hc,
      by simp; omega, by simp; omega, ?_⟩
    intro i hi
    replace hi : i < r.size - 1 := hi
    show (data.set _ _)[((r.front + 1) % r.cap + i) % r.cap]? = _
    rw [get_set (by rw [hlen]; exact hf), if_neg, mod_mod_add, show 1 + i = i + 1 by omega,
      hget (i + 1) (by omega)]
    · simp
    · intro e
      rw [mod_mod_add] at e
      have e' : (r.front + 0) % r.cap = (r.front + (1 + i)) % r.cap := by
        rw [← e, Nat.add_zero, Nat.mod_eq_of_lt hf]
      have := mod_inj (by omega) (by omega) e'
      omega

theorem popBack_rep (moved : α → α) {r : RingSpan} {data l : List α}
    (h : Rep r data l) (hne : l ≠ []) :
    ∃ r' d', popBack moved r data = .ok (r', d', l.getLast hne) ∧ r'.cap = r.cap ∧
      Rep r' d' l.dropLast := by
  obtain ⟨hlen, hsmall, hzero, hlt, hle, hsize, hget⟩ := h
  have hpos : 0 < l.length := List.length_pos_iff.mpr hne
  have hc : 0 < r.cap := by omega
  have hf := hlt hc
  have hb := backIdx_ok hc hsmall hf (by omega) hle
  have h0 : data[(r.front + (r.size - 1)) % r.cap]? = some (l.getLast hne) := by
    rw [hget _ (by omega), List.getLast_eq_getElem, ← hsize]
    simp
  refine ⟨{ r with size := r.size - 1 },
    data.set ((r.front + (r.size - 1)) % r.cap) (moved (l.getLast hne)), ?_, rfl, ?_⟩
  · simp only [popBack, empty, beq_eq_false_iff_ne.mpr (show r.size ≠ 0 by omega),
      Bool.false_eq_true, if_false, hb, decrementBack, wsub_eq (show r.size < 2 ^ 64 by omega)
        (show 1 ≤ r.size by omega)]
    simp only [bind, Except.bind, pure, Except.pure, load_ok h0]
    rw [store_ok (by rw [hlen]; exact Nat.mod_lt _ hc)]
  · refine ⟨by simpa using hlen, hsmall, hzero, hlt, by simp; omega, by simp; omega, ?_⟩
    intro i hi
    replace hi : i < r.size - 1 := hi
    show (data.set _ _)[(r.front + i) % r.cap]? = _
    rw [get_set (by rw [hlen]; exact Nat.mod_lt _ hc), if_neg, hget i (by omega),
      List.getElem?_dropLast, if_pos (by omega)]
    intro e
    have := mod_inj (by omega) (by omega) e
    omega

theorem deref_rep {r : RingSpan} {data l : List α} (h : Rep r data l) {i : Nat}
    (hi : i < l.length) : r.deref data i = .ok l[i] := by
  obtain ⟨hlen, hsmall, hzero, hlt, hle, hsize, hget⟩ := h
  have hc : 0 < r.cap := by omega
  have hf := hlt hc
  have := hget i (by omega)
  simp only [deref, atIdx, normalize_ok hc, wadd_eq (show r.front + i < 2 ^ 64 by omega)]
  simp only [bind, Except.bind]
  apply load_ok
  rw [this]; simp [hi]

theorem walk_rep {r : RingSpan} {data l : List α} (h : Rep r data l) :
    ∀ n idx, idx + n = l.length → r.walk data idx n = .ok (l.drop idx) := by
  intro n
  induction n with
  | zero => intro idx hi; simp [walk, List.drop_eq_nil_of_le (by omega : l.length ≤ idx)]
  | succ n ih =>
    intro idx hi
    have hb : l.length < 2 ^ 63 := by have := h.size; have := h.le; have := h.small; omega
    simp only [walk, deref_rep h (show idx < l.length by omega),
      wadd_eq (show idx + 1 < 2 ^ 64 by omega), ih (idx + 1) (by omega)]
    simp only [bind, Except.bind, pure, Except.pure]
    rw [List.drop_eq_getElem_cons (by omega : idx < l.length)]

theorem forward_rep {r : RingSpan} {data l : List α} (h : Rep r data l) :
    r.forward data = .ok l := by
  have := walk_rep h r.size 0 (by rw [h.size]; omega)
  simpa [forward] using this

theorem rwalk_rep {r : RingSpan} {data l : List α} (h : Rep r data l) :
    ∀ n, n ≤ l.length → r.rwalk data n = .ok ((l.take n).reverse) := by
  intro n
  induction n with
  | zero => intro _; simp [rwalk]
  | succ n ih =>
    intro hn
    have hb : l.length < 2 ^ 63 := by have := h.size; have := h.le; have := h.small; omega
    simp only [rwalk, wsub_eq (show n + 1 < 2 ^ 64 by omega) (show 1 ≤ n + 1 by omega),
      Nat.add_sub_cancel, deref_rep h (show n < l.length by omega), ih (by omega)]
    simp only [bind, Except.bind, pure, Except.pure]
    rw [List.take_succ_eq_append_getElem (show n < l.length by omega), List.reverse_append]
    rfl

theorem backward_rep {r : RingSpan} {data l : List α} (h : Rep r data l) :
    r.backward data = .ok l.reverse := by
  have := rwalk_rep h r.size (by rw [h.size])
  rw [backward, this, ← h.size]; simp

theorem frontVal_rep {r : RingSpan} {data l : List α} (h : Rep r data l) (hne : l ≠ []) :
    r.frontVal data = .ok (l.head hne) := by
  have hp : 0 < l.length := List.length_pos_iff.mpr hne
  rw [frontVal, deref_rep h hp, List.head_eq_getElem]

theorem backVal_rep {r : RingSpan} {data l : List α} (h : Rep r data l) (hne : l ≠ []) :
    r.backVal data = .ok (l.getLast hne) := by
  have hp : 0 < l.length := List.length_pos_iff.mpr hne
  have hs := h.size
  have := h.le
  have := h.small
  rw [backVal, wsub_eq (by omega) (by omega), deref_rep h (by omega), List.getLast_eq_getElem]
  congr 2; omega

theorem rep_fresh (data : List α) (hs : data.length < 2 ^ 63) :
    Rep (mk2 data.length) data [] := by
  refine ⟨rfl, hs, fun _ => rfl, fun h => h, Nat.zero_le _, rfl, ?_⟩
  intro i hi; exact absurd hi (Nat.not_lt_zero _)

theorem fillFrom_ok {r : RingSpan} {v : α} (hc : 0 < r.cap) (hs : r.cap < 2 ^ 63)
    (hf : r.front = 0) :
    ∀ n idx (data : List α), data.length = r.cap → idx + n = r.cap →
      (∀ j, j < idx → data[j]? = some v) →
      r.fillFrom v data idx n = .ok (List.replicate r.cap v) := by
  intro n
  induction n with
  | zero =>
    intro idx data hl hi hall
    simp only [fillFrom]
    congr 1
    apply List.ext_getElem?
    intro j
    by_cases hj : j < r.cap
    · rw [hall j (by omega)]; simp [hj]
    · simp [List.getElem?_eq_none (show data.length ≤ j by omega), hj]
  | succ n ih =>
    intro idx data hl hi hall
    have : r.atIdx idx = .ok idx := by
      rw [atIdx, hf, wadd_eq (by omega), normalize_ok hc, Nat.zero_add,
        Nat.mod_eq_of_lt (by omega)]
    simp only [fillFrom, this]
    simp only [bind, Except.bind]
    rw [store_ok (by omega)]
    simp only []
    rw [wadd_eq (by omega)]
    apply ih
    · simpa using hl
    · omega
    · intro j hj
      rw [get_set (by omega)]
      by_cases e : idx = j
      · simp [e]
      · rw [if_neg e]; exact hall j (by omega)

theorem rep_filled (n : Nat) (v : α) (hs : n < 2 ^ 63) :
    Rep (mk4 n 0 n) (List.replicate n v) (List.replicate n v) := by
  refine ⟨by simp [mk4], hs, fun _ => rfl, fun h => h, Nat.le_refl _, by simp [mk4], ?_⟩
  intro i hi
  replace hi : i < n := hi
  show (List.replicate n v)[(0 + i) % n]? = _
  rw [Nat.zero_add, Nat.mod_eq_of_lt hi]

end Edsp.RingSpan
