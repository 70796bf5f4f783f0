import Verif.Props.C103_Variant

/-!
# C104: a variant gives back what it holds, to `get`, `visit`, comparisons and hashing
-/

namespace Edsp.Props

open Edsp.Variant Edsp.Spec

variable {β τ ρ : Type}

/-- Alternative `k` can be read: it is the first of its type, and its number is not the size in bytes of the largest
alternative. -/
def Readable (a : Alts β τ) (k : Nat) : Prop := FirstOf a k ∧ ¬ LargestSize a k

theorem getType_ok [DecidableEq τ] {a : Alts β τ} (hs : ∀ t ∈ a.types, 1 ≤ a.size t) {k : Nat} {t : τ}
    (ht : a.types[k]? = some t) (h : Readable a k) (x : β) : a.getType (repV (some (k, x))) t = .ok x := by
  obtain ⟨⟨u, hu, hn⟩, hl⟩ := h
  rw [ht] at hu
  injection hu with hu
  subst hu
  have hne : a.types ≠ [] := by intro e; rw [e] at ht; cases ht
  unfold Alts.getType
  rw [indexOf_first ht hn, if_neg]
  · rfl
  · rintro (q | q)
    · exact q rfl
    · injection q with q; exact hl ((dataSize_iff hs hne).mp q)

theorem indexOf_spec [DecidableEq τ] {a : Alts β τ} {k : Nat} {t : τ} (h : a.indexOf t = some k) :
    a.types[k]? = some t ∧ t ∉ a.types.take k := by
  unfold Alts.indexOf at h
  rw [List.findIdx?_eq_some_iff_getElem] at h
  obtain ⟨hk, h1, h2⟩ := h
  refine ⟨by rw [List.getElem?_eq_getElem hk]; simpa using h1, fun hm => ?_⟩
  obtain ⟨j, hj, e⟩ := List.mem_take_iff_getElem.mp hm
  have := h2 j (by omega)
  simp at this
  exact this e

theorem indexOf_none [DecidableEq τ] {a : Alts β τ} {t : τ} : a.indexOf t = none ↔ t ∉ a.types := by
  unfold Alts.indexOf
  rw [List.findIdx?_eq_none_iff]
  constructor
  · intro h hm; simpa using h t hm
  · intro h x hx; simp; rintro rfl; exact h hx

/-- **C104, reading** (readable alternatives). `get`, `get_if` and `holds_alternative`, by number or by type, give the
value that the variant holds; every other alternative is refused, by an exception or a null pointer; a variant without
a value refuses all its alternatives. -/
theorem C104_get_partial [DecidableEq τ] (a : Alts β τ) (hs : ∀ t ∈ a.types, 1 ≤ a.size t) (c : Option (Nat × β))
    (o : Obj β) (hi : o.index = c.map Prod.fst) (hcell : o.cell = c.map Prod.snd)
    (hr : ∀ k x, c = some (k, x) → Readable a k) (k : Nat) (t : τ) (ht : a.types[k]? = some t) (hf : FirstOf a k) :
    a.holds o t = decide (c.map Prod.fst = some k) ∧
    (∀ x, c = some (k, x) → a.getAt o k = .ok x ∧ a.getType o t = .ok x ∧ a.getIf o t = .ok (some x) ∧
      a.getIfAt o k = .ok (some x)) ∧
    (c.map Prod.fst ≠ some k → a.getAt o k = .error .exception ∧ a.getType o t = .error .exception ∧
      a.getIf o t = .ok none ∧ a.getIfAt o k = .ok none) := by
  have ho : o = repV c := by
    obtain ⟨i, d⟩ := o
    dsimp only at hi hcell
    subst hi; subst hcell; rfl
  subst ho
  have hix : a.indexOf t = some k := by
    obtain ⟨u, hu, hn⟩ := hf
    rw [ht] at hu; injection hu with hu; subst hu
    exact indexOf_first ht hn
  refine ⟨by unfold Alts.holds; rw [hix]; rfl, fun x hx => ?_, fun hne => ?_⟩
  · subst hx
    have h1 := getAt_ok hs hf (hr k x rfl).2 x
    have h2 := getType_ok hs ht (hr k x rfl) x
    refine ⟨h1, h2, ?_, ?_⟩
    · unfold Alts.getIf
      rw [hix, h2]
      simp [repV, bind, Except.bind, pure, Except.pure]
    · unfold Alts.getIfAt
      rw [h1]
      simp [repV, bind, Except.bind, pure, Except.pure]
  · have hne' : (repV c).index ≠ some k := hne
    refine ⟨?_, ?_, ?_, ?_⟩
    · unfold Alts.getAt; rw [if_pos (fun e => hne' e.symm)]
    · unfold Alts.getType; rw [hix, if_pos (Or.inl (fun e => hne' e.symm))]
    · unfold Alts.getIf; rw [hix, if_neg hne']
    · unfold Alts.getIfAt; rw [if_neg hne']

/-- **C104, reading is violated**: if the number of an alternative is the size in bytes of the largest one, then a
variant that holds it says so, but neither `get` nor `get_if` gives the value: all throw. Nor can two such variants be
compared. -/
theorem C104_get_violates [DecidableEq τ] (a : Alts β τ) (hs : ∀ t ∈ a.types, 1 ≤ a.size t) (k : Nat) (t : τ)
    (ht : a.types[k]? = some t) (hf : FirstOf a k) (hl : LargestSize a k) (e l : β → β → Bool) (x y : β) :
    a.holds ⟨some k, some x⟩ t = true ∧ a.getAt ⟨some k, some x⟩ k = .error .exception ∧
    a.getType ⟨some k, some x⟩ t = .error .exception ∧ a.getIf ⟨some k, some x⟩ t = .error .exception ∧
    a.getIfAt ⟨some k, some x⟩ k = .error .exception ∧
    a.eq e ⟨some k, some x⟩ ⟨some k, some y⟩ = .error .exception ∧
    a.lt l ⟨some k, some x⟩ ⟨some k, some y⟩ = .error .exception := by
  have hix : a.indexOf t = some k := by
    obtain ⟨u, hu, hn⟩ := hf
    rw [ht] at hu; injection hu with hu; subst hu
    exact indexOf_first ht hn
  have hne : a.types ≠ [] := by intro e; rw [e] at ht; cases ht
  have hk : k = a.dataSize := (dataSize_iff hs hne).mpr hl
  have g : ∀ z, a.getType ⟨some k, some z⟩ t = .error .exception := by
    intro z; unfold Alts.getType; rw [hix, if_pos (Or.inr (congrArg some hk))]
  have g' : ∀ z, a.getAt ⟨some k, some z⟩ k = .error .exception := by
    intro z; unfold Alts.getAt; rw [if_neg (by simp)]; simp only [ht, g]
  refine ⟨by unfold Alts.holds; rw [hix]; simp, g' x, g x, ?_, ?_, ?_, ?_⟩
  · unfold Alts.getIf; rw [hix, if_pos rfl, g]; rfl
  · unfold Alts.getIfAt; rw [if_pos rfl, g']; rfl
  · unfold Alts.eq; simp [g', bind, Except.bind]
  · unfold Alts.lt; simp [g', bind, Except.bind]

/-- Two one-byte types, as in `variant<char, bool>`: the second alternative can be held but not read. -/
def twoBytes : Alts (Nat × Nat) Nat := ⟨[0, 1], Prod.fst, fun _ => 1, fun _ => true⟩

example : (∀ t ∈ twoBytes.types, 1 ≤ twoBytes.size t) ∧ twoBytes.types[1]? = some 1 ∧ FirstOf twoBytes 1 ∧
    LargestSize twoBytes 1 :=
  ⟨by decide, rfl, ⟨1, rfl, by decide⟩, ⟨⟨0, by decide, rfl⟩, by decide⟩⟩

/-- Both alternatives of a pair of larger types are readable. -/
example : Readable sampleAlts 0 ∧ Readable sampleAlts 1 ∧ Readable sampleAlts 2 := by
  have n : ∀ k, k ≤ 2 → ¬ LargestSize sampleAlts k := by
    rintro k hk ⟨_, h⟩
    have := h 1 (by decide)
    simp [sampleAlts] at this
    omega
  exact ⟨⟨⟨0, rfl, by decide⟩, n 0 (by decide)⟩, ⟨⟨1, rfl, by decide⟩, n 1 (by decide)⟩,
    ⟨⟨2, rfl, by decide⟩, n 2 (by decide)⟩⟩

/-- **C104, a repeated type is violated**: a variant that holds an alternative that is not the first of its type does not
give its value to `get` by number, and denies holding the type. -/
theorem C104_repeated_violates [DecidableEq τ] (a : Alts β τ) (k : Nat) (t : τ) (ht : a.types[k]? = some t)
    (hm : t ∈ a.types.take k) (x : β) :
    a.getAt ⟨some k, some x⟩ k = .error .exception ∧ a.holds ⟨some k, some x⟩ t = false := by
  have hix : a.indexOf t ≠ some k := fun h => (indexOf_spec h).2 hm
  refine ⟨?_, ?_⟩
  · unfold Alts.getAt Alts.getType
    rw [if_neg (by simp)]
    simp only [ht]
    rw [if_pos (Or.inl hix)]
  · unfold Alts.holds; simpa using fun h => hix h.symm

/-- The second of two integers, as in `variant<int, int>`. -/
example : (⟨[0, 0], Prod.fst, fun _ => 4, fun _ => true⟩ : Alts (Nat × Nat) Nat).types[1]? = some 0 ∧ 0 ∈ [0, 0].take 1 :=
  ⟨rfl, by decide⟩

/-- **C104, exchanging is violated**: if the number of an alternative is the size in bytes of the largest one, then
exchanging two variants that hold it throws, in a function declared noexcept, which ends the program. -/
theorem C104_swap_violates [DecidableEq τ] (a : Alts β τ) (hs : ∀ t ∈ a.types, 1 ≤ a.size t) (k : Nat) (t : τ)
    (ht : a.types[k]? = some t) (hf : FirstOf a k) (hl : LargestSize a k) (mv : β → β) (x y : β) :
    World.run a mv ⟨[], []⟩ [.newAt k x false, .newAt k y false, .swap 0 1] = .error .exception ∧
    Variants.run mv [] [.newAt k x false, .newAt k y false, .swap 0 1] =
      some ([some (some (k, y)), some (some (k, x))], [false, false, false]) := by
  have g := (C104_get_violates a hs k t ht hf hl (fun _ _ => true) (fun _ _ => true) x y).2.1
  refine ⟨?_, by simp [Variants.run, Variants.step, Variants.content]⟩
  simp [World.run, World.step, World.push, World.get, Alts.swap, g, bind, Except.bind]

/-- **C104, a foreign type is violated**: a variant without a value claims to hold any type that is not among its
alternatives, and `get` of such a type reads a value that is not there. -/
theorem C104_foreign_violates [DecidableEq τ] (a : Alts β τ) (t : τ) (ht : t ∉ a.types) :
    a.holds (⟨none, none⟩ : Obj β) t = true ∧ a.getType (⟨none, none⟩ : Obj β) t = .error .dangling := by
  have h := indexOf_none.mpr ht
  unfold Alts.holds Alts.getType
  rw [h]
  exact ⟨by simp, by simp [Obj.value]⟩

/-! ## Comparisons -/

/-- The order of contents: no value, then by number, then by value. -/
def contentLt (l : β → β → Bool) : Option (Nat × β) → Option (Nat × β) → Prop
  | _, none => False
  | none, some _ => True
  | some (i, x), some (j, y) => i < j ∨ (i = j ∧ l x y = true)

/-- **C104, comparison** (readable alternatives). Two variants are equal iff neither has a value, or both hold equal
values of the same alternative; the order is by presence, number and value. Hence equality is an equivalence and `<` a
strict weak order if they are for the values. -/
theorem C104_compare_partial [DecidableEq τ] (a : Alts β τ) (hs : ∀ t ∈ a.types, 1 ≤ a.size t) (e l : β → β → Bool)
    (c d : Option (Nat × β)) (o p : Obj β) (hi : o.index = c.map Prod.fst) (ho : o.cell = c.map Prod.snd)
    (hj : p.index = d.map Prod.fst) (hp : p.cell = d.map Prod.snd) (hr : ∀ k x, c = some (k, x) → Readable a k) :
    (∃ b, a.eq e o p = .ok b ∧ (b = true ↔ (c = none ∧ d = none) ∨
      ∃ k x y, c = some (k, x) ∧ d = some (k, y) ∧ e x y = true)) ∧
    (∃ b, a.lt l o p = .ok b ∧ (b = true ↔ contentLt l c d)) := by
  have ho : o = repV c := by
    obtain ⟨i, d⟩ := o; dsimp only at hi ho; subst hi; subst ho; rfl
  have hp : p = repV d := by
    obtain ⟨i, d⟩ := p; dsimp only at hj hp; subst hj; subst hp; rfl
  subst ho; subst hp
  rcases c with _ | ⟨k, x⟩ <;> rcases d with _ | ⟨m, y⟩
  · exact ⟨⟨true, rfl, by simp⟩, ⟨false, rfl, by simp [contentLt]⟩⟩
  · exact ⟨⟨false, rfl, by simp⟩, ⟨true, rfl, by simp [contentLt]⟩⟩
  · exact ⟨⟨false, rfl, by simp⟩, ⟨false, rfl, by simp [contentLt]⟩⟩
  · by_cases h : k = m
    · subst h
      have g := hr k x rfl
      have g1 := getAt_ok hs g.1 g.2 x
      have g2 := getAt_ok hs g.1 g.2 y
      have q : e x y = true ↔ (some (k, x) = none ∧ some (k, y) = none) ∨
          ∃ m u v, some (k, x) = some (m, u) ∧ some (k, y) = some (m, v) ∧ e u v = true :=
        ⟨fun h => .inr ⟨k, x, y, rfl, rfl, h⟩, by
          rintro (⟨h, _⟩ | ⟨_, _, _, h1, h2, h3⟩)
          · cases h
          · cases h1; cases h2; exact h3⟩
      refine ⟨⟨e x y, ?_, q⟩, ⟨l x y, ?_, by simp [contentLt]⟩⟩
      · unfold Alts.eq; simp only [repV, Option.map_some] at g1 g2 ⊢; simp [g1, g2, bind, Except.bind, pure, Except.pure]
      · unfold Alts.lt; simp only [repV, Option.map_some] at g1 g2 ⊢; simp [g1, g2, bind, Except.bind, pure, Except.pure]
    · refine ⟨⟨false, by simp [Alts.eq, repV, h], by simp; omega⟩, ?_⟩
      rcases Nat.lt_or_gt_of_ne h with q | q
      · exact ⟨true, by simp [Alts.lt, repV, q], by simp [contentLt, q]⟩
      · exact ⟨false, by simp [Alts.lt, repV, q, Nat.not_lt.mpr (Nat.le_of_lt q)], by simp [contentLt]; omega⟩

/-- The order of contents is a strict weak order if that of the values is. -/
theorem C104_order (l : β → β → Bool) (hirr : ∀ x, l x x = false)
    (htr : ∀ x y z, l x y = true → l y z = true → l x z = true)
    (hneg : ∀ x y z, l x y = false → l y z = false → l x z = false) :
    (∀ c, ¬ contentLt l c c) ∧ (∀ c d f, contentLt l c d → contentLt l d f → contentLt l c f) ∧
    (∀ c d f, ¬ contentLt l c d → ¬ contentLt l d f → ¬ contentLt l c f) := by
  refine ⟨?_, ?_, ?_⟩
  · rintro (_ | ⟨k, x⟩)
    · simp [contentLt]
    · simp [contentLt, hirr]
  · rintro (_ | ⟨k, x⟩) (_ | ⟨m, y⟩) (_ | ⟨n, z⟩) h1 h2 <;> simp only [contentLt] at h1 h2 ⊢
    rcases h1 with h1 | ⟨h1, h1'⟩ <;> rcases h2 with h2 | ⟨h2, h2'⟩
    · left; omega
    · left; omega
    · left; omega
    · right; exact ⟨by omega, htr _ _ _ h1' h2'⟩
  · rintro (_ | ⟨k, x⟩) (_ | ⟨m, y⟩) (_ | ⟨n, z⟩) h1 h2 <;> simp only [contentLt] at h1 h2 ⊢ <;> try simp at h1 h2 ⊢
    obtain ⟨a1, b1⟩ := h1
    obtain ⟨a2, b2⟩ := h2
    refine ⟨by omega, fun q => ?_⟩
    exact hneg _ _ _ (b1 (by omega)) (b2 (by omega))

/-! ## Visiting -/

/-- **C104, visiting** (readable alternatives). A visitor is called once with the values that the variants hold, in the
order of the arguments. -/
theorem C104_visit_partial [DecidableEq τ] (a : Alts β τ) (hs : ∀ t ∈ a.types, 1 ≤ a.size t) (dflt : ρ) :
    ∀ (cs : List (Nat × β)) (v : List (Nat × β) → Except Fault ρ), (∀ c ∈ cs, Readable a c.1) →
      a.visit dflt v (cs.map fun c => ⟨some c.1, some c.2⟩) = v cs
  | [], _, _ => rfl
  | [(k, x)], v, h => by
    have g := h (k, x) List.mem_cons_self
    have g1 := getAt_ok hs g.1 g.2 x
    simp only [repV, Option.map_some] at g1
    simp [Alts.visit, g1, bind, Except.bind]
  | (k, x) :: c :: cs, v, h => by
    have g := h (k, x) List.mem_cons_self
    have g1 := getAt_ok hs g.1 g.2 x
    simp only [repV, Option.map_some] at g1
    have ih := C104_visit_partial a hs dflt (c :: cs)
      (fun xs => do v ((k, ← a.getAt ⟨some k, some x⟩ k) :: xs)) (fun d hd => h d (List.mem_cons_of_mem _ hd))
    simp only [List.map_cons, Alts.visit] at ih ⊢
    rw [ih]
    simp [g1, bind, Except.bind]

/-- **C104, visiting is violated**: visiting a variant without a value does not throw, but gives a default result that
the visitor never computed. -/
theorem C104_visit_violates [DecidableEq τ] (a : Alts β τ) (dflt : ρ) (v : List (Nat × β) → Except Fault ρ) :
    a.visit dflt v [(⟨none, none⟩ : Obj β)] = .ok dflt := rfl

/-! ## Hashing -/

/-- **C104, hashing** (alternatives that fill the storage, and no padding). Variants that hold values with the same bytes
have the same hash, whatever the storage held before. -/
theorem C104_hash_partial (r s : Raw) (k : UInt8) (b : List UInt8) (hr : r.data.length = b.length)
    (hs : s.data.length = b.length) (hp : r.pad = []) (hq : s.pad = []) : (r.put k b).hash = (s.put k b).hash := by
  unfold Raw.put Raw.hash
  simp only [hp, hq]
  rw [List.drop_eq_nil_of_le (by omega), List.drop_eq_nil_of_le (by omega)]

/-- **C104, hashing is violated**: two variants that hold the same value of a one-byte alternative, one of which held a
larger one before, differ in their hashes; so do two with different padding. -/
theorem C104_hash_violates :
    ((⟨[0, 0], 0, []⟩ : Raw).put 1 [7]).hash ≠ (((⟨[0, 0], 0, []⟩ : Raw).put 0 [5, 5]).put 1 [7]).hash ∧
    ((⟨[0], 0, [1]⟩ : Raw).put 0 [7]).hash ≠ ((⟨[0], 0, [2]⟩ : Raw).put 0 [7]).hash := by
  decide

end Edsp.Props
