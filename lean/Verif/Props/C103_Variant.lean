import Verif.Model.Variant

/-!
# C103: a variant holds the value of one alternative, and destroys it when it should
-/

namespace Edsp.Props

open Edsp.Variant Edsp.Spec

variable {β τ : Type}

/-- Alternative `k` is the first of its type. -/
def FirstOf (a : Alts β τ) (k : Nat) : Prop := ∃ t, a.types[k]? = some t ∧ t ∉ a.types.take k

/-- `k` is the size in bytes of the largest alternative. -/
def LargestSize (a : Alts β τ) (k : Nat) : Prop := (∃ t ∈ a.types, a.size t = k) ∧ ∀ t ∈ a.types, a.size t ≤ k

/-- The operation does not copy or move a value over one of the same alternative whose destructor does something; it
emplaces only alternatives that are the first of their type; it exchanges values of the same alternative only if it is
the first of its type and its number is not the size of the largest alternative. -/
def Careful (a : Alts β τ) (s : Variants β) : VarOp β → Prop
  | .copyAssign i j left => ∀ k x y, s.content i = some (some (k, x)) → s.content j = some (some (k, y)) →
      a.trivial (a.ty x) = true ∧ a.trivial (a.ty y) = true ∧ left = none
  | .moveAssign i j => ∀ k x y, s.content i = some (some (k, x)) → s.content j = some (some (k, y)) →
      a.trivial (a.ty x) = true ∧ a.trivial (a.ty y) = true
  | .assignCopy i k _ left => ∀ x, s.content i = some (some (k, x)) → a.trivial (a.ty x) = true ∧ left = none
  | .emplace _ k _ _ => FirstOf a k
  | .swap i j => ∀ k x y, s.content i = some (some (k, x)) → s.content j = some (some (k, y)) →
      FirstOf a k ∧ ¬ LargestSize a k
  | _ => True

theorem indexOf_first [DecidableEq τ] {a : Alts β τ} {k : Nat} {t : τ} (h : a.types[k]? = some t)
    (hf : t ∉ a.types.take k) : a.indexOf t = some k := by
  unfold Alts.indexOf
  have hk := (List.getElem?_eq_some_iff.mp h).1
  rw [List.findIdx?_eq_some_iff_getElem]
  refine ⟨hk, by simpa using (List.getElem?_eq_some_iff.mp h).2, fun j hj => ?_⟩
  simp only [decide_eq_true_eq]
  intro e
  apply hf
  rw [← e]
  exact List.mem_take_iff_getElem.mpr ⟨j, by omega, rfl⟩

theorem foldr_max_le : ∀ {l : List Nat} {k : Nat}, (∀ x ∈ l, x ≤ k) → 1 ≤ k → l.foldr max 1 ≤ k
  | [], _, _, h => h
  | x :: l, k, h, h1 => by
    have := foldr_max_le (l := l) (fun y hy => h y (List.mem_cons_of_mem _ hy)) h1
    have := h x List.mem_cons_self
    simp only [List.foldr_cons]; omega

theorem le_foldr_max : ∀ {l : List Nat} {x : Nat}, x ∈ l → x ≤ l.foldr max 1
  | y :: l, x, h => by
    simp only [List.foldr_cons]
    rcases List.mem_cons.mp h with e | e
    · omega
    · have := le_foldr_max e; omega

/-- The number against which the code checks is the size of the largest alternative. -/
theorem dataSize_iff {a : Alts β τ} (hs : ∀ t ∈ a.types, 1 ≤ a.size t) (hne : a.types ≠ []) {k : Nat} :
    k = a.dataSize ↔ LargestSize a k := by
  have mem : ∀ l : List Nat, l ≠ [] → (∀ x ∈ l, 1 ≤ x) → l.foldr max 1 ∈ l := by
    intro l
    induction l with
    | nil => intro h; exact absurd rfl h
    | cons x l ih =>
      intro _ h1
      have hx := h1 x List.mem_cons_self
      simp only [List.foldr_cons]
      by_cases e : l = []
      · subst e; simp only [List.foldr_nil]; rw [Nat.max_eq_left hx]; exact List.mem_cons_self
      · have := ih e (fun y hy => h1 y (List.mem_cons_of_mem _ hy))
        rcases Nat.le_total x (l.foldr max 1) with c | c
        · rw [Nat.max_eq_right c]; exact List.mem_cons_of_mem _ this
        · rw [Nat.max_eq_left c]; exact List.mem_cons_self
  have m := mem (a.types.map a.size) (by simpa using hne) (by
    intro x hx; obtain ⟨t, ht, e⟩ := List.mem_map.mp hx; rw [← e]; exact hs t ht)
  obtain ⟨t0, ht0, e0⟩ := List.mem_map.mp m
  constructor
  · rintro rfl
    exact ⟨⟨t0, ht0, e0⟩, fun t ht => le_foldr_max (List.mem_map.mpr ⟨t, ht, rfl⟩)⟩
  · rintro ⟨⟨t, ht, e⟩, h⟩
    have h1 : a.dataSize ≤ k := by
      unfold Alts.dataSize
      exact foldr_max_le (fun x hx => by obtain ⟨u, hu, e'⟩ := List.mem_map.mp hx; rw [← e']; exact h u hu)
        (by rw [← e]; exact hs t ht)
    have h2 : k ≤ a.dataSize := by
      unfold Alts.dataSize; rw [← e]; exact le_foldr_max (List.mem_map.mpr ⟨t, ht, rfl⟩)
    omega

/-- The object that represents a content. -/
def repV (c : Option (Nat × β)) : Obj β := ⟨c.map Prod.fst, c.map Prod.snd⟩

/-- The objects that represent a table of contents. -/
def repVs (s : Variants β) : World β := ⟨s.map (Option.map repV), []⟩

theorem repVs_get {s : Variants β} {i : Nat} {c : Option (Nat × β)} (h : s.content i = some c) :
    (repVs s).get i = .ok (repV c) := by
  unfold Variants.content at h
  unfold World.get repVs
  rw [List.getElem?_map]
  cases e : s[i]? with
  | none => rw [e] at h; cases h
  | some x =>
    rw [e] at h
    have : x = some c := h
    subst this; rfl

theorem repVs_set (s : Variants β) (i : Nat) (c : Option (Nat × β)) :
    (repVs s).set i (repV c) [] = repVs (s.set i (some c)) := by
  unfold World.set repVs; simp [List.map_set]

theorem repVs_push (s : Variants β) (c : Option (Nat × β)) : (repVs s).push (repV c) = repVs (s ++ [some c]) := by
  unfold World.push repVs; simp

theorem repVs_same {s : Variants β} {i : Nat} {c : Option (Nat × β)} (h : s.content i = some c) :
    s.set i (some c) = s := by
  unfold Variants.content at h
  apply List.ext_getElem?
  intro k
  rw [List.getElem?_set]
  split
  · rename_i e; subst e
    cases hw : s[i]? with
    | none => rw [hw] at h; cases h
    | some x =>
      rw [hw] at h
      have : x = some c := h
      subst this
      first
        | rfl
        | rw [if_pos (List.getElem?_eq_some_iff.mp hw).1]
  · rfl

theorem getAt_ok [DecidableEq τ] {a : Alts β τ} (hs : ∀ t ∈ a.types, 1 ≤ a.size t) {k : Nat} (hf : FirstOf a k)
    (hl : ¬ LargestSize a k) (x : β) : a.getAt (repV (some (k, x))) k = .ok x := by
  obtain ⟨t, ht, hn⟩ := hf
  have hne : a.types ≠ [] := by intro e; rw [e] at ht; cases ht
  unfold Alts.getAt Alts.getType repV
  simp only [Option.map_some, ne_eq, not_true_eq_false, if_false, ht, indexOf_first ht hn, false_or, Option.some.injEq]
  rw [if_neg (fun e => hl ((dataSize_iff hs hne).mp e))]
  rfl

theorem copyAssign_ok {a : Alts β τ} {self : Bool} {c d : Option (Nat × β)} {b : Bool}
    (h : ∀ k x y, c = some (k, x) → d = some (k, y) → a.trivial (a.ty x) = true ∧ a.trivial (a.ty y) = true ∧ b = false) :
    a.copyAssign self (repV c) (repV d) b = .ok (match d with
      | none => (repV none, [], false)
      | some (k, y) => if b then (repV c, [], true) else (repV (some (k, y)), [], false)) := by
  rcases c with _ | ⟨k, x⟩ <;> rcases d with _ | ⟨l, y⟩
  · rfl
  · cases b <;> rfl
  · rfl
  · by_cases e : k = l
    · subst e
      obtain ⟨h1, h2, h3⟩ := h k x y rfl rfl
      subst h3
      simp [Alts.copyAssign, repV, Obj.value, Alts.construct, h1, h2, bind, Except.bind, pure, Except.pure]
    · cases b <;>
        simp [Alts.copyAssign, repV, Obj.value, Alts.construct, e, bind, Except.bind, pure, Except.pure, destroyCell]

theorem moveAssign_ok {a : Alts β τ} {mv : β → β} {self : Bool} {c d : Option (Nat × β)}
    (h : ∀ k x y, c = some (k, x) → d = some (k, y) → a.trivial (a.ty x) = true ∧
      (self = true → a.trivial (a.ty y) = true)) :
    a.moveAssign mv self (repV c) (repV d) = .ok (match d with
      | none => (repV none, repV none, [])
      | some (k, y) => (repV (some (k, y)), repV (some (k, mv y)), [])) := by
  rcases c with _ | ⟨k, x⟩ <;> rcases d with _ | ⟨l, y⟩
  · rfl
  · rfl
  · rfl
  · by_cases e : k = l
    · subst e
      obtain ⟨h1, h2⟩ := h k x y rfl rfl
      have h3 : (self && !a.trivial (a.ty y)) = false := by
        cases self
        · rfl
        · rw [h2 rfl]; rfl
      simp [Alts.moveAssign, repV, Obj.value, Alts.construct, h1, h3, bind, Except.bind, pure, Except.pure]
    · simp [Alts.moveAssign, repV, Obj.value, Alts.construct, e, bind, Except.bind, pure, Except.pure, destroyCell]

theorem destroyCell_rep (c : Option (Nat × β)) : ∃ o, destroyCell (repV c) = .ok o ∧
    ({ o with index := none } : Obj β) = repV none := by
  rcases c with _ | ⟨k, x⟩
  · exact ⟨_, rfl, rfl⟩
  · exact ⟨_, rfl, rfl⟩

/-- One careful operation does what the specification says and loses nothing. -/
theorem variant_step [DecidableEq τ] {a : Alts β τ} (hs : ∀ t ∈ a.types, 1 ≤ a.size t) {mv : β → β}
    {s s' : Variants β} {op : VarOp β} {t : Bool}
    (hc : Careful a s op) (e : s.step mv op = some (s', t)) :
    (repVs s).step a mv op = .ok (repVs s', t) := by
  cases op with
  | newAt k x b =>
    simp only [Variants.step] at e
    cases b <;> (injection e with e; injection e with e1 e2; subst e1; subst e2)
    · simp only [World.step]; rw [← repVs_push]; rfl
    · rfl
  | newCopy i b =>
    simp only [Variants.step, Option.bind_eq_bind, Option.bind_eq_some_iff] at e
    obtain ⟨c, hi, e⟩ := e
    simp only [World.step, bind, Except.bind, repVs_get hi]
    rcases c with _ | ⟨k, x⟩
    · simp at e
      obtain ⟨e1, e2⟩ := e
      subst e1; subst e2
      rw [← repVs_push]; rfl
    · cases b <;> simp at e <;> obtain ⟨e1, e2⟩ := e <;> subst e1 <;> subst e2
      · rw [← repVs_push]; rfl
      · rfl
  | newMove i =>
    simp only [Variants.step, Option.bind_eq_bind, Option.bind_eq_some_iff] at e
    obtain ⟨c, hi, e⟩ := e
    injection e with e; injection e with e1 e2; subst e1; subst e2
    simp only [World.step, bind, Except.bind, repVs_get hi]
    rw [← repVs_push, ← repVs_set]
    rcases c with _ | ⟨k, x⟩ <;> rfl
  | destroy i =>
    simp only [Variants.step, Option.bind_eq_bind, Option.bind_eq_some_iff] at e
    obtain ⟨c, hi, e⟩ := e
    injection e with e; injection e with e1 e2; subst e1; subst e2
    obtain ⟨o, ho, _⟩ := destroyCell_rep c
    simp only [World.step, bind, Except.bind, repVs_get hi, ho]
    unfold repVs; simp [List.map_set, pure, Except.pure]
  | copyAssign i j left =>
    simp only [Variants.step, Option.bind_eq_bind, Option.bind_eq_some_iff] at e
    obtain ⟨c, hi, d, hj, e⟩ := e
    have key : ∀ k x y, c = some (k, x) → d = some (k, y) →
        a.trivial (a.ty x) = true ∧ a.trivial (a.ty y) = true ∧ left.isSome = false := by
      intro k x y h1 h2
      subst h1; subst h2
      obtain ⟨q1, q2, q3⟩ := hc k x y hi hj
      subst q3
      exact ⟨q1, q2, rfl⟩
    simp only [World.step, bind, Except.bind, repVs_get hi, repVs_get hj, copyAssign_ok key]
    rcases d with _ | ⟨l, y⟩
    · injection e with e; injection e with e1 e2; subst e1; subst e2
      simp only [pure, Except.pure, repVs_set]
    · injection e with e; injection e with e1 e2
      cases left with
      | none =>
        simp only [assigned] at e1 e2
        subst e1; subst e2
        simp [pure, Except.pure, repVs_set]
      | some r =>
        have hne : c.map Prod.fst ≠ some l := by
          intro h
          rcases c with _ | ⟨k, x⟩
          · cases h
          · simp at h; subst h
            have := (key k x y rfl rfl).2.2
            cases this
        simp only [assigned, if_neg hne] at e1 e2
        subst e1; subst e2
        simp [pure, Except.pure, repVs_set]
  | moveAssign i j =>
    simp only [Variants.step, Option.bind_eq_bind, Option.bind_eq_some_iff] at e
    obtain ⟨c, hi, d, hj, e⟩ := e
    have key : ∀ k x y, c = some (k, x) → d = some (k, y) →
        a.trivial (a.ty x) = true ∧ (decide (i = j) = true → a.trivial (a.ty y) = true) := by
      intro k x y h1 h2
      subst h1; subst h2
      obtain ⟨q1, q2⟩ := hc k x y hi hj
      exact ⟨q1, fun _ => q2⟩
    simp only [World.step, bind, Except.bind, repVs_get hi, repVs_get hj, moveAssign_ok key]
    rcases d with _ | ⟨l, y⟩
    · injection e with e; injection e with e1 e2; subst e1; subst e2
      simp only [pure, Except.pure, repVs_set, repVs_same hj]
    · injection e with e; injection e with e1 e2; subst e1; subst e2
      simp only [pure, Except.pure, repVs_set]
  | assignValue i k x =>
    simp only [Variants.step, Option.bind_eq_bind, Option.bind_eq_some_iff] at e
    obtain ⟨c, hi, e⟩ := e
    injection e with e; injection e with e1 e2; subst e1; subst e2
    have : a.assignValue (repV c) k x = .ok (repV (some (k, x)), []) := by
      rcases c with _ | ⟨l, y⟩
      · rfl
      · by_cases h : l = k
        · subst h; simp [Alts.assignValue, repV, Obj.value, bind, Except.bind, pure, Except.pure]
        · simp [Alts.assignValue, repV, bind, Except.bind, pure, Except.pure, h, destroyCell, Alts.construct]
    simp only [World.step, bind, Except.bind, repVs_get hi, this, pure, Except.pure, repVs_set]
  | assignCopy i k x left =>
    simp only [Variants.step, Option.bind_eq_bind, Option.bind_eq_some_iff] at e
    obtain ⟨c, hi, e⟩ := e
    injection e with e; injection e with e1 e2
    simp only [World.step, bind, Except.bind, repVs_get hi]
    cases left with
    | none =>
      simp only [assigned] at e1 e2
      subst e1; subst e2
      have key : ∀ l y z, c = some (l, y) → some (k, x) = some (l, z) →
          a.trivial (a.ty y) = true ∧ (false = true → a.trivial (a.ty z) = true) := by
        intro l y z h1 h2
        subst h1
        injection h2 with h2; injection h2 with h2 h3; subst h2
        exact ⟨(hc y hi).1, fun h => by cases h⟩
      have := moveAssign_ok (mv := mv) key
      have e0 : (⟨some k, some x⟩ : Obj β) = repV (some (k, x)) := rfl
      simp only [Option.isSome_none, Bool.false_eq_true, if_false, e0, this, pure, Except.pure]
      obtain ⟨o, ho, _⟩ := destroyCell_rep (some (k, mv x))
      simp only [ho, repVs_set]
    | some r =>
      have hne : c.map Prod.fst ≠ some k := by
        intro h
        rcases c with _ | ⟨l, y⟩
        · cases h
        · simp at h; subst h
          have := (hc y hi).2
          cases this
      simp only [assigned, if_neg hne] at e1 e2
      subst e1; subst e2
      rw [repVs_same hi]; rfl
  | emplace i k x b =>
    simp only [Variants.step, Option.bind_eq_bind, Option.bind_eq_some_iff] at e
    obtain ⟨c, hi, e⟩ := e
    obtain ⟨o, ho, ho2⟩ := destroyCell_rep c
    obtain ⟨u, hu, hun⟩ := hc
    simp only [World.step, bind, Except.bind, repVs_get hi, ho, ho2]
    cases b with
    | true =>
      injection e with e; injection e with e1 e2; subst e1; subst e2
      simp [pure, Except.pure, repVs_set]
    | false =>
      injection e with e; injection e with e1 e2; subst e1; subst e2
      simp only [Bool.false_eq_true, if_false, hu, indexOf_first hu hun, pure, Except.pure]
      rw [← repVs_set]; rfl
  | swap i j =>
    simp only [Variants.step, Option.bind_eq_bind, Option.bind_eq_some_iff] at e
    obtain ⟨c, hi, d, hj, e⟩ := e
    injection e with e; injection e with e1 e2; subst e1; subst e2
    have : a.swap (repV c) (repV d) = .ok (repV d, repV c, []) := by
      rcases c with _ | ⟨k, x⟩ <;> rcases d with _ | ⟨l, y⟩
      · rfl
      · rfl
      · rfl
      · by_cases h : k = l
        · subst h
          obtain ⟨hf, hl⟩ := hc k x y hi hj
          have g1 := getAt_ok hs hf hl x
          have g2 := getAt_ok hs hf hl y
          unfold Alts.swap
          simp only [repV, Option.map_some, if_true] at g1 g2 ⊢
          simp only [g1, g2, bind, Except.bind, pure, Except.pure]
        · have h1 := copyAssign_ok (a := a) (self := false) (c := some (k, x)) (d := some (l, y)) (b := false)
            (fun m u v q r => by simp at q r; omega)
          have h2 := copyAssign_ok (a := a) (self := false) (c := some (l, y)) (d := some (k, x)) (b := false)
            (fun m u v q r => by simp at q r; omega)
          have h3 : copyOf (repV (some (k, x))) false = .ok (some (repV (some (k, x)))) := rfl
          obtain ⟨o, ho, _⟩ := destroyCell_rep (some (k, x))
          have e1 : (repV (some (k, x))).index = some k := rfl
          have e2 : (repV (some (l, y))).index = some l := rfl
          unfold Alts.swap
          simp only [e1, e2, Option.some.injEq, if_neg h, bind, Except.bind, h3, h1, h2, ho]
          rfl
    simp only [World.step, bind, Except.bind, repVs_get hi, repVs_get hj, this, pure, Except.pure, repVs_set]

theorem variant_run [DecidableEq τ] {a : Alts β τ} (hs : ∀ t ∈ a.types, 1 ≤ a.size t) {mv : β → β} :
    ∀ {ops : List (VarOp β)} {s s' : Variants β} {ts : List Bool},
    Variants.All mv (Careful a) s ops → s.run mv ops = some (s', ts) →
      (repVs s).run a mv ops = .ok (repVs s', ts) := by
  intro ops
  induction ops with
  | nil =>
    intro s s' ts _ e
    injection e with e; injection e with e1 e2; subst e1; subst e2; rfl
  | cons op ops ih =>
    intro s s' ts hc e
    simp only [Variants.run, Option.bind_eq_bind, Option.bind_eq_some_iff] at e
    obtain ⟨⟨s1, t⟩, e1, ⟨s2, ts2⟩, e2, e3⟩ := e
    injection e3 with e3; injection e3 with e4 e5; subst e4; subst e5
    have h1 := variant_step hs hc.1 e1
    have h2 := ih (hc.2 s1 t e1) e2
    simp only [World.run, bind, Except.bind, h1, h2]; rfl

/-- **C103, content and lifetime** (careful programs). Whatever a program does with variants, it runs without destroying
or reading a value that is not there; every variant ends with the number and the value it should have, or without a
value, nothing more lives in its storage, and no value is lost without its destructor having run. -/
theorem C103_variant_partial [DecidableEq τ] (a : Alts β τ) (hs : ∀ t ∈ a.types, 1 ≤ a.size t) (mv : β → β)
    (ops : List (VarOp β)) {s : Variants β} {ts : List Bool} (e : Variants.run mv [] ops = some (s, ts))
    (hc : Variants.All mv (Careful a) [] ops) :
    ∃ w, World.run a mv ⟨[], []⟩ ops = .ok (w, ts) ∧ w.lost = [] ∧ w.obj.length = s.length ∧
      ∀ i : Nat, (s.content i = none → w.obj[i]?.join = none) ∧
        ∀ c, s.content i = some c → ∃ o, w.obj[i]?.join = some o ∧ o.index = c.map Prod.fst ∧
          o.cell = c.map Prod.snd := by
  refine ⟨repVs s, variant_run hs hc e, rfl, by unfold repVs; simp, fun i => ⟨fun h => ?_, fun c h => ?_⟩⟩
  · unfold Variants.content at h
    unfold repVs
    rw [List.getElem?_map]
    cases hx : s[i]? with
    | none => rfl
    | some x =>
      rw [hx] at h
      have : x = none := h
      subst this; rfl
  · refine ⟨repV c, ?_, rfl, rfl⟩
    unfold Variants.content at h
    unfold repVs
    rw [List.getElem?_map]
    cases hx : s[i]? with
    | none => rw [hx] at h; cases h
    | some x =>
      rw [hx] at h
      have : x = some c := h
      subst this; rfl

/-- **C103, assignment is violated**: assigning a variant, moving one, or assigning a variable, to a variant that holds
the same alternative, puts the new value over the old one, whose destructor never runs. For values that own memory that
is a leak. -/
theorem C103_assign_violates [DecidableEq τ] (a : Alts β τ) (mv : β → β) (k : Nat) (x y : β)
    (ht : a.trivial (a.ty x) = false) :
    (∃ w, World.run a mv ⟨[], []⟩ [.newAt k x false, .newAt k y false, .copyAssign 0 1 none] =
      .ok (w, [false, false, false]) ∧ w.lost = [x]) ∧
    (∃ w, World.run a mv ⟨[], []⟩ [.newAt k x false, .newAt k y false, .moveAssign 0 1] =
      .ok (w, [false, false, false]) ∧ w.lost = [x]) ∧
    (∃ w, World.run a mv ⟨[], []⟩ [.newAt k x false, .assignCopy 0 k y none] = .ok (w, [false, false]) ∧
      w.lost = [x]) := by
  refine ⟨⟨⟨[some ⟨some k, some y⟩, some ⟨some k, some y⟩], [x]⟩, ?_, rfl⟩,
    ⟨⟨[some ⟨some k, some y⟩, some ⟨some k, some (mv y)⟩], [x]⟩, ?_, rfl⟩,
    ⟨⟨[some ⟨some k, some y⟩], [x]⟩, ?_, rfl⟩⟩ <;>
  simp [World.run, World.step, World.push, World.get, World.set, Alts.copyAssign, Alts.moveAssign, Obj.value,
    Alts.construct, ht, bind, Except.bind, pure, Except.pure, destroyCell]

/-- **C103, self-assignment is violated**: assigning a variant to itself copies the value from the storage in which the
copy is being made. -/
theorem C103_self_violates [DecidableEq τ] (a : Alts β τ) (mv : β → β) (k : Nat) (x : β)
    (ht : a.trivial (a.ty x) = false) :
    World.run a mv ⟨[], []⟩ [.newAt k x false, .copyAssign 0 0 none] = .error .dangling ∧
    Variants.run mv [] [.newAt k x false, .copyAssign 0 0 none] = some ([some (some (k, x))], [false, false]) := by
  refine ⟨?_, rfl⟩
  simp [World.run, World.step, World.push, World.get, Alts.copyAssign, Obj.value, ht, bind, Except.bind, throw,
    throwThe, MonadExceptOf.throw]

/-- **C103, exceptions of assignment are violated**: if copying the value throws when both variants hold the same
alternative, then the target still has its number but no value, and destroying it destroys what is not there. -/
theorem C103_throw_violates [DecidableEq τ] (a : Alts β τ) (mv : β → β) (k : Nat) (x y r : β) :
    World.run a mv ⟨[], []⟩ [.newAt k x false, .newAt k y false, .copyAssign 0 1 (some r), .destroy 0] =
      .error .dangling ∧
    Variants.run mv [] [.newAt k x false, .newAt k y false, .copyAssign 0 1 (some r), .destroy 0] =
      some ([none, some (some (k, y))], [false, false, true, false]) := by
  refine ⟨?_, ?_⟩
  · simp [World.run, World.step, World.push, World.get, World.set, Alts.copyAssign, Obj.value, Alts.construct, bind,
      Except.bind, pure, Except.pure, destroyCell]
  · simp [Variants.run, Variants.step, Variants.content, assigned]

/-- **C103, emplacing by number is violated**: a second alternative of the same type cannot be chosen; the variant says
it holds the first. -/
theorem C103_emplace_violates [DecidableEq τ] (a : Alts β τ) (mv : β → β) (t : τ) (hts : a.types = [t, t]) (x y : β) :
    (∃ w o, World.run a mv ⟨[], []⟩ [.newAt 0 x false, .emplace 0 1 y false] = .ok (w, [false, false]) ∧
      w.obj[0]? = some (some o) ∧ o.index = some 0) ∧
    Variants.run mv [] [.newAt 0 x false, .emplace 0 1 y false] = some ([some (some (1, y))], [false, false]) := by
  refine ⟨⟨⟨[some ⟨some 0, some y⟩], []⟩, ⟨some 0, some y⟩, ?_, rfl, rfl⟩, rfl⟩
  simp [World.run, World.step, World.push, World.get, World.set, Alts.construct, bind, Except.bind, pure, Except.pure,
    destroyCell, hts, Alts.indexOf, List.findIdx?_cons]

/-- A number, a string and a character; only the string has a destructor that does something. -/
def sampleAlts : Alts (Nat × Nat) Nat := ⟨[0, 1, 2], Prod.fst, fun t => if t = 1 then 32 else 4, fun t => t ≠ 1⟩

/-- A careful program with assignments, a throwing `emplace`, and an exchange. -/
def sampleProgram : List (VarOp (Nat × Nat)) :=
  [.newAt 1 (1, 7) false, .newAt 0 (0, 3) false, .copyAssign 0 1 none, .copyAssign 0 1 none, .assignValue 0 1 (1, 8),
    .swap 0 1, .emplace 1 2 (2, 5) true, .moveAssign 1 0, .assignCopy 0 1 (1, 9) none, .destroy 0]

example : Variants.run (fun x => (x.1, 0)) [] sampleProgram =
    some ([none, some (some (0, (0, 3)))],
      [false, false, false, false, false, false, true, false, false, false]) := rfl

example : Variants.All (fun x => (x.1, 0)) (Careful sampleAlts) [] sampleProgram := by
  simp [sampleProgram, Variants.All, Careful, Variants.step, Variants.content, assigned, sampleAlts, FirstOf]
  refine ⟨?_, ?_, ?_⟩ <;> intros <;> omega

end Edsp.Props
