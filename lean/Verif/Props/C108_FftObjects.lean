import Verif.Model.FftObjects
import Mathlib.Tactic.NormNum.Prime

/-!
# C108: FFT engines as objects
-/

namespace Edsp.C108
open Edsp.FftObjects Edsp.Spectral

/-! ### What a careful program is -/

/-- The arrays of two calls are of the same sort: same transform, both in place or both not, same alignment. -/
def Same (align : ℕ) (c c' : Call) : Prop :=
  c.kind = c'.kind ∧ (c.src = c.dst ↔ c'.src = c'.dst) ∧ c.src % align = c'.src % align ∧
    c.dst % align = c'.dst % align

/-- A program that copies and assigns engines only before their first use, uses each engine for arrays of one sort only,
and uses and destroys only engines that are alive.  An engine is `none` when destroyed, `some none` before its first call,
and then `some` of that call.  The relation leads from the engines before to the engines after, with the transforms asked
for. -/
inductive Careful (align : ℕ) : List (Option (Option Call)) → List Op → List (Option (Option Call)) → List Kind → Prop
  | nil (us) : Careful align us [] us []
  | construct {us us' ops ks} (h : Careful align (us ++ [some none]) ops us' ks) :
      Careful align us (.construct :: ops) us' ks
  | first {us us' ops ks i c} (hi : us[i]? = some (some none))
      (h : Careful align (us.set i (some (some c))) ops us' ks) : Careful align us (.call i c :: ops) us' (c.kind :: ks)
  | again {us us' ops ks i c c'} (hi : us[i]? = some (some (some c'))) (hs : Same align c' c)
      (h : Careful align us ops us' ks) : Careful align us (.call i c :: ops) us' (c.kind :: ks)
  | copy {us us' ops ks i} (hi : us[i]? = some (some none)) (h : Careful align (us ++ [some none]) ops us' ks) :
      Careful align us (.copy i :: ops) us' ks
  | assign {us us' ops ks i j} (hi : us[i]? = some (some none)) (hj : us[j]? = some (some none))
      (h : Careful align us ops us' ks) : Careful align us (.assign i j :: ops) us' ks
  | destroy {us us' ops ks i u} (hi : us[i]? = some (some u)) (h : Careful align (us.set i none) ops us' ks) :
      Careful align us (.destroy i :: ops) us' ks

/-! ### Helper lemmas -/

/-- The object that belongs to an engine. -/
def Match (align : ℕ) (plans : List (Option Plan)) : Option (Option Call) → Option (Option ℕ) → Prop
  | none, none => True
  | some none, some none => True
  | some (some c), some (some h) => plans[h]? = some (some (Plan.make align c))
  | _, _ => False

structure Rel (align : ℕ) (us : List (Option (Option Call))) (w : World) : Prop where
  len : us.length = w.objects.length
  obj : ∀ (i : ℕ) (u : Option (Option Call)) (o : Option (Option ℕ)),
    us[i]? = some u → w.objects[i]? = some o → Match align w.plans u o
  inj : ∀ (i j h : ℕ), w.objects[i]? = some (some (some h)) → w.objects[j]? = some (some (some h)) → i = j
  own : ∀ (h : ℕ) (p : Plan), w.plans[h]? = some (some p) → ∃ i : ℕ, w.objects[i]? = some (some (some h))

theorem Rel.get {align : ℕ} {us : List (Option (Option Call))} {w : World} (R : Rel align us w) {i : ℕ}
    {u : Option (Option Call)} (h : us[i]? = some u) : ∃ o, w.objects[i]? = some o ∧ Match align w.plans u o := by
  have hi : i < w.objects.length := by rw [← R.len]; exact (List.getElem?_eq_some_iff.mp h).1
  exact ⟨w.objects[i], List.getElem?_eq_getElem hi, R.obj i u _ h (List.getElem?_eq_getElem hi)⟩

theorem Rel.unused {align : ℕ} {us : List (Option (Option Call))} {w : World} (R : Rel align us w) {i : ℕ}
    (h : us[i]? = some (some none)) : w.objects[i]? = some (some none) := by
  obtain ⟨o, h1, h2⟩ := R.get h
  match o, h2 with
  | some none, _ => exact h1

theorem Rel.used {align : ℕ} {us : List (Option (Option Call))} {w : World} (R : Rel align us w) {i : ℕ} {c : Call}
    (h : us[i]? = some (some (some c))) :
    ∃ k, w.objects[i]? = some (some (some k)) ∧ w.plans[k]? = some (some (Plan.make align c)) := by
  obtain ⟨o, h1, h2⟩ := R.get h
  match o, h2 with
  | some (some k), h2 => exact ⟨k, h1, h2⟩

theorem match_mono {align : ℕ} {plans : List (Option Plan)} {x : Option Plan} {u : Option (Option Call)}
    {o : Option (Option ℕ)} (h : Match align plans u o) : Match align (plans ++ [x]) u o := by
  match u, o, h with
  | none, none, _ => trivial
  | some none, some none, _ => trivial
  | some (some c), some (some k), h =>
    show (plans ++ [x])[k]? = _
    rw [List.getElem?_append_left (List.getElem?_eq_some_iff.mp h).1]
    exact h

theorem rel_empty (align : ℕ) : Rel align [] World.empty where
  len := rfl
  obj := by intro i u o h; simp at h
  inj := by intro i j h hi; simp [World.empty] at hi
  own := by intro h p hp; simp [World.empty] at hp

theorem getElem?_push {α : Type} (l : List α) (a : α) (i : ℕ) {b : α} :
    (l ++ [a])[i]? = some b ↔ l[i]? = some b ∨ (i = l.length ∧ b = a) := by
  rcases lt_trichotomy i l.length with h | h | h
  · rw [List.getElem?_append_left h]
    constructor
    · exact Or.inl
    · rintro (g | ⟨g, -⟩)
      · exact g
      · omega
  · subst h
    simp [eq_comm]
  · rw [List.getElem?_eq_none (by simp; omega), List.getElem?_eq_none (by omega)]
    simp
    omega

/-- A new engine without plan. -/
theorem rel_push {align : ℕ} {us : List (Option (Option Call))} {w : World} (R : Rel align us w) :
    Rel align (us ++ [some none]) { w with objects := w.objects ++ [some none] } where
  len := by simp [R.len]
  obj := by
    intro i u o h1 h2
    simp only [getElem?_push] at h1 h2
    rcases h1 with h1 | ⟨h1, rfl⟩ <;> rcases h2 with h2 | ⟨h2, rfl⟩
    · exact R.obj i u o h1 h2
    · have := (List.getElem?_eq_some_iff.mp h1).1
      have := R.len
      omega
    · have := (List.getElem?_eq_some_iff.mp h2).1
      have := R.len
      omega
    · trivial
  inj := by
    intro i j h h1 h2
    simp only [getElem?_push] at h1 h2
    rcases h1 with h1 | ⟨-, h1⟩
    · rcases h2 with h2 | ⟨-, h2⟩
      · exact R.inj i j h h1 h2
      · simp at h2
    · simp at h1
  own := by
    intro h p hp
    obtain ⟨i, hi⟩ := R.own h p hp
    exact ⟨i, (getElem?_push _ _ _).mpr (Or.inl hi)⟩

theorem set_get {α : Type} {l : List α} {i j : ℕ} {a b : α} (hi : i < l.length) :
    (l.set i a)[j]? = some b ↔ (i = j ∧ b = a) ∨ (i ≠ j ∧ l[j]? = some b) := by
  by_cases h : i = j
  · subst h
    rw [List.getElem?_set_self hi]
    simp [eq_comm]
  · rw [List.getElem?_set_ne h]
    simp [h]

theorem rel_log {align : ℕ} {us : List (Option (Option Call))} {w : World} (R : Rel align us w) (l : List Kind) :
    Rel align us { w with log := l } := ⟨R.len, R.obj, R.inj, R.own⟩

theorem rel_first {align : ℕ} {us : List (Option (Option Call))} {w : World} (R : Rel align us w) {i : ℕ}
    (hi : us[i]? = some (some none)) (c : Call) :
    Rel align (us.set i (some (some c))) { w with
      objects := w.objects.set i (some (some w.plans.length))
      plans := w.plans ++ [some (Plan.make align c)] } := by
  have ho := R.unused hi
  have hu1 := (List.getElem?_eq_some_iff.mp hi).1
  have ho1 := (List.getElem?_eq_some_iff.mp ho).1
  have hlt : ∀ (j h : ℕ), w.objects[j]? = some (some (some h)) → h < w.plans.length := by
    intro j h hj
    have hj1 := (List.getElem?_eq_some_iff.mp hj).1
    have hj2 : j < us.length := by rw [R.len]; exact hj1
    have := R.obj j us[j] _ (List.getElem?_eq_getElem hj2) hj
    match hu : us[j], this with
    | some (some c'), this => exact (List.getElem?_eq_some_iff.mp this).1
  constructor
  · simp [R.len]
  · intro j u o h1 h2
    rw [set_get hu1] at h1
    rw [set_get ho1] at h2
    rcases h1 with ⟨e1, rfl⟩ | ⟨n1, h1⟩ <;> rcases h2 with ⟨e2, rfl⟩ | ⟨n2, h2⟩
    · show (w.plans ++ [some (Plan.make align c)])[w.plans.length]? = _
      simp
    · exact absurd e1 n2
    · exact absurd e2 n1
    · exact match_mono (R.obj j u o h1 h2)
  · intro j k h h1 h2
    rw [set_get ho1] at h1 h2
    rcases h1 with ⟨e1, q1⟩ | ⟨n1, h1⟩ <;> rcases h2 with ⟨e2, q2⟩ | ⟨n2, h2⟩
    · omega
    · have := hlt k h h2
      simp only [Option.some.injEq] at q1
      omega
    · have := hlt j h h1
      simp only [Option.some.injEq] at q2
      omega
    · exact R.inj j k h h1 h2
  · intro h p hp
    rw [getElem?_push] at hp
    rcases hp with hp | ⟨rfl, -⟩
    · obtain ⟨j, hj⟩ := R.own h p hp
      refine ⟨j, (set_get ho1).mpr (Or.inr ⟨?_, hj⟩)⟩
      rintro rfl
      rw [ho] at hj
      simp at hj
    · exact ⟨i, (set_get ho1).mpr (Or.inl ⟨rfl, rfl⟩)⟩

theorem rel_destroy_unused {align : ℕ} {us : List (Option (Option Call))} {w : World} (R : Rel align us w) {i : ℕ}
    (hi : us[i]? = some (some none)) :
    Rel align (us.set i none) { w with objects := w.objects.set i none } := by
  have ho := R.unused hi
  have hu1 := (List.getElem?_eq_some_iff.mp hi).1
  have ho1 := (List.getElem?_eq_some_iff.mp ho).1
  constructor
  · simp [R.len]
  · intro j u o h1 h2
    rw [set_get hu1] at h1
    rw [set_get ho1] at h2
    rcases h1 with ⟨e1, rfl⟩ | ⟨n1, h1⟩ <;> rcases h2 with ⟨e2, rfl⟩ | ⟨n2, h2⟩
    · trivial
    · exact absurd e1 n2
    · exact absurd e2 n1
    · exact R.obj j u o h1 h2
  · intro j k h h1 h2
    rw [set_get ho1] at h1 h2
    rcases h1 with ⟨e1, q1⟩ | ⟨n1, h1⟩
    · simp at q1
    · rcases h2 with ⟨e2, q2⟩ | ⟨n2, h2⟩
      · simp at q2
      · exact R.inj j k h h1 h2
  · intro h p hp
    obtain ⟨j, hj⟩ := R.own h p hp
    refine ⟨j, (set_get ho1).mpr (Or.inr ⟨?_, hj⟩)⟩
    rintro rfl
    rw [ho] at hj
    simp at hj

theorem rel_destroy_used {align : ℕ} {us : List (Option (Option Call))} {w : World} (R : Rel align us w) {i k : ℕ}
    {c : Call} (hi : us[i]? = some (some (some c))) (ho : w.objects[i]? = some (some (some k)))
    (hk : w.plans[k]? = some (some (Plan.make align c))) :
    Rel align (us.set i none) { w with objects := w.objects.set i none, plans := w.plans.set k none } := by
  have hu1 := (List.getElem?_eq_some_iff.mp hi).1
  have ho1 := (List.getElem?_eq_some_iff.mp ho).1
  have hk1 := (List.getElem?_eq_some_iff.mp hk).1
  constructor
  · simp [R.len]
  · intro j u o h1 h2
    rw [set_get hu1] at h1
    rw [set_get ho1] at h2
    rcases h1 with ⟨e1, rfl⟩ | ⟨n1, h1⟩ <;> rcases h2 with ⟨e2, rfl⟩ | ⟨n2, h2⟩
    · trivial
    · exact absurd e1 n2
    · exact absurd e2 n1
    · have := R.obj j u o h1 h2
      match u, o, this with
      | none, none, _ => trivial
      | some none, some none, _ => trivial
      | some (some c'), some (some k'), this =>
        show (w.plans.set k none)[k']? = _
        rw [List.getElem?_set_ne]
        · exact this
        · rintro rfl
          exact n1 (R.inj i j k ho h2)
  · intro j l h h1 h2
    rw [set_get ho1] at h1 h2
    rcases h1 with ⟨e1, q1⟩ | ⟨n1, h1⟩
    · simp at q1
    · rcases h2 with ⟨e2, q2⟩ | ⟨n2, h2⟩
      · simp at q2
      · exact R.inj j l h h1 h2
  · intro h p hp
    rw [set_get hk1] at hp
    rcases hp with ⟨-, q⟩ | ⟨n, hp⟩
    · simp at q
    · obtain ⟨j, hj⟩ := R.own h p hp
      refine ⟨j, (set_get ho1).mpr (Or.inr ⟨?_, hj⟩)⟩
      rintro rfl
      rw [ho] at hj
      simp only [Option.some.injEq] at hj
      exact n hj

theorem accepts_self (align : ℕ) (c : Call) : (Plan.make align c).Accepts align c := ⟨rfl, Iff.rfl, rfl, rfl⟩

theorem accepts_same {align : ℕ} {c c' : Call} (h : Same align c c') : (Plan.make align c).Accepts align c' :=
  ⟨congrArg executor h.1, h.2.1, h.2.2.1, h.2.2.2⟩

theorem careful_run {align : ℕ} {us us' : List (Option (Option Call))} {ops : List Op} {ks : List Kind}
    (h : Careful align us ops us' ks) : ∀ w : World, Rel align us w →
      ∃ w', w.run align ops = .ok w' ∧ Rel align us' w' ∧ w'.log = w.log ++ ks := by
  induction h with
  | nil us => exact fun w R => ⟨w, rfl, R, by simp⟩
  | construct h ih =>
    intro w R
    obtain ⟨w', h1, h2, h3⟩ := ih _ (rel_push R)
    exact ⟨w', by simpa only [World.run, World.step, bind, Except.bind] using h1, h2, h3⟩
  | @first us us' ops ks i c hi h ih =>
    intro w R
    obtain ⟨w', h1, h2, h3⟩ := ih _ (rel_log (rel_first R hi c) (w.log ++ [c.kind]))
    refine ⟨w', ?_, h2, by simpa using h3⟩
    have hget : (w.plans ++ [some (Plan.make align c)])[w.plans.length]? = some (some (Plan.make align c)) := by simp
    simp only [World.run, World.step, R.unused hi, World.execute, hget, if_pos (accepts_self align c), bind, Except.bind]
    exact h1
  | @again us us' ops ks i c c' hi hs h ih =>
    intro w R
    obtain ⟨k, ho, hk⟩ := R.used hi
    obtain ⟨w', h1, h2, h3⟩ := ih _ (rel_log R (w.log ++ [c.kind]))
    refine ⟨w', ?_, h2, by simpa using h3⟩
    simp only [World.run, World.step, ho, World.execute, hk, if_pos (accepts_same hs), bind, Except.bind]
    have e : (Plan.make align c').kind = c.kind := hs.1
    rw [e]
    exact h1
  | copy hi h ih =>
    intro w R
    obtain ⟨w', h1, h2, h3⟩ := ih _ (rel_push R)
    refine ⟨w', ?_, h2, h3⟩
    simp only [World.run, World.step, R.unused hi, bind, Except.bind]
    exact h1
  | @assign us us' ops ks i j hi hj h ih =>
    intro w R
    obtain ⟨w', h1, h2, h3⟩ := ih w R
    refine ⟨w', ?_, h2, h3⟩
    have hi' := R.unused hi
    have e : w.objects.set i (some none) = w.objects := by
      obtain ⟨hlt, he⟩ := List.getElem?_eq_some_iff.mp hi'
      rw [← he, List.set_getElem_self]
    simp only [World.run, World.step, hi', R.unused hj, bind, Except.bind, e]
    exact h1
  | @destroy us us' ops ks i u hi h ih =>
    intro w R
    cases u with
    | none =>
      obtain ⟨w', h1, h2, h3⟩ := ih _ (rel_destroy_unused R hi)
      refine ⟨w', ?_, h2, h3⟩
      simp only [World.run, World.step, R.unused hi, bind, Except.bind]
      exact h1
    | some c =>
      obtain ⟨k, ho, hk⟩ := R.used hi
      obtain ⟨w', h1, h2, h3⟩ := ih _ (rel_destroy_used R hi ho hk)
      refine ⟨w', ?_, h2, h3⟩
      simp only [World.run, World.step, ho, hk, bind, Except.bind]
      exact h1

/-! ### FFTW -/

/-- **C108**: a careful program never leaves the contract of the library, executes the transforms it asks for in their
order, and no plan outlives the engines. -/
theorem C108_careful_partial {align : ℕ} {ops : List Op} {us : List (Option (Option Call))} {ks : List Kind}
    (h : Careful align [] ops us ks) :
    ∃ w, World.empty.run align ops = .ok w ∧ w.log = ks ∧ ((∀ u ∈ us, u = none) → ∀ p ∈ w.plans, p = none) := by
  obtain ⟨w, h1, R, h3⟩ := careful_run h _ (rel_empty align)
  refine ⟨w, h1, by simpa [World.empty] using h3, fun hall p hp => ?_⟩
  obtain ⟨k, hk⟩ := List.mem_iff_getElem?.mp hp
  cases p with
  | none => rfl
  | some p =>
    obtain ⟨i, hi⟩ := R.own k p hk
    have hlt := (List.getElem?_eq_some_iff.mp hi).1
    have hlt' : i < us.length := by rw [R.len]; exact hlt
    have e := hall us[i] (List.getElem_mem hlt')
    have := R.obj i us[i] _ (List.getElem?_eq_getElem hlt') hi
    rw [e] at this
    exact this.elim

/-- Three cosine transforms in two engines, the second a copy of the unused first. -/
example : ∃ us, Careful 16 [] [.construct, .copy 0, .call 0 ⟨.redft10, 32, 64⟩, .call 0 ⟨.redft10, 96, 256⟩,
    .call 1 ⟨.redft10, 32, 32⟩, .destroy 1, .destroy 0] us [.redft10, .redft10, .redft10] :=
  ⟨_, .construct (.copy rfl (.first rfl (.again rfl ⟨rfl, by decide, rfl, rfl⟩ (.first rfl (.destroy rfl (.destroy rfl
    (.nil _)))))))⟩

/-- **C108, one transform**: the functions that make one transform use any arrays and leave no plan. -/
theorem C108_single (align : ℕ) (c : Call) :
    ∃ w, World.empty.run align (single 0 c) = .ok w ∧ w.log = [c.kind] ∧ ∀ p ∈ w.plans, p = none := by
  obtain ⟨w, h1, h2, h3⟩ := C108_careful_partial (align := align) (ops := single 0 c) (us := [none]) (ks := [c.kind])
    (.construct (.first rfl (.destroy rfl (.nil _))))
  exact ⟨w, h1, h2, h3 (by simp)⟩

/-- **C108, convolution**: with vectors of one alignment, all apart, `conv` and the cross-correlation keep the contract
and leave no plan. -/
theorem C108_conv_partial {align in1 in2 out data1 data2 : ℕ} (h1 : in1 ≠ data1) (h2 : in2 ≠ data2)
    (ha : in1 % align = in2 % align) (hd : data1 % align = data2 % align) :
    ∃ w, World.empty.run align (twoInputs 0 in1 in2 out data1 data2) = .ok w ∧ w.log = [.r2c, .r2c, .c2r] ∧
      ∀ p ∈ w.plans, p = none := by
  obtain ⟨w, e1, e2, e3⟩ := C108_careful_partial (align := align) (ops := twoInputs 0 in1 in2 out data1 data2)
    (us := [none, none]) (ks := [.r2c, .r2c, .c2r])
    (.construct (.construct (.first rfl (.again rfl ⟨rfl, by simp [h1, h2], ha, hd⟩ (.first rfl (.destroy rfl (.destroy rfl
      (.nil _))))))))
  exact ⟨w, e1, e2, e3 (by simp)⟩

example : ∃ w, World.empty.run 16 (twoInputs 0 1024 2048 4096 8192 16384) = .ok w ∧ w.log = [.r2c, .r2c, .c2r] ∧
    ∀ p ∈ w.plans, p = none := C108_conv_partial (by norm_num) (by norm_num) rfl rfl

/-- **C108, convolution with other allocators is violated**: `conv` and `xcorr` take the allocator as a parameter; if it
does not give the two inputs the same alignment, a plan is executed on arrays it was not made for. -/
theorem C108_conv_violates {align in1 in2 out data1 data2 : ℕ} (ha : in1 % align ≠ in2 % align) :
    World.empty.run align (twoInputs 0 in1 in2 out data1 data2) = .error .badHandle := by
  have n : ¬(Plan.make align ⟨.r2c, in1, data1⟩).Accepts align ⟨.r2c, in2, data2⟩ := fun h => ha h.2.2.1
  simp [twoInputs, World.run, World.step, World.empty, World.execute, bind, Except.bind, accepts_self, n]

example : World.empty.run 16 (twoInputs 0 1024 2056 4096 8192 16384) = .error .badHandle :=
  C108_conv_violates (by norm_num)

/-- **C108, other arrays are violated**: an engine that has transformed in place may not be used from one array to
another, and the other way round; nor for arrays of another alignment. -/
theorem C108_arrays_violates {align : ℕ} {c c' : Call}
    (h : ¬(c.src = c.dst ↔ c'.src = c'.dst) ∨ c.src % align ≠ c'.src % align ∨ c.dst % align ≠ c'.dst % align) :
    World.empty.run align [.construct, .call 0 c, .call 0 c'] = .error .badHandle := by
  have n : ¬(Plan.make align c).Accepts align c' := by
    rintro ⟨-, g1, g2, g3⟩
    rcases h with h | h | h
    · exact h g1
    · exact h g2
    · exact h g3
  simp [World.run, World.step, World.empty, World.execute, bind, Except.bind, accepts_self, n]

example : World.empty.run 16 [.construct, .call 0 ⟨.forward, 64, 64⟩, .call 0 ⟨.forward, 64, 128⟩] = .error .badHandle :=
  C108_arrays_violates (by decide)

/-- What a transform reads and writes, complex numbers (`true`) or real ones. -/
def complexData : Edsp.Spectral.Kind → Bool × Bool
  | .forward | .backward => (true, true)
  | .r2c => (false, true)
  | .c2r => (true, false)
  | .dht | .redft10 | .redft01 => (false, false)

/-- **C108, two transforms on one engine are violated**: an engine that has made one transform may not make another that
reads or writes another type of numbers; and if it may, it makes the first transform once more. -/
theorem C108_kinds_violates {align : ℕ} {c c' : Call} :
    (complexData c.kind ≠ complexData c'.kind →
      World.empty.run align [.construct, .call 0 c, .call 0 c'] = .error .badHandle) ∧
    (complexData c.kind = complexData c'.kind → (c.src = c.dst ↔ c'.src = c'.dst) → c.src % align = c'.src % align →
      c.dst % align = c'.dst % align →
      ∃ w, World.empty.run align [.construct, .call 0 c, .call 0 c'] = .ok w ∧ w.log = [c.kind, c.kind]) := by
  constructor
  · intro h
    have n : ¬(Plan.make align c).Accepts align c' := by
      rintro ⟨g, -⟩
      apply h
      revert g
      simp only [Plan.make]
      generalize c.kind = k
      generalize c'.kind = k'
      cases k <;> cases k' <;> simp [executor, complexData]
    simp [World.run, World.step, World.empty, World.execute, bind, Except.bind, accepts_self, n]
  · intro h h1 h2 h3
    have y : (Plan.make align c).Accepts align c' := by
      refine ⟨?_, h1, h2, h3⟩
      revert h
      simp only [Plan.make]
      generalize c.kind = k
      generalize c'.kind = k'
      cases k <;> cases k' <;> simp [executor, complexData]
    have k : (Plan.make align c).kind = c.kind := rfl
    simp [World.run, World.step, World.empty, World.execute, bind, Except.bind, accepts_self, y, k]

example : World.empty.run 16 [.construct, .call 0 ⟨.r2c, 64, 128⟩, .call 0 ⟨.c2r, 64, 128⟩] = .error .badHandle :=
  C108_kinds_violates.1 (by decide)

example : ∃ w, World.empty.run 16 [.construct, .call 0 ⟨.forward, 64, 128⟩, .call 0 ⟨.backward, 64, 128⟩] = .ok w ∧
    w.log = [.forward, .forward] :=
  C108_kinds_violates.2 rfl (by decide) rfl rfl

/-- **C108, copies are violated**: a copy of an engine that has been used destroys its plan once more, in any program. -/
theorem C108_copy_violates {align : ℕ} {w : World} {i h : ℕ} (hi : w.objects[i]? = some (some (some h))) {p : Plan}
    (hp : w.plans[h]? = some (some p)) :
    w.run align [.copy i, .destroy i, .destroy w.objects.length] = .error .badHandle := by
  have hlt := (List.getElem?_eq_some_iff.mp hi).1
  have hlt' := (List.getElem?_eq_some_iff.mp hp).1
  have e1 : (w.objects ++ [some (some h)])[i]? = some (some (some h)) := by rw [List.getElem?_append_left hlt, hi]
  have e2 : ((w.objects ++ [some (some h)]).set i none)[w.objects.length]? = some (some (some h)) := by
    rw [List.getElem?_set_ne (by omega)]
    simp
  have e3 : (w.plans.set h none)[h]? = some none := List.getElem?_set_self hlt'
  simp only [World.run, World.step, hi, e1, hp, e2, e3, bind, Except.bind]

example : ∃ w, World.empty.run 16 [.construct, .call 0 ⟨.forward, 64, 64⟩] = .ok w ∧
    w.run 16 [.copy 0, .destroy 0, .destroy w.objects.length] = .error .badHandle := by
  obtain ⟨w, h1, R, -⟩ := careful_run (align := 16) (ops := [.construct, .call 0 ⟨.forward, 64, 64⟩])
    (.construct (.first rfl (.nil _))) _ (rel_empty 16)
  obtain ⟨k, h2, h3⟩ := R.used (i := 0) (c := ⟨.forward, 64, 64⟩) rfl
  exact ⟨w, h1, C108_copy_violates h2 h3⟩

/-- **C108, assignment is violated**: after assigning a fresh engine to a used one the plan is never destroyed, although
all engines are. -/
theorem C108_assign_violates (align : ℕ) (c : Call) :
    ∃ w, World.empty.run align [.construct, .construct, .call 0 c, .assign 0 1, .destroy 1, .destroy 0] = .ok w ∧
      (∀ o ∈ w.objects, o = none) ∧ ∃ p ∈ w.plans, p ≠ none := by
  refine ⟨⟨[none, none], [some (Plan.make align c)], [c.kind]⟩, ?_, by simp, ⟨_, List.mem_singleton.mpr rfl, by simp⟩⟩
  simp [World.run, World.step, World.empty, World.execute, bind, Except.bind, accepts_self]
  rfl

/-! ### pffft -/

/-- An engine of a size of pffft, of which nothing else has been asked. -/
theorem C108_pffft_partial {dbg real : Bool} {n : ℕ} (hn : PfSize real n) (calls : List (Bool × ℕ × ℕ))
    (hc : ∀ c ∈ calls, c.2.1 % 16 = 0 ∧ c.2.2 % 16 = 0) :
    ∃ w, PfWorld.empty.run dbg (.construct n :: calls.map (fun c => .transform 0 real c.1 c.2.1 c.2.2) ++ [.destroy 0]) =
        .ok w ∧ w.log = calls.map (fun c => (real, c.1)) ∧ (∀ s ∈ w.setups, s = none) ∧ ∀ b ∈ w.works, b = false := by
  have h16 : n % 16 = 0 := by
    obtain ⟨a, b, c, rfl, ha⟩ := hn
    have : 4 ≤ a := by cases real <;> simp at ha <;> omega
    obtain ⟨k, rfl⟩ := Nat.exists_eq_add_of_le this
    apply Nat.mod_eq_zero_of_dvd
    exact ⟨2 ^ k * 3 ^ b * 5 ^ c, by rw [pow_add]; norm_num; ring⟩
  have h0 : PfWorld.empty.step dbg (.construct n) = .ok ⟨[some ⟨none, 0, n⟩], [], [true], []⟩ := by
    simp [PfWorld.step, PfWorld.empty, h16]
  have again : ∀ (calls : List (Bool × ℕ × ℕ)) (l : List (Bool × Bool)),
      (∀ c ∈ calls, c.2.1 % 16 = 0 ∧ c.2.2 % 16 = 0) →
      PfWorld.run dbg ⟨[some ⟨some 0, 0, n⟩], [some real], [true], l⟩
        (calls.map (fun c => PfOp.transform 0 real c.1 c.2.1 c.2.2) ++ [.destroy 0]) =
        .ok ⟨[none], [none], [false], l ++ calls.map (fun c => (real, c.1))⟩ := by
    intro calls
    induction calls with
    | nil => intro l _; simp [PfWorld.run, PfWorld.step, bind, Except.bind]
    | cons c calls ih =>
      intro l h
      have hs : PfWorld.step dbg ⟨[some ⟨some 0, 0, n⟩], [some real], [true], l⟩
          (.transform 0 real c.1 c.2.1 c.2.2) = .ok ⟨[some ⟨some 0, 0, n⟩], [some real], [true], l ++ [(real, c.1)]⟩ := by
        simp [PfWorld.step, PfWorld.prepare, PfWorld.execute, h c List.mem_cons_self]
      simp only [List.map_cons, List.cons_append, PfWorld.run, hs, bind, Except.bind]
      rw [ih _ (fun x hx => h x (List.mem_cons_of_mem _ hx))]
      simp
  cases calls with
  | nil =>
    refine ⟨⟨[none], [], [false], []⟩, ?_, rfl, by simp, by simp⟩
    simp only [List.map_nil, List.cons_append, List.nil_append, PfWorld.run, h0, bind, Except.bind]
    simp [PfWorld.step]
  | cons c calls =>
    have hs : PfWorld.step dbg ⟨[some ⟨none, 0, n⟩], [], [true], []⟩
        (.transform 0 real c.1 c.2.1 c.2.2) = .ok ⟨[some ⟨some 0, 0, n⟩], [some real], [true], [(real, c.1)]⟩ := by
      simp [PfWorld.step, PfWorld.prepare, PfWorld.execute, hc c List.mem_cons_self, hn]
    refine ⟨⟨[none], [none], [false], (c :: calls).map (fun c => (real, c.1))⟩, ?_, rfl, by simp, by simp⟩
    simp only [List.map_cons, List.cons_append, PfWorld.run, h0, hs, bind, Except.bind]
    rw [again calls _ (fun x hx => hc x (List.mem_cons_of_mem _ hx))]
    simp

example : PfSize true 96 := ⟨5, 1, 0, by norm_num, by norm_num⟩

theorem pow_dvd_size {n k : ℕ} (h : n % 2 ^ k ≠ 0) {a b c : ℕ} (e : n = 2 ^ a * 3 ^ b * 5 ^ c) : a < k := by
  by_contra g
  obtain ⟨d, rfl⟩ := Nat.exists_eq_add_of_le (not_lt.mp g)
  apply h
  apply Nat.mod_eq_zero_of_dvd
  exact ⟨2 ^ d * 3 ^ b * 5 ^ c, by rw [e, pow_add]; ring⟩

/-- **C108, sizes of pffft are violated**: the constructor accepts every multiple of 16, but a real transform needs a
multiple of 32: there is no setup, and the transform uses none. -/
theorem C108_pffft_real_violates {dbg forward : Bool} {n : ℕ} (h16 : n % 16 = 0) (h32 : n % 32 ≠ 0) {src dst : ℕ}
    (hs : src % 16 = 0) (hd : dst % 16 = 0) :
    PfWorld.empty.run dbg [.construct n, .transform 0 true forward src dst] = .error .badHandle := by
  have hn : ¬PfSize true n := by
    rintro ⟨a, b, c, e, ha⟩
    have := pow_dvd_size (k := 5) (by simpa using h32) e
    simp at ha
    omega
  simp [PfWorld.run, PfWorld.step, PfWorld.empty, PfWorld.prepare, PfWorld.execute, bind, Except.bind, h16, hn, hs, hd]

example : PfWorld.empty.run true [.construct 48, .transform 0 true true 64 128] = .error .badHandle :=
  C108_pffft_real_violates (by norm_num) (by norm_num) (by norm_num) (by norm_num)

/-- **C108, sizes of pffft are violated**: nor is there a setup, real or complex, for a multiple of 7. -/
theorem C108_pffft_factor_violates {dbg real forward : Bool} {n : ℕ} (h16 : n % 16 = 0) (h7 : n % 7 = 0)
    {src dst : ℕ} (hs : src % 16 = 0) (hd : dst % 16 = 0) :
    PfWorld.empty.run dbg [.construct n, .transform 0 real forward src dst] = .error .badHandle := by
  have hn : ¬PfSize real n := by
    rintro ⟨a, b, c, e, ha⟩
    have h : (7 : ℕ) ∣ 2 ^ a * 3 ^ b * 5 ^ c := by rw [← e]; exact Nat.dvd_of_mod_eq_zero h7
    have p7 : Nat.Prime 7 := by norm_num
    rcases (Nat.Prime.dvd_mul p7).mp h with h | h
    · rcases (Nat.Prime.dvd_mul p7).mp h with h | h
      · exact absurd (Nat.Prime.dvd_of_dvd_pow p7 h) (by norm_num)
      · exact absurd (Nat.Prime.dvd_of_dvd_pow p7 h) (by norm_num)
    · exact absurd (Nat.Prime.dvd_of_dvd_pow p7 h) (by norm_num)
  simp [PfWorld.run, PfWorld.step, PfWorld.empty, PfWorld.prepare, PfWorld.execute, bind, Except.bind, h16, hn, hs, hd]

example : PfWorld.empty.run true [.construct 112, .transform 0 false true 64 128] = .error .badHandle :=
  C108_pffft_factor_violates (by norm_num) (by norm_num) (by norm_num) (by norm_num)

/-- **C108, mixed use of a pffft engine is violated**: after a cosine transform, which needs no setup but makes a real
one, a complex transform uses that. -/
theorem C108_pffft_mixed_violates {dbg forward : Bool} {n : ℕ} (hn : PfSize true n) (h16 : n % 16 = 0) {src dst : ℕ}
    (hs : src % 16 = 0) (hd : dst % 16 = 0) :
    PfWorld.empty.run dbg [.construct n, .dct 0, .transform 0 false forward src dst] = .error .badHandle := by
  simp [PfWorld.run, PfWorld.step, PfWorld.empty, PfWorld.prepare, PfWorld.execute, bind, Except.bind, h16, hn, hs, hd]

example : PfWorld.empty.run true [.construct 32, .dct 0, .transform 0 false true 64 128] = .error .badHandle :=
  C108_pffft_mixed_violates ⟨5, 0, 0, by norm_num, by norm_num⟩ (by norm_num) (by norm_num) (by norm_num)

/-- **C108, copies of a pffft engine are violated**: also a copy of an unused engine, as both free the work buffer. -/
theorem C108_pffft_copy_violates {dbg : Bool} {n : ℕ} (h16 : n % 16 = 0) :
    PfWorld.empty.run dbg [.construct n, .copy 0, .destroy 1, .destroy 0] = .error .badHandle := by
  simp [PfWorld.run, PfWorld.step, PfWorld.empty, bind, Except.bind, h16]

example : PfWorld.empty.run true [.construct 32, .copy 0, .destroy 1, .destroy 0] = .error .badHandle :=
  C108_pffft_copy_violates (by norm_num)

end Edsp.C108
