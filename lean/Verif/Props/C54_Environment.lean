import Verif.Model.Environment

/-!
# C54: the environment under every schedule
-/

namespace Edsp.Environ

open Edsp.Spec.Environ

/-! ### Helper lemmas -/

/-- The map an environment stands for. -/
def Env.map (e : Env) : Map := fun k => (e.entry k).bind fun p => (e.heap[p]?).join

/-- Every name leads to a text of its own, and none is empty. -/
structure Env.Ok (e : Env) : Prop where
  valid : ∀ k p, e.entry k = some p → ∃ s, e.heap[p]? = some (some s)
  own : ∀ k k' p, e.entry k = some p → e.entry k' = some p → k = k'
  named : e.entry [] = none

/-- The view covers its whole zero-terminated text. -/
def View.Whole (v : View) : Prop := ∃ s, v.chars = some s ∧ v.len = s.length

/-- Calls whose views cover their texts; names to be set have no `=`. -/
def Good : Op → Prop
  | .get k => k.Whole
  | .exist k => k.Whole
  | .set k v _ => k.Whole ∧ v.Whole ∧ '=' ∉ k.text

theorem View.Whole.text {v : View} (h : v.Whole) : v.chars = some v.text ∧ (v.len = 0 ↔ v.text = []) := by
  obtain ⟨s, h1, h2⟩ := h
  have : v.text = s := by simp [View.text, h1, h2]
  rw [this]
  exact ⟨h1, by rw [h2, List.length_eq_zero_iff]⟩

theorem map_of_entry {e : Env} (ok : e.Ok) {k : Str} {p : Nat} (h : e.entry k = some p) :
    ∃ s, e.heap[p]? = some (some s) ∧ e.map k = some s := by
  obtain ⟨s, hs⟩ := ok.valid k p h
  exact ⟨s, hs, by simp [Env.map, h, hs]⟩

theorem map_isSome {e : Env} (ok : e.Ok) (k : Str) : (e.map k).isSome = (e.entry k).isSome := by
  cases h : e.entry k with
  | none => simp [Env.map, h]
  | some p =>
    obtain ⟨s, -, h2⟩ := map_of_entry ok h
    simp [h2]

theorem look_good {e : Env} {op : Op} (h : Good op) : ∃ p, look e op = .ok p ∧
    match op with
    | .get k => p = e.entry k.text
    | .exist k => p = e.entry k.text
    | .set k _ _ => k.text ≠ [] → p = e.entry k.text := by
  cases op with
  | get k => exact ⟨e.entry k.text, by simp [look, getenv, (View.Whole.text h).1], rfl⟩
  | exist k => exact ⟨e.entry k.text, by simp [look, getenv, (View.Whole.text h).1], rfl⟩
  | set k v o =>
    obtain ⟨hk, hv, -⟩ := h
    by_cases h0 : k.len = 0
    · exact ⟨none, by simp [look, h0], fun hne => absurd ((View.Whole.text hk).2.mp h0) hne⟩
    · exact ⟨e.entry k.text, by simp [look, h0, getenv, (View.Whole.text hk).1, (View.Whole.text hv).1], fun _ => rfl⟩

/-- Writing a text to a name at a fresh address, the addresses in `dead` released. -/
theorem insert_ok {e : Env} (ok : e.Ok) {name value : Str} (hn : name ≠ []) (heap : List (Option Str))
    (hl : heap.length = e.heap.length)
    (hs : ∀ k q, k ≠ name → e.entry k = some q → heap[q]? = e.heap[q]?) :
    let e' : Env := ⟨fun x => if x = name then some e.heap.length else e.entry x, heap ++ [some value]⟩
    e'.Ok ∧ e'.map = fun x => if x = name then some value else e.map x := by
  intro e'
  have hlt : ∀ k q, e.entry k = some q → q < e.heap.length := by
    intro k q h
    obtain ⟨s, h2⟩ := ok.valid k q h
    exact (List.getElem?_eq_some_iff.mp h2).1
  have hold : ∀ k q, k ≠ name → e.entry k = some q → e'.heap[q]? = e.heap[q]? := by
    intro k q hk h
    have := hlt k q h
    show (heap ++ [some value])[q]? = _
    rw [List.getElem?_append_left (by omega), hs k q hk h]
  have hnew : e'.heap[e.heap.length]? = some (some value) := by
    show (heap ++ [some value])[e.heap.length]? = _
    rw [← hl, List.getElem?_append_right (by omega)]
    simp
  have e1 : ∀ k, k ≠ name → e'.entry k = e.entry k := fun k hk => if_neg hk
  have e2 : e'.entry name = some e.heap.length := if_pos rfl
  refine ⟨⟨?_, ?_, ?_⟩, ?_⟩
  · intro k p h
    by_cases hk : k = name
    · subst hk
      rw [e2, Option.some.injEq] at h
      exact ⟨value, by rw [← h, hnew]⟩
    · rw [e1 k hk] at h
      rw [hold k p hk h]
      exact ok.valid k p h
  · intro k k' p h h'
    by_cases hk : k = name <;> by_cases hk' : k' = name
    · rw [hk, hk']
    · rw [hk, e2, Option.some.injEq] at h
      rw [e1 k' hk'] at h'
      have := hlt k' p h'
      omega
    · rw [hk', e2, Option.some.injEq] at h'
      rw [e1 k hk] at h
      have := hlt k p h
      omega
    · rw [e1 k hk] at h
      rw [e1 k' hk'] at h'
      exact ok.own k k' p h h'
  · rw [e1 [] (Ne.symm hn), ok.named]
  · funext x
    by_cases hx : x = name
    · simp [Env.map, hx, e2, hnew]
    · simp only [Env.map, e1 x hx, if_neg hx]
      cases h : e.entry x with
      | none => rfl
      | some q => simp [hold x q hx h]

/-- The body of a call does what the call means. -/
theorem act_ok {e : Env} (ok : e.Ok) {op : Op} (hg : Good op) {p : Option Nat} (hp : look e op = .ok p) :
    (act e op p).1.Ok ∧
      apply e.map op.call = ((act e op p).1.map, observe (act e op p).1 (act e op p).2) := by
  obtain ⟨p', hp', h⟩ := look_good (e := e) hg
  rw [hp, Except.ok.injEq] at hp'
  subst hp'
  cases op with
  | get k =>
    dsimp only at h
    have hk := View.Whole.text hg
    simp only [act, Op.call, apply]
    by_cases h0 : k.len = 0
    · rw [if_pos h0, if_pos (hk.2.mp h0)]
      exact ⟨ok, rfl⟩
    · rw [if_neg h0, if_neg (fun h => h0 (hk.2.mpr h)), h]
      cases he : e.entry k.text with
      | none => exact ⟨ok, by simp [Env.map, he, observe, notFound]⟩
      | some q =>
        obtain ⟨s, h1, h2⟩ := map_of_entry ok he
        exact ⟨ok, by simp [h2, observe, h1]⟩
  | exist k =>
    dsimp only at h
    refine ⟨ok, ?_⟩
    simp only [act, Op.call, apply, observe, map_isSome ok, h]
  | set k v o =>
    dsimp only at h
    obtain ⟨hk, hv, hq⟩ := hg
    have hk := View.Whole.text hk
    have hv := View.Whole.text hv
    simp only [act, Op.call, apply]
    by_cases h0 : k.len = 0
    · rw [if_pos h0, if_pos (hk.2.mp h0)]
      exact ⟨ok, rfl⟩
    · have hne : k.text ≠ [] := fun h => h0 (hk.2.mpr h)
      rw [if_neg h0, if_neg hne, if_neg hq, h hne, map_isSome ok, hk.1, hv.1]
      simp only [Option.getD_some, store]
      rw [if_neg (fun h' => h'.elim hne hq)]
      cases he : e.entry k.text with
      | none =>
        obtain ⟨i1, i2⟩ := insert_ok ok (value := v.text) hne e.heap rfl fun _ _ _ _ => rfl
        simp only [Option.isSome_none, Bool.false_eq_true, false_and, if_false]
        exact ⟨i1, by rw [i2]; rfl⟩
      | some q =>
        cases o with
        | false => exact ⟨ok, by simp [observe]⟩
        | true =>
          obtain ⟨i1, i2⟩ := insert_ok ok (value := v.text) hne (e.heap.set q none) List.length_set (by
            intro k' q' hk' hq'
            rw [List.getElem?_set_ne]
            rintro rfl
            exact hk' (ok.own _ _ _ hq' he))
          simp only [if_true, Bool.true_eq_false, and_false, if_false]
          exact ⟨i1, by rw [i2]; rfl⟩

theorem replay_append (m : Map) : ∀ (a b : List Call),
    replay m (a ++ b) = ((replay (replay m a).1 b).1, (replay m a).2 ++ (replay (replay m a).1 b).2)
  | [], b => rfl
  | c :: a, b => by simp [replay, replay_append (apply m c).1 a b]

theorem replay_length (m : Map) : ∀ a : List Call, (replay m a).2.length = a.length
  | [] => rfl
  | c :: a => by simp [replay, replay_length (apply m c).1 a]

/-- What the threads not holding the mutex, and the one holding it, may be doing. -/
def Stage (s : State) : Pc → Prop
  | .idle => False
  | .entered op => Good op ∧ s.log = s.done
  | .looked op p => Good op ∧ look s.env op = .ok p ∧ s.log = s.done
  | .finished op r => s.log = s.done ++ [(op, observe s.env r)]

structure Inv (e : Env) (s : State) : Prop where
  ok : s.env.Ok
  replays : replay e.map (s.log.map fun x => x.1.call) = (s.env.map, s.log.map (·.2))
  free : s.holder = none → s.log = s.done
  others : ∀ u, s.holder ≠ some u → s.pc u = .idle
  stage : ∀ t, s.holder = some t → Stage s (s.pc t)

theorem inv_of_reach {e : Env} (h0 : e.Ok) {s : State} (h : Reach Good e s) : Inv e s := by
  induction h with
  | start => exact ⟨h0, rfl, fun _ => rfl, fun _ _ => rfl, fun t h => by simp [initial] at h⟩
  | @step s s1 _ hs ih =>
    have holds : ∀ (s : State), Inv e s → ∀ t, s.pc t ≠ .idle → s.holder = some t := by
      intro s ih t h
      by_cases hh : s.holder = some t
      · exact hh
      · exact absurd (ih.others t hh) h
    have upd_same : ∀ (pc : Nat → Pc) t p, upd pc t p t = p := fun pc t p => if_pos rfl
    have upd_other : ∀ (pc : Nat → Pc) {t u} p, u ≠ t → upd pc t p u = pc u := fun pc _ _ p h => if_neg h
    cases hs with
    | acquire t op hg hi hf =>
      refine ⟨ih.ok, ih.replays, fun h => by simp at h, ?_, ?_⟩
      · intro u hu
        have hne : u ≠ t := fun h => hu (by rw [h])
        show upd s.pc t _ u = _
        rw [upd_other _ _ hne]
        exact ih.others u (by rw [hf]; simp)
      · intro u hu
        simp only [Option.some.injEq] at hu
        subst hu
        show Stage _ (upd s.pc t _ t)
        rw [upd_same]
        exact ⟨hg, ih.free hf⟩
    | look t op p hpc hl =>
      have hh := holds s ih t (by rw [hpc]; simp)
      have st := ih.stage t hh
      rw [hpc] at st
      refine ⟨ih.ok, ih.replays, fun h => by simp [hh] at h, ?_, ?_⟩
      · intro u hu
        have hne : u ≠ t := fun h => hu (by rw [h]; exact hh)
        show upd s.pc t _ u = _
        rw [upd_other _ _ hne]
        exact ih.others u hu
      · intro u hu
        have hu' : s.holder = some u := hu
        rw [hh, Option.some.injEq] at hu'
        subst hu'
        show Stage _ (upd s.pc t _ t)
        rw [upd_same]
        exact ⟨st.1, hl, st.2⟩
    | act t op p hpc =>
      have hh := holds s ih t (by rw [hpc]; simp)
      have st := ih.stage t hh
      rw [hpc] at st
      obtain ⟨hg, hl, hlog⟩ := st
      obtain ⟨a1, a2⟩ := act_ok ih.ok hg hl
      refine ⟨a1, ?_, fun h => by simp [hh] at h, ?_, ?_⟩
      · show replay e.map ((s.log ++ _).map _) = _
        rw [List.map_append, replay_append, ih.replays]
        simp only [List.map_cons, List.map_nil, replay, a2, List.map_append]
      · intro u hu
        have hne : u ≠ t := fun h => hu (by rw [h]; exact hh)
        show upd s.pc t _ u = _
        rw [upd_other _ _ hne]
        exact ih.others u hu
      · intro u hu
        have hu' : s.holder = some u := hu
        rw [hh, Option.some.injEq] at hu'
        subst hu'
        show Stage _ (upd s.pc t _ t)
        rw [upd_same]
        show s.log ++ _ = s.done ++ _
        rw [hlog]
    | release t op r hpc =>
      have hh := holds s ih t (by rw [hpc]; simp)
      have st := ih.stage t hh
      rw [hpc] at st
      refine ⟨ih.ok, ih.replays, fun _ => st, ?_, fun u hu => by simp at hu⟩
      intro u _
      show upd s.pc t _ u = _
      by_cases hne : u = t
      · rw [hne, upd_same]
      · rw [upd_other _ _ hne]
        refine ih.others u fun h => hne ?_
        rw [hh, Option.some.injEq] at h
        exact h.symm

/-! ### Property theorems -/

/-- Under every schedule of every number of threads the calls that returned behave like the same calls made one after
the other in the order they returned, and what they did is what the environment now holds but for at most one call
that is still inside. The views must cover their texts and names to be set must not contain `=`. -/
theorem C54_atomic_partial {e : Env} (h0 : e.Ok) {s : State} (h : Reach Good e s) :
    (replay e.map (s.done.map fun x => x.1.call)).2 = s.done.map (·.2) ∧
    (∃ pending, pending.length ≤ 1 ∧ s.log = s.done ++ pending ∧
      (replay e.map (s.done.map (fun x => x.1.call) ++ pending.map fun x => x.1.call)).1 = s.env.map) ∧
    (s.holder = none → (replay e.map (s.done.map fun x => x.1.call)).1 = s.env.map) := by
  have inv := inv_of_reach h0 h
  have hp : ∃ pending, pending.length ≤ 1 ∧ s.log = s.done ++ pending := by
    cases hh : s.holder with
    | none => exact ⟨[], by simp, by simpa using inv.free hh⟩
    | some t =>
      have st := inv.stage t hh
      cases hpc : s.pc t with
      | idle => rw [hpc] at st; exact st.elim
      | entered op => rw [hpc] at st; exact ⟨[], by simp, by simpa using st.2⟩
      | looked op p => rw [hpc] at st; exact ⟨[], by simp, by simpa using st.2.2⟩
      | finished op r => rw [hpc] at st; exact ⟨_, by simp, st⟩
  obtain ⟨pending, hl, hlog⟩ := hp
  have r := inv.replays
  rw [hlog, List.map_append, List.map_append, replay_append, Prod.mk.injEq] at r
  refine ⟨?_, ⟨pending, hl, hlog, ?_⟩, ?_⟩
  · have := congrArg (List.take s.done.length) r.2
    rwa [List.take_left' (by rw [replay_length, List.length_map]), List.take_left' (by rw [List.length_map])] at this
  · rw [replay_append]
    exact r.1
  · intro hn
    have := inv.replays
    rw [inv.free hn] at this
    rw [this]

/-- At most one thread is inside, and it can always go on; if none is, any thread may enter. -/
theorem C54_progress_partial {e : Env} (h0 : e.Ok) {s : State} (h : Reach Good e s) :
    (∀ t u, s.pc t ≠ .idle → s.pc u ≠ .idle → t = u) ∧
    (∀ t, s.pc t ≠ .idle → ∃ s', Step Good s s' ∧ s'.pc t ≠ s.pc t) ∧
    ((∀ t, s.pc t = .idle) → ∀ t op, Good op → ∃ s', Step Good s s' ∧ s'.pc t = .entered op) := by
  have inv := inv_of_reach h0 h
  have holds : ∀ t, s.pc t ≠ .idle → s.holder = some t := by
    intro t h
    by_cases hh : s.holder = some t
    · exact hh
    · exact absurd (inv.others t hh) h
  have upd_same : ∀ (pc : Nat → Pc) t p, upd pc t p t = p := fun pc t p => if_pos rfl
  refine ⟨?_, ?_, ?_⟩
  · intro t u ht hu
    have := holds t ht
    rw [holds u hu, Option.some.injEq] at this
    exact this.symm
  · intro t ht
    have st := inv.stage t (holds t ht)
    cases hpc : s.pc t with
    | idle => exact absurd hpc ht
    | entered op =>
      rw [hpc] at st
      obtain ⟨p, hp, -⟩ := look_good (e := s.env) st.1
      exact ⟨_, .look s t op p hpc hp, by show upd s.pc t _ t ≠ _; rw [upd_same]; simp⟩
    | looked op p => exact ⟨_, .act s t op p hpc, by show upd s.pc t _ t ≠ _; rw [upd_same]; simp⟩
    | finished op r => exact ⟨_, .release s t op r hpc, by show upd s.pc t _ t ≠ _; rw [upd_same]; simp⟩
  · intro hidle t op hg
    have hf : s.holder = none := by
      cases hh : s.holder with
      | none => rfl
      | some u =>
        have st := inv.stage u hh
        rw [hidle u] at st
        exact st.elim
    exact ⟨_, .acquire s t op hg (hidle t) hf, upd_same _ _ _⟩

theorem apply_other {m : Map} {k : Str} {c : Call} (h : ¬ c.sets k) : (apply m c).1 k = m k := by
  cases c with
  | get k' =>
    simp only [apply]
    split
    · rfl
    · split <;> rfl
  | exist k' => rfl
  | set k' v o =>
    have hne : k ≠ k' := fun h' => h h'.symm
    simp only [apply]
    split
    · rfl
    · split
      · rfl
      · split
        · rfl
        · exact if_neg hne

theorem replay_other {k : Str} : ∀ (cs : List Call) (m : Map), (∀ c ∈ cs, ¬ c.sets k) → (replay m cs).1 k = m k
  | [], _, _ => rfl
  | c :: cs, m, h => by
    rw [replay]
    show (replay (apply m c).1 cs).1 k = m k
    rw [replay_other cs _ fun c' hc' => h c' (List.mem_cons_of_mem _ hc'), apply_other (h c List.mem_cons_self)]

/-- A `get_env` that returns after a successful overwriting `set_env` of the same name, no other `set_env` of it
having returned in between, sees the value that was set. -/
theorem C54_set_get_partial {e : Env} (h0 : e.Ok) {s : State} (h : Reach Good e s) {k k' v : View}
    {pre mid post : List (Op × Out)} {o1 o2 : Out} (hk : k'.text = k.text) (hne : k.text ≠ [])
    (hd : s.done = pre ++ (.set k v true, o1) :: (mid ++ (.get k', o2) :: post))
    (hm : ∀ x ∈ mid, ¬ x.1.call.sets k.text) (hq : '=' ∉ k.text) : o1 = .code 0 ∧ o2 = .text v.text := by
  have r := (C54_atomic_partial h0 h).1
  rw [hd] at r
  simp only [List.map_append, List.map_cons] at r
  rw [replay_append] at r
  have r := (List.append_inj r (by rw [replay_length, List.length_map, List.length_map])).2
  generalize (replay e.map (pre.map fun x => x.1.call)).1 = m at r
  rw [replay] at r
  simp only [List.cons.injEq] at r
  obtain ⟨r1, r⟩ := r
  have a : apply m (Op.set k v true).call = (fun x => if x = k.text then some v.text else m x, .code 0) := by
    simp only [Op.call, apply]
    rw [if_neg hne, if_neg hq, if_neg (by simp)]
  rw [a] at r r1
  refine ⟨r1.symm, ?_⟩
  rw [replay_append] at r
  have r := (List.append_inj r (by rw [replay_length, List.length_map, List.length_map])).2
  have e1 := replay_other (k := k.text) (mid.map fun x => x.1.call)
    (fun x => if x = k.text then some v.text else m x) (by
      intro c hc
      obtain ⟨x, hx, rfl⟩ := List.mem_map.mp hc
      exact hm x hx)
  rw [if_pos rfl] at e1
  revert r e1
  generalize (replay (fun x => if x = k.text then some v.text else m x) (mid.map fun x => x.1.call)).1 = m'
  intro r e1
  rw [replay] at r
  simp only [List.cons.injEq] at r
  rw [← r.1]
  simp only [Op.call, apply, hk]
  rw [if_neg hne, e1]

/-- `exist` is true exactly if `get_env` of the same name just before succeeded. -/
theorem C54_exist_partial {e : Env} (h0 : e.Ok) {s : State} (h : Reach Good e s) {k k' : View}
    {pre mid post : List (Op × Out)} {o1 o2 : Out} (hk : k'.text = k.text)
    (hd : s.done = pre ++ (.get k, o1) :: (mid ++ (.exist k', o2) :: post))
    (hm : ∀ x ∈ mid, ¬ x.1.call.sets k.text) :
    (o2 = .bool true ∧ ∃ t, o1 = .text t) ∨ (o2 = .bool false ∧ ∃ c, o1 = .code c ∧ c ≠ 0) := by
  have r := (C54_atomic_partial h0 h).1
  rw [hd] at r
  simp only [List.map_append, List.map_cons] at r
  rw [replay_append] at r
  have hempty : ∀ (cs : List Call) (m : Map), m [] = none → (replay m cs).1 [] = none := by
    intro cs
    induction cs with
    | nil => exact fun _ h => h
    | cons c cs ih =>
      intro m hm
      refine ih _ ?_
      by_cases hc : c.sets []
      · cases c with
        | get => exact hc.elim
        | exist => exact hc.elim
        | set k'' v o =>
          have : k'' = [] := hc
          simp [apply, this, hm]
      · rw [apply_other hc, hm]
  have hm0 := hempty (pre.map fun x => x.1.call) e.map (by simp [Env.map, h0.named])
  have r := (List.append_inj r (by rw [replay_length, List.length_map, List.length_map])).2
  revert r hm0
  generalize (replay e.map (pre.map fun x => x.1.call)).1 = m
  intro hm0 r
  rw [replay] at r
  simp only [List.cons.injEq] at r
  obtain ⟨r1, r⟩ := r
  have hg : ∀ c : Call, c = (Op.get k).call → (apply m c).1 = m := by
    rintro c rfl
    simp only [Op.call, apply]
    split
    · rfl
    · split <;> rfl
  rw [hg _ rfl, replay_append] at r
  have r := (List.append_inj r (by rw [replay_length, List.length_map, List.length_map])).2
  have e1 := replay_other (k := k.text) (mid.map fun x => x.1.call) m (by
      intro c hc
      obtain ⟨x, hx, rfl⟩ := List.mem_map.mp hc
      exact hm x hx)
  revert r e1
  generalize (replay m (mid.map fun x => x.1.call)).1 = m'
  intro r e1
  rw [replay] at r
  have r := (List.cons.inj r).1
  simp only [Op.call, apply, hk] at r r1
  rw [← r, ← r1, e1]
  by_cases hk0 : k.text = []
  · rw [hk0, hm0, if_pos rfl]
    exact .inr ⟨rfl, empty, rfl, by decide⟩
  · rw [if_neg hk0]
    cases m k.text with
    | none => exact .inr ⟨rfl, notFound, rfl, by decide⟩
    | some v => exact .inl ⟨rfl, v, rfl⟩

/-! ### A schedule -/

/-- An environment with the variable A = x. -/
def sample : Env := ⟨fun k => if k = ['A'] then some 0 else none, [some ['x']]⟩

theorem sample_ok : sample.Ok := by
  refine ⟨?_, ?_, rfl⟩
  · intro k p h
    simp only [sample] at h
    split at h
    · cases h; exact ⟨['x'], rfl⟩
    · cases h
  · intro k k' p h h'
    simp only [sample] at h h'
    split at h <;> split at h'
    · rename_i a b; rw [a, b]
    · cases h'
    · cases h
    · cases h

def nameA : View := ⟨some ['A'], 1⟩
def textY : View := ⟨some ['y'], 1⟩

/-- One whole call by a thread when nobody is inside. -/
theorem reach_call {good : Op → Prop} {e : Env} {s : State} (h : Reach good e s) (t : Nat) {op : Op} (hg : good op)
    (hi : s.pc t = .idle) (hf : s.holder = none) {p : Option Nat} (hl : look s.env op = .ok p) :
    ∃ s', Reach good e s' ∧ s'.env = (act s.env op p).1 ∧ s'.holder = none ∧ (∀ u, s.pc u = .idle → s'.pc u = .idle) ∧
      s'.done = s.done ++ [(op, observe (act s.env op p).1 (act s.env op p).2)] := by
  have u : ∀ (pc : Nat → Pc) p, upd pc t p t = p := fun pc p => if_pos rfl
  have h1 := Reach.step h (.acquire s t op hg hi hf)
  have h2 := Reach.step h1 (.look _ t op p (u _ _) hl)
  have h3 := Reach.step h2 (.act _ t op p (u _ _))
  have h4 := Reach.step h3 (.release _ t op _ (u _ _))
  refine ⟨_, h4, rfl, rfl, ?_, rfl⟩
  intro v hv
  show upd _ t _ v = _
  by_cases hvt : v = t
  · rw [hvt, u]
  · simp only [upd, if_neg hvt, hv]

/-- Thread 0 reads A, thread 1 sets it to y, thread 0 reads it again: the theorems apply. -/
example : ∃ s, Reach Good sample s ∧ s.done = [(.get nameA, .text ['x']), (.set nameA textY true, .code 0),
    (.get nameA, .text ['y'])] := by
  have g : Good (.get nameA) := ⟨['A'], rfl, rfl⟩
  have gs : Good (.set nameA textY true) := ⟨⟨['A'], rfl, rfl⟩, ⟨['y'], rfl, rfl⟩, by decide⟩
  obtain ⟨s1, r1, e1, f1, i1, d1⟩ := reach_call (.start (good := Good) (e := sample)) 0 g rfl rfl (p := some 0) rfl
  obtain ⟨s2, r2, e2, f2, i2, d2⟩ := reach_call r1 1 gs (i1 1 rfl) f1 (p := some 0) (by rw [e1]; rfl)
  obtain ⟨s3, r3, e3, f3, i3, d3⟩ := reach_call r2 0 g (i2 0 (i1 0 rfl)) f2 (p := some 1) (by rw [e2, e1]; rfl)
  refine ⟨s3, r3, ?_⟩
  rw [d3, d2, d1, e2, e1]
  rfl

/-! ### Violations -/

/-- C54 is violated by what `get_env` returns: a view into the environment, read after the mutex is given back. Thread
0 is told that A is x, thread 1 sets A, and the text thread 0 holds is gone. -/
theorem C54_view_violates : ∃ s s' p, Reach Good sample s ∧ s.done = [(.get nameA, .text ['x'])] ∧
    act sample (.get nameA) (some 0) = (sample, .value p) ∧ observe s.env (.value p) = .text ['x'] ∧
    Reach Good sample s' ∧ s'.done = s.done ++ [(.set nameA textY true, .code 0)] ∧
    observe s'.env (.value p) = .gone := by
  have g : Good (.get nameA) := ⟨['A'], rfl, rfl⟩
  have gs : Good (.set nameA textY true) := ⟨⟨['A'], rfl, rfl⟩, ⟨['y'], rfl, rfl⟩, by decide⟩
  obtain ⟨s1, r1, e1, f1, i1, d1⟩ := reach_call (.start (good := Good) (e := sample)) 0 g rfl rfl (p := some 0) rfl
  obtain ⟨s2, r2, e2, f2, i2, d2⟩ := reach_call r1 1 gs (i1 1 rfl) f1 (p := some 0) (by rw [e1]; rfl)
  refine ⟨s1, s2, 0, r1, by rw [d1]; rfl, rfl, by rw [e1]; rfl, r2, by rw [d2, e1]; rfl, by rw [e2, e1]; rfl⟩

/-- C54 is violated for a view that does not end where its text ends: asked for A, the first character of "AB", the
library looks for AB. -/
theorem C54_part_violates : ∃ s, Reach (fun _ => True) sample s ∧
    s.done = [(.get ⟨some ['A', 'B'], 1⟩, .code notFound)] ∧ (View.mk (some ['A', 'B']) 1).text = ['A'] ∧
    (apply sample.map (Op.get ⟨some ['A', 'B'], 1⟩).call).2 = .text ['x'] := by
  obtain ⟨s1, r1, e1, f1, i1, d1⟩ := reach_call (.start (good := fun _ => True) (e := sample)) 0
    (op := .get ⟨some ['A', 'B'], 1⟩) trivial rfl rfl (p := none) rfl
  exact ⟨s1, r1, by rw [d1]; rfl, rfl, rfl⟩

/-- C54 is violated for a default view: `get_env` passes its null pointer on before it looks at the length. -/
theorem C54_null_violates (e : Env) : look e (.get ⟨none, 0⟩) = .error .badHandle ∧
    (apply e.map (Op.get ⟨none, 0⟩).call).2 = .code empty := by
  constructor
  · rfl
  · simp [Op.call, apply, View.text]

/-- C54 is violated for a name with `=`: the code is that of an unknown error, not of an invalid argument. -/
theorem C54_invalid_violates (e : Env) (p : Option Nat) :
    (act e (.set ⟨some ['A', '='], 2⟩ textY true) p).2 = .code (-1) ∧
    (apply e.map (Op.set ⟨some ['A', '='], 2⟩ textY true).call).2 = .code invalidArgument := by
  constructor
  · simp [act, store]
  · simp [Op.call, apply, View.text]

end Edsp.Environ
