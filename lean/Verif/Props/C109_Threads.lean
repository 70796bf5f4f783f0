import Verif.Model.Threads

/-!
# C109: threads that work on different objects do not interfere
-/

namespace Edsp.C109
open Edsp.Threads

/-! ### Threads that share nothing -/

/-- The call reads the object `k` of the program. -/
def Reads (k : ℕ) : Call → Prop
  | .work r _ => k ∈ r
  | .transform _ r _ => k ∈ r
  | .spectral r _ => k ∈ r
  | _ => False

/-- The call changes the object `k` of the program. -/
def Writes (k : ℕ) : Call → Prop
  | .work _ w => k ∈ w
  | .transform _ _ w => k ∈ w
  | .spectral _ w => k ∈ w
  | _ => False

/-- The call makes or destroys an FFT plan. -/
def Plans : Call → Prop
  | .transform false _ _ => True
  | .discard => True
  | .spectral _ _ => True
  | _ => False

/-- What two calls in different threads must not do. -/
structure Apart (c d : Call) : Prop where
  objects : ∀ k, Writes k c → ¬Reads k d ∧ ¬Writes k d
  plans : Plans c → ¬Plans d
  name : c = .setName → d ≠ .setName ∧ d ≠ .getName ∧ d ≠ .message
  level : c = .setLevel → d ≠ .setLevel ∧ d ≠ .getLevel
  path : c = .setPath → d ≠ .setPath ∧ d ≠ .getPath
  environment : c = .setEnv → d ≠ .useEnv

/-! ### Helper lemmas -/

/-- The accesses left to a thread with calls `cs` that holds the mutex or not: where they come from, and that the
environment is accessed with the mutex. -/
def Good (cs : List Call) : Bool → List Act → Prop
  | b, [] => b = false
  | b, .read l :: as =>
    (match l with
      | .planner => False
      | .level => .getLevel ∈ cs
      | .path => .getPath ∈ cs
      | .name => .getName ∈ cs ∨ .message ∈ cs
      | .environment => b = true ∨ .useEnv ∈ cs
      | .object k => ∃ c ∈ cs, Reads k c) ∧ Good cs b as
  | b, .write l :: as =>
    (match l with
      | .planner => ∃ c ∈ cs, Plans c
      | .level => .setLevel ∈ cs
      | .path => .setPath ∈ cs
      | .name => .setName ∈ cs
      | .environment => b = true ∧ .setEnv ∈ cs
      | .object k => ∃ c ∈ cs, Writes k c) ∧ Good cs b as
  | b, .lock :: as => b = false ∧ Good cs true as
  | b, .unlock :: as => b = true ∧ Good cs false as

theorem good_own {cs : List Call} {b : Bool} {r w : List ℕ} {as : List Act} (hr : ∀ k ∈ r, ∃ c ∈ cs, Reads k c)
    (hw : ∀ k ∈ w, ∃ c ∈ cs, Writes k c) (h : Good cs b as) : Good cs b (own r w ++ as) := by
  have hW : ∀ w : List ℕ, (∀ k ∈ w, ∃ c ∈ cs, Writes k c) →
      Good cs b (w.map (fun k => Act.write (.object k)) ++ as) := by
    intro w
    induction w with
    | nil => exact fun _ => h
    | cons k w ih => exact fun hw => ⟨hw k List.mem_cons_self, ih fun x hx => hw x (List.mem_cons_of_mem _ hx)⟩
  unfold own
  induction r with
  | nil => exact hW w hw
  | cons k r ih => exact ⟨hr k List.mem_cons_self, ih fun x hx => hr x (List.mem_cons_of_mem _ hx)⟩

theorem good_call {cs : List Call} {c : Call} (hc : c ∈ cs) {as : List Act} (h : Good cs false as) :
    Good cs false (c.acts ++ as) := by
  cases c with
  | work r w => exact good_own (fun k hk => ⟨_, hc, hk⟩) (fun k hk => ⟨_, hc, hk⟩) h
  | transform b r w =>
    cases b with
    | true => exact good_own (fun k hk => ⟨_, hc, hk⟩) (fun k hk => ⟨_, hc, hk⟩) h
    | false => exact ⟨⟨_, hc, trivial⟩, good_own (fun k hk => ⟨_, hc, hk⟩) (fun k hk => ⟨_, hc, hk⟩) h⟩
  | discard => exact ⟨⟨_, hc, trivial⟩, h⟩
  | spectral r w =>
    refine ⟨⟨_, hc, trivial⟩, ?_⟩
    show Good cs false ((own r w ++ [Act.write .planner]) ++ as)
    rw [List.append_assoc]
    exact good_own (fun k hk => ⟨_, hc, hk⟩) (fun k hk => ⟨_, hc, hk⟩) ⟨⟨_, hc, trivial⟩, h⟩
  | message => exact ⟨Or.inr hc, h⟩
  | setName => exact ⟨hc, h⟩
  | getName => exact ⟨Or.inl hc, h⟩
  | setLevel => exact ⟨hc, h⟩
  | getLevel => exact ⟨hc, h⟩
  | setPath => exact ⟨hc, h⟩
  | getPath => exact ⟨hc, h⟩
  | setEnv => exact ⟨rfl, ⟨rfl, hc⟩, rfl, h⟩
  | getEnv => exact ⟨rfl, Or.inl rfl, rfl, h⟩
  | exist => exact ⟨rfl, Or.inl rfl, rfl, h⟩
  | useEnv => exact ⟨Or.inr hc, h⟩

theorem good_acts (cs : List Call) : Good cs false (acts cs) := by
  have : ∀ ds : List Call, (∀ d ∈ ds, d ∈ cs) → Good cs false (acts ds) := by
    intro ds
    induction ds with
    | nil => exact fun _ => rfl
    | cons d ds ih =>
      intro h
      exact good_call (h d List.mem_cons_self) (ih fun x hx => h x (List.mem_cons_of_mem _ hx))
  exact this cs fun _ h => h

/-- Every thread is as `Good` says. -/
def Inv (progs : ℕ → List Call) (s : State) : Prop :=
  ∀ t, Good (progs t) (decide (s.holder = some t)) (s.rest t)

theorem inv_step {progs : ℕ → List Call} {s s' : State} {t : ℕ} (h : Inv progs s) (hs : Step s t s') : Inv progs s' := by
  intro u
  have ht := h t
  have hu := h u
  cases hs with
  | read hr =>
    rw [hr] at ht
    dsimp only
    split
    · subst u; exact ht.2
    · exact hu
  | write hr =>
    rw [hr] at ht
    dsimp only
    split
    · subst u; exact ht.2
    · exact hu
  | lock hr hh =>
    rw [hr] at ht
    dsimp only
    split
    · subst u
      rw [decide_eq_true rfl]
      exact ht.2
    · rename_i ne
      rw [hh] at hu
      rw [decide_eq_false (by simpa using Ne.symm ne)]
      simpa using hu
  | unlock hr hh =>
    rw [hr] at ht
    dsimp only
    split
    · subst u
      simpa using ht.2
    · rename_i ne
      rw [hh, decide_eq_false (by simpa using Ne.symm ne)] at hu
      simpa using hu

theorem inv_reach {progs : ℕ → List Call} {s : State} (h : Reach progs s) : Inv progs s := by
  induction h with
  | start => exact fun t => by simpa [start] using good_acts (progs t)
  | step _ hs ih => exact inv_step ih hs

/-! ### The property -/

/-- **C109**: threads whose calls are apart never race, in no interleaving. -/
theorem C109_race_free_partial {progs : ℕ → List Call}
    (h : ∀ t u, t ≠ u → ∀ c ∈ progs t, ∀ d ∈ progs u, Apart c d) {s : State} (hr : Reach progs s) : ¬Race s := by
  rintro ⟨t, u, l, as, bs, ne, ht, hu⟩
  have gt := inv_reach hr t
  have gu := inv_reach hr u
  rw [ht] at gt
  rcases hu with hu | hu <;> rw [hu] at gu <;> cases l
  · obtain ⟨⟨c, hc, pc⟩, -⟩ := gt
    obtain ⟨⟨d, hd, pd⟩, -⟩ := gu
    exact (h t u ne c hc d hd).plans pc pd
  · exact ((h t u ne _ gt.1 _ gu.1).level rfl).1 rfl
  · exact ((h t u ne _ gt.1 _ gu.1).path rfl).1 rfl
  · exact ((h t u ne _ gt.1 _ gu.1).name rfl).1 rfl
  · have h1 := gt.1.1
    have h2 := gu.1.1
    simp only [decide_eq_true_eq] at h1 h2
    rw [h1] at h2
    exact ne (by simpa using h2)
  · obtain ⟨⟨c, hc, pc⟩, -⟩ := gt
    obtain ⟨⟨d, hd, pd⟩, -⟩ := gu
    exact ((h t u ne c hc d hd).objects _ pc).2 pd
  · exact gu.1
  · exact ((h t u ne _ gt.1 _ gu.1).level rfl).2 rfl
  · exact ((h t u ne _ gt.1 _ gu.1).path rfl).2 rfl
  · rcases gu.1 with g | g
    · exact ((h t u ne _ gt.1 _ g).name rfl).2.1 rfl
    · exact ((h t u ne _ gt.1 _ g).name rfl).2.2 rfl
  · have h1 := gt.1.1
    rcases gu.1 with h2 | h2
    · simp only [decide_eq_true_eq] at h1 h2
      rw [h1] at h2
      exact ne (by simpa using h2)
    · exact (h t u ne _ gt.1.2 _ h2).environment rfl rfl
  · obtain ⟨⟨c, hc, pc⟩, -⟩ := gt
    obtain ⟨⟨d, hd, pd⟩, -⟩ := gu
    exact ((h t u ne c hc d hd).objects _ pc).1 pd

/-- Two threads: one filters and transforms its own objects and sets the environment, the other reads an object of its own
and one that nobody changes, logs and reads the environment. -/
example : ∀ t u : ℕ, t ≠ u →
    ∀ c ∈ (fun t => if t = 0 then [Call.work [0, 9] [1], .spectral [1] [2], .setEnv] else
      if t = 1 then [Call.work [3, 9] [4], .message, .getEnv, .exist] else []) t,
    ∀ d ∈ (fun t => if t = 0 then [Call.work [0, 9] [1], .spectral [1] [2], .setEnv] else
      if t = 1 then [Call.work [3, 9] [4], .message, .getEnv, .exist] else []) u, Apart c d := by
  intro t u ne c hc d hd
  dsimp only at hc hd
  split at hc
  · subst t
    rw [if_neg (Ne.symm ne)] at hd
    split at hd
    · simp only [List.mem_cons, List.not_mem_nil, or_false] at hc hd
      rcases hc with rfl | rfl | rfl <;> rcases hd with rfl | rfl | rfl | rfl <;>
        constructor <;> simp [Reads, Writes, Plans]
    · simp at hd
  · split at hc
    · subst t
      split at hd
      · simp only [List.mem_cons, List.not_mem_nil, or_false] at hc hd
        rcases hc with rfl | rfl | rfl | rfl <;> rcases hd with rfl | rfl | rfl <;>
          constructor <;> simp [Reads, Writes, Plans]
      · rw [if_neg (Ne.symm ne)] at hd
        simp at hd
    · simp at hc

/-- **C109, no deadlock**: as long as a thread has work left, some thread can go on, whatever the calls. -/
theorem C109_progress {progs : ℕ → List Call} {s : State} (hr : Reach progs s) {t : ℕ} (ht : s.rest t ≠ []) :
    ∃ u s', Step s u s' := by
  cases hh : s.holder with
  | some u =>
    have g := inv_reach hr u
    rw [decide_eq_true hh] at g
    match hu : s.rest u with
    | [] => rw [hu] at g; exact absurd g (by simp [Good])
    | .read l :: as => exact ⟨u, _, .read hu⟩
    | .write l :: as => exact ⟨u, _, .write hu⟩
    | .lock :: as => rw [hu] at g; exact absurd g.1 (by simp)
    | .unlock :: as => exact ⟨u, _, .unlock hu hh⟩
  | none =>
    have g := inv_reach hr t
    rw [hh, decide_eq_false (by simp)] at g
    match hu : s.rest t with
    | [] => exact absurd hu ht
    | .read l :: as => exact ⟨t, _, .read hu⟩
    | .write l :: as => exact ⟨t, _, .write hu⟩
    | .lock :: as => exact ⟨t, _, .lock hu hh⟩
    | .unlock :: as => rw [hu] at g; exact absurd g.1 (by simp)

/-! ### The violations -/

/-- A thread does some accesses without mutex, the others wait. -/
theorem solo_acts {progs : ℕ → List Call} {t : ℕ} (ls : List Act) (hl : ∀ a ∈ ls, a ≠ .lock ∧ a ≠ .unlock) :
    ∀ {s : State} {as : List Act}, Reach progs s → s.rest t = ls ++ as →
      ∃ s', Reach progs s' ∧ s'.rest t = as ∧ (∀ u, u ≠ t → s'.rest u = s.rest u) ∧ s'.holder = s.holder := by
  induction ls with
  | nil => intro s as hr h; exact ⟨s, hr, h, fun _ _ => rfl, rfl⟩
  | cons a ls ih =>
    intro s as hr h
    have hl' : ∀ a ∈ ls, a ≠ Act.lock ∧ a ≠ Act.unlock := fun x hx => hl x (List.mem_cons_of_mem _ hx)
    have key : ∀ l : Loc, (a = .read l ∨ a = .write l) → ∃ s', Reach progs s' ∧ s'.rest t = as ∧
        (∀ u, u ≠ t → s'.rest u = s.rest u) ∧ s'.holder = s.holder := by
      intro l hal
      have hstep : Step s t ⟨fun u => if u = t then ls ++ as else s.rest u, s.holder⟩ := by
        rcases hal with rfl | rfl
        · exact .read h
        · exact .write h
      obtain ⟨s', r1, r2, r3, r4⟩ := ih hl' (as := as) (.step hr hstep) (by simp)
      exact ⟨s', r1, r2, fun u hu => by rw [r3 u hu]; simp [hu], r4⟩
    cases a with
    | read l => exact key l (Or.inl rfl)
    | write l => exact key l (Or.inr rfl)
    | lock => exact absurd rfl (hl .lock List.mem_cons_self).1
    | unlock => exact absurd rfl (hl .unlock List.mem_cons_self).2

theorem own_plain (r w : List ℕ) : ∀ a ∈ own r w, a ≠ .lock ∧ a ≠ .unlock := by
  intro a ha
  simp only [own, List.mem_append, List.mem_map] at ha
  rcases ha with ⟨k, -, rfl⟩ | ⟨k, -, rfl⟩ <;> simp

/-- A thread does a whole call, the others wait. -/
theorem solo_call {progs : ℕ → List Call} {t : ℕ} (c : Call) {s : State} {as : List Act} (hr : Reach progs s)
    (h : s.rest t = c.acts ++ as) (hn : s.holder = none) :
    ∃ s', Reach progs s' ∧ s'.rest t = as ∧ (∀ u, u ≠ t → s'.rest u = s.rest u) ∧ s'.holder = none := by
  have plain : (∀ a ∈ c.acts, a ≠ .lock ∧ a ≠ .unlock) →
      ∃ s', Reach progs s' ∧ s'.rest t = as ∧ (∀ u, u ≠ t → s'.rest u = s.rest u) ∧ s'.holder = none := by
    intro hp
    obtain ⟨s', r1, r2, r3, r4⟩ := solo_acts _ hp hr h
    exact ⟨s', r1, r2, r3, by rw [r4, hn]⟩
  have locked : ∀ a : Act, a ≠ .lock → a ≠ .unlock → c.acts = [.lock, a, .unlock] →
      ∃ s', Reach progs s' ∧ s'.rest t = as ∧ (∀ u, u ≠ t → s'.rest u = s.rest u) ∧ s'.holder = none := by
    intro a h1 h2 hc
    rw [hc] at h
    have r1 := Reach.step hr (.lock h hn)
    obtain ⟨s2, r2, e2, f2, g2⟩ := solo_acts (t := t) [a] (by simpa using ⟨h1, h2⟩) (as := .unlock :: as) r1 (by simp)
    have r3 := Reach.step r2 (.unlock e2 g2)
    exact ⟨_, r3, by simp, fun u hu => by simp [hu, f2 u hu], rfl⟩
  cases c with
  | work r w => exact plain (own_plain r w)
  | transform b r w =>
    cases b with
    | true => exact plain (own_plain r w)
    | false =>
      refine plain fun a ha => ?_
      simp only [Call.acts, List.mem_cons] at ha
      rcases ha with rfl | ha
      · simp
      · exact own_plain r w a ha
  | discard => exact plain (by simp [Call.acts])
  | spectral r w =>
    refine plain fun a ha => ?_
    simp only [Call.acts, List.mem_cons, List.mem_append, List.cons_append, List.not_mem_nil, or_false] at ha
    rcases ha with rfl | ha | rfl
    · simp
    · exact own_plain r w a ha
    · simp
  | message => exact plain (by simp [Call.acts])
  | setName => exact plain (by simp [Call.acts])
  | getName => exact plain (by simp [Call.acts])
  | setLevel => exact plain (by simp [Call.acts])
  | getLevel => exact plain (by simp [Call.acts])
  | setPath => exact plain (by simp [Call.acts])
  | getPath => exact plain (by simp [Call.acts])
  | setEnv => exact locked _ (by simp) (by simp) rfl
  | getEnv => exact locked _ (by simp) (by simp) rfl
  | exist => exact locked _ (by simp) (by simp) rfl
  | useEnv => exact plain (by simp [Call.acts])

theorem solo_calls {progs : ℕ → List Call} {t : ℕ} (cs : List Call) : ∀ {s : State} {as : List Act}, Reach progs s →
    s.rest t = acts cs ++ as → s.holder = none →
    ∃ s', Reach progs s' ∧ s'.rest t = as ∧ (∀ u, u ≠ t → s'.rest u = s.rest u) ∧ s'.holder = none := by
  induction cs with
  | nil => intro s as hr h hn; exact ⟨s, hr, h, fun _ _ => rfl, hn⟩
  | cons c cs ih =>
    intro s as hr h hn
    have h' : s.rest t = c.acts ++ (acts cs ++ as) := by
      rw [h, acts, List.flatMap_cons, List.append_assoc]; rfl
    obtain ⟨s1, r1, e1, f1, n1⟩ := solo_call c hr h' hn
    obtain ⟨s2, r2, e2, f2, n2⟩ := ih r1 e1 n1
    exact ⟨s2, r2, e2, fun u hu => by rw [f2 u hu, f1 u hu], n2⟩

/-- Two threads can be brought before any call of each. -/
theorem meet {progs : ℕ → List Call} {t u : ℕ} (ne : t ≠ u) {c d : Call} (hc : c ∈ progs t) (hd : d ∈ progs u) :
    ∃ s as bs, Reach progs s ∧ s.rest t = c.acts ++ as ∧ s.rest u = d.acts ++ bs ∧ s.holder = none := by
  obtain ⟨p, q, e⟩ := List.append_of_mem hc
  obtain ⟨p', q', e'⟩ := List.append_of_mem hd
  have split : ∀ (p q : List Call) (c : Call), acts (p ++ c :: q) = acts p ++ (c.acts ++ acts q) := by
    intro p q c
    simp [acts]
  obtain ⟨s1, r1, e1, f1, n1⟩ := solo_calls (progs := progs) (t := t) p (as := c.acts ++ acts q) .start
    (by show acts (progs t) = _; rw [e, split]) rfl
  obtain ⟨s2, r2, e2, f2, n2⟩ := solo_calls (t := u) p' (as := d.acts ++ acts q') r1
    (by rw [f1 u (Ne.symm ne)]; show acts (progs u) = _; rw [e', split]) n1
  exact ⟨s2, _, _, r2, by rw [f2 t ne, e1], e2, n2⟩

theorem plans_first {c : Call} (h : Plans c) : ∃ as, c.acts = .write .planner :: as := by
  cases c with
  | transform b r w =>
    cases b with
    | true => exact h.elim
    | false => exact ⟨_, rfl⟩
  | discard => exact ⟨_, rfl⟩
  | spectral r w => exact ⟨_, rfl⟩
  | _ => exact h.elim

/-- **C109, transforms are violated**: whenever two threads make a transform (or destroy an engine), each on objects of
its own, some interleaving of the program has a data race in the planner of FFTW. -/
theorem C109_fft_violates {progs : ℕ → List Call} {t u : ℕ} (ne : t ≠ u) {c d : Call} (hc : c ∈ progs t)
    (hd : d ∈ progs u) (pc : Plans c) (pd : Plans d) : ∃ s, Reach progs s ∧ Race s := by
  obtain ⟨s, as, bs, r, e1, e2, -⟩ := meet ne hc hd
  obtain ⟨a, ha⟩ := plans_first pc
  obtain ⟨b, hb⟩ := plans_first pd
  rw [ha] at e1
  rw [hb] at e2
  exact ⟨s, r, t, u, .planner, _, _, ne, e1, Or.inl e2⟩

example : ∃ s, Reach (fun t => [.work [t] [t], .spectral [t] [t]]) s ∧ Race s :=
  C109_fft_violates (t := 0) (u := 1) (by decide) (c := .spectral [0] [0]) (d := .spectral [1] [1]) (by simp) (by simp)
    trivial trivial

/-- **C109, the logger is violated**: setting the default name in one thread races with every message of another thread,
and setting level or path with reading it. -/
theorem C109_logger_violates {progs : ℕ → List Call} {t u : ℕ} (ne : t ≠ u) {c d : Call} (hc : c ∈ progs t)
    (hd : d ∈ progs u) (h : c = .setName ∧ (d = .message ∨ d = .getName ∨ d = .setName) ∨
      c = .setLevel ∧ (d = .getLevel ∨ d = .setLevel) ∨ c = .setPath ∧ (d = .getPath ∨ d = .setPath)) :
    ∃ s, Reach progs s ∧ Race s := by
  obtain ⟨s, as, bs, r, e1, e2, -⟩ := meet ne hc hd
  rcases h with ⟨rfl, rfl | rfl | rfl⟩ | ⟨rfl, rfl | rfl⟩ | ⟨rfl, rfl | rfl⟩
  · exact ⟨s, r, t, u, .name, _, _, ne, e1, Or.inr e2⟩
  · exact ⟨s, r, t, u, .name, _, _, ne, e1, Or.inr e2⟩
  · exact ⟨s, r, t, u, .name, _, _, ne, e1, Or.inl e2⟩
  · exact ⟨s, r, t, u, .level, _, _, ne, e1, Or.inr e2⟩
  · exact ⟨s, r, t, u, .level, _, _, ne, e1, Or.inl e2⟩
  · exact ⟨s, r, t, u, .path, _, _, ne, e1, Or.inr e2⟩
  · exact ⟨s, r, t, u, .path, _, _, ne, e1, Or.inl e2⟩

example : ∃ s, Reach (fun t => if t = 0 then [.message, .setName] else [.message]) s ∧ Race s :=
  C109_logger_violates (t := 0) (u := 1) (by decide) (c := .setName) (d := .message) (by simp) (by simp) (by simp)

/-- **C109, the environment is violated**: the text that `get_env` returns is read without the mutex. -/
theorem C109_environment_violates {progs : ℕ → List Call} {t u : ℕ} (ne : t ≠ u) (hc : Call.setEnv ∈ progs t)
    (hd : Call.useEnv ∈ progs u) : ∃ s, Reach progs s ∧ Race s := by
  obtain ⟨s, as, bs, r, e1, e2, n⟩ := meet ne hc hd
  refine ⟨_, .step r (.lock e1 n), t, u, .environment, .unlock :: as, bs, ne, by simp, Or.inr ?_⟩
  simp only [if_neg (Ne.symm ne)]
  exact e2

example : ∃ s, Reach (fun t => if t = 0 then [.setEnv] else [.getEnv, .useEnv]) s ∧ Race s :=
  C109_environment_violates (t := 0) (u := 1) (by decide) (by simp) (by simp)

end Edsp.C109
