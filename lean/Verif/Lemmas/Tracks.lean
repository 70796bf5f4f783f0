import Verif.Model.Tracks
import Verif.Props.C44_Read

/-!
# How many samples a read of a file with several channels delivers
-/

namespace Edsp.TracksL

open Edsp.Spec Edsp.Io Edsp.Tracks

variable {α : Type}

/-- The number of samples delivered: `c` channels, an internal buffer of `N`, `n` samples asked for, `left` left. -/
def delivered (c N n left : Nat) : Nat :=
  if c ∣ N then (if c ∣ n then min n left else min (n / N * N) left)
  else (if n ≤ N ∧ c ∣ n then min n left else 0)

theorem delivered_zero (c N n : Nat) : delivered c N n 0 = 0 := by
  unfold delivered; split_ifs <;> simp

theorem delivered_le (c N n left : Nat) : delivered c N n left ≤ n ∧ delivered c N n left ≤ left := by
  have : n / N * N ≤ n := Nat.div_mul_le_self n N
  unfold delivered
  split_ifs <;> omega

/-- Short requests. -/
theorem delivered_short {c N n : Nat} (hn : n ≤ N) (left : Nat) :
    delivered c N n left = if c ∣ n then min n left else 0 := by
  unfold delivered
  by_cases h1 : c ∣ N
  · rw [if_pos h1]
    by_cases h2 : c ∣ n
    · rw [if_pos h2, if_pos h2]
    · rw [if_neg h2, if_neg h2]
      have hlt : n < N := Nat.lt_of_le_of_ne hn fun e => h2 (e ▸ h1)
      rw [Nat.div_eq_of_lt hlt, Nat.zero_mul, Nat.zero_min]
  · rw [if_neg h1]
    by_cases h2 : c ∣ n
    · rw [if_pos ⟨hn, h2⟩, if_pos h2]
    · rw [if_neg fun h => h2 h.2, if_neg h2]

/-- Long requests: one buffer after the other. -/
theorem delivered_long {c N n : Nat} (hN : 0 < N) (hn : N < n) (left : Nat) :
    delivered c N n left =
      if c ∣ N then min N left + delivered c N (n - min N left) (left - min N left) else 0 := by
  by_cases h1 : c ∣ N
  · rw [if_pos h1]
    by_cases hl : N ≤ left
    · rw [Nat.min_eq_left hl]
      have hd : n / N * N = (n - N) / N * N + N := by
        rw [Nat.div_eq_sub_div hN (Nat.le_of_lt hn), Nat.add_mul, Nat.one_mul]
      unfold delivered
      rw [if_pos h1, if_pos h1]
      have hdv : c ∣ n - N ↔ c ∣ n := by
        constructor
        · intro h
          have := Nat.dvd_add h h1
          rwa [Nat.sub_add_cancel (Nat.le_of_lt hn)] at this
        · intro h; exact Nat.dvd_sub h h1
      by_cases h2 : c ∣ n
      · rw [if_pos h2, if_pos (hdv.mpr h2)]
        omega
      · rw [if_neg h2, if_neg fun h => h2 (hdv.mp h), hd]
        omega
    · rw [Nat.min_eq_right (by omega), Nat.sub_self, delivered_zero]
      unfold delivered
      rw [if_pos h1]
      have hd : N ≤ n / N * N := by
        have : 1 ≤ n / N := (Nat.one_le_div_iff hN).mpr (Nat.le_of_lt hn)
        calc N = 1 * N := (Nat.one_mul N).symm
          _ ≤ n / N * N := Nat.mul_le_mul_right N this
      split_ifs <;> omega
  · rw [if_neg h1]
    unfold delivered
    rw [if_neg h1, if_neg (by omega)]

theorem readLoop_exact (n : Nat) : ∀ (t : Track α) (buffer m : List α) (first : Nat), 0 < buffer.length →
    first + n ≤ m.length → t.pos ≤ t.data.length →
    ∃ buffer' m', Tracks.readLoop buffer.length t buffer m first n =
        .ok (n - delivered t.channels buffer.length n (t.data.length - t.pos),
          { t with pos := t.pos + delivered t.channels buffer.length n (t.data.length - t.pos) }, buffer', m') ∧
      buffer'.length = buffer.length ∧
      Wrote m m' first (seg t.data t.pos (t.pos + delivered t.channels buffer.length n (t.data.length - t.pos))) := by
  induction n using Nat.strongRecOn with
  | _ n ih =>
    intro t buffer m first hb hm hp
    rw [Tracks.readLoop]
    set counter := if n > buffer.length then buffer.length else n with hcounter
    have hc1 : counter ≤ buffer.length := by rw [hcounter]; split <;> omega
    have hc2 : counter ≤ n := by rw [hcounter]; split <;> omega
    set D := delivered t.channels buffer.length n (t.data.length - t.pos) with hD
    unfold Tracks.sfRead
    rw [if_neg (by omega)]
    by_cases hal : counter % t.channels = 0
    · have hdv : t.channels ∣ counter := Nat.dvd_of_mod_eq_zero hal
      rw [if_neg (by simpa using hal)]
      dsimp only
      set r := min counter (t.data.length - t.pos) with hr
      have hDr : D = r + delivered t.channels buffer.length (n - r) (t.data.length - t.pos - r) := by
        by_cases hs : n ≤ buffer.length
        · have hcn : counter = n := by rw [hcounter, if_neg (by omega)]
          rw [hcn] at hdv hr
          rw [hD, delivered_short hs, if_pos hdv]
          by_cases hl : n ≤ t.data.length - t.pos
          · rw [show n - r = 0 by omega]
            have := (delivered_le t.channels buffer.length 0 (t.data.length - t.pos - r)).1
            omega
          · rw [show t.data.length - t.pos - r = 0 by omega, delivered_zero]
            omega
        · have hcn : counter = buffer.length := by rw [hcounter, if_pos (by omega)]
          rw [hcn] at hdv hr
          rw [hD, delivered_long hb (by omega), if_pos hdv, hr]
      have hr1 : r ≤ counter := by omega
      have hr2 : t.pos + r ≤ t.data.length := by omega
      set items := (t.data.drop t.pos).take r with hitems
      have hil : items.length = r := by rw [hitems, List.length_take, List.length_drop]; omega
      have hbl : (items ++ buffer.drop r).length = buffer.length := by
        rw [List.length_append, List.length_drop, hil]; omega
      obtain ⟨m1, e1, w1⟩ := C44.copyBuffer_ok (buffer := items ++ buffer.drop r) (n := r) (m := m) (first := first)
        (by rw [hbl]; omega) (by omega)
      have htake : (items ++ buffer.drop r).take r = seg t.data t.pos (t.pos + r) := by
        rw [List.take_append_of_le_length (by omega), List.take_of_length_le (by omega), hitems, C44.seg_take]
      rw [htake] at w1
      rw [e1]
      dsimp only
      by_cases hgo : n - r > 0 ∧ r > 0
      · rw [dif_pos hgo]
        obtain ⟨b2, m2, e2, hb2, w2⟩ := ih (n - r) (by omega) { t with pos := t.pos + r }
          (items ++ buffer.drop r) m1 (first + r) (by omega) (by rw [Mem.wrote_length w1]; omega) hr2
        rw [hbl] at e2 hb2 w2
        dsimp only at e2 w2
        rw [← Nat.sub_sub] at e2 w2
        have hk := (delivered_le t.channels buffer.length (n - r) (t.data.length - t.pos - r))
        refine ⟨b2, m2, ?_, hb2, ?_⟩
        · rw [e2, hDr, Nat.sub_sub, Nat.add_assoc]
        · have hseglen : (seg t.data t.pos (t.pos + r)).length = r := by rw [Mem.seg_length (by omega)]; omega
          have := Mem.wrote_append w1 (by rw [hseglen]; exact w2)
          rw [C44.seg_append t.data (by omega) (by omega)] at this
          rw [hDr, ← Nat.add_assoc]
          exact this
      · rw [dif_neg hgo]
        have hz : delivered t.channels buffer.length (n - r) (t.data.length - t.pos - r) = 0 := by
          have hle := delivered_le t.channels buffer.length (n - r) (t.data.length - t.pos - r)
          by_cases h0 : n - r = 0
          · omega
          · have hr0 : r = 0 := by omega
            have : t.data.length - t.pos = 0 := by
              have : 0 < counter := by rw [hcounter]; split <;> omega
              omega
            omega
        rw [hDr, hz, Nat.add_zero]
        exact ⟨_, m1, rfl, hbl, w1⟩
    · rw [if_pos (by simpa using hal)]
      have hndv : ¬ t.channels ∣ counter := fun h => hal (Nat.mod_eq_zero_of_dvd h)
      have hD0 : D = 0 := by
        by_cases hs : n ≤ buffer.length
        · have hcn : counter = n := by rw [hcounter, if_neg (by omega)]
          rw [hcn] at hndv
          rw [hD, delivered_short hs, if_neg hndv]
        · have hcn : counter = buffer.length := by rw [hcounter, if_pos (by omega)]
          rw [hcn] at hndv
          rw [hD, delivered_long hb (by omega), if_neg hndv]
      obtain ⟨m1, e1, w1⟩ := C44.copyBuffer_ok (buffer := buffer) (n := 0) (m := m) (first := first)
        (by omega) (by omega)
      dsimp only
      rw [e1]
      dsimp only
      rw [dif_neg (by omega), hD0, Nat.add_zero]
      refine ⟨buffer, m1, rfl, rfl, ?_⟩
      simpa [seg] using w1

theorem read_exact {t : Track α} {buffer m : List α} {first last : Nat} (hb : 0 < buffer.length) (h1 : first ≤ last)
    (h2 : last ≤ m.length) (hp : t.pos ≤ t.data.length) :
    ∃ buffer' m', Tracks.read t buffer m first last =
        .ok (delivered t.channels buffer.length (last - first) (t.data.length - t.pos),
          { t with pos := t.pos + delivered t.channels buffer.length (last - first) (t.data.length - t.pos) }, buffer', m') ∧
      buffer'.length = buffer.length ∧
      Wrote m m' first
        (seg t.data t.pos (t.pos + delivered t.channels buffer.length (last - first) (t.data.length - t.pos))) := by
  obtain ⟨b', m', e, hb', w⟩ := readLoop_exact (last - first) t buffer m first hb (by omega) hp
  refine ⟨b', m', ?_, hb', w⟩
  have := (delivered_le t.channels buffer.length (last - first) (t.data.length - t.pos)).1
  simp only [Tracks.read, Mem.distance_ok h1, e, bind, Except.bind, pure, Except.pure]
  rw [show ∀ a b : Nat, b ≤ a → a - (a - b) = b by omega]
  exact this

end Edsp.TracksL
