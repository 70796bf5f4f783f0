import Verif.Model.StdPolar
import Verif.Props.C19_Butterworth
import Verif.Props.C57_Chebyshev

/-! # C148: the designers with the checks of the standard library switched on

The reference is the same design without the checks, about which C16, C57–C59, C71–C74 speak. -/

namespace Edsp.C148

open Edsp

theorem polarC_one (chk : Bool) (t : ℝ) : polarC chk 1 t = .ok (polar 1 t) := by
  unfold polarC
  rw [if_neg]
  rintro ⟨-, h⟩
  exact absurd h (by norm_num)

theorem polarC_off (r t : ℝ) : polarC false r t = .ok (polar r t) := by
  unfold polarC
  rw [if_neg]
  simp

theorem polarC_neg {r : ℝ} (h : r < 0) (t : ℝ) : polarC true r t = .error .assertion := by
  unfold polarC
  rw [if_pos ⟨rfl, h⟩]

theorem makeResponseC_eq (chk : Bool) (c : Cascade ℝ) (nf : ℝ) : makeResponseC chk c nf = makeResponse c nf := by
  unfold makeResponseC makeResponse
  simp only [polarC_one]
  simp [polar, Except.bind, bind]

theorem analog_eq (chk dbg : Bool) (N n : Nat) (l : Layout) :
    ButterworthC.analog chk dbg N n l = Butterworth.analog dbg N n l := by
  unfold ButterworthC.analog Butterworth.analog
  simp only [polarC_one]
  rfl

/-- **C148, the cascade of every layout.** Every designer of the library, Chebyshev designers included, ends here. -/
theorem C148_cascade (chk : Bool) (N : Nat) (digital : Layout) :
    makeCascadeC chk N digital = makeCascade N digital := by
  unfold makeCascadeC makeCascade
  simp only [makeResponseC_eq]
  rfl

/-- **C148, pass filters.** A Butterworth low-pass, high-pass, band-pass or band-stop gives the same result, success or
not, whether or not the checks are switched on. -/
theorem C148_pass (chk dbg : Bool) (N n : Nat) (fs fc bw : ℝ) :
    ButterworthC.lowPass chk dbg N n fs fc = Butterworth.lowPass dbg N n fs fc ∧
    ButterworthC.highPass chk dbg N n fs fc = Butterworth.highPass dbg N n fs fc ∧
    ButterworthC.bandPass chk dbg N n fs fc bw = Butterworth.bandPass dbg N n fs fc bw ∧
    ButterworthC.bandStop chk dbg N n fs fc bw = Butterworth.bandStop dbg N n fs fc bw := by
  refine ⟨?_, ?_, ?_, ?_⟩
  · simp only [ButterworthC.lowPass, Butterworth.lowPass, analog_eq, C148_cascade]
  · simp only [ButterworthC.highPass, Butterworth.highPass, analog_eq, C148_cascade]
  · simp only [ButterworthC.bandPass, Butterworth.bandPass, analog_eq, C148_cascade]
  · simp only [ButterworthC.bandStop, Butterworth.bandStop, analog_eq, C148_cascade]

/-- A fourth-order low-pass at a tenth of the sample rate is designed with the checks switched on. -/
example : ∃ c, ButterworthC.lowPass true false 8 4 48000 4800 = .ok c := by
  rw [(C148_pass true false 8 4 48000 4800 0).1]
  obtain ⟨c, h, -⟩ := Props.C55_butterworth_lowpass false (N := 8) (n := 4) (by norm_num) (by norm_num)
    (by norm_num) (fs := 48000) (fc := 4800) (by norm_num) (by norm_num)
  exact ⟨c, h⟩

theorem shelfAnalog_eq {chk dbg : Bool} {N n : Nat} (h : chk = false ∨ n ≤ 1) (g : ℝ) (l : Layout) :
    ButterworthC.shelfAnalog chk dbg N n g l = Butterworth.shelfAnalog dbg N n g l := by
  unfold ButterworthC.shelfAnalog Butterworth.shelfAnalog
  rcases h with rfl | h
  · simp only [polarC_off]
    rfl
  · have : n / 2 = 0 := by omega
    simp only [this, List.range_zero, List.foldlM_nil]

/-- **C148, shelves (partial).** The shelves give the same result as without the checks when the checks are switched off
or the order is at most 1.  Missing: orders from 2 on with the checks switched on, where it is false
(`C148_shelf_violates`). -/
theorem C148_shelf_partial {chk dbg : Bool} {N n : Nat} (h : chk = false ∨ n ≤ 1) (fs fc bw gainDb : ℝ) :
    ButterworthC.lowShelf chk dbg N n fs fc gainDb = Butterworth.lowShelf dbg N n fs fc gainDb ∧
    ButterworthC.highShelf chk dbg N n fs fc gainDb = Butterworth.highShelf dbg N n fs fc gainDb ∧
    ButterworthC.bandShelf chk dbg N n fs fc bw gainDb = Butterworth.bandShelf dbg N n fs fc bw gainDb := by
  refine ⟨?_, ?_, ?_⟩
  · simp only [ButterworthC.lowShelf, Butterworth.lowShelf, shelfAnalog_eq h, C148_cascade]
  · simp only [ButterworthC.highShelf, Butterworth.highShelf, shelfAnalog_eq h, C148_cascade]
  · simp only [ButterworthC.bandShelf, Butterworth.bandShelf, shelfAnalog_eq h, C148_cascade]

/-- A first-order shelf with the checks switched on. -/
example : ∃ c, ButterworthC.lowShelf true true 8 1 48000 4800 6 = .ok c := by
  rw [(C148_shelf_partial (.inr le_rfl) 48000 4800 0 6).1]
  obtain ⟨c, h, -⟩ := Props.C59_butterworth_low_shelf true (N := 8) (n := 1) (by norm_num) (by norm_num) 6
    (fs := 48000) (fc := 4800) (by norm_num) (by norm_num)
  exact ⟨c, h⟩

theorem shelfAnalog_aborts (dbg : Bool) {N n : Nat} (hn : 2 ≤ n) (g : ℝ) (l : Layout) :
    ButterworthC.shelfAnalog true dbg N n g l = .error .assertion := by
  unfold ButterworthC.shelfAnalog
  by_cases hN : n > N
  · rw [if_pos hN]
    rfl
  rw [if_neg hN]
  have h2 : ((n * 2 : ℕ) : ℝ) ≠ 0 := by
    have : n * 2 ≠ 0 := by omega
    exact_mod_cast this
  have hg : ∀ x : ℝ, 0 < (Zoelzer.db2mag g) ^ x := fun x => by
    unfold Zoelzer.db2mag
    positivity
  obtain ⟨m, hm⟩ : ∃ m, n / 2 = m + 1 := ⟨n / 2 - 1, by omega⟩
  have hneg : -(1 / Zoelzer.db2mag g ^ (1 / ((n * 2 : ℕ) : ℝ))) < 0 := by
    have := hg (1 / ((n * 2 : ℕ) : ℝ))
    have : 0 < 1 / Zoelzer.db2mag g ^ (1 / ((n * 2 : ℕ) : ℝ)) := by positivity
    linarith
  simp only [fdiv, if_neg h2, if_neg (hg _).ne', bind, Except.bind, hm,
    List.range_succ_eq_map, List.foldlM_cons, polarC_neg hneg]

/-- **C148 is violated by the Butterworth shelves.** With the checks switched on every low, high or band shelf of order 2
or more ends the program, whatever the gain, the frequencies and the build: both moduli handed to `std::polar` are
negative. -/
theorem C148_shelf_violates (dbg : Bool) {N n : Nat} (hn : 2 ≤ n) {fs : ℝ} (hfs : fs ≠ 0) (fc bw gainDb : ℝ) :
    ButterworthC.lowShelf true dbg N n fs fc gainDb = .error .assertion ∧
    ButterworthC.highShelf true dbg N n fs fc gainDb = .error .assertion ∧
    ButterworthC.bandShelf true dbg N n fs fc bw gainDb = .error .assertion := by
  refine ⟨?_, ?_, ?_⟩
  · simp only [ButterworthC.lowShelf, fdiv, if_neg hfs, shelfAnalog_aborts dbg hn, bind, Except.bind]
  · simp only [ButterworthC.highShelf, fdiv, if_neg hfs, shelfAnalog_aborts dbg hn, bind, Except.bind]
  · simp only [ButterworthC.bandShelf, fdiv, if_neg hfs, shelfAnalog_aborts dbg hn, bind, Except.bind]

/-- The same shelf of order 2, without and with the checks. -/
example : (∃ c, Butterworth.lowShelf true 8 2 48000 4800 6 = .ok c) ∧
    ButterworthC.lowShelf true true 8 2 48000 4800 6 = .error .assertion := by
  obtain ⟨c, h, -⟩ := Props.C59_butterworth_low_shelf true (N := 8) (n := 2) (by norm_num) (by norm_num) 6
    (fs := 48000) (fc := 4800) (by norm_num) (by norm_num)
  exact ⟨⟨c, h⟩, (C148_shelf_violates true le_rfl (by norm_num) 4800 0 6).1⟩

end Edsp.C148
