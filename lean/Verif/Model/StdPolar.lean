import Verif.Model.Bands

/-!
# `std::polar` with the checks of the standard library

The standard asks for a modulus that is not negative ([complex.value.ops]); libstdc++ checks it when its assertions are
switched on (`-D_GLIBCXX_ASSERTIONS`, implied by `-D_GLIBCXX_DEBUG` and switched on by default in several distributions),
and computes `r cos t + i r sin t` otherwise.  The flag `chk` says whether they are switched on.  The functions of
AnalogDesign, Layout and Bands that reach a call of `std::polar` are repeated here with the checked call;
filter/internal contains no others (butterworth_designer.hpp 52, 78, abstract_designer.hpp 51-52).
-/

namespace Edsp

/-- `std::polar(r, t)`. -/
noncomputable def polarC (chk : Bool) (r t : ℝ) : Except Fault ℂ :=
  if chk = true ∧ r < 0 then .error .assertion else .ok (polar r t)

/-- abstract_designer.hpp 49-68. -/
noncomputable def makeResponseC (chk : Bool) (c : Cascade ℝ) (nf : ℝ) : Except Fault ℂ := do
  let w := 2 * Real.pi * nf
  let c1 ← polarC chk 1 (-w)
  let c2 ← polarC chk 1 (-2 * w)
  let (ch, cbot) ← responseLoop c1 c2 (c.stages.take c.num) (1, 1)
  if cbot = 0 then .error .divByZero else return ch / cbot

/-- abstract_designer.hpp 71-83. -/
noncomputable def makeCascadeC (chk : Bool) (N : Nat) (digital : Layout) : Except Fault (Cascade ℝ) := do
  let numBiquads := (digital.poles + 1) / 2
  let c ← (List.range numBiquads).foldlM (cascadeStep digital) (Cascade.new ((N + 1) / 2))
  let r ← makeResponseC chk c (digital.w / (2 * Real.pi))
  let scale ← fdiv digital.gain ‖r‖
  match c.stages[0]? with
  | none => .error .outOfBounds
  | some f => return { c with stages := c.stages.set 0 (applyScale f scale) }

namespace ButterworthC

/-- butterworth_designer.hpp 39-60. -/
noncomputable def analog (chk dbg : Bool) (N n : Nat) (l : Layout) : Except Fault Layout := do
  if n > N then throw .assertion
  let l0 : Layout := { l.reset with w := 0, gain := 1 }
  let l1 ← (List.range (n / 2)).foldlM (fun l (i : Nat) => do
    let c ← polarC chk 1 (Real.pi / 2 + (2 * (i : ℝ) + 1) * Real.pi / (n * 2 : ℕ))
    l.insertConj (some c) none) l0
  if n % 2 = 1 then l1.insert dbg (some (-1)) none else return l1

/-- butterworth_designer.hpp 62-85. -/
noncomputable def shelfAnalog (chk dbg : Bool) (N n : Nat) (gainDb : ℝ) (l : Layout) : Except Fault Layout := do
  if n > N then throw .assertion
  let l0 : Layout := { l.reset with w := Real.pi, gain := 1 }
  let g := (Zoelzer.db2mag gainDb) ^ (← fdiv 1 ((n * 2 : ℕ) : ℝ))
  let gp := -(← fdiv 1 g)
  let gz := -g
  let theta := fun i : Nat => Real.pi * (1 / 2 - (2 * ((i : ℝ) + 1) - 1) / (n * 2 : ℕ))
  let l1 ← (List.range (n / 2)).foldlM (fun l (i : Nat) => do
    let p ← polarC chk gp (theta i)
    let z ← polarC chk gz (theta i)
    l.insertConj (some p) (some z)) l0
  if n % 2 = 1 then l1.insert dbg (some gp) (some gz) else return l1

/-- butterworth_designer.hpp 88-95 with abstract_designer.hpp 93-97. -/
noncomputable def lowPass (chk dbg : Bool) (N n : Nat) (fs fc : ℝ) : Except Fault (Cascade ℝ) := do
  let nf ← fdiv fc fs
  let a ← analog chk dbg N n (Layout.new N)
  let d ← lowPassTransform dbg nf a (Layout.new N)
  makeCascadeC chk N d

/-- butterworth_designer.hpp 98-105 with abstract_designer.hpp 93-97. -/
noncomputable def highPass (chk dbg : Bool) (N n : Nat) (fs fc : ℝ) : Except Fault (Cascade ℝ) := do
  let nf ← fdiv fc fs
  let a ← analog chk dbg N n (Layout.new N)
  let d ← highPassTransform dbg nf a (Layout.new N)
  makeCascadeC chk N d

/-- butterworth_designer.hpp 107-116 with abstract_designer.hpp 93-97. -/
noncomputable def bandPass (chk dbg : Bool) (N n : Nat) (fs fc bw : ℝ) : Except Fault (Cascade ℝ) := do
  let nc ← fdiv fc fs
  let nw ← fdiv bw fs
  let a ← analog chk dbg N n (Layout.new N)
  let d ← bandPassTransform dbg nc nw a (Layout.new (2 * N))
  makeCascadeC chk (2 * N) d

/-- butterworth_designer.hpp 118-127 with abstract_designer.hpp 93-97. -/
noncomputable def bandStop (chk dbg : Bool) (N n : Nat) (fs fc bw : ℝ) : Except Fault (Cascade ℝ) := do
  let nc ← fdiv fc fs
  let nw ← fdiv bw fs
  let a ← analog chk dbg N n (Layout.new N)
  let d ← bandStopTransform dbg nc nw a (Layout.new (2 * N))
  makeCascadeC chk (2 * N) d

/-- butterworth_designer.hpp 130-137 with abstract_designer.hpp 93-97. -/
noncomputable def lowShelf (chk dbg : Bool) (N n : Nat) (fs fc gainDb : ℝ) : Except Fault (Cascade ℝ) := do
  let nf ← fdiv fc fs
  let a ← shelfAnalog chk dbg N n gainDb (Layout.new N)
  let d ← lowPassTransform dbg nf a (Layout.new N)
  makeCascadeC chk N d

/-- butterworth_designer.hpp 140-147 with abstract_designer.hpp 93-97. -/
noncomputable def highShelf (chk dbg : Bool) (N n : Nat) (fs fc gainDb : ℝ) : Except Fault (Cascade ℝ) := do
  let nf ← fdiv fc fs
  let a ← shelfAnalog chk dbg N n gainDb (Layout.new N)
  let d ← highPassTransform dbg nf a (Layout.new N)
  makeCascadeC chk N d

/-- butterworth_designer.hpp 149-162 with abstract_designer.hpp 93-97. -/
noncomputable def bandShelf (chk dbg : Bool) (N n : Nat) (fs fc bw gainDb : ℝ) : Except Fault (Cascade ℝ) := do
  let nc ← fdiv fc fs
  let nw ← fdiv bw fs
  let a ← shelfAnalog chk dbg N n gainDb (Layout.new N)
  let d ← bandShelfTransform dbg nc nw a (Layout.new (2 * N))
  makeCascadeC chk (2 * N) d

end ButterworthC
end Edsp
