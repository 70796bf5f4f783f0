import Mathlib.Analysis.SpecialFunctions.Trigonometric.Basic

/-!
# Specification: window functions

Published definitions of the windows, as functions of the length `N` and the index `i`.  Independent of the model.
-/

namespace Edsp.Spec

/-- The windows of the library. -/
inductive Window
  | bartlett | blackman | blackmanHarris | blackmanNuttall | flattop | hamming | hanning | boxcar | rectangular
  | triangular | welch
deriving DecidableEq

/-- Generalised cosine window: Σ_k (-1)^k a_k cos(2πki/(N-1)). -/
noncomputable def cosineWindow : List ℝ → Nat → ℝ → ℝ
  | [], _, _ => 0
  | a :: as, k, t => (-1) ^ k * a * Real.cos (k * t) + cosineWindow as (k + 1) t

/-- The angle 2πi/(N-1). -/
noncomputable def angle (N i : Nat) : ℝ := 2 * Real.pi * i / ((N : ℝ) - 1)

/-- The base `L` of the triangular window: `N`, `N + 1` or `N - 1` are all in use; the library takes `N` for even `N` and
alternates between the other two for odd `N`. -/
def triangularBase (N : Nat) : Nat := if N % 4 = 1 then N + 1 else if N % 4 = 3 then N - 1 else N

/-- The value of the window of length `N` at index `i`. -/
noncomputable def Window.value : Window → Nat → Nat → ℝ
  | .bartlett, N, i => 1 - |2 * (i : ℝ) / ((N : ℝ) - 1) - 1|
  | .blackman, N, i => cosineWindow [0.42, 0.5, 0.08] 0 (angle N i)
  | .blackmanHarris, N, i => cosineWindow [0.35875, 0.48829, 0.14128, 0.01168] 0 (angle N i)
  | .blackmanNuttall, N, i => cosineWindow [0.3635819, 0.4891775, 0.1365995, 0.0106411] 0 (angle N i)
  | .flattop, N, i =>
    cosineWindow [0.21557895, 0.41663158, 0.277263158, 0.083578947, 0.006947368] 0 (angle N i)
  | .hamming, N, i => cosineWindow [0.54, 0.46] 0 (angle N i)
  | .hanning, N, i => Real.sin (angle N i / 2) ^ 2
  | .boxcar, _, _ => 1
  | .rectangular, _, _ => 1
  | .triangular, N, i => 1 - |((i : ℝ) - ((N : ℝ) - 1) / 2) / ((triangularBase N : ℝ) / 2)|
  | .welch, N, i => 1 - (((i : ℝ) - ((N : ℝ) - 1) / 2) / (((N : ℝ) - 1) / 2)) ^ 2

end Edsp.Spec
