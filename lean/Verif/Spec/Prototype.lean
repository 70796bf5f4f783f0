import Verif.Spec.Response

/-! # Specification: digital section obtained from an analog prototype by the bilinear map -/

namespace Edsp.Spec

/-- Value at `s` of the quadratic with coefficients `q2, q1, q0`. -/
noncomputable def quadAt (q : ℝ × ℝ × ℝ) (s : ℂ) : ℂ := q.1 * s ^ 2 + q.2.1 * s + q.2.2

/-- The transfer function of `f` at `z` is the analog transfer function `n(s)/d(s)` evaluated at
the bilinear image `s = (z - 1) / (K (z + 1))`, at every `z` (other than 0 and the image -1 of
infinity) where the analog function has no pole.  `K = tan (w0/2)` places the analog frequency 1
on the digital frequency `w0`. -/
def BilinearOf (f : Biquad ℝ) (K : ℝ) (n d : ℝ × ℝ × ℝ) : Prop :=
  ∀ z : ℂ, z ≠ 0 → z ≠ -1 → quadAt d ((z - 1) / (K * (z + 1))) ≠ 0 →
    TransferAt f z (quadAt n ((z - 1) / (K * (z + 1))) / quadAt d ((z - 1) / (K * (z + 1))))

end Edsp.Spec
