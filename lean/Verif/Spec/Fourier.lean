import Verif.Spec.Trig
import Mathlib.MeasureTheory.Integral.IntervalIntegral.Basic
import Mathlib.Order.Interval.Finset.Basic
import Mathlib.Data.Int.Interval

/-!
# Fourier coefficients and partial sums of 2-periodic functions

Nothing in this file refers to the model of the code.
-/

namespace Spec
open Finset Complex

/-- The Fourier coefficient `½ ∫_{-1}^{1} F(x) exp(-iπwx) dx`. -/
noncomputable def fourier (F : ℝ → ℂ) (w : ℤ) : ℂ :=
  (∫ x in (-1 : ℝ)..1, F x * cexp (-(I * Real.pi * w * x))) / 2

/-- The symmetric partial sum of the Fourier series of `F` with the wave numbers `|w| < k`. -/
noncomputable def partialSum (F : ℝ → ℂ) (k : ℕ) (x : ℝ) : ℂ :=
  ∑ w ∈ Ioo (-(k : ℤ)) k, fourier F w * cexp (I * Real.pi * w * x)

/-- The circular convolution `∫_{-1}^{1} F(y) G(x - y) dy`. -/
noncomputable def circ (F G : ℝ → ℂ) (x : ℝ) : ℂ := ∫ y in (-1 : ℝ)..1, F y * G (x - y)

end Spec
