import Mathlib.Analysis.SpecialFunctions.Complex.Circle
import Mathlib.Analysis.SpecialFunctions.Trigonometric.Basic
import Mathlib.Algebra.BigOperators.Fin

/-!
# NumPy primitives: `linspace`, `arange`, `fft`, `ifft`, `fftfreq`

Definitions follow the NumPy reference manual; exact arithmetic.
-/

namespace Lasy
open Complex

/-- `np.linspace(a, b, n)[i]` for `n ≥ 2` points (`endpoint=True`). For `n = 1` NumPy returns `[a]`,
and so does this formula (`i = 0`). -/
noncomputable def linspace (a b : ℝ) (n : ℕ) (i : Fin n) : ℝ :=
  a + (i : ℝ) * ((b - a) / ((n : ℝ) - 1))

/-- `np.fft.fft(x)[k]`, `norm="backward"`: `∑_j x_j exp(-2πi jk/n)`. -/
noncomputable def fft {n : ℕ} (x : Fin n → ℂ) (k : Fin n) : ℂ :=
  ∑ j : Fin n, x j * exp (-2 * Real.pi * I * (j : ℕ) * (k : ℕ) / n)

/-- `np.fft.ifft(x)[j]`, `norm="backward"`: `(1/n) ∑_k x_k exp(+2πi jk/n)`. -/
noncomputable def ifft {n : ℕ} (x : Fin n → ℂ) (j : Fin n) : ℂ :=
  (∑ k : Fin n, x k * exp (2 * Real.pi * I * (j : ℕ) * (k : ℕ) / n)) / n

/-- The integer numerator of `np.fft.fftfreq(n)[k]`: `0, 1, .., (n-1)//2, -(n//2), .., -1`. -/
def fftfreqInt (n : ℕ) (k : Fin n) : ℤ :=
  if (k : ℕ) ≤ (n - 1) / 2 then (k : ℕ) else (k : ℤ) - n

/-- `np.fft.fftfreq(n, d)[k]`. -/
noncomputable def fftfreq (n : ℕ) (d : ℝ) (k : Fin n) : ℝ := (fftfreqInt n k : ℝ) / (n * d)

end Lasy
