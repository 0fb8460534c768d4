import Verif.Numpy.Py
import Mathlib.Analysis.SpecialFunctions.Complex.Arg
import Mathlib.Algebra.BigOperators.Fin

/-!
# NumPy primitives: `angle`, `unwrap`, `gradient`, `average`

Definitions follow the source of NumPy (`numpy/lib/_function_base_impl.py`); exact arithmetic.
-/

namespace Lasy
open Complex

/-- `np.angle(z)`: `arctan2(z.imag, z.real)`, in `(-π, π]`, `0` for `z = 0` (real numbers have no signed
zero). -/
noncomputable def angle (z : ℂ) : ℝ := arg z

/-- `np.mod(x, y)` for `y > 0` -/
noncomputable def fmod (x y : ℝ) : ℝ := x - y * ⌊x / y⌋

/-- `ddmod` in `np.unwrap`: the difference `d` reduced to `[-π, π]`; `-π` becomes `π` if `d > 0` -/
noncomputable def wrapDiff (d : ℝ) : ℝ :=
  let m := fmod (d + Real.pi) (2 * Real.pi) - Real.pi
  if m = -Real.pi ∧ 0 < d then Real.pi else m

/-- `ph_correct` in `np.unwrap`: nothing is corrected where `|d| < π` -/
noncomputable def unwrapCorr (d : ℝ) : ℝ := if |d| < Real.pi then 0 else wrapDiff d - d

/-- `np.unwrap(p)` of a 1-D array: `p[k] + cumsum(ph_correct)[k-1]` -/
noncomputable def unwrap {n : ℕ} (p : Fin n → ℝ) (k : Fin n) : ℝ :=
  p k + ∑ j : Fin (k : ℕ), unwrapCorr (p ⟨j + 1, by omega⟩ - p ⟨j, by omega⟩)

/-- `np.gradient(f, x, edge_order=2)` of a 1-D array with coordinates `x` (the general formula for
unequal spacing; for equal spacing NumPy uses the same formula simplified). Fewer than three points are a
`ValueError`. -/
noncomputable def gradient {E : Type} [AddCommGroup E] [Module ℝ E] {n : ℕ} (f : Fin n → E)
    (x : Fin n → ℝ) : Except PyErr (Fin n → E) :=
  if h : 3 ≤ n then
    .ok fun k =>
      if k0 : (k : ℕ) = 0 then
        let f0 := f ⟨0, by omega⟩; let f1 := f ⟨1, by omega⟩; let f2 := f ⟨2, by omega⟩
        let d1 := x ⟨1, by omega⟩ - x ⟨0, by omega⟩
        let d2 := x ⟨2, by omega⟩ - x ⟨1, by omega⟩
        (-(2 * d1 + d2) / (d1 * (d1 + d2))) • f0 + ((d1 + d2) / (d1 * d2)) • f1
          + (-d1 / (d2 * (d1 + d2))) • f2
      else if kn : (k : ℕ) + 1 = n then
        let f0 := f ⟨n - 3, by omega⟩; let f1 := f ⟨n - 2, by omega⟩; let f2 := f ⟨n - 1, by omega⟩
        let d1 := x ⟨n - 2, by omega⟩ - x ⟨n - 3, by omega⟩
        let d2 := x ⟨n - 1, by omega⟩ - x ⟨n - 2, by omega⟩
        (d2 / (d1 * (d1 + d2))) • f0 + (-(d2 + d1) / (d1 * d2)) • f1
          + ((2 * d2 + d1) / (d2 * (d1 + d2))) • f2
      else
        let f0 := f ⟨k - 1, by omega⟩; let f1 := f k; let f2 := f ⟨k + 1, by omega⟩
        let d1 := x k - x ⟨k - 1, by omega⟩
        let d2 := x ⟨k + 1, by omega⟩ - x k
        (-d2 / (d1 * (d1 + d2))) • f0 + ((d2 - d1) / (d1 * d2)) • f1 + (d1 / (d2 * (d1 + d2))) • f2
  else .error .value

/-- `np.average(a, weights=w)` over an index set: `ZeroDivisionError` if the weights sum to zero -/
noncomputable def average {ι : Type} [Fintype ι] (a w : ι → ℝ) : Except PyErr ℝ :=
  if ∑ i, w i = 0 then .error .zeroDivision else .ok ((∑ i, a i * w i) / ∑ i, w i)

end Lasy
