import Verif.Numpy.Signal
import Mathlib.Data.Nat.Factorial.Basic
import Mathlib.Algebra.Order.Floor.Ring
import Mathlib.Algebra.Order.Archimedean.Real.Basic
import Mathlib.Analysis.SpecialFunctions.Sqrt

/-!
# Model of `lasy/utils/zernike.py`

Arrays are modelled by one element; the number of dimensions of the array, which the code looks at, is a
parameter. The factorials are exact integers (in Python they are too, but the power `(-1) ** i` is a NumPy
`int64` and its product with a factorial beyond `2^63` depends on the NumPy version; this is not modelled).
-/

namespace Lasy

/-- `get_zernike_nm(j)` (`zernike.py:6-27`): the pair `(m, n)`. For `9 + 8 j < 0` the square root is `nan`, and
`int(nan)` is a `ValueError`. -/
noncomputable def zernikeNM (j : ℤ) : Except PyErr (ℤ × ℤ) :=
  if 9 + 8 * j < 0 then .error .value
  else
    let n : ℤ := ⌈(-3 + Real.sqrt (9 + 8 * j)) / 2⌉
    .ok (2 * j - n * (n + 2), n)

/-- `math.factorial` -/
def pyFactorial (n : ℤ) : Except PyErr ℕ := if n < 0 then .error .value else .ok n.toNat.factorial

/-- one term of the sum in `RmnGenerator` (`zernike.py:117-122`) -/
noncomputable def radialTerm (n m : ℤ) (rho : ℝ) (i : ℕ) : Except PyErr ℝ := do
  let a ← pyFactorial (n - i)
  let b ← pyFactorial i
  let c ← pyFactorial ((n + m) / 2 - i)
  let d ← pyFactorial ((n - m) / 2 - i)
  return ((-1) ^ i * (a : ℝ)) / ((b : ℝ) * c * d) * rho ^ (n - 2 * (i : ℤ))

/-- `RmnGenerator(n, m, rho)` (`zernike.py:79-134`) at one point of an array with `ndim` dimensions.
`np.linspace` refuses a negative number of points; `(r, c) = rho.shape` refuses arrays with another number of
dimensions than one or two. -/
noncomputable def radialPoly (ndim : ℕ) (n m : ℤ) (rho : ℝ) : Except PyErr ℝ :=
  if n = 0 then
    if ndim = 1 ∨ ndim = 2 then .ok 1 else .error .value
  else if (n - m) % 2 = 0 then
    if (n - m) / 2 + 1 < 0 then .error .value
    else if ndim = 1 ∨ ndim = 2 then
      (List.range ((n - m) / 2 + 1).toNat).foldlM (fun acc i => do return acc + (← radialTerm n m rho i)) 0
    else .error .value
  else if ndim = 1 ∨ ndim = 2 then .ok 0
  else .error .value

/-- `np.arctan2(y, x)` -/
noncomputable def arctan2 (y x : ℝ) : ℝ := angle ⟨x, y⟩

/-- the normalisation (`zernike.py:66-74`) -/
noncomputable def zernikeScaling (n m : ℤ) : ℝ :=
  if n = 0 then 1 else if m = 0 then Real.sqrt (n + 1) else Real.sqrt (2 * (n + 1))

/-- the azimuthal part (`zernike.py:60-64`) -/
noncomputable def zernikeAzimuthal (m : ℤ) (theta : ℝ) : ℝ :=
  if m < 0 then Real.sin (-m * theta) else Real.cos (m * theta)

/-- `zernike(x, y, (cgx, cgy, r), j)` (`zernike.py:30-76`) at one point of arrays with `ndim` dimensions;
`r = 0` divides by zero and is not modelled -/
noncomputable def zernike (ndim : ℕ) (x y : ℝ) (cgx cgy r : ℝ) (j : ℤ) : Except PyErr ℝ := do
  let rho := Real.sqrt ((x - cgx) ^ 2 + (y - cgy) ^ 2) / r
  let theta := arctan2 (y - cgy) (x - cgx)
  let (m, n) ← zernikeNM j
  let R ← radialPoly ndim n |m| rho
  return R * zernikeAzimuthal m theta * zernikeScaling n m

end Lasy
