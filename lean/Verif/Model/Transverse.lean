import Verif.Model.Longitudinal
import Mathlib.Algebra.Polynomial.Derivative
import Mathlib.Algebra.Polynomial.Eval.Defs
import Mathlib.Analysis.SpecialFunctions.Complex.Arg

/-!
# Model of the analytic profiles of `lasy/profiles/transverse` and of `GaussianProfile`

Each definition is `_evaluate` at one point: the function without the offset. The offset, sums and scaled
profiles are in `Verif/Model/TransverseHeap.lean`.
-/

namespace Lasy
open Phys Complex

/-- `self.z_foc_over_zr`, set in the same way by the Gaussian, Laguerre-Gauss and Hermite-Gauss profiles
(`transverse/gaussian_profile.py:47-53`, `laguerre_gaussian_profile.py:58-64`,
`hermite_gaussian_profile.py:60-66`); `wavelength = none` is the default `None` -/
noncomputable def zFocOverZr (w0 : ℝ) (wavelength : Option ℝ) (zFoc : ℝ) : Except PyErr ℝ :=
  open Classical in
  if zFoc = 0 then .ok 0
  else match wavelength with
    | none => .error .assertion
    | some l => .ok (zFoc * l / (Real.pi * w0 ^ 2))

/-- `diffract_factor = 1.0 - 1j * self.z_foc_over_zr` -/
noncomputable def diffractFactor (zOverZr : ℝ) : ℂ := 1 - I * zOverZr

/-- `GaussianTransverseProfile._evaluate` (`transverse/gaussian_profile.py:71-78`) -/
noncomputable def gaussianTrans (w0 zOverZr : ℝ) (x y : ℝ) : ℂ :=
  exp (-((x ^ 2 + y ^ 2 : ℝ) : ℂ) / ((w0 ^ 2 : ℝ) * diffractFactor zOverZr)) / diffractFactor zOverZr

/-- `SuperGaussianTransverseProfile._evaluate` (`transverse/super_gaussian_profile.py:48`) -/
noncomputable def superGaussianTrans (w0 nOrder : ℝ) (x y : ℝ) : ℂ :=
  (Real.exp (-((x ^ 2 + y ^ 2) / w0 ^ 2) ^ (nOrder / 2)) : ℝ)

/-- `JincTransverseProfile._evaluate` (`transverse/jinc_profile.py:45-56`); `J1` is `scipy.special.jv(1, .)`,
left abstract. `np.divide` is skipped where `r_over_w0 > 0` fails. -/
noncomputable def jincTrans (J1 : ℝ → ℝ) (w0 : ℝ) (x y : ℝ) : ℂ :=
  open Classical in
  let r := Real.sqrt (x ^ 2 + y ^ 2) / w0
  ((if r > 0 then 2 * J1 r / r else 1 : ℝ) : ℂ)

open Polynomial in
/-- `scipy.special.hermite(n)`: the physicists' Hermite polynomial, by its recurrence
`H_{n+1} = 2 x H_n - H_n'` -/
noncomputable def hermiteH : ℕ → ℝ[X]
  | 0 => 1
  | n + 1 => C 2 * X * hermiteH n - derivative (hermiteH n)

open Polynomial in
/-- `scipy.special.genlaguerre(p, a)`: the generalised Laguerre polynomial
`∑_k (-1)^k binomial(p + a, p - k) x^k / k!` -/
noncomputable def laguerreL (p a : ℕ) : ℝ[X] :=
  ∑ k ∈ Finset.range (p + 1), C ((-1) ^ k * ((p + a).choose (p - k) : ℝ) / (k.factorial : ℝ)) * X ^ k

/-- `HermiteGaussianTransverseProfile._evaluate` (`transverse/hermite_gaussian_profile.py:84-102`) -/
noncomputable def hermiteGaussianTrans (w0 : ℝ) (nx ny : ℕ) (zOverZr : ℝ) (x y : ℝ) : ℂ :=
  let q := diffractFactor zOverZr
  let w := w0 * ‖q‖
  let psi := arg q
  (Real.sqrt (2 / Real.pi) : ℂ) * (Real.sqrt (1 / (2 ^ nx * nx.factorial * w0)) : ℂ)
    * (Real.sqrt (1 / (2 ^ ny * ny.factorial * w0)) : ℂ)
    * ((hermiteH nx).eval (Real.sqrt 2 * x / w) : ℝ) * ((hermiteH ny).eval (Real.sqrt 2 * y / w) : ℝ)
    * exp (-((x ^ 2 + y ^ 2 : ℝ) : ℂ) / ((w0 ^ 2 : ℝ) * q) - I * ((nx + ny : ℕ) : ℂ) * psi)
    * (1 / q)

/-- `LaguerreGaussianTransverseProfile._evaluate` (`transverse/laguerre_gaussian_profile.py:82-102`) -/
noncomputable def laguerreGaussianTrans (w0 : ℝ) (p : ℕ) (m : ℤ) (zOverZr : ℝ) (x y : ℝ) : ℂ :=
  let q := diffractFactor zOverZr
  let w := w0 * ‖q‖
  let psi := arg q
  let pos : ℂ := if m > 0 then x - I * y else x + I * y
  let radius : ℝ := ‖pos‖
  pos ^ m.natAbs * ((laguerreL p m.natAbs).eval (2 * radius ^ 2 / w ^ 2) : ℝ)
    * exp (-((radius ^ 2 : ℝ) : ℂ) / ((w0 ^ 2 : ℝ) * q) - I * ((2 * (p : ℤ) + m : ℤ) : ℂ) * psi)
    * (1 / q)

variable [Phys]

/-- `GaussianProfile.__init__` (`gaussian_profile.py:106-115`). The transverse profile is constructed as
`GaussianTransverseProfile(w0, z_foc, wavelength)` although its parameters are `(w0, wavelength, z_foc)`: the
two arguments are exchanged, as they are here. -/
noncomputable def gaussianProfile (wavelength : ℝ) (pol : List ℂ) (laserEnergy : Option ℝ) (w0 tau tPeak : ℝ)
    (cep : ℝ := 0) (zFoc : ℝ := 0) : Except PyErr ProfileObj := do
  let z ← zFocOverZr w0 (some zFoc) wavelength
  combinedProfile wavelength pol laserEnergy (gaussianLong wavelength tau tPeak cep) .c128
    (gaussianTrans w0 z) .c128

end Lasy
