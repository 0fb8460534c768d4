import Verif.Model.Laser

/-!
# Model of `lasy/profiles/profile.py` and `lasy/profiles/combined_profile.py`
-/

namespace Lasy
open Phys Complex

/-- A Python value passed as a factor: `isinstance` distinguishes `int` (and `bool`), `float`
(and `np.float64`), `complex` (and `np.complex128`) from everything else (`np.int64`, `np.float32`, arrays,
strings, ...). -/
inductive PyVal
  | int (n : ℤ)
  | float (x : ℝ)
  | complex (z : ℂ)
  | other
  deriving Inhabited

/-- the number -/
noncomputable def PyVal.toC : PyVal → ℂ
  | .int n => n
  | .float x => x
  | .complex z => z
  | .other => 0

/-- dtype of the sum or product of two arrays -/
def DType.promote : DType → DType → DType
  | .c128, _ => .c128
  | _, .c128 => .c128
  | .f64, _ => .f64
  | _, .f64 => .f64
  | .other, .other => .other

/-- `np.sqrt(np.abs(pol[0])**2 + np.abs(pol[1])**2)` (`profile.py:37`) -/
noncomputable def normPol (pol : ℂ × ℂ) : ℝ := Real.sqrt (‖pol.1‖ ^ 2 + ‖pol.2‖ ^ 2)

/-- the attributes set by `Profile.__init__` (`profile.py:35-40`); for `pol = (0, 0)` NumPy gives `nan`, the
model `0`: no theorem speaks about that case. `laser_energy` is not set here. -/
noncomputable def polNormalised (pol : ℂ × ℂ) : ℂ × ℂ := (pol.1 / normPol pol, pol.2 / normPol pol)

variable [Phys]

/-- `Profile.__init__` (`profile.py:35-40`), `pol` being any list. `evaluate` is the method of the derived
class. -/
noncomputable def profileInit (wavelength : ℝ) (pol : List ℂ) (laserEnergy : Option (Option ℝ)) (dtype : DType)
    (evaluate : {a b c : ℕ} → Coords a b c → Coords a b c → Coords a b c → Fin a → Fin b → Fin c → ℂ) :
    Except PyErr ProfileObj :=
  match pol with
  | [p, q] => .ok
      { omega0 := 2 * Real.pi * c / wavelength, lambda0 := wavelength, pol := polNormalised (p, q)
        laserEnergy := laserEnergy, dtype := dtype, evaluate := evaluate }
  | _ => .error .assertion

/-- `np.allclose(a, b)` with its default tolerances for one element: `|a - b| <= atol + rtol * |b|`,
`rtol = 1e-5`, `atol = 1e-8` -/
def isClose (a b : ℂ) : Prop := ‖a - b‖ ≤ 1 / 10 ^ 8 + 1 / 10 ^ 5 * ‖b‖

open Classical in
/-- `SummedProfile.__init__` and `evaluate` (`profile.py:87-113`). An empty list of profiles: `lambda0s[0]`
is an `IndexError`. `sum([...])` starts with the integer 0. The object has no attribute `laser_energy`. -/
noncomputable def summedProfile (ps : List ProfileObj) : Except PyErr ProfileObj :=
  match ps with
  | [] => .error .index
  | p :: rest =>
    if ¬ (∀ q ∈ p :: rest, isClose (q.lambda0 : ℂ) p.lambda0) then .error .assertion
    else if ¬ (∀ q ∈ p :: rest, isClose q.pol.1 p.pol.1 ∧ isClose q.pol.2 p.pol.2) then .error .assertion
    else profileInit p.lambda0 [p.pol.1, p.pol.2] none
      (rest.foldl (fun d q => d.promote q.dtype) p.dtype)
      (fun x y t i j k => (p :: rest).foldl (fun acc q => acc + q.evaluate x y t i j k) 0)

/-- `ScaledProfile.__init__` and `evaluate` (`profile.py:130-147`): only `int` and `float` factors. -/
noncomputable def scaledProfile (p : ProfileObj) (factor : PyVal) : Except PyErr ProfileObj :=
  match factor with
  | .complex _ => .error .assertion
  | .other => .error .assertion
  | factor => profileInit p.lambda0 [p.pol.1, p.pol.2] none p.dtype
      (fun x y t i j k => p.evaluate x y t i j k * factor.toC)

/-- `Profile.__add__` (`profile.py:62-64`) -/
noncomputable def profileAdd (p q : ProfileObj) : Except PyErr ProfileObj := summedProfile [p, q]

/-- `Profile.__mul__`, `Profile.__rmul__` (`profile.py:66-72`) -/
noncomputable def profileMul (p : ProfileObj) (k : PyVal) : Except PyErr ProfileObj := scaledProfile p k

/-- `CombinedLongitudinalTransverseProfile.__init__` and `evaluate` (`combined_profile.py:49-72`). `trans` and
`long` are the `evaluate` methods of the two profiles at the moment of the call, `dt`, `dl` the dtypes they
return. The longitudinal and transverse profiles of lasy act point by point (those made from data as well). -/
noncomputable def combinedProfile (wavelength : ℝ) (pol : List ℂ) (laserEnergy : Option ℝ)
    (long : ℝ → ℂ) (dl : DType) (trans : ℝ → ℝ → ℂ) (dt : DType) : Except PyErr ProfileObj :=
  profileInit wavelength pol (some laserEnergy) (dt.promote dl)
    (fun x y t i j k => trans (x i j k) (y i j k) * long (t i j k))

end Lasy
