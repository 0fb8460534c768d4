import Verif.Numpy.Float
import Verif.Numpy.Fourier
import Verif.Numpy.Signal
import Mathlib.Analysis.SpecialFunctions.Sqrt

/-!
# Model of `exp_data_utils.py` and `transverse_profile_from_data.py`
-/

namespace Lasy

/-- a 2-D array of reals, `rows × cols` -/
abbrev Img (rows cols : ℕ) := Fin rows → Fin cols → ℝ

/-- `np.sum(img)` -/
def imgSum {rows cols : ℕ} (img : Img rows cols) : ℝ := ∑ q, ∑ c, img q c

/-- `find_center_of_mass(img)` (`exp_data_utils.py:4-30`). The division by a zero sum gives `nan`, which is not
modelled (theorems assume that the sum is not zero). -/
noncomputable def findCenterOfMass {rows cols : ℕ} (img : Img rows cols) : ℝ × ℝ :=
  let x := linspace 0 ((cols : ℝ) - 1) cols
  let y := linspace 0 ((rows : ℝ) - 1) rows
  let imgTot := imgSum img
  ((∑ q, ∑ c, img q c * x c) / imgTot, (∑ c, ∑ q, img q c * y q) / imgTot)

/-- `find_d4sigma(img)` (`exp_data_utils.py:33-57`). The square root of a negative number is `nan` in NumPy, `0`
here (theorems assume an image without negative pixels). -/
noncomputable def findD4sigma {rows cols : ℕ} (img : Img rows cols) : ℝ × ℝ :=
  let x := linspace 0 ((cols : ℝ) - 1) cols
  let y := linspace 0 ((rows : ℝ) - 1) rows
  let x0 := (findCenterOfMass img).1
  let y0 := (findCenterOfMass img).2
  let imgTot := imgSum img
  (4 * Real.sqrt ((∑ q, ∑ c, img q c * (x c - x0) ^ 2) / imgTot),
   4 * Real.sqrt ((∑ c, ∑ q, img q c * (y q - y0) ^ 2) / imgTot))

/-- the state of a `TransverseProfileFromData`: `self.field_interp` -/
structure TransFromData where
  ny : ℕ
  nx : ℕ
  y : Fin ny → ℝ
  x : Fin nx → ℝ
  field : Img ny nx

/-- the centring of the data (`transverse_profile_from_data.py:57-61`) -/
noncomputable def centreImage {ny nx : ℕ} (img : Img ny nx) : Img ny nx :=
  let com := findCenterOfMass img
  roll (-pyInt (com.2 - (ny : ℝ) / 2)) fun q => roll (-pyInt (com.1 - (nx : ℝ) / 2)) (img q)

/-- `TransverseProfileFromData.__init__` (`transverse_profile_from_data.py:43-81`); the copy made by `astype`
leaves the argument alone. `RegularGridInterpolator` refuses axes that are not monotonous (`ValueError`);
descending axes (`hi < lo` with `center_data=False`) are refused here, SciPy flips them. -/
noncomputable def transFromData {ny nx : ℕ} (data : Img ny nx) (lo hi : ℝ × ℝ) (centerData : Bool) :
    Except PyErr TransFromData :=
  open Classical in
  let dx := (hi.1 - lo.1) / nx
  let dy := (hi.2 - lo.2) / ny
  let x := if centerData then linspace (-|hi.1 - lo.1| / 2) (|hi.1 - lo.1| / 2) nx else linspace lo.1 hi.1 nx
  let y := if centerData then linspace (-|hi.2 - lo.2| / 2) (|hi.2 - lo.2| / 2) ny else linspace lo.2 hi.2 ny
  let img := if centerData then centreImage data else data
  let norm : Img ny nx := fun q c => img q c / (imgSum img * dx * dy)
  if Ascending x ∧ Ascending y then .ok ⟨ny, nx, y, x, fun q c => Real.sqrt (norm q c)⟩
  else .error .value

/-- `TransverseProfileFromData._evaluate` (`transverse_profile_from_data.py:83-102`) -/
noncomputable def TransFromData.evaluate (p : TransFromData) (x y : ℝ) : ℝ := interp2 p.y p.x p.field y x

end Lasy
