import Mathlib.Data.Real.Basic
import Mathlib.Tactic.NormNum

/-!
# Physical constants

`scipy.constants` (`laser_utils.py:4`, `laser.py:4`) as parameters: positive reals. No theorem depends on
their values.
-/

namespace Lasy

/-- `c`, `epsilon_0`, `e`, `m_e` of `scipy.constants`. -/
class Phys where
  c : ℝ
  eps0 : ℝ
  e : ℝ
  me : ℝ
  c_pos : 0 < c
  eps0_pos : 0 < eps0
  e_pos : 0 < e
  me_pos : 0 < me

/-- the CODATA 2018 values used by SciPy: the parameters can be instantiated -/
@[reducible] noncomputable def Phys.codata : Phys where
  c := 299792458
  eps0 := 8.8541878128 / 10 ^ 12
  e := 1.602176634 / 10 ^ 19
  me := 9.1093837015 / 10 ^ 31
  c_pos := by norm_num
  eps0_pos := by positivity
  e_pos := by positivity
  me_pos := by positivity

end Lasy
