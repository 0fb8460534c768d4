import Verif.Numpy.Py
import Mathlib.Algebra.BigOperators.Fin
import Mathlib.Data.Finset.Card

/-!
# SciPy `RegularGridInterpolator(..., method="linear")` and `np.interp`

`bounds_error=False, fill_value=0`, as lasy uses it. Following `scipy/interpolate/_rgi.py`: the interval of
a coordinate is found by bisection, the value is the multilinear combination of the corners.
-/

namespace Lasy

/-- a 1-D array of reals -/
abbrev Vec := Σ n : ℕ, Fin n → ℝ

/-- strictly ascending samples -/
def Ascending {n : ℕ} (x : Fin n → ℝ) : Prop := ∀ i j, i < j → x i < x j

/-- strictly descending samples -/
def Descending {n : ℕ} (x : Fin n → ℝ) : Prop := ∀ i j, i < j → x j < x i

/-- `np.searchsorted(g, x, side="right")` -/
noncomputable def searchRight {n : ℕ} (g : Fin n → ℝ) (x : ℝ) : ℕ :=
  (Finset.univ.filter fun i => g i ≤ x).card

/-- the interval `[g[i], g[i+1]]` used for `x`, between `0` and `n - 2` -/
noncomputable def interval {n : ℕ} (g : Fin n → ℝ) (x : ℝ) : ℕ := min (searchRight g x - 1) (n - 2)

/-- the weight of node `i` in linear interpolation at `x` -/
noncomputable def linWeight {n : ℕ} (g : Fin n → ℝ) (x : ℝ) (i : Fin n) : ℝ :=
  if h : interval g x + 1 < n then
    let a := interval g x
    let y := (x - g ⟨a, by omega⟩) / (g ⟨a + 1, h⟩ - g ⟨a, by omega⟩)
    if (i : ℕ) = a then 1 - y else if (i : ℕ) = a + 1 then y else 0
  else 0

/-- `x` is inside the axis -/
def Inside {n : ℕ} (g : Fin n → ℝ) (x : ℝ) : Prop := (∃ i, g i ≤ x) ∧ ∃ i, x ≤ g i

open Classical in
/-- 3-D linear interpolation, `0` outside -/
noncomputable def interp3 {a b c : ℕ} (x : Fin a → ℝ) (y : Fin b → ℝ) (z : Fin c → ℝ)
    (v : Fin a → Fin b → Fin c → ℝ) (p q r : ℝ) : ℝ :=
  if Inside x p ∧ Inside y q ∧ Inside z r then
    ∑ i, ∑ j, ∑ k, linWeight x p i * linWeight y q j * linWeight z r k * v i j k
  else 0

open Classical in
/-- 2-D linear interpolation, `0` outside -/
noncomputable def interp2 {a b : ℕ} (x : Fin a → ℝ) (y : Fin b → ℝ) (v : Fin a → Fin b → ℝ) (p q : ℝ) : ℝ :=
  if Inside x p ∧ Inside y q then ∑ i, ∑ j, linWeight x p i * linWeight y q j * v i j else 0

end Lasy
