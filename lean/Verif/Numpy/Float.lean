import Verif.Numpy.Interp
import Mathlib.Algebra.Order.Floor.Ring
import Mathlib.Algebra.Order.Archimedean.Real.Basic

/-!
# `int(x)`, `np.roll`, `np.argmin`, `np.interp`
-/

namespace Lasy

/-- Python's `int(x)` of a float: truncation towards zero -/
noncomputable def pyInt (x : ℝ) : ℤ := if 0 ≤ x then ⌊x⌋ else ⌈x⌉

/-- the element of a non-empty array at a position that wraps around -/
def wrapIndex {n : ℕ} (h : 0 < n) (i : ℤ) : Fin n :=
  ⟨(i % n).toNat, by
    have h1 : (0 : ℤ) < n := by exact_mod_cast h
    have h2 := Int.emod_lt_of_pos i h1
    have h3 := Int.emod_nonneg i h1.ne'
    omega⟩

/-- `np.roll(a, s)` along one axis: `out[i] = a[(i - s) mod n]` -/
def roll {α : Type} {n : ℕ} (s : ℤ) (a : Fin n → α) (i : Fin n) : α := a (wrapIndex (by have := i.2; omega) (i - s))

/-- `np.argmin(x)`: the first position of the smallest element; `ValueError` for an empty array -/
noncomputable def argmin {n : ℕ} (x : Fin n → ℝ) : Except PyErr (Fin n) :=
  open Classical in
  if h : ∃ k, (∀ j, x k ≤ x j) ∧ ∀ j, j < k → x k < x j then .ok h.choose else .error .value

/-- `a[lo:hi]` of a 1-D array, `0 ≤ lo`, `0 ≤ hi ≤ n` -/
def slice1 {α : Type} {n : ℕ} (a : Fin n → α) (lo hi : ℕ) (h : hi ≤ n) : Fin (hi - lo) → α :=
  fun k => a ⟨lo + k, by omega⟩

/-- `np.interp(x, xp, fp)` for ascending `xp` (NumPy does not check it; for other `xp` the result is not
meaningful and not modelled): constant outside, linear between the samples; `ValueError` without samples -/
noncomputable def npInterp {n : ℕ} (xp fp : Fin n → ℝ) (x : ℝ) : Except PyErr ℝ :=
  if h : 0 < n then
    open Classical in
    if x ≤ xp ⟨0, h⟩ then .ok (fp ⟨0, h⟩)
    else if xp ⟨n - 1, by omega⟩ ≤ x then .ok (fp ⟨n - 1, by omega⟩)
    else .ok (∑ i, linWeight xp x i * fp i)
  else .error .value

end Lasy
