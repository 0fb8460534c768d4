import Mathlib.Data.Int.Notation
import Mathlib.Data.Nat.Notation

/-! # Which azimuthal mode a component of an `rt` field belongs to (`grid.py:65-66`) -/

namespace Lasy

/-- the mode of component `i` of an `rt` grid with `n` modes: `0, 1, .., n-1, -n+1, .., -1` -/
def modeAt (n : ℕ) (i : Fin (2 * n - 1)) : ℤ :=
  if (i : ℕ) < n then (i : ℤ) else (i : ℤ) - (2 * n - 1)

end Lasy
