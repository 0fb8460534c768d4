import Verif.Model.FullField

/-!
# Model of `Laser.show` (`lasy/laser.py:398-440`): the array and the extent given to `imshow`
-/

namespace Lasy
open Complex

variable {s : Shape}

/-- `np.concatenate((z * row[::-1], row))` (`laser.py:410-412`): `2 * nr` rows -/
noncomputable def showStack {nr nt : ℕ} (z : ℂ) (row : Fin nr → Fin nt → ℂ) (q : Fin (2 * nr)) (k : Fin nt) : ℂ :=
  if h : (q : ℕ) < nr then z * row ⟨nr - 1 - q, by omega⟩ k else row ⟨q - nr, by omega⟩ k

/-- one term of the list `E` in `rt` (`laser.py:409-414`): mode `m` of the field, `temporal_field[m]` with
Python's indices, flipped and multiplied by `(-1.0) ** m`, stacked on itself -/
noncomputable def showMode (f : Field s) (m : ℤ) : Except PyErr (Fin (2 * s.n1) → Fin s.nt → ℂ) := do
  let i ← pyIndex s.n0 m
  return showStack ((-1) ^ m) (f i)

/-- the array `E` and the `extent` (`laser.py:406-432`), `abs(E)` (`laser.py:436`); the drawing itself is
matplotlib's (`origin="lower"`: row 0 is at the bottom) -/
noncomputable def showArray (g : Grid s) (f : Field s) : Except PyErr Image :=
  match g.geom with
  | .rt n _ r => do
    let E ← (azimuthalModes n).mapM (showMode f)
    return ⟨2 * s.n1, s.nt, fun q k => ‖(E.map fun a => a q k).sum‖, (g.t.lo, g.t.hi, -r.hi, r.hi)⟩
  | .xyt x _ => do
    let j ← pyIndex s.n1 ((s.n1 / 2 : ℕ) : ℤ)
    return ⟨s.n0, s.nt, fun i k => ‖f i j k‖, (g.t.lo, g.t.hi, x.lo, x.hi)⟩

/-- `Laser.show()` (`laser.py:398-440`) -/
noncomputable def Laser.show : Py (Laser s) Image := do
  let f ← Laser.onGrid Grid.getTemporalField
  let l ← Py.get
  match showArray l.grid f.val with
  | .error e => Py.raise e
  | .ok r => return r

end Lasy
