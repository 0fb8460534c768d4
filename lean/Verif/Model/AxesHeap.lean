import Verif.Model.Phys
import Mathlib.Data.List.Basic
import Mathlib.Tactic.Ring

/-!
# Object identities in `Laser.propagate` (`lasy/laser.py:205-358`): which objects several lasers share

`Model/Propagate` treats a `Grid` as a value. Here grids and their time axes are objects with identities: `self.grid = grid`
(`laser.py:262`) makes the caller's object the grid of the laser, `grid.axes[-1] = self.grid.axes[-1]` (`laser.py:257`)
makes the new grid share the *array* of the old one, and `self.grid.axes[-1] += translate_time` (`laser.py:358`) changes
this array in place, while `lo` and `hi` are lists of each grid (`grid.py:46-47`, `laser.py:255-256, 356-357`).

The field is a value of an arbitrary type, the physics an arbitrary function of distance, old grid and new grid.
Only calls that succeed are modelled.
-/

namespace Lasy.Heap
open Phys

/-- identities of lasers, grids and arrays -/
abbrev LaserId := ℕ
abbrev GridId := ℕ
abbrev ArrayId := ℕ

/-- a `Grid` object: `lo[-1]`, `hi[-1]`, the reference `axes[-1]`, the field -/
structure GridObj (F : Type) where
  lo : ℝ
  hi : ℝ
  axis : ArrayId
  field : F

/-- the heap: contents of all arrays and grids, and `laser.grid` of each laser -/
structure World (F : Type) where
  arrays : ArrayId → ℕ → ℝ
  grids : GridId → GridObj F
  laser : LaserId → GridId

/-- a call of the client -/
inductive Call (F : Type)
  /-- `laser.propagate(d)` or `laser.propagate(d, grid=g)` -/
  | propagate (l : LaserId) (d : ℝ) (onto : Option GridId)
  /-- `laser.normalize`, `laser.apply_optics`: the field of `laser.grid` is replaced -/
  | update (l : LaserId) (f : F → F)

/-- the laser on which the method is called -/
def Call.subject {F : Type} : Call F → LaserId
  | .propagate l _ _ => l
  | .update l _ => l

variable {F : Type} [Phys]

/-- `laser.py:253-262`: the grid object passed by the caller takes over the bounds and the axis *object* of the old grid and
becomes the grid of the laser. Its field is set below. -/
def World.adopt (w : World F) (l : LaserId) (g : GridId) : World F :=
  let old := w.grids (w.laser l)
  { w with
    grids := Function.update w.grids g { w.grids g with lo := old.lo, hi := old.hi, axis := old.axis }
    laser := Function.update w.laser l g }

/-- `laser.py:353-358`: the new field is set, `lo`, `hi` and the axis array are shifted in place -/
noncomputable def World.shift (w : World F) (l : LaserId) (d : ℝ) (f : F) : World F :=
  let g := w.laser l
  let o := w.grids g
  { w with
    grids := Function.update w.grids g { o with lo := o.lo + d / c, hi := o.hi + d / c, field := f }
    arrays := Function.update w.arrays o.axis fun k => w.arrays o.axis k + d / c }

/-- one call; `evolve d g g' f` is the field on grid `g'` after propagating `f`, given on grid `g`, by `d` -/
noncomputable def World.call (evolve : ℝ → GridId → GridId → F → F) (w : World F) : Call F → World F
  | .propagate l d onto =>
    let f := (w.grids (w.laser l)).field
    let g' := onto.getD (w.laser l)
    let f' := evolve d (w.laser l) g' f
    match onto with
    | none => w.shift l d f'
    | some g => (w.adopt l g).shift l d f'
  | .update l u =>
    let g := w.laser l
    { w with grids := Function.update w.grids g { w.grids g with field := u (w.grids g).field } }

/-- a history of calls -/
noncomputable def World.run (evolve : ℝ → GridId → GridId → F → F) (w : World F) (h : List (Call F)) : World F :=
  h.foldl (World.call evolve) w

end Lasy.Heap
