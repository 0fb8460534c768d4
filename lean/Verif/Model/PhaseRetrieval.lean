import Verif.Model.Propagate
import Verif.Numpy.Signal

/-!
# Model of `lasy/utils/phase_retrieval.py`: `gerchberg_saxton_algo`

`Laser` objects live in a heap, because the function must work on copies. Both lasers have arrays of the same shape
`s`; arrays of different shapes (for most of which NumPy raises a `ValueError`) are not modelled. A `while` loop need
not end: the loop has a fuel argument and answers `none` when it is still running after that many iterations.
-/

namespace Lasy
open Phys Complex

/-- `Laser` objects by address; addresses from `next` on are free -/
structure LHeap (s : Shape) where
  obj : ℕ → Laser s
  next : ℕ

variable {s : Shape}

/-- `copy.deepcopy(laser)`: a new object with equal content -/
def deepcopy (r : ℕ) : Py (LHeap s) ℕ := fun h =>
  (.ok h.next, { obj := Function.update h.obj h.next (h.obj r), next := h.next + 1 })

/-- a method call on the object at address `r` -/
def atObj {α : Type} (r : ℕ) (m : Py (Laser s) α) : Py (LHeap s) α := fun h =>
  ((m (h.obj r)).1, { h with obj := Function.update h.obj r (m (h.obj r)).2 })

/-- a real array of shape `s` -/
abbrev RArr (s : Shape) := Fin s.n0 → Fin s.n1 → Fin s.nt → ℝ

/-- `amp * np.exp(1j * phase)` -/
noncomputable def polar (amp phase : RArr s) : Field s := fun i j k => (amp i j k : ℂ) * exp (I * (phase i j k : ℝ))

/-- `np.sum(a)` -/
def total (a : RArr s) : ℝ := ∑ i, ∑ j, ∑ k, a i j k

variable [Phys]

/-- what the body of the loop assigns: `phase1`, `phase2`, `amp_error_summed` -/
structure GSOut (s : Shape) where
  phase1 : RArr s
  phase2 : RArr s
  err : ℝ

/-- the body of the loop (`phase_retrieval.py:75-85`); `laser1`, `laser2` are the addresses of the copies -/
noncomputable def gsBody (ax : Axiprop) (laser1 laser2 : ℕ) (dz : ℝ) (amp1 amp2 phase1 : RArr s) :
    Py (LHeap s) (GSOut s) := do
  atObj laser1 (Laser.onGrid (Grid.setTemporalField (Arr.toNd ⟨.c128, polar amp1 phase1⟩)))
  atObj laser1 (Laser.propagateHere ax dz none "NP")
  let field1 ← atObj laser1 (Laser.onGrid Grid.getTemporalField)
  let phase2 : RArr s := fun i j k => angle (field1.val i j k)
  atObj laser2 (Laser.onGrid (Grid.setTemporalField (Arr.toNd ⟨.c128, polar amp2 phase2⟩)))
  atObj laser2 (Laser.propagateHere ax (-dz) none "NP")
  let field2 ← atObj laser2 (Laser.onGrid Grid.getTemporalField)
  return { phase1 := fun i j k => angle (field2.val i j k), phase2 := phase2
           err := total fun i j k => ‖field2.val i j k‖ - amp1 i j k }

/-- the argument `condition` with the argument that goes with it -/
inductive GSCond
  | maxIterations (n : ℤ)
  | amplitudeError (a : ℝ)

/-- `breakout(cond)` (`phase_retrieval.py:58-71`) after `i` iterations, the last of which gave the error `err`
(`9e30` before the first). Simplification: `amp1_summed = 0`, for which NumPy divides to `inf` or `nan`, divides to
`0`. -/
noncomputable def GSCond.goesOn (cond : GSCond) (amp1Summed : ℝ) (i : ℕ) (err : Option ℝ) : Prop :=
  match cond with
  | .maxIterations n => (i : ℤ) < n
  | .amplitudeError a => a < err.getD (9 * 10 ^ 30) / amp1Summed

/-- the `while` loop (`phase_retrieval.py:73-97`): `i` iterations are done, `last` is what the last one assigned.
`none`: still running after `fuel` more iterations. `phase2` is not assigned if the loop never ran:
`UnboundLocalError`. -/
noncomputable def gsLoop (ax : Axiprop) (laser1 laser2 : ℕ) (dz : ℝ) (amp1 amp2 : RArr s) (cond : GSCond) :
    ℕ → ℕ → Option (GSOut s) → Py (LHeap s) (Option (GSOut s))
  | 0, _, _ => return none
  | fuel + 1, i, last => open Classical in
    if cond.goesOn (total amp1) i (last.map GSOut.err) then do
      let out ← gsBody ax laser1 laser2 dz amp1 amp2 (match last with
        | some o => o.phase1
        | none => fun _ _ _ => 0)
      gsLoop ax laser1 laser2 dz amp1 amp2 cond fuel (i + 1) (some out)
    else
      match last with
      | some o => return some o
      | none => Py.raise .unbound

/-- `gerchberg_saxton_algo(laserPos1, laserPos2, dz, condition, ..)` (`phase_retrieval.py:6-97`), given the addresses
of the two lasers; `cond = none`: any other string as `condition`, for which `breakout` is never defined
(`UnboundLocalError`). -/
noncomputable def gerchbergSaxton (ax : Axiprop) (laserPos1 laserPos2 : ℕ) (dz : ℝ) (cond : Option GSCond)
    (fuel : ℕ) : Py (LHeap s) (Option (GSOut s)) := do
  let laser1 ← deepcopy laserPos1
  let laser2 ← deepcopy laserPos2
  let field1 ← atObj laser1 (Laser.onGrid Grid.getTemporalField)
  let field2 ← atObj laser2 (Laser.onGrid Grid.getTemporalField)
  match cond with
  | none => Py.raise .unbound
  | some cond =>
    gsLoop ax laser1 laser2 dz (fun i j k => ‖field1.val i j k‖) (fun i j k => ‖field2.val i j k‖) cond fuel 0 none

end Lasy
