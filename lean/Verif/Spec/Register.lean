import Verif.Numpy.Py
import Mathlib.Analysis.SpecialFunctions.Complex.Circle

/-!
# Specification of a `Grid` as a register

What a user of `Grid` should see (`README.md`, docstrings of `grid.py`): the grid holds *one* field, a
function of `(x, y, t)` (or of mode, r, t); it can be written and read as a function of time or, by a
discrete Fourier transform along `t`, as a function of frequency. There are no caches here. This file
does not import the model.
-/

namespace Lasy.Spec
open Complex

/-- the discrete Fourier transform along the last axis, `X_k = ∑_q x_q e^{-2πi q k/N}` -/
noncomputable def dft {s : Shape} (f : Field s) : Field s := fun i j k =>
  ∑ q : Fin s.nt, f i j q * exp (-2 * Real.pi * I * (q : ℕ) * (k : ℕ) / s.nt)

/-- the inverse transform, `x_k = (1/N) ∑_q X_q e^{+2πi q k/N}` -/
noncomputable def idft {s : Shape} (f : Field s) : Field s := fun i j k =>
  (∑ q : Fin s.nt, f i j q * exp (2 * Real.pi * I * (k : ℕ) * (q : ℕ) / s.nt)) / s.nt

/-- calls on an envelope grid -/
inductive Call
  | setTemporal (a : NdArray)
  | setSpectral (a : NdArray)
  | getTemporal
  | getSpectral

/-- what the caller gets back -/
inductive Answer (s : Shape)
  | done
  | array (a : Arr s)
  | exception (e : PyErr)

/-- an acceptable array for a complex grid of shape `s` -/
def fits (s : Shape) (a : NdArray) : Prop := a.shape = [s.n0, s.n1, s.nt] ∧ a.dtype = .c128

instance (s : Shape) (a : NdArray) : Decidable (fits s a) := by unfold fits; infer_instance

/-- the content of an array of shape `s` -/
def contents (s : Shape) (a : NdArray) : Field s := fun i j k => a.get [i, j, k]

/-- a call on the register; the state is the field as a function of time, `none` before the first
write -/
noncomputable def call {s : Shape} (st : Option (Field s)) : Call → Answer s × Option (Field s)
  | .setTemporal a =>
      if fits s a then (.done, some (contents s a)) else (.exception .assertion, st)
  | .setSpectral a =>
      if fits s a then (.done, some (dft (contents s a))) else (.exception .assertion, st)
  | .getTemporal =>
      match st with
      | some f => (.array ⟨.c128, f⟩, st)
      | none => (.exception .value, st)
  | .getSpectral =>
      match st with
      | some f => (.array ⟨.c128, idft f⟩, st)
      | none => (.exception .value, st)

/-- answers to a list of calls, in order -/
noncomputable def answers {s : Shape} (st : Option (Field s)) : List Call → List (Answer s)
  | [] => []
  | c :: cs => (call st c).1 :: answers (call st c).2 cs

/-- the last accepted write of a history: `inl f` a temporal one, `inr f` a spectral one -/
def lastWrite (s : Shape) : List Call → Option (Field s ⊕ Field s)
  | [] => none
  | c :: cs =>
    match lastWrite s cs with
    | some w => some w
    | none =>
      match c with
      | .setTemporal a => if fits s a then some (.inl (contents s a)) else none
      | .setSpectral a => if fits s a then some (.inr (contents s a)) else none
      | _ => none

end Lasy.Spec
