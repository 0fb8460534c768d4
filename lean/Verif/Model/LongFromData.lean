import Verif.Numpy.Float
import Verif.Numpy.Fourier
import Verif.Numpy.Signal
import Verif.Model.Phys
import Mathlib.Analysis.SpecialFunctions.Sqrt
import Mathlib.Order.Fin.Basic

/-!
# Model of `lasy/profiles/longitudinal/longitudinal_profile_from_data.py`

Simplifications: `intensity`, `phase` and `axis` have the same length. An intensity that sums to zero and a field that
is zero everywhere give `nan` in NumPy; here the constructor stops with an error. A wavelength 0 gives `inf` in NumPy
and negative intensities give `nan` (square root): both are excluded by the hypotheses of the theorems that need it.
-/

namespace Lasy
open Phys Complex

/-- the attributes of a `LongitudinalProfileFromData`: `time`, `temporal_intensity`, `temporal_phase` and
`lambda0` -/
structure LongProf where
  n : ℕ
  time : Fin n → ℝ
  intensity : Fin n → ℝ
  phase : Fin n → ℝ
  lambda0 : ℝ

/-- the cut to the requested domain (`longitudinal_profile_from_data.py:143-151`) -/
noncomputable def cropLong {n : ℕ} (time intensity phase : Fin n → ℝ) (cwl lo hi : ℝ) : Except PyErr LongProf := do
  let a ← argmin fun k => |time k - lo|
  let b ← argmin fun k => |time k - hi|
  return ⟨b - a, slice1 time a b b.2.le, slice1 intensity a b b.2.le, slice1 phase a b b.2.le, cwl⟩

/-- `__init__` with `datatype = "temporal"` (`longitudinal_profile_from_data.py:129-136`) -/
noncomputable def longTemporal {n : ℕ} (axis intensity : Fin n → ℝ) (phase : Option (Fin n → ℝ))
    (wavelength lo hi : ℝ) : Except PyErr LongProf :=
  cropLong axis intensity (phase.getD fun _ => 0) wavelength lo hi

/-- `evaluate` at one time (`longitudinal_profile_from_data.py:153-173`) -/
noncomputable def LongProf.evaluate (p : LongProf) (t : ℝ) : Except PyErr ℂ := do
  let intensity ← npInterp p.time p.intensity t
  let phase ← npInterp p.time p.phase t
  return (Real.sqrt intensity : ℂ) * exp (-I * phase)

/-- `np.all(np.diff(x) > 0)` -/
def diffPos {n : ℕ} (x : Fin n → ℝ) : Prop := ∀ (i : ℕ) (h : i + 1 < n), 0 < x ⟨i + 1, h⟩ - x ⟨i, by omega⟩

/-- `np.all(np.diff(x) < 0)` -/
def diffNeg {n : ℕ} (x : Fin n → ℝ) : Prop := ∀ (i : ℕ) (h : i + 1 < n), x ⟨i + 1, h⟩ - x ⟨i, by omega⟩ < 0

/-- `np.interp(x, xp, fp, left=0, right=0)` for ascending `xp` with two samples or more -/
noncomputable def npInterpZero {n : ℕ} (xp fp : Fin n → ℝ) (x : ℝ) : ℝ :=
  open Classical in if Inside xp x then ∑ i, linWeight xp x i * fp i else 0

/-- `np.fft.fftshift` -/
def fftshift {α : Type} {n : ℕ} (x : Fin n → α) : Fin n → α := roll ((n / 2 : ℕ) : ℤ) x

/-- `np.fft.ifftshift` -/
def ifftshift {α : Type} {n : ℕ} (x : Fin n → α) : Fin n → α := roll (-((n / 2 : ℕ) : ℤ)) x

/-- `np.max` of a non-empty array -/
noncomputable def npMax {n : ℕ} (h : 0 < n) (x : Fin n → ℝ) : ℝ :=
  Finset.univ.sup' ⟨⟨0, h⟩, Finset.mem_univ _⟩ x

/-- from the spectrum on the frequency grid to the temporal field (`longitudinal_profile_from_data.py:110-120`) -/
noncomputable def temporalField {N : ℕ} (dt : ℝ) (intensity phase : Fin N → ℝ) : Fin N → ℂ := fun k =>
  fftshift (ifft (ifftshift fun j => (Real.sqrt (intensity j) : ℂ) * exp (-I * phase j))) k / dt

/-- the time axis (`longitudinal_profile_from_data.py:121`) -/
noncomputable def spectralTime (dt : ℝ) (N : ℕ) : Fin N → ℝ := linspace (-dt * N / 2) (dt * N / 2 - dt) N

/-- intensity and phase of the temporal field (`longitudinal_profile_from_data.py:123-127`), and the cut -/
noncomputable def finishSpectral {N : ℕ} (time : Fin N → ℝ) (field : Fin N → ℂ) (cwl lo hi : ℝ) : Except PyErr LongProf :=
  if h : 0 < N then
    if (npMax h fun j => ‖field j‖ ^ 2) = 0 then .error .zeroDivision else do
    let intensity : Fin N → ℝ := fun k => ‖field k‖ ^ 2 / npMax h fun j => ‖field j‖ ^ 2
    let phase0 : Fin N → ℝ := unwrap fun k => -angle (field k)
    let z ← argmin fun k => |time k|
    cropLong time intensity (fun k => phase0 k - phase0 z) cwl lo hi
  else .error .value

variable [Phys]

/-- the spectral data on an ascending wavelength axis (`longitudinal_profile_from_data.py:90-127`);
`wavelength[indx + 1]` is an `IndexError` if the sample nearest to the central wavelength is the last one -/
noncomputable def longFromWavelength {n : ℕ} (wavelength intensity phase : Fin n → ℝ) (dt lo hi : ℝ) :
    Except PyErr LongProf :=
  if dt = 0 ∨ ∑ k, intensity k = 0 then .error .zeroDivision else do
  let cwl := (∑ k, intensity k * wavelength k) / ∑ k, intensity k
  let cfreq := c / cwl
  let sampleFreq := 1 / dt
  let indx ← argmin fun k => |wavelength k - cwl|
  if h : (indx : ℕ) + 1 < n then
    let dfreq := |c / wavelength indx - c / wavelength ⟨indx + 1, h⟩|
    let N := (pyInt (sampleFreq / dfreq)).toNat
    let freq := linspace (cfreq - sampleFreq / 2) (cfreq + sampleFreq / 2) N
    let xp : Fin n → ℝ := fun k => c / wavelength k.rev
    let fi : Fin N → ℝ := fun j => npInterpZero xp (fun k => intensity k.rev) (freq j)
    let fp : Fin N → ℝ := fun j => npInterpZero xp (fun k => phase k.rev) (freq j)
    finishSpectral (spectralTime dt N) (temporalField dt fi fp) cwl lo hi
  else .error .index

/-- the two kinds of axes (`longitudinal_profile_from_data.py:67-78`) -/
noncomputable def spectralAxis {n : ℕ} (axisIsWavelength : Bool) (axis intensity : Fin n → ℝ) :
    (Fin n → ℝ) × (Fin n → ℝ) :=
  if axisIsWavelength then (axis, intensity)
  else (fun k => 2 * Real.pi * c / axis k, fun k => intensity k * 2 * Real.pi * c / (2 * Real.pi * c / axis k) ^ 2)

/-- `__init__` with `datatype = "spectral"` (`longitudinal_profile_from_data.py:66-127`) -/
noncomputable def longSpectral {n : ℕ} (axisIsWavelength : Bool) (axis intensity : Fin n → ℝ)
    (phase : Option (Fin n → ℝ)) (dt lo hi : ℝ) : Except PyErr LongProf :=
  open Classical in
  let wavelength := (spectralAxis axisIsWavelength axis intensity).1
  let spectral := (spectralAxis axisIsWavelength axis intensity).2
  let phase := phase.getD fun _ => 0
  if diffPos wavelength ∨ diffNeg wavelength then
    if diffNeg wavelength then
      longFromWavelength (fun k => wavelength k.rev) (fun k => spectral k.rev) (fun k => phase k.rev) dt lo hi
    else longFromWavelength wavelength spectral phase dt lo hi
  else .error .assertion

end Lasy
