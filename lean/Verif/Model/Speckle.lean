import Verif.Model.LongFromData
import Verif.Model.Laser

/-!
# Model of `lasy/profiles/speckle_profile.py`

Random numbers are an argument (`Draws`): the theorems hold for every draw. Floats are real numbers, except that
infinite and undefined intermediate results are kept where the code produces them for admissible arguments (`NpF`).
Simplifications: `focal_length`, `beam_aperture` and the wavelength are not zero; `n_beamlets` are two natural numbers;
the optional arguments are `None` or pairs of numbers; `temporal_smoothing_type` is only ever compared after `.upper()`,
so it is modelled by the five supported values (any other string is rejected: `AssertionError`, or a `TypeError` first
if it contains `"SSD"` and arguments are missing).
-/

namespace Lasy
open Phys Complex

/-! ## NumPy and Python primitives -/

/-- a NumPy float -/
inductive NpF
  | fin (x : ℝ)
  | inf (neg : Bool)
  | nan

namespace NpF

/-- `a / b` for finite `a`, `b` -/
noncomputable def div (a b : ℝ) : NpF :=
  if b = 0 then (if a = 0 then .nan else .inf (decide (a < 0))) else .fin (a / b)

/-- `a * x` for a finite `a` -/
noncomputable def smul (a : ℝ) : NpF → NpF
  | .fin x => .fin (a * x)
  | .inf neg => if a = 0 then .nan else .inf (xor neg (decide (a < 0)))
  | .nan => .nan

/-- `a + x` for a finite `a` -/
def add (a : ℝ) : NpF → NpF
  | .fin x => .fin (a + x)
  | .inf neg => .inf neg
  | .nan => .nan

/-- `np.sin(x)` (`nan` if `x` is infinite) -/
noncomputable def sin : NpF → NpF
  | .fin x => .fin (Real.sin x)
  | _ => .nan

/-- the number, if it is finite; `none` stands for `nan` where infinities cannot occur -/
def toOption : NpF → Option ℝ
  | .fin x => some x
  | _ => none

end NpF

/-- Python's `round(x)`: to the nearest integer, halves to the even one -/
noncomputable def pyRound (x : ℝ) : ℤ :=
  if Int.fract x < 1 / 2 then ⌊x⌋
  else if 1 / 2 < Int.fract x then ⌊x⌋ + 1
  else if ⌊x⌋ % 2 = 0 then ⌊x⌋ else ⌊x⌋ + 1

/-- the number of elements of `np.arange(0, stop, step)`, `step > 0` -/
noncomputable def arangeLen (stop step : ℝ) : ℕ := ⌈stop / step⌉₊

/-- `np.sinc(u)` -/
noncomputable def npSinc (u : ℝ) : ℝ := if u = 0 then 1 else Real.sin (Real.pi * u) / (Real.pi * u)

/-- the exception, if one was raised -/
def raised {α : Type} : Except PyErr α → Option PyErr
  | .error e => some e
  | .ok _ => none

/-- the result, if there is one -/
def resultOr {α : Type} (a : α) : Except PyErr α → α
  | .error _ => a
  | .ok v => v

/-- a loop over `k` that stops at the first exception -/
def runLoop {α : Type} [Inhabited α] {n : ℕ} (f : Fin n → Except PyErr α) : Except PyErr (Fin n → α) :=
  ((List.finRange n).findSome? fun k => raised (f k)).elim (.ok fun k => resultOr default (f k)) .error

/-! ## `gen_gaussian_time_series` -/

/-- `gen_gaussian_time_series(t_num, dt, fwhm, rms_mean)` (`speckle_profile.py:7-41`), given the two arrays of normal
random numbers; `none`: all elements are `nan`. `t_num = 0`: `fftfreq` divides by zero. -/
noncomputable def genGaussian (n : ℕ) (dt : ℝ) (fwhm : NpF) (rms : ℝ) (re im : ℕ → ℝ) :
    Except PyErr (Option (Fin n → ℂ)) :=
  let run (psd : Fin n → ℝ) : Except PyErr (Option (Fin n → ℂ)) :=
    if n = 0 then .error .zeroDivision
    else
      let spectral : Fin n → ℂ := fun k => (psd k : ℂ) * ((re k : ℂ) + I * (im k : ℂ))
      let temporal := ifftshift (fft (fftshift spectral))
      let rms0 := Real.sqrt ((∑ k, ‖temporal k‖ ^ 2) / n)
      if rms0 = 0 then .ok none else .ok (some fun k => temporal k * ((rms / rms0 : ℝ) : ℂ))
  match fwhm with
  | .fin w =>
    if w = 0 then .ok (some fun _ => 0)
    else run fun k =>
      Real.exp (-Real.log 2 * 0.5 * (fftshift (fftfreq n dt) k / w * 2 * Real.pi) ^ 2)
  | .inf _ => run fun _ => 1
  | .nan => if n = 0 then .error .zeroDivision else .ok none

/-! ## The profile -/

/-- `temporal_smoothing_type.upper()` -/
inductive Smoothing
  | rpp | cpp | fmSSD | gpSSD | gpISI
  deriving DecidableEq

/-- `"SSD" in temporal_smoothing_type.upper()` -/
def Smoothing.isSSD : Smoothing → Bool
  | .fmSSD | .gpSSD => true
  | _ => false

/-- the attributes of a `SpeckleProfile` -/
structure Speckle where
  lambda0 : ℝ
  focalLength : ℝ
  aperture : ℝ × ℝ
  n0 : ℕ
  n1 : ℕ
  smoothing : Smoothing
  bandwidth : ℝ
  dtUpdate : ℝ
  withEnvelope : Bool
  /-- the `ssd_..` attributes, set for SSD only -/
  amp : ℝ × ℝ
  freq : NpF × NpF
  delay : ℝ × ℝ

/-- `ssd_time_delay` (`speckle_profile.py:243-256`) -/
noncomputable def ssdDelay (cycles : ℝ) : NpF → ℝ
  | .fin v => if 0 < v then cycles / v else 0
  | _ => 0

/-- whether `ssd_number_color_cycles[..]` is read for this frequency -/
def NpF.isPos : NpF → Prop
  | .fin v => 0 < v
  | .inf neg => neg = false
  | .nan => False

/-- reading `ssd_number_color_cycles`: it is subscripted only if one of the frequencies is positive -/
noncomputable def ssdCycles (cycles : Option (ℝ × ℝ)) (freq : NpF × NpF) : Except PyErr (ℝ × ℝ) :=
  open Classical in
  if freq.1.isPos ∨ freq.2.isPos then cycles.elim (.error .type) .ok else .ok (cycles.getD (0, 0))

/-- the assertions on an SSD argument: it is given, and not all zeros (`speckle_profile.py:268-287`) -/
def ssdArgOK : Option (ℝ × ℝ) → Prop
  | none => False
  | some q => 0 < q.1 ∨ 0 < q.2

/-- the frequencies (`speckle_profile.py:230-241`): `bandwidth * (d_i / sqrt(d_0² + d_1²)) * 0.5 / amp_i` -/
noncomputable def ssdFreq (bandwidth amp d norm : ℝ) : NpF :=
  match NpF.div d norm with
  | .fin sf => NpF.div (bandwidth * sf * 0.5) amp
  | _ => .nan

/-- the SSD attributes (`speckle_profile.py:221-256`) -/
noncomputable def ssdInit (base : Speckle) (amp cycles dist : Option (ℝ × ℝ)) : Except PyErr Speckle := do
  let dist ← dist.elim (.error PyErr.type) .ok
  let amp ← amp.elim (.error PyErr.type) .ok
  let norm := Real.sqrt (dist.1 ^ 2 + dist.2 ^ 2)
  let freq := (ssdFreq base.bandwidth amp.1 dist.1 norm, ssdFreq base.bandwidth amp.2 dist.2 norm)
  let cycles ← ssdCycles cycles freq
  return { base with amp := amp, freq := freq, delay := (ssdDelay cycles.1 freq.1, ssdDelay cycles.2 freq.2) }

/-- `SpeckleProfile.__init__` (`speckle_profile.py:174-287`), given the attributes which do not depend on the smoothing.
`bandwidth` is a Python number, so that `1 / 0` raises. -/
noncomputable def Speckle.init (base : Speckle) (amp cycles dist : Option (ℝ × ℝ)) : Except PyErr Speckle :=
  open Classical in
  if base.bandwidth = 0 then .error .zeroDivision
  else do
    let base := { base with dtUpdate := 1 / base.bandwidth / 50 }
    let p ← if base.smoothing.isSSD = true then ssdInit base amp cycles dist else .ok base
    if base.bandwidth ≤ 0 then .error .assertion
    else if base.smoothing.isSSD = true ∧ ¬ (ssdArgOK cycles ∧ ssdArgOK dist ∧ ssdArgOK amp) then .error .assertion
    else .ok p

/-- the random numbers used by one call of `evaluate` -/
structure Draws where
  /-- `np.random.choice([0, π])`: which of the two -/
  choice : ℕ → ℕ → Bool
  /-- `np.random.uniform`: the underlying number in `[0, 1)` -/
  uniform : ℕ → ℕ → ℝ
  uniform_mem : ∀ m l, 0 ≤ uniform m l ∧ uniform m l < 1
  /-- `np.random.standard_normal(2)` -/
  dephasing : ℝ × ℝ
  /-- the normal numbers of the two SSD series -/
  pm0 : (ℕ → ℝ) × (ℕ → ℝ)
  pm1 : (ℕ → ℝ) × (ℕ → ℝ)
  /-- the normal numbers of the ISI series of beamlet `m`, `l` -/
  isi : ℕ → ℕ → (ℕ → ℝ) × (ℕ → ℝ)

namespace Speckle
variable (p : Speckle)

/-- `self.x_lens_list`, `self.y_lens_list` (`speckle_profile.py:203-212`) -/
noncomputable def lens (n : ℕ) (m : Fin n) : ℝ := linspace (-0.5 * ((n : ℝ) - 1)) (0.5 * ((n : ℝ) - 1)) n m

/-- `phase_plate` (`speckle_profile.py:527-541`) -/
noncomputable def phasePlate (d : Draws) (m : Fin p.n0) (l : Fin p.n1) : ℝ :=
  match p.smoothing with
  | .rpp => if d.choice m l then Real.pi else 0
  | .cpp | .fmSSD | .gpSSD => -Real.pi + (Real.pi - -Real.pi) * d.uniform m l
  | .gpISI => 0

/-- what `evaluate` hands to `beamlets_complex_amplitude`: `series_time` and `time_series` -/
inductive Series
  /-- `None` -/
  | none
  /-- the SSD series: times and two series of phases (`Option.none`: `nan`) -/
  | ssd (nTime n : ℕ) (time : Fin nTime → ℝ) (s0 s1 : Option (Fin n → ℝ))
  /-- the ISI amplitudes of each beamlet -/
  | isi (n : ℕ) (amp : Fin p.n0 → Fin p.n1 → Option (Fin n → ℂ))

/-- `(np.real(z) + np.imag(z)) / np.sqrt(2)` -/
noncomputable def realPart {n : ℕ} (z : Fin n → ℂ) : Fin n → ℝ := fun k => ((z k).re + (z k).im) / Real.sqrt 2

/-- the SSD case of `init_gaussian_time_series` (`speckle_profile.py:321-345`), for `series_time` of `n` elements and
series of `m` -/
noncomputable def ssdSeries (d : Draws) (n m : ℕ) : Except PyErr p.Series := do
  let pm0 ← genGaussian m p.dtUpdate (p.freq.1.smul (2 * Real.pi)) p.amp.1 d.pm0.1 d.pm0.2
  let pm1 ← genGaussian m p.dtUpdate (p.freq.2.smul (2 * Real.pi)) p.amp.2 d.pm1.1 d.pm1.2
  if n = 0 then .error .index
  return .ssd (min (arangeLen (((n : ℝ) - 1) * p.dtUpdate + (p.delay.1 + p.delay.2) + 3 * p.dtUpdate) p.dtUpdate) m) m
    (fun k => (k : ℕ) * p.dtUpdate) (pm0.map realPart) (pm1.map realPart)

/-- `init_gaussian_time_series` (`speckle_profile.py:289-362`) and its use in `evaluate` (`speckle_profile.py:546-551`)
for `series_time` of `n` elements. `np.stack` refuses an empty list of beamlets (`ValueError`). -/
noncomputable def series (d : Draws) (n : ℕ) : Except PyErr p.Series :=
  match p.smoothing with
  | .gpSSD =>
    let m := n + pyInt ((p.delay.1 + p.delay.2) / p.dtUpdate) + 2
    if m < 0 then .error .value else p.ssdSeries d n m.toNat
  | .gpISI =>
    if p.n0 = 0 ∨ p.n1 = 0 then .error .value
    else if n = 0 then .error .zeroDivision
    else .ok (.isi n fun m l => resultOr none
      (genGaussian n p.dtUpdate (.fin (2 * p.bandwidth)) 1 (d.isi m l).1 (d.isi m l).2))
  | _ => .ok .none

/-- `np.interp(x, time, series)`: `ValueError` if the lengths differ -/
noncomputable def interpSeries {nTime n : ℕ} (time : Fin nTime → ℝ) (s : Option (Fin n → ℝ)) (x : ℝ) :
    Except PyErr (Option ℝ) :=
  if h : n = nTime then
    match s with
    | some s => (npInterp time (fun k => s (Fin.cast h.symm k)) x).map some
    | none => .ok none
  else .error .value

/-- `beamlets_complex_amplitude(t_now, ..)` of beamlet `m`, `l` (`speckle_profile.py:364-432`); `none`: `nan` -/
noncomputable def beamlet (d : Draws) (s : p.Series) (t : ℝ) (m : Fin p.n0) (l : Fin p.n1) :
    Except PyErr (Option ℂ) :=
  match p.smoothing, s with
  | .rpp, _ | .cpp, _ => .ok (some 1)
  | .fmSSD, _ =>
    let phase0 := NpF.smul p.amp.1 (NpF.sin (NpF.add (d.dephasing.1 * Real.pi)
      (NpF.smul (t - lens p.n0 m * p.delay.1 / p.n0) (NpF.smul (2 * Real.pi) p.freq.1))))
    let phase1 := NpF.smul p.amp.2 (NpF.sin (NpF.add (d.dephasing.2 * Real.pi)
      (NpF.smul (t - lens p.n1 l * p.delay.2 / p.n1) (NpF.smul (2 * Real.pi) p.freq.2))))
    .ok (match phase0.toOption, phase1.toOption with
      | some a, some b => some (exp (I * (a + b : ℝ)))
      | _, _ => none)
  | .gpSSD, .ssd _ _ time s0 s1 => do
    let a ← interpSeries time s0 (t + (m : ℕ) * p.delay.1 / p.n0)
    let b ← interpSeries time s1 (t + (l : ℕ) * p.delay.2 / p.n1)
    return match a, b with
      | some a, some b => some (exp (I * (a + b : ℝ)))
      | _, _ => none
  | .gpISI, .isi n amp => do
    let k ← pyIndex n (pyRound (t / p.dtUpdate))
    return (amp m l).map (· k)
  | _, _ => .error .type

/-- a sum in which one `nan` makes the result `nan` -/
noncomputable def nanSum {n0 n1 : ℕ} (f : Fin n0 → Fin n1 → Option ℂ) : Option ℂ :=
  if ∀ m l, (f m l).isSome then some (∑ l, ∑ m, (f m l).getD 0) else none

/-- `generate_speckle_pattern` (`speckle_profile.py:434-502`) at the position `(i, j)`: the phases are computed from the
positions `x[i, 0, 0]` and `y[0, j, 0]`, the transverse envelope from `x[i, j, 0]` and `y[i, j, 0]`; `bca` are the
amplitudes of the beamlets. Without beamlets in a direction `np.sinc` gets `x / 0`: `nan`. -/
noncomputable def pattern (d : Draws) (bca : Fin p.n0 → Fin p.n1 → Option ℂ) (xi yj xij yij : ℝ) : Option ℂ :=
  let fx := p.lambda0 * p.focalLength / p.aperture.1
  let fy := p.lambda0 * p.focalLength / p.aperture.2
  let amp := nanSum fun m l => (bca m l).map fun b =>
    b * exp (I * p.phasePlate d m l) * exp (-2 * Real.pi * I / p.n0 * lens p.n0 m * (xi / fx : ℝ)) *
      exp (-2 * Real.pi * I / p.n1 * lens p.n1 l * (yj / fy : ℝ))
  if p.withEnvelope ∧ (p.n0 = 0 ∨ p.n1 = 0) then none
  else if p.withEnvelope then amp.map fun a => (npSinc (xij / fx / p.n0) : ℂ) * (npSinc (yij / fy / p.n1) : ℂ) * a else amp

variable [Phys]

/-- `SpeckleProfile.evaluate(x, y, t)` (`speckle_profile.py:504-568`); `none` stands for `nan` -/
noncomputable def evaluate (d : Draws) {a b c' : ℕ} (x y t : Coords a b c') :
    Except PyErr (Fin a → Fin b → Fin c' → Option ℂ) :=
  if h : 0 < a ∧ 0 < b ∧ 0 < c' then do
    let tNorm : Fin c' → ℝ := fun k => t ⟨0, h.1⟩ ⟨0, h.2.1⟩ k * c / p.lambda0
    let tMax := tNorm ⟨c' - 1, by omega⟩
    let s ← p.series d (arangeLen (tMax + p.dtUpdate) p.dtUpdate)
    let bca ← runLoop fun k => runLoop fun m => runLoop fun l => p.beamlet d s (tNorm k) m l
    return fun i j k => p.pattern d (bca k) (x i ⟨0, h.2.1⟩ ⟨0, h.2.2⟩) (y ⟨0, h.1⟩ j ⟨0, h.2.2⟩)
      (x i j ⟨0, h.2.2⟩) (y i j ⟨0, h.2.2⟩)
  else .error .index

/-- the profile as `Laser` sees it, for one sequence of draws. Only used where `evaluate` neither raises nor returns
`nan`. -/
noncomputable def toProfile (d : Draws) (omega0 : ℝ) (pol : ℂ × ℂ) (energy : Option ℝ) : ProfileObj where
  omega0 := omega0
  lambda0 := p.lambda0
  pol := pol
  laserEnergy := some energy
  dtype := .c128
  evaluate := fun x y t i j k => (resultOr (fun _ _ _ => none) (p.evaluate d x y t) i j k).getD 0

end Speckle
end Lasy
