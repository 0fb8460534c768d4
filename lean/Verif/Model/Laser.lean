import Verif.Model.Energy

/-!
# Model of `lasy/laser.py`: the object, construction, `normalize`, `apply_optics`, `show`
-/

namespace Lasy
open Phys Complex

/-- An array of shape `(a, b, c)` of real coordinates, as made by `np.meshgrid`. -/
abbrev Coords (a b c : ℕ) := Fin a → Fin b → Fin c → ℝ

/-- A `Profile` object, as far as `Laser` uses it (`laser.py:110-146, 187, 351, 392-393`):
`omega0`, `lambda0`, `pol`; `laserEnergy = none` if there is no attribute `laser_energy`, `some none` if
it is `None`; `dtype` is the dtype of the array which `evaluate` returns; `evaluate` gets whole
coordinate arrays. -/
structure ProfileObj where
  omega0 : ℝ
  lambda0 : ℝ
  pol : ℂ × ℂ
  laserEnergy : Option (Option ℝ)
  dtype : DType
  evaluate : {a b c : ℕ} → Coords a b c → Coords a b c → Coords a b c → Fin a → Fin b → Fin c → ℂ

/-- a profile whose `evaluate` acts point by point -/
def ProfileObj.Pointwise (p : ProfileObj) (f : ℝ → ℝ → ℝ → ℂ) : Prop :=
  ∀ (a b c : ℕ) (x y t : Coords a b c) (i : Fin a) (j : Fin b) (k : Fin c),
    p.evaluate x y t i j k = f (x i j k) (y i j k) (t i j k)

/-- An `OpticalElement`: `amplitude_multiplier(x, y, omega, omega0)` (`optical_element.py`). All
elements of lasy act point by point. -/
structure OpticalElement where
  mult : (x y omega omega0 : ℝ) → ℂ

/-- One `PropagatorResampling` object of axiprop, as constructed in `laser.py:271-281, 288-297`: the
radial axis, `omega_1d / c`, the new radial axis if one was passed, `mode`, `backend`. -/
structure PropRT where
  nr : ℕ
  r : Fin nr → ℝ
  nt : ℕ
  kz : Fin nt → ℝ
  target : Option (Σ n : ℕ, Fin n → ℝ)
  mode : ℤ
  backend : String

/-- A `PropagatorFFT2` object, as constructed in `laser.py:325-334`. -/
structure PropXY where
  Lx : ℝ
  nx : ℕ
  Ly : ℝ
  ny : ℕ
  nt : ℕ
  kz : Fin nt → ℝ
  backend : String

/-- The attribute `self.prop` (absent, a list of radial propagators, or one Cartesian propagator). -/
inductive PropCache
  | absent
  | rt (l : List PropRT)
  | xy (p : PropXY)

/-- A `Laser` object on a grid of shape `s` (`laser.py:108-116`). -/
structure Laser (s : Shape) where
  grid : Grid s
  profile : ProfileObj
  outputIteration : ℕ
  omega1d : Fin s.nt → ℝ
  prop : PropCache

namespace Laser
variable {s : Shape} {α : Type}

/-- call a method of `self.grid` -/
def onGrid (m : Py (Grid s) α) : Py (Laser s) α := fun l =>
  match m l.grid with
  | (r, g) => (r, { l with grid := g })

/-- `envelope` of `laser.py:129-134`: the profile evaluated on `n_theta_evals` angles -/
noncomputable def sampleTheta (p : ProfileObj) (n : ℕ) {nr nt : ℕ} (r : Fin nr → ℝ) (t : Fin nt → ℝ) :
    Fin n → Fin nr → Fin nt → ℂ :=
  let theta : Fin n → ℝ := fun q => 2 * Real.pi / n * (q : ℕ)
  p.evaluate (fun q j _ => r j * Real.cos (theta q)) (fun q j _ => r j * Real.sin (theta q))
    (fun _ _ k => t k)

/-- `azimuthal_modes[:n]` followed by `azimuthal_modes[-n+1:]` when `n > 1` (`laser.py:137-141`), of an
array with `N ≥ 2n-1` rows: row `i` of the result is row `i` or row `N - (n-1) + (i-n)`. -/
def pickModes (n N : ℕ) (h : 2 * n - 1 ≤ N) (hn : 1 ≤ n) (i : Fin (2 * n - 1)) : Fin N :=
  if hi : (i : ℕ) < n then ⟨i, by omega⟩ else ⟨N - (n - 1) + (i - n), by omega⟩

/-- The array passed to `set_temporal_field` in `Laser.__init__` (`laser.py:119-142`). -/
noncomputable def sample (g : Grid s) (p : ProfileObj) (nTheta : Option ℕ) :
    Except PyErr (NdArray) :=
  match g.geom with
  | .xyt x y =>
      .ok (Arr.toNd (s := s) ⟨p.dtype,
        p.evaluate (fun i _ _ => x.pts i) (fun _ j _ => y.pts j) (fun _ _ k => g.t.pts k)⟩)
  | .rt n hm r =>
      let N := nTheta.getD (2 * n - 1)
      if h : 2 * n - 1 ≤ N then
        let envelope := sampleTheta p N r.pts g.t.pts
        .ok (Arr.toNd (s := s) ⟨.c128, fun i j k =>
          ifft (fun q => envelope q j k) (pickModes n N h hm.1 (Fin.cast hm.2 i))⟩)
      else .error .assertion

end Laser

variable [Phys]

namespace Laser
variable {s : Shape}

/-- `Laser.normalize` (`laser.py:148-167`) -/
noncomputable def normalize (value : Option ℝ) (kind : String) : Py (Laser s) Unit :=
  if kind = "energy" then onGrid (normalizeEnergy value)
  else if kind = "field" then onGrid (normalizePeakField value)
  else if kind = "intensity" then onGrid (normalizePeakIntensity value)
  else Py.raise .value

/-- the attributes set at the beginning of `Laser.__init__` (`laser.py:108-116`) -/
noncomputable def raw (g : Grid s) (p : ProfileObj) : Laser s :=
  { grid := g, profile := p, outputIteration := 0, prop := .absent
    omega1d := fun k => 2 * Real.pi * fftfreq s.nt g.t.dx k + p.omega0 }

/-- `Laser.__init__` (`laser.py:105-146`) -/
noncomputable def init (dim : String) (lo hi : List ℝ) (npoints : List ℕ) (p : ProfileObj)
    (nModes : Option ℕ) (nTheta : Option ℕ) : Except PyErr (Σ s, Laser s) := do
  let ⟨s, g⟩ ← Grid.init dim lo hi npoints nModes true
  let field ← sample g p nTheta
  match onGrid (Grid.setTemporalField field) (raw g p) with
  | (.error e, _) => .error e
  | (.ok _, l) =>
    match p.laserEnergy with
    | none => .ok ⟨s, l⟩
    | some e =>
      match normalize e "energy" l with
      | (.error e, _) => .error e
      | (.ok _, l) => .ok ⟨s, l⟩

/-- the multiplier which `apply_optics` uses for the element `(i, j, k)` of the spectral field
(`laser.py:181-202`) -/
noncomputable def multiplier (l : Laser s) (el : OpticalElement) (i : Fin s.n0) (j : Fin s.n1)
    (k : Fin s.nt) : ℂ :=
  match l.grid.geom with
  | .rt _ _ r => el.mult (r.pts j) 0 (l.omega1d k) l.profile.omega0
  | .xyt x y => el.mult (x.pts i) (y.pts j) (l.omega1d k) l.profile.omega0

/-- `Laser.apply_optics` (`laser.py:169-203`) -/
noncomputable def applyOptics (el : OpticalElement) : Py (Laser s) Unit := do
  let spectral ← onGrid Grid.getSpectralField
  let l ← Py.get
  onGrid (Grid.setSpectralField
    (Arr.toNd ⟨spectral.dtype, fun i j k => spectral.val i j k * l.multiplier el i j k⟩))

/-- one term of the sum over modes in `Laser.show`: `np.concatenate(((-1.0)**m * f[m, ::-1], f[m]))`
(`laser.py:409-414`), as a pair (rows below the axis, rows above). `f[m]` is Python indexing. -/
noncomputable def showTerm (f : Field s) (acc : Fin s.n1 → Fin s.nt → ℂ × ℂ) (m : ℤ) :
    Except PyErr (Fin s.n1 → Fin s.nt → ℂ × ℂ) :=
  match pyIndex s.n0 m with
  | .error e => .error e
  | .ok i => .ok fun j k => ((acc j k).1 + (-1 : ℂ) ^ m * f i j.rev k, (acc j k).2 + f i j k)

/-- The image drawn by `Laser.show` in `rt` geometry (`laser.py:406-415`), before `abs`. -/
noncomputable def showRT (f : Field s) (n : ℕ) : Except PyErr (Fin s.n1 → Fin s.nt → ℂ × ℂ) :=
  (azimuthalModes n).foldlM (showTerm f) (fun _ _ => (0, 0))

end Laser
end Lasy
