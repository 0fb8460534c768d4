import Verif.Model.Laser

/-!
# Model of `Laser.propagate` (`lasy/laser.py:205-358`)

The external library axiprop is a parameter, `Axiprop`: a propagator is determined by the arguments of
its constructor, and `step` is a function of these, the distance and the array. Nothing else is assumed
about it here; theorems state what they need. axiprop's own failures are not modelled, except that an
array of the wrong size is rejected (`ValueError`).
-/

namespace Lasy
open Phys Complex

/-- The three kinds of `step` of axiprop that lasy uses. Arrays have the frequency as first index, as in
`laser.py:300, 336`. -/
structure Axiprop where
  /-- `PropagatorResampling(r, kz, mode=, backend=).step(u, distance)` -/
  stepRT : {nr nt : ℕ} → (r : Fin nr → ℝ) → (kz : Fin nt → ℝ) → (mode : ℤ) → (backend : String) →
    (distance : ℝ) → (Fin nt → Fin nr → ℂ) → Fin nt → Fin nr → ℂ
  /-- `PropagatorResampling(r, kz, r_new, mode=, backend=).step(u, distance)` -/
  resampleRT : {nr nt nr' : ℕ} → (r : Fin nr → ℝ) → (kz : Fin nt → ℝ) → (r' : Fin nr' → ℝ) →
    (mode : ℤ) → (backend : String) → (distance : ℝ) → (Fin nt → Fin nr → ℂ) → Fin nt → Fin nr' → ℂ
  /-- `PropagatorFFT2((Lx, Nx), (Ly, Ny), kz, backend=).step(u, distance)` -/
  stepXY : {nx ny nt : ℕ} → (Lx Ly : ℝ) → (kz : Fin nt → ℝ) → (backend : String) → (distance : ℝ) →
    (Fin nt → Fin nx → Fin ny → ℂ) → Fin nt → Fin nx → Fin ny → ℂ

/-- a 2-D array -/
abbrev Arr2 := Σ (a b : ℕ), (Fin a → Fin b → ℂ)

/-- read a 2-D array as one of shape `(a, b)`, `ValueError` if it has another shape -/
def Arr2.as (a b : ℕ) (u : Arr2) : Except PyErr (Fin a → Fin b → ℂ) :=
  if h : u.1 = a ∧ u.2.1 = b then
    .ok fun i j => u.2.2 (Fin.cast h.1.symm i) (Fin.cast h.2.symm j)
  else .error .value

/-- `prop.step(u, distance)` of a radial propagator object -/
def PropRT.step (ax : Axiprop) (p : PropRT) (d : ℝ) (u : Arr2) : Except PyErr Arr2 :=
  match Arr2.as p.nt p.nr u with
  | .error e => .error e
  | .ok v =>
    match p.target with
    | none => .ok ⟨p.nt, p.nr, ax.stepRT p.r p.kz p.mode p.backend d v⟩
    | some ⟨n, r'⟩ => .ok ⟨p.nt, n, ax.resampleRT p.r p.kz r' p.mode p.backend d v⟩

/-- `prop.step(u, distance, overwrite=True)` of a Cartesian propagator object -/
def PropXY.step (ax : Axiprop) (p : PropXY) (d : ℝ) {nt nx ny : ℕ} (u : Fin nt → Fin nx → Fin ny → ℂ) :
    Except PyErr (Fin nt → Fin nx → Fin ny → ℂ) :=
  if h : p.nt = nt ∧ p.nx = nx ∧ p.ny = ny then
    .ok (ax.stepXY p.Lx p.Ly (fun k => p.kz (Fin.cast h.1.symm k)) p.backend d u)
  else .error .value

/-- the loop `for i_m in range(self.grid.azimuthal_modes.size)` (`laser.py:299-315`): component `i_m` of
`spectral_field` (shape `a × nr × nt`) is transposed, propagated with `self.prop[i_m]`, transposed back
and stored in component `i_m` of the output (shape `b × nr' × nt'`). Without resampling the output *is*
the input array; component `i_m` is read before it is overwritten. -/
def stepModes (ax : Axiprop) (props : List PropRT) (d : ℝ) {a nr nt b nr' nt' : ℕ}
    (src : Fin a → Fin nr → Fin nt → ℂ) (out : Fin b → Fin nr' → Fin nt' → ℂ) :
    Except PyErr (Fin b → Fin nr' → Fin nt' → ℂ) :=
  (List.finRange b).foldlM (fun (out : Fin b → Fin nr' → Fin nt' → ℂ) (i : Fin b) =>
    if h : (i : ℕ) < a then
      match props[(i : ℕ)]? with
      | none => .error .index
      | some p =>
        match p.step ax d ⟨nt, nr, fun k j => src ⟨i, h⟩ j k⟩ with
        | .error e => .error e
        | .ok v =>
          match Arr2.as nt' nr' v with
          | .error e => .error e
          | .ok v => .ok (Function.update out i fun j k => v k j)
    else .error .index) out

variable [Phys] {s s' : Shape}

/-- `absorb_layer_shape` (`laser.py:235-237`): `k` values falling from 1 to 0 -/
noncomputable def absorbShape (k : ℕ) (q : Fin k) : ℝ :=
  if (q : ℕ) + 1 = k then 0 else Real.sqrt (Real.cos (linspace 0 (Real.pi / 2) k q))

/-- the factor of cell `j` when `field[-k:]` (of `n ≥ k` cells) is multiplied by the layer -/
noncomputable def layerHi (k n : ℕ) (j : Fin n) : ℝ :=
  if h : n - k ≤ (j : ℕ) ∧ k ≤ n then absorbShape k ⟨j - (n - k), by omega⟩ else 1

/-- the factor of cell `j` when `field[:k]` (of `n ≥ k` cells) is multiplied by the reversed layer -/
noncomputable def layerLo (k n : ℕ) (j : Fin n) : ℝ :=
  if h : (j : ℕ) < k then absorbShape k (Fin.rev ⟨j, h⟩) else 1

namespace Laser

/-- the factors by which the absorbing layer multiplies the field (`laser.py:239-245`); a layer wider than
the axis does not broadcast: `ValueError` (a layer of one cell always fits, axes have two points or
more). -/
noncomputable def layer (l : Laser s) (k : ℕ) : Except PyErr (Fin s.n0 → Fin s.n1 → ℝ) :=
  match l.grid.geom with
  | .rt _ _ _ => if k ≤ s.n1 then .ok fun _ j => layerHi k s.n1 j else .error .value
  | .xyt _ _ =>
    if k ≤ s.n0 ∧ k ≤ s.n1 then
      .ok fun i j => layerHi k s.n0 i * layerLo k s.n0 i * (layerHi k s.n1 j * layerLo k s.n1 j)
    else .error .value

/-- `laser.py:233-246`: the absorbing layer. `nr_boundary` is `None` or an `int`. -/
noncomputable def absorb (nrBoundary : Option ℤ) : Py (Laser s) Unit :=
  match nrBoundary with
  | none => return ()
  | some k => do
    Py.require (0 < k)
    let field ← onGrid Grid.getTemporalField
    match (← Py.get).layer k.toNat with
    | .error e => Py.raise e
    | .ok w =>
      onGrid (Grid.setTemporalField
        (Arr.toNd ⟨field.dtype, fun i j k => field.val i j k * (w i j : ℂ)⟩))

/-- the propagators constructed in `laser.py:285-297` (no resampling), `laser.py:325-334` (`xyt`) -/
noncomputable def buildProp (l : Laser s) (backend : String) : PropCache :=
  match l.grid.geom with
  | .rt n _ r => .rt ((azimuthalModes n).map fun m =>
      { nr := s.n1, r := r.pts, nt := s.nt, kz := fun k => l.omega1d k / c, target := none
        mode := m, backend := backend })
  | .xyt x y => .xy
      { Lx := x.hi - x.lo, nx := s.n0, Ly := y.hi - y.lo, ny := s.n1, nt := s.nt
        kz := fun k => l.omega1d k / c, backend := backend }

/-- `if not hasattr(self, "prop"): self.prop = ...` (`laser.py:284-297, 324-334`) -/
noncomputable def ensureProp (backend : String) : Py (Laser s) Unit :=
  Py.modify fun l => match l.prop with
    | .absent => { l with prop := l.buildProp backend }
    | _ => l

/-- the propagation step without resampling (`laser.py:298-315, 335-340`). `self.prop` of the wrong kind
(which never happens) would be an `AttributeError`/`TypeError`. -/
noncomputable def stepHere (ax : Axiprop) (d : ℝ) (spectral : Field s) : Py (Laser s) (Field s) := fun l =>
  match l.grid.geom, l.prop with
  | .rt _ _ _, .rt props => (stepModes ax props d spectral spectral, l)
  | .xyt _ _, .xy p =>
    match p.step ax d (fun k i j => spectral i j k) with
    | .ok v => (.ok fun i j k => v k i j, l)
    | .error e => (.error e, l)
  | _, _ => (.error .type, l)

/-- `laser.py:342-358`: the translation phase, `set_spectral_field`, and the shift of the time window -/
noncomputable def finish (d : ℝ) (spectral : Field s) : Py (Laser s) Unit := do
  let l ← Py.get
  onGrid (Grid.setSpectralField (Arr.toNd ⟨.c128, fun i j k =>
    spectral i j k * exp (-I * (l.omega1d k - l.profile.omega0) * (d / c))⟩))
  Py.modify fun l => { l with grid := { l.grid with t :=
    { l.grid.t with lo := l.grid.t.lo + d / c, hi := l.grid.t.hi + d / c
                    pts := fun k => l.grid.t.pts k + d / c } } }

/-- `Laser.propagate(distance, nr_boundary, backend=backend)` without `grid` (or in `xyt` geometry, where
`grid` is ignored) -/
noncomputable def propagateHere (ax : Axiprop) (d : ℝ) (nrBoundary : Option ℤ) (backend : String) :
    Py (Laser s) Unit := do
  Py.require ((← Py.get).grid.isEnvelope = true)
  absorb nrBoundary
  let spectral ← onGrid Grid.getSpectralField
  ensureProp backend
  let spectral ← stepHere ax d spectral.val
  finish d spectral

/-- the new grid after `laser.py:254-257`: bounds and points of the time axis are taken from the laser's
grid, `dx` is not. Simplification: if the two grids differ in the number of time points, `grid.axes[-1]`
gets the length of the laser's axis, which `Axis` cannot express; then the points are left as they are
(the call fails afterwards, `C32`). -/
noncomputable def adoptTime (g' : Grid s') (t : Axis s.nt) : Grid s' :=
  { g' with t := { g'.t with
      lo := t.lo, hi := t.hi
      pts := if h : s'.nt = s.nt then fun k => t.pts (Fin.cast h k) else g'.t.pts } }

/-- `Laser.propagate(distance, nr_boundary, grid, backend)` in `rt` geometry with a new grid
(`laser.py:231-358`). The laser afterwards has the shape of the new grid, also when the call fails after
`self.grid = grid`. `omega_1d` is not touched; it is re-indexed by the new `Nt` (if the numbers of time
points differ the call fails and `omega_1d` keeps its length in the code).
A Cartesian grid has no attribute `azimuthal_modes`. -/
noncomputable def propagateOnto (ax : Axiprop) (d : ℝ) (nrBoundary : Option ℤ) (g' : Grid s')
    (backend : String) (l : Laser s) : Except PyErr Unit × (Σ s, Laser s) :=
  match (do Py.require ((← Py.get).grid.isEnvelope = true)
            absorb nrBoundary
            onGrid Grid.getSpectralField : Py (Laser s) (Arr s)) l with
  | (.error e, l) => (.error e, ⟨s, l⟩)
  | (.ok spectral, l) =>
    let l' : Laser s' :=
      { grid := adoptTime g' l.grid.t, profile := l.profile, outputIteration := l.outputIteration
        omega1d := fun k => if h : (k : ℕ) < s.nt then l.omega1d ⟨k, h⟩ else 0
        prop := l.prop }
    match l.grid.geom, l'.grid.geom with
    | .rt _ _ r, .rt n _ r' =>
      let props : List PropRT := (azimuthalModes n).map fun m =>
        { nr := s.n1, r := r.pts, nt := s.nt, kz := fun k => l.omega1d k / c
          target := some ⟨s'.n1, r'.pts⟩, mode := m, backend := backend }
      let l' := { l' with prop := .rt props }
      match stepModes ax props d spectral.val (fun _ _ _ => 0 : Field s') with
      | .error e => (.error e, ⟨s', l'⟩)
      | .ok F =>
        match finish d F { l' with prop := .absent } with
        | (r, l') => (r, ⟨s', l'⟩)
    | _, _ => (.error .attribute, ⟨s', l'⟩)

/-- `Laser.propagate` (`laser.py:205-358`). `show_progress` has no effect on the laser. The objects passed
as `grid` are used by value: sharing one `Grid` object between two lasers is not modelled here. -/
noncomputable def propagate (ax : Axiprop) (d : ℝ) (nrBoundary : Option ℤ) (grid : Option (Σ s, Grid s))
    (backend : String) : Py (Σ s, Laser s) Unit := fun L =>
  match grid, L.2.grid.geom with
  | some g', .rt _ _ _ => propagateOnto ax d nrBoundary g'.2 backend L.2
  | _, _ =>
    match propagateHere ax d nrBoundary backend L.2 with
    | (r, l) => (r, ⟨L.1, l⟩)

end Laser
end Lasy
