import Verif.Model.ImportExport

/-!
# Specification of `export_to_z`, `import_from_z`

What is asked of axiprop, and what a field made of harmonics is.
-/

namespace Lasy
open Phys Complex

variable [Phys]

/-- axiprop's radial propagators for mode `m` carry the transverse profile `φ` without diffraction, with the default `z0 = 0`,
`t0 = 0`: from amplitudes `a` at the wavenumbers `k`, `t2z` makes the snapshot `φ(r) ∑ a exp(i k z)`, `z2t` the record
`φ(r) ∑ a exp(-i c k t)` at `z = 0` -/
structure AxipropZ.FreeRT (ax : AxipropZ) {nr : ℕ} (r : Fin nr → ℝ) (m : ℤ) (φ : Fin nr → ℂ) : Prop where
  t2z : ∀ {nk nz : ℕ} (k : Fin nk → ℝ) (b : String) (z : Fin nz → ℝ) (a : Fin nk → ℂ) (q : Fin nz) (j : Fin nr),
    ax.t2zRT r k m b 0 0 z (fun l j => φ j * a l) q j = φ j * ∑ l, a l * exp (I * k l * z q)
  z2t : ∀ {nk nt : ℕ} (k : Fin nk → ℝ) (b : String) (t : Fin nt → ℝ) (a : Fin nk → ℂ) (q : Fin nt) (j : Fin nr),
    ax.z2tRT r k m b 0 0 t (fun l j => φ j * a l) q j = φ j * ∑ l, a l * exp (-I * k l * c * t q)

/-- the same in Cartesian geometry -/
structure AxipropZ.FreeXY (ax : AxipropZ) {nx ny : ℕ} (Lx Ly : ℝ) (φ : Fin nx → Fin ny → ℂ) : Prop where
  t2z : ∀ {nk nz : ℕ} (k : Fin nk → ℝ) (b : String) (z : Fin nz → ℝ) (a : Fin nk → ℂ) (q : Fin nz) (i : Fin nx)
    (j : Fin ny), ax.t2zXY Lx Ly k b 0 0 z (fun l i j => φ i j * a l) q i j = φ i j * ∑ l, a l * exp (I * k l * z q)
  z2t : ∀ {nk nt : ℕ} (k : Fin nk → ℝ) (b : String) (t : Fin nt → ℝ) (a : Fin nk → ℂ) (q : Fin nt) (i : Fin nx)
    (j : Fin ny), ax.z2tXY Lx Ly k b 0 0 t (fun l i j => φ i j * a l) q i j =
      φ i j * ∑ l, a l * exp (-I * k l * c * t q)

/-- on this grid axiprop carries the transverse profile `φ` without diffraction; in `rt` each azimuthal mode on its own -/
def Grid.Free {s : Shape} (g : Grid s) (ax : AxipropZ) (φ : Fin s.n0 → Fin s.n1 → ℂ) : Prop :=
  match g.geom with
  | .rt n _ r => ∀ i : Fin s.n0, ax.FreeRT r.pts ((azimuthalModes n).getD i 0) (φ i)
  | .xyt x y => ax.FreeXY (x.hi - x.lo) (y.hi - y.lo) φ

/-- the sum of the harmonics `a` with the angular frequencies `2π fftfreq(n, d)`: `∑ a exp(-i ω x)` -/
noncomputable def Spec.harmonics {n : ℕ} (d : ℝ) (a : Fin n → ℂ) (x : ℝ) : ℂ :=
  ∑ m, a m * exp (-I * (2 * Real.pi * fftfreq n d m : ℝ) * x)

/-- an axis with equal steps -/
def Spec.Uniform {n : ℕ} (p : Fin n → ℝ) (a d : ℝ) : Prop := d ≠ 0 ∧ ∀ k, p k = a + (k : ℕ) * d

end Lasy
