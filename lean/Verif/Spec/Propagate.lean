import Verif.Model.Propagate
import Verif.Spec.Register
import Verif.Spec.Modes

/-!
# Specification of propagation

What one call of `propagate` should do to the field, and what is asked of the external propagator.
-/

namespace Lasy
open Spec Phys Complex

/-- The propagator steps compose, a step of length zero does nothing, and a step acts linearly on each
frequency on its own. -/
structure Axiprop.Additive (ax : Axiprop) : Prop where
  rt : ∀ {nr nt : ℕ} (r : Fin nr → ℝ) (kz : Fin nt → ℝ) (m : ℤ) (b : String) (d1 d2 : ℝ)
    (u : Fin nt → Fin nr → ℂ),
    ax.stepRT r kz m b (d1 + d2) u = ax.stepRT r kz m b d2 (ax.stepRT r kz m b d1 u)
  rt_zero : ∀ {nr nt : ℕ} (r : Fin nr → ℝ) (kz : Fin nt → ℝ) (m : ℤ) (b : String)
    (u : Fin nt → Fin nr → ℂ), ax.stepRT r kz m b 0 u = u
  rt_smul : ∀ {nr nt : ℕ} (r : Fin nr → ℝ) (kz : Fin nt → ℝ) (m : ℤ) (b : String) (d : ℝ)
    (a : Fin nt → ℂ) (u : Fin nt → Fin nr → ℂ),
    ax.stepRT r kz m b d (fun k j => u k j * a k) = fun k j => ax.stepRT r kz m b d u k j * a k
  xy : ∀ {nx ny nt : ℕ} (Lx Ly : ℝ) (kz : Fin nt → ℝ) (b : String) (d1 d2 : ℝ)
    (u : Fin nt → Fin nx → Fin ny → ℂ),
    ax.stepXY Lx Ly kz b (d1 + d2) u = ax.stepXY Lx Ly kz b d2 (ax.stepXY Lx Ly kz b d1 u)
  xy_zero : ∀ {nx ny nt : ℕ} (Lx Ly : ℝ) (kz : Fin nt → ℝ) (b : String)
    (u : Fin nt → Fin nx → Fin ny → ℂ), ax.stepXY Lx Ly kz b 0 u = u
  xy_smul : ∀ {nx ny nt : ℕ} (Lx Ly : ℝ) (kz : Fin nt → ℝ) (b : String) (d : ℝ) (a : Fin nt → ℂ)
    (u : Fin nt → Fin nx → Fin ny → ℂ),
    ax.stepXY Lx Ly kz b d (fun k i j => u k i j * a k) = fun k i j => ax.stepXY Lx Ly kz b d u k i j * a k

/-- Each step preserves, frequency by frequency, the norm weighted with the areas of the grid cells. -/
structure Axiprop.Unitary (ax : Axiprop) : Prop where
  rt : ∀ {nr nt : ℕ} (r : Axis nr) (kz : Fin nt → ℝ) (m : ℤ) (b : String) (d : ℝ)
    (u : Fin nt → Fin nr → ℂ) (k : Fin nt),
    ∑ j, ((r.pts j + r.dx / 2) ^ 2 - (r.pts j - r.dx / 2) ^ 2) * ‖ax.stepRT r.pts kz m b d u k j‖ ^ 2 =
    ∑ j, ((r.pts j + r.dx / 2) ^ 2 - (r.pts j - r.dx / 2) ^ 2) * ‖u k j‖ ^ 2
  xy : ∀ {nx ny nt : ℕ} (Lx Ly : ℝ) (kz : Fin nt → ℝ) (b : String) (d : ℝ)
    (u : Fin nt → Fin nx → Fin ny → ℂ) (k : Fin nt),
    ∑ i, ∑ j, ‖ax.stepXY Lx Ly kz b d u k i j‖ ^ 2 = ∑ i, ∑ j, ‖u k i j‖ ^ 2

/-- Each step is linear in the field. -/
structure Axiprop.Superposes (ax : Axiprop) : Prop where
  rt : ∀ {nr nt : ℕ} (r : Fin nr → ℝ) (kz : Fin nt → ℝ) (m : ℤ) (bk : String) (d : ℝ) (a b : ℂ)
    (u v : Fin nt → Fin nr → ℂ), ax.stepRT r kz m bk d (fun k j => a * u k j + b * v k j) =
      fun k j => a * ax.stepRT r kz m bk d u k j + b * ax.stepRT r kz m bk d v k j
  resample : ∀ {nr nt nr' : ℕ} (r : Fin nr → ℝ) (kz : Fin nt → ℝ) (r' : Fin nr' → ℝ) (m : ℤ) (bk : String) (d : ℝ)
    (a b : ℂ) (u v : Fin nt → Fin nr → ℂ), ax.resampleRT r kz r' m bk d (fun k j => a * u k j + b * v k j) =
      fun k j => a * ax.resampleRT r kz r' m bk d u k j + b * ax.resampleRT r kz r' m bk d v k j
  xy : ∀ {nx ny nt : ℕ} (Lx Ly : ℝ) (kz : Fin nt → ℝ) (bk : String) (d : ℝ) (a b : ℂ)
    (u v : Fin nt → Fin nx → Fin ny → ℂ), ax.stepXY Lx Ly kz bk d (fun k i j => a * u k i j + b * v k i j) =
      fun k i j => a * ax.stepXY Lx Ly kz bk d u k i j + b * ax.stepXY Lx Ly kz bk d v k i j

/-- the time axis moved by `τ` -/
def Axis.shift {n : ℕ} (a : Axis n) (τ : ℝ) : Axis n :=
  { lo := a.lo + τ, hi := a.hi + τ, dx := a.dx, pts := fun k => a.pts k + τ }

variable {s s' : Shape} [Phys]

/-- the spectral field `F` propagated by the distance `d` by propagators built for the laser's transverse
axes, its frequencies and its azimuthal modes, with backend `b` -/
noncomputable def Laser.stepped (ax : Axiprop) (l : Laser s) (b : String) (d : ℝ) (F : Field s) : Field s :=
  fun i j k => match l.grid.geom with
    | .xyt x y => ax.stepXY (x.hi - x.lo) (y.hi - y.lo) (fun k => l.omega1d k / c) b d
        (fun k i j => F i j k) k i j
    | .rt n hn r => ax.stepRT r.pts (fun k => l.omega1d k / c) (modeAt n (Fin.cast hn.2 i)) b d
        (fun k j => F i j k) k j

/-- the spectral field after `propagate(d)`: the propagated field, retarded by `d/c` -/
noncomputable def Laser.propagated (ax : Axiprop) (l : Laser s) (b : String) (d : ℝ) (f : Field s) :
    Field s :=
  dft fun i j k => l.stepped ax b d (idft f) i j k *
    exp (-I * (l.omega1d k - l.profile.omega0) * (d / c))

end Lasy
