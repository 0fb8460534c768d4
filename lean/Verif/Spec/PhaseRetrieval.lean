import Verif.Spec.Propagate

/-!
# Specification of phase retrieval

The Gerchberg–Saxton iteration: `U` carries a field from plane 1 to plane 2, `V` carries it back; `a1`, `a2` are the
measured amplitudes.
-/

namespace Lasy
open Complex

/-- a superposition is propagated component by component -/
structure Axiprop.Linear (ax : Axiprop) : Prop where
  rt : ∀ {nr nt : ℕ} (r : Fin nr → ℝ) (kz : Fin nt → ℝ) (m : ℤ) (b : String) (d : ℝ) (u v : Fin nt → Fin nr → ℂ),
    ax.stepRT r kz m b d (fun k j => u k j - v k j) =
      fun k j => ax.stepRT r kz m b d u k j - ax.stepRT r kz m b d v k j
  xy : ∀ {nx ny nt : ℕ} (Lx Ly : ℝ) (kz : Fin nt → ℝ) (b : String) (d : ℝ) (u v : Fin nt → Fin nx → Fin ny → ℂ),
    ax.stepXY Lx Ly kz b d (fun k i j => u k i j - v k i j) =
      fun k i j => ax.stepXY Lx Ly kz b d u k i j - ax.stepXY Lx Ly kz b d v k i j

namespace Spec
variable {s : Shape}

/-- a field given by amplitude and phase -/
noncomputable def withPhase (a φ : Fin s.n0 → Fin s.n1 → Fin s.nt → ℝ) : Field s :=
  fun i j k => (a i j k : ℂ) * exp (I * φ i j k)

/-- the phases of a field -/
noncomputable def phases (f : Field s) : Fin s.n0 → Fin s.n1 → Fin s.nt → ℝ := fun i j k => arg (f i j k)

/-- the amplitudes of a field -/
noncomputable def amplitudes (f : Field s) : Fin s.n0 → Fin s.n1 → Fin s.nt → ℝ := fun i j k => ‖f i j k‖

/-- the phase in plane 2 that goes with the phase `φ` in plane 1 -/
noncomputable def gsForth (U : Field s → Field s) (a1 φ : Fin s.n0 → Fin s.n1 → Fin s.nt → ℝ) :=
  phases (U (withPhase a1 φ))

/-- the phase in plane 1 after `n` iterations, starting from a flat phase -/
noncomputable def gsPhase (U V : Field s → Field s) (a1 a2 : Fin s.n0 → Fin s.n1 → Fin s.nt → ℝ) :
    ℕ → Fin s.n0 → Fin s.n1 → Fin s.nt → ℝ
  | 0 => fun _ _ _ => 0
  | n + 1 => phases (V (withPhase a2 (gsForth U a1 (gsPhase U V a1 a2 n))))

end Spec
end Lasy
