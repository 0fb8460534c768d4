import Verif.Spec.Propagate
import Verif.Lemmas.Fourier

/-!
# The contracts on axiprop can be met

`freeSpace` is an angular-spectrum propagator in Cartesian geometry (what `PropagatorFFT2` is documented
to be: 2-D FFT, multiplication by `exp(i d sqrt(kz² - kx² - ky²))`, inverse FFT) and multiplies by
`exp(i kz d)` in `rt` geometry. It satisfies `Additive` and `Unitary`.
-/

namespace Lasy
open Complex

/-- 2-D transforms -/
noncomputable def fft2 {nx ny : ℕ} (v : Fin nx → Fin ny → ℂ) : Fin nx → Fin ny → ℂ :=
  fun i j => fft (fun i' => fft (v i') j) i
noncomputable def ifft2 {nx ny : ℕ} (v : Fin nx → Fin ny → ℂ) : Fin nx → Fin ny → ℂ :=
  fun i => ifft (fun j => ifft (fun i' => v i' j) i)

theorem ifft2_fft2 {nx ny : ℕ} (v : Fin nx → Fin ny → ℂ) : ifft2 (fft2 v) = v := by
  funext i
  simp only [ifft2, fft2]
  have : ∀ j, ifft (fun i' => fft (fun i'' => fft (v i'') j) i') i = fft (v i) j := by
    intro j
    exact congrFun (ifft_fft (fun i'' => fft (v i'') j)) i
  simp only [this]
  exact ifft_fft (v i)

theorem fft2_ifft2 {nx ny : ℕ} (v : Fin nx → Fin ny → ℂ) : fft2 (ifft2 v) = v := by
  funext i j
  simp only [ifft2, fft2]
  have : ∀ i', fft (ifft fun j => ifft (fun i'' => v i'' j) i') j = ifft (fun i'' => v i'' j) i' := by
    intro i'
    exact congrFun (fft_ifft _) j
  simp only [this]
  exact congrFun (fft_ifft (fun i'' => v i'' j)) i

theorem parseval_fft2 {nx ny : ℕ} (v : Fin nx → Fin ny → ℂ) :
    ∑ i, ∑ j, ‖fft2 v i j‖ ^ 2 = nx * (ny * ∑ i, ∑ j, ‖v i j‖ ^ 2) := by
  rw [Finset.sum_comm]
  simp only [fft2, parseval_fft]
  rw [← Finset.mul_sum, Finset.sum_comm]
  simp only [parseval_fft]
  rw [← Finset.mul_sum]

/-- the longitudinal wave number of the plane wave `(i, j)` -/
noncomputable def kLong (Lx Ly kz : ℝ) {nx ny : ℕ} (i : Fin nx) (j : Fin ny) : ℝ :=
  Real.sqrt (kz ^ 2 - (2 * Real.pi * fftfreq nx (Lx / nx) i) ^ 2 - (2 * Real.pi * fftfreq ny (Ly / ny) j) ^ 2)

/-- a propagator in free space -/
noncomputable def Axiprop.freeSpace : Axiprop where
  stepRT := fun _ kz _ _ d u k j => u k j * exp (I * (kz k * d : ℝ))
  resampleRT := fun {nr _ _} _ kz _ _ _ d u k j =>
    if h : (j : ℕ) < nr then u k ⟨j, h⟩ * exp (I * (kz k * d : ℝ)) else 0
  stepXY := fun Lx Ly kz _ d u k =>
    ifft2 fun i j => fft2 (u k) i j * exp (I * (kLong Lx Ly (kz k) i j * d : ℝ))

theorem Axiprop.freeSpace_additive : Axiprop.freeSpace.Additive where
  rt := by
    intro nr nt r kz m b d1 d2 u
    funext k j
    simp only [freeSpace]
    rw [mul_assoc, ← Complex.exp_add]
    congr 2
    push_cast
    ring
  rt_zero := by intro nr nt r kz m b u; funext k j; simp [freeSpace]
  rt_smul := by
    intro nr nt r kz m b d a u
    funext k j
    simp only [freeSpace]
    ring
  xy := by
    intro nx ny nt Lx Ly kz b d1 d2 u
    funext k
    simp only [freeSpace, fft2_ifft2]
    congr 1
    funext i j
    rw [mul_assoc, ← Complex.exp_add]
    congr 2
    push_cast
    ring
  xy_zero := by
    intro nx ny nt Lx Ly kz b u
    funext k
    simp [freeSpace, ifft2_fft2]
  xy_smul := by
    intro nx ny nt Lx Ly kz b d a u
    funext k i j
    have h1 : ∀ v : Fin nx → Fin ny → ℂ, fft2 (fun i j => v i j * a k) = fun i j => a k * fft2 v i j := by
      intro v
      funext i j
      simp only [fft2]
      have : ∀ i', fft (fun j => v i' j * a k) = fun j => a k * fft (v i') j := by
        intro i'
        rw [← fft_smul]
        congr 1
        funext j
        ring
      simp only [this, fft_smul]
    have h2 : ∀ v : Fin nx → Fin ny → ℂ, ifft2 (fun i j => a k * v i j) = fun i j => a k * ifft2 v i j := by
      intro v
      funext i j
      simp only [ifft2, ifft_smul]
    simp only [freeSpace, h1, mul_assoc, h2]
    ring

theorem Axiprop.freeSpace_unitary : Axiprop.freeSpace.Unitary where
  rt := by
    intro nr nt r kz m b d u k
    have : ∀ x : ℝ, ‖exp (I * x)‖ = 1 := by
      intro x
      rw [mul_comm, Complex.norm_exp_ofReal_mul_I]
    simp only [freeSpace, norm_mul, this, mul_one]
  xy := by
    intro nx ny nt Lx Ly kz b d u k
    have hn : ∀ x : ℝ, ‖exp (I * x)‖ = 1 := by
      intro x
      rw [mul_comm, Complex.norm_exp_ofReal_mul_I]
    by_cases h0 : nx = 0
    · subst h0; simp
    by_cases h1 : ny = 0
    · subst h1; simp
    have key := parseval_fft2 (Axiprop.freeSpace.stepXY Lx Ly kz b d u k)
    have key0 := parseval_fft2 (u k)
    have : fft2 (Axiprop.freeSpace.stepXY Lx Ly kz b d u k) =
        fun i j => fft2 (u k) i j * exp (I * (kLong Lx Ly (kz k) i j * d : ℝ)) := by
      simp only [freeSpace, fft2_ifft2]
    rw [this] at key
    simp only [norm_mul, hn, mul_one] at key
    rw [key0] at key
    have h0' : (nx : ℝ) ≠ 0 := by exact_mod_cast h0
    have h1' : (ny : ℝ) ≠ 0 := by exact_mod_cast h1
    exact (mul_left_cancel₀ h1' (mul_left_cancel₀ h0' key)).symm

end Lasy
