import Verif.Lemmas.Paraxial
import Verif.Props.Analytic

/-!
# Properties C41, C71: defocused Gaussian and Hermite-Gauss modes
-/

namespace Lasy
open Complex MeasureTheory

theorem hermiteGaussianTrans_eq (w0 : ℝ) (nx ny : ℕ) (ζ x y : ℝ) :
    hermiteGaussianTrans w0 nx ny (-ζ) x y =
      (Real.sqrt (2 / Real.pi) : ℂ) * (Real.sqrt (1 / (2 ^ nx * nx.factorial * w0)) : ℂ)
        * (Real.sqrt (1 / (2 ^ ny * ny.factorial * w0)) : ℂ) * (hg1 w0 nx x ζ * hg1 w0 ny y ζ / (1 + I * ζ)) := by
  have hq : diffractFactor (-ζ) = 1 + I * ζ := by
    simp [diffractFactor]
  simp only [hermiteGaussianTrans, norm_diffract, arg_diffract]
  simp only [hq, hg1]
  rw [show -((x ^ 2 + y ^ 2 : ℝ) : ℂ) / ((w0 ^ 2 : ℝ) * (1 + I * ζ)) - I * ((nx + ny : ℕ) : ℂ) * (Real.arctan ζ : ℝ) =
    (-(x : ℂ) ^ 2 / (w0 ^ 2 * (1 + I * ζ)) + -I * nx * (Real.arctan ζ : ℝ)) +
      (-(y : ℂ) ^ 2 / (w0 ^ 2 * (1 + I * ζ)) + -I * ny * (Real.arctan ζ : ℝ)) by push_cast; ring,
    Complex.exp_add, Complex.exp_add, Complex.exp_add]
  ring

/-- the product of two one-dimensional modes, over `q`, solves the paraxial equation -/
theorem hg_paraxial (w0 lam : ℝ) (hw : w0 ≠ 0) (hl : lam ≠ 0) (nx ny : ℕ) (K : ℂ) :
    Spec.SolvesParaxial (2 * Real.pi / lam) fun x y z =>
      K * (hg1 w0 nx x (z * lam / (Real.pi * w0 ^ 2)) * hg1 w0 ny y (z * lam / (Real.pi * w0 ^ 2)) /
        (1 + I * ((z * lam / (Real.pi * w0 ^ 2) : ℝ) : ℂ))) := by
  intro x y z
  set ζ := z * lam / (Real.pi * w0 ^ 2) with hζ
  have hq := q_ne ζ
  have hpi : (Real.pi : ℂ) ≠ 0 := by exact_mod_cast Real.pi_ne_zero
  have hwc : (w0 : ℂ) ≠ 0 := by exact_mod_cast hw
  have hlc : (lam : ℂ) ≠ 0 := by exact_mod_cast hl
  refine ⟨fun x => K * (hg1x w0 nx x ζ * hg1 w0 ny y ζ / (1 + I * ζ)),
    fun y => K * (hg1 w0 nx x ζ * hg1x w0 ny y ζ / (1 + I * ζ)),
    K * (hg1xx w0 nx x ζ * hg1 w0 ny y ζ / (1 + I * ζ)), K * (hg1 w0 nx x ζ * hg1xx w0 ny y ζ / (1 + I * ζ)), _,
    fun x' => (((hasDerivAt_hg1 w0 nx x' ζ).mul_const _).div_const _).const_mul K,
    (((hasDerivAt_hg1x w0 nx x ζ).mul_const _).div_const _).const_mul K,
    fun y' => (((hasDerivAt_hg1 w0 ny y' ζ).const_mul _).div_const _).const_mul K,
    (((hasDerivAt_hg1x w0 ny y ζ).const_mul _).div_const _).const_mul K, ?_, rfl⟩
  have hz : HasDerivAt (fun z => z * lam / (Real.pi * w0 ^ 2)) (lam / (Real.pi * w0 ^ 2)) z := by
    simpa using ((hasDerivAt_id z).mul_const lam).div_const (Real.pi * w0 ^ 2)
  have h1 := hasDerivAt_hg1_z w0 hw nx x ζ
  have h2 := hasDerivAt_hg1_z w0 hw ny y ζ
  have h3 : HasDerivAt (fun ζ : ℝ => (1 + I * ζ : ℂ)) I ζ := by
    have hid : HasDerivAt (fun ζ : ℝ => (ζ : ℂ)) 1 ζ := Complex.ofRealCLM.hasDerivAt
    simpa using (hid.const_mul I).const_add 1
  have h4 : HasDerivAt (fun ζ : ℝ => hg1 w0 nx x ζ * hg1 w0 ny y ζ / (1 + I * ζ)) _ ζ := (h1.fun_mul h2).fun_div h3 hq
  have h5 := (h4.scomp z hz).const_mul K
  refine h5.congr_deriv ?_
  simp only [Complex.real_smul]
  push_cast
  field_simp
  ring

/-- **C41** (Hermite-Gauss). For every waist, order and wavelength, the Hermite-Gauss transverse profile
constructed with the focal plane at distance `z_foc = -z` is, as a function of `x`, `y`, `z`, a solution of the
paraxial wave equation with `k = 2π/λ`. -/
theorem C41_hermite_gauss (w0 lam : ℝ) (hw : w0 ≠ 0) (hl : lam ≠ 0) (nx ny : ℕ) :
    ∃ u : ℝ → ℝ → ℝ → ℂ,
      (∀ z, ∃ ζ, zFocOverZr w0 (some lam) (-z) = .ok ζ ∧ ∀ x y, u x y z = hermiteGaussianTrans w0 nx ny ζ x y) ∧
      Spec.SolvesParaxial (2 * Real.pi / lam) u := by
  refine ⟨_, fun z => ⟨-(z * lam / (Real.pi * w0 ^ 2)), ?_, fun x y => ?_⟩, hg_paraxial w0 lam hw hl nx ny
    ((Real.sqrt (2 / Real.pi) : ℂ) * (Real.sqrt (1 / (2 ^ nx * nx.factorial * w0)) : ℂ)
        * (Real.sqrt (1 / (2 ^ ny * ny.factorial * w0)) : ℂ))⟩
  · unfold zFocOverZr
    split_ifs with h
    · rw [neg_eq_zero.1 h]
      simp
    · dsimp only
      congr 1
      ring
  · rw [hermiteGaussianTrans_eq]

/-- **C41** (Gaussian). The Gaussian transverse profile with `z_foc = -z` solves the paraxial wave equation. -/
theorem C41_gaussian (w0 lam : ℝ) (hw : w0 ≠ 0) (hl : lam ≠ 0) :
    ∃ u : ℝ → ℝ → ℝ → ℂ,
      (∀ z, ∃ ζ, zFocOverZr w0 (some lam) (-z) = .ok ζ ∧ ∀ x y, u x y z = gaussianTrans w0 ζ x y) ∧
      Spec.SolvesParaxial (2 * Real.pi / lam) u := by
  refine ⟨_, fun z => ⟨-(z * lam / (Real.pi * w0 ^ 2)), ?_, fun x y => ?_⟩, hg_paraxial w0 lam hw hl 0 0 1⟩
  · unfold zFocOverZr
    split_ifs with h
    · rw [neg_eq_zero.1 h]
      simp
    · dsimp only
      congr 1
      ring
  · simp only [gaussianTrans, hg1, hermiteH, diffractFactor]
    simp only [Polynomial.eval_one, Complex.ofReal_one, one_mul, Nat.cast_zero, mul_zero, zero_mul, Complex.exp_zero,
      mul_one, ← Complex.exp_add]
    push_cast
    congr 2
    · ring
    · ring

theorem norm_sq_gaussianTrans (w0 ζ : ℝ) (hw : w0 ≠ 0) (x y : ℝ) :
    ‖gaussianTrans w0 ζ x y‖ ^ 2 =
      Real.exp (-2 * (x ^ 2 + y ^ 2) / (w0 * Real.sqrt (1 + ζ ^ 2)) ^ 2) / (1 + ζ ^ 2) := by
  have hs : Real.sqrt (1 + ζ ^ 2) ^ 2 = 1 + ζ ^ 2 := Real.sq_sqrt (by positivity)
  have hn : ‖diffractFactor ζ‖ ^ 2 = 1 + ζ ^ 2 := by
    have := norm_diffract (-ζ)
    rw [neg_neg] at this
    rw [this, rho_sq]
    ring
  have hns : Complex.normSq (diffractFactor ζ) = 1 + ζ ^ 2 := by rw [Complex.normSq_eq_norm_sq, hn]
  rw [gaussianTrans, norm_div, div_pow, hn, Complex.norm_exp, ← Real.exp_nat_mul]
  congr 2
  rw [mul_pow, hs]
  have : (-((x ^ 2 + y ^ 2 : ℝ) : ℂ) / ((w0 ^ 2 : ℝ) * diffractFactor ζ)).re =
      -(x ^ 2 + y ^ 2) / (w0 ^ 2 * (1 + ζ ^ 2)) := by
    rw [← Complex.ofReal_neg, ← div_div, ← Complex.ofReal_div, div_eq_mul_inv, Complex.re_ofReal_mul,
      Complex.inv_re, hns]
    simp [diffractFactor]
    field_simp
  rw [this]
  push_cast
  ring

/-- **C41** (beam parameters). With `zR = π w0²/λ`, the intensity of the Gaussian at distance `z` from the focus
is `exp(-2 r²/w²) / (1 + (z/zR)²)` with `w = w0 √(1 + (z/zR)²)`; its maximum `1 / (1 + (z/zR)²)` is on the axis
only; and the power is the same for every `z`. -/
theorem C41_beam (w0 lam : ℝ) (hw : 0 < w0) (hl : 0 < lam) (z : ℝ) :
    ∃ ζ, zFocOverZr w0 (some lam) (-z) = .ok ζ ∧
      let zR := Real.pi * w0 ^ 2 / lam
      let w := w0 * Real.sqrt (1 + (z / zR) ^ 2)
      (∀ x y, ‖gaussianTrans w0 ζ x y‖ ^ 2 = Real.exp (-2 * (x ^ 2 + y ^ 2) / w ^ 2) / (1 + (z / zR) ^ 2)) ∧
      (∀ x y, ‖gaussianTrans w0 ζ x y‖ ^ 2 ≤ 1 / (1 + (z / zR) ^ 2)) ∧
      (∀ x y, ‖gaussianTrans w0 ζ x y‖ ^ 2 = 1 / (1 + (z / zR) ^ 2) ↔ x = 0 ∧ y = 0) ∧
      ∫ x : ℝ, ∫ y : ℝ, ‖gaussianTrans w0 ζ x y‖ ^ 2 = Real.pi * w0 ^ 2 / 2 := by
  have hpi := Real.pi_pos
  refine ⟨-(z * lam / (Real.pi * w0 ^ 2)), ?_, ?_⟩
  · unfold zFocOverZr
    split_ifs with h
    · rw [neg_eq_zero.1 h]
      simp
    · dsimp only
      congr 1
      ring
  · intro zR w
    have hz : (z / zR) ^ 2 = (-(z * lam / (Real.pi * w0 ^ 2))) ^ 2 := by
      simp only [zR]
      field_simp
    have hw2 : w ^ 2 = w0 ^ 2 * (1 + (z / zR) ^ 2) := by
      simp only [w]
      rw [mul_pow, Real.sq_sqrt (by positivity)]
    have hwp : 0 < w ^ 2 := by rw [hw2]; positivity
    have hI : ∀ x y, ‖gaussianTrans w0 (-(z * lam / (Real.pi * w0 ^ 2))) x y‖ ^ 2 =
        Real.exp (-2 * (x ^ 2 + y ^ 2) / w ^ 2) / (1 + (z / zR) ^ 2) := by
      intro x y
      rw [norm_sq_gaussianTrans _ _ hw.ne', ← hz]
    have hd : 0 < 1 + (z / zR) ^ 2 := by positivity
    refine ⟨hI, fun x y => ?_, fun x y => ?_, ?_⟩
    · rw [hI]
      gcongr
      rw [Real.exp_le_one_iff]
      apply div_nonpos_of_nonpos_of_nonneg _ hwp.le
      nlinarith [sq_nonneg x, sq_nonneg y]
    · rw [hI, div_left_inj' hd.ne', Real.exp_eq_one_iff, div_eq_zero_iff]
      constructor
      · rintro (h | h)
        · constructor <;> nlinarith [sq_nonneg x, sq_nonneg y]
        · exact absurd h hwp.ne'
      · rintro ⟨rfl, rfl⟩
        left; simp
    · simp only [hI]
      have e : ∀ x y : ℝ, Real.exp (-2 * (x ^ 2 + y ^ 2) / w ^ 2) / (1 + (z / zR) ^ 2) =
          Real.exp (-(2 / w ^ 2) * x ^ 2) / (1 + (z / zR) ^ 2) * Real.exp (-(2 / w ^ 2) * y ^ 2) := by
        intro x y
        rw [div_mul_eq_mul_div, ← Real.exp_add]
        congr 2
        ring
      simp only [e, integral_const_mul, integral_mul_const, integral_div, integral_gaussian]
      rw [div_mul_eq_mul_div, Real.mul_self_sqrt (by positivity), hw2]
      field_simp

/-! ## C71 -/

/-- overlap of two one-dimensional modes -/
theorem integral_hg1 (w0 ζ : ℝ) (hw : 0 < w0) (n m : ℕ) :
    ∫ x : ℝ, starRingEnd ℂ (hg1 w0 n x ζ) * hg1 w0 m x ζ =
      if n = m then ((w0 * rho ζ / Real.sqrt 2 * (2 ^ n * n.factorial * Real.sqrt Real.pi) : ℝ) : ℂ) else 0 := by
  have hr := rho_pos ζ
  have h2 : 0 < Real.sqrt 2 := Real.sqrt_pos.2 (by norm_num)
  have h22 : Real.sqrt 2 ^ 2 = 2 := Real.sq_sqrt (by norm_num)
  have e : ∀ x : ℝ, starRingEnd ℂ (hg1 w0 n x ζ) * hg1 w0 m x ζ =
      exp (I * ((n : ℂ) - m) * (Real.arctan ζ : ℝ)) *
        (((fun X : ℝ => (hermiteH n).eval X * (hermiteH m).eval X * Real.exp (-X ^ 2))
          (Real.sqrt 2 / (w0 * rho ζ) * x) : ℝ) : ℂ) := by
    intro x
    simp only [hg1, map_mul, Complex.conj_ofReal, ← Complex.exp_conj, map_neg, map_div₀, map_pow, Complex.conj_I,
      map_add, map_one, map_natCast, hg1_arg]
    push_cast
    rw [show ∀ a b c d e' f : ℂ, a * b * c * (d * e' * f) = (c * f) * (a * d * (b * e')) by
      intros; ring, ← Complex.exp_add, ← Complex.exp_add]
    congr 2
    · ring_nf
    · congr 1
      have hq := q_ne ζ
      have hq' : (1 + -I * ζ : ℂ) ≠ 0 := by
        have := q_ne (-ζ)
        push_cast at this
        rwa [neg_mul, ← mul_neg]
      have hwc : (w0 : ℂ) ≠ 0 := by exact_mod_cast hw.ne'
      have hrq : (rho ζ : ℂ) ^ 2 = (1 + I * ζ) * (1 + -I * ζ) := by
        rw [← Complex.ofReal_pow, rho_sq]
        push_cast
        linear_combination ((ζ : ℂ) ^ 2) * I_sq
      have h2c : ((Real.sqrt 2 : ℝ) : ℂ) ^ 2 = 2 := by
        rw [← Complex.ofReal_pow, h22]
        norm_num
      rw [mul_pow, div_pow, h2c, mul_pow, hrq]
      have hs : (1 + I * ζ : ℂ) + (1 + -I * ζ) = 2 := by ring
      generalize (1 + I * ζ : ℂ) = q at *
      generalize (1 + -I * ζ : ℂ) = q' at *
      rw [← hs]
      field_simp
      ring
  simp only [e]
  rw [integral_const_mul, integral_complex_ofReal, Measure.integral_comp_mul_left
    (fun X : ℝ => (hermiteH n).eval X * (hermiteH m).eval X * Real.exp (-X ^ 2)), integral_hermite]
  split_ifs with h
  · subst h
    rw [sub_self, mul_zero, zero_mul, Complex.exp_zero, one_mul, smul_eq_mul, abs_of_pos (by positivity)]
    congr 2
    field_simp
  · simp

/-- **C71.** The Hermite-Gauss transverse profiles are orthonormal, for every position of the focal plane. -/
theorem C71_orthonormal (w0 lam zFoc : ℝ) (hw : 0 < w0) (nx ny mx my : ℕ) :
    ∃ ζ, zFocOverZr w0 (some lam) zFoc = .ok ζ ∧
      ∫ x : ℝ, ∫ y : ℝ, starRingEnd ℂ (hermiteGaussianTrans w0 nx ny ζ x y) * hermiteGaussianTrans w0 mx my ζ x y =
        if nx = mx ∧ ny = my then 1 else 0 := by
  have hz : zFocOverZr w0 (some lam) zFoc = .ok (-(-(zFoc * lam / (Real.pi * w0 ^ 2)))) := by
    unfold zFocOverZr
    split_ifs with h
    · simp [h]
    · rw [neg_neg]
  refine ⟨_, hz, ?_⟩
  generalize -(zFoc * lam / (Real.pi * w0 ^ 2)) = ζ
  have hr := rho_pos ζ
  have hpi := Real.pi_pos
  have h2 : 0 < Real.sqrt 2 := Real.sqrt_pos.2 (by norm_num)
  have h22 : Real.sqrt 2 ^ 2 = 2 := Real.sq_sqrt (by norm_num)
  have hrq : ((rho ζ ^ 2 : ℝ) : ℂ) = starRingEnd ℂ (1 + I * ζ) * (1 + I * ζ) := by
    rw [rho_sq]
    simp only [map_add, map_one, map_mul, Complex.conj_I, Complex.conj_ofReal]
    push_cast
    linear_combination ((ζ : ℂ) ^ 2) * I_sq
  set K : ℕ → ℝ := fun n => Real.sqrt (1 / (2 ^ n * n.factorial * w0)) with hK
  have e : ∀ x y : ℝ, starRingEnd ℂ (hermiteGaussianTrans w0 nx ny (-ζ) x y) * hermiteGaussianTrans w0 mx my (-ζ) x y =
      ((2 / Real.pi * (K nx * K ny * K mx * K my) / rho ζ ^ 2 : ℝ) : ℂ) *
        (starRingEnd ℂ (hg1 w0 nx x ζ) * hg1 w0 mx x ζ) * (starRingEnd ℂ (hg1 w0 ny y ζ) * hg1 w0 my y ζ) := by
    intro x y
    obtain ⟨S, hS⟩ : ∃ S, S = Real.sqrt (2 / Real.pi) := ⟨_, rfl⟩
    have hSS : 2 / Real.pi = S * S := by rw [hS, Real.mul_self_sqrt (by positivity)]
    rw [hermiteGaussianTrans_eq, hermiteGaussianTrans_eq, Complex.ofReal_div, hrq, ← hS, hSS]
    simp only [map_mul, map_div₀, Complex.conj_ofReal, hK]
    generalize starRingEnd ℂ (1 + I * ζ) = q'
    generalize (1 + I * ζ : ℂ) = q
    push_cast
    ring
  simp only [e, integral_const_mul, integral_mul_const, integral_hg1 w0 ζ hw]
  by_cases h1 : nx = mx
  · by_cases h3 : ny = my
    · subst h1 h3
      rw [if_pos rfl, if_pos rfl, if_pos ⟨rfl, rfl⟩, ← Complex.ofReal_mul, ← Complex.ofReal_mul, ← Complex.ofReal_one]
      congr 1
      have hKK : ∀ n, K n * K n = 1 / (2 ^ n * n.factorial * w0) := fun n => Real.mul_self_sqrt (by positivity)
      have hp : Real.sqrt Real.pi ^ 2 = Real.pi := Real.sq_sqrt hpi.le
      rw [show K nx * K ny * K nx * K ny = (K nx * K nx) * (K ny * K ny) by ring, hKK, hKK]
      have f1 : (0 : ℝ) < nx.factorial := by positivity
      have f2 : (0 : ℝ) < ny.factorial := by positivity
      field_simp
      rw [h22, hp]
      ring
    · simp [h3]
  · simp [h1]

/-- the hypotheses are met, and the modes are not trivial: two different modes, defocused -/
example : ∃ ζ, zFocOverZr 1 (some 1) 1 = .ok ζ ∧ ζ ≠ 0 ∧
    ∫ x : ℝ, ∫ y : ℝ, starRingEnd ℂ (hermiteGaussianTrans 1 2 3 ζ x y) * hermiteGaussianTrans 1 2 3 ζ x y = 1 := by
  obtain ⟨ζ, h1, h2⟩ := C71_orthonormal 1 1 1 one_pos 2 3 2 3
  refine ⟨ζ, h1, ?_, by simpa using h2⟩
  simp only [zFocOverZr, one_ne_zero, if_false] at h1
  injection h1 with h1
  rw [← h1]
  have := Real.pi_pos
  positivity

end Lasy
