import Verif.Model.Transverse
import Verif.Props.Profile
import Mathlib.Analysis.SpecialFunctions.Trigonometric.Deriv

/-!
# Properties C40, C42, C43: the Gaussian profile and the analytic longitudinal profiles
-/

namespace Lasy
open Phys Complex
variable [Phys]

/-! ## C40 -/

/-- **C40.** `GaussianProfile(...)` is constructed for every non-zero wavelength and every `z_foc` (zero
included, where `q = 1`), and its `evaluate` is, at every point of the arrays, the Gaussian with
`q = 1 - i z_foc λ / (π w0²)`. (The constructor exchanges two arguments of the transverse profile; this has no
effect on the result.) -/
theorem C40_formula (wavelength : ℝ) (hw : wavelength ≠ 0) (px py : ℂ) (E : Option ℝ)
    (w0 tau tPeak cep zFoc : ℝ) :
    ∃ p, gaussianProfile wavelength [px, py] E w0 tau tPeak cep zFoc = .ok p ∧ p.laserEnergy = some E ∧
      p.lambda0 = wavelength ∧ p.dtype = .c128 ∧
      p.Pointwise fun x y t =>
        let q : ℂ := 1 - I * (zFoc * wavelength / (Real.pi * w0 ^ 2) : ℝ)
        exp (-(x ^ 2 + y ^ 2) / (w0 ^ 2 * q)) / q *
          exp (-(t - tPeak) ^ 2 / tau ^ 2 + I * (cep + 2 * Real.pi * c / wavelength * tPeak)) := by
  refine ⟨{ omega0 := 2 * Real.pi * c / wavelength, lambda0 := wavelength, pol := polNormalised (px, py)
            laserEnergy := some E, dtype := .c128
            evaluate := fun x y t i j k => gaussianTrans w0 (wavelength * zFoc / (Real.pi * w0 ^ 2)) (x i j k)
              (y i j k) * gaussianLong wavelength tau tPeak cep (t i j k) }, ?_, rfl, rfl, rfl, ?_⟩
  · unfold gaussianProfile zFocOverZr
    rw [if_neg hw]
    rfl
  · intro a b c' x y t i j k
    simp only [gaussianTrans, gaussianLong, diffractFactor, longOmega0]
    push_cast
    rw [show ((wavelength * zFoc / (Real.pi * w0 ^ 2) : ℂ)) = zFoc * wavelength / (Real.pi * w0 ^ 2) by ring]
    congr 2
    · ring

/-- **C40** (documented field). With `z_foc = 0` the field `envelope * exp(-i ω0 t)` is the documented one. -/
theorem C40_documented (wavelength : ℝ) (hw : wavelength ≠ 0) (px py : ℂ) (E : Option ℝ)
    (w0 tau tPeak cep : ℝ) :
    ∃ p f, gaussianProfile wavelength [px, py] E w0 tau tPeak cep 0 = .ok p ∧ p.Pointwise f ∧
      ∀ x y t : ℝ, f x y t * exp (-I * p.omega0 * t) =
        exp (-(x ^ 2 + y ^ 2) / w0 ^ 2 - (t - tPeak) ^ 2 / tau ^ 2 - I * p.omega0 * (t - tPeak) + I * cep) := by
  obtain ⟨p, h, -, -, -, hp⟩ := C40_formula wavelength hw px py E w0 tau tPeak cep 0
  have ho : p.omega0 = 2 * Real.pi * c / wavelength := by
    unfold gaussianProfile zFocOverZr at h
    rw [if_neg hw] at h
    injection h with h
    rw [← h]
  refine ⟨p, _, h, hp, fun x y t => ?_⟩
  simp only [zero_mul, zero_div, Complex.ofReal_zero, mul_zero, sub_zero, mul_one, div_one]
  rw [← Complex.exp_add, ← Complex.exp_add, ho]
  congr 1
  push_cast
  ring

/-! ## C42 -/

theorem norm_gaussianLong (wavelength tau tPeak cep t : ℝ) :
    ‖gaussianLong wavelength tau tPeak cep t‖ = Real.exp (-((t - tPeak) ^ 2 / tau ^ 2)) := by
  rw [gaussianLong, Complex.exp_add, norm_mul, mul_comm I, Complex.norm_exp_ofReal_mul_I, mul_one,
    ← Complex.ofReal_neg, Complex.norm_exp_ofReal]

/-- **C42** (Gaussian). The modulus is at most 1, with equality exactly at `t_peak`; with the documented
`τ = τ_FWHM / √(2 log 2)` the intensity is at least half its maximum exactly on the interval of width `τ_FWHM`
around `t_peak`; and the carrier has the phase `cep` at `t_peak`. -/
theorem C42_gaussian (wavelength fwhm tPeak cep : ℝ) (hf : 0 < fwhm) (t : ℝ) :
    let L := gaussianLong wavelength (fwhm / Real.sqrt (2 * Real.log 2)) tPeak cep
    ‖L t‖ ≤ 1 ∧ (‖L t‖ = 1 ↔ t = tPeak) ∧ (1 / 2 ≤ ‖L t‖ ^ 2 ↔ |t - tPeak| ≤ fwhm / 2) ∧
      (‖L t‖ ^ 2 = 1 / 2 ↔ t = tPeak + fwhm / 2 ∨ t = tPeak - fwhm / 2) ∧
      L tPeak * exp (-I * (2 * Real.pi * c / wavelength : ℝ) * tPeak) = exp (I * cep) := by
  intro L
  have hl : 0 < Real.log 2 := Real.log_pos (by norm_num)
  have hs : Real.sqrt (2 * Real.log 2) ^ 2 = 2 * Real.log 2 := Real.sq_sqrt (by positivity)
  have hn : ∀ t, ‖L t‖ = Real.exp (-((t - tPeak) ^ 2 * (2 * Real.log 2) / fwhm ^ 2)) := by
    intro t
    rw [norm_gaussianLong, div_pow, hs]
    congr 2
    field_simp
  have hsq : ∀ t, ‖L t‖ ^ 2 = Real.exp (-(4 * Real.log 2 * (t - tPeak) ^ 2 / fwhm ^ 2)) := by
    intro t
    rw [hn, ← Real.exp_nat_mul]
    congr 1
    push_cast
    ring
  have hhalf : (1 / 2 : ℝ) = Real.exp (-Real.log 2) := by
    rw [Real.exp_neg, Real.exp_log (by norm_num)]
    norm_num
  refine ⟨?_, ?_, ?_, ?_, ?_⟩
  · rw [hn, Real.exp_le_one_iff]
    have : 0 ≤ (t - tPeak) ^ 2 * (2 * Real.log 2) / fwhm ^ 2 := by positivity
    linarith
  · rw [hn, Real.exp_eq_one_iff, neg_eq_zero, div_eq_zero_iff]
    constructor
    · rintro (h | h)
      · rcases mul_eq_zero.mp h with h | h
        · exact sub_eq_zero.mp (pow_eq_zero_iff (two_ne_zero) |>.mp h)
        · linarith
      · exact absurd h (by positivity)
    · rintro rfl
      left
      ring
  · rw [hsq, hhalf, Real.exp_le_exp, neg_le_neg_iff, div_le_iff₀ (by positivity)]
    rw [show (4 * Real.log 2 * (t - tPeak) ^ 2 ≤ Real.log 2 * fwhm ^ 2) ↔
        (Real.log 2 * (t - tPeak) ^ 2 ≤ Real.log 2 * (fwhm / 2) ^ 2) by
          constructor <;> intro h <;> nlinarith]
    rw [mul_le_mul_iff_right₀ hl, sq_le_sq, abs_of_pos (show 0 < fwhm / 2 by linarith)]
  · rw [hsq, hhalf, Real.exp_eq_exp, neg_inj, div_eq_iff (by positivity)]
    constructor
    · intro h
      have h2 : (t - tPeak) ^ 2 = (fwhm / 2) ^ 2 := by
        have := mul_left_cancel₀ hl.ne' (show Real.log 2 * (4 * (t - tPeak) ^ 2) = Real.log 2 * fwhm ^ 2 by linarith)
        linarith
      rcases sq_eq_sq_iff_eq_or_eq_neg.mp h2 with h | h
      · left; linarith
      · right; linarith
    · rintro (rfl | rfl) <;> ring
  · simp only [L, gaussianLong, longOmega0]
    rw [← Complex.exp_add]
    congr 1
    push_cast
    ring_nf

theorem norm_superGaussianLong (wavelength tau tPeak n cep t : ℝ) :
    ‖superGaussianLong wavelength tau tPeak n cep t‖ =
      Real.exp (-((t - tPeak) ^ 2 / tau ^ 2) ^ (n / 2)) := by
  rw [superGaussianLong, Complex.exp_add, norm_mul, mul_comm I, Complex.norm_exp_ofReal_mul_I, mul_one,
    ← Complex.ofReal_neg, Complex.norm_exp_ofReal]

omit [Phys] in
theorem superGaussian_base {t tPeak tau n : ℝ} (htau : 0 < tau) :
    ((t - tPeak) ^ 2 / tau ^ 2) ^ (n / 2) = (|t - tPeak| / tau) ^ n := by
  rw [← div_pow, ← sq_abs, abs_div, abs_of_pos htau, ← Real.rpow_natCast, ← Real.rpow_mul (by positivity)]
  congr 1
  push_cast
  ring

omit [Phys] in
theorem exp_half : (1 / 2 : ℝ) = Real.exp (-Real.log 2) := by
  rw [Real.exp_neg, Real.exp_log (by norm_num)]
  norm_num

/-- **C42** (super-Gaussian). The modulus is at most 1, with equality exactly at `t_peak`; the carrier has the
phase `cep` at `t_peak`; the intensity is half its maximum at `t_peak ± τ_FWHM / 2` for
`τ = τ_FWHM / (2 (log 2 / 2)^(1/n))`. (The documentation gives a different `τ`, see
`C42_super_gaussian_refuted`.) -/
theorem C42_super_gaussian_partial (wavelength fwhm tPeak n cep : ℝ) (hf : 0 < fwhm) (hn : 0 < n) (t : ℝ) :
    let L := superGaussianLong wavelength (fwhm / (2 * (Real.log 2 / 2) ^ (1 / n))) tPeak n cep
    ‖L t‖ ≤ 1 ∧ (‖L t‖ = 1 ↔ t = tPeak) ∧ (1 / 2 ≤ ‖L t‖ ^ 2 ↔ |t - tPeak| ≤ fwhm / 2) ∧
      L tPeak * exp (-I * (2 * Real.pi * c / wavelength : ℝ) * tPeak) = exp (I * cep) := by
  intro L
  have hl : 0 < Real.log 2 := Real.log_pos (by norm_num)
  have hlp : 0 < (Real.log 2 / 2) ^ (1 / n) := Real.rpow_pos_of_pos (by linarith) _
  have htau : 0 < fwhm / (2 * (Real.log 2 / 2) ^ (1 / n)) := by positivity
  have hN : ∀ t, ‖L t‖ = Real.exp (-(|t - tPeak| / (fwhm / (2 * (Real.log 2 / 2) ^ (1 / n)))) ^ n) := by
    intro t
    rw [norm_superGaussianLong, superGaussian_base htau]
  have hr : ∀ t, (|t - tPeak| / (fwhm / (2 * (Real.log 2 / 2) ^ (1 / n)))) ^ n =
      (|t - tPeak| / (fwhm / 2)) ^ n * (Real.log 2 / 2) := by
    intro t
    rw [show |t - tPeak| / (fwhm / (2 * (Real.log 2 / 2) ^ (1 / n))) =
        |t - tPeak| / (fwhm / 2) * (Real.log 2 / 2) ^ (1 / n) by field_simp,
      Real.mul_rpow (by positivity) hlp.le, ← Real.rpow_mul (by positivity), one_div, inv_mul_cancel₀ hn.ne',
      Real.rpow_one]
  refine ⟨?_, ?_, ?_, ?_⟩
  · rw [hN, Real.exp_le_one_iff, neg_nonpos]
    positivity
  · rw [hN, Real.exp_eq_one_iff, neg_eq_zero, Real.rpow_eq_zero (by positivity) hn.ne', div_eq_zero_iff]
    constructor
    · rintro (h | h)
      · exact sub_eq_zero.mp (abs_eq_zero.mp h)
      · exact absurd h htau.ne'
    · rintro rfl
      left
      simp
  · rw [hN, ← Real.exp_nat_mul, exp_half, Real.exp_le_exp, hr]
    have h2 : 0 < fwhm / 2 := by linarith
    have key : (|t - tPeak| / (fwhm / 2)) ^ n ≤ 1 ↔ |t - tPeak| ≤ fwhm / 2 := by
      rw [← div_le_one h2]
      conv_lhs => rw [← Real.one_rpow n]
      exact Real.rpow_le_rpow_iff (by positivity) zero_le_one hn
    rw [← key]
    push_cast
    constructor
    · intro h
      nlinarith
    · intro h
      nlinarith
  · have h0 : (((tPeak - tPeak) ^ 2 / (fwhm / (2 * (Real.log 2 / 2) ^ (1 / n))) ^ 2) ^ (n / 2) : ℝ) = 0 := by
      rw [sub_self, zero_pow two_ne_zero, zero_div]
      exact Real.zero_rpow (by linarith)
    simp only [L, superGaussianLong, longOmega0, h0]
    rw [← Complex.exp_add]
    congr 1
    push_cast
    ring_nf

/-- **C42** is false of the documentation of the super-Gaussian: with the documented
`τ = τ_FWHM / (√2 log(2)^(1/n))` and `n = 4` the intensity at `t_peak + τ_FWHM / 2` is `2^(-1/2)`, not half of
the maximum. -/
theorem C42_super_gaussian_refuted (wavelength fwhm tPeak cep : ℝ) (hf : 0 < fwhm) :
    ‖superGaussianLong wavelength (fwhm / (Real.sqrt 2 * Real.log 2 ^ (1 / (4 : ℝ)))) tPeak 4 cep
      (tPeak + fwhm / 2)‖ ^ 2 = Real.sqrt (1 / 2) ∧ Real.sqrt (1 / 2) ≠ 1 / 2 := by
  have hl : 0 < Real.log 2 := Real.log_pos (by norm_num)
  have hlp : 0 < Real.log 2 ^ (1 / (4 : ℝ)) := Real.rpow_pos_of_pos hl _
  have htau : 0 < fwhm / (Real.sqrt 2 * Real.log 2 ^ (1 / (4 : ℝ))) := by positivity
  constructor
  · rw [norm_superGaussianLong, superGaussian_base htau, ← Real.exp_nat_mul]
    have e : (|tPeak + fwhm / 2 - tPeak| / (fwhm / (Real.sqrt 2 * Real.log 2 ^ (1 / (4 : ℝ))))) ^ (4 : ℝ) =
        Real.log 2 / 4 := by
      rw [show tPeak + fwhm / 2 - tPeak = fwhm / 2 by ring, abs_of_pos (by linarith),
        show fwhm / 2 / (fwhm / (Real.sqrt 2 * Real.log 2 ^ (1 / (4 : ℝ)))) =
          Real.sqrt 2 / 2 * Real.log 2 ^ (1 / (4 : ℝ)) by field_simp,
        Real.mul_rpow (by positivity) hlp.le, ← Real.rpow_mul hl.le,
        show (1 / (4 : ℝ)) * 4 = 1 by norm_num, Real.rpow_one,
        show (4 : ℝ) = ((4 : ℕ) : ℝ) by norm_num, Real.rpow_natCast, div_pow,
        show Real.sqrt 2 ^ 4 = (Real.sqrt 2 ^ 2) ^ 2 by ring, Real.sq_sqrt (by norm_num)]
      norm_num
      ring
    rw [e, Real.sqrt_eq_rpow, show (1 / 2 : ℝ) ^ (1 / (2 : ℝ)) = Real.exp (-Real.log 2) ^ (1 / (2 : ℝ)) by
      rw [← exp_half], ← Real.exp_mul]
    congr 1
    push_cast
    ring
  · intro h
    have : Real.sqrt (1 / 2) ^ 2 = 1 / 2 := Real.sq_sqrt (by norm_num)
    rw [h] at this
    norm_num at this

/-! ## C42, C43: the truncated cosine -/

theorem norm_cosineLong (wavelength tau tPeak cep t : ℝ) (htau : 0 < tau) :
    ‖cosineLong wavelength tau tPeak cep t‖ =
      if |t - tPeak| < tau then Real.cos (Real.pi / 2 * ((t - tPeak) / tau)) else 0 := by
  unfold cosineLong
  simp only
  rw [norm_mul, mul_comm I, Complex.norm_exp_ofReal_mul_I, mul_one]
  by_cases h : |t - tPeak| < tau
  · obtain ⟨h1, h2⟩ := abs_lt.mp h
    have g1 : (t - tPeak) / tau > -1 := by rw [gt_iff_lt, lt_div_iff₀ htau]; linarith
    have g2 : (t - tPeak) / tau < 1 := by rw [div_lt_iff₀ htau]; linarith
    have hpi := Real.pi_pos
    rw [if_pos h, if_pos g1, if_pos g2, mul_one, mul_one, Complex.norm_real, Real.norm_eq_abs,
      abs_of_nonneg]
    · congr 1
      ring
    · exact Real.cos_nonneg_of_mem_Icc ⟨by nlinarith, by nlinarith⟩
  · rw [if_neg h, not_lt, le_abs] at *
    rcases h with h | h
    · rw [if_neg (show ¬ (t - tPeak) / tau < 1 by rw [div_lt_iff₀ htau]; linarith)]
      simp
    · rw [if_neg (show ¬ (t - tPeak) / tau > -1 by rw [gt_iff_lt, lt_div_iff₀ htau]; linarith)]
      simp

/-- **C42** (truncated cosine). The modulus is at most 1, with equality exactly at `t_peak`; the intensity is at
least half its maximum exactly on the interval of width `tau_fwhm` around `t_peak`; the carrier has the phase
`cep` at `t_peak`. -/
theorem C42_cosine (wavelength fwhm tPeak cep : ℝ) (hf : 0 < fwhm) (t : ℝ) :
    let L := cosineLong wavelength fwhm tPeak cep
    ‖L t‖ ≤ 1 ∧ (‖L t‖ = 1 ↔ t = tPeak) ∧ (1 / 2 ≤ ‖L t‖ ^ 2 ↔ |t - tPeak| ≤ fwhm / 2) ∧
      L tPeak * exp (-I * (2 * Real.pi * c / wavelength : ℝ) * tPeak) = exp (I * cep) := by
  intro L
  have hpi := Real.pi_pos
  refine ⟨?_, ?_, ?_, ?_⟩
  · rw [norm_cosineLong _ _ _ _ _ hf]
    split
    · exact Real.cos_le_one _
    · norm_num
  · rw [norm_cosineLong _ _ _ _ _ hf]
    constructor
    · intro h
      split at h
      · rename_i hlt
        obtain ⟨h1, h2⟩ := abs_lt.mp hlt
        have g1 : -1 < (t - tPeak) / fwhm := by rw [lt_div_iff₀ hf]; linarith
        have g2 : (t - tPeak) / fwhm < 1 := by rw [div_lt_iff₀ hf]; linarith
        have := (Real.cos_eq_one_iff_of_lt_of_lt (x := Real.pi / 2 * ((t - tPeak) / fwhm)) (by nlinarith)
          (by nlinarith)).mp h
        rcases mul_eq_zero.mp this with h | h
        · linarith
        · rcases div_eq_zero_iff.mp h with h | h
          · linarith
          · linarith
      · norm_num at h
    · rintro rfl
      simp [hf]
  · rw [norm_cosineLong _ _ _ _ _ hf]
    have hab : Real.cos (Real.pi / 2 * ((t - tPeak) / fwhm)) = Real.cos (Real.pi / 2 * (|t - tPeak| / fwhm)) := by
      rw [← Real.cos_abs, abs_mul, abs_of_pos (by linarith : 0 < Real.pi / 2), abs_div, abs_of_pos hf]
    by_cases hlt : |t - tPeak| < fwhm
    · rw [if_pos hlt, hab]
      have g2 : |t - tPeak| / fwhm < 1 := by rwa [div_lt_one hf]
      have g1 : 0 ≤ |t - tPeak| / fwhm := by positivity
      have hmem : Real.pi / 2 * (|t - tPeak| / fwhm) ∈ Set.Icc 0 Real.pi := ⟨by positivity, by nlinarith⟩
      have hq : Real.pi / 4 ∈ Set.Icc 0 Real.pi := ⟨by positivity, by linarith⟩
      have hpos : 0 ≤ Real.cos (Real.pi / 2 * (|t - tPeak| / fwhm)) :=
        Real.cos_nonneg_of_mem_Icc ⟨by nlinarith, by nlinarith⟩
      have hc4 : Real.cos (Real.pi / 4) ^ 2 = 1 / 2 := by
        rw [Real.cos_pi_div_four, div_pow, Real.sq_sqrt (by norm_num)]
        norm_num
      have hc4p : 0 ≤ Real.cos (Real.pi / 4) := Real.cos_nonneg_of_mem_Icc ⟨by linarith, by linarith⟩
      rw [← hc4, sq_le_sq₀ hc4p hpos, Real.strictAntiOn_cos.le_iff_ge hq hmem]
      constructor
      · intro h
        have : |t - tPeak| / fwhm ≤ 1 / 2 := by nlinarith
        rw [div_le_iff₀ hf] at this
        linarith
      · intro h
        have : |t - tPeak| / fwhm ≤ 1 / 2 := by rw [div_le_iff₀ hf]; linarith
        nlinarith
    · rw [if_neg hlt]
      norm_num
      linarith
  · simp only [L, cosineLong, longOmega0, sub_self, zero_div, mul_zero, Real.cos_zero]
    norm_num
    rw [← Complex.exp_add]
    congr 1
    ring

/-- **C43.** The truncated cosine is exactly zero for `|t - t_peak| ≥ tau_fwhm`, non-zero inside, and
continuous on the whole real line. -/
theorem C43_support (wavelength tau tPeak cep : ℝ) (htau : 0 < tau) :
    (∀ t, tau ≤ |t - tPeak| → cosineLong wavelength tau tPeak cep t = 0) ∧
    (∀ t, |t - tPeak| < tau → cosineLong wavelength tau tPeak cep t ≠ 0) ∧
    Continuous (cosineLong wavelength tau tPeak cep) := by
  have hpi := Real.pi_pos
  refine ⟨?_, ?_, ?_⟩
  · intro t h
    rw [← norm_eq_zero, norm_cosineLong _ _ _ _ _ htau, if_neg (not_lt.mpr h)]
  · intro t h
    rw [← norm_ne_zero_iff, norm_cosineLong _ _ _ _ _ htau, if_pos h]
    obtain ⟨h1, h2⟩ := abs_lt.mp h
    have g1 : -1 < (t - tPeak) / tau := by rw [lt_div_iff₀ htau]; linarith
    have g2 : (t - tPeak) / tau < 1 := by rw [div_lt_iff₀ htau]; linarith
    exact (Real.cos_pos_of_mem_Ioo ⟨by nlinarith, by nlinarith⟩).ne'
  · -- the function is the continuous extension `cos(π/2 max(-1, min(1, tn)))`
    have e : cosineLong wavelength tau tPeak cep = fun t =>
        ((Real.cos (0.5 * Real.pi * max (-1) (min 1 ((t - tPeak) / tau))) : ℝ) : ℂ) *
          exp (I * ((cep + longOmega0 wavelength * tPeak : ℝ) : ℂ)) := by
      have hz : Real.cos (0.5 * Real.pi) = 0 := by
        rw [show (0.5 : ℝ) * Real.pi = Real.pi / 2 by ring]
        exact Real.cos_pi_div_two
      funext t
      unfold cosineLong
      simp only
      by_cases h1 : (t - tPeak) / tau > -1
      · by_cases h2 : (t - tPeak) / tau < 1
        · rw [if_pos h1, if_pos h2, min_eq_right h2.le, max_eq_right h1.le]
          ring
        · rw [if_neg h2, min_eq_left (not_lt.mp h2), max_eq_right (by norm_num), mul_one, hz]
          simp
      · rw [if_neg h1, min_eq_right (by linarith), max_eq_left (not_lt.mp h1), mul_neg, mul_one, Real.cos_neg, hz]
        simp
    rw [e]
    fun_prop

end Lasy
