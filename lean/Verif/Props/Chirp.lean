import Verif.Spec.Chirp
import Verif.Model.Longitudinal
import Verif.Model.Optics
import Mathlib.Analysis.SpecialFunctions.Gaussian.FourierTransform
import Mathlib.Analysis.Distribution.SchwartzSpace.Fourier
import Mathlib.Analysis.Calculus.BumpFunction.InnerProduct

/-!
# Properties C118, C119: what a spectral phase does to a pulse in continuous time
-/

namespace Lasy
open Complex Phys MeasureTheory

/-- the Gaussian integral behind C118 -/
theorem pulse_gaussian (tau g s0 : ℝ) (ht : 0 < tau) (P : ℂ) (t : ℝ) :
    Spec.pulse (fun W => P * (exp (I * ((g / 2 * W ^ 2 : ℝ) : ℂ)) *
      ((tau * Real.sqrt Real.pi : ℝ) * exp (-((tau ^ 2 * W ^ 2 / 4 : ℝ) : ℂ)) * exp (I * W * s0)))) t =
      P * ((tau / (2 * Real.sqrt Real.pi) : ℝ) * ((Real.pi : ℂ) / ((tau ^ 2 / 4 : ℝ) - I * (g / 2 : ℝ))) ^ (1 / 2 : ℂ)) *
        exp (-((t - s0 : ℝ) : ℂ) ^ 2 / (4 * ((tau ^ 2 / 4 : ℝ) - I * (g / 2 : ℝ)))) := by
  set b : ℂ := (tau ^ 2 / 4 : ℝ) - I * (g / 2 : ℝ) with hb
  have hre : 0 < b.re := by
    have : b.re = tau ^ 2 / 4 := by
      rw [hb, Complex.sub_re, Complex.ofReal_re, Complex.mul_re, Complex.ofReal_im]
      simp
    rw [this]
    positivity
  have h := fourierIntegral_gaussian hre ((s0 - t : ℝ) : ℂ)
  unfold Spec.pulse
  have e : ∀ W : ℝ, P * (exp (I * ((g / 2 * W ^ 2 : ℝ) : ℂ)) *
      ((tau * Real.sqrt Real.pi : ℝ) * exp (-((tau ^ 2 * W ^ 2 / 4 : ℝ) : ℂ)) * exp (I * W * s0))) * exp (-I * W * t) =
      P * (tau * Real.sqrt Real.pi : ℝ) * (exp (I * ((s0 - t : ℝ) : ℂ) * W) * exp (-b * (W : ℂ) ^ 2)) := by
    intro W
    have : exp (I * ((g / 2 * W ^ 2 : ℝ) : ℂ)) * exp (-((tau ^ 2 * W ^ 2 / 4 : ℝ) : ℂ)) * exp (I * W * s0) *
        exp (-I * W * t) = exp (I * ((s0 - t : ℝ) : ℂ) * W) * exp (-b * (W : ℂ) ^ 2) := by
      rw [← Complex.exp_add, ← Complex.exp_add, ← Complex.exp_add, ← Complex.exp_add, hb]
      congr 1
      push_cast
      ring
    rw [← this]
    ring
  simp only [e]
  rw [integral_const_mul, h]
  have hs : (Real.sqrt Real.pi : ℂ) * Real.sqrt Real.pi = Real.pi := by
    rw [← Complex.ofReal_mul, Real.mul_self_sqrt Real.pi_pos.le]
  have hs0 : (Real.sqrt Real.pi : ℂ) ≠ 0 := by
    exact_mod_cast (Real.sqrt_pos.2 Real.pi_pos).ne'
  rw [show (-((s0 - t : ℝ) : ℂ) ^ 2 / (4 * b)) = -((t - s0 : ℝ) : ℂ) ^ 2 / (4 * b) by push_cast; ring]
  push_cast
  rw [← hs]
  field_simp

variable [Phys]

/-- **C118** (the unchirped pulse). The Gaussian longitudinal profile is the pulse with the Gaussian spectrum
`τ√π exp(-τ²Ω²/4)`, delayed by `t_peak`, with phase `cep + ω0 t_peak`. -/
theorem C118_gaussian_spectrum (lam tau tPeak cep : ℝ) (ht : 0 < tau) (t : ℝ) :
    gaussianLong lam tau tPeak cep t =
      Spec.pulse (fun W => exp (I * (cep + 2 * Real.pi * c / lam * tPeak : ℝ)) *
        ((tau * Real.sqrt Real.pi : ℝ) * exp (-((tau ^ 2 * W ^ 2 / 4 : ℝ) : ℂ)) * exp (I * W * tPeak))) t := by
  have h := pulse_gaussian tau 0 tPeak ht (exp (I * (cep + 2 * Real.pi * c / lam * tPeak : ℝ))) t
  simp only [zero_div, zero_mul, Complex.ofReal_zero, mul_zero, Complex.exp_zero, one_mul, sub_zero] at h
  rw [h, gaussianLong, longOmega0, Complex.exp_add, mul_comm (exp (-_))]
  have hpi := Real.pi_pos
  have e1 : ((Real.pi : ℂ) / ((tau ^ 2 / 4 : ℝ) : ℂ)) ^ (1 / 2 : ℂ) = ((2 * Real.sqrt Real.pi / tau : ℝ) : ℂ) := by
    rw [← Complex.ofReal_div, show (1 / 2 : ℂ) = ((1 / 2 : ℝ) : ℂ) by push_cast; ring,
      ← Complex.ofReal_cpow (by positivity), ← Real.sqrt_eq_rpow]
    congr 1
    rw [show Real.pi / (tau ^ 2 / 4) = Real.pi * (2 / tau) ^ 2 by field_simp; norm_num, Real.sqrt_mul hpi.le,
      Real.sqrt_sq (by positivity)]
    ring
  have hs0 := (Real.sqrt_pos.2 hpi).ne'
  rw [e1, ← Complex.ofReal_mul, show tau / (2 * Real.sqrt Real.pi) * (2 * Real.sqrt Real.pi / tau) = 1 by field_simp]
  rw [Complex.ofReal_one, mul_one]
  congr 2
  push_cast
  field_simp

/-- **C118** (the chirped pulse). Behind a `PolynomialSpectralPhase(gdd)`, the Gaussian pulse is again Gaussian in
intensity, with the duration `τ' = τ √(1 + (2 gdd/τ²)²)` and the peak intensity reduced by `τ/τ'`, still centred at
`t_peak`; its phase is quadratic in time, so that the local frequency, minus the time derivative of the phase of
`E exp(-i ω0 t)`, is `ω0 + 4 gdd (t - t_peak)/(τ⁴ + 4 gdd²)`: it rises in time for positive `gdd`. -/
theorem C118_chirped_gaussian (lam tau tPeak cep gdd : ℝ) (ht : 0 < tau) (x y : ℝ) :
    ∃ A : ℂ, ‖A‖ ^ 2 = tau / (tau * Real.sqrt (1 + (2 * gdd / tau ^ 2) ^ 2)) ∧ ∀ t : ℝ,
      Spec.pulse (fun W => (polynomialSpectralPhase gdd 0 0).mult x y (2 * Real.pi * c / lam + W) (2 * Real.pi * c / lam) *
        (exp (I * (cep + 2 * Real.pi * c / lam * tPeak : ℝ)) *
          ((tau * Real.sqrt Real.pi : ℝ) * exp (-((tau ^ 2 * W ^ 2 / 4 : ℝ) : ℂ)) * exp (I * W * tPeak)))) t =
      A * (Real.exp (-((t - tPeak) ^ 2 / (tau * Real.sqrt (1 + (2 * gdd / tau ^ 2) ^ 2)) ^ 2)) : ℝ) *
        exp (-I * ((2 * gdd / (tau ^ 4 + 4 * gdd ^ 2) * (t - tPeak) ^ 2 : ℝ) : ℂ)) := by
  have hpi := Real.pi_pos
  set P : ℂ := exp (I * (cep + 2 * Real.pi * c / lam * tPeak : ℝ)) with hP
  have hPn : ‖P‖ = 1 := by rw [hP, mul_comm, Complex.norm_exp_ofReal_mul_I]
  set b : ℂ := (tau ^ 2 / 4 : ℝ) - I * (gdd / 2 : ℝ) with hb
  have hq : 0 < 1 + (2 * gdd / tau ^ 2) ^ 2 := by positivity
  have hbn : ‖b‖ = tau ^ 2 / 4 * Real.sqrt (1 + (2 * gdd / tau ^ 2) ^ 2) := by
    rw [hb, show ((tau ^ 2 / 4 : ℝ) : ℂ) - I * (gdd / 2 : ℝ) = ((tau ^ 2 / 4 : ℝ) : ℂ) + ((-(gdd / 2) : ℝ) : ℂ) * I by
      push_cast; ring, Complex.norm_add_mul_I]
    rw [show (tau ^ 2 / 4) ^ 2 + (-(gdd / 2)) ^ 2 = (tau ^ 2 / 4) ^ 2 * (1 + (2 * gdd / tau ^ 2) ^ 2) by field_simp; ring,
      Real.sqrt_mul (by positivity), Real.sqrt_sq (by positivity)]
  have hb0 : b ≠ 0 := by
    rw [← norm_pos_iff, hbn]
    positivity
  refine ⟨P * ((tau / (2 * Real.sqrt Real.pi) : ℝ) * ((Real.pi : ℂ) / b) ^ (1 / 2 : ℂ)), ?_, fun t => ?_⟩
  · have e : (((Real.pi : ℂ) / b) ^ (1 / 2 : ℂ)) ^ 2 = Real.pi / b := by
      rw [← Complex.cpow_nat_mul]
      norm_num
    have en : ‖((Real.pi : ℂ) / b) ^ (1 / 2 : ℂ)‖ ^ 2 = Real.pi / ‖b‖ := by
      rw [← norm_pow, e, norm_div, Complex.norm_real, Real.norm_eq_abs, abs_of_pos hpi]
    rw [norm_mul, hPn, one_mul, norm_mul, mul_pow, en, Complex.norm_real, Real.norm_eq_abs,
      abs_of_pos (by positivity), hbn, div_pow, mul_pow, Real.sq_sqrt hpi.le]
    have := Real.sqrt_pos.2 hq
    field_simp
    norm_num
  · have h := pulse_gaussian tau gdd tPeak ht P t
    rw [← hb] at h
    have e : (fun W : ℝ => (polynomialSpectralPhase gdd 0 0).mult x y (2 * Real.pi * c / lam + W) (2 * Real.pi * c / lam) *
        (P * ((tau * Real.sqrt Real.pi : ℝ) * exp (-((tau ^ 2 * W ^ 2 / 4 : ℝ) : ℂ)) * exp (I * W * tPeak)))) =
        fun W => P * (exp (I * ((gdd / 2 * W ^ 2 : ℝ) : ℂ)) *
          ((tau * Real.sqrt Real.pi : ℝ) * exp (-((tau ^ 2 * W ^ 2 / 4 : ℝ) : ℂ)) * exp (I * W * tPeak))) := by
      funext W
      simp only [polynomialSpectralPhase, add_sub_cancel_left, zero_div, zero_mul, add_zero]
      ring
    rw [e, h, mul_assoc _ ((Real.exp _ : ℝ) : ℂ), Complex.ofReal_exp, ← Complex.exp_add]
    congr 2
    have hinv : 1 / (4 * b) = ((1 / (tau * Real.sqrt (1 + (2 * gdd / tau ^ 2) ^ 2)) ^ 2 : ℝ) : ℂ) +
        I * ((2 * gdd / (tau ^ 4 + 4 * gdd ^ 2) : ℝ) : ℂ) := by
      rw [mul_pow, Real.sq_sqrt hq.le]
      have h4 : 0 < tau ^ 4 + 4 * gdd ^ 2 := by positivity
      have h4c : ((tau ^ 4 + 4 * gdd ^ 2 : ℝ) : ℂ) ≠ 0 := by exact_mod_cast h4.ne'
      rw [show 1 / (tau ^ 2 * (1 + (2 * gdd / tau ^ 2) ^ 2)) = tau ^ 2 / (tau ^ 4 + 4 * gdd ^ 2) by
        field_simp; ring]
      rw [div_eq_iff (by simpa using hb0), hb]
      push_cast at h4c ⊢
      field_simp
      ring_nf
      simp only [I_sq]
      ring
    rw [show -((t - tPeak : ℝ) : ℂ) ^ 2 / (4 * b) = -((t - tPeak : ℝ) : ℂ) ^ 2 * (1 / (4 * b)) by ring, hinv]
    push_cast
    ring

open FourierTransform in
omit [Phys] in
/-- the pulse of a smooth band-limited spectrum is the Fourier transform of Mathlib, rescaled -/
theorem pulse_eq_fourier (S : SchwartzMap ℝ ℂ) (t : ℝ) :
    Spec.pulse S t = (1 / (2 * Real.pi) : ℝ) * (𝓕 S) (t / (2 * Real.pi)) := by
  rw [Spec.pulse, SchwartzMap.fourier_coe, Real.fourier_real_eq_integral_exp_smul]
  congr 1
  refine integral_congr_ae (Filter.Eventually.of_forall fun W => ?_)
  have := Real.pi_pos
  have hp : (Real.pi : ℂ) ≠ 0 := by exact_mod_cast Real.pi_pos.ne'
  simp only [smul_eq_mul]
  rw [mul_comm]
  congr 2
  push_cast
  field_simp

open FourierTransform in
omit [Phys] in
/-- Parseval and its derivative, for the pulses of `Spec.pulse` -/
theorem pulse_moments (S : SchwartzMap ℝ ℂ) :
    Spec.fluence (Spec.pulse S) = 1 / (2 * Real.pi) * ∫ W, ‖S W‖ ^ 2 ∧
    ((Spec.firstMoment (Spec.pulse S) : ℝ) : ℂ) = (1 / (2 * Real.pi) : ℝ) * ∫ W, starRingEnd ℂ (S W) * (-I * deriv S W) := by
  have hpi := Real.pi_pos
  have hp : (Real.pi : ℂ) ≠ 0 := by exact_mod_cast Real.pi_pos.ne'
  have hn : ∀ t, ‖Spec.pulse S t‖ ^ 2 = (1 / (2 * Real.pi)) ^ 2 * ‖(𝓕 S : SchwartzMap ℝ ℂ) (t / (2 * Real.pi))‖ ^ 2 := by
    intro t
    rw [pulse_eq_fourier, norm_mul, mul_pow, Complex.norm_real, Real.norm_eq_abs, sq_abs]
  constructor
  · rw [Spec.fluence]
    simp only [hn]
    rw [integral_const_mul, show (∫ t : ℝ, ‖(𝓕 S : SchwartzMap ℝ ℂ) (t / (2 * Real.pi))‖ ^ 2) = _ from
      Measure.integral_comp_div (fun x => ‖(𝓕 S : SchwartzMap ℝ ℂ) x‖ ^ 2) (2 * Real.pi), SchwartzMap.integral_norm_sq_fourier,
      abs_of_pos (by positivity), smul_eq_mul]
    field_simp
  · have h1 := SchwartzMap.integral_inner_fourier_fourier S (SchwartzMap.derivCLM ℂ ℂ S)
    have h2 : ∀ x : ℝ, (𝓕 (SchwartzMap.derivCLM ℂ ℂ S) : SchwartzMap ℝ ℂ) x = 2 * Real.pi * I * x * (𝓕 S : SchwartzMap ℝ ℂ) x := by
      intro x
      rw [SchwartzMap.fourier_coe, SchwartzMap.fourier_coe]
      have := Real.fourier_deriv (f := S) S.integrable S.differentiable (SchwartzMap.derivCLM ℂ ℂ S).integrable
      have := congrFun this x
      simp only [smul_eq_mul] at this
      rw [← this]
      rfl
    rw [Spec.firstMoment, ← integral_complex_ofReal]
    simp only [hn]
    have h3 : ∀ t : ℝ, ((t * ((1 / (2 * Real.pi)) ^ 2 * ‖(𝓕 S : SchwartzMap ℝ ℂ) (t / (2 * Real.pi))‖ ^ 2) : ℝ) : ℂ) =
        (fun x : ℝ => (1 / (2 * Real.pi) : ℂ) ^ 2 * (-I) * inner ℂ ((𝓕 S : SchwartzMap ℝ ℂ) x) ((𝓕 (SchwartzMap.derivCLM ℂ ℂ S) : SchwartzMap ℝ ℂ) x)) (t / (2 * Real.pi)) := by
      intro t
      simp only [h2]
      rw [RCLike.inner_apply, ← Complex.normSq_eq_norm_sq]
      have : (𝓕 S : SchwartzMap ℝ ℂ) (t / (2 * Real.pi)) * starRingEnd ℂ ((𝓕 S : SchwartzMap ℝ ℂ) (t / (2 * Real.pi))) = (Complex.normSq ((𝓕 S : SchwartzMap ℝ ℂ) (t / (2 * Real.pi))) : ℂ) :=
        Complex.mul_conj _
      push_cast
      rw [← this]
      field_simp
      ring_nf
      simp only [I_sq]
      ring
    rw [integral_congr_ae (Filter.Eventually.of_forall h3), Measure.integral_comp_div (fun x : ℝ => (1 / (2 * Real.pi) : ℂ) ^ 2 * (-I) *
      inner ℂ ((𝓕 S : SchwartzMap ℝ ℂ) x) ((𝓕 (SchwartzMap.derivCLM ℂ ℂ S) : SchwartzMap ℝ ℂ) x)), integral_const_mul, h1, abs_of_pos (by positivity), Complex.real_smul]
    rw [← integral_const_mul, ← integral_const_mul, ← integral_const_mul]
    refine integral_congr_ae (Filter.Eventually.of_forall fun W => ?_)
    simp only [RCLike.inner_apply, SchwartzMap.derivCLM_apply]
    push_cast
    field_simp

omit [Phys] in
/-- **C119.** For every pulse with a smooth spectrum of bounded support, a `PolynomialSpectralPhase` keeps the fluence
and delays the mean arrival time by the mean, over the spectrum, of the group delay
`gdd (ω-ω0) + tod (ω-ω0)²/2 + fod (ω-ω0)³/6`. -/
theorem C119_group_delay (gdd tod fod omega0 x y : ℝ) (S : ℝ → ℂ) (hs : ContDiff ℝ (⊤ : ℕ∞) S) (hc : HasCompactSupport S) :
    Spec.fluence (Spec.pulse fun W => (polynomialSpectralPhase gdd tod fod).mult x y (omega0 + W) omega0 * S W) =
        Spec.fluence (Spec.pulse S) ∧
      Spec.firstMoment (Spec.pulse fun W => (polynomialSpectralPhase gdd tod fod).mult x y (omega0 + W) omega0 * S W) =
        Spec.firstMoment (Spec.pulse S) +
          1 / (2 * Real.pi) * ∫ W, (gdd * W + tod * W ^ 2 / 2 + fod * W ^ 3 / 6) * ‖S W‖ ^ 2 := by
  set T : ℝ → ℂ := fun W => (polynomialSpectralPhase gdd tod fod).mult x y (omega0 + W) omega0 with hT
  have hTe : ∀ W, T W = exp (I * ((gdd / 2 * W ^ 2 + tod / 6 * W ^ 3 + fod / 24 * W ^ 4 : ℝ) : ℂ)) := by
    intro W
    simp [hT, polynomialSpectralPhase]
  have hTs : ContDiff ℝ (⊤ : ℕ∞) T := by
    rw [show T = _ from funext hTe]
    have h : ContDiff ℝ (⊤ : ℕ∞) fun W : ℝ => gdd / 2 * W ^ 2 + tod / 6 * W ^ 3 + fod / 24 * W ^ 4 := by fun_prop
    exact (contDiff_const.mul (Complex.ofRealCLM.contDiff.comp h)).cexp
  have hTn : ∀ W, ‖T W‖ = 1 := by
    intro W
    rw [hTe, mul_comm, Complex.norm_exp_ofReal_mul_I]
  have hTd : ∀ W, HasDerivAt T (I * ((gdd * W + tod * W ^ 2 / 2 + fod * W ^ 3 / 6 : ℝ) : ℂ) * T W) W := by
    intro W
    have hp : HasDerivAt (fun W : ℝ => gdd / 2 * W ^ 2 + tod / 6 * W ^ 3 + fod / 24 * W ^ 4)
        (gdd * W + tod * W ^ 2 / 2 + fod * W ^ 3 / 6) W := by
      have h2 := (hasDerivAt_pow 2 W).const_mul (gdd / 2)
      have h3 := (hasDerivAt_pow 3 W).const_mul (tod / 6)
      have h4 := (hasDerivAt_pow 4 W).const_mul (fod / 24)
      refine ((h2.add h3).add h4).congr_deriv ?_
      norm_num
      ring
    have := (hp.ofReal_comp.const_mul I).cexp
    rw [show T = _ from funext hTe]
    refine this.congr_deriv ?_
    ring
  have hc1 : HasCompactSupport fun W => T W * S W := hc.mul_left
  have hs1 : ContDiff ℝ (⊤ : ℕ∞) fun W => T W * S W := hTs.mul hs
  let F : SchwartzMap ℝ ℂ := hc.toSchwartzMap hs
  let F1 : SchwartzMap ℝ ℂ := hc1.toSchwartzMap hs1
  have eF : (F : ℝ → ℂ) = S := rfl
  have eF1 : (F1 : ℝ → ℂ) = fun W => T W * S W := rfl
  obtain ⟨a0, b0⟩ := pulse_moments F
  obtain ⟨a1, b1⟩ := pulse_moments F1
  rw [eF] at a0 b0
  rw [eF1] at a1 b1
  refine ⟨?_, ?_⟩
  · rw [a0, a1]
    congr 1
    refine integral_congr_ae (Filter.Eventually.of_forall fun W => ?_)
    simp only [norm_mul, hTn, one_mul]
  · apply Complex.ofReal_injective
    rw [b1, Complex.ofReal_add, b0, Complex.ofReal_mul, ← mul_add, ← integral_complex_ofReal, ← integral_add]
    · congr 1
      refine integral_congr_ae (Filter.Eventually.of_forall fun W => ?_)
      have hd := ((hTd W).fun_mul (hs.differentiable (by simp) W).hasDerivAt).deriv
      simp only
      rw [hd]
      have hTT : starRingEnd ℂ (T W) * T W = 1 := by
        rw [mul_comm, Complex.mul_conj, Complex.normSq_eq_norm_sq, hTn]; simp
      have hSS : ((‖S W‖ ^ 2 : ℝ) : ℂ) = starRingEnd ℂ (S W) * S W := by
        rw [mul_comm, Complex.mul_conj, Complex.normSq_eq_norm_sq]
      rw [map_mul, Complex.ofReal_mul, hSS]
      generalize ((gdd * W + tod * W ^ 2 / 2 + fod * W ^ 3 / 6 : ℝ) : ℂ) = p
      linear_combination (starRingEnd ℂ (S W)) * (-I * deriv S W + p * S W) * hTT -
        (starRingEnd ℂ (T W) * T W) * starRingEnd ℂ (S W) * S W * p * I_sq
    · refine Continuous.integrable_of_hasCompactSupport ?_ ?_
      · exact (Complex.continuous_conj.comp hs.continuous).mul (continuous_const.mul (hs.continuous_deriv (by simp)))
      · exact HasCompactSupport.mul_right (hc.comp_left (map_zero _))
    · refine Continuous.integrable_of_hasCompactSupport ?_ ?_
      · have := hs.continuous
        fun_prop
      · refine hc.mono' ?_
        intro W hW
        apply subset_tsupport
        intro h0
        apply hW
        simp [h0]

omit [Phys] in
/-- **C119** (the documented sign). Positive `gdd`: a pulse whose spectrum is above the centre frequency arrives later,
one whose spectrum is below it arrives earlier; positive `tod`: every pulse arrives later. -/
theorem C119_arrives_later (gdd tod omega0 x y : ℝ) (S : ℝ → ℂ) (hs : ContDiff ℝ (⊤ : ℕ∞) S) (hc : HasCompactSupport S)
    (hne : ∃ W, S W ≠ 0) :
    (0 < gdd → (∀ W ≤ 0, S W = 0) → Spec.firstMoment (Spec.pulse S) <
        Spec.firstMoment (Spec.pulse fun W => (polynomialSpectralPhase gdd 0 0).mult x y (omega0 + W) omega0 * S W)) ∧
    (0 < gdd → (∀ W ≥ 0, S W = 0) → Spec.firstMoment (Spec.pulse S) >
        Spec.firstMoment (Spec.pulse fun W => (polynomialSpectralPhase gdd 0 0).mult x y (omega0 + W) omega0 * S W)) ∧
    (0 < tod → Spec.firstMoment (Spec.pulse S) <
        Spec.firstMoment (Spec.pulse fun W => (polynomialSpectralPhase 0 tod 0).mult x y (omega0 + W) omega0 * S W)) := by
  have hpi := Real.pi_pos
  have key : ∀ p : ℝ → ℝ, Continuous p → (∀ W, 0 ≤ p W * ‖S W‖ ^ 2) → (∃ W, 0 < p W * ‖S W‖ ^ 2) →
      0 < ∫ W, p W * ‖S W‖ ^ 2 := by
    intro p hp h0 h1
    have hcont : Continuous fun W => p W * ‖S W‖ ^ 2 := hp.mul ((hs.continuous.norm).pow 2)
    have hcs : HasCompactSupport fun W => p W * ‖S W‖ ^ 2 := by
      refine hc.mono' ?_
      intro W hW
      apply subset_tsupport
      intro h0
      apply hW
      simp [h0]
    obtain ⟨W, hW⟩ := h1
    exact hcont.integral_pos_of_hasCompactSupport_nonneg_nonzero hcs h0 hW.ne'
  obtain ⟨W0, hW0⟩ := hne
  have hn0 : 0 < ‖S W0‖ ^ 2 := by have := norm_pos_iff.2 hW0; positivity
  refine ⟨fun hg hz => ?_, fun hg hz => ?_, fun ht => ?_⟩
  · rw [(C119_group_delay gdd 0 0 omega0 x y S hs hc).2, lt_add_iff_pos_right]
    refine mul_pos (by positivity) (key _ (by fun_prop) (fun W => ?_) ⟨W0, ?_⟩)
    · rcases le_or_gt W 0 with h | h
      · simp [hz W h]
      · simp; positivity
    · have : 0 < W0 := by
        by_contra h
        exact hW0 (hz W0 (not_lt.1 h))
      simp; positivity
  · rw [(C119_group_delay gdd 0 0 omega0 x y S hs hc).2, gt_iff_lt, add_lt_iff_neg_left]
    have := key (fun W => -(gdd * W)) (by fun_prop) (fun W => ?_) ⟨W0, ?_⟩
    · simp only [neg_mul, integral_neg] at this
      simp only [zero_mul, zero_div, add_zero]
      have hi : (0 : ℝ) < 1 / (2 * Real.pi) := by positivity
      nlinarith
    · rcases le_or_gt 0 W with h | h
      · simp [hz W h]
      · have : 0 ≤ -(gdd * W) := by nlinarith
        positivity
    · have : W0 < 0 := by
        by_contra h
        exact hW0 (hz W0 (not_lt.1 h))
      have : 0 < -(gdd * W0) := by nlinarith
      positivity
  · rw [(C119_group_delay 0 tod 0 omega0 x y S hs hc).2, lt_add_iff_pos_right]
    have hne2 : ∃ W, W ≠ 0 ∧ S W ≠ 0 := by
      by_contra h
      push Not at h
      have : W0 = 0 := by by_contra h0; exact hW0 (h W0 h0)
      subst this
      have hd : Dense {W : ℝ | W ≠ 0} := dense_compl_singleton (0 : ℝ)
      have := Continuous.ext_on hd hs.continuous continuous_const (fun W hW => h W hW)
      exact hW0 (congrFun this 0)
    obtain ⟨W1, h1, h2⟩ := hne2
    refine mul_pos (by positivity) (key _ (by fun_prop) (fun W => ?_) ⟨W1, ?_⟩)
    · simp; positivity
    · have := norm_pos_iff.2 h2
      simp; positivity

/-- the hypotheses are met: a smooth bump above the centre frequency -/
example : ∃ S : ℝ → ℂ, ContDiff ℝ (⊤ : ℕ∞) S ∧ HasCompactSupport S ∧ (∃ W, S W ≠ 0) ∧ ∀ W ≤ 0, S W = 0 := by
  let b : ContDiffBump (3 : ℝ) := default
  have ho : b.rOut = 2 := rfl
  refine ⟨fun W => ((b W : ℝ) : ℂ), Complex.ofRealCLM.contDiff.comp b.contDiff, b.hasCompactSupport.comp_left (g := Complex.ofReal) rfl,
    ⟨3, ?_⟩, fun W hW => ?_⟩
  · simp [b.one_of_mem_closedBall (Metric.mem_closedBall_self b.rIn_pos.le)]
  · have : b W = 0 := b.zero_of_le_dist (by rw [ho, Real.dist_eq, abs_of_nonpos (by linarith)]; linarith)
    simp [this]

end Lasy
