import Verif.Props.Lens
import Verif.Lemmas.Zernike
import Mathlib.Analysis.SpecialFunctions.PolarCoord
import Mathlib.MeasureTheory.Integral.Gamma
import Mathlib.Analysis.SpecialFunctions.Integrals.Basic
import Mathlib.RingTheory.Polynomial.Pochhammer

/-!
# Property C120: Laguerre-Gauss modes are orthogonal
-/

namespace Lasy
open Complex MeasureTheory Finset

/-- the coefficients of `genlaguerre(p, a)` -/
noncomputable def lagCoef (p a k : ℕ) : ℝ := (-1) ^ k * ((p + a).choose (p - k) : ℝ) / (k.factorial : ℝ)

theorem laguerreL_eval (p a : ℕ) (u : ℝ) : (laguerreL p a).eval u = ∑ k ∈ range (p + 1), lagCoef p a k * u ^ k := by
  simp [laguerreL, Polynomial.eval_finsetSum, lagCoef]

/-- `(x + a + 1) ⋯ (x + a + j)` as a polynomial in `x` -/
noncomputable def shiftPoch (a j : ℕ) : Polynomial ℝ :=
  (ascPochhammer ℝ j).comp (Polynomial.X + Polynomial.C ((a + 1 : ℕ) : ℝ))

theorem shiftPoch_eval (a j k : ℕ) : (shiftPoch a j).eval (k : ℝ) = ((a + j + k).factorial : ℝ) / (a + k).factorial := by
  rw [shiftPoch, Polynomial.eval_comp]
  simp only [Polynomial.eval_add, Polynomial.eval_X, Polynomial.eval_C]
  rw [← Nat.cast_add, ← ascPochhammer_eval_cast, ascPochhammer_nat_eq_ascFactorial, eq_div_iff (by positivity)]
  have := Nat.factorial_mul_ascFactorial (k + a) j
  rw [show k + (a + 1) = k + a + 1 by ring, show a + j + k = k + a + j by ring, show a + k = k + a by ring, ← this]
  push_cast
  ring

theorem shiftPoch_natDegree (a j : ℕ) : (shiftPoch a j).natDegree = j := by
  rw [shiftPoch, Polynomial.natDegree_comp, ascPochhammer_natDegree, Polynomial.natDegree_X_add_C, mul_one]

theorem shiftPoch_leading (a j : ℕ) : (shiftPoch a j).leadingCoeff = 1 := by
  rw [shiftPoch, Polynomial.leadingCoeff_comp (by rw [Polynomial.natDegree_X_add_C]; norm_num),
    (monic_ascPochhammer ℝ j).leadingCoeff, Polynomial.leadingCoeff_X_add_C]
  simp

theorem lagCoef_eq (p a k : ℕ) (hk : k ≤ p) :
    lagCoef p a k = ((p + a).factorial : ℝ) / p.factorial * ((-1) ^ k * (p.choose k : ℝ) * (1 / ((a + k).factorial : ℝ))) := by
  rw [lagCoef, Nat.cast_choose ℝ (by omega : p - k ≤ p + a), Nat.cast_choose ℝ hk,
    show p + a - (p - k) = a + k by omega]
  field_simp

/-- the moments of the Laguerre polynomials with respect to `u^a e^{-u}` -/
theorem lag_moment (p a j : ℕ) (hj : j ≤ p) :
    ∑ k ∈ range (p + 1), lagCoef p a k * ((a + j + k).factorial : ℝ) =
      if j = p then (-1) ^ p * ((p + a).factorial : ℝ) else 0 := by
  have h : ∑ k ∈ range (p + 1), lagCoef p a k * ((a + j + k).factorial : ℝ) =
      ((p + a).factorial : ℝ) / p.factorial * altSum p (fun x => (shiftPoch a j).eval x) := by
    rw [altSum, mul_sum]
    refine sum_congr rfl fun k hk => ?_
    rw [lagCoef_eq p a k (by have := mem_range.1 hk; omega), shiftPoch_eval]
    field_simp
  rw [h]
  split_ifs with hjp
  · subst hjp
    have := altSum_degree (shiftPoch a j)
    rw [shiftPoch_natDegree, shiftPoch_leading, one_mul] at this
    rw [this]
    field_simp
  · rw [altSum_lt (by rw [shiftPoch_natDegree]; omega), mul_zero]

/-- orthogonality of the Laguerre polynomials, as a double sum -/
theorem lag_ortho_le (p q a : ℕ) (hq : q ≤ p) :
    ∑ j ∈ range (q + 1), ∑ k ∈ range (p + 1), lagCoef q a j * lagCoef p a k * ((a + j + k).factorial : ℝ) =
      if q = p then ((p + a).factorial : ℝ) / p.factorial else 0 := by
  have h : ∀ j ∈ range (q + 1), ∑ k ∈ range (p + 1), lagCoef q a j * lagCoef p a k * ((a + j + k).factorial : ℝ) =
      lagCoef q a j * (if j = p then (-1) ^ p * ((p + a).factorial : ℝ) else 0) := by
    intro j hj
    rw [← lag_moment p a j (by have := mem_range.1 hj; omega), mul_sum]
    exact sum_congr rfl fun k _ => by ring
  rw [sum_congr rfl h]
  split_ifs with hqp
  · subst hqp
    rw [sum_eq_single_of_mem q (by simp) (fun j _ hne => by rw [if_neg hne, mul_zero]), if_pos rfl, lagCoef]
    have : ((-1 : ℝ)) ^ q * (-1) ^ q = 1 := by rw [← mul_pow]; simp
    simp only [Nat.sub_self, Nat.choose_zero_right, Nat.cast_one, mul_one]
    field_simp
    linear_combination this
  · refine sum_eq_zero fun j hj => ?_
    rw [if_neg (by have := mem_range.1 hj; omega), mul_zero]

theorem lag_ortho (p q a : ℕ) :
    ∑ j ∈ range (q + 1), ∑ k ∈ range (p + 1), lagCoef q a j * lagCoef p a k * ((a + j + k).factorial : ℝ) =
      if p = q then ((p + a).factorial : ℝ) / p.factorial else 0 := by
  rcases le_total q p with h | h
  · rw [lag_ortho_le p q a h]
    simp only [eq_comm]
  · rw [sum_comm]
    have := lag_ortho_le q p a h
    rw [show (∑ k ∈ range (p + 1), ∑ j ∈ range (q + 1), lagCoef q a j * lagCoef p a k * ((a + j + k).factorial : ℝ)) =
      ∑ k ∈ range (p + 1), ∑ j ∈ range (q + 1), lagCoef p a k * lagCoef q a j * ((a + k + j).factorial : ℝ) from
      sum_congr rfl fun k _ => sum_congr rfl fun j _ => by rw [show a + j + k = a + k + j by ring]; ring, this]
    by_cases hpq : p = q
    · subst hpq; rfl
    · rw [if_neg hpq, if_neg hpq]

theorem gauss_moment (n : ℕ) {b : ℝ} (hb : 0 < b) :
    ∫ r in Set.Ioi (0 : ℝ), r ^ (2 * n + 1) * Real.exp (-b * r ^ 2) = (n.factorial : ℝ) / (2 * b ^ (n + 1)) := by
  have h := _root_.integral_rpow_mul_exp_neg_mul_rpow (p := 2) (q := ((2 * n + 1 : ℕ) : ℝ)) (by norm_num) (by
    have : (0 : ℝ) ≤ ((2 * n + 1 : ℕ) : ℝ) := by positivity
    linarith) hb
  have e : ∀ r ∈ Set.Ioi (0 : ℝ), r ^ (2 * n + 1) * Real.exp (-b * r ^ 2) =
      r ^ ((2 * n + 1 : ℕ) : ℝ) * Real.exp (-b * r ^ (2 : ℝ)) := by
    intro r _
    rw [Real.rpow_natCast, show (2 : ℝ) = ((2 : ℕ) : ℝ) by norm_num, Real.rpow_natCast]
  rw [setIntegral_congr_fun measurableSet_Ioi e, h]
  have e1 : (((2 * n + 1 : ℕ) : ℝ) + 1) / 2 = ((n : ℝ) + 1) := by push_cast; ring
  rw [e1, Real.Gamma_nat_eq_factorial, neg_div, e1, Real.rpow_neg hb.le, ← Nat.cast_succ, Real.rpow_natCast]
  field_simp

theorem gauss_integrable (n : ℕ) {b : ℝ} (hb : 0 < b) :
    IntegrableOn (fun r : ℝ => r ^ (2 * n + 1) * Real.exp (-b * r ^ 2)) (Set.Ioi 0) := by
  have h := integrableOn_rpow_mul_exp_neg_mul_sq hb (s := ((2 * n + 1 : ℕ) : ℝ)) (by
    have : (0 : ℝ) ≤ ((2 * n + 1 : ℕ) : ℝ) := by positivity
    linarith)
  simpa only [Real.rpow_natCast] using h

/-- the radial integral of two Laguerre-Gauss modes -/
theorem lag_radial (p q a : ℕ) {b : ℝ} (hb : 0 < b) :
    ∫ r in Set.Ioi (0 : ℝ), r * (r ^ (2 * a) * ((laguerreL q a).eval (b * r ^ 2) * (laguerreL p a).eval (b * r ^ 2)) *
      Real.exp (-b * r ^ 2)) = if p = q then ((p + a).factorial : ℝ) / p.factorial / (2 * b ^ (a + 1)) else 0 := by
  have e : ∀ r : ℝ, r * (r ^ (2 * a) * ((laguerreL q a).eval (b * r ^ 2) * (laguerreL p a).eval (b * r ^ 2)) *
      Real.exp (-b * r ^ 2)) = ∑ j ∈ range (q + 1), ∑ k ∈ range (p + 1), (lagCoef q a j * lagCoef p a k * b ^ (j + k)) *
        (r ^ (2 * (a + j + k) + 1) * Real.exp (-b * r ^ 2)) := by
    intro r
    rw [laguerreL_eval, laguerreL_eval, sum_mul_sum]
    simp only [mul_sum, sum_mul]
    refine sum_congr rfl fun j _ => sum_congr rfl fun k _ => ?_
    rw [show 2 * (a + j + k) + 1 = 2 * a + 2 * j + 2 * k + 1 by ring]
    simp only [pow_add, mul_pow, pow_mul]
    ring
  simp only [e]
  rw [integral_finsetSum _ (fun j _ => integrable_finsetSum _ fun k _ => (gauss_integrable _ hb).const_mul _)]
  have e2 : ∀ j ∈ range (q + 1), (∫ r in Set.Ioi (0 : ℝ), ∑ k ∈ range (p + 1), (lagCoef q a j * lagCoef p a k * b ^ (j + k)) *
        (r ^ (2 * (a + j + k) + 1) * Real.exp (-b * r ^ 2))) =
      (∑ k ∈ range (p + 1), lagCoef q a j * lagCoef p a k * ((a + j + k).factorial : ℝ)) * (1 / (2 * b ^ (a + 1))) := by
    intro j _
    rw [integral_finsetSum _ (fun k _ => (gauss_integrable _ hb).const_mul _), sum_mul]
    refine sum_congr rfl fun k _ => ?_
    rw [integral_const_mul, gauss_moment _ hb]
    rw [show a + j + k + 1 = (a + 1) + (j + k) by ring, pow_add b (a + 1)]
    field_simp
  rw [sum_congr rfl e2, ← sum_mul, lag_ortho]
  split_ifs <;> ring

/-- the azimuthal integral -/
theorem azimuthal_integral (n : ℤ) :
    ∫ θ in Set.Ioo (-Real.pi) Real.pi, exp (I * n * θ) = if n = 0 then 2 * Real.pi else 0 := by
  have hpi := Real.pi_pos
  rw [← integral_Ioc_eq_integral_Ioo, ← intervalIntegral.integral_of_le (by linarith)]
  split_ifs with h
  · subst h
    simp
    ring
  · have hn : (I * n : ℂ) ≠ 0 := mul_ne_zero I_ne_zero (by exact_mod_cast h)
    rw [integral_exp_mul_complex hn]
    have : exp (I * n * (Real.pi : ℝ)) = exp (I * n * ((-Real.pi : ℝ) : ℝ)) := by
      rw [Complex.exp_eq_exp_iff_exists_int]
      exact ⟨n, by push_cast; ring⟩
    rw [this, sub_self, zero_div]
    simp

/-- a Laguerre-Gauss mode in polar coordinates -/
theorem laguerre_polar (w0 : ℝ) (p : ℕ) (m : ℤ) (ζ : ℝ) {r : ℝ} (hr : 0 < r) (θ : ℝ) :
    laguerreGaussianTrans w0 p m ζ (r * Real.cos θ) (r * Real.sin θ) =
      (r ^ m.natAbs * (laguerreL p m.natAbs).eval (2 * r ^ 2 / (w0 * ‖diffractFactor ζ‖) ^ 2) : ℝ) *
        exp (-I * m * θ) *
        exp (-((r ^ 2 : ℝ) : ℂ) / ((w0 ^ 2 : ℝ) * diffractFactor ζ)) *
        (exp (-I * ((2 * (p : ℤ) + m : ℤ) : ℂ) * (arg (diffractFactor ζ) : ℝ)) * (1 / diffractFactor ζ)) := by
  have hpos : (if m > 0 then ((r * Real.cos θ : ℝ) : ℂ) - I * ((r * Real.sin θ : ℝ) : ℂ)
      else ((r * Real.cos θ : ℝ) : ℂ) + I * ((r * Real.sin θ : ℝ) : ℂ)) =
      r * exp ((if m > 0 then -1 else 1 : ℝ) * θ * I) := by
    split_ifs
    · push_cast
      rw [show (-1 * θ * I : ℂ) = (-θ) * I by ring, Complex.exp_mul_I, Complex.cos_neg, Complex.sin_neg]
      ring
    · push_cast
      rw [show (1 * θ * I : ℂ) = θ * I by ring, Complex.exp_mul_I]
      ring
  have hnorm : ‖(r : ℂ) * exp ((if m > 0 then -1 else 1 : ℝ) * θ * I)‖ = r := by
    rw [← Complex.ofReal_mul, norm_mul, Complex.norm_exp_ofReal_mul_I, mul_one, Complex.norm_real, Real.norm_eq_abs,
      abs_of_pos hr]
  have hpow : ((r : ℂ) * exp ((if m > 0 then -1 else 1 : ℝ) * θ * I)) ^ m.natAbs =
      ((r ^ m.natAbs : ℝ) : ℂ) * exp (-I * m * θ) := by
    rw [mul_pow, ← Complex.exp_nat_mul, Complex.ofReal_pow]
    congr 2
    split_ifs with h
    · have : ((m.natAbs : ℕ) : ℂ) = m := by
        rw [← Int.cast_natCast, Int.natAbs_of_nonneg h.le]
      rw [this]
      push_cast
      ring
    · have : ((m.natAbs : ℕ) : ℂ) = -m := by
        rw [← Int.cast_natCast, Int.ofNat_natAbs_of_nonpos (not_lt.1 h)]
        push_cast
        ring
      rw [this]
      push_cast
      ring
  simp only [laguerreGaussianTrans]
  rw [hpos, hnorm, hpow, sub_eq_add_neg, Complex.exp_add]
  push_cast
  ring_nf

/-- **C120.** The integral over the transverse plane of the product of two Laguerre-Gauss modes (one of them
conjugated), with the same waist and the same focal plane, is `0` if they differ in the radial or in the azimuthal
order (or both), and `(π w0²/2) (w²/2)^|m| (p+|m|)!/p!` if they are equal, where `w` is the spot size at the plane
`z = 0`. -/
theorem C120_orthogonal (w0 lam zFoc : ℝ) (hw : 0 < w0) (p p' : ℕ) (m m' : ℤ) :
    ∃ ζ, zFocOverZr w0 (some lam) zFoc = .ok ζ ∧
      ∫ v : ℝ × ℝ, starRingEnd ℂ (laguerreGaussianTrans w0 p m ζ v.1 v.2) * laguerreGaussianTrans w0 p' m' ζ v.1 v.2 =
        if p = p' ∧ m = m' then
          ((Real.pi * w0 ^ 2 / 2 * (w0 ^ 2 * (1 + (zFoc * lam / (Real.pi * w0 ^ 2)) ^ 2) / 2) ^ m.natAbs *
            ((p + m.natAbs).factorial / p.factorial) : ℝ) : ℂ)
        else 0 := by
  refine ⟨_, zFocOverZr_ok w0 lam zFoc, ?_⟩
  generalize zFoc * lam / (Real.pi * w0 ^ 2) = ζ
  have hpi := Real.pi_pos
  have hq := diffractFactor_ne ζ
  have hn := norm_diffractFactor ζ
  have hn2 : ‖diffractFactor ζ‖ ^ 2 = 1 + ζ ^ 2 := by rw [hn, Real.sq_sqrt (by positivity)]
  set b : ℝ := 2 / (w0 ^ 2 * (1 + ζ ^ 2)) with hb
  have hbp : 0 < b := by positivity
  rw [← integral_comp_polarCoord_symm]
  have htar : polarCoord.target = Set.Ioi (0 : ℝ) ×ˢ Set.Ioo (-Real.pi) Real.pi := rfl
  rw [htar]
  set C : ℂ := starRingEnd ℂ (exp (-I * ((2 * (p : ℤ) + m : ℤ) : ℂ) * (arg (diffractFactor ζ) : ℝ)) * (1 / diffractFactor ζ)) *
    (exp (-I * ((2 * (p' : ℤ) + m' : ℤ) : ℂ) * (arg (diffractFactor ζ) : ℝ)) * (1 / diffractFactor ζ)) with hC
  have hcongr : ∀ v ∈ Set.Ioi (0 : ℝ) ×ˢ Set.Ioo (-Real.pi) Real.pi,
      v.1 • (starRingEnd ℂ (laguerreGaussianTrans w0 p m ζ (polarCoord.symm v).1 (polarCoord.symm v).2) *
        laguerreGaussianTrans w0 p' m' ζ (polarCoord.symm v).1 (polarCoord.symm v).2) =
      (fun r : ℝ => C * ((r * (r ^ (m.natAbs + m'.natAbs) * ((laguerreL p m.natAbs).eval (b * r ^ 2) *
        (laguerreL p' m'.natAbs).eval (b * r ^ 2)) * Real.exp (-b * r ^ 2)) : ℝ) : ℂ)) v.1 *
        (fun θ : ℝ => exp (I * ((m - m' : ℤ) : ℂ) * θ)) v.2 := by
    rintro ⟨r, θ⟩ ⟨h1, h2⟩
    have h1' : 0 < r := h1
    have hs1 : (polarCoord.symm (r, θ)).1 = r * Real.cos θ := rfl
    have hs2 : (polarCoord.symm (r, θ)).2 = r * Real.sin θ := rfl
    rw [hs1, hs2, laguerre_polar w0 p m ζ h1', laguerre_polar w0 p' m' ζ h1']
    have harg : 2 * r ^ 2 / (w0 * ‖diffractFactor ζ‖) ^ 2 = b * r ^ 2 := by
      rw [mul_pow, hn2, hb]; ring
    rw [harg]
    have hg : starRingEnd ℂ (exp (-((r ^ 2 : ℝ) : ℂ) / ((w0 ^ 2 : ℝ) * diffractFactor ζ))) *
        exp (-((r ^ 2 : ℝ) : ℂ) / ((w0 ^ 2 : ℝ) * diffractFactor ζ)) = ((Real.exp (-b * r ^ 2) : ℝ) : ℂ) := by
      rw [← Complex.exp_conj, ← Complex.exp_add, Complex.ofReal_exp]
      congr 1
      rw [map_div₀, map_neg, map_mul, Complex.conj_ofReal, Complex.conj_ofReal]
      have hd : starRingEnd ℂ (diffractFactor ζ) = 1 + I * ζ := by
        simp [diffractFactor]
      have hd0 : (1 + I * ζ : ℂ) ≠ 0 := by
        rw [← hd]; simpa using hq
      have hdd : diffractFactor ζ * (1 + I * ζ) = 1 + ζ ^ 2 := by
        rw [diffractFactor]; linear_combination -(ζ : ℂ) ^ 2 * I_sq
      have hsum : diffractFactor ζ + (1 + I * ζ) = 2 := by rw [diffractFactor]; ring
      have hwc : (w0 : ℂ) ≠ 0 := by exact_mod_cast hw.ne'
      have hne : (1 + ζ ^ 2 : ℂ) ≠ 0 := by rw [← hdd]; exact mul_ne_zero hq hd0
      rw [hd, hb]
      push_cast
      rw [← hdd, ← hsum]
      field_simp
      ring
    have hth : starRingEnd ℂ (exp (-I * m * θ)) * exp (-I * m' * θ) = exp (I * ((m - m' : ℤ) : ℂ) * θ) := by
      rw [← Complex.exp_conj, ← Complex.exp_add]
      congr 1
      simp only [map_mul, map_neg, Complex.conj_I, Complex.conj_ofReal, map_intCast]
      push_cast
      ring
    simp only [Complex.real_smul]
    rw [← hth]
    rw [show ((r * (r ^ (m.natAbs + m'.natAbs) * ((laguerreL p m.natAbs).eval (b * r ^ 2) *
        (laguerreL p' m'.natAbs).eval (b * r ^ 2)) * Real.exp (-b * r ^ 2)) : ℝ) : ℂ) =
      ((r * (r ^ (m.natAbs + m'.natAbs) * ((laguerreL p m.natAbs).eval (b * r ^ 2) *
        (laguerreL p' m'.natAbs).eval (b * r ^ 2))) : ℝ) : ℂ) * ((Real.exp (-b * r ^ 2) : ℝ) : ℂ) by
      push_cast; ring, ← hg]
    rw [hC]
    simp only [map_mul, Complex.conj_ofReal]
    push_cast
    rw [pow_add]
    ring
  rw [setIntegral_congr_fun (measurableSet_Ioi.prod measurableSet_Ioo) hcongr,
    show (volume : Measure (ℝ × ℝ)) = volume.prod volume from rfl,
    setIntegral_prod_mul (fun r : ℝ => C * ((r * (r ^ (m.natAbs + m'.natAbs) * ((laguerreL p m.natAbs).eval (b * r ^ 2) *
        (laguerreL p' m'.natAbs).eval (b * r ^ 2)) * Real.exp (-b * r ^ 2)) : ℝ) : ℂ))
      (fun θ : ℝ => exp (I * ((m - m' : ℤ) : ℂ) * θ)), azimuthal_integral]
  by_cases hm : m = m'
  · subst hm
    rw [if_pos (by ring), integral_const_mul, integral_complex_ofReal, ← two_mul, lag_radial p' p _ hbp]
    by_cases hp : p = p'
    · subst hp
      rw [if_pos rfl, if_pos ⟨rfl, rfl⟩]
      have hCv : C = ((1 / (1 + ζ ^ 2) : ℝ) : ℂ) := by
        rw [hC, mul_comm, Complex.mul_conj, Complex.normSq_eq_norm_sq, norm_mul]
        rw [show -I * ((2 * (p : ℤ) + m : ℤ) : ℂ) * (arg (diffractFactor ζ) : ℝ) =
          ((-((2 * (p : ℤ) + m : ℤ) : ℝ) * arg (diffractFactor ζ) : ℝ) : ℂ) * I by push_cast; ring,
          Complex.norm_exp_ofReal_mul_I, norm_div, norm_one, one_mul, div_pow, hn2, one_pow]
      rw [hCv]
      rw [← Complex.ofReal_mul, ← Complex.ofReal_mul]
      congr 1
      rw [hb]
      have h1 : 0 < 1 + ζ ^ 2 := by positivity
      rw [pow_succ _ m.natAbs, show w0 ^ 2 * (1 + ζ ^ 2) / 2 = (2 / (w0 ^ 2 * (1 + ζ ^ 2)))⁻¹ by rw [inv_div], inv_pow]
      field_simp
    · rw [if_neg (fun h => hp h.symm), if_neg (fun h => hp h.1)]
      simp
  · rw [if_neg (by omega), if_neg (fun h => hm h.2), Complex.ofReal_zero, mul_zero]

/-- **C120** (energy, what remains). The energy of a mode without azimuthal dependence does not depend on the
position of the focal plane. -/
theorem C120_energy_partial (w0 lam zFoc : ℝ) (hw : 0 < w0) (p : ℕ) :
    ∃ ζ, zFocOverZr w0 (some lam) zFoc = .ok ζ ∧
      ∫ v : ℝ × ℝ, ‖laguerreGaussianTrans w0 p 0 ζ v.1 v.2‖ ^ 2 = Real.pi * w0 ^ 2 / 2 := by
  obtain ⟨ζ, h1, h2⟩ := C120_orthogonal w0 lam zFoc hw p p 0 0
  refine ⟨ζ, h1, ?_⟩
  apply Complex.ofReal_injective
  rw [← integral_complex_ofReal]
  simp only [and_self, if_true, Int.natAbs_zero, pow_zero, mul_one, add_zero] at h2
  rw [div_self (by positivity), mul_one] at h2
  rw [← h2]
  refine integral_congr_ae (Filter.Eventually.of_forall fun v => ?_)
  simp only
  rw [mul_comm, Complex.mul_conj, Complex.normSq_eq_norm_sq]

/-- **C120** (energy, in general). The energy of a mode with its focal plane at `z_foc` is the one in focus times
`(1 + (z_foc/z_R)²)^|m|`. -/
theorem C120_energy_factor_partial (w0 lam zFoc : ℝ) (hw : 0 < w0) (p : ℕ) (m : ℤ) :
    ∃ ζ ζ0, zFocOverZr w0 (some lam) zFoc = .ok ζ ∧ zFocOverZr w0 (some lam) 0 = .ok ζ0 ∧
      ∫ v : ℝ × ℝ, ‖laguerreGaussianTrans w0 p m ζ v.1 v.2‖ ^ 2 =
        (1 + (zFoc * lam / (Real.pi * w0 ^ 2)) ^ 2) ^ m.natAbs *
          ∫ v : ℝ × ℝ, ‖laguerreGaussianTrans w0 p m ζ0 v.1 v.2‖ ^ 2 := by
  have key : ∀ z, ∃ ζ, zFocOverZr w0 (some lam) z = .ok ζ ∧ ∫ v : ℝ × ℝ, ‖laguerreGaussianTrans w0 p m ζ v.1 v.2‖ ^ 2 =
      Real.pi * w0 ^ 2 / 2 * (w0 ^ 2 * (1 + (z * lam / (Real.pi * w0 ^ 2)) ^ 2) / 2) ^ m.natAbs *
            ((p + m.natAbs).factorial / p.factorial) := by
    intro z
    obtain ⟨ζ, h1, h2⟩ := C120_orthogonal w0 lam z hw p p m m
    refine ⟨ζ, h1, ?_⟩
    apply Complex.ofReal_injective
    rw [← integral_complex_ofReal]
    simp only [and_self, if_true] at h2
    rw [← h2]
    refine integral_congr_ae (Filter.Eventually.of_forall fun v => ?_)
    simp only
    rw [mul_comm, Complex.mul_conj, Complex.normSq_eq_norm_sq]
  obtain ⟨ζ, h1, h2⟩ := key zFoc
  obtain ⟨ζ0, h3, h4⟩ := key 0
  refine ⟨ζ, ζ0, h1, h3, ?_⟩
  rw [h2, h4]
  simp only [zero_mul, zero_div, ne_eq, OfNat.ofNat_ne_zero, not_false_eq_true, zero_pow, add_zero, mul_one]
  rw [show w0 ^ 2 * (1 + (zFoc * lam / (Real.pi * w0 ^ 2)) ^ 2) / 2 =
    (1 + (zFoc * lam / (Real.pi * w0 ^ 2)) ^ 2) * (w0 ^ 2 / 2) by ring, mul_pow]
  ring

/-- **C120** refuted for the energy: for every `m ≠ 0` and every focal plane elsewhere, the mode has more energy than
in focus. -/
theorem C120_energy_refuted (w0 lam zFoc : ℝ) (hw : 0 < w0) (hl : 0 < lam) (hz : zFoc ≠ 0) (p : ℕ) (m : ℤ) (hm : m ≠ 0) :
    ∃ ζ ζ0, zFocOverZr w0 (some lam) zFoc = .ok ζ ∧ zFocOverZr w0 (some lam) 0 = .ok ζ0 ∧
      ∫ v : ℝ × ℝ, ‖laguerreGaussianTrans w0 p m ζ0 v.1 v.2‖ ^ 2 <
        ∫ v : ℝ × ℝ, ‖laguerreGaussianTrans w0 p m ζ v.1 v.2‖ ^ 2 := by
  obtain ⟨ζ, ζ0, h1, h2, h3⟩ := C120_energy_factor_partial w0 lam zFoc hw p m
  obtain ⟨ζ1, h4, h5⟩ := C120_orthogonal w0 lam 0 hw p p m m
  obtain rfl : ζ0 = ζ1 := by rw [h2] at h4; injection h4
  refine ⟨ζ, ζ0, h1, h2, ?_⟩
  have hpos : 0 < ∫ v : ℝ × ℝ, ‖laguerreGaussianTrans w0 p m ζ0 v.1 v.2‖ ^ 2 := by
    rw [← Complex.zero_lt_real, ← integral_complex_ofReal]
    have : ∀ v : ℝ × ℝ, ((‖laguerreGaussianTrans w0 p m ζ0 v.1 v.2‖ ^ 2 : ℝ) : ℂ) =
        starRingEnd ℂ (laguerreGaussianTrans w0 p m ζ0 v.1 v.2) * laguerreGaussianTrans w0 p m ζ0 v.1 v.2 := by
      intro v
      rw [mul_comm, Complex.mul_conj, Complex.normSq_eq_norm_sq]
    simp only [this]
    rw [h5, if_pos ⟨rfl, rfl⟩, Complex.zero_lt_real]
    have := Real.pi_pos
    positivity
  rw [h3]
  have hpi := Real.pi_pos
  have h1 : 1 < 1 + (zFoc * lam / (Real.pi * w0 ^ 2)) ^ 2 := by
    have : zFoc * lam / (Real.pi * w0 ^ 2) ≠ 0 := by positivity
    have : 0 < (zFoc * lam / (Real.pi * w0 ^ 2)) ^ 2 := by positivity
    linarith
  have := one_lt_pow₀ h1 (Int.natAbs_ne_zero.2 hm)
  exact lt_mul_left hpos this

end Lasy
