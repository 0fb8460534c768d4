import Verif.Props.BeamWidth
import Verif.Props.LaguerreOrtho

/-!
# Property C162: the `D4σ` width of the picture of a Laguerre-Gauss mode
-/

namespace Lasy
open MeasureTheory Filter Finset

/-- the second radial moment of the Laguerre polynomials -/
theorem lag_second (p a : ℕ) :
    ∑ j ∈ range (p + 1), ∑ k ∈ range (p + 1), lagCoef p a j * lagCoef p a k * ((a + j + k + 1).factorial : ℝ) =
      (2 * p + a + 1) * (((p + a).factorial : ℝ) / p.factorial) := by
  have hS := lag_ortho p p a
  rw [if_pos rfl] at hS
  have inner : ∀ j ∈ range (p + 1), ∑ k ∈ range (p + 1), lagCoef p a k * ((a + j + k).factorial : ℝ) =
      if j = p then (-1) ^ p * ((p + a).factorial : ℝ) else 0 := fun j hj => lag_moment p a j (by have := mem_range.1 hj; omega)
  have hS' : ∑ j ∈ range (p + 1), lagCoef p a j * (∑ k ∈ range (p + 1), lagCoef p a k * ((a + j + k).factorial : ℝ)) =
      ((p + a).factorial : ℝ) / p.factorial := by
    rw [← hS]
    simp only [mul_sum, mul_assoc]
  have hT : ∑ j ∈ range (p + 1), (j : ℝ) * (lagCoef p a j * (∑ k ∈ range (p + 1), lagCoef p a k * ((a + j + k).factorial : ℝ))) =
      p * (((p + a).factorial : ℝ) / p.factorial) := by
    rw [← hS', mul_sum]
    refine sum_congr rfl fun j hj => ?_
    rw [inner j hj]
    split_ifs with h
    · rw [h]
    · simp
  have hT' : ∑ j ∈ range (p + 1), (j : ℝ) * (∑ k ∈ range (p + 1), lagCoef p a j * lagCoef p a k * ((a + j + k).factorial : ℝ)) =
      p * (((p + a).factorial : ℝ) / p.factorial) := by
    rw [← hT]
    refine sum_congr rfl fun j _ => ?_
    simp only [mul_sum, mul_assoc]
  have hU : ∑ j ∈ range (p + 1), ∑ k ∈ range (p + 1), (k : ℝ) * (lagCoef p a j * lagCoef p a k * ((a + j + k).factorial : ℝ)) =
      p * (((p + a).factorial : ℝ) / p.factorial) := by
    rw [← hT', sum_comm]
    refine sum_congr rfl fun k _ => ?_
    rw [mul_sum]
    refine sum_congr rfl fun j _ => ?_
    rw [show a + j + k = a + k + j by ring]
    ring
  have split : ∀ j k : ℕ, lagCoef p a j * lagCoef p a k * ((a + j + k + 1).factorial : ℝ) =
      ((a : ℝ) + 1) * (lagCoef p a j * lagCoef p a k * ((a + j + k).factorial : ℝ)) +
        (j : ℝ) * (lagCoef p a j * lagCoef p a k * ((a + j + k).factorial : ℝ)) +
        (k : ℝ) * (lagCoef p a j * lagCoef p a k * ((a + j + k).factorial : ℝ)) := by
    intro j k
    rw [Nat.factorial_succ]
    push_cast
    ring
  simp only [split, sum_add_distrib, ← mul_sum]
  rw [hS, hT', hU]
  ring

/-- the radial factor of the intensity of a mode, as a function of the squared radius -/
noncomputable def lagIntensity (p a : ℕ) (b s : ℝ) : ℝ := s ^ a * (laguerreL p a).eval (b * s) ^ 2 * Real.exp (-b * s)

theorem lag_expand (p a : ℕ) (b s : ℝ) : lagIntensity p a b s =
    ∑ j ∈ range (p + 1), ∑ k ∈ range (p + 1), (lagCoef p a j * lagCoef p a k * b ^ (j + k)) * (s ^ (a + j + k) * Real.exp (-b * s)) := by
  unfold lagIntensity
  rw [laguerreL_eval, pow_two, sum_mul_sum]
  simp only [mul_sum, sum_mul]
  refine sum_congr rfl fun j _ => sum_congr rfl fun k _ => ?_
  simp only [pow_add, mul_pow]
  ring

theorem lag_radial_moments (p a : ℕ) {b : ℝ} (hb : 0 < b) :
    (∫ r in Set.Ioi (0 : ℝ), r * lagIntensity p a b (r ^ 2)) = ((p + a).factorial : ℝ) / p.factorial / (2 * b ^ (a + 1)) ∧
    (∫ r in Set.Ioi (0 : ℝ), r * (r ^ 2 * lagIntensity p a b (r ^ 2))) =
      (2 * p + a + 1) / b * (((p + a).factorial : ℝ) / p.factorial / (2 * b ^ (a + 1))) := by
  constructor
  · have := lag_radial p p a hb
    rw [if_pos rfl] at this
    rw [← this]
    congr 1
    funext r
    unfold lagIntensity
    rw [pow_mul]
    ring
  · have e : ∀ r : ℝ, r * (r ^ 2 * lagIntensity p a b (r ^ 2)) = ∑ j ∈ range (p + 1), ∑ k ∈ range (p + 1),
        (lagCoef p a j * lagCoef p a k * b ^ (j + k)) * (r ^ (2 * (a + j + k + 1) + 1) * Real.exp (-b * r ^ 2)) := by
      intro r
      rw [lag_expand]
      simp only [mul_sum]
      refine sum_congr rfl fun j _ => sum_congr rfl fun k _ => ?_
      rw [← pow_mul, show 2 * (a + j + k + 1) + 1 = 1 + 2 + 2 * (a + j + k) by ring, pow_add, pow_add]
      ring
    simp only [e]
    rw [integral_finsetSum _ (fun j _ => integrable_finsetSum _ fun k _ => (gauss_integrable _ hb).const_mul _)]
    have e2 : ∀ j ∈ range (p + 1), (∫ r in Set.Ioi (0 : ℝ), ∑ k ∈ range (p + 1), (lagCoef p a j * lagCoef p a k * b ^ (j + k)) *
          (r ^ (2 * (a + j + k + 1) + 1) * Real.exp (-b * r ^ 2))) =
        (∑ k ∈ range (p + 1), lagCoef p a j * lagCoef p a k * ((a + j + k + 1).factorial : ℝ)) * (1 / (2 * b ^ (a + 2))) := by
      intro j _
      rw [integral_finsetSum _ (fun k _ => (gauss_integrable _ hb).const_mul _), sum_mul]
      refine sum_congr rfl fun k _ => ?_
      rw [integral_const_mul, gauss_moment _ hb]
      rw [show a + j + k + 1 + 1 = (a + 2) + (j + k) by ring, pow_add b (a + 2)]
      field_simp
    rw [sum_congr rfl e2, ← sum_mul, lag_second, show a + 2 = a + 1 + 1 by ring, pow_succ b (a + 1)]
    field_simp

/-- the integral over the plane of a function of the radius -/
theorem plane_radial (F : ℝ → ℝ) : ∫ v : ℝ × ℝ, F (v.1 ^ 2 + v.2 ^ 2) = 2 * Real.pi * ∫ r in Set.Ioi (0 : ℝ), r * F (r ^ 2) := by
  rw [← integral_comp_polarCoord_symm]
  have htar : polarCoord.target = Set.Ioi (0 : ℝ) ×ˢ Set.Ioo (-Real.pi) Real.pi := rfl
  have hcongr : ∀ v : ℝ × ℝ, v.1 • F ((polarCoord.symm v).1 ^ 2 + (polarCoord.symm v).2 ^ 2) =
      (fun r : ℝ => r * F (r ^ 2)) v.1 * (fun _ : ℝ => (1 : ℝ)) v.2 := by
    intro v
    simp only [polarCoord_symm_apply, smul_eq_mul, mul_one, mul_pow]
    rw [← mul_add, Real.cos_sq_add_sin_sq, mul_one]
  simp only [hcongr, htar]
  have h := setIntegral_prod_mul (μ := (volume : Measure ℝ)) (ν := (volume : Measure ℝ)) (fun r : ℝ => r * F (r ^ 2))
    (fun _ : ℝ => (1 : ℝ)) (Set.Ioi 0) (Set.Ioo (-Real.pi) Real.pi)
  rw [← Measure.volume_eq_prod] at h
  have hpi := Real.pi_pos
  rw [h, setIntegral_const, Measure.real, Real.volume_Ioo, ENNReal.toReal_ofReal (by linarith), smul_eq_mul]
  ring

theorem integrable_plane_gauss {b : ℝ} (hb : 0 < b) (n : ℕ) : ∀ i j : ℕ,
    Integrable fun v : ℝ × ℝ => v.1 ^ i * v.2 ^ j * ((v.1 ^ 2 + v.2 ^ 2) ^ n * Real.exp (-b * (v.1 ^ 2 + v.2 ^ 2))) := by
  have line : ∀ k : ℕ, Integrable fun x : ℝ => x ^ k * Real.exp (-b * x ^ 2) := fun k => by
    have := integrable_rpow_mul_exp_neg_mul_sq hb (s := k) (by have : (0:ℝ) ≤ k := Nat.cast_nonneg k; linarith)
    simpa using this
  induction n with
  | zero =>
    intro i j
    refine ((line i).mul_prod (line j)).congr (ae_of_all _ fun v => ?_)
    simp only [pow_zero, one_mul, mul_add, Real.exp_add]
    ring
  | succ n ih =>
    intro i j
    refine ((ih (i + 2) j).add (ih i (j + 2))).congr (ae_of_all _ fun v => ?_)
    simp only [Pi.add_apply]
    ring

theorem integrable_lagIntensity (p a : ℕ) {b : ℝ} (hb : 0 < b) (i j : ℕ) :
    Integrable fun v : ℝ × ℝ => v.1 ^ i * v.2 ^ j * lagIntensity p a b (v.1 ^ 2 + v.2 ^ 2) := by
  simp only [lag_expand, mul_sum]
  refine integrable_finsetSum _ fun q _ => integrable_finsetSum _ fun k _ => ?_
  refine ((integrable_plane_gauss hb (a + q + k) i j).const_mul (lagCoef p a q * lagCoef p a k * b ^ (q + k))).congr
    (ae_of_all _ fun v => ?_)
  simp only
  ring

/-- the intensity of a Laguerre-Gauss mode -/
theorem laguerreGaussian_intensity (w0 : ℝ) (hw : 0 < w0) (p : ℕ) (m : ℤ) (ζ x y : ℝ) :
    ‖laguerreGaussianTrans w0 p m ζ x y‖ ^ 2 =
      1 / (1 + ζ ^ 2) * lagIntensity p m.natAbs (2 / (w0 ^ 2 * (1 + ζ ^ 2))) (x ^ 2 + y ^ 2) := by
  have hn := norm_diffractFactor ζ
  have hn2 : ‖diffractFactor ζ‖ ^ 2 = 1 + ζ ^ 2 := by rw [hn, Real.sq_sqrt (by positivity)]
  have hre : ∀ s : ℝ, (-((s : ℝ) : ℂ) / ((w0 ^ 2 : ℝ) * diffractFactor ζ) -
      Complex.I * ((2 * (p : ℤ) + m : ℤ) : ℂ) * (Complex.arg (diffractFactor ζ))).re = -s / (w0 ^ 2 * (1 + ζ ^ 2)) := by
    intro s
    have e1 : (Complex.I * ((2 * (p : ℤ) + m : ℤ) : ℂ) * (Complex.arg (diffractFactor ζ))).re = 0 := by simp
    have e2 : (-((s : ℝ) : ℂ) / ((w0 ^ 2 : ℝ) * diffractFactor ζ)) = ((-s / w0 ^ 2 : ℝ) : ℂ) * (diffractFactor ζ)⁻¹ := by
      push_cast
      have : (w0 : ℂ) ≠ 0 := by exact_mod_cast hw.ne'
      field_simp
    rw [Complex.sub_re, e1, e2, Complex.re_ofReal_mul, Complex.inv_re, sub_zero, Complex.normSq_eq_norm_sq, hn2]
    have : (diffractFactor ζ).re = 1 := by simp [diffractFactor]
    rw [this]
    have : w0 ≠ 0 := hw.ne'
    have : (1 + ζ ^ 2 : ℝ) ≠ 0 := by positivity
    field_simp
  have hpos : ‖(if m > 0 then (x : ℂ) - Complex.I * y else x + Complex.I * y)‖ ^ 2 = x ^ 2 + y ^ 2 := by
    rw [← Complex.normSq_eq_norm_sq]
    split_ifs <;> simp [Complex.normSq_apply] <;> ring
  have harg : 2 * (x ^ 2 + y ^ 2) / (w0 * ‖diffractFactor ζ‖) ^ 2 = 2 / (w0 ^ 2 * (1 + ζ ^ 2)) * (x ^ 2 + y ^ 2) := by
    rw [mul_pow, hn2]; ring
  simp only [laguerreGaussianTrans, norm_mul, norm_pow, norm_div, norm_one, Complex.norm_real, Complex.norm_exp, lagIntensity]
  rw [hpos, harg, hre]
  simp only [mul_pow, div_pow, one_pow, hn2, Real.norm_eq_abs, sq_abs]
  rw [← pow_mul, mul_comm m.natAbs 2, pow_mul, hpos, ← Real.exp_nat_mul]
  push_cast
  rw [show 2 * (-(x ^ 2 + y ^ 2) / (w0 ^ 2 * (1 + ζ ^ 2))) = -(2 / (w0 ^ 2 * (1 + ζ ^ 2))) * (x ^ 2 + y ^ 2) by ring]
  ring

/-- **C162 (Laguerre-Gauss modes).** The picture of a Laguerre-Gauss mode `(p, m)` of waist `w0` at the distance `ζ` Rayleigh
lengths from the waist: both `D4σ` widths that `find_d4sigma` returns are, on large enough windows and with fine enough pixels, as
close as one likes to `2 w √(2 p + |m| + 1)`, where `w = w0 √(1 + ζ²)`. -/
theorem C162_vortex_width {w0 : ℝ} (hw : 0 < w0) (p : ℕ) (m : ℤ) (ζ : ℝ) {A : ℝ} (hA : A ≠ 0) {ε : ℝ} (hε : 0 < ε) :
    ∃ L : ℝ, 0 < L ∧ ∀ lo hi : ℝ × ℝ, lo.1 ≤ -L → lo.2 ≤ -L → L ≤ hi.1 → L ≤ hi.2 →
      ∃ N : ℕ, ∀ nx ny : ℕ, N ≤ nx → N ≤ ny →
        |(findD4sigma (camera (fun x y => A * ‖laguerreGaussianTrans w0 p m ζ x y‖ ^ 2) lo hi nx ny)).1 *
          ((hi.1 - lo.1) / ((nx : ℝ) - 1)) - 2 * (w0 * Real.sqrt (1 + ζ ^ 2)) * Real.sqrt (2 * p + |m| + 1)| < ε ∧
        |(findD4sigma (camera (fun x y => A * ‖laguerreGaussianTrans w0 p m ζ x y‖ ^ 2) lo hi nx ny)).2 *
          ((hi.2 - lo.2) / ((ny : ℝ) - 1)) - 2 * (w0 * Real.sqrt (1 + ζ ^ 2)) * Real.sqrt (2 * p + |m| + 1)| < ε := by
  set b : ℝ := 2 / (w0 ^ 2 * (1 + ζ ^ 2)) with hb
  have hbp : 0 < b := by positivity
  set K : ℝ := A * (1 / (1 + ζ ^ 2)) with hKdef
  have hK : K ≠ 0 := mul_ne_zero hA (by positivity)
  have hGe : (fun x y => A * ‖laguerreGaussianTrans w0 p m ζ x y‖ ^ 2) = fun x y => K * lagIntensity p m.natAbs b (x ^ 2 + y ^ 2) := by
    funext x y
    rw [laguerreGaussian_intensity w0 hw, ← hb, hKdef, mul_assoc]
  rw [hGe]
  set a := m.natAbs with ha
  have i : ∀ k l : ℕ, Integrable fun v : ℝ × ℝ => v.1 ^ k * v.2 ^ l * (K * lagIntensity p a b (v.1 ^ 2 + v.2 ^ 2)) := fun k l =>
    ((integrable_lagIntensity p a hbp k l).const_mul K).congr (ae_of_all _ fun v => by ring)
  have hcont : Continuous fun v : ℝ × ℝ => K * lagIntensity p a b (v.1 ^ 2 + v.2 ^ 2) := by
    unfold lagIntensity
    fun_prop
  obtain ⟨r0, r2⟩ := lag_radial_moments p a hbp
  set S : ℝ := ((p + a).factorial : ℝ) / p.factorial / (2 * b ^ (a + 1)) with hS
  have hSp : 0 < S := by positivity
  have e0 : ∫ v : ℝ × ℝ, K * lagIntensity p a b (v.1 ^ 2 + v.2 ^ 2) = K * (2 * Real.pi * S) := by
    rw [integral_const_mul, plane_radial (lagIntensity p a b), r0]
  have hne : ∫ v : ℝ × ℝ, K * lagIntensity p a b (v.1 ^ 2 + v.2 ^ 2) ≠ 0 := by
    rw [e0]
    have := Real.pi_pos
    exact mul_ne_zero hK (by positivity)
  have odd : ∀ f : ℝ × ℝ → ℝ, (∀ v, f (-v) = -f v) → ∫ v : ℝ × ℝ, f v = 0 := by
    intro f hf
    have h := integral_neg_eq_self f (volume : Measure (ℝ × ℝ))
    simp only [hf, integral_neg] at h
    linarith
  have ex : ∫ v : ℝ × ℝ, v.1 * (K * lagIntensity p a b (v.1 ^ 2 + v.2 ^ 2)) = 0 := odd _ fun v => by simp
  have ey : ∫ v : ℝ × ℝ, v.2 * (K * lagIntensity p a b (v.1 ^ 2 + v.2 ^ 2)) = 0 := odd _ fun v => by simp
  have ixx : Integrable fun v : ℝ × ℝ => v.1 ^ 2 * (K * lagIntensity p a b (v.1 ^ 2 + v.2 ^ 2)) := by simpa using i 2 0
  have iyy : Integrable fun v : ℝ × ℝ => v.2 ^ 2 * (K * lagIntensity p a b (v.1 ^ 2 + v.2 ^ 2)) := by simpa using i 0 2
  have hsw : ∫ v : ℝ × ℝ, v.2 ^ 2 * (K * lagIntensity p a b (v.1 ^ 2 + v.2 ^ 2)) =
      ∫ v : ℝ × ℝ, v.1 ^ 2 * (K * lagIntensity p a b (v.1 ^ 2 + v.2 ^ 2)) := by
    have := integral_prod_swap (μ := (volume : Measure ℝ)) (ν := (volume : Measure ℝ))
      (fun v : ℝ × ℝ => v.1 ^ 2 * (K * lagIntensity p a b (v.1 ^ 2 + v.2 ^ 2)))
    rw [← Measure.volume_eq_prod] at this
    rw [← this]
    refine integral_congr_ae (ae_of_all _ fun v => ?_)
    simp only [Prod.fst_swap, Prod.snd_swap]
    rw [add_comm]
  have hsum : (∫ v : ℝ × ℝ, v.1 ^ 2 * (K * lagIntensity p a b (v.1 ^ 2 + v.2 ^ 2))) +
      (∫ v : ℝ × ℝ, v.2 ^ 2 * (K * lagIntensity p a b (v.1 ^ 2 + v.2 ^ 2))) = K * (2 * Real.pi * ((2 * p + a + 1) / b * S)) := by
    rw [← integral_add ixx iyy, ← r2, ← plane_radial (fun s => s * lagIntensity p a b s), ← integral_const_mul]
    refine integral_congr_ae (ae_of_all _ fun v => ?_)
    simp only
    ring
  have exx : ∫ v : ℝ × ℝ, v.1 ^ 2 * (K * lagIntensity p a b (v.1 ^ 2 + v.2 ^ 2)) = K * (2 * Real.pi * S) * ((2 * p + a + 1) / (2 * b)) := by
    rw [hsw] at hsum
    have : (∫ v : ℝ × ℝ, v.1 ^ 2 * (K * lagIntensity p a b (v.1 ^ 2 + v.2 ^ 2))) = K * (2 * Real.pi * ((2 * p + a + 1) / b * S)) / 2 := by
      linarith
    rw [this]
    field_simp
  have key : 4 * Real.sqrt ((2 * p + a + 1) / (2 * b)) = 2 * (w0 * Real.sqrt (1 + ζ ^ 2)) * Real.sqrt (2 * p + |m| + 1) := by
    have hm : ((|m| : ℤ) : ℝ) = a := by rw [Int.abs_eq_natAbs]; simp [ha]
    rw [hm, show (2 * (p : ℝ) + a + 1) / (2 * b) = (w0 / 2) ^ 2 * ((1 + ζ ^ 2) * (2 * p + a + 1)) by
      rw [hb]; field_simp, Real.sqrt_mul (by positivity), Real.sqrt_sq (by positivity), Real.sqrt_mul (by positivity)]
    ring
  have hden : K * (2 * Real.pi * S) ≠ 0 := e0 ▸ hne
  have := any_beam_limit (G := fun x y => K * lagIntensity p a b (x ^ 2 + y ^ 2)) hcont (by simpa using i 0 0) (by simpa using i 1 0)
    (by simpa using i 0 1) ixx iyy hne hε
  rw [ex, ey, hsw, exx, e0, zero_div, zero_pow two_ne_zero, sub_zero, mul_div_right_comm, div_self hden, one_mul, key] at this
  exact this

/-- a doughnut mode one Rayleigh length from its waist -/
example : ∃ L : ℝ, 0 < L ∧ ∀ lo hi : ℝ × ℝ, lo.1 ≤ -L → lo.2 ≤ -L → L ≤ hi.1 → L ≤ hi.2 →
    ∃ N : ℕ, ∀ nx ny : ℕ, N ≤ nx → N ≤ ny →
      |(findD4sigma (camera (fun x y => 5 * ‖laguerreGaussianTrans 1 1 (-2) 1 x y‖ ^ 2) lo hi nx ny)).1 *
        ((hi.1 - lo.1) / ((nx : ℝ) - 1)) - 2 * (1 * Real.sqrt (1 + 1 ^ 2)) * Real.sqrt (2 * (1 : ℕ) + |(-2 : ℤ)| + 1)| < 1 / 100 ∧
      |(findD4sigma (camera (fun x y => 5 * ‖laguerreGaussianTrans 1 1 (-2) 1 x y‖ ^ 2) lo hi nx ny)).2 *
        ((hi.2 - lo.2) / ((ny : ℝ) - 1)) - 2 * (1 * Real.sqrt (1 + 1 ^ 2)) * Real.sqrt (2 * (1 : ℕ) + |(-2 : ℤ)| + 1)| < 1 / 100 :=
  C162_vortex_width one_pos 1 (-2) 1 (by norm_num) (by norm_num)

end Lasy
