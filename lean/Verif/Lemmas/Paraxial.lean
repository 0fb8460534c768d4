import Verif.Lemmas.Hermite
import Verif.Spec.Paraxial
import Mathlib.Analysis.SpecialFunctions.ExpDeriv
import Mathlib.Analysis.SpecialFunctions.Trigonometric.ArctanDeriv
import Mathlib.Analysis.SpecialFunctions.Sqrt

/-! # One transverse dimension of a Gaussian beam mode -/

namespace Lasy
open Complex Polynomial

/-- `|q|` -/
noncomputable def rho (ζ : ℝ) : ℝ := Real.sqrt (1 + ζ ^ 2)

theorem rho_pos (ζ : ℝ) : 0 < rho ζ := Real.sqrt_pos.2 (by positivity)

theorem rho_sq (ζ : ℝ) : rho ζ ^ 2 = 1 + ζ ^ 2 := Real.sq_sqrt (by positivity)

theorem norm_diffract (ζ : ℝ) : ‖diffractFactor (-ζ)‖ = rho ζ := by
  rw [diffractFactor, rho, Complex.norm_eq_sqrt_sq_add_sq]
  congr 1
  simp

theorem arg_diffract (ζ : ℝ) : arg (diffractFactor (-ζ)) = Real.arctan ζ := by
  have hre : (diffractFactor (-ζ)).re = 1 := by simp [diffractFactor]
  have him : (diffractFactor (-ζ)).im = ζ := by simp [diffractFactor]
  rw [Complex.arg_of_re_nonneg (by rw [hre]; norm_num), him, norm_diffract, Real.arctan_eq_arcsin, rho]

theorem q_ne (ζ : ℝ) : (1 + I * ζ : ℂ) ≠ 0 := by
  intro h
  have := congrArg Complex.re h
  simp at this

/-- one dimension of the Hermite-Gauss mode, without constants -/
noncomputable def hg1 (w0 : ℝ) (n : ℕ) (x ζ : ℝ) : ℂ :=
  ((hermiteH n).eval (Real.sqrt 2 * x / (w0 * rho ζ)) : ℝ) * exp (-(x : ℂ) ^ 2 / (w0 ^ 2 * (1 + I * ζ))) *
    exp (-I * n * (Real.arctan ζ : ℝ))

/-- first derivative in `x` -/
noncomputable def hg1x (w0 : ℝ) (n : ℕ) (x ζ : ℝ) : ℂ :=
  (((derivative (hermiteH n)).eval (Real.sqrt 2 * x / (w0 * rho ζ)) * (Real.sqrt 2 / (w0 * rho ζ)) : ℝ) +
    ((hermiteH n).eval (Real.sqrt 2 * x / (w0 * rho ζ)) : ℝ) * (-(2 * x) / (w0 ^ 2 * (1 + I * ζ)))) *
    exp (-(x : ℂ) ^ 2 / (w0 ^ 2 * (1 + I * ζ))) * exp (-I * n * (Real.arctan ζ : ℝ))

/-- second derivative in `x` -/
noncomputable def hg1xx (w0 : ℝ) (n : ℕ) (x ζ : ℝ) : ℂ :=
  (((derivative (derivative (hermiteH n))).eval (Real.sqrt 2 * x / (w0 * rho ζ)) *
      (Real.sqrt 2 / (w0 * rho ζ)) ^ 2 : ℝ) +
    2 * ((derivative (hermiteH n)).eval (Real.sqrt 2 * x / (w0 * rho ζ)) * (Real.sqrt 2 / (w0 * rho ζ)) : ℝ) *
      (-(2 * x) / (w0 ^ 2 * (1 + I * ζ))) +
    ((hermiteH n).eval (Real.sqrt 2 * x / (w0 * rho ζ)) : ℝ) *
      ((-(2 * x) / (w0 ^ 2 * (1 + I * ζ))) ^ 2 + -2 / (w0 ^ 2 * (1 + I * ζ)))) *
    exp (-(x : ℂ) ^ 2 / (w0 ^ 2 * (1 + I * ζ))) * exp (-I * n * (Real.arctan ζ : ℝ))

theorem hasDerivAt_poly_lin (P : ℝ[X]) (a x : ℝ) :
    HasDerivAt (fun x : ℝ => ((P.eval (a * x) : ℝ) : ℂ)) (((derivative P).eval (a * x) * a : ℝ) : ℂ) x := by
  have h1 : HasDerivAt (fun x : ℝ => P.eval (a * x)) ((derivative P).eval (a * x) * a) x := by
    have := (P.hasDerivAt (a * x)).comp x ((hasDerivAt_id x).const_mul a)
    rw [mul_one] at this
    exact this
  exact h1.ofReal_comp

theorem hasDerivAt_gauss (b : ℂ) (x : ℝ) :
    HasDerivAt (fun x : ℝ => exp (-(x : ℂ) ^ 2 / b)) (exp (-(x : ℂ) ^ 2 / b) * (-(2 * x) / b)) x := by
  have h1 : HasDerivAt (fun x : ℝ => (x : ℂ)) 1 x := Complex.ofRealCLM.hasDerivAt
  have h2 := ((h1.pow 2).neg.div_const b).cexp
  refine h2.congr_deriv ?_
  simp

theorem hg1_arg (w0 x ζ : ℝ) : Real.sqrt 2 * x / (w0 * rho ζ) = Real.sqrt 2 / (w0 * rho ζ) * x := by ring

theorem hasDerivAt_hg1 (w0 : ℝ) (n : ℕ) (x ζ : ℝ) : HasDerivAt (fun x => hg1 w0 n x ζ) (hg1x w0 n x ζ) x := by
  unfold hg1 hg1x
  simp only [hg1_arg]
  have h := ((hasDerivAt_poly_lin (hermiteH n) (Real.sqrt 2 / (w0 * rho ζ)) x).fun_mul
    (hasDerivAt_gauss (w0 ^ 2 * (1 + I * ζ)) x)).mul_const (exp (-I * n * (Real.arctan ζ : ℝ)))
  refine h.congr_deriv ?_
  ring

theorem hasDerivAt_hg1x (w0 : ℝ) (n : ℕ) (x ζ : ℝ) :
    HasDerivAt (fun x => hg1x w0 n x ζ) (hg1xx w0 n x ζ) x := by
  unfold hg1x hg1xx
  simp only [hg1_arg]
  have h1 : HasDerivAt (fun x : ℝ => (x : ℂ)) 1 x := Complex.ofRealCLM.hasDerivAt
  have hl : HasDerivAt (fun x : ℝ => -(2 * (x : ℂ)) / (w0 ^ 2 * (1 + I * ζ))) (-2 / (w0 ^ 2 * (1 + I * ζ))) x := by
    refine ((h1.const_mul 2).neg.div_const _).congr_deriv ?_
    ring
  have hp := hasDerivAt_poly_lin (hermiteH n) (Real.sqrt 2 / (w0 * rho ζ)) x
  have hp' := (hasDerivAt_poly_lin (derivative (hermiteH n)) (Real.sqrt 2 / (w0 * rho ζ)) x).mul_const
    ((Real.sqrt 2 / (w0 * rho ζ) : ℝ) : ℂ)
  have h := (((hp'.fun_add (hp.fun_mul hl)).fun_mul (hasDerivAt_gauss (w0 ^ 2 * (1 + I * ζ)) x)).mul_const
    (exp (-I * n * (Real.arctan ζ : ℝ))))
  refine (h.congr_of_eventuallyEq ?_).congr_deriv ?_
  · refine Filter.Eventually.of_forall fun x => ?_
    simp only [Complex.ofReal_mul]
  · push_cast
    ring

theorem hasDerivAt_rho (ζ : ℝ) : HasDerivAt rho (ζ / rho ζ) ζ := by
  have hr := rho_pos ζ
  have h0 : HasDerivAt (fun ζ : ℝ => 1 + ζ ^ 2) (2 * ζ) ζ := by
    simpa using (hasDerivAt_pow 2 ζ).const_add 1
  have := h0.sqrt (by positivity)
  refine this.congr_deriv ?_
  change 2 * ζ / (2 * rho ζ) = _
  field_simp

/-- `ζ / |q|² = i (1/q - 1/|q|²)` -/
theorem zeta_div (ζ : ℝ) : (ζ : ℂ) / (rho ζ) ^ 2 = I * (1 / (1 + I * ζ) - 1 / (rho ζ) ^ 2) := by
  have hq := q_ne ζ
  have hrc : (rho ζ : ℂ) ≠ 0 := by exact_mod_cast (rho_pos ζ).ne'
  have hrq : (rho ζ : ℂ) ^ 2 = (1 + I * ζ) * (1 - I * ζ) := by
    rw [← Complex.ofReal_pow, rho_sq]
    push_cast
    linear_combination ((ζ : ℂ) ^ 2) * I_sq
  have e : I * (1 / (1 + I * (ζ : ℂ)) - 1 / (rho ζ) ^ 2) = I * ((rho ζ : ℂ) ^ 2 / (1 + I * ζ) - 1) / (rho ζ) ^ 2 := by
    field_simp
  rw [e, hrq, mul_div_cancel_left₀ _ hq]
  congr 1
  linear_combination (ζ : ℂ) * I_sq

/-- the one-dimensional equation in `ζ = z / zR` -/
theorem hasDerivAt_hg1_z (w0 : ℝ) (hw : w0 ≠ 0) (n : ℕ) (x ζ : ℝ) :
    HasDerivAt (fun ζ => hg1 w0 n x ζ)
      (I * w0 ^ 2 / 4 * hg1xx w0 n x ζ + I / (2 * (1 + I * ζ)) * hg1 w0 n x ζ) ζ := by
  have hr := rho_pos ζ
  have hrs := rho_sq ζ
  have hq := q_ne ζ
  have hwc : (w0 : ℂ) ≠ 0 := by exact_mod_cast hw
  have hrc : (rho ζ : ℂ) ≠ 0 := by exact_mod_cast hr.ne'
  have hid : HasDerivAt (fun ζ : ℝ => (ζ : ℂ)) 1 ζ := Complex.ofRealCLM.hasDerivAt
  have hrho := hasDerivAt_rho ζ
  have hX : HasDerivAt (fun ζ => Real.sqrt 2 * x / (w0 * rho ζ))
      (-(Real.sqrt 2 * x / (w0 * rho ζ)) * ζ / (rho ζ) ^ 2) ζ := by
    have := (hasDerivAt_const ζ (Real.sqrt 2 * x)).div (hrho.const_mul w0) (mul_ne_zero hw hr.ne')
    refine this.congr_deriv ?_
    field_simp
    ring
  have hH : HasDerivAt (fun ζ => (((hermiteH n).eval (Real.sqrt 2 * x / (w0 * rho ζ)) : ℝ) : ℂ))
      (((derivative (hermiteH n)).eval (Real.sqrt 2 * x / (w0 * rho ζ)) *
        (-(Real.sqrt 2 * x / (w0 * rho ζ)) * ζ / (rho ζ) ^ 2) : ℝ) : ℂ) ζ :=
    (((hermiteH n).hasDerivAt _).comp ζ hX).ofReal_comp
  have hE : HasDerivAt (fun ζ : ℝ => exp (-(x : ℂ) ^ 2 / (w0 ^ 2 * (1 + I * ζ))))
      (exp (-(x : ℂ) ^ 2 / (w0 ^ 2 * (1 + I * ζ))) * (I * x ^ 2 / (w0 ^ 2 * (1 + I * ζ) ^ 2))) ζ := by
    have hd : HasDerivAt (fun ζ : ℝ => (w0 : ℂ) ^ 2 * (1 + I * ζ)) (w0 ^ 2 * I) ζ := by
      refine ((hid.const_mul I).const_add 1 |>.const_mul ((w0 : ℂ) ^ 2)).congr_deriv ?_
      ring
    have := ((hasDerivAt_const ζ (-(x : ℂ) ^ 2)).div hd (mul_ne_zero (pow_ne_zero 2 hwc) hq)).cexp
    refine this.congr_deriv ?_
    congr 1
    field_simp
    ring
  have hG : HasDerivAt (fun ζ : ℝ => exp (-I * n * (Real.arctan ζ : ℝ)))
      (exp (-I * n * (Real.arctan ζ : ℝ)) * (-I * n / (rho ζ) ^ 2)) ζ := by
    have := ((Real.hasDerivAt_arctan ζ).ofReal_comp.const_mul (-I * n)).cexp
    refine this.congr_deriv ?_
    rw [← Complex.ofReal_pow, hrs]
    push_cast
    ring
  refine ((hH.fun_mul hE).fun_mul hG).congr_deriv ?_
  unfold hg1 hg1xx
  have hode := congrArg (fun P => ((P.eval (Real.sqrt 2 * x / (w0 * rho ζ)) : ℝ) : ℂ)) (hermiteH_ode n)
  simp only [eval_sub, eval_mul, eval_C, eval_X] at hode
  push_cast at hode ⊢
  rw [hode]
  generalize (((hermiteH n).eval (Real.sqrt 2 * x / (w0 * rho ζ)) : ℝ) : ℂ) = A
  generalize (((derivative (hermiteH n)).eval (Real.sqrt 2 * x / (w0 * rho ζ)) : ℝ) : ℂ) = B
  generalize exp (-(x : ℂ) ^ 2 / (w0 ^ 2 * (1 + I * ζ))) = E
  generalize exp (-I * n * (Real.arctan ζ : ℂ)) = G
  have h2 : ((Real.sqrt 2 : ℝ) : ℂ) ^ 2 = 2 := by
    rw [← Complex.ofReal_pow, Real.sq_sqrt (by norm_num)]
    norm_num
  have h3 := zeta_div ζ
  have h1 : ((Real.sqrt 2 : ℝ) / (w0 * rho ζ) : ℂ) ^ 2 = 2 / (w0 ^ 2 * (rho ζ) ^ 2) := by
    rw [div_pow, h2, mul_pow]
  have hw2 : (w0 : ℂ) ^ 2 / w0 ^ 2 = 1 := div_self (pow_ne_zero 2 hwc)
  clear h2 hH hE hG hX hode hrho hid
  generalize (1 + I * (ζ : ℂ)) = q at *
  linear_combination (-I * w0 ^ 2 / 4 * (2 * ((Real.sqrt 2 : ℝ) / (w0 * rho ζ)) * x * B - 2 * n * A) * E * G) * h1
    + (-I / 4 * (2 * (2 * ((Real.sqrt 2 : ℝ) / (w0 * rho ζ)) * x * B - 2 * n * A) / (rho ζ) ^ 2
      - 4 * B * ((Real.sqrt 2 : ℝ) / (w0 * rho ζ)) * x / q + A * (4 * x ^ 2 / (w0 ^ 2 * q ^ 2) - 2 / q)) * E * G) * hw2
    + (-B * ((Real.sqrt 2 : ℝ) / (w0 * rho ζ)) * x * E * G) * h3

end Lasy
