import Verif.Lemmas.Paraxial

/-! # Laguerre polynomials: differential equation; Laguerre-Gauss modes -/

namespace Lasy
open Complex Polynomial

theorem laguerreL_coeff (p a k : ℕ) : (laguerreL p a).coeff k =
    if k ≤ p then (-1) ^ k * ((p + a).choose (p - k) : ℝ) / (k.factorial : ℝ) else 0 := by
  rw [laguerreL, finsetSum_coeff]
  simp only [coeff_C_mul, coeff_X_pow, mul_ite, mul_one, mul_zero]
  rw [Finset.sum_ite_eq (Finset.range (p + 1)) k]
  simp

/-- the recurrence of the coefficients -/
theorem laguerreL_coeff_succ (p a k : ℕ) : ((k : ℝ) + 1) * (k + a + 1) * (laguerreL p a).coeff (k + 1) =
    ((k : ℝ) - p) * (laguerreL p a).coeff k := by
  rw [laguerreL_coeff, laguerreL_coeff]
  have hk : ((k.factorial : ℕ) : ℝ) ≠ 0 := by positivity
  rcases Nat.lt_trichotomy k p with h | h | h
  · rw [if_pos (by omega), if_pos (by omega), Nat.factorial_succ]
    have hc : (k + a + 1) * (p + a).choose (p - (k + 1)) = (p - k) * (p + a).choose (p - k) := by
      obtain ⟨d, rfl⟩ : ∃ d, p = k + 1 + d := ⟨p - (k + 1), by omega⟩
      have := Nat.choose_succ_right_eq (k + 1 + d + a) d
      rw [show k + 1 + d - (k + 1) = d by omega, show k + 1 + d - k = d + 1 by omega]
      rw [show k + 1 + d + a - d = k + a + 1 by omega] at this
      linarith [mul_comm ((k + 1 + d + a).choose (d + 1)) (d + 1), mul_comm ((k + 1 + d + a).choose d) (k + a + 1)]
    have hc' : ((k : ℝ) + a + 1) * ((p + a).choose (p - (k + 1)) : ℝ) = ((p : ℝ) - k) * ((p + a).choose (p - k) : ℝ) := by
      have := congrArg (Nat.cast : ℕ → ℝ) hc
      push_cast [Nat.cast_sub h.le] at this
      exact this
    push_cast
    field_simp
    rw [pow_succ]
    linear_combination (-((-1 : ℝ) ^ k)) * hc'
  · subst h
    rw [if_neg (by omega)]
    simp
  · rw [if_neg (by omega), if_neg (by omega)]
    simp

/-- Laguerre's differential equation -/
theorem laguerreL_ode (p a : ℕ) : X * derivative (derivative (laguerreL p a)) =
    (X - C ((a : ℝ) + 1)) * derivative (laguerreL p a) - C (p : ℝ) * laguerreL p a := by
  ext k
  have h := laguerreL_coeff_succ p a k
  rw [sub_mul, coeff_sub, coeff_sub, coeff_C_mul, coeff_C_mul]
  cases k with
  | zero =>
    simp only [mul_coeff_zero, coeff_X_zero, zero_mul, coeff_derivative]
    push_cast at h ⊢
    linear_combination h
  | succ k =>
    simp only [coeff_X_mul, coeff_derivative]
    push_cast at h ⊢
    linear_combination h

theorem laguerreL_ne_zero (p a : ℕ) : laguerreL p a ≠ 0 := by
  intro h
  have := laguerreL_coeff p a 0
  rw [h, coeff_zero, if_pos (by omega)] at this
  have h2 : (p + a).choose (p - 0) ≠ 0 := (Nat.choose_pos (by omega)).ne'
  have h3 : ((p + a).choose (p - 0) : ℝ) ≠ 0 := by exact_mod_cast h2
  refine h3 ?_
  simpa using this.symm

/-- radial factor `L(a s) exp(-b s)` and its first two derivatives in `s` -/
noncomputable def rad (L : ℝ[X]) (a : ℝ) (b : ℂ) (s : ℝ) : ℂ := (L.eval (a * s) : ℝ) * exp (-b * s)

noncomputable def rad1 (L : ℝ[X]) (a : ℝ) (b : ℂ) (s : ℝ) : ℂ :=
  (a * ((derivative L).eval (a * s) : ℝ) - b * (L.eval (a * s) : ℝ)) * exp (-b * s)

noncomputable def rad2 (L : ℝ[X]) (a : ℝ) (b : ℂ) (s : ℝ) : ℂ :=
  (a ^ 2 * ((derivative (derivative L)).eval (a * s) : ℝ) - 2 * a * b * ((derivative L).eval (a * s) : ℝ)
    + b ^ 2 * (L.eval (a * s) : ℝ)) * exp (-b * s)

theorem hasDerivAt_expneg (b : ℂ) (s : ℝ) : HasDerivAt (fun s : ℝ => exp (-b * s)) (exp (-b * s) * (-b)) s := by
  have hid : HasDerivAt (fun s : ℝ => (s : ℂ)) 1 s := Complex.ofRealCLM.hasDerivAt
  simpa using (hid.const_mul (-b)).cexp

theorem hasDerivAt_rad (L : ℝ[X]) (a : ℝ) (b : ℂ) (s : ℝ) : HasDerivAt (rad L a b) (rad1 L a b s) s := by
  refine ((hasDerivAt_poly_lin L a s).fun_mul (hasDerivAt_expneg b s)).congr_deriv ?_
  rw [rad1]
  push_cast
  ring

theorem hasDerivAt_rad1 (L : ℝ[X]) (a : ℝ) (b : ℂ) (s : ℝ) : HasDerivAt (rad1 L a b) (rad2 L a b s) s := by
  refine ((((hasDerivAt_poly_lin (derivative L) a s).const_mul (a : ℂ)).fun_sub
    ((hasDerivAt_poly_lin L a s).const_mul b)).fun_mul (hasDerivAt_expneg b s)).congr_deriv ?_
  rw [rad2]
  push_cast
  ring

/-- a function `(x + σ y)^μ F(x² + y²)`: derivatives in `x` and in `y`; `σ = ± i` -/
theorem hasDerivAt_vortex {F F1 F2 : ℝ → ℂ} (h0 : ∀ s, HasDerivAt F (F1 s) s) (h1 : ∀ s, HasDerivAt F1 (F2 s) s)
    (μ : ℕ) (p q : ℂ) (e x : ℝ) :
    HasDerivAt (fun x : ℝ => (p + q * x) ^ μ * F (x ^ 2 + e))
        (μ * (p + q * x) ^ (μ - 1) * q * F (x ^ 2 + e) + (p + q * x) ^ μ * (F1 (x ^ 2 + e) * (2 * x))) x ∧
      HasDerivAt (fun x : ℝ => μ * (p + q * x) ^ (μ - 1) * q * F (x ^ 2 + e)
          + (p + q * x) ^ μ * (F1 (x ^ 2 + e) * (2 * x)))
        (μ * ((μ - 1 : ℕ) * (p + q * x) ^ (μ - 1 - 1)) * q ^ 2 * F (x ^ 2 + e)
          + 2 * (μ * (p + q * x) ^ (μ - 1) * q) * (F1 (x ^ 2 + e) * (2 * x))
          + (p + q * x) ^ μ * (F2 (x ^ 2 + e) * (2 * x) ^ 2 + 2 * F1 (x ^ 2 + e))) x := by
  have hid : HasDerivAt (fun x : ℝ => (x : ℂ)) 1 x := Complex.ofRealCLM.hasDerivAt
  have hl : HasDerivAt (fun x : ℝ => p + q * (x : ℂ)) q x := by
    simpa using (hid.const_mul q).const_add p
  have hs : HasDerivAt (fun x : ℝ => x ^ 2 + e) (2 * x) x := by
    simpa using (hasDerivAt_pow 2 x).add_const e
  have hp : ∀ n : ℕ, HasDerivAt (fun x : ℝ => (p + q * (x : ℂ)) ^ n) (n * (p + q * x) ^ (n - 1) * q) x :=
    fun n => hl.fun_pow n
  have hF : HasDerivAt (fun x : ℝ => F (x ^ 2 + e)) (F1 (x ^ 2 + e) * (2 * x)) x := by
    refine ((h0 _).scomp x hs).congr_deriv ?_
    simp only [Complex.real_smul]
    push_cast
    ring
  have hF1 : HasDerivAt (fun x : ℝ => F1 (x ^ 2 + e)) (F2 (x ^ 2 + e) * (2 * x)) x := by
    refine ((h1 _).scomp x hs).congr_deriv ?_
    simp only [Complex.real_smul]
    push_cast
    ring
  refine ⟨(hp μ).fun_mul hF, ?_⟩
  have h2 : HasDerivAt (fun x : ℝ => (2 * (x : ℂ))) 2 x := by simpa using hid.const_mul 2
  refine ((((hp (μ - 1)).const_mul (μ : ℂ)).mul_const q |>.fun_mul hF).fun_add ((hp μ).fun_mul (hF1.fun_mul h2))).congr_deriv ?_
  ring

/-- the Laguerre-Gauss mode with the right amplitude and Gouy phase -/
noncomputable def lgv (w0 : ℝ) (p μ : ℕ) (σ : ℂ) (x y ζ : ℝ) : ℂ :=
  ((x : ℂ) + σ * y) ^ μ * rad (laguerreL p μ) (2 / (w0 ^ 2 * rho ζ ^ 2)) (1 / (w0 ^ 2 * (1 + I * ζ))) (x ^ 2 + y ^ 2) *
    (exp (-I * ((2 * p + μ : ℕ) : ℂ) * (Real.arctan ζ : ℝ)) / ((rho ζ : ℂ) ^ μ * (1 + I * ζ)))

/-- the Laplacian of the mode -/
theorem lgv_laplacian (w0 : ℝ) (p μ : ℕ) (σ : ℂ) (hσ : σ ^ 2 = -1) (x y ζ : ℝ) :
    ∃ (ux uy : ℝ → ℂ) (uxx uyy : ℂ),
      (∀ x', HasDerivAt (fun x => lgv w0 p μ σ x y ζ) (ux x') x') ∧ HasDerivAt ux uxx x ∧
      (∀ y', HasDerivAt (fun y => lgv w0 p μ σ x y ζ) (uy y') y') ∧ HasDerivAt uy uyy y ∧
      uxx + uyy = 4 * ((x : ℂ) + σ * y) ^ μ *
        ((μ + 1) * rad1 (laguerreL p μ) (2 / (w0 ^ 2 * rho ζ ^ 2)) (1 / (w0 ^ 2 * (1 + I * ζ))) (x ^ 2 + y ^ 2) +
          (x ^ 2 + y ^ 2) * rad2 (laguerreL p μ) (2 / (w0 ^ 2 * rho ζ ^ 2)) (1 / (w0 ^ 2 * (1 + I * ζ))) (x ^ 2 + y ^ 2)) *
        (exp (-I * ((2 * p + μ : ℕ) : ℂ) * (Real.arctan ζ : ℝ)) / ((rho ζ : ℂ) ^ μ * (1 + I * ζ))) := by
  set G := exp (-I * ((2 * p + μ : ℕ) : ℂ) * (Real.arctan ζ : ℝ)) / ((rho ζ : ℂ) ^ μ * (1 + I * ζ)) with hG
  set L := laguerreL p μ
  set a := 2 / (w0 ^ 2 * rho ζ ^ 2)
  set b := 1 / ((w0 : ℂ) ^ 2 * (1 + I * ζ))
  have hX := fun x => hasDerivAt_vortex (hasDerivAt_rad L a b) (hasDerivAt_rad1 L a b) μ (σ * y) 1 (y ^ 2) x
  have hY := fun y => hasDerivAt_vortex (hasDerivAt_rad L a b) (hasDerivAt_rad1 L a b) μ x σ (x ^ 2) y
  refine ⟨_, _, _, _, fun x' => ((hX x').1.mul_const G).congr_of_eventuallyEq (.of_forall fun x => ?_),
    ((hX x).2.mul_const G), fun y' => ((hY y').1.mul_const G).congr_of_eventuallyEq (.of_forall fun y => ?_),
    ((hY y).2.mul_const G), ?_⟩
  · simp only [lgv, L, a, b, hG]
    rw [one_mul, add_comm (σ * (y : ℂ)) x]
  · simp only [lgv, L, a, b, hG]
    rw [add_comm (y ^ 2) (x ^ 2)]
  · rw [one_mul, add_comm (σ * (y : ℂ)) x, add_comm (y ^ 2) (x ^ 2), one_pow, mul_one, mul_one, hσ]
    have hμ : (μ : ℂ) * (x + σ * y) ^ (μ - 1) * (x + σ * y) = μ * (x + σ * y) ^ μ := by
      cases μ with
      | zero => simp
      | succ n =>
        simp only [Nat.add_sub_cancel]
        ring
    linear_combination (4 * rad1 L a b (x ^ 2 + y ^ 2) * G) * hμ

/-- the derivative of the mode in `ζ` -/
theorem lgv_z (w0 : ℝ) (hw : w0 ≠ 0) (p μ : ℕ) (σ : ℂ) (x y ζ : ℝ) :
    HasDerivAt (fun ζ => lgv w0 p μ σ x y ζ) (I * w0 ^ 2 / 4 * (4 * ((x : ℂ) + σ * y) ^ μ *
        ((μ + 1) * rad1 (laguerreL p μ) (2 / (w0 ^ 2 * rho ζ ^ 2)) (1 / (w0 ^ 2 * (1 + I * ζ))) (x ^ 2 + y ^ 2) +
          (x ^ 2 + y ^ 2) * rad2 (laguerreL p μ) (2 / (w0 ^ 2 * rho ζ ^ 2)) (1 / (w0 ^ 2 * (1 + I * ζ))) (x ^ 2 + y ^ 2)) *
        (exp (-I * ((2 * p + μ : ℕ) : ℂ) * (Real.arctan ζ : ℝ)) / ((rho ζ : ℂ) ^ μ * (1 + I * ζ))))) ζ := by
  have hr := rho_pos ζ
  have hrs := rho_sq ζ
  have hq := q_ne ζ
  have hwc : (w0 : ℂ) ≠ 0 := by exact_mod_cast hw
  have hrc : (rho ζ : ℂ) ≠ 0 := by exact_mod_cast hr.ne'
  have hid : HasDerivAt (fun ζ : ℝ => (ζ : ℂ)) 1 ζ := Complex.ofRealCLM.hasDerivAt
  have hrho : HasDerivAt rho (ζ / rho ζ) ζ := hasDerivAt_rho ζ
  have hA : HasDerivAt (fun ζ => 2 / (w0 ^ 2 * rho ζ ^ 2) * (x ^ 2 + y ^ 2))
      (-2 * (ζ / rho ζ ^ 2) * (2 / (w0 ^ 2 * rho ζ ^ 2) * (x ^ 2 + y ^ 2))) ζ := by
    have := ((hasDerivAt_const ζ (2 : ℝ)).fun_div ((hrho.fun_pow 2).const_mul (w0 ^ 2))
      (by positivity)).mul_const (x ^ 2 + y ^ 2)
    refine this.congr_deriv ?_
    field_simp
    ring
  have hL : HasDerivAt (fun ζ => (((laguerreL p μ).eval (2 / (w0 ^ 2 * rho ζ ^ 2) * (x ^ 2 + y ^ 2)) : ℝ) : ℂ))
      (((derivative (laguerreL p μ)).eval (2 / (w0 ^ 2 * rho ζ ^ 2) * (x ^ 2 + y ^ 2)) *
        (-2 * (ζ / rho ζ ^ 2) * (2 / (w0 ^ 2 * rho ζ ^ 2) * (x ^ 2 + y ^ 2))) : ℝ) : ℂ) ζ :=
    (((laguerreL p μ).hasDerivAt _).comp ζ hA).ofReal_comp
  have hqd : HasDerivAt (fun ζ : ℝ => (1 + I * (ζ : ℂ))) I ζ := by
    simpa using (hid.const_mul I).const_add 1
  have hE : HasDerivAt (fun ζ : ℝ => exp (-(1 / ((w0 : ℂ) ^ 2 * (1 + I * ζ))) * ((x ^ 2 + y ^ 2 : ℝ) : ℂ)))
      (exp (-(1 / ((w0 : ℂ) ^ 2 * (1 + I * ζ))) * ((x ^ 2 + y ^ 2 : ℝ) : ℂ)) *
        (I * ((x ^ 2 + y ^ 2 : ℝ) : ℂ) / (w0 ^ 2 * (1 + I * ζ) ^ 2))) ζ := by
    have := ((((hasDerivAt_const ζ (1 : ℂ)).fun_div (hqd.const_mul ((w0 : ℂ) ^ 2))
      (mul_ne_zero (pow_ne_zero 2 hwc) hq)).fun_neg).mul_const ((x ^ 2 + y ^ 2 : ℝ) : ℂ)).cexp
    refine this.congr_deriv ?_
    congr 1
    field_simp
    ring
  have hG : HasDerivAt (fun ζ : ℝ => exp (-I * ((2 * p + μ : ℕ) : ℂ) * (Real.arctan ζ : ℝ)))
      (exp (-I * ((2 * p + μ : ℕ) : ℂ) * (Real.arctan ζ : ℝ)) * (-I * ((2 * p + μ : ℕ) : ℂ) / (rho ζ) ^ 2)) ζ := by
    have := ((Real.hasDerivAt_arctan ζ).ofReal_comp.const_mul (-I * ((2 * p + μ : ℕ) : ℂ))).cexp
    refine this.congr_deriv ?_
    rw [← Complex.ofReal_pow, hrs]
    push_cast
    ring
  have hR : HasDerivAt (fun ζ : ℝ => (rho ζ : ℂ) ^ μ) ((rho ζ : ℂ) ^ μ * (μ * (ζ / rho ζ ^ 2))) ζ := by
    refine (hrho.ofReal_comp.fun_pow μ).congr_deriv ?_
    cases μ with
    | zero => simp
    | succ n =>
      simp only [Nat.add_sub_cancel]
      push_cast
      field_simp
      ring
  have hrm : (rho ζ : ℂ) ^ μ ≠ 0 := pow_ne_zero _ hrc
  have hD : HasDerivAt (fun ζ : ℝ => exp (-I * ((2 * p + μ : ℕ) : ℂ) * (Real.arctan ζ : ℝ)) / ((rho ζ : ℂ) ^ μ * (1 + I * ζ)))
      (exp (-I * ((2 * p + μ : ℕ) : ℂ) * (Real.arctan ζ : ℝ)) / ((rho ζ : ℂ) ^ μ * (1 + I * ζ)) *
        (-I * ((2 * p + μ : ℕ) : ℂ) / (rho ζ) ^ 2 - μ * (ζ / rho ζ ^ 2) - I / (1 + I * ζ))) ζ := by
    refine (hG.fun_div (hR.fun_mul hqd) (mul_ne_zero hrm hq)).congr_deriv ?_
    generalize (rho ζ : ℂ) ^ μ = R at *
    generalize exp (-I * ((2 * p + μ : ℕ) : ℂ) * (Real.arctan ζ : ℝ)) = G at *
    field_simp
    ring
  have h := (((hL.fun_mul hE).const_mul (((x : ℂ) + σ * y) ^ μ)).fun_mul hD)
  refine (h.congr_of_eventuallyEq (.of_forall fun ζ => ?_)).congr_deriv ?_
  · simp only [lgv, rad]
  · have hode := congrArg (fun P => ((P.eval (2 / (w0 ^ 2 * rho ζ ^ 2) * (x ^ 2 + y ^ 2)) : ℝ) : ℂ)) (laguerreL_ode p μ)
    simp only [eval_sub, eval_mul, eval_C, eval_X] at hode
    simp only [rad1, rad2]
    clear h hD hR hG hE hqd hL hA hrho hid
    have h3 := zeta_div ζ
    have hw2 : (w0 : ℂ) ^ 2 / w0 ^ 2 = 1 := div_self (pow_ne_zero 2 hwc)
    push_cast at hode ⊢
    generalize (((laguerreL p μ).eval (2 / (w0 ^ 2 * rho ζ ^ 2) * (x ^ 2 + y ^ 2)) : ℝ) : ℂ) = A at *
    generalize (((derivative (laguerreL p μ)).eval (2 / (w0 ^ 2 * rho ζ ^ 2) * (x ^ 2 + y ^ 2)) : ℝ) : ℂ) = B at *
    generalize (((derivative (derivative (laguerreL p μ))).eval (2 / (w0 ^ 2 * rho ζ ^ 2) * (x ^ 2 + y ^ 2)) : ℝ) : ℂ) =
      C2 at *
    generalize exp (-I * (2 * p + μ) * (Real.arctan ζ : ℂ)) / ((rho ζ : ℂ) ^ μ * (1 + I * ζ)) = D at *
    generalize exp (-(1 / ((w0 : ℂ) ^ 2 * (1 + I * ζ))) * ((x : ℂ) ^ 2 + y ^ 2)) = E at *
    generalize ((x : ℂ) + σ * y) ^ μ = N at *
    generalize ((x : ℂ) ^ 2 + y ^ 2) = s at *
    generalize (1 + I * (ζ : ℂ)) = q at *
    linear_combination (-I * w0 ^ 2 * N * E * D * (2 / (w0 ^ 2 * rho ζ ^ 2))) * hode
      + (-I * N * E * D * (2 / rho ζ ^ 2 * (2 / (w0 ^ 2 * rho ζ ^ 2) * s * B - p * A) - (μ + 1) / q * A
        - 2 * (2 / (w0 ^ 2 * rho ζ ^ 2)) * s / q * B + s / (w0 ^ 2 * q ^ 2) * A)) * hw2
      + (N * E * D * (-2 * (2 / (w0 ^ 2 * rho ζ ^ 2)) * s * B - μ * A)) * h3

end Lasy
