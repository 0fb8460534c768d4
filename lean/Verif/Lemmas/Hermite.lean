import Verif.Model.Transverse
import Mathlib.MeasureTheory.Integral.IntegralEqImproper
import Mathlib.Analysis.SpecialFunctions.Gaussian.GaussianIntegral
import Mathlib.Analysis.Calculus.Deriv.Polynomial

/-! # Hermite polynomials: derivative, differential equation, orthogonality -/

namespace Lasy
open Polynomial MeasureTheory

theorem hermiteH_succ (n : ℕ) : hermiteH (n + 1) = C 2 * X * hermiteH n - derivative (hermiteH n) := rfl

/-- `H_{n+1}' = 2 (n+1) H_n` -/
theorem hermiteH_derivative (n : ℕ) :
    derivative (hermiteH (n + 1)) = C (2 * ((n : ℝ) + 1)) * hermiteH n := by
  induction n with
  | zero => simp [hermiteH]
  | succ n ih =>
    rw [hermiteH_succ (n + 1), derivative_sub, derivative_mul, derivative_mul, derivative_C, derivative_X, ih,
      derivative_mul, derivative_C, hermiteH_succ n]
    simp only [zero_mul, mul_one, zero_add, map_mul, map_add, map_natCast, map_one, Nat.cast_add,
      Nat.cast_one]
    ring

/-- Hermite's differential equation -/
theorem hermiteH_ode (n : ℕ) : derivative (derivative (hermiteH n)) =
    C 2 * X * derivative (hermiteH n) - C (2 * (n : ℝ)) * hermiteH n := by
  cases n with
  | zero => simp [hermiteH]
  | succ n =>
    rw [hermiteH_derivative, derivative_mul, derivative_C, hermiteH_succ]
    simp only [zero_mul, zero_add, map_mul, map_add, map_natCast, map_one, Nat.cast_add, Nat.cast_one]
    ring

theorem integrable_pow_gauss (n : ℕ) : Integrable fun x : ℝ => x ^ n * Real.exp (-x ^ 2) := by
  have := integrable_rpow_mul_exp_neg_mul_sq (b := 1) one_pos (s := n) (by have : (0:ℝ) ≤ n := Nat.cast_nonneg n; linarith)
  simpa using this

theorem integrable_poly_gauss (P : ℝ[X]) : Integrable fun x : ℝ => P.eval x * Real.exp (-x ^ 2) := by
  induction P using Polynomial.induction_on' with
  | add p q hp hq =>
    simp only [eval_add, add_mul]
    exact hp.add hq
  | monomial n a => simpa [mul_assoc] using (integrable_pow_gauss n).const_mul a

/-- integration by parts against the Gaussian -/
theorem integral_hermite_succ (n : ℕ) (P : ℝ[X]) :
    ∫ x : ℝ, (hermiteH (n + 1) * P).eval x * Real.exp (-x ^ 2) =
      ∫ x : ℝ, (hermiteH n * derivative P).eval x * Real.exp (-x ^ 2) := by
  have hd : ∀ x : ℝ, HasDerivAt (fun x => (hermiteH n * P).eval x * Real.exp (-x ^ 2))
      ((hermiteH n * derivative P - hermiteH (n + 1) * P).eval x * Real.exp (-x ^ 2)) x := by
    intro x
    have h1 := (hermiteH n * P).hasDerivAt x
    have h2 : HasDerivAt (fun x : ℝ => Real.exp (-x ^ 2)) (Real.exp (-x ^ 2) * (-(2 * x))) x := by
      have := ((hasDerivAt_pow 2 x).neg).exp
      simpa using this
    refine (h1.mul h2).congr_deriv ?_
    simp only [hermiteH_succ, derivative_mul, eval_sub, eval_mul, eval_add, eval_C, eval_X]
    ring
  have := integral_eq_zero_of_hasDerivAt_of_integrable hd (integrable_poly_gauss _) (integrable_poly_gauss _)
  have e : (fun x : ℝ => (hermiteH n * derivative P - hermiteH (n + 1) * P).eval x * Real.exp (-x ^ 2)) =
      fun x => (hermiteH n * derivative P).eval x * Real.exp (-x ^ 2) -
        (hermiteH (n + 1) * P).eval x * Real.exp (-x ^ 2) := by
    funext x
    rw [eval_sub, sub_mul]
  rw [e, integral_sub (integrable_poly_gauss _) (integrable_poly_gauss _)] at this
  linarith

/-- orthogonality -/
theorem integral_hermite (n m : ℕ) :
    ∫ x : ℝ, (hermiteH n).eval x * (hermiteH m).eval x * Real.exp (-x ^ 2) =
      if n = m then 2 ^ n * n.factorial * Real.sqrt Real.pi else 0 := by
  have key : ∀ n m : ℕ, ∫ x : ℝ, (hermiteH n * hermiteH m).eval x * Real.exp (-x ^ 2) =
      if n = m then 2 ^ n * n.factorial * Real.sqrt Real.pi else 0 := by
    intro n
    induction n with
    | zero =>
      intro m
      cases m with
      | zero =>
        have := integral_gaussian 1
        simpa [hermiteH] using this
      | succ m =>
        rw [mul_comm, integral_hermite_succ]
        simp [hermiteH]
    | succ n ih =>
      intro m
      rw [integral_hermite_succ]
      cases m with
      | zero => simp [hermiteH]
      | succ m =>
        rw [hermiteH_derivative]
        have e : (fun x : ℝ => (hermiteH n * (C (2 * ((m : ℝ) + 1)) * hermiteH m)).eval x * Real.exp (-x ^ 2)) =
            fun x => 2 * ((m : ℝ) + 1) * ((hermiteH n * hermiteH m).eval x * Real.exp (-x ^ 2)) := by
          funext x
          simp only [eval_mul, eval_C]
          ring
        rw [e, integral_const_mul, ih m]
        by_cases h : n = m
        · subst h
          rw [if_pos rfl, if_pos rfl, Nat.factorial_succ]
          push_cast
          ring
        · rw [if_neg h, if_neg (by omega), mul_zero]
  simpa [eval_mul] using key n m

end Lasy
