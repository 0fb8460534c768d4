import Verif.Model.Zernike
import Mathlib.Algebra.Group.ForwardDiff
import Mathlib.Algebra.Polynomial.Div
import Mathlib.Algebra.Polynomial.BigOperators
import Mathlib.Algebra.BigOperators.Field
import Mathlib.Data.Nat.Choose.Cast

/-!
# Alternating sums of polynomials, and the radial Zernike polynomials
-/

namespace Lasy
open Polynomial Finset

/-- `∑_k (-1)^k binom(p,k) f(k)` -/
noncomputable def altSum (p : ℕ) (f : ℝ → ℝ) : ℝ := ∑ k ∈ range (p + 1), (-1) ^ k * (p.choose k : ℝ) * f k

theorem altSum_eq (p : ℕ) (f : ℝ → ℝ) : altSum p f = (-1) ^ p * (fwdDiff 1)^[p] f 0 := by
  rw [fwdDiff_iter_eq_sum_shift, altSum, mul_sum]
  refine sum_congr rfl fun k hk => ?_
  have hk' : k ≤ p := by have := mem_range.1 hk; omega
  have : ((-1 : ℝ)) ^ p = (-1) ^ (p - k) * (-1) ^ k := by rw [← pow_add]; congr 1; omega
  have h2 : ((-1 : ℝ) ^ (p - k)) * (-1) ^ (p - k) = 1 := by rw [← mul_pow]; simp
  simp only [zsmul_eq_mul, nsmul_eq_mul, mul_one, zero_add]
  push_cast
  rw [this]
  linear_combination (-(-1 : ℝ) ^ k * (p.choose k : ℝ) * f k) * h2

theorem altSum_lt {p : ℕ} {P : ℝ[X]} (h : P.natDegree < p) : altSum p (fun x => P.eval x) = 0 := by
  rw [altSum_eq, Polynomial.fwdDiff_iter_eq_zero_of_degree_lt h]; simp

theorem altSum_degree (P : ℝ[X]) :
    altSum P.natDegree (fun x => P.eval x) = (-1) ^ P.natDegree * (P.leadingCoeff * P.natDegree.factorial) := by
  rw [altSum_eq, Polynomial.fwdDiff_iter_degree_eq_factorial]; simp

theorem altSum_congr {p : ℕ} {f g : ℝ → ℝ} (h : ∀ k ≤ p, f (k : ℕ) = g (k : ℕ)) : altSum p f = altSum p g := by
  refine sum_congr rfl fun k hk => ?_
  rw [h k (by have := mem_range.1 hk; omega)]

theorem altSum_add (p : ℕ) (f g : ℝ → ℝ) : altSum p (fun x => f x + g x) = altSum p f + altSum p g := by
  simp only [altSum, mul_add, sum_add_distrib]

theorem altSum_mul (p : ℕ) (c : ℝ) (f : ℝ → ℝ) : altSum p (fun x => c * f x) = c * altSum p f := by
  simp only [altSum, mul_sum]
  exact sum_congr rfl fun k _ => by ring

theorem fwdDiff_inv (a : ℝ) (p : ℕ) : ∀ y : ℝ, (∀ i ≤ p, a - y - (i : ℕ) ≠ 0) →
    (fwdDiff 1)^[p] (fun x => (a - x)⁻¹) y = p.factorial / ∏ i ∈ range (p + 1), (a - y - i) := by
  induction p with
  | zero => intro y _; simp
  | succ p ih =>
    intro y hy
    rw [Function.iterate_succ_apply', fwdDiff, ih, ih]
    · have e1 : ∏ i ∈ range (p + 2), (a - y - (i : ℝ)) = (∏ i ∈ range (p + 1), (a - (y + 1) - (i : ℝ))) * (a - y) := by
        rw [prod_range_succ']
        simp only [Nat.cast_add, Nat.cast_one, Nat.cast_zero, sub_zero]
        congr 1
        exact prod_congr rfl fun i _ => by ring
      have e2 : ∏ i ∈ range (p + 2), (a - y - (i : ℝ)) = (∏ i ∈ range (p + 1), (a - y - (i : ℝ))) * (a - y - ((p + 1 : ℕ) : ℝ)) := by
        rw [prod_range_succ]
      have hne : ∏ i ∈ range (p + 2), (a - y - (i : ℝ)) ≠ 0 :=
        prod_ne_zero_iff.2 fun i hi => hy i (by have := mem_range.1 hi; omega)
      have h1 : ∏ i ∈ range (p + 1), (a - (y + 1) - (i : ℝ)) ≠ 0 := fun h => hne (by rw [e1, h, zero_mul])
      have h2 : ∏ i ∈ range (p + 1), (a - y - (i : ℝ)) ≠ 0 := fun h => hne (by rw [e2, h, zero_mul])
      have h3 : (p.factorial : ℝ) / ∏ i ∈ range (p + 1), (a - (y + 1) - (i : ℝ)) =
          p.factorial * (a - y) / ∏ i ∈ range (p + 2), (a - y - (i : ℝ)) := by
        rw [div_eq_div_iff h1 hne, e1]; ring
      have h4 : (p.factorial : ℝ) / ∏ i ∈ range (p + 1), (a - y - (i : ℝ)) =
          p.factorial * (a - y - ((p + 1 : ℕ) : ℝ)) / ∏ i ∈ range (p + 2), (a - y - (i : ℝ)) := by
        rw [div_eq_div_iff h2 hne, e2]; ring
      rw [h3, h4, ← sub_div, Nat.factorial_succ]
      push_cast
      ring
    · intro i hi; exact hy i (by omega)
    · intro i hi
      have := hy (i + 1) (by omega)
      push_cast at this ⊢
      intro h; exact this (by linarith)

theorem altSum_inv (a : ℝ) (p : ℕ) (h : ∀ i ≤ p, a - (i : ℕ) ≠ 0) :
    altSum p (fun x => (a - x)⁻¹) = (-1) ^ p * (p.factorial / ∏ i ∈ range (p + 1), (a - i)) := by
  rw [altSum_eq, fwdDiff_inv a p 0 (by simpa using h)]
  simp

/-- the polynomial `∏_{i<p} (p + m + 1 + i - X)` -/
noncomputable def radQ (p m : ℕ) : ℝ[X] := ∏ i ∈ range p, (C ((p + m + 1 + i : ℕ) : ℝ) - X)

theorem radQ_eval (p m k : ℕ) (hk : k ≤ p) :
    (radQ p m).eval (k : ℝ) = ((2 * p + m - k).factorial : ℝ) / ((p + m - k).factorial : ℝ) := by
  rw [eq_div_iff (by positivity), radQ, eval_prod]
  have h1 : (2 * p + m - k).factorial = (2 * p + m - k).descFactorial p * (p + m - k).factorial := by
    have := Nat.factorial_mul_descFactorial (show p ≤ 2 * p + m - k by omega)
    rw [show 2 * p + m - k - p = p + m - k by omega] at this
    rw [← this]; ring
  rw [h1]
  push_cast
  congr 1
  rw [Nat.descFactorial_eq_prod_range]
  push_cast
  rw [← Finset.prod_range_reflect]
  refine prod_congr rfl fun i hi => ?_
  have := mem_range.1 hi
  simp only [eval_sub, eval_C, eval_X]
  rw [Nat.cast_sub (show i ≤ 2 * p + m - k by omega), Nat.cast_sub (show k ≤ 2 * p + m by omega),
    Nat.cast_sub (show i ≤ p - 1 by omega), Nat.cast_sub (show 1 ≤ p by omega)]
  push_cast
  ring

theorem natDegree_factor (a : ℝ) : (C a - X : ℝ[X]).natDegree = 1 := by
  rw [← natDegree_neg, neg_sub, natDegree_X_sub_C]

theorem leadingCoeff_factor (a : ℝ) : (C a - X : ℝ[X]).leadingCoeff = -1 := by
  have : (C a - X : ℝ[X]) = -(X - C a) := by ring
  rw [this, leadingCoeff_neg, leadingCoeff_X_sub_C]

theorem factor_ne_zero (a : ℝ) : (C a - X : ℝ[X]) ≠ 0 := fun h => by
  have := natDegree_factor a; rw [h] at this; simp at this

theorem radQ_natDegree (p m : ℕ) : (radQ p m).natDegree = p := by
  rw [radQ, natDegree_prod _ _ (fun i _ => factor_ne_zero _)]
  simp only [natDegree_factor, sum_const, card_range, smul_eq_mul, mul_one]

theorem radQ_leading (p m : ℕ) : (radQ p m).leadingCoeff = (-1) ^ p := by
  rw [radQ, leadingCoeff_prod]
  simp only [leadingCoeff_factor, prod_const, card_range]

/-- the coefficient of `rho^(n - 2 k)` in the radial polynomial, `n = 2 p + m` -/
noncomputable def radCoef (p m k : ℕ) : ℝ :=
  ((-1) ^ k * ((2 * p + m - k).factorial : ℝ)) / ((k.factorial : ℝ) * ((p + m - k).factorial : ℝ) * ((p - k).factorial : ℝ))

theorem radCoef_eq (p m k : ℕ) (hk : k ≤ p) :
    radCoef p m k = (-1) ^ k * (p.choose k : ℝ) * (radQ p m).eval (k : ℝ) / p.factorial := by
  rw [radQ_eval p m k hk, Nat.cast_choose ℝ hk, radCoef]
  have h1 : (k.factorial : ℝ) ≠ 0 := by positivity
  have h2 : ((p + m - k).factorial : ℝ) ≠ 0 := by positivity
  have h3 : ((p - k).factorial : ℝ) ≠ 0 := by positivity
  have h4 : (p.factorial : ℝ) ≠ 0 := by positivity
  field_simp

theorem sum_radCoef_mul (p m : ℕ) (g : ℝ → ℝ) :
    ∑ k ∈ range (p + 1), radCoef p m k * g k = altSum p (fun x => (radQ p m).eval x * g x) / p.factorial := by
  rw [altSum, sum_div]
  refine sum_congr rfl fun k hk => ?_
  rw [radCoef_eq p m k (by have := mem_range.1 hk; omega)]
  ring

/-- the radial polynomial has the value 1 at the edge -/
theorem sum_radCoef (p m : ℕ) : ∑ k ∈ range (p + 1), radCoef p m k = 1 := by
  have h := sum_radCoef_mul p m (fun _ => 1)
  simp only [mul_one] at h
  have h2 := altSum_degree (radQ p m)
  rw [radQ_natDegree, radQ_leading] at h2
  rw [h, h2]
  have h4 : (p.factorial : ℝ) ≠ 0 := by positivity
  have h5 : ((-1 : ℝ)) ^ p * (-1) ^ p = 1 := by rw [← mul_pow]; simp
  field_simp
  linear_combination h5

/-- the moments of the radial polynomial below the degree vanish -/
theorem moment_lt (p m j : ℕ) (hj : j < p) :
    ∑ k ∈ range (p + 1), radCoef p m k * (((p + m + 1 + j : ℕ) : ℝ) - k)⁻¹ = 0 := by
  rw [sum_radCoef_mul p m (fun x => (((p + m + 1 + j : ℕ) : ℝ) - x)⁻¹)]
  have h1 : radQ p m = (∏ i ∈ (range p).erase j, (C ((p + m + 1 + i : ℕ) : ℝ) - X)) * (C ((p + m + 1 + j : ℕ) : ℝ) - X) :=
    (prod_erase_mul _ _ (mem_range.2 hj)).symm
  rw [altSum_congr (g := fun x => (∏ i ∈ (range p).erase j, (C ((p + m + 1 + i : ℕ) : ℝ) - X)).eval x), altSum_lt, zero_div]
  · rw [natDegree_prod _ _ (fun i _ => factor_ne_zero _)]
    simp only [natDegree_factor, sum_const, smul_eq_mul, mul_one]
    rw [card_erase_of_mem (mem_range.2 hj), card_range]
    omega
  · intro k hk
    have hne : (((p + m + 1 + j : ℕ) : ℝ) - (k : ℕ)) ≠ 0 := by
      rw [sub_ne_zero]
      exact_mod_cast (by omega : p + m + 1 + j ≠ k)
    rw [h1, eval_mul]
    simp only [eval_sub, eval_C, eval_X]
    rw [mul_assoc, mul_inv_cancel₀ hne, mul_one]

/-- the moment of the degree -/
theorem moment_eq (p m : ℕ) :
    ∑ k ∈ range (p + 1), radCoef p m k * (((2 * p + m + 1 : ℕ) : ℝ) - k)⁻¹ =
      (p.factorial : ℝ) * (p + m).factorial / (2 * p + m + 1).factorial := by
  rw [sum_radCoef_mul p m (fun x => (((2 * p + m + 1 : ℕ) : ℝ) - x)⁻¹)]
  set a : ℝ := ((2 * p + m + 1 : ℕ) : ℝ) with ha
  have hne : ∀ k ≤ p, a - (k : ℕ) ≠ 0 := by
    intro k hk
    rw [sub_ne_zero, ha]
    exact_mod_cast (by omega : 2 * p + m + 1 ≠ k)
  have hdiv : radQ p m = (radQ p m /ₘ (X - C a)) * (X - C a) + C ((radQ p m).eval a) := by
    have := modByMonic_add_div (radQ p m) (X - C a)
    rw [modByMonic_X_sub_C_eq_C_eval] at this
    rw [mul_comm, add_comm]
    exact this.symm
  have hval : (radQ p m).eval a = (-1) ^ p * p.factorial := by
    rw [radQ, eval_prod]
    simp only [eval_sub, eval_C, eval_X]
    have : ∀ i ∈ range p, ((p + m + 1 + i : ℕ) : ℝ) - a = (-1) * ((p - i : ℕ) : ℝ) := by
      intro i hi
      have := mem_range.1 hi
      rw [ha, Nat.cast_sub this.le]
      push_cast
      ring
    rw [prod_congr rfl this, prod_mul_distrib, prod_const, card_range]
    congr 1
    rw [← Nat.descFactorial_self, Nat.descFactorial_eq_prod_range]
    push_cast
    rfl
  have hQ : altSum p (fun x => (radQ p m).eval x * (a - x)⁻¹) =
      (radQ p m).eval a * altSum p (fun x => (a - x)⁻¹) := by
    rw [← altSum_mul]
    have h0 : altSum p (fun x => (-(radQ p m /ₘ (X - C a))).eval x) = 0 := by
      rcases Nat.eq_zero_or_pos p with rfl | hp
      · have : radQ 0 m /ₘ (X - C a) = 0 := by
          rw [divByMonic_eq_zero_iff (monic_X_sub_C a)]
          simp [radQ, degree_X_sub_C]
        rw [this]; simp [altSum]
      · refine altSum_lt ?_
        rw [natDegree_neg, natDegree_divByMonic _ (monic_X_sub_C a), radQ_natDegree, natDegree_X_sub_C]
        omega
    rw [← add_zero (altSum p fun x => eval a (radQ p m) * (a - x)⁻¹), ← h0, ← altSum_add]
    refine altSum_congr fun k hk => ?_
    have h1 : (radQ p m).eval (k : ℝ) = (radQ p m /ₘ (X - C a)).eval (k : ℝ) * ((k : ℝ) - a) + (radQ p m).eval a := by
      conv_lhs => rw [hdiv]
      simp
    have h2 := mul_inv_cancel₀ (hne k hk)
    rw [h1, eval_neg]
    linear_combination (-(radQ p m /ₘ (X - C a)).eval (k : ℝ)) * h2
  rw [hQ, hval, altSum_inv a p hne]
  have hprod : ∏ i ∈ range (p + 1), (a - (i : ℝ)) = ((2 * p + m + 1).factorial : ℝ) / (p + m).factorial := by
    rw [eq_div_iff (by positivity)]
    have h1 := Nat.factorial_mul_descFactorial (show p + 1 ≤ 2 * p + m + 1 by omega)
    rw [show 2 * p + m + 1 - (p + 1) = p + m by omega] at h1
    rw [← h1, Nat.descFactorial_eq_prod_range]
    push_cast
    rw [mul_comm]
    congr 1
    refine prod_congr rfl fun i hi => ?_
    have := mem_range.1 hi
    rw [Nat.cast_sub (by omega), ha]
  rw [hprod]
  have h5 : ((-1 : ℝ)) ^ p * (-1) ^ p = 1 := by rw [← mul_pow]; simp
  have h4 : (p.factorial : ℝ) ≠ 0 := by positivity
  have h6 : ((p + m).factorial : ℝ) ≠ 0 := by positivity
  have h7 : ((2 * p + m + 1).factorial : ℝ) ≠ 0 := by positivity
  field_simp
  linear_combination h5

end Lasy
