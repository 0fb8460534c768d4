import Verif.Model.Transverse
import Mathlib.Analysis.SpecialFunctions.Exp
import Mathlib.Analysis.SpecialFunctions.Exponential
import Mathlib.Topology.Algebra.InfiniteSum.Order

/-!
# Property C100: the super-Gaussian and jinc transverse profiles
-/

namespace Lasy
open Complex

/-- **C100**, super-Gaussian: for every waist and every positive order, with `r² = x² + y²`, the profile is the
positive number `exp(-(r/w0)^n)`; it is `1` on the axis, `1/e` at `r = w0` whatever the order, strictly
decreasing with `r`; for `n = 2` it is the Gaussian profile in focus and for `n = 1` it is `exp(-r/w0)`. -/
theorem C100_super_gaussian (w0 n : ℝ) (hw : 0 < w0) (hn : 0 < n) :
    (∀ x y r : ℝ, 0 ≤ r → r ^ 2 = x ^ 2 + y ^ 2 → superGaussianTrans w0 n x y = (Real.exp (-(r / w0) ^ n) : ℝ)) ∧
    superGaussianTrans w0 n 0 0 = 1 ∧
    (∀ x y : ℝ, x ^ 2 + y ^ 2 = w0 ^ 2 → superGaussianTrans w0 n x y = (Real.exp (-1) : ℝ)) ∧
    (∀ x y x' y' : ℝ, x ^ 2 + y ^ 2 < x' ^ 2 + y' ^ 2 →
      ‖superGaussianTrans w0 n x' y'‖ < ‖superGaussianTrans w0 n x y‖) ∧
    (∀ x y, superGaussianTrans w0 2 x y = gaussianTrans w0 0 x y) ∧
    (∀ x y r : ℝ, 0 ≤ r → r ^ 2 = x ^ 2 + y ^ 2 → superGaussianTrans w0 1 x y = (Real.exp (-(r / w0)) : ℝ)) := by
  have form : ∀ (n : ℝ) (x y r : ℝ), 0 ≤ r → r ^ 2 = x ^ 2 + y ^ 2 →
      superGaussianTrans w0 n x y = (Real.exp (-(r / w0) ^ n) : ℝ) := by
    intro n x y r hr h
    unfold superGaussianTrans
    rw [← h, ← div_pow, ← Real.rpow_natCast, ← Real.rpow_mul (div_nonneg hr hw.le)]
    congr 4
    push_cast
    ring
  have h0 : superGaussianTrans w0 n 0 0 = 1 := by
    rw [form n 0 0 0 le_rfl (by norm_num), zero_div, Real.zero_rpow hn.ne']
    simp
  refine ⟨form n, h0, ?_, ?_, ?_, ?_⟩
  · intro x y h
    rw [form n x y w0 hw.le h.symm, div_self hw.ne', Real.one_rpow]
  · intro x y x' y' h
    rw [form n x y (Real.sqrt (x ^ 2 + y ^ 2)) (Real.sqrt_nonneg _) (Real.sq_sqrt (by positivity)),
      form n x' y' (Real.sqrt (x' ^ 2 + y' ^ 2)) (Real.sqrt_nonneg _) (Real.sq_sqrt (by positivity)),
      Complex.norm_real, Complex.norm_real, Real.norm_of_nonneg (Real.exp_pos _).le,
      Real.norm_of_nonneg (Real.exp_pos _).le, Real.exp_lt_exp, neg_lt_neg_iff]
    refine Real.rpow_lt_rpow (by positivity) ?_ hn
    exact div_lt_div_of_pos_right (Real.sqrt_lt_sqrt (by positivity) h) hw
  · intro x y
    have : superGaussianTrans w0 2 x y = (Real.exp (-((x ^ 2 + y ^ 2) / w0 ^ 2)) : ℝ) := by
      unfold superGaussianTrans
      norm_num
    rw [this, Complex.ofReal_exp]
    simp only [gaussianTrans, diffractFactor]
    push_cast
    simp
    ring_nf
  · intro x y r hr h
    rw [form 1 x y r hr h, Real.rpow_one]

/-- the `k`-th term of `2 J_1(x)/x`, where `J_1(x) = ∑_k (-1)^k / (k! (k+1)!) (x/2)^(2k+1)` -/
noncomputable def jincTerm (x : ℝ) (k : ℕ) : ℝ :=
  (-1) ^ k / ((k.factorial : ℝ) * ((k + 1).factorial : ℝ)) * (x / 2) ^ (2 * k)

/-- the Bessel function of the first kind of order one, by its power series
`J_1(x) = ∑_k (-1)^k / (k! (k+1)!) (x/2)^(2k+1)` -/
noncomputable def besselJ1 (x : ℝ) : ℝ :=
  ∑' k : ℕ, (-1) ^ k / ((k.factorial : ℝ) * ((k + 1).factorial : ℝ)) * (x / 2) ^ (2 * k + 1)

theorem norm_jincTerm_le (x : ℝ) (k : ℕ) : ‖jincTerm x k‖ ≤ ((x / 2) ^ 2) ^ k / (k.factorial : ℝ) := by
  unfold jincTerm
  rw [norm_mul, norm_div, norm_pow, norm_neg, norm_one, one_pow, pow_mul,
    Real.norm_of_nonneg (by positivity : (0 : ℝ) ≤ ((x / 2) ^ 2) ^ k),
    Real.norm_of_nonneg (by positivity : (0 : ℝ) ≤ (k.factorial : ℝ) * ((k + 1).factorial : ℝ)),
    div_mul_eq_mul_div, one_mul]
  have h1 : (1 : ℝ) ≤ ((k + 1).factorial : ℝ) := by exact_mod_cast Nat.one_le_iff_ne_zero.2 (Nat.factorial_ne_zero _)
  have h2 : (0 : ℝ) < (k.factorial : ℝ) := by exact_mod_cast Nat.factorial_pos _
  exact div_le_div_of_nonneg_left (by positivity) h2 (le_mul_of_one_le_right h2.le h1)

theorem summable_jincTerm (x : ℝ) : Summable (jincTerm x) :=
  Summable.of_norm_bounded (Real.summable_pow_div_factorial _) (norm_jincTerm_le x)

theorem two_besselJ1_div (x : ℝ) (hx : x ≠ 0) : 2 * besselJ1 x / x = ∑' k, jincTerm x k := by
  unfold besselJ1
  have : ∀ k : ℕ, (-1) ^ k / ((k.factorial : ℝ) * ((k + 1).factorial : ℝ)) * (x / 2) ^ (2 * k + 1) =
      (x / 2) * jincTerm x k := by
    intro k
    unfold jincTerm
    rw [pow_succ]
    ring
  simp only [this]
  rw [tsum_mul_left]
  field_simp

/-- **C100**, jinc: with the Bessel function `J_1`, for every waist and at every point, the axis included, the
profile is the real number `∑_k (-1)^k / (k! (k+1)!) (r / (2 w0))^(2k)` (the entire function `2 J_1(u)/u` of
`u = r/w0`); it is `1` on the axis, and at distance `r` it differs from `1` by at most `exp((r/(2 w0))²) - 1`: the
special treatment of the axis leaves no jump. -/
theorem C100_jinc (w0 : ℝ) (hw : 0 < w0) (x y r : ℝ) (hr : 0 ≤ r) (h : r ^ 2 = x ^ 2 + y ^ 2) :
    (r ≠ 0 → jincTrans besselJ1 w0 x y = ((2 * besselJ1 (r / w0) / (r / w0) : ℝ) : ℂ)) ∧
    HasSum (fun k : ℕ => (((-1) ^ k / ((k.factorial : ℝ) * ((k + 1).factorial : ℝ)) * (r / (2 * w0)) ^ (2 * k) : ℝ) : ℂ))
      (jincTrans besselJ1 w0 x y) ∧
    jincTrans besselJ1 w0 0 0 = 1 ∧
    ‖jincTrans besselJ1 w0 x y - 1‖ ≤ Real.exp ((r / (2 * w0)) ^ 2) - 1 := by
  have hsq : Real.sqrt (x ^ 2 + y ^ 2) = r := by rw [← h, Real.sqrt_sq hr]
  have hterm : ∀ k, jincTerm (r / w0) k =
      (-1) ^ k / ((k.factorial : ℝ) * ((k + 1).factorial : ℝ)) * (r / (2 * w0)) ^ (2 * k) := by
    intro k
    unfold jincTerm
    congr 2
    field_simp
  have h00 : jincTrans besselJ1 w0 0 0 = 1 := by simp [jincTrans]
  have hval : jincTrans besselJ1 w0 x y = ((∑' k, jincTerm (r / w0) k : ℝ) : ℂ) := by
    unfold jincTrans
    rw [hsq]
    rcases hr.eq_or_lt with rfl | hr'
    · have : ∑' k, jincTerm (0 / w0) k = 1 := by
        rw [tsum_eq_single 0]
        · simp [jincTerm]
        · intro k hk
          simp [jincTerm, hk]
      rw [this]
      simp
    · have hpos : r / w0 > 0 := div_pos hr' hw
      simp only [if_pos hpos]
      rw [two_besselJ1_div _ hpos.ne']
  refine ⟨?_, ?_, h00, ?_⟩
  · intro hr0
    have hpos : 0 < r / w0 := div_pos (lt_of_le_of_ne hr (Ne.symm hr0)) hw
    rw [hval, two_besselJ1_div _ hpos.ne']
  · rw [hval]
    have := (summable_jincTerm (r / w0)).hasSum
    rw [funext hterm] at this
    rw [funext hterm]
    exact Complex.hasSum_ofReal.2 this
  · have h1 := (summable_jincTerm (r / w0)).tsum_eq_zero_add
    have hz : jincTerm (r / w0) 0 = 1 := by simp [jincTerm]
    rw [hz] at h1
    have he := (Real.summable_pow_div_factorial ((r / w0 / 2) ^ 2))
    have he' : Real.exp ((r / (2 * w0)) ^ 2) = ∑' k : ℕ, ((r / w0 / 2) ^ 2) ^ k / (k.factorial : ℝ) := by
      rw [Real.exp_eq_exp_ℝ, NormedSpace.exp_eq_tsum_div]
      have : r / (2 * w0) = r / w0 / 2 := by field_simp
      rw [this]
    rw [he', he.tsum_eq_zero_add, hval, h1]
    push_cast
    rw [add_sub_cancel_left]
    simp only [pow_zero, Nat.factorial_zero, Nat.cast_one, div_one, add_sub_cancel_left]
    rw [← Complex.ofReal_tsum, Complex.norm_real]
    exact tsum_of_norm_bounded ((summable_nat_add_iff 1).2 he).hasSum fun k => norm_jincTerm_le _ (k + 1)

/-- not vacuous: at the point `(3, 4)` the radius is `5` -/
example : superGaussianTrans 5 4 3 4 = (Real.exp (-1) : ℝ) ∧ ‖jincTrans besselJ1 5 3 4 - 1‖ ≤ Real.exp ((5 / (2 * 5)) ^ 2) - 1 :=
  ⟨(C100_super_gaussian 5 4 (by norm_num) (by norm_num)).2.2.1 3 4 (by norm_num),
    (C100_jinc 5 (by norm_num) 3 4 5 (by norm_num) (by norm_num)).2.2.2⟩

end Lasy
