import Verif.Lemmas.Hermite
import Mathlib.MeasureTheory.Measure.CharacteristicFunction.Basic
import Mathlib.MeasureTheory.Function.AEEqOfLIntegral
import Mathlib.MeasureTheory.Function.L2Space
import Mathlib.Analysis.InnerProductSpace.l2Space
import Mathlib.Algebra.Polynomial.Sequence

/-!
# The Hermite functions are complete in the plane
-/

namespace Lasy
open MeasureTheory Filter Polynomial

/-- an integrable function on the plane whose Fourier transform is zero is zero -/
theorem ae_zero_of_char {g : ℝ × ℝ → ℝ} (hg : Integrable g)
    (h : ∀ a b : ℝ, ∫ v : ℝ × ℝ, Complex.exp (((a * v.1 + b * v.2 : ℝ) : ℂ) * Complex.I) * (g v : ℂ) = 0) :
    g =ᵐ[volume] 0 := by
  have fin : ∀ f : ℝ × ℝ → ℝ, Integrable f → IsFiniteMeasure (volume.withDensity fun v => ENNReal.ofReal (f v)) :=
    fun f hf => isFiniteMeasure_withDensity_ofReal hf.2
  have ci : ∀ f : ℝ × ℝ → ℝ, Integrable f → ∀ L : StrongDual ℝ (ℝ × ℝ),
      charFunDual (volume.withDensity fun v => ENNReal.ofReal (f v)) L =
        ∫ v, Complex.exp ((L v : ℂ) * Complex.I) * ((max (f v) 0 : ℝ) : ℂ) := by
    intro f hf L
    rw [charFunDual_apply, integral_withDensity_eq_integral_toReal_smul₀ hf.aemeasurable.ennreal_ofReal (by simp)]
    refine integral_congr_ae (Eventually.of_forall fun v => ?_)
    simp only [ENNReal.toReal_ofReal', Complex.real_smul]
    ring
  have hL : ∀ L : StrongDual ℝ (ℝ × ℝ), ∀ v : ℝ × ℝ, L v = L (1, 0) * v.1 + L (0, 1) * v.2 := by
    intro L v
    have : v = v.1 • ((1, 0) : ℝ × ℝ) + v.2 • ((0, 1) : ℝ × ℝ) := by ext <;> simp
    conv_lhs => rw [this]
    rw [map_add, map_smul, map_smul, smul_eq_mul, smul_eq_mul]
    ring
  have hi : ∀ f : ℝ × ℝ → ℝ, Integrable f → ∀ L : StrongDual ℝ (ℝ × ℝ),
      Integrable fun v => Complex.exp ((L v : ℂ) * Complex.I) * ((f v : ℝ) : ℂ) := by
    intro f hf L
    refine hf.ofReal.bdd_mul (c := 1) (Continuous.aestronglyMeasurable ?_) (Eventually.of_forall fun v => ?_)
    · exact Complex.continuous_exp.comp ((Complex.continuous_ofReal.comp L.continuous).mul continuous_const)
    · rw [Complex.norm_exp_ofReal_mul_I]
  have hgn := hg.neg
  have := fin g hg
  have := fin _ hgn
  have heq : volume.withDensity (fun v => ENNReal.ofReal (g v)) = volume.withDensity fun v => ENNReal.ofReal ((-g) v) := by
    refine Measure.ext_of_charFunDual (funext fun L => ?_)
    rw [ci g hg, ci _ hgn, ← sub_eq_zero, ← integral_sub (hi _ hg.pos_part L) (hi _ hgn.pos_part L)]
    rw [← h (L (1, 0)) (L (0, 1))]
    refine integral_congr_ae (Eventually.of_forall fun v => ?_)
    simp only [← hL L v, Pi.neg_apply]
    rw [← mul_sub, ← Complex.ofReal_sub]
    congr 2
    rcases le_total 0 (g v) with h | h
    · rw [max_eq_left h, max_eq_right (by linarith)]; ring
    · rw [max_eq_right h, max_eq_left (by linarith)]; ring
  have := (withDensity_eq_iff_of_sigmaFinite hg.aemeasurable.ennreal_ofReal hgn.aemeasurable.ennreal_ofReal).1 heq
  filter_upwards [this] with v hv
  simp only [Pi.neg_apply, Pi.zero_apply] at hv ⊢
  rcases le_total 0 (g v) with h | h
  · rw [ENNReal.ofReal_of_nonpos (by linarith : -g v ≤ 0)] at hv
    exact le_antisymm (ENNReal.ofReal_eq_zero.1 hv) h
  · rw [ENNReal.ofReal_of_nonpos h] at hv
    linarith [ENNReal.ofReal_eq_zero.1 hv.symm]

/-- a function with exponential decay on the plane all of whose moments are zero is zero -/
theorem ae_zero_of_moments {g : ℝ × ℝ → ℝ} (hg : ∀ a b : ℝ, Integrable fun v => Real.exp (a * |v.1| + b * |v.2|) * |g v|)
    (hm : AEStronglyMeasurable g) (h : ∀ m n : ℕ, ∫ v : ℝ × ℝ, v.1 ^ m * v.2 ^ n * g v = 0) : g =ᵐ[volume] 0 := by
  have hgi : Integrable g := by
    have := hg 0 0
    simp only [zero_mul, add_zero, Real.exp_zero, one_mul] at this
    exact (integrable_norm_iff hm).1 this
  have hmom : ∀ m n : ℕ, Integrable fun v : ℝ × ℝ => v.1 ^ m * v.2 ^ n * g v := by
    intro m n
    refine ((hg 1 1).const_mul (m.factorial * n.factorial)).mono'
      (AEStronglyMeasurable.mul (Continuous.aestronglyMeasurable (by fun_prop)) hm) (Eventually.of_forall fun v => ?_)
    rw [norm_mul, norm_mul, norm_pow, norm_pow, Real.norm_eq_abs, Real.norm_eq_abs, Real.norm_eq_abs, one_mul, one_mul, Real.exp_add]
    have h1 := Real.pow_div_factorial_le_exp |v.1| (abs_nonneg _) m
    have h2 := Real.pow_div_factorial_le_exp |v.2| (abs_nonneg _) n
    rw [div_le_iff₀ (by positivity)] at h1 h2
    calc |v.1| ^ m * |v.2| ^ n * |g v| ≤ (Real.exp |v.1| * m.factorial) * (Real.exp |v.2| * n.factorial) * |g v| := by gcongr
      _ = _ := by ring
  refine ae_zero_of_char hgi fun a b => ?_
  have hs := hasSum_integral_of_dominated_convergence (μ := (volume : Measure (ℝ × ℝ)))
    (F := fun (n : ℕ) (v : ℝ × ℝ) => (((a * v.1 + b * v.2 : ℝ) : ℂ) * Complex.I) ^ n / n.factorial * (g v : ℂ))
    (f := fun v => Complex.exp (((a * v.1 + b * v.2 : ℝ) : ℂ) * Complex.I) * (g v : ℂ))
    (fun n v => |a * v.1 + b * v.2| ^ n / n.factorial * |g v|)
    (fun n => AEStronglyMeasurable.mul (Continuous.aestronglyMeasurable (by fun_prop)) (Complex.continuous_ofReal.comp_aestronglyMeasurable hm))
    (fun n => Eventually.of_forall fun v => by
      rw [norm_mul, norm_div, norm_pow, norm_mul, Complex.norm_I, mul_one, Complex.norm_real, Complex.norm_real, Real.norm_eq_abs,
        Real.norm_eq_abs, Complex.norm_natCast])
    (Eventually.of_forall fun v => (Real.summable_pow_div_factorial _).mul_right _)
    (by
      have e : (fun v : ℝ × ℝ => ∑' n : ℕ, |a * v.1 + b * v.2| ^ n / n.factorial * |g v|) =
          fun v => Real.exp |a * v.1 + b * v.2| * |g v| := by
        funext v
        rw [tsum_mul_right, Real.exp_eq_exp_ℝ, NormedSpace.exp_eq_tsum_div]
      rw [e]
      refine (hg |a| |b|).mono' (AEStronglyMeasurable.mul (Continuous.aestronglyMeasurable (by fun_prop)) hm.norm)
        (Eventually.of_forall fun v => ?_)
      rw [norm_mul, Real.norm_eq_abs, Real.norm_eq_abs, abs_abs, abs_of_pos (Real.exp_pos _)]
      gcongr
      exact (abs_add_le _ _).trans_eq (by rw [abs_mul, abs_mul]))
    (Eventually.of_forall fun v => by
      refine HasSum.mul_right _ ?_
      rw [Complex.exp_eq_exp_ℂ]
      exact NormedSpace.expSeries_div_hasSum_exp _)
  have hz : ∀ n : ℕ, ∫ v : ℝ × ℝ, (((a * v.1 + b * v.2 : ℝ) : ℂ) * Complex.I) ^ n / n.factorial * (g v : ℂ) = 0 := by
    intro n
    have e : (fun v : ℝ × ℝ => (((a * v.1 + b * v.2 : ℝ) : ℂ) * Complex.I) ^ n / n.factorial * (g v : ℂ)) =
        fun v => (Complex.I ^ n / n.factorial) * (((∑ m ∈ Finset.range (n + 1), (a ^ m * b ^ (n - m) * n.choose m) *
          (v.1 ^ m * v.2 ^ (n - m) * g v) : ℝ)) : ℂ) := by
      funext v
      have : (∑ m ∈ Finset.range (n + 1), (a ^ m * b ^ (n - m) * n.choose m) * (v.1 ^ m * v.2 ^ (n - m) * g v)) =
          (a * v.1 + b * v.2) ^ n * g v := by
        rw [add_pow, Finset.sum_mul]
        exact Finset.sum_congr rfl fun m _ => by rw [mul_pow, mul_pow]; ring
      rw [this]
      push_cast
      rw [mul_pow]
      ring
    rw [e, integral_const_mul, integral_complex_ofReal, integral_finsetSum _ fun m _ => (hmom _ _).const_mul _]
    simp only [integral_const_mul, h, mul_zero, Finset.sum_const_zero, Complex.ofReal_zero]
  simp only [hz] at hs
  exact hs.unique hasSum_zero

/-! ## Hermite polynomials span the polynomials -/

theorem hermiteH_degree (n : ℕ) : (hermiteH n).degree = n := by
  induction n with
  | zero => simp [hermiteH]
  | succ n ih =>
    rw [hermiteH_succ]
    have h2 : (C (2 : ℝ) * X * hermiteH n).degree = ((n + 1 : ℕ) : WithBot ℕ) := by
      rw [degree_mul, degree_mul, degree_C (by norm_num), degree_X, ih]
      push_cast
      ring
    rw [degree_sub_eq_left_of_degree_lt, h2]
    rw [h2]
    refine lt_of_le_of_lt (degree_derivative_le) ?_
    rw [ih]
    exact_mod_cast Nat.lt_succ_self n

theorem hermiteH_span : Submodule.span ℝ (Set.range hermiteH) = ⊤ := by
  let S : Polynomial.Sequence ℝ := ⟨hermiteH, hermiteH_degree⟩
  exact S.span fun i => isUnit_iff_ne_zero.2 (leadingCoeff_ne_zero.2 (S.ne_zero i))

/-! ## The plane -/

/-- a polynomial in each coordinate times a Gaussian -/
noncomputable def polyGauss (α : ℝ) (P Q : ℝ[X]) (v : ℝ × ℝ) : ℝ :=
  P.eval (α * v.1) * Q.eval (α * v.2) * Real.exp (-((α * v.1) ^ 2 + (α * v.2) ^ 2) / 2)

theorem polyGauss_continuous (α : ℝ) (P Q : ℝ[X]) : Continuous (polyGauss α P Q) := by
  unfold polyGauss
  have h1 : Continuous fun v : ℝ × ℝ => P.eval (α * v.1) := P.continuous.comp (by fun_prop)
  have h2 : Continuous fun v : ℝ × ℝ => Q.eval (α * v.2) := Q.continuous.comp (by fun_prop)
  exact (h1.mul h2).mul (by fun_prop)

theorem polyGauss_memLp {α : ℝ} (hα : α ≠ 0) (P Q : ℝ[X]) : MemLp (polyGauss α P Q) 2 := by
  refine (memLp_two_iff_integrable_sq (polyGauss_continuous α P Q).aestronglyMeasurable).2 ?_
  have h1 := (integrable_poly_gauss (P ^ 2)).comp_mul_left' hα
  have h2 := (integrable_poly_gauss (Q ^ 2)).comp_mul_left' hα
  refine (h1.mul_prod h2).congr (Eventually.of_forall fun v => ?_)
  simp only [polyGauss, eval_pow]
  have e : Real.exp (-((α * v.1) ^ 2 + (α * v.2) ^ 2) / 2) ^ 2 = Real.exp (-(α * v.1) ^ 2) * Real.exp (-(α * v.2) ^ 2) := by
    rw [← Real.exp_nat_mul, ← Real.exp_add]
    congr 1
    push_cast
    ring
  rw [mul_pow (_ * _) (Real.exp _), e]
  ring

/-- **Completeness.** A square integrable function on the plane that is orthogonal to all Hermite functions of one width
is zero. -/
theorem hermite_complete {α : ℝ} (hα : 0 < α) {h : ℝ × ℝ → ℝ} (hh : MemLp h 2)
    (h0 : ∀ i j : ℕ, ∫ v, h v * polyGauss α (hermiteH i) (hermiteH j) v = 0) : h =ᵐ[volume] 0 := by
  have hint : ∀ P Q, Integrable fun v => h v * polyGauss α P Q v := fun P Q => hh.integrable_mul (polyGauss_memLp hα.ne' P Q)
  have s1 : ∀ (i : ℕ) (Q : ℝ[X]), ∫ v, h v * polyGauss α (hermiteH i) Q v = 0 := by
    intro i Q
    have hQ : Q ∈ Submodule.span ℝ (Set.range hermiteH) := by rw [hermiteH_span]; trivial
    induction hQ using Submodule.span_induction with
    | mem Q hQ => obtain ⟨j, rfl⟩ := hQ; exact h0 i j
    | zero => simp [polyGauss]
    | add Q R _ _ hQ hR =>
      have e : (fun v => h v * polyGauss α (hermiteH i) (Q + R) v) = fun v => h v * polyGauss α (hermiteH i) Q v +
          h v * polyGauss α (hermiteH i) R v := by
        funext v; simp only [polyGauss, eval_add]; ring
      rw [e, integral_add (hint _ _) (hint _ _), hQ, hR, add_zero]
    | smul a Q _ hQ =>
      have e : (fun v => h v * polyGauss α (hermiteH i) (a • Q) v) = fun v => a * (h v * polyGauss α (hermiteH i) Q v) := by
        funext v; simp only [polyGauss, eval_smul, smul_eq_mul]; ring
      rw [e, integral_const_mul, hQ, mul_zero]
  have s2 : ∀ P Q : ℝ[X], ∫ v, h v * polyGauss α P Q v = 0 := by
    intro P Q
    have hP : P ∈ Submodule.span ℝ (Set.range hermiteH) := by rw [hermiteH_span]; trivial
    induction hP using Submodule.span_induction with
    | mem P hP => obtain ⟨j, rfl⟩ := hP; exact s1 j Q
    | zero => simp [polyGauss]
    | add P R _ _ hP hR =>
      have e : (fun v => h v * polyGauss α (P + R) Q v) = fun v => h v * polyGauss α P Q v + h v * polyGauss α R Q v := by
        funext v; simp only [polyGauss, eval_add]; ring
      rw [e, integral_add (hint _ _) (hint _ _), hP, hR, add_zero]
    | smul a P _ hP =>
      have e : (fun v => h v * polyGauss α (a • P) Q v) = fun v => a * (h v * polyGauss α P Q v) := by
        funext v; simp only [polyGauss, eval_smul, smul_eq_mul]; ring
      rw [e, integral_const_mul, hP, mul_zero]
  have hG : ∀ v : ℝ × ℝ, 0 < Real.exp (-((α * v.1) ^ 2 + (α * v.2) ^ 2) / 2) := fun v => Real.exp_pos _
  have hmeas : AEStronglyMeasurable (fun v => h v * polyGauss α 1 1 v) :=
    hh.aestronglyMeasurable.mul (polyGauss_continuous _ _ _).aestronglyMeasurable
  have hz : (fun v => h v * polyGauss α 1 1 v) =ᵐ[volume] 0 := by
    refine ae_zero_of_moments (fun a b => ?_) hmeas fun m n => ?_
    · -- exponential factors cost half of the Gaussian
      have hs : 0 < α / Real.sqrt 2 := by positivity
      have h2 : Real.sqrt 2 ^ 2 = 2 := Real.sq_sqrt (by norm_num)
      have hi := (hh.integrable_mul (polyGauss_memLp hs.ne' 1 1)).norm.const_mul (Real.exp (a ^ 2 / α ^ 2 + b ^ 2 / α ^ 2))
      refine hi.mono' ((Continuous.aestronglyMeasurable (by fun_prop)).mul hmeas.norm) (Eventually.of_forall fun v => ?_)
      simp only [polyGauss, eval_one, one_mul, norm_mul, Real.norm_eq_abs, abs_mul, abs_abs, Real.abs_exp, Pi.mul_apply]
      have key : ∀ a x : ℝ, a * |x| - (α * x) ^ 2 / 2 ≤ a ^ 2 / α ^ 2 - (α / Real.sqrt 2 * x) ^ 2 / 2 := by
        intro a x
        rw [mul_pow (α / _), div_pow, h2]
        have e : a * |x| = 2 * (a / α) * (α * |x| / 2) := by field_simp
        have := sq_nonneg (a / α - α * |x| / 2)
        have e2 : (α * |x| / 2) ^ 2 = α ^ 2 * x ^ 2 / 4 := by rw [div_pow, mul_pow, sq_abs]; norm_num
        rw [← div_pow]
        nlinarith
      have k1 := key a v.1
      have k2 := key b v.2
      have hle : Real.exp (a * |v.1| + b * |v.2|) * Real.exp (-((α * v.1) ^ 2 + (α * v.2) ^ 2) / 2) ≤
          Real.exp (a ^ 2 / α ^ 2 + b ^ 2 / α ^ 2) *
            Real.exp (-((α / Real.sqrt 2 * v.1) ^ 2 + (α / Real.sqrt 2 * v.2) ^ 2) / 2) := by
        rw [← Real.exp_add, ← Real.exp_add]
        refine Real.exp_le_exp.2 ?_
        linarith
      calc _ = |h v| * (Real.exp (a * |v.1| + b * |v.2|) * Real.exp (-((α * v.1) ^ 2 + (α * v.2) ^ 2) / 2)) := by ring
        _ ≤ |h v| * (Real.exp (a ^ 2 / α ^ 2 + b ^ 2 / α ^ 2) *
            Real.exp (-((α / Real.sqrt 2 * v.1) ^ 2 + (α / Real.sqrt 2 * v.2) ^ 2) / 2)) :=
          mul_le_mul_of_nonneg_left hle (abs_nonneg _)
        _ = _ := by ring
    · have e : (fun v : ℝ × ℝ => v.1 ^ m * v.2 ^ n * (h v * polyGauss α 1 1 v)) =
          fun v => (1 / α ^ (m + n)) * (h v * polyGauss α (X ^ m) (X ^ n) v) := by
        funext v
        simp only [polyGauss, eval_one, eval_pow, eval_X, mul_pow, pow_add]
        field_simp
      rw [e, integral_const_mul, s2, mul_zero]
  filter_upwards [hz] with v hv
  simp only [polyGauss, eval_one, one_mul, Pi.zero_apply, mul_eq_zero, (hG v).ne', or_false] at hv
  exact hv

end Lasy
