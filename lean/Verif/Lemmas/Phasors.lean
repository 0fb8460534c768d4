import Mathlib.Probability.Independence.Integration
import Mathlib.Analysis.Complex.Basic
import Mathlib.MeasureTheory.Constructions.BorelSpace.Complex
import Mathlib.MeasureTheory.Function.L1Space.Integrable
import Mathlib.Analysis.SpecialFunctions.Integrals.Basic

/-!
# Sums of independent random phasors

`u i` are independent complex random variables of modulus 1 with mean zero. Moments of `∑ a i * u i`.
-/

namespace Lasy
open MeasureTheory ProbabilityTheory Complex

variable {Ω : Type*} [MeasurableSpace Ω] {P : Measure Ω} [IsProbabilityMeasure P] {ι : Type*}

/-- a bounded measurable function is integrable -/
theorem integrable_of_bounded {E : Type*} [NormedAddCommGroup E] [MeasurableSpace E] [BorelSpace E]
    [SecondCountableTopology E] {f : Ω → E} (hf : Measurable f) (C : ℝ) (h : ∀ ω, ‖f ω‖ ≤ C) : Integrable f P :=
  Integrable.of_bound hf.aestronglyMeasurable C (Filter.Eventually.of_forall h)

/-- two of the phasors: correlation -/
theorem phasor_pair [DecidableEq ι] {u : ι → Ω → ℂ} (hm : ∀ i, Measurable (u i)) (hi : iIndepFun u P)
    (h1 : ∀ i ω, ‖u i ω‖ = 1) (h0 : ∀ i, ∫ ω, u i ω ∂P = 0) (i j : ι) :
    ∫ ω, u i ω * (starRingEnd ℂ) (u j ω) ∂P = if i = j then 1 else 0 := by
  split_ifs with h
  · subst h
    have : ∀ ω, u i ω * (starRingEnd ℂ) (u i ω) = 1 := fun ω => by
      rw [Complex.mul_conj, Complex.normSq_eq_norm_sq, h1]; simp
    simp [this]
  · have hij : IndepFun (u i) (fun ω => (starRingEnd ℂ) (u j ω)) P :=
      (hi.indepFun h).comp measurable_id (Complex.continuous_conj.measurable)
    rw [hij.integral_fun_mul_eq_mul_integral (hm i).aestronglyMeasurable
      (Complex.continuous_conj.measurable.comp (hm j)).aestronglyMeasurable, h0, zero_mul]

/-- the correlation of two weighted sums of phasors -/
theorem phasor_corr [Fintype ι] [DecidableEq ι] {u : ι → Ω → ℂ} (hm : ∀ i, Measurable (u i)) (hi : iIndepFun u P)
    (h1 : ∀ i ω, ‖u i ω‖ = 1) (h0 : ∀ i, ∫ ω, u i ω ∂P = 0) (a b : ι → ℂ) :
    ∫ ω, (∑ i, a i * u i ω) * (starRingEnd ℂ) (∑ i, b i * u i ω) ∂P = ∑ i, a i * (starRingEnd ℂ) (b i) := by
  have hint : ∀ i j, Integrable (fun ω => u i ω * (starRingEnd ℂ) (u j ω)) P := fun i j =>
    integrable_of_bounded ((hm i).mul (Complex.continuous_conj.measurable.comp (hm j))) 1
      (fun ω => by simp [h1])
  have hexp : ∀ ω, (∑ i, a i * u i ω) * (starRingEnd ℂ) (∑ i, b i * u i ω) =
      ∑ i, ∑ j, (a i * (starRingEnd ℂ) (b j)) * (u i ω * (starRingEnd ℂ) (u j ω)) := fun ω => by
    rw [map_sum, Finset.sum_mul_sum]
    refine Finset.sum_congr rfl fun i _ => Finset.sum_congr rfl fun j _ => ?_
    rw [map_mul]; ring
  simp only [hexp]
  rw [integral_finsetSum _ fun i _ => integrable_finsetSum _ fun j _ => (hint i j).const_mul _]
  refine Finset.sum_congr rfl fun i _ => ?_
  rw [integral_finsetSum _ fun j _ => (hint i j).const_mul _]
  simp only [integral_const_mul, phasor_pair hm hi h1 h0]
  simp

/-- the mean of a weighted sum of phasors -/
theorem phasor_mean [Fintype ι] {u : ι → Ω → ℂ} (hm : ∀ i, Measurable (u i))
    (h1 : ∀ i ω, ‖u i ω‖ = 1) (h0 : ∀ i, ∫ ω, u i ω ∂P = 0) (a : ι → ℂ) :
    ∫ ω, (∑ i, a i * u i ω) ∂P = 0 := by
  rw [integral_finsetSum _ fun i _ => (integrable_of_bounded (hm i) 1 fun ω => (h1 i ω).le).const_mul _]
  simp [integral_const_mul, h0]

/-- the mean squared modulus -/
theorem phasor_second [Fintype ι] [DecidableEq ι] {u : ι → Ω → ℂ} (hm : ∀ i, Measurable (u i)) (hi : iIndepFun u P)
    (h1 : ∀ i ω, ‖u i ω‖ = 1) (h0 : ∀ i, ∫ ω, u i ω ∂P = 0) (a : ι → ℂ) :
    ∫ ω, ‖∑ i, a i * u i ω‖ ^ 2 ∂P = ∑ i, ‖a i‖ ^ 2 := by
  have h := phasor_corr hm hi h1 h0 a a
  have e : ∀ z : ℂ, z * (starRingEnd ℂ) z = ((‖z‖ ^ 2 : ℝ) : ℂ) := fun z => by
    rw [Complex.mul_conj, Complex.normSq_eq_norm_sq]
  simp only [e] at h
  rw [integral_complex_ofReal] at h
  exact_mod_cast h

/-- one step: adding an independent phasor -/
theorem phasor_step {S w : Ω → ℂ} (hS : Measurable S) (hw : Measurable w) (C : ℝ) (hC : ∀ ω, ‖S ω‖ ≤ C)
    (hi : IndepFun S w P) (B : ℝ) (hwB : ∀ ω, ‖w ω‖ = B) (hw1 : ∫ ω, w ω ∂P = 0) (hw2 : ∫ ω, w ω ^ 2 ∂P = 0) :
    ∫ ω, ‖S ω + w ω‖ ^ 2 ∂P = ∫ ω, ‖S ω‖ ^ 2 ∂P + B ^ 2 ∧
    ∫ ω, ‖S ω + w ω‖ ^ 4 ∂P = ∫ ω, ‖S ω‖ ^ 4 ∂P + 4 * B ^ 2 * ∫ ω, ‖S ω‖ ^ 2 ∂P + B ^ 4 := by
  have hconj : Measurable (starRingEnd ℂ) := Complex.continuous_conj.measurable
  have hC0 : 0 ≤ C := (norm_nonneg _).trans (hC (Classical.choice (nonempty_of_isProbabilityMeasure P)))
  have hcw1 : ∫ ω, (starRingEnd ℂ) (w ω) ∂P = 0 := by rw [integral_conj, hw1, map_zero]
  have hcw2 : ∫ ω, (starRingEnd ℂ) (w ω) ^ 2 ∂P = 0 := by
    simp only [← map_pow]
    rw [integral_conj, hw2, map_zero]
  have key : ∀ (g : ℂ → ℂ) (k : ℂ → ℂ), Measurable g → Measurable k → ∫ ω, k (w ω) ∂P = 0 →
      ∫ ω, g (S ω) * k (w ω) ∂P = 0 := by
    intro g k hg hk h
    have := (hi.comp hg hk).integral_fun_mul_eq_mul_integral (hg.comp hS).aestronglyMeasurable
      (hk.comp hw).aestronglyMeasurable
    simp only [Function.comp] at this
    rw [this, h, mul_zero]
  have hre : ∀ F : Ω → ℂ, Integrable F P → ∫ ω, F ω ∂P = 0 → ∫ ω, (F ω).re ∂P = 0 := by
    intro F hF h
    have := integral_re hF
    simp only [RCLike.re_to_complex] at this
    rw [this, h]; simp
  have hid : Measurable (id : ℂ → ℂ) := measurable_id
  -- the three cross terms
  have m1 : Measurable fun ω => S ω * (starRingEnd ℂ) (w ω) := hS.mul (hconj.comp hw)
  have i1 : Integrable (fun ω => S ω * (starRingEnd ℂ) (w ω)) P :=
    integrable_of_bounded m1 (C * B) fun ω => by
      rw [norm_mul, RCLike.norm_conj, hwB]
      exact mul_le_mul_of_nonneg_right (hC ω) (hwB ω ▸ norm_nonneg _)
  have hB0 : 0 ≤ B := hwB (Classical.choice (nonempty_of_isProbabilityMeasure P)) ▸ norm_nonneg _
  have k1 : ∫ ω, S ω * (starRingEnd ℂ) (w ω) ∂P = 0 := key id (starRingEnd ℂ) hid hconj hcw1
  have c1 := hre _ i1 k1
  have mn : Measurable fun ω => ‖S ω‖ := hS.norm
  have i2 : Integrable (fun ω => ((‖S ω‖ ^ 2 : ℝ) : ℂ) * S ω * (starRingEnd ℂ) (w ω)) P :=
    integrable_of_bounded (((Complex.measurable_ofReal.comp (mn.pow_const 2)).mul hS).mul (hconj.comp hw)) (C ^ 2 * C * B)
      fun ω => by
        rw [norm_mul, norm_mul, RCLike.norm_conj, hwB, Complex.norm_real, Real.norm_eq_abs, abs_of_nonneg (by positivity)]
        have := hC ω
        gcongr
  have k2 : ∫ ω, ((‖S ω‖ ^ 2 : ℝ) : ℂ) * S ω * (starRingEnd ℂ) (w ω) ∂P = 0 :=
    key (fun z => ((‖z‖ ^ 2 : ℝ) : ℂ) * z) (starRingEnd ℂ)
      ((Complex.measurable_ofReal.comp (measurable_norm.pow_const 2)).mul measurable_id) hconj hcw1
  have c2 := hre _ i2 k2
  have i3 : Integrable (fun ω => S ω ^ 2 * (starRingEnd ℂ) (w ω) ^ 2) P :=
    integrable_of_bounded ((hS.pow_const 2).mul ((hconj.comp hw).pow_const 2)) (C ^ 2 * B ^ 2)
      fun ω => by
        rw [norm_mul, norm_pow, norm_pow, RCLike.norm_conj, hwB]
        have := hC ω
        gcongr
  have k3 : ∫ ω, S ω ^ 2 * (starRingEnd ℂ) (w ω) ^ 2 ∂P = 0 :=
    key (fun z => z ^ 2) (fun z => (starRingEnd ℂ) z ^ 2) (measurable_id.pow_const 2) (hconj.pow_const 2) hcw2
  have c3 := hre _ i3 k3
  have j2 : Integrable (fun ω => ‖S ω‖ ^ 2) P := integrable_of_bounded (mn.pow_const 2) (C ^ 2) fun ω => by
    rw [Real.norm_eq_abs, abs_of_nonneg (by positivity)]
    have := hC ω
    gcongr
  have j4 : Integrable (fun ω => ‖S ω‖ ^ 4) P := integrable_of_bounded (mn.pow_const 4) (C ^ 4) fun ω => by
    rw [Real.norm_eq_abs, abs_of_nonneg (by positivity)]
    have := hC ω
    gcongr
  have expand : ∀ ω, ‖S ω + w ω‖ ^ 2 = ‖S ω‖ ^ 2 + B ^ 2 + 2 * (S ω * (starRingEnd ℂ) (w ω)).re := fun ω => by
    rw [← hwB ω, ← Complex.normSq_eq_norm_sq, ← Complex.normSq_eq_norm_sq, ← Complex.normSq_eq_norm_sq,
      Complex.normSq_add]
  refine ⟨?_, ?_⟩
  · simp only [expand]
    have a1 : Integrable (fun ω => ‖S ω‖ ^ 2 + B ^ 2) P := j2.add (integrable_const _)
    have b1 : Integrable (fun ω => 2 * (S ω * (starRingEnd ℂ) (w ω)).re) P := i1.re.const_mul 2
    rw [integral_add a1 b1, integral_add j2 (integrable_const _), integral_const_mul, c1]
    simp
  · have expand4 : ∀ ω, ‖S ω + w ω‖ ^ 4 = ‖S ω‖ ^ 4 + 4 * B ^ 2 * ‖S ω‖ ^ 2 + B ^ 4 +
        (4 * (((‖S ω‖ ^ 2 : ℝ) : ℂ) * S ω * (starRingEnd ℂ) (w ω)).re +
          4 * B ^ 2 * (S ω * (starRingEnd ℂ) (w ω)).re + 2 * (S ω ^ 2 * (starRingEnd ℂ) (w ω) ^ 2).re) := fun ω => by
      have h4 : ‖S ω + w ω‖ ^ 4 = (‖S ω + w ω‖ ^ 2) ^ 2 := by ring
      have hr : (((‖S ω‖ ^ 2 : ℝ) : ℂ) * S ω * (starRingEnd ℂ) (w ω)).re = ‖S ω‖ ^ 2 * (S ω * (starRingEnd ℂ) (w ω)).re := by
        rw [mul_assoc, Complex.re_ofReal_mul]
      have hz : (S ω ^ 2 * (starRingEnd ℂ) (w ω) ^ 2).re =
          2 * (S ω * (starRingEnd ℂ) (w ω)).re ^ 2 - ‖S ω‖ ^ 2 * B ^ 2 := by
        have hn : ‖S ω‖ ^ 2 * B ^ 2 = Complex.normSq (S ω * (starRingEnd ℂ) (w ω)) := by
          rw [Complex.normSq_mul, Complex.normSq_conj, Complex.normSq_eq_norm_sq, Complex.normSq_eq_norm_sq, hwB]
        rw [hn, Complex.normSq_apply, ← mul_pow, sq (S ω * _), Complex.mul_re]
        ring
      rw [h4, expand, hr, hz]
      ring
    simp only [expand4]
    have a1 : Integrable (fun ω => ‖S ω‖ ^ 4 + 4 * B ^ 2 * ‖S ω‖ ^ 2) P := j4.add (j2.const_mul _)
    have a2 : Integrable (fun ω => ‖S ω‖ ^ 4 + 4 * B ^ 2 * ‖S ω‖ ^ 2 + B ^ 4) P := a1.add (integrable_const _)
    have b1 : Integrable (fun ω => 4 * (((‖S ω‖ ^ 2 : ℝ) : ℂ) * S ω * (starRingEnd ℂ) (w ω)).re) P := i2.re.const_mul 4
    have b2 : Integrable (fun ω => 4 * B ^ 2 * (S ω * (starRingEnd ℂ) (w ω)).re) P := i1.re.const_mul _
    have b3 : Integrable (fun ω => 2 * (S ω ^ 2 * (starRingEnd ℂ) (w ω) ^ 2).re) P := i3.re.const_mul _
    have b12 : Integrable (fun ω => 4 * (((‖S ω‖ ^ 2 : ℝ) : ℂ) * S ω * (starRingEnd ℂ) (w ω)).re +
      4 * B ^ 2 * (S ω * (starRingEnd ℂ) (w ω)).re) P := b1.add b2
    have b123 : Integrable (fun ω => 4 * (((‖S ω‖ ^ 2 : ℝ) : ℂ) * S ω * (starRingEnd ℂ) (w ω)).re +
      4 * B ^ 2 * (S ω * (starRingEnd ℂ) (w ω)).re + 2 * (S ω ^ 2 * (starRingEnd ℂ) (w ω) ^ 2).re) P := b12.add b3
    rw [integral_add a2 b123, integral_add a1 (integrable_const _), integral_add j4 (j2.const_mul _)]
    have e : ∫ ω, (4 * (((‖S ω‖ ^ 2 : ℝ) : ℂ) * S ω * (starRingEnd ℂ) (w ω)).re +
          4 * B ^ 2 * (S ω * (starRingEnd ℂ) (w ω)).re + 2 * (S ω ^ 2 * (starRingEnd ℂ) (w ω) ^ 2).re) ∂P = 0 := by
      rw [integral_add b12 b3, integral_add b1 b2, integral_const_mul, integral_const_mul, integral_const_mul,
        c1, c2, c3]
      ring
    rw [e, integral_const_mul]
    simp

/-- second and fourth moments of a sum over a finite set -/
theorem phasor_fourth_aux {u : ι → Ω → ℂ} (hm : ∀ i, Measurable (u i)) (hi : iIndepFun u P) {B : ι → ℝ}
    (h1 : ∀ i ω, ‖u i ω‖ = B i) (h0 : ∀ i, ∫ ω, u i ω ∂P = 0) (h2 : ∀ i, ∫ ω, u i ω ^ 2 ∂P = 0) (s : Finset ι) :
    ∫ ω, ‖∑ i ∈ s, u i ω‖ ^ 2 ∂P = ∑ i ∈ s, B i ^ 2 ∧
    ∫ ω, ‖∑ i ∈ s, u i ω‖ ^ 4 ∂P = 2 * (∑ i ∈ s, B i ^ 2) ^ 2 - ∑ i ∈ s, B i ^ 4 := by
  classical
  induction s using Finset.induction_on with
  | empty => simp
  | insert j s hj ih =>
    have hS : Measurable fun ω => ∑ i ∈ s, u i ω := Finset.measurable_sum s fun i _ => hm i
    have hind : IndepFun (fun ω => ∑ i ∈ s, u i ω) (u j) P := by
      have := hi.indepFun_finsetSum_of_notMem hm hj
      convert this using 1
      funext ω
      simp
    have st := phasor_step hS (hm j) (∑ i ∈ s, B i) (fun ω => (norm_sum_le _ _).trans
      (Finset.sum_le_sum fun i _ => (h1 i ω).le)) hind (B j) (h1 j) (h0 j) (h2 j)
    have e : ∀ ω, ∑ i ∈ insert j s, u i ω = ∑ i ∈ s, u i ω + u j ω := fun ω => by
      rw [Finset.sum_insert hj, add_comm]
    simp only [e]
    rw [st.1, st.2, ih.1, ih.2, Finset.sum_insert hj, Finset.sum_insert hj]
    constructor <;> ring

/-- the fourth moment of a weighted sum of phasors whose squares also have mean zero -/
theorem phasor_fourth [Fintype ι] {u : ι → Ω → ℂ} (hm : ∀ i, Measurable (u i)) (hi : iIndepFun u P)
    (h1 : ∀ i ω, ‖u i ω‖ = 1) (h0 : ∀ i, ∫ ω, u i ω ∂P = 0) (h2 : ∀ i, ∫ ω, u i ω ^ 2 ∂P = 0) (a : ι → ℂ) :
    ∫ ω, ‖∑ i, a i * u i ω‖ ^ 4 ∂P = 2 * (∑ i, ‖a i‖ ^ 2) ^ 2 - ∑ i, ‖a i‖ ^ 4 := by
  refine (phasor_fourth_aux (u := fun i ω => a i * u i ω) (fun i => (hm i).const_mul _) ?_ (B := fun i => ‖a i‖)
    (fun i ω => by rw [norm_mul, h1, mul_one]) (fun i => by rw [integral_const_mul, h0, mul_zero])
    (fun i => ?_) Finset.univ).2
  · exact hi.comp (fun i z => a i * z) fun i => measurable_const_mul (a i)
  · simp only [mul_pow]
    rw [integral_const_mul, h2, mul_zero]

/-- the moments of `exp(i φ)` for `φ` uniform on an interval of length `2π` -/
theorem uniform_phasor {U : Ω → ℝ} (hU : Measurable U) (hlaw : P.map U = volume.restrict (Set.Ico 0 1)) (α : ℝ) (k : ℕ)
    (hk : k ≠ 0) : ∫ ω, exp (I * ((α + 2 * Real.pi * U ω : ℝ) : ℂ)) ^ k ∂P = 0 := by
  have hc : Continuous fun x : ℝ => exp (I * ((α + 2 * Real.pi * x : ℝ) : ℂ)) ^ k := by fun_prop
  have h := integral_map (μ := P) hU.aemeasurable (f := fun x : ℝ => exp (I * ((α + 2 * Real.pi * x : ℝ) : ℂ)) ^ k)
    hc.aestronglyMeasurable
  rw [← h, hlaw, integral_Ico_eq_integral_Ioc, ← intervalIntegral.integral_of_le zero_le_one]
  have hc0 : (2 * Real.pi * k * I : ℂ) ≠ 0 := by
    have := Real.pi_pos.ne'
    simp [hk, this]
  have e : ∀ x : ℝ, exp (I * ((α + 2 * Real.pi * x : ℝ) : ℂ)) ^ k = exp (k * (I * α)) * exp ((2 * Real.pi * k * I : ℂ) * x) := by
    intro x
    rw [← Complex.exp_nat_mul, ← Complex.exp_add]
    congr 1
    push_cast
    ring
  simp only [e]
  rw [intervalIntegral.integral_const_mul, integral_exp_mul_complex hc0]
  have : exp ((2 * Real.pi * k * I : ℂ) * (1 : ℝ)) = 1 := by
    rw [Complex.exp_eq_one_iff]
    exact ⟨k, by push_cast; ring⟩
  rw [this]
  simp

end Lasy
