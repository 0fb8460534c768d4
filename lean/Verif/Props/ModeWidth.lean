import Verif.Props.ModeFine
import Verif.Props.Paraxial
import Mathlib.MeasureTheory.Integral.IntegralEqImproper

/-!
# Property C162: the `D4σ` width of the picture of a Hermite-Gauss mode
-/

namespace Lasy
open MeasureTheory Filter

/-- the three-term recurrence of the Hermite polynomials, with the Gaussian -/
theorem mul_hgFactor {w : ℝ} (hw : 0 < w) (n : ℕ) (x : ℝ) : x * hgFactor w n x =
    w / Real.sqrt 2 * (1 / 2 * hgFactor w (n + 1) x + n * hgFactor w (n - 1) x) := by
  have h2 : Real.sqrt 2 ≠ 0 := by positivity
  have hd : (hermiteH n).derivative = Polynomial.C (2 * (n : ℝ)) * hermiteH (n - 1) := by
    cases n with
    | zero => simp [hermiteH]
    | succ n => rw [hermiteH_derivative]; simp
  unfold hgFactor
  rw [hermiteH_succ, hd]
  simp only [Polynomial.eval_sub, Polynomial.eval_mul, Polynomial.eval_C, Polynomial.eval_X]
  have hx : w / Real.sqrt 2 * (Real.sqrt 2 * x / w) = x := by field_simp
  linear_combination (-(hermiteH n).eval (Real.sqrt 2 * x / w) * Real.exp (-x ^ 2 / w ^ 2)) * hx

theorem mul_hgFactor_sq {w : ℝ} (hw : 0 < w) (n : ℕ) (x : ℝ) : x * hgFactor w n x ^ 2 =
    w / Real.sqrt 2 * (1 / 2 * (hgFactor w (n + 1) x * hgFactor w n x) + n * (hgFactor w (n - 1) x * hgFactor w n x)) := by
  rw [pow_two, ← mul_assoc, mul_hgFactor hw]
  ring

theorem sq_mul_hgFactor_sq {w : ℝ} (hw : 0 < w) (n : ℕ) (x : ℝ) : x ^ 2 * hgFactor w n x ^ 2 =
    w ^ 2 / 2 * (1 / 4 * (hgFactor w (n + 1) x * hgFactor w (n + 1) x) + n * (hgFactor w (n + 1) x * hgFactor w (n - 1) x) +
      n ^ 2 * (hgFactor w (n - 1) x * hgFactor w (n - 1) x)) := by
  have h22 : Real.sqrt 2 ^ 2 = 2 := Real.sq_sqrt (by norm_num)
  rw [← mul_pow, mul_hgFactor hw, mul_pow, div_pow, h22]
  ring

/-- the moments of one factor over the whole line -/
theorem integrable_hgFactor_moments {w : ℝ} (hw : 0 < w) (n : ℕ) :
    (Integrable fun x => hgFactor w n x ^ 2) ∧ (Integrable fun x => x * hgFactor w n x ^ 2) ∧
      Integrable fun x => x ^ 2 * hgFactor w n x ^ 2 := by
  refine ⟨?_, ?_, ?_⟩
  · simp only [pow_two]; exact integrable_hgFactor_mul hw n n
  · simp only [mul_hgFactor_sq hw]
    exact (((integrable_hgFactor_mul hw _ _).const_mul _).add ((integrable_hgFactor_mul hw _ _).const_mul _)).const_mul _
  · simp only [sq_mul_hgFactor_sq hw]
    exact ((((integrable_hgFactor_mul hw _ _).const_mul _).add ((integrable_hgFactor_mul hw _ _).const_mul _)).add
      ((integrable_hgFactor_mul hw _ _).const_mul _)).const_mul _

theorem integral_hgFactor_sq_pos {w : ℝ} (hw : 0 < w) (n : ℕ) : 0 < ∫ x, hgFactor w n x ^ 2 := by
  simp only [pow_two, integral_hgFactor_mul hw, if_true]
  positivity

theorem integral_mul_hgFactor_sq {w : ℝ} (hw : 0 < w) (n : ℕ) : ∫ x, x * hgFactor w n x ^ 2 = 0 := by
  simp only [mul_hgFactor_sq hw]
  rw [integral_const_mul, integral_add ((integrable_hgFactor_mul hw _ _).const_mul _) ((integrable_hgFactor_mul hw _ _).const_mul _),
    integral_const_mul, integral_const_mul, integral_hgFactor_mul hw, integral_hgFactor_mul hw, if_neg (by omega)]
  cases n with
  | zero => simp
  | succ n => simp

theorem integral_sq_mul_hgFactor_sq {w : ℝ} (hw : 0 < w) (n : ℕ) : ∫ x, x ^ 2 * hgFactor w n x ^ 2 =
    w ^ 2 * (2 * n + 1) / 4 * ∫ x, hgFactor w n x ^ 2 := by
  have i1 := (integrable_hgFactor_mul hw (n + 1) (n + 1)).const_mul (1 / 4)
  have i2 := (integrable_hgFactor_mul hw (n + 1) (n - 1)).const_mul (n : ℝ)
  have i3 := (integrable_hgFactor_mul hw (n - 1) (n - 1)).const_mul ((n : ℝ) ^ 2)
  have i12 : Integrable fun x => 1 / 4 * (hgFactor w (n + 1) x * hgFactor w (n + 1) x) +
      n * (hgFactor w (n + 1) x * hgFactor w (n - 1) x) := i1.add i2
  have e0 : ∫ x, hgFactor w n x ^ 2 = w / Real.sqrt 2 * (2 ^ n * n.factorial * Real.sqrt Real.pi) := by
    simp only [pow_two, integral_hgFactor_mul hw, if_true]
  rw [e0]
  simp only [sq_mul_hgFactor_sq hw]
  rw [integral_const_mul, integral_add i12 i3, integral_add i1 i2, integral_const_mul, integral_const_mul,
    integral_const_mul, integral_hgFactor_mul hw, integral_hgFactor_mul hw, integral_hgFactor_mul hw, if_pos rfl,
    if_neg (show ¬ n + 1 = n - 1 by omega), if_pos rfl]
  cases n with
  | zero => simp; ring
  | succ n =>
    simp only [Nat.add_sub_cancel, Nat.factorial_succ]
    push_cast
    ring

theorem hgFactor_continuous (w : ℝ) (n : ℕ) : Continuous fun x => hgFactor w n x := by
  unfold hgFactor
  fun_prop

/-! ## Windows that grow -/

/-- a moment of a window -/
noncomputable def windowMoment (w : ℝ) (n k : ℕ) (a b : ℝ) : ℝ := ∫ x in a..b, x ^ k * hgFactor w n x ^ 2

theorem windowMoment_tendsto {w : ℝ} (hw : 0 < w) (n : ℕ) :
    Tendsto (fun v : ℝ × ℝ => windowMoment w n 0 v.1 v.2) (atBot ×ˢ atTop) (nhds (∫ x, hgFactor w n x ^ 2)) ∧
    Tendsto (fun v : ℝ × ℝ => windowMoment w n 1 v.1 v.2) (atBot ×ˢ atTop) (nhds 0) ∧
    Tendsto (fun v : ℝ × ℝ => windowMoment w n 2 v.1 v.2) (atBot ×ˢ atTop)
      (nhds (w ^ 2 * (2 * n + 1) / 4 * ∫ x, hgFactor w n x ^ 2)) := by
  obtain ⟨i0, i1, i2⟩ := integrable_hgFactor_moments hw n
  refine ⟨?_, ?_, ?_⟩
  · simpa [windowMoment] using intervalIntegral_tendsto_integral i0 tendsto_fst tendsto_snd
  · have := intervalIntegral_tendsto_integral i1 (l := atBot ×ˢ atTop) tendsto_fst tendsto_snd
    rw [integral_mul_hgFactor_sq hw] at this
    simpa [windowMoment] using this
  · have := intervalIntegral_tendsto_integral i2 (l := atBot ×ˢ atTop) tendsto_fst tendsto_snd
    rw [integral_sq_mul_hgFactor_sq hw] at this
    simpa [windowMoment] using this

/-- the variance of a factor on a growing window -/
theorem windowVariance_tendsto {w : ℝ} (hw : 0 < w) (n : ℕ) :
    Tendsto (fun v : ℝ × ℝ => windowMoment w n 2 v.1 v.2 / windowMoment w n 0 v.1 v.2 -
      (windowMoment w n 1 v.1 v.2 / windowMoment w n 0 v.1 v.2) ^ 2) (atBot ×ˢ atTop) (nhds (w ^ 2 * (2 * n + 1) / 4)) := by
  obtain ⟨t0, t1, t2⟩ := windowMoment_tendsto hw n
  have h := (integral_hgFactor_sq_pos hw n).ne'
  have := (t2.div t0 h).sub ((t1.div t0 h).pow 2)
  rwa [mul_div_assoc, div_self h, zero_div, mul_one, zero_pow two_ne_zero, sub_zero] at this

theorem windowWidth_tendsto {w : ℝ} (hw : 0 < w) (n : ℕ) :
    Tendsto (fun v : ℝ × ℝ => 4 * Real.sqrt (windowMoment w n 2 v.1 v.2 / windowMoment w n 0 v.1 v.2 -
      (windowMoment w n 1 v.1 v.2 / windowMoment w n 0 v.1 v.2) ^ 2)) (atBot ×ˢ atTop)
      (nhds (2 * w * Real.sqrt (2 * n + 1))) := by
  have := ((Real.continuous_sqrt.tendsto _).comp (windowVariance_tendsto hw n)).const_mul 4
  rw [show w ^ 2 * (2 * (n : ℝ) + 1) / 4 = (w / 2) ^ 2 * (2 * n + 1) by ring, Real.sqrt_mul (by positivity),
    Real.sqrt_sq (by positivity), show 4 * (w / 2 * Real.sqrt (2 * (n : ℝ) + 1)) = 2 * w * Real.sqrt (2 * n + 1) by ring] at this
  exact this

theorem windowIntegral_prod (lo hi : ℝ × ℝ) (A B : ℝ → ℝ) :
    windowIntegral lo hi (fun x y => A x * B y) = (∫ x in lo.1..hi.1, A x) * ∫ y in lo.2..hi.2, B y := by
  simp only [windowIntegral, intervalIntegral.integral_const_mul, intervalIntegral.integral_mul_const]

theorem integral_centred (w : ℝ) (n : ℕ) (a b c : ℝ) : ∫ x in a..b, (x - c) ^ 2 * hgFactor w n x ^ 2 =
    windowMoment w n 2 a b - 2 * c * windowMoment w n 1 a b + c ^ 2 * windowMoment w n 0 a b := by
  have hc : ∀ k : ℕ, IntervalIntegrable (fun x : ℝ => x ^ k * hgFactor w n x ^ 2) volume a b := fun k =>
    ((continuous_id.pow k).mul ((hgFactor_continuous w n).pow 2)).intervalIntegrable _ _
  unfold windowMoment
  rw [← intervalIntegral.integral_const_mul, ← intervalIntegral.integral_const_mul,
    ← intervalIntegral.integral_sub (hc 2) ((hc 1).const_mul _), ← intervalIntegral.integral_add ((hc 2).sub ((hc 1).const_mul _))
      ((hc 0).const_mul _)]
  congr 1
  funext x
  ring

/-- centroid and variance of a picture that is the product of two factors -/
theorem picture_variance {w K : ℝ} (hK : K ≠ 0) (i j : ℕ) {lo hi : ℝ × ℝ} (hx : windowMoment w i 0 lo.1 hi.1 ≠ 0)
    (hy : windowMoment w j 0 lo.2 hi.2 ≠ 0) {G : ℝ → ℝ → ℝ}
    (hG : G = fun x y => K * (hgFactor w i x ^ 2 * hgFactor w j y ^ 2)) :
    windowIntegral lo hi G ≠ 0 ∧
    windowIntegral lo hi (fun x y => (x - (centroid lo hi G).1) ^ 2 * G x y) / windowIntegral lo hi G =
      windowMoment w i 2 lo.1 hi.1 / windowMoment w i 0 lo.1 hi.1 - (windowMoment w i 1 lo.1 hi.1 / windowMoment w i 0 lo.1 hi.1) ^ 2 ∧
    windowIntegral lo hi (fun x y => (y - (centroid lo hi G).2) ^ 2 * G x y) / windowIntegral lo hi G =
      windowMoment w j 2 lo.2 hi.2 / windowMoment w j 0 lo.2 hi.2 - (windowMoment w j 1 lo.2 hi.2 / windowMoment w j 0 lo.2 hi.2) ^ 2 := by
  have e0 : windowIntegral lo hi G = K * (windowMoment w i 0 lo.1 hi.1 * windowMoment w j 0 lo.2 hi.2) := by
    rw [hG, show (fun x y => K * (hgFactor w i x ^ 2 * hgFactor w j y ^ 2)) =
      fun x y => (K * hgFactor w i x ^ 2) * hgFactor w j y ^ 2 by funext x y; ring, windowIntegral_prod,
      intervalIntegral.integral_const_mul]
    simp [windowMoment, mul_assoc]
  have ex : windowIntegral lo hi (fun x y => x * G x y) = K * (windowMoment w i 1 lo.1 hi.1 * windowMoment w j 0 lo.2 hi.2) := by
    rw [hG, show (fun x y => x * (K * (hgFactor w i x ^ 2 * hgFactor w j y ^ 2))) =
      fun x y => (K * (x * hgFactor w i x ^ 2)) * hgFactor w j y ^ 2 by funext x y; ring, windowIntegral_prod,
      intervalIntegral.integral_const_mul]
    simp [windowMoment, mul_assoc]
  have ey : windowIntegral lo hi (fun x y => y * G x y) = K * (windowMoment w i 0 lo.1 hi.1 * windowMoment w j 1 lo.2 hi.2) := by
    rw [hG, show (fun x y => y * (K * (hgFactor w i x ^ 2 * hgFactor w j y ^ 2))) =
      fun x y => (K * hgFactor w i x ^ 2) * (y * hgFactor w j y ^ 2) by funext x y; ring, windowIntegral_prod,
      intervalIntegral.integral_const_mul]
    simp [windowMoment, mul_assoc]
  have ex2 : ∀ c : ℝ, windowIntegral lo hi (fun x y => (x - c) ^ 2 * G x y) = K * ((windowMoment w i 2 lo.1 hi.1 -
      2 * c * windowMoment w i 1 lo.1 hi.1 + c ^ 2 * windowMoment w i 0 lo.1 hi.1) * windowMoment w j 0 lo.2 hi.2) := by
    intro c
    rw [hG, show (fun x y => (x - c) ^ 2 * (K * (hgFactor w i x ^ 2 * hgFactor w j y ^ 2))) =
      fun x y => (K * ((x - c) ^ 2 * hgFactor w i x ^ 2)) * hgFactor w j y ^ 2 by funext x y; ring, windowIntegral_prod,
      intervalIntegral.integral_const_mul, integral_centred]
    simp [windowMoment, mul_assoc]
  have ey2 : ∀ c : ℝ, windowIntegral lo hi (fun x y => (y - c) ^ 2 * G x y) = K * (windowMoment w i 0 lo.1 hi.1 *
      (windowMoment w j 2 lo.2 hi.2 - 2 * c * windowMoment w j 1 lo.2 hi.2 + c ^ 2 * windowMoment w j 0 lo.2 hi.2)) := by
    intro c
    rw [hG, show (fun x y => (y - c) ^ 2 * (K * (hgFactor w i x ^ 2 * hgFactor w j y ^ 2))) =
      fun x y => (K * hgFactor w i x ^ 2) * ((y - c) ^ 2 * hgFactor w j y ^ 2) by funext x y; ring, windowIntegral_prod,
      intervalIntegral.integral_const_mul, integral_centred]
    simp [windowMoment, mul_assoc]
  refine ⟨by rw [e0]; exact mul_ne_zero hK (mul_ne_zero hx hy), ?_, ?_⟩
  · rw [ex2, e0]
    simp only [centroid, ex, e0]
    field_simp
    ring
  · rw [ey2, e0]
    simp only [centroid, ey, e0]
    field_simp
    ring

/-- the intensity of a Hermite-Gauss mode, at any distance from its waist -/
theorem hermiteGaussian_intensity (w0 : ℝ) (hw : 0 < w0) (i j : ℕ) (ζ : ℝ) : ∃ K : ℝ, 0 < K ∧ ∀ x y : ℝ,
    ‖hermiteGaussianTrans w0 i j ζ x y‖ ^ 2 =
      K * (hgFactor (w0 * Real.sqrt (1 + ζ ^ 2)) i x ^ 2 * hgFactor (w0 * Real.sqrt (1 + ζ ^ 2)) j y ^ 2) := by
  have hn : ‖diffractFactor ζ‖ = Real.sqrt (1 + ζ ^ 2) := by
    have := norm_diffract (-ζ)
    rwa [neg_neg, rho, neg_sq] at this
  have hq : diffractFactor ζ ≠ 0 := by
    intro h
    rw [h, norm_zero] at hn
    have : 0 < Real.sqrt (1 + ζ ^ 2) := Real.sqrt_pos.2 (by positivity)
    linarith
  have hs : 0 < Real.sqrt (1 + ζ ^ 2) := Real.sqrt_pos.2 (by positivity)
  have hre : ∀ x y : ℝ, (-((x ^ 2 + y ^ 2 : ℝ) : ℂ) / ((w0 ^ 2 : ℝ) * diffractFactor ζ) -
      Complex.I * ((i + j : ℕ) : ℂ) * (Complex.arg (diffractFactor ζ))).re = -(x ^ 2 + y ^ 2) / (w0 * Real.sqrt (1 + ζ ^ 2)) ^ 2 := by
    intro x y
    have e1 : (Complex.I * ((i + j : ℕ) : ℂ) * (Complex.arg (diffractFactor ζ))).re = 0 := by simp
    have e2 : (-((x ^ 2 + y ^ 2 : ℝ) : ℂ) / ((w0 ^ 2 : ℝ) * diffractFactor ζ)) =
        ((-(x ^ 2 + y ^ 2) / w0 ^ 2 : ℝ) : ℂ) * (diffractFactor ζ)⁻¹ := by
      push_cast
      have : (w0 : ℂ) ≠ 0 := by exact_mod_cast hw.ne'
      field_simp
    rw [Complex.sub_re, e1, e2, Complex.re_ofReal_mul, Complex.inv_re, sub_zero, Complex.normSq_eq_norm_sq, hn, mul_pow,
      Real.sq_sqrt (by positivity)]
    have : (diffractFactor ζ).re = 1 := by simp [diffractFactor]
    rw [this]
    have : w0 ≠ 0 := hw.ne'
    have : (1 + ζ ^ 2 : ℝ) ≠ 0 := by positivity
    field_simp
  refine ⟨(Real.sqrt (2 / Real.pi) * Real.sqrt (1 / (2 ^ i * i.factorial * w0)) * Real.sqrt (1 / (2 ^ j * j.factorial * w0)) *
    (1 / Real.sqrt (1 + ζ ^ 2))) ^ 2, ?_, ?_⟩
  · have : 0 < Real.sqrt (2 / Real.pi) := Real.sqrt_pos.2 (by positivity)
    have : 0 < Real.sqrt (1 / (2 ^ i * i.factorial * w0)) := Real.sqrt_pos.2 (by positivity)
    have : 0 < Real.sqrt (1 / (2 ^ j * j.factorial * w0)) := Real.sqrt_pos.2 (by positivity)
    positivity
  intro x y
  simp only [hermiteGaussianTrans, norm_mul, Complex.norm_real, Complex.norm_exp, hre, norm_div, norm_one, hn, hgFactor]
  rw [show -(x ^ 2 + y ^ 2) / (w0 * Real.sqrt (1 + ζ ^ 2)) ^ 2 = -x ^ 2 / (w0 * Real.sqrt (1 + ζ ^ 2)) ^ 2 +
    -y ^ 2 / (w0 * Real.sqrt (1 + ζ ^ 2)) ^ 2 by ring, Real.exp_add]
  simp only [mul_pow, Real.norm_eq_abs, sq_abs]
  ring

theorem eventually_window {P : ℝ × ℝ → Prop} (h : ∀ᶠ v in (atBot : Filter ℝ) ×ˢ (atTop : Filter ℝ), P v) :
    ∃ L : ℝ, ∀ a b : ℝ, a ≤ -L → L ≤ b → P (a, b) := by
  obtain ⟨⟨a, b⟩, -, h⟩ := (atBot_basis.prod atTop_basis).eventually_iff.1 h
  refine ⟨max (-a) b, fun a' b' h1 h2 => h ⟨?_, ?_⟩⟩
  · have := le_max_left (-a) b
    simp only [Set.mem_Iic]
    linarith
  · exact (le_max_right _ _).trans h2

/-- **C162.** The picture of a Hermite-Gauss mode `(i, j)` of waist `w0` at the distance `ζ` Rayleigh lengths from the waist,
taken with any factor between intensity and pixel value: if the window is large enough and the pixels are fine enough, the
`D4σ` widths that `find_d4sigma` returns, converted to metres, are as close as one likes to `2 w √(2 i + 1)` and
`2 w √(2 j + 1)`, where `w = w0 √(1 + ζ²)` is the radius of the beam there. -/
theorem C162_mode_width {w0 : ℝ} (hw : 0 < w0) (i j : ℕ) (ζ : ℝ) {A : ℝ} (hA : A ≠ 0) {ε : ℝ} (hε : 0 < ε) :
    ∃ L : ℝ, 0 < L ∧ ∀ lo hi : ℝ × ℝ, lo.1 ≤ -L → lo.2 ≤ -L → L ≤ hi.1 → L ≤ hi.2 →
      ∃ N : ℕ, ∀ nx ny : ℕ, N ≤ nx → N ≤ ny →
        |(findD4sigma (camera (fun x y => A * ‖hermiteGaussianTrans w0 i j ζ x y‖ ^ 2) lo hi nx ny)).1 *
          ((hi.1 - lo.1) / ((nx : ℝ) - 1)) - 2 * (w0 * Real.sqrt (1 + ζ ^ 2)) * Real.sqrt (2 * i + 1)| < ε ∧
        |(findD4sigma (camera (fun x y => A * ‖hermiteGaussianTrans w0 i j ζ x y‖ ^ 2) lo hi nx ny)).2 *
          ((hi.2 - lo.2) / ((ny : ℝ) - 1)) - 2 * (w0 * Real.sqrt (1 + ζ ^ 2)) * Real.sqrt (2 * j + 1)| < ε := by
  have hww : 0 < w0 * Real.sqrt (1 + ζ ^ 2) := mul_pos hw (Real.sqrt_pos.2 (by positivity))
  obtain ⟨K, hK, hint⟩ := hermiteGaussian_intensity w0 hw i j ζ
  generalize w0 * Real.sqrt (1 + ζ ^ 2) = w at hww hint ⊢
  have near : ∀ n : ℕ, ∃ L : ℝ, ∀ a b : ℝ, a ≤ -L → L ≤ b → windowMoment w n 0 a b ≠ 0 ∧
      |4 * Real.sqrt (windowMoment w n 2 a b / windowMoment w n 0 a b - (windowMoment w n 1 a b / windowMoment w n 0 a b) ^ 2) -
        2 * w * Real.sqrt (2 * n + 1)| < ε := fun n =>
    eventually_window (((windowMoment_tendsto hww n).1.eventually_ne (integral_hgFactor_sq_pos hww n).ne').and
      ((Metric.tendsto_nhds.1 (windowWidth_tendsto hww n)) ε hε))
  obtain ⟨L1, n1⟩ := near i
  obtain ⟨L2, n2⟩ := near j
  refine ⟨max 1 (max L1 L2), lt_of_lt_of_le one_pos (le_max_left _ _), ?_⟩
  intro lo hi ha hb hc hd
  have m0 : (1 : ℝ) ≤ max 1 (max L1 L2) := le_max_left _ _
  have m1 : L1 ≤ max 1 (max L1 L2) := (le_max_left _ _).trans (le_max_right _ _)
  have m2 : L2 ≤ max 1 (max L1 L2) := (le_max_right _ _).trans (le_max_right _ _)
  obtain ⟨hx, vx⟩ := n1 lo.1 hi.1 (by linarith) (by linarith)
  obtain ⟨hy, vy⟩ := n2 lo.2 hi.2 (by linarith) (by linarith)
  have hGe : (fun x y => A * ‖hermiteGaussianTrans w0 i j ζ x y‖ ^ 2) = fun x y => (A * K) * (hgFactor w i x ^ 2 * hgFactor w j y ^ 2) := by
    funext x y
    rw [hint, mul_assoc]
  rw [hGe]
  obtain ⟨p0, p1, p2⟩ := picture_variance (mul_ne_zero hA hK.ne') i j hx hy rfl
  have hcont : Continuous fun v : ℝ × ℝ => (A * K) * (hgFactor w i v.1 ^ 2 * hgFactor w j v.2 ^ 2) :=
    continuous_const.mul ((((hgFactor_continuous w i).comp continuous_fst).pow 2).mul
      (((hgFactor_continuous w j).comp continuous_snd).pow 2))
  obtain ⟨t1, t2⟩ := C147_d4sigma (lo := lo) (hi := hi) (by linarith) (by linarith)
    (G := fun x y => (A * K) * (hgFactor w i x ^ 2 * hgFactor w j y ^ 2)) hcont p0
  rw [p1] at t1
  rw [p2] at t2
  have e1 := (t1.sub_const (2 * w * Real.sqrt (2 * i + 1))).abs.eventually (gt_mem_nhds vx)
  have e2 := (t2.sub_const (2 * w * Real.sqrt (2 * j + 1))).abs.eventually (gt_mem_nhds vy)
  obtain ⟨⟨a, b⟩, h⟩ := eventually_atTop.1 (e1.and e2)
  refine ⟨max a b, fun nx ny h1 h2 => ?_⟩
  exact h (nx, ny) ⟨(le_max_left _ _).trans h1, (le_max_right _ _).trans h2⟩

/-- a `(2, 3)` mode one Rayleigh length from its waist -/
example : ∃ L : ℝ, 0 < L ∧ ∀ lo hi : ℝ × ℝ, lo.1 ≤ -L → lo.2 ≤ -L → L ≤ hi.1 → L ≤ hi.2 →
    ∃ N : ℕ, ∀ nx ny : ℕ, N ≤ nx → N ≤ ny →
      |(findD4sigma (camera (fun x y => 5 * ‖hermiteGaussianTrans 1 2 3 1 x y‖ ^ 2) lo hi nx ny)).1 *
        ((hi.1 - lo.1) / ((nx : ℝ) - 1)) - 2 * (1 * Real.sqrt (1 + 1 ^ 2)) * Real.sqrt (2 * (2 : ℕ) + 1)| < 1 / 100 ∧
      |(findD4sigma (camera (fun x y => 5 * ‖hermiteGaussianTrans 1 2 3 1 x y‖ ^ 2) lo hi nx ny)).2 *
        ((hi.2 - lo.2) / ((ny : ℝ) - 1)) - 2 * (1 * Real.sqrt (1 + 1 ^ 2)) * Real.sqrt (2 * (3 : ℕ) + 1)| < 1 / 100 :=
  C162_mode_width one_pos 2 3 1 (by norm_num) (by norm_num)

end Lasy
