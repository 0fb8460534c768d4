import Verif.Props.ModeWidth
import Verif.Props.ModeEnergy

/-!
# Property C162: the `D4σ` width of pictures on large windows, and of Laguerre-Gauss modes
-/

namespace Lasy
open MeasureTheory Filter

/-- windows that grow to the whole plane -/
def growing : Filter ((ℝ × ℝ) × (ℝ × ℝ)) := (atBot ×ˢ atBot) ×ˢ (atTop ×ˢ atTop)

theorem growing_window {P : (ℝ × ℝ) × (ℝ × ℝ) → Prop} (h : ∀ᶠ v in growing, P v) :
    ∃ L : ℝ, 0 < L ∧ ∀ lo hi : ℝ × ℝ, lo.1 ≤ -L → lo.2 ≤ -L → L ≤ hi.1 → L ≤ hi.2 → P (lo, hi) := by
  obtain ⟨⟨⟨a, b⟩, ⟨d, e⟩⟩, -, h⟩ := ((atBot_basis.prod atBot_basis).prod (atTop_basis.prod atTop_basis)).eventually_iff.1 h
  refine ⟨max 1 (max (max (-a) (-b)) (max d e)), lt_of_lt_of_le one_pos (le_max_left _ _), fun lo hi h1 h2 h3 h4 => h ?_⟩
  have m := le_max_right (1 : ℝ) (max (max (-a) (-b)) (max d e))
  have ma := (le_max_left (-a) (-b)).trans (le_max_left _ (max d e))
  have mb := (le_max_right (-a) (-b)).trans (le_max_left _ (max d e))
  have md := (le_max_left d e).trans (le_max_right (max (-a) (-b)) _)
  have me := (le_max_right d e).trans (le_max_right (max (-a) (-b)) _)
  exact ⟨⟨by simp only [Set.mem_Iic]; linarith, by simp only [Set.mem_Iic]; linarith⟩,
    ⟨by simp only [Set.mem_Ici]; linarith, by simp only [Set.mem_Ici]; linarith⟩⟩

theorem growing_cover : AECover (volume : Measure (ℝ × ℝ)) growing
    (fun v => Set.Icc v.1.1 v.2.1 ×ˢ Set.Icc v.1.2 v.2.2) where
  ae_eventually_mem := ae_of_all _ fun x => by
    have h1 : ∀ᶠ v : (ℝ × ℝ) × (ℝ × ℝ) in growing, v.1.1 ≤ x.1 :=
      (tendsto_fst.comp tendsto_fst).eventually (eventually_le_atBot x.1)
    have h2 : ∀ᶠ v : (ℝ × ℝ) × (ℝ × ℝ) in growing, v.1.2 ≤ x.2 :=
      (tendsto_snd.comp tendsto_fst).eventually (eventually_le_atBot x.2)
    have h3 : ∀ᶠ v : (ℝ × ℝ) × (ℝ × ℝ) in growing, x.1 ≤ v.2.1 :=
      (tendsto_fst.comp tendsto_snd).eventually (eventually_ge_atTop x.1)
    have h4 : ∀ᶠ v : (ℝ × ℝ) × (ℝ × ℝ) in growing, x.2 ≤ v.2.2 :=
      (tendsto_snd.comp tendsto_snd).eventually (eventually_ge_atTop x.2)
    filter_upwards [h1, h2, h3, h4] with v a1 a2 a3 a4
    exact ⟨⟨a1, a3⟩, ⟨a2, a4⟩⟩
  measurableSet := fun v => measurableSet_Icc.prod measurableSet_Icc

theorem windowIntegral_growing {G : ℝ → ℝ → ℝ} (hG : Continuous fun v : ℝ × ℝ => G v.1 v.2)
    (hi : Integrable fun v : ℝ × ℝ => G v.1 v.2) :
    Tendsto (fun v : (ℝ × ℝ) × (ℝ × ℝ) => windowIntegral v.1 v.2 G) growing (nhds (∫ v : ℝ × ℝ, G v.1 v.2)) := by
  have : growing.IsCountablyGenerated := by unfold growing; infer_instance
  refine (growing_cover.integral_tendsto_of_countably_generated hi).congr' ?_
  have h1 : ∀ᶠ v : (ℝ × ℝ) × (ℝ × ℝ) in growing, v.1.1 ≤ 0 :=
    (tendsto_fst.comp tendsto_fst).eventually (eventually_le_atBot 0)
  have h2 : ∀ᶠ v : (ℝ × ℝ) × (ℝ × ℝ) in growing, v.1.2 ≤ 0 :=
    (tendsto_snd.comp tendsto_fst).eventually (eventually_le_atBot 0)
  have h3 : ∀ᶠ v : (ℝ × ℝ) × (ℝ × ℝ) in growing, 0 ≤ v.2.1 :=
    (tendsto_fst.comp tendsto_snd).eventually (eventually_ge_atTop 0)
  have h4 : ∀ᶠ v : (ℝ × ℝ) × (ℝ × ℝ) in growing, 0 ≤ v.2.2 :=
    (tendsto_snd.comp tendsto_snd).eventually (eventually_ge_atTop 0)
  filter_upwards [h1, h2, h3, h4] with v a1 a2 a3 a4
  exact (windowIntegral_set (a1.trans a3) (a2.trans a4) hG).symm

theorem windowIntegral_centred (lo hi : ℝ × ℝ) {G : ℝ → ℝ → ℝ} (hG : Continuous fun v : ℝ × ℝ => G v.1 v.2)
    {X : ℝ → ℝ → ℝ} (hX : Continuous fun v : ℝ × ℝ => X v.1 v.2) (s : ℝ) :
    windowIntegral lo hi (fun x y => (X x y - s) ^ 2 * G x y) =
      windowIntegral lo hi (fun x y => X x y ^ 2 * G x y) - 2 * s * windowIntegral lo hi (fun x y => X x y * G x y) +
        s ^ 2 * windowIntegral lo hi G := by
  have inner : ∀ {F : ℝ → ℝ → ℝ}, (Continuous fun v : ℝ × ℝ => F v.1 v.2) →
      (∀ x, IntervalIntegrable (fun y => F x y) volume lo.2 hi.2) ∧
      IntervalIntegrable (fun x => ∫ y in lo.2..hi.2, F x y) volume lo.1 hi.1 := fun {F} hF =>
    ⟨fun x => (hF.comp (by fun_prop : Continuous fun y : ℝ => (x, y))).intervalIntegrable _ _,
      (intervalIntegral.continuous_parametric_intervalIntegral_of_continuous' hF lo.2 hi.2).intervalIntegrable _ _⟩
  obtain ⟨a0, b0⟩ := inner hG
  obtain ⟨a1, b1⟩ := inner (F := fun x y => X x y * G x y) (hX.mul hG)
  obtain ⟨a2, b2⟩ := inner (F := fun x y => X x y ^ 2 * G x y) ((hX.pow 2).mul hG)
  unfold windowIntegral
  rw [← intervalIntegral.integral_const_mul, ← intervalIntegral.integral_const_mul,
    ← intervalIntegral.integral_sub b2 (b1.const_mul _), ← intervalIntegral.integral_add (b2.sub (b1.const_mul _)) (b0.const_mul _)]
  congr 1
  funext x
  rw [← intervalIntegral.integral_const_mul, ← intervalIntegral.integral_const_mul,
    ← intervalIntegral.integral_sub (a2 x) ((a1 x).const_mul _),
    ← intervalIntegral.integral_add ((a2 x).sub ((a1 x).const_mul _)) ((a0 x).const_mul _)]
  congr 1
  funext y
  ring

/-- one direction of `D4σ` on growing windows -/
theorem width_growing {G : ℝ → ℝ → ℝ} (hG : Continuous fun v : ℝ × ℝ => G v.1 v.2) {X : ℝ → ℝ → ℝ}
    (hX : Continuous fun v : ℝ × ℝ => X v.1 v.2) (i0 : Integrable fun v : ℝ × ℝ => G v.1 v.2)
    (i1 : Integrable fun v : ℝ × ℝ => X v.1 v.2 * G v.1 v.2) (i2 : Integrable fun v : ℝ × ℝ => X v.1 v.2 ^ 2 * G v.1 v.2)
    (hne : ∫ v : ℝ × ℝ, G v.1 v.2 ≠ 0) :
    Tendsto (fun v : (ℝ × ℝ) × (ℝ × ℝ) => 4 * Real.sqrt (windowIntegral v.1 v.2 (fun x y =>
      (X x y - windowIntegral v.1 v.2 (fun x y => X x y * G x y) / windowIntegral v.1 v.2 G) ^ 2 * G x y) /
        windowIntegral v.1 v.2 G)) growing
      (nhds (4 * Real.sqrt ((∫ v : ℝ × ℝ, X v.1 v.2 ^ 2 * G v.1 v.2) / (∫ v : ℝ × ℝ, G v.1 v.2) -
        ((∫ v : ℝ × ℝ, X v.1 v.2 * G v.1 v.2) / ∫ v : ℝ × ℝ, G v.1 v.2) ^ 2))) := by
  have t0 := windowIntegral_growing hG i0
  have t1 := windowIntegral_growing (G := fun x y => X x y * G x y) (hX.mul hG) i1
  have t2 := windowIntegral_growing (G := fun x y => X x y ^ 2 * G x y) ((hX.pow 2).mul hG) i2
  refine (((Real.continuous_sqrt.tendsto _).comp ((t2.div t0 hne).sub ((t1.div t0 hne).pow 2))).const_mul 4).congr' ?_
  filter_upwards [t0.eventually_ne hne] with v hv
  simp only [Function.comp]
  congr 2
  rw [windowIntegral_centred _ _ hG hX]
  simp only [Pi.div_apply]
  field_simp
  ring

/-- as `C162_any_beam`, for numbers of either sign -/
theorem any_beam_limit {G : ℝ → ℝ → ℝ} (hG : Continuous fun v : ℝ × ℝ => G v.1 v.2)
    (i0 : Integrable fun v : ℝ × ℝ => G v.1 v.2)
    (ix : Integrable fun v : ℝ × ℝ => v.1 * G v.1 v.2) (iy : Integrable fun v : ℝ × ℝ => v.2 * G v.1 v.2)
    (ixx : Integrable fun v : ℝ × ℝ => v.1 ^ 2 * G v.1 v.2) (iyy : Integrable fun v : ℝ × ℝ => v.2 ^ 2 * G v.1 v.2)
    (hne : ∫ v : ℝ × ℝ, G v.1 v.2 ≠ 0) {ε : ℝ} (hε : 0 < ε) :
    ∃ L : ℝ, 0 < L ∧ ∀ lo hi : ℝ × ℝ, lo.1 ≤ -L → lo.2 ≤ -L → L ≤ hi.1 → L ≤ hi.2 →
      ∃ N : ℕ, ∀ nx ny : ℕ, N ≤ nx → N ≤ ny →
        |(findD4sigma (camera G lo hi nx ny)).1 * ((hi.1 - lo.1) / ((nx : ℝ) - 1)) -
          4 * Real.sqrt ((∫ v : ℝ × ℝ, v.1 ^ 2 * G v.1 v.2) / (∫ v : ℝ × ℝ, G v.1 v.2) -
            ((∫ v : ℝ × ℝ, v.1 * G v.1 v.2) / ∫ v : ℝ × ℝ, G v.1 v.2) ^ 2)| < ε ∧
        |(findD4sigma (camera G lo hi nx ny)).2 * ((hi.2 - lo.2) / ((ny : ℝ) - 1)) -
          4 * Real.sqrt ((∫ v : ℝ × ℝ, v.2 ^ 2 * G v.1 v.2) / (∫ v : ℝ × ℝ, G v.1 v.2) -
            ((∫ v : ℝ × ℝ, v.2 * G v.1 v.2) / ∫ v : ℝ × ℝ, G v.1 v.2) ^ 2)| < ε := by
  have wx := width_growing hG (X := fun x _ => x) continuous_fst i0 ix ixx hne
  have wy := width_growing hG (X := fun _ y => y) continuous_snd i0 iy iyy hne
  obtain ⟨L, hL, h⟩ := growing_window ((((windowIntegral_growing hG i0).eventually_ne hne).and
    ((Metric.tendsto_nhds.1 wx) ε hε)).and ((Metric.tendsto_nhds.1 wy) ε hε))
  refine ⟨L, hL, fun lo hi ha hb hc hd => ?_⟩
  obtain ⟨⟨h0, vx⟩, vy⟩ := h lo hi ha hb hc hd
  obtain ⟨t1, t2⟩ := C147_d4sigma (lo := lo) (hi := hi) (by linarith) (by linarith) hG h0
  have e1 := (t1.sub_const (4 * Real.sqrt ((∫ v : ℝ × ℝ, v.1 ^ 2 * G v.1 v.2) / (∫ v : ℝ × ℝ, G v.1 v.2) -
            ((∫ v : ℝ × ℝ, v.1 * G v.1 v.2) / ∫ v : ℝ × ℝ, G v.1 v.2) ^ 2))).abs.eventually (gt_mem_nhds vx)
  have e2 := (t2.sub_const (4 * Real.sqrt ((∫ v : ℝ × ℝ, v.2 ^ 2 * G v.1 v.2) / (∫ v : ℝ × ℝ, G v.1 v.2) -
            ((∫ v : ℝ × ℝ, v.2 * G v.1 v.2) / ∫ v : ℝ × ℝ, G v.1 v.2) ^ 2))).abs.eventually (gt_mem_nhds vy)
  obtain ⟨⟨a, b⟩, h⟩ := eventually_atTop.1 (e1.and e2)
  exact ⟨max a b, fun nx ny h1 h2 => h (nx, ny) ⟨(le_max_left _ _).trans h1, (le_max_right _ _).trans h2⟩⟩

/-- **C162 (any beam).** The picture of a continuous intensity `G ≥ 0` on the plane whose power, first and second moments exist: if
the window is large enough and the pixels are fine enough, the `D4σ` widths that `find_d4sigma` returns, converted to metres, are
as close as one likes to four times the standard deviations of the intensity over the whole plane. -/
theorem C162_any_beam {G : ℝ → ℝ → ℝ} (hG : Continuous fun v : ℝ × ℝ => G v.1 v.2)
    (i0 : Integrable fun v : ℝ × ℝ => G v.1 v.2)
    (ix : Integrable fun v : ℝ × ℝ => v.1 * G v.1 v.2) (iy : Integrable fun v : ℝ × ℝ => v.2 * G v.1 v.2)
    (ixx : Integrable fun v : ℝ × ℝ => v.1 ^ 2 * G v.1 v.2) (iyy : Integrable fun v : ℝ × ℝ => v.2 ^ 2 * G v.1 v.2)
    (_hpos : ∀ x y, 0 ≤ G x y) (hne : ∫ v : ℝ × ℝ, G v.1 v.2 ≠ 0) {ε : ℝ} (hε : 0 < ε) :
    ∃ L : ℝ, 0 < L ∧ ∀ lo hi : ℝ × ℝ, lo.1 ≤ -L → lo.2 ≤ -L → L ≤ hi.1 → L ≤ hi.2 →
      ∃ N : ℕ, ∀ nx ny : ℕ, N ≤ nx → N ≤ ny →
        |(findD4sigma (camera G lo hi nx ny)).1 * ((hi.1 - lo.1) / ((nx : ℝ) - 1)) -
          4 * Real.sqrt ((∫ v : ℝ × ℝ, v.1 ^ 2 * G v.1 v.2) / (∫ v : ℝ × ℝ, G v.1 v.2) -
            ((∫ v : ℝ × ℝ, v.1 * G v.1 v.2) / ∫ v : ℝ × ℝ, G v.1 v.2) ^ 2)| < ε ∧
        |(findD4sigma (camera G lo hi nx ny)).2 * ((hi.2 - lo.2) / ((ny : ℝ) - 1)) -
          4 * Real.sqrt ((∫ v : ℝ × ℝ, v.2 ^ 2 * G v.1 v.2) / (∫ v : ℝ × ℝ, G v.1 v.2) -
            ((∫ v : ℝ × ℝ, v.2 * G v.1 v.2) / ∫ v : ℝ × ℝ, G v.1 v.2) ^ 2)| < ε :=
  any_beam_limit hG i0 ix iy ixx iyy hne hε

/-- the hypotheses are met by the product of two Hermite functions -/
example : ∃ L : ℝ, 0 < L ∧ ∀ lo hi : ℝ × ℝ, lo.1 ≤ -L → lo.2 ≤ -L → L ≤ hi.1 → L ≤ hi.2 →
    ∃ N : ℕ, ∀ nx ny : ℕ, N ≤ nx → N ≤ ny →
      |(findD4sigma (camera (fun x y => hgFactor 1 2 x ^ 2 * hgFactor 1 3 y ^ 2) lo hi nx ny)).1 *
        ((hi.1 - lo.1) / ((nx : ℝ) - 1)) - 2 * Real.sqrt 5| < 1 / 10 := by
  obtain ⟨a0, a1, a2⟩ := integrable_hgFactor_moments one_pos 2
  obtain ⟨b0, b1, b2⟩ := integrable_hgFactor_moments one_pos 3
  have p0 := (integral_hgFactor_sq_pos one_pos 2).ne'
  have q0 := (integral_hgFactor_sq_pos one_pos 3).ne'
  have e0 : ∫ v : ℝ × ℝ, hgFactor 1 2 v.1 ^ 2 * hgFactor 1 3 v.2 ^ 2 = (∫ x, hgFactor 1 2 x ^ 2) * ∫ x, hgFactor 1 3 x ^ 2 :=
    integral_prod_mul (fun x => hgFactor 1 2 x ^ 2) (fun x => hgFactor 1 3 x ^ 2)
  have e1 : ∫ v : ℝ × ℝ, v.1 * (hgFactor 1 2 v.1 ^ 2 * hgFactor 1 3 v.2 ^ 2) = 0 := by
    simp only [← mul_assoc]
    rw [show (∫ v : ℝ × ℝ, v.1 * hgFactor 1 2 v.1 ^ 2 * hgFactor 1 3 v.2 ^ 2) = _ from
      integral_prod_mul (fun x => x * hgFactor 1 2 x ^ 2) (fun x => hgFactor 1 3 x ^ 2), integral_mul_hgFactor_sq one_pos, zero_mul]
  have e2 : ∫ v : ℝ × ℝ, v.1 ^ 2 * (hgFactor 1 2 v.1 ^ 2 * hgFactor 1 3 v.2 ^ 2) =
      5 / 4 * ((∫ x, hgFactor 1 2 x ^ 2) * ∫ x, hgFactor 1 3 x ^ 2) := by
    simp only [← mul_assoc]
    rw [show (∫ v : ℝ × ℝ, v.1 ^ 2 * hgFactor 1 2 v.1 ^ 2 * hgFactor 1 3 v.2 ^ 2) = _ from
      integral_prod_mul (fun x => x ^ 2 * hgFactor 1 2 x ^ 2) (fun x => hgFactor 1 3 x ^ 2), integral_sq_mul_hgFactor_sq one_pos]
    norm_num
  obtain ⟨L, hL, h⟩ := C162_any_beam (G := fun x y => hgFactor 1 2 x ^ 2 * hgFactor 1 3 y ^ 2)
    ((((hgFactor_continuous 1 2).comp continuous_fst).pow 2).mul (((hgFactor_continuous 1 3).comp continuous_snd).pow 2))
    (a0.mul_prod b0) ((a1.mul_prod b0).congr (ae_of_all _ fun v => by ring)) ((a0.mul_prod b1).congr (ae_of_all _ fun v => by ring))
    ((a2.mul_prod b0).congr (ae_of_all _ fun v => by ring)) ((a0.mul_prod b2).congr (ae_of_all _ fun v => by ring))
    (fun x y => by positivity) (by rw [e0]; exact mul_ne_zero p0 q0) (ε := 1 / 10) (by norm_num)
  refine ⟨L, hL, fun lo hi ha hb hc hd => ?_⟩
  obtain ⟨N, hN⟩ := h lo hi ha hb hc hd
  refine ⟨N, fun nx ny h1 h2 => ?_⟩
  have := (hN nx ny h1 h2).1
  rw [e0, e1, e2, zero_div, zero_pow two_ne_zero, sub_zero, mul_div_assoc, div_self (mul_ne_zero p0 q0), mul_one,
    Real.sqrt_div (by norm_num), show Real.sqrt 4 = 2 by rw [show (4 : ℝ) = 2 ^ 2 by norm_num, Real.sqrt_sq (by norm_num)]] at this
  rwa [show 4 * (Real.sqrt 5 / 2) = 2 * Real.sqrt 5 by ring] at this

end Lasy
