import Verif.Spec.Rays
import Verif.Model.Optics
import Mathlib.Analysis.SpecialFunctions.ExpDeriv
import Mathlib.Analysis.SpecialFunctions.Trigonometric.Bounds
import Mathlib.Analysis.SpecialFunctions.Sqrt
import Mathlib.Analysis.Complex.RealDeriv
import Mathlib.Analysis.Calculus.Deriv.Pow

/-!
# Property C99: where the rays go after the optical elements
-/

namespace Lasy
open Phys Complex Filter Topology

variable [Phys]

omit [Phys] in
theorem cos_sin_radius (ρ φ : ℝ) : (ρ * Real.cos φ) ^ 2 + (ρ * Real.sin φ) ^ 2 = ρ ^ 2 := by
  have := Real.sin_sq_add_cos_sq φ
  linear_combination ρ ^ 2 * this

theorem RaySlope.unique {el : OpticalElement} {w w0 φ r m m' : ℝ} (h : RaySlope el w w0 φ r m)
    (h' : RaySlope el w w0 φ r m') : m = m' := by
  obtain ⟨k, hk, hne, rfl⟩ := h
  obtain ⟨k', hk', -, rfl⟩ := h'
  have := mul_right_cancel₀ hne (hk.unique hk')
  have := mul_left_cancel₀ I_ne_zero this
  rw [Complex.ofReal_inj.1 this]

theorem RayFocus.unique {el : OpticalElement} {w w0 φ r z z' : ℝ} (hr : r ≠ 0) (h : RayFocus el w w0 φ r z)
    (h' : RayFocus el w w0 φ r z') : z = z' := by
  obtain ⟨m, hm, e⟩ := h
  obtain ⟨m', hm', e'⟩ := h'
  obtain rfl := hm.unique hm'
  have hm0 : m ≠ 0 := by rintro rfl; apply hr; linarith
  exact mul_left_cancel₀ hm0 (by linarith)

/-- the slope of the rays behind an element whose multiplier is `exp(iΦ(ρ))` near `r` -/
theorem raySlope_of_phase (el : OpticalElement) (w w0 φ r : ℝ) (Φ : ℝ → ℝ) (k : ℝ) (hΦ : HasDerivAt Φ k r)
    (hel : (fun ρ : ℝ => el.mult (ρ * Real.cos φ) (ρ * Real.sin φ) w w0) =ᶠ[𝓝 r] fun ρ => exp (I * (Φ ρ : ℝ))) :
    RaySlope el w w0 φ r (k / (w / c)) := by
  refine ⟨k, ?_, ?_, rfl⟩
  · have h1 : HasDerivAt (fun ρ : ℝ => exp (I * (Φ ρ : ℂ))) (exp (I * (Φ r : ℂ)) * (I * k)) r :=
      ((HasDerivAt.ofReal_comp hΦ).const_mul I).cexp
    have h2 := hel.eq_of_nhds
    rw [h2]
    exact (h1.congr_of_eventuallyEq hel).congr_deriv (by ring)
  · have h2 := hel.eq_of_nhds
    rw [h2]
    exact exp_ne_zero _

/-- **C99**, parabolic mirror: all rays, from every radius and direction and of every frequency, cross the axis
at the distance `f`, and only there. -/
theorem C99_mirror (f : ℝ) (hf : f ≠ 0) (w w0 φ r : ℝ) (hw : w ≠ 0) (hr : r ≠ 0) (z : ℝ) :
    RayFocus (parabolicMirror f) w w0 φ r z ↔ z = f := by
  have hc := c_pos.ne'
  have key : RayFocus (parabolicMirror f) w w0 φ r f := by
    refine ⟨_, raySlope_of_phase _ w w0 φ r (fun ρ => -(w * ρ ^ 2 / (2 * c * f))) (-(w * (2 * r) / (2 * c * f))) ?_ ?_, ?_⟩
    · have := ((HasDerivAt.fun_pow (hasDerivAt_id' r) 2).const_mul w).div_const (2 * c * f)
      simpa using this.fun_neg
    · refine Eventually.of_forall fun ρ => ?_
      simp only [parabolicMirror]
      congr 1
      have := congrArg (fun x : ℝ => (x : ℂ)) (cos_sin_radius ρ φ)
      push_cast at this ⊢
      rw [this]
      ring
    · field_simp
      ring
  constructor
  · intro h
    exact h.unique hr key
  · rintro rfl
    exact key

/-- where the paraxial rays leaving an axiparabola at radius `r` cross the axis -/
noncomputable def axiparabolaFocus (f0 delta R r : ℝ) : ℝ :=
  f0 / (1 - delta / f0 * (r / R) ^ 2 + ((delta / f0) ^ 2 + delta / f0 * (R ^ 2 / (8 * f0 ^ 2))) * (r / R) ^ 4)

omit [Phys] in
theorem axiparabola_den_pos {f0 delta : ℝ} (R r : ℝ) (hf : 0 < f0) (hd : 0 ≤ delta) :
    0 < 1 - delta / f0 * (r / R) ^ 2 + ((delta / f0) ^ 2 + delta / f0 * (R ^ 2 / (8 * f0 ^ 2))) * (r / R) ^ 4 := by
  have h1 : 0 ≤ delta / f0 * (R ^ 2 / (8 * f0 ^ 2)) * (r / R) ^ 4 := by positivity
  nlinarith [sq_nonneg (delta / f0 * (r / R) ^ 2 - 1 / 2)]

theorem axiparabola_focus (f0 delta R : ℝ) (hf : 0 < f0) (hd : 0 ≤ delta) (hR : 0 < R) (w w0 φ r : ℝ) (hw : w ≠ 0)
    (hr : 0 < r) (hrR : r < R) : RayFocus (axiparabola f0 delta R) w w0 φ r (axiparabolaFocus f0 delta R r) := by
  have hc := c_pos.ne'
  have hden := axiparabola_den_pos R r hf hd
  refine ⟨_, raySlope_of_phase _ w w0 φ r (fun ρ => -(2 * (w / c) * axiparabolaSag f0 delta R (ρ ^ 2)))
    (-(2 * (w / c) * (1 / (4 * f0) * (2 * r) - delta / (8 * f0 ^ 2 * R ^ 2) * (4 * r ^ 3)
      + delta * (R ^ 2 + 8 * f0 * delta) / (96 * f0 ^ 4 * R ^ 4) * (6 * r ^ 5)))) ?_ ?_, ?_⟩
  · have h2 := HasDerivAt.fun_pow (hasDerivAt_id' r) 2
    have h4 := HasDerivAt.fun_pow h2 2
    have h6 := HasDerivAt.fun_pow h2 3
    have := (((h2.const_mul (1.0 / (4 * f0))).fun_sub (h4.const_mul (delta / (8 * f0 ^ 2 * R ^ 2)))).fun_add
      (h6.const_mul (delta * (R ^ 2 + 8 * f0 * delta) / (96 * f0 ^ 4 * R ^ 4)))).const_mul (2 * (w / c))
    refine HasDerivAt.congr_deriv (f := fun ρ => -(2 * (w / c) * axiparabolaSag f0 delta R (ρ ^ 2))) this.fun_neg ?_
    have h1 : (1.0 : ℝ) = 1 := by norm_num
    rw [h1]
    push_cast
    ring
  · have hev : ∀ᶠ ρ : ℝ in 𝓝 r, 0 < ρ ∧ ρ < R := (Ioo_mem_nhds hr hrR)
    filter_upwards [hev] with ρ hρ
    simp only [axiparabola]
    rw [cos_sin_radius]
    rw [if_neg (by nlinarith [hρ.1, hρ.2])]
    congr 1
    push_cast
    ring
  · obtain ⟨D, hD⟩ : ∃ D, D = 1 - delta / f0 * (r / R) ^ 2 +
        ((delta / f0) ^ 2 + delta / f0 * (R ^ 2 / (8 * f0 ^ 2))) * (r / R) ^ 4 := ⟨_, rfl⟩
    have hslope : -(2 * (w / c) * (1 / (4 * f0) * (2 * r) - delta / (8 * f0 ^ 2 * R ^ 2) * (4 * r ^ 3)
      + delta * (R ^ 2 + 8 * f0 * delta) / (96 * f0 ^ 4 * R ^ 4) * (6 * r ^ 5))) / (w / c) = -(r * D / f0) := by
      rw [hD]
      field_simp
      ring
    rw [hslope, axiparabolaFocus, ← hD]
    rw [← hD] at hden
    field_simp
    ring


omit [Phys] in
theorem continuous_axiparabolaFocus (f0 delta R : ℝ) (hf : 0 < f0) (hd : 0 ≤ delta) :
    Continuous (axiparabolaFocus f0 delta R) := by
  unfold axiparabolaFocus
  refine continuous_const.div ?_ fun r => (axiparabola_den_pos R r hf hd).ne'
  fun_prop

omit [Phys] in
/-- the value at the rim -/
theorem axiparabolaFocus_rim (f0 delta R : ℝ) (hf : 0 < f0) (hd : 0 ≤ delta) (hR : 0 < R) :
    axiparabolaFocus f0 delta R R * (1 + ((delta / f0) ^ 3 + delta / f0 * (1 + delta / f0) * (R ^ 2 / (8 * f0 ^ 2))))
      = f0 + delta := by
  have hden := axiparabola_den_pos R R hf hd
  unfold axiparabolaFocus
  rw [div_mul_eq_mul_div, div_eq_iff hden.ne', div_self hR.ne']
  field_simp
  ring

/-- **C99**, axiparabola, the part that is true of the code. There is a position `z(r)`, the same for all
directions and frequencies, where the paraxial ray from radius `0 < r < R` crosses the axis, and only there;
`z(r)` tends to `f0` at the centre; at the rim it tends to a position that is not beyond `f0 + delta` and misses it
by less than the fraction `ε³ + ε (1 + ε) R²/(8 f0²)`, `ε = delta/f0`. If `ε + R²/(8 f0²) ≤ 1/2`, outer rays are
focused strictly further away. No light is left beyond `R`. -/
theorem C99_axiparabola_partial (f0 delta R : ℝ) (hf : 0 < f0) (hd : 0 < delta) (hR : 0 < R) :
    ∃ (z : ℝ → ℝ) (zR : ℝ),
      (∀ w w0 φ r : ℝ, w ≠ 0 → 0 < r → r < R →
        ∀ z', RayFocus (axiparabola f0 delta R) w w0 φ r z' ↔ z' = z r) ∧
      Tendsto z (𝓝[>] 0) (𝓝 f0) ∧ Tendsto z (𝓝[<] R) (𝓝 zR) ∧ zR ≤ f0 + delta ∧
      f0 + delta - zR ≤
        (f0 + delta) * ((delta / f0) ^ 3 + delta / f0 * (1 + delta / f0) * (R ^ 2 / (8 * f0 ^ 2))) ∧
      (delta / f0 + R ^ 2 / (8 * f0 ^ 2) ≤ 1 / 2 → StrictMonoOn z (Set.Ioo 0 R)) ∧
      ∀ x y w w0 : ℝ, R ^ 2 < x ^ 2 + y ^ 2 → (axiparabola f0 delta R).mult x y w w0 = 0 := by
  have hcont := continuous_axiparabolaFocus f0 delta R hf hd.le
  have hrim := axiparabolaFocus_rim f0 delta R hf hd.le hR
  obtain ⟨κ, hκ⟩ : ∃ κ, κ = (delta / f0) ^ 3 + delta / f0 * (1 + delta / f0) * (R ^ 2 / (8 * f0 ^ 2)) := ⟨_, rfl⟩
  have hκ0 : 0 < κ := by rw [hκ]; positivity
  rw [← hκ] at hrim ⊢
  have hz0 : 0 < axiparabolaFocus f0 delta R R := by
    unfold axiparabolaFocus
    exact div_pos hf (axiparabola_den_pos R R hf hd.le)
  refine ⟨axiparabolaFocus f0 delta R, axiparabolaFocus f0 delta R R, ?_, ?_, ?_, ?_, ?_, ?_, ?_⟩
  · intro w w0 φ r hw hr hrR z'
    have key := axiparabola_focus f0 delta R hf hd.le hR w w0 φ r hw hr hrR
    exact ⟨fun h => h.unique hr.ne' key, by rintro rfl; exact key⟩
  · have := hcont.tendsto 0
    have h0 : axiparabolaFocus f0 delta R 0 = f0 := by simp [axiparabolaFocus]
    rw [h0] at this
    exact this.mono_left nhdsWithin_le_nhds
  · exact (hcont.tendsto R).mono_left nhdsWithin_le_nhds
  · nlinarith
  · have : axiparabolaFocus f0 delta R R ≤ f0 + delta := by nlinarith
    nlinarith
  · intro hsmall r1 h1 r2 h2 h12
    have hε : 0 < delta / f0 := by positivity
    have hη : 0 ≤ R ^ 2 / (8 * f0 ^ 2) := by positivity
    have hd1 := axiparabola_den_pos R r1 hf hd.le
    have hd2 := axiparabola_den_pos R r2 hf hd.le
    unfold axiparabolaFocus
    apply div_lt_div_of_pos_left hf hd2
    have hu1 : 0 < r1 / R := div_pos h1.1 hR
    have hu12 : r1 / R < r2 / R := div_lt_div_of_pos_right h12 hR
    have hu2 : r2 / R < 1 := (div_lt_one hR).2 h2.2
    generalize r1 / R = u at *
    generalize r2 / R = v at *
    generalize delta / f0 = ε at *
    generalize R ^ 2 / (8 * f0 ^ 2) = η at *
    have h3 : 0 < v ^ 2 - u ^ 2 := by nlinarith
    have h4 : v ^ 2 + u ^ 2 < 2 := by nlinarith
    have h5 : (ε + η) * (v ^ 2 + u ^ 2) < 1 := by
      have : 0 < ε + η := by linarith
      nlinarith
    have h6 : 0 < ε * (v ^ 2 - u ^ 2) * (1 - (ε + η) * (v ^ 2 + u ^ 2)) :=
      mul_pos (mul_pos hε h3) (by linarith)
    linarith [show (1 - ε * u ^ 2 + (ε ^ 2 + ε * η) * u ^ 4) - (1 - ε * v ^ 2 + (ε ^ 2 + ε * η) * v ^ 4) =
      ε * (v ^ 2 - u ^ 2) * (1 - (ε + η) * (v ^ 2 + u ^ 2)) by ring]
  · intro x y w w0 h
    simp only [axiparabola]
    rw [if_pos h]

/-- **C99 is false of the axiparabola as documented** ("rays coming from `r=R` focus at `z=f0+delta`"): the rays
near the rim cross the axis at positions that tend to a limit strictly before `f0 + delta`. -/
theorem C99_axiparabola_refuted (f0 delta R : ℝ) (hf : 0 < f0) (hd : 0 < delta) (hR : 0 < R) :
    ∃ (z : ℝ → ℝ) (zR : ℝ), (∀ w w0 φ r : ℝ, w ≠ 0 → 0 < r → r < R →
        RayFocus (axiparabola f0 delta R) w w0 φ r (z r)) ∧
      Tendsto z (𝓝[<] R) (𝓝 zR) ∧ zR < f0 + delta := by
  have hrim := axiparabolaFocus_rim f0 delta R hf hd.le hR
  have hz0 : 0 < axiparabolaFocus f0 delta R R := by
    unfold axiparabolaFocus
    exact div_pos hf (axiparabola_den_pos R R hf hd.le)
  have hκ0 : 0 < (delta / f0) ^ 3 + delta / f0 * (1 + delta / f0) * (R ^ 2 / (8 * f0 ^ 2)) := by positivity
  refine ⟨axiparabolaFocus f0 delta R, axiparabolaFocus f0 delta R R,
    fun w w0 φ r hw hr hrR => axiparabola_focus f0 delta R hf hd.le hR w w0 φ r hw hr hrR,
    ((continuous_axiparabolaFocus f0 delta R hf hd.le).tendsto R).mono_left nhdsWithin_le_nhds, ?_⟩
  nlinarith

/-- **C99**, axicon: all rays have the same inward slope `2 tan(gamma/2)`, which for `0 < gamma < π/2` lies
between `sin gamma` and `tan gamma`, the slopes of a ray at the angle `gamma` in the two ways of counting it
(transverse wave number over wave number, or transverse over longitudinal). -/
theorem C99_axicon_partial (gamma : ℝ) (w w0 φ r : ℝ) (hw : w ≠ 0) (hr : 0 < r) :
    (∀ m, RaySlope (axicon gamma) w w0 φ r m ↔ m = -(2 * Real.tan (gamma / 2))) ∧
    (0 < gamma → gamma < Real.pi / 2 → Real.sin gamma < 2 * Real.tan (gamma / 2) ∧
      2 * Real.tan (gamma / 2) < Real.tan gamma) := by
  have hc := c_pos.ne'
  constructor
  · have key : RaySlope (axicon gamma) w w0 φ r (-(2 * Real.tan (gamma / 2))) := by
      have := raySlope_of_phase (axicon gamma) w w0 φ r (fun ρ => -(2 * (w / c) * ρ * Real.tan (gamma / 2)))
        (-(2 * (w / c) * Real.tan (gamma / 2))) (by
          have := ((hasDerivAt_id' r).const_mul (2 * (w / c))).mul_const (Real.tan (gamma / 2))
          simpa using this.fun_neg) (by
          filter_upwards [Ioi_mem_nhds hr] with ρ hρ
          simp only [axicon]
          rw [cos_sin_radius, Real.sqrt_sq (le_of_lt hρ)]
          congr 1
          rw [show (0.5 * gamma : ℝ) = gamma / 2 by norm_num; ring]
          push_cast
          ring)
      convert this using 1
      field_simp
    intro m
    exact ⟨fun h => h.unique key, by rintro rfl; exact key⟩
  · intro h0 h1
    have hs : 0 < Real.sin (gamma / 2) := Real.sin_pos_of_pos_of_lt_pi (by linarith) (by linarith [Real.pi_pos])
    have hcs : 0 < Real.cos (gamma / 2) := Real.cos_pos_of_mem_Ioo ⟨by linarith, by linarith⟩
    have hcg : 0 < Real.cos gamma := Real.cos_pos_of_mem_Ioo ⟨by linarith, by linarith⟩
    have es : Real.sin gamma = 2 * Real.sin (gamma / 2) * Real.cos (gamma / 2) := by
      rw [← Real.sin_two_mul]; congr 1; ring
    have ec : Real.cos gamma = 2 * Real.cos (gamma / 2) ^ 2 - 1 := by
      rw [← Real.cos_two_mul]; congr 1; ring
    have hsq := Real.sin_sq_add_cos_sq (gamma / 2)
    rw [Real.tan_eq_sin_div_cos, Real.tan_eq_sin_div_cos, es]
    rw [mul_div_assoc']
    constructor
    · rw [lt_div_iff₀ hcs]
      nlinarith [mul_pos hs hs, mul_pos hs (mul_pos hs hs)]
    · rw [div_lt_div_iff₀ hcs hcg, ec]
      nlinarith [mul_pos hs hs, mul_pos hs (mul_pos hs hs)]

/-- not vacuous: an axiparabola of focal length 1 m and radius 4 cm with a focal range of 10 cm -/
example : ∃ zR : ℝ, zR ≤ 1 + 1 / 10 ∧ 1 + 1 / 10 - zR < 0.002 := by
  obtain ⟨z, zR, -, -, -, h1, h2, -, -⟩ := C99_axiparabola_partial 1 (1 / 10) (4 / 100) (by norm_num) (by norm_num)
    (by norm_num)
  exact ⟨zR, h1, lt_of_le_of_lt h2 (by norm_num)⟩

end Lasy
