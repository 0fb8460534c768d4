import Verif.Spec.Lens
import Verif.Model.Transverse
import Verif.Model.Optics
import Verif.Lemmas.Paraxial

/-!
# Property C117: a parabolic mirror turns a Gaussian beam into the Gaussian beam of the lens formula
-/

namespace Lasy
open Complex Phys

theorem zFocOverZr_ok (w0 lam z : ℝ) : zFocOverZr w0 (some lam) z = .ok (z * lam / (Real.pi * w0 ^ 2)) := by
  unfold zFocOverZr
  split_ifs with h
  · simp [h]
  · rfl

theorem norm_diffractFactor (ζ : ℝ) : ‖diffractFactor ζ‖ = Real.sqrt (1 + ζ ^ 2) := by
  have h := Complex.norm_add_mul_I 1 (-ζ)
  simp only [diffractFactor]
  rw [show (1 : ℂ) - I * ζ = ((1 : ℝ) : ℂ) + ((-ζ : ℝ) : ℂ) * I by push_cast; ring, h]
  congr 1
  ring

theorem diffractFactor_ne (ζ : ℝ) : diffractFactor ζ ≠ 0 := by
  rw [← norm_pos_iff, norm_diffractFactor]
  positivity

/-- the beam behind the mirror: same spot size on the mirror, and the exponents add up -/
theorem lens_aux (w0 lam z f : ℝ) (hw : 0 < w0) (hl : 0 < lam) (hf : f ≠ 0) :
    ∃ w1 z1 : ℝ, 0 < w1 ∧ Spec.LensLaw f (Spec.beamParam lam w0 z) (Spec.beamParam lam w1 z1) ∧
      w0 * ‖diffractFactor (z * lam / (Real.pi * w0 ^ 2))‖ = w1 * ‖diffractFactor (z1 * lam / (Real.pi * w1 ^ 2))‖ ∧
      ∀ r2 : ℂ, -r2 / ((w0 ^ 2 : ℝ) * diffractFactor (z * lam / (Real.pi * w0 ^ 2))) - I * Real.pi * r2 / (lam * f) =
        -r2 / ((w1 ^ 2 : ℝ) * diffractFactor (z1 * lam / (Real.pi * w1 ^ 2))) := by
  have hpi := Real.pi_pos
  set ζ := z * lam / (Real.pi * w0 ^ 2) with hζ
  set W2 := w0 ^ 2 * (1 + ζ ^ 2) with hW2
  have hW : 0 < W2 := by positivity
  set ζ1 := ζ + Real.pi * W2 / (lam * f) with hζ1
  set w1 := Real.sqrt (W2 / (1 + ζ1 ^ 2)) with hw1
  have h1 : 0 < 1 + ζ1 ^ 2 := by positivity
  have hw1p : 0 < w1 := Real.sqrt_pos.2 (by positivity)
  have hw12 : w1 ^ 2 = W2 / (1 + ζ1 ^ 2) := Real.sq_sqrt (by positivity)
  have hW2' : w1 ^ 2 * (1 + ζ1 ^ 2) = W2 := by rw [hw12]; field_simp
  refine ⟨w1, ζ1 * (Real.pi * w1 ^ 2) / lam, hw1p, ?_, ?_, ?_⟩
  all_goals
    have e1 : ζ1 * (Real.pi * w1 ^ 2) / lam * lam / (Real.pi * w1 ^ 2) = ζ1 := by field_simp
  · have ez : z = ζ * (Real.pi * w0 ^ 2) / lam := by rw [hζ]; field_simp
    have g0 : Spec.beamParam lam w0 z = (Real.pi * w0 ^ 2 / lam : ℝ) * (ζ + I) := by
      rw [Spec.beamParam, ez]; push_cast; ring
    have g1 : Spec.beamParam lam w1 (ζ1 * (Real.pi * w1 ^ 2) / lam) = (Real.pi * w1 ^ 2 / lam : ℝ) * (ζ1 + I) := by
      rw [Spec.beamParam]; push_cast; ring
    have inv : ∀ (a t : ℝ), 0 < a → 1 / ((Real.pi * a / lam : ℝ) * (t + I : ℂ)) =
        (lam / (Real.pi * (a * (1 + t ^ 2))) : ℝ) * (t - I) := by
      intro a t ha
      have ht : (t + I : ℂ) ≠ 0 := by
        intro h
        have := congrArg Complex.im h
        simp at this
      have e : (t + I : ℂ) * (t - I) = 1 + t ^ 2 := by linear_combination -I_sq
      have hne : (1 + t ^ 2 : ℂ) ≠ 0 := by
        have : (0 : ℝ) < 1 + t ^ 2 := by positivity
        exact_mod_cast this.ne'
      have hpc : (Real.pi : ℂ) ≠ 0 := by exact_mod_cast hpi.ne'
      have hlc : (lam : ℂ) ≠ 0 := by exact_mod_cast hl.ne'
      have hac : (a : ℂ) ≠ 0 := by exact_mod_cast ha.ne'
      push_cast
      rw [div_eq_iff (mul_ne_zero (div_ne_zero (mul_ne_zero hpc hac) hlc) ht)]
      field_simp
      rw [← e]
      ring
    rw [Spec.LensLaw, g0, g1, inv _ _ (by positivity), inv _ _ (by positivity), hW2', ← hW2, hζ1]
    have hpc : (Real.pi : ℂ) ≠ 0 := by exact_mod_cast hpi.ne'
    have hlc : (lam : ℂ) ≠ 0 := by exact_mod_cast hl.ne'
    have hWc : (W2 : ℂ) ≠ 0 := by exact_mod_cast hW.ne'
    have hfc : (f : ℂ) ≠ 0 := by exact_mod_cast hf
    push_cast
    field_simp
    ring
  · rw [e1, norm_diffractFactor, norm_diffractFactor]
    have a : w0 * Real.sqrt (1 + ζ ^ 2) = Real.sqrt W2 := by
      rw [hW2, Real.sqrt_mul (by positivity), Real.sqrt_sq hw.le]
    rw [a, ← hW2', Real.sqrt_mul (by positivity), Real.sqrt_sq hw1p.le]
  · intro r2
    rw [e1]
    have inv : ∀ (a t : ℝ), 0 < a → -r2 / ((a : ℝ) * diffractFactor t) =
        -r2 * ((1 / (a * (1 + t ^ 2)) : ℝ) * (1 + I * t)) := by
      intro a t ha
      have hq := diffractFactor_ne t
      have e : diffractFactor t * (1 + I * t) = 1 + t ^ 2 := by
        rw [diffractFactor]; linear_combination -(t : ℂ) ^ 2 * I_sq
      have hne : (1 + t ^ 2 : ℂ) ≠ 0 := by
        have : (0 : ℝ) < 1 + t ^ 2 := by positivity
        exact_mod_cast this.ne'
      have hac : (a : ℂ) ≠ 0 := by exact_mod_cast ha.ne'
      push_cast
      field_simp
      rw [← e]
      ring
    rw [inv _ _ (by positivity), inv _ _ (by positivity), hW2', ← hW2, hζ1]
    have hpc : (Real.pi : ℂ) ≠ 0 := by exact_mod_cast hpi.ne'
    have hlc : (lam : ℂ) ≠ 0 := by exact_mod_cast hl.ne'
    have hWc : (W2 : ℂ) ≠ 0 := by exact_mod_cast hW.ne'
    have hfc : (f : ℂ) ≠ 0 := by exact_mod_cast hf
    push_cast
    field_simp
    ring

variable [Phys]

theorem mirror_at_centre (f lam : ℝ) (hl : 0 < lam) (hf : f ≠ 0) (x y : ℝ) (o : ℝ) :
    (parabolicMirror f).mult x y (2 * Real.pi * c / lam) o = exp (-(I * Real.pi * ((x ^ 2 + y ^ 2 : ℝ) : ℂ) / (lam * f))) := by
  have hc : (c : ℂ) ≠ 0 := by exact_mod_cast c_pos.ne'
  have hlc : (lam : ℂ) ≠ 0 := by exact_mod_cast hl.ne'
  have hfc : (f : ℂ) ≠ 0 := by exact_mod_cast hf
  simp only [parabolicMirror]
  congr 1
  push_cast
  field_simp

/-- **C117** (Gaussian). Applied at the centre frequency to the transverse profile of a Gaussian beam of waist `w0`
focused at `z`, a parabolic mirror of focal length `f` gives a constant times the profile of the Gaussian beam of
the lens formula, as constructed by the code; the constant is the ratio of the waists up to a phase. -/
theorem C117_lens_gaussian (w0 lam z f : ℝ) (hw : 0 < w0) (hl : 0 < lam) (hf : f ≠ 0) :
    ∃ (w1 z1 ζ ζ1 : ℝ) (K : ℂ), 0 < w1 ∧ Spec.LensLaw f (Spec.beamParam lam w0 z) (Spec.beamParam lam w1 z1) ∧
      zFocOverZr w0 (some lam) z = .ok ζ ∧ zFocOverZr w1 (some lam) z1 = .ok ζ1 ∧ ‖K‖ = w0 / w1 ∧
      ∀ x y o : ℝ, (parabolicMirror f).mult x y (2 * Real.pi * c / lam) o * gaussianTrans w0 ζ x y =
        K * gaussianTrans w1 ζ1 x y := by
  obtain ⟨w1, z1, h1, h2, h3, h4⟩ := lens_aux w0 lam z f hw hl hf
  refine ⟨w1, z1, _, _, diffractFactor (z1 * lam / (Real.pi * w1 ^ 2)) / diffractFactor (z * lam / (Real.pi * w0 ^ 2)),
    h1, h2, zFocOverZr_ok _ _ _, zFocOverZr_ok _ _ _, ?_, fun x y o => ?_⟩
  · have n0 := norm_pos_iff.2 (diffractFactor_ne (z * lam / (Real.pi * w0 ^ 2)))
    rw [norm_div, div_eq_div_iff n0.ne' h1.ne', h3, mul_comm]
  · rw [mirror_at_centre f lam hl hf, gaussianTrans, gaussianTrans, ← h4, sub_eq_add_neg, Complex.exp_add]
    have q1 := diffractFactor_ne (z1 * lam / (Real.pi * w1 ^ 2))
    have q0 := diffractFactor_ne (z * lam / (Real.pi * w0 ^ 2))
    generalize diffractFactor (z1 * lam / (Real.pi * w1 ^ 2)) = b at *
    generalize diffractFactor (z * lam / (Real.pi * w0 ^ 2)) = a at *
    field_simp

/-- **C117** (Hermite-Gauss). The same for the normalised Hermite-Gauss modes of every order; the constant is a
phase: the mirror takes no energy from the mode. -/
theorem C117_lens_hermite (w0 lam z f : ℝ) (hw : 0 < w0) (hl : 0 < lam) (hf : f ≠ 0) (nx ny : ℕ) :
    ∃ (w1 z1 ζ ζ1 : ℝ) (K : ℂ), 0 < w1 ∧ Spec.LensLaw f (Spec.beamParam lam w0 z) (Spec.beamParam lam w1 z1) ∧
      zFocOverZr w0 (some lam) z = .ok ζ ∧ zFocOverZr w1 (some lam) z1 = .ok ζ1 ∧ ‖K‖ = 1 ∧
      ∀ x y o : ℝ, (parabolicMirror f).mult x y (2 * Real.pi * c / lam) o * hermiteGaussianTrans w0 nx ny ζ x y =
        K * hermiteGaussianTrans w1 nx ny ζ1 x y := by
  obtain ⟨w1, z1, h1, h2, h3, h4⟩ := lens_aux w0 lam z f hw hl hf
  set ζ := z * lam / (Real.pi * w0 ^ 2) with hζ
  set ζ1 := z1 * lam / (Real.pi * w1 ^ 2) with hζ1
  have hq := diffractFactor_ne ζ
  have hq1 := diffractFactor_ne ζ1
  refine ⟨w1, z1, _, _, (w1 / w0 : ℝ) * (diffractFactor ζ1 / diffractFactor ζ) *
      exp (((((nx + ny : ℕ) : ℝ) * (arg (diffractFactor ζ1) - arg (diffractFactor ζ)) : ℝ) : ℂ) * I),
    h1, h2, zFocOverZr_ok _ _ _, zFocOverZr_ok _ _ _, ?_, fun x y o => ?_⟩
  · have n0 := norm_pos_iff.2 hq
    rw [norm_mul, Complex.norm_exp_ofReal_mul_I, norm_mul, norm_div, Complex.norm_real, Real.norm_eq_abs,
      abs_of_pos (by positivity), mul_one, div_mul_div_comm, ← h3, div_self (by positivity)]
  · have hs : ∀ n : ℕ, Real.sqrt (1 / (2 ^ n * n.factorial * w0)) =
        Real.sqrt (w1 / w0) * Real.sqrt (1 / (2 ^ n * n.factorial * w1)) := by
      intro n
      rw [← Real.sqrt_mul (by positivity)]
      congr 1
      field_simp
    have hss : (Real.sqrt (w1 / w0) : ℂ) * (Real.sqrt (w1 / w0) : ℂ) = (w1 / w0 : ℝ) := by
      rw [← Complex.ofReal_mul, Real.mul_self_sqrt (by positivity)]
    rw [mirror_at_centre f lam hl hf]
    simp only [hermiteGaussianTrans, ← hζ, ← hζ1]
    rw [hs nx, hs ny, ← h4, h3]
    generalize (Real.sqrt (1 / (2 ^ nx * nx.factorial * w1)) : ℝ) = A
    generalize (Real.sqrt (1 / (2 ^ ny * ny.factorial * w1)) : ℝ) = B
    rw [← hss]
    simp only [sub_eq_add_neg, Complex.exp_add]
    generalize (Real.sqrt (w1 / w0) : ℝ) = S
    have e : exp (-(I * ((nx + ny : ℕ) : ℂ) * (arg (diffractFactor ζ) : ℝ))) =
        exp (((((nx + ny : ℕ) : ℝ) * (arg (diffractFactor ζ1) + -arg (diffractFactor ζ)) : ℝ) : ℂ) * I) *
        exp (-(I * ((nx + ny : ℕ) : ℂ) * (arg (diffractFactor ζ1) : ℝ))) := by
      rw [← Complex.exp_add]
      congr 1
      push_cast
      ring
    rw [e]
    push_cast
    field_simp

/-- **C117** (Laguerre-Gauss). The same for the (un-normalised) Laguerre-Gauss modes of every order. -/
theorem C117_lens_laguerre (w0 lam z f : ℝ) (hw : 0 < w0) (hl : 0 < lam) (hf : f ≠ 0) (p : ℕ) (m : ℤ) :
    ∃ (w1 z1 ζ ζ1 : ℝ) (K : ℂ), 0 < w1 ∧ Spec.LensLaw f (Spec.beamParam lam w0 z) (Spec.beamParam lam w1 z1) ∧
      zFocOverZr w0 (some lam) z = .ok ζ ∧ zFocOverZr w1 (some lam) z1 = .ok ζ1 ∧ ‖K‖ = w0 / w1 ∧
      ∀ x y o : ℝ, (parabolicMirror f).mult x y (2 * Real.pi * c / lam) o * laguerreGaussianTrans w0 p m ζ x y =
        K * laguerreGaussianTrans w1 p m ζ1 x y := by
  obtain ⟨w1, z1, h1, h2, h3, h4⟩ := lens_aux w0 lam z f hw hl hf
  set ζ := z * lam / (Real.pi * w0 ^ 2) with hζ
  set ζ1 := z1 * lam / (Real.pi * w1 ^ 2) with hζ1
  have hq := diffractFactor_ne ζ
  have hq1 := diffractFactor_ne ζ1
  refine ⟨w1, z1, _, _, (diffractFactor ζ1 / diffractFactor ζ) *
      exp ((((2 * (p : ℤ) + m : ℤ) * (arg (diffractFactor ζ1) - arg (diffractFactor ζ)) : ℝ) : ℂ) * I),
    h1, h2, zFocOverZr_ok _ _ _, zFocOverZr_ok _ _ _, ?_, fun x y o => ?_⟩
  · have n0 := norm_pos_iff.2 hq
    rw [norm_mul, Complex.norm_exp_ofReal_mul_I, mul_one, norm_div, div_eq_div_iff n0.ne' h1.ne', h3, mul_comm]
  · have hr : ∀ b : Prop, ∀ _ : Decidable b, ‖(if b then (x : ℂ) - I * y else x + I * y)‖ ^ 2 = x ^ 2 + y ^ 2 := by
      intro b _
      rw [← Complex.normSq_eq_norm_sq]
      split_ifs <;> simp [Complex.normSq_apply] <;> ring
    rw [mirror_at_centre f lam hl hf]
    simp only [laguerreGaussianTrans, ← hζ, ← hζ1]
    rw [hr, ← h4, h3]
    simp only [sub_eq_add_neg, Complex.exp_add]
    have e : exp (-(I * ((2 * (p : ℤ) + m : ℤ) : ℂ) * (arg (diffractFactor ζ) : ℝ))) =
        exp ((((2 * (p : ℤ) + m : ℤ) * (arg (diffractFactor ζ1) + -arg (diffractFactor ζ)) : ℝ) : ℂ) * I) *
        exp (-(I * ((2 * (p : ℤ) + m : ℤ) : ℂ) * (arg (diffractFactor ζ1) : ℝ))) := by
      rw [← Complex.exp_add]
      congr 1
      push_cast
      ring
    rw [e]
    field_simp

omit [Phys] in
/-- **C117** (where the focus is). For a beam that has its waist on the mirror, the lens formula says: the new focus
is at `f / (1 + (f / z_R)²)`, downstream for `f > 0`, and the new waist is `w0 / √(1 + (z_R / f)²)`. -/
theorem C117_focus (w0 lam f w1 z1 : ℝ) (hw : 0 < w0) (hl : 0 < lam) (hf : f ≠ 0) (hw1 : 0 < w1)
    (h : Spec.LensLaw f (Spec.beamParam lam w0 0) (Spec.beamParam lam w1 z1)) :
    z1 = f / (1 + (f / (Real.pi * w0 ^ 2 / lam)) ^ 2) ∧
      w1 = w0 / Real.sqrt (1 + ((Real.pi * w0 ^ 2 / lam) / f) ^ 2) := by
  have hpi := Real.pi_pos
  obtain ⟨R, hR⟩ : ∃ R, R = Real.pi * w0 ^ 2 / lam := ⟨_, rfl⟩
  obtain ⟨R1, hR1⟩ : ∃ R1, R1 = Real.pi * w1 ^ 2 / lam := ⟨_, rfl⟩
  have hRp : 0 < R := by rw [hR]; positivity
  have hR1p : 0 < R1 := by rw [hR1]; positivity
  simp only [Spec.LensLaw, Spec.beamParam, ← hR, ← hR1] at h
  have hb1 : (z1 + I * (R1 : ℂ)) ≠ 0 := by
    intro h0
    have := congrArg Complex.im h0
    simp at this
    exact hR1p.ne' this
  have hb : (((0 : ℝ) : ℂ) + I * (R : ℂ)) ≠ 0 := by
    intro h0
    have := congrArg Complex.im h0
    simp at this
    exact hRp.ne' this
  have hfc : (f : ℂ) ≠ 0 := by exact_mod_cast hf
  have e : (((0 : ℝ) : ℂ) + I * R) * f = (z1 + I * R1) * (f + I * R) := by
    field_simp at h
    push_cast at h ⊢
    linear_combination h
  have er := congrArg Complex.re e
  have ei := congrArg Complex.im e
  simp at er ei
  -- er : 0 = z1 f - R1 R ; ei : R f = z1 R + R1 f
  have hs : 0 < f ^ 2 + R ^ 2 := by positivity
  have z : z1 * (f ^ 2 + R ^ 2) = R ^ 2 * f := by linear_combination -f * er - R * ei
  have r : R1 * (f ^ 2 + R ^ 2) = R * f ^ 2 := by linear_combination R * er - f * ei
  rw [← hR]
  refine ⟨?_, ?_⟩
  · rw [eq_div_iff (by positivity)]
    field_simp
    linarith
  · have hw2 : w1 ^ 2 = w0 ^ 2 / (1 + (R / f) ^ 2) := by
      have a : w1 ^ 2 = R1 * lam / Real.pi := by rw [hR1]; field_simp
      have b : w0 ^ 2 = R * lam / Real.pi := by rw [hR]; field_simp
      rw [a, b]
      have : R1 = R * f ^ 2 / (f ^ 2 + R ^ 2) := by rw [eq_div_iff hs.ne', r]
      rw [this]
      field_simp
    rw [← Real.sqrt_sq hw1.le, hw2, Real.sqrt_div (by positivity), Real.sqrt_sq hw.le]

/-- the hypotheses are met: a mirror of 1 m focal length and a beam at its waist, with Rayleigh length 1 m -/
example : ∃ (w1 z1 ζ ζ1 : ℝ) (K : ℂ), z1 = 1 / 2 ∧ ‖K‖ = 1 ∧ zFocOverZr (1 / 1000) (some (Real.pi / 1000000)) 0 = .ok ζ ∧
    zFocOverZr w1 (some (Real.pi / 1000000)) z1 = .ok ζ1 ∧
    ∀ x y o : ℝ, (parabolicMirror 1).mult x y (2 * Real.pi * c / (Real.pi / 1000000)) o *
        hermiteGaussianTrans (1 / 1000) 2 1 ζ x y = K * hermiteGaussianTrans w1 2 1 ζ1 x y := by
  obtain ⟨w1, z1, ζ, ζ1, K, h1, h2, h3, h4, h5, h6⟩ := C117_lens_hermite (1 / 1000) (Real.pi / 1000000) 0 1
    (by norm_num) (by positivity) one_ne_zero 2 1
  refine ⟨w1, z1, ζ, ζ1, K, ?_, h5, h3, h4, h6⟩
  rw [(C117_focus _ _ _ _ _ (by norm_num) (by positivity) one_ne_zero h1 h2).1]
  have := Real.pi_pos
  field_simp
  norm_num

end Lasy
