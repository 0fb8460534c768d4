import Verif.Lemmas.Laguerre
import Verif.Props.Paraxial

/-!
# Properties C45, C72: Laguerre-Gauss modes
-/

namespace Lasy
open Complex

theorem norm_pos_sq (σ : ℂ) (h : σ = I ∨ σ = -I) (x y : ℝ) : ‖(x : ℂ) + σ * y‖ ^ 2 = x ^ 2 + y ^ 2 := by
  rw [← Complex.normSq_eq_norm_sq]
  rcases h with rfl | rfl <;> simp [Complex.normSq_apply] <;> ring

/-- the sign of `i` in `complex_position` -/
noncomputable def lgSign (m : ℤ) : ℂ := if m > 0 then -I else I

theorem lgSign_or (m : ℤ) : lgSign m = I ∨ lgSign m = -I := by
  unfold lgSign
  split_ifs <;> simp

theorem laguerreGaussianTrans_eq (w0 : ℝ) (p : ℕ) (m : ℤ) (ζ x y : ℝ) :
    laguerreGaussianTrans w0 p m (-ζ) x y = lgv w0 p m.natAbs (lgSign m) x y ζ *
      ((rho ζ : ℂ) ^ m.natAbs * exp (I * ((m.natAbs : ℂ) - m) * (Real.arctan ζ : ℝ))) := by
  have hq : diffractFactor (-ζ) = 1 + I * ζ := by simp [diffractFactor]
  have hrc : (rho ζ : ℂ) ^ m.natAbs ≠ 0 := pow_ne_zero _ (by exact_mod_cast (rho_pos ζ).ne')
  have hpos : (if m > 0 then (x : ℂ) - I * y else x + I * y) = x + lgSign m * y := by
    unfold lgSign
    split_ifs <;> ring
  simp only [laguerreGaussianTrans, norm_diffract, arg_diffract]
  rw [hpos, hq, norm_pos_sq _ (lgSign_or m), lgv, rad]
  rw [show 2 * (x ^ 2 + y ^ 2) / (w0 * rho ζ) ^ 2 = 2 / (w0 ^ 2 * rho ζ ^ 2) * (x ^ 2 + y ^ 2) by ring]
  rw [show -((x ^ 2 + y ^ 2 : ℝ) : ℂ) / ((w0 ^ 2 : ℝ) * (1 + I * ζ)) - I * ((2 * (p : ℤ) + m : ℤ) : ℂ) * (Real.arctan ζ : ℝ)
      = -(1 / ((w0 : ℂ) ^ 2 * (1 + I * ζ))) * ((x ^ 2 + y ^ 2 : ℝ) : ℂ) +
        (-I * ((2 * p + m.natAbs : ℕ) : ℂ) * (Real.arctan ζ : ℝ) + I * ((m.natAbs : ℂ) - m) * (Real.arctan ζ : ℝ)) by
    push_cast; ring, Complex.exp_add, Complex.exp_add]
  generalize exp (-I * ((2 * p + m.natAbs : ℕ) : ℂ) * (Real.arctan ζ : ℝ)) = G
  generalize exp (I * ((m.natAbs : ℂ) - m) * (Real.arctan ζ : ℝ)) = H
  generalize (rho ζ : ℂ) ^ m.natAbs = R at *
  have e : G / (R * (1 + I * ζ)) * R = G / (1 + I * ζ) := by
    rw [← div_div, div_right_comm, div_mul_cancel₀ _ hrc]
  linear_combination (-((x : ℂ) + lgSign m * y) ^ m.natAbs *
    ((Polynomial.eval (2 / (w0 ^ 2 * rho ζ ^ 2) * (x ^ 2 + y ^ 2)) (laguerreL p m.natAbs) : ℝ) : ℂ) *
      exp (-(1 / ((w0 : ℂ) ^ 2 * (1 + I * ζ))) * ((x ^ 2 + y ^ 2 : ℝ) : ℂ)) * H) * e

/-- the mode with the right amplitude and Gouy phase solves the paraxial equation -/
theorem lgv_paraxial (w0 lam : ℝ) (hw : w0 ≠ 0) (hl : lam ≠ 0) (p μ : ℕ) (σ : ℂ) (hσ : σ ^ 2 = -1) :
    Spec.SolvesParaxial (2 * Real.pi / lam) fun x y z => lgv w0 p μ σ x y (z * lam / (Real.pi * w0 ^ 2)) := by
  intro x y z
  obtain ⟨ux, uy, uxx, uyy, h1, h2, h3, h4, h5⟩ := lgv_laplacian w0 p μ σ hσ x y (z * lam / (Real.pi * w0 ^ 2))
  refine ⟨ux, uy, uxx, uyy, _, h1, h2, h3, h4, ?_, rfl⟩
  have hz : HasDerivAt (fun z => z * lam / (Real.pi * w0 ^ 2)) (lam / (Real.pi * w0 ^ 2)) z := by
    simpa using ((hasDerivAt_id z).mul_const lam).div_const (Real.pi * w0 ^ 2)
  have h6 := (lgv_z w0 hw p μ σ x y (z * lam / (Real.pi * w0 ^ 2))).scomp z hz
  refine h6.congr_deriv ?_
  rw [← h5]
  have hpi : (Real.pi : ℂ) ≠ 0 := by exact_mod_cast Real.pi_ne_zero
  have hwc : (w0 : ℂ) ≠ 0 := by exact_mod_cast hw
  have hlc : (lam : ℂ) ≠ 0 := by exact_mod_cast hl
  simp only [Complex.real_smul]
  push_cast
  field_simp
  ring

theorem zFocOverZr_neg (w0 lam z : ℝ) :
    zFocOverZr w0 (some lam) (-z) = .ok (-(z * lam / (Real.pi * w0 ^ 2))) := by
  unfold zFocOverZr
  split_ifs with h
  · rw [neg_eq_zero.1 h]
    simp
  · dsimp only
    congr 1
    ring

theorem lgSign_sq (m : ℤ) : lgSign m ^ 2 = -1 := by
  rcases lgSign_or m with h | h <;> rw [h] <;> simp

/-- **C72**, the part that holds. For `m = 0` the Laguerre-Gauss profile with `z_foc = -z` solves the paraxial
wave equation. Missing: `m ≠ 0`, where it does not (`C72_refuted`). -/
theorem C72_radial_partial (w0 lam : ℝ) (hw : w0 ≠ 0) (hl : lam ≠ 0) (p : ℕ) :
    ∃ u : ℝ → ℝ → ℝ → ℂ,
      (∀ z, ∃ ζ, zFocOverZr w0 (some lam) (-z) = .ok ζ ∧ ∀ x y, u x y z = laguerreGaussianTrans w0 p 0 ζ x y) ∧
      Spec.SolvesParaxial (2 * Real.pi / lam) u := by
  refine ⟨_, fun z => ⟨_, zFocOverZr_neg w0 lam z, fun x y => ?_⟩,
    lgv_paraxial w0 lam hw hl p (0 : ℤ).natAbs (lgSign 0) (lgSign_sq 0)⟩
  rw [laguerreGaussianTrans_eq]
  simp

/-- **C72**, what is missing in the code. For every `p` and `m`, the Laguerre-Gauss profile becomes a solution of
the paraxial wave equation when it is divided by `|q|^|m|` and by the phase `exp(i (|m| - m) arg q)`. -/
theorem C72_corrected_partial (w0 lam : ℝ) (hw : w0 ≠ 0) (hl : lam ≠ 0) (p : ℕ) (m : ℤ) :
    ∃ u : ℝ → ℝ → ℝ → ℂ,
      (∀ z, ∃ ζ, zFocOverZr w0 (some lam) (-z) = .ok ζ ∧
        ∀ x y, u x y z * ((‖diffractFactor ζ‖ : ℂ) ^ m.natAbs * exp (I * ((m.natAbs : ℂ) - m) * arg (diffractFactor ζ))) =
          laguerreGaussianTrans w0 p m ζ x y) ∧
      Spec.SolvesParaxial (2 * Real.pi / lam) u := by
  refine ⟨_, fun z => ⟨_, zFocOverZr_neg w0 lam z, fun x y => ?_⟩,
    lgv_paraxial w0 lam hw hl p m.natAbs (lgSign m) (lgSign_sq m)⟩
  rw [laguerreGaussianTrans_eq, norm_diffract, arg_diffract]

/-- **C72 is false of the code** for every `m ≠ 0` (and every radial order, waist and wavelength): the defocused
Laguerre-Gauss profile is not a solution of the paraxial wave equation. -/
theorem C72_refuted (w0 lam : ℝ) (hw : w0 ≠ 0) (hl : lam ≠ 0) (p : ℕ) (m : ℤ) (hm : m ≠ 0)
    (u : ℝ → ℝ → ℝ → ℂ)
    (hu : ∀ z, ∃ ζ, zFocOverZr w0 (some lam) (-z) = .ok ζ ∧ ∀ x y, u x y z = laguerreGaussianTrans w0 p m ζ x y) :
    ¬ Spec.SolvesParaxial (2 * Real.pi / lam) u := by
  intro hsol
  set κ := lam / (Real.pi * w0 ^ 2) with hκ
  have hκ0 : κ ≠ 0 := div_ne_zero hl (mul_ne_zero Real.pi_ne_zero (pow_ne_zero 2 hw))
  set v : ℝ → ℝ → ℝ → ℂ := fun x y z => lgv w0 p m.natAbs (lgSign m) x y (z * lam / (Real.pi * w0 ^ 2)) with hv
  set K : ℝ → ℂ := fun ζ => (rho ζ : ℂ) ^ m.natAbs * exp (I * ((m.natAbs : ℂ) - m) * (Real.arctan ζ : ℝ)) with hK
  have huv : u = fun x y z => v x y z * K (z * κ) := by
    funext x y z
    obtain ⟨ζ, h1, h2⟩ := hu z
    rw [zFocOverZr_neg] at h1
    injection h1 with h1
    rw [h2, ← h1, laguerreGaussianTrans_eq, hv, hK, hκ]
    simp only [mul_div_assoc]
  -- a point at distance `1/κ` from the focus where the mode does not vanish
  obtain ⟨x, hx⟩ : ∃ x : ℝ, v x 0 κ⁻¹ ≠ 0 := by
    by_contra hcon
    push Not at hcon
    have hL : laguerreL p m.natAbs = 0 := by
      refine Polynomial.eq_zero_of_infinite_isRoot _ (Set.infinite_of_injective_forall_mem
        (f := fun n : ℕ => 2 / (w0 ^ 2 * rho (κ⁻¹ * lam / (Real.pi * w0 ^ 2)) ^ 2) * (((n : ℝ) + 1) ^ 2 + 0 ^ 2)) ?_ ?_)
      · intro a b hab
        have hr := rho_pos (κ⁻¹ * lam / (Real.pi * w0 ^ 2))
        have h0 : 2 / (w0 ^ 2 * rho (κ⁻¹ * lam / (Real.pi * w0 ^ 2)) ^ 2) ≠ 0 := by positivity
        have h1 := mul_left_cancel₀ h0 hab
        have h2 : ((a : ℝ) + 1) ^ 2 = ((b : ℝ) + 1) ^ 2 := by linarith
        have h3 : (a : ℝ) + 1 = b + 1 := by
          have ha : (0 : ℝ) ≤ a := Nat.cast_nonneg a
          have hb : (0 : ℝ) ≤ b := Nat.cast_nonneg b
          nlinarith
        exact_mod_cast (add_right_cancel h3)
      · intro n
        have h := hcon ((n : ℝ) + 1)
        simp only [hv, lgv, rad] at h
        have hr := (rho_pos (κ⁻¹ * lam / (Real.pi * w0 ^ 2))).ne'
        have hq := q_ne (κ⁻¹ * lam / (Real.pi * w0 ^ 2))
        have hn : ((((n : ℝ) + 1 : ℝ) : ℂ) + lgSign m * (0 : ℝ)) ≠ 0 := by
          rw [Complex.ofReal_zero, mul_zero, add_zero]
          have : (n : ℝ) + 1 ≠ 0 := by positivity
          exact_mod_cast this
        rw [mul_eq_zero, mul_eq_zero, mul_eq_zero] at h
        rcases h with (h | h | h) | h
        · exact absurd h (pow_ne_zero _ hn)
        · exact_mod_cast h
        · exact absurd h (Complex.exp_ne_zero _)
        · rw [div_eq_zero_iff] at h
          rcases h with h | h
          · exact absurd h (Complex.exp_ne_zero _)
          · exact absurd h (mul_ne_zero (pow_ne_zero _ (by exact_mod_cast hr)) hq)
    exact laguerreL_ne_zero _ _ hL
  obtain ⟨ux, uy, uxx, uyy, uz, a1, a2, a3, a4, a5, a6⟩ := hsol x 0 κ⁻¹
  obtain ⟨vx, vy, vxx, vyy, vz, b1, b2, b3, b4, b5, b6⟩ :=
    lgv_paraxial w0 lam hw hl p m.natAbs (lgSign m) (lgSign_sq m) x 0 κ⁻¹
  have hκ1 : κ⁻¹ * κ = 1 := inv_mul_cancel₀ hκ0
  have hux : ux = fun x' => vx x' * K 1 := by
    funext x'
    have := (b1 x').mul_const (K 1)
    refine (a1 x').unique (this.congr_of_eventuallyEq (.of_forall fun x => ?_))
    rw [huv]
    simp only [hκ1, hv]
  have huy : uy = fun y' => vy y' * K 1 := by
    funext y'
    have := (b3 y').mul_const (K 1)
    refine (a3 y').unique (this.congr_of_eventuallyEq (.of_forall fun y => ?_))
    rw [huv]
    simp only [hκ1, hv]
  have huxx : uxx = vxx * K 1 := a2.unique (by rw [hux]; exact b2.mul_const _)
  have huyy : uyy = vyy * K 1 := a4.unique (by rw [huy]; exact b4.mul_const _)
  -- the derivative of `K`
  have hKd : HasDerivAt K (K 1 * (((m.natAbs : ℂ) + I * ((m.natAbs : ℂ) - m)) / 2)) 1 := by
    have hr := (rho_pos 1).ne'
    have hr2 : (rho 1 : ℂ) ^ 2 = 2 := by
      rw [← Complex.ofReal_pow, rho_sq]
      norm_num
    have hrc : (rho 1 : ℂ) ≠ 0 := by exact_mod_cast hr
    have h1 : HasDerivAt (fun ζ : ℝ => (rho ζ : ℂ) ^ m.natAbs) ((rho 1 : ℂ) ^ m.natAbs * (m.natAbs / 2)) 1 := by
      refine ((hasDerivAt_rho 1).ofReal_comp.fun_pow m.natAbs).congr_deriv ?_
      obtain ⟨k, hk⟩ : ∃ k, m.natAbs = k + 1 := ⟨m.natAbs - 1, by omega⟩
      rw [hk]
      simp only [Nat.add_sub_cancel]
      push_cast
      rw [← hr2]
      field_simp
      ring
    have h2 : HasDerivAt (fun ζ : ℝ => exp (I * ((m.natAbs : ℂ) - m) * (Real.arctan ζ : ℝ)))
        (exp (I * ((m.natAbs : ℂ) - m) * (Real.arctan 1 : ℝ)) * (I * ((m.natAbs : ℂ) - m) / 2)) 1 := by
      refine (((Real.hasDerivAt_arctan 1).ofReal_comp.const_mul (I * ((m.natAbs : ℂ) - m))).cexp).congr_deriv ?_
      push_cast
      ring
    refine (h1.fun_mul h2).congr_deriv ?_
    simp only [hK]
    ring
  have hzd : HasDerivAt (fun z => K (z * κ)) (κ * (K 1 * (((m.natAbs : ℂ) + I * ((m.natAbs : ℂ) - m)) / 2))) κ⁻¹ := by
    have hz : HasDerivAt (fun z : ℝ => z * κ) κ κ⁻¹ := by simpa using (hasDerivAt_id κ⁻¹).mul_const κ
    rw [← hκ1] at hKd
    refine (HasDerivAt.scomp κ⁻¹ hKd hz).congr_deriv ?_
    rw [Complex.real_smul, hκ1]
  have huz : uz = vz * K 1 + v x 0 κ⁻¹ * (κ * (K 1 * (((m.natAbs : ℂ) + I * ((m.natAbs : ℂ) - m)) / 2))) := by
    have := b5.fun_mul hzd
    rw [hκ1] at this
    refine a5.unique (this.congr_of_eventuallyEq (.of_forall fun z => ?_))
    rw [huv]
  have hz0 : v x 0 κ⁻¹ * (κ * (K 1 * (((m.natAbs : ℂ) + I * ((m.natAbs : ℂ) - m)) / 2))) = 0 := by
    linear_combination a6 - huz + I / (2 * ((2 * Real.pi / lam : ℝ) : ℂ)) * (huxx + huyy) - K 1 * b6
  have hK1 : K 1 ≠ 0 := mul_ne_zero (pow_ne_zero _ (by exact_mod_cast (rho_pos 1).ne')) (Complex.exp_ne_zero _)
  have hμ : ((m.natAbs : ℂ) + I * ((m.natAbs : ℂ) - m)) / 2 ≠ 0 := by
    intro h
    have h1 := congrArg Complex.re h
    simp at h1
    exact hm h1
  exact mul_ne_zero hx (mul_ne_zero (by exact_mod_cast hκ0) (mul_ne_zero hK1 hμ)) hz0

/-! ## C45 -/

/-- **C45** (rotation). Rotating the argument by `α` multiplies the mode by `exp(-i m α)`, for every `p`, `m` and
defocus. -/
theorem C45_rotation (w0 : ℝ) (p : ℕ) (m : ℤ) (ζ x y α : ℝ) :
    laguerreGaussianTrans w0 p m ζ (x * Real.cos α - y * Real.sin α) (x * Real.sin α + y * Real.cos α) =
      exp (-I * m * α) * laguerreGaussianTrans w0 p m ζ x y := by
  have h := laguerreGaussianTrans_eq w0 p m (-ζ)
  rw [neg_neg] at h
  rw [h, h]
  have hr : (x * Real.cos α - y * Real.sin α) ^ 2 + (x * Real.sin α + y * Real.cos α) ^ 2 = x ^ 2 + y ^ 2 := by
    have := Real.sin_sq_add_cos_sq α
    linear_combination (x ^ 2 + y ^ 2) * this
  have hp : (((x * Real.cos α - y * Real.sin α : ℝ) : ℂ) + lgSign m * ((x * Real.sin α + y * Real.cos α : ℝ) : ℂ)) ^ m.natAbs
      = exp (-I * m * α) * ((x : ℂ) + lgSign m * y) ^ m.natAbs := by
    have e1 : (((x * Real.cos α - y * Real.sin α : ℝ) : ℂ) + lgSign m * ((x * Real.sin α + y * Real.cos α : ℝ) : ℂ))
        = exp (lgSign m * α) * ((x : ℂ) + lgSign m * y) := by
      have hs := lgSign_sq m
      have he : exp (lgSign m * α) = Complex.cos α + lgSign m * Complex.sin α := by
        rcases lgSign_or m with h | h <;> rw [h]
        · rw [mul_comm, Complex.exp_mul_I]; ring
        · rw [show -I * (α : ℂ) = (-(α : ℂ)) * I by ring, Complex.exp_mul_I, Complex.cos_neg, Complex.sin_neg]; ring
      rw [he]
      push_cast
      linear_combination (-(Complex.sin α) * y) * hs
    rw [e1, mul_pow, ← Complex.exp_nat_mul]
    congr 2
    unfold lgSign
    split_ifs with hm
    · have h : ((m.natAbs : ℕ) : ℤ) = m := by omega
      have : ((m.natAbs : ℕ) : ℂ) = (m : ℂ) := by rw [← Int.cast_natCast, h]
      rw [this]; ring
    · have h : ((m.natAbs : ℕ) : ℤ) = -m := by omega
      have : ((m.natAbs : ℕ) : ℂ) = -(m : ℂ) := by rw [← Int.cast_natCast, h, Int.cast_neg]
      rw [this]; ring
  simp only [lgv]
  rw [hr, hp]
  ring

/-- **C45**, the part that holds: the `(p, -m)` mode is the mirror image of the `(p, m)` mode up to the phase
`exp(2 i m ψ)`, `ψ = arg q`; in focus (`z_foc = 0`) they are mirror images. Missing: out of focus they are not
(`C45_refuted`). -/
theorem C45_mirror_partial (w0 : ℝ) (p : ℕ) (m : ℤ) (ζ x y : ℝ) :
    laguerreGaussianTrans w0 p (-m) ζ x y =
        exp (2 * I * m * arg (diffractFactor ζ)) * laguerreGaussianTrans w0 p m ζ x (-y) ∧
      laguerreGaussianTrans w0 p (-m) 0 x y = laguerreGaussianTrans w0 p m 0 x (-y) := by
  have key : ∀ ζ, laguerreGaussianTrans w0 p (-m) (-ζ) x y =
        exp (2 * I * m * Real.arctan ζ) * laguerreGaussianTrans w0 p m (-ζ) x (-y) := by
    intro ζ
    rw [laguerreGaussianTrans_eq, laguerreGaussianTrans_eq, Int.natAbs_neg]
    have hs : m ≠ 0 → lgSign (-m) = -lgSign m := by
      intro hm
      unfold lgSign
      rcases lt_trichotomy m 0 with h | h | h
      · rw [if_pos (by omega), if_neg (by omega)]
      · exact absurd h hm
      · rw [if_neg (by omega), if_pos (by omega), neg_neg]
    have hp : ((x : ℂ) + lgSign (-m) * y) ^ m.natAbs = ((x : ℂ) + lgSign m * ((-y : ℝ) : ℂ)) ^ m.natAbs := by
      rcases eq_or_ne m 0 with h | h
      · subst h
        simp
      · rw [hs h]
        push_cast
        ring
    have he : exp (I * ((m.natAbs : ℂ) - ((-m : ℤ) : ℂ)) * (Real.arctan ζ : ℝ)) =
        exp (2 * I * m * Real.arctan ζ) * exp (I * ((m.natAbs : ℂ) - m) * (Real.arctan ζ : ℝ)) := by
      rw [← Complex.exp_add]
      congr 1
      push_cast
      ring
    simp only [lgv]
    rw [hp, he, neg_sq]
    ring
  constructor
  · have := key (-ζ)
    rw [neg_neg] at this
    rw [this]
    congr 4
    have := arg_diffract (-ζ)
    rw [neg_neg] at this
    rw [this]
  · have := key 0
    simpa using this

/-- **C45 is false of the code** out of focus, e.g. for `m = 1` and every `p`, every `z_foc ≠ 0`: wherever the mode
does not vanish, the `(p, -1)` mode is not the mirror image of the `(p, 1)` mode. -/
theorem C45_refuted (w0 : ℝ) (p : ℕ) (ζ x y : ℝ) (hζ : ζ ≠ 0) (hne : laguerreGaussianTrans w0 p 1 ζ x (-y) ≠ 0) :
    laguerreGaussianTrans w0 p (-1) ζ x y ≠ laguerreGaussianTrans w0 p 1 ζ x (-y) := by
  rw [(C45_mirror_partial w0 p 1 ζ x y).1]
  intro h
  have h1 : exp (2 * I * ((1 : ℤ) : ℂ) * arg (diffractFactor ζ)) = 1 := by
    have := mul_right_cancel₀ hne (h.trans (one_mul _).symm)
    exact this
  have ha := arg_diffract (-ζ)
  rw [neg_neg] at ha
  rw [ha, Complex.exp_eq_one_iff] at h1
  obtain ⟨n, hn⟩ := h1
  have h2 : Real.arctan (-ζ) = n * Real.pi := by
    have h3 : ((Real.arctan (-ζ) : ℝ) : ℂ) = ((n * Real.pi : ℝ) : ℂ) := by
      have hI : (2 * I : ℂ) ≠ 0 := by simp
      apply mul_left_cancel₀ hI
      push_cast at hn ⊢
      linear_combination hn
    exact_mod_cast h3
  have hpi := Real.pi_pos
  have h4 := Real.neg_pi_div_two_lt_arctan (-ζ)
  have h5 := Real.arctan_lt_pi_div_two (-ζ)
  rw [h2] at h4 h5
  have h6 : (-1 : ℝ) < n := by nlinarith
  have h7 : (n : ℝ) < 1 := by nlinarith
  have h8 : n = 0 := by
    have : (-1 : ℤ) < n := by exact_mod_cast h6
    have : n < (1 : ℤ) := by exact_mod_cast h7
    omega
  rw [h8] at h2
  simp at h2
  exact hζ h2

/-- the refutation applies: a point where the defocused `(0, 1)` mode does not vanish -/
example : laguerreGaussianTrans 1 0 1 1 1 (-0) ≠ 0 := by
  have h := laguerreGaussianTrans_eq 1 0 1 (-1) 1 (-0)
  rw [neg_neg] at h
  rw [h]
  refine mul_ne_zero ?_ (mul_ne_zero (pow_ne_zero _ (by exact_mod_cast (rho_pos _).ne')) (Complex.exp_ne_zero _))
  rw [lgv, rad]
  refine mul_ne_zero (mul_ne_zero ?_ (mul_ne_zero ?_ (Complex.exp_ne_zero _)))
    (div_ne_zero (Complex.exp_ne_zero _) (mul_ne_zero (pow_ne_zero _ (by exact_mod_cast (rho_pos _).ne')) (q_ne _)))
  · simp
  · simp [laguerreL]

end Lasy
