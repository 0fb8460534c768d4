import Verif.Props.Zernike
import Mathlib.Analysis.SpecialFunctions.PolarCoord
import Mathlib.MeasureTheory.Group.Integral
import Mathlib.MeasureTheory.Integral.Prod
import Mathlib.Analysis.SpecialFunctions.Integrals.Basic

/-!
# C77: the Zernike modes are orthonormal on the pupil
-/

namespace Lasy
open Finset MeasureTheory intervalIntegral

theorem integral_cos_int (k : ℤ) :
    ∫ θ in (-Real.pi)..Real.pi, Real.cos (k * θ) = if k = 0 then 2 * Real.pi else 0 := by
  split_ifs with h
  · subst h; simp; ring
  · have hk : (k : ℝ) ≠ 0 := by exact_mod_cast h
    rw [integral_comp_mul_left (fun x => Real.cos x) hk, integral_cos, mul_neg, Real.sin_neg, Real.sin_int_mul_pi]
    simp

theorem integral_sin_int (k : ℤ) : ∫ θ in (-Real.pi)..Real.pi, Real.sin (k * θ) = 0 := by
  by_cases h : k = 0
  · subst h; simp
  · have hk : (k : ℝ) ≠ 0 := by exact_mod_cast h
    rw [integral_comp_mul_left (fun x => Real.sin x) hk, integral_sin, mul_neg, Real.cos_neg]
    simp

theorem azimuthal_ortho (m m' : ℤ) :
    ∫ θ in (-Real.pi)..Real.pi, zernikeAzimuthal m θ * zernikeAzimuthal m' θ =
      if m = m' then (if m = 0 then 2 * Real.pi else Real.pi) else 0 := by
  have ic : ∀ k : ℤ, IntervalIntegrable (fun θ => Real.cos (k * θ) / 2) volume (-Real.pi) Real.pi := fun k =>
    (by fun_prop : Continuous fun θ => Real.cos (k * θ) / 2).intervalIntegrable _ _
  have is : ∀ k : ℤ, IntervalIntegrable (fun θ => Real.sin (k * θ) / 2) volume (-Real.pi) Real.pi := fun k =>
    (by fun_prop : Continuous fun θ => Real.sin (k * θ) / 2).intervalIntegrable _ _
  have e1 : ∀ a b : ℝ, Real.cos a * Real.cos b = Real.cos (a - b) / 2 + Real.cos (a + b) / 2 := by
    intro a b; rw [Real.cos_add, Real.cos_sub]; ring
  have e2 : ∀ a b : ℝ, Real.sin a * Real.sin b = Real.cos (a - b) / 2 - Real.cos (a + b) / 2 := by
    intro a b; rw [Real.cos_add, Real.cos_sub]; ring
  have e3 : ∀ a b : ℝ, Real.sin a * Real.cos b = Real.sin (a + b) / 2 + Real.sin (a - b) / 2 := by
    intro a b; rw [Real.sin_add, Real.sin_sub]; ring
  unfold zernikeAzimuthal
  by_cases h : m < 0 <;> by_cases h' : m' < 0
  · simp only [if_pos h, if_pos h']
    have : ∀ θ : ℝ, Real.sin (-m * θ) * Real.sin (-m' * θ) =
        Real.cos ((m' - m : ℤ) * θ) / 2 - Real.cos ((-m - m' : ℤ) * θ) / 2 := by
      intro θ; rw [e2]; push_cast; ring_nf
    simp only [this]
    rw [integral_sub (ic _) (ic _), intervalIntegral.integral_div, intervalIntegral.integral_div, integral_cos_int, integral_cos_int]
    split_ifs <;> first | omega | ring
  · simp only [if_pos h, if_neg h']
    have : ∀ θ : ℝ, Real.sin (-m * θ) * Real.cos (m' * θ) =
        Real.sin ((-m + m' : ℤ) * θ) / 2 + Real.sin ((-m - m' : ℤ) * θ) / 2 := by
      intro θ; rw [e3]; push_cast; ring_nf
    simp only [this]
    rw [integral_add (is _) (is _), intervalIntegral.integral_div, intervalIntegral.integral_div, integral_sin_int, integral_sin_int,
      if_neg (by omega)]
    ring
  · simp only [if_neg h, if_pos h']
    have : ∀ θ : ℝ, Real.cos (m * θ) * Real.sin (-m' * θ) =
        Real.sin ((-m' + m : ℤ) * θ) / 2 + Real.sin ((-m' - m : ℤ) * θ) / 2 := by
      intro θ; rw [mul_comm, e3]; push_cast; ring_nf
    simp only [this]
    rw [integral_add (is _) (is _), intervalIntegral.integral_div, intervalIntegral.integral_div, integral_sin_int, integral_sin_int,
      if_neg (by omega)]
    ring
  · simp only [if_neg h, if_neg h']
    have : ∀ θ : ℝ, Real.cos (m * θ) * Real.cos (m' * θ) =
        Real.cos ((m - m' : ℤ) * θ) / 2 + Real.cos ((m + m' : ℤ) * θ) / 2 := by
      intro θ; rw [e1]; push_cast; ring_nf
    simp only [this]
    rw [integral_add (ic _) (ic _), intervalIntegral.integral_div, intervalIntegral.integral_div, integral_cos_int, integral_cos_int]
    split_ifs <;> first | omega | ring

/-- the radial integral, for `p' ≤ p` -/
theorem radial_ortho_le (p p' m : ℕ) (h : p' ≤ p) :
    ∫ u in (0 : ℝ)..1, u * (bornWolfRadial p m u * bornWolfRadial p' m u) =
      if p = p' then 1 / (2 * ((2 * p + m : ℕ) + 1 : ℝ)) else 0 := by
  have hexp : ∀ u : ℝ, u * (bornWolfRadial p m u * bornWolfRadial p' m u) =
      ∑ k' ∈ range (p' + 1), ∑ k ∈ range (p + 1), radCoef p' m k' * (radCoef p m k *
        u ^ (2 * p + m - 2 * k + (2 * p' + m - 2 * k') + 1)) := by
    intro u
    rw [bornWolfRadial, bornWolfRadial, mul_comm (∑ k ∈ range (p + 1), _), sum_mul_sum, mul_sum]
    refine sum_congr rfl fun k' _ => ?_
    rw [mul_sum]
    refine sum_congr rfl fun k _ => ?_
    rw [pow_succ, pow_add]
    ring
  simp only [hexp]
  rw [integral_finsetSum (fun k' _ => (by fun_prop : Continuous _).intervalIntegrable _ _)]
  have hin : ∀ k' ∈ range (p' + 1), ∫ u in (0 : ℝ)..1, ∑ k ∈ range (p + 1), radCoef p' m k' * (radCoef p m k *
        u ^ (2 * p + m - 2 * k + (2 * p' + m - 2 * k') + 1)) =
      radCoef p' m k' / 2 * ∑ k ∈ range (p + 1), radCoef p m k * (((p + m + 1 + (p' - k') : ℕ) : ℝ) - k)⁻¹ := by
    intro k' hk'
    have hk1 : k' ≤ p' := by have := mem_range.1 hk'; omega
    rw [integral_finsetSum (fun k _ => (by fun_prop : Continuous _).intervalIntegrable _ _), mul_sum]
    refine sum_congr rfl fun k hk => ?_
    have hk2 : k ≤ p := by have := mem_range.1 hk; omega
    rw [intervalIntegral.integral_const_mul, intervalIntegral.integral_const_mul, integral_pow]
    have : ((2 * p + m - 2 * k + (2 * p' + m - 2 * k') + 1 : ℕ) : ℝ) + 1 = 2 * (((p + m + 1 + (p' - k') : ℕ) : ℝ) - k) := by
      have : 2 * p + m - 2 * k + (2 * p' + m - 2 * k') + 1 + 1 + 2 * k = 2 * (p + m + 1 + (p' - k')) := by omega
      have : ((2 * p + m - 2 * k + (2 * p' + m - 2 * k') + 1 : ℕ) : ℝ) + 1 + 2 * k = 2 * ((p + m + 1 + (p' - k') : ℕ) : ℝ) := by
        exact_mod_cast this
      linarith
    rw [this, one_pow, zero_pow (by omega), sub_zero, one_div, mul_inv]
    ring
  rw [sum_congr rfl hin]
  split_ifs with hpp
  · subst hpp
    rw [sum_eq_single_of_mem 0 (by simp)]
    · rw [show p + m + 1 + (p - 0) = 2 * p + m + 1 by omega, moment_eq, radCoef]
      have h1 : (p.factorial : ℝ) ≠ 0 := by positivity
      have h2 : ((p + m).factorial : ℝ) ≠ 0 := by positivity
      have h3 : ((2 * p + m).factorial : ℝ) ≠ 0 := by positivity
      have h4 : ((2 * p + m : ℕ) : ℝ) + 1 ≠ 0 := by positivity
      simp only [pow_zero, Nat.sub_zero, Nat.factorial_zero, Nat.cast_one, one_mul, Nat.factorial_succ]
      rw [Nat.cast_mul, Nat.cast_succ]
      field_simp
    · intro k' hk' hne
      rw [moment_lt p m (p - k') (by have := mem_range.1 hk'; omega), mul_zero]
  · refine sum_eq_zero fun k' hk' => ?_
    rw [moment_lt p m (p' - k') (by omega), mul_zero]

theorem radial_ortho (p p' m : ℕ) :
    ∫ u in (0 : ℝ)..1, u * (bornWolfRadial p m u * bornWolfRadial p' m u) =
      if p = p' then 1 / (2 * ((2 * p + m : ℕ) + 1 : ℝ)) else 0 := by
  rcases le_total p' p with h | h
  · exact radial_ortho_le p p' m h
  · have := radial_ortho_le p' p m h
    simp only [mul_comm (bornWolfRadial p' m _)] at this
    rw [this]
    split_ifs with h1 h2 h2
    · subst h1; rfl
    · exact absurd h1.symm h2
    · exact absurd h2.symm h1
    · rfl

/-- the closed disc of the pupil -/
def pupil (cgx cgy r : ℝ) : Set (ℝ × ℝ) := {p | (p.1 - cgx) ^ 2 + (p.2 - cgy) ^ 2 ≤ r ^ 2}

/-- polar coordinates on the pupil -/
theorem integral_pupil (cgx cgy : ℝ) {r : ℝ} (hr : 0 < r) (F : ℝ × ℝ → ℝ) (R A : ℝ → ℝ)
    (hF : ∀ ρ > 0, ∀ θ ∈ Set.Ioo (-Real.pi) Real.pi,
      F (ρ * Real.cos θ + cgx, ρ * Real.sin θ + cgy) = R (ρ / r) * A θ) :
    ∫ p in pupil cgx cgy r, F p = r ^ 2 * (∫ u in (0 : ℝ)..1, u * R u) * ∫ θ in (-Real.pi)..Real.pi, A θ := by
  have hms : MeasurableSet (pupil cgx cgy r) := by
    apply measurableSet_le <;> fun_prop
  rw [← MeasureTheory.integral_indicator hms,
    ← MeasureTheory.integral_add_right_eq_self _ ((cgx, cgy) : ℝ × ℝ), ← integral_comp_polarCoord_symm]
  have htar : polarCoord.target = Set.Ioi (0 : ℝ) ×ˢ Set.Ioo (-Real.pi) Real.pi := rfl
  rw [htar]
  have hcongr : ∀ p ∈ Set.Ioi (0 : ℝ) ×ˢ Set.Ioo (-Real.pi) Real.pi,
      p.1 • (pupil cgx cgy r).indicator F (polarCoord.symm p + (cgx, cgy)) =
        (Set.Iic r).indicator (fun ρ => ρ * R (ρ / r)) p.1 * A p.2 := by
    rintro ⟨ρ, θ⟩ ⟨h1, h2⟩
    have h1' : 0 < ρ := h1
    have hsym : polarCoord.symm (ρ, θ) + (cgx, cgy) = (ρ * Real.cos θ + cgx, ρ * Real.sin θ + cgy) := rfl
    rw [hsym]
    have hmem : (ρ * Real.cos θ + cgx, ρ * Real.sin θ + cgy) ∈ pupil cgx cgy r ↔ ρ ≤ r := by
      simp only [pupil, Set.mem_ofPred_eq, add_sub_cancel_right]
      have : (ρ * Real.cos θ) ^ 2 + (ρ * Real.sin θ) ^ 2 = ρ ^ 2 := by
        linear_combination ρ ^ 2 * Real.sin_sq_add_cos_sq θ
      rw [this]
      exact pow_le_pow_iff_left₀ h1'.le hr.le (by norm_num)
    by_cases hρ : ρ ≤ r
    · rw [Set.indicator_of_mem (hmem.2 hρ), Set.indicator_of_mem (by exact hρ), hF ρ h1' θ h2, smul_eq_mul]
      ring
    · rw [Set.indicator_of_notMem (fun h => hρ (hmem.1 h)), Set.indicator_of_notMem (by exact hρ)]
      simp
  rw [MeasureTheory.setIntegral_congr_fun (measurableSet_Ioi.prod measurableSet_Ioo) hcongr]
  rw [show (volume : Measure (ℝ × ℝ)) = volume.prod volume from rfl, setIntegral_prod_mul,
    MeasureTheory.setIntegral_indicator measurableSet_Iic, Set.Ioi_inter_Iic, ← integral_of_le hr.le,
    ← integral_Ioc_eq_integral_Ioo, ← integral_of_le (by linarith [Real.pi_pos])]
  congr 1
  have : ∀ ρ : ℝ, ρ * R (ρ / r) = r * ((ρ / r) * R (ρ / r)) := by
    intro ρ; field_simp
  simp only [this]
  rw [intervalIntegral.integral_const_mul, integral_comp_div (fun u => u * R u) hr.ne', zero_div, div_self hr.ne', smul_eq_mul]
  ring

/-- **C77.** The Zernike modes computed by `zernike` are orthonormal on the pupil: for all `j, j' ≥ 0` the mean
of the product of the modes `j` and `j'` over the disc (centre `(cgx, cgy)`, radius `r`) is `1` if `j = j'` and
`0` otherwise. -/
theorem C77_orthonormal {ndim : ℕ} (hd : ndim = 1 ∨ ndim = 2) (cgx cgy : ℝ) {r : ℝ} (hr : 0 < r) (j j' : ℕ) :
    ∃ Z Z' : ℝ × ℝ → ℝ, (∀ p, zernike ndim p.1 p.2 cgx cgy r j = .ok (Z p)) ∧
      (∀ p, zernike ndim p.1 p.2 cgx cgy r j' = .ok (Z' p)) ∧
      ∫ p in pupil cgx cgy r, Z p * Z' p = if j = j' then Real.pi * r ^ 2 else 0 := by
  obtain ⟨m, n, p, hnm, hn, hz⟩ := zernike_form hd j
  obtain ⟨m', n', p', hnm', hn', hz'⟩ := zernike_form hd j'
  refine ⟨_, _, fun q => hz q.1 q.2 cgx cgy r, fun q => hz' q.1 q.2 cgx cgy r, ?_⟩
  rw [integral_pupil cgx cgy hr _
    (fun u => zernikeScaling n m * zernikeScaling n' m' * (bornWolfRadial p m.natAbs u * bornWolfRadial p' m'.natAbs u))
    (fun θ => zernikeAzimuthal m θ * zernikeAzimuthal m' θ)]
  swap
  · intro ρ hρ θ hθ
    simp only [add_sub_cancel_right]
    have e1 : Real.sqrt ((ρ * Real.cos θ) ^ 2 + (ρ * Real.sin θ) ^ 2) = ρ := by
      rw [show (ρ * Real.cos θ) ^ 2 + (ρ * Real.sin θ) ^ 2 = ρ ^ 2 by
        linear_combination ρ ^ 2 * Real.sin_sq_add_cos_sq θ]
      exact Real.sqrt_sq (le_of_lt hρ)
    have e2 : arctan2 (ρ * Real.sin θ) (ρ * Real.cos θ) = θ := by
      have := Complex.arg_mul_cos_add_sin_mul_I hρ ⟨hθ.1, hθ.2.le⟩
      refine Eq.trans ?_ this
      rw [arctan2, angle]
      congr 1
      apply Complex.ext <;> simp [-Complex.ofReal_cos, -Complex.ofReal_sin, ← Complex.ofReal_cos, ← Complex.ofReal_sin]
    rw [e1, e2]
    ring
  rw [azimuthal_ortho]
  have hrad : ∫ u in (0 : ℝ)..1, u * (zernikeScaling n m * zernikeScaling n' m' *
      (bornWolfRadial p m.natAbs u * bornWolfRadial p' m'.natAbs u)) = zernikeScaling n m * zernikeScaling n' m' *
      ∫ u in (0 : ℝ)..1, u * (bornWolfRadial p m.natAbs u * bornWolfRadial p' m'.natAbs u) := by
    rw [← intervalIntegral.integral_const_mul]
    congr 1
    funext u
    ring
  rw [hrad]
  by_cases hmm : m = m'
  · subst hmm
    rw [if_pos rfl, radial_ortho]
    by_cases hpp : p = p'
    · subst hpp
      have hjj : j = j' := by
        have hnn : n' = n := by omega
        subst hnn
        obtain ⟨a, b, hab, -, h2, h3, -⟩ := C51_index j
        rw [hab] at hnm
        simp only [Except.ok.injEq, Prod.mk.injEq] at hnm
        rw [hnm.1, hnm.2] at h2 h3 hab
        exact (C51_bijection m n' h2 h3).unique hab hnm'
      have hnn : n' = n := by omega
      subst hnn
      rw [if_pos rfl, if_pos hjj, ← hn']
      have hn1 : (0 : ℝ) < (n' : ℝ) + 1 := by positivity
      unfold zernikeScaling
      push_cast
      by_cases h0 : n' = 0
      · have hm0 : m = 0 := by omega
        rw [if_pos (by exact_mod_cast h0), if_pos hm0, h0]
        norm_num
        ring
      · rw [if_neg (by exact_mod_cast h0)]
        by_cases hm0 : m = 0
        · rw [if_pos hm0, if_pos hm0, Real.mul_self_sqrt hn1.le]
          field_simp
        · rw [if_neg hm0, if_neg hm0, Real.mul_self_sqrt (by positivity)]
          field_simp
    · have hjj : j ≠ j' := by
        rintro rfl
        rw [hnm] at hnm'
        simp only [Except.ok.injEq, Prod.mk.injEq, true_and] at hnm'
        omega
      rw [if_neg hpp, if_neg hjj]
      ring
  · have hjj : j ≠ j' := by
      rintro rfl
      rw [hnm] at hnm'
      simp only [Except.ok.injEq, Prod.mk.injEq] at hnm'
      exact hmm hnm'.1
    rw [if_neg hmm, if_neg hjj, mul_zero]

/-- the defocus mode `j = 4` on a pupil of radius 2 centred at `(1, -1)` -/
example : ∃ Z : ℝ × ℝ → ℝ, (∀ p, zernike 2 p.1 p.2 1 (-1) 2 (4 : ℕ) = .ok (Z p)) ∧
    ∫ p in pupil 1 (-1) 2, Z p * Z p = 4 * Real.pi := by
  obtain ⟨Z, Z', h1, h2, h3⟩ := C77_orthonormal (Or.inr rfl : 2 = 1 ∨ 2 = 2) 1 (-1) (r := 2) (by norm_num) 4 4
  have : Z' = Z := by
    funext p
    have := (h1 p).symm.trans (h2 p)
    simpa using this.symm
  subst this
  refine ⟨Z', h1, ?_⟩
  rw [h3, if_pos rfl]; ring

end Lasy
