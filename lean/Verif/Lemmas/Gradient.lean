import Verif.Numpy.Signal
import Mathlib.Analysis.Calculus.MeanValue
import Mathlib.Analysis.Complex.RealDeriv
import Mathlib.Analysis.Calculus.Deriv.Pow

/-!
# `np.gradient(.., edge_order=2)` on equidistant samples: linear, second order accurate
-/

namespace Lasy
open Complex

/-- Taylor's formula of second order with a bound on the third derivative (constant 1 instead of 1/6) -/
theorem taylor2 {f f1 f2 f3 : ℝ → ℂ} (h1 : ∀ t, HasDerivAt f (f1 t) t) (h2 : ∀ t, HasDerivAt f1 (f2 t) t)
    (h3 : ∀ t, HasDerivAt f2 (f3 t) t) {M : ℝ} (hM : ∀ t, ‖f3 t‖ ≤ M) (x y : ℝ) :
    ‖f y - f x - ((y - x : ℝ) : ℂ) * f1 x - (((y - x) ^ 2 / 2 : ℝ) : ℂ) * f2 x‖ ≤ M * |y - x| ^ 3 := by
  have hM0 : 0 ≤ M := (norm_nonneg _).trans (hM 0)
  have step : ∀ (F F' : ℝ → ℂ) (B : ℝ), 0 ≤ B → (∀ t, HasDerivAt F (F' t) t) →
      (∀ t, |t - x| ≤ |y - x| → ‖F' t‖ ≤ B) → F x = 0 → ∀ t, |t - x| ≤ |y - x| → ‖F t‖ ≤ B * |y - x| := by
    intro F F' B hB hF hb hx t ht
    have hseg : ∀ u ∈ Set.uIcc x t, |u - x| ≤ |y - x| := fun u hu => (Set.abs_sub_left_of_mem_uIcc hu).trans ht
    have := (convex_uIcc x t).norm_image_sub_le_of_norm_hasDerivWithin_le
      (fun u _ => (hF u).hasDerivWithinAt) (fun u hu => hb u (hseg u hu))
      (Set.left_mem_uIcc : x ∈ Set.uIcc x t) (Set.right_mem_uIcc)
    rw [hx, sub_zero, Real.norm_eq_abs] at this
    exact this.trans (mul_le_mul_of_nonneg_left ht hB)
  have s1 := step (fun t => f2 t - f2 x) f3 M hM0 (fun t => (h3 t).sub_const _) (fun t _ => hM t) (by simp)
  have s2 := step (fun t => f1 t - f1 x - ((t - x : ℝ) : ℂ) * f2 x) (fun t => f2 t - f2 x) (M * |y - x|)
    (by positivity)
    (fun t => by
      have hlin : HasDerivAt (fun t : ℝ => ((t - x : ℝ) : ℂ)) 1 t := by
        simpa using HasDerivAt.ofReal_comp ((hasDerivAt_id' t).sub_const x)
      have := HasDerivAt.fun_sub ((h2 t).sub_const (f1 x)) (hlin.mul_const (f2 x))
      rwa [one_mul] at this)
    s1 (by simp)
  have s3 := step (fun t => f t - f x - ((t - x : ℝ) : ℂ) * f1 x - (((t - x) ^ 2 / 2 : ℝ) : ℂ) * f2 x)
    (fun t => f1 t - f1 x - ((t - x : ℝ) : ℂ) * f2 x) (M * |y - x| * |y - x|) (by positivity)
    (fun t => by
      have hlin : HasDerivAt (fun t : ℝ => ((t - x : ℝ) : ℂ)) 1 t := by
        simpa using HasDerivAt.ofReal_comp ((hasDerivAt_id' t).sub_const x)
      have hq : HasDerivAt (fun t : ℝ => (((t - x) ^ 2 / 2 : ℝ) : ℂ)) ((t - x : ℝ) : ℂ) t := by
        have h := HasDerivAt.ofReal_comp ((HasDerivAt.fun_pow ((hasDerivAt_id' t).sub_const x) 2).div_const 2)
        convert h using 1
        simp
      have := HasDerivAt.fun_sub (HasDerivAt.fun_sub ((h1 t).sub_const (f x)) (hlin.mul_const (f1 x))) (hq.mul_const (f2 x))
      rwa [one_mul] at this)
    s2 (by simp)
  have := s3 y le_rfl
  calc _ ≤ _ := this
    _ = M * |y - x| ^ 3 := by ring

/-- on equidistant samples of a function with bounded third derivative, `np.gradient` with `edge_order=2`
differs from the derivative by at most `6 M h²` at every sample, the first and the last included -/
theorem gradient_second_order {n : ℕ} (hn : 3 ≤ n) (x : Fin n → ℝ) {h : ℝ} (hh : 0 < h)
    (hx : ∀ (k : ℕ) (hk : k + 1 < n), x ⟨k + 1, hk⟩ = x ⟨k, by omega⟩ + h)
    {f f1 f2 f3 : ℝ → ℂ} (h1 : ∀ t, HasDerivAt f (f1 t) t) (h2 : ∀ t, HasDerivAt f1 (f2 t) t)
    (h3 : ∀ t, HasDerivAt f2 (f3 t) t) {M : ℝ} (hM : ∀ t, ‖f3 t‖ ≤ M) :
    ∃ D, gradient (fun k => f (x k)) x = .ok D ∧ ∀ k, ‖D k - f1 (x k)‖ ≤ 6 * M * h ^ 2 := by
  have hM0 : 0 ≤ M := (norm_nonneg _).trans (hM 0)
  have T := taylor2 h1 h2 h3 hM
  -- a combination a R(u) + b R(v) of two remainders
  have comb : ∀ (p : ℝ) (a b u v : ℝ), |u| ≤ 2 * h → |v| ≤ 2 * h → |a| * |u| ^ 3 + |b| * |v| ^ 3 ≤ 6 * h ^ 2 →
      ‖(a : ℂ) * (f (p + u) - f p - ((u : ℝ) : ℂ) * f1 p - ((u ^ 2 / 2 : ℝ) : ℂ) * f2 p) +
        (b : ℂ) * (f (p + v) - f p - ((v : ℝ) : ℂ) * f1 p - ((v ^ 2 / 2 : ℝ) : ℂ) * f2 p)‖ ≤ 6 * M * h ^ 2 := by
    intro p a b u v _ _ hab
    have hu := T p (p + u)
    have hv := T p (p + v)
    rw [add_sub_cancel_left] at hu hv
    calc _ ≤ |a| * (M * |u| ^ 3) + |b| * (M * |v| ^ 3) := by
            refine (norm_add_le _ _).trans (add_le_add ?_ ?_)
            · rw [norm_mul, Complex.norm_real, Real.norm_eq_abs]
              exact mul_le_mul_of_nonneg_left hu (abs_nonneg _)
            · rw [norm_mul, Complex.norm_real, Real.norm_eq_abs]
              exact mul_le_mul_of_nonneg_left hv (abs_nonneg _)
      _ = M * (|a| * |u| ^ 3 + |b| * |v| ^ 3) := by ring
      _ ≤ M * (6 * h ^ 2) := mul_le_mul_of_nonneg_left hab hM0
      _ = _ := by ring
  have hhC : (h : ℂ) ≠ 0 := by exact_mod_cast hh.ne'
  unfold gradient
  rw [dif_pos hn]
  refine ⟨_, rfl, ?_⟩
  intro k
  obtain ⟨k, hk⟩ := k
  dsimp only
  split
  · rename_i k0
    subst k0
    have e1 : x ⟨1, by omega⟩ = x ⟨0, by omega⟩ + h := hx 0 (by omega)
    have e2 : x ⟨2, by omega⟩ = x ⟨0, by omega⟩ + 2 * h := by rw [hx 1 (by omega), e1]; ring
    rw [e1, e2]
    generalize x ⟨0, by omega⟩ = p
    refine le_trans (le_of_eq ?_) (comb p (2 / h) (-1 / (2 * h)) h (2 * h)
      (by rw [abs_of_pos hh]; linarith) (by rw [abs_of_pos (by positivity)]) ?_)
    · congr 1
      simp only [real_smul]
      push_cast
      have e6 : (p : ℂ) + h - p = h := by ring
      have e7 : (p : ℂ) + 2 * h - (p + h) = h := by ring
      rw [e6, e7]
      field_simp
      ring
    · rw [abs_of_pos hh, abs_of_pos (by positivity : (0 : ℝ) < 2 * h), abs_of_pos (by positivity : 0 < 2 / h),
        abs_of_neg (div_neg_of_neg_of_pos (by norm_num) (by positivity))]
      apply le_of_eq
      field_simp
      ring
  · split
    · rename_i k0 kn
      have e1 : x ⟨n - 1, by omega⟩ = x ⟨n - 2, by omega⟩ + h := by
        have := hx (n - 2) (by omega)
        rw [← this]; congr 1; ext; simp; omega
      have e2 : x ⟨n - 2, by omega⟩ = x ⟨n - 3, by omega⟩ + h := by
        have := hx (n - 3) (by omega)
        rw [← this]; congr 1; ext; simp; omega
      have e3 : x ⟨k, hk⟩ = x ⟨n - 1, by omega⟩ := by congr 1; ext; simp; omega
      rw [e3]
      obtain ⟨p, hp⟩ : ∃ p, p = x ⟨n - 1, by omega⟩ := ⟨_, rfl⟩
      have e4 : x ⟨n - 2, by omega⟩ = p + (-h) := by rw [hp, e1]; ring
      have e5 : x ⟨n - 3, by omega⟩ = p + (-(2 * h)) := by rw [hp, e1, e2]; ring
      rw [e4, e5, ← hp]
      refine le_trans (le_of_eq ?_) (comb p (1 / (2 * h)) (-2 / h) (-(2 * h)) (-h)
        (by rw [abs_neg, abs_of_pos (by positivity)]) (by rw [abs_neg, abs_of_pos hh]; linarith) ?_)
      · congr 1
        simp only [real_smul]
        push_cast
        have e6 : (p : ℂ) - (p + -h) = h := by ring
        have e7 : (p : ℂ) + -h - (p + -(2 * h)) = h := by ring
        rw [e6, e7]
        field_simp
        ring
      · rw [abs_neg, abs_neg, abs_of_pos hh, abs_of_pos (by positivity : (0 : ℝ) < 2 * h),
          abs_of_pos (by positivity : 0 < 1 / (2 * h)),
          abs_of_neg (div_neg_of_neg_of_pos (by norm_num) (by positivity))]
        apply le_of_eq
        field_simp
        ring
    · rename_i k0 kn
      have e1 : x ⟨k + 1, by omega⟩ = x ⟨k, hk⟩ + h := hx k (by omega)
      have e2 : x ⟨k - 1, by omega⟩ = x ⟨k, hk⟩ + (-h) := by
        have := hx (k - 1) (by omega)
        have e : (⟨k - 1 + 1, by omega⟩ : Fin n) = ⟨k, hk⟩ := by ext; simp; omega
        rw [e] at this
        rw [this]; ring
      rw [e1, e2]
      generalize x ⟨k, hk⟩ = p
      refine le_trans (le_of_eq ?_) (comb p (-1 / (2 * h)) (1 / (2 * h)) (-h) h
        (by rw [abs_neg, abs_of_pos hh]; linarith) (by rw [abs_of_pos hh]; linarith) ?_)
      · congr 1
        simp only [real_smul]
        push_cast
        have e6 : (p : ℂ) - (p + -h) = h := by ring
        have e7 : (p : ℂ) + h - p = h := by ring
        rw [e6, e7]
        field_simp
        ring
      · rw [abs_neg, abs_of_pos hh, abs_of_pos (by positivity : 0 < 1 / (2 * h)),
          abs_of_neg (div_neg_of_neg_of_pos (by norm_num) (by positivity))]
        have : -(-1 / (2 * h)) * h ^ 3 + 1 / (2 * h) * h ^ 3 = h ^ 2 := by field_simp; ring
        rw [this]
        nlinarith [sq_nonneg h]

end Lasy
