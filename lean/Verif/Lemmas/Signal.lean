import Verif.Numpy.Signal
import Mathlib.Analysis.SpecialFunctions.Complex.Circle
import Mathlib.Tactic.Ring
import Mathlib.Tactic.Linarith
import Mathlib.Tactic.FieldSimp
import Mathlib.Tactic.Module

/-! # Phase unwrapping and numerical differentiation -/

namespace Lasy
open Complex

theorem wrapDiff_eq (d : ℝ) : ∃ m : ℤ, wrapDiff d = d + 2 * Real.pi * m := by
  unfold wrapDiff fmod
  have hpi := Real.pi_pos
  by_cases h : (d + Real.pi - 2 * Real.pi * ⌊(d + Real.pi) / (2 * Real.pi)⌋ - Real.pi = -Real.pi ∧ 0 < d)
  · simp only [h, and_self, if_true]
    refine ⟨-⌊(d + Real.pi) / (2 * Real.pi)⌋ + 1, ?_⟩
    push_cast
    linarith [h.1]
  · simp only [h, if_false]
    refine ⟨-⌊(d + Real.pi) / (2 * Real.pi)⌋, ?_⟩
    push_cast
    ring

theorem wrapDiff_bounds (d : ℝ) : -Real.pi ≤ wrapDiff d ∧ wrapDiff d ≤ Real.pi := by
  unfold wrapDiff fmod
  have hpi := Real.pi_pos
  have h2 : (0 : ℝ) < 2 * Real.pi := by linarith
  have h1 := Int.floor_le ((d + Real.pi) / (2 * Real.pi))
  have h3 := Int.lt_floor_add_one ((d + Real.pi) / (2 * Real.pi))
  rw [le_div_iff₀ h2] at h1
  rw [div_lt_iff₀ h2] at h3
  dsimp only
  split
  · exact ⟨by linarith, le_refl _⟩
  · constructor <;> nlinarith

theorem unwrapCorr_eq (d : ℝ) : ∃ m : ℤ, unwrapCorr d = 2 * Real.pi * m := by
  unfold unwrapCorr
  split
  · exact ⟨0, by simp⟩
  · obtain ⟨m, hm⟩ := wrapDiff_eq d
    exact ⟨m, by rw [hm]; ring⟩

theorem unwrapCorr_bounds (d : ℝ) : |d + unwrapCorr d| ≤ Real.pi := by
  unfold unwrapCorr
  split
  · rename_i h; simpa using h.le
  · obtain ⟨h1, h2⟩ := wrapDiff_bounds d
    rw [abs_le]
    constructor <;> linarith

/-- if the difference is `a` modulo `2π` with `|a| < π`, the corrected difference is `a` -/
theorem unwrapCorr_unique {d a : ℝ} {m : ℤ} (h : d = a + 2 * Real.pi * m) (ha : |a| < Real.pi) :
    d + unwrapCorr d = a := by
  obtain ⟨m', hm'⟩ := unwrapCorr_eq d
  have hb := unwrapCorr_bounds d
  rw [hm'] at hb ⊢
  have hpi := Real.pi_pos
  rw [abs_lt] at ha
  rw [abs_le] at hb
  have e1 : (m : ℝ) + m' < 1 := by
    by_contra hc
    push Not at hc
    nlinarith [hb.2, ha.1, mul_le_mul_of_nonneg_left hc hpi.le]
  have e2 : (-1 : ℝ) < m + m' := by
    by_contra hc
    push Not at hc
    nlinarith [hb.1, ha.2, mul_le_mul_of_nonneg_left hc hpi.le]
  have e3 : m + m' = 0 := by
    have e1' : m + m' < 1 := by exact_mod_cast e1
    have e2' : -1 < m + m' := by exact_mod_cast e2
    omega
  have e4 : (m : ℝ) + m' = 0 := by exact_mod_cast e3
  rw [h]
  linear_combination (2 * Real.pi) * e4

/-- recursion for `unwrap` -/
theorem unwrap_succ {n : ℕ} (p : Fin n → ℝ) (k : ℕ) (hk : k + 1 < n) :
    unwrap p ⟨k + 1, hk⟩ - unwrap p ⟨k, by omega⟩ =
      (p ⟨k + 1, hk⟩ - p ⟨k, by omega⟩) + unwrapCorr (p ⟨k + 1, hk⟩ - p ⟨k, by omega⟩) := by
  unfold unwrap
  simp only [Fin.sum_univ_castSucc, Fin.val_castSucc, Fin.val_last]
  ring

theorem unwrap_zero {n : ℕ} (p : Fin n → ℝ) (h : 0 < n) : unwrap p ⟨0, h⟩ = p ⟨0, h⟩ := by
  simp [unwrap]

/-- unwrapping changes the phase by multiples of `2π` -/
theorem unwrap_eq {n : ℕ} (p : Fin n → ℝ) (k : Fin n) : ∃ m : ℤ, unwrap p k = p k + 2 * Real.pi * m := by
  choose f hf using unwrapCorr_eq
  refine ⟨∑ j : Fin (k : ℕ), f (p ⟨j + 1, by omega⟩ - p ⟨j, by omega⟩), ?_⟩
  simp only [unwrap, hf]
  push_cast
  rw [Finset.mul_sum]

/-- unwrapping is invisible in the exponential -/
theorem exp_unwrap {n : ℕ} (p : Fin n → ℝ) (k : Fin n) :
    exp (I * (unwrap p k : ℝ)) = exp (I * (p k : ℝ)) := by
  obtain ⟨m, hm⟩ := unwrap_eq p k
  rw [hm, Complex.exp_eq_exp_iff_exists_int]
  exact ⟨m, by push_cast; ring⟩

/-- successive unwrapped phases differ by at most `π` -/
theorem unwrap_step {n : ℕ} (p : Fin n → ℝ) (k : ℕ) (hk : k + 1 < n) :
    |unwrap p ⟨k + 1, hk⟩ - unwrap p ⟨k, by omega⟩| ≤ Real.pi := by
  rw [unwrap_succ]
  exact unwrapCorr_bounds _

/-- a sequence that agrees with `p` modulo `2π` and whose steps are smaller than `π` is the unwrapped
phase up to a constant -/
theorem unwrap_unique {n : ℕ} (p q : Fin n → ℝ) (hq : ∀ k, ∃ m : ℤ, p k = q k + 2 * Real.pi * m)
    (hs : ∀ (k : ℕ) (hk : k + 1 < n), |q ⟨k + 1, hk⟩ - q ⟨k, by omega⟩| < Real.pi) (h0 : 0 < n)
    (k : Fin n) : unwrap p k = q k + (p ⟨0, h0⟩ - q ⟨0, h0⟩) := by
  obtain ⟨k, hk⟩ := k
  induction k with
  | zero => rw [unwrap_zero]; ring
  | succ k ih =>
    have ih := ih (by omega)
    have hstep := unwrap_succ p k hk
    obtain ⟨m1, h1⟩ := hq ⟨k + 1, hk⟩
    obtain ⟨m0, h0'⟩ := hq ⟨k, by omega⟩
    have := unwrapCorr_unique (d := p ⟨k + 1, hk⟩ - p ⟨k, by omega⟩)
      (a := q ⟨k + 1, hk⟩ - q ⟨k, by omega⟩) (m := m1 - m0)
      (by rw [h1, h0']; push_cast; ring) (hs k hk)
    rw [this] at hstep
    linarith

/-- `np.gradient` is exact on affine functions of the coordinate -/
theorem gradient_affine {n : ℕ} (x : Fin n → ℝ) (hn : 3 ≤ n)
    (hx : ∀ (k : ℕ) (hk : k + 1 < n), x ⟨k, by omega⟩ < x ⟨k + 1, hk⟩) (a b : ℝ) :
    gradient (fun k => a * x k + b) x = .ok fun _ => a := by
  unfold gradient
  rw [dif_pos hn]
  congr 1
  funext k
  obtain ⟨k, hk⟩ := k
  dsimp only
  have key : ∀ d1 d2 : ℝ, 0 < d1 → 0 < d2 → d1 * (d1 + d2) ≠ 0 ∧ d1 * d2 ≠ 0 ∧ d2 * (d1 + d2) ≠ 0 := by
    intro d1 d2 h1 h2
    exact ⟨by positivity, by positivity, by positivity⟩
  split
  · have h1 := hx 0 (by omega)
    have h2 := hx 1 (by omega)
    simp only [zero_add] at h1
    simp only [Nat.reduceAdd] at h2
    generalize x ⟨0, by omega⟩ = x0 at *
    generalize x ⟨1, by omega⟩ = x1 at *
    generalize x ⟨2, by omega⟩ = x2 at *
    have p1 : 0 < x1 - x0 := by linarith
    have p2 : 0 < x2 - x1 := by linarith
    have p3 : (0 : ℝ) < x1 - x0 + (x2 - x1) := by linarith
    simp only [smul_eq_mul]
    field_simp
    ring
  · split
    · have h1 := hx (n - 3) (by omega)
      have h2 := hx (n - 2) (by omega)
      have e1 : n - 3 + 1 = n - 2 := by omega
      have e2 : n - 2 + 1 = n - 1 := by omega
      simp only [e1] at h1
      simp only [e2] at h2
      generalize x ⟨n - 3, by omega⟩ = x0 at *
      generalize x ⟨n - 2, by omega⟩ = x1 at *
      generalize x ⟨n - 1, by omega⟩ = x2 at *
      have p1 : 0 < x1 - x0 := by linarith
      have p2 : 0 < x2 - x1 := by linarith
      have p3 : (0 : ℝ) < x1 - x0 + (x2 - x1) := by linarith
      simp only [smul_eq_mul]
      field_simp
      ring
    · rename_i k0 kn
      have h1 := hx (k - 1) (by omega)
      have h2 := hx k (by omega)
      have e1 : k - 1 + 1 = k := by omega
      simp only [e1] at h1
      generalize x ⟨k - 1, by omega⟩ = x0 at *
      generalize x ⟨k, by omega⟩ = x1 at *
      generalize x ⟨k + 1, by omega⟩ = x2 at *
      have p1 : 0 < x1 - x0 := by linarith
      have p2 : 0 < x2 - x1 := by linarith
      have p3 : (0 : ℝ) < x1 - x0 + (x2 - x1) := by linarith
      simp only [smul_eq_mul]
      field_simp
      ring

/-- an added constant does not change the gradient -/
theorem gradient_add_const {n : ℕ} (x : Fin n → ℝ)
    (hx : ∀ (k : ℕ) (hk : k + 1 < n), x ⟨k, by omega⟩ < x ⟨k + 1, hk⟩) (f : Fin n → ℝ) (b : ℝ) :
    gradient (fun k => f k + b) x = gradient f x := by
  unfold gradient
  split
  rotate_left
  · rfl
  rename_i hn
  congr 1
  funext k
  obtain ⟨k, hk⟩ := k
  dsimp only
  split
  · have h1 := hx 0 (by omega)
    have h2 := hx 1 (by omega)
    simp only [zero_add] at h1
    simp only [Nat.reduceAdd] at h2
    generalize x ⟨0, by omega⟩ = x0 at *
    generalize x ⟨1, by omega⟩ = x1 at *
    generalize x ⟨2, by omega⟩ = x2 at *
    have p1 : 0 < x1 - x0 := by linarith
    have p2 : 0 < x2 - x1 := by linarith
    have p3 : (0 : ℝ) < x1 - x0 + (x2 - x1) := by linarith
    simp only [smul_eq_mul]
    field_simp
    ring
  · split
    · have h1 := hx (n - 3) (by omega)
      have h2 := hx (n - 2) (by omega)
      have e1 : n - 3 + 1 = n - 2 := by omega
      have e2 : n - 2 + 1 = n - 1 := by omega
      simp only [e1] at h1
      simp only [e2] at h2
      generalize x ⟨n - 3, by omega⟩ = x0 at *
      generalize x ⟨n - 2, by omega⟩ = x1 at *
      generalize x ⟨n - 1, by omega⟩ = x2 at *
      have p1 : 0 < x1 - x0 := by linarith
      have p2 : 0 < x2 - x1 := by linarith
      have p3 : (0 : ℝ) < x1 - x0 + (x2 - x1) := by linarith
      simp only [smul_eq_mul]
      field_simp
      ring
    · rename_i k0 kn
      have h1 := hx (k - 1) (by omega)
      have h2 := hx k (by omega)
      have e1 : k - 1 + 1 = k := by omega
      simp only [e1] at h1
      generalize x ⟨k - 1, by omega⟩ = x0 at *
      generalize x ⟨k, by omega⟩ = x1 at *
      generalize x ⟨k + 1, by omega⟩ = x2 at *
      have p1 : 0 < x1 - x0 := by linarith
      have p2 : 0 < x2 - x1 := by linarith
      have p3 : (0 : ℝ) < x1 - x0 + (x2 - x1) := by linarith
      simp only [smul_eq_mul]
      field_simp
      ring

end Lasy
