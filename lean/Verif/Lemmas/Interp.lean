import Verif.Numpy.Interp
import Mathlib.Algebra.Order.Ring.Basic
import Mathlib.Algebra.BigOperators.Ring.Finset
import Mathlib.Tactic.Linarith
import Mathlib.Tactic.FieldSimp
import Mathlib.Data.Fintype.Basic
import Mathlib.Order.Interval.Finset.Fin

/-! # Interpolation at nodes -/

namespace Lasy

theorem searchRight_node {n : ℕ} {g : Fin n → ℝ} (hg : Ascending g) (a : Fin n) :
    searchRight g (g a) = a + 1 := by
  have : (Finset.univ.filter fun i => g i ≤ g a) = Finset.Iic a := by
    ext i
    simp only [Finset.mem_filter, Finset.mem_univ, true_and, Finset.mem_Iic]
    constructor
    · intro h
      by_contra hc
      exact absurd (hg a i (not_le.mp hc)) (not_lt.mpr h)
    · intro h
      rcases h.eq_or_lt with rfl | h
      · exact le_refl _
      · exact (hg i a h).le
  rw [searchRight, this, Fin.card_Iic]

theorem linWeight_node {n : ℕ} (hn : 2 ≤ n) {g : Fin n → ℝ} (hg : Ascending g) (a i : Fin n) :
    linWeight g (g a) i = if i = a then 1 else 0 := by
  have ha := a.2
  have hi := i.2
  have hint : interval g (g a) = min (a : ℕ) (n - 2) := by
    rw [interval, searchRight_node hg]; rfl
  unfold linWeight
  by_cases hlast : (a : ℕ) = n - 1
  · have e : interval g (g a) = n - 2 := by rw [hint]; omega
    have h1 : g ⟨n - 2, by omega⟩ < g a := hg _ _ (by rw [Fin.lt_def]; simp; omega)
    have h2 : g ⟨n - 2 + 1, by omega⟩ = g a := by congr 1; apply Fin.ext; simp; omega
    simp only [e]
    rw [dif_pos (by omega), h2]
    rw [div_self (by linarith)]
    have : (i = a) ↔ (i : ℕ) = n - 2 + 1 := by rw [Fin.ext_iff]; omega
    by_cases hi1 : (i : ℕ) = n - 2
    · rw [if_pos hi1, if_neg (by rw [this]; omega)]; norm_num
    · rw [if_neg hi1]
      by_cases hi2 : (i : ℕ) = n - 2 + 1
      · rw [if_pos hi2, if_pos (this.mpr hi2)]
      · rw [if_neg hi2, if_neg (by rw [this]; exact hi2)]
  · have e : interval g (g a) = a := by rw [hint]; omega
    simp only [e]
    rw [dif_pos (by omega)]
    simp only [Fin.eta, sub_self, zero_div, sub_zero]
    by_cases h : i = a
    · simp [h]
    · rw [if_neg (by rwa [← Fin.ext_iff]), if_neg h]
      simp

theorem inside_node {n : ℕ} (g : Fin n → ℝ) (a : Fin n) : Inside g (g a) := ⟨⟨a, le_refl _⟩, ⟨a, le_refl _⟩⟩

theorem interp3_node {a b c : ℕ} {x : Fin a → ℝ} {y : Fin b → ℝ} {z : Fin c → ℝ} (ha : 2 ≤ a) (hb : 2 ≤ b)
    (hc : 2 ≤ c) (hx : Ascending x) (hy : Ascending y) (hz : Ascending z) (v : Fin a → Fin b → Fin c → ℝ)
    (i : Fin a) (j : Fin b) (k : Fin c) : interp3 x y z v (x i) (y j) (z k) = v i j k := by
  unfold interp3
  rw [if_pos ⟨inside_node x i, inside_node y j, inside_node z k⟩]
  simp only [linWeight_node ha hx, linWeight_node hb hy, linWeight_node hc hz]
  simp [Finset.sum_ite_eq', ite_mul, mul_ite]

theorem interp2_node {a b : ℕ} {x : Fin a → ℝ} {y : Fin b → ℝ} (ha : 2 ≤ a) (hb : 2 ≤ b)
    (hx : Ascending x) (hy : Ascending y) (v : Fin a → Fin b → ℝ) (i : Fin a) (j : Fin b) :
    interp2 x y v (x i) (y j) = v i j := by
  unfold interp2
  rw [if_pos ⟨inside_node x i, inside_node y j⟩]
  simp only [linWeight_node ha hx, linWeight_node hb hy]
  simp [Finset.sum_ite_eq', ite_mul, mul_ite]

/-- the weights inside sum to one -/
theorem linWeight_sum {n : ℕ} (hn : 2 ≤ n) (g : Fin n → ℝ) (x : ℝ) : ∑ i, linWeight g x i = 1 := by
  have hint : interval g x + 1 < n := by unfold interval; omega
  unfold linWeight
  simp only [dif_pos hint]
  generalize (x - g ⟨interval g x, by omega⟩) /
    (g ⟨interval g x + 1, hint⟩ - g ⟨interval g x, by omega⟩) = y
  have h1 : ∀ i : Fin n, (if (i : ℕ) = interval g x then 1 - y else if (i : ℕ) = interval g x + 1 then y
      else 0) = (if i = (⟨interval g x, by omega⟩ : Fin n) then 1 - y else 0) +
      (if i = (⟨interval g x + 1, hint⟩ : Fin n) then y else 0) := by
    intro i
    simp only [Fin.ext_iff]
    by_cases h : (i : ℕ) = interval g x
    · simp [h]
    · simp [h]
  rw [Finset.sum_congr rfl fun i _ => h1 i, Finset.sum_add_distrib]
  simp

/-- the node to the left of `x` and the one to the right: `g[a] ≤ x ≤ g[a+1]` -/
theorem interval_bounds {n : ℕ} (hn : 2 ≤ n) {g : Fin n → ℝ} (hg : Ascending g) {x : ℝ} (hx : Inside g x)
    (h : interval g x + 1 < n) :
    g ⟨interval g x, by omega⟩ ≤ x ∧ x ≤ g ⟨interval g x + 1, h⟩ := by
  obtain ⟨⟨i0, h0⟩, ⟨i1, h1⟩⟩ := hx
  have hmono : ∀ i j : Fin n, i ≤ j → g i ≤ g j := fun i j hij => by
    rcases hij.eq_or_lt with rfl | hij
    · exact le_refl _
    · exact (hg i j hij).le
  -- the set of nodes not greater than x is an initial segment
  have hmem : ∀ i : Fin n, (i : ℕ) < searchRight g x ↔ g i ≤ x := by
    intro i
    constructor
    · intro hi
      by_contra hc
      have hsub : (Finset.univ.filter fun j => g j ≤ x) ⊆ Finset.Iio i := by
        intro j hj
        simp only [Finset.mem_filter, Finset.mem_univ, true_and] at hj
        simp only [Finset.mem_Iio]
        by_contra hij
        exact hc (le_trans (hmono i j (not_lt.mp hij)) hj)
      have := Finset.card_le_card hsub
      rw [Fin.card_Iio] at this
      unfold searchRight at hi
      omega
    · intro hi
      have hsub : Finset.Iic i ⊆ (Finset.univ.filter fun j => g j ≤ x) := by
        intro j hj
        simp only [Finset.mem_Iic] at hj
        simp only [Finset.mem_filter, Finset.mem_univ, true_and]
        exact le_trans (hmono j i hj) hi
      have := Finset.card_le_card hsub
      rw [Fin.card_Iic] at this
      unfold searchRight
      omega
  have hpos : 0 < searchRight g x := by
    have := (hmem i0).mpr h0
    omega
  have hle : searchRight g x ≤ n := by
    unfold searchRight
    exact (Finset.card_le_univ _).trans (by simp)
  constructor
  · rw [← hmem]
    simp only [interval]
    omega
  · by_cases hlast : searchRight g x = n
    · refine le_trans h1 (hmono _ _ ?_)
      rw [Fin.le_def]
      have := i1.2
      simp only [interval, hlast]
      omega
    · have : ¬ g ⟨interval g x + 1, h⟩ ≤ x := by
        rw [← hmem]
        simp only [interval]
        omega
      exact (not_le.mp this).le

/-- inside the axis the weights are non-negative -/
theorem linWeight_nonneg {n : ℕ} (hn : 2 ≤ n) {g : Fin n → ℝ} (hg : Ascending g) {x : ℝ} (hx : Inside g x)
    (i : Fin n) : 0 ≤ linWeight g x i := by
  have hint : interval g x + 1 < n := by unfold interval; omega
  obtain ⟨h1, h2⟩ := interval_bounds hn hg hx hint
  have h3 : g ⟨interval g x, by omega⟩ < g ⟨interval g x + 1, hint⟩ := hg _ _ (by rw [Fin.lt_def]; simp)
  unfold linWeight
  rw [dif_pos hint]
  dsimp only
  have h4 : 0 < g ⟨interval g x + 1, hint⟩ - g ⟨interval g x, by omega⟩ := by linarith
  split
  · rw [sub_nonneg, div_le_one h4]; linarith
  · split
    · exact div_nonneg (by linarith) h4.le
    · exact le_refl _

end Lasy
