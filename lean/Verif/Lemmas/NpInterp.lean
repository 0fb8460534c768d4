import Verif.Numpy.Float
import Verif.Lemmas.Interp
import Mathlib.Data.Set.Finite.Lemmas
import Mathlib.Data.Finset.Max
import Mathlib.Algebra.Order.BigOperators.Group.Finset

/-! # `np.argmin` and `np.interp` -/

namespace Lasy

/-- `np.argmin` of a non-empty array is the first of the positions of the smallest element -/
theorem argmin_ok {n : ℕ} (h : 0 < n) (x : Fin n → ℝ) :
    ∃ k, argmin x = .ok k ∧ (∀ j, x k ≤ x j) ∧ ∀ j, j < k → x k < x j := by
  have hex : ∃ k, (∀ j, x k ≤ x j) ∧ ∀ j, j < k → x k < x j := by
    obtain ⟨m, -, hm⟩ := Finset.exists_min_image Finset.univ x ⟨⟨0, h⟩, Finset.mem_univ _⟩
    have hne : (Finset.univ.filter fun k => x k ≤ x m).Nonempty := ⟨m, by simp⟩
    refine ⟨(Finset.univ.filter fun k => x k ≤ x m).min' hne, ?_, ?_⟩
    · have := Finset.min'_mem _ hne
      rw [Finset.mem_filter] at this
      exact fun j => this.2.trans (hm j (Finset.mem_univ _))
    · intro j hj
      have := Finset.min'_mem _ hne
      rw [Finset.mem_filter] at this
      refine lt_of_le_of_lt this.2 ?_
      by_contra hc
      exact absurd (Finset.min'_le _ j (by simp [not_lt.mp hc])) (not_le.mpr hj)
  refine ⟨hex.choose, ?_, hex.choose_spec⟩
  unfold argmin
  rw [dif_pos hex]

theorem first_min_unique {n : ℕ} {x : Fin n → ℝ} {k l : Fin n} (hk : (∀ j, x k ≤ x j) ∧ ∀ j, j < k → x k < x j)
    (hl : (∀ j, x l ≤ x j) ∧ ∀ j, j < l → x l < x j) : k = l := by
  rcases lt_trichotomy k l with h | h | h
  · exact absurd (hl.2 k h) (not_lt.mpr (hk.1 l))
  · exact h
  · exact absurd (hk.2 l h) (not_lt.mpr (hl.1 k))

theorem argmin_eq {n : ℕ} {x : Fin n → ℝ} {k : Fin n} (h1 : ∀ j, x k ≤ x j) (h2 : ∀ j, j < k → x k < x j) :
    argmin x = .ok k := by
  obtain ⟨l, e, h3, h4⟩ := argmin_ok (by have := k.2; omega) x
  rw [e, first_min_unique ⟨h1, h2⟩ ⟨h3, h4⟩]

theorem argmin_error {n : ℕ} (h : n = 0) (x : Fin n → ℝ) : argmin x = .error .value := by
  subst h
  unfold argmin
  rw [dif_neg]
  rintro ⟨k, -⟩
  exact k.elim0

theorem Ascending.lt_iff {n : ℕ} {g : Fin n → ℝ} (hg : Ascending g) {i j : Fin n} : g i < g j ↔ i < j := by
  constructor
  · intro h
    by_contra hc
    rcases (not_lt.mp hc).eq_or_lt with rfl | h2
    · exact lt_irrefl _ h
    · exact absurd (hg j i h2) (not_lt.mpr h.le)
  · exact hg i j

theorem Ascending.le_iff {n : ℕ} {g : Fin n → ℝ} (hg : Ascending g) {i j : Fin n} : g i ≤ g j ↔ i ≤ j := by
  rw [← not_lt, hg.lt_iff, not_lt]

/-- between two neighbouring samples, linear interpolation is the straight line -/
theorem linWeight_between {n : ℕ} {g : Fin n → ℝ} (hg : Ascending g) (f : Fin n → ℝ) {k : ℕ} (hk : k + 1 < n) {x : ℝ}
    (h1 : g ⟨k, by omega⟩ ≤ x) (h2 : x ≤ g ⟨k + 1, hk⟩) :
    ∑ i, linWeight g x i * f i = f ⟨k, by omega⟩ +
      (x - g ⟨k, by omega⟩) / (g ⟨k + 1, hk⟩ - g ⟨k, by omega⟩) * (f ⟨k + 1, hk⟩ - f ⟨k, by omega⟩) := by
  have hn : 2 ≤ n := by omega
  have hlt : g ⟨k, by omega⟩ < g ⟨k + 1, hk⟩ := hg _ _ (by rw [Fin.lt_def]; simp)
  have hnode : ∀ a : Fin n, ∑ i, linWeight g (g a) i * f i = f a := by
    intro a
    simp [linWeight_node hn hg]
  rcases h1.eq_or_lt with rfl | h1'
  · rw [hnode]; simp
  rcases h2.eq_or_lt with rfl | h2'
  · rw [hnode, div_self (by linarith)]; ring
  have hint : interval g x + 1 < n := by unfold interval; omega
  obtain ⟨h3, h4⟩ := interval_bounds hn hg ⟨⟨_, h1⟩, ⟨_, h2⟩⟩ hint
  have e : interval g x = k := by
    have a1 := (hg.lt_iff).mp (lt_of_le_of_lt h3 h2')
    have a2 := (hg.lt_iff).mp (lt_of_lt_of_le h1' h4)
    rw [Fin.lt_def] at a1 a2
    simp only at a1 a2
    omega
  unfold linWeight
  simp only [e, dif_pos hk]
  generalize (x - g ⟨k, by omega⟩) / (g ⟨k + 1, hk⟩ - g ⟨k, by omega⟩) = y
  have h5 : ∀ i : Fin n, (if (i : ℕ) = k then 1 - y else if (i : ℕ) = k + 1 then y else 0) * f i =
      (if i = (⟨k, by omega⟩ : Fin n) then (1 - y) * f i else 0) + (if i = (⟨k + 1, hk⟩ : Fin n) then y * f i else 0) := by
    intro i
    simp only [Fin.ext_iff]
    by_cases h : (i : ℕ) = k
    · simp [h]
    · simp only [if_neg h, zero_add]
      split <;> simp
  rw [Finset.sum_congr rfl fun i _ => h5 i, Finset.sum_add_distrib]
  simp
  ring

theorem npInterp_between {n : ℕ} {g : Fin n → ℝ} (hg : Ascending g) (f : Fin n → ℝ) {k : ℕ} (hk : k + 1 < n) {x : ℝ}
    (h1 : g ⟨k, by omega⟩ ≤ x) (h2 : x ≤ g ⟨k + 1, hk⟩) :
    npInterp g f x = .ok (f ⟨k, by omega⟩ +
      (x - g ⟨k, by omega⟩) / (g ⟨k + 1, hk⟩ - g ⟨k, by omega⟩) * (f ⟨k + 1, hk⟩ - f ⟨k, by omega⟩)) := by
  have hlt : g ⟨k, by omega⟩ < g ⟨k + 1, hk⟩ := hg _ _ (by rw [Fin.lt_def]; simp)
  unfold npInterp
  rw [dif_pos (by omega)]
  split
  · rename_i h3
    have a1 : g ⟨0, by omega⟩ ≤ g ⟨k, by omega⟩ := hg.le_iff.mpr (by rw [Fin.le_def]; simp)
    have a2 := hg.le_iff.mp (h1.trans h3)
    have a3 : k = 0 := by rw [Fin.le_def] at a2; simpa using a2
    subst a3
    have : x = g ⟨0, by omega⟩ := le_antisymm h3 h1
    rw [this]; simp
  · split
    · rename_i h3
      have a2 := hg.le_iff.mp (h3.trans h2)
      have a3 : k + 1 = n - 1 := by rw [Fin.le_def] at a2; simp at a2; omega
      have a4 : (⟨n - 1, by omega⟩ : Fin n) = ⟨k + 1, hk⟩ := Fin.ext a3.symm
      rw [a4] at h3 ⊢
      rw [le_antisymm h2 h3, div_self (by linarith)]
      congr 1; ring
    · rw [linWeight_between hg f hk h1 h2]

/-- at a sample, `np.interp` returns the sample -/
theorem npInterp_node {n : ℕ} {g : Fin n → ℝ} (hg : Ascending g) (f : Fin n → ℝ) (k : Fin n) :
    npInterp g f (g k) = .ok (f k) := by
  obtain ⟨k, hk⟩ := k
  by_cases h : k + 1 < n
  · rw [npInterp_between hg f h le_rfl (hg.le_iff.mpr (by rw [Fin.le_def]; simp))]
    simp
  · unfold npInterp
    have e : (⟨n - 1, by omega⟩ : Fin n) = ⟨k, hk⟩ := Fin.ext (by simp; omega)
    rw [dif_pos (by omega)]
    split
    · rename_i h2
      have := hg.le_iff.mp h2
      congr 2
      rw [Fin.le_def] at this
      apply Fin.ext; simp at this ⊢; omega
    · rw [if_pos (by rw [e]), e]

/-- before the first sample the first value -/
theorem npInterp_left {n : ℕ} (h : 0 < n) (g f : Fin n → ℝ) {x : ℝ} (hx : x ≤ g ⟨0, h⟩) :
    npInterp g f x = .ok (f ⟨0, h⟩) := by
  unfold npInterp
  rw [dif_pos h, if_pos hx]

/-- after the last sample the last value -/
theorem npInterp_right {n : ℕ} (h : 0 < n) {g : Fin n → ℝ} (hg : Ascending g) (f : Fin n → ℝ) {x : ℝ}
    (hx : g ⟨n - 1, by omega⟩ ≤ x) : npInterp g f x = .ok (f ⟨n - 1, by omega⟩) := by
  unfold npInterp
  rw [dif_pos h]
  split
  · rename_i h2
    have := hg.le_iff.mp (hx.trans h2)
    rw [Fin.le_def] at this
    simp at this
    congr 2
    apply Fin.ext; simp; omega
  · rfl

theorem npInterp_empty {n : ℕ} (h : n = 0) (g f : Fin n → ℝ) (x : ℝ) : npInterp g f x = .error .value := by
  unfold npInterp
  rw [dif_neg (by omega)]

theorem ascending_slice1 {n : ℕ} {g : Fin n → ℝ} (hg : Ascending g) (a b : ℕ) (h : b ≤ n) : Ascending (slice1 g a b h) := by
  intro i j hij
  exact hg _ _ (by rw [Fin.lt_def] at hij ⊢; simp only; omega)

/-- an interpolated value is between bounds of the data -/
theorem npInterp_bounds {n : ℕ} {g : Fin n → ℝ} (hg : Ascending g) {f : Fin n → ℝ} {lo hi : ℝ} (hf : ∀ k, lo ≤ f k ∧ f k ≤ hi)
    {x y : ℝ} (h : npInterp g f x = .ok y) : lo ≤ y ∧ y ≤ hi := by
  unfold npInterp at h
  split at h
  · rename_i hn
    split at h
    · injection h with h; rw [← h]; exact hf _
    · rename_i h1
      split at h
      · injection h with h; rw [← h]; exact hf _
      · rename_i h2
        injection h with h
        have hn2 : 2 ≤ n := by
          by_contra hc
          have : n = 1 := by omega
          subst this
          exact h1 (not_le.mp h2).le
        have hin : Inside g x := ⟨⟨_, (not_le.mp h1).le⟩, ⟨_, (not_le.mp h2).le⟩⟩
        have hw := linWeight_nonneg hn2 hg hin
        have hs := linWeight_sum hn2 g x
        rw [← h]
        constructor
        · calc lo = ∑ i, linWeight g x i * lo := by rw [← Finset.sum_mul, hs, one_mul]
            _ ≤ _ := Finset.sum_le_sum fun i _ => mul_le_mul_of_nonneg_left (hf i).1 (hw i)
        · calc _ ≤ ∑ i, linWeight g x i * hi := Finset.sum_le_sum fun i _ => mul_le_mul_of_nonneg_left (hf i).2 (hw i)
            _ = hi := by rw [← Finset.sum_mul, hs, one_mul]
  · exact absurd h (by simp)

end Lasy
