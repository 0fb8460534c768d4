import Verif.Numpy.Fourier
import Mathlib.RingTheory.RootsOfUnity.Complex
import Mathlib.Algebra.BigOperators.Field
import Mathlib.Tactic.FieldSimp
import Mathlib.Tactic.Ring
import Mathlib.Tactic.LinearCombination
import Mathlib.Tactic.Positivity
import Mathlib.Tactic.Linarith

/-! Lemmas on the discrete Fourier transform. -/

namespace Lasy
open Complex

/-- the character `exp(2πi·d/n)` -/
noncomputable def chr (n : ℕ) (d : ℤ) : ℂ := exp (2 * Real.pi * I * d / n)

theorem chr_add (n : ℕ) (a b : ℤ) : chr n (a + b) = chr n a * chr n b := by
  simp only [chr, ← Complex.exp_add]
  congr 1
  push_cast
  ring

theorem chr_zero (n : ℕ) : chr n 0 = 1 := by simp [chr]

theorem chr_neg (n : ℕ) (a : ℤ) : chr n (-a) = (starRingEnd ℂ) (chr n a) := by
  simp only [chr, ← Complex.exp_conj]
  congr 1
  have h2 : (starRingEnd ℂ) 2 = 2 := Complex.conj_ofNat 2
  simp [h2]

theorem chr_ne_zero (n : ℕ) (a : ℤ) : chr n a ≠ 0 := Complex.exp_ne_zero _

theorem chr_inv (n : ℕ) (a : ℤ) : chr n (-a) = (chr n a)⁻¹ := by
  have h := chr_add n (-a) a
  simp only [neg_add_cancel, chr_zero] at h
  field_simp [chr_ne_zero]
  rw [← h]

theorem chr_natMul (n : ℕ) (d : ℤ) (j : ℕ) : chr n (j * d) = chr n d ^ j := by
  simp only [chr, ← Complex.exp_nat_mul]
  congr 1
  push_cast
  ring

theorem norm_chr (n : ℕ) (a : ℤ) : ‖chr n a‖ = 1 := by
  have : (2 * Real.pi * I * a / n : ℂ) = ((2 * Real.pi * a / n : ℝ) : ℂ) * I := by
    push_cast; ring
  rw [chr, this, Complex.norm_exp_ofReal_mul_I]

theorem chr_eq_one_iff {n : ℕ} (hn : n ≠ 0) (d : ℤ) : chr n d = 1 ↔ (n : ℤ) ∣ d := by
  rw [chr, Complex.exp_eq_one_iff]
  have hn' : (n : ℂ) ≠ 0 := by exact_mod_cast hn
  have hpi : (2 * Real.pi * I : ℂ) ≠ 0 := Complex.two_pi_I_ne_zero
  constructor
  · rintro ⟨k, hk⟩
    refine ⟨k, ?_⟩
    have h2 : (d : ℂ) = n * k := by
      field_simp at hk
      have hpi' : (Real.pi : ℂ) ≠ 0 := by exact_mod_cast Real.pi_ne_zero
      exact hk
    exact_mod_cast h2
  · rintro ⟨k, rfl⟩
    refine ⟨k, ?_⟩
    push_cast
    field_simp

theorem chr_periodic {n : ℕ} (hn : n ≠ 0) {a b : ℤ} (h : (n : ℤ) ∣ a - b) : chr n a = chr n b := by
  have h1 := (chr_eq_one_iff hn (a - b)).2 h
  have h2 := chr_add n (a - b) b
  rw [sub_add_cancel, h1, one_mul] at h2
  exact h2

/-- orthogonality of characters -/
theorem sum_chr {n : ℕ} (hn : n ≠ 0) (d : ℤ) :
    ∑ j : Fin n, chr n ((j : ℕ) * d) = if (n : ℤ) ∣ d then (n : ℂ) else 0 := by
  simp only [chr_natMul]
  rw [Fin.sum_univ_eq_sum_range (fun j => chr n d ^ j) n]
  split_ifs with h
  · simp [(chr_eq_one_iff hn d).2 h]
  · have h1 : chr n d ≠ 1 := fun h' => h ((chr_eq_one_iff hn d).1 h')
    rw [geom_sum_eq h1]
    have : chr n d ^ n = 1 := by
      rw [← chr_natMul]
      exact (chr_eq_one_iff hn _).2 ⟨d, rfl⟩
    simp [this]

theorem fft_eq_chr {n : ℕ} (x : Fin n → ℂ) (k : Fin n) :
    fft x k = ∑ j : Fin n, x j * chr n (-((j : ℕ) * (k : ℕ))) := by
  simp only [fft, chr]
  refine Finset.sum_congr rfl fun j _ => ?_
  congr 2
  push_cast
  ring

theorem ifft_eq_chr {n : ℕ} (x : Fin n → ℂ) (j : Fin n) :
    ifft x j = (∑ k : Fin n, x k * chr n ((j : ℕ) * (k : ℕ))) / n := by
  simp only [ifft, chr]
  congr 1
  refine Finset.sum_congr rfl fun k _ => ?_
  congr 2
  push_cast
  ring

theorem Fin.dvd_sub_iff {n : ℕ} (a b : Fin n) : (n : ℤ) ∣ (a : ℕ) - (b : ℕ) ↔ a = b := by
  constructor
  · rintro ⟨k, hk⟩
    have ha := a.isLt
    have hb := b.isLt
    have hk0 : k = 0 := by
      by_contra hne
      rcases lt_or_gt_of_ne hne with h | h
      · have : (n : ℤ) * k ≤ -n := by nlinarith
        omega
      · have : (n : ℤ) ≤ n * k := by nlinarith
        omega
    subst hk0
    ext
    omega
  · rintro rfl; simp

/-- `ifft (fft x) = x` -/
theorem ifft_fft {n : ℕ} (x : Fin n → ℂ) : ifft (fft x) = x := by
  funext j
  have hn : n ≠ 0 := by have := j.isLt; omega
  have hn' : (n : ℂ) ≠ 0 := by exact_mod_cast hn
  rw [ifft_eq_chr]
  simp only [fft_eq_chr, Finset.sum_mul]
  rw [Finset.sum_comm]
  have h : ∀ l : Fin n, ∑ k : Fin n, x l * chr n (-((l : ℕ) * (k : ℕ))) * chr n ((j : ℕ) * (k : ℕ))
      = x l * if l = j then (n : ℂ) else 0 := by
    intro l
    have h2 : ∀ k : Fin n, x l * chr n (-((l : ℕ) * (k : ℕ))) * chr n ((j : ℕ) * (k : ℕ))
        = x l * chr n ((k : ℕ) * ((j : ℕ) - (l : ℕ))) := by
      intro k
      rw [mul_assoc, ← chr_add]
      congr 2
      ring
    simp only [h2]
    rw [← Finset.mul_sum, sum_chr hn]
    simp only [Fin.dvd_sub_iff, eq_comm]
  simp only [h]
  simp [hn']

/-- `fft (ifft x) = x` -/
theorem fft_ifft {n : ℕ} (x : Fin n → ℂ) : fft (ifft x) = x := by
  funext k
  have hn : n ≠ 0 := by have := k.isLt; omega
  have hn' : (n : ℂ) ≠ 0 := by exact_mod_cast hn
  rw [fft_eq_chr]
  simp only [ifft_eq_chr, div_mul_eq_mul_div, Finset.sum_mul]
  rw [← Finset.sum_div, Finset.sum_comm]
  have h : ∀ l : Fin n, ∑ j : Fin n, x l * chr n ((j : ℕ) * (l : ℕ)) * chr n (-((j : ℕ) * (k : ℕ)))
      = x l * if l = k then (n : ℂ) else 0 := by
    intro l
    have h2 : ∀ j : Fin n, x l * chr n ((j : ℕ) * (l : ℕ)) * chr n (-((j : ℕ) * (k : ℕ)))
        = x l * chr n ((j : ℕ) * ((l : ℕ) - (k : ℕ))) := by
      intro j
      rw [mul_assoc, ← chr_add]
      congr 2
      ring
    simp only [h2]
    rw [← Finset.mul_sum, sum_chr hn]
    simp only [Fin.dvd_sub_iff]
  simp only [h]
  simp [hn']

theorem fft_injective {n : ℕ} : Function.Injective (fft (n := n)) :=
  Function.LeftInverse.injective ifft_fft

theorem fft_smul {n : ℕ} (a : ℂ) (x : Fin n → ℂ) : fft (fun i => a * x i) = fun k => a * fft x k := by
  funext k
  simp only [fft, Finset.mul_sum, mul_assoc]

theorem ifft_smul {n : ℕ} (a : ℂ) (x : Fin n → ℂ) :
    ifft (fun i => a * x i) = fun k => a * ifft x k := by
  funext k
  simp only [ifft]
  rw [← mul_div_assoc, Finset.mul_sum]
  simp only [mul_assoc]

theorem fft_add {n : ℕ} (x y : Fin n → ℂ) : fft (fun i => x i + y i) = fun k => fft x k + fft y k := by
  funext k
  simp only [fft, add_mul, Finset.sum_add_distrib]

theorem ifft_add {n : ℕ} (x y : Fin n → ℂ) :
    ifft (fun i => x i + y i) = fun k => ifft x k + ifft y k := by
  funext k
  simp only [ifft, add_mul, Finset.sum_add_distrib, add_div]

/-- Parseval for `fft`: `∑ |fft x|² = n ∑ |x|²`. -/
theorem parseval_fft {n : ℕ} (x : Fin n → ℂ) : ∑ k, ‖fft x k‖ ^ 2 = n * ∑ j, ‖x j‖ ^ 2 := by
  rcases Nat.eq_zero_or_pos n with rfl | hpos
  · simp
  have hn : n ≠ 0 := by omega
  have key : (∑ k, (fft x k) * (starRingEnd ℂ) (fft x k) : ℂ)
      = n * ∑ j, x j * (starRingEnd ℂ) (x j) := by
    simp only [fft_eq_chr, map_sum, map_mul, ← chr_neg, neg_neg, Finset.sum_mul, Finset.mul_sum]
    rw [Finset.sum_comm]
    have h : ∀ l : Fin n, ∑ k : Fin n, ∑ i : Fin n,
        x i * chr n (-((i : ℕ) * (k : ℕ))) * ((starRingEnd ℂ) (x l) * chr n ((l : ℕ) * (k : ℕ)))
        = n * (x l * (starRingEnd ℂ) (x l)) := by
      intro l
      rw [Finset.sum_comm]
      have h2 : ∀ i : Fin n, ∑ k : Fin n, x i * chr n (-((i : ℕ) * (k : ℕ))) *
          ((starRingEnd ℂ) (x l) * chr n ((l : ℕ) * (k : ℕ)))
          = x i * (starRingEnd ℂ) (x l) * if l = i then (n : ℂ) else 0 := by
        intro i
        have h3 : ∀ k : Fin n, x i * chr n (-((i : ℕ) * (k : ℕ))) *
          ((starRingEnd ℂ) (x l) * chr n ((l : ℕ) * (k : ℕ)))
          = x i * (starRingEnd ℂ) (x l) * chr n ((k : ℕ) * ((l : ℕ) - (i : ℕ))) := by
          intro k
          have : chr n ((k : ℕ) * ((l : ℕ) - (i : ℕ))) =
              chr n (-((i : ℕ) * (k : ℕ))) * chr n ((l : ℕ) * (k : ℕ)) := by
            rw [← chr_add]; congr 1; ring
          rw [this]; ring
        simp only [h3]
        rw [← Finset.mul_sum, sum_chr hn]
        simp only [Fin.dvd_sub_iff]
      simp only [h2]
      simp
      ring
    exact Finset.sum_congr rfl fun l _ => h l
  have e : ∀ z : ℂ, z * (starRingEnd ℂ) z = ((‖z‖ ^ 2 : ℝ) : ℂ) := fun z => by
    rw [Complex.mul_conj, Complex.normSq_eq_norm_sq]
  simp only [e] at key
  exact_mod_cast key

/-- Parseval for `ifft`: `∑ |x|² = n ∑ |ifft x|²`. -/
theorem parseval_ifft {n : ℕ} (x : Fin n → ℂ) : ∑ j, ‖x j‖ ^ 2 = n * ∑ k, ‖ifft x k‖ ^ 2 := by
  have := parseval_fft (ifft x)
  rwa [fft_ifft] at this

end Lasy
