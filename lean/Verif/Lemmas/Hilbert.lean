import Verif.Model.Hilbert
import Verif.Lemmas.Fourier

/-!
# Lemmas: the discrete Hilbert transform
-/

namespace Lasy
open Complex

/-- the index of the frequency `-k` -/
def negIdx {n : ℕ} (k : Fin n) : Fin n := ⟨(n - k) % n, Nat.mod_lt _ (by have := k.2; omega)⟩

theorem negIdx_val {n : ℕ} (k : Fin n) : (negIdx k : ℕ) = if (k : ℕ) = 0 then 0 else n - k := by
  have := k.2
  simp only [negIdx]
  split
  · rename_i h; simp [h]
  · exact Nat.mod_eq_of_lt (by omega)

theorem negIdx_negIdx {n : ℕ} (k : Fin n) : negIdx (negIdx k) = k := by
  ext
  have := k.2
  rw [negIdx_val, negIdx_val]
  split_ifs <;> omega

theorem chr_negIdx {n : ℕ} (k : Fin n) (d : ℤ) : chr n ((negIdx k : ℕ) * d) = chr n (-((k : ℕ) * d)) := by
  have hk := k.2
  refine chr_periodic (by omega) ?_
  rw [negIdx_val]
  split
  · rename_i h; simp [h]
  · refine ⟨d, ?_⟩
    have : ((n - (k : ℕ) : ℕ) : ℤ) = n - (k : ℕ) := by omega
    rw [this]; ring

theorem sum_negIdx {n : ℕ} {M : Type} [AddCommMonoid M] (f : Fin n → M) : ∑ k, f (negIdx k) = ∑ k, f k :=
  Finset.sum_bij' (fun k _ => negIdx k) (fun k _ => negIdx k) (by simp) (by simp)
    (fun k _ => negIdx_negIdx k) (fun k _ => negIdx_negIdx k) (by simp)

/-- a frequency and its opposite carry together the weight 2 -/
theorem hilbertMask_add {n : ℕ} (k : Fin n) : hilbertMask n k + hilbertMask n (negIdx k) = 2 := by
  have hk := k.2
  have hv := negIdx_val k
  unfold hilbertMask
  rw [hv]
  split_ifs <;> first | omega | norm_num

theorem hilbertMask_real {n : ℕ} (k : Fin n) : (starRingEnd ℂ) (hilbertMask n k) = hilbertMask n k := by
  unfold hilbertMask
  split_ifs <;> first | exact map_one _ | exact map_zero _ | exact map_ofNat _ 2

theorem hilbertMask_pos {n : ℕ} (k : Fin n) (h0 : 0 < (k : ℕ)) (h : 2 * (k : ℕ) < n) : hilbertMask n k = 2 := by
  unfold hilbertMask
  split_ifs <;> first | omega | rfl

theorem hilbertMask_neg {n : ℕ} (k : Fin n) (h0 : 0 < (k : ℕ)) (h : 2 * (k : ℕ) < n) :
    hilbertMask n (negIdx k) = 0 := by
  have := hilbertMask_add k
  rw [hilbertMask_pos k h0 h] at this
  linear_combination this

/-- the real part of the analytic signal is the signal -/
theorem hilbert_re {n : ℕ} (x : Fin n → ℝ) (j : Fin n) : (hilbert x j).re = x j := by
  have hconj : (starRingEnd ℂ) (hilbert x j) =
      ifft (fun k => fft (fun j => (x j : ℂ)) k * hilbertMask n (negIdx k)) j := by
    unfold hilbert
    rw [ifft_eq_chr, ifft_eq_chr, map_div₀, map_sum, map_natCast, ← sum_negIdx]
    congr 1
    refine Finset.sum_congr rfl fun k _ => ?_
    rw [map_mul, map_mul, hilbertMask_real, ← chr_neg]
    have h1 : (starRingEnd ℂ) (fft (fun j => (x j : ℂ)) (negIdx k)) = fft (fun j => (x j : ℂ)) k := by
      rw [fft_eq_chr, fft_eq_chr, map_sum]
      refine Finset.sum_congr rfl fun l _ => ?_
      rw [map_mul, conj_ofReal, ← chr_neg, neg_neg]
      congr 1
      have := chr_negIdx k (l : ℕ)
      rw [mul_comm] at this
      rw [this, mul_comm]
    have h2 : chr n (-((j : ℕ) * (negIdx k : ℕ))) = chr n ((j : ℕ) * (k : ℕ)) := by
      have := chr_negIdx k (-(j : ℕ) : ℤ)
      rw [show ((j : ℕ) * (negIdx k : ℕ) : ℤ) = -((negIdx k : ℕ) * (-(j : ℕ) : ℤ)) by ring, neg_neg, this]
      congr 1
      ring
    rw [h1, h2]
  have hsum : hilbert x j + (starRingEnd ℂ) (hilbert x j) = 2 * (x j : ℂ) := by
    rw [hconj]
    have := congrFun (ifft_add (fun k => fft (fun j => (x j : ℂ)) k * hilbertMask n k)
      (fun k => fft (fun j => (x j : ℂ)) k * hilbertMask n (negIdx k))) j
    rw [hilbert, ← this]
    have h2 : (fun i => fft (fun j => (x j : ℂ)) i * hilbertMask n i +
        fft (fun j => (x j : ℂ)) i * hilbertMask n (negIdx i)) = fun k => 2 * fft (fun j => (x j : ℂ)) k := by
      funext k
      rw [← mul_add, hilbertMask_add, mul_comm]
    rw [h2, ifft_smul, ifft_fft]
  rw [Complex.add_conj] at hsum
  have := congrArg Complex.re hsum
  simp at this
  linarith

theorem hilbertTransform_re {n : ℕ} (x : Fin n → ℝ) (k : Fin n) : (hilbertTransform x k).re = x k := by
  unfold hilbertTransform
  rw [hilbert_re, Fin.rev_rev]

/-- the operator of `scipy.signal.hilbert` on complex arrays -/
noncomputable def maskOp {n : ℕ} (y : Fin n → ℂ) : Fin n → ℂ := ifft fun k => fft y k * hilbertMask n k

theorem maskOp_add {n : ℕ} (y z : Fin n → ℂ) (j : Fin n) :
    maskOp (fun j => y j + z j) j = maskOp y j + maskOp z j := by
  have := congrFun (ifft_add (fun k => fft y k * hilbertMask n k) (fun k => fft z k * hilbertMask n k)) j
  unfold maskOp
  rw [← this, fft_add]
  simp only [add_mul]

/-- a signal made of strictly positive frequencies is doubled -/
theorem maskOp_pos {n : ℕ} (d : Fin n → ℂ) (hd : ∀ m, d m ≠ 0 → 0 < (m : ℕ) ∧ 2 * (m : ℕ) < n) (j : Fin n) :
    maskOp (ifft d) j = 2 * ifft d j := by
  have h : (fun k => fft (ifft d) k * hilbertMask n k) = fun k => 2 * d k := by
    funext k
    rw [fft_ifft]
    by_cases h0 : d k = 0
    · simp [h0]
    · rw [hilbertMask_pos k (hd k h0).1 (hd k h0).2, mul_comm]
  rw [maskOp, h, ifft_smul]

/-- a signal made of strictly negative frequencies is removed -/
theorem maskOp_neg {n : ℕ} (d : Fin n → ℂ) (hd : ∀ m, d m ≠ 0 → 0 < (m : ℕ) ∧ 2 * (m : ℕ) < n) (j : Fin n) :
    maskOp (ifft fun k => d (negIdx k)) j = 0 := by
  have h : (fun k => fft (ifft fun k => d (negIdx k)) k * hilbertMask n k) = fun _ => 0 := by
    funext k
    rw [fft_ifft]
    by_cases h0 : d (negIdx k) = 0
    · simp [h0]
    · have := hilbertMask_neg (negIdx k) (hd _ h0).1 (hd _ h0).2
      rw [negIdx_negIdx] at this
      simp [this]
  rw [maskOp, h, ifft_eq_chr]
  simp

/-- the DFT of `c`, read backwards in time, is an inverse DFT -/
theorem fft_rev {n : ℕ} (c : Fin n → ℂ) (j : Fin n) :
    fft c j.rev = ifft (fun m => n * (c m * chr n (m : ℕ))) j := by
  have hn : (n : ℂ) ≠ 0 := by have := j.2; exact_mod_cast (by omega : n ≠ 0)
  rw [fft_eq_chr, ifft_eq_chr, eq_div_iff hn, Finset.sum_mul]
  refine Finset.sum_congr rfl fun m _ => ?_
  have h1 : chr n (-((m : ℕ) * (j.rev : ℕ))) = chr n (m : ℕ) * chr n ((j : ℕ) * (m : ℕ)) := by
    rw [← chr_add]
    refine chr_periodic (by have := j.2; omega) ⟨-(m : ℕ), ?_⟩
    have hj := j.2
    have : ((j.rev : ℕ) : ℤ) = n - 1 - (j : ℕ) := by rw [Fin.val_rev]; omega
    rw [this]; ring
  rw [h1]
  ring

theorem conj_ifft {n : ℕ} (d : Fin n → ℂ) (j : Fin n) :
    (starRingEnd ℂ) (ifft d j) = ifft (fun k => (starRingEnd ℂ) (d (negIdx k))) j := by
  rw [ifft_eq_chr, ifft_eq_chr, map_div₀, map_sum, map_natCast, ← sum_negIdx]
  congr 1
  refine Finset.sum_congr rfl fun k _ => ?_
  rw [map_mul, ← chr_neg]
  congr 1
  have := chr_negIdx k (-(j : ℕ) : ℤ)
  rw [show ((j : ℕ) * (negIdx k : ℕ) : ℤ) = -((negIdx k : ℕ) * (-(j : ℕ) : ℤ)) by ring, neg_neg, this]
  congr 1
  ring

/-- the real part of a signal with frequencies strictly between zero and Nyquist (in the lasy convention
`exp(-i ω t)`) determines the signal, and `hilbert_transform` recovers it -/
theorem hilbertTransform_analytic {n : ℕ} (c : Fin n → ℂ) (hc : ∀ m, c m ≠ 0 → 0 < (m : ℕ) ∧ 2 * (m : ℕ) < n) :
    hilbertTransform (fun k => (fft c k).re) = fft c := by
  funext k
  let d : Fin n → ℂ := fun m => n * (c m * chr n (m : ℕ))
  have hd : ∀ m, d m ≠ 0 → 0 < (m : ℕ) ∧ 2 * (m : ℕ) < n := fun m h =>
    hc m fun h0 => h (by simp [d, h0])
  have hd' : ∀ m, (starRingEnd ℂ) (d m) ≠ 0 → 0 < (m : ℕ) ∧ 2 * (m : ℕ) < n := fun m h =>
    hd m fun h0 => h (by simp [h0])
  have hx : (fun j : Fin n => (((fft c j.rev).re : ℝ) : ℂ)) =
      fun j => ifft (fun k => (1 / 2) * d k) j + ifft (fun k => (fun m => (1 / 2) * (starRingEnd ℂ) (d m)) (negIdx k)) j := by
    funext j
    rw [Complex.re_eq_add_conj, fft_rev, conj_ifft]
    simp only [ifft_smul, d]
    ring
  have h1 : hilbertTransform (fun k => (fft c k).re) k = maskOp (fun j : Fin n => (((fft c j.rev).re : ℝ) : ℂ)) k.rev :=
    rfl
  rw [h1, hx, maskOp_add, maskOp_pos _ (fun m h => hd m (right_ne_zero_of_mul h)),
    maskOp_neg (fun m => (1 / 2) * (starRingEnd ℂ) (d m)) (fun m h => hd' m (right_ne_zero_of_mul h)), add_zero,
    ifft_smul, ← Fin.rev_rev k, fft_rev, Fin.rev_rev]
  simp only [d]
  ring

end Lasy
