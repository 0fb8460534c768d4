import Verif.Lemmas.Hilbert
import Verif.Model.Spectrum

/-!
# FFT of sums of resolved lines
-/

namespace Lasy
open Complex

/-- the `q`-th resolved angular frequency of `N` samples at distance `dt` -/
noncomputable def lineFreq (N : ℕ) (dt : ℝ) (q : ℤ) : ℝ := 2 * Real.pi * q / (N * dt)

theorem exp_line {N : ℕ} (hN : N ≠ 0) {dt : ℝ} (hdt : dt ≠ 0) (t0 : ℝ) (q : ℤ) (k : ℕ) :
    exp (-I * lineFreq N dt q * (t0 + k * dt : ℝ)) = exp (-I * lineFreq N dt q * t0) * chr N (k * -q) := by
  rw [chr, ← Complex.exp_add]
  congr 1
  have h1 : (N : ℂ) ≠ 0 := by exact_mod_cast hN
  have h2 : (dt : ℂ) ≠ 0 := by exact_mod_cast hdt
  unfold lineFreq
  push_cast
  field_simp
  ring

/-- orthogonality, in the form used here -/
theorem sum_chr_line {N : ℕ} (hN : N ≠ 0) (d e : ℤ) :
    ∑ k : Fin N, chr N ((k : ℕ) * d) * chr N (-((k : ℕ) * e)) = if (N : ℤ) ∣ d - e then (N : ℂ) else 0 := by
  rw [← sum_chr hN]
  refine Finset.sum_congr rfl fun k _ => ?_
  rw [← chr_add]
  congr 1
  ring

/-- the FFT of `∑ b_q chr(-k p_q)` at index `r` collects the lines with `p_q + r` a multiple of `N` -/
theorem fft_lines {N : ℕ} {ι : Type} [Fintype ι] (hN : N ≠ 0) (b : ι → ℂ) (p : ι → ℤ) (r : Fin N) :
    fft (fun k : Fin N => ∑ q, b q * chr N ((k : ℕ) * -p q)) r =
      ∑ q, if (N : ℤ) ∣ p q + (r : ℕ) then N * b q else 0 := by
  rw [fft_eq_chr]
  simp only [Finset.sum_mul]
  rw [Finset.sum_comm]
  refine Finset.sum_congr rfl fun q _ => ?_
  have h := sum_chr_line hN (-p q) (r : ℕ)
  rw [Finset.sum_congr rfl fun k _ => mul_assoc _ _ _, ← Finset.mul_sum, h]
  have e : ((N : ℤ) ∣ -p q - (r : ℕ)) ↔ (N : ℤ) ∣ p q + (r : ℕ) := by
    rw [← dvd_neg]
    ring_nf
  by_cases hd : (N : ℤ) ∣ p q + (r : ℕ)
  · rw [if_pos hd, if_pos (e.mpr hd), mul_comm]
  · rw [if_neg hd, if_neg (mt e.mp hd), mul_zero]

theorem fft_conj_lines {N : ℕ} {ι : Type} [Fintype ι] (hN : N ≠ 0) (b : ι → ℂ) (p : ι → ℤ) (r : Fin N) :
    fft (fun k : Fin N => (starRingEnd ℂ) (∑ q, b q * chr N ((k : ℕ) * -p q))) r =
      ∑ q, if (N : ℤ) ∣ (r : ℕ) - p q then N * (starRingEnd ℂ) (b q) else 0 := by
  have h := fft_lines hN (fun q => (starRingEnd ℂ) (b q)) (fun q => -p q) r
  rw [show (fun k : Fin N => (starRingEnd ℂ) (∑ q, b q * chr N ((k : ℕ) * -p q))) =
    fun k : Fin N => ∑ q, (starRingEnd ℂ) (b q) * chr N ((k : ℕ) * - -p q) from ?_, h]
  · refine Finset.sum_congr rfl fun q _ => ?_
    rw [show -p q + ((r : ℕ) : ℤ) = (r : ℕ) - p q by ring]
  · funext k
    rw [map_sum]
    refine Finset.sum_congr rfl fun q _ => ?_
    rw [map_mul, ← chr_neg]
    congr 2
    ring

/-- the FFT of an envelope made of resolved lines, `f(t) = ∑ a_q exp(-i (ω_q - ω_m) t)`, at the index of the
frequency `ω_q`: `ω_m - ω_q` -/
theorem fft_envelope_line {N : ℕ} (hN : N ≠ 0) {dt : ℝ} (hdt : dt ≠ 0) (t0 : ℝ) (m : ℤ) (a : Fin N → ℂ) (q r : Fin N)
    (hr : (N : ℤ) ∣ m - (q : ℕ) - (r : ℕ)) :
    fft (fun k : Fin N => ∑ p : Fin N, a p * exp (-I * (lineFreq N dt (p : ℕ) - lineFreq N dt m : ℝ) * (t0 + (k : ℕ) * dt : ℝ))) r =
      N * (a q * exp (-I * (lineFreq N dt (q : ℕ) - lineFreq N dt m : ℝ) * t0)) := by
  have e : ∀ p : ℤ, lineFreq N dt p - lineFreq N dt m = lineFreq N dt (p - m) := by
    intro p; unfold lineFreq; push_cast; ring
  simp only [e]
  have e2 : (fun k : Fin N => ∑ p : Fin N, a p * exp (-I * (lineFreq N dt ((p : ℕ) - m) : ℝ) * (t0 + (k : ℕ) * dt : ℝ))) =
      fun k : Fin N => ∑ p : Fin N, (a p * exp (-I * (lineFreq N dt ((p : ℕ) - m) : ℝ) * t0)) * chr N ((k : ℕ) * -((p : ℕ) - m)) := by
    funext k
    refine Finset.sum_congr rfl fun p _ => ?_
    rw [exp_line hN hdt]; ring
  rw [e2, fft_lines hN, Finset.sum_eq_single q]
  · rw [if_pos]
    have := dvd_neg.mpr hr
    rw [show (q : ℕ) - m + ((r : ℕ) : ℤ) = -(m - (q : ℕ) - (r : ℕ)) by ring]
    exact this
  · intro p _ hp
    rw [if_neg]
    intro h
    apply hp
    rw [← Fin.dvd_sub_iff]
    have := dvd_add h hr
    rwa [show ((p : ℕ) : ℤ) - m + (r : ℕ) + (m - (q : ℕ) - (r : ℕ)) = (p : ℕ) - (q : ℕ) by ring] at this
  · intro h; exact absurd (Finset.mem_univ _) h

/-- the FFT of the real field `Re ∑ a_q exp(-i ω_q t)`, all lines strictly between zero and Nyquist, at a frequency
below Nyquist -/
theorem fft_real_line {N : ℕ} (hN : N ≠ 0) {dt : ℝ} (hdt : dt ≠ 0) (t0 : ℝ) (a : Fin N → ℂ)
    (ha : ∀ q, a q ≠ 0 → 0 < (q : ℕ) ∧ 2 * (q : ℕ) < N) (q : Fin N) (hq : 2 * (q : ℕ) < N) :
    fft (fun k : Fin N => (((∑ p : Fin N, a p * exp (-I * (lineFreq N dt (p : ℕ) : ℝ) * (t0 + (k : ℕ) * dt : ℝ))).re : ℝ) : ℂ)) q =
      N / 2 * (starRingEnd ℂ) (a q * exp (-I * (lineFreq N dt (q : ℕ) : ℝ) * t0)) := by
  have e2 : ∀ k : Fin N, ∑ p : Fin N, a p * exp (-I * (lineFreq N dt (p : ℕ) : ℝ) * (t0 + (k : ℕ) * dt : ℝ)) =
      ∑ p : Fin N, (a p * exp (-I * (lineFreq N dt (p : ℕ) : ℝ) * t0)) * chr N ((k : ℕ) * -((p : ℕ) : ℤ)) := by
    intro k
    refine Finset.sum_congr rfl fun p _ => ?_
    rw [exp_line hN hdt]; ring
  have e3 : (fun k : Fin N => (((∑ p : Fin N, a p * exp (-I * (lineFreq N dt (p : ℕ) : ℝ) * (t0 + (k : ℕ) * dt : ℝ))).re : ℝ) : ℂ)) =
      fun k : Fin N => (1 / 2 : ℂ) * ((∑ p : Fin N, (a p * exp (-I * (lineFreq N dt (p : ℕ) : ℝ) * t0)) * chr N ((k : ℕ) * -((p : ℕ) : ℤ))) +
        (starRingEnd ℂ) (∑ p : Fin N, (a p * exp (-I * (lineFreq N dt (p : ℕ) : ℝ) * t0)) * chr N ((k : ℕ) * -((p : ℕ) : ℤ)))) := by
    funext k
    rw [e2, Complex.re_eq_add_conj]
    ring
  rw [e3, fft_smul, fft_add]
  simp only []
  rw [fft_lines hN, fft_conj_lines hN]
  rw [Finset.sum_eq_zero, Finset.sum_eq_single q]
  · rw [sub_self, if_pos (dvd_zero _)]
    ring
  · intro p _ hp
    rw [if_neg]
    intro h
    exact hp ((Fin.dvd_sub_iff q p).mp h).symm
  · intro h; exact absurd (Finset.mem_univ _) h
  · intro p _
    by_cases h0 : a p = 0
    · simp [h0]
    · obtain ⟨h1, h2⟩ := ha p h0
      rw [if_neg]
      intro h
      have := Int.le_of_dvd (by omega) h
      omega

end Lasy
