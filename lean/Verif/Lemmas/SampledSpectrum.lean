import Verif.Lemmas.Sampling

/-!
# The discrete spectrum of the samples of a localised pulse
-/

namespace Lasy
open Spec Complex Filter MeasureTheory

/-- the forward transform of the periodic sum of a pulse is the periodic sum of its spectrum, at minus the frequencies of the
axis -/
theorem fft_periodised {S : ℝ → ℂ} (hc : Continuous S) {w0 C t0 C' : ℝ} {p : ℕ} (hS : Localised S w0 C p)
    (hE : Localised (pulse S) t0 C' p) (hp : 2 ≤ p) {dt : ℝ} (hdt : 0 < dt) {N : ℕ} (hN : N ≠ 0) (lo : ℝ)
    (hlo : ∀ j : Fin N, |lo + (j : ℕ) * dt - t0| ≤ N * dt / 2) (k : Fin N) :
    fft (fun j : Fin N => periodised (pulse S) (N * dt) (lo + (j : ℕ) * dt)) k * dt =
      ∑' m : ℤ, S (-(2 * Real.pi * fftfreq N dt k) + m * (2 * Real.pi / dt)) *
        exp (-I * ((-(2 * Real.pi * fftfreq N dt k) + m * (2 * Real.pi / dt) : ℝ) : ℂ) * lo) := by
  have hN0 : (0 : ℝ) < N := by exact_mod_cast Nat.pos_of_ne_zero hN
  have : NeZero N := ⟨hN⟩
  rw [← poisson_pulse hc hS hE hp hdt lo, fft_eq_chr]
  set g : ℤ → ℂ := fun n => pulse S (lo + n * dt) * chr N (-(n * (k : ℕ))) with hg
  have h1 : ∀ j : Fin N, Summable fun q : ℤ => ‖g (q * N + (j : ℕ))‖ := by
    intro j
    refine (hE.summable_period hp (mul_pos hN0 hdt) (hlo j)).congr fun q => ?_
    simp only [hg, norm_mul, norm_chr, mul_one]
    congr 2
    push_cast
    ring
  have h2 : Summable fun x : ℤ × Fin N => ‖g ((Int.divModEquiv N).symm x)‖ := by
    refine (Equiv.prodComm (Fin N) ℤ).summable_iff.1 ((summable_prod_of_nonneg fun _ => norm_nonneg _).2 ?_)
    refine ⟨fun j => ?_, Summable.of_finite⟩
    refine (h1 j).congr fun q => ?_
    simp [Int.divModEquiv]
  have h3 : ∑' n : ℤ, g n = ∑ j : Fin N, ∑' q : ℤ, g (q * N + (j : ℕ)) := by
    rw [← (Int.divModEquiv N).symm.tsum_eq g, ← (Equiv.prodComm (Fin N) ℤ).tsum_eq, Summable.tsum_prod, tsum_fintype]
    · refine Finset.sum_congr rfl fun j _ => tsum_congr fun q => ?_
      simp [Int.divModEquiv]
    · exact (Equiv.prodComm (Fin N) ℤ).summable_iff.2 h2.of_norm
  have h4 : ∑' n : ℤ, pulse S (lo + n * dt) * exp (I * ((-(2 * Real.pi * fftfreq N dt k) : ℝ) : ℂ) * (n * dt)) * dt =
      (∑' n : ℤ, g n) * dt := by
    rw [← tsum_mul_right]
    refine tsum_congr fun n => ?_
    have := exp_grid_freq hN hdt k (-n)
    rw [show -n * ((k : ℕ) : ℤ) = -(n * (k : ℕ)) by ring] at this
    simp only [hg, ← this]
    congr 3
    push_cast
    ring
  rw [h4, h3]
  congr 1
  refine Finset.sum_congr rfl fun j _ => ?_
  rw [periodised, ← tsum_mul_right]
  refine tsum_congr fun q => ?_
  simp only [hg]
  congr 1
  · congr 1
    push_cast
    ring
  · refine chr_periodic hN ⟨q * (k : ℕ), ?_⟩
    ring

theorem norm_fft_le {N : ℕ} (x : Fin N → ℂ) {B : ℝ} (h : ∀ j, ‖x j‖ ≤ B) (k : Fin N) : ‖fft x k‖ ≤ N * B := by
  rw [fft_eq_chr]
  refine (norm_sum_le _ _).trans ?_
  refine (Finset.sum_le_sum fun j _ => (?_ : _ ≤ B)).trans (by simp)
  rw [norm_mul, norm_chr, mul_one]
  exact h j

/-- **The error of a sampled spectrum.** The discrete spectrum of the samples of a pulse is its spectrum, up to the wrap-around of
the pulse and the aliasing of the spectrum. -/
theorem fft_pulse_error {S : ℝ → ℂ} (hc : Continuous S) {t0 C1 C2 : ℝ} {p : ℕ} (hp : 2 ≤ p) (hS : Localised S 0 C1 p)
    (hE : Localised (pulse S) t0 C2 p) {dt : ℝ} (hdt : 0 < dt) {N : ℕ} (hN : N ≠ 0) (lo : ℝ)
    (hlo : ∀ j : Fin N, |lo + (j : ℕ) * dt - t0| ≤ N * dt / 2) (k : Fin N) :
    ‖fft (fun j : Fin N => pulse S (lo + (j : ℕ) * dt)) k * dt -
        S (-(2 * Real.pi * fftfreq N dt k)) * exp (I * ((2 * Real.pi * fftfreq N dt k : ℝ) : ℂ) * lo)‖ ≤
      zeta2 * (C2 * (N * dt) * (2 / (N * dt)) ^ p + C1 * (dt / Real.pi) ^ p) := by
  have hN0 : (0 : ℝ) < N := by exact_mod_cast Nat.pos_of_ne_zero hN
  have hP : 0 < N * dt := mul_pos hN0 hdt
  have hpi := Real.pi_pos
  have hΩ : 0 < 2 * Real.pi / dt := by positivity
  set v : ℝ := -(2 * Real.pi * fftfreq N dt k) with hv
  have hk : |v - 0| ≤ 2 * Real.pi / dt / 2 := by
    have := abs_grid_freq hN hdt k
    rw [hv, sub_zero, abs_neg]
    rwa [sub_zero] at this
  set E : Fin N → ℂ := fun j => pulse S (lo + (j : ℕ) * dt) with hEd
  set w : Fin N → ℂ := fun j => others (pulse S) (N * dt) (lo + (j : ℕ) * dt) with hw
  have hper : (fun j : Fin N => periodised (pulse S) (N * dt) (lo + (j : ℕ) * dt)) = fun j => E j + w j :=
    funext fun j => hE.periodised_eq hp hP (hlo j)
  have key := fft_periodised hc hS hE hp hdt hN lo hlo k
  rw [hper, fft_add, ← hv] at key
  have hn : ∀ x : ℝ, ‖exp (-I * (x : ℂ) * lo)‖ = 1 := by
    intro x
    rw [show -I * (x : ℂ) * lo = ((-(x * lo) : ℝ) : ℂ) * I by push_cast; ring, norm_exp_ofReal_mul_I]
  set a : ℤ → ℂ := fun m => S (v + m * (2 * Real.pi / dt)) * exp (-I * ((v + m * (2 * Real.pi / dt) : ℝ) : ℂ) * lo) with ha
  have hna : ∀ m, ‖a m‖ = ‖S (v + m * (2 * Real.pi / dt))‖ := fun m => by rw [ha]; simp only [norm_mul, hn, mul_one]
  have sa : Summable a := Summable.of_norm ((hS.summable_period hp hΩ hk).congr fun m => (hna m).symm)
  have h0 : a 0 = S v * exp (I * ((2 * Real.pi * fftfreq N dt k : ℝ) : ℂ) * lo) := by
    simp only [ha, Int.cast_zero, zero_mul, add_zero]
    congr 2
    rw [hv]
    push_cast
    ring
  have hsplit := sa.tsum_eq_add_tsum_ite 0
  have hb : ‖∑' m : ℤ, if m = 0 then 0 else a m‖ ≤ C1 * (dt / Real.pi) ^ p * zeta2 := by
    have e : ∀ m : ℤ, ‖if m = 0 then 0 else a m‖ = ‖if m = 0 then 0 else S (v + m * (2 * Real.pi / dt))‖ := by
      intro m
      split_ifs
      · rfl
      · exact hna m
    have s3 := hS.summable_others hp hΩ hk
    refine (norm_tsum_le_tsum_norm (s3.congr fun m => (e m).symm)).trans ?_
    simp only [e]
    have := hS.tsum_others hp hΩ hk
    rwa [show 2 / (2 * Real.pi / dt) = dt / Real.pi by field_simp] at this
  have hb2 : ‖fft w k * dt‖ ≤ N * (C2 * (2 / (N * dt)) ^ p * zeta2) * dt := by
    rw [norm_mul, Complex.norm_real, Real.norm_of_nonneg hdt.le]
    exact mul_le_mul_of_nonneg_right (norm_fft_le w (fun j => hE.norm_others hp hP (hlo j)) k) hdt.le
  have e : fft E k * dt - a 0 = (∑' m : ℤ, if m = 0 then 0 else a m) - fft w k * dt := by
    rw [← sub_eq_zero]
    have : (fft E k + fft w k) * dt = a 0 + ∑' m : ℤ, if m = 0 then 0 else a m := key.trans hsplit
    linear_combination this
  rw [← h0, e]
  refine (norm_sub_le _ _).trans ((add_le_add hb hb2).trans (le_of_eq ?_))
  ring

end Lasy
