import Verif.Spec.Localised
import Verif.Lemmas.Fourier
import Mathlib.Analysis.Fourier.PoissonSummation
import Mathlib.Logic.Equiv.Fin.Basic
import Mathlib.Topology.Algebra.InfiniteSum.Constructions
import Mathlib.Analysis.SpecialFunctions.Gaussian.FourierTransform

/-!
# Sampling a localised pulse: aliasing and wrap-around
-/

namespace Lasy
open Spec Complex Filter MeasureTheory Asymptotics
open scoped FourierTransform

theorem Spec.Localised.nonneg {f : ℝ → ℂ} {t0 C : ℝ} {p : ℕ} (h : Localised f t0 C p) : 0 ≤ C := by
  have := (norm_nonneg _).trans (h t0)
  simpa using this

theorem Spec.Localised.mono {f : ℝ → ℂ} {t0 C : ℝ} {p q : ℕ} (h : Localised f t0 C p) (hq : q ≤ p) : Localised f t0 C q := by
  intro t
  refine (h t).trans (div_le_div_of_nonneg_left h.nonneg (by positivity) ?_)
  exact pow_le_pow_right₀ (by linarith [abs_nonneg (t - t0)]) hq

/-- behind the first neighbouring period -/
theorem Spec.Localised.far {f : ℝ → ℂ} {t0 C : ℝ} {p : ℕ} (h : Localised f t0 C p) (hp : 2 ≤ p) {P : ℝ} (hP : 0 < P) {t : ℝ}
    (ht : |t - t0| ≤ P / 2) {q : ℤ} (hq : q ≠ 0) : ‖f (t + q * P)‖ ≤ C * (2 / P) ^ p * (1 / |(q : ℝ)| ^ 2) := by
  have hq1 : (1 : ℝ) ≤ |(q : ℝ)| := by exact_mod_cast Int.one_le_abs hq
  have h1 : |(q : ℝ)| * P / 2 ≤ |t + q * P - t0| := by
    have : |(q : ℝ) * P| ≤ |t + q * P - t0| + |t - t0| := by
      have := abs_sub (t + q * P - t0) (t - t0)
      rwa [show t + q * P - t0 - (t - t0) = q * P by ring] at this
    rw [abs_mul, abs_of_pos hP] at this
    nlinarith
  have h2 : 0 < |(q : ℝ)| * P / 2 := by positivity
  refine (h _).trans ?_
  have hC := h.nonneg
  calc C / (1 + |t + q * P - t0|) ^ p ≤ C / (|(q : ℝ)| * P / 2) ^ p := by
        refine div_le_div_of_nonneg_left hC (by positivity) (pow_le_pow_left₀ h2.le (by linarith) p)
    _ = C * (2 / P) ^ p * (1 / |(q : ℝ)| ^ p) := by
        rw [div_pow, div_pow, mul_pow]
        field_simp
    _ ≤ C * (2 / P) ^ p * (1 / |(q : ℝ)| ^ 2) := by
        refine mul_le_mul_of_nonneg_left ?_ (by positivity)
        exact one_div_le_one_div_of_le (by positivity) (pow_le_pow_right₀ hq1 hp)

theorem summable_zeta2 : Summable fun m : ℤ => 1 / |(m : ℝ)| ^ 2 := by
  have := Real.summable_abs_int_rpow (b := 2) (by norm_num)
  refine this.congr fun m => ?_
  rw [Real.rpow_neg (abs_nonneg _), one_div]
  norm_cast

/-- the part of a periodic sum that comes from the other periods -/
noncomputable def others (f : ℝ → ℂ) (P t : ℝ) : ℂ := ∑' q : ℤ, if q = 0 then 0 else f (t + q * P)

/-- the periodic sum -/
noncomputable def periodised (f : ℝ → ℂ) (P t : ℝ) : ℂ := ∑' q : ℤ, f (t + q * P)

theorem Spec.Localised.summable_others {f : ℝ → ℂ} {t0 C : ℝ} {p : ℕ} (h : Localised f t0 C p) (hp : 2 ≤ p) {P : ℝ} (hP : 0 < P)
    {t : ℝ} (ht : |t - t0| ≤ P / 2) : Summable fun q : ℤ => ‖if q = 0 then 0 else f (t + q * P)‖ := by
  have hC := h.nonneg
  refine Summable.of_nonneg_of_le (fun _ => norm_nonneg _) (fun q => ?_) (summable_zeta2.mul_left (C * (2 / P) ^ p))
  split_ifs with hq
  · rw [norm_zero]; positivity
  · exact h.far hp hP ht hq

theorem Spec.Localised.tsum_others {f : ℝ → ℂ} {t0 C : ℝ} {p : ℕ} (h : Localised f t0 C p) (hp : 2 ≤ p) {P : ℝ} (hP : 0 < P)
    {t : ℝ} (ht : |t - t0| ≤ P / 2) : ∑' q : ℤ, ‖if q = 0 then 0 else f (t + q * P)‖ ≤ C * (2 / P) ^ p * zeta2 := by
  have hC := h.nonneg
  rw [zeta2, ← tsum_mul_left]
  refine (h.summable_others hp hP ht).tsum_le_tsum (fun q => ?_) (summable_zeta2.mul_left _)
  split_ifs with hq
  · rw [norm_zero]; positivity
  · exact h.far hp hP ht hq

theorem Spec.Localised.norm_others {f : ℝ → ℂ} {t0 C : ℝ} {p : ℕ} (h : Localised f t0 C p) (hp : 2 ≤ p) {P : ℝ} (hP : 0 < P)
    {t : ℝ} (ht : |t - t0| ≤ P / 2) : ‖others f P t‖ ≤ C * (2 / P) ^ p * zeta2 :=
  (norm_tsum_le_tsum_norm (h.summable_others hp hP ht)).trans (h.tsum_others hp hP ht)

theorem Spec.Localised.summable_period {f : ℝ → ℂ} {t0 C : ℝ} {p : ℕ} (h : Localised f t0 C p) (hp : 2 ≤ p) {P : ℝ} (hP : 0 < P)
    {t : ℝ} (ht : |t - t0| ≤ P / 2) : Summable fun q : ℤ => ‖f (t + q * P)‖ := by
  have h1 := h.summable_others hp hP ht
  have h2 : Summable fun q : ℤ => if q = 0 then ‖f t‖ else 0 := by
    apply summable_of_hasFiniteSupport
    refine (Set.finite_singleton (0 : ℤ)).subset fun q hq => ?_
    by_contra h0
    simp at h0
    simp [h0] at hq
  refine (h1.add h2).congr fun q => ?_
  split_ifs with hq
  · simp [hq]
  · simp

theorem Spec.Localised.periodised_eq {f : ℝ → ℂ} {t0 C : ℝ} {p : ℕ} (h : Localised f t0 C p) (hp : 2 ≤ p) {P : ℝ} (hP : 0 < P)
    {t : ℝ} (ht : |t - t0| ≤ P / 2) : periodised f P t = f t + others f P t := by
  have h1 : Summable fun q : ℤ => f (t + q * P) := (h.summable_period hp hP ht).of_norm
  rw [periodised, others, h1.tsum_eq_add_tsum_ite 0]
  simp

/-- decay in the sense needed for the summation formula -/
theorem Spec.Localised.isBigO {f : ℝ → ℂ} {t0 C : ℝ} {p : ℕ} (h : Localised f t0 C p) (hp : 2 ≤ p) {a : ℝ} (ha : 0 < a) :
    (fun x : ℝ => f (x * a)) =O[cocompact ℝ] fun x : ℝ => |x| ^ (-(2 : ℝ)) := by
  have h2 := h.mono hp
  have hC := h.nonneg
  refine IsBigO.of_bound (4 * C / a ^ 2) ?_
  filter_upwards [(tendsto_norm_cocompact_atTop (E := ℝ)).eventually_ge_atTop (2 * |t0| / a + 1)] with x hx
  rw [Real.norm_eq_abs] at hx
  have hx0 : 0 < |x| := by
    have : 0 ≤ 2 * |t0| / a := by positivity
    linarith
  have h3 : a * |x| / 2 ≤ 1 + |x * a - t0| := by
    have h4 := abs_sub_abs_le_abs_sub (x * a) t0
    rw [abs_mul, abs_of_pos ha] at h4
    have h5 : 2 * |t0| ≤ a * |x| := by
      have : 2 * |t0| / a ≤ |x| := by linarith
      rw [div_le_iff₀ ha] at this
      linarith
    nlinarith
  refine (h2 _).trans ?_
  rw [Real.norm_of_nonneg (by positivity), Real.rpow_neg (abs_nonneg _)]
  rw [show (|x| ^ (2 : ℝ)) = |x| ^ 2 by norm_cast]
  calc C / (1 + |x * a - t0|) ^ 2 ≤ C / (a * |x| / 2) ^ 2 :=
        div_le_div_of_nonneg_left hC (by positivity) (pow_le_pow_left₀ (by positivity) h3 2)
    _ = 4 * C / a ^ 2 * (|x| ^ 2)⁻¹ := by
        field_simp
        norm_num

/-- the summation formula for a pulse and its spectrum -/
theorem poisson_pulse {S : ℝ → ℂ} (hc : Continuous S) {w0 C t0 C' : ℝ} {p : ℕ} (hS : Localised S w0 C p)
    (hE : Localised (pulse S) t0 C' p) (hp : 2 ≤ p) {dt : ℝ} (hdt : 0 < dt) (lo W : ℝ) :
    ∑' n : ℤ, pulse S (lo + n * dt) * exp (I * W * (n * dt)) * dt =
      ∑' m : ℤ, S (W + m * (2 * Real.pi / dt)) * exp (-I * ((W + m * (2 * Real.pi / dt) : ℝ) : ℂ) * lo) := by
  have hpi := Real.pi_pos
  have hdc : (dt : ℂ) ≠ 0 := by exact_mod_cast hdt.ne'
  have hpc : (Real.pi : ℂ) ≠ 0 := by exact_mod_cast hpi.ne'
  set Ω : ℝ := 2 * Real.pi / dt with hΩ
  have hΩ0 : 0 < Ω := by positivity
  set f : ℝ → ℂ := fun x => S (x * Ω) * exp (-I * ((x * Ω : ℝ) : ℂ) * lo) with hf
  have hn : ∀ x : ℝ, ‖exp (-I * ((x * Ω : ℝ) : ℂ) * lo)‖ = 1 := by
    intro x
    rw [show -I * ((x * Ω : ℝ) : ℂ) * lo = ((-(x * Ω * lo) : ℝ) : ℂ) * I by push_cast; ring, norm_exp_ofReal_mul_I]
  have hfc : Continuous f := by
    simp only [hf]
    fun_prop
  have hfO : f =O[cocompact ℝ] fun x : ℝ => |x| ^ (-(2 : ℝ)) := by
    have := hS.isBigO hp hΩ0
    rw [← isBigO_norm_left] at this ⊢
    refine this.congr_left fun x => ?_
    simp only [hf, norm_mul, hn, mul_one]
  have hF : ∀ ξ : ℝ, 𝓕 f ξ = dt * pulse S (lo + ξ * dt) := by
    intro ξ
    rw [Real.fourier_eq']
    have h1 : ∀ v : ℝ, exp (((-2 * Real.pi * inner ℝ v ξ : ℝ) : ℂ) * I) • f v =
        (fun w : ℝ => S w * exp (-I * w * ((lo + ξ * dt : ℝ) : ℂ))) (v * Ω) := by
      intro v
      simp only [hf, smul_eq_mul]
      rw [mul_comm, mul_assoc, ← Complex.exp_add]
      congr 2
      simp only [hΩ, RCLike.inner_apply, conj_trivial]
      push_cast
      field_simp
      ring
    simp only [h1]
    rw [Measure.integral_comp_mul_right (fun w : ℝ => S w * exp (-I * w * ((lo + ξ * dt : ℝ) : ℂ))) Ω, pulse]
    rw [abs_of_pos (by positivity), Complex.real_smul, ← mul_assoc]
    congr 1
    simp only [hΩ]
    push_cast
    field_simp
  have hFO : (𝓕 f) =O[cocompact ℝ] fun x : ℝ => |x| ^ (-(2 : ℝ)) := by
    have h1 : Localised (fun t => dt * pulse S (lo + t)) (t0 - lo) (dt * C') p := by
      intro t
      rw [norm_mul, Complex.norm_real, Real.norm_of_nonneg hdt.le, mul_div_assoc]
      refine mul_le_mul_of_nonneg_left ?_ hdt.le
      have := hE (lo + t)
      rwa [show lo + t - t0 = t - (t0 - lo) by ring] at this
    have := h1.isBigO hp hdt
    refine this.congr_left fun x => ?_
    rw [hF]
  have key := Real.tsum_eq_tsum_fourier_of_rpow_decay hfc (b := 2) (by norm_num) hfO hFO (W / Ω)
  have e1 : ∀ m : ℤ, f (W / Ω + m) = S (W + m * Ω) * exp (-I * ((W + m * Ω : ℝ) : ℂ) * lo) := by
    intro m
    simp only [hf, add_mul, div_mul_cancel₀ _ hΩ0.ne']
  have e2 : ∀ n : ℤ, 𝓕 f n * fourier n ((W / Ω : ℝ) : UnitAddCircle) =
      pulse S (lo + n * dt) * exp (I * W * (n * dt)) * dt := by
    intro n
    rw [hF, fourier_coe_apply]
    rw [show (2 * Real.pi * I * n * ((W / Ω : ℝ) : ℂ) / ((1 : ℝ) : ℂ)) = I * W * (n * dt) by
      simp only [hΩ]; push_cast; field_simp]
    ring
  simp only [e1, e2] at key
  exact key.symm

/-- the frequencies of the grid -/
theorem exp_grid_freq {N : ℕ} (hN : N ≠ 0) {dt : ℝ} (hdt : 0 < dt) (k : Fin N) (a : ℤ) :
    exp (I * ((2 * Real.pi * fftfreq N dt k : ℝ) : ℂ) * (a * dt)) = chr N (a * (k : ℕ)) := by
  have hdc : (dt : ℂ) ≠ 0 := by exact_mod_cast hdt.ne'
  have hNc : (N : ℂ) ≠ 0 := by exact_mod_cast hN
  rw [chr_periodic hN (b := a * fftfreqInt N k) (by
    rw [← mul_sub]
    have : (N : ℤ) ∣ ((k : ℕ) : ℤ) - fftfreqInt N k := by
      unfold fftfreqInt
      split_ifs
      · simp
      · exact ⟨1, by ring⟩
    exact this.mul_left a)]
  unfold chr
  congr 1
  simp only [fftfreq]
  push_cast
  field_simp

/-- the discrete spectrum of the periodic sum of a pulse is the periodic sum of its spectrum -/
theorem ifft_periodised {S : ℝ → ℂ} (hc : Continuous S) {w0 C t0 C' : ℝ} {p : ℕ} (hS : Localised S w0 C p)
    (hE : Localised (pulse S) t0 C' p) (hp : 2 ≤ p) {dt : ℝ} (hdt : 0 < dt) {N : ℕ} (hN : N ≠ 0) (lo : ℝ)
    (hlo : ∀ j : Fin N, |lo + (j : ℕ) * dt - t0| ≤ N * dt / 2) (k : Fin N) :
    ifft (fun j : Fin N => periodised (pulse S) (N * dt) (lo + (j : ℕ) * dt)) k = (1 / (N * dt) : ℝ) *
      ∑' m : ℤ, S (2 * Real.pi * fftfreq N dt k + m * (2 * Real.pi / dt)) *
        exp (-I * ((2 * Real.pi * fftfreq N dt k + m * (2 * Real.pi / dt) : ℝ) : ℂ) * lo) := by
  have hN0 : (0 : ℝ) < N := by exact_mod_cast Nat.pos_of_ne_zero hN
  have hdc : (dt : ℂ) ≠ 0 := by exact_mod_cast hdt.ne'
  have hNc : (N : ℂ) ≠ 0 := by exact_mod_cast hN
  have : NeZero N := ⟨hN⟩
  rw [← poisson_pulse hc hS hE hp hdt lo, ifft_eq_chr]
  set g : ℤ → ℂ := fun n => pulse S (lo + n * dt) * chr N (n * (k : ℕ)) with hg
  have h1 : ∀ j : Fin N, Summable fun q : ℤ => ‖g (q * N + (j : ℕ))‖ := by
    intro j
    refine (hE.summable_period hp (mul_pos hN0 hdt) (hlo j)).congr fun q => ?_
    simp only [hg, norm_mul, norm_chr, mul_one]
    congr 2
    push_cast
    ring
  have h2 : Summable fun x : ℤ × Fin N => ‖g ((Int.divModEquiv N).symm x)‖ := by
    refine (Equiv.prodComm (Fin N) ℤ).summable_iff.1 ((summable_prod_of_nonneg fun _ => norm_nonneg _).2 ?_)
    refine ⟨fun j => ?_, Summable.of_finite⟩
    refine (h1 j).congr fun q => ?_
    simp [Int.divModEquiv]
  have h3 : ∑' n : ℤ, g n = ∑ j : Fin N, ∑' q : ℤ, g (q * N + (j : ℕ)) := by
    rw [← (Int.divModEquiv N).symm.tsum_eq g, ← (Equiv.prodComm (Fin N) ℤ).tsum_eq, Summable.tsum_prod, tsum_fintype]
    · refine Finset.sum_congr rfl fun j _ => tsum_congr fun q => ?_
      simp [Int.divModEquiv]
    · exact (Equiv.prodComm (Fin N) ℤ).summable_iff.2 h2.of_norm
  have h4 : ∑' n : ℤ, pulse S (lo + n * dt) * exp (I * ((2 * Real.pi * fftfreq N dt k : ℝ) : ℂ) * (n * dt)) * dt =
      dt * ∑' n : ℤ, g n := by
    rw [← tsum_mul_left]
    refine tsum_congr fun n => ?_
    rw [exp_grid_freq hN hdt]
    simp only [hg]
    ring
  rw [h4, h3]
  have h5 : ∀ j : Fin N, periodised (pulse S) (N * dt) (lo + (j : ℕ) * dt) * chr N ((j : ℕ) * (k : ℕ)) =
      ∑' q : ℤ, g (q * N + (j : ℕ)) := by
    intro j
    rw [periodised, ← tsum_mul_right]
    refine tsum_congr fun q => ?_
    simp only [hg]
    congr 1
    · congr 1
      push_cast
      ring
    · refine chr_periodic hN ⟨-q * (k : ℕ), ?_⟩
      ring
  have h6 : ∀ j : Fin N, chr N (((k : ℕ) : ℤ) * (j : ℕ)) = chr N ((j : ℕ) * (k : ℕ)) := fun j => by rw [mul_comm]
  simp only [← h5, h6]
  push_cast
  field_simp

theorem abs_grid_freq {N : ℕ} (hN : N ≠ 0) {dt : ℝ} (hdt : 0 < dt) (k : Fin N) :
    |2 * Real.pi * fftfreq N dt k - 0| ≤ 2 * Real.pi / dt / 2 := by
  have hN0 : (0 : ℝ) < N := by exact_mod_cast Nat.pos_of_ne_zero hN
  have hpi := Real.pi_pos
  have h1 : |(fftfreqInt N k : ℝ)| ≤ N / 2 := by
    have : |2 * fftfreqInt N k| ≤ N := by
      have := k.2
      unfold fftfreqInt
      rw [abs_le]
      split_ifs <;> constructor <;> omega
    have h2 : |2 * (fftfreqInt N k : ℝ)| ≤ N := by exact_mod_cast this
    rw [abs_mul, abs_two] at h2
    linarith
  rw [sub_zero, fftfreq, abs_mul, abs_div, abs_of_pos (by positivity : 0 < 2 * Real.pi), abs_of_pos (mul_pos hN0 hdt)]
  rw [show 2 * Real.pi / dt / 2 = 2 * Real.pi * (N / 2 / (N * dt)) by field_simp]
  gcongr

theorem norm_sq_add3 (a b d : ℂ) : ‖a + b + d‖ ^ 2 ≤ 3 * (‖a‖ ^ 2 + ‖b‖ ^ 2 + ‖d‖ ^ 2) := by
  have h := norm_add₃_le (a := a) (b := b) (c := d)
  have h0 := norm_nonneg (a + b + d)
  nlinarith [sq_nonneg (‖a‖ - ‖b‖), sq_nonneg (‖b‖ - ‖d‖), sq_nonneg (‖a‖ - ‖d‖), norm_nonneg a, norm_nonneg b, norm_nonneg d,
    pow_le_pow_left₀ h0 h 2]

/-- **The error of a filter on a grid.** A pulse `E` with spectrum `S` is sampled at `N` times, multiplied by `T` in the
frequencies of the grid and transformed back. The samples of the pulse with the spectrum `T S` are what should come out;
the mean square of the difference is bounded by the wrap-around of both pulses and the aliasing of the spectrum. -/
theorem filter_error {S T : ℝ → ℂ} (hc : Continuous S) (hc' : Continuous fun W => T W * S W) {M : ℝ} (hM : ∀ W, ‖T W‖ ≤ M)
    {t0 C1 C2 C3 : ℝ} {p : ℕ} (hp : 2 ≤ p) (hS : Localised S 0 C1 p) (hE : Localised (pulse S) t0 C2 p)
    (hE' : Localised (pulse fun W => T W * S W) t0 C3 p) {dt : ℝ} (hdt : 0 < dt) {N : ℕ} (hN : N ≠ 0) (lo : ℝ)
    (hlo : ∀ j : Fin N, |lo + (j : ℕ) * dt - t0| ≤ N * dt / 2) :
    dt * ∑ j : Fin N, ‖fft (fun k : Fin N => ifft (fun j : Fin N => pulse S (lo + (j : ℕ) * dt)) k * T (2 * Real.pi * fftfreq N dt k)) j -
        pulse (fun W => T W * S W) (lo + (j : ℕ) * dt)‖ ^ 2 ≤
      3 * zeta2 ^ 2 * ((M ^ 2 * C2 ^ 2 + C3 ^ 2) * (N * dt) * ((2 / (N * dt)) ^ p) ^ 2 +
        4 * M ^ 2 * C1 ^ 2 / dt * ((dt / Real.pi) ^ p) ^ 2) := by
  have hN0 : (0 : ℝ) < N := by exact_mod_cast Nat.pos_of_ne_zero hN
  have hpi := Real.pi_pos
  have hM0 : 0 ≤ M := (norm_nonneg _).trans (hM 0)
  set P : ℝ := N * dt with hPd
  have hP : 0 < P := mul_pos hN0 hdt
  set E : Fin N → ℂ := fun j => pulse S (lo + (j : ℕ) * dt) with hEd
  set E' : Fin N → ℂ := fun j => pulse (fun W => T W * S W) (lo + (j : ℕ) * dt) with hEd'
  set w : Fin N → ℂ := fun j => others (pulse S) P (lo + (j : ℕ) * dt) with hw
  set w' : Fin N → ℂ := fun j => others (pulse fun W => T W * S W) P (lo + (j : ℕ) * dt) with hw'
  set τ : Fin N → ℂ := fun k => T (2 * Real.pi * fftfreq N dt k) with hτ
  have hper : ∀ j : Fin N, periodised (pulse S) P (lo + (j : ℕ) * dt) = E j + w j := fun j => hE.periodised_eq hp hP (hlo j)
  have hper' : ∀ j : Fin N, periodised (pulse fun W => T W * S W) P (lo + (j : ℕ) * dt) = E' j + w' j :=
    fun j => hE'.periodised_eq hp hP (hlo j)
  have hS' : Localised (fun W => T W * S W) 0 (M * C1) p := by
    intro W
    rw [norm_mul, mul_div_assoc]
    exact mul_le_mul (hM W) (hS W) (norm_nonneg _) hM0
  -- aliasing
  set d : Fin N → ℂ := fun k => ifft (fun j => E j + w j) k * τ k - ifft (fun j => E' j + w' j) k with hd
  have hdn : ∀ k, ‖d k‖ ≤ 1 / P * (2 * M * (C1 * (dt / Real.pi) ^ p * zeta2)) := by
    intro k
    have hk := abs_grid_freq hN hdt k
    have hΩ : 0 < 2 * Real.pi / dt := by positivity
    have a1 := ifft_periodised hc hS hE hp hdt hN lo hlo k
    have a2 := ifft_periodised hc' hS' hE' hp hdt hN lo hlo k
    simp only [← hPd, hper] at a1
    simp only [← hPd, hper'] at a2
    simp only [hd, a1, a2]
    set Wk : ℝ := 2 * Real.pi * fftfreq N dt k with hWk
    have hn : ∀ x : ℝ, ‖exp (-I * (x : ℂ) * lo)‖ = 1 := by
      intro x
      rw [show -I * (x : ℂ) * lo = ((-(x * lo) : ℝ) : ℂ) * I by push_cast; ring, norm_exp_ofReal_mul_I]
    have s1 : Summable fun m : ℤ => S (Wk + m * (2 * Real.pi / dt)) * exp (-I * ((Wk + m * (2 * Real.pi / dt) : ℝ) : ℂ) * lo) := by
      refine Summable.of_norm ((hS.summable_period hp hΩ hk).congr fun m => ?_)
      rw [norm_mul, hn, mul_one]
    have s2 : Summable fun m : ℤ => T (Wk + m * (2 * Real.pi / dt)) * S (Wk + m * (2 * Real.pi / dt)) *
        exp (-I * ((Wk + m * (2 * Real.pi / dt) : ℝ) : ℂ) * lo) := by
      refine Summable.of_norm ((hS'.summable_period hp hΩ hk).congr fun m => ?_)
      rw [norm_mul _ (exp _), hn, mul_one]
    rw [mul_assoc (((1 / P : ℝ) : ℂ)), ← mul_sub, ← tsum_mul_right, ← (s1.mul_right (τ k)).tsum_sub s2, norm_mul, Complex.norm_real,
      Real.norm_of_nonneg (by positivity)]
    refine mul_le_mul_of_nonneg_left ?_ (by positivity)
    have hb : ∀ m : ℤ, ‖S (Wk + m * (2 * Real.pi / dt)) * exp (-I * ((Wk + m * (2 * Real.pi / dt) : ℝ) : ℂ) * lo) * τ k -
        T (Wk + m * (2 * Real.pi / dt)) * S (Wk + m * (2 * Real.pi / dt)) *
          exp (-I * ((Wk + m * (2 * Real.pi / dt) : ℝ) : ℂ) * lo)‖ ≤
        2 * M * ‖if m = 0 then 0 else S (Wk + m * (2 * Real.pi / dt))‖ := by
      intro m
      split_ifs with hm
      · subst hm
        simp only [hτ, Int.cast_zero, zero_mul, add_zero, norm_zero, mul_zero]
        rw [show ∀ a b d : ℂ, a * b * d - d * a * b = 0 by intros; ring, norm_zero]
      · rw [show ∀ a b d e : ℂ, a * b * d - e * a * b = (d - e) * (a * b) by intros; ring, norm_mul, norm_mul, hn, mul_one]
        refine mul_le_mul_of_nonneg_right ?_ (norm_nonneg _)
        refine (norm_sub_le _ _).trans ?_
        linarith [hM Wk, hM (Wk + m * (2 * Real.pi / dt))]
    have s3 := (hS.summable_others hp hΩ hk).mul_left (2 * M)
    have s4 := Summable.of_nonneg_of_le (fun _ => norm_nonneg _) hb s3
    refine (norm_tsum_le_tsum_norm s4).trans ((s4.tsum_le_tsum hb s3).trans ?_)
    rw [tsum_mul_left]
    refine mul_le_mul_of_nonneg_left ?_ (by positivity)
    have := hS.tsum_others hp hΩ hk
    rwa [show 2 / (2 * Real.pi / dt) = dt / Real.pi by field_simp] at this
  have hsplit : ∀ j, fft (fun k => ifft E k * τ k) j - E' j =
      fft d j + w' j + -fft (fun k => ifft w k * τ k) j := by
    intro j
    have e1 : fft (ifft fun j => E' j + w' j) j = E' j + w' j := congrFun (fft_ifft _) j
    have e2 : d = fun k => ifft E k * τ k + (ifft w k * τ k + -1 * ifft (fun j => E' j + w' j) k) := by
      funext k
      simp only [hd, ifft_add]
      ring
    rw [e2, fft_add, fft_add, fft_smul]
    simp only [e1]
    ring
  have b1 : ∑ j, ‖fft d j‖ ^ 2 ≤ N * (N * (1 / P * (2 * M * (C1 * (dt / Real.pi) ^ p * zeta2))) ^ 2) := by
    rw [parseval_fft]
    refine mul_le_mul_of_nonneg_left ?_ hN0.le
    calc ∑ k, ‖d k‖ ^ 2 ≤ ∑ _k : Fin N, (1 / P * (2 * M * (C1 * (dt / Real.pi) ^ p * zeta2))) ^ 2 :=
          Finset.sum_le_sum fun k _ => pow_le_pow_left₀ (norm_nonneg _) (hdn k) 2
      _ = _ := by simp
  have b2 : ∑ j, ‖w' j‖ ^ 2 ≤ N * (C3 * (2 / P) ^ p * zeta2) ^ 2 := by
    calc ∑ j, ‖w' j‖ ^ 2 ≤ ∑ _j : Fin N, (C3 * (2 / P) ^ p * zeta2) ^ 2 :=
          Finset.sum_le_sum fun j _ => pow_le_pow_left₀ (norm_nonneg _) (hE'.norm_others hp hP (hlo j)) 2
      _ = _ := by simp
  have b3 : ∑ j, ‖-fft (fun k => ifft w k * τ k) j‖ ^ 2 ≤ M ^ 2 * (N * (C2 * (2 / P) ^ p * zeta2) ^ 2) := by
    simp only [norm_neg]
    rw [parseval_fft]
    calc N * ∑ k, ‖ifft w k * τ k‖ ^ 2 ≤ N * ∑ k, M ^ 2 * ‖ifft w k‖ ^ 2 := by
          refine mul_le_mul_of_nonneg_left (Finset.sum_le_sum fun k _ => ?_) hN0.le
          rw [norm_mul, mul_pow, mul_comm]
          exact mul_le_mul_of_nonneg_right (pow_le_pow_left₀ (norm_nonneg _) (hM _) 2) (by positivity)
      _ = M ^ 2 * ∑ j, ‖w j‖ ^ 2 := by
          rw [← Finset.mul_sum, parseval_ifft w]
          ring
      _ ≤ M ^ 2 * ∑ _j : Fin N, (C2 * (2 / P) ^ p * zeta2) ^ 2 := by
          refine mul_le_mul_of_nonneg_left (Finset.sum_le_sum fun j _ => ?_) (by positivity)
          exact pow_le_pow_left₀ (norm_nonneg _) (hE.norm_others hp hP (hlo j)) 2
      _ = _ := by simp
  change dt * ∑ j, ‖fft (fun k => ifft E k * τ k) j - E' j‖ ^ 2 ≤ _
  simp only [hsplit]
  calc dt * ∑ j, ‖fft d j + w' j + -fft (fun k => ifft w k * τ k) j‖ ^ 2
      ≤ dt * ∑ j, 3 * (‖fft d j‖ ^ 2 + ‖w' j‖ ^ 2 + ‖-fft (fun k => ifft w k * τ k) j‖ ^ 2) :=
        mul_le_mul_of_nonneg_left (Finset.sum_le_sum fun j _ => norm_sq_add3 _ _ _) hdt.le
    _ = dt * (3 * (∑ j, ‖fft d j‖ ^ 2 + ∑ j, ‖w' j‖ ^ 2 + ∑ j, ‖-fft (fun k => ifft w k * τ k) j‖ ^ 2)) := by
        rw [← Finset.mul_sum, Finset.sum_add_distrib, Finset.sum_add_distrib]
    _ ≤ dt * (3 * (N * (N * (1 / P * (2 * M * (C1 * (dt / Real.pi) ^ p * zeta2))) ^ 2) + N * (C3 * (2 / P) ^ p * zeta2) ^ 2 +
          M ^ 2 * (N * (C2 * (2 / P) ^ p * zeta2) ^ 2))) := by gcongr
    _ = _ := by
        generalize (2 / P) ^ p = A
        generalize (dt / Real.pi) ^ p = B
        rw [hPd]
        field_simp
        ring

end Lasy
