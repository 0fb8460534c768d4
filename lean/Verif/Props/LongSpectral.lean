import Verif.Props.LongFromData

/-!
# Longitudinal profiles from spectral data (C80, C81, C82)
-/

namespace Lasy
open Phys Complex

theorem norm_sampleField (i p : ℝ) : ‖sampleField i p‖ = Real.sqrt i := by
  unfold sampleField
  rw [norm_mul, Complex.norm_real, Real.norm_of_nonneg (Real.sqrt_nonneg _), Complex.norm_exp]
  simp

/-! ## the discrete transform with both shifts -/

theorem sum_wrap {N : ℕ} (hN : 0 < N) (s : ℤ) (f : Fin N → ℂ) : ∑ i : Fin N, f (wrapIndex hN ((i : ℕ) + s)) = ∑ i, f i := by
  refine Fintype.sum_equiv (⟨fun i => wrapIndex hN ((i : ℕ) + s), fun i => wrapIndex hN ((i : ℕ) - s), ?_, ?_⟩ : Fin N ≃ Fin N) _ _ ?_
  · intro i
    refine wrapIndex_of hN ?_
    rw [wrapIndex_val, Int.emod_sub_emod, add_sub_cancel_right]
    exact emod_fin i
  · intro i
    refine wrapIndex_of hN ?_
    rw [wrapIndex_val, Int.emod_add_emod, sub_add_cancel]
    exact emod_fin i
  · intro i; rfl

theorem shifted_ifft {N : ℕ} (x : Fin N → ℂ) (k : Fin N) :
    fftshift (ifft (ifftshift x)) k =
      (∑ j : Fin N, x j * chr N (((j : ℕ) - (N / 2 : ℕ)) * ((k : ℕ) - (N / 2 : ℕ)))) / N := by
  have hN : 0 < N := by have := k.2; omega
  unfold fftshift roll
  rw [ifft_eq_chr]
  congr 1
  rw [← sum_wrap hN ((N / 2 : ℕ) : ℤ) fun j => x j * chr N (((j : ℕ) - (N / 2 : ℕ)) * ((k : ℕ) - (N / 2 : ℕ)))]
  refine Finset.sum_congr rfl fun j _ => ?_
  unfold ifftshift roll
  rw [sub_neg_eq_add]
  congr 1
  apply chr_periodic (by omega)
  rw [wrapIndex_val, wrapIndex_val]
  have d1 : (N : ℤ) ∣ ((k : ℕ) - (N / 2 : ℕ) : ℤ) % N - ((k : ℕ) - (N / 2 : ℕ) : ℤ) := 
    ⟨-(((k : ℕ) - (N / 2 : ℕ) : ℤ) / N), by rw [Int.emod_def]; ring⟩
  have d2 : (N : ℤ) ∣ ((j : ℕ) + (N / 2 : ℕ) : ℤ) % N - ((j : ℕ) + (N / 2 : ℕ) : ℤ) := 
    ⟨-(((j : ℕ) + (N / 2 : ℕ) : ℤ) / N), by rw [Int.emod_def]; ring⟩
  have e : (((k : ℕ) - (N / 2 : ℕ) : ℤ) % N) * (j : ℕ) -
      (((j : ℕ) + (N / 2 : ℕ) : ℤ) % N - (N / 2 : ℕ)) * ((k : ℕ) - (N / 2 : ℕ)) =
      (j : ℕ) * (((k : ℕ) - (N / 2 : ℕ) : ℤ) % N - ((k : ℕ) - (N / 2 : ℕ) : ℤ)) -
      (((j : ℕ) + (N / 2 : ℕ) : ℤ) % N - ((j : ℕ) + (N / 2 : ℕ) : ℤ)) * ((k : ℕ) - (N / 2 : ℕ)) := by ring
  rw [e]
  exact dvd_sub (d1.mul_left _) (d2.mul_right _)

theorem temporalField_eq {N : ℕ} (dt : ℝ) (fi fp : Fin N → ℝ) (k : Fin N) :
    temporalField dt fi fp k =
      (∑ j : Fin N, sampleField (fi j) (fp j) * chr N (((j : ℕ) - (N / 2 : ℕ)) * ((k : ℕ) - (N / 2 : ℕ)))) / N / dt := by
  unfold temporalField
  rw [shifted_ifft]
  rfl

theorem spectralTime_eq (dt : ℝ) (N : ℕ) (k : Fin N) : spectralTime dt N k = ((k : ℕ) - (N : ℝ) / 2) * dt := by
  unfold spectralTime linspace
  by_cases h : N = 1
  · subst h
    have : k = 0 := Subsingleton.elim _ _
    subst this
    simp
    ring
  · have hk := k.2
    have : (N : ℝ) - 1 ≠ 0 := by
      intro hc
      apply h
      have : (N : ℝ) = 1 := by linarith
      exact_mod_cast this
    field_simp
    ring

theorem ascending_spectralTime {dt : ℝ} (h : 0 < dt) (N : ℕ) : Ascending (spectralTime dt N) := by
  intro i j hij
  rw [spectralTime_eq, spectralTime_eq]
  have : ((i : ℕ) : ℝ) < (j : ℕ) := by exact_mod_cast hij
  nlinarith

/-! ## intensity, phase and cut -/

theorem le_npMax {N : ℕ} (h : 0 < N) (x : Fin N → ℝ) (k : Fin N) : x k ≤ npMax h x :=
  Finset.le_sup' x (Finset.mem_univ k)

theorem npMax_mem {N : ℕ} (h : 0 < N) (x : Fin N → ℝ) : ∃ k, npMax h x = x k := by
  obtain ⟨k, -, hk⟩ := Finset.exists_mem_eq_sup' (s := Finset.univ) ⟨⟨0, h⟩, Finset.mem_univ _⟩ x
  exact ⟨k, hk⟩

/-- the constructed profile is the field, scaled to maximum one and rotated to phase zero at the sample nearest to
time zero -/
theorem finishSpectral_spec {N : ℕ} {time : Fin N → ℝ} (hasc : Ascending time) {field : Fin N → ℂ} (hne : ∃ k, field k ≠ 0)
    (cwl lo hi : ℝ) :
    ∃ (a b z : Fin N) (p : LongProf) (κ : ℂ), NearestSample time lo a ∧ NearestSample time hi b ∧ NearestSample time 0 z ∧
      finishSpectral time field cwl lo hi = .ok p ∧ p.lambda0 = cwl ∧ κ ≠ 0 ∧ (∀ k, ‖κ * field k‖ ≤ 1) ∧
      (∃ k, ‖κ * field k‖ = 1) ∧ κ * field z = ‖κ * field z‖ ∧
      (∀ k, a ≤ k → k < b → p.evaluate (time k) = .ok (κ * field k)) ∧
      (∀ (k : ℕ) (h : k + 1 < N), (a : ℕ) ≤ k → k + 1 < (b : ℕ) →
        ∃ v, p.evaluate ((time ⟨k, by omega⟩ + time ⟨k + 1, h⟩) / 2) = .ok v ∧
          ‖v‖ ^ 2 = (‖κ * field ⟨k, by omega⟩‖ ^ 2 + ‖κ * field ⟨k + 1, h⟩‖ ^ 2) / 2) ∧
      ∀ t v, p.evaluate t = .ok v → ‖v‖ ≤ 1 := by
  obtain ⟨k0, hk0⟩ := hne
  have hN : 0 < N := by have := k0.2; omega
  set M := npMax hN fun j => ‖field j‖ ^ 2 with hM
  have hle : ∀ k, ‖field k‖ ^ 2 ≤ M := le_npMax hN fun j => ‖field j‖ ^ 2
  have hMpos : 0 < M := lt_of_lt_of_le (by positivity) (hle k0)
  obtain ⟨m, hm⟩ := npMax_mem hN fun j => ‖field j‖ ^ 2
  obtain ⟨z, ez, hz⟩ := argmin_ok hN fun k => |time k|
  set ph0 : Fin N → ℝ := unwrap fun k => -angle (field k) with hph0
  set inten : Fin N → ℝ := fun k => ‖field k‖ ^ 2 / M with hinten
  obtain ⟨a, b, ha, hb, e⟩ := cropLong_eq hN time inten (fun k => ph0 k - ph0 z) cwl lo hi
  set κ : ℂ := exp (I * ph0 z) / Real.sqrt M with hκ
  have hsM : (0 : ℝ) < Real.sqrt M := Real.sqrt_pos.mpr hMpos
  have hsM' : (Real.sqrt M : ℂ) ≠ 0 := by exact_mod_cast hsM.ne'
  have hnorm : ∀ k, ‖κ * field k‖ = ‖field k‖ / Real.sqrt M := by
    intro k
    rw [hκ, norm_mul, norm_div, Complex.norm_real, Real.norm_of_nonneg hsM.le, mul_comm I, Complex.norm_exp_ofReal_mul_I]
    ring
  have hnorm2 : ∀ k, ‖κ * field k‖ ^ 2 = inten k := by
    intro k
    rw [hnorm, div_pow, Real.sq_sqrt hMpos.le]
  have hsample : ∀ k, sampleField (inten k) (ph0 k - ph0 z) = κ * field k := by
    intro k
    unfold sampleField
    rw [← hnorm2, Real.sqrt_sq (norm_nonneg _), hnorm]
    have h1 : exp (-I * ((ph0 k - ph0 z : ℝ) : ℂ)) = exp (I * ph0 z) * exp (-(I * ph0 k)) := by
      rw [← Complex.exp_add]; congr 1; push_cast; ring
    have h2 : exp (-(I * (ph0 k : ℂ))) = exp (arg (field k) * I) := by
      rw [hph0, Complex.exp_neg, exp_unwrap, ← Complex.exp_neg]
      congr 1
      unfold angle
      push_cast
      ring
    have h3 := Complex.norm_mul_exp_arg_mul_I (field k)
    rw [h1, h2, hκ]
    push_cast
    calc (‖field k‖ : ℂ) / (Real.sqrt M : ℂ) * (exp (I * ph0 z) * exp (arg (field k) * I))
        = exp (I * ph0 z) / Real.sqrt M * (‖field k‖ * exp (arg (field k) * I)) := by ring
      _ = _ := by rw [h3]
  have hi0 : ∀ k, 0 ≤ inten k ∧ inten k ≤ 1 := fun k =>
    ⟨by positivity, by rw [hinten]; simp only; rw [div_le_one hMpos]; exact hle k⟩
  refine ⟨a, b, z, ⟨b - a, slice1 time a b b.2.le, slice1 inten a b b.2.le, slice1 (fun k => ph0 k - ph0 z) a b b.2.le, cwl⟩,
    κ, ha, hb, ?_, ?_, rfl, ?_, ?_, ⟨m, ?_⟩, ?_, ?_, ?_, ?_⟩
  · unfold NearestSample; simpa using hz
  · unfold finishSpectral
    rw [dif_pos hN]
    rw [if_neg hMpos.ne', ez]
    exact e
  · exact div_ne_zero (Complex.exp_ne_zero _) hsM'
  · intro k
    rw [hnorm, div_le_one hsM]
    exact Real.le_sqrt_of_sq_le (hle k)
  · rw [hnorm]
    have : ‖field m‖ = Real.sqrt M := by
      rw [hM, hm]; exact (Real.sqrt_sq (norm_nonneg _)).symm
    rw [this, div_self hsM.ne']
  · rw [← hsample, norm_sampleField]
    unfold sampleField
    simp
  · intro k h1 h2
    rw [crop_sample inten _ cwl hasc h1 h2, hsample]
  · intro k h h1 h2
    have hs : Ascending (slice1 time a b b.2.le) := ascending_slice1 hasc a b b.2.le
    have hlt : time ⟨k, by omega⟩ < time ⟨k + 1, h⟩ := hasc _ _ (by rw [Fin.lt_def]; simp)
    have key : ∀ f : Fin N → ℝ, npInterp (slice1 time a b b.2.le) (slice1 f a b b.2.le)
        ((time ⟨k, by omega⟩ + time ⟨k + 1, h⟩) / 2) = .ok ((f ⟨k, by omega⟩ + f ⟨k + 1, h⟩) / 2) := by
      intro f
      have e1 : ∀ g : Fin N → ℝ, slice1 g a b b.2.le ⟨k - a, by omega⟩ = g ⟨k, by omega⟩ := by
        intro g; unfold slice1; congr 1; exact Fin.ext (by simp; omega)
      have e2 : ∀ g : Fin N → ℝ, slice1 g a b b.2.le ⟨k - a + 1, by omega⟩ = g ⟨k + 1, h⟩ := by
        intro g; unfold slice1; congr 1; exact Fin.ext (by simp; omega)
      have := npInterp_between hs (slice1 f a b b.2.le) (k := k - a) (by omega)
        (x := (time ⟨k, by omega⟩ + time ⟨k + 1, h⟩) / 2) (by rw [e1]; linarith) (by rw [e2]; linarith)
      rw [this, e1, e1, e2, e2]
      congr 1
      have : time ⟨k + 1, h⟩ - time ⟨k, by omega⟩ ≠ 0 := by linarith
      field_simp
      ring
    refine ⟨_, evaluate_of (key inten) (key fun k => ph0 k - ph0 z), ?_⟩
    rw [norm_sampleField, Real.sq_sqrt (by have := hi0 ⟨k, by omega⟩; have := hi0 ⟨k + 1, h⟩; linarith), hnorm2, hnorm2]
  · intro t v hv
    unfold LongProf.evaluate at hv
    dsimp only at hv
    rcases h1 : npInterp (slice1 time a b b.2.le) (slice1 inten a b b.2.le) t with er | i
    · rw [h1] at hv; exact absurd hv (by simp [bind, Except.bind])
    · rcases h2 : npInterp (slice1 time a b b.2.le) (slice1 (fun k => ph0 k - ph0 z) a b b.2.le) t with er | p
      · rw [h1, h2] at hv; exact absurd hv (by simp [bind, Except.bind])
      · rw [h1, h2] at hv
        have hv : sampleField i p = v := by injection hv
        rw [← hv, norm_sampleField]
        have := npInterp_bounds (ascending_slice1 hasc a b b.2.le) (lo := 0) (hi := 1)
          (fun k => hi0 ⟨a + k, by have := k.2; omega⟩) h1
        exact Real.sqrt_le_one.mpr this.2

theorem finishSpectral_inv {N : ℕ} {time : Fin N → ℝ} {field : Fin N → ℂ} {cwl lo hi : ℝ} {p : LongProf}
    (h : finishSpectral time field cwl lo hi = .ok p) : ∃ k, field k ≠ 0 := by
  unfold finishSpectral at h
  split at h
  · rename_i hN
    split at h
    · exact absurd h (by simp)
    · rename_i hM
      by_contra hc
      push Not at hc
      apply hM
      obtain ⟨k, hk⟩ := npMax_mem hN fun j => ‖field j‖ ^ 2
      rw [hk]
      simp [hc]
  · exact absurd h (by simp)

variable [Phys] {n : ℕ}

/-! ## specification -/

/-- the mean wavelength of a spectrum -/
noncomputable def meanWavelength (w inten : Fin n → ℝ) : ℝ := (∑ k, inten k * w k) / ∑ k, inten k

/-- the number of samples in time: the sampling frequency over the spacing of the data, in frequency, next to the
sample nearest to the mean wavelength, rounded towards zero -/
def SpectralPoints (w inten : Fin n → ℝ) (dt : ℝ) (N : ℕ) : Prop :=
  ∃ (i : Fin n) (h : (i : ℕ) + 1 < n), NearestSample w (meanWavelength w inten) i ∧
    N = (pyInt (1 / dt / |c / w i - c / w ⟨i + 1, h⟩|)).toNat

/-- the frequencies of the `N` samples: equally spaced over the sampling frequency, ends included -/
noncomputable def gridFrequency (w inten : Fin n → ℝ) (dt : ℝ) (N : ℕ) (j : Fin N) : ℝ :=
  c / meanWavelength w inten - 1 / dt / 2 + (j : ℕ) * (1 / dt / (N - 1))

/-- data given at the wavelengths `w`, interpolated at frequency `f`; zero outside the data -/
noncomputable def dataAt (w v : Fin n → ℝ) (f : ℝ) : ℝ := npInterpZero (fun k => c / w k.rev) (fun k => v k.rev) f

/-! ## what the constructor does -/

theorem longFromWavelength_eq {w inten phase : Fin n → ℝ} {dt : ℝ} (hdt : dt ≠ 0) (hI : ∑ k, inten k ≠ 0) {N : ℕ}
    (hN : SpectralPoints w inten dt N) (lo hi : ℝ) :
    longFromWavelength w inten phase dt lo hi =
      finishSpectral (spectralTime dt N) (temporalField dt (fun j => dataAt w inten (gridFrequency w inten dt N j))
        fun j => dataAt w phase (gridFrequency w inten dt N j)) (meanWavelength w inten) lo hi := by
  obtain ⟨i, h, hi', rfl⟩ := hN
  unfold longFromWavelength
  rw [if_neg (by tauto)]
  have e : argmin (fun k => |w k - (∑ k, inten k * w k) / ∑ k, inten k|) = .ok i := argmin_eq hi'.1 hi'.2
  dsimp only
  rw [e]
  show (if h : (i : ℕ) + 1 < n then _ else _) = _
  rw [dif_pos h]
  have e2 : ∀ N : ℕ, linspace (c / meanWavelength w inten - 1 / dt / 2) (c / meanWavelength w inten + 1 / dt / 2) N =
      gridFrequency w inten dt N := by
    intro N
    funext j
    unfold linspace gridFrequency
    ring
  rw [← e2]
  rfl

theorem longFromWavelength_inv {w inten phase : Fin n → ℝ} {dt lo hi : ℝ} {p : LongProf}
    (h : longFromWavelength w inten phase dt lo hi = .ok p) :
    dt ≠ 0 ∧ ∑ k, inten k ≠ 0 ∧ ∃ N, SpectralPoints w inten dt N := by
  unfold longFromWavelength at h
  split at h
  · exact absurd h (by simp)
  · rename_i h0
    push Not at h0
    have hn : 0 < n := by
      by_contra hc
      have : n = 0 := by omega
      subst this
      exact h0.2 (by simp)
    refine ⟨h0.1, h0.2, ?_⟩
    obtain ⟨i, e, hi'⟩ := argmin_ok hn fun k => |w k - (∑ k, inten k * w k) / ∑ k, inten k|
    dsimp only at h
    rw [e] at h
    by_cases h1 : (i : ℕ) + 1 < n
    · exact ⟨_, i, h1, hi', rfl⟩
    · have h : (if h : (i : ℕ) + 1 < n then _ else Except.error PyErr.index) = Except.ok p := h
      rw [dif_neg h1] at h
      exact absurd h (by simp)

/-- all that is known about a profile built from spectral data on an ascending wavelength axis -/
theorem longFromWavelength_spec {w inten phase : Fin n → ℝ} {dt lo hi : ℝ} (hdt : 0 < dt) {p : LongProf}
    (hp : longFromWavelength w inten phase dt lo hi = .ok p) :
    ∃ (N : ℕ) (a b z : Fin N) (κ : ℂ) (field : Fin N → ℂ), SpectralPoints w inten dt N ∧
      NearestSample (spectralTime dt N) lo a ∧
      NearestSample (spectralTime dt N) hi b ∧ NearestSample (spectralTime dt N) 0 z ∧
      (∀ k, field k = ∑ j : Fin N, sampleField (dataAt w inten (gridFrequency w inten dt N j))
        (dataAt w phase (gridFrequency w inten dt N j)) * chr N (((j : ℕ) - (N / 2 : ℕ)) * ((k : ℕ) - (N / 2 : ℕ)))) ∧
      p.lambda0 = meanWavelength w inten ∧ κ ≠ 0 ∧ (∀ k, ‖κ * field k‖ ≤ 1) ∧
      (∃ k, ‖κ * field k‖ = 1) ∧ κ * field z = ‖κ * field z‖ ∧
      (∀ k, a ≤ k → k < b → p.evaluate (spectralTime dt N k) = .ok (κ * field k)) ∧
      (∀ (k : ℕ) (h : k + 1 < N), (a : ℕ) ≤ k → k + 1 < (b : ℕ) →
        ∃ v, p.evaluate ((spectralTime dt N ⟨k, by omega⟩ + spectralTime dt N ⟨k + 1, h⟩) / 2) = .ok v ∧
          ‖v‖ ^ 2 = (‖κ * field ⟨k, by omega⟩‖ ^ 2 + ‖κ * field ⟨k + 1, h⟩‖ ^ 2) / 2) ∧
      ∀ t v, p.evaluate t = .ok v → ‖v‖ ≤ 1 := by
  obtain ⟨h0, hI, N, hN⟩ := longFromWavelength_inv hp
  rw [longFromWavelength_eq h0 hI hN] at hp
  have hne := finishSpectral_inv hp
  obtain ⟨a, b, z, p', κ, ha, hb, hz, e, h1, h2, h3, h4, h5, h6, h7, h8⟩ := finishSpectral_spec
    (ascending_spectralTime hdt N) hne (meanWavelength w inten) lo hi
  rw [hp] at e
  injection e with e
  subst e
  have hN0 : 0 < N := by have := a.2; omega
  have hs : (N : ℂ) * dt ≠ 0 := by
    have : (N : ℂ) ≠ 0 := by exact_mod_cast hN0.ne'
    have : (dt : ℂ) ≠ 0 := by exact_mod_cast hdt.ne'
    positivity
  refine ⟨N, a, b, z, κ / (N * dt), fun k => N * dt * temporalField dt (fun j => dataAt w inten (gridFrequency w inten dt N j))
    (fun j => dataAt w phase (gridFrequency w inten dt N j)) k, hN, ha, hb, hz, fun k => ?_, h1, div_ne_zero h2 hs, ?_⟩
  · simp only [temporalField_eq]
    rw [div_div, mul_div_assoc']
    exact mul_div_cancel_left₀ _ hs
  have e : ∀ x : ℂ, κ / (N * dt) * (N * dt * x) = κ * x := by
    intro x
    rw [← mul_assoc, div_mul_cancel₀ _ hs]
  simp only [e]
  exact ⟨h3, h4, h5, h6, h7, h8⟩

theorem longSpectral_asc (hn : 2 ≤ n) {w : Fin n → ℝ} (hw : Ascending w) (inten : Fin n → ℝ) (phase : Option (Fin n → ℝ))
    (dt lo hi : ℝ) : longSpectral true w inten phase dt lo hi =
      longFromWavelength w inten (phase.getD fun _ => 0) dt lo hi := by
  rcases longSpectral_cases true hn w inten phase dt lo hi with ⟨h, e⟩ | ⟨h, e⟩ | ⟨h, e⟩
  · exact e
  · exact (ascending_not_rev hn hw h).elim
  · exact (h.1 hw).elim

/-! ## C80: normalisation and peak -/

/-- a profile from spectral data, whatever the axis and its order, never exceeds 1 -/
theorem C80_bounded (hn : 2 ≤ n) (axisIsWavelength : Bool) (axis inten : Fin n → ℝ) (phase : Option (Fin n → ℝ))
    {dt lo hi : ℝ} (hdt : 0 < dt) {p : LongProf}
    (hp : longSpectral axisIsWavelength axis inten phase dt lo hi = .ok p) {t : ℝ} {v : ℂ} (h : p.evaluate t = .ok v) :
    ‖v‖ ≤ 1 := by
  rcases longSpectral_cases axisIsWavelength hn axis inten phase dt lo hi with ⟨-, e⟩ | ⟨-, e⟩ | ⟨-, e⟩ <;> rw [e] at hp
  · obtain ⟨N, a, b, z, κ, field, -, -, -, -, -, -, -, -, -, -, -, -, h8⟩ := longFromWavelength_spec hdt hp
    exact h8 t v h
  · obtain ⟨N, a, b, z, κ, field, -, -, -, -, -, -, -, -, -, -, -, -, h8⟩ := longFromWavelength_spec hdt hp
    exact h8 t v h
  · exact absurd hp (by simp)

omit [Phys] in
theorem nearest_le {N : ℕ} {time : Fin N → ℝ} (hasc : Ascending time) {x : ℝ} {a k : Fin N} (ha : NearestSample time x a)
    (h : x ≤ time k) : a ≤ k := by
  by_contra hc
  have h1 := hasc k a (not_le.mp hc)
  have h2 := ha.1 k
  rw [abs_of_nonneg (by linarith), abs_of_nonneg (by linarith)] at h2
  linarith

omit [Phys] in
theorem lt_nearest {N : ℕ} {time : Fin N → ℝ} (hasc : Ascending time) {x : ℝ} {b k l : Fin N} (hb : NearestSample time x b)
    (hkl : k < l) (h : time l ≤ x) : k < b := by
  by_contra hc
  have h1 := hasc.le_iff.mpr (not_lt.mp hc)
  have h2 := hb.1 l
  have h3 := hasc k l hkl
  rw [abs_of_nonpos (by linarith), abs_of_nonpos (by linarith)] at h2
  linarith

/-- **C80** (what holds): data with a constant phase give a pulse whose envelope reaches 1 at time zero if the number of
samples is even, half a time step before time zero if it is odd -/
theorem C80_peak_partial (hn : 2 ≤ n) {w : Fin n → ℝ} (hw : Ascending w) {inten : Fin n → ℝ}
    (phi : ℝ) {dt lo hi : ℝ} (hdt : 0 < dt) {p : LongProf}
    (hp : longSpectral true w inten (some fun _ => phi) dt lo hi = .ok p) {N : ℕ} (hN : SpectralPoints w inten dt N)
    (h3 : 3 ≤ N) (hlo : lo ≤ -dt / 2) (hhi : dt ≤ hi) :
    (Even N → p.evaluate 0 = .ok 1) ∧ (Odd N → ∃ v, p.evaluate (-dt / 2) = .ok v ∧ ‖v‖ = 1) := by
  rw [longSpectral_asc hn hw] at hp
  obtain ⟨N', a, b, z, κ, field, hN', ha, hb, hz, hf, -, hκ, hle, ⟨m, hm⟩, hreal, hev, -, -⟩ := longFromWavelength_spec hdt hp
  have hNN : N' = N := by
    obtain ⟨i, hi1, hi2, rfl⟩ := hN'
    obtain ⟨j, hj1, hj2, rfl⟩ := hN
    have := hi2.unique hj2
    subst this
    rfl
  subst hNN
  have hasc := ascending_spectralTime hdt N'
  set h : Fin N' := ⟨N' / 2, by omega⟩ with hh
  -- the field at the centre sample is the largest
  have hmax : ∀ k, ‖field k‖ ≤ ‖field h‖ := by
    intro k
    have hterm : ∀ j : Fin N', ∃ r : ℝ, 0 ≤ r ∧ sampleField (dataAt w inten (gridFrequency w inten dt N' j))
        (dataAt w (fun _ => phi) (gridFrequency w inten dt N' j)) = r * exp (-I * phi) := by
      intro j
      by_cases hin : Inside (fun k : Fin n => c / w k.rev) (gridFrequency w inten dt N' j)
      · refine ⟨Real.sqrt (dataAt w inten (gridFrequency w inten dt N' j)), Real.sqrt_nonneg _, ?_⟩
        unfold sampleField
        congr 3
        unfold dataAt npInterpZero
        rw [if_pos hin, ← Finset.sum_mul, linWeight_sum hn, one_mul]
      · refine ⟨0, le_refl _, ?_⟩
        unfold sampleField dataAt npInterpZero
        rw [if_neg hin]
        simp
    choose r hr0 hr using hterm
    have e : ∀ k, field k = (∑ j : Fin N', (r j : ℂ) * chr N' (((j : ℕ) - (N' / 2 : ℕ)) * ((k : ℕ) - (N' / 2 : ℕ)))) * exp (-I * phi) := by
      intro k
      rw [hf, Finset.sum_mul]
      refine Finset.sum_congr rfl fun j _ => ?_
      rw [show (Option.getD (some fun _ : Fin n => phi) fun _ => 0) = fun _ => phi from rfl, hr]
      ring
    have h0 : ‖exp (-I * (phi : ℂ))‖ = 1 := by rw [Complex.norm_exp]; simp
    have h1 : ‖field h‖ = ∑ j, r j := by
      rw [e, norm_mul, h0, mul_one]
      have : ∀ j : Fin N', (r j : ℂ) * chr N' (((j : ℕ) - (N' / 2 : ℕ)) * (((h : Fin N') : ℕ) - (N' / 2 : ℕ))) = r j := by
        intro j
        have : ((h : ℕ) : ℤ) - (N' / 2 : ℕ) = 0 := by simp [hh]
        rw [this, mul_zero, chr_zero, mul_one]
      rw [Finset.sum_congr rfl fun j _ => this j, ← Complex.ofReal_sum, Complex.norm_real,
        Real.norm_of_nonneg (Finset.sum_nonneg fun j _ => hr0 j)]
    rw [h1, e, norm_mul, h0, mul_one]
    refine (norm_sum_le _ _).trans (Finset.sum_le_sum fun j _ => ?_)
    rw [norm_mul, norm_chr, mul_one, Complex.norm_real, Real.norm_of_nonneg (hr0 j)]
  have hone : ‖κ * field h‖ = 1 := by
    refine le_antisymm (hle h) ?_
    rw [← hm, norm_mul, norm_mul]
    exact mul_le_mul_of_nonneg_left (hmax m) (norm_nonneg _)
  have hkeep : lo ≤ spectralTime dt N' h → spectralTime dt N' ⟨N' / 2 + 1, by omega⟩ ≤ hi →
      p.evaluate (spectralTime dt N' h) = .ok (κ * field h) := by
    intro h1 h2
    exact hev h (nearest_le hasc ha h1) (lt_nearest hasc hb (by rw [Fin.lt_def]; simp [hh]) h2)
  constructor
  · rintro ⟨q, rfl⟩
    have hq : (q + q) / 2 = q := by omega
    have t0 : spectralTime dt (q + q) h = 0 := by
      rw [spectralTime_eq]; simp only [hh, hq]; push_cast; ring
    have t1 : spectralTime dt (q + q) ⟨(q + q) / 2 + 1, by omega⟩ = dt := by
      rw [spectralTime_eq]; simp only [hq]; push_cast; ring
    have hzh : z = h := hz.unique ⟨fun j => by rw [t0]; simp, fun j hj => by
      have := hasc j h hj
      rw [t0] at this ⊢
      simp [this.ne]⟩
    have := hkeep (by rw [t0]; linarith) (by rw [t1]; exact hhi)
    rw [t0] at this
    rw [this, ← hzh, hreal, hzh, hone]
    simp
  · rintro ⟨q, rfl⟩
    have hq : (2 * q + 1) / 2 = q := by omega
    have t0 : spectralTime dt (2 * q + 1) h = -dt / 2 := by
      rw [spectralTime_eq]; simp only [hh, hq]; push_cast; ring
    have t1 : spectralTime dt (2 * q + 1) ⟨(2 * q + 1) / 2 + 1, by omega⟩ = dt / 2 := by
      rw [spectralTime_eq]; simp only [hq]; push_cast; ring
    have := hkeep (by rw [t0]; linarith) (by rw [t1]; linarith)
    rw [t0] at this
    exact ⟨_, this, hone⟩

theorem SpectralPoints.unique {w inten : Fin n → ℝ} {dt : ℝ} {N N' : ℕ} (h : SpectralPoints w inten dt N)
    (h' : SpectralPoints w inten dt N') : N = N' := by
  obtain ⟨i, hi1, hi2, rfl⟩ := h
  obtain ⟨j, hj1, hj2, rfl⟩ := h'
  have := hi2.unique hj2
  subst this
  rfl

theorem longFromWavelength_ok {w inten phase : Fin n → ℝ} {dt : ℝ} (hdt : 0 < dt) (hI : ∑ k, inten k ≠ 0) {N : ℕ}
    (hN : SpectralPoints w inten dt N) (hne : ∃ k : Fin N, ∑ j : Fin N, sampleField (dataAt w inten (gridFrequency w inten dt N j))
        (dataAt w phase (gridFrequency w inten dt N j)) * chr N (((j : ℕ) - (N / 2 : ℕ)) * ((k : ℕ) - (N / 2 : ℕ))) ≠ 0) (lo hi : ℝ) :
    ∃ p, longFromWavelength w inten phase dt lo hi = .ok p := by
  rw [longFromWavelength_eq hdt.ne' hI hN]
  obtain ⟨k, hk⟩ := hne
  obtain ⟨a, b, z, p, κ, -, -, -, e, -⟩ := finishSpectral_spec (ascending_spectralTime hdt N) (field := temporalField dt
    (fun j => dataAt w inten (gridFrequency w inten dt N j)) fun j => dataAt w phase (gridFrequency w inten dt N j))
    ⟨k, by
      rw [temporalField_eq]
      have hN0 : (N : ℂ) ≠ 0 := by have := k.2; exact_mod_cast (show N ≠ 0 by omega)
      have hd : (dt : ℂ) ≠ 0 := by exact_mod_cast hdt.ne'
      exact div_ne_zero (div_ne_zero hk hN0) hd⟩ (meanWavelength w inten) lo hi
  exact ⟨p, e⟩

/-! ## C81: the orientation of the frequency axis -/

/-- **C81** (what holds): at every kept sample the envelope is, up to one common factor, the sum over the frequency grid
of `sqrt(I) exp(-i φ) exp(+2πi (j - N//2)(k - N//2)/N)`. A component above the mean frequency (`j > N//2`) rotates as
`exp(+i δ t)`, which lasy's convention (field = real part of envelope times `exp(-i ω₀ t)`) reads as a frequency *below*
the centre. -/
theorem C81_components_partial (hn : 2 ≤ n) {w : Fin n → ℝ} (hw : Ascending w) (inten : Fin n → ℝ)
    (phase : Option (Fin n → ℝ)) {dt lo hi : ℝ} (hdt : 0 < dt) {p : LongProf}
    (hp : longSpectral true w inten phase dt lo hi = .ok p) :
    ∃ (N : ℕ) (a b : Fin N) (κ : ℂ), SpectralPoints w inten dt N ∧ NearestSample (fun k : Fin N => ((k : ℕ) - (N : ℝ) / 2) * dt) lo a ∧
      NearestSample (fun k : Fin N => ((k : ℕ) - (N : ℝ) / 2) * dt) hi b ∧ κ ≠ 0 ∧ p.lambda0 = meanWavelength w inten ∧
      ∀ k, a ≤ k → k < b → p.evaluate (((k : ℕ) - (N : ℝ) / 2) * dt) =
        .ok (κ * ∑ j : Fin N, sampleField (dataAt w inten (gridFrequency w inten dt N j))
          (dataAt w (phase.getD fun _ => 0) (gridFrequency w inten dt N j)) *
          exp (2 * Real.pi * I * (((j : ℕ) : ℂ) - (N / 2 : ℕ)) * (((k : ℕ) : ℂ) - (N / 2 : ℕ)) / N)) := by
  rw [longSpectral_asc hn hw] at hp
  obtain ⟨N, a, b, z, κ, field, hN, ha, hb, hz, hf, h1, hκ, -, -, -, hev, -, -⟩ := longFromWavelength_spec hdt hp
  have et : spectralTime dt N = fun k : Fin N => ((k : ℕ) - (N : ℝ) / 2) * dt := funext fun k => spectralTime_eq dt N k
  rw [et] at ha hb hev
  refine ⟨N, a, b, κ, hN, ha, hb, hκ, h1, fun k hk1 hk2 => ?_⟩
  rw [hev k hk1 hk2, hf]
  congr 3
  funext j
  congr 1
  unfold chr
  congr 1
  generalize N / 2 = m
  push_cast
  ring

/-- the frequencies `c/λ` of positive ascending wavelengths, read backwards, ascend -/
theorem ascending_freq {w : Fin n → ℝ} (hw : Ascending w) (hpos : ∀ k, 0 < w k) : Ascending fun k => c / w k.rev := by
  intro i j hij
  exact div_lt_div_of_pos_left c_pos (hpos _) (hw _ _ (Fin.rev_lt_rev.mpr hij))

/-- **C81**: the data the components of `C81_components_partial` are built from, in terms of the measurement alone: at the
frequency `c/λₖ` of a sample it is that sample, between two neighbouring samples the straight line in frequency through
both, and outside the measured frequencies zero -/
theorem C81_data_samples_partial (hn : 2 ≤ n) {w : Fin n → ℝ} (hw : Ascending w) (hpos : ∀ k, 0 < w k) (v : Fin n → ℝ) :
    (∀ k, dataAt w v (c / w k) = v k) ∧
    (∀ (k : ℕ) (h : k + 1 < n) (f : ℝ), c / w ⟨k + 1, h⟩ ≤ f → f ≤ c / w ⟨k, by omega⟩ →
      dataAt w v f = v ⟨k + 1, h⟩ + (f - c / w ⟨k + 1, h⟩) / (c / w ⟨k, by omega⟩ - c / w ⟨k + 1, h⟩) *
        (v ⟨k, by omega⟩ - v ⟨k + 1, h⟩)) ∧
    ∀ f, (∀ k, f < c / w k) ∨ (∀ k, c / w k < f) → dataAt w v f = 0 := by
  have hasc := ascending_freq hw hpos
  refine ⟨fun k => ?_, fun k h f h1 h2 => ?_, fun f hf => ?_⟩
  · unfold dataAt npInterpZero
    have e : c / w k = (fun k => c / w k.rev) k.rev := by simp
    rw [e, if_pos (inside_node _ _)]
    rw [Finset.sum_congr rfl fun i _ => by rw [linWeight_node hn hasc k.rev i]]
    simp
  · unfold dataAt npInterpZero
    obtain ⟨m, hm⟩ : ∃ m, m = n - (k + 2) := ⟨_, rfl⟩
    have e1 : (⟨m, by omega⟩ : Fin n).rev = ⟨k + 1, h⟩ := by ext; simp [Fin.val_rev]; omega
    have e2 : (⟨m + 1, by omega⟩ : Fin n).rev = ⟨k, by omega⟩ := by ext; simp [Fin.val_rev]; omega
    have h1' : (fun k => c / w k.rev) (⟨m, by omega⟩ : Fin n) ≤ f := by simp only [e1]; exact h1
    have h2' : f ≤ (fun k => c / w k.rev) (⟨m + 1, by omega⟩ : Fin n) := by simp only [e2]; exact h2
    rw [if_pos ⟨⟨_, h1'⟩, ⟨_, h2'⟩⟩, linWeight_between hasc _ (k := m) (by omega) h1' h2']
    simp only [e1, e2]
  · unfold dataAt npInterpZero
    rw [if_neg]
    rintro ⟨⟨i, h1⟩, ⟨j, h2⟩⟩
    rcases hf with h | h
    · exact absurd h1 (not_le.mpr (h _))
    · exact absurd h2 (not_le.mpr (h _))

/-- the refuting measurement: two samples at the frequencies 2 and 1, intensities 1 and 0 -/
theorem redData : SpectralPoints ![c / 2, c] ![1, 0] (1 / 4) 4 ∧ meanWavelength ![c / 2, c] ![1, 0] = c / 2 ∧
    (∀ j, dataAt ![c / 2, c] ![1, 0] (gridFrequency ![c / 2, c] ![1, 0] (1 / 4) 4 j) = if j = 1 then 1 / 3 else 0) := by
  have hc := c_pos
  have hm : meanWavelength ![c / 2, c] ![1, 0] = c / 2 := by
    simp [meanWavelength, Fin.sum_univ_two]
  refine ⟨⟨0, by norm_num, ⟨?_, ?_⟩, ?_⟩, hm, ?_⟩
  · intro j; rw [hm]; simp
  · intro j hj; exact absurd hj (by simp)
  · have : |c / (![c / 2, c] : Fin 2 → ℝ) 0 - c / (![c / 2, c] : Fin 2 → ℝ) ⟨(0 : Fin 2) + 1, by norm_num⟩| = 1 := by
      have e1 : (![c / 2, c] : Fin 2 → ℝ) ⟨((0 : Fin 2) : ℕ) + 1, by norm_num⟩ = c := rfl
      rw [e1]
      have e2 : c / (![c / 2, c] : Fin 2 → ℝ) 0 - c / c = 1 := by
        simp only [Matrix.cons_val_zero]
        field_simp
        norm_num
      rw [e2]; simp
    rw [this]
    norm_num [pyInt]
    rfl
  · intro j
    have hx : (fun k : Fin 2 => c / (![c / 2, c] : Fin 2 → ℝ) k.rev) = ![1, 2] := by
      funext k
      fin_cases k
      · show c / c = 1
        field_simp
      · show c / (c / 2) = 2
        field_simp
    have hf : (fun k : Fin 2 => (![1, 0] : Fin 2 → ℝ) k.rev) = ![0, 1] := by
      funext k
      fin_cases k <;> rfl
    have hg : gridFrequency ![c / 2, c] ![1, 0] (1 / 4) 4 j = (j : ℕ) * (4 / 3) := by
      unfold gridFrequency
      rw [hm]
      field_simp
      norm_num
    have hasc : Ascending (![1, 2] : Fin 2 → ℝ) := by
      intro i j hij
      fin_cases i <;> fin_cases j <;> first | exact absurd hij (by decide) | norm_num
    unfold dataAt npInterpZero
    rw [hx, hf, hg]
    by_cases hj : j = 1
    · subst hj
      rw [if_pos rfl, if_pos ⟨⟨0, by norm_num⟩, ⟨1, by norm_num⟩⟩,
        linWeight_between hasc _ (k := 0) (by norm_num) (by norm_num) (by norm_num)]
      norm_num
    · rw [if_neg hj, if_neg]
      rintro ⟨⟨i, h1⟩, ⟨i', h2⟩⟩
      fin_cases j
      · fin_cases i <;> norm_num at h1
      · exact hj rfl
      · fin_cases i' <;> norm_num at h2
      · fin_cases i' <;> norm_num at h2

theorem dataAt_zero (w : Fin n → ℝ) (f : ℝ) : dataAt w (fun _ => 0) f = 0 := by
  unfold dataAt npInterpZero
  split <;> simp

omit [Phys] in
theorem chr_four_one : chr 4 1 = I := by
  unfold chr
  rw [show (2 * Real.pi * I * ((1 : ℤ) : ℂ) / ((4 : ℕ) : ℂ)) = Real.pi / 2 * I by push_cast; ring]
  exact Complex.exp_pi_div_two_mul_I

/-- **C81 is false of the code.** A spectrum entirely at or below its mean frequency `c / lambda0 = 2` (samples at the
frequencies 2 and 1) gives an envelope that turns as `exp(-2πi t)`: a field above the centre frequency. -/
theorem C81_refuted : ∃ p, longSpectral true ![c / 2, c] ![1, 0] none (1 / 4) (-1 / 2) (1 / 4) = .ok p ∧
    (∀ k, c / (![c / 2, c] : Fin 2 → ℝ) k ≤ c / p.lambda0) ∧
    p.evaluate (-1 / 2) = .ok (-1) ∧ p.evaluate (-1 / 4) = .ok I ∧ p.evaluate 0 = .ok 1 := by
  have hc := c_pos
  obtain ⟨hN, hm, hd⟩ := redData
  have hasc : Ascending (![c / 2, c] : Fin 2 → ℝ) := by
    intro i j hij
    fin_cases i <;> fin_cases j <;> first | exact absurd hij (by decide) | (simp; linarith)
  rw [longSpectral_asc (by norm_num) hasc]
  have hg : (Option.getD (none : Option (Fin 2 → ℝ)) fun _ => 0) = fun _ => 0 := rfl
  rw [hg]
  have hs : (Real.sqrt (1 / 3) : ℂ) ≠ 0 := by
    exact_mod_cast (Real.sqrt_pos.mpr (by norm_num : (0 : ℝ) < 1 / 3)).ne'
  have hsum : ∀ k : Fin 4, ∑ j : Fin 4, sampleField (dataAt ![c / 2, c] ![1, 0] (gridFrequency ![c / 2, c] ![1, 0] (1 / 4) 4 j))
        (dataAt ![c / 2, c] (fun _ => 0) (gridFrequency ![c / 2, c] ![1, 0] (1 / 4) 4 j)) *
        chr 4 (((j : ℕ) - (4 / 2 : ℕ)) * ((k : ℕ) - (4 / 2 : ℕ))) = Real.sqrt (1 / 3) * chr 4 (2 - (k : ℕ)) := by
    intro k
    rw [Finset.sum_eq_single 1]
    · rw [hd, if_pos rfl, dataAt_zero]
      unfold sampleField
      congr 1
      · simp
      · congr 1
        norm_num
    · intro j _ hj
      rw [hd, if_neg hj]
      unfold sampleField
      simp
    · intro h; exact absurd (Finset.mem_univ _) h
  obtain ⟨p, hp⟩ := longFromWavelength_ok (phase := fun _ => 0) (by norm_num : (0 : ℝ) < 1 / 4)
    (by simp [Fin.sum_univ_two] : ∑ k, (![1, 0] : Fin 2 → ℝ) k ≠ 0) hN
    ⟨0, by rw [hsum]; exact mul_ne_zero hs (chr_ne_zero _ _)⟩ (-1 / 2) (1 / 4)
  obtain ⟨N, a, b, z, κ, field, hN', ha, hb, hz, hf, h1, hκ, hle, ⟨m, hmm⟩, hreal, hev, -, -⟩ :=
    longFromWavelength_spec (by norm_num : (0 : ℝ) < 1 / 4) hp
  have := hN'.unique hN
  subst this
  have hfield : ∀ k : Fin 4, field k = Real.sqrt (1 / 3) * chr 4 (2 - (k : ℕ)) := fun k => by rw [hf, hsum]
  have ht : ∀ k : Fin 4, spectralTime (1 / 4) 4 k = ((k : ℕ) - 2) * (1 / 4) := by
    intro k; rw [spectralTime_eq]; norm_num
  have hasct := ascending_spectralTime (by norm_num : (0 : ℝ) < 1 / 4) 4
  have ez : z = 2 := hz.unique (by
    constructor
    · intro j; rw [ht, ht]; norm_num
    · intro j hj; rw [ht, ht]; fin_cases j <;> first | exact absurd hj (by decide) | norm_num)
  have ea : a = 0 := by
    have := nearest_le hasct ha (k := 0) (by rw [ht]; norm_num)
    exact Fin.le_zero_iff.mp this
  have eb : (2 : Fin 4) < b := lt_nearest hasct hb (k := 2) (l := 3) (by decide) (by rw [ht]; norm_num)
  -- the common factor
  have hκ1 : κ * Real.sqrt (1 / 3) = 1 := by
    have e1 : field 2 = Real.sqrt (1 / 3) := by
      rw [hfield]
      have : (2 : ℤ) - ((2 : Fin 4) : ℕ) = 0 := by norm_num
      rw [this, chr_zero, mul_one]
    have e2 : ‖κ * field 2‖ = 1 := by
      rw [← hmm, hfield, hfield, norm_mul, norm_mul, norm_mul, norm_mul, norm_chr, norm_chr]
    rw [ez, e2, e1] at hreal
    simpa using hreal
  have hval : ∀ k : Fin 4, k ≤ 2 → p.evaluate (((k : ℕ) - 2) * (1 / 4)) = .ok (chr 4 (2 - (k : ℕ))) := by
    intro k hk
    rw [← ht, hev k (by rw [ea]; exact Fin.zero_le _) (lt_of_le_of_lt hk eb), hfield, ← mul_assoc, hκ1, one_mul]
  refine ⟨p, hp, ?_, ?_, ?_, ?_⟩
  · intro k
    rw [h1, hm]
    fin_cases k
    · exact le_refl _
    · show c / c ≤ c / (c / 2)
      have e1 : c / c = 1 := div_self hc.ne'
      have e2 : c / (c / 2) = 2 := by field_simp
      rw [e1, e2]; norm_num
  · have := hval 0 (by decide)
    have e : chr 4 (2 - ((0 : Fin 4) : ℕ)) = -1 := by
      rw [show (2 : ℤ) - ((0 : Fin 4) : ℕ) = 1 + 1 by norm_num, chr_add, chr_four_one, Complex.I_mul_I]
    rw [e] at this
    rw [← this]; norm_num
  · have := hval 1 (by decide)
    have e : chr 4 (2 - ((1 : Fin 4) : ℕ)) = I := by
      rw [show (2 : ℤ) - ((1 : Fin 4) : ℕ) = 1 by norm_num, chr_four_one]
    rw [e] at this
    rw [← this]; norm_num
  · have := hval 2 (by decide)
    have e : chr 4 (2 - ((2 : Fin 4) : ℕ)) = 1 := by
      rw [show (2 : ℤ) - ((2 : Fin 4) : ℕ) = 0 by norm_num, chr_zero]
    rw [e] at this
    rw [← this]; norm_num

/-- the same measurement meets the hypotheses of `C80_peak_partial`, and its reversal those of `C79_order` -/
example : ∃ p, longSpectral true (fun k => (![c / 2, c] : Fin 2 → ℝ) k.rev) (fun k => (![1, 0] : Fin 2 → ℝ) k.rev)
      ((some fun _ => 0).map fun q (k : Fin 2) => q k.rev) (1 / 4) (-1 / 2) (1 / 4) = .ok p ∧ p.evaluate 0 = .ok 1 := by
  have hc := c_pos
  obtain ⟨p, hp, -⟩ := C81_refuted
  have hp' : longSpectral true ![c / 2, c] ![1, 0] (some fun _ => 0) (1 / 4) (-1 / 2) (1 / 4) = .ok p := hp
  have hasc : Ascending (![c / 2, c] : Fin 2 → ℝ) := by
    intro i j hij
    fin_cases i <;> fin_cases j <;> first | exact absurd hij (by decide) | (simp; linarith)
  rw [C79_order]
  exact ⟨p, hp', (C80_peak_partial (by norm_num) hasc 0 (by norm_num) hp' redData.1 (by norm_num) (by norm_num) (by norm_num)).1
    ⟨2, rfl⟩⟩

/-! ## C82: data against frequency -/

/-- **C82** (what holds): data against *angular* frequency, with the density per angular frequency, give the same profile
as the same spectrum against wavelength -/
theorem C82_angular_partial {w : Fin n → ℝ} (hw : ∀ k, w k ≠ 0) (inten : Fin n → ℝ) (phase : Option (Fin n → ℝ)) (dt lo hi : ℝ) :
    longSpectral false (fun k => 2 * Real.pi * c / w k) (fun k => inten k * w k ^ 2 / (2 * Real.pi * c)) phase dt lo hi =
      longSpectral true w inten phase dt lo hi := by
  have hc := c_pos
  have hpi := Real.pi_pos
  have e1 : (spectralAxis false (fun k => 2 * Real.pi * c / w k) fun k => inten k * w k ^ 2 / (2 * Real.pi * c)) =
      spectralAxis true w inten := by
    unfold spectralAxis
    rw [if_neg (by simp), if_pos rfl]
    refine Prod.ext ?_ ?_
    · funext k
      have := hw k
      field_simp
    · funext k
      have := hw k
      field_simp
  unfold longSpectral
  rw [e1]

omit [Phys] in
theorem weighted_mean_bounds {v inten : Fin n → ℝ} (hI : ∀ k, 0 ≤ inten k) (hs : ∑ k, inten k ≠ 0) {lo hi : ℝ}
    (h : ∀ k, lo ≤ v k ∧ v k ≤ hi) : lo ≤ meanWavelength v inten ∧ meanWavelength v inten ≤ hi := by
  have hpos : 0 < ∑ k, inten k := lt_of_le_of_ne (Finset.sum_nonneg fun k _ => hI k) (Ne.symm hs)
  unfold meanWavelength
  rw [le_div_iff₀ hpos, div_le_iff₀ hpos, Finset.mul_sum, Finset.mul_sum]
  constructor
  · exact Finset.sum_le_sum fun k _ => by rw [mul_comm]; exact mul_le_mul_of_nonneg_left (h k).1 (hI k)
  · exact Finset.sum_le_sum fun k _ => by rw [mul_comm hi]; exact mul_le_mul_of_nonneg_left (h k).2 (hI k)

/-- **C82 is false of the code.** The documentation says the axis is a frequency in 1/s, but it is used as an angular
frequency: for a spectrum between the frequencies `f₁` and `f₂ < 2π f₁`, the wavelength of the profile is longer than
every wavelength `c/f` in the data. -/
theorem C82_refuted (hn : 2 ≤ n) {freq inten : Fin n → ℝ} (hI : ∀ k, 0 ≤ inten k) {f1 f2 : ℝ} (h1 : 0 < f1)
    (hf : ∀ k, f1 ≤ freq k ∧ freq k ≤ f2) (h2 : f2 < 2 * Real.pi * f1) {phase : Option (Fin n → ℝ)} {dt lo hi : ℝ}
    {p : LongProf} (hdt : 0 < dt) (hp : longSpectral false freq inten phase dt lo hi = .ok p) (k : Fin n) :
    c / freq k < p.lambda0 := by
  have hc := c_pos
  have hpi := Real.pi_pos
  have hf2 : 0 < f2 := lt_of_lt_of_le h1 ((hf k).1.trans (hf k).2)
  have hlong : c / freq k < 2 * Real.pi * c / f2 := by
    have h3 : c / freq k ≤ c / f1 := div_le_div_of_nonneg_left hc.le h1 (hf k).1
    refine lt_of_le_of_lt h3 ?_
    rw [div_lt_div_iff₀ h1 hf2]
    nlinarith
  have hb : ∀ j, 2 * Real.pi * c / f2 ≤ (spectralAxis false freq inten).1 j ∧ (spectralAxis false freq inten).1 j ≤ 2 * Real.pi * c / f1 := by
    intro j
    have h0 : 0 ≤ 2 * Real.pi * c := by positivity
    have := hf j
    exact ⟨div_le_div_of_nonneg_left h0 (lt_of_lt_of_le h1 this.1) this.2, div_le_div_of_nonneg_left h0 h1 this.1⟩
  have hI' : ∀ j, 0 ≤ (spectralAxis false freq inten).2 j := by
    intro j
    have := hI j
    show 0 ≤ inten j * 2 * Real.pi * c / (2 * Real.pi * c / freq j) ^ 2
    positivity
  refine lt_of_lt_of_le hlong ?_
  rcases longSpectral_cases false hn freq inten phase dt lo hi with ⟨-, e⟩ | ⟨-, e⟩ | ⟨-, e⟩ <;> rw [e] at hp
  · obtain ⟨-, hs, -⟩ := longFromWavelength_inv hp
    obtain ⟨N, a, b, z, κ, field, -, -, -, -, -, hl, -⟩ := longFromWavelength_spec hdt hp
    rw [hl]
    exact (weighted_mean_bounds hI' hs hb).1
  · obtain ⟨-, hs, -⟩ := longFromWavelength_inv hp
    obtain ⟨N, a, b, z, κ, field, -, -, -, -, -, hl, -⟩ := longFromWavelength_spec hdt hp
    rw [hl]
    exact (weighted_mean_bounds (fun j => hI' _) hs fun j => hb _).1
  · exact absurd hp (by simp)

/-- a spectrum to which `C82_refuted` applies -/
example : ∃ p : LongProf, longSpectral false (fun k => 2 * Real.pi * c / (![c / 2, c] : Fin 2 → ℝ) k)
      (fun k => (![1, 0] : Fin 2 → ℝ) k * (![c / 2, c] : Fin 2 → ℝ) k ^ 2 / (2 * Real.pi * c)) none (1 / 4) (-1 / 2) (1 / 4) = .ok p ∧
    ∀ k, c / (2 * Real.pi * c / (![c / 2, c] : Fin 2 → ℝ) k) < p.lambda0 := by
  have hc := c_pos
  have hpi0 := Real.two_le_pi
  have hpi : 2 ≤ Real.pi := hpi0
  obtain ⟨p, hp, -⟩ := C81_refuted
  have h := C82_angular_partial (w := ![c / 2, c]) (by
    intro k; fin_cases k
    · show c / 2 ≠ 0
      positivity
    · exact hc.ne') ![1, 0] none (1 / 4) (-1 / 2) (1 / 4)
  rw [hp] at h
  refine ⟨p, h, C82_refuted (by norm_num) ?_ (f1 := 2 * Real.pi) (f2 := 4 * Real.pi) (by positivity) ?_ (by nlinarith)
    (by norm_num) h⟩
  · intro k
    fin_cases k
    · show 0 ≤ 1 * (c / 2) ^ 2 / (2 * Real.pi * c)
      positivity
    · show 0 ≤ 0 * c ^ 2 / (2 * Real.pi * c)
      simp
  · intro k
    fin_cases k
    · show 2 * Real.pi ≤ 2 * Real.pi * c / (c / 2) ∧ 2 * Real.pi * c / (c / 2) ≤ 4 * Real.pi
      have e : 2 * Real.pi * c / (c / 2) = 4 * Real.pi := by field_simp; norm_num
      rw [e]; constructor <;> linarith
    · show 2 * Real.pi ≤ 2 * Real.pi * c / c ∧ 2 * Real.pi * c / c ≤ 4 * Real.pi
      have e : 2 * Real.pi * c / c = 2 * Real.pi := by field_simp
      rw [e]; constructor <;> linarith

/-! ## C80, an odd number of samples -/

/-- three samples at the frequencies 4, 2, 1, five samples in time -/
theorem oddData : SpectralPoints ![c / 4, c / 2, c] ![1, 1, 1 / 2] (1 / 5) 5 ∧
    (∀ j, dataAt ![c / 4, c / 2, c] ![1, 1, 1 / 2] (gridFrequency ![c / 4, c / 2, c] ![1, 1, 1 / 2] (1 / 5) 5 j) =
      if j = 2 ∨ j = 3 then 1 else 0) := by
  have hc := c_pos
  have hm : meanWavelength ![c / 4, c / 2, c] ![1, 1, 1 / 2] = c / 2 := by
    unfold meanWavelength
    rw [Fin.sum_univ_three, Fin.sum_univ_three]
    show (1 * (c / 4) + 1 * (c / 2) + 1 / 2 * c) / (1 + 1 + 1 / 2) = c / 2
    field_simp
    norm_num
  have w0 : (![c / 4, c / 2, c] : Fin 3 → ℝ) 0 = c / 4 := rfl
  have w1 : (![c / 4, c / 2, c] : Fin 3 → ℝ) 1 = c / 2 := rfl
  have w2 : (![c / 4, c / 2, c] : Fin 3 → ℝ) 2 = c := rfl
  refine ⟨⟨1, by norm_num, ⟨?_, ?_⟩, ?_⟩, ?_⟩
  · intro j; rw [hm, w1]; simp
  · intro j hj
    have : j = 0 := by fin_cases j <;> first | rfl | exact absurd hj (by decide)
    subst this
    rw [hm, w1, w0, sub_self, abs_zero, abs_pos]
    intro h
    linarith
  · have : |c / (![c / 4, c / 2, c] : Fin 3 → ℝ) 1 - c / (![c / 4, c / 2, c] : Fin 3 → ℝ) ⟨(1 : Fin 3) + 1, by norm_num⟩| = 1 := by
      have e1 : (![c / 4, c / 2, c] : Fin 3 → ℝ) ⟨((1 : Fin 3) : ℕ) + 1, by norm_num⟩ = c := rfl
      rw [e1, w1]
      have e2 : c / (c / 2) - c / c = 1 := by
        field_simp
        norm_num
      rw [e2]; simp
    rw [this]
    norm_num [pyInt]
    rfl
  · intro j
    have hx : (fun k : Fin 3 => c / (![c / 4, c / 2, c] : Fin 3 → ℝ) k.rev) = ![1, 2, 4] := by
      funext k
      fin_cases k
      · show c / c = 1
        field_simp
      · show c / (c / 2) = 2
        field_simp
      · show c / (c / 4) = 4
        field_simp
    have hf : (fun k : Fin 3 => (![1, 1, 1 / 2] : Fin 3 → ℝ) k.rev) = ![1 / 2, 1, 1] := by
      funext k
      fin_cases k <;> rfl
    have hg : gridFrequency ![c / 4, c / 2, c] ![1, 1, 1 / 2] (1 / 5) 5 j = -1 / 2 + (j : ℕ) * (5 / 4) := by
      unfold gridFrequency
      rw [hm, show c / (c / 2) = 2 by field_simp]
      norm_num
    have hasc : Ascending (![1, 2, 4] : Fin 3 → ℝ) := by
      intro i j hij
      fin_cases i <;> fin_cases j <;> first | exact absurd hij (by decide) | norm_num
    unfold dataAt
    rw [hx, hf, hg]
    have out : ∀ x : ℝ, (x < 1 ∨ 4 < x) → npInterpZero (![1, 2, 4] : Fin 3 → ℝ) ![1 / 2, 1, 1] x = 0 := by
      intro x hx
      unfold npInterpZero
      rw [if_neg]
      rintro ⟨⟨i, h1⟩, ⟨i', h2⟩⟩
      rcases hx with hx | hx
      · fin_cases i
        · exact absurd (show (1 : ℝ) ≤ x from h1) (by linarith)
        · exact absurd (show (2 : ℝ) ≤ x from h1) (by linarith)
        · exact absurd (show (4 : ℝ) ≤ x from h1) (by linarith)
      · fin_cases i'
        · exact absurd (show x ≤ (1 : ℝ) from h2) (by linarith)
        · exact absurd (show x ≤ (2 : ℝ) from h2) (by linarith)
        · exact absurd (show x ≤ (4 : ℝ) from h2) (by linarith)
    have inn : ∀ x : ℝ, 2 ≤ x → x ≤ 4 → npInterpZero (![1, 2, 4] : Fin 3 → ℝ) ![1 / 2, 1, 1] x = 1 := by
      intro x h1 h2
      unfold npInterpZero
      rw [if_pos ⟨⟨1, h1⟩, ⟨2, h2⟩⟩, linWeight_between hasc _ (k := 1) (by norm_num) h1 h2]
      show (1 : ℝ) + _ * (1 - 1) = 1
      ring
    fin_cases j
    · rw [if_neg (by decide)]; exact out _ (by left; norm_num)
    · rw [if_neg (by decide)]; exact out _ (by left; norm_num)
    · rw [if_pos (by decide)]; exact inn _ (by norm_num) (by norm_num)
    · rw [if_pos (by decide)]; exact inn _ (by norm_num) (by norm_num)
    · rw [if_neg (by decide)]; exact out _ (by right; norm_num)

/-- **C80 is false of the code** for an odd number of samples: an unchirped spectrum gives an envelope of modulus 1 half a
time step before time zero, and less than 1 at time zero -/
theorem C80_refuted : ∃ p v v', longSpectral true ![c / 4, c / 2, c] ![1, 1, 1 / 2] none (1 / 5) (-1 / 2) (1 / 2) = .ok p ∧
    p.evaluate (-1 / 10) = .ok v ∧ ‖v‖ = 1 ∧ p.evaluate 0 = .ok v' ∧ ‖v'‖ < 1 := by
  have hc := c_pos
  obtain ⟨hN, hd⟩ := oddData
  have hasc : Ascending (![c / 4, c / 2, c] : Fin 3 → ℝ) := by
    intro i j hij
    fin_cases i <;> fin_cases j <;> first | exact absurd hij (by decide) | (simp; linarith)
  rw [longSpectral_asc (by norm_num) hasc]
  have hg : (Option.getD (none : Option (Fin 3 → ℝ)) fun _ => 0) = fun _ => 0 := rfl
  rw [hg]
  have hsum : ∀ k : Fin 5, ∑ j : Fin 5, sampleField (dataAt ![c / 4, c / 2, c] ![1, 1, 1 / 2]
        (gridFrequency ![c / 4, c / 2, c] ![1, 1, 1 / 2] (1 / 5) 5 j))
        (dataAt ![c / 4, c / 2, c] (fun _ => 0) (gridFrequency ![c / 4, c / 2, c] ![1, 1, 1 / 2] (1 / 5) 5 j)) *
        chr 5 (((j : ℕ) - (5 / 2 : ℕ)) * ((k : ℕ) - (5 / 2 : ℕ))) = 1 + chr 5 ((k : ℕ) - 2) := by
    intro k
    simp only [hd, dataAt_zero]
    simp [Fin.sum_univ_five, sampleField, chr_zero]
  obtain ⟨p, hp⟩ := longFromWavelength_ok (phase := fun _ => 0) (by norm_num : (0 : ℝ) < 1 / 5)
    (by rw [Fin.sum_univ_three]; show (1 : ℝ) + 1 + 1 / 2 ≠ 0; norm_num) hN
    ⟨2, by
      rw [hsum, show (((2 : Fin 5) : ℕ) : ℤ) - 2 = 0 by norm_num, chr_zero]; norm_num⟩ (-1 / 2) (1 / 2)
  obtain ⟨N, a, b, z, κ, field, hN', ha, hb, hz, hf, h1, hκ, hle, ⟨m, hmm⟩, hreal, hev, hmid, -⟩ :=
    longFromWavelength_spec (by norm_num : (0 : ℝ) < 1 / 5) hp
  have := hN'.unique hN
  subst this
  have hfield : ∀ k : Fin 5, field k = 1 + chr 5 ((k : ℕ) - 2) := fun k => by rw [hf, hsum]
  have ht : ∀ k : Fin 5, spectralTime (1 / 5) 5 k = ((k : ℕ) - 5 / 2) * (1 / 5) := by
    intro k; rw [spectralTime_eq]; norm_num
  have hasct := ascending_spectralTime (by norm_num : (0 : ℝ) < 1 / 5) 5
  have ea : a ≤ 0 := nearest_le hasct ha (k := 0) (by rw [ht]; norm_num)
  have eb : (3 : Fin 5) < b := lt_nearest hasct hb (k := 3) (l := 4) (by decide) (by rw [ht]; norm_num)
  have f2 : field 2 = 2 := by
    rw [hfield, show (((2 : Fin 5) : ℕ) : ℤ) - 2 = 0 by norm_num, chr_zero]; norm_num
  have hle2 : ∀ k, ‖field k‖ ≤ 2 := by
    intro k
    rw [hfield]
    refine (norm_add_le _ _).trans ?_
    rw [norm_chr, norm_one]; norm_num
  have hone : ‖κ‖ * 2 = 1 := by
    refine le_antisymm ?_ ?_
    · have := hle 2
      rw [f2, norm_mul] at this
      simpa using this
    · rw [← hmm, norm_mul]
      exact mul_le_mul_of_nonneg_left (hle2 m) (norm_nonneg _)
  have f3 : ‖field 3‖ < 2 := by
    rw [hfield, show (((3 : Fin 5) : ℕ) : ℤ) - 2 = 1 by norm_num]
    have hne : chr 5 1 ≠ 1 := by
      rw [Ne, chr_eq_one_iff (by norm_num)]
      decide
    have hn1 := norm_chr 5 1
    set u := chr 5 1
    have hsq : u.re * u.re + u.im * u.im = 1 := by
      have := Complex.normSq_eq_norm_sq u
      rw [hn1, Complex.normSq_apply] at this
      linarith
    have hre : u.re < 1 := by
      by_contra hcon
      have hcon := not_lt.mp hcon
      have hre1 : u.re = 1 := by nlinarith [mul_self_nonneg u.im]
      have him : u.im = 0 := by
        rw [hre1] at hsq
        have : u.im * u.im = 0 := by linarith
        exact mul_self_eq_zero.mp this
      exact hne (Complex.ext hre1 him)
    have h4 : ‖1 + u‖ ^ 2 < 2 ^ 2 := by
      rw [← Complex.normSq_eq_norm_sq, Complex.normSq_apply]
      simp only [Complex.add_re, Complex.add_im, Complex.one_re, Complex.one_im, zero_add]
      nlinarith
    exact lt_of_pow_lt_pow_left₀ 2 (by norm_num) h4
  obtain ⟨v', hv', hn'⟩ := hmid 2 (by norm_num) (by rw [Fin.le_def] at ea; simp at ea; omega) (by rw [Fin.lt_def] at eb; exact eb)
  refine ⟨p, κ * field 2, v', hp, ?_, ?_, ?_, ?_⟩
  · have := hev 2 (ea.trans (by decide)) (lt_trans (by decide) eb)
    rw [ht] at this
    rw [← this]; norm_num
  · rw [f2, norm_mul]; simpa using hone
  · rw [ht, ht] at hv'
    rw [← hv']; norm_num
  · have h5 : ‖v'‖ ^ 2 < 1 ^ 2 := by
      rw [hn']
      have e2 : (⟨2, by norm_num⟩ : Fin 5) = 2 := rfl
      have e3 : (⟨2 + 1, by norm_num⟩ : Fin 5) = 3 := rfl
      rw [e2, e3, f2, norm_mul, norm_mul]
      have hk : 0 < ‖κ‖ := norm_pos_iff.mpr hκ
      have h6 : ‖κ‖ * ‖field 3‖ < 1 := by rw [← hone]; exact mul_lt_mul_of_pos_left f3 hk
      have h7 : ‖κ‖ * ‖(2 : ℂ)‖ = 1 := by simpa using hone
      rw [h7]
      have h8 : 0 ≤ ‖κ‖ * ‖field 3‖ := by positivity
      nlinarith
    exact lt_of_pow_lt_pow_left₀ 2 (by norm_num) h5

end Lasy
