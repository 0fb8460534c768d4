import Verif.Props.UnwrapNd

/-!
# Property C153: the energy of a full field and of its envelope
-/

namespace Lasy
open Spec Phys Complex

/-! ## The energy of the analytic signal -/

theorem norm_fft_negIdx {n : ℕ} (x : Fin n → ℝ) (k : Fin n) :
    ‖fft (fun j => (x j : ℂ)) (negIdx k)‖ = ‖fft (fun j => (x j : ℂ)) k‖ := by
  have h1 : (starRingEnd ℂ) (fft (fun j => (x j : ℂ)) (negIdx k)) = fft (fun j => (x j : ℂ)) k := by
    rw [fft_eq_chr, fft_eq_chr, map_sum]
    refine Finset.sum_congr rfl fun l _ => ?_
    rw [map_mul, conj_ofReal, ← chr_neg, neg_neg]
    congr 1
    have := chr_negIdx k (l : ℕ)
    rw [mul_comm] at this
    rw [this, mul_comm]
  rw [← h1, RCLike.norm_conj]

/-- the frequencies zero and Nyquist -/
def edgeFreq {n : ℕ} (k : Fin n) : Prop := (k : ℕ) = 0 ∨ 2 * (k : ℕ) = n

instance {n : ℕ} : DecidablePred (edgeFreq (n := n)) := fun _ => inferInstanceAs (Decidable (_ ∨ _))

theorem hilbertMask_sq {n : ℕ} (k : Fin n) :
    ‖hilbertMask n k‖ ^ 2 + ‖hilbertMask n (negIdx k)‖ ^ 2 = 4 - if edgeFreq k then 2 else 0 := by
  have hk := k.2
  have hv := negIdx_val k
  by_cases h : edgeFreq k
  · rw [if_pos h]
    unfold edgeFreq at h
    unfold hilbertMask
    rw [hv]
    split_ifs <;> first | omega | norm_num
  · rw [if_neg h]
    unfold edgeFreq at h
    unfold hilbertMask
    rw [hv]
    split_ifs <;> first | omega | norm_num

theorem hilbert_energy {n : ℕ} (x : Fin n → ℝ) :
    (n : ℝ) * ∑ k, ‖hilbert x k‖ ^ 2 = 2 * (n * ∑ k, x k ^ 2) - ∑ k : Fin n, if edgeFreq k then ‖fft (fun j => (x j : ℂ)) k‖ ^ 2 else 0 := by
  have h1 := parseval_ifft fun k => fft (fun j => (x j : ℂ)) k * hilbertMask n k
  have h2 := parseval_fft fun j => (x j : ℂ)
  simp only [Complex.norm_real, Real.norm_eq_abs, sq_abs] at h2
  unfold hilbert
  rw [← h1, ← h2]
  simp only [norm_mul, mul_pow]
  set X := fun k => ‖fft (fun j => (x j : ℂ)) k‖ ^ 2 with hX
  have h3 : ∑ k, X k * ‖hilbertMask n k‖ ^ 2 = ∑ k, X k * ‖hilbertMask n (negIdx k)‖ ^ 2 := by
    rw [← sum_negIdx]
    refine Finset.sum_congr rfl fun k _ => ?_
    simp only [hX, norm_fft_negIdx]
  have h4 : 2 * ∑ k, X k * ‖hilbertMask n k‖ ^ 2 = ∑ k, X k * (4 - if edgeFreq k then 2 else 0) := by
    rw [two_mul]
    nth_rewrite 2 [h3]
    rw [← Finset.sum_add_distrib]
    refine Finset.sum_congr rfl fun k _ => ?_
    rw [← mul_add, hilbertMask_sq]
  have h5 : ∑ k, X k * (4 - if edgeFreq k then (2 : ℝ) else 0) = 4 * ∑ k, X k - 2 * ∑ k, if edgeFreq k then X k else 0 := by
    rw [Finset.mul_sum, Finset.mul_sum, ← Finset.sum_sub_distrib]
    refine Finset.sum_congr rfl fun k _ => ?_
    split_ifs <;> ring
  have h6 : (∑ k, ‖fft (fun j => (x j : ℂ)) k‖ ^ 2) = ∑ k, X k := rfl
  rw [h6]
  linarith

/-- the constant part of a signal -/
noncomputable def Spec.mean {n : ℕ} (x : Fin n → ℝ) : ℝ := (∑ k, x k) / n

/-- the part of a signal that alternates from sample to sample (Nyquist frequency; none for an odd number of samples) -/
noncomputable def Spec.alternating {n : ℕ} (x : Fin n → ℝ) : ℝ := if n % 2 = 0 then (∑ k : Fin n, (-1) ^ (k : ℕ) * x k) / n else 0

theorem fft_zero_idx {n : ℕ} (hn : 0 < n) (x : Fin n → ℝ) : fft (fun j => (x j : ℂ)) ⟨0, hn⟩ = ((∑ k, x k : ℝ) : ℂ) := by
  rw [fft_eq_chr, Complex.ofReal_sum]
  refine Finset.sum_congr rfl fun l _ => ?_
  simp [chr]

theorem fft_nyquist {m : ℕ} (hm : 0 < m) (x : Fin (2 * m) → ℝ) :
    fft (fun j => (x j : ℂ)) ⟨m, by omega⟩ = ((∑ k : Fin (2 * m), (-1) ^ (k : ℕ) * x k : ℝ) : ℂ) := by
  rw [fft_eq_chr, Complex.ofReal_sum]
  refine Finset.sum_congr rfl fun l _ => ?_
  have hc : chr (2 * m) (-((l : ℕ) * (m : ℕ))) = (-1) ^ (l : ℕ) := by
    unfold chr
    rw [show (2 * Real.pi * I * ((-(((l : ℕ) : ℤ) * ((m : ℕ) : ℤ)) : ℤ) : ℂ) / ((2 * m : ℕ) : ℂ)) = (l : ℕ) * (-(Real.pi * I)) by
      have : (m : ℂ) ≠ 0 := by exact_mod_cast hm.ne'
      push_cast
      field_simp, Complex.exp_nat_mul, Complex.exp_neg, Complex.exp_pi_mul_I]
    norm_num
  rw [hc]
  push_cast
  ring

/-- the energy of the analytic signal: the components at the frequency zero and at the Nyquist frequency count half -/
theorem hilbert_sq {n : ℕ} (hn : 0 < n) (x : Fin n → ℝ) :
    ∑ k, ‖hilbert x k‖ ^ 2 = 2 * ∑ k, x k ^ 2 - n * (Spec.mean x ^ 2 + Spec.alternating x ^ 2) := by
  have hn' : (n : ℝ) ≠ 0 := by exact_mod_cast hn.ne'
  have h := hilbert_energy x
  have hz : ∑ k : Fin n, (if edgeFreq k then ‖fft (fun j => (x j : ℂ)) k‖ ^ 2 else 0) =
      n ^ 2 * (Spec.mean x ^ 2 + Spec.alternating x ^ 2) := by
    have e0 : ‖fft (fun j => (x j : ℂ)) ⟨0, hn⟩‖ ^ 2 = n ^ 2 * Spec.mean x ^ 2 := by
      rw [fft_zero_idx hn, Complex.norm_real, Real.norm_eq_abs, sq_abs]
      unfold Spec.mean
      field_simp
    by_cases hp : n % 2 = 0
    · obtain ⟨m, rfl⟩ : ∃ m, n = 2 * m := ⟨n / 2, by omega⟩
      have hm : 0 < m := by omega
      have hne : (⟨0, hn⟩ : Fin (2 * m)) ≠ ⟨m, by omega⟩ := by
        rw [Ne, Fin.mk.injEq]
        omega
      rw [← Finset.sum_filter]
      have hf : (Finset.univ.filter fun k : Fin (2 * m) => edgeFreq k) = {⟨0, hn⟩, ⟨m, by omega⟩} := by
        ext k
        rw [Finset.mem_filter_univ, Finset.mem_insert, Finset.mem_singleton, edgeFreq, Fin.ext_iff, Fin.ext_iff]
        dsimp only
        omega
      rw [hf, Finset.sum_pair hne, e0, fft_nyquist hm, Complex.norm_real, Real.norm_eq_abs, sq_abs]
      unfold Spec.alternating
      rw [if_pos hp]
      field_simp
    · rw [← Finset.sum_filter]
      have hf : (Finset.univ.filter fun k : Fin n => edgeFreq k) = {⟨0, hn⟩} := by
        ext k
        rw [Finset.mem_filter_univ, Finset.mem_singleton, edgeFreq, Fin.ext_iff]
        dsimp only
        omega
      rw [hf, Finset.sum_singleton, e0]
      unfold Spec.alternating
      rw [if_neg hp]
      ring
  rw [hz] at h
  apply mul_left_cancel₀ hn'
  rw [h]
  ring

theorem sum_rev {n : ℕ} (f : Fin n → ℝ) : ∑ k : Fin n, f k.rev = ∑ k, f k := Equiv.sum_comp Fin.revPerm f

/-- the same for `hilbert_transform`, which reverses the time axis -/
theorem hilbertTransform_sq {n : ℕ} (hn : 0 < n) (x : Fin n → ℝ) :
    ∑ k, ‖hilbertTransform x k‖ ^ 2 = 2 * ∑ k, x k ^ 2 - n * (Spec.mean x ^ 2 + Spec.alternating x ^ 2) := by
  unfold hilbertTransform
  rw [sum_rev (fun k => ‖hilbert (fun j => x j.rev) k‖ ^ 2), hilbert_sq hn, sum_rev fun k => x k ^ 2]
  congr 3
  · unfold Spec.mean
    rw [sum_rev]
  · unfold Spec.alternating
    split_ifs with hp
    · rw [div_pow, div_pow]
      congr 1
      have e : ∀ k : Fin n, (-1 : ℝ) ^ (k : ℕ) * x k.rev = -((-1) ^ (k.rev : ℕ) * x k.rev) := by
        intro k
        have h1 : (k : ℕ) + (k.rev : ℕ) + 1 = n := by
          rw [Fin.val_rev]
          omega
        have h2 : (-1 : ℝ) ^ (k : ℕ) * (-1) ^ (k.rev : ℕ) = -1 := by
          rw [← pow_add]
          exact Odd.neg_one_pow (by rw [Nat.odd_iff]; omega)
        have h3 : (-1 : ℝ) ^ (k.rev : ℕ) * (-1) ^ (k.rev : ℕ) = 1 := by
          rw [← mul_pow]
          norm_num
        have : (-1 : ℝ) ^ (k : ℕ) = -(-1) ^ (k.rev : ℕ) := by
          calc (-1 : ℝ) ^ (k : ℕ) = ((-1) ^ (k : ℕ) * (-1) ^ (k.rev : ℕ)) * (-1) ^ (k.rev : ℕ) := by rw [mul_assoc, h3, mul_one]
            _ = _ := by rw [h2]; ring
        rw [this]
        ring
      simp only [e, Finset.sum_neg_distrib]
      rw [sum_rev (fun k => (-1 : ℝ) ^ (k : ℕ) * x k), neg_sq]
    · rfl

/-! ## C153 -/

section
variable {s : Shape} [Phys]

/-- the energy of a grid that holds a real field -/
theorem energy_real {g : Grid s} {E : RField s} (h : g.HoldsReal E) :
    computeLaserEnergy g = (.ok (∑ i, ∑ j, ∑ k, g.cellVolume j * eps0 * E i j k ^ 2), g) := by
  unfold computeLaserEnergy
  rw [Py.bind_ok h.getT, Py.bind_ok (Py.get_apply g)]
  simp only [Complex.norm_real, Real.norm_eq_abs, sq_abs, h.env]
  rfl

/-- what the envelope lacks: half of the energy of the constant and of the alternating part of the field in each cell -/
noncomputable def Spec.edgeEnergy (g : Grid s) (E : RField s) : ℝ :=
  eps0 / 2 * ∑ i, ∑ j, g.cellVolume j * s.nt * (Spec.mean (E i j) ^ 2 + Spec.alternating (E i j) ^ 2)

theorem envelope_energy {g g' : Grid s} {E : RField s} (hn : 0 < s.nt) {w : ℝ}
    (h : g'.Holds (some fun i j k => hilbertTransform (E i j) k * exp (I * w * g.t.pts k))) (h1 : g'.geom = g.geom)
    (h2 : g'.t = g.t) : (computeLaserEnergy g').1 =
      .ok ((∑ i, ∑ j, ∑ k, g.cellVolume j * eps0 * E i j k ^ 2) - Spec.edgeEnergy g E) := by
  obtain ⟨g'', e, -, -, -⟩ := h.energy
  rw [e]
  simp only
  congr 1
  rw [pulseEnergy_congr h1 h2]
  unfold pulseEnergy Spec.edgeEnergy
  simp only [norm_carrier, ← Finset.mul_sum]
  have key : ∀ i j, ∑ k, ‖hilbertTransform (E i j) k‖ ^ 2 = _ := fun i j => hilbertTransform_sq hn (E i j)
  simp only [key, Finset.mul_sum, Finset.sum_mul, ← Finset.sum_sub_distrib]
  refine Finset.sum_congr rfl fun i _ => Finset.sum_congr rfl fun j _ => ?_
  rw [← Finset.mul_sum, ← Finset.mul_sum]
  ring

/-- **C153.** `field_to_envelope` and the energy: the energy of the envelope is that of the real field, up to half of the energy
of the constant and of the alternating (Nyquist) part of the field in each cell. -/
theorem C153_energy {g : Grid s} {E : RField s} (h : g.HoldsReal E) (hn : 3 ≤ s.nt)
    (hw : ∑ p : Fin s.n0 × Fin s.n1 × Fin s.nt,
      fullFieldWeights g (fun i j k => (E i j k : ℂ)) p.1 p.2.1 p.2.2 ≠ 0) :
    ∃ (w W : ℝ) (g' : Grid s), fieldToEnvelope g = (.ok w, g') ∧ (computeLaserEnergy g).1 = .ok W ∧
      (computeLaserEnergy g').1 = .ok (W - Spec.edgeEnergy g E) := by
  obtain ⟨r, hr⟩ := realRate_exists hn g.t.pts E
  obtain ⟨g', e, h1, h2, h3⟩ := fieldToEnvelope_real h (getFrequency_real h hr hw none 0.2 5.0)
  exact ⟨_, _, g', e, by rw [energy_real h], envelope_energy (by omega) h1 h2 h3⟩

/-- **C153** (`phase_unwrap_nd=True`). The same, whatever scikit-image does. -/
theorem C153_energy_nd (U : RField s → RField s) {g : Grid s} {E : RField s} (h : g.HoldsReal E) (hn : 3 ≤ s.nt)
    (hw : ∑ p : Fin s.n0 × Fin s.n1 × Fin s.nt,
      fullFieldWeights g (fun i j k => (E i j k : ℂ)) p.1 p.2.1 p.2.2 ≠ 0) :
    ∃ (w W : ℝ) (g' : Grid s), fieldToEnvelopeNd (.skimage U) g = (.ok w, g') ∧ (computeLaserEnergy g).1 = .ok W ∧
      (computeLaserEnergy g').1 = .ok (W - Spec.edgeEnergy g E) := by
  obtain ⟨r, hr⟩ := phaseRateNd_skimage hn U (fun i j k => (E i j k : ℂ)) g.t.pts
  obtain ⟨o, v, hf⟩ := getFrequencyNd_real h hr hw none 0.2 5.0
  obtain ⟨g', e, h1, h2, h3⟩ := fieldToEnvelopeNd_real h hf
  exact ⟨_, _, g', e, by rw [energy_real h], envelope_energy (by omega) h1 h2 h3⟩

omit [Phys] in
/-- `mean² + alternating²` is at most the mean square -/
theorem edge_le {n : ℕ} (hn : 0 < n) (x : Fin n → ℝ) :
    n * (Spec.mean x ^ 2 + Spec.alternating x ^ 2) ≤ ∑ k, x k ^ 2 := by
  have h1 := hilbertTransform_sq hn x
  have h2 : ∑ k, x k ^ 2 ≤ ∑ k, ‖hilbertTransform x k‖ ^ 2 := by
    refine Finset.sum_le_sum fun k _ => ?_
    have h := Complex.abs_re_le_norm (hilbertTransform x k)
    rw [hilbertTransform_re] at h
    calc x k ^ 2 = |x k| ^ 2 := (sq_abs _).symm
      _ ≤ _ := pow_le_pow_left₀ (abs_nonneg _) h 2
  linarith

theorem edgeEnergy_bounds {g : Grid s} (hV : ∀ j, 0 ≤ g.cellVolume j) (hn : 0 < s.nt) (E : RField s) :
    0 ≤ Spec.edgeEnergy g E ∧ Spec.edgeEnergy g E ≤ (∑ i, ∑ j, ∑ k, g.cellVolume j * eps0 * E i j k ^ 2) / 2 := by
  have he := eps0_pos
  constructor
  · unfold Spec.edgeEnergy
    refine mul_nonneg (by positivity) (Finset.sum_nonneg fun i _ => Finset.sum_nonneg fun j _ => ?_)
    have := hV j
    positivity
  · unfold Spec.edgeEnergy
    rw [Finset.mul_sum, Finset.sum_div]
    refine Finset.sum_le_sum fun i _ => ?_
    rw [Finset.mul_sum, Finset.sum_div]
    refine Finset.sum_le_sum fun j _ => ?_
    rw [← Finset.mul_sum]
    have := mul_le_mul_of_nonneg_left (edge_le hn (E i j)) (mul_nonneg (hV j) he.le)
    linarith

/-- **C153** (bounds). On grids with non-negative cell volumes the envelope has at most the energy of the field and at least half
of it; and exactly the energy of the field if the field has no constant and no alternating part in any cell. -/
theorem C153_bounds {g : Grid s} {E : RField s} (h : g.HoldsReal E) (hn : 3 ≤ s.nt) (hV : ∀ j, 0 ≤ g.cellVolume j)
    (hw : ∑ p : Fin s.n0 × Fin s.n1 × Fin s.nt,
      fullFieldWeights g (fun i j k => (E i j k : ℂ)) p.1 p.2.1 p.2.2 ≠ 0) :
    ∃ (w W W' : ℝ) (g' : Grid s), fieldToEnvelope g = (.ok w, g') ∧ (computeLaserEnergy g).1 = .ok W ∧
      (computeLaserEnergy g').1 = .ok W' ∧ W / 2 ≤ W' ∧ W' ≤ W ∧
      ((∀ i j, Spec.mean (E i j) = 0 ∧ Spec.alternating (E i j) = 0) → W' = W) := by
  obtain ⟨w, W, g', e, h1, h2⟩ := C153_energy h hn hw
  have hW : W = ∑ i, ∑ j, ∑ k, g.cellVolume j * eps0 * E i j k ^ 2 := by
    rw [energy_real h] at h1
    injection h1 with h1
    exact h1.symm
  obtain ⟨b1, b2⟩ := edgeEnergy_bounds hV (by omega) E
  rw [← hW] at b2
  refine ⟨w, W, _, g', e, h1, h2, by linarith, by linarith, fun hz => ?_⟩
  unfold Spec.edgeEnergy
  simp only [hz]
  norm_num

end

/-- the hypotheses of `C153_bounds` are met by the field `(1, 0, -1)` in every cell, which has no constant part: its envelope has
exactly its energy -/
example [Phys] : ∃ (g g' : Grid ⟨2, 2, 3⟩) (E : RField ⟨2, 2, 3⟩) (w W : ℝ), g.HoldsReal E ∧ E 0 1 2 = -1 ∧
    fieldToEnvelope g = (.ok w, g') ∧ (computeLaserEnergy g).1 = .ok W ∧ (computeLaserEnergy g').1 = .ok W := by
  let E : RField ⟨2, 2, 3⟩ := fun _ _ => ![1, 0, -1]
  obtain ⟨w, W, W', g', e, h1, h2, -, -, h3⟩ := C153_bounds (Grid.holdingReal_holds (.xyt axis01 axis01) axis012 E) (by simp)
    (fun j => by
      simp only [Grid.cellVolume, Grid.holdingReal, cellVolumeXYT, axis01, axis012]
      have := Phys.c_pos
      positivity) (by
    simp only [fullFieldWeights, Grid.holdingReal, Fintype.sum_prod_type, Fin.sum_univ_succ]
    simp [E])
  refine ⟨_, g', E, w, W, Grid.holdingReal_holds _ _ _, rfl, e, h1, ?_⟩
  rw [h2, h3 fun i j => ⟨?_, ?_⟩]
  · simp [Spec.mean, E, Fin.sum_univ_succ]
  · simp [Spec.alternating]

/-- a field with a constant part: its envelope has less energy than the field -/
example : Spec.mean ![1, 1, (-1 : ℝ)] = 1 / 3 ∧ Spec.alternating ![1, 1, 1, (-1 : ℝ)] = 1 / 2 := by
  simp [Spec.mean, Spec.alternating, Fin.sum_univ_succ]
  norm_num

end Lasy
