import Verif.Props.FullFieldFine

/-!
# Property C160: the image of a cylindrical laser made from a profile of any shape
-/

namespace Lasy
open Spec Phys Complex

variable [Phys]

/-- **C160** (fine grids, cylindrical, profiles of any shape). For every continuous profile and any number `n` of azimuthal modes,
the image at one of the `2n-1` sampled angles `θ = 2 pi q / (2n-1)` approximates the real field of the profile itself: at the angle
`θ` above the axis, at `-θ` below it. The number of time samples needed does not depend on `n`. -/
theorem C160_fine_rt_angles (R lo1 hi1 : ℝ) (hR : 0 ≤ R) (h1 : lo1 < hi1) (p : ProfileObj) (hp : p.laserEnergy = none)
    (F : ℝ → ℝ → ℝ → ℂ) (hF : p.Pointwise F) (hcont : Continuous fun q : ℝ × ℝ × ℝ => F q.1 q.2.1 q.2.2) {ε : ℝ} (hε : 0 < ε) :
    ∃ M : ℕ, ∀ nt ≥ M, ∀ nr ≥ 2, ∀ n ≥ 1, ∃ l : Laser ⟨2 * n - 1, nr, nt⟩,
      Laser.init "rt" [0, lo1] [R, hi1] [nr, nt] p (some n) none = .ok ⟨_, l⟩ ∧
      ∀ (q : Fin (2 * n - 1)) (θ slice : ℝ) (ax : String) (N : ℕ), θ = 2 * Real.pi * (q : ℕ) / ((2 * n - 1 : ℕ) : ℝ) →
        ∃ (v : Fin (2 * nr - 1) → Fin N → ℝ) (l' : Laser ⟨2 * n - 1, nr, nt⟩),
        getFullField θ slice ax (some N) l = (.ok (some ⟨2 * nr - 1, N, v, (lo1, hi1, -R, R)⟩), l') ∧
        ∀ (j : Fin nr) k,
          |v ⟨nr - 1 + j, by omega⟩ k - (F (linspace 0 R nr j * Real.cos θ) (linspace 0 R nr j * Real.sin θ) (linspace lo1 hi1 N k) *
            exp (-I * p.omega0 * linspace lo1 hi1 N k)).re| ≤ ε ∧
          (0 < (j : ℕ) →
            |v ⟨nr - 1 - j, by omega⟩ k - (F (linspace 0 R nr j * Real.cos θ) (-(linspace 0 R nr j * Real.sin θ))
              (linspace lo1 hi1 N k) * exp (-I * p.omega0 * linspace lo1 hi1 N k)).re| ≤ ε) := by
  have hpi := Real.pi_pos
  let H : ℝ × ℝ × ℝ → ℂ := fun q => F (q.1 * Real.cos q.2.1) (q.1 * Real.sin q.2.1) q.2.2
  have hH : Continuous H := hcont.comp (by fun_prop :
    Continuous fun q : ℝ × ℝ × ℝ => (q.1 * Real.cos q.2.1, q.1 * Real.sin q.2.1, q.2.2))
  have hK : IsCompact (Set.Icc 0 R ×ˢ (Set.Icc 0 (2 * Real.pi) ×ˢ Set.Icc lo1 hi1)) :=
    isCompact_Icc.prod (isCompact_Icc.prod isCompact_Icc)
  obtain ⟨δ, hδ, hu⟩ := Metric.uniformContinuousOn_iff_le.1 (hK.uniformContinuousOn_of_continuous hH.continuousOn) (ε / 10)
    (by positivity)
  obtain ⟨M, hM⟩ := exists_nat_gt ((hi1 - lo1) / δ)
  refine ⟨max 2 (M + 1), fun nt hnt nr hr n hn => ?_⟩
  have ht2 : 2 ≤ nt := le_trans (le_max_left _ _) hnt
  have htM : M + 1 ≤ nt := le_trans (le_max_right _ _) hnt
  have hstep : (hi1 - lo1) / ((nt : ℝ) - 1) ≤ δ := by
    have h3 : ((M : ℕ) : ℝ) + 1 ≤ nt := by exact_mod_cast htM
    have h4 : 0 < (hi1 - lo1) / δ := div_pos (by linarith) hδ
    have h5 : (2 : ℝ) ≤ nt := by exact_mod_cast ht2
    rw [div_lt_iff₀ hδ] at hM
    rw [div_le_iff₀ (by linarith)]
    nlinarith
  obtain ⟨l, f, hl, hf, hval⟩ := C13_interpolates 0 lo1 R hi1 nr nt n hr ht2 hn p hp F hF
  obtain ⟨⟨hm, r, hgeo, hrh⟩, htl, hth, hpts, hpr⟩ := init_rt_axes hl
  have hNp : (0 : ℝ) < ((2 * n - 1 : ℕ) : ℝ) := by
    have : 0 < 2 * n - 1 := by omega
    exact_mod_cast this
  have henv : ∀ (q : Fin (2 * n - 1)) (θ : ℝ) j k, θ = 2 * Real.pi * (q : ℕ) / ((2 * n - 1 : ℕ) : ℝ) →
      envelopeAt (s := ⟨2 * n - 1, nr, nt⟩) hm f θ j k = H (linspace 0 R nr j, θ, linspace lo1 hi1 nt k) := by
    intro q θ j k hθ
    have := hval q j k θ hθ
    unfold envelopeAt
    simp only [H]
    rw [← this]
    rfl
  have near : ∀ (q : Fin (2 * n - 1)) (θ : ℝ) (j : Fin nr) (N : ℕ) (k : Fin N) (k' : Fin nt),
      θ = 2 * Real.pi * (q : ℕ) / ((2 * n - 1 : ℕ) : ℝ) →
      |linspace lo1 hi1 nt k' - linspace lo1 hi1 N k| ≤ (hi1 - lo1) / ((nt : ℝ) - 1) →
      ‖H (linspace 0 R nr j, θ, linspace lo1 hi1 nt k') - H (linspace 0 R nr j, θ, linspace lo1 hi1 N k)‖ ≤ ε / 10 := by
    intro q θ j N k k' hθ hk
    have hq : ((q : ℕ) : ℝ) ≤ ((2 * n - 1 : ℕ) : ℝ) := by exact_mod_cast q.2.le
    have hmem : θ ∈ Set.Icc 0 (2 * Real.pi) := by
      rw [hθ]
      refine ⟨by positivity, ?_⟩
      rw [div_le_iff₀ hNp]
      exact mul_le_mul_of_nonneg_left hq (by positivity)
    have := hu (linspace 0 R nr j, θ, linspace lo1 hi1 nt k') ⟨linspace_mem hR j, hmem, linspace_mem h1.le k'⟩
      (linspace 0 R nr j, θ, linspace lo1 hi1 N k) ⟨linspace_mem hR j, hmem, linspace_mem h1.le k⟩ (by
        simp only [Prod.dist_eq, dist_self, Real.dist_eq]
        exact max_le hδ.le (max_le hδ.le (hk.trans hstep)))
    rwa [dist_eq_norm] at this
  refine ⟨l, hl, fun q θ slice ax N hθ => ?_⟩
  obtain ⟨v, l', e, -, hv⟩ := C160_rt l f hf ht2 (by rw [htl, hth]; exact h1) (by rw [hpts, htl, hth]; exact fun _ => rfl) hgeo
    θ slice ax N
  rw [htl, hth, hrh] at e
  rw [htl, hth, hpts, hpr] at hv
  refine ⟨v, l', e, fun j k => ?_⟩
  -- the sampled angle that is the same as `-θ`
  have hback : ∃ (q' : Fin (2 * n - 1)) (θ' : ℝ), θ' = 2 * Real.pi * (q' : ℕ) / ((2 * n - 1 : ℕ) : ℝ) ∧
      Real.cos θ' = Real.cos θ ∧ Real.sin θ' = -Real.sin θ ∧ ∀ m : ℤ, exp (-I * m * ((-θ : ℝ) : ℂ)) = exp (-I * m * (θ' : ℂ)) := by
    rcases Nat.eq_zero_or_pos (q : ℕ) with h0 | h0
    · refine ⟨q, θ, hθ, rfl, ?_, ?_⟩
      · rw [hθ, h0]; simp
      · intro m; rw [hθ, h0]; simp
    · refine ⟨⟨2 * n - 1 - q, by omega⟩, 2 * Real.pi - θ, ?_, by rw [Real.cos_two_pi_sub], by rw [Real.sin_two_pi_sub], ?_⟩
      · rw [hθ]
        have : ((2 * n - 1 - (q : ℕ) : ℕ) : ℝ) = ((2 * n - 1 : ℕ) : ℝ) - ((q : ℕ) : ℝ) := by
          rw [Nat.cast_sub q.2.le]
        simp only [this]
        field_simp
      · intro m
        rw [show -I * (m : ℂ) * ((2 * Real.pi - θ : ℝ) : ℂ) = -I * m * ((-θ : ℝ) : ℂ) + ((-m : ℤ) : ℂ) * (2 * Real.pi * I) by
          push_cast; ring, exp_periodic.int_mul (-m) _]
  obtain ⟨q', θ', hθ', hcos, hsin, hexp⟩ := hback
  obtain ⟨c1, -⟩ := hv j k (H (linspace 0 R nr j, θ, linspace lo1 hi1 N k)) (ε / 10)
  obtain ⟨-, c2⟩ := hv j k (H (linspace 0 R nr j, θ', linspace lo1 hi1 N k)) (ε / 10)
  have c1 := c1 fun k' hk' => by rw [henv q θ j k' hθ]; exact near q θ j N k k' hθ hk'
  constructor
  · simp only [H] at c1
    linarith
  · intro h0
    have hm' : ∀ k', envelopeAt (s := ⟨2 * n - 1, nr, nt⟩) hm f (-θ) j k' = envelopeAt (s := ⟨2 * n - 1, nr, nt⟩) hm f θ' j k' := by
      intro k'
      unfold envelopeAt
      exact Finset.sum_congr rfl fun i _ => by rw [hexp]
    have c2 := c2 h0 fun k' hk' => by rw [hm', henv q' θ' j k' hθ']; exact near q' θ' j N k k' hθ' hk'
    simp only [H, hcos, hsin, mul_neg] at c2
    linarith

/-- a profile that is not round: `E = x + i y t` -/
noncomputable def saddleProfile : ProfileObj where
  omega0 := 1
  lambda0 := 1
  pol := (1, 0)
  laserEnergy := none
  dtype := .c128
  evaluate := fun x y t i j k => (x i j k : ℂ) + I * y i j k * t i j k

/-- the hypotheses are met by a profile that is not round -/
example {ε : ℝ} (hε : 0 < ε) : ∃ M : ℕ, ∀ nt ≥ M, ∃ l : Laser ⟨5, 10, nt⟩,
    Laser.init "rt" [0, -1] [3, 1] [10, nt] saddleProfile (some 3) none = .ok ⟨_, l⟩ ∧
    ∃ (v : Fin 19 → Fin 50 → ℝ) (l' : Laser ⟨5, 10, nt⟩),
      getFullField (2 * Real.pi * (1 : ℕ) / (5 : ℕ)) 0 "x" (some 50) l = (.ok (some ⟨19, 50, v, (-1, 1, -3, 3)⟩), l') := by
  obtain ⟨M, h⟩ := C160_fine_rt_angles 3 (-1) 1 (by norm_num) (by norm_num) saddleProfile rfl
    (fun x y t => (x : ℂ) + I * y * t) (fun _ _ _ _ _ _ => fun _ _ _ => rfl) (by fun_prop) hε
  refine ⟨M, fun nt hnt => ?_⟩
  obtain ⟨l, hl, h⟩ := h nt hnt 10 (by norm_num) 3 (by norm_num)
  obtain ⟨v, l', e, -⟩ := h 1 _ 0 "x" 50 rfl
  exact ⟨l, hl, v, l', e⟩

end Lasy
