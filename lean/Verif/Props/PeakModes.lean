import Verif.Props.FullField
import Verif.Spec.OpenPMD

/-!
# Property C155: `normalize(A, "field")` in `rt` geometry with several azimuthal modes

`normalize_peak_field_amplitude` documents `peak_field_amplitude` as the "peak field amplitude of the laser
pulse after normalization". In `rt` geometry the code takes the maximum over the stored *modes*, not over the
field `∑_m f_m e^{-imθ}` they stand for.
-/

namespace Lasy
open Spec Phys Complex

variable [Phys]

omit [Phys] in
/-- a single mode is the mean of the field over `2n-1` equidistant angles -/
theorem mode_eq_mean {n nr nt : ℕ} (hn : 1 ≤ n) (f : Fin (2 * n - 1) → Fin nr → Fin nt → ℂ)
    (i : Fin (2 * n - 1)) (j : Fin nr) (k : Fin nt) :
    f i j k * ((2 * n - 1 : ℕ) : ℂ) = ∑ q : Fin (2 * n - 1),
      fieldAtAngle f (2 * Real.pi / (2 * n - 1 : ℕ) * (q : ℕ)) j k *
        chr (2 * n - 1) ((q : ℕ) * modeAt n i) := by
  have hN : 2 * n - 1 ≠ 0 := by omega
  have hNc : ((2 * n - 1 : ℕ) : ℂ) ≠ 0 := by exact_mod_cast hN
  have e1 : ∀ q : Fin (2 * n - 1), fieldAtAngle f (2 * Real.pi / (2 * n - 1 : ℕ) * (q : ℕ)) j k *
        chr (2 * n - 1) ((q : ℕ) * modeAt n i) =
      ∑ i', f i' j k * chr (2 * n - 1) ((q : ℕ) * (modeAt n i - modeAt n i')) := by
    intro q
    unfold fieldAtAngle
    rw [Finset.sum_mul]
    refine Finset.sum_congr rfl fun i' _ => ?_
    rw [mul_assoc]
    congr 1
    simp only [chr, ← Complex.exp_add]
    congr 1
    rw [show ((2 * Real.pi / ((2 * n - 1 : ℕ) : ℝ) * ((q : ℕ) : ℝ) : ℝ) : ℂ) =
      2 * (Real.pi : ℂ) / ((2 * n - 1 : ℕ) : ℂ) * ((q : ℕ) : ℂ) by simp]
    rw [Int.cast_mul, Int.cast_mul, Int.cast_sub]
    generalize ((2 * n - 1 : ℕ) : ℂ) = N at hNc
    push_cast
    field_simp
    ring
  rw [Finset.sum_congr rfl fun q _ => e1 q, Finset.sum_comm]
  simp only [← Finset.mul_sum]
  rw [Finset.sum_eq_single i]
  · rw [sum_chr hN, if_pos (by simp)]
  · intro i' _ hne
    rw [sum_chr hN, if_neg, mul_zero]
    rintro ⟨z, hz⟩
    apply hne
    have h1 := i.2
    have h2 := i'.2
    have hm : ∀ i : Fin (2 * n - 1), -(n : ℤ) < modeAt n i ∧ modeAt n i < n := by
      intro i
      have := i.2
      unfold modeAt
      split <;> omega
    have a := hm i
    have b := hm i'
    have hz0 : z = 0 := by
      have hc : ((2 * n - 1 : ℕ) : ℤ) = 2 * n - 1 := by omega
      rw [hc] at hz
      rcases lt_trichotomy z 0 with h | h | h
      · nlinarith
      · exact h
      · nlinarith
    have he : modeAt n i = modeAt n i' := by rw [hz0] at hz; linarith
    unfold modeAt at he
    apply Fin.ext
    split_ifs at he <;> omega
  · simp

/-- **C155, what is true.** After `normalize(A, "field")` of a laser with a non-zero field in `rt` geometry with
`n` modes, the largest field over all angles, radii and times is between `A` and `(2n-1) A`: with a single mode
it is exactly `A`. -/
theorem C155_bounds_partial {n nr nt : ℕ} (hn : 1 ≤ n) (l : Laser ⟨2 * n - 1, nr, nt⟩)
    (f : Field ⟨2 * n - 1, nr, nt⟩) (h : l.Has f) (A : ℝ) (hA : 0 ≤ A) (hf : ∃ i j k, f i j k ≠ 0) :
    ∃ (l' : Laser ⟨2 * n - 1, nr, nt⟩) (f' : Field ⟨2 * n - 1, nr, nt⟩),
      Laser.normalize (some A) "field" l = (.ok (), l') ∧ l'.Has f' ∧
      (∀ θ j k, ‖fieldAtAngle f' θ j k‖ ≤ (2 * n - 1) * A) ∧
      (∃ θ j k, A ≤ ‖fieldAtAngle f' θ j k‖) ∧
      (n = 1 → IsGreatest {x | ∃ θ j k, x = ‖fieldAtAngle f' θ j k‖} A) := by
  obtain ⟨l', a, f', e, -, -, h', ⟨i0, j0, k0, hm⟩, hub⟩ := C16_normalize_field l f h A hA hf
  have hNr : ((2 * n - 1 : ℕ) : ℝ) = 2 * n - 1 := by rw [Nat.cast_sub (by omega)]; push_cast; rfl
  have up : ∀ θ j k, ‖fieldAtAngle f' θ j k‖ ≤ (2 * n - 1) * A := by
    intro θ j k
    calc ‖fieldAtAngle f' θ j k‖ ≤ ∑ i : Fin (2 * n - 1), ‖f' i j k * exp (-I * modeAt n i * θ)‖ := norm_sum_le _ _
      _ ≤ ∑ _i : Fin (2 * n - 1), A := by
          refine Finset.sum_le_sum fun i _ => ?_
          rw [norm_mul, show -I * (modeAt n i : ℂ) * (θ : ℂ) = ((-(modeAt n i) * θ : ℝ) : ℂ) * I by
            push_cast; ring, Complex.norm_exp_ofReal_mul_I, mul_one]
          exact hub ⟨i, j, k, rfl⟩
      _ = (2 * n - 1) * A := by simp [hNr]
  have low : ∃ θ j k, A ≤ ‖fieldAtAngle f' θ j k‖ := by
    by_contra hcon
    push Not at hcon
    have hmean := mode_eq_mean hn f' i0 j0 k0
    have hpos : (0 : ℝ) < (2 * n - 1 : ℕ) := by exact_mod_cast (show 0 < 2 * n - 1 by omega)
    have h1 : A * (2 * n - 1 : ℕ) = ‖∑ q : Fin (2 * n - 1),
        fieldAtAngle f' (2 * Real.pi / (2 * n - 1 : ℕ) * (q : ℕ)) j0 k0 *
          chr (2 * n - 1) ((q : ℕ) * modeAt n i0)‖ := by
      rw [← hmean, norm_mul, ← hm, Complex.norm_natCast]
    have h2 : A * (2 * n - 1 : ℕ) < ∑ _q : Fin (2 * n - 1), A := by
      rw [h1]
      refine lt_of_le_of_lt (norm_sum_le _ _) (Finset.sum_lt_sum_of_nonempty ?_ ?_)
      · exact ⟨i0, Finset.mem_univ _⟩
      · intro q _
        rw [norm_mul, norm_chr, mul_one]
        exact hcon _ _ _
    simp [mul_comm] at h2
  refine ⟨l', f', e, h', up, low, ?_⟩
  rintro rfl
  have up1 : ∀ θ j k, ‖fieldAtAngle f' θ j k‖ ≤ A := by
    intro θ j k
    have := up θ j k
    norm_num at this
    exact this
  obtain ⟨θ, j, k, hl⟩ := low
  exact ⟨⟨θ, j, k, le_antisymm hl (up1 θ j k)⟩, by rintro x ⟨θ, j, k, rfl⟩; exact up1 θ j k⟩

/-- **C155 is false of the code.** For every profile of the form `x G(x² + y², t)` (a horizontally odd
Hermite–Gauss mode, say) that does not vanish on the grid, stored exactly in `rt` geometry with `n ≥ 2` modes,
`normalize(A, "field")` succeeds and the largest field over all angles, radii and times is `2 A`. -/
theorem C155_refuted (lo0 lo1 hi0 hi1 : ℝ) (nr nt n : ℕ) (h0 : 2 ≤ nr) (h1 : 2 ≤ nt)
    (hn : 2 ≤ n) (nTheta : Option ℕ) (hN : ∀ N, nTheta = some N → 2 * n - 1 ≤ N)
    (p : ProfileObj) (hp : p.laserEnergy = none) (G : ℝ → ℝ → ℂ)
    (hF : p.Pointwise fun x y t => x * G (x ^ 2 + y ^ 2) t)
    (hne : ∃ (j : Fin nr) (k : Fin nt), linspace lo0 hi0 nr j ≠ 0 ∧
      G (linspace lo0 hi0 nr j ^ 2) (linspace lo1 hi1 nt k) ≠ 0) (A : ℝ) (hA : 0 < A) :
    ∃ (l l' : Laser ⟨2 * n - 1, nr, nt⟩) (f f' : Field ⟨2 * n - 1, nr, nt⟩),
      Laser.init "rt" [lo0, lo1] [hi0, hi1] [nr, nt] p (some n) nTheta = .ok ⟨_, l⟩ ∧ l.Has f ∧
      (∀ θ j k, fieldAtAngle f θ j k = (linspace lo0 hi0 nr j * Real.cos θ : ℝ) *
        G (linspace lo0 hi0 nr j ^ 2) (linspace lo1 hi1 nt k)) ∧
      Laser.normalize (some A) "field" l = (.ok (), l') ∧ l'.Has f' ∧
      IsGreatest {x | ∃ θ j k, x = ‖fieldAtAngle f' θ j k‖} (2 * A) := by
  let cm : ℤ → ℝ → ℝ → ℂ := fun m r t => if m = 1 ∨ m = -1 then r * G (r ^ 2) t / 2 else 0
  have hcmsum : ∀ r θ t : ℝ, ∑ m ∈ Finset.Ioo (-(n : ℤ)) n, cm m r t * exp (-I * m * θ) =
      (r * Real.cos θ : ℝ) * G (r ^ 2) t := by
    intro r θ t
    have hsub : ({-1, 1} : Finset ℤ) ⊆ Finset.Ioo (-(n : ℤ)) n := by
      intro m hm
      simp only [Finset.mem_insert, Finset.mem_singleton] at hm
      rw [Finset.mem_Ioo]
      omega
    rw [← Finset.sum_subset hsub]
    · rw [Finset.sum_pair (by norm_num)]
      have h1 := Complex.two_cos (θ : ℂ)
      simp only [cm]
      norm_num
      rw [show I * (θ : ℂ) = θ * I by ring, show -((θ : ℂ) * I) = -θ * I by ring]
      linear_combination (-(r : ℂ) * G (r ^ 2) t / 2) * h1
    · intro m _ hm
      simp only [Finset.mem_insert, Finset.mem_singleton, not_or] at hm
      simp only [cm]
      rw [if_neg (by tauto), zero_mul]
  have hband : ∀ r θ t : ℝ, (fun x y t : ℝ => (x : ℂ) * G (x ^ 2 + y ^ 2) t) (r * Real.cos θ) (r * Real.sin θ) t =
      ∑ m ∈ Finset.Ioo (-(n : ℤ)) n, cm m r t * exp (-I * m * θ) := by
    intro r θ t
    rw [hcmsum]
    simp only
    rw [show (r * Real.cos θ) ^ 2 + (r * Real.sin θ) ^ 2 = r ^ 2 by
      have := Real.sin_sq_add_cos_sq θ
      linear_combination r ^ 2 * this]
  have hn1 : 1 ≤ n := by omega
  obtain ⟨l, f, hl, hf, hcm⟩ := C12_azimuthal_exact lo0 lo1 hi0 hi1 nr nt n h0 h1 hn1 nTheta hN p hp _ hF cm hband
  have hfi : ∀ i j k, f i j k = cm (modeAt n i) (linspace lo0 hi0 nr j) (linspace lo1 hi1 nt k) := by
    intro i j k
    obtain ⟨ha, hb⟩ := (modeAt_iff hn1 i (modeAt n i)).1 rfl
    exact hcm _ i ha hb j k
  have hang : ∀ θ j k, fieldAtAngle f θ j k = (linspace lo0 hi0 nr j * Real.cos θ : ℝ) *
        G (linspace lo0 hi0 nr j ^ 2) (linspace lo1 hi1 nt k) := by
    intro θ j k
    unfold fieldAtAngle
    rw [← hcmsum, ← sum_modes n fun m => cm m (linspace lo0 hi0 nr j) (linspace lo1 hi1 nt k) * exp (-I * m * θ)]
    exact Finset.sum_congr rfl fun i _ => by rw [hfi]
  obtain ⟨j0, k0, hr0, hG0⟩ := hne
  have hone : modeAt n ⟨1, by omega⟩ = 1 := by
    unfold modeAt
    rw [if_pos (by simp only; omega)]
    rfl
  have hone' : ∀ j k, f ⟨1, by simp only; omega⟩ j k =
      linspace lo0 hi0 nr j * G (linspace lo0 hi0 nr j ^ 2) (linspace lo1 hi1 nt k) / 2 := by
    intro j k
    rw [hfi, hone]
    simp [cm]
  have hfne : ∃ i j k, f i j k ≠ 0 := by
    refine ⟨⟨1, by simp only; omega⟩, j0, k0, ?_⟩
    rw [hone']
    refine div_ne_zero (mul_ne_zero ?_ hG0) two_ne_zero
    exact_mod_cast hr0
  obtain ⟨l', a, f', e, ha, rfl, h', ⟨i1, j1, k1, hm⟩, hub⟩ := C16_normalize_field l f hf A hA.le hfne
  refine ⟨l, l', f, _, hl, hf, hang, e, h', ?_⟩
  have hang' : ∀ θ j k, ‖fieldAtAngle (fun i j k => f i j k * (a : ℂ)) θ j k‖ =
      2 * ‖f ⟨1, by simp only; omega⟩ j k * (a : ℂ)‖ * |Real.cos θ| := by
    intro θ j k
    have : fieldAtAngle (fun i j k => f i j k * (a : ℂ)) θ j k = fieldAtAngle f θ j k * a := by
      unfold fieldAtAngle
      rw [Finset.sum_mul]
      exact Finset.sum_congr rfl fun i _ => by ring
    rw [this, hang, hone']
    have e2 : ((linspace lo0 hi0 nr j * Real.cos θ : ℝ) : ℂ) *
        G (linspace lo0 hi0 nr j ^ 2) (linspace lo1 hi1 nt k) * a =
        2 * (linspace lo0 hi0 nr j * G (linspace lo0 hi0 nr j ^ 2) (linspace lo1 hi1 nt k) / 2 * a) *
          ((Real.cos θ : ℝ) : ℂ) := by push_cast; ring
    rw [e2, norm_mul, norm_mul, Complex.norm_real, Real.norm_eq_abs, Complex.norm_two]
  constructor
  · refine ⟨0, j1, k1, ?_⟩
    rw [hang', Real.cos_zero, abs_one, mul_one]
    congr 1
    rw [hm]
    simp only [norm_mul]
    congr 1
    have hz : f i1 j1 k1 ≠ 0 := by
      intro hz
      simp [hz] at hm
      exact hA.ne' hm
    rw [hone', hfi]
    rw [hfi] at hz
    simp only [cm] at hz ⊢
    split_ifs at hz ⊢
    · rfl
    · exact absurd rfl hz
  · rintro x ⟨θ, j, k, rfl⟩
    rw [hang']
    have hb : ‖f ⟨1, by simp only; omega⟩ j k * (a : ℂ)‖ ≤ A := hub ⟨_, j, k, rfl⟩
    have hc := Real.abs_cos_le_one θ
    have := norm_nonneg (f ⟨1, by simp only; omega⟩ j k * (a : ℂ))
    nlinarith [abs_nonneg (Real.cos θ)]

/-- The hypotheses of `C155_refuted` are met: `E = x` on `r ∈ [0, 1]`, `t ∈ [0, 1]` with 2 modes, normalized to
`A = 1`: the physical peak is 2. -/
example : ∃ (l l' : Laser ⟨2 * 2 - 1, 2, 2⟩) (f f' : Field ⟨2 * 2 - 1, 2, 2⟩),
      Laser.init "rt" [0, 0] [1, 1] [2, 2] tiltProfile (some 2) none = .ok ⟨_, l⟩ ∧ l.Has f ∧
      (∀ θ j k, fieldAtAngle f θ j k = (linspace 0 1 2 j * Real.cos θ : ℝ) * 1) ∧
      Laser.normalize (some 1) "field" l = (.ok (), l') ∧ l'.Has f' ∧
      IsGreatest {x | ∃ θ j k, x = ‖fieldAtAngle f' θ j k‖} (2 * 1) :=
  C155_refuted 0 0 1 1 2 2 2 le_rfl le_rfl le_rfl none (by simp) tiltProfile rfl (fun _ _ => 1)
    (fun _ _ _ _ _ _ _ _ _ => by simp [tiltProfile]) ⟨1, 0, by simp [linspace]; norm_num, one_ne_zero⟩ 1 one_pos

end Lasy
