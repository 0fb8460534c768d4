import Verif.Props.FieldNormFine
import Verif.Props.Aperture

/-!
# Property C156 on cylindrical grids: `normalize(A, "field")` of round beams
-/

namespace Lasy
open Spec Phys Complex

variable [Phys]

/-- **C156** (round beams on cylindrical grids). Let the largest modulus of a continuous round profile in the cylinder be
`M > 0`, and let the profile define no energy or any positive energy. When the numbers of radial and temporal points grow,
`normalize(A, "field")` gives, at all grid points at once and for every number of modes, the profile times `A / M` in mode 0 and
zero in all other modes, and the energy of the laser converges to `(A/M)²` times the energy of the profile in the cylinder. -/
theorem C156_field_rt (R lo1 hi1 : ℝ) (hR : 0 < R) (h1 : lo1 < hi1) (p : ProfileObj)
    (hp : p.laserEnergy = none ∨ ∃ E > 0, p.laserEnergy = some (some E)) (G : ℝ → ℝ → ℂ)
    (hF : p.Pointwise fun x y t => G (Real.sqrt (x ^ 2 + y ^ 2)) t) (hcont : Continuous fun q : ℝ × ℝ => G q.1 q.2)
    (M : ℝ) (hM : IsGreatest {a | ∃ r ∈ Set.Icc 0 R, ∃ t ∈ Set.Icc lo1 hi1, a = ‖G r t‖} M) (hMp : 0 < M)
    (Ecyl : ℝ) (hcyl : Ecyl = eps0 / 2 * ∫ r in (0 : ℝ)..R, ∫ t in lo1..hi1, ‖G r t‖ ^ 2 * (2 * Real.pi * r * c))
    (hpos : 0 < Ecyl) (A : ℝ) {ε : ℝ} (hε : 0 < ε) :
    ∃ N : ℕ, ∀ nr ≥ N, ∀ nt ≥ N, ∀ n ≥ 1, ∃ (l l' : Laser ⟨2 * n - 1, nr, nt⟩) (f : Field ⟨2 * n - 1, nr, nt⟩) (E' : ℝ),
      Laser.init "rt" [0, lo1] [R, hi1] [nr, nt] p (some n) none = .ok ⟨_, l⟩ ∧
      Laser.normalize (some A) "field" l = (.ok (), l') ∧ l'.Has f ∧ l'.energy = .ok E' ∧
      (∀ (i : Fin (2 * n - 1)) j k, ((i : ℕ) = 0 →
          ‖f i j k - (A / M) * G (linspace 0 R nr j) (linspace lo1 hi1 nt k)‖ ≤ ε) ∧
        ((i : ℕ) ≠ 0 → f i j k = 0)) ∧
      |E' - (A / M) ^ 2 * Ecyl| ≤ ε := by
  have he0 := eps0_pos
  obtain ⟨⟨x0, hx0, t0, ht0, hM0⟩, hMub⟩ := hM
  have hub : ∀ x ∈ Set.Icc 0 R, ∀ t ∈ Set.Icc lo1 hi1, ‖G x t‖ ≤ M := fun x hx t ht => hMub ⟨x, hx, t, ht, rfl⟩
  have hc1 : ContinuousAt (fun x : ℝ => A / x) M := continuousAt_const.div continuousAt_id hMp.ne'
  have hc2 : ContinuousAt (fun q : ℝ × ℝ => (A / q.1) ^ 2 * q.2) (M, Ecyl) :=
    ((continuousAt_const.div continuousAt_fst hMp.ne').pow 2).mul continuousAt_snd
  obtain ⟨δ1, hδ1, hc1⟩ := Metric.continuousAt_iff.1 hc1 (ε / M) (by positivity)
  obtain ⟨δ2, hδ2, hc2⟩ := Metric.continuousAt_iff.1 hc2 ε hε
  obtain ⟨δ, hδp, hδ1', hδ2', hδM, hδE⟩ : ∃ δ : ℝ, 0 < δ ∧ δ < δ1 ∧ δ < δ2 ∧ δ < M ∧ δ < Ecyl := by
    refine ⟨min (min δ1 δ2) (min M Ecyl) / 2, by positivity, ?_, ?_, ?_, ?_⟩
    all_goals
      have a1 := min_le_left (min δ1 δ2) (min M Ecyl)
      have a2 := min_le_right (min δ1 δ2) (min M Ecyl)
      have a3 := min_le_left δ1 δ2
      have a4 := min_le_right δ1 δ2
      have a5 := min_le_left M Ecyl
      have a6 := min_le_right M Ecyl
      linarith
  have hcw := hcont.norm.continuousAt (x := (x0, t0))
  obtain ⟨η, hη, hcl⟩ := Metric.continuousAt_iff.1 hcw δ hδp
  obtain ⟨Nx, hNx, kx⟩ := near_node hR.le hx0 hη
  obtain ⟨Nt, hNt, kt⟩ := near_node h1.le ht0 hη
  have hGc : Continuous fun q : ℝ × ℝ => ‖G q.1 q.2‖ ^ 2 * (2 * Real.pi * q.1 * c) := (hcont.norm.pow 2).mul (by fun_prop)
  obtain ⟨N1, hN1, key⟩ := rect_lin hR.le h1.le (G := fun r t => ‖G r t‖ ^ 2 * (2 * Real.pi * r * c)) hGc
    (ε := δ / (eps0 / 2)) (by positivity)
  refine ⟨N1 + Nx + Nt, fun nr hr nt ht n hn => ?_⟩
  obtain ⟨l0, f0, hl0, hh, hval, hE0⟩ := round_unscaled R lo1 hi1 hR.le nr nt n (by omega) (by omega) hn
    { p with laserEnergy := none } rfl G hF
  have hb := key nr (by omega) nt (by omega)
  set S := linSum 0 R nr fun r => linSum lo1 hi1 nt fun t => ‖G r t‖ ^ 2 * (2 * Real.pi * r * c) with hS
  set E0 := eps0 / 2 * S with hE0d
  have hbE : |E0 - Ecyl| ≤ δ := by
    rw [hcyl, hE0d, ← mul_sub, abs_mul, abs_of_pos (by positivity : 0 < eps0 / 2)]
    calc _ ≤ eps0 / 2 * (δ / (eps0 / 2)) := mul_le_mul_of_nonneg_left hb (by positivity)
      _ = δ := by field_simp
  have hE0p : 0 < E0 := by
    have := (abs_le.1 hbE).1
    linarith
  obtain ⟨j1, hxj⟩ := kx nr (by omega)
  obtain ⟨k1, htk⟩ := kt nt (by omega)
  have hz : 0 < 2 * n - 1 := by omega
  have hKG := absMax_isGreatest f0 ⟨hz, j1.pos, k1.pos⟩
  set K := absMax f0 with hKdef
  have hfM : ∀ i j k, ‖f0 i j k‖ ≤ M := by
    intro i j k
    rw [hval]
    split_ifs
    · exact hub _ (linspace_mem hR.le j) _ (linspace_mem h1.le k)
    · simpa using hMp.le
  have hKle : K ≤ M := by
    obtain ⟨⟨i, j, k, hK⟩, -⟩ := hKG
    rw [hK]
    exact hfM i j k
  have hKge : M - δ < K := by
    have := hcl (x := (linspace 0 R nr j1, linspace lo1 hi1 nt k1)) (by
      simp only [Prod.dist_eq, Real.dist_eq, max_lt_iff]
      exact ⟨hxj, htk⟩)
    simp only [Real.dist_eq] at this
    rw [← hM0] at this
    have hle : ‖f0 ⟨0, hz⟩ j1 k1‖ ≤ K := hKG.2 ⟨⟨0, hz⟩, j1, k1, rfl⟩
    rw [hval, if_pos rfl] at hle
    have := (abs_lt.1 this).1
    linarith
  have hKp : 0 < K := by linarith
  have hKd : dist K M < δ := by
    rw [Real.dist_eq, abs_sub_comm, abs_of_nonneg (by linarith)]
    linarith
  obtain ⟨l, a, ha, hl, hh', he'⟩ : ∃ (l : Laser ⟨2 * n - 1, nr, nt⟩) (a : ℝ), 0 < a ∧
      Laser.init "rt" [0, lo1] [R, hi1] [nr, nt] p (some n) none = .ok ⟨_, l⟩ ∧
      l.Has (fun i j k => f0 i j k * (a : ℂ)) ∧ l.energy = .ok (a ^ 2 * E0) := by
    rcases hp with hp | ⟨E, hE, hp⟩
    · refine ⟨l0, 1, one_pos, ?_, by simpa using hh, by simpa using hE0⟩
      rwa [show p = { p with laserEnergy := none } by rw [← hp]]
    · obtain ⟨l, hl, he, hf⟩ := scaled_field p (some n) none E hE.le hp l0 _ hh E0 hE0 hE0p hl0
      refine ⟨l, Real.sqrt (E / E0), Real.sqrt_pos.2 (by positivity), hl, hf, ?_⟩
      rw [he, Real.sq_sqrt (by positivity), div_mul_cancel₀ _ hE0p.ne']
  have hKG' : IsGreatest {x | ∃ i j k, x = ‖(fun i j k => f0 i j k * (a : ℂ) : Field ⟨2 * n - 1, nr, nt⟩) i j k‖} (K * a) := by
    have hn : ∀ i j k, ‖f0 i j k * (a : ℂ)‖ = ‖f0 i j k‖ * a := by
      intro i j k
      rw [norm_mul, Complex.norm_real, Real.norm_of_nonneg ha.le]
    obtain ⟨⟨i, j, k, hK⟩, hKub⟩ := hKG
    refine ⟨⟨i, j, k, ?_⟩, ?_⟩
    · simp only [hn]
      rw [← hK]
    · rintro x ⟨i, j, k, rfl⟩
      simp only [hn]
      exact mul_le_mul_of_nonneg_right (hKub ⟨i, j, k, rfl⟩) ha.le
  obtain ⟨l', hnm, hhas, hen⟩ := normField_exact l _ hh' A (K * a) hKG' (by positivity) he'
  refine ⟨l, l', _, _, hl, hnm, hhas, hen, fun i j k => ⟨fun hi => ?_, fun hi => ?_⟩, ?_⟩
  · have hFn := hub _ (linspace_mem hR.le j) _ (linspace_mem h1.le k)
    have hac : (a : ℂ) ≠ 0 := by exact_mod_cast ha.ne'
    have e : f0 i j k * (a : ℂ) * ((A / (K * a) : ℝ) : ℂ) = ((A / K : ℝ) : ℂ) * f0 i j k := by
      push_cast
      field_simp
    rw [e, hval, if_pos hi, show (A : ℂ) / M = ((A / M : ℝ) : ℂ) by push_cast; rfl, ← sub_mul, norm_mul, ← Complex.ofReal_sub,
      Complex.norm_real, Real.norm_eq_abs]
    have hAK := hc1 (x := K) (by linarith)
    rw [Real.dist_eq] at hAK
    calc _ ≤ ε / M * M := mul_le_mul hAK.le hFn (norm_nonneg _) (by positivity)
      _ = ε := by field_simp
  · simp only [hval, if_neg hi, zero_mul]
  · have e : (A / (K * a)) ^ 2 * (a ^ 2 * E0) = (A / K) ^ 2 * E0 := by
      field_simp
    rw [e]
    have := hc2 (x := (K, E0)) (by
      rw [Prod.dist_eq]
      refine max_lt (by linarith) ?_
      rw [Real.dist_eq]
      linarith)
    rw [Real.dist_eq] at this
    exact this.le

/-- the energy of a Gaussian in a large cylinder is near that in the whole space -/
theorem gauss_cyl_box {w0 ζ w : ℝ} (hw : 0 < w0) (hww : w = w0 * Real.sqrt (1 + ζ ^ 2)) (wavelength : ℝ) {tau : ℝ}
    (htau : 0 < tau) (tPeak cep : ℝ) {δ : ℝ} (hδ : 0 < δ) :
    ∃ L : ℝ, 0 < L ∧ ∀ R lo1 hi1 Ecyl : ℝ, L ≤ R → lo1 ≤ -L → L ≤ hi1 → Ecyl = eps0 / 2 * (∫ r in (0 : ℝ)..R, ∫ t in lo1..hi1,
      ‖gaussianTrans w0 ζ r 0 * gaussianLong wavelength tau tPeak cep t‖ ^ 2 * (2 * Real.pi * r * c)) →
      0 < Ecyl ∧ |Ecyl - eps0 * c / 2 * (Real.pi * w0 ^ 2 / 2) * (tau * Real.sqrt (Real.pi / 2))| ≤ δ := by
  have hcp := Phys.c_pos
  have he := eps0_pos
  have hpi := Real.pi_pos
  set V := eps0 * c / 2 * (Real.pi * w0 ^ 2 / 2) * (tau * Real.sqrt (Real.pi / 2)) with hV
  have hVp : 0 < V := by
    have : 0 < Real.sqrt (Real.pi / 2) := Real.sqrt_pos.2 (by positivity)
    rw [hV]
    positivity
  have hc : ContinuousAt (fun s : ℝ => V / s ^ 2) 1 := continuousAt_const.div (continuousAt_id.pow 2) (by norm_num)
  obtain ⟨η, hη, hc⟩ := Metric.continuousAt_iff.1 hc δ hδ
  obtain ⟨L, hL, h⟩ := gauss_energy_cyl hw hww wavelength htau tPeak cep (A := 1) (E := V) zero_le_one
    (by rw [hV]; ring) hη
  refine ⟨L, hL, fun R lo1 hi1 Ecyl a0 a1 b1 e => ?_⟩
  obtain ⟨hp, hs⟩ := h R lo1 hi1 Ecyl a0 a1 b1 e
  refine ⟨hp, ?_⟩
  have := hc (x := Real.sqrt (V / Ecyl)) (by rw [Real.dist_eq]; linarith)
  rw [Real.dist_eq, Real.sq_sqrt (by positivity), show V / (V / Ecyl) = Ecyl by field_simp] at this
  norm_num at this
  exact this.le

/-- **C156** for the Gaussian on cylindrical grids: after `normalize(A, "field")`, in all cylinders that are large enough, for
every number of modes and on all grids that are fine enough, the modulus of mode 0 is `A e^{-r²/w²} e^{-(t-t_peak)²/tau²}`, the
other modes are zero, and the energy is `ε₀ c A²/2 · π w²/2 · tau √(π/2)`: the same as on Cartesian grids. -/
theorem C156_gaussian_rt (wavelength : ℝ) (hwl : wavelength ≠ 0) (px py : ℂ) (E : ℝ) (hE : 0 < E) (w0 tau : ℝ) (hw : 0 < w0)
    (htau : 0 < tau) (tPeak cep zFoc : ℝ) {p : ProfileObj}
    (hp : gaussianProfile wavelength [px, py] (some E) w0 tau tPeak cep zFoc = .ok p) (A w : ℝ)
    (hww : w = w0 * Real.sqrt (1 + (zFoc / (Real.pi * w0 ^ 2 / wavelength)) ^ 2)) (hA : 0 ≤ A) {ε : ℝ} (hε : 0 < ε) :
    ∃ L : ℝ, 0 < L ∧ ∀ R lo1 hi1 : ℝ, L ≤ R → lo1 ≤ -L → L ≤ hi1 →
      ∃ N : ℕ, ∀ nr ≥ N, ∀ nt ≥ N, ∀ n ≥ 1, ∃ (l l' : Laser ⟨2 * n - 1, nr, nt⟩) (f : Field ⟨2 * n - 1, nr, nt⟩) (E' : ℝ),
        Laser.init "rt" [0, lo1] [R, hi1] [nr, nt] p (some n) none = .ok ⟨_, l⟩ ∧
        Laser.normalize (some A) "field" l = (.ok (), l') ∧ l'.Has f ∧ l'.energy = .ok E' ∧
        (∀ (i : Fin (2 * n - 1)) j k, ((i : ℕ) = 0 → |‖f i j k‖ - A * Real.exp (-(linspace 0 R nr j) ^ 2 / w ^ 2) *
            Real.exp (-(linspace lo1 hi1 nt k - tPeak) ^ 2 / tau ^ 2)| ≤ ε) ∧
          ((i : ℕ) ≠ 0 → f i j k = 0)) ∧
        |E' - eps0 * c / 2 * A ^ 2 * (Real.pi * w ^ 2 / 2) * (tau * Real.sqrt (Real.pi / 2))| ≤ ε := by
  have hpi := Real.pi_pos
  obtain ⟨hpe, hdt, ζ, hww, hpt'⟩ := gauss_profile hwl hp hw hww
  obtain ⟨hwp, -, -⟩ := gauss_waist hw hww
  have hn1 := gauss_norm hw hww wavelength htau tPeak cep
  have hF : p.Pointwise fun x y t => gaussianTrans w0 ζ (Real.sqrt (x ^ 2 + y ^ 2)) 0 * gaussianLong wavelength tau tPeak cep t := by
    intro n0 n1 n2 x y t i j k
    rw [hpt']
    simp only
    congr 1
    unfold gaussianTrans
    rw [Real.sq_sqrt (by positivity)]
    simp
  have hcont : Continuous fun q : ℝ × ℝ => gaussianTrans w0 ζ q.1 0 * gaussianLong wavelength tau tPeak cep q.2 := by
    unfold gaussianTrans gaussianLong
    fun_prop
  set M := w0 / w with hMd
  have hMp : 0 < M := by positivity
  obtain ⟨L0, hL0, hbox⟩ := gauss_cyl_box hw hww wavelength htau tPeak cep (δ := ε / 2 / ((A / M) ^ 2 + 1)) (by positivity)
  refine ⟨max L0 (|tPeak| + 1), lt_of_lt_of_le hL0 (le_max_left _ _), fun R lo1 hi1 a0 a1 b1 => ?_⟩
  have m1 := le_max_left L0 (|tPeak| + 1)
  have m2 := le_max_right L0 (|tPeak| + 1)
  have m3 := neg_abs_le tPeak
  have m4 := le_abs_self tPeak
  obtain ⟨hpos, hb⟩ := hbox R lo1 hi1 _ (by linarith) (by linarith) (by linarith) rfl
  have hMG : IsGreatest {a | ∃ r ∈ Set.Icc 0 R, ∃ t ∈ Set.Icc lo1 hi1,
      a = ‖gaussianTrans w0 ζ r 0 * gaussianLong wavelength tau tPeak cep t‖} M := by
    constructor
    · refine ⟨0, ⟨le_rfl, by linarith⟩, tPeak, ⟨by linarith, by linarith⟩, ?_⟩
      rw [hn1]
      simp
    · rintro a ⟨x, -, t, -, rfl⟩
      rw [hn1, mul_assoc]
      have h2 : Real.exp (-(x ^ 2 + 0 ^ 2) / w ^ 2) ≤ 1 := by
        rw [Real.exp_le_one_iff]
        apply div_nonpos_of_nonpos_of_nonneg _ (by positivity)
        nlinarith [sq_nonneg x]
      have h3 : Real.exp (-(t - tPeak) ^ 2 / tau ^ 2) ≤ 1 := by
        rw [Real.exp_le_one_iff]
        apply div_nonpos_of_nonpos_of_nonneg _ (by positivity)
        nlinarith [sq_nonneg (t - tPeak)]
      exact mul_le_of_le_one_right hMp.le (mul_le_one₀ h2 (Real.exp_pos _).le h3)
  obtain ⟨N, key⟩ := C156_field_rt R lo1 hi1 (by linarith) (by linarith) p (Or.inr ⟨E, hE, hpe⟩) _ hF hcont M hMG hMp _ rfl hpos A
    (half_pos hε)
  refine ⟨N, fun nr hr nt ht n hn => ?_⟩
  obtain ⟨l, l', f, E', hl, hnm, hf, he, hfd, hed⟩ := key nr hr nt ht n hn
  refine ⟨l, l', f, E', hl, hnm, hf, he, fun i j k => ⟨fun hi => ?_, (hfd i j k).2⟩, ?_⟩
  · have h1 := (abs_norm_sub_norm_le _ _).trans ((hfd i j k).1 hi)
    rw [norm_mul, hn1, show (A : ℂ) / M = ((A / M : ℝ) : ℂ) by push_cast; rfl, Complex.norm_real,
      Real.norm_of_nonneg (by positivity), ← mul_assoc, ← mul_assoc, div_mul_cancel₀ _ hMp.ne', show (0 : ℝ) ^ 2 = 0 by norm_num,
      add_zero] at h1
    linarith
  · have e : eps0 * c / 2 * A ^ 2 * (Real.pi * w ^ 2 / 2) * (tau * Real.sqrt (Real.pi / 2)) =
        (A / M) ^ 2 * (eps0 * c / 2 * (Real.pi * w0 ^ 2 / 2) * (tau * Real.sqrt (Real.pi / 2))) := by
      rw [hMd]
      field_simp
    rw [e]
    refine (abs_sub_le _ _ _).trans (le_trans (add_le_add hed ?_) (add_halves ε).le)
    rw [← mul_sub, abs_mul, abs_of_nonneg (by positivity : (0 : ℝ) ≤ (A / M) ^ 2)]
    calc _ ≤ (A / M) ^ 2 * (ε / 2 / ((A / M) ^ 2 + 1)) := mul_le_mul_of_nonneg_left hb (by positivity)
      _ ≤ ε / 2 := by
        rw [mul_div_assoc', div_le_iff₀ (by positivity)]
        nlinarith [sq_nonneg (A / M)]

/-- The hypotheses of `C156_field_rt` are met: the constant profile 1 on a cylinder of radius 1, normalized to `A = 3`. -/
example {ε : ℝ} (hε : 0 < ε) : ∃ N : ℕ, ∀ nr ≥ N, ∀ nt ≥ N, ∀ n ≥ 1, ∃ (l l' : Laser ⟨2 * n - 1, nr, nt⟩)
      (f : Field ⟨2 * n - 1, nr, nt⟩) (E' : ℝ),
      Laser.init "rt" [0, 0] [1, 1] [nr, nt] (constProfile (some (some 5))) (some n) none = .ok ⟨_, l⟩ ∧
      Laser.normalize (some 3) "field" l = (.ok (), l') ∧ l'.Has f ∧ l'.energy = .ok E' ∧
      (∀ (i : Fin (2 * n - 1)) j k, ((i : ℕ) = 0 → ‖f i j k - ((3 : ℝ) : ℂ) / ((1 : ℝ) : ℂ) * 1‖ ≤ ε) ∧ ((i : ℕ) ≠ 0 → f i j k = 0)) ∧
      |E' - (3 / 1) ^ 2 * (eps0 / 2 * (Real.pi * c))| ≤ ε := by
  have hcp := Phys.c_pos
  have he := eps0_pos
  have hpi := Real.pi_pos
  refine C156_field_rt 1 0 1 one_pos one_pos (constProfile (some (some 5))) (Or.inr ⟨5, by norm_num, rfl⟩)
    (fun _ _ => 1) (fun _ _ _ _ _ _ _ _ _ => rfl) continuous_const 1
    ⟨⟨0, by simp, 0, by simp, by simp⟩, by rintro a ⟨_, _, _, _, rfl⟩; simp⟩ one_pos (eps0 / 2 * (Real.pi * c))
    ?_ (by positivity) 3 hε
  simp only [norm_one, one_pow, one_mul, intervalIntegral.integral_const, sub_zero, smul_eq_mul, mul_assoc,
    intervalIntegral.integral_const_mul, intervalIntegral.integral_mul_const, integral_id]
  ring

end Lasy
