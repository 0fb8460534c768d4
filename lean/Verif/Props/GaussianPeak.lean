import Verif.Props.FineGrids
import Verif.Props.Paraxial
import Verif.Props.Analytic

/-!
# Property C133: the peak field of a Gaussian pulse of a given energy
-/

namespace Lasy
open Spec Phys Complex MeasureTheory

/-! ## Gaussian integrals over large intervals -/

/-- the integral of a Gaussian over any interval that contains `[-L, L]` is between the one over `[-L, L]` and the total -/
theorem gauss_between {b : ℝ} (hb : 0 < b) (t0 : ℝ) {L lo hi : ℝ} (hL : 0 ≤ L) (h1 : lo ≤ -L) (h2 : L ≤ hi) :
    ∫ x in (-L)..L, Real.exp (-b * (x - t0) ^ 2) ≤ ∫ x in lo..hi, Real.exp (-b * (x - t0) ^ 2) ∧
    ∫ x in lo..hi, Real.exp (-b * (x - t0) ^ 2) ≤ Real.sqrt (Real.pi / b) := by
  have hc : Continuous fun x : ℝ => Real.exp (-b * (x - t0) ^ 2) := by fun_prop
  have hi' : Integrable fun x : ℝ => Real.exp (-b * (x - t0) ^ 2) := (integrable_exp_neg_mul_sq hb).comp_sub_right t0
  constructor
  · refine intervalIntegral.integral_mono_interval h1 (by linarith) h2 (Filter.Eventually.of_forall fun x => (Real.exp_pos _).le)
      (hc.intervalIntegrable _ _)
  · rw [intervalIntegral.integral_of_le (by linarith), ← integral_gaussian b,
      ← integral_sub_right_eq_self (fun x : ℝ => Real.exp (-b * x ^ 2)) t0]
    exact setIntegral_le_integral hi' (Filter.Eventually.of_forall fun x => (Real.exp_pos _).le)

theorem gauss_tendsto {b : ℝ} (hb : 0 < b) (t0 : ℝ) :
    Filter.Tendsto (fun L : ℝ => ∫ x in (-L)..L, Real.exp (-b * (x - t0) ^ 2)) Filter.atTop
      (nhds (Real.sqrt (Real.pi / b))) := by
  have hi' : Integrable fun x : ℝ => Real.exp (-b * (x - t0) ^ 2) := (integrable_exp_neg_mul_sq hb).comp_sub_right t0
  have := intervalIntegral_tendsto_integral hi' Filter.tendsto_neg_atTop_atBot Filter.tendsto_id
  rwa [integral_sub_right_eq_self (fun x : ℝ => Real.exp (-b * x ^ 2)) t0, integral_gaussian] at this

variable [Phys]

/-! ## The modulus of the Gaussian -/

omit [Phys] in
theorem gauss_waist {w0 ζ w : ℝ} (hw : 0 < w0) (hww : w = w0 * Real.sqrt (1 + ζ ^ 2)) :
    0 < w ∧ w0 ^ 2 / w ^ 2 = 1 / (1 + ζ ^ 2) ∧ w0 ≤ w := by
  have hq : 0 < 1 + ζ ^ 2 := by positivity
  have hs2 : Real.sqrt (1 + ζ ^ 2) ^ 2 = 1 + ζ ^ 2 := Real.sq_sqrt hq.le
  have hsq : 0 < Real.sqrt (1 + ζ ^ 2) := Real.sqrt_pos.2 hq
  refine ⟨by rw [hww]; positivity, ?_, ?_⟩
  · rw [hww, mul_pow, hs2]
    field_simp
  · rw [hww]
    have : 1 ≤ Real.sqrt (1 + ζ ^ 2) := by
      rw [Real.one_le_sqrt]
      nlinarith [sq_nonneg ζ]
    nlinarith

theorem gauss_norm_sq {w0 ζ w : ℝ} (hw : 0 < w0) (hww : w = w0 * Real.sqrt (1 + ζ ^ 2)) (wavelength : ℝ) {tau : ℝ}
    (htau : 0 < tau) (tPeak cep x y t : ℝ) : ‖gaussianTrans w0 ζ x y * gaussianLong wavelength tau tPeak cep t‖ ^ 2 =
      Real.exp (-(2 / w ^ 2) * (x - 0) ^ 2) * Real.exp (-(2 / w ^ 2) * (y - 0) ^ 2) *
        Real.exp (-(2 / tau ^ 2) * (t - tPeak) ^ 2) / (1 + ζ ^ 2) := by
  have hwp := (gauss_waist hw hww).1
  rw [norm_mul, mul_pow, norm_sq_gaussianTrans w0 ζ hw.ne', norm_gaussianLong, ← hww, ← Real.exp_nat_mul,
    div_mul_eq_mul_div, ← Real.exp_add, ← Real.exp_add, ← Real.exp_add]
  congr 2
  push_cast
  field_simp
  ring

theorem gauss_norm {w0 ζ w : ℝ} (hw : 0 < w0) (hww : w = w0 * Real.sqrt (1 + ζ ^ 2)) (wavelength : ℝ) {tau : ℝ}
    (htau : 0 < tau) (tPeak cep x y t : ℝ) : ‖gaussianTrans w0 ζ x y * gaussianLong wavelength tau tPeak cep t‖ =
      (w0 / w) * Real.exp (-(x ^ 2 + y ^ 2) / w ^ 2) * Real.exp (-(t - tPeak) ^ 2 / tau ^ 2) := by
  obtain ⟨hwp, e1, -⟩ := gauss_waist hw hww
  refine (sq_eq_sq₀ (norm_nonneg _) (by positivity)).1 ?_
  rw [gauss_norm_sq hw hww _ htau, mul_pow, mul_pow, ← Real.exp_nat_mul, ← Real.exp_nat_mul, div_pow w0 w]
  rw [e1, ← Real.exp_add, ← Real.exp_add, mul_assoc, ← Real.exp_add, one_div, div_eq_inv_mul]
  congr 2
  push_cast
  field_simp
  ring

theorem gauss_norm_le {w0 ζ w : ℝ} (hw : 0 < w0) (hww : w = w0 * Real.sqrt (1 + ζ ^ 2)) (wavelength : ℝ) {tau : ℝ}
    (htau : 0 < tau) (tPeak cep x y t : ℝ) : ‖gaussianTrans w0 ζ x y * gaussianLong wavelength tau tPeak cep t‖ ≤ 1 := by
  obtain ⟨hwp, -, hle⟩ := gauss_waist hw hww
  rw [gauss_norm hw hww _ htau]
  have h1 : w0 / w ≤ 1 := (div_le_one hwp).2 hle
  have h2 : Real.exp (-(x ^ 2 + y ^ 2) / w ^ 2) ≤ 1 := by
    rw [Real.exp_le_one_iff]
    apply div_nonpos_of_nonpos_of_nonneg _ (by positivity)
    nlinarith [sq_nonneg x, sq_nonneg y]
  have h3 : Real.exp (-(t - tPeak) ^ 2 / tau ^ 2) ≤ 1 := by
    rw [Real.exp_le_one_iff]
    apply div_nonpos_of_nonpos_of_nonneg _ (by positivity)
    nlinarith [sq_nonneg (t - tPeak)]
  exact mul_le_one₀ (mul_le_one₀ h1 (Real.exp_pos _).le h2) (Real.exp_pos _).le h3

/-- what the constructor of the Gaussian profile returns -/
theorem gauss_profile {wavelength : ℝ} (hwl : wavelength ≠ 0) {px py : ℂ} {E : Option ℝ} {w0 tau tPeak cep zFoc : ℝ}
    {p : ProfileObj} (hp : gaussianProfile wavelength [px, py] E w0 tau tPeak cep zFoc = .ok p) (hw : 0 < w0) {w : ℝ}
    (hww : w = w0 * Real.sqrt (1 + (zFoc / (Real.pi * w0 ^ 2 / wavelength)) ^ 2)) :
    p.laserEnergy = some E ∧ p.dtype = .c128 ∧ ∃ ζ : ℝ, w = w0 * Real.sqrt (1 + ζ ^ 2) ∧
      p.Pointwise fun x y t => gaussianTrans w0 ζ x y * gaussianLong wavelength tau tPeak cep t := by
  have hpi := Real.pi_pos
  obtain ⟨p', hp', hpe, -, hdt, hpt⟩ := C40_formula wavelength hwl px py E w0 tau tPeak cep zFoc
  have : p' = p := by
    rw [hp] at hp'
    exact (Except.ok.inj hp').symm
  subst this
  refine ⟨hpe, hdt, zFoc * wavelength / (Real.pi * w0 ^ 2), ?_, ?_⟩
  · rw [hww]
    congr 4
    field_simp
  · intro n0 n1 n2 x y t i j k
    rw [hpt]
    simp only [gaussianTrans, gaussianLong, diffractFactor, longOmega0]
    push_cast
    ring_nf

theorem gauss_continuous (w0 ζ wavelength tau tPeak cep : ℝ) :
    Continuous fun q : ℝ × ℝ × ℝ => gaussianTrans w0 ζ q.1 q.2.1 * gaussianLong wavelength tau tPeak cep q.2.2 := by
  unfold gaussianTrans gaussianLong
  fun_prop

/-! ## C133 -/

/-- **C133** (Cartesian). A Gaussian pulse of energy `E`, waist `w0` and duration `tau` has the textbook field: in all boxes
that are large enough and on all grids that are fine enough (how fine depends on the box), the modulus of the stored field is,
at all grid points and up to any given error, `A (w0/w) e^{-(x²+y²)/w²} e^{-(t-t_peak)²/tau²}` where
`w = w0 √(1 + (z_foc/zR)²)`, `zR = π w0²/λ`, and the peak field `A` is that of the peak intensity
`ε₀ c A²/2 = E / (π w0²/2 · tau √(π/2))`. -/
theorem C133_gaussian_xyt (wavelength : ℝ) (hwl : wavelength ≠ 0) (px py : ℂ) (E : ℝ) (hE : 0 ≤ E) (w0 tau : ℝ) (hw : 0 < w0)
    (htau : 0 < tau) (tPeak cep zFoc : ℝ) {p : ProfileObj}
    (hp : gaussianProfile wavelength [px, py] (some E) w0 tau tPeak cep zFoc = .ok p)
    (A w : ℝ) (hA : 0 ≤ A) (hA2 : eps0 * c / 2 * A ^ 2 * (Real.pi * w0 ^ 2 / 2) * (tau * Real.sqrt (Real.pi / 2)) = E)
    (hww : w = w0 * Real.sqrt (1 + (zFoc / (Real.pi * w0 ^ 2 / wavelength)) ^ 2)) (m nT : Option ℕ) {ε : ℝ} (hε : 0 < ε) :
    ∃ L : ℝ, 0 < L ∧ ∀ lo0 lo1 lo2 hi0 hi1 hi2 : ℝ, lo0 ≤ -L → lo1 ≤ -L → lo2 ≤ -L → L ≤ hi0 → L ≤ hi1 → L ≤ hi2 →
      ∃ N : ℕ, ∀ nx ≥ N, ∀ ny ≥ N, ∀ nt ≥ N, ∃ (l : Laser ⟨nx, ny, nt⟩) (f : Field ⟨nx, ny, nt⟩),
        Laser.init "xyt" [lo0, lo1, lo2] [hi0, hi1, hi2] [nx, ny, nt] p m nT = .ok ⟨_, l⟩ ∧ l.Has f ∧ l.energy = .ok E ∧
        ∀ i j k, |‖f i j k‖ - A * (w0 / w) * Real.exp (-((linspace lo0 hi0 nx i) ^ 2 + (linspace lo1 hi1 ny j) ^ 2) / w ^ 2) *
          Real.exp (-(linspace lo2 hi2 nt k - tPeak) ^ 2 / tau ^ 2)| ≤ ε := by
  have hcp := Phys.c_pos
  have he := eps0_pos
  have hpi := Real.pi_pos
  obtain ⟨hpe, hdt, ζ, hww, hpt'⟩ := gauss_profile hwl hp hw hww
  obtain ⟨hwp, -, -⟩ := gauss_waist hw hww
  have hq : 0 < 1 + ζ ^ 2 := by positivity
  have hs2 : Real.sqrt (1 + ζ ^ 2) ^ 2 = 1 + ζ ^ 2 := Real.sq_sqrt hq.le
  have hn2 := gauss_norm_sq hw hww wavelength htau tPeak cep
  have hn1 := gauss_norm hw hww wavelength htau tPeak cep
  have hle := gauss_norm_le hw hww wavelength htau tPeak cep
  -- the energy in the whole space
  set bw := 2 / w ^ 2 with hbw
  set bt := 2 / tau ^ 2 with hbt
  have hbwp : 0 < bw := by positivity
  have hbtp : 0 < bt := by positivity
  set Einf := eps0 / 2 * c * (Real.sqrt (Real.pi / bw) * Real.sqrt (Real.pi / bw) * Real.sqrt (Real.pi / bt) / (1 + ζ ^ 2)) with hEinf
  have hEp : 0 < Einf := by
    have h1 : 0 < Real.sqrt (Real.pi / bw) := Real.sqrt_pos.2 (by positivity)
    have h2 : 0 < Real.sqrt (Real.pi / bt) := Real.sqrt_pos.2 (by positivity)
    positivity
  have hEval : E = A ^ 2 * Einf := by
    rw [← hA2, hEinf, Real.mul_self_sqrt (by positivity)]
    have e1 : Real.sqrt (Real.pi / bt) = tau * Real.sqrt (Real.pi / 2) := by
      rw [hbt, show Real.pi / (2 / tau ^ 2) = tau ^ 2 * (Real.pi / 2) by field_simp, Real.sqrt_mul (by positivity),
        Real.sqrt_sq htau.le]
    have e2 : Real.pi / bw = Real.pi * w0 ^ 2 / 2 * (1 + ζ ^ 2) := by
      rw [hbw, hww, mul_pow, hs2]
      field_simp
    rw [e1, e2]
    field_simp
  have hAval : Real.sqrt (E / Einf) = A := by
    rw [hEval, mul_div_assoc, div_self hEp.ne', mul_one, Real.sqrt_sq hA]
  obtain ⟨δ, hδ, hclose⟩ := sqrt_ratio_close E hEp (half_pos hε)
  have hT : Filter.Tendsto (fun L : ℝ => eps0 / 2 * c * ((∫ x in (-L)..L, Real.exp (-bw * (x - 0) ^ 2)) *
      (∫ x in (-L)..L, Real.exp (-bw * (x - 0) ^ 2)) * (∫ x in (-L)..L, Real.exp (-bt * (x - tPeak) ^ 2)) / (1 + ζ ^ 2)))
      Filter.atTop (nhds Einf) :=
    ((((gauss_tendsto hbwp 0).mul (gauss_tendsto hbwp 0)).mul (gauss_tendsto hbtp tPeak)).div_const _).const_mul _
  obtain ⟨L0, hL0⟩ := Filter.eventually_atTop.1 ((Metric.tendsto_nhds.1 hT) δ hδ)
  refine ⟨max L0 1, by positivity, fun lo0 lo1 lo2 hi0 hi1 hi2 a0 a1 a2 b0 b1 b2 => ?_⟩
  set L := max L0 1 with hL
  have hLp : 0 < L := by positivity
  have hbox : ∫ x in lo0..hi0, ∫ y in lo1..hi1, ∫ t in lo2..hi2,
      ‖gaussianTrans w0 ζ x y * gaussianLong wavelength tau tPeak cep t‖ ^ 2 * c =
      c * ((∫ x in lo0..hi0, Real.exp (-bw * (x - 0) ^ 2)) * (∫ x in lo1..hi1, Real.exp (-bw * (x - 0) ^ 2)) *
        (∫ x in lo2..hi2, Real.exp (-bt * (x - tPeak) ^ 2)) / (1 + ζ ^ 2)) := by
    simp only [hn2, intervalIntegral.integral_mul_const, intervalIntegral.integral_const_mul, intervalIntegral.integral_div]
    ring
  set Ebox := eps0 / 2 * ∫ x in lo0..hi0, ∫ y in lo1..hi1, ∫ t in lo2..hi2,
      ‖gaussianTrans w0 ζ x y * gaussianLong wavelength tau tPeak cep t‖ ^ 2 * c with hEbox
  have hdist := hL0 L (le_max_left _ _)
  rw [Real.dist_eq] at hdist
  have g0 := gauss_between hbwp 0 hLp.le a0 b0
  have g1 := gauss_between hbwp 0 hLp.le a1 b1
  have g2 := gauss_between hbtp tPeak hLp.le a2 b2
  have p0 : 0 ≤ ∫ x in (-L)..L, Real.exp (-bw * (x - 0) ^ 2) :=
    intervalIntegral.integral_nonneg (by linarith) fun x _ => (Real.exp_pos _).le
  have p1 : 0 ≤ ∫ x in (-L)..L, Real.exp (-bt * (x - tPeak) ^ 2) :=
    intervalIntegral.integral_nonneg (by linarith) fun x _ => (Real.exp_pos _).le
  have hEle : Ebox ≤ Einf := by
    rw [hEbox, hbox, hEinf, ← mul_assoc]
    have q0 := p0.trans g0.1
    have q1 := p0.trans g1.1
    have q2 := p1.trans g2.1
    gcongr
    · exact g0.2
    · exact g1.2
    · exact g2.2
  have hEge : eps0 / 2 * c * ((∫ x in (-L)..L, Real.exp (-bw * (x - 0) ^ 2)) *
      (∫ x in (-L)..L, Real.exp (-bw * (x - 0) ^ 2)) * (∫ x in (-L)..L, Real.exp (-bt * (x - tPeak) ^ 2)) / (1 + ζ ^ 2)) ≤ Ebox := by
    rw [hEbox, hbox, ← mul_assoc]
    have q0 := p0.trans g0.1
    have q1 := p0.trans g1.1
    gcongr
    · exact g0.1
    · exact g1.1
    · exact g2.1
  have hnear : |Ebox - Einf| ≤ δ := by
    rw [abs_sub_comm, abs_of_nonneg (by linarith)]
    have := (abs_lt.1 hdist).1
    linarith
  obtain ⟨hEbp, hsr⟩ := hclose Ebox hnear
  rw [hAval] at hsr
  have hcont := gauss_continuous w0 ζ wavelength tau tPeak cep
  obtain ⟨N, key⟩ := C131_field_xyt lo0 lo1 lo2 hi0 hi1 hi2 (by linarith) (by linarith) (by linarith) p E hE hpe hdt _ hpt'
    hcont.continuousOn Ebox hEbox hEbp m nT (half_pos hε)
  refine ⟨N, fun nx hx ny hy nt ht => ?_⟩
  obtain ⟨l, f, hl, hf, hen, hb⟩ := key nx hx ny hy nt ht
  refine ⟨l, f, hl, hf, hen, fun i j k => ?_⟩
  have h1 := hb i j k
  set x := linspace lo0 hi0 nx i
  set y := linspace lo1 hi1 ny j
  set t := linspace lo2 hi2 nt k
  have h2 : |‖f i j k‖ - ‖(Real.sqrt (E / Ebox) : ℂ) * (gaussianTrans w0 ζ x y * gaussianLong wavelength tau tPeak cep t)‖| ≤ ε / 2 :=
    (abs_norm_sub_norm_le _ _).trans h1
  rw [norm_mul, Complex.norm_real, Real.norm_eq_abs, abs_of_nonneg (Real.sqrt_nonneg _)] at h2
  have h3 : |Real.sqrt (E / Ebox) * ‖gaussianTrans w0 ζ x y * gaussianLong wavelength tau tPeak cep t‖ -
      A * ‖gaussianTrans w0 ζ x y * gaussianLong wavelength tau tPeak cep t‖| ≤ ε / 2 := by
    rw [← sub_mul, abs_mul, abs_of_nonneg (norm_nonneg _)]
    calc _ ≤ ε / 2 * 1 := mul_le_mul hsr (hle x y t) (norm_nonneg _) (by positivity)
      _ = ε / 2 := mul_one _
  have e : A * (w0 / w) * Real.exp (-(x ^ 2 + y ^ 2) / w ^ 2) * Real.exp (-(t - tPeak) ^ 2 / tau ^ 2) =
      A * ‖gaussianTrans w0 ζ x y * gaussianLong wavelength tau tPeak cep t‖ := by
    rw [hn1]
    ring
  rw [e]
  have := abs_sub_le ‖f i j k‖ (Real.sqrt (E / Ebox) * ‖gaussianTrans w0 ζ x y * gaussianLong wavelength tau tPeak cep t‖)
    (A * ‖gaussianTrans w0 ζ x y * gaussianLong wavelength tau tPeak cep t‖)
  linarith

omit [Phys] in
/-- double sums over the points of two axes converge to the integral -/
theorem rect_lin {a b a' b' : ℝ} (h : a ≤ b) (h' : a' ≤ b') {G : ℝ → ℝ → ℝ} (hG : Continuous fun q : ℝ × ℝ => G q.1 q.2)
    {ε : ℝ} (hε : 0 < ε) :
    ∃ N : ℕ, 2 ≤ N ∧ ∀ n ≥ N, ∀ m ≥ N,
      |linSum a b n (fun x => linSum a' b' m (G x)) - ∫ x in a..b, ∫ y in a'..b', G x y| ≤ ε := by
  obtain ⟨N, hN, key⟩ := quad_two h (quad_lin h) (quad_lin h') (X := Unit) (K := Set.univ) isCompact_univ
    (F := fun _ => G) (hG.comp continuous_snd) hε
  exact ⟨N, hN, fun n hn m hm => key n hn m hm () trivial⟩

/-- **C131** (round beams). For a continuous profile that depends on `r = √(x²+y²)` and `t` only, any number of modes is enough:
with `laser_energy = E` the mode `0` converges, when the numbers of points grow, to the profile times
`√(E / energy of the profile in the cylinder)`; all other modes are zero. -/
theorem C131_round (R lo1 hi1 : ℝ) (hR : 0 ≤ R) (h1 : lo1 ≤ hi1) (p : ProfileObj) (E : ℝ) (hE : 0 ≤ E)
    (hp : p.laserEnergy = some (some E)) (G : ℝ → ℝ → ℂ) (hF : p.Pointwise fun x y t => G (Real.sqrt (x ^ 2 + y ^ 2)) t)
    (hcont : Continuous fun q : ℝ × ℝ => G q.1 q.2) (Ecyl : ℝ)
    (hcyl : Ecyl = eps0 / 2 * ∫ r in (0 : ℝ)..R, ∫ t in lo1..hi1, ‖G r t‖ ^ 2 * (2 * Real.pi * r * c)) (hpos : 0 < Ecyl)
    {ε : ℝ} (hε : 0 < ε) :
    ∃ N : ℕ, ∀ nr ≥ N, ∀ nt ≥ N, ∀ n ≥ 1, ∃ (l : Laser ⟨2 * n - 1, nr, nt⟩) (f : Field ⟨2 * n - 1, nr, nt⟩),
      Laser.init "rt" [0, lo1] [R, hi1] [nr, nt] p (some n) none = .ok ⟨_, l⟩ ∧ l.Has f ∧ l.energy = .ok E ∧
      ∀ (i : Fin (2 * n - 1)) j k, ((i : ℕ) = 0 → ‖f i j k - Real.sqrt (E / Ecyl) * G (linspace 0 R nr j) (linspace lo1 hi1 nt k)‖ ≤ ε) ∧
        ((i : ℕ) ≠ 0 → f i j k = 0) := by
  have hcp := Phys.c_pos
  have he := eps0_pos
  have hpi := Real.pi_pos
  obtain ⟨M, hM⟩ := ((isCompact_Icc (a := (0 : ℝ)) (b := R)).prod
    (isCompact_Icc (a := lo1) (b := hi1))).image_of_continuousOn hcont.norm.continuousOn |>.bddAbove
  have hM' : ∀ r ∈ Set.Icc 0 R, ∀ t ∈ Set.Icc lo1 hi1, ‖G r t‖ ≤ |M| :=
    fun r hr t ht => (hM ⟨(r, t), ⟨hr, ht⟩, rfl⟩).trans (le_abs_self M)
  obtain ⟨δ, hδ, hclose⟩ := sqrt_ratio_close E hpos (ε := ε / (|M| + 1)) (by positivity)
  obtain ⟨N, hN, key⟩ := rect_lin hR h1 (G := fun r t => ‖G r t‖ ^ 2 * (2 * Real.pi * r * c))
    ((hcont.norm.pow 2).mul (by fun_prop)) (ε := δ / (eps0 / 2)) (by positivity)
  refine ⟨N, fun nr hr nt ht n hn => ?_⟩
  have hr2 : 2 ≤ nr := le_trans hN hr
  have ht2 : 2 ≤ nt := le_trans hN ht
  -- without the energy
  obtain ⟨l0, f0, hl0, hh, hf0⟩ := C12_azimuthal_exact 0 lo1 R hi1 nr nt n hr2 ht2 hn none (by simp)
    { p with laserEnergy := none } rfl (fun x y t => G (Real.sqrt (x ^ 2 + y ^ 2)) t) hF (fun m r t => if m = 0 then G |r| t else 0) (by
      intro r θ t
      rw [Finset.sum_eq_single 0]
      · simp only [if_true, Int.cast_zero, mul_zero, zero_mul, Complex.exp_zero, mul_one]
        congr 1
        rw [← Real.sqrt_sq_eq_abs]
        congr 1
        have := Real.sin_sq_add_cos_sq θ
        linear_combination r ^ 2 * this
      · intro m _ hm
        simp [hm]
      · intro h
        exact absurd (Finset.mem_Ioo.2 ⟨by omega, by omega⟩) h)
  have hval : ∀ i j k, f0 i j k = if (i : ℕ) = 0 then G (linspace 0 R nr j) (linspace lo1 hi1 nt k) else 0 := by
    intro i j k
    obtain ⟨hm, hi⟩ := (modeAt_iff hn i (modeAt n i)).1 rfl
    rw [hf0 _ i hm hi, abs_of_nonneg (linspace_mem hR j).1]
    have hiff : modeAt n i = 0 ↔ (i : ℕ) = 0 := by
      have hi2 : (i : ℕ) < 2 * n - 1 := i.2
      unfold modeAt
      split_ifs <;> omega
    simp only [hiff]
  have hen : l0.energy = .ok (eps0 / 2 * linSum 0 R nr fun r => linSum lo1 hi1 nt fun t => ‖G r t‖ ^ 2 * (2 * Real.pi * r * c)) := by
    rw [hh.energy]
    congr 2
    unfold linSum
    simp only [Finset.mul_sum]
    have hz : 0 < 2 * n - 1 := by omega
    rw [Finset.sum_eq_single (⟨0, hz⟩ : Fin (2 * n - 1))]
    · refine Finset.sum_congr rfl fun j _ => Finset.sum_congr rfl fun k _ => ?_
      rw [init_rt_volume hl0, hval, if_pos rfl]
      ring
    · intro i _ hi
      refine Finset.sum_eq_zero fun j _ => Finset.sum_eq_zero fun k _ => ?_
      rw [hval, if_neg (fun h => hi (Fin.ext h))]
      simp
    · intro h
      exact absurd (Finset.mem_univ _) h
  have hb : |eps0 / 2 * (linSum 0 R nr fun r => linSum lo1 hi1 nt fun t => ‖G r t‖ ^ 2 * (2 * Real.pi * r * c)) - Ecyl| ≤ δ := by
    have := key nr hr nt ht
    rw [hcyl, ← mul_sub, abs_mul, abs_of_pos (by positivity : (0 : ℝ) < eps0 / 2)]
    rw [le_div_iff₀ (by positivity)] at this
    linarith
  obtain ⟨hE0p, hsq⟩ := hclose _ hb
  obtain ⟨l, hl, he', hf⟩ := scaled_field p (some n) none E hE hp l0 _ hh _ hen hE0p hl0
  refine ⟨l, _, hl, hf, he', fun i j k => ⟨fun hi => ?_, fun hi => ?_⟩⟩
  · rw [hval, if_pos hi, mul_comm, ← sub_mul, norm_mul, ← Complex.ofReal_sub, Complex.norm_real, Real.norm_eq_abs]
    have hn := hM' _ (linspace_mem hR j) _ (linspace_mem h1 k)
    calc _ ≤ ε / (|M| + 1) * |M| := mul_le_mul hsq hn (norm_nonneg _) (by positivity)
      _ ≤ ε := by
        rw [div_mul_eq_mul_div, div_le_iff₀ (by positivity)]
        nlinarith [abs_nonneg M]
  · rw [hval, if_neg hi, zero_mul]

omit [Phys] in
/-- the Gaussian over a disc -/
theorem gauss_disc {b R : ℝ} (hb : 0 < b) :
    ∫ r in (0 : ℝ)..R, Real.exp (-b * r ^ 2) * (2 * Real.pi * r) = Real.pi / b * (1 - Real.exp (-b * R ^ 2)) := by
  have hd : ∀ r ∈ Set.uIcc 0 R, HasDerivAt (fun r : ℝ => -(Real.pi / b) * Real.exp (-b * r ^ 2))
      (Real.exp (-b * r ^ 2) * (2 * Real.pi * r)) r := by
    intro r _
    have h1 : HasDerivAt (fun r : ℝ => -b * r ^ 2) (-b * (2 * r)) r := by
      have := (hasDerivAt_pow 2 r).const_mul (-b)
      simpa using this
    have := (h1.exp).const_mul (-(Real.pi / b))
    refine this.congr_deriv ?_
    field_simp
  rw [intervalIntegral.integral_eq_sub_of_hasDerivAt hd ((by fun_prop : Continuous fun r : ℝ =>
    Real.exp (-b * r ^ 2) * (2 * Real.pi * r)).intervalIntegrable _ _)]
  simp
  ring

/-- the ratio of an energy to the energy of a Gaussian in a large cylinder -/
theorem gauss_energy_cyl {w0 ζ w : ℝ} (hw : 0 < w0) (hww : w = w0 * Real.sqrt (1 + ζ ^ 2)) (wavelength : ℝ) {tau : ℝ}
    (htau : 0 < tau) (tPeak cep : ℝ) {A E : ℝ} (hA : 0 ≤ A)
    (hA2 : eps0 * c / 2 * A ^ 2 * (Real.pi * w0 ^ 2 / 2) * (tau * Real.sqrt (Real.pi / 2)) = E) {ε : ℝ} (hε : 0 < ε) :
    ∃ L : ℝ, 0 < L ∧ ∀ R lo1 hi1 Ecyl : ℝ, L ≤ R → lo1 ≤ -L → L ≤ hi1 → Ecyl = eps0 / 2 * (∫ r in (0 : ℝ)..R, ∫ t in lo1..hi1,
      ‖gaussianTrans w0 ζ r 0 * gaussianLong wavelength tau tPeak cep t‖ ^ 2 * (2 * Real.pi * r * c)) →
      0 < Ecyl ∧ |Real.sqrt (E / Ecyl) - A| ≤ ε / 2 := by
  have hcp := Phys.c_pos
  have he := eps0_pos
  have hpi := Real.pi_pos
  obtain ⟨hwp, -, -⟩ := gauss_waist hw hww
  have hq : 0 < 1 + ζ ^ 2 := by positivity
  have hs2 : Real.sqrt (1 + ζ ^ 2) ^ 2 = 1 + ζ ^ 2 := Real.sq_sqrt hq.le
  have hn2 := gauss_norm_sq hw hww wavelength htau tPeak cep
  set bw := 2 / w ^ 2 with hbw
  set bt := 2 / tau ^ 2 with hbt
  have hbwp : 0 < bw := by positivity
  have hbtp : 0 < bt := by positivity
  set Einf := eps0 / 2 * c * (Real.pi / bw * (1 - 0) * Real.sqrt (Real.pi / bt) / (1 + ζ ^ 2)) with hEinf
  have hEp : 0 < Einf := by
    have h2 : 0 < Real.sqrt (Real.pi / bt) := Real.sqrt_pos.2 (by positivity)
    rw [hEinf, sub_zero]
    positivity
  have hEval : E = A ^ 2 * Einf := by
    rw [← hA2, hEinf]
    have e1 : Real.sqrt (Real.pi / bt) = tau * Real.sqrt (Real.pi / 2) := by
      rw [hbt, show Real.pi / (2 / tau ^ 2) = tau ^ 2 * (Real.pi / 2) by field_simp, Real.sqrt_mul (by positivity),
        Real.sqrt_sq htau.le]
    have e2 : Real.pi / bw = Real.pi * w0 ^ 2 / 2 * (1 + ζ ^ 2) := by
      rw [hbw, hww, mul_pow, hs2]
      field_simp
    rw [e1, e2]
    field_simp
    ring
  have hAval : Real.sqrt (E / Einf) = A := by
    rw [hEval, mul_div_assoc, div_self hEp.ne', mul_one, Real.sqrt_sq hA]
  obtain ⟨δ, hδ, hclose⟩ := sqrt_ratio_close E hEp (half_pos hε)
  have hexp : Filter.Tendsto (fun L : ℝ => Real.exp (-bw * L ^ 2)) Filter.atTop (nhds 0) := by
    refine Real.tendsto_exp_atBot.comp ?_
    exact (Filter.tendsto_pow_atTop two_ne_zero).const_mul_atTop_of_neg (by linarith)
  have hT : Filter.Tendsto (fun L : ℝ => eps0 / 2 * c * (Real.pi / bw * (1 - Real.exp (-bw * L ^ 2)) *
      (∫ x in (-L)..L, Real.exp (-bt * (x - tPeak) ^ 2)) / (1 + ζ ^ 2))) Filter.atTop (nhds Einf) :=
    ((((tendsto_const_nhds.sub hexp).const_mul _).mul (gauss_tendsto hbtp tPeak)).div_const _).const_mul _
  obtain ⟨L0, hL0⟩ := Filter.eventually_atTop.1 ((Metric.tendsto_nhds.1 hT) δ hδ)
  refine ⟨max L0 1, by positivity, fun R lo1 hi1 Ecyl a0 a1 b1 hEcyl => ?_⟩
  set L := max L0 1 with hL
  have hLp : 0 < L := by positivity
  have hcyl : ∫ r in (0 : ℝ)..R, ∫ t in lo1..hi1,
      ‖gaussianTrans w0 ζ r 0 * gaussianLong wavelength tau tPeak cep t‖ ^ 2 * (2 * Real.pi * r * c) =
      c * (Real.pi / bw * (1 - Real.exp (-bw * R ^ 2)) * (∫ x in lo1..hi1, Real.exp (-bt * (x - tPeak) ^ 2)) / (1 + ζ ^ 2)) := by
    rw [← gauss_disc hbwp]
    simp only [hn2, intervalIntegral.integral_mul_const, intervalIntegral.integral_const_mul, intervalIntegral.integral_div]
    rw [← intervalIntegral.integral_mul_const, ← intervalIntegral.integral_div, ← intervalIntegral.integral_const_mul]
    refine intervalIntegral.integral_congr fun r _ => ?_
    simp only [sub_zero, ne_eq, OfNat.ofNat_ne_zero, not_false_eq_true, zero_pow, mul_zero, Real.exp_zero]
    ring
  have hdist := hL0 L (le_max_left _ _)
  rw [Real.dist_eq] at hdist
  have g2 := gauss_between hbtp tPeak hLp.le a1 b1
  have p1 : 0 ≤ ∫ x in (-L)..L, Real.exp (-bt * (x - tPeak) ^ 2) :=
    intervalIntegral.integral_nonneg (by linarith) fun x _ => (Real.exp_pos _).le
  have x1 : Real.exp (-bw * R ^ 2) ≤ Real.exp (-bw * L ^ 2) := by
    rw [Real.exp_le_exp]
    have : L ^ 2 ≤ R ^ 2 := pow_le_pow_left₀ hLp.le a0 2
    nlinarith
  have x2 : Real.exp (-bw * L ^ 2) ≤ 1 := by
    rw [Real.exp_le_one_iff]
    nlinarith [sq_nonneg L]
  have x3 := Real.exp_pos (-bw * R ^ 2)
  have x4 : 0 ≤ 1 - Real.exp (-bw * L ^ 2) := by linarith
  have x5 : 0 ≤ 1 - Real.exp (-bw * R ^ 2) := by linarith
  have hEle : Ecyl ≤ Einf := by
    rw [hEcyl, hcyl, hEinf, ← mul_assoc]
    have q2 := p1.trans g2.1
    gcongr
    exact g2.2
  have hEge : eps0 / 2 * c * (Real.pi / bw * (1 - Real.exp (-bw * L ^ 2)) *
      (∫ x in (-L)..L, Real.exp (-bt * (x - tPeak) ^ 2)) / (1 + ζ ^ 2)) ≤ Ecyl := by
    rw [hEcyl, hcyl, ← mul_assoc]
    refine mul_le_mul_of_nonneg_left (div_le_div_of_nonneg_right (mul_le_mul (mul_le_mul_of_nonneg_left ?_ ?_) g2.1 p1 ?_) hq.le) ?_
    · linarith
    · positivity
    · positivity
    · positivity
  have hnear : |Ecyl - Einf| ≤ δ := by
    rw [abs_sub_comm, abs_of_nonneg (by linarith)]
    have := (abs_lt.1 hdist).1
    linarith
  obtain ⟨hEbp, hsr⟩ := hclose Ecyl hnear
  rw [hAval] at hsr
  exact ⟨hEbp, hsr⟩

omit [Phys] in
theorem scaled_norm {z g : ℂ} {S A ε : ℝ} (hS : 0 ≤ S) (h1 : ‖z - S * g‖ ≤ ε / 2) (h2 : |S - A| ≤ ε / 2) (hg : ‖g‖ ≤ 1) :
    |‖z‖ - A * ‖g‖| ≤ ε := by
  have a1 := (abs_norm_sub_norm_le z ((S : ℂ) * g)).trans h1
  rw [norm_mul, Complex.norm_real, Real.norm_eq_abs, abs_of_nonneg hS] at a1
  have a2 : |S * ‖g‖ - A * ‖g‖| ≤ ε / 2 := by
    rw [← sub_mul, abs_mul, abs_of_nonneg (norm_nonneg g)]
    calc _ ≤ ε / 2 * 1 := mul_le_mul h2 hg (norm_nonneg _) ((abs_nonneg _).trans h2)
      _ = ε / 2 := mul_one _
  have := abs_sub_le ‖z‖ (S * ‖g‖) (A * ‖g‖)
  linarith

/-- **C133** (cylindrical). The same for a laser in `rt` geometry with any number of modes: the mode `0` has the textbook
field, all other modes are zero. -/
theorem C133_gaussian_rt (wavelength : ℝ) (hwl : wavelength ≠ 0) (px py : ℂ) (E : ℝ) (hE : 0 ≤ E) (w0 tau : ℝ) (hw : 0 < w0)
    (htau : 0 < tau) (tPeak cep zFoc : ℝ) {p : ProfileObj}
    (hp : gaussianProfile wavelength [px, py] (some E) w0 tau tPeak cep zFoc = .ok p)
    (A w : ℝ) (hA : 0 ≤ A) (hA2 : eps0 * c / 2 * A ^ 2 * (Real.pi * w0 ^ 2 / 2) * (tau * Real.sqrt (Real.pi / 2)) = E)
    (hww : w = w0 * Real.sqrt (1 + (zFoc / (Real.pi * w0 ^ 2 / wavelength)) ^ 2)) {ε : ℝ} (hε : 0 < ε) :
    ∃ L : ℝ, 0 < L ∧ ∀ R lo1 hi1 : ℝ, L ≤ R → lo1 ≤ -L → L ≤ hi1 →
      ∃ N : ℕ, ∀ nr ≥ N, ∀ nt ≥ N, ∀ n ≥ 1, ∃ (l : Laser ⟨2 * n - 1, nr, nt⟩) (f : Field ⟨2 * n - 1, nr, nt⟩),
        Laser.init "rt" [0, lo1] [R, hi1] [nr, nt] p (some n) none = .ok ⟨_, l⟩ ∧ l.Has f ∧ l.energy = .ok E ∧
        ∀ (i : Fin (2 * n - 1)) j k, ((i : ℕ) = 0 → |‖f i j k‖ - A * (w0 / w) * Real.exp (-(linspace 0 R nr j) ^ 2 / w ^ 2) *
            Real.exp (-(linspace lo1 hi1 nt k - tPeak) ^ 2 / tau ^ 2)| ≤ ε) ∧
          ((i : ℕ) ≠ 0 → f i j k = 0) := by
  have hcp := Phys.c_pos
  have he := eps0_pos
  have hpi := Real.pi_pos
  obtain ⟨hpe, hdt, ζ, hww, hpt'⟩ := gauss_profile hwl hp hw hww
  obtain ⟨hwp, -, -⟩ := gauss_waist hw hww
  have hq : 0 < 1 + ζ ^ 2 := by positivity
  have hs2 : Real.sqrt (1 + ζ ^ 2) ^ 2 = 1 + ζ ^ 2 := Real.sq_sqrt hq.le
  have hn2 := gauss_norm_sq hw hww wavelength htau tPeak cep
  have hn1 := gauss_norm hw hww wavelength htau tPeak cep
  have hle := gauss_norm_le hw hww wavelength htau tPeak cep
  have hF : p.Pointwise fun x y t => gaussianTrans w0 ζ (Real.sqrt (x ^ 2 + y ^ 2)) 0 * gaussianLong wavelength tau tPeak cep t := by
    intro n0 n1 n2 x y t i j k
    rw [hpt']
    simp only
    congr 1
    unfold gaussianTrans
    rw [Real.sq_sqrt (by positivity)]
    simp
  obtain ⟨L, hLp, hL⟩ := gauss_energy_cyl hw hww wavelength htau tPeak cep hA hA2 hε
  refine ⟨L, hLp, fun R lo1 hi1 a0 a1 b1 => ?_⟩
  obtain ⟨Ecyl, hEcyl⟩ : ∃ e, e = eps0 / 2 * (∫ r in (0 : ℝ)..R, ∫ t in lo1..hi1,
      ‖gaussianTrans w0 ζ r 0 * gaussianLong wavelength tau tPeak cep t‖ ^ 2 * (2 * Real.pi * r * c)) := ⟨_, rfl⟩
  obtain ⟨hEbp, hsr⟩ := hL R lo1 hi1 Ecyl a0 a1 b1 hEcyl
  have hcont : Continuous fun q : ℝ × ℝ => gaussianTrans w0 ζ q.1 0 * gaussianLong wavelength tau tPeak cep q.2 := by
    unfold gaussianTrans gaussianLong
    fun_prop
  obtain ⟨N, key⟩ := C131_round R lo1 hi1 (by linarith) (by linarith) p E hE hpe
    (fun r t => gaussianTrans w0 ζ r 0 * gaussianLong wavelength tau tPeak cep t) hF hcont Ecyl hEcyl hEbp (half_pos hε)
  refine ⟨N, fun nr hr nt ht n hn => ?_⟩
  obtain ⟨l, f, hl, hf, hen, hb⟩ := key nr hr nt ht n hn
  refine ⟨l, f, hl, hf, hen, fun i j k => ⟨fun hi => ?_, (hb i j k).2⟩⟩
  have h1 := scaled_norm (Real.sqrt_nonneg _) ((hb i j k).1 hi) hsr (hle _ _ _)
  rw [hn1] at h1
  convert h1 using 3
  rw [show (0 : ℝ) ^ 2 = 0 by norm_num, add_zero]
  ring

/-- C131, C132, C133 are not vacuous: a pulse of one joule, its peak field, and a profile with two modes -/
example : (∃ (p : ProfileObj) (A : ℝ), gaussianProfile 1 [1, 0] (some 1) 2 3 0 0 5 = .ok p ∧ 0 < A ∧
      eps0 * c / 2 * A ^ 2 * (Real.pi * 2 ^ 2 / 2) * (3 * Real.sqrt (Real.pi / 2)) = 1) ∧
    ∃ (p : ProfileObj) (F : ℝ → ℝ → ℝ → ℂ), p.laserEnergy = none ∧ p.Pointwise F ∧
      (Continuous fun q : ℝ × ℝ × ℝ => F q.1 q.2.1 q.2.2) ∧ Spec.angularMode F 1 1 0 = 1 := by
  have hcp := Phys.c_pos
  have he := eps0_pos
  have hpi := Real.pi_pos
  refine ⟨?_, { constProfile none with evaluate := fun x y t i j k => (x i j k : ℂ) - I * (y i j k : ℝ) },
    fun x y _ => x - I * y, rfl, fun _ _ _ _ _ _ _ _ _ => rfl, by fun_prop, ?_⟩
  · obtain ⟨p, hp, -⟩ := C40_formula 1 one_ne_zero 1 0 (some 1) 2 3 0 0 5
    have hd : 0 < eps0 * c / 2 * (Real.pi * 2 ^ 2 / 2) * (3 * Real.sqrt (Real.pi / 2)) := by
      have : 0 < Real.sqrt (Real.pi / 2) := Real.sqrt_pos.2 (by positivity)
      positivity
    refine ⟨p, Real.sqrt (1 / (eps0 * c / 2 * (Real.pi * 2 ^ 2 / 2) * (3 * Real.sqrt (Real.pi / 2)))), hp,
      Real.sqrt_pos.2 (by positivity), ?_⟩
    rw [Real.sq_sqrt (by positivity)]
    field_simp
  · unfold Spec.angularMode
    have e : ∀ θ : ℝ, (((1 * Real.cos θ : ℝ) : ℂ) - I * ((1 * Real.sin θ : ℝ) : ℂ)) * exp (I * ((1 : ℤ) : ℂ) * θ) = 1 := by
      intro θ
      rw [show I * ((1 : ℤ) : ℂ) * θ = θ * I by push_cast; ring, Complex.exp_mul_I]
      have := Complex.sin_sq_add_cos_sq (θ : ℂ)
      push_cast
      linear_combination this - Complex.sin (θ : ℂ) ^ 2 * Complex.I_sq
    simp only [e]
    have hpc : (Real.pi : ℂ) ≠ 0 := by exact_mod_cast hpi.ne'
    simp
    field_simp

end Lasy
