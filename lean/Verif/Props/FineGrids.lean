import Verif.Props.Convergence

/-!
# Properties C131, C132: on fine grids the field of a laser does not depend on the grid

C131: a laser with a given energy converges to the profile times one number, the root of the ratio of that energy to the
energy of the profile in the box. C132: the azimuthal modes converge to the Fourier coefficients of the profile in the angle.
-/

namespace Lasy
open Spec Phys Complex

variable [Phys]

/-- the field of a laser built with an energy is the field without, times the root of the ratio of the energies -/
theorem scaled_field {s : Shape} {dim : String} {lo hi : List ℝ} {np : List ℕ} (p : ProfileObj) (m nTheta : Option ℕ)
    (E : ℝ) (hE : 0 ≤ E) (hp : p.laserEnergy = some (some E)) (l0 : Laser s) (f0 : Field s) (hf0 : l0.Has f0) (E0 : ℝ)
    (hE0 : l0.energy = .ok E0) (hpos : 0 < E0)
    (h : Laser.init dim lo hi np { p with laserEnergy := none } m nTheta = .ok ⟨s, l0⟩) :
    ∃ (l : Laser s), Laser.init dim lo hi np p m nTheta = .ok ⟨s, l⟩ ∧ l.energy = .ok E ∧
      l.Has fun i j k => f0 i j k * (Real.sqrt (E / E0) : ℂ) := by
  obtain ⟨l, f, hl, hh, h1, -⟩ := C14_energy_at_construction p m nTheta E hE hp l0 f0 hf0 E0 hE0 hpos.le h
  obtain ⟨he, a, ha, hf⟩ := h1 hpos.ne'
  subst hf
  refine ⟨l, hl, he, ?_⟩
  -- the cells have the same volumes
  obtain ⟨g, f1, hg, -, hgeo, ht, -⟩ := Laser.init_facts h
  obtain ⟨g', f2, hg', -, hgeo', ht', -⟩ := Laser.init_facts hl
  have hgg : g = g' := by
    rw [hg] at hg'
    simpa using hg'
  subst hgg
  have hv : ∀ j, l.grid.cellVolume j = l0.grid.cellVolume j := by
    intro j
    simp only [Grid.cellVolume, hgeo, ht, hgeo', ht']
  have e1 := hh.energy
  rw [he] at e1
  have e0 := hf0.energy
  rw [hE0] at e0
  have e1' := Except.ok.inj e1
  have e0' := Except.ok.inj e0
  have : E = a ^ 2 * E0 := by
    rw [e1', e0']
    simp only [Finset.mul_sum]
    refine Finset.sum_congr rfl fun i _ => Finset.sum_congr rfl fun j _ => Finset.sum_congr rfl fun k _ => ?_
    rw [hv, norm_mul, Complex.norm_real, Real.norm_eq_abs, mul_pow, sq_abs]
    ring
  have hs : Real.sqrt (E / E0) = a := by
    rw [this, mul_div_assoc, div_self hpos.ne', mul_one, Real.sqrt_sq ha]
  rw [hs]
  exact hh

omit [Phys] in
/-- roots of ratios converge -/
theorem sqrt_ratio_close (E : ℝ) {E1 : ℝ} (h1 : 0 < E1) {ε : ℝ} (hε : 0 < ε) :
    ∃ δ > 0, ∀ E0 : ℝ, |E0 - E1| ≤ δ → 0 < E0 ∧ |Real.sqrt (E / E0) - Real.sqrt (E / E1)| ≤ ε := by
  have hc : ContinuousAt (fun x : ℝ => Real.sqrt (E / x)) E1 :=
    (Real.continuous_sqrt.continuousAt).comp (continuousAt_const.div continuousAt_id h1.ne')
  rw [Metric.continuousAt_iff] at hc
  obtain ⟨δ, hδ, hc⟩ := hc ε hε
  refine ⟨min (δ / 2) (E1 / 2), by positivity, fun E0 h0 => ?_⟩
  have ha := (le_min_iff.1 h0).1
  have hb := (le_min_iff.1 h0).2
  constructor
  · have := (abs_le.1 hb).1
    linarith
  · have := hc (x := E0) (by rw [Real.dist_eq]; linarith)
    rw [Real.dist_eq] at this
    exact this.le

/-- **C131** (Cartesian). Let a continuous profile define `laser_energy = E`, and let its own energy in the box be not zero.
When the numbers of points of all three axes grow, the field of the laser converges, at all grid points at once, to the
profile times `√(E / energy of the profile in the box)`: refining the grid does not change the result. -/
theorem C131_field_xyt (lo0 lo1 lo2 hi0 hi1 hi2 : ℝ) (h0 : lo0 ≤ hi0) (h1 : lo1 ≤ hi1) (h2 : lo2 ≤ hi2) (p : ProfileObj)
    (E : ℝ) (hE : 0 ≤ E) (hp : p.laserEnergy = some (some E)) (hd : p.dtype = .c128) (F : ℝ → ℝ → ℝ → ℂ)
    (hF : p.Pointwise F) (hcont : ContinuousOn (fun q : ℝ × ℝ × ℝ => F q.1 q.2.1 q.2.2)
      (Set.Icc lo0 hi0 ×ˢ (Set.Icc lo1 hi1 ×ˢ Set.Icc lo2 hi2)))
    (Ebox : ℝ) (hbox : Ebox = eps0 / 2 * ∫ x in lo0..hi0, ∫ y in lo1..hi1, ∫ t in lo2..hi2, ‖F x y t‖ ^ 2 * c)
    (hpos : 0 < Ebox) (m nT : Option ℕ) {ε : ℝ} (hε : 0 < ε) :
    ∃ N : ℕ, ∀ nx ≥ N, ∀ ny ≥ N, ∀ nt ≥ N, ∃ (l : Laser ⟨nx, ny, nt⟩) (f : Field ⟨nx, ny, nt⟩),
      Laser.init "xyt" [lo0, lo1, lo2] [hi0, hi1, hi2] [nx, ny, nt] p m nT = .ok ⟨_, l⟩ ∧ l.Has f ∧ l.energy = .ok E ∧
      ∀ i j k, ‖f i j k - Real.sqrt (E / Ebox) *
        F (linspace lo0 hi0 nx i) (linspace lo1 hi1 ny j) (linspace lo2 hi2 nt k)‖ ≤ ε := by
  obtain ⟨M, hM⟩ := ((isCompact_Icc.prod (isCompact_Icc.prod isCompact_Icc)).image_of_continuousOn hcont.norm).bddAbove
  have hM' : ∀ x ∈ Set.Icc lo0 hi0, ∀ y ∈ Set.Icc lo1 hi1, ∀ t ∈ Set.Icc lo2 hi2, ‖F x y t‖ ≤ |M| :=
    fun x hx y hy t ht => (hM ⟨(x, y, t), ⟨hx, hy, ht⟩, rfl⟩).trans (le_abs_self M)
  obtain ⟨δ, hδ, hclose⟩ := sqrt_ratio_close E hpos (ε := ε / (|M| + 1)) (by positivity)
  obtain ⟨N, key⟩ := C126_energy_xyt lo0 lo1 lo2 hi0 hi1 hi2 h0 h1 h2 { p with laserEnergy := none } rfl hd F hF hcont m nT hδ
  refine ⟨max N 2, fun nx hx ny hy nt ht => ?_⟩
  obtain ⟨l0, E0, hl0, hE0, hb⟩ := key nx (le_trans (le_max_left _ _) hx) ny (le_trans (le_max_left _ _) hy) nt
    (le_trans (le_max_left _ _) ht)
  obtain ⟨l1, hl1, hh⟩ := C14_unscaled_xyt lo0 lo1 lo2 hi0 hi1 hi2 nx ny nt (le_trans (le_max_right _ _) hx)
    (le_trans (le_max_right _ _) hy) (le_trans (le_max_right _ _) ht) { p with laserEnergy := none } rfl hd F hF m nT
  have hll : l0 = l1 := by
    rw [hl0] at hl1
    simpa using hl1
  subst hll
  rw [← hbox] at hb
  obtain ⟨hE0p, hsq⟩ := hclose E0 hb
  obtain ⟨l, hl, he, hf⟩ := scaled_field p m nT E hE hp l0 _ hh E0 hE0 hE0p hl0
  refine ⟨l, _, hl, hf, he, fun i j k => ?_⟩
  have hn := hM' _ (linspace_mem h0 i) _ (linspace_mem h1 j) _ (linspace_mem h2 k)
  rw [mul_comm, ← sub_mul, norm_mul, ← Complex.ofReal_sub, Complex.norm_real, Real.norm_eq_abs]
  calc _ ≤ ε / (|M| + 1) * |M| := mul_le_mul hsq hn (norm_nonneg _) (by positivity)
    _ ≤ ε := by
      rw [div_mul_eq_mul_div, div_le_iff₀ (by positivity)]
      nlinarith [abs_nonneg M]

/-! ## C132 -/

omit [Phys] in
/-- sums over equally spaced angles of a complex function converge to the mean over the circle, uniformly in a parameter -/
theorem angle_mean {X : Type} [PseudoMetricSpace X] {K : Set X} (hK : IsCompact K) {G : X → ℝ → ℂ}
    (hG : Continuous fun q : X × ℝ => G q.1 q.2) {ε : ℝ} (hε : 0 < ε) :
    ∃ N : ℕ, 2 ≤ N ∧ ∀ n ≥ N, ∀ x ∈ K, ‖(∑ q : Fin n, G x (2 * Real.pi * (q : ℕ) / n)) / n -
      (1 / (2 * Real.pi)) * ∫ θ in (0 : ℝ)..(2 * Real.pi), G x θ‖ ≤ ε := by
  have hpi := Real.pi_pos
  obtain ⟨N1, hN1, h1⟩ := sum_uniform hK (by positivity : (0 : ℝ) ≤ 2 * Real.pi) (F := fun x θ => (G x θ).re)
    (Complex.continuous_re.comp hG) (ε := ε) hε
  obtain ⟨N2, hN2, h2⟩ := sum_uniform hK (by positivity : (0 : ℝ) ≤ 2 * Real.pi) (F := fun x θ => (G x θ).im)
    (Complex.continuous_im.comp hG) (ε := ε) hε
  refine ⟨max N1 N2, le_max_of_le_left hN1, fun n hn x hx => ?_⟩
  have r1 := (h1 n (le_trans (le_max_left _ _) hn) x hx).2
  have r2 := (h2 n (le_trans (le_max_right _ _) hn) x hx).2
  have hn0 : (n : ℝ) ≠ 0 := by
    have : 2 ≤ n := le_trans hN1 (le_trans (le_max_left _ _) hn)
    exact_mod_cast (by omega : n ≠ 0)
  have hint : IntervalIntegrable (G x) MeasureTheory.volume 0 (2 * Real.pi) :=
    (hG.comp (Continuous.prodMk continuous_const continuous_id)).intervalIntegrable _ _
  have hI : ∫ θ in (0 : ℝ)..(2 * Real.pi), G x θ =
      ((∫ θ in (0 : ℝ)..(2 * Real.pi), (G x θ).re : ℝ) : ℂ) + ((∫ θ in (0 : ℝ)..(2 * Real.pi), (G x θ).im : ℝ) : ℂ) * I := by
    rw [← intervalIntegral.integral_ofReal, ← intervalIntegral.integral_ofReal, ← intervalIntegral.integral_mul_const,
      ← intervalIntegral.integral_add]
    · refine intervalIntegral.integral_congr fun θ _ => ?_
      simp [Complex.re_add_im]
    · exact (Complex.continuous_ofReal.comp (Complex.continuous_re.comp
        (hG.comp (Continuous.prodMk continuous_const continuous_id)))).intervalIntegrable _ _
    · exact ((Complex.continuous_ofReal.comp (Complex.continuous_im.comp
        (hG.comp (Continuous.prodMk continuous_const continuous_id)))).mul continuous_const).intervalIntegrable _ _
  have hS : (∑ q : Fin n, G x (2 * Real.pi * (q : ℕ) / n)) / n = (1 / (2 * Real.pi) : ℂ) *
      ((leftSum 0 (2 * Real.pi) n (fun θ => (G x θ).re) : ℝ) + (leftSum 0 (2 * Real.pi) n (fun θ => (G x θ).im) : ℝ) * I) := by
    unfold leftSum
    have hpc : (Real.pi : ℂ) ≠ 0 := by exact_mod_cast hpi.ne'
    have hnc : (n : ℂ) ≠ 0 := by exact_mod_cast hn0
    have e : ∀ q : Fin n, (0 : ℝ) + ((q : ℕ) : ℝ) * ((2 * Real.pi - 0) / n) = 2 * Real.pi * (q : ℕ) / n := fun q => by ring
    simp only [e]
    rw [show (∑ q : Fin n, G x (2 * Real.pi * (q : ℕ) / n)) =
      ((∑ q : Fin n, (G x (2 * Real.pi * (q : ℕ) / n)).re : ℝ) : ℂ) +
        ((∑ q : Fin n, (G x (2 * Real.pi * (q : ℕ) / n)).im : ℝ) : ℂ) * I by
      push_cast
      rw [Finset.sum_mul, ← Finset.sum_add_distrib]
      refine Finset.sum_congr rfl fun q _ => ?_
      rw [Complex.re_add_im]]
    push_cast
    field_simp
    ring
  rw [hS, hI, ← mul_sub, norm_mul]
  set A := leftSum 0 (2 * Real.pi) n (fun θ => (G x θ).re)
  set B := leftSum 0 (2 * Real.pi) n (fun θ => (G x θ).im)
  set A' := ∫ θ in (0 : ℝ)..(2 * Real.pi), (G x θ).re
  set B' := ∫ θ in (0 : ℝ)..(2 * Real.pi), (G x θ).im
  have e : ((A : ℂ) + B * I) - (A' + B' * I) = ((A - A' : ℝ) : ℂ) + ((B - B' : ℝ) : ℂ) * I := by push_cast; ring
  have hn1 : ‖(1 / (2 * Real.pi) : ℂ)‖ = 1 / (2 * Real.pi) := by
    rw [norm_div, norm_one, norm_mul, Complex.norm_real, Real.norm_eq_abs, abs_of_pos hpi]
    simp
  rw [e, hn1]
  have : ‖((A - A' : ℝ) : ℂ) + ((B - B' : ℝ) : ℂ) * I‖ ≤ 2 * ε := by
    refine (norm_add_le _ _).trans ?_
    rw [norm_mul, Complex.norm_I, mul_one, Complex.norm_real, Complex.norm_real, Real.norm_eq_abs, Real.norm_eq_abs]
    linarith
  calc _ ≤ 1 / (2 * Real.pi) * (2 * ε) := mul_le_mul_of_nonneg_left this (by positivity)
    _ = ε / Real.pi := by field_simp
    _ ≤ ε := div_le_self hε.le (by linarith [Real.two_le_pi])

/-- the Fourier coefficient of a profile in the angle: what multiplies `e^{-imθ}` -/
noncomputable def Spec.angularMode (F : ℝ → ℝ → ℝ → ℂ) (m : ℤ) (r t : ℝ) : ℂ :=
  1 / (2 * Real.pi) * ∫ θ in (0 : ℝ)..(2 * Real.pi), F (r * Real.cos θ) (r * Real.sin θ) t * exp (I * m * θ)

omit [Phys] in
theorem modes_converge (lo0 lo1 hi0 hi1 : ℝ) (h0 : lo0 ≤ hi0) (h1 : lo1 ≤ hi1) (p : ProfileObj) (F : ℝ → ℝ → ℝ → ℂ)
    (hF : p.Pointwise F) (hcont : Continuous fun q : ℝ × ℝ × ℝ => F q.1 q.2.1 q.2.2) (m : ℤ) {ε : ℝ} (hε : 0 < ε) :
    ∃ M : ℕ, ∀ (nr nt n N : ℕ) (hn : 1 ≤ n) (hN : 2 * n - 1 ≤ N) (i : Fin (2 * n - 1)), N ≥ M → modeAt n i = m → ∀ j k,
      ‖sampledRT p n N hN hn (linspace lo0 hi0 nr) (linspace lo1 hi1 nt) i j k -
        Spec.angularMode F m (linspace lo0 hi0 nr j) (linspace lo1 hi1 nt k)‖ ≤ ε := by
  have hG : Continuous fun q : (ℝ × ℝ) × ℝ =>
      F (q.1.1 * Real.cos q.2) (q.1.1 * Real.sin q.2) q.1.2 * exp (I * m * q.2) := by
    have hm : Continuous fun q : (ℝ × ℝ) × ℝ => (q.1.1 * Real.cos q.2, q.1.1 * Real.sin q.2, q.1.2) := by fun_prop
    exact (hcont.comp hm).mul (by fun_prop)
  obtain ⟨M, hM, key⟩ := angle_mean (K := Set.Icc lo0 hi0 ×ˢ Set.Icc lo1 hi1) (isCompact_Icc.prod isCompact_Icc)
    (G := fun q θ => F (q.1 * Real.cos θ) (q.1 * Real.sin θ) q.2 * exp (I * m * θ)) hG hε
  refine ⟨M, fun nr nt n N hn hN i hNM hi j k => ?_⟩
  have := key N hNM (linspace lo0 hi0 nr j, linspace lo1 hi1 nt k) ⟨linspace_mem h0 j, linspace_mem h1 k⟩
  rw [sampledRT_eq p F hF, hi]
  unfold Spec.angularMode
  convert this using 4
  refine Finset.sum_congr rfl fun q _ => ?_
  unfold atAngle chr
  push_cast
  congr 2
  ring

/-- **C132.** When the number of angles grows, each azimuthal mode `m` of a new laser (with any number of modes that includes
`m`, any number of points) converges, at all grid points at once, to the Fourier coefficient
`1/2π ∫ F(r cosθ, r sinθ, t) e^{imθ} dθ` of the profile. -/
theorem C132_modes (lo0 lo1 hi0 hi1 : ℝ) (h0 : lo0 ≤ hi0) (h1 : lo1 ≤ hi1) (p : ProfileObj) (hp : p.laserEnergy = none)
    (F : ℝ → ℝ → ℝ → ℂ) (hF : p.Pointwise F) (hcont : Continuous fun q : ℝ × ℝ × ℝ => F q.1 q.2.1 q.2.2) (m : ℤ)
    {ε : ℝ} (hε : 0 < ε) :
    ∃ M : ℕ, ∀ nr ≥ 2, ∀ nt ≥ 2, ∀ (n N : ℕ), |m| < n → 2 * n - 1 ≤ N → M ≤ N →
      ∃ (l : Laser ⟨2 * n - 1, nr, nt⟩) (f : Field ⟨2 * n - 1, nr, nt⟩),
        Laser.init "rt" [lo0, lo1] [hi0, hi1] [nr, nt] p (some n) (some N) = .ok ⟨_, l⟩ ∧ l.Has f ∧
        ∀ i, pyIndex (2 * n - 1) m = .ok i → ∀ j k,
          ‖f i j k - Spec.angularMode F m (linspace lo0 hi0 nr j) (linspace lo1 hi1 nt k)‖ ≤ ε := by
  obtain ⟨M, key⟩ := modes_converge lo0 lo1 hi0 hi1 h0 h1 p F hF hcont m hε
  refine ⟨M, fun nr hr nt ht n N hm hN hMN => ?_⟩
  have hn : 1 ≤ n := by
    have := abs_nonneg m
    omega
  obtain ⟨l, hl, hh⟩ := Laser.init_rt lo0 lo1 hi0 hi1 nr nt n N hr ht hn hN p hp (some N) rfl
  refine ⟨l, _, hl, hh, fun i hi j k => ?_⟩
  exact key nr nt n N hn hN i hMN ((modeAt_iff hn i m).2 ⟨hm, hi⟩) j k

/-- **C131** (cylindrical). Let a continuous profile define `laser_energy = E`, and let its own energy in the cylinder be not
zero. When the numbers of points and of modes grow, mode `m` of the laser converges, at all grid points at once, to the Fourier
coefficient `m` of the profile times `√(E / energy of the profile in the cylinder)`. -/
theorem C131_field_rt (R lo1 hi1 : ℝ) (hR : 0 ≤ R) (h1 : lo1 ≤ hi1) (p : ProfileObj) (E : ℝ) (hE : 0 ≤ E)
    (hp : p.laserEnergy = some (some E)) (F : ℝ → ℝ → ℝ → ℂ) (hF : p.Pointwise F)
    (hcont : Continuous fun q : ℝ × ℝ × ℝ => F q.1 q.2.1 q.2.2) (Ecyl : ℝ)
    (hcyl : Ecyl = eps0 / 2 * ∫ t in lo1..hi1, ∫ q in {q : ℝ × ℝ | q.1 ^ 2 + q.2 ^ 2 ≤ R ^ 2}, ‖F q.1 q.2 t‖ ^ 2 * c)
    (hpos : 0 < Ecyl) (m : ℤ) {ε : ℝ} (hε : 0 < ε) :
    ∃ N : ℕ, ∀ nr ≥ N, ∀ nt ≥ N, ∀ n ≥ N, ∃ (l : Laser ⟨2 * n - 1, nr, nt⟩) (f : Field ⟨2 * n - 1, nr, nt⟩),
      Laser.init "rt" [0, lo1] [R, hi1] [nr, nt] p (some n) none = .ok ⟨_, l⟩ ∧ l.Has f ∧ l.energy = .ok E ∧
      ∃ i, pyIndex (2 * n - 1) m = .ok i ∧ ∀ j k, ‖f i j k - Real.sqrt (E / Ecyl) *
        Spec.angularMode F m (linspace 0 R nr j) (linspace lo1 hi1 nt k)‖ ≤ ε := by
  have hG : Continuous fun q : ℝ × ℝ => ‖Spec.angularMode F m q.1 q.2‖ := by
    refine (Continuous.mul continuous_const ?_).norm
    have hc : Continuous fun q : (ℝ × ℝ) × ℝ =>
        F (q.1.1 * Real.cos q.2) (q.1.1 * Real.sin q.2) q.1.2 * exp (I * m * q.2) := by
      have hm : Continuous fun q : (ℝ × ℝ) × ℝ => (q.1.1 * Real.cos q.2, q.1.1 * Real.sin q.2, q.1.2) := by fun_prop
      exact (hcont.comp hm).mul (by fun_prop)
    exact intervalIntegral.continuous_parametric_intervalIntegral_of_continuous'
      (f := fun (q : ℝ × ℝ) θ => F (q.1 * Real.cos θ) (q.1 * Real.sin θ) q.2 * exp (I * m * θ)) hc _ _
  obtain ⟨M, hM⟩ := ((isCompact_Icc (a := (0 : ℝ)) (b := R)).prod
    (isCompact_Icc (a := lo1) (b := hi1))).image_of_continuousOn hG.continuousOn |>.bddAbove
  have hM' : ∀ r ∈ Set.Icc 0 R, ∀ t ∈ Set.Icc lo1 hi1, ‖Spec.angularMode F m r t‖ ≤ |M| :=
    fun r hr t ht => (hM ⟨(r, t), ⟨hr, ht⟩, rfl⟩).trans (le_abs_self M)
  obtain ⟨δ, hδ, hclose⟩ := sqrt_ratio_close E hpos (ε := min (ε / 2 / (|M| + 1)) 1) (by positivity)
  obtain ⟨N1, key1⟩ := C126_energy_disc R lo1 hi1 hR h1 { p with laserEnergy := none } rfl F hF hcont hδ
  set S := Real.sqrt (E / Ecyl) with hS
  have hS0 : 0 ≤ S := Real.sqrt_nonneg _
  obtain ⟨N2, key2⟩ := modes_converge 0 lo1 R hi1 hR h1 { p with laserEnergy := none } F hF hcont m
    (ε := ε / 2 / (S + 1)) (by positivity)
  refine ⟨max (max N1 N2) (m.natAbs + 2), fun nr hr nt ht n hn => ?_⟩
  have a1 : ∀ {k}, k ≥ max (max N1 N2) (m.natAbs + 2) → k ≥ N1 :=
    fun h => le_trans (le_trans (le_max_left _ _) (le_max_left _ _)) h
  have a2 : ∀ {k}, k ≥ max (max N1 N2) (m.natAbs + 2) → k ≥ N2 :=
    fun h => le_trans (le_trans (le_max_right _ _) (le_max_left _ _)) h
  have a3 : ∀ {k}, k ≥ max (max N1 N2) (m.natAbs + 2) → k ≥ m.natAbs + 2 := fun h => le_trans (le_max_right _ _) h
  have hn3 := a3 hn
  have hr3 := a3 hr
  have ht3 := a3 ht
  have hn1 : 1 ≤ n := by omega
  have hm : |m| < n := by
    have : |m| = m.natAbs := Int.abs_eq_natAbs m
    omega
  obtain ⟨l0, E0, hl0, hE0, hb⟩ := key1 nr (a1 hr) nt (a1 ht) n (a1 hn)
  obtain ⟨l1, hl1, hh⟩ := Laser.init_rt 0 lo1 R hi1 nr nt n _ (by omega) (by omega) hn1 le_rfl
    { p with laserEnergy := none } rfl none rfl
  have hll : l0 = l1 := by
    rw [hl0] at hl1
    simpa using hl1
  subst hll
  rw [← hcyl] at hb
  obtain ⟨hE0p, hsq⟩ := hclose E0 hb
  obtain ⟨l, hl, he, hf⟩ := scaled_field p (some n) none E hE hp l0 _ hh E0 hE0 hE0p hl0
  obtain ⟨i, hi⟩ : ∃ i, pyIndex (2 * n - 1) m = .ok i := by
    unfold pyIndex
    have := abs_lt.1 hm
    split_ifs <;> first | exact ⟨_, rfl⟩ | (exfalso; omega)
  refine ⟨l, _, hl, hf, he, i, hi, fun j k => ?_⟩
  have hmode := (modeAt_iff hn1 i m).2 ⟨hm, hi⟩
  have hk := key2 nr nt n (2 * n - 1) hn1 le_rfl i (by have := a2 hn; omega) hmode j k
  have hn := hM' _ (linspace_mem hR j) _ (linspace_mem h1 k)
  generalize sampledRT { p with laserEnergy := none } n (2 * n - 1) le_rfl hn1 (linspace 0 R nr) (linspace lo1 hi1 nt) i j k = z
    at hk ⊢
  generalize Spec.angularMode F m (linspace 0 R nr j) (linspace lo1 hi1 nt k) = w at hk hn ⊢
  set T := Real.sqrt (E / E0) with hT
  have hT0 : 0 ≤ T := Real.sqrt_nonneg _
  have hq1 := hsq.trans (min_le_left _ _)
  have hq2 := hsq.trans (min_le_right _ _)
  have hTS : T ≤ S + 1 := by linarith [(abs_le.1 hq2).2]
  have e : z * (T : ℂ) - S * w = (z - w) * T + ((T - S : ℝ) : ℂ) * w := by push_cast; ring
  rw [e]
  refine (norm_add_le _ _).trans ?_
  rw [norm_mul, norm_mul, Complex.norm_real, Complex.norm_real, Real.norm_eq_abs, Real.norm_eq_abs, abs_of_nonneg hT0]
  have b1 : ‖z - w‖ * T ≤ ε / 2 := by
    calc _ ≤ ε / 2 / (S + 1) * (S + 1) := mul_le_mul hk hTS hT0 (by positivity)
      _ = ε / 2 := by field_simp
  have b2 : |T - S| * ‖w‖ ≤ ε / 2 := by
    calc _ ≤ ε / 2 / (|M| + 1) * |M| := mul_le_mul hq1 hn (norm_nonneg _) (by positivity)
      _ ≤ ε / 2 := by
        rw [div_mul_eq_mul_div, div_le_iff₀ (by positivity)]
        nlinarith [abs_nonneg M]
  linarith

end Lasy
