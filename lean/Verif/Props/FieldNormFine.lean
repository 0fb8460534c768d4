import Verif.Props.GaussianPeak

/-!
# Property C156: `normalize(A, "field")` on fine grids

The result of normalizing to a peak field does not depend on the grid, nor on the energy the profile was built with.
-/

namespace Lasy
open Spec Phys Complex

variable [Phys]

omit [Phys] in
/-- every point of an interval is close to a point of a fine axis -/
theorem near_node {lo hi : ℝ} (h : lo ≤ hi) {x : ℝ} (hx : x ∈ Set.Icc lo hi) {η : ℝ} (hη : 0 < η) :
    ∃ N : ℕ, 2 ≤ N ∧ ∀ n ≥ N, ∃ i : Fin n, |linspace lo hi n i - x| < η := by
  obtain ⟨N, hN⟩ := exists_nat_gt ((hi - lo) / η)
  refine ⟨N + 2, by omega, fun n hn => ?_⟩
  have hn1 : (N : ℝ) + 1 ≤ (n : ℝ) - 1 := by
    have : ((N + 2 : ℕ) : ℝ) ≤ n := by exact_mod_cast hn
    push_cast at this
    linarith
  have hNp : (0 : ℝ) ≤ N := Nat.cast_nonneg _
  have hn0 : (0 : ℝ) < (n : ℝ) - 1 := by linarith
  rcases eq_or_lt_of_le h with rfl | hlt
  · refine ⟨⟨0, by omega⟩, ?_⟩
    have : x = lo := le_antisymm hx.2 hx.1
    simpa [linspace, this] using hη
  have hd : 0 < hi - lo := by linarith
  set u := (x - lo) / (hi - lo) * ((n : ℝ) - 1) with hu
  have hu0 : 0 ≤ u := mul_nonneg (div_nonneg (by linarith [hx.1]) hd.le) hn0.le
  have hu1 : u ≤ (n : ℝ) - 1 := by
    have : (x - lo) / (hi - lo) ≤ 1 := (div_le_one hd).2 (by linarith [hx.2])
    nlinarith
  have hf1 := Nat.floor_le hu0
  have hf2 := Nat.lt_floor_add_one u
  have hlt : ⌊u⌋₊ < n := by
    have : (⌊u⌋₊ : ℝ) < n := by linarith
    exact_mod_cast this
  refine ⟨⟨⌊u⌋₊, hlt⟩, ?_⟩
  have hxu : x = lo + u * ((hi - lo) / ((n : ℝ) - 1)) := by
    rw [hu]
    field_simp
    ring
  have hst : (hi - lo) / ((n : ℝ) - 1) < η := by
    rw [div_lt_iff₀ hn0]
    rw [div_lt_iff₀ hη] at hN
    nlinarith
  have hst0 : 0 < (hi - lo) / ((n : ℝ) - 1) := by positivity
  unfold linspace
  simp only
  rw [hxu, show lo + (⌊u⌋₊ : ℝ) * ((hi - lo) / ((n : ℝ) - 1)) - (lo + u * ((hi - lo) / ((n : ℝ) - 1))) =
    -((u - ⌊u⌋₊) * ((hi - lo) / ((n : ℝ) - 1))) by ring, abs_neg, abs_of_nonneg (mul_nonneg (by linarith) hst0.le)]
  nlinarith

/-- what `normalize(A, "field")` does to the field and the energy, in numbers -/
theorem normField_exact {s : Shape} (l : Laser s) (f : Field s) (h : l.Has f) (A K : ℝ)
    (hK : IsGreatest {x | ∃ i j k, x = ‖f i j k‖} K) (hpos : 0 < K) {E : ℝ} (hE : l.energy = .ok E) :
    ∃ l' : Laser s, Laser.normalize (some A) "field" l = (.ok (), l') ∧
      l'.Has (fun i j k => f i j k * ((A / K : ℝ) : ℂ)) ∧ l'.energy = .ok ((A / K) ^ 2 * E) := by
  obtain ⟨i0, j0, k0, -⟩ := hK.1
  have hs : 0 < s.n0 ∧ 0 < s.n1 ∧ 0 < s.nt := ⟨i0.pos, j0.pos, k0.pos⟩
  have hKK : absMax f = K := (absMax_isGreatest f hs).unique hK
  obtain ⟨g', e, h', hgeo, ht⟩ := Grid.Holds.normPeak h A (by rw [hKK]; exact hpos.ne')
  rw [hKK] at h'
  have h'' : Laser.Has { l with grid := g' } (fun i j k => f i j k * ((A / K : ℝ) : ℂ)) := h'
  refine ⟨{ l with grid := g' }, ?_, h', ?_⟩
  · have hne : ¬ ("field" = "energy") := by decide
    simp only [Laser.normalize, hne, if_true, if_false]
    exact onGrid_eq e
  · rw [h''.energy]
    rw [h.energy] at hE
    rw [← Except.ok.inj hE]
    congr 1
    simp only [Finset.mul_sum]
    refine Finset.sum_congr rfl fun i _ => Finset.sum_congr rfl fun j _ => Finset.sum_congr rfl fun k _ => ?_
    have hv : Grid.cellVolume g' j = l.grid.cellVolume j := by
      simp only [Grid.cellVolume, hgeo, ht]
    rw [hv, norm_mul, Complex.norm_real, Real.norm_eq_abs, mul_pow, sq_abs]
    ring

/-- **C156** (Cartesian). Let the largest modulus of a continuous profile in the box be `M > 0`, and let the profile define no
energy or any positive energy. When the numbers of points of all three axes grow, `normalize(A, "field")` gives, at all grid
points at once, the profile times `A / M`, and the energy of the laser converges to `(A/M)²` times the energy of the profile in
the box: the result does not depend on the grid or on the energy the laser was built with. -/
theorem C156_field_xyt (lo0 lo1 lo2 hi0 hi1 hi2 : ℝ) (hlt0 : lo0 < hi0) (hlt1 : lo1 < hi1) (hlt2 : lo2 < hi2) (p : ProfileObj)
    (hp : p.laserEnergy = none ∨ ∃ E > 0, p.laserEnergy = some (some E)) (hd : p.dtype = .c128) (F : ℝ → ℝ → ℝ → ℂ)
    (hF : p.Pointwise F) (hcont : ContinuousOn (fun q : ℝ × ℝ × ℝ => F q.1 q.2.1 q.2.2)
      (Set.Icc lo0 hi0 ×ˢ (Set.Icc lo1 hi1 ×ˢ Set.Icc lo2 hi2)))
    (M : ℝ) (hM : IsGreatest {a | ∃ x ∈ Set.Icc lo0 hi0, ∃ y ∈ Set.Icc lo1 hi1, ∃ t ∈ Set.Icc lo2 hi2, a = ‖F x y t‖} M)
    (hMp : 0 < M)
    (Ebox : ℝ) (hbox : Ebox = eps0 / 2 * ∫ x in lo0..hi0, ∫ y in lo1..hi1, ∫ t in lo2..hi2, ‖F x y t‖ ^ 2 * c)
    (A : ℝ) (m nT : Option ℕ) {ε : ℝ} (hε : 0 < ε) :
    ∃ N : ℕ, ∀ nx ≥ N, ∀ ny ≥ N, ∀ nt ≥ N, ∃ (l l' : Laser ⟨nx, ny, nt⟩) (f : Field ⟨nx, ny, nt⟩) (E' : ℝ),
      Laser.init "xyt" [lo0, lo1, lo2] [hi0, hi1, hi2] [nx, ny, nt] p m nT = .ok ⟨_, l⟩ ∧
      Laser.normalize (some A) "field" l = (.ok (), l') ∧ l'.Has f ∧ l'.energy = .ok E' ∧
      (∀ i j k, ‖f i j k - (A / M) *
        F (linspace lo0 hi0 nx i) (linspace lo1 hi1 ny j) (linspace lo2 hi2 nt k)‖ ≤ ε) ∧
      |E' - (A / M) ^ 2 * Ebox| ≤ ε := by
  have h0 := hlt0.le
  have h1 := hlt1.le
  have h2 := hlt2.le
  obtain ⟨⟨x0, hx0, y0, hy0, t0, ht0, hM0⟩, hMub⟩ := hM
  have hub : ∀ x ∈ Set.Icc lo0 hi0, ∀ y ∈ Set.Icc lo1 hi1, ∀ t ∈ Set.Icc lo2 hi2, ‖F x y t‖ ≤ M :=
    fun x hx y hy t ht => hMub ⟨x, hx, y, hy, t, ht, rfl⟩
  -- how close the maximum and the energy have to be
  have hc1 : ContinuousAt (fun x : ℝ => A / x) M := continuousAt_const.div continuousAt_id hMp.ne'
  have hc2 : ContinuousAt (fun q : ℝ × ℝ => (A / q.1) ^ 2 * q.2) (M, Ebox) :=
    ((continuousAt_const.div continuousAt_fst hMp.ne').pow 2).mul continuousAt_snd
  obtain ⟨δ1, hδ1, hc1⟩ := Metric.continuousAt_iff.1 hc1 (ε / M) (by positivity)
  obtain ⟨δ2, hδ2, hc2⟩ := Metric.continuousAt_iff.1 hc2 ε hε
  set δ := min (min δ1 δ2) M / 2 with hδ
  have hδp : 0 < δ := by positivity
  have hδ1' : δ < δ1 := by
    have := min_le_left (min δ1 δ2) M
    have := min_le_left δ1 δ2
    rw [hδ]; linarith
  have hδ2' : δ < δ2 := by
    have := min_le_left (min δ1 δ2) M
    have := min_le_right δ1 δ2
    rw [hδ]; linarith
  have hδM : δ < M := by
    have := min_le_right (min δ1 δ2) M
    rw [hδ]; linarith
  -- a node close to the place of the maximum
  have hcw := (hcont.norm) (x0, y0, t0) ⟨hx0, hy0, ht0⟩
  obtain ⟨η, hη, hcl⟩ := Metric.continuousWithinAt_iff.1 hcw δ hδp
  obtain ⟨Nx, hNx, kx⟩ := near_node h0 hx0 hη
  obtain ⟨Ny, hNy, ky⟩ := near_node h1 hy0 hη
  obtain ⟨Nt, hNt, kt⟩ := near_node h2 ht0 hη
  obtain ⟨N, key⟩ := C126_energy_xyt lo0 lo1 lo2 hi0 hi1 hi2 h0 h1 h2 { p with laserEnergy := none } rfl hd F hF hcont m nT hδp
  refine ⟨N + Nx + Ny + Nt, fun nx hx ny hy nt ht => ?_⟩
  obtain ⟨l0, E0, hl0, hE0, hb⟩ := key nx (by omega) ny (by omega) nt (by omega)
  obtain ⟨l1, hl1, hh⟩ := C14_unscaled_xyt lo0 lo1 lo2 hi0 hi1 hi2 nx ny nt (by omega) (by omega) (by omega)
    { p with laserEnergy := none } rfl hd F hF m nT
  obtain rfl : l0 = l1 := by
    rw [hl0] at hl1
    simpa using hl1
  rw [← hbox] at hb
  obtain ⟨i1, hxi⟩ := kx nx (by omega)
  obtain ⟨j1, hyj⟩ := ky ny (by omega)
  obtain ⟨k1, htk⟩ := kt nt (by omega)
  set f0 : Field ⟨nx, ny, nt⟩ := fun i j k =>
    F (linspace lo0 hi0 nx i) (linspace lo1 hi1 ny j) (linspace lo2 hi2 nt k) with hf0
  have hKG := absMax_isGreatest f0 ⟨i1.pos, j1.pos, k1.pos⟩
  set K := absMax f0 with hKdef
  have hKle : K ≤ M := by
    obtain ⟨⟨i, j, k, hK⟩, -⟩ := hKG
    rw [hK]
    exact hub _ (linspace_mem h0 i) _ (linspace_mem h1 j) _ (linspace_mem h2 k)
  have hKge : M - δ < K := by
    have hin : ((linspace lo0 hi0 nx i1, linspace lo1 hi1 ny j1, linspace lo2 hi2 nt k1) : ℝ × ℝ × ℝ) ∈
        Set.Icc lo0 hi0 ×ˢ (Set.Icc lo1 hi1 ×ˢ Set.Icc lo2 hi2) :=
      ⟨linspace_mem h0 i1, linspace_mem h1 j1, linspace_mem h2 k1⟩
    have := hcl hin (by
      simp only [Prod.dist_eq, Real.dist_eq, max_lt_iff]
      exact ⟨hxi, hyj, htk⟩)
    simp only [Real.dist_eq] at this
    rw [← hM0] at this
    have hle : ‖f0 i1 j1 k1‖ ≤ K := hKG.2 ⟨i1, j1, k1, rfl⟩
    have := (abs_lt.1 this).1
    simp only [hf0] at hle
    linarith
  have hKp : 0 < K := by linarith
  have hKd : dist K M < δ := by
    rw [Real.dist_eq, abs_sub_comm, abs_of_nonneg (by linarith)]
    linarith
  -- the laser, the field before normalization
  obtain ⟨l, a, ha, hl, hh', he'⟩ : ∃ (l : Laser ⟨nx, ny, nt⟩) (a : ℝ), 0 < a ∧
      Laser.init "xyt" [lo0, lo1, lo2] [hi0, hi1, hi2] [nx, ny, nt] p m nT = .ok ⟨_, l⟩ ∧
      l.Has (fun i j k => f0 i j k * (a : ℂ)) ∧ l.energy = .ok (a ^ 2 * E0) := by
    rcases hp with hp | ⟨E, hE, hp⟩
    · refine ⟨l0, 1, one_pos, ?_, by simpa using hh, by simpa using hE0⟩
      rwa [show p = { p with laserEnergy := none } by rw [← hp]]
    · have hE0p : 0 < E0 := by
        obtain ⟨⟨i, j, k, hK⟩, -⟩ := hKG
        have hne : f0 i j k ≠ 0 := by
          rw [← norm_pos_iff, ← hK]
          exact hKp
        have hvol := fun j => ((init_xyt_volume hl0).1 j)
        have hcp := Phys.c_pos
        have hst : ∀ {lo hi : ℝ} {n : ℕ}, lo < hi → 2 ≤ n → 0 < (hi - lo) / ((n : ℝ) - 1) := by
          intro lo hi n hlt hn
          have : (2 : ℝ) ≤ n := by exact_mod_cast hn
          exact div_pos (by linarith) (by linarith)
        have hvp : ∀ j, 0 < l0.grid.cellVolume j := by
          intro j
          rw [hvol]
          have a1 := hst hlt0 (show 2 ≤ nx by omega)
          have a2 := hst hlt1 (show 2 ≤ ny by omega)
          have a3 := hst hlt2 (show 2 ≤ nt by omega)
          positivity
        obtain ⟨E1, hE1, hE1p⟩ := Laser.Has.energy_pos hh (fun j => (hvp j).le) i j k (hvp j) hne
        rw [hE0] at hE1
        rwa [Except.ok.inj hE1]
      obtain ⟨l, hl, he, hf⟩ := scaled_field p m nT E hE.le hp l0 _ hh E0 hE0 hE0p hl0
      refine ⟨l, Real.sqrt (E / E0), Real.sqrt_pos.2 (by positivity), hl, hf, ?_⟩
      rw [he, Real.sq_sqrt (by positivity), div_mul_cancel₀ _ hE0p.ne']
  have hKG' : IsGreatest {x | ∃ i j k, x = ‖(fun i j k => f0 i j k * (a : ℂ) : Field ⟨nx, ny, nt⟩) i j k‖} (K * a) := by
    have hn : ∀ i j k, ‖f0 i j k * (a : ℂ)‖ = ‖f0 i j k‖ * a := by
      intro i j k
      rw [norm_mul, Complex.norm_real, Real.norm_of_nonneg ha.le]
    obtain ⟨⟨i, j, k, hK⟩, hKub⟩ := hKG
    refine ⟨⟨i, j, k, ?_⟩, ?_⟩
    · simp only [hn]
      rw [← hK]
    · rintro x ⟨i, j, k, rfl⟩
      simp only [hn]
      exact mul_le_mul_of_nonneg_right (hKub ⟨i, j, k, rfl⟩) ha.le
  obtain ⟨l', hn, hhas, hen⟩ := normField_exact l _ hh' A (K * a) hKG' (by positivity) he'
  refine ⟨l, l', _, _, hl, hn, hhas, hen, fun i j k => ?_, ?_⟩
  · have hFn := hub _ (linspace_mem h0 i) _ (linspace_mem h1 j) _ (linspace_mem h2 k)
    have hac : (a : ℂ) ≠ 0 := by exact_mod_cast ha.ne'
    have e : f0 i j k * (a : ℂ) * ((A / (K * a) : ℝ) : ℂ) = ((A / K : ℝ) : ℂ) * f0 i j k := by
      push_cast
      field_simp
    rw [e, show (A : ℂ) / M = ((A / M : ℝ) : ℂ) by push_cast; rfl, ← sub_mul, norm_mul, ← Complex.ofReal_sub,
      Complex.norm_real, Real.norm_eq_abs]
    have hAK := hc1 (x := K) (by linarith)
    rw [Real.dist_eq] at hAK
    calc _ ≤ ε / M * M := mul_le_mul hAK.le hFn (norm_nonneg _) (by positivity)
      _ = ε := by field_simp
  · have e : (A / (K * a)) ^ 2 * (a ^ 2 * E0) = (A / K) ^ 2 * E0 := by
      field_simp
    rw [e]
    have := hc2 (x := (K, E0)) (by
      rw [Prod.dist_eq]
      refine max_lt (by linarith) ?_
      rw [Real.dist_eq]
      linarith)
    rw [Real.dist_eq] at this
    exact this.le

/-- the energy of a Gaussian in a large box is near that in the whole space -/
theorem gauss_box {w0 ζ w : ℝ} (hw : 0 < w0) (hww : w = w0 * Real.sqrt (1 + ζ ^ 2)) (wavelength : ℝ) {tau : ℝ}
    (htau : 0 < tau) (tPeak cep : ℝ) {δ : ℝ} (hδ : 0 < δ) :
    ∃ L : ℝ, 0 < L ∧ ∀ lo0 lo1 lo2 hi0 hi1 hi2 : ℝ, lo0 ≤ -L → lo1 ≤ -L → lo2 ≤ -L → L ≤ hi0 → L ≤ hi1 → L ≤ hi2 →
      |eps0 / 2 * (∫ x in lo0..hi0, ∫ y in lo1..hi1, ∫ t in lo2..hi2,
        ‖gaussianTrans w0 ζ x y * gaussianLong wavelength tau tPeak cep t‖ ^ 2 * c) -
        eps0 * c / 2 * (Real.pi * w0 ^ 2 / 2) * (tau * Real.sqrt (Real.pi / 2))| ≤ δ := by
  have hcp := Phys.c_pos
  have he := eps0_pos
  have hpi := Real.pi_pos
  obtain ⟨hwp, -, -⟩ := gauss_waist hw hww
  have hq : 0 < 1 + ζ ^ 2 := by positivity
  have hs2 : Real.sqrt (1 + ζ ^ 2) ^ 2 = 1 + ζ ^ 2 := Real.sq_sqrt hq.le
  have hn2 := gauss_norm_sq hw hww wavelength htau tPeak cep
  set bw := 2 / w ^ 2 with hbw
  set bt := 2 / tau ^ 2 with hbt
  have hbwp : 0 < bw := by positivity
  have hbtp : 0 < bt := by positivity
  set Einf := eps0 / 2 * c * (Real.sqrt (Real.pi / bw) * Real.sqrt (Real.pi / bw) * Real.sqrt (Real.pi / bt) / (1 + ζ ^ 2)) with hEinf
  have hEval : eps0 * c / 2 * (Real.pi * w0 ^ 2 / 2) * (tau * Real.sqrt (Real.pi / 2)) = Einf := by
    rw [hEinf, Real.mul_self_sqrt (by positivity)]
    have e1 : Real.sqrt (Real.pi / bt) = tau * Real.sqrt (Real.pi / 2) := by
      rw [hbt, show Real.pi / (2 / tau ^ 2) = tau ^ 2 * (Real.pi / 2) by field_simp, Real.sqrt_mul (by positivity),
        Real.sqrt_sq htau.le]
    have e2 : Real.pi / bw = Real.pi * w0 ^ 2 / 2 * (1 + ζ ^ 2) := by
      rw [hbw, hww, mul_pow, hs2]
      field_simp
    rw [e1, e2]
    field_simp
  rw [hEval]
  have hT : Filter.Tendsto (fun L : ℝ => eps0 / 2 * c * ((∫ x in (-L)..L, Real.exp (-bw * (x - 0) ^ 2)) *
      (∫ x in (-L)..L, Real.exp (-bw * (x - 0) ^ 2)) * (∫ x in (-L)..L, Real.exp (-bt * (x - tPeak) ^ 2)) / (1 + ζ ^ 2)))
      Filter.atTop (nhds Einf) :=
    ((((gauss_tendsto hbwp 0).mul (gauss_tendsto hbwp 0)).mul (gauss_tendsto hbtp tPeak)).div_const _).const_mul _
  obtain ⟨L0, hL0⟩ := Filter.eventually_atTop.1 ((Metric.tendsto_nhds.1 hT) δ hδ)
  refine ⟨max L0 1, by positivity, fun lo0 lo1 lo2 hi0 hi1 hi2 a0 a1 a2 b0 b1 b2 => ?_⟩
  set L := max L0 1 with hL
  have hLp : 0 < L := by positivity
  have hbox : ∫ x in lo0..hi0, ∫ y in lo1..hi1, ∫ t in lo2..hi2,
      ‖gaussianTrans w0 ζ x y * gaussianLong wavelength tau tPeak cep t‖ ^ 2 * c =
      c * ((∫ x in lo0..hi0, Real.exp (-bw * (x - 0) ^ 2)) * (∫ x in lo1..hi1, Real.exp (-bw * (x - 0) ^ 2)) *
        (∫ x in lo2..hi2, Real.exp (-bt * (x - tPeak) ^ 2)) / (1 + ζ ^ 2)) := by
    simp only [hn2, intervalIntegral.integral_mul_const, intervalIntegral.integral_const_mul, intervalIntegral.integral_div]
    ring
  have hdist := hL0 L (le_max_left _ _)
  rw [Real.dist_eq] at hdist
  have g0 := gauss_between hbwp 0 hLp.le a0 b0
  have g1 := gauss_between hbwp 0 hLp.le a1 b1
  have g2 := gauss_between hbtp tPeak hLp.le a2 b2
  have p0 : 0 ≤ ∫ x in (-L)..L, Real.exp (-bw * (x - 0) ^ 2) :=
    intervalIntegral.integral_nonneg (by linarith) fun x _ => (Real.exp_pos _).le
  have p1 : 0 ≤ ∫ x in (-L)..L, Real.exp (-bt * (x - tPeak) ^ 2) :=
    intervalIntegral.integral_nonneg (by linarith) fun x _ => (Real.exp_pos _).le
  rw [hbox, ← mul_assoc]
  have hEle : eps0 / 2 * c * ((∫ x in lo0..hi0, Real.exp (-bw * (x - 0) ^ 2)) * (∫ x in lo1..hi1, Real.exp (-bw * (x - 0) ^ 2)) *
        (∫ x in lo2..hi2, Real.exp (-bt * (x - tPeak) ^ 2)) / (1 + ζ ^ 2)) ≤ Einf := by
    rw [hEinf]
    have q0 := p0.trans g0.1
    have q1 := p0.trans g1.1
    have q2 := p1.trans g2.1
    gcongr
    · exact g0.2
    · exact g1.2
    · exact g2.2
  have hEge : eps0 / 2 * c * ((∫ x in (-L)..L, Real.exp (-bw * (x - 0) ^ 2)) *
      (∫ x in (-L)..L, Real.exp (-bw * (x - 0) ^ 2)) * (∫ x in (-L)..L, Real.exp (-bt * (x - tPeak) ^ 2)) / (1 + ζ ^ 2)) ≤
      eps0 / 2 * c * ((∫ x in lo0..hi0, Real.exp (-bw * (x - 0) ^ 2)) * (∫ x in lo1..hi1, Real.exp (-bw * (x - 0) ^ 2)) *
        (∫ x in lo2..hi2, Real.exp (-bt * (x - tPeak) ^ 2)) / (1 + ζ ^ 2)) := by
    have q0 := p0.trans g0.1
    have q1 := p0.trans g1.1
    gcongr
    · exact g0.1
    · exact g1.1
    · exact g2.1
  rw [abs_sub_comm, abs_of_nonneg (by linarith)]
  have := (abs_lt.1 hdist).1
  linarith

/-- **C156** for the Gaussian: after `normalize(A, "field")`, in all boxes that are large enough and on all grids that are
fine enough, the modulus of the field is `A e^{-(x²+y²)/w²} e^{-(t-t_peak)²/tau²}`, where `w = w0 √(1 + (z_foc/zR)²)` is the
beam size at the entrance plane, and the energy is `ε₀ c A²/2 · π w²/2 · tau √(π/2)`, whatever the energy given at construction
and the carrier-envelope phase. -/
theorem C156_gaussian_xyt (wavelength : ℝ) (hwl : wavelength ≠ 0) (px py : ℂ) (E : ℝ) (hE : 0 < E) (w0 tau : ℝ) (hw : 0 < w0)
    (htau : 0 < tau) (tPeak cep zFoc : ℝ) {p : ProfileObj}
    (hp : gaussianProfile wavelength [px, py] (some E) w0 tau tPeak cep zFoc = .ok p) (A w : ℝ)
    (hww : w = w0 * Real.sqrt (1 + (zFoc / (Real.pi * w0 ^ 2 / wavelength)) ^ 2)) (hA : 0 ≤ A) (m nT : Option ℕ) {ε : ℝ} (hε : 0 < ε) :
    ∃ L : ℝ, 0 < L ∧ ∀ lo0 lo1 lo2 hi0 hi1 hi2 : ℝ, lo0 ≤ -L → lo1 ≤ -L → lo2 ≤ -L → L ≤ hi0 → L ≤ hi1 → L ≤ hi2 →
      ∃ N : ℕ, ∀ nx ≥ N, ∀ ny ≥ N, ∀ nt ≥ N, ∃ (l l' : Laser ⟨nx, ny, nt⟩) (f : Field ⟨nx, ny, nt⟩) (E' : ℝ),
        Laser.init "xyt" [lo0, lo1, lo2] [hi0, hi1, hi2] [nx, ny, nt] p m nT = .ok ⟨_, l⟩ ∧
        Laser.normalize (some A) "field" l = (.ok (), l') ∧ l'.Has f ∧ l'.energy = .ok E' ∧
        (∀ i j k, |‖f i j k‖ - A * Real.exp (-((linspace lo0 hi0 nx i) ^ 2 + (linspace lo1 hi1 ny j) ^ 2) / w ^ 2) *
          Real.exp (-(linspace lo2 hi2 nt k - tPeak) ^ 2 / tau ^ 2)| ≤ ε) ∧
        |E' - eps0 * c / 2 * A ^ 2 * (Real.pi * w ^ 2 / 2) * (tau * Real.sqrt (Real.pi / 2))| ≤ ε := by
  have hpi := Real.pi_pos
  obtain ⟨hpe, hdt, ζ, hww, hpt'⟩ := gauss_profile hwl hp hw hww
  obtain ⟨hwp, -, -⟩ := gauss_waist hw hww
  have hn1 := gauss_norm hw hww wavelength htau tPeak cep
  set M := w0 / w with hMd
  have hMp : 0 < M := by positivity
  obtain ⟨L0, hL0, hbox⟩ := gauss_box hw hww wavelength htau tPeak cep (δ := ε / 2 / ((A / M) ^ 2 + 1)) (by positivity)
  refine ⟨max L0 (|tPeak|), lt_of_lt_of_le hL0 (le_max_left _ _), fun lo0 lo1 lo2 hi0 hi1 hi2 a0 a1 a2 b0 b1 b2 => ?_⟩
  have m1 := le_max_left L0 (|tPeak|)
  have m2 := le_max_right L0 (|tPeak|)
  have m3 := neg_abs_le tPeak
  have m4 := le_abs_self tPeak
  have hb := hbox lo0 lo1 lo2 hi0 hi1 hi2 (by linarith) (by linarith) (by linarith) (by linarith) (by linarith) (by linarith)
  have hMG : IsGreatest {a | ∃ x ∈ Set.Icc lo0 hi0, ∃ y ∈ Set.Icc lo1 hi1, ∃ t ∈ Set.Icc lo2 hi2,
      a = ‖gaussianTrans w0 ζ x y * gaussianLong wavelength tau tPeak cep t‖} M := by
    constructor
    · refine ⟨0, ⟨by linarith, by linarith⟩, 0, ⟨by linarith, by linarith⟩, tPeak, ⟨by linarith, by linarith⟩, ?_⟩
      rw [hn1]
      simp
    · rintro a ⟨x, -, y, -, t, -, rfl⟩
      rw [hn1, mul_assoc]
      have h2 : Real.exp (-(x ^ 2 + y ^ 2) / w ^ 2) ≤ 1 := by
        rw [Real.exp_le_one_iff]
        apply div_nonpos_of_nonpos_of_nonneg _ (by positivity)
        nlinarith [sq_nonneg x, sq_nonneg y]
      have h3 : Real.exp (-(t - tPeak) ^ 2 / tau ^ 2) ≤ 1 := by
        rw [Real.exp_le_one_iff]
        apply div_nonpos_of_nonpos_of_nonneg _ (by positivity)
        nlinarith [sq_nonneg (t - tPeak)]
      exact mul_le_of_le_one_right hMp.le (mul_le_one₀ h2 (Real.exp_pos _).le h3)
  obtain ⟨N, key⟩ := C156_field_xyt lo0 lo1 lo2 hi0 hi1 hi2 (by linarith) (by linarith) (by linarith) p
    (Or.inr ⟨E, hE, hpe⟩) hdt _ hpt' (gauss_continuous w0 ζ wavelength tau tPeak cep).continuousOn M hMG hMp _ rfl A m nT
    (half_pos hε)
  refine ⟨N, fun nx hx ny hy nt ht => ?_⟩
  obtain ⟨l, l', f, E', hl, hn, hf, he, hfd, hed⟩ := key nx hx ny hy nt ht
  refine ⟨l, l', f, E', hl, hn, hf, he, fun i j k => ?_, ?_⟩
  · have h1 := (abs_norm_sub_norm_le _ _).trans (hfd i j k)
    rw [norm_mul, hn1, show (A : ℂ) / M = ((A / M : ℝ) : ℂ) by push_cast; rfl, Complex.norm_real,
      Real.norm_of_nonneg (by positivity), ← mul_assoc, ← mul_assoc, div_mul_cancel₀ _ hMp.ne'] at h1
    linarith
  · have e : eps0 * c / 2 * A ^ 2 * (Real.pi * w ^ 2 / 2) * (tau * Real.sqrt (Real.pi / 2)) =
        (A / M) ^ 2 * (eps0 * c / 2 * (Real.pi * w0 ^ 2 / 2) * (tau * Real.sqrt (Real.pi / 2))) := by
      rw [hMd]
      field_simp
    rw [e]
    refine (abs_sub_le _ _ _).trans (le_trans (add_le_add hed ?_) (add_halves ε).le)
    rw [← mul_sub, abs_mul, abs_of_nonneg (by positivity : (0 : ℝ) ≤ (A / M) ^ 2)]
    calc _ ≤ (A / M) ^ 2 * (ε / 2 / ((A / M) ^ 2 + 1)) := mul_le_mul_of_nonneg_left hb (by positivity)
      _ ≤ ε / 2 := by
        rw [mul_div_assoc', div_le_iff₀ (by positivity)]
        nlinarith [sq_nonneg (A / M)]

/-- The hypotheses of `C156_field_xyt` are met: the constant profile 1 on the unit cube, normalized to `A = 3`. -/
example {ε : ℝ} (hε : 0 < ε) : ∃ N : ℕ, ∀ nx ≥ N, ∀ ny ≥ N, ∀ nt ≥ N, ∃ (l l' : Laser ⟨nx, ny, nt⟩)
      (f : Field ⟨nx, ny, nt⟩) (E' : ℝ),
      Laser.init "xyt" [0, 0, 0] [1, 1, 1] [nx, ny, nt] (constProfile (some (some 5))) none none = .ok ⟨_, l⟩ ∧
      Laser.normalize (some 3) "field" l = (.ok (), l') ∧ l'.Has f ∧ l'.energy = .ok E' ∧
      (∀ i j k, ‖f i j k - ((3 : ℝ) : ℂ) / ((1 : ℝ) : ℂ) * 1‖ ≤ ε) ∧ |E' - (3 / 1) ^ 2 * (eps0 / 2 * c)| ≤ ε :=
  C156_field_xyt 0 0 0 1 1 1 one_pos one_pos one_pos (constProfile (some (some 5))) (Or.inr ⟨5, by norm_num, rfl⟩) rfl
    (fun _ _ _ => 1) (fun _ _ _ _ _ _ _ _ _ => rfl) continuousOn_const 1
    ⟨⟨0, by simp, 0, by simp, 0, by simp, by simp⟩, by rintro a ⟨_, _, _, _, _, _, rfl⟩; simp⟩ one_pos (eps0 / 2 * c)
    (by simp) 3 none none hε

end Lasy
