import Verif.Props.GaussianPeak
import Verif.Props.Optics

/-!
# Property C157: the energy an axiparabola lets through
-/

namespace Lasy
open Spec Phys Complex

/-! ## Sums with a sharp edge -/

theorem linSum_mono {a b : ℝ} (hab : a ≤ b) {n : ℕ} (hn : 2 ≤ n) {f g : ℝ → ℝ}
    (h : ∀ i : Fin n, f (linspace a b n i) ≤ g (linspace a b n i)) : linSum a b n f ≤ linSum a b n g := by
  unfold linSum
  have : (2 : ℝ) ≤ n := by exact_mod_cast hn
  exact mul_le_mul_of_nonneg_left (Finset.sum_le_sum fun i _ => h i) (div_nonneg (by linarith) (by linarith))

theorem linSum_mul_const (a b : ℝ) (n : ℕ) (f : ℝ → ℝ) (k : ℝ) :
    (linSum a b n fun x => f x * k) = linSum a b n f * k := by
  unfold linSum
  rw [← Finset.sum_mul, mul_assoc]

/-- a continuous function that is one up to `u`, zero from `u + d` on, and falls linearly in between -/
noncomputable def ramp (u d r : ℝ) : ℝ := max 0 (min 1 ((u + d - r) / d))

theorem ramp_continuous (u d : ℝ) : Continuous (ramp u d) := by unfold ramp; fun_prop

theorem ramp_mem (u d r : ℝ) : 0 ≤ ramp u d r ∧ ramp u d r ≤ 1 :=
  ⟨le_max_left _ _, max_le zero_le_one (min_le_left _ _)⟩

theorem ramp_one {u d r : ℝ} (hd : 0 < d) (h : r ≤ u) : ramp u d r = 1 := by
  unfold ramp
  rw [min_eq_left ((one_le_div hd).2 (by linarith)), max_eq_right zero_le_one]

theorem ramp_zero {u d r : ℝ} (hd : 0 < d) (h : u + d ≤ r) : ramp u d r = 0 := by
  unfold ramp
  exact max_eq_left ((min_le_right _ _).trans (div_nonpos_of_nonpos_of_nonneg (by linarith) hd.le))

theorem integral_ramp {H : ℝ → ℝ} (hH : Continuous H) {u d b M : ℝ} (hd : 0 < d) (hu : 0 ≤ u) (hb : u + d ≤ b)
    (h0 : ∀ r ∈ Set.Icc 0 b, 0 ≤ H r) (hM : ∀ r ∈ Set.Icc 0 b, H r ≤ M) :
    ∫ r in (0 : ℝ)..u, H r ≤ ∫ r in (0 : ℝ)..b, H r * ramp u d r ∧
    ∫ r in (0 : ℝ)..b, H r * ramp u d r ≤ (∫ r in (0 : ℝ)..u, H r) + d * M := by
  have hc : Continuous fun r => H r * ramp u d r := hH.mul (ramp_continuous u d)
  have hi : ∀ a b : ℝ, IntervalIntegrable (fun r => H r * ramp u d r) MeasureTheory.volume a b :=
    fun a b => hc.intervalIntegrable a b
  have e1 : ∫ r in (0 : ℝ)..u, H r * ramp u d r = ∫ r in (0 : ℝ)..u, H r :=
    integral_congr_Icc hu fun r hr => by rw [ramp_one hd hr.2, mul_one]
  have e3 : ∫ r in (u + d)..b, H r * ramp u d r = 0 := by
    rw [integral_congr_Icc hb (g := fun _ => 0) fun r hr => by rw [ramp_zero hd hr.1, mul_zero]]
    simp
  have hud : u ≤ u + d := by linarith
  have e2a : 0 ≤ ∫ r in u..(u + d), H r * ramp u d r :=
    intervalIntegral.integral_nonneg hud fun r hr =>
      mul_nonneg (h0 r ⟨by linarith [hr.1], by linarith [hr.2]⟩) (ramp_mem u d r).1
  have e2b : ∫ r in u..(u + d), H r * ramp u d r ≤ d * M := by
    have := intervalIntegral.integral_mono_on hud (hi u (u + d)) (continuous_const.intervalIntegrable u (u + d))
      (g := fun _ => M) fun r hr => by
        have hr' : r ∈ Set.Icc 0 b := ⟨by linarith [hr.1], by linarith [hr.2]⟩
        have a := h0 r hr'
        have b := hM r hr'
        have := (ramp_mem u d r).2
        nlinarith
    simpa using this
  rw [← intervalIntegral.integral_add_adjacent_intervals (hi 0 u) (hi u b),
    ← intervalIntegral.integral_add_adjacent_intervals (hi u (u + d)) (hi (u + d) b), e1, e3]
  constructor <;> linarith

/-- sums over the points of two axes, cut at radius `R`, converge to the integral up to `R` -/
theorem rect_cut {R b a' b' : ℝ} (hR : 0 < R) (hb : R < b) (h' : a' ≤ b') {G : ℝ → ℝ → ℝ}
    (hG : Continuous fun q : ℝ × ℝ => G q.1 q.2) (h0 : ∀ r ∈ Set.Icc 0 b, ∀ t ∈ Set.Icc a' b', 0 ≤ G r t)
    {ε : ℝ} (hε : 0 < ε) :
    ∃ N : ℕ, 2 ≤ N ∧ ∀ n ≥ N, ∀ m ≥ N,
      |linSum 0 b n (fun r => if R ^ 2 < r ^ 2 then 0 else linSum a' b' m (G r)) - ∫ r in (0 : ℝ)..R, ∫ t in a'..b', G r t| ≤ ε := by
  have hb0 : 0 ≤ b := by linarith
  set H : ℝ → ℝ := fun r => ∫ t in a'..b', G r t with hHd
  have hH : Continuous H :=
    intervalIntegral.continuous_parametric_intervalIntegral_of_continuous' (f := fun r t => G r t) hG _ _
  obtain ⟨M, hM⟩ := (isCompact_Icc (a := (0 : ℝ)) (b := b)).image_of_continuousOn hH.continuousOn |>.bddAbove
  have hM' : ∀ r ∈ Set.Icc 0 b, H r ≤ |M| := fun r hr => (hM ⟨r, hr, rfl⟩).trans (le_abs_self M)
  have hHn : ∀ r ∈ Set.Icc 0 b, 0 ≤ H r := fun r hr => intervalIntegral.integral_nonneg h' fun t ht => h0 r hr t ht
  set d := min (min (R / 2) (b - R)) (ε / 2 / (|M| + 1)) with hd
  have hdp : 0 < d := by
    have : 0 < b - R := by linarith
    positivity
  have hd1 : d ≤ R / 2 := (min_le_left _ _).trans (min_le_left _ _)
  have hd2 : d ≤ b - R := (min_le_left _ _).trans (min_le_right _ _)
  have hd3 : d * |M| ≤ ε / 2 := by
    have h3 : d ≤ ε / 2 / (|M| + 1) := min_le_right _ _
    rw [le_div_iff₀ (by positivity)] at h3
    nlinarith [abs_nonneg M]
  have hcu : ∀ u, Continuous fun q : ℝ × ℝ => G q.1 q.2 * ramp u d q.1 := fun u =>
    hG.mul ((ramp_continuous u d).comp continuous_fst)
  obtain ⟨N1, hN1, k1⟩ := rect_lin hb0 h' (G := fun r t => G r t * ramp R d r) (hcu R) (half_pos hε)
  obtain ⟨N2, hN2, k2⟩ := rect_lin hb0 h' (G := fun r t => G r t * ramp (R - d) d r) (hcu (R - d)) (half_pos hε)
  refine ⟨max N1 N2, le_max_of_le_left hN1, fun n hn m hm => ?_⟩
  have k1 := k1 n (le_trans (le_max_left _ _) hn) m (le_trans (le_max_left _ _) hm)
  have k2 := k2 n (le_trans (le_max_right _ _) hn) m (le_trans (le_max_right _ _) hm)
  have hn2 : 2 ≤ n := le_trans hN1 (le_trans (le_max_left _ _) hn)
  have hm2 : 2 ≤ m := le_trans hN1 (le_trans (le_max_left _ _) hm)
  simp only [intervalIntegral.integral_mul_const, linSum_mul_const] at k1 k2
  have i1 := integral_ramp hH hdp hR.le (by linarith) hHn hM'
  have i2 := integral_ramp (u := R - d) (b := b) hH hdp (by linarith) (by linarith) hHn hM'
  -- what is lost between `R - d` and `R`
  have i3 : ∫ r in (R - d)..R, H r ≤ d * |M| := by
    have := intervalIntegral.integral_mono_on (μ := MeasureTheory.volume) (by linarith : R - d ≤ R) (hH.intervalIntegrable _ _)
      (continuous_const.intervalIntegrable _ _) (g := fun _ => |M|) fun r hr =>
        hM' r ⟨by linarith [hr.1], by linarith [hr.2]⟩
    simpa using this
  have i4 := intervalIntegral.integral_add_adjacent_intervals (μ := MeasureTheory.volume) (hH.intervalIntegrable 0 (R - d))
    (hH.intervalIntegrable (R - d) R)
  have hS : ∀ r ∈ Set.Icc 0 b, 0 ≤ linSum a' b' m (G r) := by
    intro r hr
    have := linSum_mono h' hm2 (f := fun _ => 0) (g := G r) fun i => h0 r hr _ (linspace_mem h' i)
    simpa [linSum] using this
  have s1 : linSum 0 b n (fun r => if R ^ 2 < r ^ 2 then 0 else linSum a' b' m (G r)) ≤
      linSum 0 b n fun r => linSum a' b' m (G r) * ramp R d r := by
    refine linSum_mono hb0 hn2 fun i => ?_
    have hm := linspace_mem hb0 i
    split_ifs with hc
    · exact mul_nonneg (hS _ hm) (ramp_mem _ _ _).1
    · rw [ramp_one hdp (by nlinarith [hm.1]), mul_one]
  have s2 : linSum 0 b n (fun r => linSum a' b' m (G r) * ramp (R - d) d r) ≤
      linSum 0 b n fun r => if R ^ 2 < r ^ 2 then 0 else linSum a' b' m (G r) := by
    refine linSum_mono hb0 hn2 fun i => ?_
    have hm := linspace_mem hb0 i
    split_ifs with hc
    · rw [ramp_zero hdp (by nlinarith [hm.1]), mul_zero]
    · exact mul_le_of_le_one_right (hS _ hm) (ramp_mem _ _ _).2
  have a1 := abs_le.1 k1
  have a2 := abs_le.1 k2
  rw [abs_le]
  constructor <;> linarith [a1.1, a1.2, a2.1, a2.2, i1.1, i1.2, i2.1, i2.2]

variable [Phys]

/-- the radii of the points of a new cylindrical laser -/
theorem init_rt_radius {lo0 lo1 hi0 hi1 : ℝ} {nr nt n : ℕ} {p : ProfileObj} {nT : Option ℕ}
    {l : Laser ⟨2 * n - 1, nr, nt⟩} (h : Laser.init "rt" [lo0, lo1] [hi0, hi1] [nr, nt] p (some n) nT = .ok ⟨_, l⟩)
    (i : Fin (2 * n - 1)) (j : Fin nr) : radiusSq l i j = linspace lo0 hi0 nr j ^ 2 := by
  obtain ⟨g, f, hg, -, hgeo, ht, -⟩ := Laser.init_facts h
  obtain ⟨-, -, -, -, hc⟩ := Grid.init_ok hg
  rcases hc with ⟨l0, l1, u0, u1, m', r, t, rest, e1, e2, e3, e4, e5, e6, e7, e8, hm, e9⟩ |
    ⟨l0, l1, l2, u0, u1, u2, x, y, t, e1, -⟩
  swap
  · exact absurd e1 (by decide)
  simp only [List.cons.injEq, and_true] at e2 e3
  obtain ⟨rfl, rfl⟩ := e2
  obtain ⟨rfl, rfl⟩ := e3
  obtain ⟨hr2, hr⟩ := mkAxis_ok e6
  have hpt : r.pts = linspace lo0 hi0 nr := by rw [hr]
  simp only [radiusSq, hgeo, e9, hpt]

/-- a new cylindrical laser with a round profile: field and energy -/
theorem round_unscaled (R lo1 hi1 : ℝ) (hR : 0 ≤ R) (nr nt n : ℕ) (hr2 : 2 ≤ nr) (ht2 : 2 ≤ nt) (hn : 1 ≤ n) (p : ProfileObj)
    (hp : p.laserEnergy = none) (G : ℝ → ℝ → ℂ) (hF : p.Pointwise fun x y t => G (Real.sqrt (x ^ 2 + y ^ 2)) t) :
    ∃ (l0 : Laser ⟨2 * n - 1, nr, nt⟩) (f0 : Field ⟨2 * n - 1, nr, nt⟩),
      Laser.init "rt" [0, lo1] [R, hi1] [nr, nt] p (some n) none = .ok ⟨_, l0⟩ ∧ l0.Has f0 ∧
      (∀ i j k, f0 i j k = if (i : ℕ) = 0 then G (linspace 0 R nr j) (linspace lo1 hi1 nt k) else 0) ∧
      l0.energy = .ok (eps0 / 2 * linSum 0 R nr fun r => linSum lo1 hi1 nt fun t => ‖G r t‖ ^ 2 * (2 * Real.pi * r * c)) := by
  obtain ⟨l0, f0, hl0, hh, hf0⟩ := C12_azimuthal_exact 0 lo1 R hi1 nr nt n hr2 ht2 hn none (by simp)
    p hp (fun x y t => G (Real.sqrt (x ^ 2 + y ^ 2)) t) hF (fun m r t => if m = 0 then G |r| t else 0) (by
      intro r θ t
      rw [Finset.sum_eq_single 0]
      · simp only [if_true, Int.cast_zero, mul_zero, zero_mul, Complex.exp_zero, mul_one]
        congr 1
        rw [← Real.sqrt_sq_eq_abs]
        congr 1
        have := Real.sin_sq_add_cos_sq θ
        linear_combination r ^ 2 * this
      · intro m _ hm
        simp [hm]
      · intro h
        exact absurd (Finset.mem_Ioo.2 ⟨by omega, by omega⟩) h)
  have hval : ∀ i j k, f0 i j k = if (i : ℕ) = 0 then G (linspace 0 R nr j) (linspace lo1 hi1 nt k) else 0 := by
    intro i j k
    obtain ⟨hm, hi⟩ := (modeAt_iff hn i (modeAt n i)).1 rfl
    rw [hf0 _ i hm hi, abs_of_nonneg (linspace_mem hR j).1]
    have hiff : modeAt n i = 0 ↔ (i : ℕ) = 0 := by
      have hi2 : (i : ℕ) < 2 * n - 1 := i.2
      unfold modeAt
      split_ifs <;> omega
    simp only [hiff]
  refine ⟨l0, f0, hl0, hh, hval, ?_⟩
  rw [hh.energy]
  congr 2
  unfold linSum
  simp only [Finset.mul_sum]
  have hz : 0 < 2 * n - 1 := by omega
  rw [Finset.sum_eq_single (⟨0, hz⟩ : Fin (2 * n - 1))]
  · refine Finset.sum_congr rfl fun j _ => Finset.sum_congr rfl fun k _ => ?_
    rw [init_rt_volume hl0, hval, if_pos rfl]
    ring
  · intro i _ hi
    refine Finset.sum_eq_zero fun j _ => Finset.sum_eq_zero fun k _ => ?_
    rw [hval, if_neg (fun h => hi (Fin.ext h))]
    simp
  · intro h
    exact absurd (Finset.mem_univ _) h

/-- **C157** (round beams). Let a continuous round profile define `laser_energy = E`, on a cylinder of radius `Rbox > R`. When
the numbers of points grow, the energy behind an axiparabola of radius `R` converges to `E` times the fraction of the
profile's energy that lies within the radius `R`, whatever the focal length and the depth of focus of the axiparabola. -/
theorem C157_round (R Rbox lo1 hi1 : ℝ) (hR : 0 < R) (hRb : R < Rbox) (h1 : lo1 ≤ hi1) (p : ProfileObj) (E : ℝ) (hE : 0 ≤ E)
    (hp : p.laserEnergy = some (some E)) (G : ℝ → ℝ → ℂ) (hF : p.Pointwise fun x y t => G (Real.sqrt (x ^ 2 + y ^ 2)) t)
    (hcont : Continuous fun q : ℝ × ℝ => G q.1 q.2) (Ein Ecyl : ℝ)
    (hcyl : Ecyl = ∫ r in (0 : ℝ)..Rbox, ∫ t in lo1..hi1, ‖G r t‖ ^ 2 * (2 * Real.pi * r))
    (hin : Ein = ∫ r in (0 : ℝ)..R, ∫ t in lo1..hi1, ‖G r t‖ ^ 2 * (2 * Real.pi * r)) (hpos : 0 < Ecyl)
    (f0 delta : ℝ) {ε : ℝ} (hε : 0 < ε) :
    ∃ N : ℕ, ∀ nr ≥ N, ∀ nt ≥ N, ∀ n ≥ 1, ∃ (l l' : Laser ⟨2 * n - 1, nr, nt⟩) (E' : ℝ),
      Laser.init "rt" [0, lo1] [Rbox, hi1] [nr, nt] p (some n) none = .ok ⟨_, l⟩ ∧ l.energy = .ok E ∧
      Laser.applyOptics (axiparabola f0 delta R) l = (.ok (), l') ∧ l'.energy = .ok E' ∧ |E' - E * (Ein / Ecyl)| ≤ ε := by
  have hcp := Phys.c_pos
  have he := eps0_pos
  have hpi := Real.pi_pos
  have hb0 : 0 ≤ Rbox := by linarith
  -- how close the two sums have to be
  have hc : ContinuousAt (fun q : ℝ × ℝ => E * (q.1 / q.2)) (Ein, Ecyl) :=
    continuousAt_const.mul (continuousAt_fst.div continuousAt_snd hpos.ne')
  obtain ⟨δ, hδ, hc⟩ := Metric.continuousAt_iff.1 hc ε hε
  set d := min δ Ecyl / 2 with hd
  have hdp : 0 < d := by positivity
  have hd1 : d < δ := by have := min_le_left δ Ecyl; rw [hd]; linarith
  have hd2 : d < Ecyl := by have := min_le_right δ Ecyl; rw [hd]; linarith
  have hGc : Continuous fun q : ℝ × ℝ => ‖G q.1 q.2‖ ^ 2 * (2 * Real.pi * q.1) := (hcont.norm.pow 2).mul (by fun_prop)
  obtain ⟨N1, hN1, k1⟩ := rect_lin hb0 h1 (G := fun r t => ‖G r t‖ ^ 2 * (2 * Real.pi * r)) hGc hdp
  obtain ⟨N2, hN2, k2⟩ := rect_cut hR hRb h1 (G := fun r t => ‖G r t‖ ^ 2 * (2 * Real.pi * r)) hGc
    (fun r hr t _ => by have := hr.1; positivity) hdp
  refine ⟨max N1 N2, fun nr hr nt ht n hn => ?_⟩
  have k1 := k1 nr (le_trans (le_max_left _ _) hr) nt (le_trans (le_max_left _ _) ht)
  have k2 := k2 nr (le_trans (le_max_right _ _) hr) nt (le_trans (le_max_right _ _) ht)
  have hr2 : 2 ≤ nr := le_trans hN1 (le_trans (le_max_left _ _) hr)
  have ht2 : 2 ≤ nt := le_trans hN1 (le_trans (le_max_left _ _) ht)
  rw [← hcyl] at k1
  rw [← hin] at k2
  obtain ⟨l0, F0, hl0, hh0, hval, hen0⟩ := round_unscaled Rbox lo1 hi1 hb0 nr nt n hr2 ht2 hn { p with laserEnergy := none } rfl G hF
  set S := linSum 0 Rbox nr fun r => linSum lo1 hi1 nt fun t => ‖G r t‖ ^ 2 * (2 * Real.pi * r) with hS
  set S' := linSum 0 Rbox nr (fun r => if R ^ 2 < r ^ 2 then 0 else linSum lo1 hi1 nt fun t => ‖G r t‖ ^ 2 * (2 * Real.pi * r)) with hS'
  have hSp : 0 < S := by
    have := (abs_le.1 k1).1
    linarith
  have e0 : (eps0 / 2 * linSum 0 Rbox nr fun r => linSum lo1 hi1 nt fun t => ‖G r t‖ ^ 2 * (2 * Real.pi * r * c)) =
      eps0 / 2 * (S * c) := by
    rw [hS]
    simp only [← linSum_mul_const, mul_assoc]
  rw [e0] at hen0
  have hE0p : 0 < eps0 / 2 * (S * c) := by positivity
  obtain ⟨l, hl, hle, hhas⟩ := scaled_field p (some n) none E hE hp l0 _ hh0 _ hen0 hE0p hl0
  have hvol : ∀ j, 0 ≤ l.grid.cellVolume j := by
    intro j
    rw [init_rt_volume hl]
    have hn1 : (2 : ℝ) ≤ nr := by exact_mod_cast hr2
    have hn2 : (2 : ℝ) ≤ nt := by exact_mod_cast ht2
    have a1 := (linspace_mem hb0 j).1
    have a2 : 0 ≤ (Rbox - 0) / ((nr : ℝ) - 1) := div_nonneg (by linarith) (by linarith)
    have a3 : 0 ≤ (hi1 - lo1) / ((nt : ℝ) - 1) := div_nonneg (by linarith) (by linarith)
    positivity
  obtain ⟨l', E1, ha, hE1, -, hval1, -⟩ := C20_axiparabola l _ hhas f0 delta R E hle hvol
  refine ⟨l, l', E1, hl, hle, ha, hE1, ?_⟩
  have hE1v : E1 = E * (S' / S) := by
    rw [hval1]
    set a := Real.sqrt (E / (eps0 / 2 * (S * c))) with haa
    have ha2 : a ^ 2 = E / (eps0 / 2 * (S * c)) := Real.sq_sqrt (by positivity)
    have hz : 0 < 2 * n - 1 := by omega
    rw [Finset.sum_eq_single (⟨0, hz⟩ : Fin (2 * n - 1))]
    · have : ∀ j, (if radiusSq l ⟨0, hz⟩ j > R ^ 2 then 0 else l.grid.cellVolume j * ∑ k, ‖F0 ⟨0, hz⟩ j k * (a : ℂ)‖ ^ 2) =
          (Rbox - 0) / ((nr : ℝ) - 1) * (if R ^ 2 < linspace 0 Rbox nr j ^ 2 then 0 else
            linSum lo1 hi1 nt fun t => ‖G (linspace 0 Rbox nr j) t‖ ^ 2 * (2 * Real.pi * linspace 0 Rbox nr j)) * (c * a ^ 2) := by
        intro j
        rw [init_rt_radius hl, init_rt_volume hl]
        simp only [gt_iff_lt]
        split_ifs
        · simp
        · unfold linSum
          simp only [hval, if_true, norm_mul, Complex.norm_real, Real.norm_eq_abs, mul_pow, sq_abs]
          rw [← Finset.sum_mul, ← Finset.sum_mul]
          ring
      rw [Finset.sum_congr rfl fun j _ => this j, ← Finset.sum_mul, ← Finset.mul_sum, ha2]
      change eps0 / 2 * (S' * (c * (E / (eps0 / 2 * (S * c))))) = E * (S' / S)
      field_simp
    · intro i _ hi
      refine Finset.sum_eq_zero fun j _ => ?_
      split_ifs
      · rfl
      · rw [Finset.sum_eq_zero, mul_zero]
        intro k _
        simp only [hval, if_neg (fun h => hi (Fin.ext h)), zero_mul, norm_zero]
        norm_num
    · intro h
      exact absurd (Finset.mem_univ _) h
  rw [hE1v]
  have := hc (x := (S', S)) (by
    rw [Prod.dist_eq, Real.dist_eq, Real.dist_eq]
    exact max_lt (by linarith) (by linarith))
  rw [Real.dist_eq] at this
  exact this.le

/-- **C157** for the Gaussian: an axiparabola of radius `R` lets through the fraction `1 - e^{-2R²/w²}` of the energy `E` of
a Gaussian pulse, where `w = w0 √(1 + (z_foc/zR)²)` is the beam size at the mirror: in all cylinders that are wide enough,
with any time window and any number of modes, on all grids that are fine enough, up to any given error. -/
theorem C157_gaussian (wavelength : ℝ) (hwl : wavelength ≠ 0) (px py : ℂ) (E : ℝ) (hE : 0 ≤ E) (w0 tau : ℝ) (hw : 0 < w0)
    (htau : 0 < tau) (tPeak cep zFoc : ℝ) {p : ProfileObj}
    (hp : gaussianProfile wavelength [px, py] (some E) w0 tau tPeak cep zFoc = .ok p) (w : ℝ)
    (hww : w = w0 * Real.sqrt (1 + (zFoc / (Real.pi * w0 ^ 2 / wavelength)) ^ 2)) (f0 delta R : ℝ) (hR : 0 < R)
    {ε : ℝ} (hε : 0 < ε) :
    ∃ L : ℝ, ∀ Rbox ≥ L, ∀ lo1 hi1 : ℝ, lo1 < hi1 →
      ∃ N : ℕ, ∀ nr ≥ N, ∀ nt ≥ N, ∀ n ≥ 1, ∃ (l l' : Laser ⟨2 * n - 1, nr, nt⟩) (E' : ℝ),
        Laser.init "rt" [0, lo1] [Rbox, hi1] [nr, nt] p (some n) none = .ok ⟨_, l⟩ ∧ l.energy = .ok E ∧
        Laser.applyOptics (axiparabola f0 delta R) l = (.ok (), l') ∧ l'.energy = .ok E' ∧
        |E' - E * (1 - Real.exp (-2 * R ^ 2 / w ^ 2))| ≤ ε := by
  have hpi := Real.pi_pos
  obtain ⟨hpe, -, ζ, hww, hpt'⟩ := gauss_profile hwl hp hw hww
  obtain ⟨hwp, -, -⟩ := gauss_waist hw hww
  have hq : 0 < 1 + ζ ^ 2 := by positivity
  have hn2 := gauss_norm_sq hw hww wavelength htau tPeak cep
  set bw := 2 / w ^ 2 with hbw
  set bt := 2 / tau ^ 2 with hbt
  have hbwp : 0 < bw := by positivity
  have hF : p.Pointwise fun x y t => gaussianTrans w0 ζ (Real.sqrt (x ^ 2 + y ^ 2)) 0 * gaussianLong wavelength tau tPeak cep t := by
    intro n0 n1 n2 x y t i j k
    rw [hpt']
    simp only
    congr 1
    unfold gaussianTrans
    rw [Real.sq_sqrt (by positivity)]
    simp
  have hcont : Continuous fun q : ℝ × ℝ => gaussianTrans w0 ζ q.1 0 * gaussianLong wavelength tau tPeak cep q.2 := by
    unfold gaussianTrans gaussianLong
    fun_prop
  have hval : ∀ a lo1 hi1 : ℝ, ∫ r in (0 : ℝ)..a, ∫ t in lo1..hi1,
      ‖gaussianTrans w0 ζ r 0 * gaussianLong wavelength tau tPeak cep t‖ ^ 2 * (2 * Real.pi * r) =
      Real.pi / bw * (1 - Real.exp (-bw * a ^ 2)) * ((∫ t in lo1..hi1, Real.exp (-bt * (t - tPeak) ^ 2)) / (1 + ζ ^ 2)) := by
    intro a lo1 hi1
    rw [← gauss_disc hbwp, ← intervalIntegral.integral_mul_const]
    refine intervalIntegral.integral_congr fun r _ => ?_
    simp only [hn2, intervalIntegral.integral_mul_const, intervalIntegral.integral_const_mul, intervalIntegral.integral_div,
      sub_zero]
    simp
    ring
  -- wide enough
  have hexp : Filter.Tendsto (fun L : ℝ => Real.exp (-bw * L ^ 2)) Filter.atTop (nhds 0) := by
    refine Real.tendsto_exp_atBot.comp ?_
    exact (Filter.tendsto_pow_atTop two_ne_zero).const_mul_atTop_of_neg (by linarith)
  have hT : Filter.Tendsto (fun L : ℝ => E * ((1 - Real.exp (-bw * R ^ 2)) / (1 - Real.exp (-bw * L ^ 2)))) Filter.atTop
      (nhds (E * ((1 - Real.exp (-bw * R ^ 2)) / (1 - 0)))) :=
    ((tendsto_const_nhds.div (tendsto_const_nhds.sub hexp) (by norm_num)).const_mul _)
  obtain ⟨L0, hL0⟩ := Filter.eventually_atTop.1 ((Metric.tendsto_nhds.1 hT) (ε / 2) (half_pos hε))
  refine ⟨max L0 (R + 1), fun Rbox hRb lo1 hi1 h1 => ?_⟩
  have hRb1 : L0 ≤ Rbox := (le_max_left _ _).trans hRb
  have hRb2 : R + 1 ≤ Rbox := (le_max_right _ _).trans hRb
  have hTp : 0 < (∫ t in lo1..hi1, Real.exp (-bt * (t - tPeak) ^ 2)) / (1 + ζ ^ 2) := by
    refine div_pos (intervalIntegral.intervalIntegral_pos_of_pos ?_ (fun t => Real.exp_pos _) h1) hq
    exact (by fun_prop : Continuous fun t : ℝ => Real.exp (-bt * (t - tPeak) ^ 2)).intervalIntegrable _ _
  have hlt : ∀ a : ℝ, 0 < a → 0 < 1 - Real.exp (-bw * a ^ 2) := by
    intro a ha
    rw [sub_pos, Real.exp_lt_one_iff]
    have : 0 < bw * a ^ 2 := by positivity
    linarith
  have hRbp := hlt Rbox (by linarith)
  obtain ⟨N, key⟩ := C157_round R Rbox lo1 hi1 hR (by linarith) h1.le p E hE hpe
    (fun r t => gaussianTrans w0 ζ r 0 * gaussianLong wavelength tau tPeak cep t) hF hcont _ _ rfl rfl
    (by rw [hval]; positivity) f0 delta (half_pos hε)
  refine ⟨N, fun nr hr nt ht n hn => ?_⟩
  obtain ⟨l, l', E', a1, a2, a3, a4, hb⟩ := key nr hr nt ht n hn
  refine ⟨l, l', E', a1, a2, a3, a4, ?_⟩
  rw [hval, hval] at hb
  have e : Real.pi / bw * (1 - Real.exp (-bw * R ^ 2)) * ((∫ t in lo1..hi1, Real.exp (-bt * (t - tPeak) ^ 2)) / (1 + ζ ^ 2)) /
      (Real.pi / bw * (1 - Real.exp (-bw * Rbox ^ 2)) * ((∫ t in lo1..hi1, Real.exp (-bt * (t - tPeak) ^ 2)) / (1 + ζ ^ 2))) =
      (1 - Real.exp (-bw * R ^ 2)) / (1 - Real.exp (-bw * Rbox ^ 2)) := by
    have h1 : Real.pi / bw ≠ 0 := by positivity
    have h2 := hTp.ne'
    rw [mul_div_mul_right _ _ h2, mul_div_mul_left _ _ h1]
  rw [e] at hb
  have h3 := (hL0 Rbox hRb1).le
  rw [Real.dist_eq, sub_zero, div_one] at h3
  have e2 : -2 * R ^ 2 / w ^ 2 = -bw * R ^ 2 := by rw [hbw]; ring
  rw [e2]
  exact (abs_sub_le _ _ _).trans (by linarith)

/-- The hypotheses of `C157_gaussian` are met: the constructor accepts, say, wavelength 1, waist 1 and duration 1. -/
example (f0 delta : ℝ) {ε : ℝ} (hε : 0 < ε) : ∃ (p : ProfileObj) (L : ℝ), gaussianProfile 1 [1, 0] (some 1) 1 1 0 0 0 = .ok p ∧
    ∀ Rbox ≥ L, ∀ lo1 hi1 : ℝ, lo1 < hi1 →
      ∃ N : ℕ, ∀ nr ≥ N, ∀ nt ≥ N, ∀ n ≥ 1, ∃ (l l' : Laser ⟨2 * n - 1, nr, nt⟩) (E' : ℝ),
        Laser.init "rt" [0, lo1] [Rbox, hi1] [nr, nt] p (some n) none = .ok ⟨_, l⟩ ∧ l.energy = .ok 1 ∧
        Laser.applyOptics (axiparabola f0 delta 1) l = (.ok (), l') ∧ l'.energy = .ok E' ∧
        |E' - 1 * (1 - Real.exp (-2 * 1 ^ 2 / 1 ^ 2))| ≤ ε := by
  obtain ⟨p, hp, -⟩ := C40_formula 1 one_ne_zero 1 0 (some 1) 1 1 0 0 0
  obtain ⟨L, hL⟩ := C157_gaussian 1 one_ne_zero 1 0 1 zero_le_one 1 1 one_pos one_pos 0 0 0 hp 1 (by simp) f0 delta 1 one_pos hε
  exact ⟨p, L, hp, hL⟩

end Lasy
