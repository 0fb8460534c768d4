import Verif.Props.Aperture

/-!
# Property C157 on Cartesian grids: the energy an axiparabola lets through, for beams of any shape
-/

namespace Lasy
open Spec Phys Complex

/-- the integral over a box of a function that is zero outside of a disc in the box -/
theorem integral_box_disc {ρ a b a' b' : ℝ} (hρ : 0 ≤ ρ) (ha : a ≤ -ρ) (hb : ρ ≤ b) (ha' : a' ≤ -ρ) (hb' : ρ ≤ b') {g : ℝ × ℝ → ℝ}
    (hg : Continuous g) (hz : ∀ q, ρ ^ 2 < q.1 ^ 2 + q.2 ^ 2 → g q = 0) :
    ∫ x in a..b, ∫ y in a'..b', g (x, y) = ∫ q in disc ρ, g q := by
  have hint : MeasureTheory.IntegrableOn g (Set.Icc a b ×ˢ Set.Icc a' b') (MeasureTheory.volume.prod MeasureTheory.volume) :=
    hg.continuousOn.integrableOn_compact (isCompact_Icc.prod isCompact_Icc)
  have hle : a ≤ b := by linarith
  have hle' : a' ≤ b' := by linarith
  simp only [intervalIntegral.integral_of_le hle, intervalIntegral.integral_of_le hle', ← MeasureTheory.integral_Icc_eq_integral_Ioc]
  rw [← MeasureTheory.setIntegral_prod g hint, ← MeasureTheory.Measure.volume_eq_prod]
  refine MeasureTheory.setIntegral_eq_of_subset_of_forall_sdiff_eq_zero (measurableSet_Icc.prod measurableSet_Icc) ?_ ?_
  · intro q hq
    have hq' : q.1 ^ 2 + q.2 ^ 2 ≤ ρ ^ 2 := hq
    have h1 := abs_le_of_sq_le_sq' (by nlinarith [sq_nonneg q.2] : q.1 ^ 2 ≤ ρ ^ 2) hρ
    have h2 := abs_le_of_sq_le_sq' (by nlinarith [sq_nonneg q.1] : q.2 ^ 2 ≤ ρ ^ 2) hρ
    exact ⟨⟨by linarith [h1.1], by linarith [h1.2]⟩, ⟨by linarith [h2.1], by linarith [h2.2]⟩⟩
  · rintro q ⟨-, hq⟩
    exact hz q (not_le.1 hq)

/-- the distance from the axis -/
noncomputable def apRad (x y : ℝ) : ℝ := Real.sqrt (x ^ 2 + y ^ 2)

theorem apRad_continuous : Continuous fun q : ℝ × ℝ => apRad q.1 q.2 := by unfold apRad; fun_prop

theorem apRad_polar {r : ℝ} (hr : 0 ≤ r) (θ : ℝ) : apRad (r * Real.cos θ) (r * Real.sin θ) = r := by
  unfold apRad
  rw [show (r * Real.cos θ) ^ 2 + (r * Real.sin θ) ^ 2 = r ^ 2 by
    have := Real.sin_sq_add_cos_sq θ
    linear_combination r ^ 2 * this, Real.sqrt_sq hr]

theorem apRad_le {R x y : ℝ} (hR : 0 ≤ R) : apRad x y ≤ R ↔ ¬ R ^ 2 < x ^ 2 + y ^ 2 := by
  unfold apRad
  rw [not_lt, Real.sqrt_le_left hR]

/-- the integral over a box of a function with a smooth edge -/
theorem integral_soft {H : ℝ × ℝ → ℝ} (hH : Continuous H) {u d a b a' b' : ℝ} (hu : 0 ≤ u) (hd : 0 < d) (ha : a ≤ -(u + d)) (hb : u + d ≤ b)
    (ha' : a' ≤ -(u + d)) (hb' : u + d ≤ b') :
    ∫ x in a..b, ∫ y in a'..b', H (x, y) * ramp u d (apRad x y) =
      ∫ r in (0 : ℝ)..(u + d), (∫ θ in (0 : ℝ)..(2 * Real.pi), H (r * Real.cos θ, r * Real.sin θ) * r) * ramp u d r := by
  have hud : 0 ≤ u + d := by linarith
  have hg : Continuous fun q : ℝ × ℝ => H q * ramp u d (apRad q.1 q.2) := hH.mul ((ramp_continuous u d).comp apRad_continuous)
  rw [integral_box_disc (g := fun q : ℝ × ℝ => H q * ramp u d (apRad q.1 q.2)) hud ha hb ha' hb' hg fun q hq => by
    have : u + d < apRad q.1 q.2 := by
      rw [← not_le, apRad_le hud, not_not]
      exact hq
    rw [ramp_zero hd this.le, mul_zero]]
  rw [← integral_disc hud hg]
  refine integral_congr_Icc hud fun r hr => ?_
  rw [← intervalIntegral.integral_mul_const]
  refine intervalIntegral.integral_congr fun θ _ => ?_
  simp only [apRad_polar hr.1]
  ring

/-- sums over the points of three axes, cut at the radius `R` from the axis, converge to the integral over the disc -/
theorem box_cut {R a b a' b' a'' b'' : ℝ} (hR : 0 < R) (ha : a < -R) (hb : R < b) (ha' : a' < -R) (hb' : R < b') (h'' : a'' ≤ b'')
    {G : ℝ → ℝ → ℝ → ℝ} (hG : Continuous fun q : ℝ × ℝ × ℝ => G q.1 q.2.1 q.2.2) (h0 : ∀ x y t, 0 ≤ G x y t) {ε : ℝ} (hε : 0 < ε) :
    ∃ N : ℕ, 2 ≤ N ∧ ∀ l ≥ N, ∀ n ≥ N, ∀ m ≥ N,
      |linSum a b l (fun x => linSum a' b' n fun y => if R ^ 2 < x ^ 2 + y ^ 2 then 0 else linSum a'' b'' m (G x y)) -
        ∫ q in disc R, ∫ t in a''..b'', G q.1 q.2 t| ≤ ε := by
  have hab : a ≤ b := by linarith
  have hab' : a' ≤ b' := by linarith
  set H : ℝ × ℝ → ℝ := fun q => ∫ t in a''..b'', G q.1 q.2 t with hHd
  have hH : Continuous H := by
    have hc : Continuous fun q : (ℝ × ℝ) × ℝ => G q.1.1 q.1.2 q.2 := by
      have hm : Continuous fun q : (ℝ × ℝ) × ℝ => (q.1.1, q.1.2, q.2) := by fun_prop
      exact hG.comp hm
    exact intervalIntegral.continuous_parametric_intervalIntegral_of_continuous' (f := fun (q : ℝ × ℝ) t => G q.1 q.2 t) hc _ _
  have hHn : ∀ q, 0 ≤ H q := fun q => intervalIntegral.integral_nonneg h'' fun t _ => h0 _ _ _
  set P : ℝ → ℝ := fun r => ∫ θ in (0 : ℝ)..(2 * Real.pi), H (r * Real.cos θ, r * Real.sin θ) * r with hPd
  have hP : Continuous P := by
    have hc : Continuous fun q : ℝ × ℝ => H (q.1 * Real.cos q.2, q.1 * Real.sin q.2) * q.1 := by fun_prop
    exact intervalIntegral.continuous_parametric_intervalIntegral_of_continuous'
      (f := fun r θ => H (r * Real.cos θ, r * Real.sin θ) * r) hc _ _
  have hPn : ∀ B, ∀ r ∈ Set.Icc 0 B, 0 ≤ P r := fun B r hr =>
    intervalIntegral.integral_nonneg (by positivity) fun θ _ => mul_nonneg (hHn _) hr.1
  obtain ⟨M, hM⟩ := (isCompact_Icc (a := (0 : ℝ)) (b := 2 * R)).image_of_continuousOn hP.continuousOn |>.bddAbove
  have hM' : ∀ r ∈ Set.Icc 0 (2 * R), P r ≤ |M| := fun r hr => (hM ⟨r, hr, rfl⟩).trans (le_abs_self M)
  obtain ⟨d, hdp, hd1, hd2, hd3, hd4, hd5, hd6⟩ : ∃ d : ℝ, 0 < d ∧ d ≤ R / 2 ∧ R + d ≤ b ∧ a ≤ -(R + d) ∧ R + d ≤ b' ∧
      a' ≤ -(R + d) ∧ d * |M| ≤ ε / 2 := by
    refine ⟨min (min (R / 2) (ε / 2 / (|M| + 1))) (min (min (b - R) (-R - a)) (min (b' - R) (-R - a'))), ?_, ?_, ?_, ?_, ?_, ?_, ?_⟩
    · have e1 : 0 < b - R := by linarith
      have e2 : 0 < -R - a := by linarith
      have e3 : 0 < b' - R := by linarith
      have e4 : 0 < -R - a' := by linarith
      positivity
    all_goals
      have m0 := min_le_left (min (R / 2) (ε / 2 / (|M| + 1))) (min (min (b - R) (-R - a)) (min (b' - R) (-R - a')))
      have m1 := min_le_right (min (R / 2) (ε / 2 / (|M| + 1))) (min (min (b - R) (-R - a)) (min (b' - R) (-R - a')))
      have m2 := min_le_left (R / 2) (ε / 2 / (|M| + 1))
      have m3 := min_le_right (R / 2) (ε / 2 / (|M| + 1))
      have m4 := min_le_left (min (b - R) (-R - a)) (min (b' - R) (-R - a'))
      have m5 := min_le_right (min (b - R) (-R - a)) (min (b' - R) (-R - a'))
      have m6 := min_le_left (b - R) (-R - a)
      have m7 := min_le_right (b - R) (-R - a)
      have m8 := min_le_left (b' - R) (-R - a')
      have m9 := min_le_right (b' - R) (-R - a')
    any_goals linarith
    · have h3 := m0.trans m3
      rw [le_div_iff₀ (by positivity)] at h3
      have e1 : 0 < b - R := by linarith
      have e2 : 0 < -R - a := by linarith
      have e3 : 0 < b' - R := by linarith
      have e4 : 0 < -R - a' := by linarith
      have : 0 < min (min (R / 2) (ε / 2 / (|M| + 1))) (min (min (b - R) (-R - a)) (min (b' - R) (-R - a'))) := by positivity
      nlinarith [abs_nonneg M]
  have hcu : ∀ u, ContinuousOn (fun q : ℝ × ℝ × ℝ => G q.1 q.2.1 q.2.2 * ramp u d (apRad q.1 q.2.1)) (box a b a' b' a'' b'') := by
    intro u
    have hm : Continuous fun q : ℝ × ℝ × ℝ => (q.1, q.2.1) := by fun_prop
    exact (hG.mul ((ramp_continuous u d).comp (apRad_continuous.comp hm))).continuousOn
  obtain ⟨N1, hN1, k1⟩ := box_lin hab hab' h'' (G := fun x y t => G x y t * ramp R d (apRad x y)) (hcu R) (half_pos hε)
  obtain ⟨N2, hN2, k2⟩ := box_lin hab hab' h'' (G := fun x y t => G x y t * ramp (R - d) d (apRad x y)) (hcu (R - d)) (half_pos hε)
  refine ⟨max N1 N2, le_max_of_le_left hN1, fun l hl n hn m hm => ?_⟩
  have k1 := k1 l (le_trans (le_max_left _ _) hl) n (le_trans (le_max_left _ _) hn) m (le_trans (le_max_left _ _) hm)
  have k2 := k2 l (le_trans (le_max_right _ _) hl) n (le_trans (le_max_right _ _) hn) m (le_trans (le_max_right _ _) hm)
  have hl2 : 2 ≤ l := le_trans hN1 (le_trans (le_max_left _ _) hl)
  have hn2 : 2 ≤ n := le_trans hN1 (le_trans (le_max_left _ _) hn)
  have hm2 : 2 ≤ m := le_trans hN1 (le_trans (le_max_left _ _) hm)
  simp only [intervalIntegral.integral_mul_const, linSum_mul_const] at k1 k2
  have j1 := integral_soft hH hR.le hdp hd3 hd2 hd5 hd4
  have j2 := integral_soft (u := R - d) hH (by linarith) hdp (a := a) (b := b) (a' := a') (b' := b') (by linarith) (by linarith)
    (by linarith) (by linarith)
  have i1 := integral_ramp hP hdp hR.le (le_refl (R + d)) (hPn _) fun r hr => hM' r ⟨hr.1, by linarith [hr.2]⟩
  have i2 := integral_ramp (u := R - d) hP hdp (by linarith) (le_refl (R - d + d)) (hPn _) fun r hr => hM' r ⟨hr.1, by linarith [hr.2]⟩
  change |_ - ∫ x in a..b, ∫ y in a'..b', H (x, y) * ramp R d (apRad x y)| ≤ _ at k1
  change |_ - ∫ x in a..b, ∫ y in a'..b', H (x, y) * ramp (R - d) d (apRad x y)| ≤ _ at k2
  rw [j1] at k1
  rw [j2] at k2
  -- what is lost between `R - d` and `R`
  have i3 : ∫ r in (R - d)..R, P r ≤ d * |M| := by
    have := intervalIntegral.integral_mono_on (μ := MeasureTheory.volume) (by linarith : R - d ≤ R) (hP.intervalIntegrable _ _)
      (continuous_const.intervalIntegrable _ _) (g := fun _ => |M|) fun r hr =>
        hM' r ⟨by linarith [hr.1], by linarith [hr.2]⟩
    simpa using this
  have i4 := intervalIntegral.integral_add_adjacent_intervals (μ := MeasureTheory.volume) (hP.intervalIntegrable 0 (R - d))
    (hP.intervalIntegrable (R - d) R)
  rw [← integral_disc hR.le hH]
  have hS : ∀ x y, 0 ≤ linSum a'' b'' m (G x y) := by
    intro x y
    have := linSum_mono h'' hm2 (f := fun _ => 0) (g := G x y) fun i => h0 x y _
    simpa [linSum] using this
  have s1 : linSum a b l (fun x => linSum a' b' n fun y => if R ^ 2 < x ^ 2 + y ^ 2 then 0 else linSum a'' b'' m (G x y)) ≤
      linSum a b l fun x => linSum a' b' n fun y => linSum a'' b'' m (G x y) * ramp R d (apRad x y) := by
    refine linSum_mono hab hl2 fun i => linSum_mono hab' hn2 fun j => ?_
    split_ifs with hc
    · exact mul_nonneg (hS _ _) (ramp_mem _ _ _).1
    · rw [ramp_one hdp ((apRad_le hR.le).2 hc), mul_one]
  have s2 : linSum a b l (fun x => linSum a' b' n fun y => linSum a'' b'' m (G x y) * ramp (R - d) d (apRad x y)) ≤
      linSum a b l fun x => linSum a' b' n fun y => if R ^ 2 < x ^ 2 + y ^ 2 then 0 else linSum a'' b'' m (G x y) := by
    refine linSum_mono hab hl2 fun i => linSum_mono hab' hn2 fun j => ?_
    split_ifs with hc
    · have : R < apRad (linspace a b l i) (linspace a' b' n j) := by
        rw [← not_le, apRad_le hR.le, not_not]
        exact hc
      rw [ramp_zero hdp (by linarith), mul_zero]
    · exact mul_le_of_le_one_right (hS _ _) (ramp_mem _ _ _).2
  have a1 := abs_le.1 k1
  have a2 := abs_le.1 k2
  rw [abs_le]
  constructor <;> linarith [a1.1, a1.2, a2.1, a2.2, i1.1, i1.2, i2.1, i2.2]

variable [Phys]

/-- the distances of the points of a new Cartesian laser from the axis -/
theorem init_xyt_radius {lo0 lo1 lo2 hi0 hi1 hi2 : ℝ} {nx ny nt : ℕ} {p : ProfileObj} {m nT : Option ℕ}
    {l : Laser ⟨nx, ny, nt⟩} (h : Laser.init "xyt" [lo0, lo1, lo2] [hi0, hi1, hi2] [nx, ny, nt] p m nT = .ok ⟨_, l⟩)
    (i : Fin nx) (j : Fin ny) : radiusSq l i j = linspace lo0 hi0 nx i ^ 2 + linspace lo1 hi1 ny j ^ 2 := by
  obtain ⟨g, f, hg, -, hgeo, ht, -⟩ := Laser.init_facts h
  obtain ⟨-, -, -, -, hc⟩ := Grid.init_ok hg
  rcases hc with ⟨l0, l1, u0, u1, m', r, t, rest, e1, -⟩ |
    ⟨l0, l1, l2, u0, u1, u2, x, y, t, e1, e2, e3, e4, e5, e6, e7, e8, e9⟩
  · exact absurd e1 (by decide)
  simp only [List.cons.injEq, and_true] at e2 e3
  obtain ⟨rfl, rfl, rfl⟩ := e2
  obtain ⟨rfl, rfl, rfl⟩ := e3
  obtain ⟨hx2, hx⟩ := mkAxis_ok e5
  obtain ⟨hy2, hy⟩ := mkAxis_ok e6
  have h1 : x.pts = linspace lo0 hi0 nx := by rw [hx]
  have h2 : y.pts = linspace lo1 hi1 ny := by rw [hy]
  simp only [radiusSq, hgeo, e9, h1, h2]

/-- **C157** (Cartesian grids, beams of any shape). Let a continuous profile define `laser_energy = E`, in a box that contains the
cylinder of radius `R` around the axis. When the numbers of points of all axes grow, the energy behind an axiparabola of radius
`R` converges to `E` times the fraction of the profile's energy in the box that lies within the radius `R`. -/
theorem C157_xyt (R lo0 lo1 lo2 hi0 hi1 hi2 : ℝ) (hR : 0 < R) (ha : lo0 < -R) (hb : R < hi0) (ha' : lo1 < -R) (hb' : R < hi1)
    (h2 : lo2 ≤ hi2) (p : ProfileObj) (E : ℝ) (hE : 0 ≤ E) (hp : p.laserEnergy = some (some E)) (hd : p.dtype = .c128)
    (F : ℝ → ℝ → ℝ → ℂ) (hF : p.Pointwise F) (hcont : Continuous fun q : ℝ × ℝ × ℝ => F q.1 q.2.1 q.2.2) (Ein Ebox : ℝ)
    (hbox : Ebox = ∫ x in lo0..hi0, ∫ y in lo1..hi1, ∫ t in lo2..hi2, ‖F x y t‖ ^ 2)
    (hin : Ein = ∫ q in {q : ℝ × ℝ | q.1 ^ 2 + q.2 ^ 2 ≤ R ^ 2}, ∫ t in lo2..hi2, ‖F q.1 q.2 t‖ ^ 2) (hpos : 0 < Ebox)
    (f0 delta : ℝ) (m nT : Option ℕ) {ε : ℝ} (hε : 0 < ε) :
    ∃ N : ℕ, ∀ nx ≥ N, ∀ ny ≥ N, ∀ nt ≥ N, ∃ (l l' : Laser ⟨nx, ny, nt⟩) (E' : ℝ),
      Laser.init "xyt" [lo0, lo1, lo2] [hi0, hi1, hi2] [nx, ny, nt] p m nT = .ok ⟨_, l⟩ ∧ l.energy = .ok E ∧
      Laser.applyOptics (axiparabola f0 delta R) l = (.ok (), l') ∧ l'.energy = .ok E' ∧ |E' - E * (Ein / Ebox)| ≤ ε := by
  have hcp := Phys.c_pos
  have he := eps0_pos
  have h0 : lo0 ≤ hi0 := by linarith
  have h1 : lo1 ≤ hi1 := by linarith
  have hc : ContinuousAt (fun q : ℝ × ℝ => E * (q.1 / q.2)) (Ein, Ebox) :=
    continuousAt_const.mul (continuousAt_fst.div continuousAt_snd hpos.ne')
  obtain ⟨δ, hδ, hc⟩ := Metric.continuousAt_iff.1 hc ε hε
  set d := min δ Ebox / 2 with hdd
  have hdp : 0 < d := by positivity
  have hd1 : d < δ := by have := min_le_left δ Ebox; rw [hdd]; linarith
  have hd2 : d < Ebox := by have := min_le_right δ Ebox; rw [hdd]; linarith
  have hGc : Continuous fun q : ℝ × ℝ × ℝ => ‖F q.1 q.2.1 q.2.2‖ ^ 2 := hcont.norm.pow 2
  obtain ⟨N1, hN1, k1⟩ := box_lin h0 h1 h2 (G := fun x y t => ‖F x y t‖ ^ 2) hGc.continuousOn hdp
  obtain ⟨N2, hN2, k2⟩ := box_cut hR ha hb ha' hb' h2 (G := fun x y t => ‖F x y t‖ ^ 2) hGc (fun _ _ _ => by positivity) hdp
  refine ⟨max N1 N2, fun nx hx ny hy nt ht => ?_⟩
  have k1 := k1 nx (le_trans (le_max_left _ _) hx) ny (le_trans (le_max_left _ _) hy) nt (le_trans (le_max_left _ _) ht)
  have k2 := k2 nx (le_trans (le_max_right _ _) hx) ny (le_trans (le_max_right _ _) hy) nt (le_trans (le_max_right _ _) ht)
  have hx2 : 2 ≤ nx := le_trans hN1 (le_trans (le_max_left _ _) hx)
  have hy2 : 2 ≤ ny := le_trans hN1 (le_trans (le_max_left _ _) hy)
  have ht2 : 2 ≤ nt := le_trans hN1 (le_trans (le_max_left _ _) ht)
  rw [← hbox] at k1
  change |_ - ∫ q in {q : ℝ × ℝ | q.1 ^ 2 + q.2 ^ 2 ≤ R ^ 2}, ∫ t in lo2..hi2, ‖F q.1 q.2 t‖ ^ 2| ≤ d at k2
  rw [← hin] at k2
  obtain ⟨l0, hl0, hh0⟩ := C14_unscaled_xyt lo0 lo1 lo2 hi0 hi1 hi2 nx ny nt hx2 hy2 ht2 { p with laserEnergy := none } rfl hd F hF m nT
  have hen0 := hh0.energy
  simp only [(init_xyt_volume hl0).1] at hen0
  rw [sum_eq_linSum lo0 lo1 lo2 hi0 hi1 hi2 nx ny nt fun x y t => ‖F x y t‖ ^ 2] at hen0
  set S := linSum lo0 hi0 nx fun x => linSum lo1 hi1 ny fun y => linSum lo2 hi2 nt fun t => ‖F x y t‖ ^ 2 with hS
  set S' := linSum lo0 hi0 nx (fun x => linSum lo1 hi1 ny fun y => if R ^ 2 < x ^ 2 + y ^ 2 then 0 else
    linSum lo2 hi2 nt fun t => ‖F x y t‖ ^ 2) with hS'
  have hSp : 0 < S := by
    have := (abs_le.1 k1).1
    linarith
  have hE0p : 0 < eps0 / 2 * (c * S) := by positivity
  obtain ⟨l, hl, hle, hhas⟩ := scaled_field p m nT E hE hp l0 _ hh0 _ hen0 hE0p hl0
  have hst : ∀ {lo hi : ℝ} {n : ℕ}, lo ≤ hi → 2 ≤ n → 0 ≤ (hi - lo) / ((n : ℝ) - 1) := by
    intro lo hi n hlt hn
    have : (2 : ℝ) ≤ n := by exact_mod_cast hn
    exact div_nonneg (by linarith) (by linarith)
  have hvol : ∀ j, 0 ≤ l.grid.cellVolume j := by
    intro j
    rw [(init_xyt_volume hl).1]
    have a1 := hst h0 hx2
    have a2 := hst h1 hy2
    have a3 := hst h2 ht2
    positivity
  obtain ⟨l', E1, ha, hE1, -, hval1, -⟩ := C20_axiparabola l _ hhas f0 delta R E hle hvol
  refine ⟨l, l', E1, hl, hle, ha, hE1, ?_⟩
  have hrad : ∀ i j, radiusSq l i j = linspace lo0 hi0 nx i ^ 2 + linspace lo1 hi1 ny j ^ 2 := by
    intro i j
    exact init_xyt_radius hl i j
  have hE1v : E1 = E * (S' / S) := by
    rw [hval1]
    set a := Real.sqrt (E / (eps0 / 2 * (c * S))) with haa
    have ha2 : a ^ 2 = E / (eps0 / 2 * (c * S)) := Real.sq_sqrt (by positivity)
    have key : ∑ i : Fin nx, ∑ j : Fin ny, (if radiusSq l i j > R ^ 2 then 0 else l.grid.cellVolume j *
        ∑ k, ‖F (linspace lo0 hi0 nx i) (linspace lo1 hi1 ny j) (linspace lo2 hi2 nt k) * (a : ℂ)‖ ^ 2) = S' * (c * a ^ 2) := by
      rw [hS']
      unfold linSum
      simp only [Finset.mul_sum, Finset.sum_mul]
      refine Finset.sum_congr rfl fun i _ => Finset.sum_congr rfl fun j _ => ?_
      rw [hrad, (init_xyt_volume hl).1]
      simp only [gt_iff_lt]
      split_ifs
      · simp
      · simp only [norm_mul, Complex.norm_real, Real.norm_eq_abs, mul_pow, sq_abs, Finset.mul_sum, Finset.sum_mul]
        refine Finset.sum_congr rfl fun k _ => ?_
        ring
    rw [key, ha2]
    field_simp
  rw [hE1v]
  have := hc (x := (S', S)) (by
    rw [Prod.dist_eq, Real.dist_eq, Real.dist_eq]
    exact max_lt (by linarith) (by linarith))
  rw [Real.dist_eq] at this
  exact this.le

/-- **C157** for the Gaussian on Cartesian grids: the fraction `1 - e^{-2R²/w²}` of the energy gets through. -/
theorem C157_gaussian_xyt (wavelength : ℝ) (hwl : wavelength ≠ 0) (px py : ℂ) (E : ℝ) (hE : 0 ≤ E) (w0 tau : ℝ) (hw : 0 < w0)
    (htau : 0 < tau) (tPeak cep zFoc : ℝ) {p : ProfileObj}
    (hp : gaussianProfile wavelength [px, py] (some E) w0 tau tPeak cep zFoc = .ok p) (w : ℝ)
    (hww : w = w0 * Real.sqrt (1 + (zFoc / (Real.pi * w0 ^ 2 / wavelength)) ^ 2)) (f0 delta R : ℝ) (hR : 0 < R) (m nT : Option ℕ)
    {ε : ℝ} (hε : 0 < ε) :
    ∃ L : ℝ, ∀ lo0 ≤ -L, ∀ lo1 ≤ -L, ∀ hi0 ≥ L, ∀ hi1 ≥ L, ∀ lo2 hi2 : ℝ, lo2 < hi2 →
      ∃ N : ℕ, ∀ nx ≥ N, ∀ ny ≥ N, ∀ nt ≥ N, ∃ (l l' : Laser ⟨nx, ny, nt⟩) (E' : ℝ),
        Laser.init "xyt" [lo0, lo1, lo2] [hi0, hi1, hi2] [nx, ny, nt] p m nT = .ok ⟨_, l⟩ ∧ l.energy = .ok E ∧
        Laser.applyOptics (axiparabola f0 delta R) l = (.ok (), l') ∧ l'.energy = .ok E' ∧
        |E' - E * (1 - Real.exp (-2 * R ^ 2 / w ^ 2))| ≤ ε := by
  have hpi := Real.pi_pos
  obtain ⟨hpe, hdt, ζ, hww, hpt'⟩ := gauss_profile hwl hp hw hww
  obtain ⟨hwp, -, -⟩ := gauss_waist hw hww
  have hq : 0 < 1 + ζ ^ 2 := by positivity
  have hn2 := gauss_norm_sq hw hww wavelength htau tPeak cep
  set bw := 2 / w ^ 2 with hbw
  set bt := 2 / tau ^ 2 with hbt
  have hbwp : 0 < bw := by positivity
  have hB : 0 < Real.pi / bw := by positivity
  set k := 1 - Real.exp (-bw * R ^ 2) with hk
  have hk0 : 0 ≤ k := by
    have : Real.exp (-bw * R ^ 2) ≤ 1 := Real.exp_le_one_iff.2 (by have := sq_nonneg R; nlinarith)
    linarith
  -- wide enough
  have hT : Filter.Tendsto (fun L : ℝ => E * (Real.pi / bw * k /
      ((∫ x in (-L)..L, Real.exp (-bw * (x - 0) ^ 2)) * (∫ x in (-L)..L, Real.exp (-bw * (x - 0) ^ 2))))) Filter.atTop
      (nhds (E * (Real.pi / bw * k / (Real.sqrt (Real.pi / bw) * Real.sqrt (Real.pi / bw))))) := by
    refine (tendsto_const_nhds.div ((gauss_tendsto hbwp 0).mul (gauss_tendsto hbwp 0)) ?_).const_mul _
    rw [Real.mul_self_sqrt hB.le]
    exact hB.ne'
  have hlim : E * (Real.pi / bw * k / (Real.sqrt (Real.pi / bw) * Real.sqrt (Real.pi / bw))) = E * k := by
    rw [Real.mul_self_sqrt hB.le, mul_div_assoc, mul_div_cancel₀ _ hB.ne']
  rw [hlim] at hT
  obtain ⟨L0, hL0⟩ := Filter.eventually_atTop.1 ((Metric.tendsto_nhds.1 hT) (ε / 2) (half_pos hε))
  set L := max L0 (R + 1) with hLd
  have hL1 : L0 ≤ L := le_max_left _ _
  have hL2 : R + 1 ≤ L := le_max_right _ _
  refine ⟨L, fun lo0 a0 lo1 a1 hi0 b0 hi1 b1 lo2 hi2 h2 => ?_⟩
  have hLp : 0 < L := by linarith
  have g0 := gauss_between hbwp 0 hLp.le a0 b0
  have g1 := gauss_between hbwp 0 hLp.le a1 b1
  have gL : 0 < ∫ x in (-L)..L, Real.exp (-bw * (x - 0) ^ 2) := by
    refine intervalIntegral.intervalIntegral_pos_of_pos ?_ (fun t => Real.exp_pos _) (by linarith)
    exact (by fun_prop : Continuous fun t : ℝ => Real.exp (-bw * (t - 0) ^ 2)).intervalIntegrable _ _
  set T := (∫ t in lo2..hi2, Real.exp (-bt * (t - tPeak) ^ 2)) / (1 + ζ ^ 2) with hTd
  have hTp : 0 < T := by
    refine div_pos (intervalIntegral.intervalIntegral_pos_of_pos ?_ (fun t => Real.exp_pos _) h2) hq
    exact (by fun_prop : Continuous fun t : ℝ => Real.exp (-bt * (t - tPeak) ^ 2)).intervalIntegrable _ _
  have hbox : ∫ x in lo0..hi0, ∫ y in lo1..hi1, ∫ t in lo2..hi2,
      ‖gaussianTrans w0 ζ x y * gaussianLong wavelength tau tPeak cep t‖ ^ 2 =
      (∫ x in lo0..hi0, Real.exp (-bw * (x - 0) ^ 2)) * (∫ x in lo1..hi1, Real.exp (-bw * (x - 0) ^ 2)) * T := by
    simp only [hn2, intervalIntegral.integral_mul_const, intervalIntegral.integral_const_mul, intervalIntegral.integral_div, hTd]
    ring
  have hin : ∫ q in {q : ℝ × ℝ | q.1 ^ 2 + q.2 ^ 2 ≤ R ^ 2}, ∫ t in lo2..hi2,
      ‖gaussianTrans w0 ζ q.1 q.2 * gaussianLong wavelength tau tPeak cep t‖ ^ 2 = Real.pi / bw * k * T := by
    have e1 : ∀ q : ℝ × ℝ, ∫ t in lo2..hi2, ‖gaussianTrans w0 ζ q.1 q.2 * gaussianLong wavelength tau tPeak cep t‖ ^ 2 =
        Real.exp (-bw * (q.1 ^ 2 + q.2 ^ 2)) * T := by
      intro q
      simp only [hn2, intervalIntegral.integral_const_mul, intervalIntegral.integral_div, hTd]
      rw [mul_div_assoc, ← Real.exp_add]
      congr 2
      ring
    simp only [e1]
    have hd := integral_disc hR.le (g := fun q : ℝ × ℝ => Real.exp (-bw * (q.1 ^ 2 + q.2 ^ 2)) * T) (by fun_prop)
    change _ = ∫ q in {q : ℝ × ℝ | q.1 ^ 2 + q.2 ^ 2 ≤ R ^ 2}, Real.exp (-bw * (q.1 ^ 2 + q.2 ^ 2)) * T at hd
    rw [← hd, hk, ← gauss_disc hbwp, ← intervalIntegral.integral_mul_const]
    refine intervalIntegral.integral_congr fun r _ => ?_
    have e2 : ∀ θ : ℝ, (r * Real.cos θ) ^ 2 + (r * Real.sin θ) ^ 2 = r ^ 2 := by
      intro θ
      have := Real.sin_sq_add_cos_sq θ
      linear_combination r ^ 2 * this
    simp only [e2, intervalIntegral.integral_const, smul_eq_mul, sub_zero]
    ring
  have hI0 : 0 < ∫ x in lo0..hi0, Real.exp (-bw * (x - 0) ^ 2) := gL.trans_le g0.1
  have hI1 : 0 < ∫ x in lo1..hi1, Real.exp (-bw * (x - 0) ^ 2) := gL.trans_le g1.1
  obtain ⟨N, key⟩ := C157_xyt R lo0 lo1 lo2 hi0 hi1 hi2 hR (by linarith) (by linarith) (by linarith) (by linarith) h2.le p E hE hpe hdt
    _ hpt' (gauss_continuous w0 ζ wavelength tau tPeak cep) _ _ rfl rfl (by rw [hbox]; positivity) f0 delta m nT (half_pos hε)
  refine ⟨N, fun nx hx ny hy nt ht => ?_⟩
  obtain ⟨l, l', E', c1, c2, c3, c4, hb⟩ := key nx hx ny hy nt ht
  refine ⟨l, l', E', c1, c2, c3, c4, ?_⟩
  rw [hbox, hin, mul_div_mul_right _ _ hTp.ne'] at hb
  have e2 : -2 * R ^ 2 / w ^ 2 = -bw * R ^ 2 := by rw [hbw]; ring
  rw [e2]
  have h3 := (abs_lt.1 (hL0 L hL1)).2
  set I0 := ∫ x in lo0..hi0, Real.exp (-bw * (x - 0) ^ 2)
  set I1 := ∫ x in lo1..hi1, Real.exp (-bw * (x - 0) ^ 2)
  set IL := ∫ x in (-L)..L, Real.exp (-bw * (x - 0) ^ 2)
  have h4 : IL * IL ≤ I0 * I1 := mul_le_mul g0.1 g1.1 gL.le hI0.le
  have h5 : I0 * I1 ≤ Real.pi / bw := by
    rw [← Real.mul_self_sqrt hB.le]
    exact mul_le_mul g0.2 g1.2 hI1.le (Real.sqrt_nonneg _)
  have h6 : E * (Real.pi / bw * k / (I0 * I1)) ≤ E * (Real.pi / bw * k / (IL * IL)) := by
    gcongr
  have h7 : E * k ≤ E * (Real.pi / bw * k / (I0 * I1)) := by
    refine mul_le_mul_of_nonneg_left ?_ hE
    rw [le_div_iff₀ (mul_pos hI0 hI1), mul_comm k]
    exact mul_le_mul_of_nonneg_right h5 hk0
  refine (abs_sub_le _ _ _).trans ((add_le_add hb (?_ : |_ - _| ≤ ε / 2)).trans (by linarith))
  rw [abs_of_nonneg (by linarith)]
  linarith

/-- The hypotheses of `C157_gaussian_xyt` are met: the constructor accepts, say, wavelength 1, waist 1 and duration 1. -/
example (f0 delta : ℝ) {ε : ℝ} (hε : 0 < ε) : ∃ (p : ProfileObj) (L : ℝ), gaussianProfile 1 [1, 0] (some 1) 1 1 0 0 0 = .ok p ∧
    ∀ lo0 ≤ -L, ∀ lo1 ≤ -L, ∀ hi0 ≥ L, ∀ hi1 ≥ L, ∀ lo2 hi2 : ℝ, lo2 < hi2 →
      ∃ N : ℕ, ∀ nx ≥ N, ∀ ny ≥ N, ∀ nt ≥ N, ∃ (l l' : Laser ⟨nx, ny, nt⟩) (E' : ℝ),
        Laser.init "xyt" [lo0, lo1, lo2] [hi0, hi1, hi2] [nx, ny, nt] p none none = .ok ⟨_, l⟩ ∧ l.energy = .ok 1 ∧
        Laser.applyOptics (axiparabola f0 delta 1) l = (.ok (), l') ∧ l'.energy = .ok E' ∧
        |E' - 1 * (1 - Real.exp (-2 * 1 ^ 2 / 1 ^ 2))| ≤ ε := by
  obtain ⟨p, hp, -⟩ := C40_formula 1 one_ne_zero 1 0 (some 1) 1 1 0 0 0
  obtain ⟨L, hL⟩ := C157_gaussian_xyt 1 one_ne_zero 1 0 1 zero_le_one 1 1 one_pos one_pos 0 0 0 hp 1 (by simp) f0 delta 1 one_pos
    none none hε
  exact ⟨p, L, hp, hL⟩

end Lasy
