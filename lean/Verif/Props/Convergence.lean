import Verif.Lemmas.Riemann
import Verif.Props.Azimuthal
import Verif.Props.Duration
import Mathlib.MeasureTheory.Integral.Prod
import Mathlib.Analysis.SpecialFunctions.PolarCoord
import Mathlib.MeasureTheory.Integral.IntervalIntegral.Periodic

/-!
# Properties C126, C127: on fine grids the energy and the duration are those of the profile

C126: the energy converges to the integral of the energy density over the box or the cylinder. C127: the duration converges
to the root mean square duration of the intensity.
-/

namespace Lasy
open Spec Phys Complex

/-! ## Triple sums of functions that are continuous on a box -/

theorem linSum_congr {a b : ℝ} (hab : a ≤ b) (n : ℕ) {f g : ℝ → ℝ} (h : ∀ s ∈ Set.Icc a b, f s = g s) :
    linSum a b n f = linSum a b n g := by
  unfold linSum
  congr 1
  exact Finset.sum_congr rfl fun i _ => h _ (linspace_mem hab i)

theorem leftSum_congr {a b : ℝ} (hab : a ≤ b) (n : ℕ) {f g : ℝ → ℝ} (h : ∀ s ∈ Set.Icc a b, f s = g s) :
    leftSum a b n f = leftSum a b n g := by
  unfold leftSum
  congr 1
  exact Finset.sum_congr rfl fun i _ => h _ (left_mem hab i)

theorem integral_congr_Icc {a b : ℝ} (hab : a ≤ b) {f g : ℝ → ℝ} (h : ∀ s ∈ Set.Icc a b, f s = g s) :
    ∫ s in a..b, f s = ∫ s in a..b, g s := by
  apply intervalIntegral.integral_congr
  intro s hs
  rw [Set.uIcc_of_le hab] at hs
  exact h s hs

/-- the box -/
def box (a b a' b' a'' b'' : ℝ) : Set (ℝ × ℝ × ℝ) := Set.Icc a b ×ˢ (Set.Icc a' b' ×ˢ Set.Icc a'' b'')

theorem clamp_continuous {a b a' b' a'' b'' : ℝ} (h : a ≤ b) (h' : a' ≤ b') (h'' : a'' ≤ b'') {G : ℝ → ℝ → ℝ → ℝ}
    (hG : ContinuousOn (fun q : ℝ × ℝ × ℝ => G q.1 q.2.1 q.2.2) (box a b a' b' a'' b'')) :
    Continuous fun q : ℝ × ℝ × ℝ => G (clampTo a b q.1) (clampTo a' b' q.2.1) (clampTo a'' b'' q.2.2) := by
  have hc : Continuous fun q : ℝ × ℝ × ℝ => (clampTo a b q.1, clampTo a' b' q.2.1, clampTo a'' b'' q.2.2) :=
    ((continuous_clampTo a b).comp continuous_fst).prodMk
      (((continuous_clampTo a' b').comp (continuous_fst.comp continuous_snd)).prodMk
        ((continuous_clampTo a'' b'').comp (continuous_snd.comp continuous_snd)))
  exact hG.comp_continuous hc fun q => ⟨clampTo_mem h _, clampTo_mem h' _, clampTo_mem h'' _⟩

/-- sums over the points of three axes converge to the integral over the box -/
theorem box_lin {a b a' b' a'' b'' : ℝ} (h : a ≤ b) (h' : a' ≤ b') (h'' : a'' ≤ b'') {G : ℝ → ℝ → ℝ → ℝ}
    (hG : ContinuousOn (fun q : ℝ × ℝ × ℝ => G q.1 q.2.1 q.2.2) (box a b a' b' a'' b'')) {ε : ℝ} (hε : 0 < ε) :
    ∃ N : ℕ, 2 ≤ N ∧ ∀ l ≥ N, ∀ n ≥ N, ∀ m ≥ N,
      |linSum a b l (fun x => linSum a' b' n fun y => linSum a'' b'' m (G x y)) -
        ∫ x in a..b, ∫ y in a'..b', ∫ t in a''..b'', G x y t| ≤ ε := by
  obtain ⟨N, hN, key⟩ := quad_three h h' (quad_lin h) (quad_lin h') (quad_lin h'')
    (F := fun x y t => G (clampTo a b x) (clampTo a' b' y) (clampTo a'' b'' t)) (clamp_continuous h h' h'' hG) hε
  refine ⟨N, hN, fun l hl n hn m hm => ?_⟩
  have e1 : (linSum a b l fun x => linSum a' b' n fun y => linSum a'' b'' m (G x y)) =
      linSum a b l fun x => linSum a' b' n fun y => linSum a'' b'' m fun t =>
        G (clampTo a b x) (clampTo a' b' y) (clampTo a'' b'' t) :=
    linSum_congr h _ fun x hx => linSum_congr h' _ fun y hy => linSum_congr h'' _ fun t ht => by
      rw [clampTo_of_mem hx, clampTo_of_mem hy, clampTo_of_mem ht]
  have e2 : ∫ x in a..b, ∫ y in a'..b', ∫ t in a''..b'', G x y t =
      ∫ x in a..b, ∫ y in a'..b', ∫ t in a''..b'', G (clampTo a b x) (clampTo a' b' y) (clampTo a'' b'' t) :=
    integral_congr_Icc h fun x hx => integral_congr_Icc h' fun y hy => integral_congr_Icc h'' fun t ht => by
      rw [clampTo_of_mem hx, clampTo_of_mem hy, clampTo_of_mem ht]
  rw [e1, e2]
  exact key l hl n hn m hm

/-- the same with the last axis sampled at the left ends -/
theorem box_left {a b a' b' a'' b'' : ℝ} (h : a ≤ b) (h' : a' ≤ b') (h'' : a'' ≤ b'') {G : ℝ → ℝ → ℝ → ℝ}
    (hG : ContinuousOn (fun q : ℝ × ℝ × ℝ => G q.1 q.2.1 q.2.2) (box a b a' b' a'' b'')) {ε : ℝ} (hε : 0 < ε) :
    ∃ N : ℕ, 2 ≤ N ∧ ∀ l ≥ N, ∀ n ≥ N, ∀ m ≥ N,
      |linSum a b l (fun x => linSum a' b' n fun y => leftSum a'' b'' m (G x y)) -
        ∫ x in a..b, ∫ y in a'..b', ∫ t in a''..b'', G x y t| ≤ ε := by
  obtain ⟨N, hN, key⟩ := quad_three h h' (quad_lin h) (quad_lin h') (quad_left h'')
    (F := fun x y t => G (clampTo a b x) (clampTo a' b' y) (clampTo a'' b'' t)) (clamp_continuous h h' h'' hG) hε
  refine ⟨N, hN, fun l hl n hn m hm => ?_⟩
  have e1 : (linSum a b l fun x => linSum a' b' n fun y => leftSum a'' b'' m (G x y)) =
      linSum a b l fun x => linSum a' b' n fun y => leftSum a'' b'' m fun t =>
        G (clampTo a b x) (clampTo a' b' y) (clampTo a'' b'' t) :=
    linSum_congr h _ fun x hx => linSum_congr h' _ fun y hy => leftSum_congr h'' _ fun t ht => by
      rw [clampTo_of_mem hx, clampTo_of_mem hy, clampTo_of_mem ht]
  have e2 : ∫ x in a..b, ∫ y in a'..b', ∫ t in a''..b'', G x y t =
      ∫ x in a..b, ∫ y in a'..b', ∫ t in a''..b'', G (clampTo a b x) (clampTo a' b' y) (clampTo a'' b'' t) :=
    integral_congr_Icc h fun x hx => integral_congr_Icc h' fun y hy => integral_congr_Icc h'' fun t ht => by
      rw [clampTo_of_mem hx, clampTo_of_mem hy, clampTo_of_mem ht]
  rw [e1, e2]
  exact key l hl n hn m hm

variable [Phys]

/-! ## The integral over a disc -/

section Disc
open MeasureTheory
omit [Phys]

/-- the disc of radius `R` -/
def disc (R : ℝ) : Set (ℝ × ℝ) := {q | q.1 ^ 2 + q.2 ^ 2 ≤ R ^ 2}

theorem integral_disc {R : ℝ} (hR : 0 ≤ R) {g : ℝ × ℝ → ℝ} (hg : Continuous g) :
    ∫ r in (0 : ℝ)..R, ∫ θ in (0 : ℝ)..(2 * Real.pi), g (r * Real.cos θ, r * Real.sin θ) * r = ∫ q in disc R, g q := by
  have hpi := Real.pi_pos
  have hdm : MeasurableSet (disc R) := by
    apply IsClosed.measurableSet
    exact isClosed_le (by fun_prop) continuous_const
  rw [← integral_indicator hdm, ← integral_comp_polarCoord_symm]
  have hsub : Set.Ioc 0 R ×ˢ Set.Ioo (-Real.pi) Real.pi ⊆ polarCoord.target := by
    rw [polarCoord_target]
    exact Set.prod_mono Set.Ioc_subset_Ioi_self le_rfl
  have hmem : ∀ p : ℝ × ℝ, 0 < p.1 → (polarCoord.symm p ∈ disc R ↔ p.1 ≤ R) := by
    intro p hp
    have : (p.1 * Real.cos p.2) ^ 2 + (p.1 * Real.sin p.2) ^ 2 = p.1 ^ 2 := by
      have := Real.sin_sq_add_cos_sq p.2
      linear_combination p.1 ^ 2 * this
    rw [polarCoord_symm_apply]
    change (p.1 * Real.cos p.2) ^ 2 + (p.1 * Real.sin p.2) ^ 2 ≤ R ^ 2 ↔ _
    rw [this]
    exact pow_le_pow_iff_left₀ hp.le hR (by norm_num)
  rw [setIntegral_eq_of_subset_of_forall_sdiff_eq_zero (s := Set.Ioc 0 R ×ˢ Set.Ioo (-Real.pi) Real.pi)
    polarCoord.open_target.measurableSet hsub]
  swap
  · rintro p ⟨hp, hn⟩
    rw [polarCoord_target] at hp
    have h1 : ¬ p.1 ≤ R := fun h => hn ⟨⟨hp.1, h⟩, hp.2⟩
    rw [Set.indicator_of_notMem (fun h => h1 ((hmem p hp.1).1 h)), smul_zero]
  have hms : MeasurableSet (Set.Ioc 0 R ×ˢ Set.Ioo (-Real.pi) Real.pi) := measurableSet_Ioc.prod measurableSet_Ioo
  have hcg : Continuous fun p : ℝ × ℝ => g (p.1 * Real.cos p.2, p.1 * Real.sin p.2) * p.1 := by fun_prop
  rw [setIntegral_congr_fun (g := fun p : ℝ × ℝ => g (p.1 * Real.cos p.2, p.1 * Real.sin p.2) * p.1) hms]
  swap
  · intro p hp
    simp only
    rw [Set.indicator_of_mem ((hmem p hp.1.1).2 hp.1.2), polarCoord_symm_apply, smul_eq_mul, mul_comm]
  have hint : IntegrableOn (fun p : ℝ × ℝ => g (p.1 * Real.cos p.2, p.1 * Real.sin p.2) * p.1)
      (Set.Ioc 0 R ×ˢ Set.Ioo (-Real.pi) Real.pi) (volume.prod volume) :=
    (hcg.continuousOn.integrableOn_compact (isCompact_Icc.prod isCompact_Icc)).mono_set
      (Set.prod_mono Set.Ioc_subset_Icc_self Set.Ioo_subset_Icc_self)
  rw [Measure.volume_eq_prod, setIntegral_prod _ hint, intervalIntegral.integral_of_le hR]
  refine setIntegral_congr_fun measurableSet_Ioc fun r _ => ?_
  simp only
  have hper : Function.Periodic (fun θ : ℝ => g (r * Real.cos θ, r * Real.sin θ) * r) (2 * Real.pi) := by
    intro θ
    simp only [Real.cos_add_two_pi, Real.sin_add_two_pi]
  have := hper.intervalIntegral_add_eq 0 (-Real.pi)
  rw [zero_add, show -Real.pi + 2 * Real.pi = Real.pi by ring] at this
  rw [this, intervalIntegral.integral_of_le (by linarith), integral_Ioc_eq_integral_Ioo]

end Disc

/-! ## C126 -/

/-- the grid of a laser built in `xyt` geometry -/
theorem init_xyt_volume {lo0 lo1 lo2 hi0 hi1 hi2 : ℝ} {nx ny nt : ℕ} {p : ProfileObj} {m nT : Option ℕ}
    {l : Laser ⟨nx, ny, nt⟩}
    (h : Laser.init "xyt" [lo0, lo1, lo2] [hi0, hi1, hi2] [nx, ny, nt] p m nT = .ok ⟨_, l⟩) :
    (∀ j : Fin ny, l.grid.cellVolume j = (hi0 - lo0) / ((nx : ℝ) - 1) * ((hi1 - lo1) / ((ny : ℝ) - 1)) *
      ((hi2 - lo2) / ((nt : ℝ) - 1) * c)) ∧ l.grid.t.pts = linspace lo2 hi2 nt := by
  obtain ⟨g, f, hg, -, hgeo, ht, -⟩ := Laser.init_facts h
  obtain ⟨-, -, -, -, hc⟩ := Grid.init_ok hg
  rcases hc with ⟨l0, l1, u0, u1, m', r, t, rest, e1, -⟩ |
    ⟨l0, l1, l2, u0, u1, u2, x, y, t, e1, e2, e3, e4, e5, e6, e7, e8, e9⟩
  · exact absurd e1 (by decide)
  simp only [List.cons.injEq, and_true] at e2 e3
  obtain ⟨rfl, rfl, rfl⟩ := e2
  obtain ⟨rfl, rfl, rfl⟩ := e3
  obtain ⟨hx2, hx⟩ := mkAxis_ok e5
  obtain ⟨hy2, hy⟩ := mkAxis_ok e6
  obtain ⟨ht2, ht'⟩ := mkAxis_ok e7
  have hxd : x.dx = (hi0 - lo0) / ((nx : ℝ) - 1) := by rw [hx]; simp [linspace]
  have hyd : y.dx = (hi1 - lo1) / ((ny : ℝ) - 1) := by rw [hy]; simp [linspace]
  have htd : g.t.dx = (hi2 - lo2) / ((nt : ℝ) - 1) := by rw [e8, ht']; simp [linspace]
  constructor
  · intro j
    simp only [Grid.cellVolume, hgeo, ht, e9, cellVolumeXYT, hxd, hyd, htd]
  · rw [ht, e8, ht']

/-- triple sums over the samples of a grid -/
theorem sum_eq_linSum (lo0 lo1 lo2 hi0 hi1 hi2 : ℝ) (nx ny nt : ℕ) (G : ℝ → ℝ → ℝ → ℝ) :
    ∑ i : Fin nx, ∑ j : Fin ny, ∑ k : Fin nt, (hi0 - lo0) / ((nx : ℝ) - 1) * ((hi1 - lo1) / ((ny : ℝ) - 1)) *
      ((hi2 - lo2) / ((nt : ℝ) - 1) * c) * G (linspace lo0 hi0 nx i) (linspace lo1 hi1 ny j) (linspace lo2 hi2 nt k) =
    c * linSum lo0 hi0 nx fun x => linSum lo1 hi1 ny fun y => linSum lo2 hi2 nt (G x y) := by
  unfold linSum
  simp only [Finset.mul_sum]
  refine Finset.sum_congr rfl fun i _ => Finset.sum_congr rfl fun j _ => Finset.sum_congr rfl fun k _ => ?_
  ring

/-- **C126** (Cartesian). For every continuous profile, the energy of a new laser converges to the integral of the energy density
`ε₀/2 |E|²` over the box `dx dy c dt` when the numbers of points of all three axes grow. -/
theorem C126_energy_xyt (lo0 lo1 lo2 hi0 hi1 hi2 : ℝ) (h0 : lo0 ≤ hi0) (h1 : lo1 ≤ hi1) (h2 : lo2 ≤ hi2) (p : ProfileObj)
    (hp : p.laserEnergy = none) (hd : p.dtype = .c128) (F : ℝ → ℝ → ℝ → ℂ) (hF : p.Pointwise F)
    (hcont : ContinuousOn (fun q : ℝ × ℝ × ℝ => F q.1 q.2.1 q.2.2)
      (Set.Icc lo0 hi0 ×ˢ (Set.Icc lo1 hi1 ×ˢ Set.Icc lo2 hi2))) (m nT : Option ℕ) {ε : ℝ} (hε : 0 < ε) :
    ∃ N : ℕ, ∀ nx ≥ N, ∀ ny ≥ N, ∀ nt ≥ N, ∃ (l : Laser ⟨nx, ny, nt⟩) (E : ℝ),
      Laser.init "xyt" [lo0, lo1, lo2] [hi0, hi1, hi2] [nx, ny, nt] p m nT = .ok ⟨_, l⟩ ∧ l.energy = .ok E ∧
      |E - eps0 / 2 * ∫ x in lo0..hi0, ∫ y in lo1..hi1, ∫ t in lo2..hi2, ‖F x y t‖ ^ 2 * c| ≤ ε := by
  have hcp := Phys.c_pos
  have he := eps0_pos
  obtain ⟨N, hN, key⟩ := box_lin h0 h1 h2 (G := fun x y t => ‖F x y t‖ ^ 2) ((hcont.norm).pow 2)
    (ε := ε / (eps0 / 2 * c)) (by positivity)
  refine ⟨N, fun nx hx ny hy nt ht => ?_⟩
  obtain ⟨l, hl, hh⟩ := C14_unscaled_xyt lo0 lo1 lo2 hi0 hi1 hi2 nx ny nt (by omega) (by omega) (by omega) p hp hd F hF m nT
  refine ⟨l, _, hl, hh.energy, ?_⟩
  simp only [(init_xyt_volume hl).1]
  rw [sum_eq_linSum lo0 lo1 lo2 hi0 hi1 hi2 nx ny nt fun x y t => ‖F x y t‖ ^ 2]
  simp only [intervalIntegral.integral_mul_const]
  have := key nx hx ny hy nt ht
  rw [mul_comm c, ← mul_sub, ← sub_mul, abs_mul, abs_mul, abs_of_pos hcp, abs_of_pos (by positivity : (0 : ℝ) < eps0 / 2)]
  rw [le_div_iff₀ (by positivity)] at this
  linarith

/-- sums over the cells of a cylinder -/
theorem sum_eq_polar (lo0 lo1 hi0 hi1 : ℝ) (nr nt M : ℕ) (G : ℝ → ℝ → ℝ → ℝ) :
    ∑ j : Fin nr, ∑ k : Fin nt, 2 * Real.pi * linspace lo0 hi0 nr j * ((hi0 - lo0) / (nr - 1)) *
        (c * ((hi1 - lo1) / (nt - 1))) *
          ((∑ q : Fin M, G (linspace lo0 hi0 nr j) (2 * Real.pi * (q : ℕ) / M) (linspace lo1 hi1 nt k)) / M) =
    c * linSum lo0 hi0 nr fun r => linSum lo1 hi1 nt fun t => leftSum 0 (2 * Real.pi) M fun θ => G r θ t * r := by
  unfold linSum leftSum
  simp only [Finset.mul_sum, Finset.sum_div]
  refine Finset.sum_congr rfl fun j _ => Finset.sum_congr rfl fun k _ => Finset.sum_congr rfl fun q _ => ?_
  have e : (0 : ℝ) + ((q : ℕ) : ℝ) * ((2 * Real.pi - 0) / M) = 2 * Real.pi * (q : ℕ) / M := by ring
  rw [e]
  ring

/-- **C126** (cylindrical). For every continuous profile - with any azimuthal dependence - the energy of a new laser converges
to the integral of the energy density `ε₀/2 |E|²` over the cylinder `r dr dθ c dt` when the numbers of points of both axes
and the number of azimuthal modes grow. -/
theorem C126_energy_rt (lo0 lo1 hi0 hi1 : ℝ) (h0 : lo0 ≤ hi0) (h1 : lo1 ≤ hi1) (p : ProfileObj)
    (hp : p.laserEnergy = none) (F : ℝ → ℝ → ℝ → ℂ) (hF : p.Pointwise F)
    (hcont : Continuous fun q : ℝ × ℝ × ℝ => F q.1 q.2.1 q.2.2) {ε : ℝ} (hε : 0 < ε) :
    ∃ N : ℕ, ∀ nr ≥ N, ∀ nt ≥ N, ∀ n ≥ N, ∃ (l : Laser ⟨2 * n - 1, nr, nt⟩) (E : ℝ),
      Laser.init "rt" [lo0, lo1] [hi0, hi1] [nr, nt] p (some n) none = .ok ⟨_, l⟩ ∧ l.energy = .ok E ∧
      |E - eps0 / 2 * ∫ r in lo0..hi0, ∫ t in lo1..hi1, ∫ θ in (0 : ℝ)..(2 * Real.pi),
        ‖F (r * Real.cos θ) (r * Real.sin θ) t‖ ^ 2 * r * c| ≤ ε := by
  have hcp := Phys.c_pos
  have he := eps0_pos
  have hpi := Real.pi_pos
  have hG : Continuous fun q : ℝ × ℝ × ℝ =>
      ‖F (q.1 * Real.cos q.2.2) (q.1 * Real.sin q.2.2) q.2.1‖ ^ 2 * q.1 := by
    have hm : Continuous fun q : ℝ × ℝ × ℝ => (q.1 * Real.cos q.2.2, q.1 * Real.sin q.2.2, q.2.1) := by fun_prop
    exact ((hcont.comp hm).norm.pow 2).mul continuous_fst
  obtain ⟨N, hN, key⟩ := box_left h0 h1 (by positivity : (0 : ℝ) ≤ 2 * Real.pi)
    (G := fun r t θ => ‖F (r * Real.cos θ) (r * Real.sin θ) t‖ ^ 2 * r) hG.continuousOn
    (ε := ε / (eps0 / 2 * c)) (by positivity)
  refine ⟨N, fun nr hr nt ht n hn => ?_⟩
  obtain ⟨l, hl, hE⟩ := C122_angular_mean lo0 lo1 hi0 hi1 nr nt n (by omega) (by omega) (by omega) p hp F hF
  refine ⟨l, _, hl, hE, ?_⟩
  rw [sum_eq_polar lo0 lo1 hi0 hi1 nr nt (2 * n - 1) fun r θ t => ‖F (r * Real.cos θ) (r * Real.sin θ) t‖ ^ 2]
  simp only [intervalIntegral.integral_mul_const]
  have := key nr hr nt ht (2 * n - 1) (by omega)
  simp only [intervalIntegral.integral_mul_const] at this
  rw [mul_comm c, ← mul_sub, ← sub_mul, abs_mul, abs_mul, abs_of_pos hcp, abs_of_pos (by positivity : (0 : ℝ) < eps0 / 2)]
  rw [le_div_iff₀ (by positivity)] at this
  linarith

/-- the same sums, time first -/
theorem sum_eq_polar_time (lo0 lo1 hi0 hi1 : ℝ) (nr nt M : ℕ) (G : ℝ → ℝ → ℝ → ℝ) :
    ∑ j : Fin nr, ∑ k : Fin nt, 2 * Real.pi * linspace lo0 hi0 nr j * ((hi0 - lo0) / (nr - 1)) *
        (c * ((hi1 - lo1) / (nt - 1))) *
          ((∑ q : Fin M, G (linspace lo0 hi0 nr j) (2 * Real.pi * (q : ℕ) / M) (linspace lo1 hi1 nt k)) / M) =
    c * linSum lo1 hi1 nt fun t => linSum lo0 hi0 nr fun r => leftSum 0 (2 * Real.pi) M fun θ => G r θ t * r := by
  rw [sum_eq_polar]
  congr 1
  unfold linSum
  simp only [Finset.mul_sum]
  rw [Finset.sum_comm]
  refine Finset.sum_congr rfl fun j _ => Finset.sum_congr rfl fun k _ => ?_
  ring

/-- **C126** (disc). With a radial axis from `0` to `R`, the energy converges to the integral of the energy density `ε₀/2 |E|²`
over the cylinder `x² + y² ≤ R²` with its volume `dx dy c dt`. -/
theorem C126_energy_disc (R lo1 hi1 : ℝ) (hR : 0 ≤ R) (h1 : lo1 ≤ hi1) (p : ProfileObj)
    (hp : p.laserEnergy = none) (F : ℝ → ℝ → ℝ → ℂ) (hF : p.Pointwise F)
    (hcont : Continuous fun q : ℝ × ℝ × ℝ => F q.1 q.2.1 q.2.2) {ε : ℝ} (hε : 0 < ε) :
    ∃ N : ℕ, ∀ nr ≥ N, ∀ nt ≥ N, ∀ n ≥ N, ∃ (l : Laser ⟨2 * n - 1, nr, nt⟩) (E : ℝ),
      Laser.init "rt" [0, lo1] [R, hi1] [nr, nt] p (some n) none = .ok ⟨_, l⟩ ∧ l.energy = .ok E ∧
      |E - eps0 / 2 * ∫ t in lo1..hi1, ∫ q in {q : ℝ × ℝ | q.1 ^ 2 + q.2 ^ 2 ≤ R ^ 2}, ‖F q.1 q.2 t‖ ^ 2 * c| ≤ ε := by
  have hcp := Phys.c_pos
  have he := eps0_pos
  have hpi := Real.pi_pos
  have hG : Continuous fun q : ℝ × ℝ × ℝ =>
      ‖F (q.2.1 * Real.cos q.2.2) (q.2.1 * Real.sin q.2.2) q.1‖ ^ 2 * q.2.1 := by
    have hm : Continuous fun q : ℝ × ℝ × ℝ => (q.2.1 * Real.cos q.2.2, q.2.1 * Real.sin q.2.2, q.1) := by fun_prop
    exact ((hcont.comp hm).norm.pow 2).mul (continuous_fst.comp continuous_snd)
  obtain ⟨N, hN, key⟩ := box_left h1 hR (by positivity : (0 : ℝ) ≤ 2 * Real.pi)
    (G := fun t r θ => ‖F (r * Real.cos θ) (r * Real.sin θ) t‖ ^ 2 * r) hG.continuousOn
    (ε := ε / (eps0 / 2 * c)) (by positivity)
  refine ⟨N, fun nr hr nt ht n hn => ?_⟩
  obtain ⟨l, hl, hE⟩ := C122_angular_mean 0 lo1 R hi1 nr nt n (by omega) (by omega) (by omega) p hp F hF
  refine ⟨l, _, hl, hE, ?_⟩
  rw [sum_eq_polar_time 0 lo1 R hi1 nr nt (2 * n - 1) fun r θ t => ‖F (r * Real.cos θ) (r * Real.sin θ) t‖ ^ 2]
  simp only [MeasureTheory.integral_mul_const, intervalIntegral.integral_mul_const]
  have := key nt ht nr hr (2 * n - 1) (by omega)
  have hd : ∀ t, ∫ r in (0 : ℝ)..R, ∫ θ in (0 : ℝ)..(2 * Real.pi), ‖F (r * Real.cos θ) (r * Real.sin θ) t‖ ^ 2 * r =
      ∫ q in {q : ℝ × ℝ | q.1 ^ 2 + q.2 ^ 2 ≤ R ^ 2}, ‖F q.1 q.2 t‖ ^ 2 := fun t =>
    integral_disc hR (g := fun q => ‖F q.1 q.2 t‖ ^ 2)
      ((hcont.comp (continuous_fst.prodMk (continuous_snd.prodMk continuous_const))).norm.pow 2)
  simp only [hd] at this
  rw [mul_comm c, ← mul_sub, ← sub_mul, abs_mul, abs_mul, abs_of_pos hcp, abs_of_pos (by positivity : (0 : ℝ) < eps0 / 2)]
  rw [le_div_iff₀ (by positivity)] at this
  linarith

omit [Phys] in
/-- two sums can be exchanged -/
theorem linSum_comm (a b a' b' : ℝ) (n m : ℕ) (f : ℝ → ℝ → ℝ) :
    (linSum a b n fun x => linSum a' b' m fun y => f x y) = linSum a' b' m fun y => linSum a b n fun x => f x y := by
  unfold linSum
  simp only [Finset.mul_sum]
  rw [Finset.sum_comm]
  refine Finset.sum_congr rfl fun k _ => Finset.sum_congr rfl fun i _ => ?_
  ring

omit [Phys] in
/-- the integral over the square of a function that is zero outside of the disc -/
theorem integral_square {R : ℝ} (hR : 0 ≤ R) {g : ℝ × ℝ → ℝ} (hg : Continuous g)
    (hz : ∀ q, R ^ 2 < q.1 ^ 2 + q.2 ^ 2 → g q = 0) :
    ∫ x in (-R)..R, ∫ y in (-R)..R, g (x, y) = ∫ q in {q : ℝ × ℝ | q.1 ^ 2 + q.2 ^ 2 ≤ R ^ 2}, g q := by
  have hint : MeasureTheory.IntegrableOn g (Set.Icc (-R) R ×ˢ Set.Icc (-R) R) (MeasureTheory.volume.prod MeasureTheory.volume) :=
    hg.continuousOn.integrableOn_compact (isCompact_Icc.prod isCompact_Icc)
  have hle : -R ≤ R := by linarith
  simp only [intervalIntegral.integral_of_le hle, ← MeasureTheory.integral_Icc_eq_integral_Ioc]
  rw [← MeasureTheory.setIntegral_prod g hint, ← MeasureTheory.Measure.volume_eq_prod]
  refine MeasureTheory.setIntegral_eq_of_subset_of_forall_sdiff_eq_zero (measurableSet_Icc.prod measurableSet_Icc) ?_ ?_
  · intro q hq
    have hq' : q.1 ^ 2 + q.2 ^ 2 ≤ R ^ 2 := hq
    have h1 := abs_le_of_sq_le_sq' (by nlinarith [sq_nonneg q.2] : q.1 ^ 2 ≤ R ^ 2) hR
    have h2 := abs_le_of_sq_le_sq' (by nlinarith [sq_nonneg q.1] : q.2 ^ 2 ≤ R ^ 2) hR
    exact ⟨⟨h1.1, h1.2⟩, ⟨h2.1, h2.2⟩⟩
  · rintro q ⟨-, hq⟩
    exact hz q (not_le.1 hq)

/-- **C126** (both geometries). If the field vanishes outside of the cylinder of radius `R`, a laser in `xyt` geometry on the
square `[-R, R]²` and one in `rt` geometry up to `R` have the same energy in the limit of fine grids. -/
theorem C126_geometries_agree (R lo1 hi1 : ℝ) (hR : 0 ≤ R) (h1 : lo1 ≤ hi1) (p : ProfileObj)
    (hp : p.laserEnergy = none) (hd : p.dtype = .c128) (F : ℝ → ℝ → ℝ → ℂ) (hF : p.Pointwise F)
    (hcont : Continuous fun q : ℝ × ℝ × ℝ => F q.1 q.2.1 q.2.2)
    (hz : ∀ x y t, R ^ 2 < x ^ 2 + y ^ 2 → F x y t = 0) (m nT : Option ℕ) {ε : ℝ} (hε : 0 < ε) :
    ∃ N : ℕ, ∀ nx ≥ N, ∀ ny ≥ N, ∀ nt ≥ N, ∀ nr ≥ N, ∀ nt' ≥ N, ∀ n ≥ N,
      ∃ (l : Laser ⟨nx, ny, nt⟩) (l' : Laser ⟨2 * n - 1, nr, nt'⟩) (E E' : ℝ),
        Laser.init "xyt" [-R, -R, lo1] [R, R, hi1] [nx, ny, nt] p m nT = .ok ⟨_, l⟩ ∧ l.energy = .ok E ∧
        Laser.init "rt" [0, lo1] [R, hi1] [nr, nt'] p (some n) none = .ok ⟨_, l'⟩ ∧ l'.energy = .ok E' ∧ |E - E'| ≤ ε := by
  have hcp := Phys.c_pos
  have he := eps0_pos
  have hle : -R ≤ R := by linarith
  obtain ⟨N1, key1⟩ := C126_energy_disc R lo1 hi1 hR h1 p hp F hF hcont (half_pos hε)
  have hG : Continuous fun q : ℝ × ℝ × ℝ => ‖F q.2.1 q.2.2 q.1‖ ^ 2 :=
    ((hcont.comp ((continuous_fst.comp continuous_snd).prodMk ((continuous_snd.comp continuous_snd).prodMk continuous_fst))).norm).pow 2
  obtain ⟨N2, hN2, key2⟩ := box_lin h1 hle hle (G := fun t x y => ‖F x y t‖ ^ 2) hG.continuousOn
    (ε := ε / 2 / (eps0 / 2 * c)) (by positivity)
  refine ⟨max N1 N2, fun nx hx ny hy nt ht nr hr nt' ht' n hn => ?_⟩
  have a1 : ∀ {k}, k ≥ max N1 N2 → k ≥ N1 := fun h => le_trans (le_max_left _ _) h
  have a2 : ∀ {k}, k ≥ max N1 N2 → k ≥ N2 := fun h => le_trans (le_max_right _ _) h
  have hx2 := a2 hx
  have hy2 := a2 hy
  have ht2 := a2 ht
  obtain ⟨l', E', hl', hE', hb'⟩ := key1 nr (a1 hr) nt' (a1 ht') n (a1 hn)
  obtain ⟨l, hl, hh⟩ := C14_unscaled_xyt (-R) (-R) lo1 R R hi1 nx ny nt (by omega) (by omega) (by omega) p hp hd F hF m nT
  refine ⟨l, l', _, E', hl, hh.energy, hl', hE', ?_⟩
  simp only [(init_xyt_volume hl).1]
  rw [sum_eq_linSum (-R) (-R) lo1 R R hi1 nx ny nt fun x y t => ‖F x y t‖ ^ 2]
  rw [show (linSum (-R) R nx fun x => linSum (-R) R ny fun y => linSum lo1 hi1 nt fun t => ‖F x y t‖ ^ 2) =
      linSum lo1 hi1 nt fun t => linSum (-R) R nx fun x => linSum (-R) R ny fun y => ‖F x y t‖ ^ 2 by
    simp only [linSum_comm (-R) R lo1 hi1]]
  have hk := key2 nt ht2 nx hx2 ny hy2
  have hsq : ∀ t, ∫ x in (-R)..R, ∫ y in (-R)..R, ‖F x y t‖ ^ 2 =
      ∫ q in {q : ℝ × ℝ | q.1 ^ 2 + q.2 ^ 2 ≤ R ^ 2}, ‖F q.1 q.2 t‖ ^ 2 := fun t =>
    integral_square hR (g := fun q => ‖F q.1 q.2 t‖ ^ 2)
      ((hcont.comp (continuous_fst.prodMk (continuous_snd.prodMk continuous_const))).norm.pow 2)
      fun q hq => by rw [hz q.1 q.2 t hq]; simp
  simp only [hsq] at hk
  simp only [MeasureTheory.integral_mul_const, intervalIntegral.integral_mul_const] at hb'
  rw [le_div_iff₀ (by positivity)] at hk
  generalize (linSum lo1 hi1 nt fun t => linSum (-R) R nx fun x => linSum (-R) R ny fun y => ‖F x y t‖ ^ 2) = A at hk ⊢
  generalize (∫ t in lo1..hi1, ∫ q in {q : ℝ × ℝ | q.1 ^ 2 + q.2 ^ 2 ≤ R ^ 2}, ‖F q.1 q.2 t‖ ^ 2) = B at hk hb'
  have e : |eps0 / 2 * (c * A) - eps0 / 2 * (B * c)| ≤ ε / 2 := by
    rw [show eps0 / 2 * (c * A) - eps0 / 2 * (B * c) = (A - B) * (eps0 / 2 * c) by ring, abs_mul,
      abs_of_pos (by positivity : (0 : ℝ) < eps0 / 2 * c)]
    exact hk
  have := abs_sub_le (eps0 / 2 * (c * A)) (eps0 / 2 * (B * c)) E'
  rw [abs_sub_comm] at hb'
  linarith

/-! ## C127 -/

omit [Phys] in
/-- the variance around the mean, from the sums of `(t - m)² P`, `t P` and `P` for any `m` -/
theorem variance_about {n : ℕ} (t P : Fin n → ℝ) (m : ℝ) (h0 : ∑ k, P k ≠ 0) :
    (∑ k, (t k - (∑ k, t k * P k) / ∑ k, P k) ^ 2 * P k) / ∑ k, P k =
      (∑ k, (t k - m) ^ 2 * P k) / (∑ k, P k) - ((∑ k, t k * P k) / (∑ k, P k) - m) ^ 2 := by
  set S := ∑ k, P k with hS
  set T := ∑ k, t k * P k with hT
  have e : ∀ a : ℝ, ∑ k, (t k - a) ^ 2 * P k = (∑ k, t k ^ 2 * P k) - 2 * a * T + a ^ 2 * S := by
    intro a
    rw [hS, hT, Finset.mul_sum, Finset.mul_sum, ← Finset.sum_sub_distrib, ← Finset.sum_add_distrib]
    refine Finset.sum_congr rfl fun k _ => ?_
    ring
  rw [e, e]
  field_simp
  ring

omit [Phys] in
/-- the root mean square of quotients of convergent sums -/
theorem rms_tendsto {ι : Type} {L : Filter ι} {A0 A1 A2 : ι → ℝ} {I0 I1 I2 : ℝ} (h0 : I0 ≠ 0)
    (t0 : Filter.Tendsto A0 L (nhds I0)) (t1 : Filter.Tendsto A1 L (nhds I1)) (t2 : Filter.Tendsto A2 L (nhds I2)) :
    Filter.Tendsto (fun i => Real.sqrt (A2 i / A0 i - (A1 i / A0 i - I1 / I0) ^ 2)) L (nhds (Real.sqrt (I2 / I0))) := by
  have h1 := t1.div t0 h0
  have h2 := t2.div t0 h0
  have h3 := h2.sub ((h1.sub_const (I1 / I0)).pow 2)
  simp only [sub_self, ne_eq, OfNat.ofNat_ne_zero, not_false_eq_true, zero_pow, sub_zero] at h3
  exact (Real.continuous_sqrt.tendsto _).comp h3

omit [Phys] in
/-- the sums over three axes converge along any sequence of grids for which all three axes get finer -/
theorem box_tendsto {a b a' b' a'' b'' : ℝ} (h : a ≤ b) (h' : a' ≤ b') (h'' : a'' ≤ b'') {G : ℝ → ℝ → ℝ → ℝ}
    (hG : ContinuousOn (fun q : ℝ × ℝ × ℝ => G q.1 q.2.1 q.2.2) (box a b a' b' a'' b'')) :
    Filter.Tendsto (fun q : ℕ × ℕ × ℕ => linSum a b q.1 fun x => linSum a' b' q.2.1 fun y => linSum a'' b'' q.2.2 (G x y))
      Filter.atTop (nhds (∫ x in a..b, ∫ y in a'..b', ∫ t in a''..b'', G x y t)) := by
  rw [Metric.tendsto_atTop]
  intro ε hε
  obtain ⟨N, -, key⟩ := box_lin h h' h'' hG (half_pos hε)
  refine ⟨(N, N, N), fun q hq => ?_⟩
  rw [Real.dist_eq]
  have := key q.1 hq.1 q.2.1 hq.2.1 q.2.2 hq.2.2
  linarith

/-- **C127** (Cartesian). For every continuous profile that is not zero, the duration reported for a new laser converges to
the root mean square duration of its intensity, when the numbers of points of all three axes grow. -/
theorem C127_duration_xyt (lo0 lo1 lo2 hi0 hi1 hi2 : ℝ) (h0 : lo0 < hi0) (h1 : lo1 < hi1) (h2 : lo2 < hi2) (p : ProfileObj)
    (hp : p.laserEnergy = none) (hd : p.dtype = .c128) (F : ℝ → ℝ → ℝ → ℂ) (hF : p.Pointwise F)
    (hcont : ContinuousOn (fun q : ℝ × ℝ × ℝ => F q.1 q.2.1 q.2.2)
      (Set.Icc lo0 hi0 ×ˢ (Set.Icc lo1 hi1 ×ˢ Set.Icc lo2 hi2)))
    (total mean : ℝ) (htotal : total = ∫ x in lo0..hi0, ∫ y in lo1..hi1, ∫ t in lo2..hi2, ‖F x y t‖ ^ 2)
    (hmean : mean = (∫ x in lo0..hi0, ∫ y in lo1..hi1, ∫ t in lo2..hi2, t * ‖F x y t‖ ^ 2) / total) (hnz : total ≠ 0)
    (m nT : Option ℕ) {ε : ℝ} (hε : 0 < ε) :
    ∃ N : ℕ, ∀ nx ≥ N, ∀ ny ≥ N, ∀ nt ≥ N, ∃ (l : Laser ⟨nx, ny, nt⟩) (D : ℝ),
      Laser.init "xyt" [lo0, lo1, lo2] [hi0, hi1, hi2] [nx, ny, nt] p m nT = .ok ⟨_, l⟩ ∧
      (getDuration l.grid).1 = .ok D ∧
      |D - Real.sqrt ((∫ x in lo0..hi0, ∫ y in lo1..hi1, ∫ t in lo2..hi2, (t - mean) ^ 2 * ‖F x y t‖ ^ 2) / total)| ≤ ε := by
  have hcp := Phys.c_pos
  have hI : ContinuousOn (fun q : ℝ × ℝ × ℝ => ‖F q.1 q.2.1 q.2.2‖ ^ 2) (box lo0 hi0 lo1 hi1 lo2 hi2) := (hcont.norm).pow 2
  have ht : Continuous fun q : ℝ × ℝ × ℝ => q.2.2 := by fun_prop
  have ht2 : Continuous fun q : ℝ × ℝ × ℝ => (q.2.2 - mean) ^ 2 := by fun_prop
  have b0 := box_tendsto h0.le h1.le h2.le (G := fun x y t => ‖F x y t‖ ^ 2) hI
  have b1 := box_tendsto h0.le h1.le h2.le (G := fun x y t => t * ‖F x y t‖ ^ 2) (ht.continuousOn.mul hI)
  have b2 := box_tendsto h0.le h1.le h2.le (G := fun x y t => (t - mean) ^ 2 * ‖F x y t‖ ^ 2) (ht2.continuousOn.mul hI)
  rw [← htotal] at b0
  have key := (rms_tendsto hnz b0 b1 b2).eventually (Metric.closedBall_mem_nhds _ hε)
  have hne := b0.eventually_ne hnz
  obtain ⟨⟨Na, Nb, Nc⟩, hN⟩ := Filter.eventually_atTop.1 (key.and hne)
  refine ⟨max (max Na 2) (max Nb Nc), fun nx hx ny hy nt hn => ?_⟩
  have hx' : Na ≤ nx ∧ 2 ≤ nx := by constructor <;> omega
  have hy' : Nb ≤ ny ∧ 2 ≤ ny := by constructor <;> omega
  have ht' : Nc ≤ nt ∧ 2 ≤ nt := by constructor <;> omega
  obtain ⟨k1, k2⟩ := hN (nx, ny, nt) ⟨hx'.1, hy'.1, ht'.1⟩
  simp only at k1 k2
  obtain ⟨l, hl, hh⟩ := C14_unscaled_xyt lo0 lo1 lo2 hi0 hi1 hi2 nx ny nt hx'.2 hy'.2 ht'.2 p hp hd F hF m nT
  obtain ⟨hv, hpts⟩ := init_xyt_volume hl
  let f : Field ⟨nx, ny, nt⟩ := fun i j k => F (linspace lo0 hi0 nx i) (linspace lo1 hi1 ny j) (linspace lo2 hi2 nt k)
  let P : Fin nt → ℝ := fun k => ∑ i, ∑ j, ‖f i j k‖ ^ 2 * l.grid.cellVolume j
  have hsum : ∀ w : ℝ → ℝ, ∑ k, w (l.grid.t.pts k) * P k =
      c * linSum lo0 hi0 nx fun x => linSum lo1 hi1 ny fun y => linSum lo2 hi2 nt fun t => w t * ‖F x y t‖ ^ 2 := by
    intro w
    rw [← sum_eq_linSum lo0 lo1 lo2 hi0 hi1 hi2 nx ny nt fun x y t => w t * ‖F x y t‖ ^ 2]
    simp only [P, Finset.mul_sum]
    rw [Finset.sum_comm]
    refine Finset.sum_congr rfl fun i _ => ?_
    rw [Finset.sum_comm]
    refine Finset.sum_congr rfl fun j _ => Finset.sum_congr rfl fun k _ => ?_
    rw [hv, hpts]
    ring
  have hP0 := hsum fun _ => 1
  have hP1 := hsum fun t => t
  have hP2 := hsum fun t => (t - mean) ^ 2
  simp only [one_mul] at hP0
  have hne' : ∑ k, P k ≠ 0 := by rw [hP0]; exact mul_ne_zero hcp.ne' k2
  obtain ⟨mean', hm', hD⟩ := C56_duration_is_rms hh P (fun _ => rfl) hne'
  refine ⟨l, _, hl, hD, ?_⟩
  rw [hm', variance_about _ _ mean hne', hP0, hP1, hP2, mul_div_mul_left _ _ hcp.ne', mul_div_mul_left _ _ hcp.ne']
  rw [← hmean, Real.dist_eq] at k1
  exact k1

omit [Phys] in
/-- the intensities of the modes of a new laser add up to the mean intensity over the angles -/
theorem modes_parseval {n nr nt : ℕ} (hn : 1 ≤ n) (p : ProfileObj) (F : ℝ → ℝ → ℝ → ℂ) (hF : p.Pointwise F)
    (r : Fin nr → ℝ) (t : Fin nt → ℝ) (j : Fin nr) (k : Fin nt) :
    ∑ i, ‖sampledRT p n (2 * n - 1) le_rfl hn r t i j k‖ ^ 2 =
      (∑ q : Fin (2 * n - 1), ‖F (r j * Real.cos (2 * Real.pi * (q : ℕ) / (2 * n - 1 : ℕ)))
        (r j * Real.sin (2 * Real.pi * (q : ℕ) / (2 * n - 1 : ℕ))) (t k)‖ ^ 2) / (2 * n - 1 : ℕ) := by
  have hN : ((2 * n - 1 : ℕ) : ℝ) ≠ 0 := by
    have : 2 * n - 1 ≠ 0 := by omega
    exact_mod_cast this
  have hpick : ∀ i : Fin (2 * n - 1), Laser.pickModes n (2 * n - 1) le_rfl hn i = i := by
    intro i
    have hi := i.2
    unfold Laser.pickModes
    by_cases hlt : (i : ℕ) < n
    · simp [hlt]
    · simp only [hlt, dif_neg, not_false_eq_true]
      ext
      simp only
      omega
  rw [eq_div_iff hN, mul_comm]
  simp only [sampledRT, hpick]
  rw [← parseval_ifft]
  refine Finset.sum_congr rfl fun q _ => ?_
  simp only [Laser.sampleTheta]
  rw [hF, show 2 * Real.pi / ((2 * n - 1 : ℕ) : ℝ) * ((q : ℕ) : ℝ) =
    2 * Real.pi * ((q : ℕ) : ℝ) / ((2 * n - 1 : ℕ) : ℝ) by ring]

/-- the time axis of a laser built in `rt` geometry -/
theorem init_rt_time {lo0 lo1 hi0 hi1 : ℝ} {nr nt n : ℕ} {p : ProfileObj} {nT : Option ℕ}
    {l : Laser ⟨2 * n - 1, nr, nt⟩} (h : Laser.init "rt" [lo0, lo1] [hi0, hi1] [nr, nt] p (some n) nT = .ok ⟨_, l⟩) :
    l.grid.t.pts = linspace lo1 hi1 nt := by
  obtain ⟨g, f, hg, -, hgeo, ht, -⟩ := Laser.init_facts h
  obtain ⟨-, -, -, -, hc⟩ := Grid.init_ok hg
  rcases hc with ⟨l0, l1, u0, u1, m', r, t, rest, e1, e2, e3, e4, e5, e6, e7, e8, hm, e9⟩ |
    ⟨l0, l1, l2, u0, u1, u2, x, y, t, e1, -⟩
  swap
  · exact absurd e1 (by decide)
  simp only [List.cons.injEq, and_true] at e2 e3
  obtain ⟨rfl, rfl⟩ := e2
  obtain ⟨rfl, rfl⟩ := e3
  obtain ⟨ht2, ht'⟩ := mkAxis_ok e7
  rw [ht, e8, ht']

omit [Phys] in
/-- sums over two axes and an angle converge along any sequence of grids for which all three get finer -/
theorem polar_tendsto {a b a' b' : ℝ} (h : a ≤ b) (h' : a' ≤ b') {G : ℝ → ℝ → ℝ → ℝ}
    (hG : Continuous (fun q : ℝ × ℝ × ℝ => G q.1 q.2.1 q.2.2)) :
    Filter.Tendsto (fun q : ℕ × ℕ × ℕ => linSum a b q.1 fun r => linSum a' b' q.2.1 fun t =>
        leftSum 0 (2 * Real.pi) (2 * q.2.2 - 1) (G r t))
      Filter.atTop (nhds (∫ r in a..b, ∫ t in a'..b', ∫ θ in (0 : ℝ)..(2 * Real.pi), G r t θ)) := by
  rw [Metric.tendsto_atTop]
  intro ε hε
  obtain ⟨N, hN, key⟩ := box_left h h' (by have := Real.pi_pos; positivity : (0 : ℝ) ≤ 2 * Real.pi) hG.continuousOn (half_pos hε)
  refine ⟨(N, N, N), fun q hq => ?_⟩
  rw [Real.dist_eq]
  have h3 : N ≤ q.2.2 := hq.2.2
  have := key q.1 hq.1 q.2.1 hq.2.1 (2 * q.2.2 - 1) (by omega)
  linarith

/-- **C127** (cylindrical). The same for a laser in `rt` geometry, for every continuous profile with any azimuthal dependence:
the duration converges to the root mean square duration of the intensity in the cylinder. -/
theorem C127_duration_rt (lo0 lo1 hi0 hi1 : ℝ) (h0 : lo0 < hi0) (h1 : lo1 < hi1) (p : ProfileObj)
    (hp : p.laserEnergy = none) (F : ℝ → ℝ → ℝ → ℂ) (hF : p.Pointwise F)
    (hcont : Continuous fun q : ℝ × ℝ × ℝ => F q.1 q.2.1 q.2.2)
    (total mean : ℝ) (htotal : total = ∫ r in lo0..hi0, ∫ t in lo1..hi1, ∫ θ in (0 : ℝ)..(2 * Real.pi),
      ‖F (r * Real.cos θ) (r * Real.sin θ) t‖ ^ 2 * r)
    (hmean : mean = (∫ r in lo0..hi0, ∫ t in lo1..hi1, ∫ θ in (0 : ℝ)..(2 * Real.pi),
      t * (‖F (r * Real.cos θ) (r * Real.sin θ) t‖ ^ 2 * r)) / total) (hnz : total ≠ 0) {ε : ℝ} (hε : 0 < ε) :
    ∃ N : ℕ, ∀ nr ≥ N, ∀ nt ≥ N, ∀ n ≥ N, ∃ (l : Laser ⟨2 * n - 1, nr, nt⟩) (D : ℝ),
      Laser.init "rt" [lo0, lo1] [hi0, hi1] [nr, nt] p (some n) none = .ok ⟨_, l⟩ ∧ (getDuration l.grid).1 = .ok D ∧
      |D - Real.sqrt ((∫ r in lo0..hi0, ∫ t in lo1..hi1, ∫ θ in (0 : ℝ)..(2 * Real.pi),
        (t - mean) ^ 2 * (‖F (r * Real.cos θ) (r * Real.sin θ) t‖ ^ 2 * r)) / total)| ≤ ε := by
  have hcp := Phys.c_pos
  have hI : Continuous fun q : ℝ × ℝ × ℝ =>
      ‖F (q.1 * Real.cos q.2.2) (q.1 * Real.sin q.2.2) q.2.1‖ ^ 2 * q.1 := by
    have hm : Continuous fun q : ℝ × ℝ × ℝ => (q.1 * Real.cos q.2.2, q.1 * Real.sin q.2.2, q.2.1) := by fun_prop
    exact ((hcont.comp hm).norm.pow 2).mul continuous_fst
  have ht : Continuous fun q : ℝ × ℝ × ℝ => q.2.1 := by fun_prop
  have ht2 : Continuous fun q : ℝ × ℝ × ℝ => (q.2.1 - mean) ^ 2 := by fun_prop
  have b0 := polar_tendsto h0.le h1.le (G := fun r t θ => ‖F (r * Real.cos θ) (r * Real.sin θ) t‖ ^ 2 * r) hI
  have b1 := polar_tendsto h0.le h1.le (G := fun r t θ => t * (‖F (r * Real.cos θ) (r * Real.sin θ) t‖ ^ 2 * r)) (ht.mul hI)
  have b2 := polar_tendsto h0.le h1.le
    (G := fun r t θ => (t - mean) ^ 2 * (‖F (r * Real.cos θ) (r * Real.sin θ) t‖ ^ 2 * r)) (ht2.mul hI)
  rw [← htotal] at b0
  have key := (rms_tendsto hnz b0 b1 b2).eventually (Metric.closedBall_mem_nhds _ hε)
  have hne := b0.eventually_ne hnz
  obtain ⟨⟨Na, Nb, Nc⟩, hN⟩ := Filter.eventually_atTop.1 (key.and hne)
  refine ⟨max (max Na 2) (max Nb Nc), fun nr hr nt hn n hn' => ?_⟩
  have hr' : Na ≤ nr ∧ 2 ≤ nr := by constructor <;> omega
  have ht' : Nb ≤ nt ∧ 2 ≤ nt := by constructor <;> omega
  have hn1 : Nc ≤ n ∧ 1 ≤ n := by constructor <;> omega
  obtain ⟨k1, k2⟩ := hN (nr, nt, n) ⟨hr'.1, ht'.1, hn1.1⟩
  simp only at k1 k2
  obtain ⟨l, hl, hh⟩ := Laser.init_rt lo0 lo1 hi0 hi1 nr nt n _ hr'.2 ht'.2 hn1.2 le_rfl p hp none rfl
  have hpts := init_rt_time hl
  let P : Fin nt → ℝ := fun k => ∑ i, ∑ j,
    ‖sampledRT p n (2 * n - 1) le_rfl hn1.2 (linspace lo0 hi0 nr) (linspace lo1 hi1 nt) i j k‖ ^ 2 * l.grid.cellVolume j
  have hsum : ∀ w : ℝ → ℝ, ∑ k, w (l.grid.t.pts k) * P k =
      c * linSum lo0 hi0 nr fun r => linSum lo1 hi1 nt fun t => leftSum 0 (2 * Real.pi) (2 * n - 1) fun θ =>
        w t * (‖F (r * Real.cos θ) (r * Real.sin θ) t‖ ^ 2 * r) := by
    intro w
    have e := sum_eq_polar lo0 lo1 hi0 hi1 nr nt (2 * n - 1) fun r θ t => w t * ‖F (r * Real.cos θ) (r * Real.sin θ) t‖ ^ 2
    simp only [mul_assoc (w _)] at e
    rw [← e]
    simp only [P]
    rw [Finset.sum_comm]
    refine Finset.sum_congr rfl fun k _ => ?_
    rw [Finset.sum_comm, Finset.mul_sum]
    refine Finset.sum_congr rfl fun j _ => ?_
    rw [← Finset.sum_mul, modes_parseval hn1.2 p F hF, init_rt_volume hl, hpts, ← Finset.mul_sum]
    ring
  have hP0 := hsum fun _ => 1
  have hP1 := hsum fun t => t
  have hP2 := hsum fun t => (t - mean) ^ 2
  simp only [one_mul] at hP0
  have hne' : ∑ k, P k ≠ 0 := by rw [hP0]; exact mul_ne_zero hcp.ne' k2
  obtain ⟨mean', hm', hD⟩ := C56_duration_is_rms hh P (fun _ => rfl) hne'
  refine ⟨l, _, hl, hD, ?_⟩
  rw [hm', variance_about _ _ mean hne', hP0, hP1, hP2, mul_div_mul_left _ _ hcp.ne', mul_div_mul_left _ _ hcp.ne']
  rw [← hmean, Real.dist_eq] at k1
  exact k1

/-- the premises of C126 and C127 are met by the pulse `E = x + iy` (one azimuthal mode) and by a constant pulse, whose duration
in a window of length 1 tends to `1/√12` -/
example : (∃ (p : ProfileObj) (F : ℝ → ℝ → ℝ → ℂ), p.laserEnergy = none ∧ p.dtype = .c128 ∧ p.Pointwise F ∧
      (Continuous fun q : ℝ × ℝ × ℝ => F q.1 q.2.1 q.2.2) ∧ F 1 0 0 ≠ F 0 1 0) ∧
    ∀ ε : ℝ, 0 < ε → ∃ N : ℕ, ∀ nx ≥ N, ∀ ny ≥ N, ∀ nt ≥ N, ∃ (l : Laser ⟨nx, ny, nt⟩) (D : ℝ),
      Laser.init "xyt" [0, 0, 0] [1, 1, 1] [nx, ny, nt] (constProfile none) none none = .ok ⟨_, l⟩ ∧
      (getDuration l.grid).1 = .ok D ∧ |D - Real.sqrt (1 / 12)| ≤ ε := by
  refine ⟨⟨{ constProfile none with evaluate := fun x y t i j k => (x i j k : ℂ) + I * (y i j k : ℝ) },
    fun x y _ => x + I * y, rfl, rfl, fun _ _ _ _ _ _ _ _ _ => rfl, by fun_prop, ?_⟩, fun ε hε => ?_⟩
  · simp [Complex.ext_iff]
  · have hm : ∫ t in (0 : ℝ)..1, t = 1 / 2 := by rw [integral_id]; norm_num
    have hv : ∫ t in (0 : ℝ)..1, (t - 1 / 2) ^ 2 = 1 / 12 := by
      rw [intervalIntegral.integral_comp_sub_right (fun t => t ^ 2) (1 / 2), integral_pow]; norm_num
    have h := C127_duration_xyt 0 0 0 1 1 1 one_pos one_pos one_pos (constProfile none) rfl rfl (fun _ _ _ => 1)
      (fun _ _ _ _ _ _ _ _ _ => rfl) continuousOn_const 1 (1 / 2) (by simp) (by simp [hm]) one_ne_zero none none hε
    simp only [norm_one, one_pow, mul_one, hv, intervalIntegral.integral_const, sub_zero, div_one, smul_eq_mul, one_mul] at h
    exact h

/-- C126_geometries_agree is not vacuous: a field that vanishes outside of the unit disc -/
example : ∃ (p : ProfileObj) (F : ℝ → ℝ → ℝ → ℂ), p.laserEnergy = none ∧ p.dtype = .c128 ∧ p.Pointwise F ∧
    (Continuous fun q : ℝ × ℝ × ℝ => F q.1 q.2.1 q.2.2) ∧ (∀ x y t : ℝ, (1 : ℝ) ^ 2 < x ^ 2 + y ^ 2 → F x y t = 0) ∧ F 0 0 0 = 1 := by
  refine ⟨{ constProfile none with evaluate := fun x y t i j k => ((max 0 (1 - (x i j k ^ 2 + y i j k ^ 2)) : ℝ) : ℂ) },
    fun x y _ => ((max 0 (1 - (x ^ 2 + y ^ 2)) : ℝ) : ℂ), rfl, rfl, fun _ _ _ _ _ _ _ _ _ => rfl, by fun_prop, ?_, ?_⟩
  · intro x y t h
    simp only
    rw [max_eq_left (by linarith)]
    simp
  · simp

end Lasy
