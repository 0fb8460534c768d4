import Verif.Props.FullFieldFine
import Verif.Props.Passive
import Verif.Props.Propagate2
import Verif.Props.Show
import Verif.Props.CentralFrequency
import Verif.Props.OpenPMDRead
import Verif.Props.ImportExport
import Verif.Props.Superposition
import Verif.Props.Restart
import Verif.Props.Optics
import Verif.Props.PeakModes

/-!
# Concrete cases that meet the hypotheses of theorems about lasers

Two lasers, one in each geometry, with a field that has no symmetry and vanishes nowhere; and examples that apply the
theorems to them. Each example names the theorems whose hypotheses it meets.
-/

namespace Lasy
open Spec Phys Complex

/-- a profile given by a formula -/
noncomputable def showcase (F : ℝ → ℝ → ℝ → ℂ) : ProfileObj :=
  { constProfile none with evaluate := fun x y t i j k => F (x i j k) (y i j k) (t i j k) }

theorem showcase_pointwise (F : ℝ → ℝ → ℝ → ℂ) : (showcase F).Pointwise F := fun _ _ _ _ _ _ _ _ _ => rfl

/-- a pulse without symmetry -/
noncomputable def crooked (x y t : ℝ) : ℂ := exp (x + 2 * t) * (2 + I * y + x ^ 2)

theorem crooked_ne (x y t : ℝ) : crooked x y t ≠ 0 := by
  unfold crooked
  refine mul_ne_zero (Complex.exp_ne_zero _) fun h => ?_
  have := congrArg Complex.re h
  rw [← Complex.ofReal_pow] at this
  simp only [Complex.add_re, Complex.mul_re, Complex.I_re, Complex.I_im, Complex.ofReal_re, Complex.ofReal_im, zero_mul, mul_zero,
    Complex.re_ofNat, Complex.zero_re, sub_zero, add_zero] at this
  nlinarith [sq_nonneg x]

/-- a profile with the azimuthal modes 0 and -1 -/
noncomputable def leaning (x y t : ℝ) : ℂ := (x : ℂ) + I * y + (1 + t : ℝ)

theorem leaning_band (r θ t : ℝ) : leaning (r * Real.cos θ) (r * Real.sin θ) t =
    ∑ m ∈ Finset.Ioo (-((2 : ℕ) : ℤ)) (2 : ℕ), (fun (m : ℤ) (r t : ℝ) =>
      if m = 0 then ((1 + t : ℝ) : ℂ) else if m = -1 then (r : ℂ) else 0) m r t * exp (-I * m * θ) := by
  have hset : Finset.Ioo (-((2 : ℕ) : ℤ)) (2 : ℕ) = {-1, 0, 1} := by decide
  rw [hset]
  simp only [Finset.mem_insert, Finset.mem_singleton, Finset.sum_insert, reduceCtorEq, or_self, not_false_eq_true, Int.reduceNeg,
    if_true, if_false, Int.cast_neg, Int.cast_one, leaning]
  norm_num
  rw [show I * (θ : ℂ) = θ * I by ring, Complex.exp_mul_I]
  ring

variable [Phys]

/-- everything that the theorems about a laser in Cartesian geometry assume about it -/
structure GoodXYT (l : Laser ⟨3, 5, 4⟩) (f : Field ⟨3, 5, 4⟩) : Prop where
  has : l.Has f
  values : ∀ i j k, f i j k = crooked (linspace (-1) 1 3 i) (linspace (-2) 2 5 j) (linspace 0 3 4 k)
  nowhere : ∀ i j k, f i j k ≠ 0
  ready : l.Ready
  cacheOK : l.CacheOK
  fresh : l.prop = .absent
  regular : l.grid.Regular
  geom : ∃ x y, l.grid.geom = .xyt x y ∧ x.lo = -1 ∧ x.hi = 1 ∧ y.lo = -2 ∧ y.hi = 2
  tlo : l.grid.t.lo = 0
  thi : l.grid.t.hi = 3
  positive : ∀ j, 0 < l.grid.cellVolume j
  volume : ∀ j, 0 ≤ l.grid.cellVolume j

theorem boxXYT : ∃ (l : Laser ⟨3, 5, 4⟩) (f : Field ⟨3, 5, 4⟩),
    Laser.init "xyt" [-1, -2, 0] [1, 2, 3] [3, 5, 4] (showcase crooked) none none = .ok ⟨_, l⟩ ∧ GoodXYT l f := by
  obtain ⟨l, hl, hf⟩ := C14_unscaled_xyt (-1) (-2) 0 1 2 3 3 5 4 (by norm_num) (by norm_num) (by norm_num) (showcase crooked) rfl rfl
    _ (showcase_pointwise crooked) none none
  obtain ⟨g, f0, hg, -, hgeo, ht, hp, -, hpr, -⟩ := Laser.init_facts hl
  have hr := Laser.ready_of_init hl
  have hvol : ∀ j, 0 < l.grid.cellVolume j := by
    intro j
    rw [(init_xyt_volume hl).1 j]
    have := c_pos
    norm_num
    exact this
  refine ⟨l, _, hl, hf, fun _ _ _ => rfl, fun _ _ _ => crooked_ne _ _ _, hr, hr.2, hpr, Laser.regular_of_init hl, ?_,
    (init_xyt_axes hl).2.1, (init_xyt_axes hl).2.2.1, hvol, fun j => (hvol j).le⟩
  · obtain ⟨-, -, -, -, hc⟩ := Grid.init_ok hg
    rcases hc with ⟨l0, l1, u0, u1, m', r, t, rest, e1, -⟩ |
      ⟨l0, l1, l2, u0, u1, u2, x, y, t, e1, e2, e3, e4, e5, e6, e7, e8, e9⟩
    · exact absurd e1 (by decide)
    simp only [List.cons.injEq, and_true] at e2 e3
    obtain ⟨rfl, rfl, rfl⟩ := e2
    obtain ⟨rfl, rfl, rfl⟩ := e3
    obtain ⟨_, hx⟩ := mkAxis_ok e5
    obtain ⟨_, hy⟩ := mkAxis_ok e6
    exact ⟨x, y, hgeo.trans e9, by rw [hx], by rw [hx], by rw [hy], by rw [hy]⟩

/-- everything that the theorems about a laser in `rt` geometry assume about it -/
structure GoodRT (l : Laser ⟨2 * 2 - 1, 4, 4⟩) (f : Field ⟨2 * 2 - 1, 4, 4⟩) : Prop where
  has : l.Has f
  mode0 : ∀ j k, f 0 j k = ((1 + linspace 0 3 4 k : ℝ) : ℂ)
  mode1 : ∀ j k, f 2 j k = (linspace 0 3 4 j : ℝ)
  nonzero : ∃ i j k, f i j k ≠ 0
  ready : l.Ready
  cacheOK : l.CacheOK
  fresh : l.prop = .absent
  regular : l.grid.Regular
  geom : ∃ (hn : 1 ≤ 2 ∧ 2 * 2 - 1 = 2 * 2 - 1) (r : Axis 4), l.grid.geom = .rt 2 hn r ∧ r.lo = 0 ∧ r.hi = 3
  tlo : l.grid.t.lo = 0
  thi : l.grid.t.hi = 3
  volume : ∀ j, 0 ≤ l.grid.cellVolume j

theorem boxRT : ∃ (l : Laser ⟨2 * 2 - 1, 4, 4⟩) (f : Field ⟨2 * 2 - 1, 4, 4⟩),
    Laser.init "rt" [0, 0] [3, 3] [4, 4] (showcase leaning) (some 2) none = .ok ⟨_, l⟩ ∧ GoodRT l f := by
  obtain ⟨l, f, hl, hf, hv⟩ := C12_azimuthal_exact 0 0 3 3 4 4 2 (by norm_num) (by norm_num) (by norm_num) none (by simp)
    (showcase leaning) rfl _ (showcase_pointwise leaning) _ leaning_band
  obtain ⟨g, f0, hg, -, hgeo, ht, hp, -, hpr, -⟩ := Laser.init_facts hl
  have hr := Laser.ready_of_init hl
  have hv0 : ∀ j k, f 0 j k = ((1 + linspace 0 3 4 k : ℝ) : ℂ) := fun j k => by
    rw [hv 0 0 (by norm_num) (by rfl)]
    simp
  have hv1 : ∀ j k, f 2 j k = (linspace 0 3 4 j : ℝ) := fun j k => by
    rw [hv (-1) 2 (by norm_num) (by rfl)]
    simp
  refine ⟨l, f, hl, hf, hv0, hv1, ⟨0, 0, 0, ?_⟩, hr, hr.2, hpr, Laser.regular_of_init hl, ?_, (init_rt_axes hl).2.1, (init_rt_axes hl).2.2.1, ?_⟩
  · rw [hv0]
    simp [linspace]
  · obtain ⟨-, -, -, -, hc⟩ := Grid.init_ok hg
    rcases hc with ⟨l0, l1, u0, u1, m', r, t, rest, e1, e2, e3, e4, e5, e6, e7, e8, hm, e9⟩ |
      ⟨l0, l1, l2, u0, u1, u2, x, y, t, e1, -⟩
    swap
    · exact absurd e1 (by decide)
    obtain rfl : 2 = m' := by simpa using e5
    simp only [List.cons.injEq, and_true] at e2 e3
    obtain ⟨rfl, rfl⟩ := e2
    obtain ⟨rfl, rfl⟩ := e3
    obtain ⟨_, hr⟩ := mkAxis_ok e6
    exact ⟨hm, r, hgeo.trans e9, by rw [hr], by rw [hr]⟩
  · intro j
    rw [init_rt_volume hl j]
    have := c_pos
    have hpi := Real.pi_pos
    have : 0 ≤ linspace 0 3 4 j := by simp only [linspace]; positivity
    positivity

/-! ## Optical elements and normalisation: C15, C16, C18–C21, C154, C155 -/

/-- C15, C16, C18: in both geometries -/
example : ∃ (l l1 l2 : Laser ⟨3, 5, 4⟩) (f f2 : Field ⟨3, 5, 4⟩), GoodXYT l f ∧
    Laser.normalize (some 7) "energy" l = (.ok (), l1) ∧ l1.energy = .ok 7 ∧
    Laser.normalize (some 3) "field" l = (.ok (), l2) ∧ l2.Has f2 ∧ IsGreatest {x | ∃ i j k, x = ‖f2 i j k‖} 3 ∧
    Laser.normalize (some 3) "power" l = (.error .value, l) := by
  obtain ⟨l, f, -, h⟩ := boxXYT
  obtain ⟨x, y, hg, -⟩ := h.geom
  obtain ⟨E0, hE0, hpos⟩ : ∃ E0, l.energy = .ok E0 ∧ 0 < E0 := by
    exact h.has.energy_pos h.volume 0 0 0 (h.positive 0) (h.nowhere 0 0 0)
  obtain ⟨l1, a, e1, -, -, hE, -⟩ := C15_normalize_energy l f h.has 7 E0 (by norm_num) hE0 hpos
  obtain ⟨l2, b, f2, e2, -, -, h2, hm⟩ := C16_normalize_field l f h.has 3 (by norm_num) ⟨0, 0, 0, h.nowhere 0 0 0⟩
  exact ⟨l, l1, l2, f, f2, h, e1, hE, e2, h2, hm, C18_unknown_kind l _ _ (by decide)⟩

/-- C16, C155: with two azimuthal modes -/
example : ∃ (l l' : Laser ⟨2 * 2 - 1, 4, 4⟩) (f f' : Field ⟨2 * 2 - 1, 4, 4⟩), GoodRT l f ∧
    Laser.normalize (some 3) "field" l = (.ok (), l') ∧ l'.Has f' ∧ ∀ θ j k, ‖fieldAtAngle f' θ j k‖ ≤ (2 * (2 : ℕ) - 1) * 3 := by
  obtain ⟨l, f, -, h⟩ := boxRT
  obtain ⟨l', f', e, h', hb, -⟩ := C155_bounds_partial (n := 2) (by norm_num) l f h.has 3 (by norm_num) h.nonzero
  exact ⟨l, l', f, f', h, e, h', hb⟩

/-- C19, C20, C21, C154: a mirror, an axiparabola that clips, a spectral phase and its inverse, an attenuator -/
example : ∃ (l : Laser ⟨3, 5, 4⟩) (f : Field ⟨3, 5, 4⟩) (l1 l2 l3 l4 l5 : Laser ⟨3, 5, 4⟩) (E E2 E5 : ℝ), GoodXYT l f ∧
    l.energy = .ok E ∧
    Laser.applyOptics (parabolicMirror 2) l = (.ok (), l1) ∧ l1.energy = l.energy ∧
    Laser.applyOptics (axiparabola 2 1 (3 / 2)) l = (.ok (), l2) ∧ l2.energy = .ok E2 ∧ E2 ≤ E ∧
    Laser.applyOptics (polynomialSpectralPhase 1 2 3) l = (.ok (), l3) ∧
    Laser.applyOptics (polynomialSpectralPhase (-1) (-2) (-3)) l3 = (.ok (), l4) ∧ l4.Has f ∧
    Laser.applyOptics ⟨fun _ _ _ _ => 1 / 2⟩ l = (.ok (), l5) ∧ l5.energy = .ok E5 ∧ E5 ≤ (1 / 2) ^ 2 * E := by
  obtain ⟨l, f, -, h⟩ := boxXYT
  obtain ⟨l5, E, E5, e5, hE, hE5, hle⟩ := C154_gain l f h.has ⟨fun _ _ _ _ => 1 / 2⟩ (M := 1 / 2) (fun _ _ _ _ => by norm_num) h.volume
  obtain ⟨l1, e1, h1⟩ := C20_pure_phase l f h.has (parabolicMirror 2) fun x y w _ =>
    norm_exp_I_mul (-w * (x ^ 2 + y ^ 2) / (2 * c * (2 : ℝ))) _ (by push_cast; ring)
  obtain ⟨l2, E2, e2, hE2, hle2, -⟩ := C20_axiparabola l f h.has 2 1 (3 / 2) E hE h.volume
  obtain ⟨l3, l4, e3, e4, h4⟩ := C21_spectral_phase_undone l f h.has 1 2 3
  exact ⟨l, f, l1, l2, l3, l4, l5, E, E2, E5, h, hE, e1, h1, e2, hE2, hle2, e3, e4, h4, e5, hE5, hle⟩

/-! ## Propagation: C24–C32, C67 -/

/-- C24, C25, C27, C28: there and partly back with the angular-spectrum propagator, Cartesian geometry -/
example : ∃ (l l' : Laser ⟨3, 5, 4⟩) (f : Field ⟨3, 5, 4⟩), GoodXYT l f ∧
    propagateAll Axiprop.freeSpace [⟨3, none, none, "NP"⟩, ⟨-1, none, none, "CU"⟩] ⟨_, l⟩ = (.ok (), ⟨_, l'⟩) ∧
    l'.energy = l.energy ∧ l'.grid.t.lo = (3 + (-1 + 0)) / c := by
  obtain ⟨l, f, -, h⟩ := boxXYT
  obtain ⟨l', e, hE⟩ := C27_energy Axiprop.freeSpace Axiprop.freeSpace_unitary [⟨3, none, none, "NP"⟩, ⟨-1, none, none, "CU"⟩] l
    h.ready (by simp)
  have ht := (C24_time_window Axiprop.freeSpace _ ⟨_, l⟩ ⟨_, l'⟩ h.ready (fun a ha g hg => by
    simp only [List.mem_cons, List.not_mem_nil, or_false] at ha
    rcases ha with rfl | rfl <;> cases hg) e).1
  refine ⟨l, l', f, h, e, hE, ?_⟩
  rw [ht, h.tlo]
  simp [totalDistance]

/-- C25 -/
example : Axiprop.freeSpace.Additive ∧ ∃ (l : Laser ⟨3, 5, 4⟩) (f : Field ⟨3, 5, 4⟩), GoodXYT l f :=
  ⟨Axiprop.freeSpace_additive, by obtain ⟨l, f, -, h⟩ := boxXYT; exact ⟨l, f, h⟩⟩

/-- C26: the `rt` propagator of `freeSpace` treats every sample as a plane wave -/
example : ∃ (l l' : Laser ⟨2 * 2 - 1, 4, 4⟩) (f : Field ⟨2 * 2 - 1, 4, 4⟩), GoodRT l f ∧
    Laser.propagate Axiprop.freeSpace 5 none none "NP" ⟨_, l⟩ = (.ok (), ⟨_, l'⟩) ∧
    l'.Has (fun i j k => f i j k * exp (I * l.profile.omega0 * (5 : ℝ) / c)) := by
  obtain ⟨l, f, -, h⟩ := boxRT
  obtain ⟨hn, r, hg, -⟩ := h.geom
  obtain ⟨l', e, h'⟩ := C26_plane_wave Axiprop.freeSpace l f h.has h.cacheOK 5 "NP" (fun b0 => by
    funext i j k
    simp only [Laser.stepped, hg, Axiprop.freeSpace]
    push_cast
    ring_nf)
  exact ⟨l, l', f, h, e, h'⟩

/-- C29, C30: an absorbing layer of one cell; C30 and C32: one that does not fit is refused and leaves the laser as it was -/
example : ∃ (l l1 l2 l3 : Laser ⟨3, 5, 4⟩) (f : Field ⟨3, 5, 4⟩) (E E1 : ℝ), GoodXYT l f ∧
    Laser.propagate Axiprop.freeSpace 1 (some 1) none "NP" ⟨_, l⟩ = (.ok (), ⟨_, l1⟩) ∧ l.energy = .ok E ∧ l1.energy = .ok E1 ∧
    E1 ≤ E ∧ Laser.propagate Axiprop.freeSpace 1 (some 9) none "NP" ⟨_, l⟩ = (.error .value, ⟨_, l2⟩) ∧ l2.Has f ∧
    Laser.propagate Axiprop.freeSpace 1 none none "NP" ⟨_, l⟩ = (.ok (), ⟨_, l3⟩) ∧
    l3.Has (l.propagated Axiprop.freeSpace "NP" 1 f) := by
  obtain ⟨l, f, -, h⟩ := boxXYT
  obtain ⟨x, y, hg, -⟩ := h.geom
  have hfit : LayerFits l.grid.geom.dim ⟨3, 5, 4⟩ 1 := by rw [hg]; exact ⟨by decide, by decide⟩
  have hno : ¬ LayerFits l.grid.geom.dim ⟨3, 5, 4⟩ 9 := by rw [hg]; exact fun h => absurd h.1 (by decide)
  obtain ⟨l1, E, E1, e1, hE, hE1, hle⟩ := C30_energy Axiprop.freeSpace Axiprop.freeSpace_unitary l f h.has h.cacheOK 1 "NP" 1 (by norm_num)
    hfit h.volume
  obtain ⟨l2, e, e2, he, -⟩ := C30_rejected Axiprop.freeSpace l f h.has 1 "NP" 9 (.inr hno)
  rw [if_neg (by norm_num)] at he
  subst he
  have h2 := (C32_failure_partial Axiprop.freeSpace l l2 f h.has h.cacheOK 1 _ "NP" _ e2).1
  obtain ⟨l3, e3, h3⟩ := C29_backend_partial Axiprop.freeSpace l f h.has h.fresh 1 "NP"
  exact ⟨l, l1, l2, l3, f, E, E1, h, e1, hE, hE1, hle, e2, h2, e3, h3⟩

/-- C31, C67: on to a grid with half the radius, the same modes and the same times; C32: a layer that does not fit there -/
example : ∃ (l l'' : Laser ⟨2 * 2 - 1, 4, 4⟩) (f : Field ⟨2 * 2 - 1, 4, 4⟩) (g' : Σ s, Grid s) (L' : Laser g'.1), GoodRT l f ∧
    g'.1.nt = 4 ∧ g'.1.n1 = 6 ∧
    Laser.propagate Axiprop.freeSpace 2 none (some g') "NP" ⟨_, l⟩ = (.ok (), ⟨_, L'⟩) ∧ L'.grid.t.lo = 2 / c ∧
    Laser.propagate Axiprop.freeSpace 2 (some 9) (some g') "NP" ⟨_, l⟩ = (.error .value, ⟨_, l''⟩) ∧ l''.Has f := by
  obtain ⟨l, f, -, h⟩ := boxRT
  obtain ⟨hn, r, hg, -⟩ := h.geom
  obtain ⟨g', hg'⟩ := Grid.init_rt 0 0 (3 / 2) 3 6 4 2 (by norm_num) (by norm_num) (by norm_num) true
  have hh := Grid.init_holds hg'
  obtain ⟨n', hn', r', hgeo'⟩ : ∃ n' hn' r', g'.geom = .rt n' hn' r' := by
    obtain ⟨-, -, -, -, hc⟩ := Grid.init_ok hg'
    rcases hc with ⟨l0, l1, u0, u1, m', r, t, rest, e1, e2, e3, e4, e5, e6, e7, e8, hm, e9⟩ | ⟨l0, l1, l2, u0, u1, u2, x, y, t, e1, -⟩
    · exact ⟨_, _, _, e9⟩
    · exact absurd e1 (by decide)
  obtain ⟨L', e, -, hlo, -⟩ := C31_resampled_partial Axiprop.freeSpace l f h.has 2 "NP" g' hh hg hgeo' rfl le_rfl
  have hno : ¬ LayerFits l.grid.geom.dim ⟨2 * 2 - 1, 4, 4⟩ 9 := by rw [hg]; simp only [LayerFits, Geom.dim]; norm_num
  have hl : l.layerOf (some 9) = .error .value := by
    simp only [Laser.layerOf, Laser.layer]
    rw [hg] at hno
    simp only [LayerFits, Geom.dim] at hno
    simp [hg]
  obtain ⟨l'', e'', h'', -⟩ := C32_failure_layer_partial Axiprop.freeSpace l f h.has 2 (some 9) "NP" ⟨_, g'⟩ hl
  refine ⟨l, l'', f, ⟨_, g'⟩, L', h, rfl, rfl, e, ?_, e'', h''⟩
  rw [hlo, h.tlo, zero_add]

/-! ## Showing, writing and reading: C34, C36, C57, C69, C75, C98, C101 -/

/-- C34, C36, C101 -/
example (a : WriteArgs) (hv : a.asVectorPotential = false) (ha : a.fault = .ok) (disk : Disk) :
    ∃ (l l' l2 : Laser ⟨3, 5, 4⟩) (f : Field ⟨3, 5, 4⟩) (disk' : Disk) (img : Image) (F : NdArray) (md : FieldMeta), GoodXYT l f ∧
      writeToFile a (l, disk) = (.ok (), (l', disk')) ∧ l'.Has f ∧ l.show = (.ok img, l2) ∧ img.rows = 3 ∧ img.cols = 4 ∧
      viewXYT (mkMesh l.grid 1 (1, 0) false ⟨.c128, f⟩) = some (F, md) := by
  obtain ⟨l, f, -, h⟩ := boxXYT
  obtain ⟨x, y, hg, h1, h2, h3, h4⟩ := h.geom
  obtain ⟨l', disk', m, e, h', -⟩ := C34_xyt a l f h.has h.regular disk hv ha hg
  obtain ⟨l2, img, e2, -, -, hr, hc, -⟩ := C101_xyt l f h.has h.regular hg ⟨by decide, by decide⟩ ⟨by rw [h1, h2]; norm_num, by rw [h3, h4]; norm_num⟩
  obtain ⟨F, md, e3, -⟩ := C36_reorder_xyt l.grid h.regular 1 (1, 0) false f hg
  exact ⟨l, l', l2, f, disk', img, F, md, h, e, h', e2, hr, hc, e3⟩

/-- C34, C57, C69, C98, C101 -/
example (a : WriteArgs) (hv : a.asVectorPotential = false) (ha : a.fault = .ok) (disk : Disk) :
    ∃ (l l' l2 l3 : Laser ⟨2 * 2 - 1, 4, 4⟩) (f : Field ⟨2 * 2 - 1, 4, 4⟩) (disk' : Disk) (img img3 : Image) (F : NdArray) (md : FieldMeta),
      GoodRT l f ∧ writeToFile a (l, disk) = (.ok (), (l', disk')) ∧ l'.Has f ∧ l.show = (.ok img, l2) ∧ img.rows = 8 ∧
      getFullField 1 0 "x" none l = (.ok (some img3), l3) ∧ img3.rows = 7 ∧
      viewRT (mkMesh l.grid 1 (1, 0) false ⟨.c128, f⟩) 1 = some (F, md) := by
  obtain ⟨l, f, -, h⟩ := boxRT
  obtain ⟨hn, r, hg, h1, h2⟩ := h.geom
  obtain ⟨l', disk', m, e, h', -⟩ := C34_rt a l f h.has h.regular disk hv ha hg
  obtain ⟨l2, img, e2, -, -, hr, -⟩ := C101_rt l f h.has h.regular hg (by decide)
  obtain ⟨l3, img3, e3, hr3, -⟩ := C98_labels_partial l f h.has h.regular hg h1 (by decide) 1 0 "x"
  obtain ⟨F, md, b, e4, -⟩ := C69_mean_partial l.grid h.regular 1 (1, 0) false f hg 1
  exact ⟨l, l', l2, l3, f, disk', img, img3, F, md, h, e, h', e2, hr, e3, hr3, e4⟩

end Lasy
