import Verif.Props.Aperture
import Verif.Props.OpenPMD
import Verif.Props.FromData

/-!
# Property C158: the normalised vector potential of a pulse without chirp
-/

namespace Lasy
open Spec Phys Complex

/-- the phase of the envelope does not change in time, in any transverse cell (it may differ from cell to cell, and whole
cells may be zero) -/
def Unchirped {s : Shape} (f : Field s) : Prop :=
  ∀ i j, ∃ (z : ℂ) (A : Fin s.nt → ℝ), (∀ k, 0 < A k) ∧ ∀ k, f i j k = A k * z

theorem Unchirped.scale {s : Shape} {f : Field s} (h : Unchirped f) (a : ℂ) : Unchirped fun i j k => f i j k * a := by
  intro i j
  obtain ⟨z, A, hA, hf⟩ := h i j
  exact ⟨z * a, A, hA, fun k => by simp only [hf]; ring⟩

/-- without chirp the local frequency is that of the carrier -/
theorem Unchirped.localFrequency {s : Shape} {f : Field s} (h : Unchirped f) (hn : 3 ≤ s.nt) {t : Fin s.nt → ℝ}
    (ht : Increasing t) (w0 : ℝ) : LocalFrequency w0 t f fun _ _ _ => w0 := by
  intro i j
  obtain ⟨z, A, hA, hf⟩ := h i j
  have ha : (fun k => angle (f i j k)) = fun _ => angle z := by
    funext k
    rw [hf]
    exact Complex.arg_real_mul z (hA k)
  rw [ha, unwrap_id _ (by intro k hk; simp [Real.pi_pos])]
  have := gradient_affine t hn ht 0 (-angle z)
  simpa using this

variable [Phys] {s : Shape}

/-- **C158.** The normalised vector potential of a pulse without chirp is `-i e E / (m_e omega_0 c)`, for every such field
(with phase fronts of any shape) and on every grid; the laser keeps its field. -/
theorem C158_unchirped (l : Laser s) (f : Field s) (hf : l.Has f) (hu : Unchirped f) (hne : ∃ i j k, f i j k ≠ 0)
    (hn : 3 ≤ s.nt) (ht : Increasing l.grid.t.pts) (w0 : ℝ) (hw : 0 < w0) :
    ∃ g', fieldToVectorPotential w0 l.grid = (.ok fun i j k => -I * e * f i j k / (me * w0 * c), g') ∧ g'.Holds (some f) :=
  fieldToVectorPotential_ok hf (hu.localFrequency hn ht w0) (B := w0) (fun _ _ _ => ⟨le_rfl, by linarith⟩) hne

/-- **C158.** The same for a file written with `save_as_vector_potential=True` from a Cartesian laser. -/
theorem C158_file (a : WriteArgs) (l : Laser s) (f : Field s) (hf : l.Has f) (hu : Unchirped f) (hne : ∃ i j k, f i j k ≠ 0)
    (hn : 3 ≤ s.nt) (ht : Increasing l.grid.t.pts) (hl : 0 < l.profile.lambda0) (disk : Disk)
    (hv : a.asVectorPotential = true) (ha : a.fault = .ok) {x y} (hgeo : l.grid.geom = .xyt x y) :
    ∃ l' disk' m, writeToFile a (l, disk) = (.ok (), (l', disk')) ∧ l'.Has f ∧
      disk' (filePath a.dir a.pre a.fmt l.outputIteration) = some m ∧ m.envelopeField = "normalized_vector_potential" ∧
      ∀ (i : Fin s.n0) (j : Fin s.n1) (k : Fin s.nt),
        m.data.get [k, j, i] = -I * e * f i j k / (me * (2 * Real.pi * c / l.profile.lambda0 : ℝ) * c) := by
  have hcp := Phys.c_pos
  have hpi := Real.pi_pos
  set w0 := 2 * Real.pi * c / l.profile.lambda0 with hw0
  have hw : 0 < w0 := by positivity
  obtain ⟨g', e1, h1⟩ := writeToFile_potential a l f hf disk hv ha (v := fun i j k => -I * e * f i j k / (me * w0 * c)) (by
    intro g hg hgg hgt
    have hlf : LocalFrequency w0 g.t.pts f fun _ _ _ => w0 := by
      rw [hgt]
      exact hu.localFrequency hn ht w0
    obtain ⟨g1, v, e1, h1, hg1, ht1⟩ := hlf.freq hg (B := w0) (fun _ _ _ => ⟨le_rfl, by linarith⟩) hne
    obtain ⟨g2, e2, h2, hg2, ht2⟩ := h1.getT
    refine ⟨g2, ?_, h2, by rw [hg2, hg1, hgg], by rw [ht2, ht1, hgt]⟩
    unfold fieldToVectorPotential
    rw [Py.bind_ok (Py.get_apply g), Py.bind_ok (Py.require_pos hg.env g), Py.bind_ok e1]
    simp only
    rw [Py.bind_ok e2]
    rfl)
  refine ⟨_, _, _, e1, h1, Function.update_self .., by simp [mkMesh, hgeo], fun i j k => ?_⟩
  simp [mkMesh, hgeo, dataXYT, Arr.toNd]

/-! ## Gaussian pulses of given energy -/

/-- a new Cartesian laser of energy `E` made from a profile without zeros holds a multiple of the profile -/
theorem scaled_xyt (lo0 lo1 lo2 hi0 hi1 hi2 : ℝ) (nx ny nt : ℕ) (a0 : lo0 < hi0) (a1 : lo1 < hi1) (a2 : lo2 < hi2) (h0 : 2 ≤ nx)
    (h1 : 2 ≤ ny) (h2 : 2 ≤ nt) (p : ProfileObj) (E : ℝ) (hE : 0 < E) (hp : p.laserEnergy = some (some E)) (hd : p.dtype = .c128)
    (F : ℝ → ℝ → ℝ → ℂ) (hF : p.Pointwise F) (hz : ∀ x y t, F x y t ≠ 0) (m nT : Option ℕ) :
    ∃ (l : Laser ⟨nx, ny, nt⟩) (κ : ℝ), 0 < κ ∧
      Laser.init "xyt" [lo0, lo1, lo2] [hi0, hi1, hi2] [nx, ny, nt] p m nT = .ok ⟨_, l⟩ ∧
      l.Has (fun i j k => F (linspace lo0 hi0 nx i) (linspace lo1 hi1 ny j) (linspace lo2 hi2 nt k) * (κ : ℂ)) := by
  have hcp := Phys.c_pos
  obtain ⟨l0, hl0, hh⟩ := C14_unscaled_xyt lo0 lo1 lo2 hi0 hi1 hi2 nx ny nt h0 h1 h2 { p with laserEnergy := none } rfl hd F hF m nT
  have hvol : ∀ j, 0 < l0.grid.cellVolume j := by
    intro j
    rw [(init_xyt_volume hl0).1]
    have n0 : (2 : ℝ) ≤ nx := by exact_mod_cast h0
    have n1 : (2 : ℝ) ≤ ny := by exact_mod_cast h1
    have n2 : (2 : ℝ) ≤ nt := by exact_mod_cast h2
    have b0 : 0 < (hi0 - lo0) / ((nx : ℝ) - 1) := div_pos (by linarith) (by linarith)
    have b1 : 0 < (hi1 - lo1) / ((ny : ℝ) - 1) := div_pos (by linarith) (by linarith)
    have b2 : 0 < (hi2 - lo2) / ((nt : ℝ) - 1) := div_pos (by linarith) (by linarith)
    positivity
  obtain ⟨E0, hE0, hE0p⟩ := hh.energy_pos (fun j => (hvol j).le) (⟨0, by omega⟩ : Fin nx) (⟨0, by omega⟩ : Fin ny) (⟨0, by omega⟩ : Fin nt) (hvol _) (hz _ _ _)
  obtain ⟨l, hl, -, hf⟩ := scaled_field p m nT E hE.le hp l0 _ hh E0 hE0 hE0p hl0
  exact ⟨l, _, Real.sqrt_pos.2 (div_pos hE hE0p), hl, hf⟩

/-- the same for a round profile on a cylindrical grid -/
theorem scaled_rt (R lo1 hi1 : ℝ) (nr nt n : ℕ) (hR : 0 < R) (a1 : lo1 < hi1) (h0 : 2 ≤ nr) (h1 : 2 ≤ nt) (hn : 1 ≤ n)
    (p : ProfileObj) (E : ℝ) (hE : 0 < E) (hp : p.laserEnergy = some (some E)) (G : ℝ → ℝ → ℂ)
    (hF : p.Pointwise fun x y t => G (Real.sqrt (x ^ 2 + y ^ 2)) t) (hz : ∀ r t, G r t ≠ 0) :
    ∃ (l : Laser ⟨2 * n - 1, nr, nt⟩) (κ : ℝ), 0 < κ ∧ Laser.init "rt" [0, lo1] [R, hi1] [nr, nt] p (some n) none = .ok ⟨_, l⟩ ∧
      l.Has (fun i j k => (if (i : ℕ) = 0 then G (linspace 0 R nr j) (linspace lo1 hi1 nt k) else 0) * (κ : ℂ)) := by
  have hcp := Phys.c_pos
  have hpi := Real.pi_pos
  obtain ⟨l0, f0, hl0, hh, hval, -⟩ := round_unscaled R lo1 hi1 hR.le nr nt n h0 h1 hn { p with laserEnergy := none } rfl G hF
  have n0 : (2 : ℝ) ≤ nr := by exact_mod_cast h0
  have n1 : (2 : ℝ) ≤ nt := by exact_mod_cast h1
  have b0 : 0 < (R - 0) / ((nr : ℝ) - 1) := div_pos (by linarith) (by linarith)
  have b1 : 0 < (hi1 - lo1) / ((nt : ℝ) - 1) := div_pos (by linarith) (by linarith)
  have hvol : ∀ j, 0 ≤ l0.grid.cellVolume j := by
    intro j
    rw [init_rt_volume hl0]
    have := (linspace_mem hR.le j).1
    positivity
  have hv1 : 0 < l0.grid.cellVolume (⟨1, by omega⟩ : Fin nr) := by
    rw [init_rt_volume hl0]
    have : 0 < linspace 0 R nr ⟨1, by omega⟩ := by
      have := ascending_linspace hR h0 _ _ (show (⟨0, by omega⟩ : Fin nr) < ⟨1, by omega⟩ by simp [Fin.lt_def])
      exact lt_of_le_of_lt (linspace_mem hR.le _).1 this
    positivity
  obtain ⟨E0, hE0, hE0p⟩ := hh.energy_pos hvol (⟨0, by omega⟩ : Fin (2 * n - 1)) (⟨1, by omega⟩ : Fin nr) (⟨0, by omega⟩ : Fin nt) hv1 (by rw [hval]; simp [hz])
  obtain ⟨l, hl, -, hf⟩ := scaled_field p (some n) none E hE.le hp l0 _ hh E0 hE0 hE0p hl0
  refine ⟨l, _, Real.sqrt_pos.2 (div_pos hE hE0p), hl, ?_⟩
  convert hf using 4
  rw [hval]

omit [Phys] in
theorem gaussianTrans_ne (w0 ζ x y : ℝ) : gaussianTrans w0 ζ x y ≠ 0 := by
  unfold gaussianTrans
  refine div_ne_zero (exp_ne_zero _) ?_
  unfold diffractFactor
  intro h
  have := congrArg Complex.re h
  simp at this

theorem gaussianLong_polar (wavelength tau tPeak cep t : ℝ) : gaussianLong wavelength tau tPeak cep t =
    (Real.exp (-((t - tPeak) ^ 2 / tau ^ 2)) : ℝ) * exp (I * ((cep + longOmega0 wavelength * tPeak : ℝ) : ℂ)) := by
  unfold gaussianLong
  rw [Complex.exp_add]
  push_cast
  rfl

/-- from the modulus of the field to that of the vector potential -/
theorem potential_close {omega0 A a0 b d q ε : ℝ} (hom : 0 < omega0) (ha0 : a0 = e * A / (me * omega0 * c)) {z : ℂ}
    (h : |‖z‖ - A * b * d * q| ≤ ε * (me * omega0 * c / e)) :
    |‖-I * e * z / (me * omega0 * c)‖ - a0 * b * d * q| ≤ ε := by
  have hcp := Phys.c_pos
  have hep := e_pos
  have hmp := me_pos
  have hk : 0 < e / (me * omega0 * c) := by positivity
  have hn : ‖-I * e * z / (me * omega0 * c)‖ = e / (me * omega0 * c) * ‖z‖ := by
    simp only [norm_div, norm_mul, norm_neg, Complex.norm_I, one_mul, Complex.norm_real, Real.norm_of_nonneg hep.le,
      Real.norm_of_nonneg hmp.le, Real.norm_of_nonneg hom.le, Real.norm_of_nonneg hcp.le]
    ring
  rw [hn, ha0, show e / (me * omega0 * c) * ‖z‖ - e * A / (me * omega0 * c) * b * d * q =
    e / (me * omega0 * c) * (‖z‖ - A * b * d * q) by ring,
    abs_mul, abs_of_pos hk]
  calc _ ≤ e / (me * omega0 * c) * (ε * (me * omega0 * c / e)) := mul_le_mul_of_nonneg_left h hk.le
    _ = ε := by field_simp

/-- **C158.** A laser made from `GaussianProfile` with energy `E > 0` has, in large boxes and on fine Cartesian grids, the
textbook vector potential `a_0 (w_0/w) e^{-(x^2+y^2)/w^2} e^{-(t-t_peak)^2/tau^2}` with `a_0 = e A / (m_e omega_0 c)` and
`A` the peak field at the focus. -/
theorem C158_gaussian_xyt (wavelength : ℝ) (hwl : 0 < wavelength) (px py : ℂ) (E : ℝ) (hE : 0 < E) (w0 tau : ℝ) (hw : 0 < w0)
    (htau : 0 < tau) (tPeak cep zFoc : ℝ) {p : ProfileObj}
    (hp : gaussianProfile wavelength [px, py] (some E) w0 tau tPeak cep zFoc = .ok p)
    (A a0 omega0 w : ℝ) (hA : 0 ≤ A) (hA2 : eps0 * c / 2 * A ^ 2 * (Real.pi * w0 ^ 2 / 2) * (tau * Real.sqrt (Real.pi / 2)) = E)
    (homega : omega0 = 2 * Real.pi * c / wavelength) (ha0 : a0 = e * A / (me * omega0 * c))
    (hww : w = w0 * Real.sqrt (1 + (zFoc / (Real.pi * w0 ^ 2 / wavelength)) ^ 2)) (m nT : Option ℕ) {ε : ℝ} (hε : 0 < ε) :
    ∃ L : ℝ, 0 < L ∧ ∀ lo0 lo1 lo2 hi0 hi1 hi2 : ℝ, lo0 ≤ -L → lo1 ≤ -L → lo2 ≤ -L → L ≤ hi0 → L ≤ hi1 → L ≤ hi2 →
      ∃ N : ℕ, ∀ nx ≥ N, ∀ ny ≥ N, ∀ nt ≥ N, ∃ (l : Laser ⟨nx, ny, nt⟩) (a : Field ⟨nx, ny, nt⟩) (g' : Grid ⟨nx, ny, nt⟩),
        Laser.init "xyt" [lo0, lo1, lo2] [hi0, hi1, hi2] [nx, ny, nt] p m nT = .ok ⟨_, l⟩ ∧
        fieldToVectorPotential omega0 l.grid = (.ok a, g') ∧
        ∀ i j k, |‖a i j k‖ - a0 * (w0 / w) * Real.exp (-((linspace lo0 hi0 nx i) ^ 2 + (linspace lo1 hi1 ny j) ^ 2) / w ^ 2) *
          Real.exp (-(linspace lo2 hi2 nt k - tPeak) ^ 2 / tau ^ 2)| ≤ ε := by
  have hcp := Phys.c_pos
  have hpi := Real.pi_pos
  have hep := e_pos
  have hmp := me_pos
  have hom : 0 < omega0 := by rw [homega]; positivity
  obtain ⟨hpe, hdt, ζ, hww', hpt⟩ := gauss_profile hwl.ne' hp hw hww
  obtain ⟨L, hL, key⟩ := C133_gaussian_xyt wavelength hwl.ne' px py E hE.le w0 tau hw htau tPeak cep zFoc hp A w hA hA2 hww m nT
    (ε := ε * (me * omega0 * c / e)) (by positivity)
  refine ⟨L, hL, fun lo0 lo1 lo2 hi0 hi1 hi2 a1 a2 a3 b1 b2 b3 => ?_⟩
  obtain ⟨N, key⟩ := key lo0 lo1 lo2 hi0 hi1 hi2 a1 a2 a3 b1 b2 b3
  refine ⟨max N 3, fun nx hx ny hy nt ht => ?_⟩
  have hx3 : 3 ≤ nx := le_trans (le_max_right _ _) hx
  have hy3 : 3 ≤ ny := le_trans (le_max_right _ _) hy
  have ht3 : 3 ≤ nt := le_trans (le_max_right _ _) ht
  obtain ⟨l, f, hl, hf, -, hb⟩ := key nx (le_trans (le_max_left _ _) hx) ny (le_trans (le_max_left _ _) hy) nt
    (le_trans (le_max_left _ _) ht)
  obtain ⟨l1, κ, hκ, hl1, hf1⟩ := scaled_xyt lo0 lo1 lo2 hi0 hi1 hi2 nx ny nt (by linarith) (by linarith) (by linarith) (by omega)
    (by omega) (by omega) p E hE hpe hdt _ hpt (fun x y t => mul_ne_zero (gaussianTrans_ne _ _ _ _) (by
      unfold gaussianLong; exact exp_ne_zero _)) m nT
  have hll : l = l1 := by
    rw [hl] at hl1
    simpa using hl1
  subst hll
  have hff := Grid.Holds.unique hf hf1
  have hu : Unchirped f := by
    rw [hff]
    refine Unchirped.scale (s := ⟨nx, ny, nt⟩) (fun i j => ⟨gaussianTrans w0 ζ (linspace lo0 hi0 nx i) (linspace lo1 hi1 ny j) *
      exp (I * ((cep + longOmega0 wavelength * tPeak : ℝ) : ℂ)), fun k => Real.exp (-((linspace lo2 hi2 nt k - tPeak) ^ 2 / tau ^ 2)),
      fun k => Real.exp_pos _, fun k => ?_⟩) _
    rw [gaussianLong_polar]
    ring
  have hne : ∃ i j k, f i j k ≠ 0 := by
    refine ⟨(⟨0, by omega⟩ : Fin nx), (⟨0, by omega⟩ : Fin ny), (⟨0, by omega⟩ : Fin nt), ?_⟩
    rw [hff]
    refine mul_ne_zero (mul_ne_zero (gaussianTrans_ne _ _ _ _) (by unfold gaussianLong; exact exp_ne_zero _)) ?_
    exact_mod_cast hκ.ne'
  have hinc : Increasing l.grid.t.pts := by
    rw [(init_xyt_volume hl).2]
    intro k hk
    exact ascending_linspace (show lo2 < hi2 by linarith) (by omega) _ _ (by simp [Fin.lt_def])
  obtain ⟨g', e1, -⟩ := C158_unchirped l f hf hu hne ht3 hinc omega0 hom
  refine ⟨l, _, g', hl, e1, fun i j k => ?_⟩
  exact potential_close hom ha0 (hb i j k)

/-- **C158.** The same on cylindrical grids, for any number of azimuthal modes: mode 0 holds the textbook vector potential,
the others are zero. -/
theorem C158_gaussian_rt (wavelength : ℝ) (hwl : 0 < wavelength) (px py : ℂ) (E : ℝ) (hE : 0 < E) (w0 tau : ℝ) (hw : 0 < w0)
    (htau : 0 < tau) (tPeak cep zFoc : ℝ) {p : ProfileObj}
    (hp : gaussianProfile wavelength [px, py] (some E) w0 tau tPeak cep zFoc = .ok p)
    (A a0 omega0 w : ℝ) (hA : 0 ≤ A) (hA2 : eps0 * c / 2 * A ^ 2 * (Real.pi * w0 ^ 2 / 2) * (tau * Real.sqrt (Real.pi / 2)) = E)
    (homega : omega0 = 2 * Real.pi * c / wavelength) (ha0 : a0 = e * A / (me * omega0 * c))
    (hww : w = w0 * Real.sqrt (1 + (zFoc / (Real.pi * w0 ^ 2 / wavelength)) ^ 2)) {ε : ℝ} (hε : 0 < ε) :
    ∃ L : ℝ, 0 < L ∧ ∀ R lo1 hi1 : ℝ, L ≤ R → lo1 ≤ -L → L ≤ hi1 →
      ∃ N : ℕ, ∀ nr ≥ N, ∀ nt ≥ N, ∀ n ≥ 1, ∃ (l : Laser ⟨2 * n - 1, nr, nt⟩) (a : Field ⟨2 * n - 1, nr, nt⟩)
        (g' : Grid ⟨2 * n - 1, nr, nt⟩),
        Laser.init "rt" [0, lo1] [R, hi1] [nr, nt] p (some n) none = .ok ⟨_, l⟩ ∧
        fieldToVectorPotential omega0 l.grid = (.ok a, g') ∧
        ∀ (i : Fin (2 * n - 1)) j k, ((i : ℕ) = 0 → |‖a i j k‖ - a0 * (w0 / w) * Real.exp (-(linspace 0 R nr j) ^ 2 / w ^ 2) *
            Real.exp (-(linspace lo1 hi1 nt k - tPeak) ^ 2 / tau ^ 2)| ≤ ε) ∧
          ((i : ℕ) ≠ 0 → a i j k = 0) := by
  have hcp := Phys.c_pos
  have hpi := Real.pi_pos
  have hep := e_pos
  have hmp := me_pos
  have hom : 0 < omega0 := by rw [homega]; positivity
  obtain ⟨hpe, hdt, ζ, hww', hpt⟩ := gauss_profile hwl.ne' hp hw hww
  have hF : p.Pointwise fun x y t => gaussianTrans w0 ζ (Real.sqrt (x ^ 2 + y ^ 2)) 0 * gaussianLong wavelength tau tPeak cep t := by
    intro n0 n1 n2 x y t i j k
    rw [hpt]
    simp only
    congr 1
    unfold gaussianTrans
    rw [Real.sq_sqrt (by positivity)]
    simp
  obtain ⟨L, hL, key⟩ := C133_gaussian_rt wavelength hwl.ne' px py E hE.le w0 tau hw htau tPeak cep zFoc hp A w hA hA2 hww
    (ε := ε * (me * omega0 * c / e)) (by positivity)
  refine ⟨L, hL, fun R lo1 hi1 a1 a2 b1 => ?_⟩
  obtain ⟨N, key⟩ := key R lo1 hi1 a1 a2 b1
  refine ⟨max N 3, fun nr hr nt ht n hn => ?_⟩
  have hr3 : 3 ≤ nr := le_trans (le_max_right _ _) hr
  have ht3 : 3 ≤ nt := le_trans (le_max_right _ _) ht
  have hlt : lo1 < hi1 := by linarith
  obtain ⟨l, f, hl, hf, -, hb⟩ := key nr (le_trans (le_max_left _ _) hr) nt (le_trans (le_max_left _ _) ht) n hn
  obtain ⟨l1, κ, hκ, hl1, hf1⟩ := scaled_rt R lo1 hi1 nr nt n (by linarith) hlt (by omega) (by omega) hn p E hE hpe
    (fun r t => gaussianTrans w0 ζ r 0 * gaussianLong wavelength tau tPeak cep t) hF
    (fun r t => mul_ne_zero (gaussianTrans_ne _ _ _ _) (by unfold gaussianLong; exact exp_ne_zero _))
  have hll : l = l1 := by
    rw [hl] at hl1
    simpa using hl1
  subst hll
  have hff := Grid.Holds.unique hf hf1
  have hu : Unchirped f := by
    rw [hff]
    refine Unchirped.scale (s := ⟨2 * n - 1, nr, nt⟩) (fun i j => ⟨if (i : ℕ) = 0 then gaussianTrans w0 ζ (linspace 0 R nr j) 0 *
      exp (I * ((cep + longOmega0 wavelength * tPeak : ℝ) : ℂ)) else 0, fun k => Real.exp (-((linspace lo1 hi1 nt k - tPeak) ^ 2 / tau ^ 2)),
      fun k => Real.exp_pos _, fun k => ?_⟩) _
    simp only
    split_ifs
    · rw [gaussianLong_polar]
      ring
    · simp
  have hne : ∃ i j k, f i j k ≠ 0 := by
    refine ⟨(⟨0, by omega⟩ : Fin (2 * n - 1)), (⟨0, by omega⟩ : Fin nr), (⟨0, by omega⟩ : Fin nt), ?_⟩
    rw [hff]
    refine mul_ne_zero ?_ (by exact_mod_cast hκ.ne')
    simp only [if_true]
    exact mul_ne_zero (gaussianTrans_ne _ _ _ _) (by unfold gaussianLong; exact exp_ne_zero _)
  have hinc : Increasing l.grid.t.pts := by
    rw [init_rt_time hl]
    intro k hk
    exact ascending_linspace hlt (by omega) _ _ (by simp [Fin.lt_def])
  obtain ⟨g', e1, -⟩ := C158_unchirped l f hf hu hne ht3 hinc omega0 hom
  refine ⟨l, _, g', hl, e1, fun i j k => ⟨fun hi => ?_, fun hi => ?_⟩⟩
  · exact potential_close hom ha0 ((hb i j k).1 hi)
  · simp only [(hb i j k).2 hi, mul_zero, zero_div]

/-- C158 is not vacuous: a pulse with curved phase fronts and a cell that is zero, and a Gaussian pulse of one joule whose
vector potential is not zero -/
example : (∃ f : Field ⟨1, 3, 3⟩, Unchirped f ∧ f 0 1 0 = I * f 0 0 0 ∧ f 0 0 0 ≠ 0 ∧ f 0 0 1 ≠ f 0 0 0 ∧ f 0 2 0 = 0) ∧
    ∃ (p : ProfileObj) (A a0 : ℝ), gaussianProfile 1 [1, 0] (some 1) 2 3 0 0 5 = .ok p ∧ 0 < A ∧ 0 < a0 ∧
      a0 = e * A / (me * (2 * Real.pi * c / 1) * c) ∧
      eps0 * c / 2 * A ^ 2 * (Real.pi * 2 ^ 2 / 2) * (3 * Real.sqrt (Real.pi / 2)) = 1 := by
  have hcp := Phys.c_pos
  have he := eps0_pos
  have hpi := Real.pi_pos
  have hep := e_pos
  have hmp := me_pos
  refine ⟨⟨fun _ j k => ((k : ℕ) + 1 : ℝ) * (![1, I, 0] : Fin 3 → ℂ) j, ?_, ?_, ?_, ?_, ?_⟩, ?_⟩
  · intro i j
    exact ⟨(![1, I, 0] : Fin 3 → ℂ) j, fun k => (k : ℕ) + 1, fun k => by positivity, fun k => rfl⟩
  · simp
  · simp
  · simp
  · simp
  · obtain ⟨p, hp, -⟩ := C40_formula 1 one_ne_zero 1 0 (some 1) 2 3 0 0 5
    have hd : 0 < eps0 * c / 2 * (Real.pi * 2 ^ 2 / 2) * (3 * Real.sqrt (Real.pi / 2)) := by
      have : 0 < Real.sqrt (Real.pi / 2) := Real.sqrt_pos.2 (by positivity)
      positivity
    have hA : 0 < Real.sqrt (1 / (eps0 * c / 2 * (Real.pi * 2 ^ 2 / 2) * (3 * Real.sqrt (Real.pi / 2)))) :=
      Real.sqrt_pos.2 (by positivity)
    refine ⟨p, _, _, hp, hA, ?_, rfl, ?_⟩
    · positivity
    · rw [Real.sq_sqrt (by positivity)]
      field_simp

end Lasy
