import Verif.Model.Optics
import Verif.Props.LaserInit

/-!
# Properties C19–C23: `apply_optics` and the optical elements
-/

namespace Lasy
open Spec Phys Complex

variable {s : Shape} [Phys]

/-- the multiplier of `el` at the point `(x, y, ω)` of the component `(i, j, k)`; in `rt` geometry at
`(r, 0, ω)` for every mode -/
noncomputable def Tat (l : Laser s) (el : OpticalElement) : Field s := fun i j k =>
  match l.grid.geom with
  | .xyt x y => el.mult (x.pts i) (y.pts j) (l.omega1d k) l.profile.omega0
  | .rt _ _ r => el.mult (r.pts j) 0 (l.omega1d k) l.profile.omega0

/-! ## C19 -/

omit [Phys] in
/-- **C19.** `apply_optics(el)` succeeds on every laser that holds a field, and the new spectral field is
the old one times the multiplier, point by point; nothing else changes. -/
theorem C19_apply_optics (l : Laser s) (f : Field s) (h : l.Has f) (el : OpticalElement) :
    ∃ l' : Laser s, Laser.applyOptics el l = (.ok (), l') ∧
      l'.Has (dft fun i j k => idft f i j k * Tat l el i j k) ∧
      l'.grid.geom = l.grid.geom ∧ l'.grid.t = l.grid.t ∧ l'.profile = l.profile ∧
      l'.omega1d = l.omega1d ∧ l'.prop = l.prop ∧ l'.outputIteration = l.outputIteration := by
  obtain ⟨g1, e1, h1, hg1, ht1⟩ := Grid.Holds.getS h
  have hmul : ∀ i j k, ({ l with grid := g1 } : Laser s).multiplier el i j k = Tat l el i j k := by
    intro i j k
    simp only [Laser.multiplier, Tat, hg1]
    cases l.grid.geom <;> rfl
  obtain ⟨g2, e2, h2, hg2, ht2⟩ := h1.setS (fun i j k => idft f i j k * Tat l el i j k)
  refine ⟨{ l with grid := g2 }, ?_, h2, hg2.trans hg1, ht2.trans ht1, rfl, rfl, rfl, rfl⟩
  unfold Laser.applyOptics
  rw [Py.bind_ok (onGrid_eq e1)]
  rw [Py.bind_ok (Py.get_apply _)]
  simp only [hmul]
  exact onGrid_eq (l := { l with grid := g1 }) e2

omit [Phys] in
/-- the spectral field read back -/
theorem C19_spectral (l : Laser s) (f : Field s) (h : l.Has f) (el : OpticalElement) :
    ∃ l' : Laser s, Laser.applyOptics el l = (.ok (), l') ∧
      (l'.grid.call .getSpectral).1 = .array ⟨.c128, fun i j k => idft f i j k * Tat l el i j k⟩ := by
  obtain ⟨l', e, h', -⟩ := C19_apply_optics l f h el
  refine ⟨l', e, ?_⟩
  rw [h'.reads.2, idft_dft]

/-- product of two elements -/
noncomputable def OpticalElement.product (a b : OpticalElement) : OpticalElement where
  mult := fun x y w w0 => a.mult x y w w0 * b.mult x y w w0

omit [Phys] in
theorem Tat_congr {l l' : Laser s} (hg : l'.grid.geom = l.grid.geom) (hp : l'.profile = l.profile)
    (ho : l'.omega1d = l.omega1d) (el : OpticalElement) : Tat l' el = Tat l el := by
  funext i j k
  simp only [Tat, hg, hp, ho]

omit [Phys] in
theorem Tat_product (l : Laser s) (a b : OpticalElement) (i j k) :
    Tat l (a.product b) i j k = Tat l a i j k * Tat l b i j k := by
  simp only [Tat, OpticalElement.product]
  cases l.grid.geom <;> rfl

omit [Phys] in
/-- two elements one after the other -/
theorem applyOptics_twice (l : Laser s) (f : Field s) (h : l.Has f) (a b : OpticalElement) :
    ∃ l1 l2 : Laser s, Laser.applyOptics a l = (.ok (), l1) ∧ Laser.applyOptics b l1 = (.ok (), l2) ∧
      l2.Has (dft fun i j k => idft f i j k * (Tat l a i j k * Tat l b i j k)) := by
  obtain ⟨l1, e1, h1, hg, ht, hp, ho, -⟩ := C19_apply_optics l f h a
  obtain ⟨l2, e2, h2, -⟩ := C19_apply_optics l1 _ h1 b
  refine ⟨l1, l2, e1, e2, ?_⟩
  rw [Tat_congr hg hp ho] at h2
  simp only [idft_dft, mul_assoc] at h2
  exact h2

omit [Phys] in
/-- **C19**: applying two elements is applying their product, in either order. -/
theorem C19_compose (l : Laser s) (f : Field s) (h : l.Has f) (a b : OpticalElement) :
    ∃ (l1 l2 l1' l2' l3 : Laser s) (f' : Field s),
      Laser.applyOptics a l = (.ok (), l1) ∧ Laser.applyOptics b l1 = (.ok (), l2) ∧
      Laser.applyOptics b l = (.ok (), l1') ∧ Laser.applyOptics a l1' = (.ok (), l2') ∧
      Laser.applyOptics (a.product b) l = (.ok (), l3) ∧
      l2.Has f' ∧ l2'.Has f' ∧ l3.Has f' := by
  obtain ⟨l1, l2, e1, e2, h2⟩ := applyOptics_twice l f h a b
  obtain ⟨l1', l2', e1', e2', h2'⟩ := applyOptics_twice l f h b a
  obtain ⟨l3, e3, h3, -⟩ := C19_apply_optics l f h (a.product b)
  refine ⟨l1, l2, l1', l2', l3, _, e1, e2, e1', e2', e3, h2, ?_, ?_⟩
  · simpa only [mul_comm (Tat l b _ _ _)] using h2'
  · simpa only [Tat_product] using h3

/-! ## C20 -/

/-- the energy, from the spectral field -/
theorem Laser.Has.energy_spectral {l : Laser s} {f : Field s} (h : l.Has f) :
    l.energy = .ok (eps0 / 2 * ∑ i, ∑ j, l.grid.cellVolume j * (s.nt * ∑ k, ‖idft f i j k‖ ^ 2)) := by
  rw [h.energy]
  congr 2
  refine Finset.sum_congr rfl fun i _ => Finset.sum_congr rfl fun j _ => ?_
  rw [← Finset.mul_sum]
  congr 1
  have := parseval_ifft (f i j)
  rw [this, idft_eq]

/-- the energy after an element -/
theorem energy_after (l : Laser s) (f : Field s) (h : l.Has f) (el : OpticalElement) :
    ∃ l' : Laser s, Laser.applyOptics el l = (.ok (), l') ∧
      l'.energy = .ok (eps0 / 2 * ∑ i, ∑ j, l.grid.cellVolume j *
        (s.nt * ∑ k, ‖idft f i j k‖ ^ 2 * ‖Tat l el i j k‖ ^ 2)) := by
  obtain ⟨l', e, h', hg, ht, -⟩ := C19_apply_optics l f h el
  refine ⟨l', e, ?_⟩
  rw [h'.energy_spectral]
  have hv : ∀ j, l'.grid.cellVolume j = l.grid.cellVolume j := by
    intro j; simp [Grid.cellVolume, hg, ht]
  simp only [hv, idft_dft, norm_mul, mul_pow]

/-- **C20.** An element whose multiplier has modulus one leaves the energy unchanged. -/
theorem C20_pure_phase (l : Laser s) (f : Field s) (h : l.Has f) (el : OpticalElement)
    (hel : ∀ x y w w0, ‖el.mult x y w w0‖ = 1) :
    ∃ l' : Laser s, Laser.applyOptics el l = (.ok (), l') ∧ l'.energy = l.energy := by
  obtain ⟨l', e, h'⟩ := energy_after l f h el
  refine ⟨l', e, ?_⟩
  have hT : ∀ i j k, ‖Tat l el i j k‖ = 1 := by
    intro i j k
    simp only [Tat]
    cases l.grid.geom <;> exact hel _ _ _ _
  rw [h', h.energy_spectral]
  simp [hT]

omit [Phys] in
theorem norm_exp_I_mul (x : ℝ) (z : ℂ) (hz : z = I * x) : ‖exp z‖ = 1 := by
  rw [hz, mul_comm, Complex.norm_exp_ofReal_mul_I]

/-- **C20**: parabolic mirror, axicon and polynomial spectral phase conserve the energy. -/
theorem C20_mirror (l : Laser s) (f : Field s) (h : l.Has f) (fl : ℝ) :
    ∃ l' : Laser s, Laser.applyOptics (parabolicMirror fl) l = (.ok (), l') ∧ l'.energy = l.energy :=
  C20_pure_phase l f h _ fun x y w _ =>
    norm_exp_I_mul (-w * (x ^ 2 + y ^ 2) / (2 * c * fl)) _ (by push_cast; ring)

theorem C20_axicon (l : Laser s) (f : Field s) (h : l.Has f) (gamma : ℝ) :
    ∃ l' : Laser s, Laser.applyOptics (axicon gamma) l = (.ok (), l') ∧ l'.energy = l.energy :=
  C20_pure_phase l f h _ fun x y w _ =>
    norm_exp_I_mul (-2 * (w / c) * Real.sqrt (x ^ 2 + y ^ 2) * Real.tan (0.5 * gamma)) _
      (by push_cast; ring)

theorem C20_spectral_phase (l : Laser s) (f : Field s) (h : l.Has f) (gdd tod fod : ℝ) :
    ∃ l' : Laser s, Laser.applyOptics (polynomialSpectralPhase gdd tod fod) l = (.ok (), l') ∧
      l'.energy = l.energy :=
  C20_pure_phase l f h _ fun _ _ w w0 => norm_exp_I_mul (gdd / 2 * (w - w0) ^ 2 +
    tod / 6 * (w - w0) ^ 3 + fod / 24 * (w - w0) ^ 4) _ rfl

/-- squared distance from the axis of the grid point `(i, j)` -/
noncomputable def radiusSq (l : Laser s) (i : Fin s.n0) (j : Fin s.n1) : ℝ :=
  match l.grid.geom with
  | .xyt x y => x.pts i ^ 2 + y.pts j ^ 2
  | .rt _ _ r => r.pts j ^ 2

/-- **C20**: after an axiparabola the energy is the energy that the pulse had within the radius `R`: what
lies beyond is removed at every frequency, what lies within keeps its modulus. With nonnegative cell
volumes (C11) it never adds energy. -/
theorem C20_axiparabola (l : Laser s) (f : Field s) (h : l.Has f) (f0 delta R E0 : ℝ)
    (hE0 : l.energy = .ok E0) (hv : ∀ j, 0 ≤ l.grid.cellVolume j) :
    ∃ (l' : Laser s) (E1 : ℝ), Laser.applyOptics (axiparabola f0 delta R) l = (.ok (), l') ∧
      l'.energy = .ok E1 ∧ E1 ≤ E0 ∧
      E1 = eps0 / 2 * ∑ i, ∑ j, (if radiusSq l i j > R ^ 2 then 0
        else l.grid.cellVolume j * ∑ k, ‖f i j k‖ ^ 2) ∧
      ∃ F : Field s, (l'.grid.call .getSpectral).1 = .array ⟨.c128, F⟩ ∧
        ∀ i j k, (radiusSq l i j > R ^ 2 → F i j k = 0) ∧
          (¬ radiusSq l i j > R ^ 2 → ‖F i j k‖ = ‖idft f i j k‖) := by
  obtain ⟨l', e, h'⟩ := energy_after l f h (axiparabola f0 delta R)
  obtain ⟨l'', e'', hs⟩ := C19_spectral l f h (axiparabola f0 delta R)
  have hll : l'' = l' := by rw [e] at e''; simpa using e''.symm
  subst hll
  have hT : ∀ i j k, ‖Tat l (axiparabola f0 delta R) i j k‖ = if radiusSq l i j > R ^ 2 then 0 else 1 := by
    intro i j k
    have key : ∀ x y w : ℝ, ‖(axiparabola f0 delta R).mult x y w l.profile.omega0‖ =
        if x ^ 2 + y ^ 2 > R ^ 2 then 0 else 1 := by
      intro x y w
      simp only [axiparabola]
      split_ifs
      · simp
      · exact norm_exp_I_mul (-2 * (w / c) * axiparabolaSag f0 delta R (x ^ 2 + y ^ 2)) _
          (by push_cast; ring)
    rcases hgeo : l.grid.geom with ⟨x, y⟩ | ⟨m, hm, r⟩
    · simp only [Tat, radiusSq, hgeo]; exact key _ _ _
    · simp only [Tat, radiusSq, hgeo]; simpa using key (r.pts j) 0 (l.omega1d k)
  have hE1 : eps0 / 2 * ∑ i, ∑ j, l.grid.cellVolume j *
        (s.nt * ∑ k, ‖idft f i j k‖ ^ 2 * ‖Tat l (axiparabola f0 delta R) i j k‖ ^ 2) =
      eps0 / 2 * ∑ i, ∑ j, (if radiusSq l i j > R ^ 2 then 0
        else l.grid.cellVolume j * ∑ k, ‖f i j k‖ ^ 2) := by
    congr 1
    refine Finset.sum_congr rfl fun i _ => Finset.sum_congr rfl fun j _ => ?_
    simp only [hT]
    split_ifs
    · simp
    · rw [parseval_ifft (f i j)]
      simp [idft_eq]
  refine ⟨l'', _, e, h', ?_, hE1, _, hs, ?_⟩
  · rw [hE1]
    rw [h.energy] at hE0
    have hE0' := Except.ok.inj hE0
    rw [← hE0']
    refine mul_le_mul_of_nonneg_left ?_ (half_pos eps0_pos).le
    refine Finset.sum_le_sum fun i _ => Finset.sum_le_sum fun j _ => ?_
    rw [← Finset.mul_sum]
    split_ifs
    · exact mul_nonneg (hv j) (Finset.sum_nonneg fun k _ => by positivity)
    · exact le_rfl
  · intro i j k
    constructor
    · intro hr
      have : Tat l (axiparabola f0 delta R) i j k = 0 := by
        rw [← norm_eq_zero, hT, if_pos hr]
      simp [this]
    · intro hr
      rw [norm_mul, hT, if_neg hr, mul_one]

/-! ## C21 -/

/-- applying `a` then `b` has the same effect as applying `d` -/
def ActsAs (a b d : OpticalElement) : Prop :=
  ∀ (s : Shape) (l : Laser s) (f : Field s), l.Has f → ∃ (l1 l2 l3 : Laser s) (f' : Field s),
    Laser.applyOptics a l = (.ok (), l1) ∧ Laser.applyOptics b l1 = (.ok (), l2) ∧
    Laser.applyOptics d l = (.ok (), l3) ∧ l2.Has f' ∧ l3.Has f'

omit [Phys] in
theorem actsAs_of_mult {a b d : OpticalElement}
    (h : ∀ x y w w0, a.mult x y w w0 * b.mult x y w w0 = d.mult x y w w0) : ActsAs a b d := by
  intro s l f hf
  obtain ⟨l1, l2, e1, e2, h2⟩ := applyOptics_twice l f hf a b
  obtain ⟨l3, e3, h3, -⟩ := C19_apply_optics l f hf d
  refine ⟨l1, l2, l3, _, e1, e2, e3, h2, ?_⟩
  have : ∀ i j k, Tat l a i j k * Tat l b i j k = Tat l d i j k := by
    intro i j k
    simp only [Tat]
    cases l.grid.geom <;> exact h _ _ _ _
  simpa only [this] using h3

omit [Phys] in
/-- **C21**: two polynomial spectral phases add up. -/
theorem C21_spectral_phases_add (g1 t1 f1 g2 t2 f2 : ℝ) :
    ActsAs (polynomialSpectralPhase g1 t1 f1) (polynomialSpectralPhase g2 t2 f2)
      (polynomialSpectralPhase (g1 + g2) (t1 + t2) (f1 + f2)) := by
  apply actsAs_of_mult
  intro x y w w0
  simp only [polynomialSpectralPhase, ← Complex.exp_add]
  congr 1
  push_cast
  ring

/-- **C21**: two parabolic mirrors act as one with `1/f = 1/f1 + 1/f2`. -/
theorem C21_mirrors_add (f1 f2 f : ℝ) (_h1 : f1 ≠ 0) (_h2 : f2 ≠ 0) (_hf : f ≠ 0)
    (h : 1 / f = 1 / f1 + 1 / f2) :
    ActsAs (parabolicMirror f1) (parabolicMirror f2) (parabolicMirror f) := by
  apply actsAs_of_mult
  intro x y w w0
  simp only [parabolicMirror, ← Complex.exp_add]
  congr 1
  have hc : (1 : ℂ) / f = 1 / f1 + 1 / f2 := by exact_mod_cast h
  have e : ∀ g : ℝ, -I * w * ((x : ℂ) ^ 2 + (y : ℂ) ^ 2) / (2 * (c : ℂ) * g) =
      (-I * w * ((x : ℂ) ^ 2 + (y : ℂ) ^ 2) / (2 * c)) * (1 / g) := by
    intro g
    rw [div_mul_div_comm, mul_one]
  simp only [e]
  rw [hc]
  ring

/-- an instance of the hypotheses: `f1 = f2 = 2`, `f = 1` -/
example : (1 : ℝ) / 1 = 1 / 2 + 1 / 2 := by norm_num

omit [Phys] in
/-- **C21**: the negated spectral phase undoes the original one: the laser holds the original field
again. -/
theorem C21_spectral_phase_undone (l : Laser s) (f : Field s) (h : l.Has f) (g t fo : ℝ) :
    ∃ l1 l2 : Laser s, Laser.applyOptics (polynomialSpectralPhase g t fo) l = (.ok (), l1) ∧
      Laser.applyOptics (polynomialSpectralPhase (-g) (-t) (-fo)) l1 = (.ok (), l2) ∧ l2.Has f := by
  obtain ⟨l1, l2, e1, e2, h2⟩ := applyOptics_twice l f h (polynomialSpectralPhase g t fo)
    (polynomialSpectralPhase (-g) (-t) (-fo))
  refine ⟨l1, l2, e1, e2, ?_⟩
  have key : ∀ x y w w0, (polynomialSpectralPhase g t fo).mult x y w w0 *
      (polynomialSpectralPhase (-g) (-t) (-fo)).mult x y w w0 = 1 := by
    intro x y w w0
    simp only [polynomialSpectralPhase, ← Complex.exp_add]
    rw [← Complex.exp_zero]
    congr 1
    push_cast
    ring
  have : ∀ i j k, Tat l (polynomialSpectralPhase g t fo) i j k *
      Tat l (polynomialSpectralPhase (-g) (-t) (-fo)) i j k = 1 := by
    intro i j k
    simp only [Tat]
    cases l.grid.geom <;> exact key _ _ _ _
  simpa only [this, mul_one, dft_idft] using h2

/-! ## C22 -/

/-- **C22**, parabolic mirror, `exp(-iω(x²+y²)/2cf)`. -/
theorem C22_mirror (f : ℝ) (_hf : f ≠ 0) (x y w w0 : ℝ) :
    (parabolicMirror f).mult x y w w0 =
      Real.cos (w * (x ^ 2 + y ^ 2) / (2 * c * f)) - I * Real.sin (w * (x ^ 2 + y ^ 2) / (2 * c * f)) := by
  have hc := c_pos.ne'
  set a := w * (x ^ 2 + y ^ 2) / (2 * c * f) with ha
  have : -I * (w : ℂ) * ((x : ℂ) ^ 2 + (y : ℂ) ^ 2) / (2 * (c : ℂ) * f) = ((-a : ℝ) : ℂ) * I := by
    rw [ha]; push_cast; ring
  simp only [parabolicMirror, this, Complex.exp_mul_I]
  push_cast
  rw [Complex.cos_neg, Complex.sin_neg]
  ring

omit [Phys] in
/-- **C22**, spectral phase `φ = GDD/2! dω² + TOD/3! dω³ + FOD/4! dω⁴`, `T = e^{iφ}`. -/
theorem C22_spectral_phase (gdd tod fod x y w w0 : ℝ) :
    (polynomialSpectralPhase gdd tod fod).mult x y w w0 =
      exp (I * (gdd / Nat.factorial 2 * (w - w0) ^ 2 + tod / Nat.factorial 3 * (w - w0) ^ 3 +
        fod / Nat.factorial 4 * (w - w0) ^ 4)) := by
  simp only [polynomialSpectralPhase, Nat.factorial]
  congr 2
  push_cast
  ring

/-- the multiplier in the docstring of `Axicon` (`axicon.py:18`) -/
noncomputable def axiconDocumented (gamma x y w : ℝ) : ℂ :=
  exp (-I * w * (Real.sqrt (x ^ 2 + y ^ 2) : ℝ) * (Real.tan (gamma / 2) : ℝ))

/-- **C22 is false of the axicon**: for every axicon with `tan(γ/2) ≠ 0` there is a frequency at which the
code's multiplier differs from the documented one (the code has the factor `2/c`). The hypothesis `c ≠ 2`
holds for the speed of light in SI units. -/
theorem C22_axicon_refuted (gamma : ℝ) (hg : Real.tan (gamma / 2) ≠ 0) (hc2 : c ≠ 2) :
    ∃ x y w w0 : ℝ, (axicon gamma).mult x y w w0 ≠ axiconDocumented gamma x y w := by
  set T := Real.tan (gamma / 2) with hT
  have hc := c_pos
  have hd : (2 / c - 1) ≠ 0 := by
    intro h
    apply hc2
    field_simp at h
    linarith
  refine ⟨1, 0, Real.pi / (T * (2 / c - 1)), 0, ?_⟩
  intro he
  have hTc : (T : ℂ) ≠ 0 := by exact_mod_cast hg
  have hcc : (c : ℂ) ≠ 0 := by exact_mod_cast hc.ne'
  have hdc : (2 / (c : ℂ) - 1) ≠ 0 := by
    have : ((2 / c - 1 : ℝ) : ℂ) ≠ 0 := by exact_mod_cast hd
    simpa using this
  have hdc2 : (2 - (c : ℂ)) ≠ 0 := by
    intro h0
    apply hc2
    have : (c : ℂ) = 2 := by linear_combination -h0
    exact_mod_cast this
  simp only [axicon, axiconDocumented, show (0.5 * gamma) = gamma / 2 by ring, ← hT] at he
  rw [Complex.exp_eq_exp_iff_exp_sub_eq_one] at he
  have hsq : Real.sqrt ((1 : ℝ) ^ 2 + 0 ^ 2) = 1 := by norm_num
  rw [hsq] at he
  have key : (-2 * I * (((Real.pi / (T * (2 / c - 1)) : ℝ) : ℂ) / c) * ((1 : ℝ) : ℂ) * (T : ℂ)) -
      (-I * ((Real.pi / (T * (2 / c - 1)) : ℝ) : ℂ) * ((1 : ℝ) : ℂ) * (T : ℂ)) = -(Real.pi * I) := by
    push_cast
    field_simp
    ring
  rw [key, Complex.exp_neg, Complex.exp_pi_mul_I] at he
  norm_num at he

/-- **C22**, what the axicon does: `exp(-2iω r tan(γ/2)/c)`, the reflection off a cone. -/
theorem C22_axicon_partial (gamma x y w w0 : ℝ) :
    (axicon gamma).mult x y w w0 =
      exp (-I * (2 * w / c * Real.sqrt (x ^ 2 + y ^ 2) * Real.tan (gamma / 2) : ℝ)) := by
  simp only [axicon, show (0.5 * gamma) = gamma / 2 by ring]
  congr 1
  push_cast
  ring

/-- the hypotheses of `C22_axicon_refuted` with the SI value of `c` and a right-angled cone -/
example : Real.tan ((Real.pi / 2) / 2) ≠ 0 ∧ Phys.codata.c ≠ 2 := by
  constructor
  · rw [show Real.pi / 2 / 2 = Real.pi / 4 by ring, Real.tan_pi_div_four]; norm_num
  · show (299792458 : ℝ) ≠ 2; norm_num

/-! ## C23 -/

omit [Phys] in
theorem fftfreqInt_dvd (n : ℕ) (k : Fin n) : (n : ℤ) ∣ fftfreqInt n k - (k : ℕ) := by
  unfold fftfreqInt
  split_ifs
  · simp
  · exact ⟨-1, by ring⟩

omit [Phys] in
/-- **C23.** Let `dt` be the time step of the laser. An element with the linear spectral phase
`(ω-ω0)·n·dt` moves the envelope by `n` samples towards later times, circularly, for every integer `n`:
the new field at index `k` is the old one at index `k - n` (mod `Nt`). -/
theorem C23_linear_phase_delays (l : Laser s) (f : Field s) (h : l.Has f) (n : ℤ)
    (hdt : l.grid.t.dx ≠ 0)
    (hom : ∀ k, l.omega1d k = 2 * Real.pi * fftfreq s.nt l.grid.t.dx k + l.profile.omega0)
    (el : OpticalElement)
    (hel : ∀ x y w w0, el.mult x y w w0 = exp (I * ((w - w0) * n * l.grid.t.dx : ℝ))) :
    ∃ (l' : Laser s) (f' : Field s), Laser.applyOptics el l = (.ok (), l') ∧ l'.Has f' ∧
      ∀ i j (k k' : Fin s.nt), (s.nt : ℤ) ∣ (k' : ℕ) - ((k : ℕ) - n) → f' i j k = f i j k' := by
  obtain ⟨l', e, h', -⟩ := C19_apply_optics l f h el
  refine ⟨l', _, e, h', ?_⟩
  intro i j k k' hk
  have hnt : s.nt ≠ 0 := by have := k.2; omega
  have hT : ∀ q, Tat l el i j q = chr s.nt ((q : ℕ) * n) := by
    intro q
    have hm : ∀ x y, el.mult x y (l.omega1d q) l.profile.omega0 = chr s.nt ((q : ℕ) * n) := by
      intro x y
      rw [hel, hom]
      have hd : (s.nt : ℤ) ∣ ((q : ℕ) * n : ℤ) - (fftfreqInt s.nt q * n) := by
        have := Dvd.dvd.mul_right (fftfreqInt_dvd s.nt q) (-n)
        rwa [show (fftfreqInt s.nt q - ((q : ℕ) : ℤ)) * -n =
          ((q : ℕ) * n : ℤ) - (fftfreqInt s.nt q * n) by ring] at this
      rw [chr_periodic hnt hd, chr]
      congr 1
      have hdtc : (l.grid.t.dx : ℂ) ≠ 0 := by exact_mod_cast hdt
      have hntc : (s.nt : ℂ) ≠ 0 := by exact_mod_cast hnt
      simp only [fftfreq]
      push_cast
      field_simp
      ring
    simp only [Tat]
    cases l.grid.geom <;> exact hm _ _
  have hf : f i j k' = dft (idft f) i j k' := by rw [dft_idft]
  rw [hf, dft_eq]
  simp only [hT]
  rw [dft_eq]
  simp only [fft_eq_chr]
  refine Finset.sum_congr rfl fun q _ => ?_
  rw [mul_assoc, ← chr_add]
  congr 1
  apply chr_periodic hnt
  have := Dvd.dvd.mul_right hk ((q : ℕ) : ℤ)
  rwa [show (((k' : ℕ) : ℤ) - ((k : ℕ) - n)) * ((q : ℕ) : ℤ) =
    ((q : ℕ) * n : ℤ) + -((q : ℕ) * (k : ℕ)) - -((q : ℕ) * (k' : ℕ)) by ring] at this

/-- a constructed laser: it holds a field, has the axes of a fresh grid, its frequencies are
`2π fftfreq(Nt, dt) + ω0`, and no propagator is cached yet -/
theorem Laser.init_facts {dim : String} {lo hi : List ℝ} {np : List ℕ} {p : ProfileObj}
    {m : Option ℕ} {N : Option ℕ} {l : Laser s} (h : Laser.init dim lo hi np p m N = .ok ⟨s, l⟩) :
    ∃ (g : Grid s) (f : Field s), Grid.init dim lo hi np m true = .ok ⟨s, g⟩ ∧ l.Has f ∧
      l.grid.geom = g.geom ∧ l.grid.t = g.t ∧ l.profile = p ∧ l.outputIteration = 0 ∧
      l.prop = .absent ∧
      ∀ k, l.omega1d k = 2 * Real.pi * fftfreq s.nt l.grid.t.dx k + l.profile.omega0 := by
  obtain ⟨g, f, l1, e1, -, e3, h1, hg, ht, hc⟩ := Laser.init_ok h
  have hl1 : l1 = { Laser.raw g p with grid := l1.grid } := by
    have := congrArg Prod.snd e3
    simp only [Laser.onGrid] at this
    rw [← this]
  have fin : ∀ (g' : Grid s) (f' : Field s), g'.Holds (some f') → g'.geom = g.geom → g'.t = g.t →
      l = { Laser.raw g p with grid := g' } → ∃ (g : Grid s) (f : Field s),
      Grid.init dim lo hi np m true = .ok ⟨s, g⟩ ∧ l.Has f ∧
      l.grid.geom = g.geom ∧ l.grid.t = g.t ∧ l.profile = p ∧ l.outputIteration = 0 ∧
      l.prop = .absent ∧
      ∀ k, l.omega1d k = 2 * Real.pi * fftfreq s.nt l.grid.t.dx k + l.profile.omega0 := by
    intro g' f' hh hg' ht' hl
    refine ⟨g, f', e1, ?_, ?_, ?_, ?_, ?_, ?_, ?_⟩ <;> subst hl
    · exact hh
    · exact hg'
    · exact ht'
    · rfl
    · rfl
    · rfl
    · intro k
      simp only [Laser.raw, ht']
  rcases hc with ⟨-, rfl⟩ | ⟨e, -, hn⟩
  · exact fin _ f h1 hg ht hl1
  · rw [hl1] at hn
    simp only [Laser.normalize, if_true] at hn
    have go : ∀ g2 : Grid s, normalizeEnergy e l1.grid = (.ok (), g2) →
        l = { Laser.raw g p with grid := g2 } := by
      intro g2 e2
      rw [onGrid_eq (l := { Laser.raw g p with grid := l1.grid }) e2] at hn
      simpa using hn.symm
    cases e with
    | none => exact fin l1.grid f h1 hg ht (go _ rfl)
    | some E =>
      by_cases hE : pulseEnergy l1.grid f = 0
      · obtain ⟨g2, e2, h2, hg2, ht2⟩ := Grid.Holds.normEnergy_zero h1 E hE
        exact fin g2 _ h2 (hg2.trans hg) (ht2.trans ht) (go _ e2)
      · obtain ⟨g2, e2, h2, hg2, ht2⟩ := Grid.Holds.normEnergy h1 E hE
        exact fin g2 _ h2 (hg2.trans hg) (ht2.trans ht) (go _ e2)

/-- the hypotheses of C23 hold for every laser constructed on an axis with `lo < hi` -/
theorem C23_constructed {dim : String} {lo hi : List ℝ} {np : List ℕ} {p : ProfileObj}
    {m : Option ℕ} {N : Option ℕ} {l : Laser s} (h : Laser.init dim lo hi np p m N = .ok ⟨s, l⟩)
    (hdt : l.grid.t.dx ≠ 0) (n : ℤ) :
    ∃ (f : Field s) (l' : Laser s) (f' : Field s), l.Has f ∧
      Laser.applyOptics ⟨fun _ _ w w0 => exp (I * ((w - w0) * n * l.grid.t.dx : ℝ))⟩ l = (.ok (), l') ∧
      l'.Has f' ∧
      ∀ i j (k k' : Fin s.nt), (s.nt : ℤ) ∣ (k' : ℕ) - ((k : ℕ) - n) → f' i j k = f i j k' := by
  obtain ⟨g, f, -, hf, -, -, -, -, -, ho⟩ := Laser.init_facts h
  obtain ⟨l', f', e, h', hs⟩ := C23_linear_phase_delays l f hf n hdt ho
    ⟨fun _ _ w w0 => exp (I * ((w - w0) * n * l.grid.t.dx : ℝ))⟩ (fun _ _ _ _ => rfl)
  exact ⟨f, l', f', hf, e, h', hs⟩

/-- C19–C23 speak about lasers that hold a field; one such laser, with positive energy, is `constLaser`. -/
example : ∃ (l : Laser ⟨2, 2, 2⟩) (f : Field ⟨2, 2, 2⟩) (E0 : ℝ), l.Has f ∧ l.energy = .ok E0 ∧ 0 < E0 ∧
    ∃ l', Laser.applyOptics (parabolicMirror 1) l = (.ok (), l') ∧ l'.energy = .ok E0 := by
  obtain ⟨l, E0, -, h, hE, hpos⟩ := constLaser
  obtain ⟨l', e, h'⟩ := C20_mirror l _ h 1
  exact ⟨l, _, E0, h, hE, hpos, l', e, h'.trans hE⟩

end Lasy
