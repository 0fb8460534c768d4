import Verif.Model.Laser
import Verif.Lemmas.Grid

/-! Computation rules for `laser_utils.py` (energy, normalisation) and the lifting to `Laser`. -/

namespace Lasy
open Spec Phys

variable {s : Shape}

/-- The laser's grid is an envelope grid that holds the field `f` (as a function of time):
`get_temporal_field` returns `f` and `get_spectral_field` its inverse DFT, see `Laser.Has.reads`. -/
def Laser.Has (l : Laser s) (f : Field s) : Prop := l.grid.Holds (some f)

theorem Laser.Has.reads {l : Laser s} {f : Field s} (h : l.Has f) :
    (l.grid.call .getTemporal).1 = .array ⟨.c128, f⟩ ∧
    (l.grid.call .getSpectral).1 = .array ⟨.c128, idft f⟩ := by
  rw [(Grid.Holds.call h _).1, (Grid.Holds.call h _).1]
  exact ⟨rfl, rfl⟩

theorem Grid.Holds.unique {g : Grid s} {f f' : Field s} (h : g.Holds (some f))
    (h' : g.Holds (some f')) : f = f' := by
  have e1 := (h.call .getTemporal).1
  have e2 := (h'.call .getTemporal).1
  rw [e1] at e2
  simpa [Spec.call] using e2

/-- reading the temporal field of a grid that holds `f` -/
theorem Grid.Holds.getT {g : Grid s} {f : Field s} (h : g.Holds (some f)) :
    ∃ g', Grid.getTemporalField g = (.ok ⟨.c128, f⟩, g') ∧ g'.Holds (some f) ∧
      g'.geom = g.geom ∧ g'.t = g.t := by
  obtain ⟨h0, h1, h2⟩ := h.isSet f rfl
  by_cases ht : g.temporalValid = true
  · refine ⟨g, ?_, h, rfl, rfl⟩
    rw [getTemporalField_valid ht]
    have hd := h.dt
    have hv := h1 ht
    rcases hg : g.temporal with ⟨d, v⟩
    simp_all
  · have ht' : g.temporalValid = false := by simpa using ht
    have hs : g.spectralValid = true := by simpa [ht'] using h0
    have := (h.call .getTemporal).2
    simp only [Grid.call, getTemporalField_spec ht' hs, Spec.call] at this
    have e := getTemporalField_spec ht' hs
    rw [h2 hs] at e this
    exact ⟨_, e, this, rfl, rfl⟩

/-- reading the spectral field of a grid that holds `f` -/
theorem Grid.Holds.getS {g : Grid s} {f : Field s} (h : g.Holds (some f)) :
    ∃ g', Grid.getSpectralField g = (.ok ⟨.c128, idft f⟩, g') ∧ g'.Holds (some f) ∧
      g'.geom = g.geom ∧ g'.t = g.t := by
  obtain ⟨h0, h1, h2⟩ := h.isSet f rfl
  by_cases hs : g.spectralValid = true
  · refine ⟨g, ?_, h, rfl, rfl⟩
    rw [getSpectralField_valid h.env hs, ← h2 hs, idft_dft]
  · have hs' : g.spectralValid = false := by simpa using hs
    have ht : g.temporalValid = true := by simpa [hs'] using h0
    have := (h.call .getSpectral).2
    simp only [Grid.call, getSpectralField_temp h.env hs' ht, Spec.call] at this
    have e := getSpectralField_temp h.env hs' ht
    rw [h1 ht] at e this
    exact ⟨_, e, this, rfl, rfl⟩

/-- writing a temporal field to an envelope grid -/
theorem Grid.Holds.setT {g : Grid s} {st : Option (Field s)} (h : g.Holds st) (f : Field s) :
    ∃ g', Grid.setTemporalField (Arr.toNd ⟨.c128, f⟩) g = (.ok (), g') ∧ g'.Holds (some f) ∧
      g'.geom = g.geom ∧ g'.t = g.t := by
  have e := setTemporalField_ok (g := g) (a := Arr.toNd ⟨.c128, f⟩) (by simp) (by simp [h.env, dtypeOf])
  refine ⟨_, e, ?_, rfl, rfl⟩
  exact ⟨h.env, h.dt, by simp, by intro f' hf; simp at hf; simp [hf]⟩

/-- writing a spectral field to an envelope grid -/
theorem Grid.Holds.setS {g : Grid s} {st : Option (Field s)} (h : g.Holds st) (f : Field s) :
    ∃ g', Grid.setSpectralField (Arr.toNd ⟨.c128, f⟩) g = (.ok (), g') ∧ g'.Holds (some (dft f)) ∧
      g'.geom = g.geom ∧ g'.t = g.t := by
  have e := setSpectralField_ok (g := g) (a := Arr.toNd ⟨.c128, f⟩) (by simp) (by simp)
  refine ⟨_, e, ?_, rfl, rfl⟩
  exact ⟨h.env, h.dt, by simp, by intro f' hf; simp at hf; simp [hf]⟩

variable [Phys]

/-- `ε₀/2 ∑ dV |f|²` (the docstring of `compute_laser_energy`) -/
noncomputable def pulseEnergy (g : Grid s) (f : Field s) : ℝ :=
  (∑ i, ∑ j, ∑ k, g.cellVolume j * eps0 * ‖f i j k‖ ^ 2) * 0.5

theorem pulseEnergy_congr {g g' : Grid s} (h : g'.geom = g.geom) (h' : g'.t = g.t) (f : Field s) :
    pulseEnergy g' f = pulseEnergy g f := by
  simp [pulseEnergy, Grid.cellVolume, h, h']

theorem pulseEnergy_scale (g : Grid s) (f : Field s) (a : ℂ) :
    pulseEnergy g (fun i j k => f i j k * a) = ‖a‖ ^ 2 * pulseEnergy g f := by
  simp only [pulseEnergy, norm_mul, mul_pow]
  rw [← mul_assoc, Finset.mul_sum]
  congr 1
  refine Finset.sum_congr rfl fun i _ => ?_
  rw [Finset.mul_sum]
  refine Finset.sum_congr rfl fun j _ => ?_
  rw [Finset.mul_sum]
  refine Finset.sum_congr rfl fun k _ => ?_
  ring

theorem Grid.Holds.energy {g : Grid s} {f : Field s} (h : g.Holds (some f)) :
    ∃ g', computeLaserEnergy g = (.ok (pulseEnergy g f), g') ∧ g'.Holds (some f) ∧
      g'.geom = g.geom ∧ g'.t = g.t := by
  obtain ⟨g', e, h1, h2, h3⟩ := h.getT
  refine ⟨g', ?_, h1, h2, h3⟩
  simp only [computeLaserEnergy, Py.bind_apply, e, Py.get_apply, Py.pure_apply, h1.env, if_true,
    pulseEnergy, Grid.cellVolume, h2, h3]

omit [Phys] in
theorem Arr.scale_val (a : ℝ) (f : Field s) :
    Arr.scale a (⟨.c128, f⟩ : Arr s) = ⟨.c128, fun i j k => f i j k * (a : ℂ)⟩ := rfl

/-- `normalize_energy` on a non-zero field -/
theorem Grid.Holds.normEnergy {g : Grid s} {f : Field s} (h : g.Holds (some f)) (E : ℝ)
    (hE : pulseEnergy g f ≠ 0) :
    ∃ g', normalizeEnergy (some E) g = (.ok (), g') ∧
      g'.Holds (some fun i j k => f i j k * (Real.sqrt (E / pulseEnergy g f) : ℂ)) ∧
      g'.geom = g.geom ∧ g'.t = g.t := by
  obtain ⟨g1, e1, h1, h1g, h1t⟩ := h.energy
  obtain ⟨g2, e2, h2, h2g, h2t⟩ := h1.getT
  obtain ⟨g3, e3, h3, h3g, h3t⟩ := h2.setT
    (fun i j k => f i j k * (Real.sqrt (E / pulseEnergy g f) : ℂ))
  refine ⟨g3, ?_, h3, h3g.trans (h2g.trans h1g), h3t.trans (h2t.trans h1t)⟩
  simp only [normalizeEnergy, Py.bind_apply, e1, hE, if_false, e2, Arr.scale_val, e3]

/-- `normalize_energy` on a field without energy -/
theorem Grid.Holds.normEnergy_zero {g : Grid s} {f : Field s} (h : g.Holds (some f)) (E : ℝ)
    (hE : pulseEnergy g f = 0) :
    ∃ g', normalizeEnergy (some E) g = (.ok (), g') ∧ g'.Holds (some f) ∧
      g'.geom = g.geom ∧ g'.t = g.t := by
  obtain ⟨g1, e1, h1, h1g, h1t⟩ := h.energy
  refine ⟨g1, ?_, h1, h1g, h1t⟩
  simp only [normalizeEnergy, Py.bind_apply, e1, hE, if_true, Py.pure_apply]

omit [Phys] in
theorem Grid.Holds.normPeak {g : Grid s} {f : Field s} (h : g.Holds (some f)) (A : ℝ)
    (hA : absMax f ≠ 0) :
    ∃ g', normalizePeakField (some A) g = (.ok (), g') ∧
      g'.Holds (some fun i j k => f i j k * ((A / absMax f : ℝ) : ℂ)) ∧
      g'.geom = g.geom ∧ g'.t = g.t := by
  obtain ⟨g2, e2, h2, h2g, h2t⟩ := h.getT
  obtain ⟨g3, e3, h3, h3g, h3t⟩ := h2.setT (fun i j k => f i j k * ((A / absMax f : ℝ) : ℂ))
  refine ⟨g3, ?_, h3, h3g.trans h2g, h3t.trans h2t⟩
  simp only [normalizePeakField, Py.bind_apply, e2, hA, if_false, Arr.scale_val, e3]

omit [Phys] in
theorem Grid.Holds.normPeak_zero {g : Grid s} {f : Field s} (h : g.Holds (some f)) (A : ℝ)
    (hA : absMax f = 0) :
    ∃ g', normalizePeakField (some A) g = (.ok (), g') ∧ g'.Holds (some f) ∧
      g'.geom = g.geom ∧ g'.t = g.t := by
  obtain ⟨g2, e2, h2, h2g, h2t⟩ := h.getT
  refine ⟨g2, ?_, h2, h2g, h2t⟩
  simp only [normalizePeakField, Py.bind_apply, e2, hA, if_true, Py.pure_apply]

omit [Phys] in
/-- the maximum of `|f|` is attained -/
theorem absMax_isGreatest (f : Field s) (h : 0 < s.n0 ∧ 0 < s.n1 ∧ 0 < s.nt) :
    IsGreatest {a | ∃ i j k, a = ‖f i j k‖} (absMax f) := by
  have : Nonempty (Fin s.n0 × Fin s.n1 × Fin s.nt) := ⟨⟨0, h.1⟩, ⟨0, h.2.1⟩, ⟨0, h.2.2⟩⟩
  obtain ⟨p, hp⟩ := exists_eq_ciSup_of_finite
    (f := fun p : Fin s.n0 × Fin s.n1 × Fin s.nt => ‖f p.1 p.2.1 p.2.2‖)
  refine ⟨⟨p.1, p.2.1, p.2.2, hp.symm⟩, ?_⟩
  rintro _ ⟨i, j, k, rfl⟩
  exact le_ciSup (f := fun p : Fin s.n0 × Fin s.n1 × Fin s.nt => ‖f p.1 p.2.1 p.2.2‖)
    (Set.finite_range _).bddAbove (i, j, k)

omit [Phys] in
theorem onGrid_eq {α : Type} {m : Py (Grid s) α} {l : Laser s} {r : Except PyErr α} {g : Grid s}
    (h : m l.grid = (r, g)) : Laser.onGrid m l = (r, { l with grid := g }) := by
  simp [Laser.onGrid, h]

end Lasy
