import Verif.Props.Superposition
import Verif.Props.PhaseRetrieval

/-!
# Property C141: only the last normalisation matters

A history of optics, propagations and normalisations (`lasy/laser.py` 148-331, `lasy/utils/laser_utils.py` 59-111) ends
in the same field as the history without its normalisations, if both end with the same normalisation; and on a lossless
line it does not matter whether the energy is normalised before or after. `kind="intensity"` is left out: it replaces the
field by a constant (C17).
-/

namespace Lasy
open Spec Phys Complex

variable {s : Shape} [Phys]

/-- the history without its normalisations -/
def dropNormalize : List LaserOp → List LaserOp
  | [] => []
  | .normalize _ _ :: os => dropNormalize os
  | o :: os => o :: dropNormalize os

/-- every normalisation of the history is of the energy or of the peak field, to a positive value or to `None` -/
def PositiveTargets (os : List LaserOp) : Prop :=
  ∀ o ∈ os, ∀ v kind, o = .normalize v kind → (kind = "energy" ∨ kind = "field") ∧ ∀ x, v = some x → 0 < x

/-- no propagation onto a new grid -/
def NoGrids (os : List LaserOp) : Prop := ∀ o ∈ os, ∀ a, o = .propagate a → a.grid = none

/-- the field multiplied by a real factor -/
def Field.times (f : Field s) (r : ℝ) : Field s := fun i j k => f i j k * (r : ℂ)

theorem pulseEnergy_times (g : Grid s) (f : Field s) (r : ℝ) : pulseEnergy g (f.times r) = r ^ 2 * pulseEnergy g f := by
  simp only [pulseEnergy, Field.times, norm_mul, mul_pow, Complex.norm_real, Real.norm_eq_abs, sq_abs]
  rw [← mul_assoc]
  congr 1
  simp only [Finset.mul_sum]
  refine Finset.sum_congr rfl fun i _ => Finset.sum_congr rfl fun j _ => Finset.sum_congr rfl fun k _ => ?_
  ring

theorem pulseEnergy_nonneg' (g : Grid s) (hv : ∀ j, 0 ≤ g.cellVolume j) (f : Field s) : 0 ≤ pulseEnergy g f := by
  simp only [pulseEnergy]
  refine mul_nonneg (Finset.sum_nonneg fun i _ => Finset.sum_nonneg fun j _ => Finset.sum_nonneg fun k _ =>
    mul_nonneg (mul_nonneg (hv j) eps0_pos.le) (sq_nonneg _)) (by norm_num)

omit [Phys] in
theorem absMax_times (f : Field s) {r : ℝ} (hr : 0 < r) : absMax (f.times r) = r * absMax f := by
  simp only [absMax, Field.times, norm_mul, Complex.norm_real, Real.norm_eq_abs, abs_of_pos hr]
  rw [Real.mul_iSup_of_nonneg hr.le]
  simp only [mul_comm]

omit [Phys] in
theorem absMax_nonneg' (f : Field s) : 0 ≤ absMax f := Real.iSup_nonneg fun _ => norm_nonneg _

omit [Phys] in
theorem Field.times_times (f : Field s) (r q : ℝ) : (f.times r).times q = f.times (r * q) := by
  funext i j k
  simp only [Field.times, mul_assoc]
  push_cast
  rfl

omit [Phys] in
theorem Field.times_one (f : Field s) : f.times 1 = f := by
  funext i j k
  simp [Field.times]

/-- a normalisation to a positive value multiplies the field by a positive factor -/
theorem normalize_times (l : Laser s) (f : Field s) (h : l.Has f) (hv : ∀ j, 0 ≤ l.grid.cellVolume j)
    (v : Option ℝ) (kind : String) (hk : kind = "energy" ∨ kind = "field") (hx : ∀ x, v = some x → 0 < x) :
    ∃ (g' : Grid s) (q : ℝ), 0 < q ∧ Laser.normalize v kind l = (.ok (), { l with grid := g' }) ∧
      g'.Holds (some (f.times q)) ∧ g'.geom = l.grid.geom ∧ g'.t = l.grid.t := by
  cases v with
  | none =>
    refine ⟨l.grid, 1, one_pos, ?_, by rw [Field.times_one]; exact h, rfl, rfl⟩
    rcases hk with rfl | rfl <;> rfl
  | some x =>
    have hx := hx x rfl
    rcases hk with rfl | rfl
    · by_cases hE : pulseEnergy l.grid f = 0
      · obtain ⟨g', e, h', hg, ht⟩ := Grid.Holds.normEnergy_zero h x hE
        refine ⟨g', 1, one_pos, ?_, by rw [Field.times_one]; exact h', hg, ht⟩
        simp only [Laser.normalize, if_true]
        exact onGrid_eq e
      · obtain ⟨g', e, h', hg, ht⟩ := Grid.Holds.normEnergy h x hE
        refine ⟨g', _, ?_, ?_, h', hg, ht⟩
        · exact Real.sqrt_pos.2 (div_pos hx (lt_of_le_of_ne (pulseEnergy_nonneg' _ hv f) (Ne.symm hE)))
        · simp only [Laser.normalize, if_true]
          exact onGrid_eq e
    · by_cases hA : absMax f = 0
      · obtain ⟨g', e, h', hg, ht⟩ := Grid.Holds.normPeak_zero h x hA
        refine ⟨g', 1, one_pos, ?_, by rw [Field.times_one]; exact h', hg, ht⟩
        simp only [Laser.normalize, if_neg (show ¬ ("field" = "energy") by decide), if_true]
        exact onGrid_eq e
      · obtain ⟨g', e, h', hg, ht⟩ := Grid.Holds.normPeak h x hA
        refine ⟨g', _, ?_, ?_, h', hg, ht⟩
        · exact div_pos hx (lt_of_le_of_ne (absMax_nonneg' f) (Ne.symm hA))
        · simp only [Laser.normalize, if_neg (show ¬ ("field" = "energy") by decide), if_true]
          exact onGrid_eq e

/-- a call that is neither a normalisation nor a resampling keeps the cells -/
theorem LaserOp.cells (ax : Axiprop) (o : LaserOp) (hn : ∀ v kind, o ≠ .normalize v kind)
    (hg : ∀ a, o = .propagate a → a.grid = none) (l : Laser s) (hl : l.Ready) {L : Σ s, Laser s}
    (h : o.run ax ⟨s, l⟩ = (.ok (), L)) :
    ∃ l' : Laser s, L = ⟨s, l'⟩ ∧ ∀ j, l'.grid.cellVolume j = l.grid.cellVolume j := by
  obtain ⟨⟨f, hf⟩, hc⟩ := hl
  cases o with
  | normalize v kind => exact absurd rfl (hn v kind)
  | optics el =>
    obtain ⟨l', e, -, k1, k2, -⟩ := C19_apply_optics l f hf el
    simp only [LaserOp.run, onLaser, e, Prod.mk.injEq, true_and] at h
    exact ⟨l', h.symm, fun j => by simp [Grid.cellVolume, k1, k2]⟩
  | propagate a =>
    have hag := hg a rfl
    obtain ⟨b0, hb0⟩ := hc.uses a.backend
    rcases hw : l.layerOf a.nrBoundary with e | w
    · obtain ⟨g', e', -⟩ := propagateHere_err ax a.distance a.backend l f hf a.nrBoundary hw
      simp [LaserOp.run, Laser.propagate, hag, e'] at h
    · obtain ⟨l', e, -, k1, k2, -⟩ := propagateHere_ok ax a.distance b0 a.backend l f hf hb0 a.nrBoundary hw
      simp only [LaserOp.run, Laser.propagate, hag, e, Prod.mk.injEq, true_and] at h
      refine ⟨l', h.symm, fun j => ?_⟩
      simp only [Grid.cellVolume, k1, k2]
      cases l.grid.geom <;> simp [cellVolumeRT, cellVolumeXYT, Axis.shift]

/-- the history with and without its normalisations -/
theorem runOps_dropNormalize (ax : Axiprop) (hax : ax.Superposes) (os : List LaserOp) (hp : PositiveTargets os)
    (hg : NoGrids os) (l l0 : Laser s) (hs : SameSetup l l0) (hl : l.Ready) (hv : ∀ j, 0 ≤ l.grid.cellVolume j)
    (f : Field s) (r : ℝ) (hr : 0 < r) (hf : l.Has (f.times r)) (hf0 : l0.Has f) {L : Σ s, Laser s}
    (h : runOps ax os ⟨s, l⟩ = (.ok (), L)) :
    ∃ (l' l0' : Laser s) (f' : Field s) (r' : ℝ), L = ⟨s, l'⟩ ∧ runOps ax (dropNormalize os) ⟨s, l0⟩ = (.ok (), ⟨s, l0'⟩) ∧
      SameSetup l' l0' ∧ (∀ j, l'.grid.cellVolume j = l.grid.cellVolume j) ∧ 0 < r' ∧ l'.Has (f'.times r') ∧
      l0'.Has f' := by
  induction os generalizing l l0 f r with
  | nil =>
    simp only [runOps, Py.pure_apply, Prod.mk.injEq, true_and] at h
    exact ⟨l, l0, f, r, h.symm, rfl, hs, fun _ => rfl, hr, hf, hf0⟩
  | cons o os ih =>
    have hp' : PositiveTargets os := fun o ho => hp o (by simp [ho])
    have hg' : NoGrids os := fun o ho => hg o (by simp [ho])
    simp only [runOps, Py.bind_apply] at h
    by_cases hno : ∃ v kind, o = .normalize v kind
    · obtain ⟨v, kind, rfl⟩ := hno
      obtain ⟨hk, hx⟩ := hp _ (by simp) v kind rfl
      obtain ⟨g', q, hq, e, hh, k1, k2⟩ := normalize_times l _ hf hv v kind hk hx
      simp only [LaserOp.run, onLaser, e] at h
      rw [Field.times_times] at hh
      have hcv : ∀ j, g'.cellVolume j = l.grid.cellVolume j := fun j => by simp [Grid.cellVolume, k1, k2]
      obtain ⟨l', l0', f', r', q1, q2, q3, q4, q5⟩ := ih hp' hg' { l with grid := g' } l0
        ⟨hs.geom.trans k1.symm, hs.t.trans k2.symm, hs.omega0, hs.omega, hs.prop⟩
        ⟨⟨_, hh⟩, by
          rcases hl.2 with hc | ⟨b, hc⟩
          · exact .inl hc
          · exact .inr ⟨b, hc.trans (buildProp_congr (l' := l) (l := { l with grid := g' }) k1.symm rfl b)⟩⟩
        (fun j => by rw [hcv]; exact hv j) f (r * q) (mul_pos hr hq) hh hf0 h
      exact ⟨l', l0', f', r', q1, q2, q3, fun j => (q4 j).trans (hcv j), q5⟩
    · have hn : ∀ v kind, o ≠ .normalize v kind := fun v kind he => hno ⟨v, kind, he⟩
      rcases h1 : o.run ax ⟨s, l⟩ with ⟨e | u, L1⟩
      · simp [h1] at h
      simp only [h1] at h
      have hgo : ∀ a, o = .propagate a → a.grid = none := fun a ha => hg o (by simp) a ha
      have hgg : ∀ a, o = .propagate a → ∀ g, a.grid = some g → ∃ st, g.2.Holds st := by
        intro a ha g hgr
        rw [hgo a ha] at hgr
        cases hgr
      obtain ⟨l1, rfl, hcv⟩ := LaserOp.cells ax o hn hgo l hl h1
      obtain ⟨A, hA, key⟩ := LaserOp.linear ax hax o hn l hl hgg s l1 h1
      obtain ⟨hr1, -⟩ := LaserOp.run_inv ax o ⟨s, l⟩ ⟨s, l1⟩ hl hgg h1
      obtain ⟨l1a, e1, -, hh1⟩ := key l (f.times r) ⟨rfl, rfl, rfl, rfl, rfl⟩ hf
      have : l1a = l1 := by
        rw [h1] at e1
        simpa using e1.symm
      subst this
      obtain ⟨l01, e0, hs1, hh0⟩ := key l0 f hs hf0
      have hAt : A (f.times r) = (A f).times r := by
        have := hA (r : ℂ) 0 f f
        simp only [zero_mul, add_zero] at this
        have e2 : f.times r = fun i j k => (r : ℂ) * f i j k := by funext i j k; simp [Field.times, mul_comm]
        rw [e2, this]
        funext i j k
        simp [Field.times, mul_comm]
      rw [hAt] at hh1
      obtain ⟨l', l0', f', r', q1, q2, q3, q4, q5⟩ := ih hp' hg' l1a l01 hs1 hr1
        (fun j => by rw [hcv]; exact hv j) (A f) r hr hh1 hh0 h
      refine ⟨l', l0', f', r', q1, ?_, q3, fun j => (q4 j).trans (hcv j), q5⟩
      have hd : dropNormalize (o :: os) = o :: dropNormalize os := by
        cases o with
        | normalize v kind => exact absurd rfl (hn v kind)
        | optics el => rfl
        | propagate a => rfl
      rw [hd]
      simp only [runOps, Py.bind_apply, e0]
      exact q2

/-- the final normalisation forgets a positive factor -/
theorem normalize_forgets (l l0 : Laser s) (hs : SameSetup l l0) (f : Field s) (r : ℝ) (hr : 0 < r)
    (hf : l.Has (f.times r)) (hf0 : l0.Has f) (x : ℝ) (kind : String)
    (hk : (kind = "energy" ∧ l0.energy ≠ .ok 0) ∨ kind = "field" ∧ absMax f ≠ 0) :
    ∃ (l' l0' : Laser s) (f' : Field s), Laser.normalize (some x) kind l = (.ok (), l') ∧
      Laser.normalize (some x) kind l0 = (.ok (), l0') ∧ l'.Has f' ∧ l0'.Has f' ∧ SameSetup l' l0' := by
  have hpe : ∀ F, pulseEnergy l0.grid F = pulseEnergy l.grid F := fun F => pulseEnergy_congr hs.geom hs.t F
  rcases hk with ⟨rfl, hE⟩ | ⟨rfl, hA⟩
  · have hE0 : pulseEnergy l0.grid f ≠ 0 := by
      intro h0
      apply hE
      obtain ⟨g, e, -⟩ := Grid.Holds.energy hf0
      simp only [Laser.energy, e, h0]
    have hE1 : pulseEnergy l.grid (f.times r) = r ^ 2 * pulseEnergy l0.grid f := by rw [pulseEnergy_times, hpe]
    obtain ⟨g1, e1, h1, a1, b1⟩ := Grid.Holds.normEnergy hf x (by rw [hE1]; positivity)
    obtain ⟨g0, e0, h0, a0, b0⟩ := Grid.Holds.normEnergy hf0 x hE0
    refine ⟨{ l with grid := g1 }, { l0 with grid := g0 }, _, ?_, ?_, ?_, h0, ?_⟩
    · simp only [Laser.normalize, if_true]; exact onGrid_eq e1
    · simp only [Laser.normalize, if_true]; exact onGrid_eq e0
    · have : (fun i j k => f.times r i j k * (Real.sqrt (x / pulseEnergy l.grid (f.times r)) : ℂ)) =
          fun i j k => f i j k * (Real.sqrt (x / pulseEnergy l0.grid f) : ℂ) := by
        funext i j k
        have hq : r * Real.sqrt (x / pulseEnergy l.grid (f.times r)) = Real.sqrt (x / pulseEnergy l0.grid f) := by
          rw [hE1, ← div_div, div_right_comm, Real.sqrt_div' _ (sq_nonneg r), Real.sqrt_sq hr.le]
          field_simp
        simp only [Field.times, mul_assoc, ← ofReal_mul, hq]
      rw [this] at h1
      exact h1
    · exact ⟨by simp only [a0, a1]; exact hs.geom, by simp only [b0, b1]; exact hs.t, hs.omega0, hs.omega, hs.prop⟩
  · have hA1 := absMax_times f hr
    obtain ⟨g1, e1, h1, a1, b1⟩ := Grid.Holds.normPeak hf x (by rw [hA1]; exact mul_ne_zero hr.ne' hA)
    obtain ⟨g0, e0, h0, a0, b0⟩ := Grid.Holds.normPeak hf0 x hA
    have hne : ¬ ("field" = "energy") := by decide
    refine ⟨{ l with grid := g1 }, { l0 with grid := g0 }, _, ?_, ?_, ?_, h0, ?_⟩
    · simp only [Laser.normalize, hne, if_false, if_true]; exact onGrid_eq e1
    · simp only [Laser.normalize, hne, if_false, if_true]; exact onGrid_eq e0
    · have : (fun i j k => f.times r i j k * ((x / absMax (f.times r) : ℝ) : ℂ)) =
          fun i j k => f i j k * ((x / absMax f : ℝ) : ℂ) := by
        funext i j k
        have hq : r * (x / absMax (f.times r)) = x / absMax f := by
          rw [hA1]
          field_simp
        simp only [Field.times, mul_assoc, ← ofReal_mul, hq]
      rw [this] at h1
      exact h1
    · exact ⟨by simp only [a0, a1]; exact hs.geom, by simp only [b0, b1]; exact hs.t, hs.omega0, hs.omega, hs.prop⟩

omit [Phys] in
theorem absMax_ne_zero {f : Field s} (h : ∃ i j k, f i j k ≠ 0) : absMax f ≠ 0 := by
  obtain ⟨i, j, k, hn⟩ := h
  have hb : BddAbove (Set.range fun p : Fin s.n0 × Fin s.n1 × Fin s.nt => ‖f p.1 p.2.1 p.2.2‖) := (Set.finite_range _).bddAbove
  have := le_ciSup hb (i, j, k)
  have h0 : 0 < ‖f i j k‖ := norm_pos_iff.2 hn
  simp only [absMax]
  exact (lt_of_lt_of_le h0 this).ne'

omit [Phys] in
theorem exists_ne_of_absMax {f : Field s} (h : absMax f ≠ 0) : ∃ i j k, f i j k ≠ 0 := by
  by_contra hn
  push Not at hn
  apply h
  simp [absMax, hn]

theorem runOps_normalize (ax : Axiprop) (os : List LaserOp) (L : Σ s, Laser s) {l l' : Laser s} (v : Option ℝ) (kind : String)
    (h : runOps ax os L = (.ok (), ⟨s, l⟩)) (hn : Laser.normalize v kind l = (.ok (), l')) :
    runOps ax (os ++ [.normalize v kind]) L = (.ok (), ⟨s, l'⟩) := by
  rw [runOps_append ax os _ L h]
  simp only [runOps, LaserOp.run, onLaser, Py.bind_apply, hn]
  rfl

/-- **C141.** Only the last normalisation matters. Take any history of `apply_optics`, `propagate` (with absorbing layers
and any backend, on the grid of the laser) and normalisations of the energy or of the peak field to positive values (or
`None`), in any order and number, which runs on a laser just built. Then the same history without its normalisations
runs too, and if both end with the same `normalize` - to an energy, the energy before it not being zero, or to a peak
field, the field not being zero everywhere - the two lasers end up with the same field on the same axes. -/
theorem C141_last_normalisation (ax : Axiprop) (hax : ax.Superposes) (os : List LaserOp) (hp : PositiveTargets os)
    (hg : NoGrids os) {dim : String} {lo hi : List ℝ} {np : List ℕ} {m N : Option ℕ} {p : ProfileObj} {l : Laser s}
    (hi : Laser.init dim lo hi np p m N = .ok ⟨s, l⟩) (hv : ∀ j, 0 ≤ l.grid.cellVolume j) {L : Σ s, Laser s}
    (hr : runOps ax os ⟨s, l⟩ = (.ok (), L)) :
    ∃ l1 l2 : Laser s, L = ⟨s, l1⟩ ∧ runOps ax (dropNormalize os) ⟨s, l⟩ = (.ok (), ⟨s, l2⟩) ∧
      ∀ (x : ℝ) (kind : String), (kind = "energy" ∧ l1.energy ≠ .ok 0) ∨
        (kind = "field" ∧ ∀ f, l1.Has f → ∃ i j k, f i j k ≠ 0) →
      ∃ (l1' l2' : Laser s) (f : Field s), runOps ax (os ++ [.normalize (some x) kind]) ⟨s, l⟩ = (.ok (), ⟨s, l1'⟩) ∧
        runOps ax (dropNormalize os ++ [.normalize (some x) kind]) ⟨s, l⟩ = (.ok (), ⟨s, l2'⟩) ∧
        l1'.Has f ∧ l2'.Has f ∧ l2'.grid.geom = l1'.grid.geom ∧ l2'.grid.t = l1'.grid.t := by
  have hl := Laser.ready_of_init hi
  obtain ⟨f0, hf0⟩ := hl.1
  obtain ⟨l1, l2, f', r', rfl, e2, hs, -, hr', h1, h2⟩ := runOps_dropNormalize ax hax os hp hg l l ⟨rfl, rfl, rfl, rfl, rfl⟩
    hl hv f0 1 one_pos (by rw [Field.times_one]; exact hf0) hf0 hr
  refine ⟨l1, l2, rfl, e2, fun x kind hk => ?_⟩
  have hk' : (kind = "energy" ∧ l2.energy ≠ .ok 0) ∨ kind = "field" ∧ absMax f' ≠ 0 := by
    rcases hk with ⟨hk, hE⟩ | ⟨hk, hA⟩
    · refine .inl ⟨hk, fun h0 => hE ?_⟩
      obtain ⟨g2, q2, -⟩ := Grid.Holds.energy h2
      obtain ⟨g1, q1, -⟩ := Grid.Holds.energy h1
      simp only [Laser.energy, q2, Except.ok.injEq] at h0
      simp only [Laser.energy, q1, pulseEnergy_times, Except.ok.injEq]
      rw [← pulseEnergy_congr hs.geom hs.t, h0, mul_zero]
    · refine .inr ⟨hk, absMax_ne_zero ?_⟩
      obtain ⟨i, j, k, hn⟩ := hA _ h1
      exact ⟨i, j, k, fun h0 => hn (by simp [Field.times, h0])⟩
  obtain ⟨l1', l2', f, q1, q2, q3, q4, q5⟩ := normalize_forgets l1 l2 hs f' r' hr' h1 h2 x kind hk'
  exact ⟨l1', l2', f, runOps_normalize ax _ _ _ _ hr q1, runOps_normalize ax _ _ _ _ e2 q2, q3, q4, q5.geom, q5.t⟩

/-- elements of modulus one, and propagations without absorbing layer on the grid of the laser -/
def Lossless (os : List LaserOp) : Prop :=
  ∀ o ∈ os, (∃ el : OpticalElement, o = .optics el ∧ ∀ x y w w0, ‖el.mult x y w w0‖ = 1) ∨
    ∃ d b, o = .propagate ⟨d, none, none, b⟩

/-- a lossless line keeps the energy -/
theorem runOps_lossless (ax : Axiprop) (hax : ax.Unitary) (os : List LaserOp) (ho : Lossless os) (l : Laser s) (hl : l.Ready)
    : ∃ l' : Laser s, runOps ax os ⟨s, l⟩ = (.ok (), ⟨s, l'⟩) ∧ l'.energy = l.energy := by
  induction os generalizing l with
  | nil => exact ⟨l, rfl, rfl⟩
  | cons o os ih =>
    have ho' : Lossless os := fun o h => ho o (by simp [h])
    obtain ⟨⟨f, hf⟩, hc⟩ := hl
    rcases ho o (by simp) with ⟨el, rfl, hel⟩ | ⟨d, b, rfl⟩
    · obtain ⟨l1, e1, h1⟩ := C20_pure_phase l f hf el hel
      have hr : (LaserOp.optics el).run ax ⟨s, l⟩ = (.ok (), ⟨s, l1⟩) := by simp only [LaserOp.run, onLaser, e1]
      obtain ⟨hr1, -⟩ := LaserOp.run_inv ax _ ⟨s, l⟩ ⟨s, l1⟩ ⟨⟨f, hf⟩, hc⟩ (by intro a ha; cases ha) hr
      obtain ⟨l2, e2, h2⟩ := ih ho' l1 hr1
      exact ⟨l2, by simp only [runOps, Py.bind_apply, hr, e2], h2.trans h1⟩
    · obtain ⟨l1, e1, h1⟩ := C27_energy ax hax [⟨d, none, none, b⟩] l ⟨⟨f, hf⟩, hc⟩ (by simp)
      have hr : (LaserOp.propagate ⟨d, none, none, b⟩).run ax ⟨s, l⟩ = (.ok (), ⟨s, l1⟩) := by
        rcases hq : Laser.propagate ax d none none b ⟨s, l⟩ with ⟨e | u, L1⟩
        · simp [propagateAll, Py.bind_apply, hq] at e1
        · simp only [propagateAll, Py.bind_apply, hq, Py.pure_apply] at e1
          simp only [LaserOp.run, hq]
          exact e1
      obtain ⟨hr1, -⟩ := LaserOp.run_inv ax _ ⟨s, l⟩ ⟨s, l1⟩ ⟨⟨f, hf⟩, hc⟩
        (by intro a ha g hg; cases ha; cases hg) hr
      obtain ⟨l2, e2, h2⟩ := ih ho' l1 hr1
      exact ⟨l2, by simp only [runOps, Py.bind_apply, hr, e2], h2.trans h1⟩

/-- **C141**: normalising the energy commutes with a lossless beam line. If the steps of the external propagator are
linear and conserve the energy, then normalising a laser just built, of positive energy, to `E > 0` and sending it
through mirrors, axicons, spectral phases and free propagations gives the same field on the same axes as sending it
through and normalising at the end. -/
theorem C141_commutes (ax : Axiprop) (hax : ax.Superposes) (hau : ax.Unitary) (os : List LaserOp) (ho : Lossless os)
    {dim : String} {lo hi : List ℝ} {np : List ℕ} {m N : Option ℕ} {p : ProfileObj} {l : Laser s}
    (hi : Laser.init dim lo hi np p m N = .ok ⟨s, l⟩) (hv : ∀ j, 0 ≤ l.grid.cellVolume j) {E0 : ℝ} (hE0 : l.energy = .ok E0)
    (hpos : 0 < E0) {E : ℝ} (hE : 0 < E) :
    ∃ (l1 l2 : Laser s) (f : Field s), runOps ax (.normalize (some E) "energy" :: os) ⟨s, l⟩ = (.ok (), ⟨s, l1⟩) ∧
      runOps ax (os ++ [.normalize (some E) "energy"]) ⟨s, l⟩ = (.ok (), ⟨s, l2⟩) ∧ l1.Has f ∧ l2.Has f ∧
      l1.energy = .ok E ∧ l2.grid.geom = l1.grid.geom ∧ l2.grid.t = l1.grid.t := by
  have hl := Laser.ready_of_init hi
  obtain ⟨f0, hf0⟩ := hl.1
  have hP : pulseEnergy l.grid f0 = E0 := by
    obtain ⟨g, q, -⟩ := Grid.Holds.energy hf0
    simpa only [Laser.energy, q, Except.ok.injEq] using hE0
  obtain ⟨g', e1, h1, k1, k2⟩ := Grid.Holds.normEnergy hf0 E (by rw [hP]; exact hpos.ne')
  set ln : Laser s := { l with grid := g' } with hln
  have en : (LaserOp.normalize (some E) "energy").run ax ⟨s, l⟩ = (.ok (), ⟨s, ln⟩) := by
    have : Laser.normalize (some E) "energy" l = (.ok (), ln) := by
      simp only [Laser.normalize, if_true]
      exact onGrid_eq e1
    simp only [LaserOp.run, onLaser, this]
  obtain ⟨hrn, -⟩ := LaserOp.run_inv ax _ ⟨s, l⟩ ⟨s, ln⟩ hl (by intro a ha; cases ha) en
  have hEn : ln.energy = .ok E := by
    obtain ⟨g, q, -⟩ := Grid.Holds.energy (show ln.Has (f0.times (Real.sqrt (E / pulseEnergy l.grid f0))) from h1)
    simp only [Laser.energy, q, Except.ok.injEq]
    rw [pulseEnergy_times, pulseEnergy_congr (g' := ln.grid) (g := l.grid) k1 k2, hP, Real.sq_sqrt (div_nonneg hE.le hpos.le)]
    field_simp
  obtain ⟨l1, er, hE1⟩ := runOps_lossless ax hau os ho ln hrn
  have hfirst : runOps ax (.normalize (some E) "energy" :: os) ⟨s, l⟩ = (.ok (), ⟨s, l1⟩) := by
    simp only [runOps, Py.bind_apply, en, er]
  have hnn : dropNormalize os = os := by
    clear er hfirst
    induction os with
    | nil => rfl
    | cons o os ih =>
      have := ih fun o h => ho o (by simp [h])
      rcases ho o (by simp) with ⟨el, rfl, -⟩ | ⟨d, b, rfl⟩ <;> simp [dropNormalize, this]
  obtain ⟨l1', l2, f', r', hL, e2, hs, -, hr', q1, q2⟩ := runOps_dropNormalize ax hax (.normalize (some E) "energy" :: os)
    (by
      intro o hm v kind hok
      rcases List.mem_cons.1 hm with rfl | hm
      · cases hok
        exact ⟨.inl rfl, fun x hx => by cases hx; exact hE⟩
      · rcases ho o hm with ⟨el, rfl, -⟩ | ⟨d, b, rfl⟩ <;> cases hok)
    (by
      intro o hm a hoa
      rcases List.mem_cons.1 hm with rfl | hm
      · cases hoa
      · rcases ho o hm with ⟨el, rfl, -⟩ | ⟨d, b, rfl⟩ <;> cases hoa; rfl)
    l l ⟨rfl, rfl, rfl, rfl, rfl⟩ hl hv f0 1 one_pos (by rw [Field.times_one]; exact hf0) hf0 hfirst
  obtain rfl : l1 = l1' := by simpa using hL
  simp only [dropNormalize, hnn] at e2
  have hPf : r' ^ 2 * pulseEnergy l2.grid f' = E := by
    obtain ⟨g, q, -⟩ := Grid.Holds.energy q1
    have := hE1.trans hEn
    simp only [Laser.energy, q, Except.ok.injEq, pulseEnergy_times] at this
    rw [pulseEnergy_congr hs.geom hs.t]
    exact this
  have hne : pulseEnergy l2.grid f' ≠ 0 := by
    intro h0
    rw [h0, mul_zero] at hPf
    exact hE.ne hPf
  obtain ⟨g2, e3, h3, a1, a2⟩ := Grid.Holds.normEnergy q2 E hne
  have hsq : Real.sqrt (E / pulseEnergy l2.grid f') = r' := by
    rw [← hPf, mul_div_assoc, div_self hne, mul_one, Real.sqrt_sq hr'.le]
  rw [hsq] at h3
  refine ⟨l1, { l2 with grid := g2 }, f'.times r', hfirst, ?_, q1, h3, hE1.trans hEn, ?_, ?_⟩
  · refine runOps_normalize ax _ _ _ _ e2 ?_
    simp only [Laser.normalize, if_true]
    exact onGrid_eq e3
  · simp only [a1]; exact hs.geom
  · simp only [a2]; exact hs.t

/-- C141 is not vacuous: a laser normalised to 5 J, reflected by a mirror and propagated -/
example : ∃ (l : Laser ⟨2, 2, 2⟩) (p : ProfileObj) (E0 : ℝ) (os : List LaserOp) (L : Σ s, Laser s),
    Laser.init "xyt" [0, 0, 0] [1, 1, 1] [2, 2, 2] p none none = .ok ⟨_, l⟩ ∧ (∀ j, 0 ≤ l.grid.cellVolume j) ∧
    l.energy = .ok E0 ∧ 0 < E0 ∧ Lossless os ∧ os.length = 2 ∧ PositiveTargets (.normalize (some 5) "energy" :: os) ∧
    NoGrids (.normalize (some 5) "energy" :: os) ∧
    runOps Axiprop.freeSpace (.normalize (some 5) "energy" :: os) ⟨_, l⟩ = (.ok (), L) ∧ L.2.energy ≠ .ok 0 := by
  obtain ⟨l, E0, hi, hf, hE, hpos⟩ := constLaser
  have hv : ∀ j, 0 ≤ l.grid.cellVolume j := by
    obtain ⟨g, f', hg, -, hgeo, ht, -⟩ := Laser.init_facts hi
    obtain ⟨-, -, -, -, hc⟩ := Grid.init_ok hg
    rcases hc with ⟨_, _, _, _, _, _, _, _, h, -⟩ |
      ⟨l0, l1, l2, u0, u1, u2, x, y, t, -, e2, e3, e4, e5, e6, e7, e8, e9⟩
    · exact absurd h (by decide)
    simp only [List.cons.injEq, and_true] at e2 e3
    obtain ⟨rfl, rfl, rfl⟩ := e2
    obtain ⟨rfl, rfl, rfl⟩ := e3
    obtain ⟨_, hx⟩ := mkAxis_ok e5
    obtain ⟨_, hy⟩ := mkAxis_ok e6
    obtain ⟨_, htt⟩ := mkAxis_ok e7
    have d1 : x.dx = 1 := by rw [hx]; simp [linspace]; norm_num
    have d2 : y.dx = 1 := by rw [hy]; simp [linspace]; norm_num
    have d3 : t.dx = 1 := by rw [htt]; simp [linspace]; norm_num
    have hc := c_pos
    intro j
    simp only [Grid.cellVolume, hgeo, ht, e8, e9, cellVolumeXYT, d1, d2, d3]
    positivity
  have ho : Lossless [.optics (parabolicMirror 1), .propagate ⟨3, none, none, "NP"⟩] := by
    intro o ho
    simp at ho
    rcases ho with rfl | rfl
    · exact .inl ⟨_, rfl, fun x y w _ => norm_exp_I_mul (-w * (x ^ 2 + y ^ 2) / (2 * c * 1)) _ (by push_cast; ring)⟩
    · exact .inr ⟨_, _, rfl⟩
  obtain ⟨l1, l2, f, e1, -, -, -, hE1, -⟩ := C141_commutes Axiprop.freeSpace Axiprop.freeSpace_superposes
    Axiprop.freeSpace_unitary _ ho hi hv hE hpos (E := 5) (by norm_num)
  refine ⟨l, _, E0, _, _, hi, hv, hE, hpos, ho, rfl, ?_, ?_, e1, ?_⟩
  · intro o hm v kind hok
    simp at hm
    rcases hm with rfl | rfl | rfl <;> cases hok
    exact ⟨.inl rfl, fun x hx => by cases hx; norm_num⟩
  · intro o hm a hoa
    simp at hm
    rcases hm with rfl | rfl | rfl <;> cases hoa
    rfl
  · rw [show (⟨⟨2, 2, 2⟩, l1⟩ : Σ s, Laser s).2.energy = .ok 5 from hE1]
    simp

end Lasy
