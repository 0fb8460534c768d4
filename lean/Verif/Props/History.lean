import Verif.Props.Propagate2

/-!
# Properties C19, C74: whole histories of a laser
-/

namespace Lasy
open Spec Phys Complex

variable {s : Shape} [Phys]

/-- the calls by which a user changes a laser -/
inductive LaserOp
  | optics (el : OpticalElement)
  | normalize (value : Option ℝ) (kind : String)
  | propagate (a : PropCall)

/-- call a method that keeps the shape -/
def onLaser (m : ∀ s, Py (Laser s) Unit) : Py (Σ s, Laser s) Unit := fun L =>
  match m L.1 L.2 with
  | (r, l) => (r, ⟨L.1, l⟩)

/-- one call -/
noncomputable def LaserOp.run (ax : Axiprop) : LaserOp → Py (Σ s, Laser s) Unit
  | .optics el => onLaser fun _ => Laser.applyOptics el
  | .normalize v kind => onLaser fun _ => Laser.normalize v kind
  | .propagate a => Laser.propagate ax a.distance a.nrBoundary a.grid a.backend

/-- a history of calls; it stops at the first exception -/
noncomputable def runOps (ax : Axiprop) : List LaserOp → Py (Σ s, Laser s) Unit
  | [] => return ()
  | o :: os => do
    o.run ax
    runOps ax os

/-- grids passed to `propagate` are envelope grids -/
def GoodGrids (os : List LaserOp) : Prop :=
  ∀ o ∈ os, ∀ a, o = .propagate a → ∀ g, a.grid = some g → ∃ st, g.2.Holds st

/-- the distance travelled -/
def travelled : List LaserOp → ℝ
  | [] => 0
  | .propagate a :: os => a.distance + travelled os
  | _ :: os => travelled os

/-- `normalize`, whatever it does, leaves a laser that holds a field, on the same axes -/
theorem normalize_keeps (l : Laser s) (f : Field s) (h : l.Has f) (v : Option ℝ) (kind : String) :
    ∃ (r : Except PyErr Unit) (g' : Grid s) (f' : Field s),
      Laser.normalize v kind l = (r, { l with grid := g' }) ∧ g'.Holds (some f') ∧
      g'.geom = l.grid.geom ∧ g'.t = l.grid.t := by
  have id : ∃ (r : Except PyErr Unit) (g' : Grid s) (f' : Field s),
      ((.ok (), l) : Except PyErr Unit × Laser s) = (r, { l with grid := g' }) ∧ g'.Holds (some f') ∧
      g'.geom = l.grid.geom ∧ g'.t = l.grid.t := ⟨.ok (), l.grid, f, rfl, h, rfl, rfl⟩
  unfold Laser.normalize
  split
  · cases v with
    | none => exact id
    | some E =>
      by_cases hE : pulseEnergy l.grid f = 0
      · obtain ⟨g', e, h', hg, ht⟩ := Grid.Holds.normEnergy_zero h E hE
        exact ⟨_, g', _, onGrid_eq e, h', hg, ht⟩
      · obtain ⟨g', e, h', hg, ht⟩ := Grid.Holds.normEnergy h E hE
        exact ⟨_, g', _, onGrid_eq e, h', hg, ht⟩
  split
  · cases v with
    | none => exact id
    | some A =>
      by_cases hA : absMax f = 0
      · obtain ⟨g', e, h', hg, ht⟩ := Grid.Holds.normPeak_zero h A hA
        exact ⟨_, g', _, onGrid_eq e, h', hg, ht⟩
      · obtain ⟨g', e, h', hg, ht⟩ := Grid.Holds.normPeak h A hA
        exact ⟨_, g', _, onGrid_eq e, h', hg, ht⟩
  split
  · cases v with
    | none => exact id
    | some E =>
      obtain ⟨g', e, h', hg, ht⟩ := Grid.Holds.getT h
      by_cases hp : (absMax fun i j k => (eps0 : ℂ) * f i j k ^ 2 / 2 * (c : ℂ)) = 0
      · refine ⟨.ok (), g', f, onGrid_eq ?_, h', hg, ht⟩
        simp only [normalizePeakIntensity, Py.bind_apply, e, hp, if_true, Py.pure_apply]
      · refine ⟨.error .assertion, g', f, onGrid_eq ?_, h', hg, ht⟩
        simp only [normalizePeakIntensity, Py.bind_apply, e, hp, if_false]
        simp [Grid.setTemporalField, Py.bind_apply, Shape.toList]
  · exact ⟨_, l.grid, f, rfl, h, rfl, rfl⟩

/-- one successful call of any kind -/
theorem LaserOp.run_inv (ax : Axiprop) (o : LaserOp) (L L' : Σ s, Laser s) (hL : L.2.Ready)
    (hg : ∀ a, o = .propagate a → ∀ g, a.grid = some g → ∃ st, g.2.Holds st)
    (h : o.run ax L = (.ok (), L')) :
    L'.2.Ready ∧ L'.2.profile = L.2.profile ∧ ∃ hnt : L'.1.nt = L.1.nt,
      (∀ k, L'.2.grid.t.pts k = L.2.grid.t.pts (Fin.cast hnt k) + travelled [o] / c) ∧
      (∀ k, L'.2.omega1d k = L.2.omega1d (Fin.cast hnt k)) := by
  obtain ⟨s, l⟩ := L
  obtain ⟨⟨f, hf⟩, hc⟩ := hL
  cases o with
  | optics el =>
    obtain ⟨l', e, h', hgeo, ht, hp, ho, hpr, -⟩ := C19_apply_optics l f hf el
    simp only [LaserOp.run, onLaser, e, Prod.mk.injEq, true_and] at h
    subst h
    refine ⟨⟨⟨_, h'⟩, ?_⟩, hp, rfl, ?_, ?_⟩
    · rcases hc with hc | ⟨b, hc⟩
      · exact .inl (hpr.trans hc)
      · exact .inr ⟨b, by rw [hpr, hc, buildProp_congr hgeo ho]⟩
    · intro k; simp [ht, travelled]
    · intro k; simp [ho]
  | normalize v kind =>
    obtain ⟨r, g', f', e, h', hgeo, ht⟩ := normalize_keeps l f hf v kind
    simp only [LaserOp.run, onLaser, e, Prod.mk.injEq] at h
    obtain ⟨-, h⟩ := h
    subst h
    refine ⟨⟨⟨f', h'⟩, ?_⟩, rfl, rfl, ?_, fun k => rfl⟩
    · rcases hc with hc | ⟨b, hc⟩
      · exact .inl hc
      · exact .inr ⟨b, hc.trans (buildProp_congr (l' := l) (l := { l with grid := g' }) hgeo.symm rfl b)⟩
    · intro k; simp [ht, travelled]
  | propagate a =>
    obtain ⟨h1, h2, -, -, hnt, h3, h4, -⟩ :=
      propagate_inv ax a ⟨s, l⟩ L' ⟨⟨f, hf⟩, hc⟩ (fun g hg' => hg a rfl g hg') h
    exact ⟨h1, h2, hnt, by simpa [travelled] using h3, h4⟩

theorem runOps_inv (ax : Axiprop) (os : List LaserOp) (L L' : Σ s, Laser s) (hL : L.2.Ready)
    (hg : GoodGrids os) (h : runOps ax os L = (.ok (), L')) :
    L'.2.Ready ∧ L'.2.profile = L.2.profile ∧ ∃ hnt : L'.1.nt = L.1.nt,
      (∀ k, L'.2.grid.t.pts k = L.2.grid.t.pts (Fin.cast hnt k) + travelled os / c) ∧
      (∀ k, L'.2.omega1d k = L.2.omega1d (Fin.cast hnt k)) := by
  induction os generalizing L with
  | nil =>
    simp only [runOps, Py.pure_apply, Prod.mk.injEq, true_and] at h
    subst h
    exact ⟨hL, rfl, rfl, by intro k; simp [travelled], by intro k; rfl⟩
  | cons o os ih =>
    simp only [runOps, Py.bind_apply] at h
    rcases h1 : o.run ax L with ⟨e | u, L1⟩
    · simp [h1] at h
    · simp only [h1] at h
      obtain ⟨r1, p1, nt1, pts1, om1⟩ := LaserOp.run_inv ax o L L1 hL (fun a ha => hg o (by simp) a ha) h1
      obtain ⟨r2, p2, nt2, pts2, om2⟩ := ih L1 r1 (fun b hb => hg b (by simp [hb])) h
      refine ⟨r2, p2.trans p1, nt2.trans nt1, ?_, ?_⟩
      · intro k
        rw [pts2, pts1]
        have : travelled (o :: os) = travelled [o] + travelled os := by
          cases o <;> simp [travelled]
        rw [this, add_div, add_assoc]
        rfl
      · intro k; rw [om2, om1]; rfl

/-- the points of the time axis and the frequencies of a constructed laser -/
theorem Laser.init_axis {dim : String} {lo hi : List ℝ} {np : List ℕ} {p : ProfileObj}
    {m : Option ℕ} {N : Option ℕ} {l : Laser s} (h : Laser.init dim lo hi np p m N = .ok ⟨s, l⟩) :
    ∃ h2 : 2 ≤ s.nt, l.grid.t.dx = l.grid.t.pts ⟨1, by omega⟩ - l.grid.t.pts ⟨0, by omega⟩ := by
  obtain ⟨g, f, hg, hf, -, ht, -⟩ := Laser.init_facts h
  obtain ⟨-, -, -, -, hcase⟩ := Grid.init_ok hg
  simp only [ht]
  rcases hcase with ⟨l0, l1, u0, u1, m', r, t, rest, -, -, -, -, -, -, e7, e8, -⟩ |
    ⟨l0, l1, l2, u0, u1, u2, x, y, t, -, -, -, -, -, -, e7, e8, -⟩ <;>
  · obtain ⟨h2', hax⟩ := mkAxis_ok e7
    refine ⟨h2', ?_⟩
    rw [e8, hax]

/-- **C74.** Through every history of successful calls of `apply_optics`, `normalize` and `propagate`
(with or without absorbing layer, backend choice and resampling), a laser that was constructed with the
carrier frequency `ω0`: keeps its profile, holds a field, its time axis has moved by the distance
travelled divided by `c`, and the frequencies it works with are `2π fftfreq(N, dt) + ω0`, where `dt` is
the present spacing of its time axis. -/
theorem C74_history (ax : Axiprop) (os : List LaserOp) {dim : String} {lo hi : List ℝ} {np : List ℕ}
    {p : ProfileObj} {m N : Option ℕ} {l : Laser s} (h : Laser.init dim lo hi np p m N = .ok ⟨s, l⟩)
    (hg : GoodGrids os) {L' : Σ s, Laser s} (hr : runOps ax os ⟨s, l⟩ = (.ok (), L')) :
    L'.2.profile = p ∧ (∃ f, L'.2.Has f) ∧ ∃ (hnt : L'.1.nt = s.nt) (h2 : 2 ≤ L'.1.nt),
      (∀ k, L'.2.grid.t.pts k = l.grid.t.pts (Fin.cast hnt k) + travelled os / c) ∧
      ∀ k, L'.2.omega1d k = 2 * Real.pi *
        fftfreq L'.1.nt (L'.2.grid.t.pts ⟨1, by omega⟩ - L'.2.grid.t.pts ⟨0, by omega⟩) k + p.omega0 := by
  obtain ⟨⟨hF, -⟩, hp, hnt, hpts, hom⟩ := runOps_inv ax os ⟨s, l⟩ L' (Laser.ready_of_init h) hg hr
  have hnt' : L'.1.nt = s.nt := hnt
  obtain ⟨g, f, -, -, -, -, hp0, -, -, ho⟩ := Laser.init_facts h
  obtain ⟨h2, hdx⟩ := Laser.init_axis h
  refine ⟨hp.trans hp0, hF, hnt', by omega, hpts, ?_⟩
  intro k
  rw [hom, ho, hp0, hpts, hpts]
  congr 1
  simp only [fftfreq, hdx, Fin.cast]
  have h3 : fftfreqInt L'.1.nt k = fftfreqInt s.nt ⟨k, by omega⟩ := by simp [fftfreqInt, hnt']
  have h4 : (L'.1.nt : ℝ) = s.nt := by rw [hnt']
  rw [h3, h4]
  congr 3
  ring

/-- **C74** (which frequencies). After every history the frequencies the laser works with are `ω0 + 2π m / (N dt)`, `N`
being the number of points in time and `dt` their present spacing; `m` is the integer with `-N/2 ≤ m < N/2` that differs
from the index by a multiple of `N`. -/
theorem C74_frequencies (ax : Axiprop) (os : List LaserOp) {dim : String} {lo hi : List ℝ} {np : List ℕ}
    {p : ProfileObj} {m N : Option ℕ} {l : Laser s} (h : Laser.init dim lo hi np p m N = .ok ⟨s, l⟩)
    (hg : GoodGrids os) {L' : Σ s, Laser s} (hr : runOps ax os ⟨s, l⟩ = (.ok (), L')) (k : Fin L'.1.nt) :
    ∃ (h2 : 2 ≤ L'.1.nt) (m : ℤ), -(L'.1.nt : ℤ) ≤ 2 * m ∧ 2 * m < L'.1.nt ∧ (L'.1.nt : ℤ) ∣ (k : ℕ) - m ∧
      L'.2.omega1d k = p.omega0 + 2 * Real.pi * m /
        (L'.1.nt * (L'.2.grid.t.pts ⟨1, by omega⟩ - L'.2.grid.t.pts ⟨0, by omega⟩)) := by
  obtain ⟨-, -, _, h2, -, hom⟩ := C74_history ax os h hg hr
  refine ⟨h2, fftfreqInt L'.1.nt k, ?_, ?_, ?_, ?_⟩
  · unfold fftfreqInt
    split_ifs <;> omega
  · unfold fftfreqInt
    have := k.2
    split_ifs <;> omega
  · unfold fftfreqInt
    split_ifs
    · simp
    · exact ⟨1, by ring⟩
  · rw [hom, fftfreq]
    ring

/-- **C19**, for every history: after any history of a constructed laser, `apply_optics(el)` multiplies
the spectral component `k` of the cell at `(x, y)` (in `rt` at `(r, 0)`, every mode) by `el`'s multiplier
at the frequency `ω = 2π fftfreq(N, dt)[k] + ω0` which this component has. -/
theorem C19_history (ax : Axiprop) (os : List LaserOp) {dim : String} {lo hi : List ℝ} {np : List ℕ}
    {p : ProfileObj} {m N : Option ℕ} {l : Laser s} (h : Laser.init dim lo hi np p m N = .ok ⟨s, l⟩)
    (hg : GoodGrids os) {L' : Σ s, Laser s} (hr : runOps ax os ⟨s, l⟩ = (.ok (), L')) (el : OpticalElement) :
    ∃ (h2 : 2 ≤ L'.1.nt) (f : Field L'.1) (l'' : Laser L'.1), L'.2.Has f ∧
      Laser.applyOptics el L'.2 = (.ok (), l'') ∧
      (l''.grid.call .getSpectral).1 = .array ⟨.c128, fun i j k =>
        let w := 2 * Real.pi *
          fftfreq L'.1.nt (L'.2.grid.t.pts ⟨1, by omega⟩ - L'.2.grid.t.pts ⟨0, by omega⟩) k + p.omega0
        idft f i j k * match L'.2.grid.geom with
          | .xyt x y => el.mult (x.pts i) (y.pts j) w p.omega0
          | .rt _ _ r => el.mult (r.pts j) 0 w p.omega0⟩ := by
  obtain ⟨hp, ⟨f, hf⟩, hnt, h2, -, hom⟩ := C74_history ax os h hg hr
  obtain ⟨l'', e, hs⟩ := C19_spectral L'.2 f hf el
  refine ⟨h2, f, l'', hf, e, ?_⟩
  rw [hs]
  congr 2
  funext i j k
  simp only [Tat, hom, hp]
  cases L'.2.grid.geom <;> rfl

/-- a history to which C74 and C19 apply -/
example (ax : Axiprop) : ∃ (l : Laser ⟨2, 2, 2⟩) (L' : Σ s, Laser s) (os : List LaserOp),
    (∃ dim lo hi np p m N, Laser.init dim lo hi np p m N = .ok ⟨⟨2, 2, 2⟩, l⟩) ∧ GoodGrids os ∧
    os.length = 2 ∧ runOps ax os ⟨_, l⟩ = (.ok (), L') ∧ travelled os = 3 := by
  obtain ⟨l, E0, hi, hf, -, -⟩ := constLaser
  obtain ⟨l1, e1, h1, hgeo, ht, hp, ho, hpr, -⟩ := C19_apply_optics l _ hf (parabolicMirror 1)
  have hr := Laser.ready_of_init hi
  have hc1 : l1.CacheOK := by
    rcases hr.2 with hc | ⟨b, hc⟩
    · exact .inl (hpr.trans hc)
    · exact .inr ⟨b, by rw [hpr, hc, buildProp_congr hgeo ho]⟩
  obtain ⟨l2, e2, -⟩ := propagateAll_succeeds ax [⟨3, none, none, "NP"⟩] l1 ⟨⟨_, h1⟩, hc1⟩ (by simp)
  refine ⟨l, ⟨_, l2⟩, [.optics (parabolicMirror 1), .propagate ⟨3, none, none, "NP"⟩],
    ⟨_, _, _, _, _, _, _, hi⟩, ?_, rfl, ?_, by simp [travelled]⟩
  · intro o ho a ha g hg
    simp at ho
    rcases ho with rfl | rfl
    · cases ha
    · cases ha; cases hg
  · simp only [runOps, LaserOp.run, onLaser, Py.bind_apply, e1]
    simp only [propagateAll, Py.bind_apply] at e2
    exact e2

end Lasy
