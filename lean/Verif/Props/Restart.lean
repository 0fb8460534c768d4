import Verif.Props.History
import Verif.Props.OpenPMDRead
import Verif.Props.Profile

/-!
# Property C139: checkpoint and restart

A laser is written to a file; a new laser is built from that file on the window which the first one occupies; the
simulation is continued with the new laser.
-/

namespace Lasy
open Spec Phys Complex

variable {s : Shape} [Phys]

/-- two lasers that a user cannot tell apart by their field, axes and frequencies; `b` is the backend with which both
have propagated so far, if they have -/
structure Twin (b : String) (l l' : Laser s) : Prop where
  geom : l'.grid.geom = l.grid.geom
  t : l'.grid.t = l.grid.t
  omega : l'.omega1d = l.omega1d
  omega0 : l'.profile.omega0 = l.profile.omega0
  field : ∃ f, l.Has f ∧ l'.Has f
  cache : l.Uses b b
  cache' : l'.Uses b b

theorem Laser.Uses.congr {l l' : Laser s} {b : String} (h : l.Uses b b) (hg : l'.grid.geom = l.grid.geom)
    (ho : l'.omega1d = l.omega1d) (hp : l'.prop = l.prop) : l'.Uses b b := by
  rcases h with ⟨h, -⟩ | h
  · exact .inl ⟨hp.trans h, rfl⟩
  · exact .inr (by rw [hp, h, buildProp_congr hg ho])

/-- `normalize` on two grids with the same axes and the same field -/
theorem normalize_twin (l l' : Laser s) (f : Field s) (h : l.Has f) (h' : l'.Has f)
    (hg : l'.grid.geom = l.grid.geom) (ht : l'.grid.t = l.grid.t) (v : Option ℝ) (kind : String) :
    ∃ (r : Except PyErr Unit) (g g' : Grid s) (f' : Field s),
      Laser.normalize v kind l = (r, { l with grid := g }) ∧
      Laser.normalize v kind l' = (r, { l' with grid := g' }) ∧
      g.Holds (some f') ∧ g'.Holds (some f') ∧
      g.geom = l.grid.geom ∧ g'.geom = l.grid.geom ∧ g.t = l.grid.t ∧ g'.t = l.grid.t := by
  have hpe : pulseEnergy l'.grid f = pulseEnergy l.grid f := pulseEnergy_congr hg ht f
  unfold Laser.normalize
  split
  · cases v with
    | none => exact ⟨.ok (), l.grid, l'.grid, f, rfl, rfl, h, h', rfl, hg, rfl, ht⟩
    | some E =>
      by_cases hE : pulseEnergy l.grid f = 0
      · obtain ⟨g1, e1, k1, a1, b1⟩ := Grid.Holds.normEnergy_zero h E hE
        obtain ⟨g2, e2, k2, a2, b2⟩ := Grid.Holds.normEnergy_zero h' E (hpe.trans hE)
        exact ⟨_, g1, g2, _, onGrid_eq e1, onGrid_eq e2, k1, k2, a1, a2.trans hg, b1, b2.trans ht⟩
      · obtain ⟨g1, e1, k1, a1, b1⟩ := Grid.Holds.normEnergy h E hE
        obtain ⟨g2, e2, k2, a2, b2⟩ := Grid.Holds.normEnergy h' E (by rwa [hpe])
        rw [hpe] at k2
        exact ⟨_, g1, g2, _, onGrid_eq e1, onGrid_eq e2, k1, k2, a1, a2.trans hg, b1, b2.trans ht⟩
  split
  · cases v with
    | none => exact ⟨.ok (), l.grid, l'.grid, f, rfl, rfl, h, h', rfl, hg, rfl, ht⟩
    | some A =>
      by_cases hA : absMax f = 0
      · obtain ⟨g1, e1, k1, a1, b1⟩ := Grid.Holds.normPeak_zero h A hA
        obtain ⟨g2, e2, k2, a2, b2⟩ := Grid.Holds.normPeak_zero h' A hA
        exact ⟨_, g1, g2, _, onGrid_eq e1, onGrid_eq e2, k1, k2, a1, a2.trans hg, b1, b2.trans ht⟩
      · obtain ⟨g1, e1, k1, a1, b1⟩ := Grid.Holds.normPeak h A hA
        obtain ⟨g2, e2, k2, a2, b2⟩ := Grid.Holds.normPeak h' A hA
        exact ⟨_, g1, g2, _, onGrid_eq e1, onGrid_eq e2, k1, k2, a1, a2.trans hg, b1, b2.trans ht⟩
  split
  · cases v with
    | none => exact ⟨.ok (), l.grid, l'.grid, f, rfl, rfl, h, h', rfl, hg, rfl, ht⟩
    | some E =>
      obtain ⟨g1, e1, k1, a1, b1⟩ := Grid.Holds.getT h
      obtain ⟨g2, e2, k2, a2, b2⟩ := Grid.Holds.getT h'
      by_cases hp : (absMax fun i j k => (eps0 : ℂ) * f i j k ^ 2 / 2 * (c : ℂ)) = 0
      · refine ⟨.ok (), g1, g2, f, onGrid_eq ?_, onGrid_eq ?_, k1, k2, a1, a2.trans hg, b1, b2.trans ht⟩
        · simp only [normalizePeakIntensity, Py.bind_apply, e1, hp, if_true, Py.pure_apply]
        · simp only [normalizePeakIntensity, Py.bind_apply, e2, hp, if_true, Py.pure_apply]
      · refine ⟨.error .assertion, g1, g2, f, onGrid_eq ?_, onGrid_eq ?_, k1, k2, a1, a2.trans hg, b1, b2.trans ht⟩
        · simp only [normalizePeakIntensity, Py.bind_apply, e1, hp, if_false]
          simp [Grid.setTemporalField, Py.bind_apply, Shape.toList]
        · simp only [normalizePeakIntensity, Py.bind_apply, e2, hp, if_false]
          simp [Grid.setTemporalField, Py.bind_apply, Shape.toList]
  · exact ⟨_, l.grid, l'.grid, f, rfl, rfl, h, h', rfl, hg, rfl, ht⟩

/-- a propagation onto a new grid, of two lasers that are alike -/
theorem propagateOnto_twin (ax : Axiprop) (d : ℝ) (b : String) (nrB : Option ℤ) {s' : Shape} (g' : Grid s')
    (hst : ∃ st, g'.Holds st) {l l' : Laser s} (h : Twin b l l') :
    (∃ m m' : Laser s', Laser.propagateOnto ax d nrB g' b l = (.ok (), ⟨s', m⟩) ∧
      Laser.propagateOnto ax d nrB g' b l' = (.ok (), ⟨s', m'⟩) ∧ Twin b m m') ∨
    ∃ e, (Laser.propagateOnto ax d nrB g' b l).1 = .error e ∧ (Laser.propagateOnto ax d nrB g' b l').1 = .error e := by
  obtain ⟨hg, ht, ho, hw, ⟨f, hf, hf'⟩, -, -⟩ := h
  obtain ⟨st, hst⟩ := hst
  have hlay : l'.layerOf nrB = l.layerOf nrB := by
    unfold Laser.layerOf
    cases nrB with
    | none => rfl
    | some k => simp only [Laser.layer, hg]
  obtain ⟨g1, e1, h1, hg1, ht1⟩ := propagateStart l f hf nrB
  obtain ⟨g2, e2, h2, hg2, ht2⟩ := propagateStart l' f hf' nrB
  rw [hlay] at e2 h2
  unfold Laser.propagateOnto
  rw [e1, e2]
  rcases hwv : l.layerOf nrB with e | w
  · right
    exact ⟨e, rfl, rfl⟩
  simp only [hg1, hg2, hg, ht1, ht2, ht, ho, Laser.adoptTime]
  rcases hgeo : l.grid.geom with ⟨x, y⟩ | ⟨n, hn, r⟩
  · right; exact ⟨_, rfl, rfl⟩
  rcases hgeo' : g'.geom with ⟨x, y⟩ | ⟨n', hn', r'⟩
  · right; exact ⟨_, rfl, rfl⟩
  simp only
  split
  · right; exact ⟨_, rfl, rfl⟩
  · rename_i F hF
    left
    have hh : ∀ (t : Axis s'.nt), ({ g' with t := t } : Grid s').Holds st := fun t => ⟨hst.env, hst.dt, hst.unset, hst.isSet⟩
    obtain ⟨m, q1, q2, q3, q4, q5, q6, q7, -⟩ := finish_ok d F
      ({ grid := { g' with t := { g'.t with
          lo := l.grid.t.lo, hi := l.grid.t.hi
          pts := if h : s'.nt = s.nt then fun k => l.grid.t.pts (Fin.cast h k) else g'.t.pts } }
         profile := l.profile, outputIteration := l.outputIteration
         omega1d := fun k => if h : (k : ℕ) < s.nt then l.omega1d ⟨k, h⟩ else 0
         prop := .absent } : Laser s') (hh _)
    obtain ⟨m', r1, r2, r3, r4, r5, r6, r7, -⟩ := finish_ok d F
      ({ grid := { g' with t := { g'.t with
          lo := l.grid.t.lo, hi := l.grid.t.hi
          pts := if h : s'.nt = s.nt then fun k => l.grid.t.pts (Fin.cast h k) else g'.t.pts } }
         profile := l'.profile, outputIteration := l'.outputIteration
         omega1d := fun k => if h : (k : ℕ) < s.nt then l.omega1d ⟨k, h⟩ else 0
         prop := .absent } : Laser s') (hh _)
    refine ⟨m, m', ?_, ?_, ⟨r3.trans q3.symm, r4.trans q4.symm, r6.trans q6.symm, ?_, ⟨_, q2, ?_⟩, ?_, ?_⟩⟩
    · rw [hgeo'] at q1
      rw [q1]
    · rw [hgeo'] at r1
      rw [r1]
    · rw [r5, q5]; exact hw
    · simp only [hw] at r2
      exact r2
    · exact .inl ⟨q7, rfl⟩
    · exact .inl ⟨r7, rfl⟩

/-- one call, of two lasers that are alike -/
theorem LaserOp.run_twin (ax : Axiprop) (b : String) (o : LaserOp)
    (hb : ∀ a, o = .propagate a → a.backend = b)
    (hgr : ∀ a, o = .propagate a → ∀ g, a.grid = some g → ∃ st, g.2.Holds st)
    {l l' : Laser s} (h : Twin b l l') :
    (∃ (s' : Shape) (m m' : Laser s'), o.run ax ⟨s, l⟩ = (.ok (), ⟨s', m⟩) ∧
      o.run ax ⟨s, l'⟩ = (.ok (), ⟨s', m'⟩) ∧ Twin b m m') ∨
    ∃ e, (o.run ax ⟨s, l⟩).1 = .error e ∧ (o.run ax ⟨s, l'⟩).1 = .error e := by
  have hT := h
  obtain ⟨hg, ht, ho, hw, ⟨f, hf, hf'⟩, hc, hc'⟩ := h
  cases o with
  | optics el =>
    obtain ⟨m, e, k, a1, a2, a3, a4, a5, -⟩ := C19_apply_optics l f hf el
    obtain ⟨m', e', k', b1, b2, b3, b4, b5, -⟩ := C19_apply_optics l' f hf' el
    left
    refine ⟨s, m, m', by simp [LaserOp.run, onLaser, e], by simp [LaserOp.run, onLaser, e'], ?_⟩
    refine ⟨by rw [b1, a1, hg], by rw [b2, a2, ht], by rw [b4, a4, ho], by rw [b3, a3, hw], ⟨_, k, ?_⟩,
      hc.congr a1 a4 a5, hc'.congr b1 b4 b5⟩
    have : Tat l' el = Tat l el := by
      funext i j k
      simp only [Tat, hg, ho, hw]
    rw [this] at k'
    exact k'
  | normalize v kind =>
    obtain ⟨r, g1, g2, f', e, e', k, k', a1, a2, b1, b2⟩ := normalize_twin l l' f hf hf' hg ht v kind
    rcases r with er | ⟨⟩
    · right
      exact ⟨er, by simp [LaserOp.run, onLaser, e], by simp [LaserOp.run, onLaser, e']⟩
    · left
      refine ⟨s, _, _, by simp [LaserOp.run, onLaser, e]; rfl, by simp [LaserOp.run, onLaser, e']; rfl, ?_⟩
      exact ⟨by simp [a1, a2], by simp [b1, b2], ho, hw, ⟨f', k, k'⟩, hc.congr (l' := { l with grid := g1 }) a1 rfl rfl,
        hc'.congr (l' := { l' with grid := g2 }) (a2.trans hg.symm) rfl rfl⟩
  | propagate a =>
    have hba := hb a rfl
    have here : (∃ (s' : Shape) (m m' : Laser s'),
        (match Laser.propagateHere ax a.distance a.nrBoundary a.backend l with
          | (r, l) => ((r, ⟨s, l⟩) : Except PyErr Unit × Σ s, Laser s)) = (.ok (), ⟨s', m⟩) ∧
        (match Laser.propagateHere ax a.distance a.nrBoundary a.backend l' with
          | (r, l) => ((r, ⟨s, l⟩) : Except PyErr Unit × Σ s, Laser s)) = (.ok (), ⟨s', m'⟩) ∧ Twin b m m') ∨
        ∃ e, (Laser.propagateHere ax a.distance a.nrBoundary a.backend l).1 = .error e ∧
          (Laser.propagateHere ax a.distance a.nrBoundary a.backend l').1 = .error e := by
      rw [hba]
      have hlay : l'.layerOf a.nrBoundary = l.layerOf a.nrBoundary := by
        unfold Laser.layerOf
        cases a.nrBoundary with
        | none => rfl
        | some k => simp only [Laser.layer, hg]
      rcases hwv : l.layerOf a.nrBoundary with e | w
      · right
        obtain ⟨g1, e1, -⟩ := propagateHere_err ax a.distance b l f hf a.nrBoundary hwv
        obtain ⟨g2, e2, -⟩ := propagateHere_err ax a.distance b l' f hf' a.nrBoundary (hlay.trans hwv)
        exact ⟨e, by rw [e1], by rw [e2]⟩
      · left
        obtain ⟨m, e1, k1, a1, a2, a3, a4, a5, -⟩ := propagateHere_ok ax a.distance b b l f hf hc a.nrBoundary hwv
        obtain ⟨m', e2, k2, b1, b2, b3, b4, b5, -⟩ :=
          propagateHere_ok ax a.distance b b l' f hf' hc' a.nrBoundary (hlay.trans hwv)
        refine ⟨s, m, m', by rw [e1], by rw [e2], ?_⟩
        refine ⟨by rw [b1, a1, hg], by rw [b2, a2, ht], by rw [b4, a4, ho], by rw [b3, a3, hw], ⟨_, k1, ?_⟩, ?_, ?_⟩
        · have : l'.propagated ax b a.distance (fun i j k => f i j k * (w i j : ℂ)) =
              l.propagated ax b a.distance (fun i j k => f i j k * (w i j : ℂ)) := by
            simp only [Laser.propagated, stepped_congr hg ho, ho, hw]
          rw [this] at k2
          exact k2
        · exact .inr (by rw [a5, buildProp_congr a1 a4])
        · exact .inr (by rw [b5, buildProp_congr b1 b4])
    rcases hag : a.grid with _ | g'
    · simp only [LaserOp.run, Laser.propagate, hag]
      exact here
    · rcases hgeo : l.grid.geom with ⟨x, y⟩ | ⟨n, hn, r⟩
      · simp only [LaserOp.run, Laser.propagate, hag, hgeo, hg]
        exact here
      · simp only [LaserOp.run, Laser.propagate, hag, hgeo, hg, hba]
        rcases propagateOnto_twin ax a.distance b a.nrBoundary g'.2 (hgr a rfl g' hag) hT with ⟨m, m', h1, h2, h3⟩ | h
        · exact .inl ⟨_, m, m', h1, h2, h3⟩
        · exact .inr h

/-- a whole history, of two lasers that are alike -/
theorem runOps_twin (ax : Axiprop) (b : String) (os : List LaserOp)
    (hb : ∀ o ∈ os, ∀ a, o = .propagate a → a.backend = b) (hgr : GoodGrids os) {l l' : Laser s} (h : Twin b l l') :
    (∃ (s' : Shape) (m m' : Laser s'), runOps ax os ⟨s, l⟩ = (.ok (), ⟨s', m⟩) ∧
      runOps ax os ⟨s, l'⟩ = (.ok (), ⟨s', m'⟩) ∧ Twin b m m') ∨
    ∃ e, (runOps ax os ⟨s, l⟩).1 = .error e ∧ (runOps ax os ⟨s, l'⟩).1 = .error e := by
  induction os generalizing s with
  | nil => exact .inl ⟨s, l, l', rfl, rfl, h⟩
  | cons o os ih =>
    rcases LaserOp.run_twin ax b o (fun a ha => hb o (by simp) a ha) (fun a ha => hgr o (by simp) a ha) h with
      ⟨s1, m, m', h1, h2, h3⟩ | ⟨e, h1, h2⟩
    · simp only [runOps, Py.bind_apply, h1, h2]
      exact ih (fun o ho => hb o (by simp [ho])) (fun o ho => hgr o (by simp [ho])) h3
    · right
      refine ⟨e, ?_, ?_⟩
      · simp only [runOps, Py.bind_apply]
        rcases hr : o.run ax ⟨s, l⟩ with ⟨r, L⟩
        rw [hr] at h1
        simp only at h1
        subst h1
        rfl
      · simp only [runOps, Py.bind_apply]
        rcases hr : o.run ax ⟨s, l'⟩ with ⟨r, L⟩
        rw [hr] at h2
        simp only at h2
        subst h2
        rfl

omit [Phys] in
theorem Axis.shift_add {n : ℕ} (a : Axis n) (x y : ℝ) : (a.shift x).shift y = a.shift (x + y) := by
  simp only [Axis.shift, add_assoc]

omit [Phys] in
theorem Axis.shift_none {n : ℕ} (a : Axis n) : a.shift 0 = a := by
  simp only [Axis.shift, add_zero]

/-- a history without resampling, always with the backend `b`: what it leaves as it was -/
theorem runOps_stays (ax : Axiprop) (b : String) (os : List LaserOp)
    (hb : ∀ o ∈ os, ∀ a, o = .propagate a → a.backend = b ∧ a.grid = none) (l : Laser s) (h : ∃ f, l.Has f)
    (hc : l.Uses b b) {L : Σ s, Laser s} (hr : runOps ax os ⟨s, l⟩ = (.ok (), L)) :
    ∃ l' : Laser s, L = ⟨s, l'⟩ ∧ (∃ f, l'.Has f) ∧ l'.Uses b b ∧ l'.grid.geom = l.grid.geom ∧
      l'.grid.t = l.grid.t.shift (travelled os / c) ∧ l'.omega1d = l.omega1d ∧ l'.profile = l.profile := by
  induction os generalizing l with
  | nil =>
    simp only [runOps, Py.pure_apply, Prod.mk.injEq, true_and] at hr
    subst hr
    exact ⟨l, rfl, h, hc, rfl, by simp [travelled, Axis.shift_none], rfl, rfl⟩
  | cons o os ih =>
    obtain ⟨f, hf⟩ := h
    have step : ∀ (l1 : Laser s), o.run ax ⟨s, l⟩ = (.ok (), ⟨s, l1⟩) → (∃ f, l1.Has f) → l1.Uses b b →
        l1.grid.geom = l.grid.geom → l1.grid.t = l.grid.t.shift (travelled [o] / c) → l1.omega1d = l.omega1d →
        l1.profile = l.profile → ∃ l' : Laser s, L = ⟨s, l'⟩ ∧ (∃ f, l'.Has f) ∧ l'.Uses b b ∧
          l'.grid.geom = l.grid.geom ∧ l'.grid.t = l.grid.t.shift (travelled (o :: os) / c) ∧
          l'.omega1d = l.omega1d ∧ l'.profile = l.profile := by
      intro l1 e h1 h2 h3 h4 h5 h6
      simp only [runOps, Py.bind_apply, e] at hr
      obtain ⟨l', q1, q2, q3, q4, q5, q6, q7⟩ := ih (fun o ho => hb o (by simp [ho])) l1 h1 h2 hr
      refine ⟨l', q1, q2, q3, q4.trans h3, ?_, q6.trans h5, q7.trans h6⟩
      have : travelled (o :: os) = travelled [o] + travelled os := by cases o <;> simp [travelled]
      rw [q5, h4, Axis.shift_add, this, add_div]
    cases o with
    | optics el =>
      obtain ⟨m, e, k, a1, a2, a3, a4, a5, -⟩ := C19_apply_optics l f hf el
      exact step m (by simp [LaserOp.run, onLaser, e]) ⟨_, k⟩ (hc.congr a1 a4 a5) a1
        (by simp [travelled, Axis.shift_none, a2]) a4 a3
    | normalize v kind =>
      obtain ⟨r, g', f', e, h', hgeo, ht⟩ := normalize_keeps l f hf v kind
      rcases r with er | ⟨⟩
      · simp [runOps, Py.bind_apply, LaserOp.run, onLaser, e] at hr
      · exact step { l with grid := g' } (by simp [LaserOp.run, onLaser, e]) ⟨f', h'⟩
          (hc.congr (l' := { l with grid := g' }) hgeo rfl rfl) hgeo (by simp [travelled, Axis.shift_none, ht]) rfl rfl
    | propagate a =>
      obtain ⟨hab, hag⟩ := hb _ (by simp) a rfl
      rcases hwv : l.layerOf a.nrBoundary with e | w
      · obtain ⟨g1, e1, -⟩ := propagateHere_err ax a.distance b l f hf a.nrBoundary hwv
        simp [runOps, Py.bind_apply, LaserOp.run, Laser.propagate, hab, hag, e1] at hr
      · obtain ⟨m, e1, k1, a1, a2, a3, a4, a5, -⟩ := propagateHere_ok ax a.distance b b l f hf hc a.nrBoundary hwv
        exact step m (by simp [LaserOp.run, Laser.propagate, hab, hag, e1]) ⟨_, k1⟩
          (.inr (by rw [a5, buildProp_congr a1 a4])) a1 (by simp [travelled, a2]) a4 a3

/-- the profile object which `FromOpenPMDProfile.__init__` makes of the wavelength and the array read from the file
(`from_openpmd_profile.py:111-126`, `from_array_profile.py:48-51, 92-103`): there is no attribute `laser_energy`, the
array of `evaluate` is complex, and `evaluate` acts point by point -/
noncomputable def FromArray.toProfile (w : ℝ) (pol : List ℂ) (q : FromArray) : Except PyErr ProfileObj :=
  profileInit w pol none .c128 (fun x y t i j k => q.evaluate (x i j k) (y i j k) (t i j k))

omit [Phys] in
/-- the axis built on the shifted window is the shifted axis -/
theorem mkAxis_delayed {lo hi τ : ℝ} {n : ℕ} {a a' : Axis n} (h : mkAxis lo hi n = .ok a)
    (h' : mkAxis (lo + τ) (hi + τ) n = .ok a') : a' = a.shift τ := by
  obtain ⟨h1, rfl⟩ := mkAxis_ok h
  obtain ⟨h2, rfl⟩ := mkAxis_ok h'
  simp only [Axis.shift, Axis.mk.injEq, true_and]
  constructor
  · simp only [linspace]; ring
  · funext k; simp only [linspace]; ring

/-- **C139** (Cartesian). A laser was made of any profile, and went through any history of optical elements,
normalisations and propagations (with one backend `b`, without resampling). It is written to a file; `FromOpenPMDProfile`
reads the file, with any polarisation; a new laser is built from it, on the window which the old one occupies now, that is
the original one delayed by the distance travelled over `c`, with the same numbers of points. Then writing and reading
and building succeed, the new laser has the field of the old one, its axes and its frequencies; and every continuation
(also with resampling) raises the same exception for both lasers, or ends with the same field on the same axes. -/
theorem C139_restart_xyt (ax : Axiprop) (b : String) (os : List LaserOp)
    (hos : ∀ o ∈ os, ∀ a, o = .propagate a → a.backend = b ∧ a.grid = none)
    {lo0 lo1 lo2 hi0 hi1 hi2 : ℝ} {nx ny nt : ℕ} (h0 : lo0 < hi0) (h1 : lo1 < hi1) (h2 : lo2 < hi2)
    {lambda0 : ℝ} {pol : List ℂ} {le : Option (Option ℝ)} {dt : DType}
    {ev : {a b c : ℕ} → Coords a b c → Coords a b c → Coords a b c → Fin a → Fin b → Fin c → ℂ} {p : ProfileObj}
    (hp : profileInit lambda0 pol le dt ev = .ok p) {M N : Option ℕ} {l : Laser s}
    (hl : Laser.init "xyt" [lo0, lo1, lo2] [hi0, hi1, hi2] [nx, ny, nt] p M N = .ok ⟨s, l⟩)
    {L : Σ s, Laser s} (hr : runOps ax os ⟨s, l⟩ = (.ok (), L))
    (a : WriteArgs) (hv : a.asVectorPotential = false) (ha : a.fault = .ok) (disk : Disk)
    (pol' : List ℂ) (hpol : pol'.length = 2) (M' N' : Option ℕ) :
    ∃ (l1 l2 l3 : Laser s) (disk' : Disk) (m : Mesh) (q : FromArray) (p' : ProfileObj) (f : Field s),
      L = ⟨s, l1⟩ ∧ writeToFile a (l1, disk) = (.ok (), (l2, disk')) ∧
      disk' (filePath a.dir a.pre a.fmt l1.outputIteration) = some m ∧
      fromOpenPMDEnvelope m none = .ok (lambda0, q) ∧ q.toProfile lambda0 pol' = .ok p' ∧
      Laser.init "xyt" [lo0, lo1, lo2 + travelled os / c] [hi0, hi1, hi2 + travelled os / c] [nx, ny, nt] p' M' N' =
        .ok ⟨s, l3⟩ ∧
      l1.Has f ∧ l2.Has f ∧ l3.Has f ∧ l3.grid.geom = l2.grid.geom ∧ l3.grid.t = l2.grid.t ∧ l3.omega1d = l2.omega1d ∧
      ∀ os' : List LaserOp, (∀ o ∈ os', ∀ a, o = .propagate a → a.backend = b) → GoodGrids os' →
        (∃ (s' : Shape) (m2 m3 : Laser s') (f' : Field s'), runOps ax os' ⟨s, l2⟩ = (.ok (), ⟨s', m2⟩) ∧
          runOps ax os' ⟨s, l3⟩ = (.ok (), ⟨s', m3⟩) ∧ m2.Has f' ∧ m3.Has f' ∧ m3.grid.geom = m2.grid.geom ∧
          m3.grid.t = m2.grid.t) ∨
        ∃ e, (runOps ax os' ⟨s, l2⟩).1 = .error e ∧ (runOps ax os' ⟨s, l3⟩).1 = .error e := by
  obtain ⟨g, f0, hg, hf0, hgeo0, ht0, hp0, -, hprop, ho⟩ := Laser.init_facts hl
  obtain ⟨l1, rfl, ⟨f, hf⟩, hc1, hg1, ht1, ho1, hp1⟩ := runOps_stays ax b os hos l ⟨f0, hf0⟩ (.inl ⟨hprop, rfl⟩) hr
  obtain ⟨-, -, -, -, hcase⟩ := Grid.init_ok hg
  rcases hcase with ⟨_, _, _, _, _, _, _, _, e1, -⟩ | ⟨l0', l1', l2', u0, u1, u2, x, y, t, e1, e2, e3, e4, e5, e6, e7, e8, e9⟩
  · exact absurd e1 (by decide)
  simp only [List.cons.injEq, and_true] at e2 e3 e4
  obtain ⟨rfl, rfl, rfl⟩ := e2
  obtain ⟨rfl, rfl, rfl⟩ := e3
  obtain ⟨rfl, rfl, rfl⟩ := e4
  obtain ⟨n0, hx⟩ := mkAxis_ok e5
  obtain ⟨n1, hy⟩ := mkAxis_ok e6
  obtain ⟨n2, htt⟩ := mkAxis_ok e7
  have hlam : p.lambda0 = lambda0 ∧ p.omega0 = 2 * Real.pi * c / lambda0 := by
    unfold profileInit at hp
    split at hp
    · simp only [Except.ok.injEq] at hp
      subst hp
      exact ⟨rfl, rfl⟩
    · cases hp
  have hreg : l1.grid.Regular := by
    have := Grid.regular_of_init hg
    refine ⟨by rw [hg1, hgeo0]; exact this.1, ?_⟩
    rw [ht1, ht0]
    exact this.2.shift _
  obtain ⟨g2, w1, w2, w3, w4⟩ := writeToFile_ok a l1 f hf disk hv ha
  obtain ⟨l2, disk', m, q, r1, r2, r3, r4⟩ := C36_roundtrip_xyt a l1 f hf hreg disk hv ha (x := x) (y := y)
    (by rw [hg1, hgeo0, e9]) n0 n1 n2 (by rw [hx]; exact h0) (by rw [hy]; exact h1)
    (by rw [ht1, ht0, e8, htt]; simpa [Axis.shift] using h2)
  have hl2 : l2 = { l1 with grid := g2, outputIteration := l1.outputIteration + 1 } := by
    rw [w1] at r1
    simp only [Prod.mk.injEq, true_and] at r1
    exact r1.1.symm
  rw [hp1, hp0, hlam.1] at r3
  obtain ⟨pa, pb, rfl⟩ := List.length_eq_two.1 hpol
  obtain ⟨p', hp'⟩ : ∃ p', q.toProfile lambda0 [pa, pb] = .ok p' := ⟨_, rfl⟩
  have hp'f : p'.laserEnergy = none ∧ p'.dtype = .c128 ∧ p'.omega0 = 2 * Real.pi * c / lambda0 ∧
      p'.Pointwise q.evaluate := by
    simp only [FromArray.toProfile, profileInit, Except.ok.injEq] at hp'
    subst hp'
    exact ⟨rfl, rfl, rfl, fun _ _ _ _ _ _ _ _ _ => rfl⟩
  obtain ⟨l3, i1, i2⟩ := C14_unscaled_xyt lo0 lo1 (lo2 + travelled os / c) hi0 hi1 (hi2 + travelled os / c) s.n0 s.n1 s.nt
    n0 n1 n2 p' hp'f.1 hp'f.2.1 _ hp'f.2.2.2 M' N'
  have hpt : ∀ k, l1.grid.t.pts k = linspace (lo2 + travelled os / c) (hi2 + travelled os / c) s.nt k := by
    intro k
    rw [ht1, ht0, e8, htt]
    simp only [Axis.shift, linspace]
    ring
  have hfield : (fun (i : Fin s.n0) (j : Fin s.n1) (k : Fin s.nt) => q.evaluate (linspace lo0 hi0 s.n0 i)
      (linspace lo1 hi1 s.n1 j) (linspace (lo2 + travelled os / c) (hi2 + travelled os / c) s.nt k)) = f := by
    funext i j k
    rw [← hpt, ← r4 i j k, hx, hy]
  rw [hfield] at i2
  obtain ⟨g3, -, j1, -, j3, j4, j5, -, j7, j8⟩ := Laser.init_facts i1
  obtain ⟨-, -, -, -, hcase⟩ := Grid.init_ok j1
  rcases hcase with ⟨_, _, _, _, _, _, _, _, k1, -⟩ | ⟨m0, m1, m2, v0, v1, v2, x', y', t', k1, k2, k3, k4, k5, k6, k7, k8, k9⟩
  · exact absurd k1 (by decide)
  simp only [List.cons.injEq, and_true] at k2 k3 k4
  obtain ⟨rfl, rfl, rfl⟩ := k2
  obtain ⟨rfl, rfl, rfl⟩ := k3
  have hxx : x' = x := by rw [e5] at k5; simpa using k5.symm
  have hyy : y' = y := by rw [e6] at k6; simpa using k6.symm
  have hG : l3.grid.geom = l2.grid.geom := by
    rw [j3, k9, hxx, hyy, hl2]
    simp only
    rw [w3, hg1, hgeo0, e9]
  have hTm : l3.grid.t = l2.grid.t := by
    rw [j4, k8, hl2]
    simp only
    rw [w4, ht1, ht0, e8]
    exact mkAxis_delayed e7 k7
  have hW : l3.profile.omega0 = l2.profile.omega0 := by
    rw [j5, hp'f.2.2.1, hl2]
    simp only
    rw [hp1, hp0, hlam.2]
  have hO : l3.omega1d = l2.omega1d := by
    funext k
    rw [j8, hTm, hW, hl2]
    simp only
    rw [w4, ho1, ho, ht1, hp1]
    rfl
  have hF2 : l2.Has f := by rw [hl2]; exact w2
  refine ⟨l1, l2, l3, disk', m, q, p', f, rfl, r1, r2, r3, hp', i1, hf, hF2, i2, hG, hTm, hO, ?_⟩
  intro os' hb' hgr
  have htw : Twin b l2 l3 := by
    refine ⟨hG, hTm, hO, hW, ⟨f, hF2, i2⟩, ?_, .inl ⟨j7, rfl⟩⟩
    rw [hl2]
    exact hc1.congr (l' := { l1 with grid := g2, outputIteration := l1.outputIteration + 1 }) w3 rfl rfl
  rcases runOps_twin ax b os' hb' hgr htw with ⟨s', m2, m3, q1, q2, q3⟩ | h
  · obtain ⟨f', z1, z2⟩ := q3.field
    exact .inl ⟨s', m2, m3, f', q1, q2, z1, z2, q3.geom, q3.t⟩
  · exact .inr h

omit [Phys] in
/-- the one azimuthal mode of samples that do not depend on the angle -/
theorem sampledRT_round (p : ProfileObj) (N : ℕ) (h : 2 * 1 - 1 ≤ N) {F : ℝ → ℝ → ℝ → ℂ} (hF : p.Pointwise F) {nr nt : ℕ}
    (r : Fin nr → ℝ) (t : Fin nt → ℝ) (hr : ∀ j, 0 ≤ r j) (f : Field ⟨2 * 1 - 1, nr, nt⟩)
    (hf : ∀ i j k x y, Real.sqrt (x ^ 2 + y ^ 2) = r j → F x y (t k) = f i j k) :
    sampledRT p 1 N h le_rfl r t = f := by
  funext i j k
  have hN : (N : ℂ) ≠ 0 := by
    have : N ≠ 0 := by omega
    exact_mod_cast this
  have hv : ∀ q : Fin N, Laser.sampleTheta p N r t q j k = f i j k := by
    intro q
    simp only [Laser.sampleTheta]
    rw [hF]
    apply hf
    rw [mul_pow, mul_pow, ← mul_add, Real.cos_sq_add_sin_sq, mul_one]
    exact Real.sqrt_sq (hr j)
  have hi : (Laser.pickModes 1 N h le_rfl i : ℕ) = 0 := by
    simp [Laser.pickModes]
  simp only [sampledRT, hv]
  rw [ifft_eq_chr, hi]
  simp only [Nat.cast_zero, zero_mul, chr_zero, mul_one, Finset.sum_const, Finset.card_univ, Fintype.card_fin, nsmul_eq_mul]
  field_simp

/-- **C139** (cylindrical). The same for a laser with one azimuthal mode; the file is read at any angle `θ`, and the new
laser may sample the profile at any positive number of angles. (With two or more modes reading loses part of the field,
`C69_refuted`.) -/
theorem C139_restart_rt (ax : Axiprop) (b : String) (os : List LaserOp)
    (hos : ∀ o ∈ os, ∀ a, o = .propagate a → a.backend = b ∧ a.grid = none)
    {lo0 lo1 hi0 hi1 : ℝ} {nr nt : ℕ} (h0 : 0 ≤ lo0) (h0' : lo0 < hi0) (h1 : lo1 < hi1)
    {lambda0 : ℝ} {pol : List ℂ} {le : Option (Option ℝ)} {dt : DType}
    {ev : {a b c : ℕ} → Coords a b c → Coords a b c → Coords a b c → Fin a → Fin b → Fin c → ℂ} {p : ProfileObj}
    (hp : profileInit lambda0 pol le dt ev = .ok p) {N : Option ℕ} {l : Laser s}
    (hl : Laser.init "rt" [lo0, lo1] [hi0, hi1] [nr, nt] p (some 1) N = .ok ⟨s, l⟩)
    {L : Σ s, Laser s} (hr : runOps ax os ⟨s, l⟩ = (.ok (), L))
    (a : WriteArgs) (hv : a.asVectorPotential = false) (ha : a.fault = .ok) (disk : Disk)
    (pol' : List ℂ) (hpol : pol'.length = 2) (θ : ℝ) (N' : Option ℕ) (hN' : N' ≠ some 0) :
    ∃ (l1 l2 l3 : Laser s) (disk' : Disk) (m : Mesh) (q : FromArray) (p' : ProfileObj) (f : Field s),
      L = ⟨s, l1⟩ ∧ writeToFile a (l1, disk) = (.ok (), (l2, disk')) ∧
      disk' (filePath a.dir a.pre a.fmt l1.outputIteration) = some m ∧
      fromOpenPMDEnvelope m (some θ) = .ok (lambda0, q) ∧ q.toProfile lambda0 pol' = .ok p' ∧
      Laser.init "rt" [lo0, lo1 + travelled os / c] [hi0, hi1 + travelled os / c] [nr, nt] p' (some 1) N' =
        .ok ⟨s, l3⟩ ∧
      l1.Has f ∧ l2.Has f ∧ l3.Has f ∧ l3.grid.geom = l2.grid.geom ∧ l3.grid.t = l2.grid.t ∧ l3.omega1d = l2.omega1d ∧
      ∀ os' : List LaserOp, (∀ o ∈ os', ∀ a, o = .propagate a → a.backend = b) → GoodGrids os' →
        (∃ (s' : Shape) (m2 m3 : Laser s') (f' : Field s'), runOps ax os' ⟨s, l2⟩ = (.ok (), ⟨s', m2⟩) ∧
          runOps ax os' ⟨s, l3⟩ = (.ok (), ⟨s', m3⟩) ∧ m2.Has f' ∧ m3.Has f' ∧ m3.grid.geom = m2.grid.geom ∧
          m3.grid.t = m2.grid.t) ∨
        ∃ e, (runOps ax os' ⟨s, l2⟩).1 = .error e ∧ (runOps ax os' ⟨s, l3⟩).1 = .error e := by
  obtain ⟨g, f0, hg, hf0, hgeo0, ht0, hp0, -, hprop, ho⟩ := Laser.init_facts hl
  obtain ⟨l1, rfl, ⟨f, hf⟩, hc1, hg1, ht1, ho1, hp1⟩ := runOps_stays ax b os hos l ⟨f0, hf0⟩ (.inl ⟨hprop, rfl⟩) hr
  obtain ⟨-, -, -, -, hcase⟩ := Grid.init_ok hg
  rcases hcase with ⟨l0', l1', u0, u1, m', r, t, rest, e1, e2, e3, e4, e5, e6, e7, e8, hn, e9⟩ | ⟨_, _, _, _, _, _, _, _, _, e1, -⟩
  swap
  · exact absurd e1 (by decide)
  obtain ⟨sn0, sn1, snt⟩ := s
  simp only [List.cons.injEq, and_true] at e2 e3 e4
  obtain ⟨rfl, rfl⟩ := e2
  obtain ⟨rfl, rfl⟩ := e3
  obtain ⟨rfl, rfl, -⟩ := e4
  obtain rfl : 1 = m' := by simpa using e5
  obtain rfl : sn0 = 2 * 1 - 1 := hn.2
  obtain ⟨n0, hx⟩ := mkAxis_ok e6
  obtain ⟨n1, htt⟩ := mkAxis_ok e7
  have hlam : p.lambda0 = lambda0 ∧ p.omega0 = 2 * Real.pi * c / lambda0 := by
    unfold profileInit at hp
    split at hp
    · simp only [Except.ok.injEq] at hp
      subst hp
      exact ⟨rfl, rfl⟩
    · cases hp
  have hreg : l1.grid.Regular := by
    have := Grid.regular_of_init hg
    refine ⟨by rw [hg1, hgeo0]; exact this.1, ?_⟩
    rw [ht1, ht0]
    exact this.2.shift _
  obtain ⟨g2, w1, w2, w3, w4⟩ := writeToFile_ok a l1 f hf disk hv ha
  obtain ⟨l2, disk', m, q, r1, r2, r3, r4⟩ := C69_roundtrip_one_mode_partial a l1 f hf hreg disk hv ha (r := r) (hn := hn)
    (by rw [hg1, hgeo0, e9]) n0 n1 (by rw [hx]; exact h0) (by rw [hx]; exact h0')
    (by rw [ht1, ht0, e8, htt]; simpa [Axis.shift] using h1) θ
  have hl2 : l2 = { l1 with grid := g2, outputIteration := l1.outputIteration + 1 } := by
    rw [w1] at r1
    simp only [Prod.mk.injEq, true_and] at r1
    exact r1.1.symm
  rw [hp1, hp0, hlam.1] at r3
  obtain ⟨pa, pb, rfl⟩ := List.length_eq_two.1 hpol
  obtain ⟨p', hp'⟩ : ∃ p', q.toProfile lambda0 [pa, pb] = .ok p' := ⟨_, rfl⟩
  have hp'f : p'.laserEnergy = none ∧ p'.dtype = .c128 ∧ p'.omega0 = 2 * Real.pi * c / lambda0 ∧
      p'.Pointwise q.evaluate := by
    simp only [FromArray.toProfile, profileInit, Except.ok.injEq] at hp'
    subst hp'
    exact ⟨rfl, rfl, rfl, fun _ _ _ _ _ _ _ _ _ => rfl⟩
  have hNN : 2 * 1 - 1 ≤ N'.getD (2 * 1 - 1) := by
    rcases N' with _ | N'
    · simp
    · have : N' ≠ 0 := fun h => hN' (by rw [h])
      simp only [Option.getD_some]
      omega
  obtain ⟨l3, i1, i2⟩ := Laser.init_rt lo0 (lo1 + travelled os / c) hi0 (hi1 + travelled os / c) nr nt 1 _
    n0 n1 le_rfl hNN p' hp'f.1 N' rfl
  have hpt : ∀ k, l1.grid.t.pts k = linspace (lo1 + travelled os / c) (hi1 + travelled os / c) nt k := by
    intro k
    rw [ht1, ht0, e8, htt]
    simp only [Axis.shift, linspace]
    ring
  have hrpos : ∀ j, 0 ≤ linspace lo0 hi0 nr j := by
    intro j
    have h1 : (0 : ℝ) ≤ (j : ℕ) * ((hi0 - lo0) / ((nr : ℝ) - 1)) := by
      have h2 : (2 : ℝ) ≤ nr := by exact_mod_cast n0
      exact mul_nonneg (Nat.cast_nonneg _) (div_nonneg (by linarith) (by linarith))
    simp only [linspace]
    linarith
  rw [sampledRT_round p' _ hNN hp'f.2.2.2 _ _ hrpos f (fun i j k x y hxy => by
    rw [← hpt]
    exact r4 i j k x y (by rw [hxy, hx]))] at i2
  obtain ⟨g3, -, j1, -, j3, j4, j5, -, j7, j8⟩ := Laser.init_facts i1
  obtain ⟨-, -, -, -, hcase⟩ := Grid.init_ok j1
  rcases hcase with ⟨m0, m1, v0, v1, m'', r', t', rest', k1, k2, k3, k4, k5, k6, k7, k8, hn', k9⟩ | ⟨_, _, _, _, _, _, _, _, _, k1, -⟩
  swap
  · exact absurd k1 (by decide)
  simp only [List.cons.injEq, and_true] at k2 k3 k4
  obtain ⟨rfl, rfl⟩ := k2
  obtain ⟨rfl, rfl⟩ := k3
  obtain rfl : 1 = m'' := by simpa using k5
  have hxx : r' = r := by rw [e6] at k6; simpa using k6.symm
  have hG : l3.grid.geom = l2.grid.geom := by
    rw [j3, k9, hxx, hl2]
    simp only
    rw [w3, hg1, hgeo0, e9]
  have hTm : l3.grid.t = l2.grid.t := by
    rw [j4, k8, hl2]
    simp only
    rw [w4, ht1, ht0, e8]
    exact mkAxis_delayed e7 k7
  have hW : l3.profile.omega0 = l2.profile.omega0 := by
    rw [j5, hp'f.2.2.1, hl2]
    simp only
    rw [hp1, hp0, hlam.2]
  have hO : l3.omega1d = l2.omega1d := by
    funext k
    rw [j8, hTm, hW, hl2]
    simp only
    rw [w4, ho1, ho, ht1, hp1]
    rfl
  have hF2 : l2.Has f := by rw [hl2]; exact w2
  refine ⟨l1, l2, l3, disk', m, q, p', f, rfl, r1, r2, r3, hp', i1, hf, hF2, i2, hG, hTm, hO, ?_⟩
  intro os' hb' hgr
  have htw : Twin b l2 l3 := by
    refine ⟨hG, hTm, hO, hW, ⟨f, hF2, i2⟩, ?_, .inl ⟨j7, rfl⟩⟩
    rw [hl2]
    exact hc1.congr (l' := { l1 with grid := g2, outputIteration := l1.outputIteration + 1 }) w3 rfl rfl
  rcases runOps_twin ax b os' hb' hgr htw with ⟨s', m2, m3, q1, q2, q3⟩ | h
  · obtain ⟨f', z1, z2⟩ := q3.field
    exact .inl ⟨s', m2, m3, f', q1, q2, z1, z2, q3.geom, q3.t⟩
  · exact .inr h

/-- the hypotheses of C139 are met, in both geometries: a constant profile, a mirror, a propagation by `3` -/
example (ax : Axiprop) :
    (∃ (p : ProfileObj) (l : Laser ⟨2, 2, 2⟩) (os : List LaserOp) (L : Σ s, Laser s),
      profileInit 1 [1, 0] none .c128 (fun _ _ _ _ _ _ => 1) = .ok p ∧
      Laser.init "xyt" [0, 0, 0] [1, 1, 1] [2, 2, 2] p none none = .ok ⟨_, l⟩ ∧ os.length = 2 ∧ travelled os = 3 ∧
      (∀ o ∈ os, ∀ a, o = .propagate a → a.backend = "NP" ∧ a.grid = none) ∧ runOps ax os ⟨_, l⟩ = (.ok (), L)) ∧
    ∃ (p : ProfileObj) (l : Laser ⟨1, 2, 2⟩) (os : List LaserOp) (L : Σ s, Laser s),
      profileInit 1 [1, 0] none .c128 (fun _ _ _ _ _ _ => 1) = .ok p ∧
      Laser.init "rt" [0, 0] [1, 1] [2, 2] p (some 1) none = .ok ⟨_, l⟩ ∧ os.length = 2 ∧ travelled os = 3 ∧
      (∀ o ∈ os, ∀ a, o = .propagate a → a.backend = "NP" ∧ a.grid = none) ∧ runOps ax os ⟨_, l⟩ = (.ok (), L) := by
  have run : ∀ {s : Shape} (l : Laser s), l.Ready →
      ∃ L, runOps ax [.optics (parabolicMirror 1), .propagate ⟨3, none, none, "NP"⟩] ⟨s, l⟩ = (.ok (), L) := by
    intro s l hl
    obtain ⟨⟨f, hf⟩, hc⟩ := hl
    obtain ⟨l1, e1, h1, hgeo, ht, hp, ho, hpr, -⟩ := C19_apply_optics l _ hf (parabolicMirror 1)
    have hc1 : l1.CacheOK := by
      rcases hc with hc | ⟨b, hc⟩
      · exact .inl (hpr.trans hc)
      · exact .inr ⟨b, by rw [hpr, hc, buildProp_congr hgeo ho]⟩
    obtain ⟨l2, e2, -⟩ := propagateAll_succeeds ax [⟨3, none, none, "NP"⟩] l1 ⟨⟨_, h1⟩, hc1⟩ (by simp)
    refine ⟨⟨_, l2⟩, ?_⟩
    simp only [runOps, LaserOp.run, onLaser, Py.bind_apply, e1]
    simp only [propagateAll, Py.bind_apply] at e2
    exact e2
  have hos : ∀ o ∈ ([.optics (parabolicMirror 1), .propagate ⟨3, none, none, "NP"⟩] : List LaserOp),
      ∀ a, o = .propagate a → a.backend = "NP" ∧ a.grid = none := by
    intro o ho a ha
    simp only [List.mem_cons, List.not_mem_nil, or_false] at ho
    rcases ho with rfl | rfl
    · cases ha
    · cases ha; exact ⟨rfl, rfl⟩
  constructor
  · obtain ⟨l, hl, -⟩ := Laser.init_xyt 0 0 0 1 1 1 2 2 2 le_rfl le_rfl le_rfl
      { omega0 := 2 * Real.pi * c / 1, lambda0 := 1, pol := polNormalised (1, 0), laserEnergy := none, dtype := .c128,
        evaluate := fun _ _ _ _ _ _ => 1 } rfl rfl none none
    obtain ⟨L, hL⟩ := run l (Laser.ready_of_init hl)
    exact ⟨_, l, _, L, rfl, hl, rfl, by simp [travelled], hos, hL⟩
  · obtain ⟨l, hl, -⟩ := Laser.init_rt 0 0 1 1 2 2 1 1 le_rfl le_rfl le_rfl le_rfl
      { omega0 := 2 * Real.pi * c / 1, lambda0 := 1, pol := polNormalised (1, 0), laserEnergy := none, dtype := .c128,
        evaluate := fun _ _ _ _ _ _ => 1 } rfl none rfl
    obtain ⟨L, hL⟩ := run l (Laser.ready_of_init hl)
    exact ⟨_, l, _, L, rfl, hl, rfl, by simp [travelled], hos, hL⟩

end Lasy
