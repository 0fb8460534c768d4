import Verif.Props.Superposition
import Verif.Props.LaserInit
import Verif.Props.Profile
import Verif.Props.Speckle
import Verif.Props.Analytic

/-!
# Property C130: moving everything together changes nothing

A laser whose window, profile and optical elements are all moved by the same vector and delay has the same field in the
moved window, through every history.
-/

namespace Lasy
open Spec Phys Complex

variable {s : Shape} [Phys]

/-- the transverse axes moved by `(ξ, η)`; a cylindrical grid cannot be moved sideways -/
def Geom.moved {n0 n1 : ℕ} (ξ η : ℝ) : Geom n0 n1 → Geom n0 n1
  | .xyt x y => .xyt (x.shift ξ) (y.shift η)
  | .rt m hm r => .rt m hm r

/-- `l'` is set up like `l`, moved by `(ξ, η)` and delayed by `τ` -/
structure Displaced (ξ η τ : ℝ) (l l' : Laser s) : Prop where
  geom : l'.grid.geom = l.grid.geom.moved ξ η
  side : l.grid.geom.dim = .rt → ξ = 0 ∧ η = 0
  t : l'.grid.t = l.grid.t.shift τ
  omega0 : l'.profile.omega0 = l.profile.omega0
  omega : l'.omega1d = l.omega1d
  prop : l'.prop = l.prop

/-- the same call, with the optical element moved by `(ξ, η)` -/
inductive DisplacedOp (ξ η : ℝ) : LaserOp → LaserOp → Prop
  | optics (el el' : OpticalElement) (h : ∀ x y w w0, el'.mult (x + ξ) (y + η) w w0 = el.mult x y w w0) :
      DisplacedOp ξ η (.optics el) (.optics el')
  | normalize (v : Option ℝ) (kind : String) : DisplacedOp ξ η (.normalize v kind) (.normalize v kind)
  | propagate (a : PropCall) : DisplacedOp ξ η (.propagate a) (.propagate a)

omit [Phys] in
theorem Axis.shift_shift {n : ℕ} (a : Axis n) (σ τ : ℝ) : (a.shift σ).shift τ = (a.shift τ).shift σ := by
  simp only [Axis.shift, Axis.mk.injEq, true_and]
  refine ⟨by ring, by ring, ?_⟩
  funext k
  ring

theorem Displaced.buildProp {ξ η τ : ℝ} {l l' : Laser s} (h : Displaced ξ η τ l l') (b : String) :
    l'.buildProp b = l.buildProp b := by
  simp only [Laser.buildProp, h.geom, h.omega]
  cases l.grid.geom <;> simp [Geom.moved, Axis.shift]

theorem Displaced.stepped {ξ η τ : ℝ} {l l' : Laser s} (h : Displaced ξ η τ l l') (ax : Axiprop) (b : String) (d : ℝ) (F : Field s) :
    l'.stepped ax b d F = l.stepped ax b d F := by
  funext i j k
  simp only [Laser.stepped, h.geom, h.omega]
  cases l.grid.geom <;> simp [Geom.moved, Axis.shift]

omit [Phys] in
theorem Displaced.layerOf {ξ η τ : ℝ} {l l' : Laser s} (h : Displaced ξ η τ l l') (nrB : Option ℤ) :
    l'.layerOf nrB = l.layerOf nrB := by
  cases nrB with
  | none => rfl
  | some k =>
    simp only [Laser.layerOf, Laser.layer, h.geom]
    cases l.grid.geom <;> rfl

theorem Displaced.pulseEnergy {ξ η τ : ℝ} {l l' : Laser s} (h : Displaced ξ η τ l l') (f : Field s) {u : ℂ} (hu : ‖u‖ = 1) :
    pulseEnergy l'.grid (fun i j k => u * f i j k) = Lasy.pulseEnergy l.grid f := by
  have hv : ∀ j, l'.grid.cellVolume j = l.grid.cellVolume j := by
    intro j
    simp only [Grid.cellVolume, h.geom, h.t]
    cases l.grid.geom <;> simp [Geom.moved, cellVolumeXYT, cellVolumeRT, Axis.shift]
  simp only [Lasy.pulseEnergy, hv, norm_mul, hu, one_mul]

theorem Displaced.energy {ξ η τ : ℝ} {l l' : Laser s} (h : Displaced ξ η τ l l') {f : Field s} {u : ℂ} (hu : ‖u‖ = 1) (hf : l.Has f)
    (hf' : l'.Has fun i j k => u * f i j k) : l'.energy = l.energy := by
  obtain ⟨g, e, -⟩ := Grid.Holds.energy hf
  obtain ⟨g', e', -⟩ := Grid.Holds.energy hf'
  simp only [Laser.energy, e, e']
  rw [h.pulseEnergy f hu]

omit [Phys] in
theorem absMax_unit (f : Field s) {u : ℂ} (hu : ‖u‖ = 1) : absMax (fun i j k => u * f i j k) = absMax f := by
  simp only [absMax, norm_mul, hu, one_mul]

/-- one call -/
theorem DisplacedOp.run (ax : Axiprop) (hax : ax.Superposes) {ξ η τ : ℝ} {o o' : LaserOp} (ho : DisplacedOp ξ η o o') {u : ℂ}
    (hu : ‖u‖ = 1) (l l' : Laser s) (f : Field s) (hm : Displaced ξ η τ l l') (hf : l.Has f) (hc : l.CacheOK)
    (hf' : l'.Has fun i j k => u * f i j k)
    (hg : ∀ a, o = .propagate a → ∀ g, a.grid = some g → ∃ st, g.2.Holds st) (s1 : Shape) (l1 : Laser s1)
    (h : o.run ax ⟨s, l⟩ = (.ok (), ⟨s1, l1⟩)) :
    ∃ (l1' : Laser s1) (f1 : Field s1), o'.run ax ⟨s, l'⟩ = (.ok (), ⟨s1, l1'⟩) ∧ Displaced ξ η τ l1 l1' ∧ l1.Has f1 ∧
      l1'.Has fun i j k => u * f1 i j k := by
  cases ho with
  | optics el el' hel =>
    obtain ⟨l0, e, h0, k1, k2, k3, k4, k5, -⟩ := C19_apply_optics l f hf el
    simp only [LaserOp.run, onLaser, e, Prod.mk.injEq, true_and, Sigma.mk.injEq] at h
    obtain ⟨rfl, h⟩ := h
    obtain rfl := eq_of_heq h
    obtain ⟨l1', e', h1, q1, q2, q3, q4, q5, -⟩ := C19_apply_optics l' _ hf' el'
    refine ⟨l1', _, by simp only [LaserOp.run, onLaser, e'], ⟨?_, ?_, ?_, ?_, ?_, ?_⟩, h0, ?_⟩
    · rw [q1, k1, hm.geom]
    · rw [k1]; exact hm.side
    · rw [q2, k2, hm.t]
    · rw [q3, k3, hm.omega0]
    · rw [q4, k4, hm.omega]
    · rw [q5, k5, hm.prop]
    · have hT : Tat l' el' = Tat l el := by
        funext i j k
        simp only [Tat, hm.geom, hm.omega, hm.omega0]
        rcases hgeo : l.grid.geom with ⟨x, y⟩ | ⟨n, hn, r⟩
        · exact hel _ _ _ _
        · obtain ⟨rfl, rfl⟩ := hm.side (by rw [hgeo]; rfl)
          simpa [Geom.moved] using hel (r.pts j) 0 (l.omega1d k) l.profile.omega0
      rw [hT] at h1
      have hl := (isLin_dft (s := s)).comp ((isLin_mul (Tat l el)).comp isLin_idft) u 0 f f
      simp only [zero_mul, add_zero] at hl
      rwa [hl] at h1
  | normalize v kind =>
    simp only [LaserOp.run, onLaser] at h ⊢
    -- both grids are multiplied by the same number
    have key : ∀ (a : ℂ) (g g' : Grid s), g.Holds (some fun i j k => f i j k * a) → g.geom = l.grid.geom → g.t = l.grid.t →
        g'.Holds (some fun i j k => u * f i j k * a) → g'.geom = l'.grid.geom → g'.t = l'.grid.t →
        Laser.normalize v kind l = (.ok (), { l with grid := g }) →
        Laser.normalize v kind l' = (.ok (), { l' with grid := g' }) →
        ∃ (l1' : Laser s1) (f1 : Field s1), ((Laser.normalize v kind l').1, (⟨s, (Laser.normalize v kind l').2⟩ : Σ s, Laser s)) =
          (.ok (), ⟨s1, l1'⟩) ∧ Displaced ξ η τ l1 l1' ∧ l1.Has f1 ∧ l1'.Has fun i j k => u * f1 i j k := by
      intro a g g' a1 a2 a3 b1 b2 b3 e e'
      rw [e] at h
      simp only [Prod.mk.injEq, true_and, Sigma.mk.injEq] at h
      obtain ⟨rfl, h⟩ := h
      obtain rfl := eq_of_heq h
      refine ⟨{ l' with grid := g' }, fun i j k => f i j k * a, by rw [e'], ⟨?_, ?_, ?_, hm.omega0, hm.omega, hm.prop⟩, a1, ?_⟩
      · rw [b2, a2, hm.geom]
      · rw [a2]; exact hm.side
      · rw [b3, a3, hm.t]
      · have : (fun i j k => u * (f i j k * a)) = fun i j k => u * f i j k * a := by
          funext i j k; ring
        exact this ▸ b1
    have one : ∀ (g g' : Grid s), g.Holds (some f) → g.geom = l.grid.geom → g.t = l.grid.t →
        g'.Holds (some fun i j k => u * f i j k) → g'.geom = l'.grid.geom → g'.t = l'.grid.t →
        Laser.normalize v kind l = (.ok (), { l with grid := g }) →
        Laser.normalize v kind l' = (.ok (), { l' with grid := g' }) →
        ∃ (l1' : Laser s1) (f1 : Field s1), ((Laser.normalize v kind l').1, (⟨s, (Laser.normalize v kind l').2⟩ : Σ s, Laser s)) =
          (.ok (), ⟨s1, l1'⟩) ∧ Displaced ξ η τ l1 l1' ∧ l1.Has f1 ∧ l1'.Has fun i j k => u * f1 i j k := by
      intro g g' a1 a2 a3 b1 b2 b3
      exact key 1 g g' (by simpa using a1) a2 a3 (by simpa using b1) b2 b3
    by_cases hk : kind = "energy"
    · subst hk
      cases v with
      | none => exact one l.grid l'.grid hf rfl rfl hf' rfl rfl rfl rfl
      | some E =>
        have hpe := hm.pulseEnergy f hu
        by_cases hE : Lasy.pulseEnergy l.grid f = 0
        · obtain ⟨g, e, a1, a2, a3⟩ := Grid.Holds.normEnergy_zero hf E hE
          obtain ⟨g', e', b1, b2, b3⟩ := Grid.Holds.normEnergy_zero hf' E (hpe.trans hE)
          exact one g g' a1 a2 a3 b1 b2 b3 (onGrid_eq e) (onGrid_eq e')
        · obtain ⟨g, e, a1, a2, a3⟩ := Grid.Holds.normEnergy hf E hE
          obtain ⟨g', e', b1, b2, b3⟩ := Grid.Holds.normEnergy hf' E (by rwa [hpe])
          rw [hpe] at b1
          exact key _ g g' a1 a2 a3 b1 b2 b3 (onGrid_eq e) (onGrid_eq e')
    by_cases hk2 : kind = "field"
    · subst hk2
      cases v with
      | none => exact one l.grid l'.grid hf rfl rfl hf' rfl rfl rfl rfl
      | some A =>
        have hpe := absMax_unit f hu
        by_cases hE : absMax f = 0
        · obtain ⟨g, e, a1, a2, a3⟩ := Grid.Holds.normPeak_zero hf A hE
          obtain ⟨g', e', b1, b2, b3⟩ := Grid.Holds.normPeak_zero hf' A (hpe.trans hE)
          exact one g g' a1 a2 a3 b1 b2 b3 (onGrid_eq e) (onGrid_eq e')
        · obtain ⟨g, e, a1, a2, a3⟩ := Grid.Holds.normPeak hf A hE
          obtain ⟨g', e', b1, b2, b3⟩ := Grid.Holds.normPeak hf' A (by rwa [hpe])
          rw [hpe] at b1
          exact key _ g g' a1 a2 a3 b1 b2 b3 (onGrid_eq e) (onGrid_eq e')
    by_cases hk3 : kind = "intensity"
    · subst hk3
      cases v with
      | none => exact one l.grid l'.grid hf rfl rfl hf' rfl rfl rfl rfl
      | some E =>
        obtain ⟨g, e, a1, a2, a3⟩ := Grid.Holds.getT hf
        obtain ⟨g', e', b1, b2, b3⟩ := Grid.Holds.getT hf'
        have hpe : (absMax fun i j k => (eps0 : ℂ) * (u * f i j k) ^ 2 / 2 * (c : ℂ)) =
            absMax fun i j k => (eps0 : ℂ) * f i j k ^ 2 / 2 * (c : ℂ) := by
          simp only [absMax, norm_mul, norm_div, norm_pow, hu, one_mul]
        by_cases hp : (absMax fun i j k => (eps0 : ℂ) * f i j k ^ 2 / 2 * (c : ℂ)) = 0
        · refine one g g' a1 a2 a3 b1 b2 b3 (onGrid_eq (m := normalizePeakIntensity (some E)) ?_)
            (onGrid_eq (m := normalizePeakIntensity (some E)) ?_)
          · simp only [normalizePeakIntensity, Py.bind_apply, e, hp, if_true, Py.pure_apply]
          · simp only [normalizePeakIntensity, Py.bind_apply, e', hpe, hp, if_true, Py.pure_apply]
        · exfalso
          have : Laser.normalize (some E) "intensity" l = (.error .assertion, { l with grid := g }) := by
            refine onGrid_eq (m := normalizePeakIntensity (some E)) ?_
            simp only [normalizePeakIntensity, Py.bind_apply, e, hp, if_false]
            simp [Grid.setTemporalField, Py.bind_apply, Shape.toList]
          rw [this] at h
          simp at h
    · exfalso
      simp [Laser.normalize, hk, hk2, hk3] at h
  | propagate a =>
    simp only [LaserOp.run] at h ⊢
    have hprop : ∀ b d (w : Field s), l'.propagated ax b d (fun i j k => u * f i j k * w i j k) =
        fun i j k => u * l.propagated ax b d (fun i j k => f i j k * w i j k) i j k := by
      intro b d w
      have e : (fun f => l'.propagated ax b d f) = fun f => l.propagated ax b d f := by
        funext f
        simp only [Laser.propagated, hm.stepped, hm.omega, hm.omega0]
      have hl := (isLin_propagated ax hax l b d).comp (isLin_mul w) u 0 f f
      simp only [zero_mul, add_zero] at hl
      rw [← hl]
      exact congrFun e _
    have here : ∀ {s1 : Shape} {l1 : Laser s1}, ((Laser.propagateHere ax a.distance a.nrBoundary a.backend l).1,
        (⟨s, (Laser.propagateHere ax a.distance a.nrBoundary a.backend l).2⟩ : Σ s, Laser s)) = (.ok (), ⟨s1, l1⟩) →
        ∃ (l1' : Laser s1) (f1 : Field s1), ((Laser.propagateHere ax a.distance a.nrBoundary a.backend l').1,
        (⟨s, (Laser.propagateHere ax a.distance a.nrBoundary a.backend l').2⟩ : Σ s, Laser s)) = (.ok (), ⟨s1, l1'⟩) ∧
          Displaced ξ η τ l1 l1' ∧ l1.Has f1 ∧ l1'.Has fun i j k => u * f1 i j k := by
      intro s1 l1 h
      obtain ⟨b0, hb0⟩ := hc.uses a.backend
      rcases hw : l.layerOf a.nrBoundary with e | w
      · obtain ⟨g', e', -⟩ := propagateHere_err ax a.distance a.backend l f hf a.nrBoundary hw
        rw [e'] at h
        simp at h
      obtain ⟨l0, e, h0, k1, k2, k3, k4, k5, -⟩ := propagateHere_ok ax a.distance b0 a.backend l f hf hb0 a.nrBoundary hw
      rw [e] at h
      simp only [Prod.mk.injEq, true_and, Sigma.mk.injEq] at h
      obtain ⟨rfl, h⟩ := h
      obtain rfl := eq_of_heq h
      have hb1 : l'.Uses b0 a.backend := by
        unfold Laser.Uses
        rw [hm.prop, hm.buildProp]
        exact hb0
      obtain ⟨l1', e1, h1, q1, q2, q3, q4, q5, -⟩ :=
        propagateHere_ok ax a.distance b0 a.backend l' _ hf' hb1 a.nrBoundary ((hm.layerOf _).trans hw)
      refine ⟨l1', _, by rw [e1], ⟨?_, ?_, ?_, ?_, ?_, ?_⟩, h0, ?_⟩
      · rw [q1, k1, hm.geom]
      · rw [k1]; exact hm.side
      · rw [q2, k2, hm.t, Axis.shift_shift]
      · rw [q3, k3, hm.omega0]
      · rw [q4, k4, hm.omega]
      · rw [q5, k5, hm.buildProp]
      · rwa [hprop b0 a.distance fun i j _ => (w i j : ℂ)] at h1
    unfold Laser.propagate at h ⊢
    rcases hag : a.grid with _ | g'
    · rw [hag] at h
      exact here h
    rw [hag] at h
    rcases hgeo : l.grid.geom with ⟨x, y⟩ | ⟨n, hn, r⟩
    · simp only [hgeo] at h
      obtain ⟨l1', f1, e', hq⟩ := here h
      refine ⟨l1', f1, ?_, hq⟩
      have : l'.grid.geom = .xyt (x.shift ξ) (y.shift η) := by rw [hm.geom, hgeo]; rfl
      simp only [this]
      exact e'
    · simp only [hgeo] at h
      obtain ⟨w, n0, hn0, r0, n', hn', r', hw, hgeo0, hgeo', hnt, hmm⟩ :=
        propagateOnto_inv ax a.distance a.backend l f hf a.nrBoundary g'.2 h
      obtain ⟨st, hst⟩ := hg a rfl g' hag
      obtain ⟨l0, e', h1, h2, h3, h4, h5, h6, h7, h8, h9, -⟩ := propagateOnto_ok ax a.distance
        a.backend l f hf a.nrBoundary hw g'.2 hst hgeo0 hgeo' hnt hmm
      rw [e'] at h
      simp only [Prod.mk.injEq, true_and, Sigma.mk.injEq] at h
      obtain ⟨rfl, h⟩ := h
      obtain rfl := eq_of_heq h
      have hgeo1 : l'.grid.geom = .rt n0 hn0 r0 := by rw [hm.geom, hgeo0]; rfl
      obtain ⟨l1', e1, q1, q2, q3, q4, q5, q6, q7, q8, q9, -⟩ := propagateOnto_ok ax a.distance
        a.backend l' _ hf' a.nrBoundary ((hm.layerOf _).trans hw) g'.2 hst hgeo1 hgeo' hnt hmm
      obtain ⟨rfl, rfl⟩ := hm.side (by rw [hgeo]; rfl)
      refine ⟨l1', _, ?_, ⟨?_, ?_, ?_, ?_, ?_, ?_⟩, h1, ?_⟩
      · simp only [hgeo1]
        exact e1
      · rw [q2, h2, hgeo']; rfl
      · exact fun _ => ⟨rfl, rfl⟩
      · ext k
        · rw [q3, hm.t]; simp only [Axis.shift]; rw [h3]; ring
        · rw [q4, hm.t]; simp only [Axis.shift]; rw [h4]; ring
        · rw [q6]; simp only [Axis.shift]; rw [h6]
        · rw [q5, hm.t]; simp only [Axis.shift]; rw [h5]; ring
      · rw [q7, h7, hm.omega0]
      · funext k; rw [q8, h8, hm.omega]
      · rw [q9, h9]
      · rw [hm.omega, hm.omega0] at q1
        have hl : IsLin fun (f : Field s) => dft fun (i : Fin g'.1.n0) j (k : Fin g'.1.nt) =>
            ax.resampleRT r0.pts (fun k => l.omega1d k / c) r'.pts (modeAt n' (Fin.cast hn'.2 i)) a.backend a.distance
              (fun k j => idft (fun i j k => f i j k * (w i j : ℂ)) (Fin.castLE hmm i) j k) (Fin.cast hnt k) j *
            exp (-I * (l.omega1d (Fin.cast hnt k) - l.profile.omega0) * (a.distance / c)) := by
          refine isLin_dft.comp (A := fun f i j k =>
            ax.resampleRT r0.pts (fun k => l.omega1d k / c) r'.pts (modeAt n' (Fin.cast hn'.2 i)) a.backend a.distance
              (fun k j => idft (fun i j k => f i j k * (w i j : ℂ)) (Fin.castLE hmm i) j k) (Fin.cast hnt k) j *
            exp (-I * (l.omega1d (Fin.cast hnt k) - l.profile.omega0) * (a.distance / c))) ?_
          intro x y u v
          funext i j k
          have hl := (isLin_idft (s := s)).comp (isLin_mul fun i j _ => (w i j : ℂ)) x y u v
          simp only at hl ⊢
          rw [hl, hax.resample]
          ring
        have := hl u 0 f f
        simp only [zero_mul, add_zero] at this
        rwa [this] at q1

/-- a whole history -/
theorem runOps_moved (ax : Axiprop) (hax : ax.Superposes) {ξ η τ : ℝ} {os os' : List LaserOp}
    (ho : List.Forall₂ (DisplacedOp ξ η) os os') (hg : GoodGrids os) {u : ℂ} (hu : ‖u‖ = 1) (l l' : Laser s) (f : Field s)
    (hm : Displaced ξ η τ l l') (hf : l.Has f) (hc : l.CacheOK) (hf' : l'.Has fun i j k => u * f i j k)
    (s1 : Shape) (l1 : Laser s1) (h : runOps ax os ⟨s, l⟩ = (.ok (), ⟨s1, l1⟩)) :
    ∃ (l1' : Laser s1) (f1 : Field s1), runOps ax os' ⟨s, l'⟩ = (.ok (), ⟨s1, l1'⟩) ∧ Displaced ξ η τ l1 l1' ∧ l1.Has f1 ∧
      l1'.Has fun i j k => u * f1 i j k := by
  induction ho generalizing s with
  | nil =>
    simp only [runOps, Py.pure_apply, Prod.mk.injEq, true_and, Sigma.mk.injEq] at h
    obtain ⟨rfl, h⟩ := h
    obtain rfl := eq_of_heq h
    exact ⟨l', f, rfl, hm, hf, hf'⟩
  | @cons o o' os os' ho _ ih =>
    simp only [runOps, Py.bind_apply] at h
    rcases h1 : o.run ax ⟨s, l⟩ with ⟨e | v, ⟨sm, lm⟩⟩
    · simp [h1] at h
    simp only [h1] at h
    have hgo : ∀ a, o = .propagate a → ∀ g, a.grid = some g → ∃ st, g.2.Holds st := fun a ha => hg o (by simp) a ha
    obtain ⟨lm', fm, e1, m1, k1, k2⟩ := ho.run ax hax hu l l' f hm hf hc hf' hgo sm lm h1
    obtain ⟨⟨-, hr⟩, -⟩ := LaserOp.run_inv ax o ⟨s, l⟩ ⟨sm, lm⟩ ⟨⟨f, hf⟩, hc⟩ hgo h1
    obtain ⟨l1', f1, e2, m2, q1, q2⟩ := ih (fun o ho => hg o (by simp [ho])) lm lm' fm m1 k1 hr k2 h
    refine ⟨l1', f1, ?_, m2, q1, q2⟩
    simp only [runOps, Py.bind_apply, e1]
    exact e2

/-! ## New lasers -/

omit [Phys] in
theorem linspace_shift (lo hi τ : ℝ) (n : ℕ) (i : Fin n) : linspace (lo + τ) (hi + τ) n i = linspace lo hi n i + τ := by
  unfold linspace
  ring

omit [Phys] in
theorem mkAxis_shift {lo hi : ℝ} {n : ℕ} {a a' : Axis n} (τ : ℝ) (h : mkAxis lo hi n = .ok a)
    (h' : mkAxis (lo + τ) (hi + τ) n = .ok a') : a' = a.shift τ := by
  obtain ⟨h2, rfl⟩ := mkAxis_ok h
  obtain ⟨_, rfl⟩ := mkAxis_ok h'
  ext k
  · rfl
  · rfl
  · simp only [Axis.shift, linspace_shift]; ring
  · simp only [Axis.shift, linspace_shift]

/-- if the samples agree up to the factor and the grids are moved, so are the lasers -/
theorem init_moved {ξ η τ : ℝ} {dim : String} {lo hi lo' hi' : List ℝ} {np : List ℕ} {p p' : ProfileObj} {m N : Option ℕ}
    {l l' : Laser s} (h : Laser.init dim lo hi np p m N = .ok ⟨s, l⟩) (h' : Laser.init dim lo' hi' np p' m N = .ok ⟨s, l'⟩)
    (hw : p'.omega0 = p.omega0) (hE : p'.laserEnergy = p.laserEnergy) {u : ℂ} (hu : ‖u‖ = 1)
    (hgr : ∀ g g' : Grid s, Grid.init dim lo hi np m true = .ok ⟨s, g⟩ → Grid.init dim lo' hi' np m true = .ok ⟨s, g'⟩ →
      g'.geom = g.geom.moved ξ η ∧ (g.geom.dim = .rt → ξ = 0 ∧ η = 0) ∧ g'.t = g.t.shift τ ∧
      ∀ f f' : Field s, Laser.sample g p N = .ok (Arr.toNd ⟨.c128, f⟩) → Laser.sample g' p' N = .ok (Arr.toNd ⟨.c128, f'⟩) →
        f' = fun i j k => u * f i j k) :
    ∃ f : Field s, Displaced ξ η τ l l' ∧ l.Has f ∧ l.CacheOK ∧ l'.Has fun i j k => u * f i j k := by
  obtain ⟨g, f, l1, e1, e2, e3, e4, e5, e6, e7⟩ := Laser.init_ok h
  obtain ⟨g', f', l1', q1, q2, q3, q4, q5, q6, q7⟩ := Laser.init_ok h'
  obtain ⟨a1, a2, a3, a4⟩ := hgr g g' e1 q1
  obtain rfl := a4 f f' e2 q2
  have hl1 : l1 = { Laser.raw g p with grid := l1.grid } := by
    have := congrArg Prod.snd e3
    simp only [Laser.onGrid] at this
    rw [← this]
  have hl1' : l1' = { Laser.raw g' p' with grid := l1'.grid } := by
    have := congrArg Prod.snd q3
    simp only [Laser.onGrid] at this
    rw [← this]
  have hm : Displaced ξ η τ l1 l1' := by
    refine ⟨?_, ?_, ?_, ?_, ?_, ?_⟩
    · rw [q5, e5, a1]
    · rw [e5]; exact a2
    · rw [q6, e6, a3]
    · rw [hl1, hl1']; exact hw
    · rw [hl1, hl1']
      funext k
      simp only [Laser.raw, a3, hw, Axis.shift]
    · rw [hl1, hl1']; rfl
  have hc : l1.CacheOK := by left; rw [hl1]; rfl
  rcases e7 with ⟨e7, rfl⟩ | ⟨E, e7, e8⟩
  · rcases q7 with ⟨q7, rfl⟩ | ⟨E', q7, q8⟩
    · exact ⟨f, hm, e4, hc, q4⟩
    · rw [hE, e7] at q7; cases q7
  · rcases q7 with ⟨q7, rfl⟩ | ⟨E', q7, q8⟩
    · rw [hE, e7] at q7; cases q7
    · rw [hE, e7] at q7
      cases q7
      obtain ⟨l2', f2, r1, r2, r3, r4⟩ := (DisplacedOp.normalize (ξ := ξ) (η := η) E "energy").run Axiprop.freeSpace
        Axiprop.freeSpace_superposes hu l1 l1' f hm e4 hc q4 (by intro a ha; cases ha) s l
        (by simp only [LaserOp.run, onLaser, e8])
      simp only [LaserOp.run, onLaser, q8, Prod.mk.injEq, true_and, Sigma.mk.injEq, heq_eq_eq] at r1
      subst r1
      have hc' := (Laser.ready_of_init h).2
      exact ⟨f2, r2, r3, hc', r4⟩

/-- **C130 (box).** Two `xyt` lasers: the second has its window moved by `(ξ, η)` and delayed by `τ`, and a profile that is
that of the first, moved likewise (up to a phase factor `u`). Run the same history on both, with the optical elements of
the second moved by `(ξ, η)`: then the field of the second is `u` times that of the first, sample by sample, on axes moved
by `(ξ, η)` and `τ`, and the energy is the same. Asked of the external propagator: linearity. -/
theorem C130_moved_xyt (ax : Axiprop) (hax : ax.Superposes) (ξ η τ : ℝ) {u : ℂ} (hu : ‖u‖ = 1) {p p' : ProfileObj}
    {f f' : ℝ → ℝ → ℝ → ℂ} (hp : p.Pointwise f) (hp' : p'.Pointwise f')
    (hff : ∀ x y t, f' (x + ξ) (y + η) (t + τ) = u * f x y t) (hw : p'.omega0 = p.omega0)
    (hE : p'.laserEnergy = p.laserEnergy) {a b t0 a' b' t1 : ℝ} {np : List ℕ} {m N : Option ℕ} {l l' : Laser s}
    (h : Laser.init "xyt" [a, b, t0] [a', b', t1] np p m N = .ok ⟨s, l⟩)
    (h' : Laser.init "xyt" [a + ξ, b + η, t0 + τ] [a' + ξ, b' + η, t1 + τ] np p' m N = .ok ⟨s, l'⟩)
    {os os' : List LaserOp} (ho : List.Forall₂ (DisplacedOp ξ η) os os') (hg : GoodGrids os)
    {s1 : Shape} {l1 : Laser s1} (hr : runOps ax os ⟨s, l⟩ = (.ok (), ⟨s1, l1⟩)) :
    ∃ (l1' : Laser s1) (F : Field s1), runOps ax os' ⟨s, l'⟩ = (.ok (), ⟨s1, l1'⟩) ∧ l1.Has F ∧
      (l1'.Has fun i j k => u * F i j k) ∧ Displaced ξ η τ l1 l1' ∧ l1'.energy = l1.energy := by
  obtain ⟨F, hm, k1, k2, k3⟩ := init_moved (ξ := ξ) (η := η) (τ := τ) h h' hw hE hu (by
    intro g g' hg hg'
    obtain ⟨-, -, -, -, hc⟩ := Grid.init_ok hg
    obtain ⟨-, -, -, -, hc'⟩ := Grid.init_ok hg'
    rcases hc with ⟨_, _, _, _, _, _, _, _, e, -⟩ | ⟨l0, l1, l2, u0, u1, u2, x, y, t, e1, e2, e3, e4, e5, e6, e7, e8, e9⟩
    · exact absurd e (by decide)
    rcases hc' with ⟨_, _, _, _, _, _, _, _, e, -⟩ | ⟨m0, m1, m2, v0, v1, v2, x', y', t', f1, f2, f3, f4, f5, f6, f7, f8, f9⟩
    · exact absurd e (by decide)
    simp only [List.cons.injEq, and_true] at e2 e3 f2 f3
    obtain ⟨rfl, rfl, rfl⟩ := e2
    obtain ⟨rfl, rfl, rfl⟩ := e3
    obtain ⟨rfl, rfl, rfl⟩ := f2
    obtain ⟨rfl, rfl, rfl⟩ := f3
    have hx := mkAxis_shift ξ e5 f5
    have hy := mkAxis_shift η e6 f6
    have ht := mkAxis_shift τ e7 f7
    subst hx hy ht
    refine ⟨by rw [f9, e9]; rfl, fun h => (by rw [e9] at h; cases h), by rw [f8, e8], ?_⟩
    intro F F' hF hF'
    simp only [Laser.sample, e9, f9, Except.ok.injEq] at hF hF'
    have hF1 := toNd_inj hF
    have hF2 := toNd_inj hF'
    simp only [Arr.mk.injEq] at hF1 hF2
    rw [← hF1.2, ← hF2.2]
    funext i j k
    rw [hp', hp, e8, f8]
    exact hff _ _ _)
  obtain ⟨l1', F1, e, m1, j1, j2⟩ := runOps_moved ax hax ho hg hu l l' F hm k1 k2 k3 s1 l1 hr
  exact ⟨l1', F1, e, j1, j2, m1, m1.energy hu j1 j2⟩

/-- **C130 (cylinder).** Two `rt` lasers: the window of the second is delayed by `τ`, and so is its profile (up to a phase
factor `u`). After the same history, the field of the second is `u` times that of the first, sample by sample, on a time axis
delayed by `τ`, and the energy is the same. -/
theorem C130_delayed_rt (ax : Axiprop) (hax : ax.Superposes) (τ : ℝ) {u : ℂ} (hu : ‖u‖ = 1) {p p' : ProfileObj}
    {f f' : ℝ → ℝ → ℝ → ℂ} (hp : p.Pointwise f) (hp' : p'.Pointwise f')
    (hff : ∀ x y t, f' x y (t + τ) = u * f x y t) (hw : p'.omega0 = p.omega0)
    (hE : p'.laserEnergy = p.laserEnergy) {r0 r1 t0 t1 : ℝ} {np : List ℕ} {m N : Option ℕ} {l l' : Laser s}
    (h : Laser.init "rt" [r0, t0] [r1, t1] np p m N = .ok ⟨s, l⟩)
    (h' : Laser.init "rt" [r0, t0 + τ] [r1, t1 + τ] np p' m N = .ok ⟨s, l'⟩)
    {os : List LaserOp} (hg : GoodGrids os)
    {s1 : Shape} {l1 : Laser s1} (hr : runOps ax os ⟨s, l⟩ = (.ok (), ⟨s1, l1⟩)) :
    ∃ (l1' : Laser s1) (F : Field s1), runOps ax os ⟨s, l'⟩ = (.ok (), ⟨s1, l1'⟩) ∧ l1.Has F ∧
      (l1'.Has fun i j k => u * F i j k) ∧ Displaced 0 0 τ l1 l1' ∧ l1'.energy = l1.energy := by
  obtain ⟨F, hm, k1, k2, k3⟩ := init_moved (ξ := 0) (η := 0) (τ := τ) h h' hw hE hu (by
    intro g g' hg hg'
    obtain ⟨-, -, -, -, hc⟩ := Grid.init_ok hg
    obtain ⟨-, -, -, -, hc'⟩ := Grid.init_ok hg'
    rcases hc with ⟨l0, l1, u0, u1, m', r, t, rest, e1, e2, e3, e4, e5, e6, e7, e8, hm, e9⟩ |
      ⟨_, _, _, _, _, _, _, _, _, e, -⟩
    swap
    · exact absurd e (by decide)
    rcases hc' with ⟨m0, m1, v0, v1, m'', r', t', rest', f1, f2, f3, f4, f5, f6, f7, f8, hm', f9⟩ |
      ⟨_, _, _, _, _, _, _, _, _, e, -⟩
    swap
    · exact absurd e (by decide)
    simp only [List.cons.injEq, and_true] at e2 e3 f2 f3
    obtain ⟨rfl, rfl⟩ := e2
    obtain ⟨rfl, rfl⟩ := e3
    obtain ⟨rfl, rfl⟩ := f2
    obtain ⟨rfl, rfl⟩ := f3
    rw [e5] at f5
    cases f5
    rw [e6] at f6
    cases f6
    have ht := mkAxis_shift τ e7 f7
    subst ht
    refine ⟨by rw [f9, e9]; rfl, fun _ => ⟨rfl, rfl⟩, by rw [f8, e8], ?_⟩
    intro F F' hF hF'
    simp only [Laser.sample, e9, f9] at hF hF'
    split at hF
    swap
    · cases hF
    rename_i hN
    simp only [hN, dif_pos] at hF'
    simp only [Except.ok.injEq] at hF hF'
    have hF1 := toNd_inj hF
    have hF2 := toNd_inj hF'
    simp only [Arr.mk.injEq, true_and] at hF1 hF2
    rw [← hF1, ← hF2]
    funext i j k
    refine (congrFun ?_ _).trans (congrFun (ifft_smul u _) _)
    congr 1
    funext q
    simp only [Laser.sampleTheta]
    rw [hp', hp, e8, f8]
    exact hff _ _ _)
  have ho : List.Forall₂ (DisplacedOp 0 0) os os := by
    refine List.forall₂_same.2 fun o _ => ?_
    cases o with
    | optics el => exact .optics el el (by simp)
    | normalize v k => exact .normalize v k
    | propagate a => exact .propagate a
  obtain ⟨l1', F1, e, m1, j1, j2⟩ := runOps_moved ax hax ho hg hu l l' F hm k1 k2 k3 s1 l1 hr
  exact ⟨l1', F1, e, j1, j2, m1, m1.energy hu j1 j2⟩

/-- **C130 (longitudinal profiles).** A later `t_peak` delays the analytic longitudinal profiles; the envelope is multiplied by
`exp(i ω0 τ)`, so that the real field `Re(E exp(-i ω0 t))` is delayed with its carrier: the phase at the peak stays
`cep_phase`. -/
theorem C130_t_peak (wl tau tp cep n τ t : ℝ) :
    gaussianLong wl tau (tp + τ) cep (t + τ) = exp (I * (longOmega0 wl * τ : ℝ)) * gaussianLong wl tau tp cep t ∧
    superGaussianLong wl tau (tp + τ) n cep (t + τ) =
      exp (I * (longOmega0 wl * τ : ℝ)) * superGaussianLong wl tau tp n cep t ∧
    cosineLong wl tau (tp + τ) cep (t + τ) = exp (I * (longOmega0 wl * τ : ℝ)) * cosineLong wl tau tp cep t := by
  have e : t + τ - (tp + τ) = t - tp := by ring
  refine ⟨?_, ?_, ?_⟩
  · rw [gaussianLong, gaussianLong, e, ← Complex.exp_add]
    congr 1
    push_cast
    ring
  · rw [superGaussianLong, superGaussianLong, e, ← Complex.exp_add]
    congr 1
    push_cast
    ring
  · simp only [cosineLong, e]
    rw [show I * ((cep + longOmega0 wl * (tp + τ) : ℝ) : ℂ) =
      I * ((longOmega0 wl * τ : ℝ) : ℂ) + I * ((cep + longOmega0 wl * tp : ℝ) : ℂ) by push_cast; ring, Complex.exp_add]
    ring

/-- **C130 (Gaussian pulses).** Delaying `t_peak` and the window of a `GaussianProfile` laser by `τ` multiplies every sample by
`exp(i ω0 τ)`, after every history: the same pulse, later. Here in `rt` geometry. -/
theorem C130_gaussian_rt (ax : Axiprop) (hax : ax.Superposes) (τ : ℝ) {wl : ℝ} {pol : List ℂ} {E : Option ℝ}
    {w0 tau tp cep zf : ℝ} {p p' : ProfileObj} (hp : gaussianProfile wl pol E w0 tau tp cep zf = .ok p)
    (hp' : gaussianProfile wl pol E w0 tau (tp + τ) cep zf = .ok p') {r0 r1 t0 t1 : ℝ} {np : List ℕ} {m N : Option ℕ}
    {l l' : Laser s} (h : Laser.init "rt" [r0, t0] [r1, t1] np p m N = .ok ⟨s, l⟩)
    (h' : Laser.init "rt" [r0, t0 + τ] [r1, t1 + τ] np p' m N = .ok ⟨s, l'⟩) {os : List LaserOp} (hg : GoodGrids os)
    {s1 : Shape} {l1 : Laser s1} (hr : runOps ax os ⟨s, l⟩ = (.ok (), ⟨s1, l1⟩)) :
    ∃ (l1' : Laser s1) (F : Field s1), runOps ax os ⟨s, l'⟩ = (.ok (), ⟨s1, l1'⟩) ∧ l1.Has F ∧
      (l1'.Has fun i j k => exp (I * (2 * Real.pi * c / wl * τ : ℝ)) * F i j k) ∧
      (∀ k, l1'.grid.t.pts k = l1.grid.t.pts k + τ) ∧ l1'.energy = l1.energy := by
  have hu : ‖exp (I * ((2 * Real.pi * c / wl * τ : ℝ) : ℂ))‖ = 1 := by
    rw [mul_comm]
    exact Complex.norm_exp_ofReal_mul_I _
  obtain ⟨z, hz⟩ : ∃ z, zFocOverZr w0 (some zf) wl = .ok z := by
    unfold zFocOverZr
    split_ifs
    · exact ⟨_, rfl⟩
    · exact ⟨_, rfl⟩
  simp only [gaussianProfile, hz, bind, Except.bind, combinedProfile, profileInit] at hp hp'
  split at hp
  swap
  · cases hp
  rename_i px py
  simp only [Except.ok.injEq] at hp hp'
  subst hp hp'
  obtain ⟨l1', F, e, j1, j2, hm, hen⟩ := C130_delayed_rt ax hax τ hu
    (f := fun x y t => gaussianTrans w0 z x y * gaussianLong wl tau tp cep t)
    (f' := fun x y t => gaussianTrans w0 z x y * gaussianLong wl tau (tp + τ) cep t)
    (fun _ _ _ _ _ _ _ _ _ => rfl) (fun _ _ _ _ _ _ _ _ _ => rfl)
    (fun x y t => by
      rw [(C130_t_peak wl tau tp cep 0 τ t).1, longOmega0]
      ring) (by rfl) (by rfl) h h' hg hr
  exact ⟨l1', F, e, j1, j2, fun k => by rw [hm.t]; rfl, hen⟩

/-- C130 is not vacuous: a Gaussian pulse of one joule and the same 5 time units later, focused by a mirror and propagated -/
example : ∃ (p p' : ProfileObj) (l l' : Laser ⟨1, 2, 2⟩) (L : Σ s, Laser s) (os : List LaserOp),
    gaussianProfile 1 [1, 0] (some 1) 1 1 0 0 0 = .ok p ∧ gaussianProfile 1 [1, 0] (some 1) 1 1 (0 + 5) 0 0 = .ok p' ∧
    Laser.init "rt" [0, -1] [1, 1] [2, 2] p (some 1) none = .ok ⟨_, l⟩ ∧
    Laser.init "rt" [0, -1 + 5] [1, 1 + 5] [2, 2] p' (some 1) none = .ok ⟨_, l'⟩ ∧ GoodGrids os ∧ os.length = 2 ∧
    runOps Axiprop.freeSpace os ⟨_, l⟩ = (.ok (), L) := by
  obtain ⟨p, hp, -⟩ := C40_formula 1 one_ne_zero 1 0 (some 1) 1 1 0 0 0
  obtain ⟨p', hp', -⟩ := C40_formula 1 one_ne_zero 1 0 (some 1) 1 1 (0 + 5) 0 0
  obtain ⟨l, a, hl, hf⟩ := Laser.init_rt_energy 0 (-1) 1 1 2 2 1 1 le_rfl le_rfl le_rfl le_rfl p none rfl
  obtain ⟨l', a', hl', -⟩ := Laser.init_rt_energy 0 (-1 + 5) 1 (1 + 5) 2 2 1 1 le_rfl le_rfl le_rfl le_rfl p' none rfl
  obtain ⟨l1, e1, h1, hgeo, ht, hp1, ho, hpr, -⟩ := C19_apply_optics l _ hf (parabolicMirror 1)
  have hc1 : l1.CacheOK := by
    rcases (Laser.ready_of_init hl).2 with hc | ⟨b, hc⟩
    · exact .inl (hpr.trans hc)
    · exact .inr ⟨b, by rw [hpr, hc, buildProp_congr hgeo ho]⟩
  obtain ⟨l2, e2, -⟩ := propagateAll_succeeds Axiprop.freeSpace [⟨3, none, none, "NP"⟩] l1 ⟨⟨_, h1⟩, hc1⟩ (by simp)
  refine ⟨p, p', l, l', ⟨_, l2⟩, [.optics (parabolicMirror 1), .propagate ⟨3, none, none, "NP"⟩], hp, hp', hl, hl', ?_, rfl, ?_⟩
  · intro o ho a ha g hg
    simp at ho
    rcases ho with rfl | rfl
    · cases ha
    · cases ha; cases hg
  · simp only [runOps, LaserOp.run, onLaser, Py.bind_apply, e1]
    simp only [propagateAll, Py.bind_apply] at e2
    exact e2

end Lasy
