import Verif.Props.Propagate
import Verif.Lemmas.AxipropWitness

/-!
# Properties C28–C32, C67: propagator cache, absorbing layer, resampling, failures
-/

namespace Lasy
open Spec Phys Complex

variable {s s' : Shape} [Phys]

/-- C25 and C27 apply: an external propagator with the required properties, and a laser -/
example : Axiprop.freeSpace.Additive ∧ Axiprop.freeSpace.Unitary ∧ ∃ l : Laser ⟨2, 2, 2⟩, l.Ready := by
  obtain ⟨l, -, h, -⟩ := constLaser
  exact ⟨Axiprop.freeSpace_additive, Axiprop.freeSpace_unitary, l, Laser.ready_of_init h⟩

/-! ## C28 -/

/-- **C28.** After any history of successful `propagate` calls, with or without resampling, the next
`propagate(d)` acts on the field with propagators built for the transverse axes and azimuthal modes
which the laser has at that moment (`Laser.stepped`), and for the frequencies of the laser; the same for
a call that resamples. -/
theorem C28_cache_matches_grid (ax : Axiprop) (as : List PropCall) (L L' : Σ s, Laser s) (hL : L.2.Ready)
    (hg : EnvelopeGrids as) (h : propagateAll ax as L = (.ok (), L')) :
    (∃ hnt : L'.1.nt = L.1.nt, ∀ k, L'.2.omega1d k = L.2.omega1d (Fin.cast hnt k)) ∧
    ∃ f', L'.2.Has f' ∧
      (∀ d b, ∃ (b0 : String) (l'' : Laser L'.1),
        Laser.propagate ax d none none b L' = (.ok (), ⟨L'.1, l''⟩) ∧
        l''.Has (L'.2.propagated ax b0 d f')) ∧
      (∀ d b n hn r (s'' : Shape) (g'' : Grid s'') n'' hn'' r'' (hnt : s''.nt = L'.1.nt)
        (hm : s''.n0 ≤ L'.1.n0), L'.2.grid.geom = .rt n hn r → (∃ st, g''.Holds st) →
        g''.geom = .rt n'' hn'' r'' → ∃ l'' : Laser s'',
          Laser.propagate ax d none (some ⟨s'', g''⟩) b L' = (.ok (), ⟨s'', l''⟩) ∧
          l''.Has (dft fun i j k =>
            ax.resampleRT r.pts (fun k => L'.2.omega1d k / c) r''.pts (modeAt n'' (Fin.cast hn''.2 i)) b d
              (fun k j => idft f' (Fin.castLE hm i) j k) (Fin.cast hnt k) j *
            exp (-I * (L'.2.omega1d (Fin.cast hnt k) - L'.2.profile.omega0) * (d / c)))) := by
  obtain ⟨⟨⟨f', hf'⟩, hc⟩, -, -, -, hnt, -, hom, -⟩ := propagateAll_inv ax as L L' hL hg h
  refine ⟨⟨hnt, hom⟩, f', hf', ?_, ?_⟩
  · intro d b
    obtain ⟨b0, hb0⟩ := hc.uses b
    obtain ⟨l1, e1, a1, -⟩ := propagateHere_ok ax d b0 b L'.2 f' hf' hb0 none (w := fun _ _ => 1) rfl
    simp only [ofReal_one, mul_one] at a1
    exact ⟨b0, l1, propagate_none_ok e1, a1⟩
  · intro d b n hn r s'' g'' n'' hn'' r'' hnt hm hgeo hst hgeo''
    obtain ⟨st, hst⟩ := hst
    obtain ⟨l'', e, h1, -⟩ := propagateOnto_ok ax d b L'.2 f' hf' none (w := fun _ _ => 1) rfl g'' hst
      hgeo hgeo'' hnt hm
    simp only [ofReal_one, mul_one] at h1
    refine ⟨l'', ?_, h1⟩
    unfold Laser.propagate
    simp only [hgeo]
    exact e

/-! ## C29 -/

/-- **C29 is false of the code**: after the first call the `backend` argument has no effect: for every
laser without cached propagator, whatever backend the second call asks for, it does what a call with the
first backend does. -/
theorem C29_refuted (ax : Axiprop) (l : Laser s) (f : Field s) (hf : l.Has f) (hp : l.prop = .absent)
    (d1 d2 : ℝ) (b1 b2 : String) :
    ∃ l1 : Laser s, Laser.propagate ax d1 none none b1 ⟨s, l⟩ = (.ok (), ⟨s, l1⟩) ∧
      Laser.propagate ax d2 none none b2 ⟨s, l1⟩ = Laser.propagate ax d2 none none b1 ⟨s, l1⟩ := by
  obtain ⟨l1, e1, h1, h2, h3, h4, h5, h6, h7⟩ :=
    propagateHere_ok ax d1 b1 b1 l f hf (.inl ⟨hp, rfl⟩) none (w := fun _ _ => 1) rfl
  refine ⟨l1, propagate_none_ok e1, ?_⟩
  have hna : l1.prop ≠ .absent := by rw [h6]; exact buildProp_ne_absent l b1
  have key : ∀ l2 : Laser s, l2.prop ≠ .absent → Laser.ensureProp b2 l2 = Laser.ensureProp b1 l2 := by
    intro l2 hl2
    simp only [Laser.ensureProp, Py.modify_apply]
  simp only [propagate_none]
  have : Laser.propagateHere ax d2 none b2 l1 = Laser.propagateHere ax d2 none b1 l1 := by
    unfold Laser.propagateHere
    rw [Py.bind_ok (Py.get_apply _), Py.bind_ok (Py.get_apply _), Py.bind_ok (Py.require_pos h1.env _),
      Py.bind_ok (Py.require_pos h1.env _)]
    simp only [Laser.absorb]
    rw [Py.bind_ok (Py.pure_apply _ _), Py.bind_ok (Py.pure_apply _ _)]
    obtain ⟨g1, q1, -⟩ := Grid.Holds.getS h1
    rw [Py.bind_ok (onGrid_eq q1), Py.bind_ok (onGrid_eq q1)]
    simp only [Py.bind_apply, key { l1 with grid := g1 } hna]
  rw [this]

/-- the consequence for a propagator whose backends differ: the second call leaves a field that backend
`"B"` would not have produced -/
theorem C29_refuted_concrete : ∃ (ax : Axiprop) (l l1 l2 : Laser ⟨2, 2, 2⟩) (f1 : Field ⟨2, 2, 2⟩),
    Laser.propagate ax 0 none none "A" ⟨_, l⟩ = (.ok (), ⟨_, l1⟩) ∧ l1.Has f1 ∧
    Laser.propagate ax 0 none none "B" ⟨_, l1⟩ = (.ok (), ⟨_, l2⟩) ∧
    ¬ l2.Has (l1.propagated ax "B" 0 f1) := by
  let ax : Axiprop :=
    { stepRT := fun _ _ _ _ _ u => u
      resampleRT := fun _ _ _ _ _ _ _ _ _ => 0
      stepXY := fun _ _ _ b _ u => if b = "A" then u else fun _ _ _ => 0 }
  obtain ⟨l, E0, hl, hh, -⟩ := constLaser
  obtain ⟨g, f, hg, -, hgeo, -, -, -, hp, -⟩ := Laser.init_facts hl
  have hx : ∃ x y, l.grid.geom = .xyt x y := by
    obtain ⟨-, -, -, -, hc⟩ := Grid.init_ok hg
    rcases hc with ⟨_, _, _, _, _, _, _, _, h, -⟩ | ⟨_, _, _, _, _, _, x, y, _, -, -, -, -, -, -, -, -, h⟩
    · exact absurd h (by decide)
    · exact ⟨x, y, hgeo.trans h⟩
  obtain ⟨x, y, hxy⟩ := hx
  obtain ⟨l1, e1, h1, h2, h3, h4, h5, h6, h7⟩ :=
    propagateHere_ok ax 0 "A" "A" l _ hh (.inl ⟨hp, rfl⟩) none (w := fun _ _ => 1) rfl
  have hu : l1.Uses "A" "B" := .inr (by rw [h6]; exact (buildProp_congr h2 h5 "A").symm)
  obtain ⟨l2, e2, k1, -⟩ := propagateHere_ok ax 0 "A" "B" l1 _ h1 hu none (w := fun _ _ => 1) rfl
  refine ⟨ax, l, l1, l2, _, propagate_none_ok e1, h1, propagate_none_ok e2, ?_⟩
  intro hbad
  have hA : ∀ (l : Laser ⟨2, 2, 2⟩) (F : Field ⟨2, 2, 2⟩), (∃ x y, l.grid.geom = .xyt x y) →
      l.propagated ax "A" 0 F = F := by
    rintro l F ⟨x, y, hxy⟩
    have : l.stepped ax "A" 0 (idft F) = idft F := by
      funext i j k
      simp only [Laser.stepped, hxy, ax, if_true]
    simp [Laser.propagated, this, dft_idft]
  have hB : ∀ (l : Laser ⟨2, 2, 2⟩) (F : Field ⟨2, 2, 2⟩), (∃ x y, l.grid.geom = .xyt x y) →
      l.propagated ax "B" 0 F = fun _ _ _ => 0 := by
    rintro l F ⟨x, y, hxy⟩
    have : l.stepped ax "B" 0 (idft F) = fun _ _ _ => 0 := by
      funext i j k
      simp only [Laser.stepped, hxy, ax]
      simp
    funext i j k
    simp [Laser.propagated, this, dft]
  have hxy1 : ∃ x y, l1.grid.geom = .xyt x y := ⟨x, y, h2.trans hxy⟩
  rw [hB l1 _ hxy1] at hbad
  rw [hA l1 _ hxy1] at k1
  have h0 := Grid.Holds.unique k1 hbad
  have := congrFun (congrFun (congrFun h0 0) 0) 0
  rw [hA l _ ⟨x, y, hxy⟩] at this
  simp at this

/-- **C29**, the part that holds: a call on a laser without cached propagator (the first call, or the
first after a resampling call) uses the backend it is given; resampling calls always do (C28). -/
theorem C29_backend_partial (ax : Axiprop) (l : Laser s) (f : Field s) (hf : l.Has f)
    (hp : l.prop = .absent) (d : ℝ) (b : String) :
    ∃ l1 : Laser s, Laser.propagate ax d none none b ⟨s, l⟩ = (.ok (), ⟨s, l1⟩) ∧
      l1.Has (l.propagated ax b d f) := by
  obtain ⟨l1, e1, h1, -⟩ :=
    propagateHere_ok ax d b b l f hf (.inl ⟨hp, rfl⟩) none (w := fun _ _ => 1) rfl
  simp only [ofReal_one, mul_one] at h1
  exact ⟨l1, propagate_none_ok e1, h1⟩

/-! ## C30 -/

omit [Phys] in
theorem absorbShape_range (k : ℕ) (q : Fin k) : 0 ≤ absorbShape k q ∧ absorbShape k q ≤ 1 := by
  unfold absorbShape
  split_ifs
  · simp
  · refine ⟨Real.sqrt_nonneg _, ?_⟩
    have h := Real.sqrt_le_sqrt (Real.cos_le_one (linspace 0 (Real.pi / 2) k q))
    rwa [Real.sqrt_one] at h

omit [Phys] in
theorem layerHi_range (k n : ℕ) (j : Fin n) : 0 ≤ layerHi k n j ∧ layerHi k n j ≤ 1 := by
  unfold layerHi
  split_ifs
  · exact absorbShape_range _ _
  · simp

omit [Phys] in
theorem layerLo_range (k n : ℕ) (j : Fin n) : 0 ≤ layerLo k n j ∧ layerLo k n j ≤ 1 := by
  unfold layerLo
  split_ifs
  · exact absorbShape_range _ _
  · simp

omit [Phys] in
theorem layerHi_last {k n : ℕ} (hk : 0 < k) (hkn : k ≤ n) (j : Fin n) (hj : (j : ℕ) + 1 = n) :
    layerHi k n j = 0 := by
  unfold layerHi absorbShape
  rw [dif_pos ⟨by omega, hkn⟩, if_pos (by simp only; omega)]

omit [Phys] in
theorem layerLo_first {k n : ℕ} (hk : 0 < k) (j : Fin n) (hj : (j : ℕ) = 0) : layerLo k n j = 0 := by
  unfold layerLo absorbShape
  rw [dif_pos (by omega), if_pos (by simp only [Fin.val_rev]; omega)]

omit [Phys] in
theorem layerHi_inside {k n : ℕ} (j : Fin n) (hj : (j : ℕ) < n - k) : layerHi k n j = 1 := by
  unfold layerHi
  rw [dif_neg (by omega)]

omit [Phys] in
theorem layerLo_inside {k n : ℕ} (j : Fin n) (hj : k ≤ (j : ℕ)) : layerLo k n j = 1 := by
  unfold layerLo
  rw [dif_neg (by omega)]

/-- the outermost cells: largest radius, or the four edges of the transverse plane -/
def OnEdge (d : Dim) (i : Fin s.n0) (j : Fin s.n1) : Prop :=
  match d with
  | .rt => (j : ℕ) + 1 = s.n1
  | .xyt => (i : ℕ) = 0 ∨ (i : ℕ) + 1 = s.n0 ∨ (j : ℕ) = 0 ∨ (j : ℕ) + 1 = s.n1

/-- at least `k` cells away from the edges -/
def Interior (d : Dim) (k : ℕ) (i : Fin s.n0) (j : Fin s.n1) : Prop :=
  match d with
  | .rt => (j : ℕ) < s.n1 - k
  | .xyt => k ≤ (i : ℕ) ∧ (i : ℕ) < s.n0 - k ∧ k ≤ (j : ℕ) ∧ (j : ℕ) < s.n1 - k

/-- the layer fits on the grid -/
def LayerFits (d : Dim) (s : Shape) (k : ℕ) : Prop :=
  match d with
  | .rt => k ≤ s.n1
  | .xyt => k ≤ s.n0 ∧ k ≤ s.n1

omit [Phys] in
theorem layer_factors (l : Laser s) (k : ℕ) (hk : 0 < k) (hfit : LayerFits l.grid.geom.dim s k) :
    ∃ w, l.layerOf (some k) = .ok w ∧ ∀ i j, 0 ≤ w i j ∧ w i j ≤ 1 ∧
      (OnEdge l.grid.geom.dim i j → w i j = 0) ∧ (Interior l.grid.geom.dim k i j → w i j = 1) := by
  have hk' : (0 : ℤ) < k := by exact_mod_cast hk
  simp only [Laser.layerOf, hk', if_true, Int.toNat_natCast, Laser.layer]
  rcases hgeo : l.grid.geom with ⟨x, y⟩ | ⟨n, hn, r⟩
  · rw [hgeo] at hfit
    simp only [LayerFits, Geom.dim] at hfit
    simp only [hfit, and_self, if_true, Geom.dim, OnEdge, Interior]
    refine ⟨_, rfl, fun i j => ?_⟩
    obtain ⟨a1, a2⟩ := layerHi_range k s.n0 i
    obtain ⟨b1, b2⟩ := layerLo_range k s.n0 i
    obtain ⟨c1, c2⟩ := layerHi_range k s.n1 j
    obtain ⟨d1, d2⟩ := layerLo_range k s.n1 j
    refine ⟨by positivity, mul_le_one₀ (mul_le_one₀ a2 b1 b2) (by positivity) (mul_le_one₀ c2 d1 d2), ?_, ?_⟩
    · rintro (h | h | h | h)
      · simp [layerLo_first hk i h]
      · simp [layerHi_last hk hfit.1 i h]
      · simp [layerLo_first hk j h]
      · simp [layerHi_last hk hfit.2 j h]
    · rintro ⟨h1, h2, h3, h4⟩
      simp [layerHi_inside i h2, layerLo_inside i h1, layerHi_inside j h4, layerLo_inside j h3]
  · rw [hgeo] at hfit
    simp only [LayerFits, Geom.dim] at hfit
    simp only [hfit, if_true, Geom.dim, OnEdge, Interior]
    refine ⟨_, rfl, fun i j => ?_⟩
    obtain ⟨a1, a2⟩ := layerHi_range k s.n1 j
    exact ⟨a1, a2, fun h => layerHi_last hk hfit j h, fun h => layerHi_inside j h⟩

/-- **C30.** `propagate(d, nr_boundary=k)` does what `propagate(d)` does to a laser whose field has been
multiplied by factors in `[0, 1]`: zero in the outermost cells, one at `k` or more cells from the edge. -/
theorem C30_absorbing_layer (ax : Axiprop) (l : Laser s) (f : Field s) (hf : l.Has f) (hc : l.CacheOK)
    (d : ℝ) (b : String) (k : ℕ) (hk : 0 < k) (hfit : LayerFits l.grid.geom.dim s k) :
    ∃ (w : Fin s.n0 → Fin s.n1 → ℝ) (b0 : String) (l' : Laser s),
      Laser.propagate ax d (some k) none b ⟨s, l⟩ = (.ok (), ⟨s, l'⟩) ∧
      l'.Has (l.propagated ax b0 d fun i j k => f i j k * (w i j : ℂ)) ∧
      ∀ i j, 0 ≤ w i j ∧ w i j ≤ 1 ∧
        (OnEdge l.grid.geom.dim i j → w i j = 0) ∧ (Interior l.grid.geom.dim k i j → w i j = 1) := by
  obtain ⟨w, hw, h1⟩ := layer_factors l k hk hfit
  obtain ⟨b0, hb0⟩ := hc.uses b
  obtain ⟨l', e, h2, -⟩ := propagateHere_ok ax d b0 b l f hf hb0 _ hw
  exact ⟨w, b0, l', propagate_none_ok e, h2, h1⟩

/-- **C30**: the layer never adds energy (the propagator being norm-preserving and the cell volumes
nonnegative, C11). -/
theorem C30_energy (ax : Axiprop) (hax : ax.Unitary) (l : Laser s) (f : Field s) (hf : l.Has f)
    (hc : l.CacheOK) (d : ℝ) (b : String) (k : ℕ) (hk : 0 < k)
    (hfit : LayerFits l.grid.geom.dim s k) (hv : ∀ j, 0 ≤ l.grid.cellVolume j) :
    ∃ (l' : Laser s) (E E' : ℝ), Laser.propagate ax d (some k) none b ⟨s, l⟩ = (.ok (), ⟨s, l'⟩) ∧
      l.energy = .ok E ∧ l'.energy = .ok E' ∧ E' ≤ E := by
  obtain ⟨w, hw, h1⟩ := layer_factors l k hk hfit
  obtain ⟨b0, hb0⟩ := hc.uses b
  obtain ⟨l', e, h2, h3, h4, -⟩ := propagateHere_ok ax d b0 b l f hf hb0 _ hw
  obtain ⟨g1, q1, -⟩ := Grid.Holds.energy h2
  obtain ⟨g0, q0, -⟩ := Grid.Holds.energy hf
  refine ⟨l', _, _, propagate_none_ok e, by simp only [Laser.energy, q0]; rfl,
    by simp only [Laser.energy, q1]; rfl, ?_⟩
  have hcv : ∀ F, pulseEnergy l'.grid F = pulseEnergy l.grid F := by
    intro F
    simp [pulseEnergy, Grid.cellVolume, h3, h4, Axis.shift, cellVolumeRT, cellVolumeXYT]
  rw [hcv, energy_propagated ax hax]
  simp only [pulseEnergy]
  refine mul_le_mul_of_nonneg_right ?_ (by norm_num)
  refine Finset.sum_le_sum fun i _ => Finset.sum_le_sum fun j _ => Finset.sum_le_sum fun k _ => ?_
  refine mul_le_mul_of_nonneg_left ?_ (mul_nonneg (hv j) eps0_pos.le)
  obtain ⟨w0, w1, -⟩ := h1 i j
  rw [norm_mul, Complex.norm_real, Real.norm_of_nonneg w0]
  have : ‖f i j k‖ * w i j ≤ ‖f i j k‖ := mul_le_of_le_one_right (norm_nonneg _) w1
  exact pow_le_pow_left₀ (by positivity) this 2

/-- **C30**: a width that is not positive is rejected with `AssertionError`, a width larger than the axis
with `ValueError`; the laser still holds its field, on the same axes. -/
theorem C30_rejected (ax : Axiprop) (l : Laser s) (f : Field s) (hf : l.Has f) (d : ℝ) (b : String)
    (k : ℤ) (hk : k ≤ 0 ∨ ¬ LayerFits l.grid.geom.dim s k.toNat) :
    ∃ (l' : Laser s) (e : PyErr), Laser.propagate ax d (some k) none b ⟨s, l⟩ = (.error e, ⟨s, l'⟩) ∧
      (e = if k ≤ 0 then .assertion else .value) ∧ l'.Has f ∧ l'.grid.geom = l.grid.geom ∧
      l'.grid.t = l.grid.t ∧ l'.prop = l.prop ∧ l'.omega1d = l.omega1d := by
  have hw : l.layerOf (some k) = .error (if k ≤ 0 then .assertion else .value) := by
    simp only [Laser.layerOf]
    by_cases h : k ≤ 0
    · simp [h, not_lt.mpr h]
    · have h' : 0 < k := by omega
      rcases hk with hk | hk
      · exact absurd hk h
      · simp only [h', if_true, h, if_false, Laser.layer]
        rcases hgeo : l.grid.geom with ⟨x, y⟩ | ⟨n, hn, r⟩ <;> rw [hgeo] at hk <;>
          simp only [LayerFits, Geom.dim] at hk <;> simp only [hk, if_false]
  obtain ⟨g', e, h1, h2, h3⟩ := propagateHere_err ax d b l f hf _ hw
  exact ⟨{ l with grid := g' }, _, by rw [propagate_none, e], rfl, h1, h2, h3, rfl, rfl⟩

/-! ## C31 -/

/-- **C31**, the part that holds: after resampling the laser's grid has the radial axis of the new grid
and the previous time axis translated by `d/c`; and `dx[-1]` is the spacing of the time axis provided the
new grid was made with the same time spacing. -/
theorem C31_resampled_partial (ax : Axiprop) (l : Laser s) (f : Field s) (hf : l.Has f) (d : ℝ)
    (b : String) (g' : Grid s') {st} (hg' : g'.Holds st) {n hn r n' hn' r'}
    (hgeo : l.grid.geom = .rt n hn r) (hgeo' : g'.geom = .rt n' hn' r')
    (hnt : s'.nt = s.nt) (hm : s'.n0 ≤ s.n0) :
    ∃ l' : Laser s', Laser.propagate ax d none (some ⟨s', g'⟩) b ⟨s, l⟩ = (.ok (), ⟨s', l'⟩) ∧
      l'.grid.geom = .rt n' hn' r' ∧ l'.grid.t.lo = l.grid.t.lo + d / c ∧
      l'.grid.t.hi = l.grid.t.hi + d / c ∧
      (∀ k, l'.grid.t.pts k = l.grid.t.pts (Fin.cast hnt k) + d / c) ∧ l'.grid.t.dx = g'.t.dx ∧
      (g'.t.dx = l.grid.t.dx → l'.grid.t.dx = l.grid.t.dx) := by
  obtain ⟨l', e, h1, h2, h3, h4, h5, h6, -⟩ :=
    propagateOnto_ok ax d b l f hf none (w := fun _ _ => 1) rfl g' hg' hgeo hgeo' hnt hm
  refine ⟨l', ?_, h2.trans hgeo', h3, h4, h5, h6, fun h => h6.trans h⟩
  unfold Laser.propagate
  simp only [hgeo]
  exact e

/-- an `rt` laser for examples: `n` modes, `nr × nt` points on `[0,1] × [0,1]`, constant profile -/
theorem constLaserRT (n nr nt : ℕ) (h0 : 2 ≤ nr) (h1 : 2 ≤ nt) (hn : 1 ≤ n) :
    ∃ (l : Laser ⟨2 * n - 1, nr, nt⟩) (f : Field ⟨2 * n - 1, nr, nt⟩) (hn' : _) (r : Axis nr),
      Laser.init "rt" [0, 0] [1, 1] [nr, nt] (constProfile none) (some n) none = .ok ⟨_, l⟩ ∧
      l.Has f ∧ l.grid.geom = .rt n hn' r ∧ l.prop = .absent ∧ l.grid.t.lo = 0 ∧ l.grid.t.hi = 1 ∧
      l.grid.t.pts = linspace 0 1 nt := by
  obtain ⟨l, hl, hf⟩ := Laser.init_rt 0 0 1 1 nr nt n (2 * n - 1) h0 h1 hn le_rfl (constProfile none) rfl
    none rfl
  obtain ⟨g, f', hg, -, hgeo, ht, -, -, hp, -⟩ := Laser.init_facts hl
  obtain ⟨-, -, -, -, hc⟩ := Grid.init_ok hg
  rcases hc with ⟨l0, l1, u0, u1, m', r, t, rest, -, e2, e3, e4, e5, e6, e7, e8, hm, e9⟩ |
    ⟨_, _, _, _, _, _, _, _, _, h, -⟩
  · simp only [List.cons.injEq, and_true] at e2 e3
    obtain ⟨rfl, rfl⟩ := e2
    obtain ⟨rfl, rfl⟩ := e3
    obtain rfl : n = m' := by simpa using e5
    obtain ⟨h2', hax⟩ := mkAxis_ok e7
    have ht' := ht.trans (e8.trans hax)
    exact ⟨l, _, hm, r, hl, hf, hgeo.trans e9, hp, by rw [ht'], by rw [ht'], by rw [ht']⟩
  · exact absurd h (by decide)

/-- **C31 is false of the code**: there are a laser and a new grid for which `propagate` succeeds and
leaves a time axis whose spacing is not `dx[-1]` (the new grid was made for a time window of another
length; `propagate` overwrites `lo`, `hi`, `axes` but not `dx`). -/
theorem C31_refuted : ∃ (ax : Axiprop) (l l' : Laser ⟨1, 2, 2⟩) (g' : Grid ⟨1, 2, 2⟩),
    Grid.init "rt" [0, 0] [1, 2] [2, 2] (some 1) true = .ok ⟨_, g'⟩ ∧
    Laser.init "rt" [0, 0] [1, 1] [2, 2] (constProfile none) (some 1) none = .ok ⟨_, l⟩ ∧
    Laser.propagate ax 0 none (some ⟨_, g'⟩) "NP" ⟨_, l⟩ = (.ok (), ⟨_, l'⟩) ∧
    l'.grid.t.pts 1 - l'.grid.t.pts 0 = 1 ∧ l'.grid.t.dx = 2 := by
  obtain ⟨l, f, hn, r, hl, hf, hgeo, -, -, -, hpts⟩ := constLaserRT 1 2 2 le_rfl le_rfl le_rfl
  obtain ⟨g', hg'⟩ := Grid.init_rt 0 0 1 2 2 2 1 le_rfl le_rfl le_rfl true
  have hh := Grid.init_holds hg'
  obtain ⟨-, -, -, -, hc⟩ := Grid.init_ok hg'
  rcases hc with ⟨l0, l1, u0, u1, m', r', t, rest, -, e2, e3, e4, e5, e6, e7, e8, hm, e9⟩ |
    ⟨_, _, _, _, _, _, _, _, _, h, -⟩
  · simp only [List.cons.injEq, and_true] at e2 e3
    obtain ⟨rfl, rfl⟩ := e2
    obtain ⟨rfl, rfl⟩ := e3
    obtain ⟨h2', hax⟩ := mkAxis_ok e7
    obtain ⟨l', e, h1, h2, h3, h4, h5, -⟩ := C31_resampled_partial Axiprop.freeSpace l f hf 0 "NP" g' hh
      hgeo e9 rfl le_rfl
    refine ⟨Axiprop.freeSpace, l, l', g', hg', hl, e, ?_, ?_⟩
    · rw [h4, h4, hpts]
      simp only [linspace, Fin.cast_refl, id]
      norm_num
    · rw [h5, e8, hax]
      simp only [linspace]
      norm_num
  · exact absurd h (by decide)

/-! ## C32 -/

/-- **C32 is false of the code**: `propagate` with a new grid that has another number of time points
raises `ValueError`, and afterwards the laser has lost its field: reading it raises. This holds for every
`rt` laser, every propagator and every distance. -/
theorem C32_refuted (ax : Axiprop) (l : Laser s) (f : Field s) (hf : l.Has f) (d : ℝ) (b : String)
    (g' : Grid s') (hg' : g'.Holds none) {n hn r n' hn' r'} (hgeo : l.grid.geom = .rt n hn r)
    (hgeo' : g'.geom = .rt n' hn' r') (hnt : s'.nt ≠ s.nt) :
    ∃ l' : Laser s', Laser.propagate ax d none (some ⟨s', g'⟩) b ⟨s, l⟩ = (.error .value, ⟨s', l'⟩) ∧
      (l'.grid.call .getTemporal).1 = .exception .value := by
  obtain ⟨g1, e1, h1, hg1, ht1⟩ := propagateStart l f hf none
  simp only [Laser.layerOf, damped, ofReal_one, mul_one] at e1
  unfold Laser.propagate
  simp only [hgeo]
  unfold Laser.propagateOnto
  rw [e1]
  simp only [Laser.adoptTime, hg1, hgeo, hgeo']
  have hpos : 0 < s'.n0 := by have := hn'.1; have := hn'.2; omega
  have hpos' : 0 < s.n0 := by have := hn.1; have := hn.2; omega
  have hst : ∀ (props : List PropRT), props = ((azimuthalModes n').map fun m =>
        ({ nr := s.n1, r := r.pts, nt := s.nt, kz := fun k => l.omega1d k / c
           target := some ⟨s'.n1, r'.pts⟩, mode := m, backend := b } : PropRT)) →
      stepModes ax props d (idft f) (fun _ _ _ => 0 : Field s') = .error .value := by
    rintro props rfl
    have h00 := azimuthalModes_getElem? n' ⟨0, by have := hn'.1; omega⟩
    simp only at h00
    have hnt' : ¬ (s.nt = s'.nt) := fun h => hnt h.symm
    unfold stepModes
    have hfr : ∃ rest, List.finRange s'.n0 = ⟨0, hpos⟩ :: rest := by
      rcases hL : List.finRange s'.n0 with _ | ⟨a, rest⟩
      · have := congrArg List.length hL
        simp at this
        omega
      · refine ⟨rest, ?_⟩
        congr 1
        have h0 : (List.finRange s'.n0)[0]? = some ⟨0, hpos⟩ := by simp [hpos]
        rw [hL] at h0
        simpa using h0
    obtain ⟨rest, hfr⟩ := hfr
    rw [hfr, List.foldlM_cons]
    simp only [hpos', dif_pos, List.getElem?_map, h00, Option.map_some, PropRT.step, Arr2.as_self]
    simp [Arr2.as, hnt', Bind.bind, Except.bind]
  rw [hst _ rfl]
  refine ⟨_, rfl, ?_⟩
  refine (Grid.Holds.call (st := none) ?_ .getTemporal).1
  exact ⟨hg'.env, hg'.dt, hg'.unset, hg'.isSet⟩

/-- the hypotheses of `C32_refuted` are met: an `rt` laser with 2 time points and a fresh grid with 3 -/
example : ∃ (l : Laser ⟨1, 2, 2⟩) (f : Field ⟨1, 2, 2⟩) (g' : Grid ⟨1, 2, 3⟩) (n n' : ℕ) (hn hn' : _)
    (r : Axis 2) (r' : Axis 2), l.Has f ∧ g'.Holds none ∧ l.grid.geom = .rt n hn r ∧
    g'.geom = .rt n' hn' r' := by
  obtain ⟨l, f, hn, r, hl, hf, hgeo, -⟩ := constLaserRT 1 2 2 le_rfl le_rfl le_rfl
  obtain ⟨g', hg'⟩ := Grid.init_rt 0 0 1 1 2 3 1 le_rfl (by omega) le_rfl true
  obtain ⟨-, -, -, -, hc⟩ := Grid.init_ok hg'
  rcases hc with ⟨_, _, _, _, m', r', _, _, -, -, -, -, -, -, -, -, hm, e9⟩ |
    ⟨_, _, _, _, _, _, _, _, _, h, -⟩
  · exact ⟨l, f, g', 1, m', hn, hm, r, r', hf, Grid.init_holds hg', hgeo, e9⟩
  · exact absurd h (by decide)

/-- **C32**, the part that holds: a call without new grid that raises leaves the laser with the field it
had, on the same axes, with the same propagator and file counter. -/
theorem C32_failure_partial (ax : Axiprop) (l l' : Laser s) (f : Field s) (hf : l.Has f) (hc : l.CacheOK)
    (d : ℝ) (nrB : Option ℤ) (b : String) (e : PyErr)
    (h : Laser.propagate ax d nrB none b ⟨s, l⟩ = (.error e, ⟨s, l'⟩)) :
    l'.Has f ∧ l'.grid.geom = l.grid.geom ∧ l'.grid.t = l.grid.t ∧ l'.profile = l.profile ∧
      l'.omega1d = l.omega1d ∧ l'.prop = l.prop ∧ l'.outputIteration = l.outputIteration := by
  rw [propagate_none] at h
  rcases hw : l.layerOf nrB with e' | w
  · obtain ⟨g', e1, h1, h2, h3⟩ := propagateHere_err ax d b l f hf nrB hw
    rw [e1] at h
    simp only [Prod.mk.injEq, Sigma.mk.injEq, heq_eq_eq, true_and] at h
    obtain ⟨-, rfl⟩ := h
    exact ⟨h1, h2, h3, rfl, rfl, rfl, rfl⟩
  · obtain ⟨b0, hb0⟩ := hc.uses b
    obtain ⟨l1, e1, -⟩ := propagateHere_ok ax d b0 b l f hf hb0 nrB hw
    rw [e1] at h
    simp at h

/-- **C32**: the same with a new grid when the width of the absorbing layer is rejected: the laser still
has its old grid and field. -/
theorem C32_failure_layer_partial (ax : Axiprop) (l : Laser s) (f : Field s) (hf : l.Has f)
    (d : ℝ) (nrB : Option ℤ) (b : String) (g' : Σ s, Grid s) {e : PyErr}
    (hw : l.layerOf nrB = .error e) :
    ∃ l' : Laser s, Laser.propagate ax d nrB (some g') b ⟨s, l⟩ = (.error e, ⟨s, l'⟩) ∧ l'.Has f ∧
      l'.grid.geom = l.grid.geom ∧ l'.grid.t = l.grid.t := by
  unfold Laser.propagate
  rcases hgeo : l.grid.geom with ⟨x, y⟩ | ⟨n, hn, r⟩
  · simp only
    obtain ⟨g1, e1, h1, h2, h3⟩ := propagateHere_err ax d b l f hf nrB hw
    rw [e1]
    exact ⟨{ l with grid := g1 }, rfl, h1, h2.trans hgeo, h3⟩
  · simp only
    obtain ⟨g1, e1, h1, hg1, ht1⟩ := propagateStart l f hf nrB
    rw [hw] at e1 h1
    unfold Laser.propagateOnto
    rw [e1]
    exact ⟨{ l with grid := g1 }, rfl, h1, hg1.trans hgeo, ht1⟩

/-! ## C67 -/

/-- **C67**, the part that holds: resampling onto a grid with as many azimuthal modes propagates the
component of every mode from the old component of the same mode. -/
theorem C67_resample_modes_partial (ax : Axiprop) (l : Laser s) (f : Field s) (hf : l.Has f) (d : ℝ)
    (b : String) (g' : Grid s') {st} (hg' : g'.Holds st) {n hn r hn' r'}
    (hgeo : l.grid.geom = .rt n hn r) (hgeo' : g'.geom = .rt n hn' r') (hnt : s'.nt = s.nt) :
    ∃ (l' : Laser s') (F : Field s'),
      Laser.propagate ax d none (some ⟨s', g'⟩) b ⟨s, l⟩ = (.ok (), ⟨s', l'⟩) ∧ l'.Has (dft F) ∧
      ∀ (i : Fin s'.n0) (i0 : Fin s.n0) (m : ℤ), modeAt n (Fin.cast hn'.2 i) = m →
        modeAt n (Fin.cast hn.2 i0) = m → ∀ j k, F i j k =
          ax.resampleRT r.pts (fun k => l.omega1d k / c) r'.pts m b d (fun k j => idft f i0 j k)
            (Fin.cast hnt k) j *
          exp (-I * (l.omega1d (Fin.cast hnt k) - l.profile.omega0) * (d / c)) := by
  have hm : s'.n0 ≤ s.n0 := by rw [hn.2, hn'.2]
  obtain ⟨l', e, h1, -⟩ :=
    propagateOnto_ok ax d b l f hf none (w := fun _ _ => 1) rfl g' hg' hgeo hgeo' hnt hm
  simp only [ofReal_one, mul_one] at h1
  refine ⟨l', _, ?_, h1, ?_⟩
  · unfold Laser.propagate
    simp only [hgeo]
    exact e
  · rintro i i0 m rfl hi0 j k
    have h1 := (modeAt_iff hn.1 (Fin.cast hn.2 i0) _).1 hi0
    have h2 := (modeAt_iff hn.1 (Fin.cast hn'.2 i) _).1 rfl
    have h3 : Fin.cast hn.2 i0 = Fin.cast hn'.2 i := by
      have := h1.2.symm.trans h2.2
      simpa using this
    have h4 : Fin.castLE hm i = i0 := by
      have := congrArg Fin.val h3
      simp only [Fin.val_cast] at this
      exact Fin.ext this.symm
    simp only [h4]

/-- **C67 is false of the code**: with fewer modes (`2 ≤ n' < n`), the component of mode `-1` of the
resampled laser is propagated from an old component of another mode. -/
theorem C67_refuted (ax : Axiprop) (l : Laser s) (f : Field s) (hf : l.Has f) (d : ℝ)
    (b : String) (g' : Grid s') {st} (hg' : g'.Holds st) {n hn r n' hn' r'}
    (hgeo : l.grid.geom = .rt n hn r) (hgeo' : g'.geom = .rt n' hn' r') (hnt : s'.nt = s.nt)
    (h2 : 2 ≤ n') (hlt : n' < n) :
    ∃ (l' : Laser s') (F : Field s') (i : Fin s'.n0) (i0 : Fin s.n0),
      Laser.propagate ax d none (some ⟨s', g'⟩) b ⟨s, l⟩ = (.ok (), ⟨s', l'⟩) ∧ l'.Has (dft F) ∧
      modeAt n' (Fin.cast hn'.2 i) = -1 ∧ modeAt n (Fin.cast hn.2 i0) ≠ -1 ∧ ∀ j k, F i j k =
          ax.resampleRT r.pts (fun k => l.omega1d k / c) r'.pts (-1) b d (fun k j => idft f i0 j k)
            (Fin.cast hnt k) j *
          exp (-I * (l.omega1d (Fin.cast hnt k) - l.profile.omega0) * (d / c)) := by
  have e1 := hn.2
  have e2 := hn'.2
  have hm : s'.n0 ≤ s.n0 := by omega
  obtain ⟨l', e, h1, -⟩ :=
    propagateOnto_ok ax d b l f hf none (w := fun _ _ => 1) rfl g' hg' hgeo hgeo' hnt hm
  simp only [ofReal_one, mul_one] at h1
  have hi : modeAt n' (Fin.cast hn'.2 ⟨2 * n' - 2, by omega⟩) = -1 := by
    simp only [modeAt, Fin.val_cast]
    rw [if_neg (by omega)]
    omega
  refine ⟨l', _, ⟨2 * n' - 2, by omega⟩, ⟨2 * n' - 2, by omega⟩, ?_, h1, hi, ?_, ?_⟩
  · unfold Laser.propagate
    simp only [hgeo]
    exact e
  · simp only [modeAt, Fin.val_cast]
    split_ifs <;> omega
  · intro j k
    simp only [hi]
    rfl

/-- **C67**: with more modes the call always raises (and the field is lost, as in C32). -/
theorem C67_more_modes_refuted (ax : Axiprop) (l : Laser s) (f : Field s) (hf : l.Has f) (d : ℝ)
    (nrB : Option ℤ) (b : String) (g' : Grid s') {n hn r n' hn' r'}
    (hgeo : l.grid.geom = .rt n hn r) (_hgeo' : g'.geom = .rt n' hn' r') (hlt : n < n')
    (L' : Σ s, Laser s) : Laser.propagate ax d nrB (some ⟨s', g'⟩) b ⟨s, l⟩ ≠ (.ok (), L') := by
  intro h
  unfold Laser.propagate at h
  simp only [hgeo] at h
  obtain ⟨w, n0, hn0, r0, n1, hn1, r1, hw, hg0, hg1, -, hm⟩ := propagateOnto_inv ax d b l f hf nrB g' h
  have := hn.2
  have := hn'.2
  omega

/-- the hypotheses of `C67_refuted` are met: 3 modes, resampled onto 2 -/
example : ∃ (l : Laser ⟨5, 2, 2⟩) (f : Field ⟨5, 2, 2⟩) (g' : Grid ⟨3, 2, 2⟩) (hn hn' : _)
    (r : Axis 2) (r' : Axis 2), l.Has f ∧ g'.Holds none ∧ l.grid.geom = .rt 3 hn r ∧
    g'.geom = .rt 2 hn' r' := by
  obtain ⟨l, f, hn, r, hl, hf, hgeo, -⟩ := constLaserRT 3 2 2 le_rfl le_rfl (by omega)
  obtain ⟨g', hg'⟩ := Grid.init_rt 0 0 1 1 2 2 2 le_rfl le_rfl (by omega) true
  obtain ⟨-, -, -, -, hc⟩ := Grid.init_ok hg'
  rcases hc with ⟨_, _, _, _, m', r', _, _, -, -, -, -, e5, -, -, -, hm, e9⟩ |
    ⟨_, _, _, _, _, _, _, _, _, h, -⟩
  · obtain rfl : 2 = m' := by simpa using e5
    exact ⟨l, f, g', hn, hm, r, r', hf, Grid.init_holds hg', hgeo, e9⟩
  · exact absurd h (by decide)

end Lasy
