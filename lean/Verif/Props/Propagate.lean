import Verif.Lemmas.Propagate

/-!
# Properties C24–C32, C67: `Laser.propagate`
-/

namespace Lasy
open Spec Phys Complex

variable {s s' : Shape} [Phys]

/-- the arguments of one call of `propagate` -/
structure PropCall where
  distance : ℝ
  nrBoundary : Option ℤ
  grid : Option (Σ s, Grid s)
  backend : String

/-- a sequence of calls; it stops at the first exception -/
noncomputable def propagateAll (ax : Axiprop) : List PropCall → Py (Σ s, Laser s) Unit
  | [] => return ()
  | a :: as => do
    Laser.propagate ax a.distance a.nrBoundary a.grid a.backend
    propagateAll ax as

/-- the total distance -/
def totalDistance (as : List PropCall) : ℝ := (as.map PropCall.distance).sum

/-- A laser that holds an envelope and whose cached propagator, if any, was built for its present grid.
Every constructed laser is `Ready` (`Laser.ready_of_init`). -/
def Laser.Ready (l : Laser s) : Prop := (∃ f, l.Has f) ∧ l.CacheOK

/-- every grid passed to the calls is an envelope grid (fresh or in use) -/
def EnvelopeGrids (as : List PropCall) : Prop :=
  ∀ a ∈ as, ∀ g, a.grid = some g → ∃ st, g.2.Holds st

theorem Laser.ready_of_init {dim : String} {lo hi : List ℝ} {np : List ℕ} {p : ProfileObj}
    {m : Option ℕ} {N : Option ℕ} {l : Laser s} (h : Laser.init dim lo hi np p m N = .ok ⟨s, l⟩) :
    l.Ready := by
  obtain ⟨g, f, -, hf, -, -, -, -, hp, -⟩ := Laser.init_facts h
  exact ⟨⟨f, hf⟩, .inl hp⟩

/-- `propagate` without a new grid -/
theorem propagate_none (ax : Axiprop) (d : ℝ) (nrB : Option ℤ) (b : String) (l : Laser s) :
    Laser.propagate ax d nrB none b ⟨s, l⟩ =
      ((Laser.propagateHere ax d nrB b l).1, ⟨s, (Laser.propagateHere ax d nrB b l).2⟩) := by
  unfold Laser.propagate
  simp only

theorem propagate_none_ok {ax : Axiprop} {d : ℝ} {nrB : Option ℤ} {b : String} {l l' : Laser s}
    (h : Laser.propagateHere ax d nrB b l = (.ok (), l')) :
    Laser.propagate ax d nrB none b ⟨s, l⟩ = (.ok (), ⟨s, l'⟩) := by
  rw [propagate_none, h]

/-- one successful call -/
theorem propagate_inv (ax : Axiprop) (a : PropCall) (L L' : Σ s, Laser s) (hL : L.2.Ready)
    (hg : ∀ g, a.grid = some g → ∃ st, g.2.Holds st)
    (h : Laser.propagate ax a.distance a.nrBoundary a.grid a.backend L = (.ok (), L')) :
    L'.2.Ready ∧ L'.2.profile = L.2.profile ∧ L'.2.grid.t.lo = L.2.grid.t.lo + a.distance / c ∧
      L'.2.grid.t.hi = L.2.grid.t.hi + a.distance / c ∧
      ∃ hnt : L'.1.nt = L.1.nt,
        (∀ k, L'.2.grid.t.pts k = L.2.grid.t.pts (Fin.cast hnt k) + a.distance / c) ∧
        (∀ k, L'.2.omega1d k = L.2.omega1d (Fin.cast hnt k)) ∧
        (a.grid = none ∨ L.2.grid.geom.dim = .xyt → ∃ l' : Laser L.1, L' = ⟨L.1, l'⟩ ∧
          l'.grid.geom = L.2.grid.geom ∧ l'.grid.t.dx = L.2.grid.t.dx) := by
  obtain ⟨s, l⟩ := L
  obtain ⟨⟨f, hf⟩, hc⟩ := hL
  simp only at *
  -- the call without resampling
  have here : ∀ L', ((Laser.propagateHere ax a.distance a.nrBoundary a.backend l).1,
      (⟨s, (Laser.propagateHere ax a.distance a.nrBoundary a.backend l).2⟩ : Σ s, Laser s)) =
        (.ok (), L') → L'.2.Ready ∧ L'.2.profile = l.profile ∧
      L'.2.grid.t.lo = l.grid.t.lo + a.distance / c ∧
      L'.2.grid.t.hi = l.grid.t.hi + a.distance / c ∧
      ∃ hnt : L'.1.nt = s.nt,
        (∀ k, L'.2.grid.t.pts k = l.grid.t.pts (Fin.cast hnt k) + a.distance / c) ∧
        (∀ k, L'.2.omega1d k = l.omega1d (Fin.cast hnt k)) ∧
        (a.grid = none ∨ l.grid.geom.dim = .xyt → ∃ l' : Laser s, L' = ⟨s, l'⟩ ∧
          l'.grid.geom = l.grid.geom ∧ l'.grid.t.dx = l.grid.t.dx) := by
    intro L' h
    obtain ⟨b0, hb0⟩ := hc.uses a.backend
    rcases hw : l.layerOf a.nrBoundary with e | w
    · obtain ⟨g', e', -⟩ := propagateHere_err ax a.distance a.backend l f hf a.nrBoundary hw
      rw [e'] at h
      simp at h
    · obtain ⟨l', e', h1, h2, h3, h4, h5, h6, h7⟩ :=
        propagateHere_ok ax a.distance b0 a.backend l f hf hb0 a.nrBoundary hw
      rw [e'] at h
      simp only [Prod.mk.injEq, true_and] at h
      subst h
      refine ⟨⟨⟨_, h1⟩, .inr ⟨b0, ?_⟩⟩, h4, ?_, ?_, rfl, ?_, ?_, ?_⟩
      · rw [h6]; exact (buildProp_congr h2 h5 b0).symm
      · rw [h3]; rfl
      · rw [h3]; rfl
      · intro k; rw [h3]; rfl
      · intro k; rw [h5]; rfl
      · intro _; exact ⟨l', rfl, h2, by rw [h3]; rfl⟩
  unfold Laser.propagate at h
  rcases hag : a.grid with _ | g'
  · rw [hag] at h
    simpa [hag] using here L' h
  · rw [hag] at h
    rcases hgeo : l.grid.geom with ⟨x, y⟩ | ⟨n, hn, r⟩
    · simp only [hgeo] at h
      simpa [hag, hgeo] using here L' h
    · simp only [hgeo] at h
      obtain ⟨w, n0, hn0, r0, n', hn', r', hw, hgeo0, hgeo', hnt, hm⟩ :=
        propagateOnto_inv ax a.distance a.backend l f hf a.nrBoundary g'.2 h
      obtain ⟨st, hst⟩ := hg g' hag
      obtain ⟨l', e', h1, h2, h3, h4, h5, h6, h7, h8, h9, h10⟩ := propagateOnto_ok ax a.distance
        a.backend l f hf a.nrBoundary hw g'.2 hst hgeo0 hgeo' hnt hm
      rw [e'] at h
      simp only [Prod.mk.injEq, true_and] at h
      subst h
      refine ⟨⟨⟨_, h1⟩, .inl h9⟩, h7, h3, h4, hnt, h5, h8, ?_⟩
      rintro (h | h)
      · simp at h
      · simp [Geom.dim] at h

/-- all calls of a successful history -/
theorem propagateAll_inv (ax : Axiprop) (as : List PropCall) (L L' : Σ s, Laser s) (hL : L.2.Ready)
    (hg : EnvelopeGrids as) (h : propagateAll ax as L = (.ok (), L')) :
    L'.2.Ready ∧ L'.2.profile = L.2.profile ∧ L'.2.grid.t.lo = L.2.grid.t.lo + totalDistance as / c ∧
      L'.2.grid.t.hi = L.2.grid.t.hi + totalDistance as / c ∧
      ∃ hnt : L'.1.nt = L.1.nt,
        (∀ k, L'.2.grid.t.pts k = L.2.grid.t.pts (Fin.cast hnt k) + totalDistance as / c) ∧
        (∀ k, L'.2.omega1d k = L.2.omega1d (Fin.cast hnt k)) ∧
        ((∀ a ∈ as, a.grid = none) ∨ L.2.grid.geom.dim = .xyt → ∃ l' : Laser L.1, L' = ⟨L.1, l'⟩ ∧
          l'.grid.geom = L.2.grid.geom ∧ l'.grid.t.dx = L.2.grid.t.dx) := by
  induction as generalizing L with
  | nil =>
    simp only [propagateAll, Py.pure_apply, Prod.mk.injEq, true_and] at h
    subst h
    refine ⟨hL, rfl, by simp [totalDistance], by simp [totalDistance], rfl, ?_, ?_, ?_⟩
    · intro k; simp [totalDistance]
    · intro k; rfl
    · intro _; exact ⟨L.2, rfl, rfl, rfl⟩
  | cons a as ih =>
    simp only [propagateAll, Py.bind_apply] at h
    rcases h1 : Laser.propagate ax a.distance a.nrBoundary a.grid a.backend L with ⟨e | u, L1⟩
    · simp [h1] at h
    · simp only [h1] at h
      obtain ⟨r1, p1, lo1, hi1, nt1, pts1, om1, k1⟩ :=
        propagate_inv ax a L L1 hL (fun g hg' => hg a (by simp) g hg') h1
      obtain ⟨r2, p2, lo2, hi2, nt2, pts2, om2, k2⟩ :=
        ih L1 r1 (fun b hb => hg b (by simp [hb])) h
      have htot : totalDistance (a :: as) / c = a.distance / c + totalDistance as / c := by
        simp [totalDistance, add_div]
      refine ⟨r2, p2.trans p1, ?_, ?_, nt2.trans nt1, ?_, ?_, ?_⟩
      · rw [lo2, lo1, htot]; ring
      · rw [hi2, hi1, htot]; ring
      · intro k; rw [pts2, pts1, htot, add_assoc]; rfl
      · intro k; rw [om2, om1]; rfl
      · intro hh
        have hh1 : a.grid = none ∨ L.2.grid.geom.dim = .xyt := by
          rcases hh with hh | hh
          · exact .inl (hh a (by simp))
          · exact .inr hh
        obtain ⟨l1, e1, g1, d1⟩ := k1 hh1
        subst e1
        have hh2 : (∀ b ∈ as, b.grid = none) ∨ l1.grid.geom.dim = .xyt := by
          rcases hh with hh | hh
          · exact .inl fun b hb => hh b (by simp [hb])
          · exact .inr (by rw [g1]; exact hh)
        obtain ⟨l2, e2, g2, d2⟩ := k2 hh2
        exact ⟨l2, e2, g2.trans g1, d2.trans d1⟩

/-! ## C24 -/

/-- **C24.** After any sequence of successful `propagate` calls of total distance `D`, with or without
absorbing layers and resampling, `lo[-1]`, `hi[-1]` and every point of the time axis have moved by `D/c`.
If the time axis was the uniform axis from `lo` to `hi`, it still is. -/
theorem C24_time_window (ax : Axiprop) (as : List PropCall) (L L' : Σ s, Laser s) (hL : L.2.Ready)
    (hg : EnvelopeGrids as) (h : propagateAll ax as L = (.ok (), L')) :
    L'.2.grid.t.lo = L.2.grid.t.lo + totalDistance as / c ∧
    L'.2.grid.t.hi = L.2.grid.t.hi + totalDistance as / c ∧
    ∃ hnt : L'.1.nt = L.1.nt,
      (∀ k, L'.2.grid.t.pts k = L.2.grid.t.pts (Fin.cast hnt k) + totalDistance as / c) ∧
      ((∀ k, L.2.grid.t.pts k = linspace L.2.grid.t.lo L.2.grid.t.hi L.1.nt k) →
        ∀ k, L'.2.grid.t.pts k = linspace L'.2.grid.t.lo L'.2.grid.t.hi L'.1.nt k) := by
  obtain ⟨-, -, h1, h2, hnt, h3, -, -⟩ := propagateAll_inv ax as L L' hL hg h
  refine ⟨h1, h2, hnt, h3, ?_⟩
  intro hu k
  rw [h3, hu, h1, h2]
  simp only [linspace, Fin.val_cast, hnt]
  ring

/-- **C24**: without resampling (or in Cartesian geometry, where `grid` is ignored) the shape, the
transverse axes and `dx` stay as they are. -/
theorem C24_grid_unchanged (ax : Axiprop) (as : List PropCall) (L L' : Σ s, Laser s) (hL : L.2.Ready)
    (hg : EnvelopeGrids as) (h : propagateAll ax as L = (.ok (), L'))
    (hno : (∀ a ∈ as, a.grid = none) ∨ L.2.grid.geom.dim = .xyt) :
    ∃ l' : Laser L.1, L' = ⟨L.1, l'⟩ ∧ l'.grid.geom = L.2.grid.geom ∧
      l'.grid.t.dx = L.2.grid.t.dx ∧ l'.profile = L.2.profile := by
  obtain ⟨-, hp, -, -, hnt, -, -, h4⟩ := propagateAll_inv ax as L L' hL hg h
  obtain ⟨l', e, h1, h2⟩ := h4 hno
  subst e
  exact ⟨l', rfl, h1, h2, hp⟩

/-- calls without layer and without new grid always succeed -/
theorem propagateAll_succeeds (ax : Axiprop) (as : List PropCall) (l : Laser s) (hl : l.Ready)
    (hno : ∀ a ∈ as, a.grid = none ∧ a.nrBoundary = none) :
    ∃ l' : Laser s, propagateAll ax as ⟨s, l⟩ = (.ok (), ⟨s, l'⟩) ∧ l'.Ready := by
  induction as generalizing l with
  | nil => exact ⟨l, rfl, hl⟩
  | cons a as ih =>
    obtain ⟨⟨f, hf⟩, hc⟩ := hl
    obtain ⟨b0, hb0⟩ := hc.uses a.backend
    obtain ⟨l1, e1, h1, h2, h3, h4, h5, h6, h7⟩ :=
      propagateHere_ok ax a.distance b0 a.backend l f hf hb0 none (w := fun _ _ => 1) rfl
    obtain ⟨l2, e2, h8⟩ := ih l1 ⟨⟨_, h1⟩, .inr ⟨b0, by rw [h6]; exact (buildProp_congr h2 h5 b0).symm⟩⟩
      (fun b hb => hno b (by simp [hb]))
    refine ⟨l2, ?_, h8⟩
    obtain ⟨n1, n2⟩ := hno a (by simp)
    simp only [propagateAll, Py.bind_apply, n1, n2, propagate_none_ok e1, e2]

/-- **C24**: the hypotheses are met by every constructed laser and every sequence of plain calls -/
theorem C24_constructed (ax : Axiprop) (as : List PropCall) {dim : String} {lo hi : List ℝ} {np : List ℕ}
    {p : ProfileObj} {m N : Option ℕ} {l : Laser s} (h : Laser.init dim lo hi np p m N = .ok ⟨s, l⟩)
    (hno : ∀ a ∈ as, a.grid = none ∧ a.nrBoundary = none) :
    ∃ l' : Laser s, propagateAll ax as ⟨s, l⟩ = (.ok (), ⟨s, l'⟩) ∧
      l'.grid.t.lo = l.grid.t.lo + totalDistance as / c ∧
      l'.grid.t.hi = l.grid.t.hi + totalDistance as / c ∧
      ∀ k, l'.grid.t.pts k = linspace l'.grid.t.lo l'.grid.t.hi s.nt k := by
  have hr := Laser.ready_of_init h
  obtain ⟨l', e, -⟩ := propagateAll_succeeds ax as l hr hno
  obtain ⟨h1, h2, hnt, -, h3⟩ := C24_time_window ax as ⟨s, l⟩ ⟨s, l'⟩ hr
    (fun a ha g hg => by rw [(hno a ha).1] at hg; cases hg) e
  refine ⟨l', e, h1, h2, h3 ?_⟩
  obtain ⟨g, f, hg, -, -, ht, -⟩ := Laser.init_facts h
  obtain ⟨-, -, -, -, hcase⟩ := Grid.init_ok hg
  simp only [ht]
  rcases hcase with ⟨l0, l1, u0, u1, m', r, t, rest, -, -, -, -, -, -, e7, e8, -⟩ |
    ⟨l0, l1, l2, u0, u1, u2, x, y, t, -, -, -, -, -, -, e7, e8, -⟩ <;>
  · obtain ⟨h2', hax⟩ := mkAxis_ok e7
    intro k
    rw [e8, hax]

/-! ## C25 -/

theorem stepped_add (ax : Axiprop) (hax : ax.Additive) (l : Laser s) (b : String) (d1 d2 : ℝ)
    (F : Field s) (a : Fin s.nt → ℂ) :
    l.stepped ax b (d1 + d2) F = l.stepped ax b d2 (l.stepped ax b d1 F) ∧
    l.stepped ax b 0 F = F ∧
    l.stepped ax b d1 (fun i j k => F i j k * a k) = fun i j k => l.stepped ax b d1 F i j k * a k := by
  refine ⟨?_, ?_, ?_⟩ <;> funext i j k <;> simp only [Laser.stepped] <;>
    rcases l.grid.geom with ⟨x, y⟩ | ⟨n, hn, r⟩ <;> simp only
  · rw [hax.xy]
  · rw [hax.rt]
  · rw [hax.xy_zero]
  · rw [hax.rt_zero]
  · rw [hax.xy_smul _ _ _ _ _ a (fun k i j => F i j k)]
  · rw [hax.rt_smul _ _ _ _ _ a (fun k j => F i j k)]

theorem propagated_add (ax : Axiprop) (hax : ax.Additive) (l : Laser s) (b : String) (d1 d2 : ℝ)
    (f : Field s) :
    l.propagated ax b d2 (l.propagated ax b d1 f) = l.propagated ax b (d1 + d2) f ∧
    l.propagated ax b 0 f = f := by
  constructor
  · simp only [Laser.propagated, idft_dft]
    rw [(stepped_add ax hax l b d2 d2 _ fun k =>
      exp (-I * (l.omega1d k - l.profile.omega0) * (d1 / c))).2.2,
      (stepped_add ax hax l b d1 d2 _ 0).1]
    congr 1
    funext i j k
    rw [mul_assoc, ← Complex.exp_add]
    congr 2
    push_cast
    ring
  · simp only [Laser.propagated, (stepped_add ax hax l b d1 d2 _ 0).2.1]
    simp [dft_idft]

/-- **C25.** If the steps of the external propagator compose, then propagating by `d1` and then by `d2`
leaves the laser in the same state as propagating by `d1 + d2`: the same field, axes and frequencies;
and propagating by `0` changes nothing. -/
theorem C25_compose (ax : Axiprop) (hax : ax.Additive) (l : Laser s) (f : Field s) (hf : l.Has f)
    (hc : l.CacheOK) (d1 d2 : ℝ) (b : String) :
    ∃ (l1 l2 l12 l0 : Laser s) (f12 : Field s),
      Laser.propagate ax d1 none none b ⟨s, l⟩ = (.ok (), ⟨s, l1⟩) ∧
      Laser.propagate ax d2 none none b ⟨s, l1⟩ = (.ok (), ⟨s, l2⟩) ∧
      Laser.propagate ax (d1 + d2) none none b ⟨s, l⟩ = (.ok (), ⟨s, l12⟩) ∧
      l2.Has f12 ∧ l12.Has f12 ∧ l2.grid.geom = l12.grid.geom ∧ l2.grid.t = l12.grid.t ∧
      l2.profile = l12.profile ∧ l2.omega1d = l12.omega1d ∧ l2.prop = l12.prop ∧
      l2.outputIteration = l12.outputIteration ∧
      Laser.propagate ax 0 none none b ⟨s, l⟩ = (.ok (), ⟨s, l0⟩) ∧ l0.Has f ∧
      l0.grid.geom = l.grid.geom ∧ l0.grid.t = l.grid.t := by
  obtain ⟨b0, hb0⟩ := hc.uses b
  have hone : (fun i j k => f i j k * ((1 : ℝ) : ℂ)) = f := by funext i j k; simp
  obtain ⟨l1, e1, a1, a2, a3, a4, a5, a6, a7⟩ :=
    propagateHere_ok ax d1 b0 b l f hf hb0 none (w := fun _ _ => 1) rfl
  have hu : l1.Uses b0 b := .inr (by rw [a6]; exact (buildProp_congr a2 a5 b0).symm)
  obtain ⟨l2, e2, b1, b2, b3, b4, b5, b6, b7⟩ :=
    propagateHere_ok ax d2 b0 b l1 _ a1 hu none (w := fun _ _ => 1) rfl
  obtain ⟨l3, e3, c1, c2, c3, c4, c5, c6, c7⟩ :=
    propagateHere_ok ax (d1 + d2) b0 b l f hf hb0 none (w := fun _ _ => 1) rfl
  obtain ⟨l0, e0, z1, z2, z3, -⟩ :=
    propagateHere_ok ax 0 b0 b l f hf hb0 none (w := fun _ _ => 1) rfl
  simp only [ofReal_one, mul_one] at a1 b1 c1 z1
  rw [propagated_congr a2 a5 a4, (propagated_add ax hax l b0 d1 d2 f).1] at b1
  rw [(propagated_add ax hax l b0 d1 d2 f).2] at z1
  refine ⟨l1, l2, l3, l0, _, propagate_none_ok e1, propagate_none_ok e2, propagate_none_ok e3, b1, c1,
    ?_, ?_, ?_, ?_, ?_, ?_, propagate_none_ok e0, z1, z2, ?_⟩
  · rw [b2, a2, c2]
  · rw [b3, a3, c3]
    simp only [Axis.shift, add_div, add_assoc]
  · rw [b4, a4, c4]
  · rw [b5, a5, c5]
  · rw [b6, buildProp_congr a2 a5 b0, c6]
  · rw [b7, a7, c7]
  · rw [z3]; simp [Axis.shift]

/-! ## C26 -/

/-- **C26.** If on the laser's present field the external propagator acts as on a plane wave (it
multiplies every frequency by `exp(iωd/c)`), then after `propagate(d)` every sample of the envelope is
the old one times the global phase `exp(iω0 d/c)`. -/
theorem C26_plane_wave (ax : Axiprop) (l : Laser s) (f : Field s) (hf : l.Has f) (hc : l.CacheOK)
    (d : ℝ) (b : String)
    (hax : ∀ b0, l.stepped ax b0 d (idft f) = fun i j k => idft f i j k * exp (I * l.omega1d k * d / c)) :
    ∃ (l' : Laser s), Laser.propagate ax d none none b ⟨s, l⟩ = (.ok (), ⟨s, l'⟩) ∧
      l'.Has (fun i j k => f i j k * exp (I * l.profile.omega0 * d / c)) := by
  obtain ⟨b0, hb0⟩ := hc.uses b
  obtain ⟨l1, e1, a1, -⟩ := propagateHere_ok ax d b0 b l f hf hb0 none (w := fun _ _ => 1) rfl
  refine ⟨l1, propagate_none_ok e1, ?_⟩
  simp only [ofReal_one, mul_one] at a1
  have hkey : l.propagated ax b0 d f = fun i j k => f i j k * exp (I * l.profile.omega0 * d / c) := by
    simp only [Laser.propagated, hax]
    have h1 : ∀ i j k, idft f i j k * exp (I * l.omega1d k * d / c) *
        exp (-I * (l.omega1d k - l.profile.omega0) * (d / c)) =
        exp (I * l.profile.omega0 * d / c) * idft f i j k := by
      intro i j k
      rw [mul_assoc, ← Complex.exp_add, mul_comm]
      congr 2
      ring
    simp only [h1, dft_eq, fft_smul]
    funext i j k
    rw [mul_comm]
    congr 1
    have := congrFun (congrFun (congrFun (dft_idft f) i) j) k
    rw [dft_eq] at this
    exact this
  rw [hkey] at a1
  exact a1

/-! ## C27 -/

/-- the energy of a field is, up to constants, a sum over frequencies of cell-weighted norms -/
theorem energy_propagated (ax : Axiprop) (hax : ax.Unitary) (l : Laser s) (b : String) (d : ℝ)
    (f : Field s) : pulseEnergy l.grid (l.propagated ax b d f) = pulseEnergy l.grid f := by
  have hp : ∀ F : Field s, (∑ i, ∑ j, ∑ k, l.grid.cellVolume j * eps0 * ‖F i j k‖ ^ 2) =
      eps0 * s.nt * ∑ k, ∑ i, ∑ j, l.grid.cellVolume j * ‖idft F i j k‖ ^ 2 := by
    intro F
    have h1 : ∀ i j, ∑ k, l.grid.cellVolume j * eps0 * ‖F i j k‖ ^ 2 =
        eps0 * s.nt * ∑ k, l.grid.cellVolume j * ‖idft F i j k‖ ^ 2 := by
      intro i j
      rw [← Finset.mul_sum, parseval_ifft (F i j), ← Finset.mul_sum, idft_eq]
      ring
    simp only [h1, ← Finset.mul_sum]
    congr 1
    rw [Finset.sum_comm' (t' := Finset.univ) (s' := fun _ => Finset.univ) (by simp)]
    simp only [Finset.mul_sum]
    rw [Finset.sum_comm]
    rw [Finset.sum_comm (s := (Finset.univ : Finset (Fin s.nt)))]
    refine Finset.sum_congr rfl fun i _ => ?_
    rw [Finset.sum_comm]
  simp only [pulseEnergy, hp]
  congr 2
  refine Finset.sum_congr rfl fun k _ => ?_
  simp only [Laser.propagated, idft_dft, norm_mul]
  have hn : ‖exp (-I * (l.omega1d k - l.profile.omega0) * (d / c))‖ = 1 :=
    norm_exp_I_mul (-(l.omega1d k - l.profile.omega0) * (d / c)) _ (by push_cast; ring)
  simp only [hn, mul_one]
  simp only [Laser.stepped, Grid.cellVolume]
  rcases hgeo : l.grid.geom with ⟨x, y⟩ | ⟨n, hn, r⟩
  · simp only [← Finset.mul_sum]
    rw [hax.xy]
  · refine Finset.sum_congr rfl fun i _ => ?_
    have hv : ∀ (j : Fin s.n1) (a : ℝ), cellVolumeRT r l.grid.t j * a = Real.pi * (l.grid.t.dx * c) *
        (((r.pts j + r.dx / 2) ^ 2 - (r.pts j - r.dx / 2) ^ 2) * a) := by
      intro j a
      simp only [cellVolumeRT]
      ring
    simp only [hv, ← Finset.mul_sum]
    rw [hax.rt]

/-- **C27.** If the external propagator preserves the cell-weighted norm, every sequence of `propagate`
calls without absorbing layer and without resampling leaves the energy of the laser unchanged. -/
theorem C27_energy (ax : Axiprop) (hax : ax.Unitary) (as : List PropCall) (l : Laser s) (hl : l.Ready)
    (hno : ∀ a ∈ as, a.grid = none ∧ a.nrBoundary = none) :
    ∃ l' : Laser s, propagateAll ax as ⟨s, l⟩ = (.ok (), ⟨s, l'⟩) ∧ l'.energy = l.energy := by
  induction as generalizing l with
  | nil => exact ⟨l, rfl, rfl⟩
  | cons a as ih =>
    obtain ⟨⟨f, hf⟩, hc⟩ := hl
    obtain ⟨b0, hb0⟩ := hc.uses a.backend
    obtain ⟨l1, e1, h1, h2, h3, h4, h5, h6, h7⟩ :=
      propagateHere_ok ax a.distance b0 a.backend l f hf hb0 none (w := fun _ _ => 1) rfl
    obtain ⟨l2, e2, h8⟩ := ih l1 ⟨⟨_, h1⟩, .inr ⟨b0, by rw [h6]; exact (buildProp_congr h2 h5 b0).symm⟩⟩
      (fun b hb => hno b (by simp [hb]))
    refine ⟨l2, ?_, h8.trans ?_⟩
    · obtain ⟨n1, n2⟩ := hno a (by simp)
      simp only [propagateAll, Py.bind_apply, n1, n2, propagate_none_ok e1, e2]
    · simp only [ofReal_one, mul_one] at h1
      obtain ⟨g1, q1, -⟩ := Grid.Holds.energy h1
      obtain ⟨g0, q0, -⟩ := Grid.Holds.energy hf
      simp only [Laser.energy, q1, q0]
      have hcv : pulseEnergy l1.grid (l.propagated ax b0 a.distance f) =
          pulseEnergy l.grid (l.propagated ax b0 a.distance f) := by
        simp [pulseEnergy, Grid.cellVolume, h2, h3, Axis.shift, cellVolumeRT, cellVolumeXYT]
      rw [hcv, energy_propagated ax hax]

end Lasy
