import Verif.Props.History
import Verif.Lemmas.AxipropWitness

/-!
# Properties C128, C129: superposition and reversal

C128: a beam line acts linearly on the field. C129: propagating back undoes propagating forward.
-/

namespace Lasy
open Spec Phys Complex

variable {s : Shape} [Phys]

/-! ## C128 -/

/-- two lasers that differ only in the field (and in the polarisation and other data of the profile that do not enter) -/
structure SameSetup (l l' : Laser s) : Prop where
  geom : l'.grid.geom = l.grid.geom
  t : l'.grid.t = l.grid.t
  omega0 : l'.profile.omega0 = l.profile.omega0
  omega : l'.omega1d = l.omega1d
  prop : l'.prop = l.prop

/-- a map that respects superpositions -/
def IsLin {s s' : Shape} (A : Field s → Field s') : Prop :=
  ∀ (a b : ℂ) (u v : Field s), A (fun i j k => a * u i j k + b * v i j k) = fun i j k => a * A u i j k + b * A v i j k

omit [Phys] in
theorem isLin_dft : IsLin (dft (s := s)) := by
  intro a b u v
  simp only [dft_eq]
  funext i j k
  rw [show (fun k => a * u i j k + b * v i j k) = fun k => (fun k => a * u i j k) k + (fun k => b * v i j k) k from rfl, fft_add, fft_smul, fft_smul]

omit [Phys] in
theorem isLin_idft : IsLin (idft (s := s)) := by
  intro a b u v
  simp only [idft_eq]
  funext i j k
  rw [show (fun k => a * u i j k + b * v i j k) = fun k => (fun k => a * u i j k) k + (fun k => b * v i j k) k from rfl, ifft_add, ifft_smul, ifft_smul]

omit [Phys] in
theorem IsLin.comp {s s' s'' : Shape} {A : Field s → Field s'} {B : Field s' → Field s''} (hB : IsLin B) (hA : IsLin A) :
    IsLin fun f => B (A f) := by
  intro a b u v
  simp only [hA a b u v, hB a b]

omit [Phys] in
theorem isLin_mul (w : Field s) : IsLin fun (f : Field s) i j k => f i j k * w i j k := by
  intro a b u v
  funext i j k
  ring

theorem isLin_stepped (ax : Axiprop) (hax : ax.Superposes) (l : Laser s) (bk : String) (d : ℝ) : IsLin (l.stepped ax bk d) := by
  intro a b u v
  funext i j k
  simp only [Laser.stepped]
  cases l.grid.geom with
  | xyt x y => exact congrFun (congrFun (congrFun (hax.xy _ _ _ bk d a b (fun k i j => u i j k) fun k i j => v i j k) k) i) j
  | rt n hn r => exact congrFun (congrFun (hax.rt _ _ _ bk d a b (fun k j => u i j k) fun k j => v i j k) k) j

theorem isLin_propagated (ax : Axiprop) (hax : ax.Superposes) (l : Laser s) (bk : String) (d : ℝ) :
    IsLin (l.propagated ax bk d) :=
  isLin_dft.comp ((isLin_mul fun _ _ k => exp (-I * (l.omega1d k - l.profile.omega0) * (d / c))).comp
    ((isLin_stepped ax hax l bk d).comp isLin_idft))

/-- histories of `apply_optics` and `propagate` -/
def NoNormalize (os : List LaserOp) : Prop := ∀ o ∈ os, ∀ v kind, o ≠ .normalize v kind

/-- the action of one successful call on the field is the same linear map for all lasers with the same setup -/
theorem LaserOp.linear (ax : Axiprop) (hax : ax.Superposes) (o : LaserOp) (hn : ∀ v kind, o ≠ .normalize v kind)
    (l : Laser s) (hl : l.Ready) (hg : ∀ a, o = .propagate a → ∀ g, a.grid = some g → ∃ st, g.2.Holds st)
    (s' : Shape) (l' : Laser s') (h : o.run ax ⟨s, l⟩ = (.ok (), ⟨s', l'⟩)) :
    ∃ A : Field s → Field s', IsLin A ∧ ∀ (l1 : Laser s) (f : Field s), SameSetup l l1 → l1.Has f →
      ∃ l1' : Laser s', o.run ax ⟨s, l1⟩ = (.ok (), ⟨s', l1'⟩) ∧ SameSetup l' l1' ∧ l1'.Has (A f) := by
  obtain ⟨⟨f0, hf0⟩, hc⟩ := hl
  cases o with
  | normalize v kind => exact absurd rfl (hn v kind)
  | optics el =>
    obtain ⟨l0, e, h0, k1, k2, k3, k4, k5, -⟩ := C19_apply_optics l f0 hf0 el
    simp only [LaserOp.run, onLaser, e, Prod.mk.injEq, true_and, Sigma.mk.injEq] at h
    obtain ⟨rfl, h⟩ := h
    obtain rfl := eq_of_heq h
    refine ⟨fun f => dft fun i j k => idft f i j k * Tat l el i j k, isLin_dft.comp ((isLin_mul _).comp isLin_idft), ?_⟩
    intro l1 f hs hf
    obtain ⟨l1', e', h1, q1, q2, q3, q4, q5, -⟩ := C19_apply_optics l1 f hf el
    refine ⟨l1', by simp only [LaserOp.run, onLaser, e'], ⟨?_, ?_, ?_, ?_, ?_⟩, ?_⟩
    · rw [q1, k1, hs.geom]
    · rw [q2, k2, hs.t]
    · rw [q3, k3, hs.omega0]
    · rw [q4, k4, hs.omega]
    · rw [q5, k5, hs.prop]
    · have : Tat l1 el = Tat l el := by
        funext i j k
        simp only [Tat, hs.geom, hs.omega, hs.omega0]
      rwa [this] at h1
  | propagate a =>
    simp only [LaserOp.run] at h ⊢
    -- without resampling
    have here : ∀ {s' : Shape} {l' : Laser s'}, ((Laser.propagateHere ax a.distance a.nrBoundary a.backend l).1,
        (⟨s, (Laser.propagateHere ax a.distance a.nrBoundary a.backend l).2⟩ : Σ s, Laser s)) = (.ok (), ⟨s', l'⟩) →
        ∃ A : Field s → Field s', IsLin A ∧ ∀ (l1 : Laser s) (f : Field s), SameSetup l l1 → l1.Has f →
          ∃ l1' : Laser s', ((Laser.propagateHere ax a.distance a.nrBoundary a.backend l1).1,
        (⟨s, (Laser.propagateHere ax a.distance a.nrBoundary a.backend l1).2⟩ : Σ s, Laser s)) = (.ok (), ⟨s', l1'⟩) ∧
            SameSetup l' l1' ∧ l1'.Has (A f) := by
      intro s' l' h
      obtain ⟨b0, hb0⟩ := hc.uses a.backend
      rcases hw : l.layerOf a.nrBoundary with e | w
      · obtain ⟨g', e', -⟩ := propagateHere_err ax a.distance a.backend l f0 hf0 a.nrBoundary hw
        rw [e'] at h
        simp at h
      obtain ⟨l0, e, h0, k1, k2, k3, k4, k5, -⟩ := propagateHere_ok ax a.distance b0 a.backend l f0 hf0 hb0 a.nrBoundary hw
      rw [e] at h
      simp only [Prod.mk.injEq, true_and, Sigma.mk.injEq] at h
      obtain ⟨rfl, h⟩ := h
      obtain rfl := eq_of_heq h
      refine ⟨fun f => l.propagated ax b0 a.distance fun i j k => f i j k * (w i j : ℂ),
        (isLin_propagated ax hax l b0 a.distance).comp (isLin_mul fun i j _ => (w i j : ℂ)), ?_⟩
      intro l1 f hs hf
      have hw1 : l1.layerOf a.nrBoundary = .ok w := by
        rw [← hw]
        cases a.nrBoundary with
        | none => rfl
        | some k => simp only [Laser.layerOf, Laser.layer, hs.geom]
      have hb1 : l1.Uses b0 a.backend := by
        unfold Laser.Uses
        rw [hs.prop, buildProp_congr hs.geom hs.omega b0]
        exact hb0
      obtain ⟨l1', e1, h1, q1, q2, q3, q4, q5, -⟩ :=
        propagateHere_ok ax a.distance b0 a.backend l1 f hf hb1 a.nrBoundary hw1
      refine ⟨l1', by rw [e1], ⟨?_, ?_, ?_, ?_, ?_⟩, ?_⟩
      · rw [q1, k1, hs.geom]
      · rw [q2, k2, hs.t]
      · rw [q3, k3, hs.omega0]
      · rw [q4, k4, hs.omega]
      · rw [q5, k5, buildProp_congr hs.geom hs.omega b0]
      · have : l1.propagated ax b0 a.distance = l.propagated ax b0 a.distance := by
          funext f
          simp only [Laser.propagated, stepped_congr hs.geom hs.omega, hs.omega, hs.omega0]
        rwa [this] at h1
    unfold Laser.propagate at h ⊢
    rcases hag : a.grid with _ | g'
    · rw [hag] at h
      exact here h
    rw [hag] at h
    rcases hgeo : l.grid.geom with ⟨x, y⟩ | ⟨n, hn, r⟩
    · simp only [hgeo] at h
      obtain ⟨A, hA, key⟩ := here h
      refine ⟨A, hA, fun l1 f hs hf => ?_⟩
      obtain ⟨l1', e', hq⟩ := key l1 f hs hf
      refine ⟨l1', ?_, hq⟩
      have : l1.grid.geom = .xyt x y := hs.geom.trans hgeo
      simp only [this]
      exact e'
    · simp only [hgeo] at h
      obtain ⟨w, n0, hn0, r0, n', hn', r', hw, hgeo0, hgeo', hnt, hm⟩ :=
        propagateOnto_inv ax a.distance a.backend l f0 hf0 a.nrBoundary g'.2 h
      obtain ⟨st, hst⟩ := hg a rfl g' hag
      obtain ⟨l0, e', h1, h2, h3, h4, h5, h6, h7, h8, h9, -⟩ := propagateOnto_ok ax a.distance
        a.backend l f0 hf0 a.nrBoundary hw g'.2 hst hgeo0 hgeo' hnt hm
      rw [e'] at h
      simp only [Prod.mk.injEq, true_and, Sigma.mk.injEq] at h
      obtain ⟨rfl, h⟩ := h
      obtain rfl := eq_of_heq h
      refine ⟨fun f => dft fun i j k =>
        ax.resampleRT r0.pts (fun k => l.omega1d k / c) r'.pts (modeAt n' (Fin.cast hn'.2 i)) a.backend a.distance
          (fun k j => idft (fun i j k => f i j k * (w i j : ℂ)) (Fin.castLE hm i) j k)
          (Fin.cast hnt k) j *
        exp (-I * (l.omega1d (Fin.cast hnt k) - l.profile.omega0) * (a.distance / c)), ?_, ?_⟩
      · refine isLin_dft.comp (A := fun f i j k =>
          ax.resampleRT r0.pts (fun k => l.omega1d k / c) r'.pts (modeAt n' (Fin.cast hn'.2 i)) a.backend a.distance
            (fun k j => idft (fun i j k => f i j k * (w i j : ℂ)) (Fin.castLE hm i) j k) (Fin.cast hnt k) j *
          exp (-I * (l.omega1d (Fin.cast hnt k) - l.profile.omega0) * (a.distance / c))) ?_
        intro x y u v
        funext i j k
        have hl := (isLin_idft (s := s)).comp (isLin_mul fun i j _ => (w i j : ℂ)) x y u v
        simp only at hl ⊢
        rw [hl]
        rw [hax.resample]
        ring
      · intro l1 f hs hf
        have hw1 : l1.layerOf a.nrBoundary = .ok w := by
          rw [← hw]
          cases a.nrBoundary with
          | none => rfl
          | some k => simp only [Laser.layerOf, Laser.layer, hs.geom]
        obtain ⟨l1', e1, q1, q2, q3, q4, q5, q6, q7, q8, q9, -⟩ := propagateOnto_ok ax a.distance
          a.backend l1 f hf a.nrBoundary hw1 g'.2 hst (hs.geom.trans hgeo0) hgeo' hnt hm
        have hgeo1 : l1.grid.geom = .rt n hn r := hs.geom.trans hgeo
        refine ⟨l1', ?_, ⟨?_, ?_, ?_, ?_, ?_⟩, ?_⟩
        · simp only [hgeo1]
          exact e1
        · rw [q2, h2]
        · ext k
          · rw [q3, h3, hs.t]
          · rw [q4, h4, hs.t]
          · rw [q6, h6]
          · rw [q5, h5, hs.t]
        · rw [q7, h7, hs.omega0]
        · funext k; rw [q8, h8, hs.omega]
        · rw [q9, h9]
        · rw [hs.omega, hs.omega0] at q1
          exact q1

/-- a whole history -/
theorem runOps_linear (ax : Axiprop) (hax : ax.Superposes) (os : List LaserOp) (hn : NoNormalize os) (hg : GoodGrids os)
    (l : Laser s) (hl : l.Ready) (s' : Shape) (l' : Laser s') (h : runOps ax os ⟨s, l⟩ = (.ok (), ⟨s', l'⟩)) :
    ∃ A : Field s → Field s', IsLin A ∧ ∀ (l1 : Laser s) (f : Field s), SameSetup l l1 → l1.Has f →
      ∃ l1' : Laser s', runOps ax os ⟨s, l1⟩ = (.ok (), ⟨s', l1'⟩) ∧ SameSetup l' l1' ∧ l1'.Has (A f) := by
  induction os generalizing s with
  | nil =>
    simp only [runOps, Py.pure_apply, Prod.mk.injEq, true_and, Sigma.mk.injEq] at h
    obtain ⟨rfl, h⟩ := h
    obtain rfl := eq_of_heq h
    exact ⟨fun f => f, fun _ _ _ _ => rfl, fun l1 f hs hf => ⟨l1, rfl, hs, hf⟩⟩
  | cons o os ih =>
    simp only [runOps, Py.bind_apply] at h
    rcases h1 : o.run ax ⟨s, l⟩ with ⟨e | u, ⟨sm, lm⟩⟩
    · simp [h1] at h
    simp only [h1] at h
    have hgo : ∀ a, o = .propagate a → ∀ g, a.grid = some g → ∃ st, g.2.Holds st := fun a ha => hg o (by simp) a ha
    obtain ⟨A, hA, ka⟩ := LaserOp.linear ax hax o (fun v kind => hn o (by simp) v kind) l hl hgo sm lm h1
    obtain ⟨hr, -⟩ := LaserOp.run_inv ax o ⟨s, l⟩ ⟨sm, lm⟩ hl hgo h1
    obtain ⟨B, hB, kb⟩ := ih (fun o ho => hn o (by simp [ho])) (fun o ho => hg o (by simp [ho])) lm hr h
    refine ⟨fun f => B (A f), hB.comp hA, fun l1 f hs hf => ?_⟩
    obtain ⟨l1', e1, hs1, hf1⟩ := ka l1 f hs hf
    obtain ⟨l2', e2, hs2, hf2⟩ := kb l1' _ hs1 hf1
    refine ⟨l2', ?_, hs2, hf2⟩
    simp only [runOps, Py.bind_apply, e1]
    exact e2

/-- **C128.** If the steps of the external propagator are linear, every history of `apply_optics` and `propagate` (with
absorbing layers, resampling and any backend) acts linearly on the field: of three lasers built on the same grid with
the same carrier frequency, whose fields are `f`, `g` and `a f + b g`, the first two will hold `f'`, `g'` and the third
`a f' + b g'` afterwards, on the same axes. If the history runs for one of them, it runs for the others. -/
theorem C128_superposition (ax : Axiprop) (hax : ax.Superposes) (os : List LaserOp) (hn : NoNormalize os) (hg : GoodGrids os)
    {dim : String} {lo hi : List ℝ} {np : List ℕ} {m N : Option ℕ} {p1 p2 p3 : ProfileObj} {l1 l2 l3 : Laser s}
    (h1 : Laser.init dim lo hi np p1 m N = .ok ⟨s, l1⟩) (h2 : Laser.init dim lo hi np p2 m N = .ok ⟨s, l2⟩)
    (h3 : Laser.init dim lo hi np p3 m N = .ok ⟨s, l3⟩) (hw2 : p2.omega0 = p1.omega0) (hw3 : p3.omega0 = p1.omega0)
    (f g : Field s) (a b : ℂ) (hf : l1.Has f) (hg' : l2.Has g) (hfg : l3.Has fun i j k => a * f i j k + b * g i j k)
    {s' : Shape} {l1' : Laser s'} (hr : runOps ax os ⟨s, l1⟩ = (.ok (), ⟨s', l1'⟩)) :
    ∃ (l2' l3' : Laser s') (f' g' : Field s'), runOps ax os ⟨s, l2⟩ = (.ok (), ⟨s', l2'⟩) ∧
      runOps ax os ⟨s, l3⟩ = (.ok (), ⟨s', l3'⟩) ∧ l1'.Has f' ∧ l2'.Has g' ∧
      (l3'.Has fun i j k => a * f' i j k + b * g' i j k) ∧ l2'.grid.geom = l1'.grid.geom ∧ l2'.grid.t = l1'.grid.t ∧
      l3'.grid.geom = l1'.grid.geom ∧ l3'.grid.t = l1'.grid.t := by
  have setup : ∀ {q : ProfileObj} {l : Laser s}, Laser.init dim lo hi np q m N = .ok ⟨s, l⟩ → q.omega0 = p1.omega0 →
      SameSetup l1 l := by
    intro q l hl hw
    obtain ⟨g1, -, a1, -, a2, a3, a4, -, a5, a6⟩ := Laser.init_facts h1
    obtain ⟨g2, -, b1, -, b2, b3, b4, -, b5, b6⟩ := Laser.init_facts hl
    obtain rfl : g1 = g2 := by
      rw [a1] at b1
      simpa using b1
    refine ⟨by rw [b2, a2], by rw [b3, a3], by rw [b4, a4, hw], ?_, by rw [b5, a5]⟩
    funext k
    rw [b6, a6, b3, a3, b4, a4, hw]
  obtain ⟨A, hA, key⟩ := runOps_linear ax hax os hn hg l1 (Laser.ready_of_init h1) s' l1' hr
  obtain ⟨l1'', e1, -, k1⟩ := key l1 f ⟨rfl, rfl, rfl, rfl, rfl⟩ hf
  obtain ⟨l2', e2, s2, k2⟩ := key l2 g (setup h2 hw2) hg'
  obtain ⟨l3', e3, s3, k3⟩ := key l3 _ (setup h3 hw3) hfg
  rw [hr] at e1
  simp only [Prod.mk.injEq, true_and, Sigma.mk.injEq, heq_eq_eq] at e1
  subst e1
  rw [hA] at k3
  exact ⟨l2', l3', _, _, e2, e3, k1, k2, k3, s2.geom, s2.t, s3.geom, s3.t⟩

omit [Phys] in
/-- propagation in free space is linear -/
theorem Axiprop.freeSpace_superposes : Axiprop.freeSpace.Superposes where
  rt := by
    intro nr nt r kz m bk d a b u v
    funext k j
    simp only [freeSpace]
    ring
  resample := by
    intro nr nt nr' r kz r' m bk d a b u v
    funext k j
    simp only [freeSpace]
    split
    · ring
    · ring
  xy := by
    intro nx ny nt Lx Ly kz bk d a b u v
    funext k i j
    have f1 : ∀ {n : ℕ} (x y : Fin n → ℂ), fft (fun i => a * x i + b * y i) = fun k => a * fft x k + b * fft y k := by
      intro n x y
      rw [show (fun i => a * x i + b * y i) = fun i => (fun i => a * x i) i + (fun i => b * y i) i from rfl, fft_add, fft_smul,
        fft_smul]
    have f2 : ∀ {n : ℕ} (x y : Fin n → ℂ), ifft (fun i => a * x i + b * y i) = fun k => a * ifft x k + b * ifft y k := by
      intro n x y
      rw [show (fun i => a * x i + b * y i) = fun i => (fun i => a * x i) i + (fun i => b * y i) i from rfl, ifft_add, ifft_smul,
        ifft_smul]
    simp only [freeSpace, fft2, ifft2, f1]
    simp only [add_mul, mul_assoc, f2]

/-- C128 is not vacuous: a mirror and a propagation, `f = g = 1`, `a = 1`, `b = 2` -/
example : ∃ (l1 l2 l3 : Laser ⟨2, 2, 2⟩) (L' : Σ s, Laser s) (p1 p3 : ProfileObj) (os : List LaserOp),
    Laser.init "xyt" [0, 0, 0] [1, 1, 1] [2, 2, 2] p1 none none = .ok ⟨_, l1⟩ ∧
    Laser.init "xyt" [0, 0, 0] [1, 1, 1] [2, 2, 2] p1 none none = .ok ⟨_, l2⟩ ∧
    Laser.init "xyt" [0, 0, 0] [1, 1, 1] [2, 2, 2] p3 none none = .ok ⟨_, l3⟩ ∧ p3.omega0 = p1.omega0 ∧
    (l1.Has fun _ _ _ => 1) ∧ (l2.Has fun _ _ _ => 1) ∧ (l3.Has fun _ _ _ => 1 * 1 + 2 * 1) ∧ GoodGrids os ∧ NoNormalize os ∧
    os.length = 2 ∧ runOps Axiprop.freeSpace os ⟨_, l1⟩ = (.ok (), L') := by
  obtain ⟨l, E0, hi, hf, -, -⟩ := constLaser
  obtain ⟨l1, e1, h1, hgeo, ht, hp, ho, hpr, -⟩ := C19_apply_optics l _ hf (parabolicMirror 1)
  have hr := Laser.ready_of_init hi
  have hc1 : l1.CacheOK := by
    rcases hr.2 with hc | ⟨b, hc⟩
    · exact .inl (hpr.trans hc)
    · exact .inr ⟨b, by rw [hpr, hc, buildProp_congr hgeo ho]⟩
  obtain ⟨l2, e2, -⟩ := propagateAll_succeeds Axiprop.freeSpace [⟨3, none, none, "NP"⟩] l1 ⟨⟨_, h1⟩, hc1⟩ (by simp)
  obtain ⟨l3, h3, k3⟩ := C14_unscaled_xyt 0 0 0 1 1 1 2 2 2 le_rfl le_rfl le_rfl
    { constProfile none with evaluate := fun _ _ _ _ _ _ => 1 * 1 + 2 * 1 } rfl rfl (fun _ _ _ => 1 * 1 + 2 * 1)
    (fun _ _ _ _ _ _ _ _ _ => rfl) none none
  refine ⟨l, l, l3, ⟨_, l2⟩, _, _, [.optics (parabolicMirror 1), .propagate ⟨3, none, none, "NP"⟩], hi, hi, h3, rfl, hf, hf, k3,
    ?_, ?_, rfl, ?_⟩
  · intro o ho a ha g hg
    simp at ho
    rcases ho with rfl | rfl
    · cases ha
    · cases ha; cases hg
  · intro o ho v kind
    simp at ho
    rcases ho with rfl | rfl <;> simp
  · simp only [runOps, LaserOp.run, onLaser, Py.bind_apply, e1]
    simp only [propagateAll, Py.bind_apply] at e2
    exact e2

/-! ## C129 -/

/-- `o'` is meant to undo `o`: the same distance backwards (with any backend), or an element with the inverse multiplier -/
inductive Undoes : LaserOp → LaserOp → Prop
  | propagate (d : ℝ) (b b' : String) : Undoes (.propagate ⟨d, none, none, b⟩) (.propagate ⟨-d, none, none, b'⟩)
  | optics (el el' : OpticalElement) (h : ∀ x y w w0, el.mult x y w w0 * el'.mult x y w w0 = 1) :
      Undoes (.optics el) (.optics el')

/-- the state of a laser that a user sees, except the field, and the cached propagator once there is one -/
structure SameState (l l' : Laser s) : Prop where
  geom : l'.grid.geom = l.grid.geom
  t : l'.grid.t = l.grid.t
  profile : l'.profile = l.profile
  omega : l'.omega1d = l.omega1d
  prop : l.prop ≠ .absent → l'.prop = l.prop
  ok : l'.CacheOK
  iteration : l'.outputIteration = l.outputIteration

theorem runOps_append (ax : Axiprop) (os os' : List LaserOp) (L : Σ s, Laser s) {L1 : Σ s, Laser s}
    (h : runOps ax os L = (.ok (), L1)) : runOps ax (os ++ os') L = runOps ax os' L1 := by
  induction os generalizing L with
  | nil =>
    simp only [runOps, Py.pure_apply, Prod.mk.injEq, true_and] at h
    subst h
    rfl
  | cons o os ih =>
    simp only [runOps, List.cons_append, Py.bind_apply] at h ⊢
    rcases h1 : o.run ax L with ⟨e | u, Lm⟩
    · simp [h1] at h
    · simp only [h1] at h ⊢
      exact ih Lm h

/-- **C129.** If the steps of the external propagator compose, every beam line of propagations and invertible elements is
undone by running it backwards: with the inverse elements and the distances reversed, in reverse order, the laser has
its field back, on the same axes. -/
theorem C129_there_and_back (ax : Axiprop) (hax : ax.Additive) (os os' : List LaserOp) (hu : List.Forall₂ Undoes os os')
    (l : Laser s) (f : Field s) (hf : l.Has f) (hc : l.CacheOK) :
    ∃ l' : Laser s, runOps ax (os ++ os'.reverse) ⟨s, l⟩ = (.ok (), ⟨s, l'⟩) ∧ l'.Has f ∧ SameState l l' := by
  induction hu generalizing l f with
  | nil => exact ⟨l, rfl, hf, rfl, rfl, rfl, rfl, fun _ => rfl, hc, rfl⟩
  | @cons o o' os os' ho hos ih =>
    cases ho with
    | optics el el' hinv =>
      obtain ⟨l1, e1, h1, k1, k2, k3, k4, k5, k6⟩ := C19_apply_optics l f hf el
      have hc1 : l1.CacheOK := by
        rcases hc with hc | ⟨b, hc⟩
        · exact .inl (k5.trans hc)
        · exact .inr ⟨b, by rw [k5, hc, buildProp_congr k1 k4]⟩
      obtain ⟨l2, e2, h2, st⟩ := ih l1 _ h1 hc1
      obtain ⟨l3, e3, h3, q1, q2, q3, q4, q5, q6⟩ := C19_apply_optics l2 _ h2 el'
      refine ⟨l3, ?_, ?_, ?_⟩
      · rw [List.reverse_cons, ← List.append_assoc, runOps_append ax _ _ _ (L1 := ⟨s, l2⟩)]
        · simp only [runOps, LaserOp.run, onLaser, Py.bind_apply, e3, Py.pure_apply]
        · simp only [List.cons_append, runOps, LaserOp.run, onLaser, Py.bind_apply, e1]
          exact e2
      · have : (dft fun i j k => idft (dft fun i j k => idft f i j k * Tat l el i j k) i j k * Tat l2 el' i j k) = f := by
          have hT : ∀ i j k, Tat l el i j k * Tat l2 el' i j k = 1 := by
            intro i j k
            simp only [Tat, st.geom, k1, st.omega, k4, st.profile, k3]
            cases l.grid.geom <;> exact hinv _ _ _ _
          simp only [idft_dft, mul_assoc, hT, mul_one]
          exact dft_idft f
        rwa [this] at h3
      · refine ⟨?_, ?_, ?_, ?_, ?_, ?_, ?_⟩
        · rw [q1, st.geom, k1]
        · rw [q2, st.t, k2]
        · rw [q3, st.profile, k3]
        · rw [q4, st.omega, k4]
        · intro hne
          rw [q5, st.prop (by rwa [k5]), k5]
        · rcases st.ok with hc | ⟨b, hc⟩
          · exact .inl (q5.trans hc)
          · exact .inr ⟨b, by rw [q5, hc, buildProp_congr q1 q4]⟩
        · rw [q6, st.iteration, k6]
    | propagate d b b' =>
      obtain ⟨b0, hb0⟩ := hc.uses b
      obtain ⟨l1, e1, h1, k1, k2, k3, k4, k6, k7⟩ :=
        propagateHere_ok ax d b0 b l f hf hb0 none (w := fun _ _ => 1) rfl
      simp only [ofReal_one, mul_one] at h1
      have hc1 : l1.prop = l1.buildProp b0 := by rw [k6]; exact (buildProp_congr k1 k4 b0).symm
      have hne1 : l1.prop ≠ .absent := by rw [hc1]; exact buildProp_ne_absent _ _
      obtain ⟨l2, e2, h2, st⟩ := ih l1 _ h1 (.inr ⟨b0, hc1⟩)
      have hb2 : l2.Uses b0 b' := .inr (by rw [st.prop hne1, hc1]; exact (buildProp_congr st.geom st.omega b0).symm)
      obtain ⟨l3, e3, h3, q1, q2, q3, q4, q6, q7⟩ :=
        propagateHere_ok ax (-d) b0 b' l2 _ h2 hb2 none (w := fun _ _ => 1) rfl
      simp only [ofReal_one, mul_one] at h3
      refine ⟨l3, ?_, ?_, ?_⟩
      · rw [List.reverse_cons, ← List.append_assoc, runOps_append ax _ _ _ (L1 := ⟨s, l2⟩)]
        · simp only [runOps, LaserOp.run, Py.bind_apply, propagate_none_ok e3, Py.pure_apply]
        · simp only [List.cons_append, runOps, LaserOp.run, Py.bind_apply, propagate_none_ok e1]
          exact e2
      · rw [propagated_congr (st.geom.trans k1) (st.omega.trans k4) (st.profile.trans k3),
          (propagated_add ax hax l b0 d (-d) f).1, add_neg_cancel, (propagated_add ax hax l b0 d d f).2] at h3
        exact h3
      · refine ⟨?_, ?_, ?_, ?_, ?_, ?_, ?_⟩
        · rw [q1, st.geom, k1]
        · rw [q2, st.t, k2]
          simp [Axis.shift, neg_div]
        · rw [q3, st.profile, k3]
        · rw [q4, st.omega, k4]
        · intro hne
          have : l.prop = l.buildProp b0 := by
            rcases hb0 with ⟨h, -⟩ | h
            · exact absurd h hne
            · exact h
          rw [this, q6, buildProp_congr (st.geom.trans k1) (st.omega.trans k4) b0]
        · exact .inr ⟨b0, by rw [q6]; exact (buildProp_congr q1 q4 b0).symm⟩
        · rw [q7, st.iteration, k7]

/-- C129 applies: focus with a mirror, propagate, add a chirp - and back -/
example (f d gdd : ℝ) : List.Forall₂ Undoes
    [.optics (parabolicMirror f), .propagate ⟨d, none, none, "NP"⟩, .optics (polynomialSpectralPhase gdd 0 0)]
    [.optics (parabolicMirror (-f)), .propagate ⟨-d, none, none, "NP"⟩, .optics (polynomialSpectralPhase (-gdd) 0 0)] := by
  refine .cons (.optics _ _ ?_) (.cons (.propagate _ _ _) (.cons (.optics _ _ ?_) .nil))
  · intro x y w w0
    simp only [parabolicMirror]
    rw [← Complex.exp_add, Complex.exp_eq_one_iff]
    refine ⟨0, ?_⟩
    push_cast
    rw [mul_neg, div_neg]
    simp
  · intro x y w w0
    simp only [polynomialSpectralPhase]
    rw [← Complex.exp_add, Complex.exp_eq_one_iff]
    refine ⟨0, ?_⟩
    push_cast
    ring

end Lasy
