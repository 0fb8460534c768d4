import Verif.Model.Propagate
import Verif.Props.Optics
import Verif.Spec.Propagate

/-! Computation rules for `Laser.propagate`. -/

namespace Lasy
open Spec Phys Complex

variable {s s' : Shape}

/-- a loop whose every pass succeeds -/
theorem foldlM_update {β : Type} {n : ℕ} (step : (Fin n → β) → Fin n → Except PyErr (Fin n → β))
    (v : Fin n → β) (h : ∀ out i, step out i = .ok (Function.update out i (v i))) (out : Fin n → β) :
    (List.finRange n).foldlM step out = .ok v := by
  have key : ∀ (l : List (Fin n)) (out : Fin n → β), l.foldlM step out =
      .ok fun i => if i ∈ l then v i else out i := by
    intro l
    induction l with
    | nil => intro out; simp [pure, Except.pure]
    | cons a l ih =>
      intro out
      rw [List.foldlM_cons, h]
      simp only [Bind.bind, Except.bind, ih]
      congr 1
      funext i
      by_cases hi : i ∈ l
      · simp [hi]
      · by_cases ha : i = a
        · subst ha; simp [hi]
        · simp [hi, ha]
  rw [key]
  simp

/-- a loop that has succeeded, for passes that either fail or set one component -/
theorem foldlM_update_ok {β : Type} {n : ℕ} (step : (Fin n → β) → Fin n → Except PyErr (Fin n → β))
    (w : Fin n → Except PyErr β)
    (h : ∀ out i, step out i = match w i with
      | .ok v => .ok (Function.update out i v)
      | .error e => .error e) {out v : Fin n → β}
    (hv : (List.finRange n).foldlM step out = .ok v) : ∀ i, w i = .ok (v i) := by
  have key : ∀ (l : List (Fin n)) (out : Fin n → β), l.foldlM step out = .ok v →
      (∀ i ∈ l, w i = .ok (v i)) ∧ ∀ i, i ∉ l → v i = out i := by
    intro l
    induction l with
    | nil =>
      intro out hv
      simp [pure, Except.pure] at hv
      simp [hv]
    | cons a l ih =>
      intro out hv
      rw [List.foldlM_cons, h] at hv
      rcases hw : w a with e | x
      · simp [hw, Bind.bind, Except.bind] at hv
      · simp only [hw, Bind.bind, Except.bind] at hv
        obtain ⟨h1, h2⟩ := ih _ hv
        constructor
        · intro i hi
          rcases List.mem_cons.1 hi with rfl | hi
          · by_cases hl : i ∈ l
            · exact h1 i hl
            · rw [h2 i hl]; simp [hw]
          · exact h1 i hi
        · intro i hi
          have : i ≠ a ∧ i ∉ l := by simpa using hi
          rw [h2 i this.2]; simp [this.1]
  intro i
  exact (key _ _ hv).1 i (by simp)

theorem Arr2.as_self (a b : ℕ) (u : Fin a → Fin b → ℂ) : Arr2.as a b ⟨a, b, u⟩ = .ok u := by
  simp [Arr2.as]

theorem azimuthalModes_getElem? (n : ℕ) (i : Fin (2 * n - 1)) :
    (azimuthalModes n)[(i : ℕ)]? = some (modeAt n i) := by
  have hi := i.2
  have hn : 1 ≤ n := by omega
  exact ((C10_mode_layout n hn).2.2.2 i _).2 ((modeAt_iff hn i _).1 rfl)

/-- the modes of an `rt` grid, all steps succeed -/
theorem stepModes_here (ax : Axiprop) (n : ℕ) {a nr nt : ℕ} (ha : a = 2 * n - 1) (r : Fin nr → ℝ)
    (kz : Fin nt → ℝ) (b : String) (d : ℝ) (src out : Fin a → Fin nr → Fin nt → ℂ) :
    stepModes ax ((azimuthalModes n).map fun m =>
      { nr := nr, r := r, nt := nt, kz := kz, target := none, mode := m, backend := b }) d src out =
    .ok fun i j k => ax.stepRT r kz (modeAt n (Fin.cast ha i)) b d (fun k j => src i j k) k j := by
  subst ha
  apply foldlM_update
  intro out i
  simp only [i.2, dif_pos, List.getElem?_map, azimuthalModes_getElem?, Option.map_some, PropRT.step,
    Arr2.as_self, Fin.cast_refl, id]

/-- resampling with as many modes and time points as before, all steps succeed -/
theorem stepModes_onto (ax : Axiprop) (n : ℕ) {a nr nt nr' b : ℕ} (ha : b = 2 * n - 1) (hb : b ≤ a)
    (r : Fin nr → ℝ) (kz : Fin nt → ℝ) (r' : Fin nr' → ℝ) (bk : String) (d : ℝ)
    (src : Fin a → Fin nr → Fin nt → ℂ) (out : Fin b → Fin nr' → Fin nt → ℂ) :
    stepModes ax ((azimuthalModes n).map fun m =>
      { nr := nr, r := r, nt := nt, kz := kz, target := some ⟨nr', r'⟩, mode := m, backend := bk }) d
      src out =
    .ok fun i j k => ax.resampleRT r kz r' (modeAt n (Fin.cast ha i)) bk d
      (fun k j => src (Fin.castLE hb i) j k) k j := by
  subst ha
  apply foldlM_update
  intro out i
  have hi : (i : ℕ) < a := lt_of_lt_of_le i.2 hb
  simp only [hi, dif_pos, List.getElem?_map, azimuthalModes_getElem?, Option.map_some, PropRT.step,
    Arr2.as_self, Fin.cast_refl, id]
  rfl

variable [Phys]

/-- `b0` is the backend that the next `propagate(backend=b)` uses: that of the cached propagator, which
was built for the present grid, or `b` if there is none. -/
def Laser.Uses (l : Laser s) (b0 b : String) : Prop :=
  (l.prop = .absent ∧ b0 = b) ∨ l.prop = l.buildProp b0

/-- the cache is absent or was built for the present grid -/
def Laser.CacheOK (l : Laser s) : Prop := l.prop = .absent ∨ ∃ b, l.prop = l.buildProp b

theorem buildProp_ne_absent (l : Laser s) (b : String) : l.buildProp b ≠ .absent := by
  unfold Laser.buildProp
  cases l.grid.geom <;> simp

theorem buildProp_congr {l l' : Laser s} (hg : l'.grid.geom = l.grid.geom)
    (ho : l'.omega1d = l.omega1d) (b : String) : l'.buildProp b = l.buildProp b := by
  simp only [Laser.buildProp, hg, ho]

theorem stepped_congr {l l' : Laser s} (hg : l'.grid.geom = l.grid.geom)
    (ho : l'.omega1d = l.omega1d) (ax : Axiprop) (b : String) (d : ℝ) (F : Field s) :
    l'.stepped ax b d F = l.stepped ax b d F := by
  funext i j k
  simp only [Laser.stepped, hg, ho]

theorem propagated_congr {l l' : Laser s} (hg : l'.grid.geom = l.grid.geom)
    (ho : l'.omega1d = l.omega1d) (hp : l'.profile = l.profile) (ax : Axiprop) (b : String) (d : ℝ)
    (f : Field s) : l'.propagated ax b d f = l.propagated ax b d f := by
  simp only [Laser.propagated, stepped_congr hg ho, ho, hp]

theorem stepHere_ok (ax : Axiprop) (d : ℝ) (F : Field s) (l : Laser s) (b : String)
    (h : l.prop = l.buildProp b) :
    Laser.stepHere ax d F l = (.ok (l.stepped ax b d F), l) := by
  unfold Laser.stepHere
  rw [h]
  rcases hg : l.grid.geom with ⟨x, y⟩ | ⟨n, hn, r⟩
  · simp only [Laser.buildProp, hg, PropXY.step, and_self, dif_pos, Fin.cast_refl, id]
    congr 2
    funext i j k
    simp only [Laser.stepped, hg]
  · simp only [Laser.buildProp, hg]
    rw [stepModes_here ax n hn.2]
    congr 2
    funext i j k
    simp only [Laser.stepped, hg]

theorem finish_ok (d : ℝ) (F : Field s) (l : Laser s) {st : Option (Field s)} (h : l.grid.Holds st) :
    ∃ l', Laser.finish d F l = (.ok (), l') ∧
      l'.Has (dft fun i j k => F i j k * exp (-I * (l.omega1d k - l.profile.omega0) * (d / c))) ∧
      l'.grid.geom = l.grid.geom ∧ l'.grid.t = l.grid.t.shift (d / c) ∧ l'.profile = l.profile ∧
      l'.omega1d = l.omega1d ∧ l'.prop = l.prop ∧ l'.outputIteration = l.outputIteration := by
  obtain ⟨g, e, hg, h1, h2⟩ := h.setS
    (fun i j k => F i j k * exp (-I * (l.omega1d k - l.profile.omega0) * (d / c)))
  refine ⟨{ l with grid := { g with t := g.t.shift (d / c) } }, ?_, ?_, h1, ?_, rfl, rfl, rfl, rfl⟩
  · unfold Laser.finish
    rw [Py.bind_ok (Py.get_apply _), Py.bind_ok (onGrid_eq e)]
    rfl
  · exact ⟨hg.env, hg.dt, hg.unset, hg.isSet⟩
  · simp [h2]

theorem ensureProp_ok (l : Laser s) (b0 b : String) (h : l.Uses b0 b) :
    Laser.ensureProp b l = (.ok (), { l with prop := l.buildProp b0 }) := by
  unfold Laser.ensureProp
  rcases h with ⟨h, rfl⟩ | h
  · simp [h]
  · rw [Py.modify_apply]
    congr 1
    have := buildProp_ne_absent l b0
    rw [← h] at this ⊢
    split
    · contradiction
    · rfl

/-- the factors of the absorbing layer requested by `nr_boundary` -/
noncomputable def Laser.layerOf (l : Laser s) : Option ℤ → Except PyErr (Fin s.n0 → Fin s.n1 → ℝ)
  | none => .ok fun _ _ => 1
  | some k => if 0 < k then l.layer k.toNat else .error .assertion

/-- the exception, if any -/
def outcome {α : Type} : Except PyErr α → Except PyErr Unit
  | .ok _ => .ok ()
  | .error e => .error e

/-- the field after the layer -/
def damped (f : Field s) : Except PyErr (Fin s.n0 → Fin s.n1 → ℝ) → Field s
  | .ok w => fun i j k => f i j k * (w i j : ℂ)
  | .error _ => f

omit [Phys] in
/-- the absorbing layer, with or without success -/
theorem absorb_eq (l : Laser s) (f : Field s) (h : l.Has f) (nrB : Option ℤ) :
    ∃ g', Laser.absorb nrB l = (outcome (l.layerOf nrB), { l with grid := g' }) ∧
      g'.Holds (some (damped f (l.layerOf nrB))) ∧ g'.geom = l.grid.geom ∧ g'.t = l.grid.t := by
  cases nrB with
  | none =>
    refine ⟨l.grid, rfl, ?_, rfl, rfl⟩
    have : damped f (l.layerOf none) = f := by funext i j k; simp [Laser.layerOf, damped]
    rw [this]
    exact h
  | some k =>
    simp only [Laser.layerOf, Laser.absorb]
    by_cases hk : 0 < k
    · simp only [hk, if_true]
      obtain ⟨g1, e1, h1, hg1, ht1⟩ := Grid.Holds.getT h
      rw [Py.bind_ok (Py.require_pos hk _), Py.bind_ok (onGrid_eq e1), Py.bind_ok (Py.get_apply _)]
      have hlay : ({ l with grid := g1 } : Laser s).layer k.toNat = l.layer k.toNat := by
        simp only [Laser.layer, hg1]
      rw [hlay]
      rcases hw : l.layer k.toNat with e | w
      · exact ⟨g1, by simp [outcome], h1, hg1, ht1⟩
      · simp only [damped, outcome]
        obtain ⟨g2, e2, h2, hg2, ht2⟩ := h1.setT (fun i j k => f i j k * (w i j : ℂ))
        refine ⟨g2, ?_, h2, hg2.trans hg1, ht2.trans ht1⟩
        rw [onGrid_eq (l := { l with grid := g1 }) e2]
    · simp only [hk, if_false]
      rw [Py.bind_error (Py.require_neg hk _)]
      exact ⟨l.grid, rfl, h, rfl, rfl⟩

/-- a call of `propagate` without resampling: what it does -/
theorem propagateHere_ok (ax : Axiprop) (d : ℝ) (b0 b : String) (l : Laser s) (f : Field s)
    (h : l.Has f) (hb : l.Uses b0 b) (nrB : Option ℤ) {w} (hw : l.layerOf nrB = .ok w) :
    ∃ l', Laser.propagateHere ax d nrB b l = (.ok (), l') ∧
      l'.Has (l.propagated ax b0 d (fun i j k => f i j k * (w i j : ℂ))) ∧
      l'.grid.geom = l.grid.geom ∧ l'.grid.t = l.grid.t.shift (d / c) ∧ l'.profile = l.profile ∧
      l'.omega1d = l.omega1d ∧ l'.prop = l.buildProp b0 ∧
      l'.outputIteration = l.outputIteration := by
  obtain ⟨g0, e0, h0, hg0, ht0⟩ := absorb_eq l f h nrB
  rw [hw] at e0 h0
  simp only [outcome, damped] at e0 h0
  obtain ⟨g1, e1, h1, hg1', ht1'⟩ := Grid.Holds.getS h0
  have hg1 := hg1'.trans hg0
  have ht1 := ht1'.trans ht0
  set l1 : Laser s := { l with grid := g1 } with hl1
  have hb1 : l1.Uses b0 b := by
    rcases hb with hb | hb
    · exact .inl hb
    · exact .inr (hb.trans (buildProp_congr (l := l) (l' := l1) hg1 rfl b0).symm)
  set l2 : Laser s := { l1 with prop := l1.buildProp b0 } with hl2
  have hs := stepHere_ok ax d (idft fun i j k => f i j k * (w i j : ℂ)) l2 b0 rfl
  obtain ⟨l3, e3, h3, k1, k2, k3, k4, k5, k6⟩ := finish_ok d
    (l2.stepped ax b0 d (idft fun i j k => f i j k * (w i j : ℂ))) l2 (st := some _) h1
  refine ⟨l3, ?_, ?_, k1.trans hg1, ?_, k3, k4, ?_, k6⟩
  · unfold Laser.propagateHere
    rw [Py.bind_ok (Py.get_apply _), Py.bind_ok (Py.require_pos h.env _), Py.bind_ok e0,
      Py.bind_ok (onGrid_eq (l := { l with grid := g0 }) e1),
      Py.bind_ok (ensureProp_ok l1 b0 b hb1), Py.bind_ok hs, e3]
  · rw [stepped_congr (l := l) (l' := l2) hg1 rfl] at h3
    exact h3
  · rw [k2]; simp [l2, l1, ht1]
  · rw [k5]; exact buildProp_congr (l := l) (l' := l1) hg1 rfl b0

/-- a failing call of `propagate` without resampling -/
theorem propagateHere_err (ax : Axiprop) (d : ℝ) (b : String) (l : Laser s) (f : Field s)
    (h : l.Has f) (nrB : Option ℤ) {e} (hw : l.layerOf nrB = .error e) :
    ∃ g', Laser.propagateHere ax d nrB b l = (.error e, { l with grid := g' }) ∧
      g'.Holds (some f) ∧ g'.geom = l.grid.geom ∧ g'.t = l.grid.t := by
  obtain ⟨g0, e0, h0, hg0, ht0⟩ := absorb_eq l f h nrB
  rw [hw] at e0 h0
  simp only [outcome, damped] at e0 h0
  refine ⟨g0, ?_, h0, hg0, ht0⟩
  unfold Laser.propagateHere
  rw [Py.bind_ok (Py.get_apply _), Py.bind_ok (Py.require_pos h.env _), Py.bind_error e0]

theorem Laser.CacheOK.uses {l : Laser s} (h : l.CacheOK) (b : String) : ∃ b0, l.Uses b0 b := by
  rcases h with h | ⟨b0, h⟩
  · exact ⟨b, .inl ⟨h, rfl⟩⟩
  · exact ⟨b0, .inr h⟩

omit [Phys] in
theorem Arr2.as_ok {a b : ℕ} {u : Arr2} {v} (h : Arr2.as a b u = .ok v) : u.1 = a ∧ u.2.1 = b := by
  unfold Arr2.as at h
  split at h
  · assumption
  · cases h

omit [Phys] in
/-- if a resampling loop with at least one mode succeeds, the sizes fit -/
theorem stepModes_sizes (ax : Axiprop) {a nr nt nr' b nt' : ℕ} (props : List PropRT) (d : ℝ)
    (hp : ∀ p ∈ props, p.nt = nt)
    (src : Fin a → Fin nr → Fin nt → ℂ) (out v : Fin b → Fin nr' → Fin nt' → ℂ)
    (h : stepModes ax props d src out = .ok v) (i : Fin b) : (i : ℕ) < a ∧ nt' = nt := by
  unfold stepModes at h
  have := foldlM_update_ok _ (fun i : Fin b =>
    if h : (i : ℕ) < a then
      match props[(i : ℕ)]? with
      | none => .error .index
      | some p =>
        match p.step ax d ⟨nt, nr, fun k j => src ⟨i, h⟩ j k⟩ with
        | .error e => .error e
        | .ok v =>
          match Arr2.as nt' nr' v with
          | .error e => .error e
          | .ok v => .ok (fun j k => v k j)
    else .error .index) ?_ h i
  · split at this
    · rename_i hi
      refine ⟨hi, ?_⟩
      rcases hq : props[(i : ℕ)]? with _ | p
      · simp [hq] at this
      · simp only [hq] at this
        have hpnt := hp p (List.mem_of_getElem? hq)
        rcases hs : p.step ax d ⟨nt, nr, fun k j => src ⟨i, hi⟩ j k⟩ with e | u
        · simp [hs] at this
        · simp only [hs] at this
          rcases ha : Arr2.as nt' nr' u with e | x
          · simp [ha] at this
          · have h1 := (Arr2.as_ok ha).1
            have h2 : u.1 = p.nt := by
              unfold PropRT.step at hs
              split at hs
              · cases hs
              · split at hs <;> cases hs <;> rfl
            rw [← h1, h2, hpnt]
    · cases this
  · intro out i
    by_cases hi : (i : ℕ) < a
    · simp only [hi, dif_pos]
      rcases props[(i : ℕ)]? with _ | p
      · rfl
      · simp only
        rcases p.step ax d ⟨nt, nr, fun k j => src ⟨i, hi⟩ j k⟩ with e | u
        · rfl
        · simp only
          rcases Arr2.as nt' nr' u with e | x <;> rfl
    · simp [hi]

omit [Phys] in
/-- the first part of `propagate`, up to `get_spectral_field` (`laser.py:231-249`) -/
theorem propagateStart (l : Laser s) (f : Field s) (h : l.Has f) (nrB : Option ℤ) :
    ∃ g1 : Grid s, (do Py.require ((← Py.get).grid.isEnvelope = true)
                       Laser.absorb nrB
                       Laser.onGrid Grid.getSpectralField : Py (Laser s) (Arr s)) l =
        ((match l.layerOf nrB with
          | .ok _ => .ok ⟨.c128, idft (damped f (l.layerOf nrB))⟩
          | .error e => .error e), { l with grid := g1 }) ∧
      g1.Holds (some (damped f (l.layerOf nrB))) ∧ g1.geom = l.grid.geom ∧ g1.t = l.grid.t := by
  obtain ⟨g0, e0, h0, hg0, ht0⟩ := absorb_eq l f h nrB
  rcases hw : l.layerOf nrB with e | w
  · rw [hw] at e0 h0
    simp only [outcome, damped] at e0 h0
    refine ⟨g0, ?_, h0, hg0, ht0⟩
    rw [Py.bind_ok (Py.get_apply _), Py.bind_ok (Py.require_pos h.env _), Py.bind_error e0]
  · rw [hw] at e0 h0
    simp only [outcome, damped] at e0 h0
    obtain ⟨g1, e1, h1, hg1, ht1⟩ := Grid.Holds.getS h0
    refine ⟨g1, ?_, h1, hg1.trans hg0, ht1.trans ht0⟩
    rw [Py.bind_ok (Py.get_apply _), Py.bind_ok (Py.require_pos h.env _), Py.bind_ok e0,
      onGrid_eq (l := { l with grid := g0 }) e1]
    rfl

omit [Phys] in
theorem adoptTime_holds {g' : Grid s'} {st : Option (Field s')} (h : g'.Holds st) (t : Axis s.nt) :
    (Laser.adoptTime (s := s) g' t).Holds st := ⟨h.env, h.dt, h.unset, h.isSet⟩

/-- a call of `propagate` with a fitting new grid: what it does -/
theorem propagateOnto_ok (ax : Axiprop) (d : ℝ) (b : String) (l : Laser s) (f : Field s) (h : l.Has f)
    (nrB : Option ℤ) {w} (hw : l.layerOf nrB = .ok w) (g' : Grid s') {st} (hg' : g'.Holds st)
    {n hn r n' hn' r'} (hgeo : l.grid.geom = .rt n hn r) (hgeo' : g'.geom = .rt n' hn' r')
    (hnt : s'.nt = s.nt) (hm : s'.n0 ≤ s.n0) :
    ∃ l' : Laser s', Laser.propagateOnto ax d nrB g' b l = (.ok (), ⟨s', l'⟩) ∧
      l'.Has (dft fun i j k =>
        ax.resampleRT r.pts (fun k => l.omega1d k / c) r'.pts (modeAt n' (Fin.cast hn'.2 i)) b d
          (fun k j => idft (fun i j k => f i j k * (w i j : ℂ)) (Fin.castLE hm i) j k)
          (Fin.cast hnt k) j *
        exp (-I * (l.omega1d (Fin.cast hnt k) - l.profile.omega0) * (d / c))) ∧
      l'.grid.geom = g'.geom ∧
      l'.grid.t.lo = l.grid.t.lo + d / c ∧ l'.grid.t.hi = l.grid.t.hi + d / c ∧
      (∀ k, l'.grid.t.pts k = l.grid.t.pts (Fin.cast hnt k) + d / c) ∧ l'.grid.t.dx = g'.t.dx ∧
      l'.profile = l.profile ∧ (∀ k, l'.omega1d k = l.omega1d (Fin.cast hnt k)) ∧
      l'.prop = .absent ∧ l'.outputIteration = l.outputIteration := by
  obtain ⟨a', nr', nt'⟩ := s'
  simp only at hnt hm
  subst hnt
  obtain ⟨g1, e1, h1, hg1, ht1⟩ := propagateStart l f h nrB
  rw [hw] at e1
  simp only [damped] at e1
  have hst := stepModes_onto ax n' hn'.2 hm r.pts (fun k => l.omega1d k / c) r'.pts b d
    (idft fun i j k => f i j k * (w i j : ℂ)) (fun _ _ _ => 0)
  let l2 : Laser ⟨a', nr', s.nt⟩ :=
    { grid := Laser.adoptTime (s := s) g' l.grid.t, profile := l.profile
      outputIteration := l.outputIteration
      omega1d := fun k => if h : (k : ℕ) < s.nt then l.omega1d ⟨k, h⟩ else 0
      prop := .absent }
  obtain ⟨l3, e3, h3, k1, k2, k3, k4, k5, k6⟩ := finish_ok d (fun i j k =>
        ax.resampleRT r.pts (fun k => l.omega1d k / c) r'.pts (modeAt n' (Fin.cast hn'.2 i)) b d
          (fun k j => idft (fun i j k => f i j k * (w i j : ℂ)) (Fin.castLE hm i) j k) k j) l2
        (adoptTime_holds (s := s) hg' l.grid.t)
  have homega : ∀ k : Fin s.nt, l2.omega1d k = l.omega1d k := fun k => by simp [l2]
  refine ⟨l3, ?_, ?_, ?_, ?_, ?_, ?_, ?_, ?_, ?_, ?_, ?_⟩
  · unfold Laser.propagateOnto
    rw [e1]
    simp only [Laser.adoptTime, hg1, hgeo, hgeo', ht1]
    rw [hst]
    simp only
    simp only [l2, Laser.adoptTime, hgeo'] at e3
    rw [e3]
  · simpa only [homega, Fin.cast_refl, id] using h3
  · rw [k1]; rfl
  · rw [k2]; rfl
  · rw [k2]; rfl
  · intro k; rw [k2]; simp [Axis.shift, l2, Laser.adoptTime]
  · rw [k2]; rfl
  · rw [k3]
  · intro k; rw [k4]; simpa using homega k
  · rw [k5]
  · rw [k6]

/-- a successful call of `propagate` with a new grid: the grids fit -/
theorem propagateOnto_inv (ax : Axiprop) (d : ℝ) (b : String) (l : Laser s) (f : Field s) (h : l.Has f)
    (nrB : Option ℤ) (g' : Grid s') {L : Σ s, Laser s}
    (hok : Laser.propagateOnto ax d nrB g' b l = (.ok (), L)) :
    ∃ w n hn r n' hn' r', l.layerOf nrB = .ok w ∧ l.grid.geom = .rt n hn r ∧
      g'.geom = .rt n' hn' r' ∧ s'.nt = s.nt ∧ s'.n0 ≤ s.n0 := by
  obtain ⟨g1, e1, h1, hg1, ht1⟩ := propagateStart l f h nrB
  unfold Laser.propagateOnto at hok
  rw [e1] at hok
  rcases hw : l.layerOf nrB with e | w
  · simp [hw] at hok
  · simp only [hw, hg1, Laser.adoptTime] at hok
    rcases hgeo : l.grid.geom with ⟨x, y⟩ | ⟨n, hn, r⟩
    · simp [hgeo] at hok
    rcases hgeo' : g'.geom with ⟨x, y⟩ | ⟨n', hn', r'⟩
    · simp [hgeo, hgeo'] at hok
    simp only [hgeo, hgeo'] at hok
    refine ⟨w, n, hn, r, n', hn', r', rfl, rfl, rfl, ?_⟩
    split at hok
    · simp at hok
    · rename_i F hF
      have hsz := stepModes_sizes ax _ d (by
        intro p hp
        simp only [List.mem_map] at hp
        obtain ⟨m, -, rfl⟩ := hp
        rfl) _ _ _ hF
      have hpos : 0 < s'.n0 := by have := hn'.1; have := hn'.2; omega
      refine ⟨(hsz ⟨0, hpos⟩).2, ?_⟩
      have := (hsz ⟨s'.n0 - 1, by omega⟩).1
      simp only at this
      omega

end Lasy
