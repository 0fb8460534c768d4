import Verif.Props.Hilbert

/-!
# Properties C59, C85: profiles from full-field data, `create_grid`
-/

namespace Lasy
open Spec Phys Complex

/-! ## C59 -/

theorem foldHalves_shape {a b : NdArray} (h : a.foldHalves = .ok b) : b.shape.length = 2 := by
  unfold NdArray.foldHalves at h
  split at h
  · split at h
    · injection h with h; subst h; rfl
    · cases h
  · cases h

theorem fillGrid_shape {array : NdArray} {x y t : Vec} {sg : Σ s : Shape, Grid s} {r : Σ s : Shape, Grid s}
    (h : fillGrid array x y t sg = .ok r) : array.shape = sg.1.toList := by
  unfold fillGrid at h
  split at h
  · by_contra hs
    rw [setTemporalField_err (fun hc => hs hc.1)] at h
    cases h
  · cases h

theorem bind_ok_inv {α β : Type} {m : Except PyErr α} {f : α → Except PyErr β} {b : β} (h : (m >>= f) = .ok b) :
    ∃ a, m = .ok a ∧ f a = .ok b := by
  cases m with
  | error e => cases h
  | ok a => exact ⟨a, rfl, h⟩

variable [Phys]

theorem reorderRT_shape {F : NdArray} {md : FieldMeta} {a : NdArray} {axes : AxesDict}
    (h : reorderRT F md = .ok (a, axes)) : a.shape.length = 2 := by
  unfold reorderRT at h
  split at h
  · cases h
  · dsimp only at h
    split at h
    · obtain ⟨z, -, h⟩ := bind_ok_inv h
      obtain ⟨t, -, h⟩ := bind_ok_inv h
      obtain ⟨r, -, h⟩ := bind_ok_inv h
      obtain ⟨b, hb, h⟩ := bind_ok_inv h
      injection h with h
      injection h with h1 h2
      subst h1
      exact foldHalves_shape hb
    · obtain ⟨t, -, h⟩ := bind_ok_inv h
      obtain ⟨r, -, h⟩ := bind_ok_inv h
      obtain ⟨b, hb, h⟩ := bind_ok_inv h
      injection h with h
      injection h with h1 h2
      subst h1
      exact foldHalves_shape hb

omit [Phys] in
theorem createGrid_shape {array : NdArray} {axes : AxesDict} {dim : String} {ie : Bool} {r : Σ s : Shape, Grid s}
    (h : createGrid array axes dim ie = .ok r) : array.shape.length = 3 := by
  unfold createGrid at h
  split at h
  · obtain ⟨x, -, h⟩ := bind_ok_inv h
    obtain ⟨y, -, h⟩ := bind_ok_inv h
    obtain ⟨t, -, h⟩ := bind_ok_inv h
    obtain ⟨ex, -, h⟩ := bind_ok_inv h
    obtain ⟨ey, -, h⟩ := bind_ok_inv h
    obtain ⟨et, -, h⟩ := bind_ok_inv h
    obtain ⟨g, -, h⟩ := bind_ok_inv h
    rw [fillGrid_shape h]; rfl
  · obtain ⟨x, -, h⟩ := bind_ok_inv h
    obtain ⟨t, -, h⟩ := bind_ok_inv h
    obtain ⟨ex, -, h⟩ := bind_ok_inv h
    obtain ⟨et, -, h⟩ := bind_ok_inv h
    obtain ⟨g, -, h⟩ := bind_ok_inv h
    rw [fillGrid_shape h]; rfl

theorem envelopeProfile_xyt {s : Shape} (axes : AxesDict) (order : List String) (r : Except PyErr ℝ × Grid s) :
    ∃ e, envelopeProfile "xyt" axes order r = .error e := by
  rcases h : envelopeProfile "xyt" axes order r with e | v
  · exact ⟨e, rfl⟩
  exfalso
  unfold envelopeProfile at h
  split at h
  · cases h
  · split at h
    · cases h
    · split at h
      · cases h
      · split at h
        · cases h
        · rename_i hp
          unfold FromArray.init at hp
          rw [if_neg (by simp), if_pos rfl] at hp
          split at hp
          · cases hp
          · split at hp
            · cases hp
            · obtain ⟨x, -, hp⟩ := bind_ok_inv hp
              obtain ⟨y, -, hp⟩ := bind_ok_inv hp
              obtain ⟨t, -, hp⟩ := bind_ok_inv hp
              cases hp

/-- **C59 is false**: `FromOpenPMDProfile` never constructs a profile from data that are not an envelope: for *every*
array and metadata, in both geometries, the constructor raises an exception. -/
theorem C59_refuted (F : NdArray) (md : FieldMeta) (rt : Bool) : ∃ e, fromOpenPMDFull F md rt = .error e := by
  rcases h : fromOpenPMDFull F md rt with e | v
  · exact ⟨e, rfl⟩
  exfalso
  unfold fromOpenPMDFull at h
  obtain ⟨⟨array, axes⟩, h1, h⟩ := bind_ok_inv h
  obtain ⟨sg, h2, h⟩ := bind_ok_inv h
  cases rt with
  | true =>
    have := createGrid_shape h2
    simp only [if_true, reorderArray] at h1
    rw [if_neg (by decide)] at h1
    rw [reorderRT_shape h1] at this
    omega
  | false =>
    simp only [Bool.false_eq_true, if_false] at h
    obtain ⟨e, he⟩ := envelopeProfile_xyt axes ["x", "y", "t"] (fieldToEnvelope sg.2)
    rw [he] at h
    cases h

/-! ## C85 -/

/-- uniformly spaced samples -/
def Uniform {n : ℕ} (v : Fin n → ℝ) : Prop := ∃ a d : ℝ, ∀ i, v i = a + d * (i : ℕ)

omit [Phys] in
theorem linspace_uniform {n : ℕ} (hn : 2 ≤ n) {v : Fin n → ℝ} (hv : Uniform v) (i : Fin n) :
    linspace (v ⟨0, by omega⟩) (v ⟨n - 1, by omega⟩) n i = v i := by
  obtain ⟨a, d, h⟩ := hv
  have h1 : (n : ℝ) - 1 ≠ 0 := by
    have : (2 : ℝ) ≤ n := by exact_mod_cast hn
    linarith
  have h2 : ((n - 1 : ℕ) : ℝ) = (n : ℝ) - 1 := by
    rw [Nat.cast_sub (by omega), Nat.cast_one]
  simp only [linspace, h, h2]
  field_simp
  simp
  ring

omit [Phys] in
theorem vecEnds_ok (v : Vec) (h : 0 < v.1) : vecEnds v = .ok (v.2 ⟨0, h⟩, v.2 ⟨v.1 - 1, by omega⟩) := by
  unfold vecEnds
  rw [dif_pos h]

omit [Phys] in
/-- interpolation between the ends stays within twice the size of the ends -/
theorem linspace_close {n : ℕ} (hn : 2 ≤ n) (v : Fin n → ℝ) {b : ℝ} (hb : ∀ k, |v k| ≤ b) (i : Fin n) :
    |linspace (v ⟨0, by omega⟩) (v ⟨n - 1, by omega⟩) n i - v i| ≤ 2 * b := by
  have hp : (0 : ℝ) < (n : ℝ) - 1 := by
    have : (2 : ℝ) ≤ n := by exact_mod_cast hn
    linarith
  have hi : ((i : ℕ) : ℝ) ≤ (n : ℝ) - 1 := by
    have : ((i : ℕ) + 1 : ℝ) ≤ n := by exact_mod_cast i.2
    linarith
  have hi0 : (0 : ℝ) ≤ ((i : ℕ) : ℝ) := Nat.cast_nonneg _
  have h0 := abs_le.1 (hb ⟨0, by omega⟩)
  have h1 := abs_le.1 (hb ⟨n - 1, by omega⟩)
  have h2 := abs_le.1 (hb i)
  generalize v ⟨0, by omega⟩ = x at *
  generalize v ⟨n - 1, by omega⟩ = y at *
  have hl : linspace x y n i = (1 - (i : ℕ) / ((n : ℝ) - 1)) * x + (i : ℕ) / ((n : ℝ) - 1) * y := by
    unfold linspace
    field_simp
    ring
  have hθ0 : (0 : ℝ) ≤ (i : ℕ) / ((n : ℝ) - 1) := div_nonneg hi0 hp.le
  have hθ1 : ((i : ℕ) : ℝ) / ((n : ℝ) - 1) ≤ 1 := (div_le_one hp).2 hi
  rw [hl]
  generalize ((i : ℕ) : ℝ) / ((n : ℝ) - 1) = θ at *
  rw [abs_le]
  constructor <;> nlinarith

/-- the axis from `lo` to `hi` -/
noncomputable def axisOf (lo hi : ℝ) {n : ℕ} (h : 2 ≤ n) : Axis n where
  lo := lo
  hi := hi
  pts := linspace lo hi n
  dx := linspace lo hi n ⟨1, h⟩ - linspace lo hi n ⟨0, by omega⟩

omit [Phys] in
theorem mkAxis_axisOf (lo hi : ℝ) {n : ℕ} (h : 2 ≤ n) : mkAxis lo hi n = .ok (axisOf lo hi h) := by
  unfold mkAxis
  rw [dif_pos h]
  rfl

omit [Phys] in
/-- `create_grid` on Cartesian data -/
theorem createGrid_xyt {array : NdArray} {axes : AxesDict} {x y t : Vec} (hx : axes.x = some x) (hy : axes.y = some y)
    (ht : axes.t = some t) (hnx : 2 ≤ x.1) (hny : 2 ≤ y.1) (hnt : 2 ≤ t.1) (ux : Uniform x.2) (uy : Uniform y.2)
    (hs : array.shape = [x.1, y.1, t.1]) {ie : Bool} (hd : array.dtype = dtypeOf ie)
    (hc : ∀ i, |linspace (t.2 ⟨0, by omega⟩) (t.2 ⟨t.1 - 1, by omega⟩) t.1 i - t.2 i| ≤
      1 / 10 ^ 8 + 1 / 10 ^ 14 * |t.2 i|) :
    ∃ g : Grid ⟨x.1, y.1, t.1⟩, createGrid array axes "xyt" ie = .ok ⟨_, g⟩ ∧ g.isEnvelope = ie ∧
      g.temporalValid = true ∧ g.temporal = ⟨dtypeOf ie, array.content ⟨x.1, y.1, t.1⟩⟩ ∧
      (∃ ax ay, g.geom = .xyt ax ay ∧ ax.pts = x.2 ∧ ay.pts = y.2) ∧
      g.t.pts = linspace (t.2 ⟨0, by omega⟩) (t.2 ⟨t.1 - 1, by omega⟩) t.1 := by
  let ax : Axis x.1 := axisOf (x.2 ⟨0, by omega⟩) (x.2 ⟨x.1 - 1, by omega⟩) hnx
  let ay : Axis y.1 := axisOf (y.2 ⟨0, by omega⟩) (y.2 ⟨y.1 - 1, by omega⟩) hny
  let at' : Axis t.1 := axisOf (t.2 ⟨0, by omega⟩) (t.2 ⟨t.1 - 1, by omega⟩) hnt
  let g0 : Grid ⟨x.1, y.1, t.1⟩ := { geom := .xyt ax ay, t := at', isEnvelope := ie, temporal := ⟨dtypeOf ie, fun _ _ _ => 0⟩, temporalValid := false, spectral := fun _ _ _ => 0, spectralValid := false }
  have hi : Grid.init "xyt" [x.2 ⟨0, by omega⟩, y.2 ⟨0, by omega⟩, t.2 ⟨0, by omega⟩]
      [x.2 ⟨x.1 - 1, by omega⟩, y.2 ⟨y.1 - 1, by omega⟩, t.2 ⟨t.1 - 1, by omega⟩] [x.1, y.1, t.1] none ie =
      .ok ⟨_, g0⟩ := by
    simp [Grid.init, mkAxis_axisOf _ _ hnx, mkAxis_axisOf _ _ hny, mkAxis_axisOf _ _ hnt, Bind.bind, Except.bind, g0,
      ax, ay, at']
  have hpx : ax.pts = x.2 := funext fun i => linspace_uniform hnx ux i
  have hpy : ay.pts = y.2 := funext fun i => linspace_uniform hny uy i
  have hm : axesMatch g0 x y t := by
    refine ⟨⟨rfl, fun i => ?_⟩, ⟨rfl, fun i => ?_⟩, rfl, hc⟩
    · rw [hpx]; rfl
    · rw [hpy]; rfl
  refine ⟨{ g0 with temporal := ⟨dtypeOf ie, array.content ⟨x.1, y.1, t.1⟩⟩, temporalValid := true }, ?_, rfl, rfl, rfl,
    ⟨ax, ay, rfl, hpx, hpy⟩, rfl⟩
  have hfill : fillGrid array x y t ⟨_, g0⟩ = .ok ⟨_, { g0 with
      temporal := ⟨dtypeOf ie, array.content ⟨x.1, y.1, t.1⟩⟩, temporalValid := true }⟩ := by
    unfold fillGrid
    rw [if_pos hm, setTemporalField_ok hs hd]
  unfold createGrid
  rw [if_pos rfl, hx, hy, ht]
  simp only [lookup, vecEnds_ok x (by omega), vecEnds_ok y (by omega), vecEnds_ok t (by omega), bind, Except.bind, hi,
    hfill]

omit [Phys] in
/-- C85, the part that holds: if `create_grid` succeeds on Cartesian data, the grid holds exactly the array, its
transverse axes are exactly those given, and its time axis is close to the one given - to within the *absolute*
tolerance of `np.allclose`, 1e-8 seconds. -/
theorem C85_grid_partial {array : NdArray} {axes : AxesDict} {ie : Bool} {r : Σ s : Shape, Grid s}
    (h : createGrid array axes "xyt" ie = .ok r) :
    array.shape = r.1.toList ∧ r.2.isEnvelope = ie ∧ r.2.temporalValid = true ∧
    r.2.temporal = ⟨array.dtype, array.content r.1⟩ ∧
    ∃ (x : Fin r.1.n0 → ℝ) (y : Fin r.1.n1 → ℝ) (t : Fin r.1.nt → ℝ),
      axes.x = some ⟨_, x⟩ ∧ axes.y = some ⟨_, y⟩ ∧ axes.t = some ⟨_, t⟩ ∧
      (∃ ax ay, r.2.geom = .xyt ax ay ∧ ax.pts = x ∧ ay.pts = y) ∧
      ∀ k, |r.2.t.pts k - t k| ≤ 1 / 10 ^ 8 + 1 / 10 ^ 14 * |t k| := by
  unfold createGrid at h
  rw [if_pos rfl] at h
  obtain ⟨x, hx, h⟩ := bind_ok_inv h
  obtain ⟨y, hy, h⟩ := bind_ok_inv h
  obtain ⟨t, ht, h⟩ := bind_ok_inv h
  obtain ⟨ex, -, h⟩ := bind_ok_inv h
  obtain ⟨ey, -, h⟩ := bind_ok_inv h
  obtain ⟨et, -, h⟩ := bind_ok_inv h
  obtain ⟨g, hg, h⟩ := bind_ok_inv h
  have lk : ∀ {o : Option Vec} {v : Vec}, lookup o = .ok v → o = some v := by
    intro o v ho
    cases o with
    | none => cases ho
    | some w => injection ho with ho; rw [ho]
  unfold Grid.init at hg
  simp at hg
  obtain ⟨gx, hgx, hg⟩ := bind_ok_inv hg
  obtain ⟨gy, hgy, hg⟩ := bind_ok_inv hg
  obtain ⟨gt, hgt, hg⟩ := bind_ok_inv hg
  injection hg with hg
  subst hg
  have hs := fillGrid_shape h
  unfold fillGrid at h
  split at h
  rotate_left
  · cases h
  rename_i hm
  by_cases hd : array.dtype = dtypeOf ie
  · rw [setTemporalField_ok hs hd] at h
    injection h with h
    subst h
    obtain ⟨hm1, hm2, hm3⟩ := hm
    obtain ⟨h1, hm1⟩ := hm1
    obtain ⟨h2, hm2⟩ := hm2
    obtain ⟨h3, hm3⟩ := hm3
    refine ⟨hs, rfl, rfl, by rw [hd], x.2, y.2, t.2, lk hx, lk hy, lk ht, ⟨gx, gy, rfl, funext hm1, funext hm2⟩, hm3⟩
  · rw [setTemporalField_err (fun hc => hd hc.2)] at h
    cases h

omit [Phys] in
/-- C85 in cylindrical geometry, the part that holds: if `create_grid` succeeds, the grid has one azimuthal mode and
holds exactly the array, its radial axis is exactly the one given, and its time axis is close to the one given. -/
theorem C85_grid_rt_partial {array : NdArray} {axes : AxesDict} {ie : Bool} {r : Σ s : Shape, Grid s}
    (h : createGrid array axes "rt" ie = .ok r) :
    array.shape = r.1.toList ∧ r.1.n0 = 1 ∧ r.2.isEnvelope = ie ∧ r.2.temporalValid = true ∧
    r.2.temporal = ⟨array.dtype, array.content r.1⟩ ∧
    ∃ (x : Fin r.1.n1 → ℝ) (t : Fin r.1.nt → ℝ), axes.r = some ⟨_, x⟩ ∧ axes.t = some ⟨_, t⟩ ∧
      (∃ hm ar, r.2.geom = .rt 1 hm ar ∧ ar.pts = x) ∧
      ∀ k, |r.2.t.pts k - t k| ≤ 1 / 10 ^ 8 + 1 / 10 ^ 14 * |t k| := by
  unfold createGrid at h
  rw [if_neg (by decide)] at h
  obtain ⟨x, hx, h⟩ := bind_ok_inv h
  obtain ⟨t, ht, h⟩ := bind_ok_inv h
  obtain ⟨ex, -, h⟩ := bind_ok_inv h
  obtain ⟨et, -, h⟩ := bind_ok_inv h
  obtain ⟨g, hg, h⟩ := bind_ok_inv h
  have lk : ∀ {o : Option Vec} {v : Vec}, lookup o = .ok v → o = some v := by
    intro o v ho
    cases o with
    | none => cases ho
    | some w => injection ho with ho; rw [ho]
  unfold Grid.init at hg
  simp at hg
  obtain ⟨gx, hgx, hg⟩ := bind_ok_inv hg
  obtain ⟨gt, hgt, hg⟩ := bind_ok_inv hg
  injection hg with hg
  subst hg
  have hs := fillGrid_shape h
  unfold fillGrid at h
  split at h
  rotate_left
  · cases h
  rename_i hm
  by_cases hd : array.dtype = dtypeOf ie
  · rw [setTemporalField_ok hs hd] at h
    injection h with h
    subst h
    obtain ⟨hm1, hm3⟩ := hm
    obtain ⟨h1, hm1⟩ := hm1
    obtain ⟨h3, hm3⟩ := hm3
    refine ⟨hs, rfl, rfl, rfl, by rw [hd], x.2, t.2, lk hx, lk ht, ⟨_, gx, rfl, funext hm1⟩, hm3⟩
  · rw [setTemporalField_err (fun hc => hd hc.2)] at h
    cases h

omit [Phys] in
/-- the hypothesis of `C85_grid_rt_partial` is met: a 1×2×2 array -/
example : ∃ (array : NdArray) (axes : AxesDict) (g : Grid ⟨1, 2, 2⟩), createGrid array axes "rt" true = .ok ⟨_, g⟩ := by
  let v : Vec := ⟨2, fun i => (i : ℕ)⟩
  have uv : Uniform v.2 := ⟨0, 1, fun i => by simp [v]⟩
  let a : Axis 2 := axisOf (v.2 ⟨0, by norm_num [v]⟩) (v.2 ⟨1, by norm_num [v]⟩) (le_refl 2)
  let g0 : Grid ⟨1, 2, 2⟩ := { geom := .rt 1 ⟨le_refl 1, rfl⟩ a, t := a, isEnvelope := true, temporal := ⟨dtypeOf true, fun _ _ _ => 0⟩, temporalValid := false, spectral := fun _ _ _ => 0, spectralValid := false }
  have hi : Grid.init "rt" [v.2 ⟨0, by norm_num [v]⟩, v.2 ⟨0, by norm_num [v]⟩]
      [v.2 ⟨v.1 - 1, by norm_num [v]⟩, v.2 ⟨v.1 - 1, by norm_num [v]⟩] [v.1, v.1] (some 1) true = .ok ⟨_, g0⟩ := by
    simp [Grid.init, mkAxis_axisOf _ _ (le_refl 2), Bind.bind, Except.bind, g0, a, v]
  have hp : a.pts = v.2 := funext fun i => linspace_uniform (le_refl 2) uv i
  have hm : axesMatch g0 v v v := by
    refine ⟨⟨rfl, fun i => ?_⟩, rfl, fun i => ?_⟩
    · rw [hp]; rfl
    · show |a.pts i - v.2 i| ≤ _
      rw [hp, sub_self, abs_zero]
      positivity
  have hd : (⟨[1, 2, 2], .c128, fun _ => 1⟩ : NdArray).dtype = dtypeOf true := rfl
  refine ⟨⟨[1, 2, 2], .c128, fun _ => 1⟩, { r := some v, t := some v }, { g0 with
    temporal := ⟨dtypeOf true, (⟨[1, 2, 2], .c128, fun _ => 1⟩ : NdArray).content ⟨1, 2, 2⟩⟩, temporalValid := true }, ?_⟩
  unfold createGrid
  rw [if_neg (by decide)]
  simp only [lookup, vecEnds_ok v (by norm_num [v]), bind, Except.bind]
  rw [hi]
  simp only [fillGrid, if_pos hm]
  rw [setTemporalField_ok (by rfl) hd]

omit [Phys] in
/-- **C85 is false**: the check of the time axis is void at the time scale of laser pulses: *every* time axis all of
whose samples lie within 5 ns of zero passes, however irregular, and is silently replaced by a uniform one. -/
theorem C85_void_refuted {array : NdArray} {axes : AxesDict} {x y t : Vec} (hx : axes.x = some x)
    (hy : axes.y = some y) (ht : axes.t = some t) (hnx : 2 ≤ x.1) (hny : 2 ≤ y.1) (hnt : 2 ≤ t.1) (ux : Uniform x.2)
    (uy : Uniform y.2) (hs : array.shape = [x.1, y.1, t.1]) {ie : Bool} (hd : array.dtype = dtypeOf ie)
    (hb : ∀ k, |t.2 k| ≤ 5 / 10 ^ 9) :
    ∃ g : Grid ⟨x.1, y.1, t.1⟩, createGrid array axes "xyt" ie = .ok ⟨_, g⟩ ∧ Uniform g.t.pts := by
  obtain ⟨g, e, -, -, -, -, h⟩ := createGrid_xyt hx hy ht hnx hny hnt ux uy hs hd (by
    intro i
    refine (linspace_close hnt t.2 hb i).trans ?_
    have := abs_nonneg (t.2 i)
    norm_num)
  refine ⟨g, e, t.2 ⟨0, by omega⟩, (t.2 ⟨t.1 - 1, by omega⟩ - t.2 ⟨0, by omega⟩) / ((t.1 : ℝ) - 1), fun i => ?_⟩
  rw [h]
  simp only [linspace]
  ring

omit [Phys] in
/-- **C85 is false**, concretely: data sampled at 0, 1 and 10 fs are accepted and from then on taken to be sampled at
0, 5 and 10 fs. -/
theorem C85_refuted : ∃ (array : NdArray) (axes : AxesDict) (t : Fin 3 → ℝ) (g : Grid ⟨2, 2, 3⟩),
    axes.t = some ⟨3, t⟩ ∧ t = ![0, 1 / 10 ^ 15, 10 / 10 ^ 15] ∧
    createGrid array axes "xyt" false = .ok ⟨_, g⟩ ∧ g.t.pts 1 = 5 / 10 ^ 15 := by
  let v : Vec := ⟨2, fun i => (i : ℕ)⟩
  let t : Vec := ⟨3, ![0, 1 / 10 ^ 15, 10 / 10 ^ 15]⟩
  have uv : Uniform v.2 := ⟨0, 1, fun i => by simp [v]⟩
  have hb : ∀ k, |t.2 k| ≤ 5 / 10 ^ 9 := by
    intro k
    fin_cases k
    · simp only [t]; norm_num
    · simp only [t]; norm_num
    · simp only [t]; norm_num
  obtain ⟨g, e, -, -, -, -, h⟩ := createGrid_xyt (array := ⟨[2, 2, 3], .f64, fun _ => 1⟩)
    (axes := { x := some v, y := some v, t := some t }) (x := v) (y := v) (t := t) rfl rfl rfl (le_refl 2) (le_refl 2)
    (by simp [t]) uv uv rfl (ie := false) rfl (by
    intro i
    refine (linspace_close (by simp [t]) t.2 hb i).trans ?_
    have := abs_nonneg (t.2 i)
    norm_num)
  refine ⟨_, _, _, g, rfl, rfl, e, ?_⟩
  rw [h]
  simp [linspace, t]
  norm_num

/-! ## C59, the steps that work -/

/-- C59, the part that holds: on well-formed Cartesian full-field data (uniform axes, real samples, not all zero) the grid is created, holds the data, and the envelope is extracted; only the last
step fails (`ValueError`): the constructor drops the first axis of the 3-D envelope. -/
theorem C59_steps_partial {F : NdArray} {nt ny nx : ℕ} (hF : F.shape = [nt, ny, nx]) (hd : F.dtype = .f64)
    (hnx : 2 ≤ nx) (hny : 2 ≤ ny) (hnt : 3 ≤ nt) (x : Fin nx → ℝ) (y : Fin ny → ℝ) (t : Fin nt → ℝ) (ux : Uniform x)
    (uy : Uniform y) (ut : Uniform t) (E : RField ⟨nx, ny, nt⟩) (hE : ∀ (i : Fin nx) (j : Fin ny) (k : Fin nt), F.get [(k : ℕ), (j : ℕ), (i : ℕ)] = (E i j k : ℂ))
    (hne : ∃ i j k, E i j k ≠ 0) :
    ∃ (axes : AxesDict) (array : NdArray) (g g' : Grid ⟨nx, ny, nt⟩) (w : ℝ),
      reorderArray F { labels := ["t", "y", "x"], x := some ⟨_, x⟩, y := some ⟨_, y⟩, t := some ⟨_, t⟩ } "xyt" =
        .ok (array, axes) ∧
      createGrid array axes "xyt" false = .ok ⟨_, g⟩ ∧ g.HoldsReal E ∧ g.t.pts = t ∧ fieldToEnvelope g = (.ok w, g') ∧
      fromOpenPMDFull F { labels := ["t", "y", "x"], x := some ⟨_, x⟩, y := some ⟨_, y⟩, t := some ⟨_, t⟩ } false =
        .error .value := by
  let axes : AxesDict := { x := some ⟨_, x⟩, y := some ⟨_, y⟩, t := some ⟨_, t⟩ }
  have h1 : reorderArray F { labels := ["t", "y", "x"], x := some ⟨_, x⟩, y := some ⟨_, y⟩, t := some ⟨_, t⟩ } "xyt" =
      .ok (F.swap02, axes) := by
    simp [reorderArray, reorderXYT, attr, axes]
    rfl
  obtain ⟨g, e, he, hv, hval, ⟨ax, ay, hgeo, -, -⟩, hpts⟩ := createGrid_xyt (array := F.swap02) (axes := axes)
    (x := ⟨_, x⟩) (y := ⟨_, y⟩) (t := ⟨_, t⟩) rfl rfl rfl hnx hny (by simp only; omega) ux uy
    (by simp [NdArray.swap02, hF]) (ie := false) (by simp [NdArray.swap02, hd, dtypeOf]) (by
      intro i
      have := linspace_uniform (by omega) ut i
      simp only [this, sub_self, abs_zero]
      positivity)
  have hg : g.HoldsReal E := by
    refine ⟨he, hv, ?_⟩
    rw [hval]
    congr 1
    funext i j k
    exact hE i j k
  have hw : ∑ p : Fin nx × Fin ny × Fin nt, fullFieldWeights g (fun i j k => (E i j k : ℂ)) p.1 p.2.1 p.2.2 ≠ 0 := by
    obtain ⟨i, j, k, h⟩ := hne
    refine (Finset.sum_pos' (fun p _ => ?_) ⟨(i, j, k), Finset.mem_univ _, ?_⟩).ne'
    · simp only [fullFieldWeights, hgeo]
      exact norm_nonneg _
    · simp only [fullFieldWeights, hgeo]
      simpa using h
  obtain ⟨w, g', W, e', hW, -, -, -⟩ := C83_represents hg hnt hw
  refine ⟨axes, F.swap02, g, g', w, h1, e, hg, ?_, e', ?_⟩
  · rw [hpts]
    exact funext fun i => linspace_uniform (by omega) ut i
  · obtain ⟨g2, e2, -⟩ := hW.getT
    have hn0 : ¬ nx = 0 := by omega
    unfold fromOpenPMDFull
    simp only [Bool.false_eq_true, if_false, h1, bind, Except.bind, e, e', envelopeProfile, e2, hn0]
    simp [FromArray.init, axes, lookup, bind, Except.bind]

/-- the hypotheses of `C59_steps_partial` are met: a constant field on a 3×2×2 array -/
example : ∃ (F : NdArray) (md : FieldMeta), F.shape = [3, 2, 2] ∧ md.labels = ["t", "y", "x"] ∧
    fromOpenPMDFull F md false = .error .value := by
  obtain ⟨-, -, -, -, -, -, -, -, -, -, e⟩ := C59_steps_partial (F := ⟨[3, 2, 2], .f64, fun _ => 1⟩) rfl rfl
    (le_refl 2) (le_refl 2) (le_refl 3) (fun i => (i : ℕ)) (fun i => (i : ℕ)) (fun i => (i : ℕ))
    ⟨0, 1, fun i => by simp⟩ ⟨0, 1, fun i => by simp⟩ ⟨0, 1, fun i => by simp⟩ (fun _ _ _ => 1) (by simp)
    ⟨0, 0, 0, by simp⟩
  exact ⟨_, _, rfl, rfl, e⟩

end Lasy
