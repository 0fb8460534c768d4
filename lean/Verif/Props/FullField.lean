import Verif.Model.FullField
import Verif.Props.History
import Verif.Props.FromArray
import Mathlib.Analysis.SpecialFunctions.Trigonometric.Complex

/-!
# Properties C57, C75, C76: `get_full_field`
-/

namespace Lasy
open Spec Phys Complex

variable {s : Shape} [Phys]

omit [Phys] in
theorem azimuthalModes_getD (n : ℕ) (hn : 1 ≤ n) (i : ℕ) (hi : i < 2 * n - 1) :
    (azimuthalModes n).getD i 0 = modeAt n ⟨i, hi⟩ := by
  have h := (modeAt_iff hn ⟨i, hi⟩ (modeAt n ⟨i, hi⟩)).1 rfl
  have := ((C10_mode_layout n hn).2.2.2 ⟨i, hi⟩ (modeAt n ⟨i, hi⟩)).2 h
  rw [List.getD_eq_getElem?_getD, this]
  rfl

omit [Phys] in
/-- summing over the components is summing over the modes `-n+1, .., n-1` -/
theorem sum_modes (n : ℕ) (F : ℤ → ℂ) :
    ∑ i : Fin (2 * n - 1), F (modeAt n i) = ∑ m ∈ Finset.Ioo (-(n : ℤ)) n, F m := by
  refine Finset.sum_bij' (fun i _ => modeAt n i)
    (fun m hm => ⟨(if 0 ≤ m then m else 2 * n - 1 + m).toNat, ?_⟩) ?_ ?_ ?_ ?_ ?_
  · rw [Finset.mem_Ioo] at hm
    split <;> omega
  · intro i _
    have := i.2
    rw [Finset.mem_Ioo]
    unfold modeAt
    split <;> omega
  · intro m hm
    simp
  · intro i _
    have := i.2
    ext
    simp only [modeAt]
    split_ifs <;> omega
  · intro m hm
    rw [Finset.mem_Ioo] at hm
    simp only [modeAt]
    split_ifs <;> omega
  · intro i _
    rfl

/-- the envelope at radius number `j`, angle `θ` and time number `k` -/
noncomputable def envelopeAt {n : ℕ} (hn : 1 ≤ n ∧ s.n0 = 2 * n - 1) (f : Field s) (θ : ℝ) (j : Fin s.n1)
    (k : Fin s.nt) : ℂ := ∑ i, f i j k * exp (-I * modeAt n (Fin.cast hn.2 i) * θ)

omit [Phys] in
/-- `get_full_field(laser, theta, Nt=None)` in `rt` geometry -/
theorem getFullField_rt (l : Laser s) (f : Field s) (h : l.Has f) {n : ℕ} {hn : 1 ≤ n ∧ s.n0 = 2 * n - 1}
    {r : Axis s.n1} (hg : l.grid.geom = .rt n hn r) (θ slice : ℝ) (ax : String) :
    ∃ l', getFullField θ slice ax none l = (.ok (some ⟨2 * s.n1 - 1, s.nt,
      withCarrier l.profile.omega0 l.grid.t.pts (rtPlane n s.n1 f θ), imageExtent l.grid⟩), l') ∧ l'.Has f := by
  obtain ⟨g', e, h', hgeo, ht⟩ := Grid.Holds.getT h
  refine ⟨{ l with grid := g' }, ?_, h'⟩
  unfold getFullField
  rw [Py.bind_ok (onGrid_eq e), Py.bind_ok (Py.get_apply _), Py.bind_ok (Py.require_pos h'.env _)]
  simp only [cutPlane, hgeo, hg, showPlane, imageExtent, ht, Py.pure_apply]

/-! ## C57 -/

omit [Phys] in
/-- what the image of `get_full_field` shows in `rt` geometry: row `nr - 1 + j` is the field at radius `r_j`
and angle `θ`; row `nr - 1 - j` is the field at radius `r_j` and angle **`-θ`** (not `θ + π`). -/
theorem C57_shown_partial (l : Laser s) (f : Field s) (h : l.Has f) {n : ℕ} {hn : 1 ≤ n ∧ s.n0 = 2 * n - 1}
    {r : Axis s.n1} (hg : l.grid.geom = .rt n hn r) (θ slice : ℝ) (ax : String) :
    ∃ (l' : Laser s) (img : Image), getFullField θ slice ax none l = (.ok (some img), l') ∧ l'.Has f ∧
      ∃ (hr : img.rows = 2 * s.n1 - 1) (hc : img.cols = s.nt),
        (∀ (j : Fin s.n1) (k : Fin s.nt), img.val ⟨s.n1 - 1 + j, by omega⟩ (Fin.cast hc.symm k) =
          (envelopeAt hn f θ j k * exp (-I * l.profile.omega0 * l.grid.t.pts k)).re) ∧
        (∀ (j : Fin s.n1) (k : Fin s.nt), 0 < (j : ℕ) →
          img.val ⟨s.n1 - 1 - j, by omega⟩ (Fin.cast hc.symm k) =
          (envelopeAt hn f (-θ) j k * exp (-I * l.profile.omega0 * l.grid.t.pts k)).re) := by
  obtain ⟨l', e, h'⟩ := getFullField_rt l f h hg θ slice ax
  have hmode : ∀ i : Fin s.n0, (azimuthalModes n).getD i 0 = modeAt n (Fin.cast hn.2 i) := fun i =>
    azimuthalModes_getD n hn.1 i (by have := i.2; omega)
  refine ⟨l', _, e, h', rfl, rfl, ?_, ?_⟩
  · intro j k
    have hj := j.2
    simp only [withCarrier, rtPlane, envelopeAt]
    rw [dif_neg (by simp)]
    simp only [hmode, Nat.add_sub_cancel_left, Fin.eta]
    rfl
  · intro j k hj0
    have hj := j.2
    simp only [withCarrier, rtPlane, envelopeAt]
    rw [dif_pos (by omega)]
    have hjj : (⟨s.n1 - 1 - (s.n1 - 1 - j), by omega⟩ : Fin s.n1) = j := by ext; simp; omega
    simp only [hmode, hjj]
    have hsum : ∑ i, f i j k * exp (I * modeAt n (Fin.cast hn.2 i) * θ) =
        ∑ i, f i j k * exp (-I * modeAt n (Fin.cast hn.2 i) * (-θ : ℝ)) := by
      refine Finset.sum_congr rfl fun i _ => ?_
      congr 2
      push_cast
      ring
    rw [← hsum]
    rfl

omit [Phys] in
/-- **C57 (the part that is true of the code).** The upper half of the image is the field at angle `θ`. The
lower half is the field at `θ + π` if the plane is `x = 0` (`cos θ = 0`), or if all modes `m ≠ 0` vanish. -/
theorem C57_plane_partial (l : Laser s) (f : Field s) (h : l.Has f) {n : ℕ} {hn : 1 ≤ n ∧ s.n0 = 2 * n - 1}
    {r : Axis s.n1} (hg : l.grid.geom = .rt n hn r) (θ slice : ℝ) (ax : String)
    (hok : Real.cos θ = 0 ∨ ∀ i j k, modeAt n (Fin.cast hn.2 i) ≠ 0 → f i j k = 0) :
    ∃ (l' : Laser s) (img : Image), getFullField θ slice ax none l = (.ok (some img), l') ∧
      ∃ (hr : img.rows = 2 * s.n1 - 1) (hc : img.cols = s.nt),
        (∀ (j : Fin s.n1) (k : Fin s.nt), img.val ⟨s.n1 - 1 + j, by omega⟩ (Fin.cast hc.symm k) =
          (envelopeAt hn f θ j k * exp (-I * l.profile.omega0 * l.grid.t.pts k)).re) ∧
        (∀ (j : Fin s.n1) (k : Fin s.nt), 0 < (j : ℕ) →
          img.val ⟨s.n1 - 1 - j, by omega⟩ (Fin.cast hc.symm k) =
          (envelopeAt hn f (θ + Real.pi) j k * exp (-I * l.profile.omega0 * l.grid.t.pts k)).re) := by
  obtain ⟨l', img, e, -, hr, hc, h1, h2⟩ := C57_shown_partial l f h hg θ slice ax
  refine ⟨l', img, e, hr, hc, h1, ?_⟩
  intro j k hj
  rw [h2 j k hj]
  congr 2
  refine Finset.sum_congr rfl fun i _ => ?_
  set m := modeAt n (Fin.cast hn.2 i)
  rcases hok with hcos | hz
  · congr 1
    obtain ⟨q, hq⟩ := Real.cos_eq_zero_iff.1 hcos
    rw [Complex.exp_eq_exp_iff_exists_int]
    refine ⟨m * (q + 1), ?_⟩
    rw [hq]
    push_cast
    ring
  · by_cases hm : m = 0
    · simp [hm]
    · rw [hz i j k hm]; simp

/-- **C57**, in terms of the profile: let a laser be constructed in `rt` geometry from a profile `F` whose
azimuthal content fits the `n` modes. Then row `nr - 1 + j` of the image is the real part of
`F(r cos θ, r sin θ, t) exp(-iω0 t)`, but row `nr - 1 - j` is that of `F(r cos θ, -r sin θ, t) exp(-iω0 t)`,
the mirror image of the upper half-plane's point and not the opposite point `(-r cos θ, -r sin θ)`. -/
theorem C57_profile_partial (lo0 lo1 hi0 hi1 : ℝ) (nr nt n : ℕ) (h0 : 2 ≤ nr) (h1 : 2 ≤ nt)
    (hn : 1 ≤ n) (nTheta : Option ℕ) (hN : ∀ N, nTheta = some N → 2 * n - 1 ≤ N)
    (p : ProfileObj) (hp : p.laserEnergy = none) (F : ℝ → ℝ → ℝ → ℂ) (hF : p.Pointwise F)
    (cm : ℤ → ℝ → ℝ → ℂ)
    (hband : ∀ r θ t : ℝ, F (r * Real.cos θ) (r * Real.sin θ) t =
      ∑ m ∈ Finset.Ioo (-(n : ℤ)) n, cm m r t * exp (-I * m * θ)) (θ slice : ℝ) (ax : String) :
    ∃ (l l' : Laser ⟨2 * n - 1, nr, nt⟩) (img : Image),
      Laser.init "rt" [lo0, lo1] [hi0, hi1] [nr, nt] p (some n) nTheta = .ok ⟨_, l⟩ ∧
      getFullField θ slice ax none l = (.ok (some img), l') ∧
      ∃ (hr : img.rows = 2 * nr - 1) (hc : img.cols = nt), ∀ (j : Fin nr) (k : Fin nt),
        let r := linspace lo0 hi0 nr j
        let t := linspace lo1 hi1 nt k
        img.val ⟨nr - 1 + j, by omega⟩ (Fin.cast hc.symm k) =
          (F (r * Real.cos θ) (r * Real.sin θ) t * exp (-I * p.omega0 * t)).re ∧
        (0 < (j : ℕ) → img.val ⟨nr - 1 - j, by omega⟩ (Fin.cast hc.symm k) =
          (F (r * Real.cos θ) (-(r * Real.sin θ)) t * exp (-I * p.omega0 * t)).re) := by
  obtain ⟨l, f, hl, hf, hc⟩ := C12_azimuthal_exact lo0 lo1 hi0 hi1 nr nt n h0 h1 hn nTheta hN p hp F hF cm hband
  obtain ⟨g, f', hg, -, hgeo, ht, hp', -⟩ := Laser.init_facts hl
  obtain ⟨-, -, -, -, hcase⟩ := Grid.init_ok hg
  obtain ⟨r, hm, e9, hpts⟩ : ∃ (r : Axis nr) (hm : 1 ≤ n ∧ 2 * n - 1 = 2 * n - 1),
      l.grid.geom = .rt n hm r ∧ ∀ k, l.grid.t.pts k = linspace lo1 hi1 nt k := by
    rcases hcase with ⟨l0, l1, u0, u1, m', r, t, rest, -, e2, e3, e4, e5, e6, e7, e8, hm, e9⟩ |
      ⟨l0, l1, l2, u0, u1, u2, x, y, t, e1, -⟩
    swap
    · exact absurd e1 (by decide)
    obtain rfl : n = m' := by simpa using e5
    simp only [List.cons.injEq, and_true] at e2 e3
    obtain ⟨rfl, rfl⟩ := e2
    obtain ⟨rfl, rfl⟩ := e3
    refine ⟨r, hm, hgeo.trans e9, ?_⟩
    obtain ⟨_, hax⟩ := mkAxis_ok e7
    intro k
    rw [ht, e8, hax]
  obtain ⟨l', img, e, -, hr, hcc, hu, hd⟩ := C57_shown_partial l f hf e9 θ slice ax
  have key : ∀ (φ : ℝ) (j : Fin nr) (k : Fin nt), envelopeAt hm f φ j k =
      F (linspace lo0 hi0 nr j * Real.cos φ) (linspace lo0 hi0 nr j * Real.sin φ) (linspace lo1 hi1 nt k) := by
    intro φ j k
    rw [hband, ← sum_modes n fun m => cm m (linspace lo0 hi0 nr j) (linspace lo1 hi1 nt k) * exp (-I * m * φ)]
    refine Finset.sum_congr rfl fun i _ => ?_
    obtain ⟨ha, hb⟩ := (modeAt_iff hn i (modeAt n i)).1 rfl
    rw [hc _ i ha hb]
    rfl
  refine ⟨l, l', img, hl, e, hr, hcc, ?_⟩
  intro j k
  refine ⟨?_, fun hj => ?_⟩
  · rw [hu j k, key, hpts, hp']
  · rw [hd j k hj, key, hpts, hp']
    simp only [Real.cos_neg, Real.sin_neg, mul_neg]

/-- a profile `E = x` -/
noncomputable def tiltProfile : ProfileObj where
  omega0 := 1
  lambda0 := 1
  pol := (1, 0)
  laserEnergy := none
  dtype := .c128
  evaluate := fun x _ _ i j k => (x i j k : ℂ)

/-- **C57 is false of the code.** The laser made from the profile `E = x` with two azimuthal modes: in the
plane `θ = 0` the field at the outer radius `1` on the lower side (angle `π`) is `-1`, but the image shows
`+1` (at `t = 0`). -/
theorem C57_refuted : ∃ (l l' : Laser ⟨3, 2, 2⟩) (img : Image) (f : Field ⟨3, 2, 2⟩)
    (hn : 1 ≤ 2 ∧ 3 = 2 * 2 - 1) (r : Axis 2) (hr : img.rows = 3) (hc : img.cols = 2),
    Laser.init "rt" [0, 0] [1, 1] [2, 2] tiltProfile (some 2) none = .ok ⟨_, l⟩ ∧
    l.grid.geom = .rt 2 hn r ∧ r.pts 1 = 1 ∧ l.grid.t.pts 0 = 0 ∧ l.Has f ∧
    envelopeAt (s := ⟨3, 2, 2⟩) hn f Real.pi 1 0 = -1 ∧
    getFullField 0 0 "x" none l = (.ok (some img), l') ∧ img.val ⟨0, by omega⟩ ⟨0, by omega⟩ = 1 := by
  let cm : ℤ → ℝ → ℝ → ℂ := fun m r _ => if m = 0 then 0 else (r / 2 : ℂ)
  have hband : ∀ r θ t : ℝ, (fun x _ _ : ℝ => (x : ℂ)) (r * Real.cos θ) (r * Real.sin θ) t =
      ∑ m ∈ Finset.Ioo (-((2 : ℕ) : ℤ)) (2 : ℕ), cm m r t * exp (-I * m * θ) := by
    intro r θ t
    have hset : Finset.Ioo (-((2 : ℕ) : ℤ)) (2 : ℕ) = {-1, 0, 1} := by decide
    rw [hset]
    simp only [Finset.mem_insert, Finset.mem_singleton, Finset.sum_insert, cm,
      reduceCtorEq, or_self, not_false_eq_true, Int.reduceNeg, if_false,
      Int.cast_neg, Int.cast_one]
    norm_num
    have h1 := Complex.two_cos (θ : ℂ)
    rw [show I * (θ : ℂ) = θ * I by ring, show -((θ : ℂ) * I) = -θ * I by ring]
    linear_combination (r / 2 : ℂ) * h1
  have hp : tiltProfile.Pointwise (fun x _ _ : ℝ => (x : ℂ)) := fun _ _ _ _ _ _ _ _ _ => rfl
  obtain ⟨l, l', img, hl, e, hr, hc, hv⟩ := C57_profile_partial 0 0 1 1 2 2 2 le_rfl le_rfl (by norm_num) none
    (by simp) tiltProfile rfl _ hp cm hband 0 0 "x"
  obtain ⟨l2, f, hl2, hf, hcm⟩ := C12_azimuthal_exact 0 0 1 1 2 2 2 le_rfl le_rfl (by norm_num) none (by simp)
    tiltProfile rfl _ hp cm hband
  obtain rfl : l2 = l := by rw [hl] at hl2; simpa using hl2.symm
  obtain ⟨g, f', hg, -, hgeo, ht, hp', -⟩ := Laser.init_facts hl
  obtain ⟨-, -, -, -, hcase⟩ := Grid.init_ok hg
  rcases hcase with ⟨l0, l1, u0, u1, m', r, t, rest, -, e2, e3, e4, e5, e6, e7, e8, hm, e9⟩ |
    ⟨l0, l1, l2, u0, u1, u2, x, y, t, e1, -⟩
  swap
  · exact absurd e1 (by decide)
  obtain rfl : 2 = m' := by simpa using e5
  simp only [List.cons.injEq, and_true] at e2 e3
  obtain ⟨rfl, rfl⟩ := e2
  obtain ⟨rfl, rfl⟩ := e3
  obtain ⟨_, hax⟩ := mkAxis_ok e7
  obtain ⟨_, hax'⟩ := mkAxis_ok e6
  have e0' : linspace 0 1 2 1 = 1 := by simp [linspace]; norm_num
  have e1' : linspace 0 1 2 0 = 0 := by simp [linspace]
  refine ⟨l2, l', img, f, hm, r, hr, hc, hl, hgeo.trans e9, ?_, ?_, hf, ?_, e, ?_⟩
  · rw [hax']; simp [linspace]; norm_num
  · rw [ht, e8, hax]; simp [linspace]
  · have key : envelopeAt (s := ⟨3, 2, 2⟩) hm f Real.pi 1 0 =
        ∑ m ∈ Finset.Ioo (-((2 : ℕ) : ℤ)) (2 : ℕ), cm m 1 0 * exp (-I * m * Real.pi) := by
      rw [← sum_modes 2 fun m => cm m 1 0 * exp (-I * m * Real.pi)]
      refine Finset.sum_congr rfl fun i _ => ?_
      obtain ⟨ha, hb⟩ := (modeAt_iff (n := 2) (by norm_num) i (modeAt 2 i)).1 rfl
      rw [hcm _ i ha hb, e0', e1']
      rfl
    rw [key, ← hband 1 Real.pi 0]
    simp
  · have := (hv 1 0).2 (by norm_num)
    rw [e0', e1'] at this
    have h2 : img.val ⟨0, by omega⟩ (Fin.cast hc.symm 0) = 1 := by simpa using this
    exact h2

/-! ## C75 -/

omit [Phys] in
theorem sliceIndex_eq {N : ℕ} (hN : 2 ≤ N) {slice : ℝ} (h : -1 ≤ slice) :
    sliceIndex N slice = ⌊(1 + slice) * ((N / 2 - 1 : ℕ) : ℝ)⌋ := by
  unfold sliceIndex pyInt
  have h1 : (((((N / 2 : ℕ) : ℤ) - 1 : ℤ)) : ℝ) = ((N / 2 - 1 : ℕ) : ℝ) := by
    have h2 : (((N / 2 : ℕ) : ℤ) - 1) = ((N / 2 - 1 : ℕ) : ℤ) := by omega
    rw [h2]
    exact Int.cast_natCast _
  rw [h1, if_pos (mul_nonneg (by linarith) (Nat.cast_nonneg _))]

omit [Phys] in
/-- **C75 (the part that is true of the code).** For `-1/2 ≤ slice ≤ 1/2` and two points or more the row that
is cut out exists, it does not move backwards when `slice` grows, and `slice = 0` is the row `N/2 - 1`, which
for an even number of points is one of the two rows next to the centre of the axis. -/
theorem C75_slice_partial {N : ℕ} (hN : 2 ≤ N) :
    (∀ slice : ℝ, -(1 / 2) ≤ slice → slice ≤ 1 / 2 → ∃ i, pyIndex N (sliceIndex N slice) = .ok i) ∧
    (∀ (a b : ℝ) (i j : Fin N), -(1 / 2) ≤ a → a ≤ b → pyIndex N (sliceIndex N a) = .ok i →
      pyIndex N (sliceIndex N b) = .ok j → b ≤ 1 / 2 → i ≤ j) ∧
    (∀ i : Fin N, pyIndex N (sliceIndex N 0) = .ok i → (i : ℕ) = N / 2 - 1 ∧
      (Even N → 2 * (i : ℕ) + 1 = N - 1)) := by
  have idx : ∀ slice : ℝ, -(1 / 2) ≤ slice → slice ≤ 1 / 2 → 0 ≤ sliceIndex N slice ∧
      sliceIndex N slice < N := by
    intro slice h1 h2
    rw [sliceIndex_eq hN (by linarith)]
    refine ⟨Int.floor_nonneg.2 (mul_nonneg (by linarith) (Nat.cast_nonneg _)), ?_⟩
    rw [Int.floor_lt]
    have h3 : ((N / 2 - 1 : ℕ) : ℝ) ≤ N / 2 - 1 := by
      push_cast [Nat.cast_sub (show 1 ≤ N / 2 by omega)]
      have : ((N / 2 : ℕ) : ℝ) ≤ N / 2 := Nat.cast_div_le
      linarith
    have h4 : (0 : ℝ) ≤ ((N / 2 - 1 : ℕ) : ℝ) := Nat.cast_nonneg _
    push_cast
    nlinarith
  have ok : ∀ slice : ℝ, -(1 / 2) ≤ slice → slice ≤ 1 / 2 → ∃ i : Fin N,
      pyIndex N (sliceIndex N slice) = .ok i ∧ ((i : ℕ) : ℤ) = sliceIndex N slice := by
    intro slice h1 h2
    obtain ⟨h3, h4⟩ := idx slice h1 h2
    refine ⟨⟨(sliceIndex N slice).toNat, by omega⟩, ?_, by simp [h3]⟩
    unfold pyIndex
    rw [dif_pos ⟨h3, h4⟩]
  refine ⟨fun sl h1 h2 => ?_, ?_, ?_⟩
  · obtain ⟨i, hi, -⟩ := ok sl h1 h2
    exact ⟨i, hi⟩
  · intro a b i j h1 h2 hi hj h3
    obtain ⟨i', hi', ei⟩ := ok a h1 (by linarith)
    obtain ⟨j', hj', ej⟩ := ok b (by linarith) h3
    rw [hi] at hi'
    rw [hj] at hj'
    injection hi' with hi'
    injection hj' with hj'
    subst hi' hj'
    rw [sliceIndex_eq hN (by linarith)] at ei ej
    have := Int.floor_le_floor (mul_le_mul_of_nonneg_right (show 1 + a ≤ 1 + b by linarith)
      (Nat.cast_nonneg (N / 2 - 1 : ℕ)))
    rw [Fin.le_def]
    omega
  · intro i hi
    obtain ⟨i', hi', ei⟩ := ok 0 (by norm_num) (by norm_num)
    rw [hi] at hi'
    injection hi' with hi'
    subst hi'
    rw [sliceIndex_eq hN (by norm_num), add_zero, one_mul, Int.floor_natCast] at ei
    have : (i : ℕ) = N / 2 - 1 := by exact_mod_cast ei
    refine ⟨this, fun he => ?_⟩
    obtain ⟨q, rfl⟩ := he
    omega

omit [Phys] in
/-- **C75 is false of the code**: with an odd number of points, `slice = 0` is not the row at the centre of
the axis (number `(N-1)/2`); and `slice = -1/2`, `slice = 1/2`, the ends of the documented range, are not the
first and the last row. -/
theorem C75_refuted {N : ℕ} (hN : 6 ≤ N) :
    (∀ i : Fin N, pyIndex N (sliceIndex N (-(1 / 2))) = .ok i → (i : ℕ) ≠ 0) ∧
    (∀ i : Fin N, pyIndex N (sliceIndex N (1 / 2)) = .ok i → (i : ℕ) ≠ N - 1) ∧
    (Odd N → ∀ i : Fin N, pyIndex N (sliceIndex N 0) = .ok i → (i : ℕ) ≠ (N - 1) / 2) := by
  have val : ∀ (slice : ℝ) (i : Fin N), -1 ≤ slice → pyIndex N (sliceIndex N slice) = .ok i →
      ((i : ℕ) : ℤ) = ⌊(1 + slice) * ((N / 2 - 1 : ℕ) : ℝ)⌋ := by
    intro slice i h1 hi
    have h0 : 0 ≤ sliceIndex N slice := by
      rw [sliceIndex_eq (by omega) h1]
      exact Int.floor_nonneg.2 (mul_nonneg (by linarith) (Nat.cast_nonneg _))
    rw [← sliceIndex_eq (by omega) h1]
    unfold pyIndex at hi
    split at hi
    · injection hi with hi
      subst hi
      simp [h0]
    · rw [dif_neg (by omega)] at hi
      cases hi
  have h2 : (2 : ℝ) ≤ ((N / 2 - 1 : ℕ) : ℝ) := by exact_mod_cast (by omega : 2 ≤ N / 2 - 1)
  refine ⟨?_, ?_, ?_⟩
  · intro i hi h0
    have := val _ i (by norm_num) hi
    rw [h0] at this
    have h3 : (1 : ℤ) ≤ ⌊(1 + -(1 / 2) : ℝ) * ((N / 2 - 1 : ℕ) : ℝ)⌋ := by
      rw [Int.le_floor]
      push_cast
      nlinarith
    omega
  · intro i hi h0
    have := val _ i (by norm_num) hi
    have h3 : ⌊(1 + 1 / 2 : ℝ) * ((N / 2 - 1 : ℕ) : ℝ)⌋ < ((N - 1 : ℕ) : ℤ) := by
      rw [Int.floor_lt]
      have h4 : ((N / 2 - 1 : ℕ) : ℝ) ≤ N / 2 - 1 := by
        push_cast [Nat.cast_sub (show 1 ≤ N / 2 by omega)]
        have : ((N / 2 : ℕ) : ℝ) ≤ N / 2 := Nat.cast_div_le
        linarith
      have h6 : (6 : ℝ) ≤ N := by exact_mod_cast hN
      push_cast [Nat.cast_sub (show 1 ≤ N by omega)]
      nlinarith
    rw [h0] at this
    omega
  · intro ho i hi h0
    have := val _ i (by norm_num) hi
    rw [add_zero, one_mul, Int.floor_natCast] at this
    obtain ⟨q, rfl⟩ := ho
    have h5 : (i : ℕ) = (2 * q + 1) / 2 - 1 := by exact_mod_cast this
    omega

omit [Phys] in
theorem getFullField_eq {l : Laser s} {f : Field s} (_ : l.Has f) {g' : Grid s}
    (e : l.grid.getTemporalField = (.ok ⟨.c128, f⟩, g')) (h' : g'.Holds (some f)) (theta slice : ℝ) (ax : String)
    (Nt : Option ℕ) : getFullField theta slice ax Nt l =
      (showPlane l.profile.omega0 g' Nt (cutPlane g' f theta slice ax), { l with grid := g' }) := by
  unfold getFullField
  rw [Py.bind_ok (onGrid_eq e), Py.bind_ok (Py.get_apply _), Py.bind_ok (Py.require_pos h'.env _)]
  simp only []
  cases showPlane l.profile.omega0 g' Nt (cutPlane g' f theta slice ax) <;> rfl

omit [Phys] in
/-- **C75**: with `slice_axis="x"` the rows of the image run over `y`, but the returned extent is that of the
`x` axis; with `slice_axis="y"` rows and extent belong to `x`. -/
theorem C75_extent_refuted (l : Laser s) (f : Field s) (h : l.Has f) {x : Axis s.n0} {y : Axis s.n1}
    (hg : l.grid.geom = .xyt x y) (theta slice : ℝ) (i : Fin s.n0) (j : Fin s.n1)
    (hi : pyIndex s.n0 (sliceIndex s.n0 slice) = .ok i) (hj : pyIndex s.n1 (sliceIndex s.n1 slice) = .ok j) :
    ∃ l', getFullField theta slice "x" none l = (.ok (some ⟨s.n1, s.nt,
        fun q k => (f i q k * exp (-I * l.profile.omega0 * l.grid.t.pts k)).re,
        (l.grid.t.lo, l.grid.t.hi, x.lo, x.hi)⟩), l') ∧
      getFullField theta slice "y" none l = (.ok (some ⟨s.n0, s.nt,
        fun q k => (f q j k * exp (-I * l.profile.omega0 * l.grid.t.pts k)).re,
        (l.grid.t.lo, l.grid.t.hi, x.lo, x.hi)⟩), l') := by
  obtain ⟨g', e, h', hgeo, ht⟩ := Grid.Holds.getT h
  refine ⟨{ l with grid := g' }, ?_, ?_⟩
  · rw [getFullField_eq h e h']
    simp only [cutPlane, hgeo, hg, imageExtent, ht, hi, showPlane, if_pos]
    rfl
  · rw [getFullField_eq h e h']
    simp only [cutPlane, hgeo, hg, imageExtent, ht, hj, showPlane, if_neg (show ¬ ("y" = "x") by decide), if_pos]
    rfl

/-! ## C76 -/

omit [Phys] in
theorem linspace_inside {lo hi : ℝ} (h : lo ≤ hi) {n : ℕ} (hn : 2 ≤ n) {m : ℕ} (k : Fin m) :
    Inside (linspace lo hi n) (linspace lo hi m k) := by
  have hk := k.2
  have hn' : (1 : ℝ) ≤ n - 1 := by
    have : (2 : ℝ) ≤ n := by exact_mod_cast hn
    linarith
  have h0 : 0 ≤ (k : ℝ) * ((hi - lo) / ((m : ℝ) - 1)) ∧ (k : ℝ) * ((hi - lo) / ((m : ℝ) - 1)) ≤ hi - lo := by
    rcases Nat.lt_or_ge 1 m with hm | hm
    · have hm' : (0 : ℝ) < m - 1 := by
        have : (1 : ℝ) < m := by exact_mod_cast hm
        linarith
      have hk' : (k : ℝ) ≤ m - 1 := by
        have : ((k : ℕ) : ℝ) + 1 ≤ m := by exact_mod_cast hk
        linarith
      refine ⟨mul_nonneg (Nat.cast_nonneg _) (div_nonneg (by linarith) hm'.le), ?_⟩
      rw [mul_div_assoc', div_le_iff₀ hm']
      nlinarith
    · have hk0 : (k : ℕ) = 0 := by omega
      rw [hk0]
      exact ⟨by simp, by simp; linarith⟩
  refine ⟨⟨⟨0, by omega⟩, ?_⟩, ⟨⟨n - 1, by omega⟩, ?_⟩⟩
  · simp only [linspace, Nat.cast_zero, zero_mul]
    linarith [h0.1]
  · simp only [linspace]
    have : ((n - 1 : ℕ) : ℝ) = n - 1 := by push_cast [Nat.cast_sub (show 1 ≤ n by omega)]; ring
    rw [this, mul_div_cancel₀ _ (by linarith)]
    linarith [h0.2]

omit [Phys] in
theorem linspace_ascending {lo hi : ℝ} (h : lo < hi) {n : ℕ} (hn : 2 ≤ n) : Ascending (linspace lo hi n) := by
  intro i j hij
  have hn' : (0 : ℝ) < n - 1 := by
    have : (2 : ℝ) ≤ n := by exact_mod_cast hn
    linarith
  have hlt : ((i : ℕ) : ℝ) < (j : ℕ) := by exact_mod_cast hij
  simp only [linspace]
  have : 0 < (hi - lo) / ((n : ℝ) - 1) := div_pos (by linarith) hn'
  nlinarith

omit [Phys] in
theorem resampleRow_ok {lo hi : ℝ} (h : lo < hi) {n : ℕ} (hn : 2 ≤ n) (m : ℕ) (z : Fin n → ℂ) :
    resampleRow (linspace lo hi n) z (linspace lo hi m) = .ok fun k =>
      ((∑ i, linWeight (linspace lo hi n) (linspace lo hi m k) i * ‖z i‖ : ℝ) : ℂ) *
        exp (I * (∑ i, linWeight (linspace lo hi n) (linspace lo hi m k) i * unwrap (fun k => angle (z k)) i : ℝ)) := by
  unfold resampleRow interp1
  rw [if_pos (fun k => linspace_inside h.le hn k), if_pos (fun k => linspace_inside h.le hn k)]
  rfl

omit [Phys] in
theorem resampleTime_ok {lo hi : ℝ} (h : lo < hi) {n : ℕ} (hn : 2 ≤ n) (m : ℕ) {rows : ℕ} (z : Fin rows → Fin n → ℂ) :
    resampleTime (linspace lo hi n) z (linspace lo hi m) = .ok fun q k =>
      ((∑ i, linWeight (linspace lo hi n) (linspace lo hi m k) i * ‖z q i‖ : ℝ) : ℂ) *
        exp (I * (∑ i, linWeight (linspace lo hi n) (linspace lo hi m k) i * unwrap (fun k => angle (z q k)) i : ℝ)) := by
  unfold resampleTime
  rw [if_pos (fun q => by rw [resampleRow_ok h hn]; rfl)]
  congr 1
  funext q
  rw [resampleRow_ok h hn]

omit [Phys] in
/-- **C76.** On a laser whose time axis runs uniformly from `lo` to `hi` (every constructed or propagated
laser, C24), whenever `get_full_field` gives an image with `Nt=None`, it gives one for every `Nt`, with the
same rows and extent; with `Nt` the number of points of the laser it is the same image. -/
theorem C76_resampling (l : Laser s) (f : Field s) (h : l.Has f) (hN : 2 ≤ s.nt) (hlo : l.grid.t.lo < l.grid.t.hi)
    (hax : ∀ k, l.grid.t.pts k = linspace l.grid.t.lo l.grid.t.hi s.nt k) (theta slice : ℝ) (ax : String)
    {l' : Laser s} {img : Image} (himg : getFullField theta slice ax none l = (.ok (some img), l')) :
    (∀ N : ℕ, ∃ img', getFullField theta slice ax (some N) l = (.ok (some img'), l') ∧
      img'.rows = img.rows ∧ img'.cols = N ∧ img'.ext = img.ext) ∧
    getFullField theta slice ax (some s.nt) l = (.ok (some img), l') := by
  obtain ⟨g', e, h', hgeo, ht⟩ := Grid.Holds.getT h
  have hax' : l.grid.t.pts = linspace l.grid.t.lo l.grid.t.hi s.nt := funext hax
  rw [getFullField_eq h e h'] at himg
  rcases hcut : cutPlane g' f theta slice ax with e' | _ | ⟨rows, cut⟩
  · rw [hcut] at himg; simp [showPlane] at himg
  · rw [hcut] at himg; simp [showPlane] at himg
  · rw [hcut] at himg
    simp only [showPlane, Prod.mk.injEq, Except.ok.injEq, Option.some.injEq] at himg
    obtain ⟨himg, rfl⟩ := himg
    subst himg
    constructor
    · intro N
      rw [getFullField_eq h e h', hcut]
      simp only [showPlane, ht, hax', resampleTime_ok hlo hN]
      exact ⟨_, rfl, rfl, rfl, rfl⟩
    · rw [getFullField_eq h e h', hcut]
      simp only [showPlane, ht, hax', resampleTime_ok hlo hN]
      simp only [linWeight_node hN (linspace_ascending hlo hN), ite_mul, one_mul, zero_mul,
        Finset.sum_ite_eq', Finset.mem_univ, if_true]
      congr 6
      funext q k
      have := polar_unwrap (cut q) k
      rw [abs_of_nonneg (norm_nonneg _)] at this
      exact this

end Lasy
