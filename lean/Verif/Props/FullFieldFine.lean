import Verif.Props.SlicePlane
import Verif.Props.FromArrayAccuracy
import Verif.Props.FineGrids
import Verif.Props.Aperture
import Mathlib.Analysis.Real.Pi.Bounds

/-!
# Property C160: `get_full_field(Nt=...)` approximates the field between the time samples, zeros included
-/

namespace Lasy
open Spec Phys Complex

/-- Interpolating modulus and unwrapped phase of complex samples gives a number close to all samples nearby, even
where the samples pass through zero and the unwrapped phase jumps. -/
theorem resample_close {n : ℕ} (hn : 2 ≤ n) {g : Fin n → ℝ} (hg : Ascending g) (z : Fin n → ℂ) {x δ η : ℝ} (hx : Inside g x)
    (hd : Gaps g δ) {w : ℂ} (hw : ∀ k, |g k - x| ≤ δ → ‖z k - w‖ ≤ η) :
    ‖((∑ i, linWeight g x i * ‖z i‖ : ℝ) : ℂ) *
      exp (I * (∑ i, linWeight g x i * unwrap (fun k => angle (z k)) i : ℝ)) - w‖ ≤ 10 * η := by
  have hpi := Real.pi_pos
  have hint : interval g x + 1 < n := by unfold interval; omega
  obtain ⟨b1, b2⟩ := interval_bounds hn hg hx hint
  have b3 := hd _ hint
  set k0 : Fin n := ⟨interval g x, by omega⟩ with hk0
  set k1 : Fin n := ⟨interval g x + 1, hint⟩ with hk1
  set φ : Fin n → ℝ := unwrap fun k => angle (z k) with hφ
  have hz0 : ‖z k0 - w‖ ≤ η := hw _ (by rw [abs_le]; constructor <;> linarith)
  have hz1 : ‖z k1 - w‖ ≤ η := hw _ (by rw [abs_le]; constructor <;> linarith)
  have two : ∀ i, linWeight g x i ≠ 0 → i = k0 ∨ i = k1 := by
    intro i hi
    unfold linWeight at hi
    rw [dif_pos hint] at hi
    dsimp only at hi
    by_cases e : (i : ℕ) = interval g x
    · exact Or.inl (Fin.ext e)
    · rw [if_neg e] at hi
      by_cases e2 : (i : ℕ) = interval g x + 1
      · exact Or.inr (Fin.ext e2)
      · rw [if_neg e2] at hi
        exact absurd rfl hi
  have polar : ∀ k, z k = (‖z k‖ : ℂ) * exp (I * (φ k : ℝ)) := by
    intro k
    have := polar_unwrap z k
    rw [abs_of_nonneg (norm_nonneg _)] at this
    exact this.symm
  have n1 : ∀ t : ℝ, ‖exp (I * (t : ℂ))‖ = 1 := fun t => by rw [mul_comm, Complex.norm_exp_ofReal_mul_I]
  have dir : ∀ k, ‖z k - w‖ ≤ η → ‖(‖w‖ : ℂ) * exp (I * (φ k : ℝ)) - w‖ ≤ 2 * η := by
    intro k hk
    have e : (‖w‖ : ℂ) * exp (I * (φ k : ℝ)) - w = ((‖w‖ - ‖z k‖ : ℝ) : ℂ) * exp (I * (φ k : ℝ)) + (z k - w) := by
      have := polar k
      push_cast
      linear_combination -this
    rw [e]
    refine (norm_add_le _ _).trans ?_
    rw [norm_mul, n1, mul_one, norm_real, Real.norm_eq_abs]
    have := abs_norm_sub_norm_le w (z k)
    rw [norm_sub_rev] at this
    linarith
  have d0 := dir k0 hz0
  have d1 := dir k1 hz1
  have hstep : |φ k1 - φ k0| ≤ Real.pi := unwrap_step _ _ hint
  -- the phases of the two neighbours
  have hphase : ‖w‖ * |φ k1 - φ k0| ≤ 2 * Real.pi * η := by
    have h4 : ‖w‖ * ‖exp (I * ((φ k1 - φ k0 : ℝ) : ℂ)) - 1‖ ≤ 4 * η := by
      have e : (‖w‖ : ℂ) * exp (I * (φ k1 : ℝ)) - (‖w‖ : ℂ) * exp (I * (φ k0 : ℝ)) =
          (‖w‖ : ℂ) * exp (I * (φ k0 : ℝ)) * (exp (I * ((φ k1 - φ k0 : ℝ) : ℂ)) - 1) := by
        have : exp (I * (φ k0 : ℝ)) * exp (I * ((φ k1 - φ k0 : ℝ) : ℂ)) = exp (I * (φ k1 : ℝ)) := by
          rw [← Complex.exp_add]; congr 1; push_cast; ring
        linear_combination (-(‖w‖ : ℂ)) * this
      have h5 : ‖(‖w‖ : ℂ) * exp (I * (φ k1 : ℝ)) - (‖w‖ : ℂ) * exp (I * (φ k0 : ℝ))‖ ≤ 4 * η := by
        have : (‖w‖ : ℂ) * exp (I * (φ k1 : ℝ)) - (‖w‖ : ℂ) * exp (I * (φ k0 : ℝ)) =
            ((‖w‖ : ℂ) * exp (I * (φ k1 : ℝ)) - w) - ((‖w‖ : ℂ) * exp (I * (φ k0 : ℝ)) - w) := by ring
        rw [this]
        exact (norm_sub_le _ _).trans (by linarith)
      rw [e, norm_mul, norm_mul, n1, mul_one, norm_real, norm_norm] at h5
      exact h5
    have h6 : 2 / Real.pi * |φ k1 - φ k0| ≤ ‖exp (I * ((φ k1 - φ k0 : ℝ) : ℂ)) - 1‖ := by
      rw [Complex.norm_exp_I_mul_ofReal_sub_one, norm_mul, Real.norm_eq_abs, Real.norm_eq_abs, abs_two]
      have h7 := Real.mul_le_sin (x := |φ k1 - φ k0| / 2) (by positivity) (by linarith)
      have h8 : Real.sin (|φ k1 - φ k0| / 2) ≤ |Real.sin ((φ k1 - φ k0) / 2)| := by
        rcases abs_cases (φ k1 - φ k0) with ⟨h, -⟩ | ⟨h, -⟩
        · rw [h]; exact le_abs_self _
        · rw [h, neg_div, Real.sin_neg]; exact neg_le_abs _
      have : 2 / Real.pi * |φ k1 - φ k0| = 2 * (2 / Real.pi * (|φ k1 - φ k0| / 2)) := by ring
      rw [this]
      linarith
    have h9 : ‖w‖ * (2 / Real.pi * |φ k1 - φ k0|) ≤ 4 * η := (mul_le_mul_of_nonneg_left h6 (norm_nonneg _)).trans h4
    have : ‖w‖ * |φ k1 - φ k0| = Real.pi / 2 * (‖w‖ * (2 / Real.pi * |φ k1 - φ k0|)) := by
      field_simp
    rw [this]
    nlinarith
  set S := ∑ i, linWeight g x i * ‖z i‖ with hS
  set Φ := ∑ i, linWeight g x i * φ i with hΦ
  have cS : |S - ‖w‖| ≤ η := by
    refine mean_close (linWeight_nonneg hn hg hx) (linWeight_sum hn g x) fun i hi => ?_
    have h1 : ‖z i - w‖ ≤ η := by rcases two i hi with rfl | rfl <;> assumption
    exact (abs_norm_sub_norm_le _ _).trans h1
  have cΦ : |Φ - φ k0| ≤ |φ k1 - φ k0| := by
    refine mean_close (linWeight_nonneg hn hg hx) (linWeight_sum hn g x) fun i hi => ?_
    rcases two i hi with rfl | rfl
    · simp
    · exact le_rfl
  have e : (S : ℂ) * exp (I * (Φ : ℝ)) - w = ((S - ‖w‖ : ℝ) : ℂ) * exp (I * (Φ : ℝ)) +
      (‖w‖ : ℂ) * exp (I * (φ k0 : ℝ)) * (exp (I * ((Φ - φ k0 : ℝ) : ℂ)) - 1) + ((‖w‖ : ℂ) * exp (I * (φ k0 : ℝ)) - w) := by
    have : exp (I * (φ k0 : ℝ)) * exp (I * ((Φ - φ k0 : ℝ) : ℂ)) = exp (I * (Φ : ℝ)) := by
      rw [← Complex.exp_add]; congr 1; push_cast; ring
    push_cast at this ⊢
    linear_combination (-(‖w‖ : ℂ)) * this
  rw [e]
  refine (norm_add₃_le ..).trans ?_
  rw [norm_mul, n1, mul_one, norm_real, Real.norm_eq_abs, norm_mul, norm_mul, n1, mul_one, norm_real, norm_norm]
  have h10 : ‖w‖ * ‖exp (I * ((Φ - φ k0 : ℝ) : ℂ)) - 1‖ ≤ 2 * Real.pi * η := by
    refine le_trans (mul_le_mul_of_nonneg_left ?_ (norm_nonneg _)) hphase
    exact Real.norm_exp_I_mul_ofReal_sub_one_le.trans cΦ
  have hη : 0 ≤ η := (norm_nonneg _).trans hz0
  have hp := Real.pi_lt_d2
  nlinarith

variable [Phys] {s : Shape}

omit [Phys] in
theorem gaps_linspace_axes (lo hi : ℝ) (n : ℕ) : Gaps (linspace lo hi n) ((hi - lo) / ((n : ℝ) - 1)) := by
  intro k hk
  simp only [linspace]
  push_cast
  linarith

omit [Phys] in
theorem resampled_plane (l : Laser s) (f : Field s) (h : l.Has f) (hN : 2 ≤ s.nt) (hlo : l.grid.t.lo < l.grid.t.hi)
    (hax : ∀ k, l.grid.t.pts k = linspace l.grid.t.lo l.grid.t.hi s.nt k) {θ slice : ℝ} {ax : String} {rows : ℕ}
    {cut : Fin rows → Fin s.nt → ℂ}
    (hcut : ∀ g' : Grid s, g'.geom = l.grid.geom → cutPlane g' f θ slice ax = .ok (some ⟨rows, cut⟩)) (N : ℕ) :
    ∃ (v : Fin rows → Fin N → ℝ) (l' : Laser s),
      getFullField θ slice ax (some N) l = (.ok (some ⟨rows, N, v, imageExtent l.grid⟩), l') ∧ l'.Has f ∧
      ∀ j k (w : ℂ) (η : ℝ), (∀ k', |l.grid.t.pts k' - linspace l.grid.t.lo l.grid.t.hi N k| ≤
          (l.grid.t.hi - l.grid.t.lo) / ((s.nt : ℝ) - 1) → ‖cut j k' - w‖ ≤ η) →
        |v j k - (w * exp (-I * l.profile.omega0 * linspace l.grid.t.lo l.grid.t.hi N k)).re| ≤ 10 * η := by
  obtain ⟨g', e, h', hgeo, ht⟩ := Grid.Holds.getT h
  have hax' : l.grid.t.pts = linspace l.grid.t.lo l.grid.t.hi s.nt := funext hax
  refine ⟨withCarrier l.profile.omega0 (linspace l.grid.t.lo l.grid.t.hi N) fun q k =>
      ((∑ i, linWeight (linspace l.grid.t.lo l.grid.t.hi s.nt) (linspace l.grid.t.lo l.grid.t.hi N k) i * ‖cut q i‖ : ℝ) : ℂ) *
        exp (I * (∑ i, linWeight (linspace l.grid.t.lo l.grid.t.hi s.nt) (linspace l.grid.t.lo l.grid.t.hi N k) i *
          unwrap (fun k => angle (cut q k)) i : ℝ)), { l with grid := g' }, ?_, h', ?_⟩
  · rw [getFullField_eq h e h', hcut g' hgeo]
    simp only [showPlane, ht, hax', resampleTime_ok hlo hN]
    simp only [imageExtent, hgeo, ht]
  · intro j k w η hw
    simp only [withCarrier]
    rw [← Complex.sub_re, ← sub_mul]
    refine (Complex.abs_re_le_norm _).trans ?_
    have he : ‖exp (-I * l.profile.omega0 * (linspace l.grid.t.lo l.grid.t.hi N k : ℝ))‖ = 1 := by
      have : -I * (l.profile.omega0 : ℂ) * (linspace l.grid.t.lo l.grid.t.hi N k : ℝ) =
          ((-(l.profile.omega0 * linspace l.grid.t.lo l.grid.t.hi N k) : ℝ) : ℂ) * I := by push_cast; ring
      rw [this, Complex.norm_exp_ofReal_mul_I]
    rw [norm_mul, he, mul_one]
    rw [hax'] at hw
    exact resample_close hN (linspace_ascending hlo hN) (cut j) (linspace_inside hlo.le hN k) (gaps_linspace_axes _ _ _) hw

omit [Phys] in
/-- **C160** (Cartesian). On a laser whose time axis runs uniformly from `lo` to `hi`, `get_full_field(Nt=N)` shows at each of its
`N` times the real field of some plane `i` (the one of C159): if every sample of the plane within one time step of the new
time differs by at most `eta` from a number `w`, the pixel differs from `Re(w exp(-i omega0 t))` by at most `10 eta`. The
samples may be any complex numbers: they may pass through zero, and the phase may turn by any amount. -/
theorem C160_xyt (l : Laser s) (f : Field s) (h : l.Has f) (hN : 2 ≤ s.nt) (hlo : l.grid.t.lo < l.grid.t.hi)
    (hax : ∀ k, l.grid.t.pts k = linspace l.grid.t.lo l.grid.t.hi s.nt k) {x : Axis s.n0} {y : Axis s.n1}
    (hg : l.grid.geom = .xyt x y) (θ slice : ℝ) (q : ℤ) (N : ℕ) :
    (WholePart ((1 + slice) * ((s.n0 / 2 : ℕ) - 1)) q → ∀ i, Counts s.n0 q i → ∃ (v : Fin s.n1 → Fin N → ℝ) (l' : Laser s),
      getFullField θ slice "x" (some N) l = (.ok (some ⟨s.n1, N, v, (l.grid.t.lo, l.grid.t.hi, x.lo, x.hi)⟩), l') ∧ l'.Has f ∧
      ∀ j k (w : ℂ) (η : ℝ), (∀ k', |l.grid.t.pts k' - linspace l.grid.t.lo l.grid.t.hi N k| ≤
          (l.grid.t.hi - l.grid.t.lo) / ((s.nt : ℝ) - 1) → ‖f i j k' - w‖ ≤ η) →
        |v j k - (w * exp (-I * l.profile.omega0 * linspace l.grid.t.lo l.grid.t.hi N k)).re| ≤ 10 * η) ∧
    (WholePart ((1 + slice) * ((s.n1 / 2 : ℕ) - 1)) q → ∀ j, Counts s.n1 q j → ∃ (v : Fin s.n0 → Fin N → ℝ) (l' : Laser s),
      getFullField θ slice "y" (some N) l = (.ok (some ⟨s.n0, N, v, (l.grid.t.lo, l.grid.t.hi, x.lo, x.hi)⟩), l') ∧ l'.Has f ∧
      ∀ i k (w : ℂ) (η : ℝ), (∀ k', |l.grid.t.pts k' - linspace l.grid.t.lo l.grid.t.hi N k| ≤
          (l.grid.t.hi - l.grid.t.lo) / ((s.nt : ℝ) - 1) → ‖f i j k' - w‖ ≤ η) →
        |v i k - (w * exp (-I * l.profile.omega0 * linspace l.grid.t.lo l.grid.t.hi N k)).re| ≤ 10 * η) := by
  constructor
  · intro hq i hi
    have := resampled_plane l f h hN hlo hax (θ := θ) (slice := slice) (ax := "x") (cut := fun j k => f i j k) (fun g' hg' => by
      simp only [cutPlane, hg', hg, sliceIndex_whole hq, pyIndex_counts hi, if_pos]) N
    simpa only [imageExtent, hg] using this
  · intro hq j hj
    have := resampled_plane l f h hN hlo hax (θ := θ) (slice := slice) (ax := "y") (cut := fun i k => f i j k) (fun g' hg' => by
      simp only [cutPlane, hg', hg, sliceIndex_whole hq, pyIndex_counts hj, if_neg (show ¬ ("y" = "x") by decide), if_pos]) N
    simpa only [imageExtent, hg] using this

omit [Phys] in
/-- **C160** (cylindrical). The same with the modes summed up: the upper half of the image approximates the field at the angle
`theta`, the lower half the one at `-theta` (C57 says why it is not `theta + pi`). -/
theorem C160_rt (l : Laser s) (f : Field s) (h : l.Has f) (hN : 2 ≤ s.nt) (hlo : l.grid.t.lo < l.grid.t.hi)
    (hax : ∀ k, l.grid.t.pts k = linspace l.grid.t.lo l.grid.t.hi s.nt k) {n : ℕ} {hn : 1 ≤ n ∧ s.n0 = 2 * n - 1}
    {r : Axis s.n1} (hg : l.grid.geom = .rt n hn r) (θ slice : ℝ) (ax : String) (N : ℕ) :
    ∃ (v : Fin (2 * s.n1 - 1) → Fin N → ℝ) (l' : Laser s),
      getFullField θ slice ax (some N) l = (.ok (some ⟨2 * s.n1 - 1, N, v, (l.grid.t.lo, l.grid.t.hi, -r.hi, r.hi)⟩), l') ∧
      l'.Has f ∧ ∀ (j : Fin s.n1) k (w : ℂ) (η : ℝ),
        ((∀ k', |l.grid.t.pts k' - linspace l.grid.t.lo l.grid.t.hi N k| ≤
          (l.grid.t.hi - l.grid.t.lo) / ((s.nt : ℝ) - 1) → ‖envelopeAt hn f θ j k' - w‖ ≤ η) →
          |v ⟨s.n1 - 1 + j, by omega⟩ k - (w * exp (-I * l.profile.omega0 * linspace l.grid.t.lo l.grid.t.hi N k)).re| ≤ 10 * η) ∧
        (0 < (j : ℕ) → (∀ k', |l.grid.t.pts k' - linspace l.grid.t.lo l.grid.t.hi N k| ≤
          (l.grid.t.hi - l.grid.t.lo) / ((s.nt : ℝ) - 1) → ‖envelopeAt hn f (-θ) j k' - w‖ ≤ η) →
          |v ⟨s.n1 - 1 - j, by omega⟩ k - (w * exp (-I * l.profile.omega0 * linspace l.grid.t.lo l.grid.t.hi N k)).re| ≤ 10 * η) := by
  have hmode : ∀ i : Fin s.n0, (azimuthalModes n).getD i 0 = modeAt n (Fin.cast hn.2 i) := fun i =>
    azimuthalModes_getD n hn.1 i (by have := i.2; omega)
  obtain ⟨v, l', e, h', hv⟩ := resampled_plane l f h hN hlo hax (θ := θ) (slice := slice) (ax := ax) (cut := rtPlane n s.n1 f θ)
    (fun g' hg' => by simp only [cutPlane, hg', hg]) N
  refine ⟨v, l', by simpa only [imageExtent, hg] using e, h', fun j k w η => ⟨fun hw => hv _ k w η fun k' hk' => ?_,
    fun hj0 hw => hv _ k w η fun k' hk' => ?_⟩⟩
  · have := hw k' hk'
    simp only [rtPlane]
    rw [dif_neg (by simp)]
    simpa only [hmode, Nat.add_sub_cancel_left, Fin.eta, envelopeAt] using this
  · have := hw k' hk'
    have hj := j.2
    simp only [rtPlane]
    rw [dif_pos (by omega)]
    have hjj : (⟨s.n1 - 1 - (s.n1 - 1 - j), by omega⟩ : Fin s.n1) = j := by ext; simp; omega
    rw [hjj]
    simp only [hmode]
    convert this using 2
    unfold envelopeAt
    congr 1
    refine Finset.sum_congr rfl fun i _ => ?_
    push_cast
    ring_nf

/-! ## On fine grids -/

/-- the time axis and the geometry of a new Cartesian laser -/
theorem init_xyt_axes {lo0 lo1 lo2 hi0 hi1 hi2 : ℝ} {nx ny nt : ℕ} {p : ProfileObj} {m nT : Option ℕ}
    {l : Laser ⟨nx, ny, nt⟩}
    (h : Laser.init "xyt" [lo0, lo1, lo2] [hi0, hi1, hi2] [nx, ny, nt] p m nT = .ok ⟨_, l⟩) :
    (∃ x y, l.grid.geom = .xyt x y ∧ x.lo = lo0 ∧ x.hi = hi0) ∧ l.grid.t.lo = lo2 ∧ l.grid.t.hi = hi2 ∧
      l.grid.t.pts = linspace lo2 hi2 nt ∧ l.profile = p := by
  obtain ⟨g, f, hg, -, hgeo, ht, hp, -⟩ := Laser.init_facts h
  obtain ⟨-, -, -, -, hc⟩ := Grid.init_ok hg
  rcases hc with ⟨l0, l1, u0, u1, m', r, t, rest, e1, -⟩ |
    ⟨l0, l1, l2, u0, u1, u2, x, y, t, e1, e2, e3, e4, e5, e6, e7, e8, e9⟩
  · exact absurd e1 (by decide)
  simp only [List.cons.injEq, and_true] at e2 e3
  obtain ⟨rfl, rfl, rfl⟩ := e2
  obtain ⟨rfl, rfl, rfl⟩ := e3
  obtain ⟨_, hx⟩ := mkAxis_ok e5
  obtain ⟨_, ht'⟩ := mkAxis_ok e7
  exact ⟨⟨x, y, hgeo.trans e9, by rw [hx], by rw [hx]⟩, by rw [ht, e8, ht'], by rw [ht, e8, ht'], by rw [ht, e8, ht'], hp⟩

/-- **C160** (fine grids, Cartesian). For every continuous profile, zeros included, `get_full_field(Nt=N)` of a new laser with
enough time samples is as close as one likes to the real field `Re(F exp(-i omega0 t))` of the plane, at all its pixels, for
every `N`, every slice and every number of transverse points. -/
theorem C160_fine_xyt (lo0 lo1 lo2 hi0 hi1 hi2 : ℝ) (h0 : lo0 ≤ hi0) (h1 : lo1 ≤ hi1) (h2 : lo2 < hi2) (p : ProfileObj)
    (hp : p.laserEnergy = none) (hd : p.dtype = .c128) (F : ℝ → ℝ → ℝ → ℂ) (hF : p.Pointwise F)
    (hcont : ContinuousOn (fun q : ℝ × ℝ × ℝ => F q.1 q.2.1 q.2.2)
      (Set.Icc lo0 hi0 ×ˢ (Set.Icc lo1 hi1 ×ˢ Set.Icc lo2 hi2))) (m nT : Option ℕ) {ε : ℝ} (hε : 0 < ε) :
    ∃ M : ℕ, ∀ nt ≥ M, ∀ nx ≥ 2, ∀ ny ≥ 2, ∃ l : Laser ⟨nx, ny, nt⟩,
      Laser.init "xyt" [lo0, lo1, lo2] [hi0, hi1, hi2] [nx, ny, nt] p m nT = .ok ⟨_, l⟩ ∧
      ∀ (θ slice : ℝ) (q : ℤ) (N : ℕ),
        (WholePart ((1 + slice) * ((nx / 2 : ℕ) - 1)) q → ∀ i, Counts nx q i → ∃ (v : Fin ny → Fin N → ℝ) (l' : Laser ⟨nx, ny, nt⟩),
          getFullField θ slice "x" (some N) l = (.ok (some ⟨ny, N, v, (lo2, hi2, lo0, hi0)⟩), l') ∧
          ∀ j k, |v j k - (F (linspace lo0 hi0 nx i) (linspace lo1 hi1 ny j) (linspace lo2 hi2 N k) *
            exp (-I * p.omega0 * linspace lo2 hi2 N k)).re| ≤ ε) ∧
        (WholePart ((1 + slice) * ((ny / 2 : ℕ) - 1)) q → ∀ j, Counts ny q j → ∃ (v : Fin nx → Fin N → ℝ) (l' : Laser ⟨nx, ny, nt⟩),
          getFullField θ slice "y" (some N) l = (.ok (some ⟨nx, N, v, (lo2, hi2, lo0, hi0)⟩), l') ∧
          ∀ i k, |v i k - (F (linspace lo0 hi0 nx i) (linspace lo1 hi1 ny j) (linspace lo2 hi2 N k) *
            exp (-I * p.omega0 * linspace lo2 hi2 N k)).re| ≤ ε) := by
  have hK : IsCompact (Set.Icc lo0 hi0 ×ˢ (Set.Icc lo1 hi1 ×ˢ Set.Icc lo2 hi2)) :=
    isCompact_Icc.prod (isCompact_Icc.prod isCompact_Icc)
  obtain ⟨δ, hδ, hu⟩ := Metric.uniformContinuousOn_iff_le.1 (hK.uniformContinuousOn_of_continuous hcont) (ε / 10) (by positivity)
  obtain ⟨M, hM⟩ := exists_nat_gt ((hi2 - lo2) / δ)
  refine ⟨max 2 (M + 1), fun nt hnt nx hx ny hy => ?_⟩
  have ht2 : 2 ≤ nt := le_trans (le_max_left _ _) hnt
  have htM : M + 1 ≤ nt := le_trans (le_max_right _ _) hnt
  have hstep : (hi2 - lo2) / ((nt : ℝ) - 1) ≤ δ := by
    have h3 : ((M : ℕ) : ℝ) + 1 ≤ nt := by exact_mod_cast htM
    have h4 : 0 < (hi2 - lo2) / δ := div_pos (by linarith) hδ
    have h5 : (2 : ℝ) ≤ nt := by exact_mod_cast ht2
    rw [div_lt_iff₀ hδ] at hM
    rw [div_le_iff₀ (by linarith)]
    nlinarith
  obtain ⟨l, hl, hf⟩ := C14_unscaled_xyt lo0 lo1 lo2 hi0 hi1 hi2 nx ny nt hx hy ht2 p hp hd F hF m nT
  obtain ⟨⟨x, y, hgeo, hxl, hxh⟩, htl, hth, hpts, hpr⟩ := init_xyt_axes hl
  have near : ∀ (i : Fin nx) (j : Fin ny) (N : ℕ) (k : Fin N) (k' : Fin nt),
      |linspace lo2 hi2 nt k' - linspace lo2 hi2 N k| ≤ (hi2 - lo2) / ((nt : ℝ) - 1) →
      ‖F (linspace lo0 hi0 nx i) (linspace lo1 hi1 ny j) (linspace lo2 hi2 nt k') -
        F (linspace lo0 hi0 nx i) (linspace lo1 hi1 ny j) (linspace lo2 hi2 N k)‖ ≤ ε / 10 := by
    intro i j N k k' hk
    have := hu (linspace lo0 hi0 nx i, linspace lo1 hi1 ny j, linspace lo2 hi2 nt k')
      ⟨linspace_mem h0 i, linspace_mem h1 j, linspace_mem h2.le k'⟩
      (linspace lo0 hi0 nx i, linspace lo1 hi1 ny j, linspace lo2 hi2 N k)
      ⟨linspace_mem h0 i, linspace_mem h1 j, linspace_mem h2.le k⟩ (by
        simp only [Prod.dist_eq, dist_self, Real.dist_eq]
        exact max_le hδ.le (max_le hδ.le (hk.trans hstep)))
    rwa [dist_eq_norm] at this
  refine ⟨l, hl, fun θ slice q N => ?_⟩
  obtain ⟨c1, c2⟩ := C160_xyt l _ hf ht2 (by rw [htl, hth]; exact h2) (by rw [hpts, htl, hth]; exact fun _ => rfl) hgeo θ slice q N
  rw [htl, hth, hxl, hxh, hpts, hpr] at c1 c2
  constructor
  · intro hq i hi
    obtain ⟨v, l', e, -, hv⟩ := c1 hq i hi
    refine ⟨v, l', e, fun j k => ?_⟩
    have := hv j k _ _ fun k' hk' => near i j N k k' hk'
    linarith
  · intro hq j hj
    obtain ⟨v, l', e, -, hv⟩ := c2 hq j hj
    refine ⟨v, l', e, fun i k => ?_⟩
    have := hv i k _ _ fun k' hk' => near i j N k k' hk'
    linarith

theorem init_rt_axes {lo0 lo1 hi0 hi1 : ℝ} {nr nt n : ℕ} {p : ProfileObj} {nT : Option ℕ}
    {l : Laser ⟨2 * n - 1, nr, nt⟩} (h : Laser.init "rt" [lo0, lo1] [hi0, hi1] [nr, nt] p (some n) nT = .ok ⟨_, l⟩) :
    (∃ (hn : 1 ≤ n ∧ (2 * n - 1) = 2 * n - 1) (r : Axis nr), l.grid.geom = .rt n hn r ∧ r.hi = hi0) ∧ l.grid.t.lo = lo1 ∧
      l.grid.t.hi = hi1 ∧ l.grid.t.pts = linspace lo1 hi1 nt ∧ l.profile = p := by
  obtain ⟨g, f, hg, -, hgeo, ht, hp, -⟩ := Laser.init_facts h
  obtain ⟨-, -, -, -, hc⟩ := Grid.init_ok hg
  rcases hc with ⟨l0, l1, u0, u1, m', r, t, rest, e1, e2, e3, e4, e5, e6, e7, e8, hm, e9⟩ |
    ⟨l0, l1, l2, u0, u1, u2, x, y, t, e1, -⟩
  swap
  · exact absurd e1 (by decide)
  obtain rfl : n = m' := by simpa using e5
  simp only [List.cons.injEq, and_true] at e2 e3
  obtain ⟨rfl, rfl⟩ := e2
  obtain ⟨rfl, rfl⟩ := e3
  obtain ⟨_, hr⟩ := mkAxis_ok e6
  obtain ⟨_, ht'⟩ := mkAxis_ok e7
  exact ⟨⟨hm, r, hgeo.trans e9, by rw [hr]⟩, by rw [ht, e8, ht'], by rw [ht, e8, ht'], by rw [ht, e8, ht'], hp⟩

/-- **C160** (fine grids, cylindrical, round profiles). Both halves of the image approximate the real field, at every angle and
with any number of azimuthal modes. -/
theorem C160_fine_rt (R lo1 hi1 : ℝ) (hR : 0 ≤ R) (h1 : lo1 < hi1) (p : ProfileObj) (hp : p.laserEnergy = none) (G : ℝ → ℝ → ℂ)
    (hF : p.Pointwise fun x y t => G (Real.sqrt (x ^ 2 + y ^ 2)) t)
    (hcont : ContinuousOn (fun q : ℝ × ℝ => G q.1 q.2) (Set.Icc 0 R ×ˢ Set.Icc lo1 hi1)) {ε : ℝ} (hε : 0 < ε) :
    ∃ M : ℕ, ∀ nt ≥ M, ∀ nr ≥ 2, ∀ n ≥ 1, ∃ l : Laser ⟨2 * n - 1, nr, nt⟩,
      Laser.init "rt" [0, lo1] [R, hi1] [nr, nt] p (some n) none = .ok ⟨_, l⟩ ∧
      ∀ (θ slice : ℝ) (ax : String) (N : ℕ), ∃ (v : Fin (2 * nr - 1) → Fin N → ℝ) (l' : Laser ⟨2 * n - 1, nr, nt⟩),
        getFullField θ slice ax (some N) l = (.ok (some ⟨2 * nr - 1, N, v, (lo1, hi1, -R, R)⟩), l') ∧
        ∀ (j : Fin nr) k,
          |v ⟨nr - 1 + j, by omega⟩ k - (G (linspace 0 R nr j) (linspace lo1 hi1 N k) *
            exp (-I * p.omega0 * linspace lo1 hi1 N k)).re| ≤ ε ∧
          |v ⟨nr - 1 - j, by omega⟩ k - (G (linspace 0 R nr j) (linspace lo1 hi1 N k) *
            exp (-I * p.omega0 * linspace lo1 hi1 N k)).re| ≤ ε := by
  have hK : IsCompact (Set.Icc 0 R ×ˢ Set.Icc lo1 hi1) := isCompact_Icc.prod isCompact_Icc
  obtain ⟨δ, hδ, hu⟩ := Metric.uniformContinuousOn_iff_le.1 (hK.uniformContinuousOn_of_continuous hcont) (ε / 10) (by positivity)
  obtain ⟨M, hM⟩ := exists_nat_gt ((hi1 - lo1) / δ)
  refine ⟨max 2 (M + 1), fun nt hnt nr hr n hn => ?_⟩
  have ht2 : 2 ≤ nt := le_trans (le_max_left _ _) hnt
  have htM : M + 1 ≤ nt := le_trans (le_max_right _ _) hnt
  have hstep : (hi1 - lo1) / ((nt : ℝ) - 1) ≤ δ := by
    have h3 : ((M : ℕ) : ℝ) + 1 ≤ nt := by exact_mod_cast htM
    have h4 : 0 < (hi1 - lo1) / δ := div_pos (by linarith) hδ
    have h5 : (2 : ℝ) ≤ nt := by exact_mod_cast ht2
    rw [div_lt_iff₀ hδ] at hM
    rw [div_le_iff₀ (by linarith)]
    nlinarith
  obtain ⟨l, f, hl, hf, hval, -⟩ := round_unscaled R lo1 hi1 hR nr nt n hr ht2 hn p hp G hF
  obtain ⟨⟨hm, r, hgeo, hrh⟩, htl, hth, hpts, hpr⟩ := init_rt_axes hl
  have henv : ∀ θ j k, envelopeAt (s := ⟨2 * n - 1, nr, nt⟩) hm f θ j k = G (linspace 0 R nr j) (linspace lo1 hi1 nt k) := by
    intro θ j k
    unfold envelopeAt
    rw [Finset.sum_eq_single (⟨0, by omega⟩ : Fin (2 * n - 1))]
    · have h00 : modeAt n (Fin.cast hm.2 (⟨0, by omega⟩ : Fin (2 * n - 1))) = 0 := by
        unfold modeAt
        rw [if_pos (by simp; omega)]
        simp
      rw [hval, if_pos rfl, h00]
      simp
    · intro i _ hi
      rw [hval, if_neg (fun h => hi (Fin.ext h)), zero_mul]
    · simp
  have near : ∀ (j : Fin nr) (N : ℕ) (k : Fin N) (k' : Fin nt),
      |linspace lo1 hi1 nt k' - linspace lo1 hi1 N k| ≤ (hi1 - lo1) / ((nt : ℝ) - 1) →
      ‖G (linspace 0 R nr j) (linspace lo1 hi1 nt k') - G (linspace 0 R nr j) (linspace lo1 hi1 N k)‖ ≤ ε / 10 := by
    intro j N k k' hk
    have := hu (linspace 0 R nr j, linspace lo1 hi1 nt k') ⟨linspace_mem hR j, linspace_mem h1.le k'⟩
      (linspace 0 R nr j, linspace lo1 hi1 N k) ⟨linspace_mem hR j, linspace_mem h1.le k⟩ (by
        simp only [Prod.dist_eq, dist_self, Real.dist_eq]
        exact max_le hδ.le (hk.trans hstep))
    rwa [dist_eq_norm] at this
  refine ⟨l, hl, fun θ slice ax N => ?_⟩
  obtain ⟨v, l', e, -, hv⟩ := C160_rt l f hf ht2 (by rw [htl, hth]; exact h1) (by rw [hpts, htl, hth]; exact fun _ => rfl) hgeo
    θ slice ax N
  rw [htl, hth, hrh] at e
  rw [htl, hth, hpts, hpr] at hv
  refine ⟨v, l', e, fun j k => ?_⟩
  obtain ⟨c1, c2⟩ := hv j k (G (linspace 0 R nr j) (linspace lo1 hi1 N k)) (ε / 10)
  have c1 := c1 fun k' hk' => by rw [henv]; exact near j N k k' hk'
  constructor
  · linarith
  · rcases Nat.eq_zero_or_pos (j : ℕ) with h0 | h0
    · have : (⟨nr - 1 - j, by omega⟩ : Fin (2 * nr - 1)) = ⟨nr - 1 + j, by omega⟩ := Fin.ext (by simp [h0])
      rw [this]
      linarith
    · have := c2 h0 fun k' hk' => by rw [henv]; exact near j N k k' hk'
      linarith

/-! ## The same for profiles made from arrays -/

omit [Phys] in
/-- **C146** (in time; `_partial`: at the transverse nodes). For arbitrary data, with zeros and with any phase, the profile at a
time `r` differs by at most `10 eta` from every number that differs by at most `eta` from the samples within one time step. -/
theorem C146_zeros_partial {a b c : ℕ} (x : Fin a → ℝ) (y : Fin b → ℝ) (t : Fin c → ℝ) (ha : 2 ≤ a) (hb : 2 ≤ b)
    (hc : 2 ≤ c) (hx : Ascending x) (hy : Ascending y) (ht : Ascending t) {δ : ℝ} (hδ : Gaps t δ)
    (f : Fin a → Fin b → Fin c → ℂ) (i : Fin a) (j : Fin b) {r η : ℝ} (hr : Inside t r) (w : ℂ)
    (hw : ∀ k, |t k - r| ≤ δ → ‖f i j k - w‖ ≤ η) :
    ∃ p, FromArray.init "xyt" (nd3 f) { x := some ⟨a, x⟩, y := some ⟨b, y⟩, t := some ⟨c, t⟩ } = .ok p ∧
      ‖p.evaluate (x i) (y j) r - w‖ ≤ 10 * η := by
  refine ⟨_, fromArray_xyt x y t ha hb hc hx hy ht f, ?_⟩
  have collapse : ∀ v : Fin a → Fin b → Fin c → ℝ, interp3 x y t v (x i) (y j) r = ∑ k, linWeight t r k * v i j k := by
    intro v
    unfold interp3
    rw [if_pos ⟨inside_node x i, inside_node y j, hr⟩]
    simp only [linWeight_node ha hx, linWeight_node hb hy]
    simp [Finset.sum_ite_eq']
  have := resample_close hc ht (f i j) hr hδ hw
  have h0 : 0 ≤ ∑ k, linWeight t r k * ‖f i j k‖ :=
    Finset.sum_nonneg fun k _ => mul_nonneg (linWeight_nonneg hc ht hr k) (norm_nonneg _)
  rw [← abs_of_nonneg h0] at this
  rw [← collapse (fun i j k => ‖f i j k‖), ← collapse (fun i j => unwrap fun k => angle (f i j k))] at this
  exact this

/-- a profile `E = t`, for the example -/
noncomputable def rampProfile : ProfileObj where
  omega0 := 1
  lambda0 := 1
  pol := (1, 0)
  laserEnergy := none
  dtype := .c128
  evaluate := fun _ _ t i j k => (t i j k : ℂ)

/-- C160 is not vacuous: a profile whose envelope changes sign in time, with the planes of ten points -/
example : ∃ (p : ProfileObj) (F : ℝ → ℝ → ℝ → ℂ), p.laserEnergy = none ∧ p.dtype = .c128 ∧ p.Pointwise F ∧
    Continuous (fun q : ℝ × ℝ × ℝ => F q.1 q.2.1 q.2.2) ∧ F 0 0 (-1) = -1 ∧ F 0 0 0 = 0 ∧ F 0 0 1 = 1 ∧
    WholePart ((1 + 0) * ((10 / 2 : ℕ) - 1)) 4 ∧ Counts 10 4 4 := by
  refine ⟨rampProfile, fun _ _ t => (t : ℂ), rfl, rfl, ?_, ?_, by simp, by simp, by simp,
    Or.inl ⟨by norm_num, by norm_num, by norm_num⟩, Or.inl rfl⟩
  · intro n0 n1 n2 x y t i j k
    rfl
  · fun_prop

end Lasy
