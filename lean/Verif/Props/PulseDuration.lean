import Verif.Props.GaussianPeak
import Mathlib.MeasureTheory.Integral.Gamma

/-!
# Property C134: the duration of a pulse made of a transverse and a longitudinal profile
-/

namespace Lasy
open Spec Phys Complex MeasureTheory

variable [Phys] {s : Shape}

/-! ## Separable pulses -/

/-- the field of a new laser whose profile is a product of a transverse and a longitudinal part is such a product, in both
geometries and with or without an energy -/
theorem init_separable {dim : String} {lo hi : List ℝ} {np : List ℕ} {p : ProfileObj} {m N : Option ℕ} {l : Laser s}
    (h : Laser.init dim lo hi np p m N = .ok ⟨s, l⟩) (T : ℝ → ℝ → ℂ) (L : ℝ → ℂ)
    (hF : p.Pointwise fun x y t => T x y * L t) :
    ∃ A : Fin s.n0 → Fin s.n1 → ℂ, l.Has fun i j k => A i j * L (l.grid.t.pts k) := by
  obtain ⟨g, f, l1, e1, e2, e3, h1, hg, ht, hc⟩ := Laser.init_ok h
  have hs : ∃ A : Fin s.n0 → Fin s.n1 → ℂ, f = fun i j k => A i j * L (g.t.pts k) := by
    unfold Laser.sample at e2
    rcases hgeo : g.geom with ⟨x, y⟩ | ⟨n, hn, r⟩
    · rw [hgeo] at e2
      simp only [Except.ok.injEq] at e2
      refine ⟨fun i j => T (x.pts i) (y.pts j), ?_⟩
      have := congrArg (fun a : NdArray => a.content s) e2
      simp only [Arr.toNd_content] at this
      rw [← this]
      funext i j k
      rw [hF]
    · rw [hgeo] at e2
      simp only at e2
      split at e2
      · simp only [Except.ok.injEq] at e2
        have := congrArg (fun a : NdArray => a.content s) e2
        simp only [Arr.toNd_content] at this
        rename_i hN
        refine ⟨fun i j => ifft (fun q => T (r.pts j * Real.cos (2 * Real.pi / ((N.getD (2 * n - 1) : ℕ) : ℝ) * ((q : ℕ) : ℝ)))
          (r.pts j * Real.sin (2 * Real.pi / ((N.getD (2 * n - 1) : ℕ) : ℝ) * ((q : ℕ) : ℝ))))
          (Laser.pickModes n _ hN hn.1 (Fin.cast hn.2 i)), ?_⟩
        rw [← this]
        funext i j k
        simp only [ifft_eq_chr, Laser.sampleTheta]
        rw [div_mul_eq_mul_div, Finset.sum_mul]
        congr 1
        refine Finset.sum_congr rfl fun q _ => ?_
        rw [hF]
        ring
      · cases e2
  obtain ⟨A, hA⟩ := hs
  obtain ⟨g0, f', e1', hf', -, ht', -⟩ := Laser.init_facts h
  have hgg : g0 = g := by
    rw [e1] at e1'
    simpa using e1'.symm
  rw [hgg] at ht'
  have key : ∃ a : ℝ, f' = fun i j k => f i j k * (a : ℂ) := by
    rcases hc with ⟨-, rfl⟩ | ⟨e, -, hn⟩
    · exact ⟨1, by rw [hf'.unique h1]; simp⟩
    · simp only [Laser.normalize, if_true] at hn
      cases e with
      | none =>
        have : l = l1 := by
          have := congrArg Prod.snd hn
          simpa [Laser.onGrid, normalizeEnergy] using this.symm
        subst this
        exact ⟨1, by rw [hf'.unique h1]; simp⟩
      | some E =>
        by_cases hE : pulseEnergy l1.grid f = 0
        · obtain ⟨g2, e2, h2, -⟩ := Grid.Holds.normEnergy_zero h1 E hE
          rw [onGrid_eq e2] at hn
          have : l = { l1 with grid := g2 } := by simpa using hn.symm
          subst this
          exact ⟨1, by rw [hf'.unique h2]; simp⟩
        · obtain ⟨g2, e2, h2, -⟩ := Grid.Holds.normEnergy h1 E hE
          rw [onGrid_eq e2] at hn
          have : l = { l1 with grid := g2 } := by simpa using hn.symm
          subst this
          exact ⟨_, hf'.unique h2⟩
  obtain ⟨a, ha⟩ := key
  refine ⟨fun i j => A i j * a, ?_⟩
  rw [ha, hA] at hf'
  have : (fun i j k => A i j * (a : ℂ) * L (l.grid.t.pts k)) = fun i j k => A i j * L (g.t.pts k) * (a : ℂ) := by
    funext i j k
    rw [ht']
    ring
  rw [this]
  exact hf'

/-- **C134.** The duration of a pulse that is a product of a transverse and a longitudinal profile is the root mean square
duration of the samples of the longitudinal profile alone: it does not depend on the transverse profile, the transverse grid,
the geometry, the number of azimuthal modes or the energy (as long as there is some). -/
theorem C134_separable {dim : String} {lo hi : List ℝ} {np : List ℕ} {p : ProfileObj} {m N : Option ℕ} {l : Laser s}
    (h : Laser.init dim lo hi np p m N = .ok ⟨s, l⟩) (T : ℝ → ℝ → ℂ) (L : ℝ → ℂ)
    (hF : p.Pointwise fun x y t => T x y * L t) (E : ℝ) (hE : l.energy = .ok E) (hE0 : E ≠ 0) (mean : ℝ)
    (hmean : mean = (∑ k, l.grid.t.pts k * ‖L (l.grid.t.pts k)‖ ^ 2) / ∑ k, ‖L (l.grid.t.pts k)‖ ^ 2) :
    (getDuration l.grid).1 = .ok (Real.sqrt
      ((∑ k, (l.grid.t.pts k - mean) ^ 2 * ‖L (l.grid.t.pts k)‖ ^ 2) / ∑ k, ‖L (l.grid.t.pts k)‖ ^ 2)) := by
  obtain ⟨A, hA⟩ := init_separable h T L hF
  set W := ∑ i, ∑ j, ‖A i j‖ ^ 2 * l.grid.cellVolume j with hW
  have hP : ∀ k, ∑ i, ∑ j, ‖A i j * L (l.grid.t.pts k)‖ ^ 2 * l.grid.cellVolume j = W * ‖L (l.grid.t.pts k)‖ ^ 2 := by
    intro k
    rw [hW, Finset.sum_mul]
    refine Finset.sum_congr rfl fun i _ => ?_
    rw [Finset.sum_mul]
    refine Finset.sum_congr rfl fun j _ => ?_
    rw [norm_mul]
    ring
  have hS : ∑ k, ∑ i, ∑ j, ‖A i j * L (l.grid.t.pts k)‖ ^ 2 * l.grid.cellVolume j ≠ 0 := by
    have e := hA.energy
    rw [hE] at e
    intro h0
    apply hE0
    rw [Except.ok.inj e]
    rw [Finset.sum_comm] at h0
    rw [Finset.sum_congr rfl fun i _ => Finset.sum_comm] at h0
    have : ∑ i, ∑ j, ∑ k, l.grid.cellVolume j * ‖A i j * L (l.grid.t.pts k)‖ ^ 2 = 0 := by
      rw [← h0]
      exact Finset.sum_congr rfl fun i _ => Finset.sum_congr rfl fun j _ => Finset.sum_congr rfl fun k _ => mul_comm _ _
    rw [this, mul_zero]
  have hWS : W * ∑ k, ‖L (l.grid.t.pts k)‖ ^ 2 ≠ 0 := by
    rwa [Finset.sum_congr rfl fun k _ => hP k, ← Finset.mul_sum] at hS
  have hW0 : W ≠ 0 := left_ne_zero_of_mul hWS
  obtain ⟨mean', hm', hD⟩ := C56_duration_is_rms hA (fun k => W * ‖L (l.grid.t.pts k)‖ ^ 2) (fun k => (hP k).symm)
    (by rwa [← Finset.mul_sum])
  have pull : ∀ w : Fin s.nt → ℝ, ∑ k, w k * (W * ‖L (l.grid.t.pts k)‖ ^ 2) = W * ∑ k, w k * ‖L (l.grid.t.pts k)‖ ^ 2 := by
    intro w
    rw [Finset.mul_sum]
    exact Finset.sum_congr rfl fun k _ => by ring
  have hmm : mean' = mean := by
    rw [hm', hmean, pull, ← Finset.mul_sum, mul_div_mul_left _ _ hW0]
  rw [hD, hmm, pull, ← Finset.mul_sum, mul_div_mul_left _ _ hW0]

/-! ## Fine grids in large windows -/

/-- the time axis of a new laser: from the last entry of `lo` to the last entry of `hi` -/
theorem init_time_axis {dim : String} {lo hi : List ℝ} {np : List ℕ} {p : ProfileObj} {m N : Option ℕ} {l : Laser s}
    (h : Laser.init dim lo hi np p m N = .ok ⟨s, l⟩) {a b : ℝ} (ha : lo.getLast? = some a) (hb : hi.getLast? = some b) :
    l.grid.t.pts = linspace a b s.nt := by
  obtain ⟨g, f, hg, -, -, ht, -⟩ := Laser.init_facts h
  obtain ⟨-, -, -, -, hc⟩ := Grid.init_ok hg
  rcases hc with ⟨l0, l1, u0, u1, m', r, t, rest, e1, e2, e3, e4, e5, e6, e7, e8, hm, e9⟩ |
    ⟨l0, l1, l2, u0, u1, u2, x, y, t, e1, e2, e3, e4, e5, e6, e7, e8, e9⟩
  all_goals
    subst e2 e3
    simp only [List.getLast?_cons_cons, List.getLast?_singleton, Option.some.injEq] at ha hb
    subst ha hb
    obtain ⟨_, ht2⟩ := mkAxis_ok e7
    rw [ht, e8, ht2]

omit [Phys] in
/-- sums over the points of an axis converge to the integral -/
theorem linSum_tendsto {a b : ℝ} (h : a ≤ b) {G : ℝ → ℝ} (hG : ContinuousOn G (Set.Icc a b)) :
    Filter.Tendsto (fun n : ℕ => linSum a b n G) Filter.atTop (nhds (∫ t in a..b, G t)) := by
  rw [Metric.tendsto_atTop]
  intro ε hε
  have hc : Continuous fun q : Unit × ℝ => G (clampTo a b q.2) :=
    (hG.comp_continuous (continuous_clampTo a b) fun x => clampTo_mem h x).comp continuous_snd
  obtain ⟨N, -, key⟩ := (quad_lin h).conv (K := (Set.univ : Set Unit)) isCompact_univ (F := fun _ t => G (clampTo a b t)) hc
    (half_pos hε)
  refine ⟨N, fun n hn => ?_⟩
  have := key n hn () (Set.mem_univ _)
  rw [linSum_congr h n (g := G) fun t ht => by rw [clampTo_of_mem ht],
    integral_congr_Icc h (g := G) fun t ht => by rw [clampTo_of_mem ht]] at this
  rw [Real.dist_eq]
  linarith

/-- **C134** (fine grids). When the number of points in time grows, the duration of every laser with a profile that is a
product of a transverse and a continuous longitudinal part converges to the root mean square duration of the longitudinal
part in the window `[a, b]` - uniformly: the number of points that is needed for a given accuracy does not depend on anything
but the longitudinal profile and the window. -/
theorem C134_fine {a b : ℝ} (hab : a < b) (L : ℝ → ℂ) (hL : ContinuousOn L (Set.Icc a b)) (total mean : ℝ)
    (htotal : total = ∫ t in a..b, ‖L t‖ ^ 2) (hnz : total ≠ 0) (hmean : mean = (∫ t in a..b, t * ‖L t‖ ^ 2) / total)
    {ε : ℝ} (hε : 0 < ε) :
    ∃ n : ℕ, ∀ {s : Shape} {dim : String} {lo hi : List ℝ} {np : List ℕ} {p : ProfileObj} {m N : Option ℕ} {l : Laser s}
      {T : ℝ → ℝ → ℂ} {E : ℝ}, Laser.init dim lo hi np p m N = .ok ⟨s, l⟩ → lo.getLast? = some a → hi.getLast? = some b →
      n ≤ s.nt → p.Pointwise (fun x y t => T x y * L t) → l.energy = .ok E → E ≠ 0 →
      ∃ D, (getDuration l.grid).1 = .ok D ∧
        |D - Real.sqrt ((∫ t in a..b, (t - mean) ^ 2 * ‖L t‖ ^ 2) / total)| ≤ ε := by
  have hI : ContinuousOn (fun t => ‖L t‖ ^ 2) (Set.Icc a b) := hL.norm.pow 2
  have b0 := linSum_tendsto hab.le hI
  have b1 := linSum_tendsto hab.le (G := fun t => t * ‖L t‖ ^ 2) (continuousOn_id.mul hI)
  have b2 := linSum_tendsto hab.le (G := fun t => (t - mean) ^ 2 * ‖L t‖ ^ 2)
    (((continuousOn_id.sub continuousOn_const).pow 2).mul hI)
  rw [← htotal] at b0
  have key := (rms_tendsto hnz b0 b1 b2).eventually (Metric.closedBall_mem_nhds _ hε)
  have hne := b0.eventually_ne hnz
  obtain ⟨n, hn⟩ := Filter.eventually_atTop.1 (key.and hne)
  refine ⟨max n 2, fun {s dim lo hi np p m N l T E} h hlo hhi hs hF hE hE0 => ?_⟩
  obtain ⟨k1, k2⟩ := hn s.nt (le_trans (le_max_left _ _) hs)
  have hpts := init_time_axis h hlo hhi
  have h2 : (2 : ℝ) ≤ s.nt := by exact_mod_cast (le_trans (le_max_right _ _) hs)
  have hd : (b - a) / ((s.nt : ℝ) - 1) ≠ 0 := (div_pos (by linarith) (by linarith)).ne'
  have hsum : ∀ w : ℝ → ℝ, linSum a b s.nt w = (b - a) / ((s.nt : ℝ) - 1) * ∑ k, w (l.grid.t.pts k) := by
    intro w
    rw [hpts]
    rfl
  have hS : ∑ k, ‖L (l.grid.t.pts k)‖ ^ 2 ≠ 0 := by
    rw [hsum] at k2
    exact right_ne_zero_of_mul k2
  refine ⟨_, C134_separable h T L hF E hE hE0 _ rfl, ?_⟩
  rw [variance_about _ _ mean hS]
  simp only [hsum, mul_div_mul_left _ _ hd] at k1
  rw [Real.dist_eq, ← hmean] at k1
  exact k1

omit [Phys] in
/-- integrals over large intervals -/
theorem window_tendsto {G : ℝ → ℝ} (hG : Integrable G) :
    Filter.Tendsto (fun q : ℝ × ℝ => ∫ t in q.1..q.2, G t) (Filter.atBot ×ˢ Filter.atTop) (nhds (∫ t, G t)) :=
  intervalIntegral_tendsto_integral hG Filter.tendsto_fst Filter.tendsto_snd

omit [Phys] in
theorem window_eventually {Q : ℝ × ℝ → Prop} (h : ∀ᶠ q in Filter.atBot ×ˢ Filter.atTop, Q q) :
    ∃ W : ℝ, 0 < W ∧ ∀ a ≤ -W, ∀ b ≥ W, Q (a, b) := by
  rw [Filter.eventually_prod_iff] at h
  obtain ⟨pa, ha, pb, hb, h⟩ := h
  obtain ⟨A, hA⟩ := Filter.eventually_atBot.1 ha
  obtain ⟨B, hB⟩ := Filter.eventually_atTop.1 hb
  refine ⟨max 1 (max (-A) B), by positivity, fun a ha b hb => h (hA _ ?_) (hB _ ?_)⟩
  · have : -A ≤ max 1 (max (-A) B) := (le_max_left _ _).trans (le_max_right _ _)
    linarith
  · exact ((le_max_right _ _).trans (le_max_right _ _)).trans hb

/-- **C134** (large windows). In every window that is large enough and with enough points in time, the duration is, up to any
given error, the root mean square duration of the longitudinal profile, whatever the rest of the laser is. -/
theorem C134_window (L : ℝ → ℂ) (hL : Continuous L) (hI : Integrable fun t => ‖L t‖ ^ 2)
    (hI2 : Integrable fun t => t ^ 2 * ‖L t‖ ^ 2) (total mean : ℝ)
    (htotal : total = ∫ t, ‖L t‖ ^ 2) (hnz : total ≠ 0) (hmean : mean = (∫ t, t * ‖L t‖ ^ 2) / total)
    {ε : ℝ} (hε : 0 < ε) :
    ∃ W : ℝ, 0 < W ∧ ∀ a ≤ -W, ∀ b ≥ W,
    ∃ n : ℕ, ∀ {s : Shape} {dim : String} {lo hi : List ℝ} {np : List ℕ} {p : ProfileObj} {m N : Option ℕ} {l : Laser s}
      {T : ℝ → ℝ → ℂ} {E : ℝ}, Laser.init dim lo hi np p m N = .ok ⟨s, l⟩ → lo.getLast? = some a → hi.getLast? = some b →
      n ≤ s.nt → p.Pointwise (fun x y t => T x y * L t) → l.energy = .ok E → E ≠ 0 →
      ∃ D, (getDuration l.grid).1 = .ok D ∧
        |D - Real.sqrt ((∫ t, (t - mean) ^ 2 * ‖L t‖ ^ 2) / total)| ≤ ε := by
  have hc : Continuous fun t => ‖L t‖ ^ 2 := hL.norm.pow 2
  have hI1 : Integrable fun t => t * ‖L t‖ ^ 2 := by
    refine (hI.add hI2).mono' (by fun_prop) (Filter.Eventually.of_forall fun t => ?_)
    rw [Real.norm_eq_abs, abs_mul, abs_of_nonneg (by positivity : (0 : ℝ) ≤ ‖L t‖ ^ 2)]
    simp only [Pi.add_apply]
    have h1 : |t| ≤ 1 + t ^ 2 := by
      rw [← sq_abs t]
      nlinarith [sq_nonneg (|t| - 1), abs_nonneg t]
    nlinarith [sq_nonneg ‖L t‖, mul_le_mul_of_nonneg_right h1 (sq_nonneg ‖L t‖)]
  have hI2' : Integrable fun t => (t - mean) ^ 2 * ‖L t‖ ^ 2 := by
    have e : (fun t => (t - mean) ^ 2 * ‖L t‖ ^ 2) =
        fun t => t ^ 2 * ‖L t‖ ^ 2 - 2 * mean * (t * ‖L t‖ ^ 2) + mean ^ 2 * ‖L t‖ ^ 2 := by
      funext t
      ring
    rw [e]
    exact (hI2.sub (hI1.const_mul _)).add (hI.const_mul _)
  have b0 := window_tendsto hI
  have b1 := window_tendsto hI1
  have b2 := window_tendsto hI2'
  rw [← htotal] at b0
  have key := (rms_tendsto hnz b0 b1 b2).eventually (Metric.closedBall_mem_nhds _ (half_pos hε))
  obtain ⟨W, hW, h⟩ := window_eventually (key.and (b0.eventually_ne hnz))
  refine ⟨W, hW, fun a ha b hb => ?_⟩
  obtain ⟨k1, k2⟩ := h a ha b hb
  simp only at k1 k2
  rw [← hmean, Real.dist_eq] at k1
  obtain ⟨n, hn⟩ := C134_fine (by linarith : a < b) L hL.continuousOn _ _ rfl k2 rfl (half_pos hε)
  refine ⟨n, fun {s dim lo hi np p m N l T E} hl hlo hhi hs hF hE hE0 => ?_⟩
  obtain ⟨D, hD, hd⟩ := hn hl hlo hhi hs hF hE hE0
  refine ⟨D, hD, ?_⟩
  -- the variance about the mean of the window
  have hv : ∀ M : ℝ, (∫ t in a..b, (t - M) ^ 2 * ‖L t‖ ^ 2) = (∫ t in a..b, t ^ 2 * ‖L t‖ ^ 2) -
      2 * M * (∫ t in a..b, t * ‖L t‖ ^ 2) + M ^ 2 * ∫ t in a..b, ‖L t‖ ^ 2 := by
    intro M
    rw [← intervalIntegral.integral_const_mul, ← intervalIntegral.integral_const_mul, ← intervalIntegral.integral_sub,
      ← intervalIntegral.integral_add]
    · congr 1
      funext t
      ring
    all_goals exact Continuous.intervalIntegrable (by fun_prop) _ _
  have e : (∫ t in a..b, (t - (∫ t in a..b, t * ‖L t‖ ^ 2) / ∫ t in a..b, ‖L t‖ ^ 2) ^ 2 * ‖L t‖ ^ 2) /
      (∫ t in a..b, ‖L t‖ ^ 2) = (∫ t in a..b, (t - mean) ^ 2 * ‖L t‖ ^ 2) / (∫ t in a..b, ‖L t‖ ^ 2) -
      ((∫ t in a..b, t * ‖L t‖ ^ 2) / (∫ t in a..b, ‖L t‖ ^ 2) - mean) ^ 2 := by
    rw [hv, hv]
    field_simp
    ring
  rw [e] at hd
  refine (abs_sub_le _ _ _).trans (le_trans (add_le_add hd k1) (by linarith))

/-! ## Gaussian and super-Gaussian pulses -/

omit [Phys] in
/-- moments of `exp(-b |t - t0|^n)` -/
theorem bell_moment {b n : ℝ} (hb : 0 < b) (hn : 0 < n) (t0 : ℝ) (k : ℕ) :
    Integrable (fun t : ℝ => |t - t0| ^ (k : ℝ) * Real.exp (-b * |t - t0| ^ n)) ∧
    ∫ t : ℝ, |t - t0| ^ (k : ℝ) * Real.exp (-b * |t - t0| ^ n) =
      2 * (b ^ (-((k : ℝ) + 1) / n) * (1 / n) * Real.Gamma (((k : ℝ) + 1) / n)) := by
  have hk : (-1 : ℝ) < k := by
    have : (0 : ℝ) ≤ k := by positivity
    linarith
  constructor
  · have h1 : Integrable ((Set.Ioi (0 : ℝ)).indicator fun t : ℝ => t ^ (k : ℝ) * Real.exp (-b * t ^ n)) :=
      (integrableOn_rpow_mul_exp_neg_mul_rpow hk hn hb).integrable_indicator measurableSet_Ioi
    have h2 : Integrable fun t : ℝ => |t| ^ (k : ℝ) * Real.exp (-b * |t| ^ n) := by
      refine (h1.add h1.comp_neg).congr ?_
      have h0 : ∀ᵐ t : ℝ, t ≠ 0 := by simp [ae_iff]
      filter_upwards [h0] with t ht
      rcases lt_or_gt_of_ne ht with h | h
      · simp [Set.indicator, h, h.not_gt, abs_of_neg h]
      · simp [Set.indicator, h, h.not_gt, abs_of_pos h]
    exact h2.comp_sub_right t0
  · rw [integral_sub_right_eq_self (fun t : ℝ => |t| ^ (k : ℝ) * Real.exp (-b * |t| ^ n)) t0,
      integral_comp_abs (f := fun t : ℝ => t ^ (k : ℝ) * Real.exp (-b * t ^ n)),
      integral_rpow_mul_exp_neg_mul_rpow hn hk hb]

omit [Phys] in
/-- the mean of `exp(-b |t - t0|^n)` is `t0` -/
theorem bell_mean {b n : ℝ} (hb : 0 < b) (hn : 0 < n) (t0 : ℝ) :
    ∫ t : ℝ, t * Real.exp (-b * |t - t0| ^ n) = t0 * ∫ t : ℝ, Real.exp (-b * |t - t0| ^ n) := by
  have h0 := (bell_moment hb hn t0 0).1
  have h1 := (bell_moment hb hn t0 1).1
  simp only [Nat.cast_zero, Real.rpow_zero, one_mul, Nat.cast_one, Real.rpow_one] at h0 h1
  have hodd : ∫ t : ℝ, t * Real.exp (-b * |t| ^ n) = 0 := by
    have := integral_neg_eq_self (fun t : ℝ => t * Real.exp (-b * |t| ^ n)) volume
    simp only [abs_neg, neg_mul] at this ⊢
    rw [integral_neg] at this
    linarith
  have hs : ∫ t : ℝ, (t - t0) * Real.exp (-b * |t - t0| ^ n) = 0 := by
    rw [integral_sub_right_eq_self (fun t : ℝ => t * Real.exp (-b * |t| ^ n)) t0, hodd]
  have hint : Integrable fun t : ℝ => (t - t0) * Real.exp (-b * |t - t0| ^ n) := by
    refine h1.mono ?_ (Filter.Eventually.of_forall fun t => ?_)
    · have : Continuous fun t : ℝ => (t - t0) * Real.exp (-b * |t - t0| ^ n) := by
        have : Continuous fun t : ℝ => |t - t0| ^ n :=
          (continuous_id.sub continuous_const).abs.rpow_const fun _ => Or.inr hn.le
        fun_prop
      exact this.aestronglyMeasurable
    · simp
  have e : (fun t : ℝ => t * Real.exp (-b * |t - t0| ^ n)) =
      fun t => (t - t0) * Real.exp (-b * |t - t0| ^ n) + t0 * Real.exp (-b * |t - t0| ^ n) := by
    funext t
    ring
  rw [e, integral_add hint (h0.const_mul _), hs, zero_add, integral_const_mul]

omit [Phys] in
/-- total, mean and variance of `exp(-b |t - t0|^n)` -/
theorem bell_rms {b n : ℝ} (hb : 0 < b) (hn : 0 < n) (t0 : ℝ) {L : ℝ → ℂ} (hL : ∀ t, ‖L t‖ ^ 2 = Real.exp (-b * |t - t0| ^ n)) :
    (Integrable fun t => ‖L t‖ ^ 2) ∧ (Integrable fun t => t ^ 2 * ‖L t‖ ^ 2) ∧ 0 < (∫ t, ‖L t‖ ^ 2) ∧
    (∫ t, t * ‖L t‖ ^ 2) / (∫ t, ‖L t‖ ^ 2) = t0 ∧
    (∫ t, (t - t0) ^ 2 * ‖L t‖ ^ 2) / (∫ t, ‖L t‖ ^ 2) = b ^ (-2 / n) * (Real.Gamma (3 / n) / Real.Gamma (1 / n)) := by
  simp only [hL]
  obtain ⟨i0, m0⟩ := bell_moment hb hn t0 0
  obtain ⟨i2, m2⟩ := bell_moment hb hn t0 2
  obtain ⟨i1, -⟩ := bell_moment hb hn t0 1
  have e2 : ∀ t : ℝ, |t - t0| ^ (2 : ℝ) = (t - t0) ^ 2 := fun t => by
    rw [show (2 : ℝ) = ((2 : ℕ) : ℝ) by norm_num, Real.rpow_natCast, sq_abs]
  simp only [Nat.cast_zero, Real.rpow_zero, one_mul, zero_add, Nat.cast_ofNat, e2, Nat.cast_one, Real.rpow_one] at i0 m0 i2 m2 i1
  have g1 := Real.Gamma_pos_of_pos (by positivity : (0 : ℝ) < 1 / n)
  have hpos : 0 < ∫ t : ℝ, Real.exp (-b * |t - t0| ^ n) := by
    rw [m0]
    have := Real.rpow_pos_of_pos hb (-1 / n)
    positivity
  have hc : Continuous fun t : ℝ => Real.exp (-b * |t - t0| ^ n) := by
    have : Continuous fun t : ℝ => |t - t0| ^ n :=
      (continuous_id.sub continuous_const).abs.rpow_const fun _ => Or.inr hn.le
    fun_prop
  refine ⟨i0, ?_, hpos, ?_, ?_⟩
  · refine ((i2.const_mul 2).add (i0.const_mul (2 * t0 ^ 2))).mono' (by fun_prop) (Filter.Eventually.of_forall fun t => ?_)
    rw [Real.norm_eq_abs, abs_of_nonneg (by positivity)]
    simp only [Pi.add_apply]
    have : t ^ 2 ≤ 2 * (t - t0) ^ 2 + 2 * t0 ^ 2 := by nlinarith [sq_nonneg (t - 2 * t0)]
    calc _ ≤ (2 * (t - t0) ^ 2 + 2 * t0 ^ 2) * Real.exp (-b * |t - t0| ^ n) :=
          mul_le_mul_of_nonneg_right this (Real.exp_pos _).le
      _ = _ := by ring
  · rw [bell_mean hb hn, mul_div_assoc, div_self hpos.ne', mul_one]
  · rw [m0, m2]
    have e : b ^ (-(2 + 1) / n) = b ^ (-2 / n) * b ^ (-1 / n) := by
      rw [← Real.rpow_add hb]
      congr 1
      field_simp
      norm_num
    rw [e]
    have := (Real.rpow_pos_of_pos hb (-1 / n)).ne'
    have h3 : ((2 : ℝ) + 1) = 3 := by norm_num
    rw [h3]
    field_simp

/-- a combined profile evaluates to the product of its two parts -/
theorem combined_pointwise {wavelength : ℝ} {pol : List ℂ} {E : Option ℝ} {long : ℝ → ℂ} {dl dt : DType} {trans : ℝ → ℝ → ℂ}
    {p : ProfileObj} (h : combinedProfile wavelength pol E long dl trans dt = .ok p) :
    p.Pointwise fun x y t => trans x y * long t := by
  unfold combinedProfile profileInit at h
  split at h
  · cases h
    intro n0 n1 n2 x y t i j k
    rfl
  · cases h

/-- **C134** (Gaussian). The duration of every pulse with a Gaussian longitudinal profile of duration `tau` is `tau/2` (the RMS
width of `exp(-2 t²/tau²)`), up to any given error, in all windows that are large enough and with enough points in time:
for every transverse profile, geometry, transverse grid, number of modes, polarisation and energy. -/
theorem C134_gaussian (wavelength tau tPeak cep : ℝ) (htau : 0 < tau) {ε : ℝ} (hε : 0 < ε) :
    ∃ W : ℝ, 0 < W ∧ ∀ a ≤ -W, ∀ b ≥ W,
    ∃ n : ℕ, ∀ {s : Shape} {dim : String} {lo hi : List ℝ} {np : List ℕ} {p : ProfileObj} {m N : Option ℕ} {l : Laser s}
      {pol : List ℂ} {energy : Option ℝ} {trans : ℝ → ℝ → ℂ} {dl dt : DType} {E : ℝ},
      combinedProfile wavelength pol energy (gaussianLong wavelength tau tPeak cep) dl trans dt = .ok p →
      Laser.init dim lo hi np p m N = .ok ⟨s, l⟩ → lo.getLast? = some a → hi.getLast? = some b →
      n ≤ s.nt → l.energy = .ok E → E ≠ 0 → ∃ D, (getDuration l.grid).1 = .ok D ∧ |D - tau / 2| ≤ ε := by
  have hb : (0 : ℝ) < 2 / tau ^ 2 := by positivity
  obtain ⟨i0, i2, hpos, hmean, hvar⟩ := bell_rms hb two_pos tPeak (L := gaussianLong wavelength tau tPeak cep) fun t => by
    rw [norm_gaussianLong, ← Real.exp_nat_mul, show (2 : ℝ) = ((2 : ℕ) : ℝ) by norm_num, Real.rpow_natCast, sq_abs]
    congr 1
    push_cast
    field_simp
  have hcont : Continuous (gaussianLong wavelength tau tPeak cep) := by
    unfold gaussianLong
    fun_prop
  obtain ⟨W, hW, h⟩ := C134_window _ hcont i0 i2 _ tPeak rfl hpos.ne' hmean.symm hε
  have hval : Real.sqrt ((2 / tau ^ 2) ^ (-2 / (2 : ℝ)) * (Real.Gamma (3 / 2) / Real.Gamma (1 / 2))) = tau / 2 := by
    have hg : Real.Gamma (3 / 2) = 1 / 2 * Real.Gamma (1 / 2) := by
      rw [← Real.Gamma_add_one (by norm_num)]
      norm_num
    have g1 := Real.Gamma_pos_of_pos (by norm_num : (0 : ℝ) < 1 / 2)
    rw [hg, mul_div_assoc, div_self g1.ne', show (-2 / 2 : ℝ) = -1 by norm_num, Real.rpow_neg_one, Real.sqrt_eq_iff_mul_self_eq]
    · field_simp
    · positivity
    · positivity
  rw [hvar, hval] at h
  refine ⟨W, hW, fun a ha b hb => ?_⟩
  obtain ⟨n, hn⟩ := h a ha b hb
  exact ⟨n, fun hp hl hlo hhi hs hE hE0 => hn hl hlo hhi hs (combined_pointwise hp) hE hE0⟩

/-- **C134** (super-Gaussian of order `n`): `tau 2^(-1/n) √(Γ(3/n)/Γ(1/n))`, the RMS width of `exp(-2 |t/tau|^n)`. -/
theorem C134_super_gaussian (wavelength tau tPeak nOrder cep : ℝ) (htau : 0 < tau) (hn : 0 < nOrder) {ε : ℝ} (hε : 0 < ε) :
    ∃ W : ℝ, 0 < W ∧ ∀ a ≤ -W, ∀ b ≥ W,
    ∃ n : ℕ, ∀ {s : Shape} {dim : String} {lo hi : List ℝ} {np : List ℕ} {p : ProfileObj} {m N : Option ℕ} {l : Laser s}
      {pol : List ℂ} {energy : Option ℝ} {trans : ℝ → ℝ → ℂ} {dl dt : DType} {E : ℝ},
      combinedProfile wavelength pol energy (superGaussianLong wavelength tau tPeak nOrder cep) dl trans dt = .ok p →
      Laser.init dim lo hi np p m N = .ok ⟨s, l⟩ → lo.getLast? = some a → hi.getLast? = some b →
      n ≤ s.nt → l.energy = .ok E → E ≠ 0 → ∃ D, (getDuration l.grid).1 = .ok D ∧
        |D - tau * 2 ^ (-1 / nOrder) * Real.sqrt (Real.Gamma (3 / nOrder) / Real.Gamma (1 / nOrder))| ≤ ε := by
  have ht := Real.rpow_pos_of_pos htau nOrder
  have hb : (0 : ℝ) < 2 / tau ^ nOrder := by positivity
  have hpow : ∀ t : ℝ, ((t - tPeak) ^ 2 / tau ^ 2) ^ (nOrder / 2) = |t - tPeak| ^ nOrder / tau ^ nOrder := by
    intro t
    rw [← sq_abs (t - tPeak), ← div_pow, ← Real.rpow_natCast, ← Real.rpow_mul (by positivity),
      Real.div_rpow (abs_nonneg _) htau.le]
    congr 2 <;> push_cast <;> ring
  obtain ⟨i0, i2, hpos, hmean, hvar⟩ := bell_rms hb hn tPeak (L := superGaussianLong wavelength tau tPeak nOrder cep) fun t => by
    rw [norm_superGaussianLong, ← Real.exp_nat_mul, hpow]
    congr 1
    push_cast
    ring
  have hcont : Continuous (superGaussianLong wavelength tau tPeak nOrder cep) := by
    have : Continuous fun t : ℝ => ((t - tPeak) ^ 2 / tau ^ 2) ^ (nOrder / 2) :=
      Continuous.rpow_const (by fun_prop) fun _ => Or.inr (by positivity)
    unfold superGaussianLong
    fun_prop
  obtain ⟨W, hW, h⟩ := C134_window _ hcont i0 i2 _ tPeak rfl hpos.ne' hmean.symm hε
  have hval : Real.sqrt ((2 / tau ^ nOrder) ^ (-2 / nOrder) * (Real.Gamma (3 / nOrder) / Real.Gamma (1 / nOrder))) =
      tau * 2 ^ (-1 / nOrder) * Real.sqrt (Real.Gamma (3 / nOrder) / Real.Gamma (1 / nOrder)) := by
    rw [Real.sqrt_mul (by positivity)]
    congr 1
    have h2 := Real.rpow_pos_of_pos (two_pos : (0 : ℝ) < 2) (-1 / nOrder)
    rw [Real.sqrt_eq_iff_mul_self_eq (by positivity) (by positivity), Real.div_rpow (by norm_num) ht.le,
      ← Real.rpow_mul htau.le, show nOrder * (-2 / nOrder) = -2 by field_simp,
      show (-2 / nOrder : ℝ) = -1 / nOrder + -1 / nOrder by ring, Real.rpow_add two_pos,
      show (-2 : ℝ) = -((2 : ℕ) : ℝ) by norm_num, Real.rpow_neg htau.le, Real.rpow_natCast]
    field_simp
  rw [hvar, hval] at h
  refine ⟨W, hW, fun a ha b hb => ?_⟩
  obtain ⟨n, hn⟩ := h a ha b hb
  exact ⟨n, fun hp hl hlo hhi hs hE hE0 => hn hl hlo hhi hs (combined_pointwise hp) hE hE0⟩

/-! ## The truncated cosine -/

theorem norm_sq_cosineLong (wavelength tau tPeak cep : ℝ) (htau : 0 < tau) (t : ℝ) :
    ‖cosineLong wavelength tau tPeak cep t‖ ^ 2 =
      (Set.Icc (tPeak - tau) (tPeak + tau)).indicator (fun t => Real.cos (Real.pi * (t - tPeak) / (2 * tau)) ^ 2) t := by
  have e : 0.5 * Real.pi * ((t - tPeak) / tau) = Real.pi * (t - tPeak) / (2 * tau) := by
    rw [show (0.5 : ℝ) = 1 / 2 by norm_num]
    field_simp
  unfold cosineLong
  simp only [norm_mul, mul_comm I, Complex.norm_exp_ofReal_mul_I, mul_one]
  rw [e]
  by_cases h1 : t ∈ Set.Icc (tPeak - tau) (tPeak + tau)
  · rw [Set.indicator_of_mem h1]
    by_cases h2 : (t - tPeak) / tau > -1
    · by_cases h3 : (t - tPeak) / tau < 1
      · simp only [h2, h3, if_true, norm_one, mul_one, Complex.norm_real, Real.norm_eq_abs, sq_abs]
      · have : t - tPeak = tau := by
          rw [not_lt, le_div_iff₀ htau] at h3
          have := h1.2
          linarith
        rw [this]
        have : Real.pi * tau / (2 * tau) = Real.pi / 2 := by field_simp
        rw [this]
        simp
    · have : t - tPeak = -tau := by
        rw [gt_iff_lt, not_lt, div_le_iff₀ htau] at h2
        have := h1.1
        linarith
      rw [this]
      have : Real.pi * -tau / (2 * tau) = -(Real.pi / 2) := by field_simp
      rw [this]
      simp
  · rw [Set.indicator_of_notMem h1]
    have : ¬ ((t - tPeak) / tau > -1) ∨ ¬ ((t - tPeak) / tau < 1) := by
      by_contra hcon
      rw [not_or, not_not, not_not] at hcon
      obtain ⟨h2, h3⟩ := hcon
      rw [gt_iff_lt, lt_div_iff₀ htau] at h2
      rw [div_lt_iff₀ htau] at h3
      exact h1 ⟨by linarith, by linarith⟩
    rcases this with h | h <;> simp [h]

theorem continuous_cosineLong (wavelength tau tPeak cep : ℝ) :
    Continuous (cosineLong wavelength tau tPeak cep) := by
  have e : cosineLong wavelength tau tPeak cep = fun t => (Real.cos (0.5 * Real.pi * max (-1) (min 1 ((t - tPeak) / tau))) : ℂ) *
      exp (I * ((cep + longOmega0 wavelength * tPeak : ℝ) : ℂ)) := by
    funext t
    unfold cosineLong
    simp only
    congr 1
    have hp : Real.cos (0.5 * Real.pi * 1) = 0 := by
      rw [show (0.5 * Real.pi * 1 : ℝ) = Real.pi / 2 by norm_num; ring, Real.cos_pi_div_two]
    have hm : Real.cos (0.5 * Real.pi * -1) = 0 := by
      rw [show (0.5 * Real.pi * -1 : ℝ) = -(0.5 * Real.pi * 1) by ring, Real.cos_neg, hp]
    by_cases h2 : (t - tPeak) / tau > -1
    · by_cases h3 : (t - tPeak) / tau < 1
      · rw [min_eq_right h3.le, max_eq_right h2.le]
        simp [h2, h3]
      · rw [min_eq_left (not_lt.1 h3), max_eq_right (by norm_num), hp]
        simp [h3]
    · rw [min_eq_right (by have := not_lt.1 h2; linarith), max_eq_left (not_lt.1 h2), hm]
      simp [h2]
  rw [e]
  fun_prop

omit [Phys] in
/-- the integrals of `cos²`, `u cos²` and `u² cos²` over the pulse -/
theorem cosine_moments (tau : ℝ) (htau : 0 < tau) :
    (∫ u in (-tau)..tau, Real.cos (Real.pi * u / (2 * tau)) ^ 2) = tau ∧
    (∫ u in (-tau)..tau, u * Real.cos (Real.pi * u / (2 * tau)) ^ 2) = 0 ∧
    (∫ u in (-tau)..tau, u ^ 2 * Real.cos (Real.pi * u / (2 * tau)) ^ 2) = tau ^ 3 * (1 / 3 - 2 / Real.pi ^ 2) := by
  have hpi := Real.pi_pos
  have hsq : ∀ u : ℝ, Real.cos (Real.pi * u / (2 * tau)) ^ 2 = 1 / 2 + Real.cos (Real.pi * u / tau) / 2 := by
    intro u
    rw [Real.cos_sq]
    congr 2
    congr 1
    field_simp
  have hs : Real.sin (Real.pi * tau / tau) = 0 := by
    rw [mul_div_assoc, div_self htau.ne', mul_one, Real.sin_pi]
  have hs' : Real.sin (Real.pi * -tau / tau) = 0 := by
    rw [mul_neg, neg_div, Real.sin_neg, hs, neg_zero]
  have hc : Real.cos (Real.pi * tau / tau) = -1 := by
    rw [mul_div_assoc, div_self htau.ne', mul_one, Real.cos_pi]
  have hc' : Real.cos (Real.pi * -tau / tau) = -1 := by
    rw [mul_neg, neg_div, Real.cos_neg, hc]
  have ds : ∀ u : ℝ, HasDerivAt (fun u => Real.sin (Real.pi * u / tau)) (Real.cos (Real.pi * u / tau) * (Real.pi / tau)) u := by
    intro u
    have : HasDerivAt (fun u : ℝ => Real.pi * u / tau) (Real.pi / tau) u := by
      simpa using ((hasDerivAt_id u).const_mul Real.pi).div_const tau
    exact this.sin
  have dc : ∀ u : ℝ, HasDerivAt (fun u => Real.cos (Real.pi * u / tau)) (-Real.sin (Real.pi * u / tau) * (Real.pi / tau)) u := by
    intro u
    have : HasDerivAt (fun u : ℝ => Real.pi * u / tau) (Real.pi / tau) u := by
      simpa using ((hasDerivAt_id u).const_mul Real.pi).div_const tau
    exact this.cos
  simp only [hsq]
  refine ⟨?_, ?_, ?_⟩
  · rw [intervalIntegral.integral_eq_sub_of_hasDerivAt (f := fun u => u / 2 + tau / (2 * Real.pi) * Real.sin (Real.pi * u / tau))]
    · simp only [hs, hs']
      ring
    · intro u _
      have := ((hasDerivAt_id u).div_const 2).add ((ds u).const_mul (tau / (2 * Real.pi)))
      refine this.congr_deriv ?_
      field_simp
    · exact Continuous.intervalIntegrable (by fun_prop) _ _
  · rw [intervalIntegral.integral_eq_sub_of_hasDerivAt (f := fun u => u ^ 2 / 4 + tau / (2 * Real.pi) * (u * Real.sin (Real.pi * u / tau))
      + tau ^ 2 / (2 * Real.pi ^ 2) * Real.cos (Real.pi * u / tau))]
    · simp only [hs, hs', hc, hc']
      ring
    · intro u _
      have := ((((hasDerivAt_id u).pow 2).div_const 4).add (((hasDerivAt_id u).mul (ds u)).const_mul (tau / (2 * Real.pi)))).add
        ((dc u).const_mul (tau ^ 2 / (2 * Real.pi ^ 2)))
      refine this.congr_deriv ?_
      simp only [id, Pi.pow_apply, Nat.cast_ofNat, Nat.add_one_sub_one, pow_one, mul_one, one_mul]
      field_simp
      ring
    · exact Continuous.intervalIntegrable (by fun_prop) _ _
  · rw [intervalIntegral.integral_eq_sub_of_hasDerivAt (f := fun u => u ^ 3 / 6 + tau / (2 * Real.pi) * (u ^ 2 * Real.sin (Real.pi * u / tau))
      + tau ^ 2 / Real.pi ^ 2 * (u * Real.cos (Real.pi * u / tau)) - tau ^ 3 / Real.pi ^ 3 * Real.sin (Real.pi * u / tau))]
    · simp only [hs, hs', hc, hc']
      field_simp
      ring
    · intro u _
      have := (((((hasDerivAt_id u).pow 3).div_const 6).add ((((hasDerivAt_id u).pow 2).mul (ds u)).const_mul (tau / (2 * Real.pi)))).add
        (((hasDerivAt_id u).mul (dc u)).const_mul (tau ^ 2 / Real.pi ^ 2))).sub ((ds u).const_mul (tau ^ 3 / Real.pi ^ 3))
      refine this.congr_deriv ?_
      simp only [id, Pi.pow_apply, Nat.cast_ofNat, Nat.add_one_sub_one, pow_one, mul_one, one_mul]
      field_simp
      ring
    · exact Continuous.intervalIntegrable (by fun_prop) _ _

/-- **C134** (truncated cosine): `tau_fwhm √(1/3 - 2/π²)`, the RMS width of `cos²(π t/(2 tau_fwhm))` between its zeros. -/
theorem C134_cosine (wavelength tauFwhm tPeak cep : ℝ) (htau : 0 < tauFwhm) {ε : ℝ} (hε : 0 < ε) :
    ∃ W : ℝ, 0 < W ∧ ∀ a ≤ -W, ∀ b ≥ W,
    ∃ n : ℕ, ∀ {s : Shape} {dim : String} {lo hi : List ℝ} {np : List ℕ} {p : ProfileObj} {m N : Option ℕ} {l : Laser s}
      {pol : List ℂ} {energy : Option ℝ} {trans : ℝ → ℝ → ℂ} {dl dt : DType} {E : ℝ},
      combinedProfile wavelength pol energy (cosineLong wavelength tauFwhm tPeak cep) dl trans dt = .ok p →
      Laser.init dim lo hi np p m N = .ok ⟨s, l⟩ → lo.getLast? = some a → hi.getLast? = some b →
      n ≤ s.nt → l.energy = .ok E → E ≠ 0 → ∃ D, (getDuration l.grid).1 = .ok D ∧
        |D - tauFwhm * Real.sqrt (1 / 3 - 2 / Real.pi ^ 2)| ≤ ε := by
  have hcont := continuous_cosineLong wavelength tauFwhm tPeak cep
  have hn := norm_sq_cosineLong wavelength tauFwhm tPeak cep htau
  have hle : tPeak - tauFwhm ≤ tPeak + tauFwhm := by linarith
  -- integrals against the intensity
  have hint : ∀ w : ℝ → ℝ, Continuous w → (Integrable fun t => w t * ‖cosineLong wavelength tauFwhm tPeak cep t‖ ^ 2) ∧
      ∫ t, w t * ‖cosineLong wavelength tauFwhm tPeak cep t‖ ^ 2 =
        ∫ u in (-tauFwhm)..tauFwhm, w (u + tPeak) * Real.cos (Real.pi * u / (2 * tauFwhm)) ^ 2 := by
    intro w hw
    have e : (fun t => w t * ‖cosineLong wavelength tauFwhm tPeak cep t‖ ^ 2) =
        (Set.Icc (tPeak - tauFwhm) (tPeak + tauFwhm)).indicator
          fun t => w t * Real.cos (Real.pi * (t - tPeak) / (2 * tauFwhm)) ^ 2 := by
      funext t
      rw [hn]
      by_cases h : t ∈ Set.Icc (tPeak - tauFwhm) (tPeak + tauFwhm)
      · rw [Set.indicator_of_mem h, Set.indicator_of_mem h]
      · rw [Set.indicator_of_notMem h, Set.indicator_of_notMem h, mul_zero]
    rw [e]
    constructor
    · exact ((by fun_prop : Continuous fun t => w t * Real.cos (Real.pi * (t - tPeak) / (2 * tauFwhm)) ^ 2).continuousOn.integrableOn_Icc).integrable_indicator
        measurableSet_Icc
    · rw [integral_indicator measurableSet_Icc, integral_Icc_eq_integral_Ioc, ← intervalIntegral.integral_of_le hle]
      have := intervalIntegral.integral_comp_add_right (a := -tauFwhm) (b := tauFwhm)
        (fun t => w t * Real.cos (Real.pi * (t - tPeak) / (2 * tauFwhm)) ^ 2) tPeak
      simp only [add_sub_cancel_right] at this
      rw [this]
      congr 1 <;> ring
  obtain ⟨m0, m1, m2⟩ := cosine_moments tauFwhm htau
  obtain ⟨i0, e0⟩ := hint (fun _ => 1) (by fun_prop)
  obtain ⟨i1, e1⟩ := hint (fun t => t) (by fun_prop)
  obtain ⟨i2, -⟩ := hint (fun t => t ^ 2) (by fun_prop)
  obtain ⟨-, e2⟩ := hint (fun t => (t - tPeak) ^ 2) (by fun_prop)
  simp only [one_mul, m0, add_sub_cancel_right, m2] at i0 e0 e2
  have hmean : tPeak = (∫ t, t * ‖cosineLong wavelength tauFwhm tPeak cep t‖ ^ 2) /
      ∫ t, ‖cosineLong wavelength tauFwhm tPeak cep t‖ ^ 2 := by
    rw [e0, e1]
    have : (∫ u in (-tauFwhm)..tauFwhm, (u + tPeak) * Real.cos (Real.pi * u / (2 * tauFwhm)) ^ 2) =
        (∫ u in (-tauFwhm)..tauFwhm, u * Real.cos (Real.pi * u / (2 * tauFwhm)) ^ 2) +
          tPeak * ∫ u in (-tauFwhm)..tauFwhm, Real.cos (Real.pi * u / (2 * tauFwhm)) ^ 2 := by
      rw [← intervalIntegral.integral_const_mul, ← intervalIntegral.integral_add]
      · congr 1
        funext u
        ring
      all_goals exact Continuous.intervalIntegrable (by fun_prop) _ _
    rw [this, m1, m0]
    field_simp
    ring
  obtain ⟨W, hW, h⟩ := C134_window _ hcont i0 i2 _ tPeak rfl (by rw [e0]; exact htau.ne') hmean hε
  have hval : Real.sqrt (tauFwhm ^ 3 * (1 / 3 - 2 / Real.pi ^ 2) / tauFwhm) = tauFwhm * Real.sqrt (1 / 3 - 2 / Real.pi ^ 2) := by
    rw [show tauFwhm ^ 3 * (1 / 3 - 2 / Real.pi ^ 2) / tauFwhm = tauFwhm ^ 2 * (1 / 3 - 2 / Real.pi ^ 2) by field_simp,
      Real.sqrt_mul (by positivity), Real.sqrt_sq htau.le]
  rw [e2, e0, hval] at h
  refine ⟨W, hW, fun a ha b hb => ?_⟩
  obtain ⟨n, hn⟩ := h a ha b hb
  exact ⟨n, fun hp hl hlo hhi hs hE hE0 => hn hl hlo hhi hs (combined_pointwise hp) hE hE0⟩

/-- the premises of C134 are met: there are lasers with a Gaussian pulse of `tau = 2` and 1 J whose duration is 1 to a percent -/
example : ∃ (s : Shape) (l : Laser s) (p : ProfileObj) (D : ℝ), gaussianProfile 1 [1, 0] (some 1) 1 2 0 = .ok p ∧
    (∃ (lo hi : List ℝ) (np : List ℕ), Laser.init "xyt" lo hi np p none none = .ok ⟨s, l⟩) ∧ l.energy = .ok 1 ∧
    (getDuration l.grid).1 = .ok D ∧ |D - 1| ≤ 1 / 100 := by
  have hpi := Real.pi_pos
  have hc := c_pos
  have he := eps0_pos
  obtain ⟨p, hp, -⟩ := C40_formula 1 one_ne_zero 1 0 (some 1) 1 2 0 0 0
  have hp' : ∃ ζ, combinedProfile 1 [1, 0] (some 1) (gaussianLong 1 2 0 0) .c128 (gaussianTrans 1 ζ) .c128 = .ok p := by
    unfold gaussianProfile at hp
    rcases hz : zFocOverZr 1 (some 0) 1 with e | ζ
    · rw [hz] at hp
      cases hp
    · rw [hz] at hp
      exact ⟨ζ, hp⟩
  obtain ⟨ζ, hp'⟩ := hp'
  set K := eps0 * c / 2 * (Real.pi * 1 ^ 2 / 2) * (2 * Real.sqrt (Real.pi / 2)) with hK
  have hKp : 0 < K := by
    have : 0 < Real.sqrt (Real.pi / 2) := Real.sqrt_pos.2 (by positivity)
    positivity
  obtain ⟨L, hL, h⟩ := C133_gaussian_xyt 1 one_ne_zero 1 0 1 zero_le_one 1 2 one_pos two_pos 0 0 0 hp (Real.sqrt (1 / K)) _
    (Real.sqrt_nonneg _) (by
      rw [Real.sq_sqrt (by positivity)]
      rw [show eps0 * c / 2 * (1 / K) * (Real.pi * 1 ^ 2 / 2) * (2 * Real.sqrt (Real.pi / 2)) = K / K by rw [hK]; ring]
      exact div_self hKp.ne') rfl none none one_pos
  obtain ⟨W, hW, h'⟩ := C134_gaussian 1 2 0 0 two_pos (by norm_num : (0 : ℝ) < 1 / 100)
  obtain ⟨N, hN⟩ := h (-max L W) (-max L W) (-max L W) (max L W) (max L W) (max L W) (by simp) (by simp) (by simp) (by simp)
    (by simp) (by simp)
  obtain ⟨n, hn⟩ := h' (-max L W) (by simp) (max L W) (by simp)
  obtain ⟨l, f, hl, -, hE, -⟩ := hN N le_rfl N le_rfl (max N n) (le_max_left _ _)
  obtain ⟨D, hD, hd⟩ := hn hp' hl rfl rfl (le_max_right _ _) hE one_ne_zero
  refine ⟨_, l, p, D, hp, ⟨_, _, _, hl⟩, hE, hD, ?_⟩
  simpa using hd

end Lasy
