import Verif.Props.ModeWeights
import Verif.Props.CameraFine
import Mathlib.Topology.Algebra.Polynomial

/-!
# Property C150: the Hermite-Gauss decomposition with a fine resolution
-/

namespace Lasy
open MeasureTheory Finset Filter

/-! ## Sums over the points of the decomposition -/

theorem linspace_centre (c l : ℝ) {N : ℕ} (hN : 2 ≤ N) (i : Fin N) :
    linspace (c - l) (c + l) N i = c + l * linspace (-1) 1 N i := by
  have h1 : (N : ℝ) - 1 ≠ 0 := by
    have : (2 : ℝ) ≤ N := by exact_mod_cast hN
    linarith
  unfold linspace
  field_simp
  ring

/-- half of the length of the axis of the decomposition -/
noncomputable def hgHalf (lo hi res : ℝ) : ℝ := (((hgCount lo hi res).toNat : ℝ) - 1) / 2 * res

theorem hgHalf_close {lo hi res : ℝ} (hres : 0 < res) (h : lo ≤ hi) :
    2 ≤ (hgCount lo hi res).toNat ∧ |hgHalf lo hi res - (hi - lo) / 2| ≤ res / 2 ∧
      (hi - lo) / res ≤ ((hgCount lo hi res).toNat : ℝ) := by
  obtain ⟨m, hm, h1, h2⟩ := hgCount_eq hres h
  have hN : (hgCount lo hi res).toNat = 2 * m + 2 := by omega
  unfold hgHalf
  rw [hN]
  rw [le_div_iff₀ (by linarith)] at h1
  rw [div_lt_iff₀ (by linarith)] at h2
  refine ⟨by omega, ?_, ?_⟩
  · push_cast
    rw [abs_le]
    constructor <;> nlinarith
  · rw [div_le_iff₀ hres]
    push_cast
    nlinarith

/-- the sum over the points of one axis of the decomposition -/
theorem hgAxis_sum {lo hi res : ℝ} (hres : 0 < res) (h : lo ≤ hi) (G : ℝ → ℝ) :
    (∑ r, G (hgAxis lo hi res (hgCount lo hi res).toNat r)) * res =
      hgHalf lo hi res * linSum (-1) 1 (hgCount lo hi res).toNat fun u => G ((lo + hi) / 2 + hgHalf lo hi res * u) := by
  obtain ⟨hN, -, -⟩ := hgHalf_close hres h
  have h1 : (((hgCount lo hi res).toNat : ℝ)) - 1 ≠ 0 := by
    have : (2 : ℝ) ≤ ((hgCount lo hi res).toNat : ℝ) := by exact_mod_cast hN
    linarith
  have e : ∀ r, hgAxis lo hi res (hgCount lo hi res).toNat r =
      (lo + hi) / 2 + hgHalf lo hi res * linspace (-1) 1 (hgCount lo hi res).toNat r := fun r =>
    linspace_centre _ _ hN r
  simp only [e]
  unfold linSum
  rw [← mul_assoc, mul_comm]
  congr 1
  unfold hgHalf
  field_simp
  ring

/-- with a fine resolution the sums over the points of the decomposition tend to the integrals over the window, uniformly in a
parameter -/
theorem hgSum_tendsto {lo hi : ℝ × ℝ} (h1 : lo.1 < hi.1) (h2 : lo.2 < hi.2) {X : Type} [PseudoMetricSpace X] {K : Set X}
    (hK : IsCompact K) {F : X → ℝ → ℝ → ℝ} (hF : Continuous fun p : X × ℝ × ℝ => F p.1 p.2.1 p.2.2) {ε : ℝ} (hε : 0 < ε) :
    ∀ᶠ res in nhdsWithin (0 : ℝ) (Set.Ioi 0), ∀ x ∈ K,
      |(∑ q, ∑ r, F x (hgAxis lo.1 hi.1 res (hgCount lo.1 hi.1 res).toNat r)
        (hgAxis lo.2 hi.2 res (hgCount lo.2 hi.2 res).toNat q)) * res * res - windowIntegral lo hi (F x)| ≤ ε := by
  set c1 := (lo.1 + hi.1) / 2 with hc1
  set c2 := (lo.2 + hi.2) / 2 with hc2
  set L1 := (hi.1 - lo.1) / 2 with hL1
  set L2 := (hi.2 - lo.2) / 2 with hL2
  have p1 : 0 < L1 := by rw [hL1]; linarith
  have p2 : 0 < L2 := by rw [hL2]; linarith
  let G : X × ℝ × ℝ → ℝ → ℝ → ℝ := fun p u v => p.2.1 * p.2.2 * F p.1 (c1 + p.2.1 * u) (c2 + p.2.2 * v)
  have hG : Continuous fun p : (X × ℝ × ℝ) × ℝ × ℝ => G p.1 p.2.1 p.2.2 := by
    have : Continuous fun p : (X × ℝ × ℝ) × ℝ × ℝ =>
        (p.1.1, c1 + p.1.2.1 * p.2.1, c2 + p.1.2.2 * p.2.2) := by fun_prop
    exact Continuous.mul (by fun_prop) (hF.comp this)
  have hK' : IsCompact (K ×ˢ (Set.Icc 0 (2 * L1) ×ˢ Set.Icc 0 (2 * L2))) := hK.prod (isCompact_Icc.prod isCompact_Icc)
  obtain ⟨N, hN, key⟩ := quad_two (by norm_num : (-1 : ℝ) ≤ 1) (quad_lin (by norm_num : (-1 : ℝ) ≤ 1))
    (quad_lin (by norm_num : (-1 : ℝ) ≤ 1)) hK' hG (half_pos hε)
  let J : X × ℝ × ℝ → ℝ := fun p => ∫ u in (-1 : ℝ)..1, ∫ v in (-1 : ℝ)..1, G p u v
  have hJ : Continuous J := by
    have hG2 : Continuous fun p : (X × ℝ × ℝ) × ℝ => ∫ v in (-1 : ℝ)..1, G p.1 p.2 v :=
      intervalIntegral.continuous_parametric_intervalIntegral_of_continuous' (f := fun (p : (X × ℝ × ℝ) × ℝ) v => G p.1 p.2 v)
        (hG.comp ((continuous_fst.comp continuous_fst).prodMk ((continuous_snd.comp continuous_fst).prodMk continuous_snd))) _ _
    exact intervalIntegral.continuous_parametric_intervalIntegral_of_continuous'
      (f := fun (p : X × ℝ × ℝ) u => ∫ v in (-1 : ℝ)..1, G p u v) hG2 _ _
  have hJw : ∀ x, J (x, L1, L2) = windowIntegral lo hi (F x) := by
    intro x
    simp only [J, G, windowIntegral]
    have e1 : ∀ u, ∫ v in (-1 : ℝ)..1, L1 * L2 * F x (c1 + L1 * u) (c2 + L2 * v) =
        L1 * ∫ y in lo.2..hi.2, F x (c1 + L1 * u) y := by
      intro u
      rw [intervalIntegral.integral_const_mul, mul_assoc, intervalIntegral.mul_integral_comp_add_mul (f := fun y => F x (c1 + L1 * u) y)]
      congr 2 <;> rw [hc2, hL2] <;> ring
    simp only [e1]
    rw [intervalIntegral.integral_const_mul, intervalIntegral.mul_integral_comp_add_mul (f := fun t => ∫ y in lo.2..hi.2, F x t y)]
    congr 1 <;> rw [hc1, hL1] <;> ring
  have hu := hK'.uniformContinuousOn_of_continuous hJ.continuousOn
  rw [Metric.uniformContinuousOn_iff] at hu
  obtain ⟨δ, hδ, hu⟩ := hu (ε / 2) (half_pos hε)
  have hev : ∀ᶠ res in nhdsWithin (0 : ℝ) (Set.Ioi 0), 0 < res ∧ res < δ ∧ res < L1 ∧ res < L2 ∧ res * N < L1 ∧ res * N < L2 := by
    have t : ∀ {b : ℝ}, 0 < b → ∀ᶠ res in nhdsWithin (0 : ℝ) (Set.Ioi 0), res < b := fun hb =>
      nhdsWithin_le_nhds (Iio_mem_nhds hb)
    have t2 : ∀ {b : ℝ}, 0 < b → ∀ᶠ res in nhdsWithin (0 : ℝ) (Set.Ioi 0), res * N < b := by
      intro b hb
      have : Tendsto (fun res : ℝ => res * N) (nhds 0) (nhds 0) := by
        have := (continuous_mul_const (N : ℝ)).tendsto 0
        rwa [zero_mul] at this
      exact nhdsWithin_le_nhds (this.eventually (Iio_mem_nhds hb))
    filter_upwards [self_mem_nhdsWithin, t hδ, t p1, t p2, t2 p1, t2 p2] with res a b c d e f
    exact ⟨a, b, c, d, e, f⟩
  filter_upwards [hev] with res hr x hx
  obtain ⟨r0, rδ, r1, r2, r3, r4⟩ := hr
  obtain ⟨n1, l1, m1⟩ := hgHalf_close r0 h1.le
  obtain ⟨n2, l2, m2⟩ := hgHalf_close r0 h2.le
  set N1 := (hgCount lo.1 hi.1 res).toNat
  set N2 := (hgCount lo.2 hi.2 res).toNat
  have a1 := abs_le.1 l1
  have a2 := abs_le.1 l2
  have g1 : N ≤ N1 := by
    have : (N : ℝ) ≤ (hi.1 - lo.1) / res := by
      rw [le_div_iff₀ r0]
      have : res * N < (hi.1 - lo.1) / 2 := r3
      linarith
    exact_mod_cast this.trans m1
  have g2 : N ≤ N2 := by
    have : (N : ℝ) ≤ (hi.2 - lo.2) / res := by
      rw [le_div_iff₀ r0]
      have : res * N < (hi.2 - lo.2) / 2 := r4
      linarith
    exact_mod_cast this.trans m2
  have mem1 : hgHalf lo.1 hi.1 res ∈ Set.Icc 0 (2 * L1) := ⟨by linarith [a1.1], by linarith [a1.2]⟩
  have mem2 : hgHalf lo.2 hi.2 res ∈ Set.Icc 0 (2 * L2) := ⟨by linarith [a2.1], by linarith [a2.2]⟩
  have k := key N1 g1 N2 g2 (x, hgHalf lo.1 hi.1 res, hgHalf lo.2 hi.2 res) ⟨hx, mem1, mem2⟩
  have e : (∑ q, ∑ r, F x (hgAxis lo.1 hi.1 res N1 r) (hgAxis lo.2 hi.2 res N2 q)) * res * res =
      linSum (-1) 1 N1 fun u => linSum (-1) 1 N2 (G (x, hgHalf lo.1 hi.1 res, hgHalf lo.2 hi.2 res) u) := by
    rw [Finset.sum_comm, Finset.sum_mul]
    have e2 : ∀ t, (∑ q, F x t (hgAxis lo.2 hi.2 res N2 q)) * res = _ := fun t => hgAxis_sum r0 h2.le fun y => F x t y
    simp only [e2]
    rw [hgAxis_sum r0 h1.le fun t => hgHalf lo.2 hi.2 res * linSum (-1) 1 (hgCount lo.2 hi.2 res).toNat fun u =>
      F x t ((lo.2 + hi.2) / 2 + hgHalf lo.2 hi.2 res * u)]
    simp only [linSum, G, Finset.mul_sum]
    exact Finset.sum_congr rfl fun _ _ => Finset.sum_congr rfl fun _ _ => by ring
  have d := hu (x, hgHalf lo.1 hi.1 res, hgHalf lo.2 hi.2 res) ⟨hx, mem1, mem2⟩ (x, L1, L2)
    ⟨hx, ⟨p1.le, by linarith⟩, ⟨p2.le, by linarith⟩⟩ (by
      rw [Prod.dist_eq, Prod.dist_eq, dist_self, Real.dist_eq, Real.dist_eq]
      simp only
      rw [max_lt_iff, max_lt_iff]
      exact ⟨hδ, lt_of_le_of_lt l1 (by linarith), lt_of_le_of_lt l2 (by linarith)⟩)
  rw [Real.dist_eq, hJw] at d
  rw [e]
  calc _ = |(linSum (-1) 1 N1 (fun u => linSum (-1) 1 N2 (G (x, hgHalf lo.1 hi.1 res, hgHalf lo.2 hi.2 res) u)) -
        J (x, hgHalf lo.1 hi.1 res, hgHalf lo.2 hi.2 res)) +
      (J (x, hgHalf lo.1 hi.1 res, hgHalf lo.2 hi.2 res) - windowIntegral lo hi (F x))| := by ring_nf
    _ ≤ _ := (abs_add_le _ _).trans (by linarith [d.le, (show |linSum (-1) 1 N1 (fun u => linSum (-1) 1 N2
        (G (x, hgHalf lo.1 hi.1 res, hgHalf lo.2 hi.2 res) u)) - J (x, hgHalf lo.1 hi.1 res, hgHalf lo.2 hi.2 res)| ≤ ε / 2 from k)])

/-- the same for one function, as a limit -/
theorem hgSum_lim {lo hi : ℝ × ℝ} (h1 : lo.1 < hi.1) (h2 : lo.2 < hi.2) {G : ℝ → ℝ → ℝ}
    (hG : Continuous fun v : ℝ × ℝ => G v.1 v.2) :
    Tendsto (fun res => (∑ q, ∑ r, G (hgAxis lo.1 hi.1 res (hgCount lo.1 hi.1 res).toNat r)
        (hgAxis lo.2 hi.2 res (hgCount lo.2 hi.2 res).toNat q)) * res * res) (nhdsWithin (0 : ℝ) (Set.Ioi 0))
      (nhds (windowIntegral lo hi G)) := by
  rw [Metric.tendsto_nhds]
  intro ε hε
  filter_upwards [hgSum_tendsto h1 h2 (X := Unit) (K := Set.univ) isCompact_univ (F := fun _ => G)
    (hG.comp continuous_snd) (half_pos hε)] with res h
  have := h () trivial
  rw [Real.dist_eq]
  linarith

/-! ## The first estimate of the waist -/

/-- the standard deviation of the intensity `G` over the window, in `x` and in `y` -/
noncomputable def Spec.windowStd (lo hi : ℝ × ℝ) (G : ℝ → ℝ → ℝ) : ℝ × ℝ :=
  (Real.sqrt (windowIntegral lo hi (fun x y => (x - (centroid lo hi G).1) ^ 2 * G x y) / windowIntegral lo hi G),
   Real.sqrt (windowIntegral lo hi (fun x y => (y - (centroid lo hi G).2) ^ 2 * G x y) / windowIntegral lo hi G))

/-- the weighted standard deviation is a quotient of sums -/
theorem wStd_eq {Ny Nx : ℕ} (f : Fin Ny → Fin Nx → ℂ) (v : Fin Ny → Fin Nx → ℝ) (m : ℝ) {res : ℝ} (hres : 0 < res)
    (h0 : (∑ q, ∑ r, ‖f q r‖ ^ 2) * res * res ≠ 0) :
    Spec.wStd f v = Real.sqrt (((∑ q, ∑ r, (v q r - m) ^ 2 * ‖f q r‖ ^ 2) * res * res) / ((∑ q, ∑ r, ‖f q r‖ ^ 2) * res * res) -
      (((∑ q, ∑ r, v q r * ‖f q r‖ ^ 2) * res * res) / ((∑ q, ∑ r, ‖f q r‖ ^ 2) * res * res) - m) ^ 2) := by
  have hS : (∑ q, ∑ r, ‖f q r‖ ^ 2) ≠ 0 := fun h => h0 (by rw [h]; ring)
  have hd : ∀ A B : ℝ, A * res * res / (B * res * res) = A / B := by
    intro A B
    rw [mul_div_mul_right _ _ hres.ne', mul_div_mul_right _ _ hres.ne']
  have hS' : ∑ k : Fin Ny × Fin Nx, ‖f k.1 k.2‖ ^ 2 ≠ 0 := by rwa [Fintype.sum_prod_type]
  have := pixel_variance (fun k : Fin Ny × Fin Nx => ‖f k.1 k.2‖ ^ 2) (fun k => v k.1 k.2) (fun k => v k.1 k.2) 0 1 m
    (fun k => by ring) hS' (com := (∑ k : Fin Ny × Fin Nx, v k.1 k.2 * ‖f k.1 k.2‖ ^ 2) / ∑ k : Fin Ny × Fin Nx, ‖f k.1 k.2‖ ^ 2)
    (by ring)
  rw [one_pow, one_mul] at this
  simp only [Fintype.sum_prod_type] at this
  rw [hd, hd, ← this]
  simp only [Spec.wStd, Spec.wMean, mul_comm (v _ _)]

theorem windowIntegral_eq_zero_of_moment {lo hi : ℝ × ℝ} (h1 : lo.1 < hi.1) (h2 : lo.2 < hi.2) {G : ℝ → ℝ → ℝ}
    (hG : Continuous fun v : ℝ × ℝ => G v.1 v.2) (h0 : ∀ x y, 0 ≤ G x y) (m : ℝ)
    (hz : windowIntegral lo hi (fun x y => (x - m) ^ 2 * G x y) = 0) : windowIntegral lo hi G = 0 := by
  unfold windowIntegral at hz ⊢
  have hc : Continuous fun x => ∫ y in lo.2..hi.2, G x y :=
    intervalIntegral.continuous_parametric_intervalIntegral_of_continuous' (f := fun x y => G x y) hG _ _
  have hn : ∀ x, 0 ≤ ∫ y in lo.2..hi.2, G x y := fun x => intervalIntegral.integral_nonneg h2.le fun y _ => h0 x y
  simp only [intervalIntegral.integral_const_mul] at hz
  have hc2 : Continuous fun x => (x - m) ^ 2 * ∫ y in lo.2..hi.2, G x y := by fun_prop
  rw [intervalIntegral.integral_eq_zero_iff_of_le_of_nonneg_ae h1.le
    (Eventually.of_forall fun x => mul_nonneg (sq_nonneg _) (hn x)) (hc2.intervalIntegrable _ _)] at hz
  rw [intervalIntegral.integral_eq_zero_iff_of_le_of_nonneg_ae h1.le (Eventually.of_forall hn) (hc.intervalIntegrable _ _)]
  have hm : ∀ᵐ x ∂(volume.restrict (Set.Ioc lo.1 hi.1)), x ≠ m := by
    refine ae_restrict_of_ae ?_
    rw [ae_iff]
    simp
  filter_upwards [hz, hm] with x hx hxm
  simp only [Pi.zero_apply, mul_eq_zero] at hx ⊢
  rcases hx with hx | hx
  · exact absurd (pow_eq_zero_iff (two_ne_zero) |>.1 hx) (sub_ne_zero.2 hxm)
  · exact hx

theorem windowStd_pos {lo hi : ℝ × ℝ} (h1 : lo.1 < hi.1) (h2 : lo.2 < hi.2) {G : ℝ → ℝ → ℝ}
    (hG : Continuous fun v : ℝ × ℝ => G v.1 v.2) (h0 : ∀ x y, 0 ≤ G x y) (hI : windowIntegral lo hi G ≠ 0) :
    0 < (Spec.windowStd lo hi G).1 := by
  refine Real.sqrt_pos.2 (div_pos ?_ (windowIntegral_pos h1 h2 h0 hI))
  refine windowIntegral_pos h1 h2 (fun x y => mul_nonneg (sq_nonneg _) (h0 x y)) fun hz => hI ?_
  exact windowIntegral_eq_zero_of_moment h1 h2 hG h0 _ hz

/-- with a fine resolution the standard deviations of the samples tend to those of the intensity -/
theorem wStd_lim {lo hi : ℝ × ℝ} (h1 : lo.1 < hi.1) (h2 : lo.2 < hi.2) {f : ℝ → ℝ → ℂ}
    (hf : Continuous fun v : ℝ × ℝ => f v.1 v.2) (hI : windowIntegral lo hi (fun x y => ‖f x y‖ ^ 2) ≠ 0) :
    Tendsto (fun res => Spec.wStd (fun (q : Fin (hgCount lo.2 hi.2 res).toNat) (r : Fin (hgCount lo.1 hi.1 res).toNat) =>
        f (hgAxis lo.1 hi.1 res _ r) (hgAxis lo.2 hi.2 res _ q)) (fun _ r => hgAxis lo.1 hi.1 res _ r))
      (nhdsWithin (0 : ℝ) (Set.Ioi 0)) (nhds (Spec.windowStd lo hi fun x y => ‖f x y‖ ^ 2).1) ∧
    Tendsto (fun res => Spec.wStd (fun (q : Fin (hgCount lo.2 hi.2 res).toNat) (r : Fin (hgCount lo.1 hi.1 res).toNat) =>
        f (hgAxis lo.1 hi.1 res _ r) (hgAxis lo.2 hi.2 res _ q)) (fun q _ => hgAxis lo.2 hi.2 res _ q))
      (nhdsWithin (0 : ℝ) (Set.Ioi 0)) (nhds (Spec.windowStd lo hi fun x y => ‖f x y‖ ^ 2).2) := by
  have hG : Continuous fun v : ℝ × ℝ => ‖f v.1 v.2‖ ^ 2 := hf.norm.pow 2
  have t0 := hgSum_lim h1 h2 (G := fun x y => ‖f x y‖ ^ 2) hG
  have ev := t0.eventually_ne hI
  constructor
  · refine (rms_tendsto hI t0 (hgSum_lim h1 h2 (G := fun x y => x * ‖f x y‖ ^ 2) (continuous_fst.mul hG))
      (hgSum_lim h1 h2 (G := fun x y => (x - (centroid lo hi fun x y => ‖f x y‖ ^ 2).1) ^ 2 * ‖f x y‖ ^ 2)
        (((continuous_fst.sub continuous_const).pow 2).mul hG))).congr' ?_
    filter_upwards [ev, self_mem_nhdsWithin] with res h hr
    exact (wStd_eq _ _ _ hr h).symm
  · refine (rms_tendsto hI t0 (hgSum_lim h1 h2 (G := fun x y => y * ‖f x y‖ ^ 2) (continuous_snd.mul hG))
      (hgSum_lim h1 h2 (G := fun x y => (y - (centroid lo hi fun x y => ‖f x y‖ ^ 2).2) ^ 2 * ‖f x y‖ ^ 2)
        (((continuous_snd.sub continuous_const).pow 2).mul hG))).congr' ?_
    filter_upwards [ev, self_mem_nhdsWithin] with res h hr
    exact (wStd_eq _ _ _ hr h).symm

/-! ## The modes -/

theorem hgMode_continuous {wa : ℝ} (hwa : 0 < wa) (i j : ℕ) :
    Continuous fun p : ℝ × ℝ × ℝ => Spec.hgMode (max p.1 wa) i j p.2.1 p.2.2 := by
  have hm : Continuous fun p : ℝ × ℝ × ℝ => max p.1 wa := by fun_prop
  have hne : ∀ p : ℝ × ℝ × ℝ, max p.1 wa ≠ 0 := fun p => (lt_of_lt_of_le hwa (le_max_right _ _)).ne'
  have hfac : ∀ n : ℕ, (2 : ℝ) ^ n * n.factorial ≠ 0 := fun n => by positivity
  have hs : ∀ n : ℕ, Continuous fun p : ℝ × ℝ × ℝ => Real.sqrt (1 / (2 ^ n * n.factorial * max p.1 wa)) := fun n =>
    Real.continuous_sqrt.comp (continuous_const.div (continuous_const.mul hm) fun p => mul_ne_zero (hfac n) (hne p))
  have hh : ∀ (n : ℕ) {g : ℝ × ℝ × ℝ → ℝ}, Continuous g →
      Continuous fun p : ℝ × ℝ × ℝ => (hermiteH n).eval (Real.sqrt 2 * g p / max p.1 wa) := fun n g hg =>
    (hermiteH n).continuous.comp ((continuous_const.mul hg).div hm hne)
  unfold Spec.hgMode
  have hy : Continuous fun p : ℝ × ℝ × ℝ => p.2.2 := by fun_prop
  have hx : Continuous fun p : ℝ × ℝ × ℝ => p.2.1 := by fun_prop
  refine ((((continuous_const.mul (hs i)).mul (hs j)).mul (hh i hx)).mul (hh j hy)).mul (Real.continuous_exp.comp ?_)
  exact (((hx.pow 2).add (hy.pow 2)).neg).div (hm.pow 2) fun p => pow_ne_zero 2 (hne p)

/-- the sampled profile -/
theorem hgSample_eq (p : TransSource) {lo hi : ℝ × ℝ} (hb : p.bounds = .ok (lo, hi)) {res : ℝ} (hres : 0 < res)
    (h1 : lo.1 ≤ hi.1) (h2 : lo.2 ≤ hi.2) :
    hgSample p res = .ok ⟨(hgCount lo.1 hi.1 res).toNat, (hgCount lo.2 hi.2 res).toNat,
      hgAxis lo.1 hi.1 res (hgCount lo.1 hi.1 res).toNat, hgAxis lo.2 hi.2 res (hgCount lo.2 hi.2 res).toNat,
      fun q r => p.evaluate (hgAxis lo.1 hi.1 res (hgCount lo.1 hi.1 res).toNat r)
        (hgAxis lo.2 hi.2 res (hgCount lo.2 hi.2 res).toNat q)⟩ := by
  obtain ⟨n1, -⟩ := hgAxis_good hres h1
  obtain ⟨n2, -⟩ := hgAxis_good hres h2
  unfold hgSample
  rw [hb]
  simp only [Bind.bind, Except.bind, if_neg hres.ne',
    if_neg (show ¬ (hgCount lo.1 hi.1 res < 0 ∨ hgCount lo.2 hi.2 res < 0) by omega)]

/-! ## C150 -/

/-- **C150** (overlap integrals). For every continuous profile that is not zero in its window and for every accuracy: if the
resolution is fine enough, the decomposition succeeds, its waist is, up to this accuracy, one of the 30 numbers
`W0 (1/2 + k/29)`, where `W0` is the sum of the standard deviations of the intensity in `x` and `y`, and *every* weight is, up
to this accuracy, the overlap integral over the window of the real part of the field with the mode of this waist. -/
theorem C150_overlap (p : TransSource) {lo hi : ℝ × ℝ} (hb : p.bounds = .ok (lo, hi)) (h1 : lo.1 < hi.1) (h2 : lo.2 < hi.2)
    (hc : Continuous fun v : ℝ × ℝ => p.evaluate v.1 v.2) (hI : windowIntegral lo hi (fun x y => ‖p.evaluate x y‖ ^ 2) ≠ 0)
    (nx ny : ℕ) {ε : ℝ} (hε : 0 < ε) :
    ∃ δ > 0, ∀ res, 0 < res → res < δ → ∃ (R : HGResult) (w : ℝ), hgDecomposition p nx ny res = .ok R ∧ R.waist = some w ∧
      0 < w ∧ (∃ k : Fin 30, |w - ((Spec.windowStd lo hi fun x y => ‖p.evaluate x y‖ ^ 2).1 +
        (Spec.windowStd lo hi fun x y => ‖p.evaluate x y‖ ^ 2).2) * (1 / 2 + (k : ℕ) / 29)| ≤ ε) ∧
      ∀ i < nx, ∀ j < ny, ∃ a, R.weights i j = some a ∧
        |a - windowIntegral lo hi fun x y => (p.evaluate x y).re * Spec.hgMode w i j x y| ≤ ε := by
  set W := (Spec.windowStd lo hi fun x y => ‖p.evaluate x y‖ ^ 2).1 +
    (Spec.windowStd lo hi fun x y => ‖p.evaluate x y‖ ^ 2).2 with hW
  have hG : Continuous fun v : ℝ × ℝ => ‖p.evaluate v.1 v.2‖ ^ 2 := hc.norm.pow 2
  have hWp : 0 < W := by
    have := windowStd_pos h1 h2 (G := fun x y => ‖p.evaluate x y‖ ^ 2) hG (fun x y => by positivity) hI
    have h' : 0 ≤ (Spec.windowStd lo hi fun x y => ‖p.evaluate x y‖ ^ 2).2 := Real.sqrt_nonneg _
    linarith
  have t0 := hgSum_lim h1 h2 (G := fun x y => ‖p.evaluate x y‖ ^ 2) hG
  obtain ⟨tx, ty⟩ := wStd_lim h1 h2 (f := p.evaluate) hc hI
  have tw := tx.add ty
  rw [← hW] at tw
  have evw := tw.eventually (Metric.ball_mem_nhds W (ε := min (W / 2) (ε / 2)) (by positivity))
  have hmode : ∀ᶠ res in nhdsWithin (0 : ℝ) (Set.Ioi 0), ∀ ij ∈ (Finset.range nx ×ˢ Finset.range ny : Finset (ℕ × ℕ)),
      ∀ w ∈ Set.Icc (W / 4) (3 * W),
      |(∑ q, ∑ r, (p.evaluate (hgAxis lo.1 hi.1 res (hgCount lo.1 hi.1 res).toNat r)
        (hgAxis lo.2 hi.2 res (hgCount lo.2 hi.2 res).toNat q)).re * Spec.hgMode (max w (W / 4)) ij.1 ij.2
          (hgAxis lo.1 hi.1 res (hgCount lo.1 hi.1 res).toNat r) (hgAxis lo.2 hi.2 res (hgCount lo.2 hi.2 res).toNat q)) * res * res -
        windowIntegral lo hi (fun x y => (p.evaluate x y).re * Spec.hgMode (max w (W / 4)) ij.1 ij.2 x y)| ≤ ε := by
    rw [Filter.eventually_all_finset]
    intro ij _
    refine hgSum_tendsto h1 h2 isCompact_Icc (F := fun w x y => (p.evaluate x y).re * Spec.hgMode (max w (W / 4)) ij.1 ij.2 x y)
      ?_ hε
    exact (Complex.continuous_re.comp (hc.comp continuous_snd)).mul (hgMode_continuous (by positivity) _ _)
  have all := (evw.and (hmode.and (t0.eventually_ne hI)))
  obtain ⟨δ, hδ, hsub⟩ := mem_nhdsGT_iff_exists_Ioo_subset.1 all
  refine ⟨δ, hδ, fun res r0 rδ => ?_⟩
  obtain ⟨hw, hm, hne⟩ := hsub ⟨r0, rδ⟩
  obtain ⟨R, hR⟩ := C65_succeeds_partial p hb r0 h1.le h2.le nx ny
  obtain ⟨g, hN, hg, hwst, hcf⟩ := hgDecomposition_inv hR
  rw [hgSample_eq p hb r0 h1.le h2.le] at hg
  cases hg
  simp only at hN hwst hcf hne hw hm
  have hS : (∑ q, ∑ r, ‖p.evaluate (hgAxis lo.1 hi.1 res (hgCount lo.1 hi.1 res).toNat r)
      (hgAxis lo.2 hi.2 res (hgCount lo.2 hi.2 res).toNat q)‖ ^ 2) ≠ 0 := fun h => hne (by rw [h]; ring)
  have ax : ∀ (lo hi : ℝ) {N : ℕ} (hN : 2 ≤ N) (r : Fin N),
      hgAxis lo hi res N r = ((lo + hi) / 2 - ((N : ℝ) - 1) / 2 * res) + (r : ℕ) * res := fun lo hi N hN r => by
    rw [hgAxis_eq lo hi res hN]; ring
  obtain ⟨k, w0, hw0, hRw, -⟩ := estimateWaist_ok r0.le (ax lo.1 hi.1 hN.1) (ax lo.2 hi.2 hN.2) hS hwst
  rw [← hw0, Real.dist_eq, lt_min_iff] at hw
  have hb0 := abs_lt.1 hw.1
  have hk1 : (0 : ℝ) ≤ (k : ℕ) := by positivity
  have hk2 : ((k : ℕ) : ℝ) ≤ 29 := by exact_mod_cast (by omega : (k : ℕ) ≤ 29)
  have hwt := waistTest_eq w0 k
  have hkb : (1 : ℝ) / 2 ≤ 1 / 2 + (k : ℕ) / 29 ∧ (1 : ℝ) / 2 + (k : ℕ) / 29 ≤ 3 / 2 := by constructor <;> linarith
  have hw0p : 0 < w0 := by linarith [hb0.1]
  have hmem : waistTest w0 k ∈ Set.Icc (W / 4) (3 * W) := by
    rw [hwt]
    constructor <;> nlinarith [hkb.1, hkb.2, hb0.1, hb0.2]
  have hwpos : 0 < waistTest w0 k := lt_of_lt_of_le (by positivity) hmem.1
  refine ⟨R, waistTest w0 k, hR, hRw, hwpos, ⟨k, ?_⟩, fun i hi' j hj => ?_⟩
  · rw [hwt, ← sub_mul, abs_mul, abs_of_pos (by linarith [hkb.1] : (0 : ℝ) < 1 / 2 + (k : ℕ) / 29)]
    nlinarith [hkb.1, hkb.2, abs_nonneg (w0 - W), hw.2]
  · refine ⟨_, by rw [hcf, if_pos ⟨hi', hj⟩], ?_⟩
    rw [hRw]
    have s1 := (hgAxis_good r0 h1.le).2.spacing 0 hN.1
    have s2 := (hgAxis_good r0 h2.le).2.spacing 0 hN.2
    simp only [zero_add] at s1 s2
    simp only [hgCoef, if_neg hwpos.ne', hgOverlap_eq, s1, s2]
    have := hm (i, j) (by simp [hi', hj]) _ hmem
    rw [max_eq_left hmem.1] at this
    exact this

/-! ## Bessel's inequality -/

/-- one-dimensional factor of a mode -/
noncomputable def hgFactor (w : ℝ) (n : ℕ) (x : ℝ) : ℝ := (hermiteH n).eval (Real.sqrt 2 * x / w) * Real.exp (-x ^ 2 / w ^ 2)

theorem hgFactor_mul (w : ℝ) (n m : ℕ) (x : ℝ) : hgFactor w n x * hgFactor w m x =
    (fun X : ℝ => (hermiteH n).eval X * (hermiteH m).eval X * Real.exp (-X ^ 2)) (Real.sqrt 2 / w * x) := by
  have h22 : Real.sqrt 2 ^ 2 = 2 := Real.sq_sqrt (by norm_num)
  unfold hgFactor
  simp only
  rw [show ∀ a b c d : ℝ, a * b * (c * d) = a * c * (b * d) by intros; ring, ← Real.exp_add,
    show Real.sqrt 2 * x / w = Real.sqrt 2 / w * x by ring]
  congr 2
  rw [mul_pow, div_pow, h22]
  ring

theorem integrable_hgFactor_mul {w : ℝ} (hw : 0 < w) (n m : ℕ) : Integrable fun x => hgFactor w n x * hgFactor w m x := by
  simp only [hgFactor_mul]
  have h : Integrable fun X : ℝ => (hermiteH n).eval X * (hermiteH m).eval X * Real.exp (-X ^ 2) := by
    simpa [Polynomial.eval_mul] using integrable_poly_gauss (hermiteH n * hermiteH m)
  have h2 : Real.sqrt 2 / w ≠ 0 := by positivity
  exact h.comp_mul_left' h2

theorem integral_hgFactor_mul {w : ℝ} (hw : 0 < w) (n m : ℕ) : ∫ x, hgFactor w n x * hgFactor w m x =
    if n = m then w / Real.sqrt 2 * (2 ^ n * n.factorial * Real.sqrt Real.pi) else 0 := by
  simp only [hgFactor_mul]
  rw [Measure.integral_comp_mul_left (fun X : ℝ => (hermiteH n).eval X * (hermiteH m).eval X * Real.exp (-X ^ 2)), integral_hermite,
    smul_eq_mul, abs_of_pos (by positivity), inv_div]
  split_ifs <;> simp

theorem hgMode_eq (w : ℝ) (i j : ℕ) (x y : ℝ) : Spec.hgMode w i j x y =
    Real.sqrt (2 / Real.pi) * Real.sqrt (1 / (2 ^ i * i.factorial * w)) * Real.sqrt (1 / (2 ^ j * j.factorial * w)) *
      (hgFactor w i x * hgFactor w j y) := by
  unfold Spec.hgMode hgFactor
  rw [show -(x ^ 2 + y ^ 2) / w ^ 2 = -x ^ 2 / w ^ 2 + -y ^ 2 / w ^ 2 by ring, Real.exp_add]
  ring

theorem integrable_hgMode_mul {w : ℝ} (hw : 0 < w) (i j k l : ℕ) :
    Integrable fun v : ℝ × ℝ => Spec.hgMode w i j v.1 v.2 * Spec.hgMode w k l v.1 v.2 := by
  have := ((integrable_hgFactor_mul hw i k).mul_prod (integrable_hgFactor_mul hw j l)).const_mul
    (Real.sqrt (2 / Real.pi) * Real.sqrt (1 / (2 ^ i * i.factorial * w)) * Real.sqrt (1 / (2 ^ j * j.factorial * w)) *
    (Real.sqrt (2 / Real.pi) * Real.sqrt (1 / (2 ^ k * k.factorial * w)) * Real.sqrt (1 / (2 ^ l * l.factorial * w))))
  refine this.congr (Eventually.of_forall fun v => ?_)
  simp only [hgMode_eq]
  ring

theorem integral_hgMode_mul {w : ℝ} (hw : 0 < w) (i j k l : ℕ) :
    ∫ v : ℝ × ℝ, Spec.hgMode w i j v.1 v.2 * Spec.hgMode w k l v.1 v.2 = if i = k ∧ j = l then 1 else 0 := by
  have e : (fun v : ℝ × ℝ => Spec.hgMode w i j v.1 v.2 * Spec.hgMode w k l v.1 v.2) = fun v =>
      (Real.sqrt (2 / Real.pi) * Real.sqrt (1 / (2 ^ i * i.factorial * w)) * Real.sqrt (1 / (2 ^ j * j.factorial * w)) *
      (Real.sqrt (2 / Real.pi) * Real.sqrt (1 / (2 ^ k * k.factorial * w)) * Real.sqrt (1 / (2 ^ l * l.factorial * w)))) *
      ((hgFactor w i v.1 * hgFactor w k v.1) * (hgFactor w j v.2 * hgFactor w l v.2)) := by
    funext v
    simp only [hgMode_eq]
    ring
  rw [e, integral_const_mul, Measure.volume_eq_prod, integral_prod_mul (fun x => hgFactor w i x * hgFactor w k x)
    (fun y => hgFactor w j y * hgFactor w l y), integral_hgFactor_mul hw, integral_hgFactor_mul hw]
  by_cases h1 : i = k
  · by_cases h2 : j = l
    · subst h1 h2
      rw [if_pos rfl, if_pos rfl, if_pos ⟨rfl, rfl⟩]
      have hpi := Real.pi_pos
      have hp : Real.sqrt Real.pi ^ 2 = Real.pi := Real.sq_sqrt hpi.le
      have h22 : Real.sqrt 2 ^ 2 = 2 := Real.sq_sqrt (by norm_num)
      have hK : ∀ n : ℕ, Real.sqrt (1 / (2 ^ n * n.factorial * w)) * Real.sqrt (1 / (2 ^ n * n.factorial * w)) =
          1 / (2 ^ n * n.factorial * w) := fun n => Real.mul_self_sqrt (by positivity)
      have hA : Real.sqrt (2 / Real.pi) * Real.sqrt (2 / Real.pi) = 2 / Real.pi := Real.mul_self_sqrt (by positivity)
      rw [show ∀ a b c : ℝ, a * b * c * (a * b * c) = (a * a) * (b * b) * (c * c) by intros; ring, hK, hK, hA]
      have f1 : (0 : ℝ) < i.factorial := by positivity
      have f2 : (0 : ℝ) < j.factorial := by positivity
      have h2p : 0 < Real.sqrt 2 := by positivity
      field_simp
      rw [hp, h22]
      ring
    · simp [h2]
  · simp [h1]

/-- Bessel's inequality for a finite orthonormal family and a function that vanishes outside of a measurable set -/
theorem bessel_window {ι : Type} [DecidableEq ι] (s : Finset ι) {u : ι → ℝ × ℝ → ℝ} {g : ℝ × ℝ → ℝ} {S : Set (ℝ × ℝ)}
    (hS : MeasurableSet S) (hg2 : IntegrableOn (fun v => g v ^ 2) S) (hgu : ∀ i ∈ s, IntegrableOn (fun v => g v * u i v) S)
    (huu : ∀ i ∈ s, ∀ j ∈ s, Integrable fun v => u i v * u j v)
    (ho : ∀ i ∈ s, ∀ j ∈ s, ∫ v, u i v * u j v = if i = j then 1 else 0) :
    ∑ i ∈ s, (∫ v in S, g v * u i v) ^ 2 ≤ ∫ v in S, g v ^ 2 := by
  set a : ι → ℝ := fun i => ∫ v in S, g v * u i v with ha
  set G : ℝ × ℝ → ℝ := S.indicator g with hG
  have e1 : ∀ v, G v ^ 2 = S.indicator (fun v => g v ^ 2) v := by
    intro v
    by_cases hv : v ∈ S <;> simp [hG, hv]
  have e2 : ∀ i v, G v * u i v = S.indicator (fun v => g v * u i v) v := by
    intro i v
    by_cases hv : v ∈ S <;> simp [hG, hv]
  have i1 : Integrable fun v => G v ^ 2 := by
    simp only [e1]
    exact (integrable_indicator_iff hS).2 hg2
  have i2 : ∀ i ∈ s, Integrable fun v => G v * u i v := by
    intro i hi
    simp only [e2]
    exact (integrable_indicator_iff hS).2 (hgu i hi)
  have v1 : ∫ v, G v ^ 2 = ∫ v in S, g v ^ 2 := by
    simp only [e1]
    exact integral_indicator hS
  have v2 : ∀ i, ∫ v, G v * u i v = a i := by
    intro i
    simp only [e2]
    exact integral_indicator hS
  have expand : ∀ v, (G v - ∑ i ∈ s, a i * u i v) ^ 2 =
      G v ^ 2 - ∑ i ∈ s, 2 * a i * (G v * u i v) + ∑ i ∈ s, ∑ j ∈ s, a i * a j * (u i v * u j v) := by
    intro v
    rw [sub_sq, sq (∑ i ∈ s, a i * u i v), Finset.sum_mul_sum, Finset.mul_sum]
    congr 1
    · congr 1
      exact Finset.sum_congr rfl fun i _ => by ring
    · exact Finset.sum_congr rfl fun i _ => Finset.sum_congr rfl fun j _ => by ring
  have hnn : 0 ≤ ∫ v, (G v - ∑ i ∈ s, a i * u i v) ^ 2 := integral_nonneg fun v => sq_nonneg _
  simp only [expand] at hnn
  have j1 : Integrable fun v => ∑ i ∈ s, 2 * a i * (G v * u i v) :=
    integrable_finsetSum _ fun i hi => (i2 i hi).const_mul _
  have j2 : Integrable fun v => ∑ i ∈ s, ∑ j ∈ s, a i * a j * (u i v * u j v) :=
    integrable_finsetSum _ fun i hi => integrable_finsetSum _ fun j hj => (huu i hi j hj).const_mul _
  have j0 : Integrable fun v => G v ^ 2 - ∑ i ∈ s, 2 * a i * (G v * u i v) := i1.sub j1
  rw [integral_add j0 j2, integral_sub i1 j1, integral_finsetSum _ fun i hi => (i2 i hi).const_mul _,
    integral_finsetSum _ fun i hi => integrable_finsetSum _ fun j hj => (huu i hi j hj).const_mul _, v1] at hnn
  have w1 : ∑ i ∈ s, ∫ v, 2 * a i * (G v * u i v) = 2 * ∑ i ∈ s, a i ^ 2 := by
    rw [Finset.mul_sum]
    refine Finset.sum_congr rfl fun i _ => ?_
    rw [integral_const_mul, v2]
    ring
  have w2 : ∑ i ∈ s, ∫ v, ∑ j ∈ s, a i * a j * (u i v * u j v) = ∑ i ∈ s, a i ^ 2 := by
    refine Finset.sum_congr rfl fun i hi => ?_
    rw [integral_finsetSum _ fun j hj => (huu i hi j hj).const_mul _]
    rw [Finset.sum_eq_single i]
    · rw [integral_const_mul, ho i hi i hi, if_pos rfl]
      ring
    · intro j hj hji
      rw [integral_const_mul, ho i hi j hj, if_neg (fun h => hji h.symm), mul_zero]
    · exact fun h => absurd hi h
  rw [w1, w2] at hnn
  linarith

theorem windowIntegral_set {lo hi : ℝ × ℝ} (h1 : lo.1 ≤ hi.1) (h2 : lo.2 ≤ hi.2) {G : ℝ → ℝ → ℝ}
    (hG : Continuous fun v : ℝ × ℝ => G v.1 v.2) :
    windowIntegral lo hi G = ∫ v in Set.Icc lo.1 hi.1 ×ˢ Set.Icc lo.2 hi.2, G v.1 v.2 := by
  unfold windowIntegral
  have hi : IntegrableOn (fun v : ℝ × ℝ => G v.1 v.2) (Set.Icc lo.1 hi.1 ×ˢ Set.Icc lo.2 hi.2) :=
    hG.continuousOn.integrableOn_compact (isCompact_Icc.prod isCompact_Icc)
  rw [Measure.volume_eq_prod] at hi ⊢
  rw [setIntegral_prod _ hi, intervalIntegral.integral_of_le h1, ← integral_Icc_eq_integral_Ioc]
  refine setIntegral_congr_fun measurableSet_Icc fun x _ => ?_
  simp only
  rw [intervalIntegral.integral_of_le h2, ← integral_Icc_eq_integral_Ioc]

theorem hgMode_bessel {lo hi : ℝ × ℝ} (h1 : lo.1 ≤ hi.1) (h2 : lo.2 ≤ hi.2) {g : ℝ → ℝ → ℝ}
    (hg : Continuous fun v : ℝ × ℝ => g v.1 v.2) {w : ℝ} (hw : 0 < w) (nx ny : ℕ) :
    ∑ i ∈ Finset.range nx, ∑ j ∈ Finset.range ny, windowIntegral lo hi (fun x y => g x y * Spec.hgMode w i j x y) ^ 2 ≤
      windowIntegral lo hi fun x y => g x y ^ 2 := by
  have hm : ∀ i j, Continuous fun v : ℝ × ℝ => Spec.hgMode w i j v.1 v.2 := by
    intro i j
    have := (hgMode_continuous hw i j).comp (Continuous.prodMk continuous_const continuous_id : Continuous fun v : ℝ × ℝ => (w, v))
    simpa [Function.comp_def] using this
  have hc := isCompact_Icc.prod (isCompact_Icc (a := lo.2) (b := hi.2)) (s := Set.Icc lo.1 hi.1)
  have := bessel_window (Finset.range nx ×ˢ Finset.range ny) (u := fun ij v => Spec.hgMode w ij.1 ij.2 v.1 v.2)
    (g := fun v => g v.1 v.2) (S := Set.Icc lo.1 hi.1 ×ˢ Set.Icc lo.2 hi.2) (measurableSet_Icc.prod measurableSet_Icc)
    ((hg.pow 2).continuousOn.integrableOn_compact hc) (fun i _ => (hg.mul (hm _ _)).continuousOn.integrableOn_compact hc)
    (fun i _ j _ => integrable_hgMode_mul hw _ _ _ _)
    (fun i _ j _ => by rw [integral_hgMode_mul hw]; simp only [Prod.ext_iff])
  rw [Finset.sum_product] at this
  rw [windowIntegral_set h1 h2 (hg.pow 2)]
  have e : ∀ i j, windowIntegral lo hi (fun x y => g x y * Spec.hgMode w i j x y) = _ := fun i j =>
    windowIntegral_set h1 h2 (G := fun x y => g x y * Spec.hgMode w i j x y) (hg.mul (hm i j))
  simp only [e]
  exact this

/-- **C150** (energy). For every continuous profile that is not zero in its window, every number of modes and every accuracy: if
the resolution is fine enough, the sum of the squares of the weights is, up to this accuracy, at most the integral over the window
of the square of the real part of the field: the modes never contain more energy than the beam. -/
theorem C150_bessel (p : TransSource) {lo hi : ℝ × ℝ} (hb : p.bounds = .ok (lo, hi)) (h1 : lo.1 < hi.1) (h2 : lo.2 < hi.2)
    (hc : Continuous fun v : ℝ × ℝ => p.evaluate v.1 v.2) (hI : windowIntegral lo hi (fun x y => ‖p.evaluate x y‖ ^ 2) ≠ 0)
    (nx ny : ℕ) {ε : ℝ} (hε : 0 < ε) :
    ∃ δ > 0, ∀ res, 0 < res → res < δ → ∃ (R : HGResult) (a : ℕ → ℕ → ℝ), hgDecomposition p nx ny res = .ok R ∧
      (∀ i < nx, ∀ j < ny, R.weights i j = some (a i j)) ∧
      ∑ i ∈ Finset.range nx, ∑ j ∈ Finset.range ny, a i j ^ 2 ≤ windowIntegral lo hi (fun x y => (p.evaluate x y).re ^ 2) + ε ∧
      windowIntegral lo hi (fun x y => (p.evaluate x y).re ^ 2) ≤ windowIntegral lo hi (fun x y => ‖p.evaluate x y‖ ^ 2) := by
  have hre : Continuous fun v : ℝ × ℝ => (p.evaluate v.1 v.2).re := Complex.continuous_re.comp hc
  set B := windowIntegral lo hi (fun x y => (p.evaluate x y).re ^ 2) with hB
  have hB0 : 0 ≤ B := intervalIntegral.integral_nonneg h1.le fun x _ => intervalIntegral.integral_nonneg h2.le fun y _ => sq_nonneg _
  have hBle : B ≤ windowIntegral lo hi (fun x y => ‖p.evaluate x y‖ ^ 2) := by
    rw [hB, windowIntegral_set h1.le h2.le (hre.pow 2), windowIntegral_set h1.le h2.le (hc.norm.pow 2)]
    have hcc := isCompact_Icc.prod (isCompact_Icc (a := lo.2) (b := hi.2)) (s := Set.Icc lo.1 hi.1)
    refine setIntegral_mono ((hre.pow 2).continuousOn.integrableOn_compact hcc)
      ((hc.norm.pow 2).continuousOn.integrableOn_compact hcc) fun v => ?_
    have := Complex.abs_re_le_norm (p.evaluate v.1 v.2)
    calc (p.evaluate v.1 v.2).re ^ 2 = |(p.evaluate v.1 v.2).re| ^ 2 := (sq_abs _).symm
      _ ≤ _ := pow_le_pow_left₀ (abs_nonneg _) this 2
  -- the accuracy of each weight
  set M : ℝ := nx * ny with hM
  have hM0 : 0 ≤ M := by positivity
  set η : ℝ := min 1 (ε / (M * (2 * (B + 1) + 1) + 1)) with hη
  have hη0 : 0 < η := by positivity
  have hη1 : η ≤ 1 := min_le_left _ _
  have hη2 : η * (M * (2 * (B + 1) + 1)) ≤ ε := by
    have hd : 0 < M * (2 * (B + 1) + 1) + 1 := by positivity
    have := (le_div_iff₀ hd).1 (min_le_right 1 (ε / (M * (2 * (B + 1) + 1) + 1)))
    nlinarith
  obtain ⟨δ, hδ, key⟩ := C150_overlap p hb h1 h2 hc hI nx ny hη0
  refine ⟨δ, hδ, fun res r0 rδ => ?_⟩
  obtain ⟨R, w, hR, -, hw, -, hwt⟩ := key res r0 rδ
  choose! a ha using fun i (hi' : i < nx) => fun j (hj : j < ny) => hwt i hi' j hj
  refine ⟨R, a, hR, fun i hi' j hj => (ha i hi' j hj).1, ?_, hBle⟩
  have bes := hgMode_bessel h1.le h2.le (g := fun x y => (p.evaluate x y).re) hre hw nx ny
  rw [← hB] at bes
  have hterm : ∀ i ∈ Finset.range nx, ∀ j ∈ Finset.range ny, a i j ^ 2 ≤
      windowIntegral lo hi (fun x y => (p.evaluate x y).re * Spec.hgMode w i j x y) ^ 2 + η * (2 * (B + 1) + 1) := by
    intro i hi' j hj
    have h := (ha i (Finset.mem_range.1 hi') j (Finset.mem_range.1 hj)).2
    set b := windowIntegral lo hi (fun x y => (p.evaluate x y).re * Spec.hgMode w i j x y) with hbd
    have hb2 : b ^ 2 ≤ B := by
      refine le_trans ?_ bes
      refine le_trans ?_ (Finset.single_le_sum (f := fun i => ∑ j ∈ Finset.range ny,
        windowIntegral lo hi (fun x y => (p.evaluate x y).re * Spec.hgMode w i j x y) ^ 2)
        (fun _ _ => Finset.sum_nonneg fun _ _ => sq_nonneg _) hi')
      exact Finset.single_le_sum (f := fun j => windowIntegral lo hi
        (fun x y => (p.evaluate x y).re * Spec.hgMode w i j x y) ^ 2) (fun _ _ => sq_nonneg _) hj
    have hbabs : |b| ≤ B + 1 := by
      rw [← sq_abs] at hb2
      nlinarith [abs_nonneg b]
    have e : a i j ^ 2 - b ^ 2 = (a i j - b) * (a i j - b) + 2 * ((a i j - b) * b) := by ring
    have e1 : (a i j - b) * (a i j - b) ≤ η := by
      rw [← abs_mul_abs_self]
      nlinarith [abs_nonneg (a i j - b)]
    have e2 : (a i j - b) * b ≤ η * (B + 1) := by
      refine (le_abs_self _).trans ?_
      rw [abs_mul]
      exact mul_le_mul h hbabs (abs_nonneg _) hη0.le
    linarith
  calc ∑ i ∈ Finset.range nx, ∑ j ∈ Finset.range ny, a i j ^ 2
      ≤ ∑ i ∈ Finset.range nx, ∑ j ∈ Finset.range ny,
        (windowIntegral lo hi (fun x y => (p.evaluate x y).re * Spec.hgMode w i j x y) ^ 2 + η * (2 * (B + 1) + 1)) :=
        Finset.sum_le_sum fun i hi' => Finset.sum_le_sum fun j hj => hterm i hi' j hj
    _ = ∑ i ∈ Finset.range nx, ∑ j ∈ Finset.range ny,
        windowIntegral lo hi (fun x y => (p.evaluate x y).re * Spec.hgMode w i j x y) ^ 2 + η * (M * (2 * (B + 1) + 1)) := by
        simp only [Finset.sum_add_distrib, Finset.sum_const, Finset.card_range, nsmul_eq_mul, hM]
        ring
    _ ≤ B + ε := add_le_add bes hη2

/-- the hypotheses are met: a Gaussian of waist 1 -/
example (nx ny : ℕ) {ε : ℝ} (hε : 0 < ε) :
    let p : TransSource := ⟨.waist 1, 0, 0, fun x y => (Real.exp (-(x ^ 2 + y ^ 2)) : ℝ)⟩
    ∃ δ > 0, ∀ res, 0 < res → res < δ → ∃ (R : HGResult) (a : ℕ → ℕ → ℝ), hgDecomposition p nx ny res = .ok R ∧
      (∀ i < nx, ∀ j < ny, R.weights i j = some (a i j)) ∧
      ∑ i ∈ Finset.range nx, ∑ j ∈ Finset.range ny, a i j ^ 2 ≤
        windowIntegral (-5, -5) (5, 5) (fun x y => (p.evaluate x y).re ^ 2) + ε := by
  intro p
  have hcont : Continuous fun v : ℝ × ℝ => p.evaluate v.1 v.2 := by
    simp only [TransSource.evaluate, p, add_zero]
    exact Complex.continuous_ofReal.comp (by fun_prop)
  have hb : p.bounds = .ok ((-5, -5), (5, 5)) := by
    rw [C65_bounds_partial p ⟨rfl, rfl⟩ 1 rfl]
    norm_num
  have hI : windowIntegral (-5, -5) (5, 5) (fun x y => ‖p.evaluate x y‖ ^ 2) ≠ 0 := by
    rw [windowIntegral_set (by norm_num) (by norm_num) (hcont.norm.pow 2)]
    refine ne_of_gt ?_
    have hcc := (isCompact_Icc (a := (-5 : ℝ)) (b := 5)).prod (isCompact_Icc (a := (-5 : ℝ)) (b := 5))
    have hi : IntegrableOn (fun v : ℝ × ℝ => ‖p.evaluate v.1 v.2‖ ^ 2) (Set.Icc (-5) 5 ×ˢ Set.Icc (-5) 5) :=
      (hcont.norm.pow 2).continuousOn.integrableOn_compact hcc
    refine (setIntegral_pos_iff_support_of_nonneg_ae (Eventually.of_forall fun v => by positivity) hi).2 ?_
    have hs : Function.support (fun v : ℝ × ℝ => ‖p.evaluate v.1 v.2‖ ^ 2) = Set.univ := by
      ext v
      simp [TransSource.evaluate, p, Complex.ofReal_exp]
    rw [hs, Set.univ_inter, Measure.volume_eq_prod, Measure.prod_prod]
    simp
  obtain ⟨δ, hδ, h⟩ := C150_bessel p hb (by norm_num) (by norm_num) hcont hI nx ny hε
  refine ⟨δ, hδ, fun res r0 r1 => ?_⟩
  obtain ⟨R, a, hR, ha, hs, -⟩ := h res r0 r1
  exact ⟨R, a, hR, ha, hs⟩

end Lasy
