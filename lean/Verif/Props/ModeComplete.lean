import Verif.Props.ModeFine
import Verif.Lemmas.HermiteComplete

/-!
# Property C161: with enough modes the Hermite-Gauss decomposition holds the whole beam
-/

namespace Lasy
open MeasureTheory Finset Filter

theorem hgMode_polyGauss (w : ℝ) (i j : ℕ) (v : ℝ × ℝ) : Spec.hgMode w i j v.1 v.2 =
    Real.sqrt (2 / Real.pi) * Real.sqrt (1 / (2 ^ i * i.factorial * w)) * Real.sqrt (1 / (2 ^ j * j.factorial * w)) *
      polyGauss (Real.sqrt 2 / w) (hermiteH i) (hermiteH j) v := by
  have h22 : Real.sqrt 2 ^ 2 = 2 := Real.sq_sqrt (by norm_num)
  rw [hgMode_eq]
  unfold hgFactor polyGauss
  rw [show -((Real.sqrt 2 / w * v.1) ^ 2 + (Real.sqrt 2 / w * v.2) ^ 2) / 2 = -v.1 ^ 2 / w ^ 2 + -v.2 ^ 2 / w ^ 2 by
    rw [mul_pow, mul_pow, div_pow, h22]; ring, Real.exp_add, show ∀ x : ℝ, Real.sqrt 2 * x / w = Real.sqrt 2 / w * x by intro x; ring]
  rw [show Real.sqrt 2 * v.2 / w = Real.sqrt 2 / w * v.2 by ring]
  ring

theorem hgMode_memLp {w : ℝ} (hw : 0 < w) (i j : ℕ) : MemLp (fun v : ℝ × ℝ => Spec.hgMode w i j v.1 v.2) 2 := by
  have h2 : Real.sqrt 2 / w ≠ 0 := by positivity
  have := (polyGauss_memLp h2 (hermiteH i) (hermiteH j)).const_mul
    (Real.sqrt (2 / Real.pi) * Real.sqrt (1 / (2 ^ i * i.factorial * w)) * Real.sqrt (1 / (2 ^ j * j.factorial * w)))
  refine this.ae_eq (Eventually.of_forall fun v => ?_)
  simp only [hgMode_polyGauss w]

/-- Parseval's equation for the Hermite-Gauss modes of any waist -/
theorem hgMode_parseval {w : ℝ} (hw : 0 < w) {f : ℝ × ℝ → ℝ} (hf : MemLp f 2) :
    HasSum (fun p : ℕ × ℕ => (∫ v, f v * Spec.hgMode w p.1 p.2 v.1 v.2) ^ 2) (∫ v, f v ^ 2) := by
  let u : ℕ × ℕ → Lp ℝ 2 (volume : Measure (ℝ × ℝ)) := fun p => (hgMode_memLp hw p.1 p.2).toLp _
  have inn : ∀ {a b : ℝ × ℝ → ℝ} (ha : MemLp a 2) (hb : MemLp b 2), inner ℝ (ha.toLp a) (hb.toLp b) = ∫ v, a v * b v := by
    intro a b ha hb
    rw [L2.inner_def]
    refine integral_congr_ae ?_
    filter_upwards [ha.coeFn_toLp, hb.coeFn_toLp] with v h1 h2
    rw [h1, h2]
    simp [mul_comm]
  have horth : Orthonormal ℝ u := by
    rw [orthonormal_iff_ite]
    intro p q
    simp only [u, inn, integral_hgMode_mul hw, Prod.ext_iff]
  have hbot : (Submodule.span ℝ (Set.range u))ᗮ = ⊥ := by
    rw [Submodule.eq_bot_iff]
    intro h hh
    have h0 : ∀ p : ℕ × ℕ, ∫ v, h v * Spec.hgMode w p.1 p.2 v.1 v.2 = 0 := by
      intro p
      have := (Submodule.mem_orthogonal _ _).1 hh (u p) (Submodule.subset_span ⟨p, rfl⟩)
      rw [real_inner_comm, L2.inner_def] at this
      rw [← this]
      refine integral_congr_ae ?_
      filter_upwards [(hgMode_memLp hw p.1 p.2).coeFn_toLp] with v h2
      simp only [u, h2]
      simp [mul_comm]
    have hα : 0 < Real.sqrt 2 / w := by positivity
    have hz := hermite_complete hα (Lp.memLp h) fun i j => by
      have := h0 (i, j)
      simp only [hgMode_polyGauss w] at this
      set K := Real.sqrt (2 / Real.pi) * Real.sqrt (1 / (2 ^ i * i.factorial * w)) * Real.sqrt (1 / (2 ^ j * j.factorial * w)) with hK
      have hKp : 0 < K := by positivity
      have e : (fun v : ℝ × ℝ => h v * (K * polyGauss (Real.sqrt 2 / w) (hermiteH i) (hermiteH j) v)) =
          fun v => K * (h v * polyGauss (Real.sqrt 2 / w) (hermiteH i) (hermiteH j) v) := by funext v; ring
      rw [e, integral_const_mul] at this
      exact (mul_eq_zero.1 this).resolve_left hKp.ne'
    exact (Lp.eq_zero_iff_ae_eq_zero).2 hz
  have hs := (HilbertBasis.mkOfOrthogonalEqBot horth hbot).hasSum_inner_mul_inner (hf.toLp f) (hf.toLp f)
  simp only [HilbertBasis.coe_mkOfOrthogonalEqBot] at hs
  rw [inn hf hf] at hs
  have e1 : (fun p : ℕ × ℕ => (∫ v, f v * Spec.hgMode w p.1 p.2 v.1 v.2) ^ 2) =
      fun p => inner ℝ (hf.toLp f) (u p) * inner ℝ (u p) (hf.toLp f) := by
    funext p
    rw [real_inner_comm (hf.toLp f) (u p)]
    simp only [u, inn, sq]
  have e2 : ∀ v, f v ^ 2 = f v * f v := fun v => sq _
  rw [e1]
  simp only [e2]
  exact hs

/-- the distance of a function to a combination of modes -/
theorem hgMode_distance {w : ℝ} (hw : 0 < w) {f : ℝ × ℝ → ℝ} (hf : MemLp f 2) (s : Finset (ℕ × ℕ)) (a : ℕ → ℕ → ℝ) :
    (Integrable fun v : ℝ × ℝ => (f v - ∑ p ∈ s, a p.1 p.2 * Spec.hgMode w p.1 p.2 v.1 v.2) ^ 2) ∧
    ∫ v, (f v - ∑ p ∈ s, a p.1 p.2 * Spec.hgMode w p.1 p.2 v.1 v.2) ^ 2 =
      (∫ v, f v ^ 2) - ∑ p ∈ s, (∫ v, f v * Spec.hgMode w p.1 p.2 v.1 v.2) ^ 2 +
        ∑ p ∈ s, (a p.1 p.2 - ∫ v, f v * Spec.hgMode w p.1 p.2 v.1 v.2) ^ 2 := by
  set φ : ℕ × ℕ → ℝ × ℝ → ℝ := fun p v => Spec.hgMode w p.1 p.2 v.1 v.2 with hφ
  have i1 : Integrable fun v => f v ^ 2 := (memLp_two_iff_integrable_sq hf.aestronglyMeasurable).1 hf
  have i2 : ∀ p, Integrable fun v => f v * φ p v := fun p => hf.integrable_mul (hgMode_memLp hw p.1 p.2)
  have i3 : ∀ p q, Integrable fun v => φ p v * φ q v := fun p q => integrable_hgMode_mul hw _ _ _ _
  have ho : ∀ p q, ∫ v, φ p v * φ q v = if p = q then 1 else 0 := fun p q => by
    simp only [hφ, integral_hgMode_mul hw, Prod.ext_iff]
  have expand : ∀ v, (f v - ∑ p ∈ s, a p.1 p.2 * φ p v) ^ 2 = f v ^ 2 - ∑ p ∈ s, 2 * a p.1 p.2 * (f v * φ p v) +
      ∑ p ∈ s, ∑ q ∈ s, a p.1 p.2 * a q.1 q.2 * (φ p v * φ q v) := by
    intro v
    rw [sub_sq, sq (∑ p ∈ s, a p.1 p.2 * φ p v), Finset.sum_mul_sum, Finset.mul_sum]
    congr 1
    · congr 1
      exact Finset.sum_congr rfl fun i _ => by ring
    · exact Finset.sum_congr rfl fun i _ => Finset.sum_congr rfl fun j _ => by ring
  have j1 : Integrable fun v => ∑ p ∈ s, 2 * a p.1 p.2 * (f v * φ p v) := integrable_finsetSum _ fun p _ => (i2 p).const_mul _
  have j2 : Integrable fun v => ∑ p ∈ s, ∑ q ∈ s, a p.1 p.2 * a q.1 q.2 * (φ p v * φ q v) :=
    integrable_finsetSum _ fun p _ => integrable_finsetSum _ fun q _ => (i3 p q).const_mul _
  have j0 : Integrable fun v => f v ^ 2 - ∑ p ∈ s, 2 * a p.1 p.2 * (f v * φ p v) := i1.sub j1
  have expand' : (fun v : ℝ × ℝ => (f v - ∑ p ∈ s, a p.1 p.2 * Spec.hgMode w p.1 p.2 v.1 v.2) ^ 2) = fun v =>
      f v ^ 2 - ∑ p ∈ s, 2 * a p.1 p.2 * (f v * φ p v) +
      ∑ p ∈ s, ∑ q ∈ s, a p.1 p.2 * a q.1 q.2 * (φ p v * φ q v) := funext expand
  rw [expand']
  refine ⟨j0.add j2, ?_⟩
  rw [integral_add j0 j2, integral_sub i1 j1, integral_finsetSum _ fun p _ => (i2 p).const_mul _,
    integral_finsetSum _ fun p _ => integrable_finsetSum _ fun q _ => (i3 p q).const_mul _]
  have w2 : ∑ p ∈ s, ∫ v, ∑ q ∈ s, a p.1 p.2 * a q.1 q.2 * (φ p v * φ q v) = ∑ p ∈ s, a p.1 p.2 ^ 2 := by
    refine Finset.sum_congr rfl fun p hp => ?_
    rw [integral_finsetSum _ fun q _ => (i3 p q).const_mul _, Finset.sum_eq_single p]
    · rw [integral_const_mul, ho, if_pos rfl]; ring
    · intro q _ hq
      rw [integral_const_mul, ho, if_neg (fun h => hq h.symm), mul_zero]
    · exact fun h => absurd hp h
  rw [w2, sub_add, sub_add, ← Finset.sum_sub_distrib, ← Finset.sum_sub_distrib]
  congr 1
  refine Finset.sum_congr rfl fun p _ => ?_
  rw [integral_const_mul]
  ring

theorem windowIntegral_continuous {lo hi : ℝ × ℝ} {F : ℝ → ℝ → ℝ → ℝ} (hF : Continuous fun q : ℝ × ℝ × ℝ => F q.1 q.2.1 q.2.2) :
    Continuous fun w => windowIntegral lo hi (F w) := by
  unfold windowIntegral
  refine intervalIntegral.continuous_parametric_intervalIntegral_of_continuous' (f := fun w x => ∫ y in lo.2..hi.2, F w x y) ?_ _ _
  exact intervalIntegral.continuous_parametric_intervalIntegral_of_continuous'
    (f := fun (q : ℝ × ℝ) y => F q.1 q.2 y) (hF.comp (by fun_prop : Continuous fun q : (ℝ × ℝ) × ℝ => (q.1.1, q.1.2, q.2))) _ _

/-- **C161.** Let a transverse profile be continuous and not zero in its window. For every accuracy there is a number of modes from
which on, if the resolution is fine enough, `hermite_gauss_decomposition` returns a waist and weights whose
`HermiteGaussianTransverseProfile`s, summed, reproduce the profile in the window in the mean square, up to the part that no real
combination can hold (the imaginary part), and hold no energy outside of the window. For a real field the modes thus
reproduce the beam as closely as one likes. -/
theorem C161_complete (p : TransSource) {lo hi : ℝ × ℝ} (hb : p.bounds = .ok (lo, hi)) (h1 : lo.1 < hi.1) (h2 : lo.2 < hi.2)
    (hc : Continuous fun v : ℝ × ℝ => p.evaluate v.1 v.2) (hI : windowIntegral lo hi (fun x y => ‖p.evaluate x y‖ ^ 2) ≠ 0)
    {ε : ℝ} (hε : 0 < ε) :
    ∃ N, ∀ nx ny, N ≤ nx → N ≤ ny → ∃ δ > 0, ∀ res, 0 < res → res < δ →
      ∃ (R : HGResult) (w : ℝ) (a : ℕ → ℕ → ℝ), hgDecomposition p nx ny res = .ok R ∧ R.waist = some w ∧
        (∀ i < nx, ∀ j < ny, R.weights i j = some (a i j)) ∧
        windowIntegral lo hi (fun x y => ‖p.evaluate x y -
          ∑ i ∈ Finset.range nx, ∑ j ∈ Finset.range ny, a i j * hermiteGaussianTrans w i j 0 x y‖ ^ 2) ≤
          windowIntegral lo hi (fun x y => (p.evaluate x y).im ^ 2) + ε ∧
        ∫ v in (Set.Icc lo.1 hi.1 ×ˢ Set.Icc lo.2 hi.2)ᶜ,
          ‖∑ i ∈ Finset.range nx, ∑ j ∈ Finset.range ny, a i j * hermiteGaussianTrans w i j 0 v.1 v.2‖ ^ 2 ≤ ε := by
  have hre : Continuous fun v : ℝ × ℝ => (p.evaluate v.1 v.2).re := Complex.continuous_re.comp hc
  have him : Continuous fun v : ℝ × ℝ => (p.evaluate v.1 v.2).im := Complex.continuous_im.comp hc
  set W := (Spec.windowStd lo hi fun x y => ‖p.evaluate x y‖ ^ 2).1 +
    (Spec.windowStd lo hi fun x y => ‖p.evaluate x y‖ ^ 2).2 with hW
  have hWp : 0 < W := by
    have := windowStd_pos h1 h2 (G := fun x y => ‖p.evaluate x y‖ ^ 2) (hc.norm.pow 2) (fun x y => by positivity) hI
    have h0 : 0 ≤ (Spec.windowStd lo hi fun x y => ‖p.evaluate x y‖ ^ 2).2 := Real.sqrt_nonneg _
    linarith
  set S : Set (ℝ × ℝ) := Set.Icc lo.1 hi.1 ×ˢ Set.Icc lo.2 hi.2 with hS
  have hSm : MeasurableSet S := measurableSet_Icc.prod measurableSet_Icc
  have hSc : IsCompact S := isCompact_Icc.prod isCompact_Icc
  set f : ℝ × ℝ → ℝ := S.indicator fun v => (p.evaluate v.1 v.2).re with hf
  have hfm : AEStronglyMeasurable f := hre.aestronglyMeasurable.indicator hSm
  have e1 : ∀ v, f v ^ 2 = S.indicator (fun v => (p.evaluate v.1 v.2).re ^ 2) v := by
    intro v
    by_cases hv : v ∈ S <;> simp [hf, hv]
  have hfL : MemLp f 2 := by
    refine (memLp_two_iff_integrable_sq hfm).2 ?_
    simp only [e1]
    exact (integrable_indicator_iff hSm).2 ((hre.pow 2).continuousOn.integrableOn_compact hSc)
  have hmc : ∀ {w : ℝ}, 0 < w → ∀ i j, Continuous fun v : ℝ × ℝ => Spec.hgMode w i j v.1 v.2 := by
    intro w hw i j
    have := (hgMode_continuous hw i j).comp (Continuous.prodMk continuous_const continuous_id : Continuous fun v : ℝ × ℝ => (w, v))
    simpa [Function.comp_def] using this
  -- the overlap integrals, over the plane and over the window
  set c : ℝ → ℕ × ℕ → ℝ := fun w q => windowIntegral lo hi fun x y => (p.evaluate x y).re * Spec.hgMode w q.1 q.2 x y with hcd
  have hcf : ∀ {w : ℝ}, 0 < w → ∀ q : ℕ × ℕ, ∫ v, f v * Spec.hgMode w q.1 q.2 v.1 v.2 = c w q := by
    intro w hw q
    have : ∀ v : ℝ × ℝ, f v * Spec.hgMode w q.1 q.2 v.1 v.2 =
        S.indicator (fun v => (p.evaluate v.1 v.2).re * Spec.hgMode w q.1 q.2 v.1 v.2) v := by
      intro v
      by_cases hv : v ∈ S <;> simp [hf, hv]
    simp only [this]
    rw [integral_indicator hSm]
    exact (windowIntegral_set h1.le h2.le (G := fun x y => (p.evaluate x y).re * Spec.hgMode w q.1 q.2 x y)
      (hre.mul (hmc hw _ _))).symm
  set B := ∫ v, f v ^ 2 with hB
  let wk : Fin 30 → ℝ := fun k => W * (1 / 2 + (k : ℕ) / 29)
  have hwk : ∀ k, W / 2 ≤ wk k := by
    intro k
    have : (0 : ℝ) ≤ (k : ℕ) / 29 := by positivity
    simp only [wk]
    nlinarith
  -- enough modes for each of the candidates
  have hN : ∀ k, ∃ N : ℕ, ∀ nx ny, N ≤ nx → N ≤ ny →
      B - ε / 4 ≤ ∑ q ∈ Finset.range nx ×ˢ Finset.range ny, c (wk k) q ^ 2 := by
    intro k
    have hk : 0 < wk k := lt_of_lt_of_le (by positivity) (hwk k)
    have hs := hgMode_parseval hk hfL
    simp only [hcf hk] at hs
    obtain ⟨s0, hs0⟩ := Filter.eventually_atTop.1 (Metric.tendsto_nhds.1 hs (ε / 4) (by positivity))
    refine ⟨s0.sup (fun q => max q.1 q.2) + 1, fun nx ny hx hy => ?_⟩
    have hsub : s0 ⊆ Finset.range nx ×ˢ Finset.range ny := by
      intro q hq
      have := Finset.le_sup (f := fun q : ℕ × ℕ => max q.1 q.2) hq
      simp only [Finset.mem_product, Finset.mem_range]
      have := max_le_iff.1 this
      omega
    have := hs0 _ hsub
    rw [Real.dist_eq] at this
    linarith [(abs_lt.1 this).1]
  choose N hN using hN
  refine ⟨Finset.univ.sup N, fun nx ny hx hy => ?_⟩
  set T := Finset.range nx ×ˢ Finset.range ny with hT
  -- the overlaps change continuously with the waist
  have hcont : Continuous fun w => ∑ q ∈ T, c (max w (W / 4)) q ^ 2 := by
    refine continuous_finsetSum _ fun q _ => Continuous.pow ?_ 2
    exact windowIntegral_continuous (F := fun w x y => (p.evaluate x y).re * Spec.hgMode (max w (W / 4)) q.1 q.2 x y)
      ((hre.comp continuous_snd).mul (hgMode_continuous (by positivity) _ _))
  have hη : ∀ k, ∃ η > 0, ∀ w, |w - wk k| < η →
      |(∑ q ∈ T, c (max w (W / 4)) q ^ 2) - ∑ q ∈ T, c (max (wk k) (W / 4)) q ^ 2| < ε / 4 := fun k => by
    obtain ⟨η, h, h'⟩ := Metric.continuous_iff.1 hcont (wk k) (ε / 4) (by positivity)
    exact ⟨η, h, fun w hw => h' w hw⟩
  choose η hη0 hη using hη
  set η0 := Finset.univ.inf' ⟨0, Finset.mem_univ _⟩ η with hη0d
  have hη0p : 0 < η0 := (Finset.lt_inf'_iff _).2 fun k _ => hη0 k
  have hη0l : ∀ k, η0 ≤ η k := fun k => Finset.inf'_le _ (Finset.mem_univ k)
  set e' := min (min 1 (W / 4)) (min (η0 / 2) (ε / 4 / (nx * ny + 1))) with he'
  have he0 : 0 < e' := by positivity
  have he1 : e' ≤ 1 := (min_le_left _ _).trans (min_le_left _ _)
  have heW : e' ≤ W / 4 := (min_le_left _ _).trans (min_le_right _ _)
  have heη : e' ≤ η0 / 2 := (min_le_right _ _).trans (min_le_left _ _)
  have heε : e' * (nx * ny + 1) ≤ ε / 4 := (le_div_iff₀ (by positivity)).1 ((min_le_right _ _).trans (min_le_right _ _))
  obtain ⟨δ, hδ, key⟩ := C150_overlap p hb h1 h2 hc hI nx ny he0
  refine ⟨δ, hδ, fun res r0 rδ => ?_⟩
  obtain ⟨R, w, hR, hRw, hw, ⟨k, hk⟩, hwt⟩ := key res r0 rδ
  choose! a ha using fun i (hi' : i < nx) => fun j (hj : j < ny) => hwt i hi' j hj
  change |w - wk k| ≤ e' at hk
  have hwW : W / 4 ≤ w := by
    have := (abs_le.1 hk).1
    linarith [hwk k]
  -- the modes of the waist found hold nearly everything
  have hC : B - ε / 2 ≤ ∑ q ∈ T, c w q ^ 2 := by
    have h := hη k w (lt_of_le_of_lt hk (by linarith [hη0l k]))
    rw [max_eq_left hwW, max_eq_left (by linarith [hwk k])] at h
    have h' := hN k nx ny ((Finset.le_sup (Finset.mem_univ k)).trans hx) ((Finset.le_sup (Finset.mem_univ k)).trans hy)
    linarith [(abs_lt.1 h).1]
  have hA : ∑ q ∈ T, (a q.1 q.2 - c w q) ^ 2 ≤ ε / 4 := by
    calc ∑ q ∈ T, (a q.1 q.2 - c w q) ^ 2 ≤ ∑ q ∈ T, e' := by
          refine Finset.sum_le_sum fun q hq => ?_
          rw [hT, Finset.mem_product, Finset.mem_range, Finset.mem_range] at hq
          have := (ha q.1 hq.1 q.2 hq.2).2
          rw [← sq_abs]
          have h0 := abs_nonneg (a q.1 q.2 - c w q)
          change |a q.1 q.2 - c w q| ≤ e' at this
          nlinarith
      _ = e' * (nx * ny) := by
          rw [Finset.sum_const, hT, Finset.card_product, Finset.card_range, Finset.card_range, nsmul_eq_mul]
          push_cast
          ring
      _ ≤ ε / 4 := by linarith
  obtain ⟨hDi, hD⟩ := hgMode_distance hw hfL T a
  simp only [hcf hw] at hD
  set r : ℝ × ℝ → ℝ := fun v => ∑ q ∈ T, a q.1 q.2 * Spec.hgMode w q.1 q.2 v.1 v.2 with hr
  have hrc : Continuous r := continuous_finsetSum _ fun q _ => continuous_const.mul (hmc hw _ _)
  have hDle : ∫ v, (f v - r v) ^ 2 ≤ ε := by
    change ∫ v, (f v - r v) ^ 2 = _ at hD
    rw [hD]
    linarith
  have hrs : ∀ x y : ℝ, (∑ i ∈ Finset.range nx, ∑ j ∈ Finset.range ny, (a i j : ℂ) * hermiteGaussianTrans w i j 0 x y) =
      (r (x, y) : ℂ) := by
    intro x y
    simp only [hr, hT, hgTrans_focus, Finset.sum_product]
    push_cast
    rfl
  have hSle : ∀ A : Set (ℝ × ℝ), ∫ v in A, (f v - r v) ^ 2 ≤ ε := fun A =>
    (setIntegral_le_integral hDi (Eventually.of_forall fun v => sq_nonneg _)).trans hDle
  refine ⟨R, w, a, hR, hRw, fun i hi' j hj => (ha i hi' j hj).1, ?_, ?_⟩
  · simp only [hrs]
    have en : ∀ x y, ‖p.evaluate x y - (r (x, y) : ℂ)‖ ^ 2 = ((p.evaluate x y).re - r (x, y)) ^ 2 + (p.evaluate x y).im ^ 2 := by
      intro x y
      rw [Complex.sq_norm, Complex.normSq_apply]
      simp
      ring
    simp only [en]
    have k1 : Continuous fun v : ℝ × ℝ => ((p.evaluate v.1 v.2).re - r v) ^ 2 := (hre.sub hrc).pow 2
    have k2 : Continuous fun v : ℝ × ℝ => (p.evaluate v.1 v.2).im ^ 2 := him.pow 2
    rw [windowIntegral_set h1.le h2.le (k1.add k2), windowIntegral_set h1.le h2.le k2]
    rw [integral_add (k1.continuousOn.integrableOn_compact hSc) (k2.continuousOn.integrableOn_compact hSc)]
    have : ∫ v in S, ((p.evaluate v.1 v.2).re - r v) ^ 2 ≤ ε := by
      refine le_trans (le_of_eq ?_) (hSle S)
      refine setIntegral_congr_fun hSm fun v hv => ?_
      simp only [hf, Set.indicator_of_mem hv]
    linarith
  · simp only [hrs, Complex.norm_real, Real.norm_eq_abs, sq_abs]
    refine le_trans (le_of_eq ?_) (hSle Sᶜ)
    refine setIntegral_congr_fun hSm.compl fun v hv => ?_
    simp only [hf, Set.indicator_of_notMem hv, zero_sub, neg_sq]

/-- the hypotheses are met: a flattened beam `exp(-(x^2 + y^2)^2)`, which no finite set of modes holds exactly -/
example {ε : ℝ} (hε : 0 < ε) :
    let p : TransSource := ⟨.waist 1, 0, 0, fun x y => (Real.exp (-(x ^ 2 + y ^ 2) ^ 2) : ℝ)⟩
    ∃ N, ∀ nx ny, N ≤ nx → N ≤ ny → ∃ δ > 0, ∀ res, 0 < res → res < δ →
      ∃ (R : HGResult) (w : ℝ) (a : ℕ → ℕ → ℝ), hgDecomposition p nx ny res = .ok R ∧ R.waist = some w ∧
        (∀ i < nx, ∀ j < ny, R.weights i j = some (a i j)) ∧
        windowIntegral (-5, -5) (5, 5) (fun x y => ‖p.evaluate x y -
          ∑ i ∈ Finset.range nx, ∑ j ∈ Finset.range ny, a i j * hermiteGaussianTrans w i j 0 x y‖ ^ 2) ≤ ε := by
  intro p
  have hcont : Continuous fun v : ℝ × ℝ => p.evaluate v.1 v.2 := by
    simp only [TransSource.evaluate, p, add_zero]
    exact Complex.continuous_ofReal.comp (by fun_prop)
  have hb : p.bounds = .ok ((-5, -5), (5, 5)) := by
    rw [C65_bounds_partial p ⟨rfl, rfl⟩ 1 rfl]
    norm_num
  have hI : windowIntegral (-5, -5) (5, 5) (fun x y => ‖p.evaluate x y‖ ^ 2) ≠ 0 := by
    rw [windowIntegral_set (by norm_num) (by norm_num) (hcont.norm.pow 2)]
    refine ne_of_gt ?_
    have hcc := (isCompact_Icc (a := (-5 : ℝ)) (b := 5)).prod (isCompact_Icc (a := (-5 : ℝ)) (b := 5))
    have hi : IntegrableOn (fun v : ℝ × ℝ => ‖p.evaluate v.1 v.2‖ ^ 2) (Set.Icc (-5) 5 ×ˢ Set.Icc (-5) 5) :=
      (hcont.norm.pow 2).continuousOn.integrableOn_compact hcc
    refine (setIntegral_pos_iff_support_of_nonneg_ae (Eventually.of_forall fun v => by positivity) hi).2 ?_
    have hs : Function.support (fun v : ℝ × ℝ => ‖p.evaluate v.1 v.2‖ ^ 2) = Set.univ := by
      ext v
      simp [TransSource.evaluate, p, Complex.ofReal_exp]
    rw [hs, Set.univ_inter, Measure.volume_eq_prod, Measure.prod_prod]
    simp
  obtain ⟨N, h⟩ := C161_complete p hb (by norm_num) (by norm_num) hcont hI hε
  refine ⟨N, fun nx ny hx hy => ?_⟩
  obtain ⟨δ, hδ, h⟩ := h nx ny hx hy
  refine ⟨δ, hδ, fun res r0 r1 => ?_⟩
  obtain ⟨R, w, a, hR, hw, ha, hs, -⟩ := h res r0 r1
  refine ⟨R, w, a, hR, hw, ha, hs.trans ?_⟩
  have : ∀ x y, (p.evaluate x y).im = 0 := fun x y => by simp only [TransSource.evaluate, p, Complex.ofReal_im]
  simp [this, windowIntegral]

end Lasy
