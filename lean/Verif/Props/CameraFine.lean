import Verif.Props.FromArrayAccuracy
import Verif.Props.FromData
import Verif.Props.PulseDuration

/-!
# Property C147: camera images with fine pixels
-/

namespace Lasy
open MeasureTheory

/-- the image of `nx × ny` pixels that a camera takes of the intensity `G` on the window from `lo` to `hi` -/
noncomputable def camera (G : ℝ → ℝ → ℝ) (lo hi : ℝ × ℝ) (nx ny : ℕ) : Img ny nx :=
  fun q c => G (linspace lo.1 hi.1 nx c) (linspace lo.2 hi.2 ny q)

/-- the integral over the window -/
noncomputable def windowIntegral (lo hi : ℝ × ℝ) (G : ℝ → ℝ → ℝ) : ℝ := ∫ x in lo.1..hi.1, ∫ y in lo.2..hi.2, G x y

/-- the centroid of the intensity `G` on the window -/
noncomputable def centroid (lo hi : ℝ × ℝ) (G : ℝ → ℝ → ℝ) : ℝ × ℝ :=
  (windowIntegral lo hi (fun x y => x * G x y) / windowIntegral lo hi G,
   windowIntegral lo hi (fun x y => y * G x y) / windowIntegral lo hi G)

/-- the sum over the points of two axes -/
noncomputable def windowSum (lo hi : ℝ × ℝ) (n : ℕ × ℕ) (G : ℝ → ℝ → ℝ) : ℝ :=
  linSum lo.1 hi.1 n.1 fun x => linSum lo.2 hi.2 n.2 (G x)

theorem windowSum_tendsto {lo hi : ℝ × ℝ} (h1 : lo.1 < hi.1) (h2 : lo.2 < hi.2) {G : ℝ → ℝ → ℝ}
    (hG : Continuous fun v : ℝ × ℝ => G v.1 v.2) :
    Filter.Tendsto (fun n => windowSum lo hi n G) Filter.atTop (nhds (windowIntegral lo hi G)) := by
  rw [Metric.tendsto_atTop]
  intro ε hε
  obtain ⟨N, -, key⟩ := quad_two h1.le (quad_lin h1.le) (quad_lin h2.le) (X := Unit) (K := Set.univ) isCompact_univ
    (F := fun _ x y => G x y) (hG.comp continuous_snd) (half_pos hε)
  refine ⟨(N, N), fun n hn => ?_⟩
  have := key n.1 hn.1 n.2 hn.2 () trivial
  rw [Real.dist_eq]
  unfold windowSum windowIntegral
  linarith

/-- the sum over the points of two axes, as a sum over pixels -/
theorem windowSum_eq (lo hi : ℝ × ℝ) (n : ℕ × ℕ) (G : ℝ → ℝ → ℝ) :
    windowSum lo hi n G = (hi.1 - lo.1) / ((n.1 : ℝ) - 1) * ((hi.2 - lo.2) / ((n.2 : ℝ) - 1)) *
      ∑ q, ∑ c, G (linspace lo.1 hi.1 n.1 c) (linspace lo.2 hi.2 n.2 q) := by
  unfold windowSum linSum
  rw [Finset.sum_comm]
  simp only [Finset.mul_sum]
  exact Finset.sum_congr rfl fun _ _ => Finset.sum_congr rfl fun _ _ => by ring

theorem pixel_pos {a b : ℝ} (h : a < b) {n : ℕ} (hn : 2 ≤ n) : 0 < (b - a) / ((n : ℝ) - 1) := by
  have : (2 : ℝ) ≤ n := by exact_mod_cast hn
  exact div_pos (by linarith) (by linarith)

theorem pixel_tendsto (a b : ℝ) : Filter.Tendsto (fun n : ℕ => (b - a) / ((n : ℝ) - 1)) Filter.atTop (nhds 0) := by
  refine Filter.Tendsto.div_atTop tendsto_const_nhds ?_
  exact Filter.tendsto_atTop_add_const_right _ _ tendsto_natCast_atTop_atTop

/-- the centre of mass, in metres, is the quotient of two sums over the points -/
theorem com_eq {lo hi : ℝ × ℝ} (h1 : lo.1 < hi.1) (h2 : lo.2 < hi.2) {n : ℕ × ℕ} (hn1 : 2 ≤ n.1) (hn2 : 2 ≤ n.2)
    {G : ℝ → ℝ → ℝ} (h0 : windowSum lo hi n G ≠ 0) :
    lo.1 + (findCenterOfMass (camera G lo hi n.1 n.2)).1 * ((hi.1 - lo.1) / ((n.1 : ℝ) - 1)) =
        windowSum lo hi n (fun x y => x * G x y) / windowSum lo hi n G ∧
    lo.2 + (findCenterOfMass (camera G lo hi n.1 n.2)).2 * ((hi.2 - lo.2) / ((n.2 : ℝ) - 1)) =
        windowSum lo hi n (fun x y => y * G x y) / windowSum lo hi n G := by
  have p1 := pixel_pos h1 hn1
  have p2 := pixel_pos h2 hn2
  have hs : imgSum (camera G lo hi n.1 n.2) ≠ 0 := by
    intro hc
    apply h0
    rw [windowSum_eq]
    unfold imgSum camera at hc
    rw [hc, mul_zero]
  have hw : windowSum lo hi n G = (hi.1 - lo.1) / ((n.1 : ℝ) - 1) * ((hi.2 - lo.2) / ((n.2 : ℝ) - 1)) *
      imgSum (camera G lo hi n.1 n.2) := windowSum_eq lo hi n G
  set hx := (hi.1 - lo.1) / ((n.1 : ℝ) - 1) with ehx
  set hy := (hi.2 - lo.2) / ((n.2 : ℝ) - 1) with ehy
  constructor
  · rw [com_fst, hw, windowSum_eq, ← ehx, ← ehy, mul_div_mul_left _ _ (mul_pos p1 p2).ne']
    rw [div_mul_eq_mul_div, add_div' _ _ _ hs]
    congr 1
    unfold imgSum camera linspace
    rw [Finset.mul_sum, Finset.sum_mul, ← Finset.sum_add_distrib]
    refine Finset.sum_congr rfl fun q _ => ?_
    rw [Finset.mul_sum, Finset.sum_mul, ← Finset.sum_add_distrib]
    refine Finset.sum_congr rfl fun c _ => ?_
    rw [← ehx, ← ehy]
    ring
  · rw [com_snd, hw, windowSum_eq, ← ehx, ← ehy, mul_div_mul_left _ _ (mul_pos p1 p2).ne']
    rw [div_mul_eq_mul_div, add_div' _ _ _ hs]
    congr 1
    unfold imgSum camera linspace
    rw [Finset.mul_sum, Finset.sum_mul, ← Finset.sum_add_distrib]
    refine Finset.sum_congr rfl fun q _ => ?_
    rw [Finset.mul_sum, Finset.sum_mul, ← Finset.sum_add_distrib]
    refine Finset.sum_congr rfl fun c _ => ?_
    rw [← ehx, ← ehy]
    ring

theorem eventually_fine {p : ℕ → Prop} (hp : ∃ N, ∀ n ≥ N, p n) : ∀ᶠ n : ℕ × ℕ in Filter.atTop, p n.1 ∧ p n.2 := by
  obtain ⟨N, hN⟩ := hp
  filter_upwards [Filter.eventually_ge_atTop (N, N)] with n hn
  exact ⟨hN _ hn.1, hN _ hn.2⟩

/-- **C147** (centre of mass). With fine pixels `find_center_of_mass`, converted from pixels to metres, tends to the centroid
of the intensity. -/
theorem C147_center {lo hi : ℝ × ℝ} (h1 : lo.1 < hi.1) (h2 : lo.2 < hi.2) {G : ℝ → ℝ → ℝ}
    (hG : Continuous fun v : ℝ × ℝ => G v.1 v.2) (hI : windowIntegral lo hi G ≠ 0) :
    Filter.Tendsto (fun n : ℕ × ℕ => lo.1 + (findCenterOfMass (camera G lo hi n.1 n.2)).1 * ((hi.1 - lo.1) / ((n.1 : ℝ) - 1)))
      Filter.atTop (nhds (centroid lo hi G).1) ∧
    Filter.Tendsto (fun n : ℕ × ℕ => lo.2 + (findCenterOfMass (camera G lo hi n.1 n.2)).2 * ((hi.2 - lo.2) / ((n.2 : ℝ) - 1)))
      Filter.atTop (nhds (centroid lo hi G).2) := by
  have t0 := windowSum_tendsto h1 h2 hG
  have tx := windowSum_tendsto h1 h2 (G := fun x y => x * G x y) (continuous_fst.mul hG)
  have ty := windowSum_tendsto h1 h2 (G := fun x y => y * G x y) (continuous_snd.mul hG)
  have ev : ∀ᶠ n : ℕ × ℕ in Filter.atTop, (2 ≤ n.1 ∧ 2 ≤ n.2) ∧ windowSum lo hi n G ≠ 0 :=
    (eventually_fine ⟨2, fun n hn => hn⟩).and (t0.eventually_ne hI)
  constructor
  · refine (tx.div t0 hI).congr' ?_
    filter_upwards [ev] with n hn
    exact (com_eq h1 h2 hn.1.1 hn.1.2 hn.2).1.symm
  · refine (ty.div t0 hI).congr' ?_
    filter_upwards [ev] with n hn
    exact (com_eq h1 h2 hn.1.1 hn.1.2 hn.2).2.symm

/-- a variance in pixels, times the pixel size squared -/
theorem pixel_variance {ι : Type} [Fintype ι] (w : ι → ℝ) (i X : ι → ℝ) (a h m : ℝ) (hX : ∀ k, X k = a + i k * h)
    (hS : ∑ k, w k ≠ 0) {com : ℝ} (hcom : a + com * h = (∑ k, X k * w k) / ∑ k, w k) :
    h ^ 2 * ((∑ k, w k * (i k - com) ^ 2) / ∑ k, w k) =
      (∑ k, (X k - m) ^ 2 * w k) / (∑ k, w k) - ((∑ k, X k * w k) / (∑ k, w k) - m) ^ 2 := by
  have e : ∀ k, h ^ 2 * (w k * (i k - com) ^ 2) = w k * (X k - (a + com * h)) ^ 2 := fun k => by rw [hX]; ring
  rw [← mul_div_assoc, Finset.mul_sum, Finset.sum_congr rfl fun k _ => e k]
  set S := ∑ k, w k with hSd
  set T := ∑ k, X k * w k with hT
  set Q := ∑ k, X k ^ 2 * w k with hQ
  rw [hcom]
  have e2 : ∀ b : ℝ, ∑ k, w k * (X k - b) ^ 2 = Q - 2 * b * T + b ^ 2 * S := by
    intro b
    rw [hSd, hT, hQ, Finset.mul_sum, Finset.mul_sum, ← Finset.sum_sub_distrib, ← Finset.sum_add_distrib]
    exact Finset.sum_congr rfl fun k _ => by ring
  have e3 : ∑ k, (X k - m) ^ 2 * w k = Q - 2 * m * T + m ^ 2 * S := by
    rw [← e2]
    exact Finset.sum_congr rfl fun k _ => by ring
  rw [e2, e3]
  field_simp
  ring

/-- **C147** (`D4σ`). With fine pixels `find_d4sigma`, converted to metres, tends to four times the standard deviations of the
intensity around its centroid. -/
theorem C147_d4sigma {lo hi : ℝ × ℝ} (h1 : lo.1 < hi.1) (h2 : lo.2 < hi.2) {G : ℝ → ℝ → ℝ}
    (hG : Continuous fun v : ℝ × ℝ => G v.1 v.2) (hI : windowIntegral lo hi G ≠ 0) :
    Filter.Tendsto (fun n : ℕ × ℕ => (findD4sigma (camera G lo hi n.1 n.2)).1 * ((hi.1 - lo.1) / ((n.1 : ℝ) - 1)))
      Filter.atTop (nhds (4 * Real.sqrt (windowIntegral lo hi (fun x y => (x - (centroid lo hi G).1) ^ 2 * G x y) /
        windowIntegral lo hi G))) ∧
    Filter.Tendsto (fun n : ℕ × ℕ => (findD4sigma (camera G lo hi n.1 n.2)).2 * ((hi.2 - lo.2) / ((n.2 : ℝ) - 1)))
      Filter.atTop (nhds (4 * Real.sqrt (windowIntegral lo hi (fun x y => (y - (centroid lo hi G).2) ^ 2 * G x y) /
        windowIntegral lo hi G))) := by
  have t0 := windowSum_tendsto h1 h2 hG
  have tx := windowSum_tendsto h1 h2 (G := fun x y => x * G x y) (continuous_fst.mul hG)
  have ty := windowSum_tendsto h1 h2 (G := fun x y => y * G x y) (continuous_snd.mul hG)
  have tx2 := windowSum_tendsto h1 h2 (G := fun x y => (x - (centroid lo hi G).1) ^ 2 * G x y)
    (((continuous_fst.sub continuous_const).pow 2).mul hG)
  have ty2 := windowSum_tendsto h1 h2 (G := fun x y => (y - (centroid lo hi G).2) ^ 2 * G x y)
    (((continuous_snd.sub continuous_const).pow 2).mul hG)
  have ev : ∀ᶠ n : ℕ × ℕ in Filter.atTop, (2 ≤ n.1 ∧ 2 ≤ n.2) ∧ windowSum lo hi n G ≠ 0 :=
    (eventually_fine ⟨2, fun n hn => hn⟩).and (t0.eventually_ne hI)
  have flat : ∀ {a b : ℕ} (f : Fin a → Fin b → ℝ), ∑ q, ∑ c, f q c = ∑ k : Fin a × Fin b, f k.1 k.2 :=
    fun f => (Fintype.sum_prod_type' f).symm
  constructor
  · refine ((rms_tendsto hI t0 tx tx2).const_mul 4).congr' ?_
    filter_upwards [ev] with n hn
    have p1 := pixel_pos h1 hn.1.1
    have p2 := pixel_pos h2 hn.1.2
    have hc := (com_eq h1 h2 hn.1.1 hn.1.2 hn.2).1
    have hne := hn.2
    simp only [windowSum_eq] at hc hne ⊢
    set P := (hi.1 - lo.1) / ((n.1 : ℝ) - 1) * ((hi.2 - lo.2) / ((n.2 : ℝ) - 1)) with hP
    have hP0 : P ≠ 0 := (mul_pos p1 p2).ne'
    rw [mul_div_mul_left _ _ hP0] at hc
    rw [mul_div_mul_left _ _ hP0, mul_div_mul_left _ _ hP0]
    simp only [flat] at hc hne ⊢
    rw [d4_eq]
    simp only
    rw [mul_assoc]
    congr 1
    rw [mul_comm, ← Real.sqrt_sq p1.le, ← Real.sqrt_mul (sq_nonneg _)]
    congr 1
    unfold imgSum
    simp only [flat]
    exact (pixel_variance (fun k : Fin n.2 × Fin n.1 => G (linspace lo.1 hi.1 n.1 k.2) (linspace lo.2 hi.2 n.2 k.1))
      (fun k => ((k.2 : ℕ) : ℝ)) (fun k => linspace lo.1 hi.1 n.1 k.2) lo.1 _ _ (fun k => rfl) (right_ne_zero_of_mul hne) hc).symm
  · refine ((rms_tendsto hI t0 ty ty2).const_mul 4).congr' ?_
    filter_upwards [ev] with n hn
    have p1 := pixel_pos h1 hn.1.1
    have p2 := pixel_pos h2 hn.1.2
    have hc := (com_eq h1 h2 hn.1.1 hn.1.2 hn.2).2
    have hne := hn.2
    simp only [windowSum_eq] at hc hne ⊢
    set P := (hi.1 - lo.1) / ((n.1 : ℝ) - 1) * ((hi.2 - lo.2) / ((n.2 : ℝ) - 1)) with hP
    have hP0 : P ≠ 0 := (mul_pos p1 p2).ne'
    rw [mul_div_mul_left _ _ hP0] at hc
    rw [mul_div_mul_left _ _ hP0, mul_div_mul_left _ _ hP0]
    simp only [flat] at hc hne ⊢
    rw [d4_eq]
    simp only
    rw [mul_assoc]
    congr 1
    rw [mul_comm, ← Real.sqrt_sq p2.le, ← Real.sqrt_mul (sq_nonneg _)]
    congr 1
    unfold imgSum
    simp only [flat]
    exact (pixel_variance (fun k : Fin n.2 × Fin n.1 => G (linspace lo.1 hi.1 n.1 k.2) (linspace lo.2 hi.2 n.2 k.1))
      (fun k => ((k.1 : ℕ) : ℝ)) (fun k => linspace lo.2 hi.2 n.2 k.1) lo.2 _ _ (fun k => rfl) (right_ne_zero_of_mul hne) hc).symm

theorem camera_sum_tendsto {lo hi : ℝ × ℝ} (h1 : lo.1 < hi.1) (h2 : lo.2 < hi.2) {G : ℝ → ℝ → ℝ}
    (hG : Continuous fun v : ℝ × ℝ => G v.1 v.2) :
    Filter.Tendsto (fun n : ℕ × ℕ => imgSum (camera G lo hi n.1 n.2) * ((hi.1 - lo.1) / n.1) * ((hi.2 - lo.2) / n.2))
      Filter.atTop (nhds (windowIntegral lo hi G)) := by
  have t : Filter.Tendsto (fun n : ℕ => ((n : ℝ) - 1) / n) Filter.atTop (nhds 1) := by
    have : Filter.Tendsto (fun n : ℕ => 1 - 1 / (n : ℝ)) Filter.atTop (nhds (1 - 0)) :=
      tendsto_const_nhds.sub tendsto_one_div_atTop_nhds_zero_nat
    rw [sub_zero] at this
    refine this.congr' ?_
    filter_upwards [Filter.eventually_ge_atTop 1] with n hn
    have : (n : ℝ) ≠ 0 := by exact_mod_cast (by omega : n ≠ 0)
    field_simp
  have t1 : Filter.Tendsto (fun n : ℕ × ℕ => ((n.1 : ℝ) - 1) / n.1) Filter.atTop (nhds 1) := by
    rw [← Filter.prod_atTop_atTop_eq]
    exact t.comp Filter.tendsto_fst
  have t2 : Filter.Tendsto (fun n : ℕ × ℕ => ((n.2 : ℝ) - 1) / n.2) Filter.atTop (nhds 1) := by
    rw [← Filter.prod_atTop_atTop_eq]
    exact t.comp Filter.tendsto_snd
  have := ((windowSum_tendsto h1 h2 hG).mul t1).mul t2
  rw [mul_one, mul_one] at this
  refine this.congr' ?_
  filter_upwards [eventually_fine ⟨2, fun n hn => hn⟩] with n hn
  rw [windowSum_eq]
  have a1 : (2 : ℝ) ≤ n.1 := by exact_mod_cast hn.1
  have a2 : (2 : ℝ) ≤ n.2 := by exact_mod_cast hn.2
  have b1 : (n.1 : ℝ) - 1 ≠ 0 := by linarith
  have b2 : (n.2 : ℝ) - 1 ≠ 0 := by linarith
  have c1 : (n.1 : ℝ) ≠ 0 := by linarith
  have c2 : (n.2 : ℝ) ≠ 0 := by linarith
  unfold imgSum camera
  field_simp

theorem gaps_linspace {a b : ℝ} {n : ℕ} {δ : ℝ} (h : (b - a) / ((n : ℝ) - 1) ≤ δ) : Gaps (linspace a b n) δ := by
  intro k hk
  simp only [linspace]
  push_cast
  linarith

theorem inside_linspace {a b : ℝ} {n : ℕ} (hn : 2 ≤ n) {x : ℝ} (h1 : a ≤ x) (h2 : x ≤ b) : Inside (linspace a b n) x := by
  have : (2 : ℝ) ≤ n := by exact_mod_cast hn
  refine ⟨⟨⟨0, by omega⟩, by simpa [linspace] using h1⟩, ⟨⟨n - 1, by omega⟩, ?_⟩⟩
  simp only [linspace]
  rw [Nat.cast_sub (by omega), Nat.cast_one, mul_div_cancel₀ _ (by linarith : (n : ℝ) - 1 ≠ 0)]
  linarith

/-- the interpolated square root of an image that is a shifted, normalised sample of `G` -/
theorem root_close {lo hi : ℝ × ℝ} {G : ℝ → ℝ → ℝ} (hG : Continuous fun v : ℝ × ℝ => G v.1 v.2) {I : ℝ} (hI : 0 < I)
    (s : ℝ × ℝ) {ε : ℝ} (hε : 0 < ε) : ∃ δ₀ > 0, ∀ δ ≤ δ₀, ∀ {ny nx : ℕ} (_ : 2 ≤ ny) (_ : 2 ≤ nx) {gy : Fin ny → ℝ} {gx : Fin nx → ℝ}
      (_ : Ascending gy) (_ : Ascending gx) (_ : Gaps gy δ) (_ : Gaps gx δ) {img : Img ny nx} {S : ℝ} (_ : |S - I| ≤ δ)
      {σ : ℝ × ℝ} (_ : |σ.1 - s.1| ≤ δ) (_ : |σ.2 - s.2| ≤ δ) {x y : ℝ} (_ : Inside gx x) (_ : Inside gy y)
      (_ : x + s.1 ∈ Set.Icc lo.1 hi.1) (_ : y + s.2 ∈ Set.Icc lo.2 hi.2)
      (_ : ∀ q c, |gx c - x| ≤ δ → |gy q - y| ≤ δ → gx c + σ.1 ∈ Set.Icc lo.1 hi.1 ∧ gy q + σ.2 ∈ Set.Icc lo.2 hi.2 ∧
        img q c = G (gx c + σ.1) (gy q + σ.2)),
      |interp2 gy gx (fun q c => Real.sqrt (img q c / S)) y x - Real.sqrt (G (x + s.1) (y + s.2) / I)| ≤ ε := by
  set K : Set ((ℝ × ℝ) × ℝ) := (Set.Icc lo.1 hi.1 ×ˢ Set.Icc lo.2 hi.2) ×ˢ Set.Icc (I / 2) (2 * I)
  have hK : IsCompact K := (isCompact_Icc.prod isCompact_Icc).prod isCompact_Icc
  have hc : ContinuousOn (fun v : (ℝ × ℝ) × ℝ => Real.sqrt (G v.1.1 v.1.2 / v.2)) K := by
    refine Real.continuous_sqrt.comp_continuousOn ?_
    refine ContinuousOn.div (hG.comp continuous_fst).continuousOn continuous_snd.continuousOn ?_
    rintro ⟨v, r⟩ ⟨-, hr⟩
    have := hr.1
    dsimp only at this ⊢
    linarith
  have hu := hK.uniformContinuousOn_of_continuous hc
  rw [Metric.uniformContinuousOn_iff] at hu
  obtain ⟨d, hd, hud⟩ := hu ε hε
  refine ⟨min (d / 4) (I / 2), by positivity, ?_⟩
  intro δ hδ ny nx hy hx gy gx ay ax ggy ggx img S hS σ hσ1 hσ2 x y ix iy wx wy him
  have hm1 : δ ≤ d / 4 := hδ.trans (min_le_left _ _)
  have hm2 : δ ≤ I / 2 := hδ.trans (min_le_right _ _)
  refine interp2_close hy hx ay ax iy ix ggy ggx ?_
  intro q c hq hc'
  obtain ⟨e1, e2, e3⟩ := him q c hc' hq
  rw [e3]
  have hS' := abs_le.1 (hS.trans hm2)
  have := hud ((gx c + σ.1, gy q + σ.2), S) ⟨⟨e1, e2⟩, by constructor <;> linarith [hS'.1, hS'.2]⟩
    ((x + s.1, y + s.2), I) ⟨⟨wx, wy⟩, by constructor <;> linarith⟩ ?_
  · rw [Real.dist_eq] at this
    exact this.le
  · simp only [Prod.dist_eq, Real.dist_eq]
    have a1 := abs_le.1 (hc'.trans hm1)
    have a2 := abs_le.1 (hq.trans hm1)
    have a3 := abs_le.1 (hσ1.trans hm1)
    have a4 := abs_le.1 (hσ2.trans hm1)
    have a5 := abs_le.1 (hS.trans hm1)
    refine max_lt (max_lt ?_ ?_) ?_ <;> rw [abs_lt] <;> constructor <;> linarith [a1.1, a1.2, a2.1, a2.2, a3.1, a3.2, a4.1, a4.2, a5.1, a5.2]

theorem windowIntegral_pos {lo hi : ℝ × ℝ} (h1 : lo.1 < hi.1) (h2 : lo.2 < hi.2) {G : ℝ → ℝ → ℝ}
    (h0 : ∀ x y, 0 ≤ G x y) (hI : windowIntegral lo hi G ≠ 0) : 0 < windowIntegral lo hi G :=
  lt_of_le_of_ne (intervalIntegral.integral_nonneg h1.le fun x _ => intervalIntegral.integral_nonneg h2.le fun y _ => h0 x y) hI.symm

theorem fine_of_eventually {p : ℕ × ℕ → Prop} (h : ∀ᶠ n in Filter.atTop, p n) : ∃ N, ∀ nx ≥ N, ∀ ny ≥ N, p (nx, ny) := by
  obtain ⟨⟨a, b⟩, hab⟩ := Filter.eventually_atTop.1 h
  exact ⟨max a b, fun nx hx ny hy => hab (nx, ny) ⟨(le_max_left _ _).trans hx, (le_max_right _ _).trans hy⟩⟩

theorem pixels_tendsto {lo hi : ℝ × ℝ} : Filter.Tendsto (fun n : ℕ × ℕ => (hi.1 - lo.1) / ((n.1 : ℝ) - 1)) Filter.atTop (nhds 0) ∧
    Filter.Tendsto (fun n : ℕ × ℕ => (hi.2 - lo.2) / ((n.2 : ℝ) - 1)) Filter.atTop (nhds 0) := by
  rw [← Filter.prod_atTop_atTop_eq]
  exact ⟨(pixel_tendsto _ _).comp Filter.tendsto_fst, (pixel_tendsto _ _).comp Filter.tendsto_snd⟩

/-- **C147** (`center_data=False`). From camera images with fine pixels `TransverseProfileFromData` builds a profile that tends,
uniformly on the whole window, to the square root of the intensity, normalised to the energy in the window. -/
theorem C147_profile {lo hi : ℝ × ℝ} (h1 : lo.1 < hi.1) (h2 : lo.2 < hi.2) {G : ℝ → ℝ → ℝ}
    (hG : Continuous fun v : ℝ × ℝ => G v.1 v.2) (h0 : ∀ x y, 0 ≤ G x y) (hI : windowIntegral lo hi G ≠ 0) {ε : ℝ} (hε : 0 < ε) :
    ∃ N, ∀ nx ≥ N, ∀ ny ≥ N, ∃ p, transFromData (camera G lo hi nx ny) lo hi false = .ok p ∧
      ∀ x ∈ Set.Icc lo.1 hi.1, ∀ y ∈ Set.Icc lo.2 hi.2,
        |p.evaluate x y - Real.sqrt (G x y / windowIntegral lo hi G)| ≤ ε := by
  obtain ⟨δ, hδ, key⟩ := root_close (lo := lo) (hi := hi) hG (windowIntegral_pos h1 h2 h0 hI) (0, 0) hε
  have tS := (camera_sum_tendsto h1 h2 hG).eventually (Metric.closedBall_mem_nhds _ hδ)
  have tp1 := (pixels_tendsto (lo := lo) (hi := hi)).1.eventually (Iic_mem_nhds hδ)
  have tp2 := (pixels_tendsto (lo := lo) (hi := hi)).2.eventually (Iic_mem_nhds hδ)
  refine fine_of_eventually (p := fun n => ∃ p, transFromData (camera G lo hi n.1 n.2) lo hi false = .ok p ∧
      ∀ x ∈ Set.Icc lo.1 hi.1, ∀ y ∈ Set.Icc lo.2 hi.2,
        |p.evaluate x y - Real.sqrt (G x y / windowIntegral lo hi G)| ≤ ε) ?_
  filter_upwards [tS, tp1, tp2, eventually_fine ⟨2, fun n hn => hn⟩] with n hS hp1 hp2 hn
  refine ⟨_, transFromData_eq hn.2 hn.1 _ h1 h2 false, ?_⟩
  intro x hx y hy
  have := key δ le_rfl hn.2 hn.1 (ascending_linspace h2 hn.2) (ascending_linspace h1 hn.1) (gaps_linspace hp2) (gaps_linspace hp1)
    (img := camera G lo hi n.1 n.2) (S := _) (by simpa [Real.dist_eq] using hS) (σ := (0, 0)) (by simpa using hδ.le) (by simpa using hδ.le)
    (inside_linspace hn.1 hx.1 hx.2) (inside_linspace hn.2 hy.1 hy.2) (by simpa using hx) (by simpa using hy) ?_
  · simpa [TransFromData.evaluate] using this
  · intro q c _ _
    simp only [add_zero]
    exact ⟨linspace_mem h1.le c, linspace_mem h2.le q, rfl⟩

/-- the shift by whole pixels that `center_data=True` makes, in metres, is the centre of mass within one and a half pixels -/
theorem shift_close {a b : ℝ} (h : a < b) {n : ℕ} (hn : 2 ≤ n) (com : ℝ) :
    |(a + (b - a) / 2 + pyInt (com - (n : ℝ) / 2) * ((b - a) / ((n : ℝ) - 1))) - (a + com * ((b - a) / ((n : ℝ) - 1)))| ≤
      3 / 2 * ((b - a) / ((n : ℝ) - 1)) := by
  have hp := pixel_pos h hn
  have h2 : (2 : ℝ) ≤ n := by exact_mod_cast hn
  have e : ((n : ℝ) - 1) * ((b - a) / ((n : ℝ) - 1)) = b - a := mul_div_cancel₀ _ (by linarith)
  set d := (b - a) / ((n : ℝ) - 1)
  have hc := abs_lt.1 (pyInt_close (com - (n : ℝ) / 2))
  rw [← e, abs_le]
  constructor <;> nlinarith [hc.1, hc.2]

/-- a pixel of the rolled image, when the source pixel exists -/
theorem rolled_pixel {a b : ℝ} (h : a < b) {n : ℕ} (hn : 2 ≤ n) (s : ℤ) (c : Fin n)
    (hm : linspace (-((b - a) / 2)) ((b - a) / 2) n c + (a + (b - a) / 2 + s * ((b - a) / ((n : ℝ) - 1))) ∈ Set.Icc a b) (h0 : 0 < n) :
    linspace a b n (wrapIndex h0 ((c : ℕ) - -s)) =
      linspace (-((b - a) / 2)) ((b - a) / 2) n c + (a + (b - a) / 2 + s * ((b - a) / ((n : ℝ) - 1))) := by
  have hp := pixel_pos h hn
  have h2 : (2 : ℝ) ≤ n := by exact_mod_cast hn
  have e : ((n : ℝ) - 1) * ((b - a) / ((n : ℝ) - 1)) = b - a := mul_div_cancel₀ _ (by linarith)
  have el : linspace (-((b - a) / 2)) ((b - a) / 2) n c + (a + (b - a) / 2 + s * ((b - a) / ((n : ℝ) - 1))) =
      a + (((c : ℕ) : ℝ) + s) * ((b - a) / ((n : ℝ) - 1)) := by
    simp only [linspace]
    have : (b - a) / 2 - -((b - a) / 2) = b - a := by ring
    rw [this]
    ring
  rw [el] at hm ⊢
  set d := (b - a) / ((n : ℝ) - 1) with hd
  have r1 : 0 ≤ ((c : ℕ) : ℝ) + s := by
    by_contra hc
    push Not at hc
    nlinarith [hm.1]
  have r2 : ((c : ℕ) : ℝ) + s ≤ (n : ℝ) - 1 := by
    by_contra hc
    push Not at hc
    nlinarith [hm.2]
  have r1' : 0 ≤ ((c : ℕ) : ℤ) + s := by exact_mod_cast r1
  have r2' : ((c : ℕ) : ℤ) + s < n := by
    have : ((((c : ℕ) : ℤ) + s : ℤ) : ℝ) < ((n : ℤ) : ℝ) := by push_cast; linarith
    exact_mod_cast this
  have hw := wrapIndex_val h0 (((c : ℕ) : ℤ) - -s)
  rw [sub_neg_eq_add, Int.emod_eq_of_lt r1' r2'] at hw
  simp only [linspace, sub_neg_eq_add]
  rw [← hd]
  have : (((wrapIndex h0 (((c : ℕ) : ℤ) + s) : Fin n) : ℕ) : ℝ) = ((c : ℕ) : ℝ) + s := by exact_mod_cast hw
  rw [this]

/-- **C147** (`center_data=True`). With fine pixels the centred profile tends to the square root of the normalised intensity
moved so that its centroid is at the origin, uniformly on every part of the new window whose points come from the inside of the
camera's window (the rest of the window holds what `np.roll` brings in from the other side). -/
theorem C147_centred {lo hi : ℝ × ℝ} (h1 : lo.1 < hi.1) (h2 : lo.2 < hi.2) {G : ℝ → ℝ → ℝ}
    (hG : Continuous fun v : ℝ × ℝ => G v.1 v.2) (h0 : ∀ x y, 0 ≤ G x y) (hI : windowIntegral lo hi G ≠ 0)
    {m : ℝ} (hm : 0 < m) {ε : ℝ} (hε : 0 < ε) :
    ∃ N, ∀ nx ≥ N, ∀ ny ≥ N, ∃ p, transFromData (camera G lo hi nx ny) lo hi true = .ok p ∧
      ∀ x, |x| ≤ (hi.1 - lo.1) / 2 → x + (centroid lo hi G).1 ∈ Set.Icc (lo.1 + m) (hi.1 - m) →
      ∀ y, |y| ≤ (hi.2 - lo.2) / 2 → y + (centroid lo hi G).2 ∈ Set.Icc (lo.2 + m) (hi.2 - m) →
        |p.evaluate x y - Real.sqrt (G (x + (centroid lo hi G).1) (y + (centroid lo hi G).2) / windowIntegral lo hi G)| ≤ ε := by
  obtain ⟨δ₀, hδ₀, key⟩ := root_close (lo := lo) (hi := hi) hG (windowIntegral_pos h1 h2 h0 hI) (centroid lo hi G) hε
  obtain ⟨δ, hδ, hd0, hdm⟩ : ∃ δ > 0, δ ≤ δ₀ ∧ 2 * δ ≤ m := ⟨min δ₀ (m / 2), by positivity, min_le_left _ _, by linarith [min_le_right δ₀ (m / 2)]⟩
  have tS := (camera_sum_tendsto h1 h2 hG).eventually (Metric.closedBall_mem_nhds _ hδ)
  have tp1 := (pixels_tendsto (lo := lo) (hi := hi)).1.eventually (Iic_mem_nhds (by positivity : (0 : ℝ) < δ / 4))
  have tp2 := (pixels_tendsto (lo := lo) (hi := hi)).2.eventually (Iic_mem_nhds (by positivity : (0 : ℝ) < δ / 4))
  have tc := C147_center h1 h2 hG hI
  have tc1 := tc.1.eventually (Metric.closedBall_mem_nhds _ (half_pos hδ))
  have tc2 := tc.2.eventually (Metric.closedBall_mem_nhds _ (half_pos hδ))
  refine fine_of_eventually (p := fun n => ∃ p, transFromData (camera G lo hi n.1 n.2) lo hi true = .ok p ∧
      ∀ x, |x| ≤ (hi.1 - lo.1) / 2 → x + (centroid lo hi G).1 ∈ Set.Icc (lo.1 + m) (hi.1 - m) →
      ∀ y, |y| ≤ (hi.2 - lo.2) / 2 → y + (centroid lo hi G).2 ∈ Set.Icc (lo.2 + m) (hi.2 - m) →
        |p.evaluate x y - Real.sqrt (G (x + (centroid lo hi G).1) (y + (centroid lo hi G).2) / windowIntegral lo hi G)| ≤ ε) ?_
  filter_upwards [tS, tp1, tp2, tc1, tc2, eventually_fine ⟨2, fun n hn => hn⟩] with n hS hp1 hp2 hc1 hc2 hn
  rw [Real.dist_eq] at hc1 hc2 hS
  refine ⟨_, transFromData_eq hn.2 hn.1 _ h1 h2 true, ?_⟩
  intro x hx hxm y hy hym
  have w1 : -((hi.1 - lo.1) / 2) < (hi.1 - lo.1) / 2 := by linarith
  have w2 : -((hi.2 - lo.2) / 2) < (hi.2 - lo.2) / 2 := by linarith
  have ed : ∀ {a b : ℝ}, (b - a) / 2 - -((b - a) / 2) = b - a := fun {a b} => by ring
  set com := findCenterOfMass (camera G lo hi n.1 n.2) with hcom
  have sc1 := shift_close h1 hn.1 com.1
  have sc2 := shift_close h2 hn.2 com.2
  set σ : ℝ × ℝ := (lo.1 + (hi.1 - lo.1) / 2 + pyInt (com.1 - (n.1 : ℝ) / 2) * ((hi.1 - lo.1) / ((n.1 : ℝ) - 1)),
    lo.2 + (hi.2 - lo.2) / 2 + pyInt (com.2 - (n.2 : ℝ) / 2) * ((hi.2 - lo.2) / ((n.2 : ℝ) - 1))) with hσ
  have s1 : |σ.1 - (centroid lo hi G).1| ≤ δ := by
    have := abs_add_le (σ.1 - (lo.1 + com.1 * ((hi.1 - lo.1) / ((n.1 : ℝ) - 1)))) ((lo.1 + com.1 * ((hi.1 - lo.1) / ((n.1 : ℝ) - 1))) - (centroid lo hi G).1)
    rw [sub_add_sub_cancel] at this
    simp only [hσ] at this ⊢
    linarith
  have s2 : |σ.2 - (centroid lo hi G).2| ≤ δ := by
    have := abs_add_le (σ.2 - (lo.2 + com.2 * ((hi.2 - lo.2) / ((n.2 : ℝ) - 1)))) ((lo.2 + com.2 * ((hi.2 - lo.2) / ((n.2 : ℝ) - 1))) - (centroid lo hi G).2)
    rw [sub_add_sub_cancel] at this
    simp only [hσ] at this ⊢
    linarith
  rw [abs_le] at hx hy
  have := key δ hd0 hn.2 hn.1 (ascending_linspace w2 hn.2) (ascending_linspace w1 hn.1)
    (gaps_linspace (by rw [ed]; linarith)) (gaps_linspace (by rw [ed]; linarith))
    (img := centreImage (camera G lo hi n.1 n.2)) hS s1 s2
    (inside_linspace hn.1 hx.1 hx.2) (inside_linspace hn.2 hy.1 hy.2) ⟨by linarith [hxm.1], by linarith [hxm.2]⟩
    ⟨by linarith [hym.1], by linarith [hym.2]⟩ ?_
  · simpa [TransFromData.evaluate] using this
  · intro q c hc hq
    rw [abs_le] at hc hq s1 s2
    have m1 : linspace (-((hi.1 - lo.1) / 2)) ((hi.1 - lo.1) / 2) n.1 c + σ.1 ∈ Set.Icc lo.1 hi.1 := by
      constructor <;> linarith [hc.1, hc.2, s1.1, s1.2, hxm.1, hxm.2]
    have m2 : linspace (-((hi.2 - lo.2) / 2)) ((hi.2 - lo.2) / 2) n.2 q + σ.2 ∈ Set.Icc lo.2 hi.2 := by
      constructor <;> linarith [hq.1, hq.2, s2.1, s2.2, hym.1, hym.2]
    refine ⟨m1, m2, ?_⟩
    show G (linspace lo.1 hi.1 n.1 (wrapIndex _ _)) (linspace lo.2 hi.2 n.2 (wrapIndex _ _)) = _
    rw [rolled_pixel h1 hn.1 _ c m1 (by omega), rolled_pixel h2 hn.2 _ q m2 (by omega)]

/-- The hypotheses are met by a tilted intensity on the square from `(0, 0)` to `(1, 1)`: its integral is `1/2` and its centroid
`(2/3, 1/2)` is off the middle of the window. -/
example : windowIntegral (0, 0) (1, 1) (fun x _ => |x|) = 1 / 2 ∧ centroid (0, 0) (1, 1) (fun x _ => |x|) = (2 / 3, 1 / 2) ∧
    Continuous (fun v : ℝ × ℝ => |v.1|) := by
  have e : ∀ f : ℝ → ℝ, (∫ x in (0:ℝ)..1, f x * |x|) = ∫ x in (0:ℝ)..1, f x * x := by
    intro f
    refine intervalIntegral.integral_congr fun x hx => ?_
    rw [Set.uIcc_of_le zero_le_one] at hx
    simp only [abs_of_nonneg hx.1]
  have a0 : (∫ x in (0:ℝ)..1, |x|) = 1 / 2 := by
    have := e (fun _ => 1)
    simp only [one_mul] at this
    rw [this, integral_id]; norm_num
  have a1 : (∫ x in (0:ℝ)..1, x * |x|) = 1 / 3 := by
    rw [e (fun x => x)]
    simp only [← sq]
    rw [integral_pow]; norm_num
  have w0 : windowIntegral (0, 0) (1, 1) (fun x _ => |x|) = 1 / 2 := by
    unfold windowIntegral
    simp [a0]
  refine ⟨w0, ?_, continuous_abs.comp continuous_fst⟩
  unfold centroid
  rw [w0]
  unfold windowIntegral
  simp only [intervalIntegral.integral_const, sub_zero, smul_eq_mul, one_mul, intervalIntegral.integral_mul_const, integral_id, a1,
    intervalIntegral.integral_const_mul, a0]
  norm_num

end Lasy
