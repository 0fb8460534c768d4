import Verif.Props.Superposition
import Mathlib.Analysis.InnerProductSpace.PiL2

/-!
# Property C154: passive beam lines lose energy and do not amplify differences
-/

namespace Lasy
open Spec Phys Complex

variable {s : Shape} [Phys]

/-! ## the energy norm -/

/-- the square root of the energy of a field on a grid -/
noncomputable def Spec.amplitudeNorm (g : Grid s) (f : Field s) : ℝ := Real.sqrt (pulseEnergy g f)

/-- a field as a vector whose squared norm is the energy -/
noncomputable def weighted (g : Grid s) (f : Field s) : EuclideanSpace ℂ (Fin s.n0 × Fin s.n1 × Fin s.nt) :=
  WithLp.toLp 2 fun p => (Real.sqrt (g.cellVolume p.2.1 * eps0 * 0.5) : ℂ) * f p.1 p.2.1 p.2.2

theorem norm_weighted {g : Grid s} (hV : ∀ j, 0 ≤ g.cellVolume j) (f : Field s) : ‖weighted g f‖ = Spec.amplitudeNorm g f := by
  unfold Spec.amplitudeNorm weighted pulseEnergy
  rw [EuclideanSpace.norm_eq]
  congr 1
  simp only [Fintype.sum_prod_type, Finset.sum_mul]
  refine Finset.sum_congr rfl fun i _ => Finset.sum_congr rfl fun j _ => Finset.sum_congr rfl fun k _ => ?_
  have : 0 ≤ g.cellVolume j * eps0 * 0.5 := mul_nonneg (mul_nonneg (hV j) eps0_pos.le) (by norm_num)
  rw [norm_mul, mul_pow, Complex.norm_real, Real.norm_eq_abs, sq_abs, Real.sq_sqrt this]
  ring

theorem amplitudeNorm_add_le {g : Grid s} (hV : ∀ j, 0 ≤ g.cellVolume j) (u v : Field s) :
    Spec.amplitudeNorm g (fun i j k => u i j k + v i j k) ≤ Spec.amplitudeNorm g u + Spec.amplitudeNorm g v := by
  rw [← norm_weighted hV, ← norm_weighted hV, ← norm_weighted hV]
  have : weighted g (fun i j k => u i j k + v i j k) = weighted g u + weighted g v := by
    ext p
    simp only [weighted, PiLp.add_apply]
    ring
  rw [this]
  exact norm_add_le _ _

/-- a filter of modulus at most `M` multiplies the energy by at most `M²` -/
theorem energy_filter_le {g : Grid s} (hV : ∀ j, 0 ≤ g.cellVolume j) (u T : Field s) {M : ℝ} (hT : ∀ i j k, ‖T i j k‖ ≤ M) :
    pulseEnergy g (dft fun i j k => idft u i j k * T i j k) ≤ M ^ 2 * pulseEnergy g u := by
  have hp : ∀ F : Field s, pulseEnergy g F = (∑ i, ∑ j, g.cellVolume j * eps0 * (s.nt * ∑ k, ‖idft F i j k‖ ^ 2)) * 0.5 := by
    intro F
    unfold pulseEnergy
    congr 1
    refine Finset.sum_congr rfl fun i _ => Finset.sum_congr rfl fun j _ => ?_
    rw [← Finset.mul_sum, parseval_ifft (F i j), idft_eq]
  rw [hp, hp u, idft_dft, ← mul_assoc]
  refine mul_le_mul_of_nonneg_right ?_ (by norm_num)
  rw [Finset.mul_sum]
  refine Finset.sum_le_sum fun i _ => ?_
  rw [Finset.mul_sum]
  refine Finset.sum_le_sum fun j _ => ?_
  have h1 : ∑ k, ‖idft u i j k * T i j k‖ ^ 2 ≤ M ^ 2 * ∑ k, ‖idft u i j k‖ ^ 2 := by
    rw [Finset.mul_sum]
    refine Finset.sum_le_sum fun k _ => ?_
    rw [norm_mul, mul_pow, mul_comm]
    exact mul_le_mul_of_nonneg_right (pow_le_pow_left₀ (norm_nonneg _) (hT i j k) 2) (by positivity)
  have h2 : 0 ≤ g.cellVolume j * eps0 := mul_nonneg (hV j) eps0_pos.le
  calc _ ≤ g.cellVolume j * eps0 * (s.nt * (M ^ 2 * ∑ k, ‖idft u i j k‖ ^ 2)) := by gcongr
    _ = _ := by ring

theorem norm_filter_le {g : Grid s} (hV : ∀ j, 0 ≤ g.cellVolume j) (u T : Field s) {M : ℝ} (hM : 0 ≤ M) (hT : ∀ i j k, ‖T i j k‖ ≤ M) :
    Spec.amplitudeNorm g (dft fun i j k => idft u i j k * T i j k) ≤ M * Spec.amplitudeNorm g u := by
  unfold Spec.amplitudeNorm
  calc _ ≤ Real.sqrt (M ^ 2 * pulseEnergy g u) := Real.sqrt_le_sqrt (energy_filter_le hV u T hT)
    _ = _ := by rw [Real.sqrt_mul (by positivity), Real.sqrt_sq hM]

/-- damping factors between 0 and 1 do not increase the energy -/
theorem norm_damped_le {g : Grid s} (hV : ∀ j, 0 ≤ g.cellVolume j) (u : Field s) {w : Fin s.n0 → Fin s.n1 → ℝ}
    (hw : ∀ i j, 0 ≤ w i j ∧ w i j ≤ 1) :
    Spec.amplitudeNorm g (fun i j k => u i j k * (w i j : ℂ)) ≤ Spec.amplitudeNorm g u := by
  refine Real.sqrt_le_sqrt ?_
  unfold pulseEnergy
  refine mul_le_mul_of_nonneg_right ?_ (by norm_num)
  refine Finset.sum_le_sum fun i _ => Finset.sum_le_sum fun j _ => Finset.sum_le_sum fun k _ => ?_
  refine mul_le_mul_of_nonneg_left ?_ (mul_nonneg (hV j) eps0_pos.le)
  obtain ⟨w0, w1⟩ := hw i j
  rw [norm_mul, Complex.norm_real, Real.norm_of_nonneg w0]
  exact pow_le_pow_left₀ (mul_nonneg (norm_nonneg _) w0) (mul_le_of_le_one_right (norm_nonneg _) w1) 2

omit [Phys] in
/-- every layer that `propagate` accepts -/
theorem layer_range (l : Laser s) (b : Option ℤ) {w : Fin s.n0 → Fin s.n1 → ℝ} (h : l.layerOf b = .ok w) :
    ∀ i j, 0 ≤ w i j ∧ w i j ≤ 1 := by
  cases b with
  | none =>
    injection h with h
    subst h
    intro i j
    norm_num
  | some k =>
    by_cases hk : 0 < k
    · obtain ⟨n, rfl⟩ : ∃ n : ℕ, k = n := ⟨k.toNat, by omega⟩
      by_cases hf : LayerFits l.grid.geom.dim s n
      · obtain ⟨w', e, hw'⟩ := layer_factors l n (by omega) hf
        rw [h] at e
        injection e with e
        subst e
        exact fun i j => ⟨(hw' i j).1, (hw' i j).2.1⟩
      · exfalso
        simp only [Laser.layerOf, hk, if_true, Int.toNat_natCast, Laser.layer] at h
        rcases hgeo : l.grid.geom with ⟨x, y⟩ | ⟨n, hn, r⟩ <;> rw [hgeo] at hf h <;>
          simp only [LayerFits, Geom.dim] at hf <;> simp only [hf, if_false] at h <;> cases h
    · simp only [Laser.layerOf, hk, if_false] at h
      cases h

/-! ## C154 -/

/-- two beam lines whose calls agree, except that corresponding optical elements, both passive (`|T| ≤ 1`), may differ: the sum of
the largest differences of their multipliers is at most `δ` -/
inductive Spec.NearLines : List LaserOp → List LaserOp → ℝ → Prop
  | nil : Spec.NearLines [] [] 0
  | optics {el el' : OpticalElement} {os os' : List LaserOp} {ε δ : ℝ} (h1 : ∀ x y w w0, ‖el.mult x y w w0‖ ≤ 1)
      (h2 : ∀ x y w w0, ‖el'.mult x y w w0‖ ≤ 1) (h : ∀ x y w w0, ‖el.mult x y w w0 - el'.mult x y w w0‖ ≤ ε)
      (hs : Spec.NearLines os os' δ) : Spec.NearLines (.optics el :: os) (.optics el' :: os') (ε + δ)
  | propagate (d : ℝ) (boundary : Option ℤ) (backend : String) {os os' : List LaserOp} {δ : ℝ} (hs : Spec.NearLines os os' δ) :
      Spec.NearLines (.propagate ⟨d, boundary, none, backend⟩ :: os) (.propagate ⟨d, boundary, none, backend⟩ :: os') δ

omit [Phys] in
theorem Spec.NearLines.nonneg {os os' : List LaserOp} {δ : ℝ} (h : Spec.NearLines os os' δ) : 0 ≤ δ := by
  induction h with
  | nil => exact le_rfl
  | optics _ _ h _ ih => exact add_nonneg ((norm_nonneg _).trans (h 0 0 0 0)) ih
  | propagate _ _ _ _ ih => exact ih

theorem amplitudeNorm_congr {g g' : Grid s} (h : ∀ j, g'.cellVolume j = g.cellVolume j) (f : Field s) :
    Spec.amplitudeNorm g' f = Spec.amplitudeNorm g f := by
  simp only [Spec.amplitudeNorm, pulseEnergy, h]

theorem near_step (ax : Axiprop) (hax : ax.Unitary) (hsup : ax.Superposes) {os1 os2 : List LaserOp} {δ : ℝ}
    (hn : Spec.NearLines os1 os2 δ) (l1 l2 : Laser s) (hr1 : l1.Ready) (hs : SameSetup l1 l2) (hV : ∀ j, 0 ≤ l1.grid.cellVolume j)
    {f1 f2 : Field s} (h1 : l1.Has f1) (h2 : l2.Has f2) {L1 : Σ s, Laser s} (hrun : runOps ax os1 ⟨s, l1⟩ = (.ok (), L1)) :
    ∃ (l1' l2' : Laser s) (F1 F2 : Field s), L1 = ⟨s, l1'⟩ ∧ runOps ax os2 ⟨s, l2⟩ = (.ok (), ⟨s, l2'⟩) ∧ SameSetup l1' l2' ∧
      l1'.Has F1 ∧ l2'.Has F2 ∧ (∀ j, l1'.grid.cellVolume j = l1.grid.cellVolume j) ∧
      Spec.amplitudeNorm l1.grid F1 ≤ Spec.amplitudeNorm l1.grid f1 ∧
      Spec.amplitudeNorm l1.grid (fun i j k => F1 i j k - F2 i j k) ≤
        Spec.amplitudeNorm l1.grid (fun i j k => f1 i j k - f2 i j k) + δ * Spec.amplitudeNorm l1.grid f1 := by
  induction hn generalizing l1 l2 f1 f2 with
  | nil =>
    simp only [runOps, Py.pure_apply, Prod.mk.injEq, true_and] at hrun
    exact ⟨l1, l2, f1, f2, hrun.symm, rfl, hs, h1, h2, fun _ => rfl, le_rfl, by simp⟩
  | @optics el el' os os' ε δ b1 b2 hd hrest ih =>
    obtain ⟨m1, e1, k1, g1, t1, p1, o1, q1, -⟩ := C19_apply_optics l1 f1 h1 el
    obtain ⟨m2, e2, k2, g2, t2, p2, o2, q2, -⟩ := C19_apply_optics l2 f2 h2 el'
    have r1 : (LaserOp.optics el).run ax ⟨s, l1⟩ = (.ok (), ⟨s, m1⟩) := by simp only [LaserOp.run, onLaser, e1]
    have r2 : (LaserOp.optics el').run ax ⟨s, l2⟩ = (.ok (), ⟨s, m2⟩) := by simp only [LaserOp.run, onLaser, e2]
    simp only [runOps, Py.bind_apply, r1] at hrun
    obtain ⟨hm1, -⟩ := LaserOp.run_inv ax _ ⟨s, l1⟩ ⟨s, m1⟩ hr1 (by intro a ha; cases ha) r1
    have hvol : ∀ j, m1.grid.cellVolume j = l1.grid.cellVolume j := fun j => by simp [Grid.cellVolume, g1, t1]
    have hs' : SameSetup m1 m2 := ⟨by rw [g2, g1, hs.geom], by rw [t2, t1, hs.t], by rw [p2, p1, hs.omega0], by rw [o2, o1, hs.omega],
      by rw [q2, q1, hs.prop]⟩
    obtain ⟨n1, n2, F1, F2, rfl, c2, c3, c4, c5, c6, c7, c8⟩ := ih m1 m2 hm1 hs' (fun j => by rw [hvol]; exact hV j) k1 k2 hrun
    rw [amplitudeNorm_congr hvol, amplitudeNorm_congr hvol] at c7
    rw [amplitudeNorm_congr hvol, amplitudeNorm_congr hvol, amplitudeNorm_congr hvol] at c8
    have hT : Tat l2 el' = Tat l1 el' := by
      funext i j k
      simp only [Tat, hs.geom, hs.omega, hs.omega0]
    have hb : ∀ (e : OpticalElement) (M : ℝ), (∀ x y w w0, ‖e.mult x y w w0‖ ≤ M) → ∀ i j k, ‖Tat l1 e i j k‖ ≤ M := by
      intro e M he i j k
      simp only [Tat]
      cases l1.grid.geom <;> exact he _ _ _ _
    have hb1 := norm_filter_le hV f1 (Tat l1 el) zero_le_one (hb el 1 b1)
    rw [one_mul] at hb1
    have hε : 0 ≤ ε := (norm_nonneg _).trans (hd 0 0 0 0)
    have hdiff : (fun i j k => dft (fun i j k => idft f1 i j k * Tat l1 el i j k) i j k -
        dft (fun i j k => idft f2 i j k * Tat l2 el' i j k) i j k) = fun i j k =>
        dft (fun i j k => idft (fun i j k => f1 i j k - f2 i j k) i j k * Tat l1 el' i j k) i j k +
        dft (fun i j k => idft f1 i j k * (Tat l1 el i j k - Tat l1 el' i j k)) i j k := by
      have a1 : idft (fun i j k => f1 i j k - f2 i j k) = fun i j k => idft f1 i j k - idft f2 i j k := by
        have := isLin_idft (s := s) 1 (-1) f1 f2
        simpa only [one_mul, neg_mul, ← sub_eq_add_neg] using this
      have a2 : ∀ u v : Field s, (dft fun i j k => u i j k + v i j k) = fun i j k => dft u i j k + dft v i j k := by
        intro u v
        have := isLin_dft (s := s) 1 1 u v
        simpa only [one_mul] using this
      have a3 : ∀ u v : Field s, (dft fun i j k => u i j k - v i j k) = fun i j k => dft u i j k - dft v i j k := by
        intro u v
        have := isLin_dft (s := s) 1 (-1) u v
        simpa only [one_mul, neg_mul, ← sub_eq_add_neg] using this
      rw [← a2, ← a3, hT, a1]
      congr 1
      funext i j k
      ring
    have hD : ∀ i j k, ‖Tat l1 el i j k - Tat l1 el' i j k‖ ≤ ε := by
      intro i j k
      simp only [Tat]
      cases l1.grid.geom <;> exact hd _ _ _ _
    refine ⟨n1, n2, F1, F2, rfl, by simp only [runOps, Py.bind_apply, r2, c2], c3, c4, c5, fun j => (c6 j).trans (hvol j),
      c7.trans hb1, ?_⟩
    rw [hdiff] at c8
    have hδ : 0 ≤ δ := hrest.nonneg
    have t1 := amplitudeNorm_add_le hV (dft fun i j k => idft (fun i j k => f1 i j k - f2 i j k) i j k * Tat l1 el' i j k)
      (dft fun i j k => idft f1 i j k * (Tat l1 el i j k - Tat l1 el' i j k))
    have t2 := norm_filter_le hV (fun i j k => f1 i j k - f2 i j k) (Tat l1 el') zero_le_one (hb el' 1 b2)
    have t3 := norm_filter_le hV f1 (fun i j k => Tat l1 el i j k - Tat l1 el' i j k) hε hD
    have t4 := mul_le_mul_of_nonneg_left hb1 hδ
    linarith
  | @propagate d b bk os os' δ hrest ih =>
    rcases hw : l1.layerOf b with e | w
    · obtain ⟨g', e', -⟩ := propagateHere_err ax d bk l1 f1 h1 b hw
      simp only [runOps, Py.bind_apply, LaserOp.run, propagate_none, e'] at hrun
      cases hrun
    obtain ⟨⟨-, -⟩, hc⟩ := hr1
    obtain ⟨b0, hb0⟩ := hc.uses bk
    obtain ⟨m1, e1, k1, g1, t1, p1, o1, q1, -⟩ := propagateHere_ok ax d b0 bk l1 f1 h1 hb0 b hw
    have hw2 : l2.layerOf b = .ok w := by
      rw [← hw]
      cases b with
      | none => rfl
      | some k => simp only [Laser.layerOf, Laser.layer, hs.geom]
    have hb2 : l2.Uses b0 bk := by
      unfold Laser.Uses
      rw [hs.prop, buildProp_congr hs.geom hs.omega b0]
      exact hb0
    obtain ⟨m2, e2, k2, g2, t2, p2, o2, q2, -⟩ := propagateHere_ok ax d b0 bk l2 f2 h2 hb2 b hw2
    have r1 : (LaserOp.propagate ⟨d, b, none, bk⟩).run ax ⟨s, l1⟩ = (.ok (), ⟨s, m1⟩) := by
      simp only [LaserOp.run]
      exact propagate_none_ok e1
    have r2 : (LaserOp.propagate ⟨d, b, none, bk⟩).run ax ⟨s, l2⟩ = (.ok (), ⟨s, m2⟩) := by
      simp only [LaserOp.run]
      exact propagate_none_ok e2
    simp only [runOps, Py.bind_apply, r1] at hrun
    obtain ⟨hm1, -⟩ := LaserOp.run_inv ax _ ⟨s, l1⟩ ⟨s, m1⟩ ⟨⟨f1, h1⟩, hc⟩ (by intro a ha g hg; cases ha; cases hg) r1
    have hvol : ∀ j, m1.grid.cellVolume j = l1.grid.cellVolume j := fun j => by
      simp [Grid.cellVolume, g1, t1, Axis.shift, cellVolumeRT, cellVolumeXYT]
    have hprop : l2.propagated ax b0 d = l1.propagated ax b0 d := by
      funext f
      simp only [Laser.propagated, stepped_congr hs.geom hs.omega, hs.omega, hs.omega0]
    have hs' : SameSetup m1 m2 := ⟨by rw [g2, g1, hs.geom], by rw [t2, t1, hs.t], by rw [p2, p1, hs.omega0], by rw [o2, o1, hs.omega],
      by rw [q2, q1, buildProp_congr hs.geom hs.omega b0]⟩
    obtain ⟨n1, n2, F1, F2, rfl, c2, c3, c4, c5, c6, c7, c8⟩ := ih m1 m2 hm1 hs' (fun j => by rw [hvol]; exact hV j) k1 k2 hrun
    rw [amplitudeNorm_congr hvol, amplitudeNorm_congr hvol] at c7
    rw [amplitudeNorm_congr hvol, amplitudeNorm_congr hvol, amplitudeNorm_congr hvol, hprop] at c8
    have hlin := isLin_propagated ax hsup l1 b0 d 1 (-1) (fun i j k => f1 i j k * (w i j : ℂ)) (fun i j k => f2 i j k * (w i j : ℂ))
    simp only [one_mul, neg_mul, ← sub_eq_add_neg] at hlin
    have key : ∀ u : Field s, Spec.amplitudeNorm l1.grid (l1.propagated ax b0 d fun i j k => u i j k * (w i j : ℂ)) ≤
        Spec.amplitudeNorm l1.grid u := by
      intro u
      unfold Spec.amplitudeNorm
      rw [energy_propagated ax hax]
      exact norm_damped_le hV u (layer_range l1 b hw)
    have hδ : 0 ≤ δ := hrest.nonneg
    refine ⟨n1, n2, F1, F2, rfl, by simp only [runOps, Py.bind_apply, r2, c2], c3, c4, c5, fun j => (c6 j).trans (hvol j),
      c7.trans (key f1), c8.trans ?_⟩
    rw [← hlin]
    have a1 := key fun i j k => f1 i j k - f2 i j k
    simp only [sub_mul] at a1
    have a2 := mul_le_mul_of_nonneg_left (key f1) hδ
    linarith

/-- **C154.** Two lasers built on the same grid with the same carrier, through two passive beam lines that differ only in the optical
elements: the difference of the fields (as the square root of its energy) grows by at most the sum of the differences of the
multipliers, times the square root of the energy of the first pulse. In particular one and the same passive beam line never
amplifies the difference of two pulses. If the line runs for the first laser it runs for the second, and the axes stay the same. -/
theorem C154_stable (ax : Axiprop) (hax : ax.Unitary) (hsup : ax.Superposes) {os1 os2 : List LaserOp} {δ : ℝ}
    (hn : Spec.NearLines os1 os2 δ) {dim : String} {lo hi : List ℝ} {np : List ℕ} {m N : Option ℕ} {p1 p2 : ProfileObj}
    {l1 l2 : Laser s} (i1 : Laser.init dim lo hi np p1 m N = .ok ⟨s, l1⟩) (i2 : Laser.init dim lo hi np p2 m N = .ok ⟨s, l2⟩)
    (hw : p2.omega0 = p1.omega0) (hV : ∀ j, 0 ≤ l1.grid.cellVolume j) {f1 f2 : Field s} (h1 : l1.Has f1) (h2 : l2.Has f2)
    {L1 : Σ s, Laser s} (hrun : runOps ax os1 ⟨s, l1⟩ = (.ok (), L1)) :
    ∃ (l1' l2' : Laser s) (F1 F2 : Field s), L1 = ⟨s, l1'⟩ ∧ runOps ax os2 ⟨s, l2⟩ = (.ok (), ⟨s, l2'⟩) ∧
      l1'.Has F1 ∧ l2'.Has F2 ∧ l2'.grid.geom = l1'.grid.geom ∧ l2'.grid.t = l1'.grid.t ∧
      Real.sqrt (pulseEnergy l1'.grid fun i j k => F1 i j k - F2 i j k) ≤
        Real.sqrt (pulseEnergy l1.grid fun i j k => f1 i j k - f2 i j k) + δ * Real.sqrt (pulseEnergy l1.grid f1) := by
  have setup : SameSetup l1 l2 := by
    obtain ⟨g1, -, a1, -, a2, a3, a4, -, a5, a6⟩ := Laser.init_facts i1
    obtain ⟨g2, -, b1, -, b2, b3, b4, -, b5, b6⟩ := Laser.init_facts i2
    obtain rfl : g1 = g2 := by
      rw [a1] at b1
      simpa using b1
    refine ⟨by rw [b2, a2], by rw [b3, a3], by rw [b4, a4, hw], ?_, by rw [b5, a5]⟩
    funext k
    rw [b6, a6, b3, a3, b4, a4, hw]
  obtain ⟨l1', l2', F1, F2, e1, e2, e3, e4, e5, e6, -, e8⟩ :=
    near_step ax hax hsup hn l1 l2 (Laser.ready_of_init i1) setup hV h1 h2 hrun
  refine ⟨l1', l2', F1, F2, e1, e2, e4, e5, e3.geom, e3.t, ?_⟩
  have := amplitudeNorm_congr e6 fun i j k => F1 i j k - F2 i j k
  unfold Spec.amplitudeNorm at this e8
  rw [this]
  exact e8

/-- a beam line of passive elements (`|T| ≤ 1`) and propagations on the grid of the laser, with or without absorbing layers -/
def Spec.Passive (os : List LaserOp) : Prop :=
  ∀ o ∈ os, (∃ el : OpticalElement, o = .optics el ∧ ∀ x y w w0, ‖el.mult x y w w0‖ ≤ 1) ∨
    ∃ d b bk, o = .propagate ⟨d, b, none, bk⟩

omit [Phys] in
theorem Spec.Passive.near {os : List LaserOp} (h : Spec.Passive os) : Spec.NearLines os os 0 := by
  induction os with
  | nil => exact .nil
  | cons o os ih =>
    have ih := ih fun o ho => h o (by simp [ho])
    rcases h o (by simp) with ⟨el, rfl, hel⟩ | ⟨d, b, bk, rfl⟩
    · have := Spec.NearLines.optics (ε := 0) hel hel (fun x y w w0 => by simp) ih
      rwa [add_zero] at this
    · exact .propagate d b bk ih

/-- **C154** (energy). A passive beam line never adds energy, whatever its length. -/
theorem C154_energy (ax : Axiprop) (hax : ax.Unitary) (hsup : ax.Superposes) {os : List LaserOp} (hp : Spec.Passive os) (l : Laser s)
    (hr : l.Ready) (hV : ∀ j, 0 ≤ l.grid.cellVolume j) {L' : Σ s, Laser s} (hrun : runOps ax os ⟨s, l⟩ = (.ok (), L')) :
    ∃ E E' : ℝ, l.energy = .ok E ∧ L'.2.energy = .ok E' ∧ 0 ≤ E' ∧ E' ≤ E := by
  obtain ⟨⟨f, hf⟩, -⟩ := id hr
  obtain ⟨l', -, F, -, rfl, -, -, e4, -, e6, e7, -⟩ := near_step ax hax hsup hp.near l l hr ⟨rfl, rfl, rfl, rfl, rfl⟩ hV hf hf hrun
  obtain ⟨g1, q1, -⟩ := Grid.Holds.energy e4
  obtain ⟨g0, q0, -⟩ := Grid.Holds.energy hf
  have nn : ∀ F : Field s, 0 ≤ pulseEnergy l.grid F := fun F => by
    unfold pulseEnergy
    refine mul_nonneg (Finset.sum_nonneg fun i _ => Finset.sum_nonneg fun j _ => Finset.sum_nonneg fun k _ => ?_) (by norm_num)
    exact mul_nonneg (mul_nonneg (hV j) eps0_pos.le) (by positivity)
  have hv : pulseEnergy l'.grid F = pulseEnergy l.grid F := by simp only [pulseEnergy, e6]
  refine ⟨_, _, by simp only [Laser.energy, q0]; rfl, by simp only [Laser.energy, q1]; rfl, ?_, ?_⟩
  · rw [hv]
    exact nn F
  · rw [hv]
    exact (Real.sqrt_le_sqrt_iff (nn f)).1 e7

/-- **C154** (one element). An element with `|T| ≤ M` multiplies the energy by at most `M²`. -/
theorem C154_gain (l : Laser s) (f : Field s) (h : l.Has f) (el : OpticalElement) {M : ℝ} (hM : ∀ x y w w0, ‖el.mult x y w w0‖ ≤ M)
    (hV : ∀ j, 0 ≤ l.grid.cellVolume j) :
    ∃ (l' : Laser s) (E E' : ℝ), Laser.applyOptics el l = (.ok (), l') ∧ l.energy = .ok E ∧ l'.energy = .ok E' ∧ E' ≤ M ^ 2 * E := by
  obtain ⟨l', e, h', hg, ht, -⟩ := C19_apply_optics l f h el
  obtain ⟨g1, q1, -⟩ := Grid.Holds.energy h'
  obtain ⟨g0, q0, -⟩ := Grid.Holds.energy h
  refine ⟨l', _, _, e, by simp only [Laser.energy, q0]; rfl, by simp only [Laser.energy, q1]; rfl, ?_⟩
  rw [pulseEnergy_congr hg ht]
  refine energy_filter_le hV f _ fun i j k => ?_
  simp only [Tat]
  cases l.grid.geom <;> exact hM _ _ _ _

/-- the hypotheses of `C154_stable` are met: a mirror of focal length 1 against one that is slightly absorbing, then a propagation -/
example : ∃ (l : Laser ⟨2, 2, 2⟩) (p : ProfileObj) (os1 os2 : List LaserOp) (L' : Σ s, Laser s),
    Laser.init "xyt" [0, 0, 0] [1, 1, 1] [2, 2, 2] p none none = .ok ⟨_, l⟩ ∧ (l.Has fun _ _ _ => 1) ∧
    (∀ j, 0 ≤ l.grid.cellVolume j) ∧ Spec.NearLines os1 os2 (1 / 10) ∧ os1.length = 2 ∧
    runOps Axiprop.freeSpace os1 ⟨_, l⟩ = (.ok (), L') := by
  obtain ⟨l, E0, hi, hf, -, -⟩ := constLaser
  obtain ⟨l1, e1, h1, hgeo, ht, hp, ho, hpr, -⟩ := C19_apply_optics l _ hf (parabolicMirror 1)
  have hr := Laser.ready_of_init hi
  have hc1 : l1.CacheOK := by
    rcases hr.2 with hc | ⟨b, hc⟩
    · exact .inl (hpr.trans hc)
    · exact .inr ⟨b, by rw [hpr, hc, buildProp_congr hgeo ho]⟩
  obtain ⟨l2, e2, -⟩ := propagateAll_succeeds Axiprop.freeSpace [⟨3, none, none, "NP"⟩] l1 ⟨⟨_, h1⟩, hc1⟩ (by simp)
  have hunit : ∀ x y w w0, ‖(parabolicMirror 1).mult x y w w0‖ = 1 := fun x y w _ =>
    norm_exp_I_mul (-w * (x ^ 2 + y ^ 2) / (2 * c * (1 : ℝ))) _ (by push_cast; ring)
  let el' : OpticalElement := ⟨fun x y w w0 => 0.9 * (parabolicMirror 1).mult x y w w0⟩
  have hnear : Spec.NearLines [.optics (parabolicMirror 1), .propagate ⟨3, none, none, "NP"⟩]
      [.optics el', .propagate ⟨3, none, none, "NP"⟩] (1 / 10 + 0) := by
    refine .optics (fun x y w w0 => (hunit x y w w0).le) (fun x y w w0 => ?_) (fun x y w w0 => ?_) (.propagate _ _ _ .nil)
    · simp only [el', norm_mul, hunit]
      norm_num
    · have : (parabolicMirror 1).mult x y w w0 - el'.mult x y w w0 = 0.1 * (parabolicMirror 1).mult x y w w0 := by
        simp only [el']
        ring
      rw [this, norm_mul, hunit]
      norm_num
  rw [add_zero] at hnear
  refine ⟨l, _, _, _, ⟨_, l2⟩, hi, hf, ?_, hnear, rfl, ?_⟩
  · intro j
    obtain ⟨g, f', hg, -, hgeo, ht, -⟩ := Laser.init_facts hi
    obtain ⟨-, -, -, -, hc⟩ := Grid.init_ok hg
    rcases hc with ⟨_, _, _, _, _, _, _, _, h, -⟩ |
      ⟨l0, l1, l2, u0, u1, u2, x, y, t, -, e2, e3, e4, e5, e6, e7, e8, e9⟩
    · exact absurd h (by decide)
    simp only [List.cons.injEq, and_true] at e2 e3
    obtain ⟨rfl, rfl, rfl⟩ := e2
    obtain ⟨rfl, rfl, rfl⟩ := e3
    obtain ⟨_, hx⟩ := mkAxis_ok e5
    obtain ⟨_, hy⟩ := mkAxis_ok e6
    obtain ⟨_, htt⟩ := mkAxis_ok e7
    have d1 : x.dx = 1 := by rw [hx]; simp [linspace]; norm_num
    have d2 : y.dx = 1 := by rw [hy]; simp [linspace]; norm_num
    have d3 : t.dx = 1 := by rw [htt]; simp [linspace]; norm_num
    have hc := c_pos
    simp only [Grid.cellVolume, hgeo, ht, e8, e9, cellVolumeXYT, d1, d2, d3]
    positivity
  · simp only [runOps, LaserOp.run, onLaser, Py.bind_apply, e1]
    simp only [propagateAll, Py.bind_apply] at e2
    exact e2

end Lasy
