import Verif.Props.Insight
import Verif.Props.Speckle
import Verif.Props.FromData
import Verif.Props.LongFromData
import Verif.Props.ModeWeights
import Verif.Props.CentralFrequency

/-!
# Concrete cases that meet the hypotheses of theorems about measured data, speckles and mode weights

Each example names the theorems whose hypotheses it meets.
-/

namespace Lasy
open Spec Phys Complex

/-- C48: a beam in the corner of a camera image, centred or not -/
example (b : Bool) : ∃ y x field, transFromData (onePixel 5 7 0 6) (0, 0) (7, 5) b = .ok ⟨5, 7, y, x, field⟩ ∧
    (∑ q, ∑ c, field q c ^ 2) * ((7 - 0) / (7 : ℕ)) * ((5 - 0) / (5 : ℕ)) = 1 := by
  obtain ⟨y, x, field, e, h, -⟩ := C48_normalised (by norm_num) (by norm_num) (onePixel 5 7 0 6) (lo := (0, 0)) (hi := (7, 5))
    (by norm_num) (by norm_num) b (fun q c => by unfold onePixel; split <;> norm_num) (by
      have := onePixel_sum (rows := 5) (cols := 7) 0 6 (fun _ _ => 1)
      simp only [mul_one] at this
      rw [imgSum, this]
      norm_num)
  exact ⟨y, x, field, e, h⟩

/-- C49: a recording cut to the middle two of its four samples, with a phase -/
example : ∃ (a b : Fin 4) (p : LongProf), NearestSample ![0, 1, 2, 3] 0.9 a ∧ NearestSample ![0, 1, 2, 3] 3.2 b ∧
    longTemporal ![0, 1, 2, 3] ![1, 4, 9, 4] (some ![0, 1, 0, 1]) 1 0.9 3.2 = .ok p ∧ p.lambda0 = 1 := by
  obtain ⟨a, b, p, h1, h2, h3, h4, -⟩ := C49_samples (n := 4) (by norm_num) (axis := ![0, 1, 2, 3])
    (fun i j hij => by fin_cases i <;> fin_cases j <;> simp_all; all_goals norm_num) ![1, 4, 9, 4] (some ![0, 1, 0, 1]) 1 0.9 3.2
  exact ⟨a, b, p, h1, h2, h3, h4⟩

variable [Phys]

/-- C95: the Gaussian of waist 1 is even in `y`: its weight of the mode `(0, 1)` is zero -/
example : ∃ R, hgDecomposition ⟨.waist 1, 0, 0, gaussianTrans 1 0⟩ 3 3 1 = .ok R ∧ R.weights 0 1 = some 0 := by
  have hb : TransSource.bounds ⟨.waist 1, 0, 0, gaussianTrans 1 0⟩ = .ok ((-(5 * 1), -(5 * 1)), (5 * 1, 5 * 1)) :=
    C65_bounds_partial ⟨.waist 1, 0, 0, gaussianTrans 1 0⟩ ⟨rfl, rfl⟩ 1 rfl
  obtain ⟨R, hR⟩ := C65_succeeds_partial ⟨.waist 1, 0, 0, gaussianTrans 1 0⟩ hb one_pos (by norm_num) (by norm_num) 3 3
  refine ⟨R, hR, C95_parity_y one_pos hR hb (by norm_num) (by norm_num) (by norm_num) (.inl ⟨odd_one, fun x y => ?_⟩)⟩
  simp only [TransSource.evaluate, gaussianTrans, add_zero]
  norm_num

/-- C63: the series of GP ISI at the times 0 to 9 -/
example (d : Draws) : ∃ E, (exBase .gpISI).evaluate d (fun (i : Fin 5) (_ : Fin 7) (_ : Fin 10) => ((i : ℕ) : ℝ))
    (fun _ j _ => ((j : ℕ) : ℝ)) (fun _ _ k => ((k : ℕ) : ℝ)) = .ok E := by
  obtain ⟨idx, -, h, -⟩ := C63_isi (exBase .gpISI) rfl (by norm_num [exBase]) (by norm_num [exBase]) d (a := 5) (b := 7) (n := 9)
    (by norm_num) (by norm_num) (fun i => (i : ℕ)) (fun i => (i : ℕ)) (fun i => (i : ℕ)) (fun k => by
      have hk : ((k : ℕ) : ℝ) ≤ ((Fin.last 9 : Fin 10) : ℕ) := by exact_mod_cast Fin.le_last k
      have hl : (0 : ℝ) < (exBase .gpISI).lambda0 := by norm_num [exBase, exPlate]
      have hc := c_pos
      constructor
      · show 0 ≤ ((k : ℕ) : ℝ) * c / _
        positivity
      · show ((k : ℕ) : ℝ) * c / _ ≤ ((Fin.last 9 : Fin 10) : ℕ) * c / _
        gcongr)
  exact h

/-- C88: a correlated random series of five numbers -/
example : ∃ v : Fin 5 → ℂ, genGaussian 5 1 (.fin 2) 3 (fun k => (k : ℝ) + 1) (fun _ => 0) = .ok (some v) ∧
    Real.sqrt ((∑ k, ‖v k‖ ^ 2) / 5) = 3 := by
  obtain ⟨v, h, e⟩ := C88_rms (n := 5) (by norm_num) 1 2 3 (by norm_num) (fun k => (k : ℝ) + 1) (fun _ => 0)
    ⟨0, by norm_num, .inl (by norm_num)⟩
  exact ⟨v, h, by simpa using e⟩

/-- C90: no amplitude -/
example : Speckle.init (exBase .gpSSD) (some (0, 0)) (some (1, 1)) (some (1, 1)) = .error .assertion :=
  C90_zeros_partial _ (.inr rfl) (by norm_num [exBase]) _ _ _ (.inl ⟨le_rfl, le_rfl⟩)

omit [Phys] in
/-- C109: four samples of a chirped pulse on a 3 × 3 camera; the strongest is the second -/
example : ∃ P, fromInsight (fun (_ : Fin 3) (_ : Fin 3) (k : Fin 4) => ((![1, 4, 3, 2] k : ℝ) : ℂ) * exp (-I * (((k : ℕ) : ℝ) ^ 2 / 4 : ℝ)))
    ⟨4, fun k => 10 + (k : ℕ) * 2⟩ ⟨3, fun i => (i : ℕ)⟩ ⟨3, fun i => (i : ℕ)⟩ [1, 0] .peak = .ok P ∧
    P.omega0 = 1 / (2 * (2 * 1e-15)) := by
  have hpi := Real.two_le_pi
  obtain ⟨P, h, e⟩ := C109_peak_partial (a := 3) (b := 3) (n := 4) (t := fun k => 10 + (k : ℕ) * 2) (x := fun i => (i : ℕ))
    (y := fun i => (i : ℕ)) (by norm_num) (by norm_num) (fun i j hij => Nat.cast_lt.2 hij) (fun i j hij => Nat.cast_lt.2 hij)
    1 0 (t0 := 10) (dt := 2) (by norm_num) (fun _ => rfl)
    (data := fun _ _ k => ((![1, 4, 3, 2] k : ℝ) : ℂ) * exp (-I * (((k : ℕ) : ℝ) ^ 2 / 4 : ℝ))) (A := ![1, 4, 3, 2])
    (ph := fun k => ((k : ℕ) : ℝ) ^ 2 / 4) (fun k => by fin_cases k <;> norm_num) (fun k => rfl)
    (fun k hk => by
      have : k = 0 ∨ k = 1 ∨ k = 2 := by omega
      rcases this with rfl | rfl | rfl <;> norm_num [abs_of_pos] <;> linarith) (k := 1) (by norm_num) (by norm_num)
    (fun j => by fin_cases j <;> norm_num) (fun j hj => by fin_cases j <;> simp_all) (by norm_num)
  exact ⟨P, h, by rw [e]; norm_num⟩

/-- C125 (real fields in `rt`): three samples on two radii off the axis -/
example : ∃ (g : Grid ⟨2 * 1 - 1, 2, 3⟩) (hm : 1 ≤ 1 ∧ 2 * 1 - 1 = 2 * 1 - 1) (r : Axis 2) (E : RField ⟨2 * 1 - 1, 2, 3⟩),
    g.geom = .rt 1 hm r ∧ (∀ j, 0 < r.pts j) ∧ g.HoldsReal E ∧ ∃ i j k, E i j k ≠ 0 := by
  have hm : 1 ≤ 1 ∧ 2 * 1 - 1 = 2 * 1 - 1 := ⟨le_rfl, rfl⟩
  let r : Axis 2 := { lo := 1, hi := 2, dx := 1, pts := ![1, 2] }
  refine ⟨Grid.holdingReal (.rt 1 hm r) { lo := 0, hi := 2, dx := 1, pts := ![0, 1, 2] } fun _ _ k => (k : ℕ), hm, r, fun _ _ k => (k : ℕ),
    rfl, fun j => ?_, Grid.holdingReal_holds _ _ _, 0, 0, 1, by norm_num⟩
  fin_cases j <;> norm_num [r]

end Lasy
