import Verif.Lemmas.Gradient
import Verif.Props.Frequency
import Mathlib.Analysis.SpecialFunctions.ExpDeriv

/-!
# Property C97: `vector_potential_to_field(direct=True)`
-/

namespace Lasy
open Spec Phys Complex

variable {s : Shape} [Phys]

/-- **C97.** Let the grid hold the samples of normalised vector potential envelopes `A_ij(t)` whose third
derivative is bounded by `M`, on equidistant times with step `h` (three points or more). Then
`vector_potential_to_field(grid, omega0)` returns an envelope `E` with
`E exp(-i ω0 t) = -(m_e c / e) d/dt (A exp(-i ω0 t))` up to `6 M h² m_e c / e`, at every sample, the ends
included; and the grid still holds `A`. In particular the result is exact for quadratic envelopes (`M = 0`). -/
theorem C97_direct {g : Grid s} {a : Field s} (hg : g.Holds (some a)) (w0 : ℝ) (hnt : 3 ≤ s.nt) {h : ℝ} (hh : 0 < h)
    (hx : ∀ (k : ℕ) (hk : k + 1 < s.nt), g.t.pts ⟨k + 1, hk⟩ = g.t.pts ⟨k, by omega⟩ + h)
    (A A1 A2 A3 : Fin s.n0 → Fin s.n1 → ℝ → ℂ) (hA : ∀ i j k, a i j k = A i j (g.t.pts k))
    (h1 : ∀ i j t, HasDerivAt (A i j) (A1 i j t) t) (h2 : ∀ i j t, HasDerivAt (A1 i j) (A2 i j t) t)
    (h3 : ∀ i j t, HasDerivAt (A2 i j) (A3 i j t) t) (M : ℝ) (hM : ∀ i j t, ‖A3 i j t‖ ≤ M) :
    ∃ (E : Field s) (g' : Grid s), vectorPotentialToFieldDirect w0 g = (.ok E, g') ∧ g'.Holds (some a) ∧
      ∀ (i : Fin s.n0) (j : Fin s.n1) (k : Fin s.nt) (D : ℂ),
        HasDerivAt (fun t : ℝ => A i j t * exp (-I * w0 * t)) D (g.t.pts k) →
        ‖E i j k * exp (-I * w0 * g.t.pts k) - -((me * c / e : ℝ) : ℂ) * D‖ ≤ me * c / e * (6 * M * h ^ 2) := by
  obtain ⟨g', e1, h', hgeo, ht⟩ := hg.getT
  choose G hG hb using fun i j => gradient_second_order hnt g.t.pts hh hx (h1 i j) (h2 i j) (h3 i j) (hM i j)
  have hG' : ∀ i j, gradient (a i j) g.t.pts = .ok (G i j) := by
    intro i j
    rw [← hG i j]; congr 1; funext k; exact hA i j k
  refine ⟨fun i j k => ((me * c / e : ℝ) : ℂ) * (-(G i j k) + I * w0 * a i j k), g', ?_, h', ?_⟩
  · unfold vectorPotentialToFieldDirect
    rw [Py.bind_ok (Py.get_apply g), Py.bind_ok (Py.require_pos hg.env g), Py.bind_ok e1,
      Py.bind_ok (Py.get_apply g'), if_neg (by omega), ht]
    simp only [hG']
    rfl
  · intro i j k D hD
    have hexp : HasDerivAt (fun t : ℝ => exp (-I * w0 * t)) (exp (-I * w0 * g.t.pts k) * (-I * w0)) (g.t.pts k) := by
      have h0 : HasDerivAt (fun t : ℝ => -I * w0 * (t : ℂ)) (-I * w0) (g.t.pts k) := by
        simpa using (HasDerivAt.ofReal_comp (hasDerivAt_id' (g.t.pts k))).const_mul (-I * (w0 : ℂ))
      exact h0.cexp
    have hD' : D = A1 i j (g.t.pts k) * exp (-I * w0 * g.t.pts k) +
        A i j (g.t.pts k) * (exp (-I * w0 * g.t.pts k) * (-I * w0)) :=
      hD.unique ((h1 i j _).fun_mul hexp)
    have hn : ‖exp (-I * w0 * g.t.pts k)‖ = 1 := by
      rw [Complex.norm_exp]; simp
    have hpos : 0 < me * c / e := div_pos (mul_pos me_pos c_pos) e_pos
    dsimp only
    rw [hD', hA]
    have key : ((me * c / e : ℝ) : ℂ) * (-(G i j k) + I * w0 * A i j (g.t.pts k)) * exp (-I * w0 * g.t.pts k) -
        -((me * c / e : ℝ) : ℂ) * (A1 i j (g.t.pts k) * exp (-I * w0 * g.t.pts k) +
        A i j (g.t.pts k) * (exp (-I * w0 * g.t.pts k) * (-I * w0))) =
        -((me * c / e : ℝ) : ℂ) * (G i j k - A1 i j (g.t.pts k)) * exp (-I * w0 * g.t.pts k) := by ring
    rw [key, norm_mul, norm_mul, norm_neg, Complex.norm_real, Real.norm_of_nonneg hpos.le, hn, mul_one]
    exact mul_le_mul_of_nonneg_left (hb i j k) hpos.le

/-- **C97**, the calls that are refused: a grid that does not hold an envelope (`AssertionError`), or fewer
than three time points (`ValueError`); nothing is changed for the caller. -/
theorem C97_refused (g : Grid s) (w0 : ℝ) :
    (g.isEnvelope = false → vectorPotentialToFieldDirect w0 g = (.error .assertion, g)) ∧
    (∀ a, g.Holds (some a) → s.nt < 3 →
      ∃ g', vectorPotentialToFieldDirect w0 g = (.error .value, g') ∧ g'.Holds (some a)) := by
  constructor
  · intro h
    unfold vectorPotentialToFieldDirect
    rw [Py.bind_ok (Py.get_apply g)]
    rw [Py.bind_error (Py.require_neg (by simp [h]) g)]
  · intro a hg hnt
    obtain ⟨g', e1, h', hgeo, ht⟩ := hg.getT
    refine ⟨g', ?_, h'⟩
    unfold vectorPotentialToFieldDirect
    rw [Py.bind_ok (Py.get_apply g), Py.bind_ok (Py.require_pos hg.env g), Py.bind_ok e1,
      Py.bind_ok (Py.get_apply g'), if_pos hnt]
    rfl

/-- the hypotheses of `C97_direct` are met by `A(t) = t²` at the times `0, 1, 2`; the field is exact -/
example (w0 : ℝ) : ∃ (g g' : Grid ⟨2, 2, 3⟩) (E : Field ⟨2, 2, 3⟩),
    vectorPotentialToFieldDirect w0 g = (.ok E, g') ∧
    E 0 0 2 * exp (-I * w0 * 2) = -((me * c / e : ℝ) : ℂ) *
      (4 * exp (-I * w0 * 2) + 4 * (exp (-I * w0 * 2) * (-I * w0))) := by
  have hg := Grid.holding_holds (s := ⟨2, 2, 3⟩) (.xyt axis01 axis01) axis012
    (fun _ _ k => ((axis012.pts k : ℝ) : ℂ) ^ 2)
  have d1 : ∀ t : ℝ, HasDerivAt (fun t : ℝ => (t : ℂ) ^ 2) (2 * (t : ℂ)) t := by
    intro t
    have := HasDerivAt.fun_pow (HasDerivAt.ofReal_comp (hasDerivAt_id' t)) 2
    simpa using this
  have d2 : ∀ t : ℝ, HasDerivAt (fun t : ℝ => 2 * (t : ℂ)) 2 t := by
    intro t
    simpa using (HasDerivAt.ofReal_comp (hasDerivAt_id' t)).const_mul (2 : ℂ)
  obtain ⟨E, g', e1, -, hE⟩ := C97_direct hg w0 le_rfl (h := 1) one_pos
    (by intro k hk; simp [Grid.holding, axis012]) (fun _ _ t => (t : ℂ) ^ 2)
    (fun _ _ t => 2 * t) (fun _ _ _ => 2) (fun _ _ _ => 0) (fun i j k => rfl) (fun _ _ => d1) (fun _ _ => d2)
    (fun _ _ t => hasDerivAt_const t _) 0 (by simp)
  refine ⟨_, g', E, e1, ?_⟩
  have ht : (Grid.holding (s := ⟨2, 2, 3⟩) (.xyt axis01 axis01) axis012
    (fun _ _ k => ((axis012.pts k : ℝ) : ℂ) ^ 2)).t.pts (2 : Fin 3) = 2 := by simp [Grid.holding, axis012]
  have hexp : HasDerivAt (fun t : ℝ => exp (-I * w0 * t)) (exp (-I * w0 * (2 : ℝ)) * (-I * w0)) 2 := by
    have h0 : HasDerivAt (fun t : ℝ => -I * w0 * (t : ℂ)) (-I * w0) 2 := by
      simpa using (HasDerivAt.ofReal_comp (hasDerivAt_id' (2 : ℝ))).const_mul (-I * (w0 : ℂ))
    exact h0.cexp
  have := hE 0 0 2 _ (by rw [ht]; exact (d1 2).fun_mul hexp)
  rw [ht] at this
  have h0 := norm_le_zero_iff.1 (this.trans (by simp))
  have h1 := sub_eq_zero.1 h0
  push_cast at h1
  rw [h1]
  push_cast
  ring

end Lasy
