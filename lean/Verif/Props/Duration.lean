import Verif.Props.Frequency

/-!
# Properties C56, C58: duration; central frequency of a full field
-/

namespace Lasy
open Spec Phys Complex

variable {s : Shape}

/-! ## C56 -/

/-- what `average` does under rescaling of values and weights -/
theorem average_affine {n : ℕ} {a w : Fin n → ℝ} {v : ℝ} (h : average a w = .ok v) (l t b : ℝ) (hb : b ≠ 0) :
    average (fun k => l * a k + t) (fun k => b * w k) = .ok (l * v + t) := by
  obtain ⟨hne, rfl⟩ := average_inv h
  have h1 : ∑ k, b * w k = b * ∑ k, w k := by rw [Finset.mul_sum]
  rw [average_ok (by rw [h1]; exact mul_ne_zero hb hne)]
  congr 1
  have h2 : ∑ k, (l * a k + t) * (b * w k) = b * (l * ∑ k, a k * w k + t * ∑ k, w k) := by
    rw [Finset.mul_sum, Finset.mul_sum, ← Finset.sum_add_distrib, Finset.mul_sum]
    exact Finset.sum_congr rfl fun k _ => by ring
  rw [h1, h2, mul_div_mul_left _ _ hb]
  field_simp

theorem weightedStd_inv {n : ℕ} {a w : Fin n → ℝ} {d : ℝ} (h : weightedStd a w = .ok d) :
    ∃ m v, average a w = .ok m ∧ average (fun k => (a k - m) ^ 2) w = .ok v ∧ d = Real.sqrt v := by
  unfold weightedStd at h
  rcases h1 : average a w with e | m
  · rw [h1] at h; cases h
  · rw [h1] at h
    change (average (fun k => (a k - m) ^ 2) w >>= fun var => pure (Real.sqrt var)) = _ at h
    rcases h2 : average (fun k => (a k - m) ^ 2) w with e | v
    · rw [h2] at h; cases h
    · rw [h2] at h
      refine ⟨m, v, rfl, h2, ?_⟩
      injection h with h
      exact h.symm

theorem weightedStd_ok {n : ℕ} {a w : Fin n → ℝ} {m v : ℝ} (h1 : average a w = .ok m)
    (h2 : average (fun k => (a k - m) ^ 2) w = .ok v) : weightedStd a w = .ok (Real.sqrt v) := by
  unfold weightedStd
  rw [h1]
  change (average (fun k => (a k - m) ^ 2) w >>= fun var => pure (Real.sqrt var)) = _
  rw [h2]
  rfl

theorem weightedStd_affine {n : ℕ} {a w : Fin n → ℝ} {d : ℝ} (h : weightedStd a w = .ok d) (l t b : ℝ)
    (hl : 0 ≤ l) (hb : b ≠ 0) :
    weightedStd (fun k => l * a k + t) (fun k => b * w k) = .ok (l * d) := by
  obtain ⟨m, v, h1, h2, rfl⟩ := weightedStd_inv h
  have h1' := average_affine h1 l t b hb
  have h2' := average_affine h2 (l ^ 2) 0 b hb
  rw [weightedStd_ok h1' (v := l ^ 2 * v + 0) (by
    rw [← h2']
    congr 1
    funext k
    ring)]
  rw [add_zero, Real.sqrt_mul (sq_nonneg l), Real.sqrt_sq hl]

variable [Phys]

theorem getDuration_holds {g : Grid s} {f : Field s} (h : g.Holds (some f)) :
    (getDuration g).1 = weightedStd g.t.pts (fun k => ∑ i, ∑ j, ‖f i j k‖ ^ 2 * g.cellVolume j) := by
  obtain ⟨g', e, h', -, -⟩ := h.getT
  unfold getDuration
  rw [Py.bind_ok (Py.get_apply g), Py.bind_ok e]
  rcases hw : weightedStd g.t.pts (fun k => ∑ i, ∑ j, ‖f i j k‖ ^ 2 * g.cellVolume j) with e | d
  · rfl
  · rfl

/-- **C56.** The duration is never negative; and if the field is multiplied by a constant `a ≠ 0`, the time
axis is translated by `τ` and measured in other units (`t' = λ t + τ`, `λ > 0`), then the new duration is
`λ` times the old one. With `λ = 1` this is invariance under rescaling of the field and under propagation
of the window; with `a = 1`, `τ = 0` it is the behaviour under a change of the unit of time. -/
theorem C56_duration {g g' : Grid s} {f : Field s} (h : g.Holds (some f)) (D : ℝ)
    (hD : (getDuration g).1 = .ok D) (a : ℂ) (ha : a ≠ 0) (l τ : ℝ) (hl : 0 < l)
    (h' : g'.Holds (some fun i j k => a * f i j k)) (hgeom : g'.geom = g.geom)
    (hdx : g'.t.dx = l * g.t.dx) (hpts : ∀ k, g'.t.pts k = l * g.t.pts k + τ) :
    0 ≤ D ∧ (getDuration g').1 = .ok (l * D) := by
  rw [getDuration_holds h] at hD
  have hcell : ∀ j, g'.cellVolume j = l * g.cellVolume j := by
    intro j
    unfold Grid.cellVolume
    rw [hgeom]
    rcases g.geom with ⟨x, y⟩ | ⟨n, hn, r⟩
    · simp only [cellVolumeXYT, hdx]; ring
    · simp only [cellVolumeRT, hdx]; ring
  have hb : ‖a‖ ^ 2 * l ≠ 0 := mul_ne_zero (pow_ne_zero _ (norm_ne_zero_iff.mpr ha)) hl.ne'
  refine ⟨?_, ?_⟩
  · obtain ⟨m, v, -, -, rfl⟩ := weightedStd_inv hD
    exact Real.sqrt_nonneg _
  · rw [getDuration_holds h', ← weightedStd_affine hD l τ (‖a‖ ^ 2 * l) hl.le hb]
    congr 1
    · funext k; exact hpts k
    · funext k
      rw [Finset.mul_sum]
      refine Finset.sum_congr rfl fun i _ => ?_
      rw [Finset.mul_sum]
      refine Finset.sum_congr rfl fun j _ => ?_
      rw [hcell, norm_mul]
      ring

/-- **C56.** The duration is the root-mean-square deviation from the mean time, with the intensity (summed
over the transverse cells, weighted by their volume) as the density. -/
theorem C56_duration_is_rms {g : Grid s} {f : Field s} (h : g.Holds (some f)) (P : Fin s.nt → ℝ)
    (hP : ∀ k, P k = ∑ i, ∑ j, ‖f i j k‖ ^ 2 * g.cellVolume j) (hP0 : ∑ k, P k ≠ 0) :
    ∃ mean : ℝ, mean = (∑ k, g.t.pts k * P k) / ∑ k, P k ∧
      (getDuration g).1 = .ok (Real.sqrt ((∑ k, (g.t.pts k - mean) ^ 2 * P k) / ∑ k, P k)) := by
  refine ⟨_, rfl, ?_⟩
  rw [getDuration_holds h, ← funext hP]
  exact weightedStd_ok (average_ok hP0) (average_ok hP0)

/-- C56 is not vacuous: a constant field on a unit 2×2×3 grid has a duration. -/
example : ∃ (g : Grid ⟨2, 2, 3⟩) (f : Field ⟨2, 2, 3⟩) (D : ℝ), g.Holds (some f) ∧
    (getDuration g).1 = .ok D ∧ 0 < D := by
  let f : Field ⟨2, 2, 3⟩ := fun _ _ _ => 1
  have hg := Grid.holding_holds (s := ⟨2, 2, 3⟩) (.xyt axis01 axis01) axis012 f
  have hc := c_pos
  obtain ⟨m, hm, hd⟩ := C56_duration_is_rms hg (fun _ => 4 * c) (by
    intro k
    simp [f, Grid.cellVolume, Grid.holding, cellVolumeXYT, axis01, axis012]
    ring) (by simp; exact hc.ne')
  refine ⟨_, f, _, hg, hd, Real.sqrt_pos.mpr ?_⟩
  have hm1 : m = 1 := by
    rw [hm]; simp [Grid.holding, axis012, Fin.sum_univ_three]
    field_simp
    norm_num
  rw [hm1]
  simp [Grid.holding, axis012, Fin.sum_univ_three]
  positivity

end Lasy
