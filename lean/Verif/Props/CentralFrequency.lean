import Verif.Props.Frequency
import Verif.Props.Hilbert

/-!
# Property C125: the central frequency is the average of the local frequency, weighted with amplitude and volume
-/

namespace Lasy
open Spec Phys Complex

variable {s : Shape}

theorem sum3 (a : RField s) :
    ∑ p : Fin s.n0 × Fin s.n1 × Fin s.nt, a p.1 p.2.1 p.2.2 = ∑ i, ∑ j, ∑ k, a i j k := by
  rw [Fintype.sum_prod_type]
  refine Finset.sum_congr rfl fun i _ => ?_
  rw [Fintype.sum_prod_type]

/-- every field sampled at three times or more has a local frequency -/
theorem localFrequency_exists (hn : 3 ≤ s.nt) (w0 : ℝ) (t : Fin s.nt → ℝ) (f : Field s) :
    ∃ w, LocalFrequency w0 t f w := by
  choose r hr using fun i j => gradient_ok hn (fun k => -unwrap (fun k => angle (f i j k)) k) t
  exact ⟨fun i j k => w0 + r i j k, fun i j => by rw [hr]; congr 1; funext k; ring⟩

/-- what `get_frequency` returns as the central frequency of an envelope, on either kind of grid -/
theorem envelope_central {g : Grid s} {f : Field s} (h : g.Holds (some f)) (hne : ∃ i j k, f i j k ≠ 0) (ih : Bool)
    (w0 lower upper : ℝ) {w : RField s} (hw : LocalFrequency w0 g.t.pts f w) :
    ∃ omega g', getFrequency ih (some w0) lower upper g =
      (.ok (omega, (∑ i, ∑ j, ∑ k, w i j k * ‖f i j k‖) / ∑ i, ∑ j, ∑ k, ‖f i j k‖), g') := by
  have hsum : ∑ p : Fin s.n0 × Fin s.n1 × Fin s.nt, ‖f p.1 p.2.1 p.2.2‖ ≠ 0 := by
    obtain ⟨i, j, k, hijk⟩ := hne
    refine (Finset.sum_pos' (fun p _ => norm_nonneg _) ⟨(i, j, k), by simp, ?_⟩).ne'
    simpa using hijk
  have hav := average_ok (a := fun p : Fin s.n0 × Fin s.n1 × Fin s.nt => w p.1 p.2.1 p.2.2) hsum
  have hav' : average3 (fun i j k => w0 + (w i j k - w0)) (fun i j k => ‖f i j k‖) =
      .ok ((∑ i, ∑ j, ∑ k, w i j k * ‖f i j k‖) / ∑ i, ∑ j, ∑ k, ‖f i j k‖) := by
    have hww : (fun i j k => w0 + (w i j k - w0)) = w := by funext i j k; ring
    rw [hww, ← sum3 fun i j k => w i j k * ‖f i j k‖, ← sum3 fun i j k => ‖f i j k‖]
    exact hav
  obtain ⟨g', e, -⟩ := getFrequency_holds h ih w0 lower upper (phaseRate_of hw) hav'
  exact ⟨_, g', e⟩

/-- what `get_frequency` returns as the central frequency of a real field -/
theorem real_central {g : Grid s} {E : RField s} (h : g.HoldsReal E) (w0 : Option ℝ) (lower upper : ℝ) {w : RField s}
    (hw : LocalFrequency 0 g.t.pts (fun i j k => (E i j k : ℂ)) w) (wt : RField s)
    (hwt : fullFieldWeights g (fun i j k => (E i j k : ℂ)) = wt) (hsum : ∑ i, ∑ j, ∑ k, wt i j k ≠ 0) :
    ∃ omega, getFrequency true w0 lower upper g =
      (.ok (omega, (∑ i, ∑ j, ∑ k, w i j k * wt i j k) / ∑ i, ∑ j, ∑ k, wt i j k), g) := by
  unfold getFrequency
  rw [Py.bind_ok h.getT, Py.bind_ok (Py.get_apply g), if_neg (by rw [h.env]; simp), if_neg (by simp)]
  have hr : phaseRate (fun i j k => (E i j k : ℂ)) g.t.pts = .ok w := by
    apply phaseRate_of
    intro i j
    rw [hw i j]
    congr 1
    funext k
    ring
  have ha : average3 w (fullFieldWeights g (fun i j k => (E i j k : ℂ))) =
      .ok ((∑ i, ∑ j, ∑ k, w i j k * wt i j k) / ∑ i, ∑ j, ∑ k, wt i j k) := by
    rw [hwt, ← sum3 wt, ← sum3 fun i j k => w i j k * wt i j k]
    exact average_ok (by rw [sum3 wt]; exact hsum)
  simp only [hr, ha, Py.pure_apply]
  exact ⟨_, rfl⟩

/-- C125, on a Cartesian grid, where all cells have the same volume: the central frequency of an envelope, and of a
real field, is the mean of the local frequency weighted with the amplitude. -/
theorem C125_xyt_partial (g : Grid s) (x : Axis s.n0) (y : Axis s.n1) (hg : g.geom = .xyt x y) (hn : 3 ≤ s.nt)
    (lower upper : ℝ) :
    (∀ (f : Field s) (w0 : ℝ) (ih : Bool), g.Holds (some f) → (∃ i j k, f i j k ≠ 0) →
      ∃ w omega g', LocalFrequency w0 g.t.pts f w ∧ getFrequency ih (some w0) lower upper g =
        (.ok (omega, (∑ i, ∑ j, ∑ k, w i j k * ‖f i j k‖) / ∑ i, ∑ j, ∑ k, ‖f i j k‖), g')) ∧
    (∀ (E : RField s) (w0 : Option ℝ), g.HoldsReal E → (∃ i j k, E i j k ≠ 0) →
      ∃ w omega, LocalFrequency 0 g.t.pts (fun i j k => (E i j k : ℂ)) w ∧ getFrequency true w0 lower upper g =
        (.ok (omega, (∑ i, ∑ j, ∑ k, w i j k * |E i j k|) / ∑ i, ∑ j, ∑ k, |E i j k|), g)) := by
  constructor
  · intro f w0 ih h hne
    obtain ⟨w, hw⟩ := localFrequency_exists hn w0 g.t.pts f
    obtain ⟨omega, g', e⟩ := envelope_central h hne ih w0 lower upper hw
    exact ⟨w, omega, g', hw, e⟩
  · rintro E w0 h ⟨i, j, k, hE⟩
    obtain ⟨w, hw⟩ := localFrequency_exists hn 0 g.t.pts fun i j k => (E i j k : ℂ)
    obtain ⟨omega, e⟩ := real_central h w0 lower upper hw (fun i j k => |E i j k|)
      (by funext i j k; simp [fullFieldWeights, hg])
      (by
        rw [← sum3 fun i j k => |E i j k|]
        refine (Finset.sum_pos' (fun p _ => abs_nonneg _) ⟨(i, j, k), by simp, ?_⟩).ne'
        simpa using hE)
    exact ⟨w, omega, hw, e⟩

/-- C125, for a real field on a cylindrical grid, whose cells have volumes proportional to the radius: the central
frequency is the mean of the local frequency weighted with the amplitude and the radius. -/
theorem C125_rt_full_partial (g : Grid s) {m : ℕ} (hm : 1 ≤ m ∧ s.n0 = 2 * m - 1) (r : Axis s.n1) (hg : g.geom = .rt m hm r)
    (hn : 3 ≤ s.nt) (hr : ∀ j, 0 < r.pts j) (lower upper : ℝ) (w0 : Option ℝ) (E : RField s) (h : g.HoldsReal E)
    (hne : ∃ i j k, E i j k ≠ 0) :
    ∃ w omega, LocalFrequency 0 g.t.pts (fun i j k => (E i j k : ℂ)) w ∧ getFrequency true w0 lower upper g =
      (.ok (omega, (∑ i, ∑ j, ∑ k, w i j k * (r.pts j * |E i j k|)) / ∑ i, ∑ j, ∑ k, r.pts j * |E i j k|), g) := by
  obtain ⟨w, hw⟩ := localFrequency_exists hn 0 g.t.pts fun i j k => (E i j k : ℂ)
  obtain ⟨i, j, k, hE⟩ := hne
  obtain ⟨omega, e⟩ := real_central h w0 lower upper hw (fun i j k => r.pts j * |E i j k|)
    (by funext i j k; simp [fullFieldWeights, hg])
    (by
      rw [← sum3 fun i j k => r.pts j * |E i j k|]
      refine (Finset.sum_pos' (fun p _ => mul_nonneg (hr _).le (abs_nonneg _)) ⟨(i, j, k), by simp, ?_⟩).ne'
      have := abs_pos.2 hE
      have := hr j
      simp only
      positivity)
  exact ⟨w, omega, hw, e⟩

/-- **C125 is false** for an envelope on a cylindrical grid: the radius is not taken into account. With two radii, and a
frequency shift `d j` at radius `j`, the central frequency is the plain mean, which is the mean over the volume only if the
radii or the shifts are equal. -/
theorem C125_rt_envelope_refuted (t : Axis 3) (r : Axis 2) (ht : Increasing t.pts) (hr : 0 < r.pts 0 ∧ 0 < r.pts 1)
    (d : Fin 2 → ℝ) (w0 : ℝ)
    (hd : ∀ j, ∀ (k : ℕ) (hk : k + 1 < 3), |d j| * (t.pts ⟨k + 1, hk⟩ - t.pts ⟨k, by omega⟩) < Real.pi) :
    ∃ (f : Field ⟨1, 2, 3⟩) (w : RField ⟨1, 2, 3⟩), (∀ i j k, w i j k = w0 + d j) ∧ (∀ i j k, ‖f i j k‖ = 1) ∧
      LocalFrequency w0 t.pts f w ∧ ∀ g : Grid ⟨1, 2, 3⟩, g.geom = .rt 1 ⟨le_rfl, rfl⟩ r → g.t = t → g.Holds (some f) →
        ∃ omega g' central, getFrequency false (some w0) 0.2 5.0 g = (.ok (omega, central), g') ∧
          central = w0 + (d 0 + d 1) / 2 ∧
          (central = (∑ i, ∑ j, ∑ k, w i j k * (r.pts j * ‖f i j k‖)) / ∑ i : Fin 1, ∑ j : Fin 2, ∑ k : Fin 3,
            r.pts j * ‖f i j k‖ → r.pts 0 = r.pts 1 ∨ d 0 = d 1) := by
  have hnorm : ∀ (i : Fin 1) (j : Fin 2) (k : Fin 3), ‖exp (-I * (d j * t.pts k : ℝ))‖ = 1 := by
    intro i j k
    rw [show -I * ((d j * t.pts k : ℝ) : ℂ) = ((-(d j * t.pts k) : ℝ) : ℂ) * I by push_cast; ring]
    exact Complex.norm_exp_ofReal_mul_I _
  have hloc : LocalFrequency (s := ⟨1, 2, 3⟩) w0 t.pts (fun _ j k => exp (-I * (d j * t.pts k : ℝ)))
      (fun _ j _ => w0 + d j) := by
    intro i j
    have hu := unwrap_unique (fun k : Fin 3 => angle (exp (-I * (d j * t.pts k : ℝ)))) (fun k => -(d j * t.pts k))
      (fun k => angle_polar one_pos (by push_cast; rw [one_mul]; congr 1; ring))
      (by
        intro k hk
        have hp := ht k hk
        rw [show -(d j * t.pts ⟨k + 1, hk⟩) - -(d j * t.pts ⟨k, by omega⟩) =
          -(d j * (t.pts ⟨k + 1, hk⟩ - t.pts ⟨k, by omega⟩)) by ring, abs_neg, abs_mul, abs_of_pos (sub_pos.mpr hp)]
        exact hd j k hk)
      (by omega)
    rw [funext hu]
    have := gradient_affine t.pts (by omega) ht (d j) (-(angle (exp (-I * (d j * t.pts ⟨0, by omega⟩ : ℝ))) -
      -(d j * t.pts ⟨0, by omega⟩)))
    rw [show (fun _ => w0 + d j - w0) = fun _ : Fin 3 => d j by funext k; ring, ← this]
    congr 1
    funext k
    ring
  obtain ⟨f, hf⟩ : ∃ f : Fin 1 → Fin 2 → Fin 3 → ℂ, f = fun _ j k => exp (-I * (d j * t.pts k : ℝ)) := ⟨_, rfl⟩
  have hnorm' : ∀ i j k, ‖f i j k‖ = 1 := by
    intro i j k
    rw [hf]
    exact hnorm i j k
  have hloc' : LocalFrequency (s := ⟨1, 2, 3⟩) w0 t.pts f (fun _ j _ => w0 + d j) := by
    rw [hf]
    exact hloc
  refine ⟨f, fun _ j _ => w0 + d j, fun _ _ _ => rfl, hnorm', hloc', ?_⟩
  rintro g hg rfl hh
  obtain ⟨omega, g', e⟩ := envelope_central hh ⟨0, 0, 0, by
    rw [← norm_ne_zero_iff]
    exact (hnorm' 0 0 0).trans_ne one_ne_zero⟩ false w0 0.2 5.0 hloc'
  have h1 : (∑ i : Fin 1, ∑ j : Fin 2, ∑ k : Fin 3, (w0 + d j) * ‖f i j k‖) /
      ∑ i : Fin 1, ∑ j : Fin 2, ∑ k : Fin 3, ‖f i j k‖ = w0 + (d 0 + d 1) / 2 := by
    simp only [hnorm']
    simp [Fin.sum_univ_succ]
    ring
  refine ⟨omega, g', _, e, h1, fun h => ?_⟩
  have h2 : (∑ i : Fin 1, ∑ j : Fin 2, ∑ k : Fin 3, (w0 + d j) * (r.pts j * ‖f i j k‖)) /
      (∑ i : Fin 1, ∑ j : Fin 2, ∑ k : Fin 3, r.pts j * ‖f i j k‖) =
      ((w0 + d 0) * r.pts 0 + (w0 + d 1) * r.pts 1) / (r.pts 0 + r.pts 1) := by
    have h0 : r.pts 0 + r.pts 1 ≠ 0 := by linarith [hr.1, hr.2]
    simp only [hnorm', mul_one, Finset.sum_const, Finset.card_univ, Fintype.card_fin, Fin.sum_univ_two, one_smul]
    simp only [nsmul_eq_mul]
    rw [← mul_add, ← mul_add, mul_div_mul_left _ _ (by norm_num)]
  have h := h1.symm.trans (h.trans h2)
  have h0 : r.pts 0 + r.pts 1 ≠ 0 := by linarith [hr.1, hr.2]
  rw [eq_div_iff h0] at h
  have : (r.pts 0 - r.pts 1) * (d 0 - d 1) = 0 := by linarith
  rcases mul_eq_zero.1 this with h | h
  · exact .inl (by linarith)
  · exact .inr (by linarith)

/-- the premises are met: two radii, the inner one shifted by 1 -/
example : ∃ (t : Axis 3) (r : Axis 2) (d : Fin 2 → ℝ), Increasing t.pts ∧ (0 < r.pts 0 ∧ 0 < r.pts 1) ∧
    (∀ j, ∀ (k : ℕ) (hk : k + 1 < 3), |d j| * (t.pts ⟨k + 1, hk⟩ - t.pts ⟨k, by omega⟩) < Real.pi) ∧
    r.pts 0 ≠ r.pts 1 ∧ d 0 ≠ d 1 := by
  refine ⟨{ lo := 0, hi := 2, dx := 1, pts := fun k => (k : ℕ) }, { lo := 1, hi := 2, dx := 1, pts := ![1, 2] },
    ![1, 0], ?_, ?_, ?_, ?_, ?_⟩
  · intro k hk; simp
  · simp
  · intro j k hk
    have := Real.two_le_pi
    fin_cases j
    · simp
      linarith
    · simp
      linarith
  · simp
  · simp

end Lasy
