import Verif.Lemmas.Utils
import Verif.Props.Grid

/-!
# Properties C53, C54, C56, C58: local frequency, vector potential, duration
-/

namespace Lasy
open Spec Phys Complex

variable {s : Shape}

/-- the samples of the axis increase -/
def Increasing {n : ℕ} (t : Fin n → ℝ) : Prop :=
  ∀ (k : ℕ) (hk : k + 1 < n), t ⟨k, by omega⟩ < t ⟨k + 1, hk⟩

/-- the argument of `A e^{iθ}` is `θ` modulo `2π` -/
theorem angle_polar {A θ : ℝ} (hA : 0 < A) {z : ℂ} (hz : z = A * exp (I * θ)) :
    ∃ m : ℤ, angle z = θ + 2 * Real.pi * m := by
  have h1 : exp (I * (angle z : ℝ)) = exp (I * θ) := by
    have h := Complex.norm_mul_exp_arg_mul_I z
    have hn : ‖z‖ = A := by
      rw [hz, norm_mul, Complex.norm_real, Real.norm_of_nonneg hA.le]
      rw [mul_comm I, Complex.norm_exp_ofReal_mul_I, mul_one]
    rw [hn, hz] at h
    have hA' : (A : ℂ) ≠ 0 := by exact_mod_cast hA.ne'
    have := mul_left_cancel₀ hA' h
    rw [← hz] at this
    rw [← this, mul_comm I]
    rfl
  rw [Complex.exp_eq_exp_iff_exists_int] at h1
  obtain ⟨m, hm⟩ := h1
  refine ⟨m, ?_⟩
  have : I * ((angle z : ℝ) : ℂ) = I * ((θ + 2 * Real.pi * m : ℝ) : ℂ) := by
    rw [hm]; push_cast; ring
  have := mul_left_cancel₀ I_ne_zero this
  exact_mod_cast this

/-! ## C53 -/

/-- **C53.** For an envelope `A(x,y,t) exp(-i (d t + φ(x,y)))` of positive amplitude, sampled finely enough
that the phase changes by less than `π` between samples, `get_frequency` returns exactly `omega0 + d`
everywhere and as central frequency (for any bounds around 1, such as the defaults 0.2 and 5). -/
theorem C53_detuned {g : Grid s} {f : Field s} (h : g.Holds (some f))
    (A : Fin s.n0 → Fin s.n1 → Fin s.nt → ℝ) (φ : Fin s.n0 → Fin s.n1 → ℝ) (d w0 lower upper : ℝ)
    (ih : Bool) (hA : ∀ i j k, 0 < A i j k)
    (hf : ∀ i j k, f i j k = A i j k * exp (-I * (d * g.t.pts k + φ i j)))
    (hne : 0 < s.n0 ∧ 0 < s.n1) (hnt : 3 ≤ s.nt) (ht : Increasing g.t.pts)
    (hd : ∀ (k : ℕ) (hk : k + 1 < s.nt), |d| * (g.t.pts ⟨k + 1, hk⟩ - g.t.pts ⟨k, by omega⟩) < Real.pi)
    (hl : lower ≤ 1) (hu : 1 ≤ upper) (hw : 0 ≤ w0 + d) :
    ∃ g', getFrequency ih (some w0) lower upper g = (.ok (fun _ _ _ => w0 + d, w0 + d), g') ∧
      g'.Holds (some f) := by
  have hrate : phaseRate f g.t.pts = .ok fun _ _ _ => d := by
    apply phaseRate_of
    intro i j
    have hu := unwrap_unique (fun k => angle (f i j k)) (fun k => -(d * g.t.pts k + φ i j))
      (fun k => angle_polar (hA i j k) (by rw [hf]; congr 2; push_cast; ring))
      (by
        intro k hk
        have := hd k hk
        have hp := ht k hk
        rw [show -(d * g.t.pts ⟨k + 1, hk⟩ + φ i j) - -(d * g.t.pts ⟨k, by omega⟩ + φ i j) =
          -(d * (g.t.pts ⟨k + 1, hk⟩ - g.t.pts ⟨k, by omega⟩)) by ring, abs_neg, abs_mul,
          abs_of_pos (sub_pos.mpr hp)]
        exact this)
      (by omega)
    rw [funext hu]
    have := gradient_affine g.t.pts hnt ht d (φ i j - (angle (f i j ⟨0, by omega⟩) -
      -(d * g.t.pts ⟨0, by omega⟩ + φ i j)))
    rw [← this]
    congr 1
    funext k
    ring
  have hsum : ∑ p : Fin s.n0 × Fin s.n1 × Fin s.nt, ‖f p.1 p.2.1 p.2.2‖ ≠ 0 := by
    have hpos : ∀ p : Fin s.n0 × Fin s.n1 × Fin s.nt, 0 < ‖f p.1 p.2.1 p.2.2‖ := by
      intro p
      rw [norm_pos_iff, hf]
      exact mul_ne_zero (by exact_mod_cast (hA _ _ _).ne') (exp_ne_zero _)
    refine (Finset.sum_pos (fun p _ => hpos p) ⟨(⟨0, hne.1⟩, ⟨0, hne.2⟩, ⟨0, by omega⟩), ?_⟩).ne'
    simp
  obtain ⟨g', e, h', -, -⟩ := getFrequency_holds h ih w0 lower upper hrate
    (average_const (w0 + d) hsum)
  refine ⟨g', ?_, h'⟩
  rw [e]
  have : clipFrequency lower upper (w0 + d) (w0 + d) = w0 + d :=
    clipFrequency_id (by nlinarith) (by nlinarith)
  simp only [this]

/-- **C53.** Whatever the field: if `get_frequency` returns and the central frequency is not negative, every
local frequency lies between the bounds relative to the central frequency. -/
theorem C53_bounds (g g' : Grid s) (ih : Bool) (w0 : Option ℝ) (lower upper : ℝ) (hlu : lower ≤ upper)
    (omega : RField s) (central : ℝ) (hc : 0 ≤ central)
    (h : getFrequency ih w0 lower upper g = (.ok (omega, central), g')) (i j k) :
    lower * central ≤ omega i j k ∧ omega i j k ≤ upper * central := by
  have clip : ∀ w : ℝ, lower * central ≤ clipFrequency lower upper central w ∧
      clipFrequency lower upper central w ≤ upper * central := by
    intro w
    refine ⟨le_min (le_max_right _ _) (mul_le_mul_of_nonneg_right hlu hc), min_le_right _ _⟩
  have key : ∃ w, omega i j k = clipFrequency lower upper central w := by
    unfold getFrequency at h
    rcases hg : Grid.getTemporalField g with ⟨e | a, g1⟩
    · rw [Py.bind_error hg] at h; simp at h
    rw [Py.bind_ok hg, Py.bind_ok (Py.get_apply g1)] at h
    split at h
    · rcases w0 with _ | w0
      · simp at h
      · simp only at h
        rcases hr : phaseRate a.val g1.t.pts with e | rate
        · simp [hr] at h
        · simp only [hr] at h
          rcases ha : average3 (fun i j k => w0 + rate i j k) (fun i j k => ‖a.val i j k‖) with e | v
          · simp [ha] at h
          · simp only [ha, Py.pure_apply, Prod.mk.injEq, Except.ok.injEq] at h
            obtain ⟨⟨h1, h2⟩, -⟩ := h
            exact ⟨w0 + rate i j k, by rw [← h1, h2]⟩
    · split at h
      · simp at h
      · rcases hr : phaseRate a.val g1.t.pts with e | rate
        · simp [hr] at h
        · simp only [hr] at h
          rcases ha : average3 rate (fullFieldWeights g1 a.val) with e | v
          · simp [ha] at h
          · simp only [ha, Py.pure_apply, Prod.mk.injEq, Except.ok.injEq] at h
            obtain ⟨⟨h1, h2⟩, -⟩ := h
            exact ⟨rate i j k, by rw [← h1, h2]⟩
  obtain ⟨w, hw⟩ := key
  rw [hw]
  exact clip w

/-- C53 is not vacuous: a constant envelope detuned by `1` on a 2×2×4 grid. -/
example : ∃ (g : Grid ⟨2, 2, 4⟩) (f : Field ⟨2, 2, 4⟩), g.Holds (some f) ∧
    ∃ g', getFrequency false (some 10) 0.2 5.0 g = (.ok (fun _ _ _ => 11, 11), g') := by
  let t : Axis 4 := { lo := 0, hi := 3, dx := 1, pts := fun k => (k : ℕ) }
  let x : Axis 2 := { lo := 0, hi := 1, dx := 1, pts := fun k => (k : ℕ) }
  refine ⟨Grid.holding (s := ⟨2, 2, 4⟩) (.xyt x x) t (fun _ _ k => exp (-I * (t.pts k))), _,
    Grid.holding_holds .., ?_⟩
  obtain ⟨g', e, -⟩ := C53_detuned (Grid.holding_holds (s := ⟨2, 2, 4⟩) (.xyt x x) t
    (fun _ _ k => exp (-I * (t.pts k)))) (fun _ _ _ => 1) (fun _ _ => 0) 1 10 0.2 5.0 false
    (by simp) (by intro i j k; simp [Grid.holding]) (by simp) (by simp)
    (by intro k hk; simp [Grid.holding, t])
    (by
      intro k hk
      have := Real.two_le_pi
      simp only [Grid.holding, t]
      push_cast
      simp only [abs_one]
      linarith)
    (by norm_num) (by norm_num) (by norm_num)
  exact ⟨g', by rw [e]; norm_num⟩

/-! ## C54 -/

variable [Phys]

/-- the local frequency of the field `f` (before clipping): the carrier plus minus the derivative of the
unwrapped phase -/
def LocalFrequency (w0 : ℝ) (t : Fin s.nt → ℝ) (f : Field s) (w : RField s) : Prop :=
  ∀ i j, gradient (fun k => -unwrap (fun k => angle (f i j k)) k) t = .ok fun k => w i j k - w0

omit [Phys] in
theorem LocalFrequency.freq {g : Grid s} {f : Field s} (h : g.Holds (some f)) {w0 : ℝ} {w : RField s}
    (hw : LocalFrequency w0 g.t.pts f w) {B : ℝ} (hB : ∀ i j k, B ≤ w i j k ∧ w i j k ≤ 5 * B)
    (hne : ∃ i j k, f i j k ≠ 0) :
    ∃ g' v, getFrequency false (some w0) 0.2 5.0 g = (.ok (w, v), g') ∧
      g'.Holds (some f) ∧ g'.geom = g.geom ∧ g'.t = g.t := by
  have hr := phaseRate_of hw
  have hww : (fun i j k => w0 + (w i j k - w0)) = w := by funext i j k; ring
  have hsum : ∑ p : Fin s.n0 × Fin s.n1 × Fin s.nt, ‖f p.1 p.2.1 p.2.2‖ ≠ 0 := by
    obtain ⟨i, j, k, hijk⟩ := hne
    refine (Finset.sum_pos' (fun p _ => norm_nonneg _) ⟨(i, j, k), by simp, ?_⟩).ne'
    simpa using hijk
  have hav := average_ok (a := fun p : Fin s.n0 × Fin s.n1 × Fin s.nt => w p.1 p.2.1 p.2.2) hsum
  obtain ⟨hv1, hv2⟩ := average_bounds hav (fun _ => norm_nonneg _) (fun p => (hB _ _ _).1)
    (fun p => (hB _ _ _).2)
  set v := (∑ p : Fin s.n0 × Fin s.n1 × Fin s.nt, w p.1 p.2.1 p.2.2 * ‖f p.1 p.2.1 p.2.2‖) /
    ∑ p : Fin s.n0 × Fin s.n1 × Fin s.nt, ‖f p.1 p.2.1 p.2.2‖ with hv
  have hav' : average3 (fun i j k => w0 + (w i j k - w0)) (fun i j k => ‖f i j k‖) = .ok v := by
    rw [hww]; exact hav
  obtain ⟨g', e, h'⟩ := getFrequency_holds h false w0 0.2 5.0 hr hav'
  refine ⟨g', v, ?_, h'⟩
  rw [e]
  congr 3
  funext i j k
  rw [show w0 + (w i j k - w0) = w i j k by ring]
  exact clipFrequency_id (by have := hB i j k; norm_num at *; linarith)
    (by have := hB i j k; norm_num at *; linarith)

/-- `field_to_vector_potential` without clipping -/
theorem fieldToVectorPotential_ok {g : Grid s} {f : Field s} (h : g.Holds (some f)) {w0 : ℝ} {w : RField s}
    (hw : LocalFrequency w0 g.t.pts f w) {B : ℝ} (hB : ∀ i j k, B ≤ w i j k ∧ w i j k ≤ 5 * B)
    (hne : ∃ i j k, f i j k ≠ 0) :
    ∃ g', fieldToVectorPotential w0 g =
      (.ok fun i j k => -I * e * f i j k / (me * w i j k * c), g') ∧ g'.Holds (some f) := by
  obtain ⟨g1, v, e1, h1, -, -⟩ := hw.freq h hB hne
  obtain ⟨g2, e2, h2, -, -⟩ := h1.getT
  refine ⟨g2, ?_, h2⟩
  unfold fieldToVectorPotential
  rw [Py.bind_ok (Py.get_apply g), Py.bind_ok (Py.require_pos h.env g), Py.bind_ok e1]
  simp only
  rw [Py.bind_ok e2]
  rfl

/-- `vector_potential_to_field(direct=False)` without clipping -/
theorem vectorPotentialToField_ok {g : Grid s} {f : Field s} (h : g.Holds (some f)) {w0 : ℝ} {w : RField s}
    (hw : LocalFrequency w0 g.t.pts f w) {B : ℝ} (hB : ∀ i j k, B ≤ w i j k ∧ w i j k ≤ 5 * B)
    (hne : ∃ i j k, f i j k ≠ 0) :
    ∃ g', vectorPotentialToField w0 g =
      (.ok fun i j k => I * me * w i j k * c * f i j k / e, g') ∧ g'.Holds (some f) := by
  obtain ⟨g1, e1, h1, hg1, ht1⟩ := h.getT
  obtain ⟨g2, v, e2, h2, -, -⟩ := LocalFrequency.freq h1 (by rw [ht1]; exact hw) hB hne
  refine ⟨g2, ?_, h2⟩
  unfold vectorPotentialToField
  rw [Py.bind_ok (Py.get_apply g), Py.bind_ok (Py.require_pos h.env g), Py.bind_ok e1, Py.bind_ok e2]
  rfl

omit [Phys] in
/-- two successive samples of a nowhere vanishing field that are not in exact opposition have unwrapped
phases that differ by less than `π` -/
theorem unwrap_step_lt {n : ℕ} (z : Fin n → ℂ) (hz : ∀ k, z k ≠ 0) (k : ℕ) (hk : k + 1 < n)
    (hopp : angle (z ⟨k + 1, hk⟩ / z ⟨k, by omega⟩) ≠ Real.pi) :
    |unwrap (fun k => angle (z k)) ⟨k + 1, hk⟩ - unwrap (fun k => angle (z k)) ⟨k, by omega⟩| < Real.pi := by
  refine lt_of_le_of_ne (unwrap_step _ k hk) ?_
  intro habs
  apply hopp
  have hpol : ∀ k, z k = ‖z k‖ * exp (I * (unwrap (fun k => angle (z k)) k : ℝ)) := by
    intro k
    rw [exp_unwrap, mul_comm I]
    exact (Complex.norm_mul_exp_arg_mul_I (z k)).symm
  set u1 := unwrap (fun k => angle (z k)) ⟨k + 1, hk⟩ with hu1
  set u0 := unwrap (fun k => angle (z k)) ⟨k, by omega⟩ with hu0
  have h1 := hpol ⟨k + 1, hk⟩
  have h0 := hpol ⟨k, by omega⟩
  rw [← hu1] at h1
  rw [← hu0] at h0
  have hq : z ⟨k + 1, hk⟩ / z ⟨k, by omega⟩ =
      ((-(‖z ⟨k + 1, hk⟩‖ / ‖z ⟨k, by omega⟩‖) : ℝ) : ℂ) := by
    have hexp : exp (I * ((u1 - u0 : ℝ) : ℂ)) = -1 := by
      rcases abs_eq (by linarith [Real.pi_pos] : (0 : ℝ) ≤ Real.pi) |>.mp habs with h | h
      · rw [h, mul_comm]; exact exp_pi_mul_I
      · rw [h]; push_cast; rw [mul_neg, exp_neg, mul_comm, exp_pi_mul_I]; norm_num
    rw [h1, h0, mul_div_mul_comm, ← exp_sub]
    rw [← mul_sub, ← ofReal_sub, hexp]
    simp only [norm_mul, Complex.norm_real, norm_norm, mul_comm I, Complex.norm_exp_ofReal_mul_I, mul_one]
    push_cast
    ring
  unfold angle
  rw [hq]
  apply Complex.arg_ofReal_of_neg
  have := norm_pos_iff.mpr (hz ⟨k + 1, hk⟩)
  have := norm_pos_iff.mpr (hz ⟨k, by omega⟩)
  have : 0 < ‖z ⟨k + 1, hk⟩‖ / ‖z ⟨k, by omega⟩‖ := by positivity
  linarith

omit [Phys] in
/-- the local frequency does not change when every sample is multiplied by `-i` and by a positive factor -/
theorem LocalFrequency.rotate {w0 : ℝ} {t : Fin s.nt → ℝ} (ht : Increasing t) {f a : Field s} {w : RField s}
    (hw : LocalFrequency w0 t f w) (hf : ∀ i j k, f i j k ≠ 0)
    (hopp : ∀ i j (k : ℕ) (hk : k + 1 < s.nt), angle (f i j ⟨k + 1, hk⟩ / f i j ⟨k, by omega⟩) ≠ Real.pi)
    (r : RField s) (hr : ∀ i j k, 0 < r i j k) (ha : ∀ i j k, a i j k = -I * r i j k * f i j k) :
    LocalFrequency w0 t a w := by
  intro i j
  rw [← hw i j]
  by_cases hn : 0 < s.nt
  swap
  · unfold gradient
    rw [dif_neg (by omega), dif_neg (by omega)]
  have hu := unwrap_unique (fun k => angle (a i j k))
    (fun k => unwrap (fun k => angle (f i j k)) k - Real.pi / 2)
    (by
      intro k
      apply angle_polar (A := r i j k * ‖f i j k‖) (mul_pos (hr i j k) (norm_pos_iff.mpr (hf i j k)))
      have h1 : exp (I * ((unwrap (fun k => angle (f i j k)) k - Real.pi / 2 : ℝ) : ℂ)) =
          -I * exp (I * (angle (f i j k) : ℝ)) := by
        push_cast
        rw [mul_sub, exp_sub, exp_unwrap (fun k => angle (f i j k)) k, mul_comm I (Real.pi / 2 : ℂ),
          exp_pi_div_two_mul_I, div_eq_iff I_ne_zero]
        linear_combination (exp (I * (angle (f i j k) : ℝ))) * I_sq
      rw [h1, ha]
      have h2 : (‖f i j k‖ : ℂ) * exp (I * (angle (f i j k) : ℝ)) = f i j k := by
        rw [mul_comm I]; exact Complex.norm_mul_exp_arg_mul_I _
      push_cast
      linear_combination (I * r i j k) * h2)
    (by
      intro k hk
      have := unwrap_step_lt (f i j) (hf i j) k hk (hopp i j k hk)
      rw [sub_sub_sub_cancel_right]
      exact this)
    hn
  rw [funext hu, ← gradient_add_const t ht (fun k => -unwrap (fun k => angle (f i j k)) k)
    (Real.pi / 2 - (angle (a i j ⟨0, hn⟩) - (unwrap (fun k => angle (f i j k)) ⟨0, hn⟩ - Real.pi / 2)))]
  congr 1
  funext k
  ring

/-- **C54** (the part that holds). Let `f` be an electric field envelope that vanishes at no sample, with no
two successive samples in exact opposition, whose local frequencies `w` lie within a factor 5 of each other
(so that nothing is clipped). Then `field_to_vector_potential` returns an array `a`, and
`vector_potential_to_field(direct=False)` on any grid with the same time axis that holds `a` returns `f`.
Missing: fields with samples that are exactly zero, for which the claim is false (`C54_refuted`). -/
theorem C54_roundtrip_partial {g : Grid s} {f : Field s} (h : g.Holds (some f)) {w0 : ℝ} {w : RField s}
    (ht : Increasing g.t.pts)
    (hw : LocalFrequency w0 g.t.pts f w) {B : ℝ} (hB0 : 0 < B)
    (hB : ∀ i j k, B ≤ w i j k ∧ w i j k ≤ 5 * B) (hne : 0 < s.n0 ∧ 0 < s.n1 ∧ 0 < s.nt)
    (hf : ∀ i j k, f i j k ≠ 0)
    (hopp : ∀ i j (k : ℕ) (hk : k + 1 < s.nt), angle (f i j ⟨k + 1, hk⟩ / f i j ⟨k, by omega⟩) ≠ Real.pi) :
    ∃ (a : Field s) (g' : Grid s), fieldToVectorPotential w0 g = (.ok a, g') ∧ g'.Holds (some f) ∧
      ∀ g1 : Grid s, g1.Holds (some a) → g1.t.pts = g.t.pts →
        ∃ g2, vectorPotentialToField w0 g1 = (.ok f, g2) ∧ g2.Holds (some a) := by
  have hx : ∃ i j k, f i j k ≠ 0 := ⟨⟨0, hne.1⟩, ⟨0, hne.2.1⟩, ⟨0, hne.2.2⟩, hf _ _ _⟩
  obtain ⟨g', e1, h'⟩ := fieldToVectorPotential_ok h hw hB hx
  refine ⟨_, g', e1, h', ?_⟩
  intro g1 h1 ht1
  have hwpos : ∀ i j k, 0 < w i j k := fun i j k => lt_of_lt_of_le hB0 (hB i j k).1
  have hrot := hw.rotate ht hf hopp (a := fun i j k => -I * e * f i j k / (me * w i j k * c))
    (fun i j k => e / (me * w i j k * c))
    (fun i j k => div_pos e_pos (mul_pos (mul_pos me_pos (hwpos i j k)) c_pos))
    (by intro i j k; push_cast; ring)
  have hnz : ∀ i j k, -I * (e : ℂ) * f i j k / (me * w i j k * c) ≠ 0 := by
    intro i j k
    have h1 : (e : ℂ) ≠ 0 := by exact_mod_cast e_pos.ne'
    have h2 : (me : ℂ) ≠ 0 := by exact_mod_cast me_pos.ne'
    have h3 : (c : ℂ) ≠ 0 := by exact_mod_cast c_pos.ne'
    have h4 : (w i j k : ℂ) ≠ 0 := by exact_mod_cast (hwpos i j k).ne'
    exact div_ne_zero (mul_ne_zero (mul_ne_zero (neg_ne_zero.mpr I_ne_zero) h1) (hf i j k))
      (mul_ne_zero (mul_ne_zero h2 h4) h3)
  obtain ⟨g2, e2, h2⟩ := vectorPotentialToField_ok h1 (by rw [ht1]; exact hrot) hB
    ⟨⟨0, hne.1⟩, ⟨0, hne.2.1⟩, ⟨0, hne.2.2⟩, hnz _ _ _⟩
  refine ⟨g2, ?_, h2⟩
  rw [e2]
  congr 2
  funext i j k
  have h1 : (e : ℂ) ≠ 0 := by exact_mod_cast e_pos.ne'
  have h2 : (me : ℂ) ≠ 0 := by exact_mod_cast me_pos.ne'
  have h3 : (c : ℂ) ≠ 0 := by exact_mod_cast c_pos.ne'
  have h4 : (w i j k : ℂ) ≠ 0 := by exact_mod_cast (hwpos i j k).ne'
  field_simp
  linear_combination (-f i j k) * I_sq

omit [Phys] in
/-- `np.gradient` of three samples at `0, 1, 2` -/
theorem gradient_three (f : Fin 3 → ℝ) (x : Fin 3 → ℝ) (hx : ∀ k, x k = (k : ℕ)) :
    gradient f x = .ok ![-(3 / 2) * f 0 + 2 * f 1 - 1 / 2 * f 2, 1 / 2 * f 2 - 1 / 2 * f 0,
      1 / 2 * f 0 - 2 * f 1 + 3 / 2 * f 2] := by
  unfold gradient
  rw [dif_pos (le_refl 3)]
  congr 1
  funext k
  fin_cases k
  · simp [hx]; norm_num; ring
  · simp [hx]; norm_num; ring
  · simp [hx]; norm_num; ring

omit [Phys] in
/-- `np.unwrap` leaves phases alone whose steps are smaller than `π` -/
theorem unwrap_id {n : ℕ} (p : Fin n → ℝ)
    (h : ∀ (k : ℕ) (hk : k + 1 < n), |p ⟨k + 1, hk⟩ - p ⟨k, by omega⟩| < Real.pi) : unwrap p = p := by
  funext k
  have := unwrap_unique p p (fun k => ⟨0, by simp⟩) h (Fin.pos k) k
  rw [this]; ring

/-- the time axis `0, 1, 2` -/
def axis012 : Axis 3 := { lo := 0, hi := 2, dx := 1, pts := fun k => (k : ℕ) }

/-- the axis `0, 1` -/
def axis01 : Axis 2 := { lo := 0, hi := 1, dx := 1, pts := fun k => (k : ℕ) }

omit [Phys] in
theorem axis012_increasing : Increasing axis012.pts := by
  intro k hk; simp [axis012]

/-- C54 is not vacuous -/
example : ∃ (g : Grid ⟨2, 2, 3⟩) (f a : Field ⟨2, 2, 3⟩) (g' : Grid ⟨2, 2, 3⟩), g.Holds (some f) ∧
    f 0 0 0 ≠ f 0 0 1 ∧ fieldToVectorPotential 10 g = (.ok a, g') ∧
    ∃ g1 g2 : Grid ⟨2, 2, 3⟩, g1.Holds (some a) ∧ vectorPotentialToField 10 g1 = (.ok f, g2) := by
  let f : Field ⟨2, 2, 3⟩ := fun _ _ k => ((k : ℕ) + 1 : ℝ)
  have hpos : ∀ k : Fin 3, (0 : ℝ) < (k : ℕ) + 1 := fun k => by positivity
  have hang : ∀ i j k, angle (f i j k) = 0 := fun i j k => by
    simp only [angle, f]; exact Complex.arg_ofReal_of_nonneg (hpos k).le
  have hg := Grid.holding_holds (s := ⟨2, 2, 3⟩) (.xyt axis01 axis01) axis012 f
  have hw : LocalFrequency 10 axis012.pts f (fun _ _ _ => 10) := by
    intro i j
    rw [funext (hang i j), unwrap_id _ (by intro k hk; simpa using Real.pi_pos)]
    have := gradient_affine axis012.pts (le_refl 3) axis012_increasing 0 0
    simpa using this
  obtain ⟨a, g', e1, -, h2⟩ := C54_roundtrip_partial hg axis012_increasing hw (B := 10) (by norm_num)
    (by intros; norm_num) (by simp)
    (by intro i j k; simp only [f]; exact_mod_cast (hpos k).ne')
    (by
      intro i j k hk
      have : f i j ⟨k + 1, hk⟩ / f i j ⟨k, by omega⟩ = (((k + 1 : ℕ) + 1 : ℝ) / ((k : ℕ) + 1 : ℝ) : ℝ) := by
        simp [f]
      rw [this, angle, Complex.arg_ofReal_of_nonneg (by positivity)]
      exact Real.pi_ne_zero.symm)
  obtain ⟨g2, e2, -⟩ := h2 _ (Grid.holding_holds (.xyt axis01 axis01) axis012 a) rfl
  exact ⟨_, f, a, g', hg, by simp [f], e1, _, g2, Grid.holding_holds _ _ _, e2⟩

/-- **C54 is false as stated**: for the envelope `(1, 1, 0)` in time no frequency is clipped, neither for the
field nor for its vector potential, yet the conversion back does not return the field. The phase of a zero
sample is taken to be `0`, while the vector potential of its neighbours has phase `-π/2`: its local
frequency near the zero is wrong. -/
theorem C54_refuted : ∃ (g : Grid ⟨2, 2, 3⟩) (f a b : Field ⟨2, 2, 3⟩) (w w' : RField ⟨2, 2, 3⟩)
    (g' g1 g2 : Grid ⟨2, 2, 3⟩),
    g.Holds (some f) ∧ Increasing g.t.pts ∧ g1.t = g.t ∧ g1.geom = g.geom ∧
    LocalFrequency 100 g.t.pts f w ∧ LocalFrequency 100 g.t.pts a w' ∧
    (∀ i j k, 90 ≤ w i j k ∧ w i j k ≤ 5 * 90) ∧ (∀ i j k, 90 ≤ w' i j k ∧ w' i j k ≤ 5 * 90) ∧
    fieldToVectorPotential 100 g = (.ok a, g') ∧ g1.Holds (some a) ∧
    vectorPotentialToField 100 g1 = (.ok b, g2) ∧ b ≠ f := by
  let f : Field ⟨2, 2, 3⟩ := fun _ _ k => if (k : ℕ) = 2 then 0 else 1
  let a : Field ⟨2, 2, 3⟩ := fun i j k => -I * e * f i j k / (me * (100 : ℝ) * c)
  have hpi := Real.pi_pos
  have hpi4 := Real.pi_le_four
  have hang : ∀ i j k, angle (f i j k) = 0 := fun i j k => by
    simp only [angle, f]; split <;> simp
  have hanga : ∀ i j, (fun k => angle (a i j k)) = ![-(Real.pi / 2), -(Real.pi / 2), 0] := by
    intro i j
    have hneg : ∀ r : ℝ, 0 < r → angle (-I * r) = -(Real.pi / 2) := by
      intro r hr
      have h1 : (-I * r : ℂ) = (r : ℂ) * (-I) := by ring
      unfold angle
      rw [h1, Complex.arg_real_mul _ hr, Complex.arg_neg_I]
    have hval : (-I * e * 1 / (me * (100 : ℝ) * c) : ℂ) = -I * ((e / (me * 100 * c) : ℝ) : ℂ) := by
      push_cast; ring
    have hp : (0 : ℝ) < e / (me * 100 * c) :=
      div_pos e_pos (mul_pos (mul_pos me_pos (by norm_num)) c_pos)
    funext k
    fin_cases k
    · show angle (-I * e * 1 / (me * (100 : ℝ) * c)) = _
      rw [hval, hneg _ hp]; rfl
    · show angle (-I * e * 1 / (me * (100 : ℝ) * c)) = _
      rw [hval, hneg _ hp]; rfl
    · show angle (-I * e * 0 / (me * (100 : ℝ) * c)) = _
      simp [angle]
  have hw : LocalFrequency 100 axis012.pts f (fun _ _ _ => 100) := by
    intro i j
    rw [funext (hang i j), unwrap_id _ (by intro k hk; simpa using hpi)]
    have := gradient_affine axis012.pts (le_refl 3) axis012_increasing 0 0
    simpa using this
  have hw' : LocalFrequency 100 axis012.pts a
      (fun _ _ => ![100 + Real.pi / 4, 100 - Real.pi / 4, 100 - 3 * Real.pi / 4]) := by
    intro i j
    rw [hanga i j, unwrap_id _ (by
      intro k hk
      have : k = 0 ∨ k = 1 := by simp only at hk; omega
      rcases this with rfl | rfl
      · simpa using hpi
      · simp only [Nat.reduceAdd]
        show |(0 : ℝ) - -(Real.pi / 2)| < Real.pi
        rw [abs_lt]; constructor <;> linarith)]
    rw [gradient_three _ axis012.pts (fun k => rfl)]
    congr 1
    funext k
    fin_cases k
    · simp; ring
    · simp; ring
    · simp; ring
  have hB : ∀ (i j : Fin 2) (k : Fin 3), (90 : ℝ) ≤ (fun _ _ _ => 100 : RField ⟨2, 2, 3⟩) i j k ∧
      (fun _ _ _ => 100 : RField ⟨2, 2, 3⟩) i j k ≤ 5 * 90 := by intros; norm_num
  have hB' : ∀ (i j : Fin 2) (k : Fin 3), (90 : ℝ) ≤
      (![100 + Real.pi / 4, 100 - Real.pi / 4, 100 - 3 * Real.pi / 4] : Fin 3 → ℝ) k ∧
      (![100 + Real.pi / 4, 100 - Real.pi / 4, 100 - 3 * Real.pi / 4] : Fin 3 → ℝ) k ≤ 5 * 90 := by
    intro i j k
    fin_cases k
    · simp; constructor <;> linarith
    · simp; constructor <;> linarith
    · simp; constructor <;> linarith
  have he : (e : ℂ) ≠ 0 := by exact_mod_cast e_pos.ne'
  have hm : (me : ℂ) ≠ 0 := by exact_mod_cast me_pos.ne'
  have hc : (c : ℂ) ≠ 0 := by exact_mod_cast c_pos.ne'
  obtain ⟨g', e1, -⟩ := fieldToVectorPotential_ok
    (Grid.holding_holds (s := ⟨2, 2, 3⟩) (.xyt axis01 axis01) axis012 f) hw hB ⟨0, 0, 0, by simp [f]⟩
  obtain ⟨g2, e2, -⟩ := vectorPotentialToField_ok
    (Grid.holding_holds (s := ⟨2, 2, 3⟩) (.xyt axis01 axis01) axis012 a) hw' hB' ⟨0, 0, 0, by
      simp [a, f, he, hm, hc]⟩
  refine ⟨Grid.holding (.xyt axis01 axis01) axis012 f, f, a, _, _, _, g',
    Grid.holding (.xyt axis01 axis01) axis012 a, g2, Grid.holding_holds .., axis012_increasing, rfl, rfl, hw, hw', hB, hB',
    e1, Grid.holding_holds .., e2, ?_⟩
  intro h
  have := congrFun (congrFun (congrFun h 0) 0) 0
  simp only [a, f, Fin.val_zero, OfNat.zero_ne_ofNat, if_false, Matrix.cons_val_zero] at this
  have h2 : ((100 + Real.pi / 4 : ℝ) : ℂ) = ((100 : ℝ) : ℂ) := by
    field_simp at this
    push_cast at this ⊢
    linear_combination this + (100 + Real.pi / 4) * I_sq
  have h3 : (100 + Real.pi / 4 : ℝ) = 100 := by exact_mod_cast h2
  linarith

end Lasy
