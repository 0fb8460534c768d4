import Verif.Lemmas.Sampling
import Verif.Props.PulseDuration
import Verif.Props.Chirp

/-!
# Property C142: an optical element acts on the grid as the filter does on the pulse
-/

namespace Lasy
open Spec Phys Complex MeasureTheory

variable [Phys] {s : Shape}

/-- the multiplier of the element `el` at the cell `(i, j)`, as a function of the distance `Ω = ω - ω0` from the carrier
frequency of the profile -/
noncomputable def cellFilter (l : Laser s) (el : OpticalElement) (i : Fin s.n0) (j : Fin s.n1) (W : ℝ) : ℂ :=
  match l.grid.geom with
  | .xyt x y => el.mult (x.pts i) (y.pts j) (l.profile.omega0 + W) l.profile.omega0
  | .rt _ _ r => el.mult (r.pts j) 0 (l.profile.omega0 + W) l.profile.omega0

/-- the axis of time of a new laser: its spacing and its points -/
theorem init_time_step {dim : String} {lo hi : List ℝ} {np : List ℕ} {p : ProfileObj} {m N : Option ℕ} {l : Laser s}
    (h : Laser.init dim lo hi np p m N = .ok ⟨s, l⟩) {a b : ℝ} (ha : lo.getLast? = some a) (hb : hi.getLast? = some b) :
    2 ≤ s.nt ∧ l.grid.t.dx = (b - a) / ((s.nt : ℝ) - 1) ∧ ∀ k, l.grid.t.pts k = a + (k : ℕ) * l.grid.t.dx := by
  have hp := init_time_axis h ha hb
  obtain ⟨g, f, hg, -, -, ht, -⟩ := Laser.init_facts h
  obtain ⟨-, -, -, -, hc⟩ := Grid.init_ok hg
  have : ∃ a' b' : ℝ, mkAxis a' b' s.nt = .ok l.grid.t := by
    rcases hc with ⟨l0, l1, u0, u1, m', r, t, rest, e1, e2, e3, e4, e5, e6, e7, e8, hm, e9⟩ |
      ⟨l0, l1, l2, u0, u1, u2, x, y, t, e1, e2, e3, e4, e5, e6, e7, e8, e9⟩
    · exact ⟨_, _, by rw [ht, e8]; exact e7⟩
    · exact ⟨_, _, by rw [ht, e8]; exact e7⟩
  obtain ⟨a', b', hab⟩ := this
  obtain ⟨h2, hax⟩ := mkAxis_ok hab
  have hdx : l.grid.t.dx = l.grid.t.pts ⟨1, h2⟩ - l.grid.t.pts ⟨0, by omega⟩ := by rw [hax]
  have h1 : ((s.nt : ℝ) - 1) ≠ 0 := by
    have : (2 : ℝ) ≤ s.nt := by exact_mod_cast h2
    linarith
  have hl : ∀ k, l.grid.t.pts k = a + (k : ℕ) * ((b - a) / ((s.nt : ℝ) - 1)) := by
    intro k
    rw [hp]
    rfl
  have hd : l.grid.t.dx = (b - a) / ((s.nt : ℝ) - 1) := by
    rw [hdx, hl, hl]
    push_cast
    ring
  exact ⟨h2, hd, fun k => by rw [hl, hd]⟩

/-- **C142.** An optical element acts on the samples as the filter acts on the pulse. On a new laser in the window
`[t0 - W, t0 + W]`, at a cell where the field holds the samples of the pulse with the spectrum `S`, `apply_optics(el)` leaves the
samples of the pulse with the spectrum `T S`, `T` the multiplier of the element at that cell, up to a mean square error with an
explicit bound: one term from the pulses that wrap around the window of the discrete transform and one from the frequencies that
the axis aliases. -/
theorem C142_filter {dim : String} {lo hi : List ℝ} {np : List ℕ} {p : ProfileObj} {m N : Option ℕ} {l : Laser s}
    (h : Laser.init dim lo hi np p m N = .ok ⟨s, l⟩) {t0 W : ℝ} (hW : 0 < W) (ha : lo.getLast? = some (t0 - W))
    (hb : hi.getLast? = some (t0 + W)) {f : Field s} (hf : l.Has f) (el : OpticalElement) :
    ∃ (l' : Laser s) (f' : Field s), Laser.applyOptics el l = (.ok (), l') ∧ l'.Has f' ∧
      ∀ (i : Fin s.n0) (j : Fin s.n1) (S : ℝ → ℂ) (M C1 C2 C3 : ℝ) (q : ℕ), 2 ≤ q →
        (∀ k, f i j k = pulse S (l.grid.t.pts k)) →
        Continuous S → Continuous (fun w => cellFilter l el i j w * S w) → (∀ w, ‖cellFilter l el i j w‖ ≤ M) →
        Localised S 0 C1 q → Localised (pulse S) t0 C2 q → Localised (pulse fun w => cellFilter l el i j w * S w) t0 C3 q →
        l.grid.t.dx * ∑ k, ‖f' i j k - pulse (fun w => cellFilter l el i j w * S w) (l.grid.t.pts k)‖ ^ 2 ≤
          3 * zeta2 ^ 2 * ((M ^ 2 * C2 ^ 2 + C3 ^ 2) * (s.nt * l.grid.t.dx) * ((2 / (s.nt * l.grid.t.dx)) ^ q) ^ 2 +
            4 * M ^ 2 * C1 ^ 2 / l.grid.t.dx * ((l.grid.t.dx / Real.pi) ^ q) ^ 2) := by
  obtain ⟨h2, hd, hpts⟩ := init_time_step h ha hb
  obtain ⟨-, -, -, -, -, -, -, -, -, hom⟩ := Laser.init_facts h
  obtain ⟨l', e, h', -⟩ := C19_apply_optics l f hf el
  refine ⟨l', _, e, h', fun i j S M C1 C2 C3 q hq hfi hc hc' hM hS hE hE' => ?_⟩
  have hn : (2 : ℝ) ≤ s.nt := by exact_mod_cast h2
  have hdx : l.grid.t.dx * ((s.nt : ℝ) - 1) = 2 * W := by
    rw [hd, div_mul_cancel₀ _ (by linarith)]; ring
  have hpos : 0 < l.grid.t.dx := by
    rw [hd]
    exact div_pos (by linarith) (by linarith)
  have hT : ∀ k, Tat l el i j k = cellFilter l el i j (2 * Real.pi * fftfreq s.nt l.grid.t.dx k) := by
    intro k
    simp only [Tat, cellFilter, hom]
    cases l.grid.geom <;> simp only [add_comm]
  have key := filter_error hc hc' hM hq hS hE hE' hpos (N := s.nt) (by omega) (t0 - W) (fun k => by
    have hk : ((k : ℕ) : ℝ) ≤ s.nt - 1 := by
      have : (k : ℕ) + 1 ≤ s.nt := k.2
      have : ((k : ℕ) : ℝ) + 1 ≤ s.nt := by exact_mod_cast this
      linarith
    have hk0 : (0 : ℝ) ≤ (k : ℕ) := Nat.cast_nonneg _
    rw [abs_le]
    constructor <;> nlinarith)
  refine le_trans (le_of_eq ?_) key
  congr 1
  refine Finset.sum_congr rfl fun k _ => ?_
  rw [hpts, dft_eq, idft_eq]
  simp only [hT]
  rw [show f i j = fun k : Fin s.nt => pulse S (t0 - W + (k : ℕ) * l.grid.t.dx) from funext fun k => by rw [hfi, hpts]]

omit [Phys] in
/-- the bound of `C142_filter` in a window of half width `W` and with steps `dt` -/
theorem filter_bound {A B W P dt : ℝ} (hA : 0 ≤ A) (hB : 0 ≤ B) (hW : 0 < W) (hP : 2 * W ≤ P) (hdt : 0 < dt) {q : ℕ} (hq : 1 ≤ q) :
    A * P * ((2 / P) ^ q) ^ 2 + B / dt * ((dt / Real.pi) ^ q) ^ 2 ≤ 2 * A / W ^ (2 * q - 1) + B * dt ^ (2 * q - 1) := by
  have hP0 : 0 < P := by linarith
  obtain ⟨r, rfl⟩ : ∃ r, q = r + 1 := ⟨q - 1, by omega⟩
  have e : 2 * (r + 1) - 1 = 2 * r + 1 := by omega
  rw [e]
  refine add_le_add ?_ ?_
  · have h1 : P * ((2 / P) ^ (r + 1)) ^ 2 = 2 * (2 / P) ^ (2 * r + 1) := by
      rw [← pow_mul, show (r + 1) * 2 = 2 * r + 1 + 1 by ring, pow_succ]
      field_simp
    have h2 : (2 / P) ^ (2 * r + 1) ≤ (1 / W) ^ (2 * r + 1) := by
      refine pow_le_pow_left₀ (by positivity) ?_ _
      rw [div_le_div_iff₀ hP0 hW]
      linarith
    rw [mul_assoc, h1, div_eq_mul_one_div (2 * A), ← one_div_pow]
    nlinarith
  · have h1 : ((dt / Real.pi) ^ (r + 1)) ^ 2 ≤ (dt ^ (r + 1)) ^ 2 := by
      refine pow_le_pow_left₀ (by positivity) (pow_le_pow_left₀ (by positivity) ?_ _) _
      exact div_le_self hdt.le (by linarith [Real.two_le_pi])
    calc B / dt * ((dt / Real.pi) ^ (r + 1)) ^ 2 ≤ B / dt * (dt ^ (r + 1)) ^ 2 :=
          mul_le_mul_of_nonneg_left h1 (by positivity)
      _ = B * dt ^ (2 * r + 1) := by
          rw [← pow_mul, show (r + 1) * 2 = 2 * r + 1 + 1 by ring, pow_succ]
          field_simp

omit [Phys] in
/-- the steps of fine axes are small -/
theorem step_tendsto (W : ℝ) (K : ℝ) (r : ℕ) (hr : r ≠ 0) :
    Filter.Tendsto (fun n : ℕ => K * (2 * W / ((n : ℝ) - 1)) ^ r) Filter.atTop (nhds 0) := by
  have h1 : Filter.Tendsto (fun n : ℕ => ((n : ℝ) - 1)) Filter.atTop Filter.atTop :=
    Filter.tendsto_atTop_add_const_right _ _ tendsto_natCast_atTop_atTop
  have h2 := ((h1.const_div_atTop (2 * W)).pow r).const_mul K
  rwa [zero_pow hr, mul_zero] at h2

/-- **C142** (large windows, fine axes). For every `ε`, in every window around `t0` that is large enough and with enough points in
time, the mean square difference is at most `ε`: after `apply_optics` the field holds the samples of the filtered pulse, and
neither the periodicity of the discrete transform in time nor the aliasing of the frequencies shows. The number of points
depends on the bounds of the pulse, of its spectrum and of the element only. -/
theorem C142_converges (S : ℝ → ℂ) (hc : Continuous S) (t0 M C1 C2 C3 : ℝ) (hS : Localised S 0 C1 2)
    (hE : Localised (pulse S) t0 C2 2) {ε : ℝ} (hε : 0 < ε) :
    ∃ W0 : ℝ, 0 < W0 ∧ ∀ W ≥ W0, ∃ n : ℕ,
    ∀ {s : Shape} {dim : String} {lo hi : List ℝ} {np : List ℕ} {p : ProfileObj} {m N : Option ℕ} {l : Laser s} {f : Field s}
      (el : OpticalElement), Laser.init dim lo hi np p m N = .ok ⟨s, l⟩ → lo.getLast? = some (t0 - W) →
      hi.getLast? = some (t0 + W) → n ≤ s.nt → l.Has f →
      ∃ (l' : Laser s) (f' : Field s), Laser.applyOptics el l = (.ok (), l') ∧ l'.Has f' ∧
      ∀ (i : Fin s.n0) (j : Fin s.n1), (∀ k, f i j k = pulse S (l.grid.t.pts k)) →
        Continuous (fun w => cellFilter l el i j w * S w) → (∀ w, ‖cellFilter l el i j w‖ ≤ M) →
        Localised (pulse fun w => cellFilter l el i j w * S w) t0 C3 2 →
        l.grid.t.dx * ∑ k, ‖f' i j k - pulse (fun w => cellFilter l el i j w * S w) (l.grid.t.pts k)‖ ^ 2 ≤ ε := by
  set A : ℝ := 3 * zeta2 ^ 2 * (M ^ 2 * C2 ^ 2 + C3 ^ 2) with hA
  set B : ℝ := 3 * zeta2 ^ 2 * (4 * M ^ 2 * C1 ^ 2) with hB
  have hA0 : 0 ≤ A := by positivity
  have hB0 : 0 ≤ B := by positivity
  refine ⟨max 1 (4 * A / ε), by positivity, fun W hW => ?_⟩
  have hW1 : 1 ≤ W := (le_max_left _ _).trans hW
  have hW2 : 4 * A / ε ≤ W := (le_max_right _ _).trans hW
  have hW0 : 0 < W := by linarith
  obtain ⟨n, hn⟩ := Filter.eventually_atTop.1 ((step_tendsto W B 3 (by norm_num)).eventually (gt_mem_nhds (half_pos hε)))
  refine ⟨n, fun {s dim lo hi np p m N l f} el h ha hb hs hf => ?_⟩
  obtain ⟨l', f', e, h', key⟩ := C142_filter h hW0 ha hb hf el
  refine ⟨l', f', e, h', fun i j hfi hc' hM hE' => (key i j S M C1 C2 C3 2 le_rfl hfi hc hc' hM hS hE hE').trans ?_⟩
  obtain ⟨h2, hd, hpts⟩ := init_time_step h ha hb
  have hn2 : (2 : ℝ) ≤ s.nt := by exact_mod_cast h2
  have hd' : l.grid.t.dx = 2 * W / ((s.nt : ℝ) - 1) := by rw [hd]; ring
  have hpos : 0 < l.grid.t.dx := by
    rw [hd']
    exact div_pos (by linarith) (by linarith)
  have hP : 2 * W ≤ s.nt * l.grid.t.dx := by
    have : l.grid.t.dx * ((s.nt : ℝ) - 1) = 2 * W := by
      rw [hd', div_mul_cancel₀ _ (by linarith)]
    nlinarith
  have hfin := filter_bound hA0 hB0 hW0 hP hpos (q := 2) (by norm_num)
  have hstep := hn s.nt hs
  rw [← hd'] at hstep
  have h1 : 2 * A / W ^ (2 * 2 - 1) ≤ ε / 2 := by
    rw [div_le_iff₀ (by positivity)]
    rw [div_le_iff₀ hε] at hW2
    have : W ≤ W ^ 3 := by nlinarith [sq_nonneg (W - 1), sq_nonneg W]
    norm_num
    nlinarith
  norm_num at hfin h1
  rw [hA, hB] at hfin
  rw [hB] at hstep
  refine le_trans (le_of_eq ?_) (hfin.trans (by linarith))
  ring

end Lasy
