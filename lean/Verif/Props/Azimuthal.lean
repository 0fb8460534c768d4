import Verif.Props.LaserInit
import Verif.Props.LaguerreOrtho
import Verif.Props.Optics
import Mathlib.Data.ZMod.Basic

/-!
# Properties C122, C123, C124: what the azimuthal modes of a new `rt` laser say about the profile

C122: the energy is the energy of the profile, averaged over the angles. C123: a rotated profile has the same modes up
to a phase. C124: symmetries of the profile show in the modes.
-/

namespace Lasy
open Spec Phys Complex

/-! ## Sums over all angles -/

/-- a sum over a period does not change if the terms are shifted -/
theorem sum_period_shift {N : ℕ} (hN : N ≠ 0) (h : ℤ → ℂ) (hp : ∀ a b : ℤ, (N : ℤ) ∣ a - b → h a = h b) (a : ℤ) :
    ∑ q : Fin N, h ((q : ℕ) - a) = ∑ q : Fin N, h (q : ℕ) := by
  obtain ⟨k, rfl⟩ := Nat.exists_eq_succ_of_ne_zero hN
  change ∑ q : ZMod (k + 1), h ((q.val : ℕ) - a) = ∑ q : ZMod (k + 1), h (q.val : ℕ)
  rw [← Equiv.sum_comp (Equiv.subRight ((a : ℤ) : ZMod (k + 1))) fun q : ZMod (k + 1) => h (q.val : ℕ)]
  refine Finset.sum_congr rfl fun q _ => hp _ _ ?_
  rw [← ZMod.intCast_eq_intCast_iff_dvd_sub]
  simp

/-- nor if they are run through backwards -/
theorem sum_period_neg {N : ℕ} (hN : N ≠ 0) (h : ℤ → ℂ) (hp : ∀ a b : ℤ, (N : ℤ) ∣ a - b → h a = h b) :
    ∑ q : Fin N, h (-((q : ℕ) : ℤ)) = ∑ q : Fin N, h (q : ℕ) := by
  obtain ⟨k, rfl⟩ := Nat.exists_eq_succ_of_ne_zero hN
  change ∑ q : ZMod (k + 1), h (-((q.val : ℕ) : ℤ)) = ∑ q : ZMod (k + 1), h (q.val : ℕ)
  rw [← Equiv.sum_comp (Equiv.neg (ZMod (k + 1))) fun q : ZMod (k + 1) => h (q.val : ℕ)]
  refine Finset.sum_congr rfl fun q _ => hp _ _ ?_
  rw [← ZMod.intCast_eq_intCast_iff_dvd_sub]
  simp

/-- the profile in polar coordinates at the angle number `q` of `N` -/
noncomputable def atAngle (F : ℝ → ℝ → ℝ → ℂ) (N : ℕ) (r t : ℝ) (q : ℤ) : ℂ :=
  F (r * Real.cos (2 * Real.pi * q / N)) (r * Real.sin (2 * Real.pi * q / N)) t

theorem atAngle_periodic (F : ℝ → ℝ → ℝ → ℂ) {N : ℕ} (hN : N ≠ 0) (r t : ℝ) {a b : ℤ} (h : (N : ℤ) ∣ a - b) :
    atAngle F N r t a = atAngle F N r t b := by
  obtain ⟨z, hz⟩ := h
  have hN' : (N : ℝ) ≠ 0 := by exact_mod_cast hN
  have e : 2 * Real.pi * (a : ℝ) / N = 2 * Real.pi * (b : ℝ) / N + z * (2 * Real.pi) := by
    have : (a : ℝ) = b + N * z := by
      have : (a : ℤ) = b + N * z := by omega
      exact_mod_cast this
    rw [this]
    field_simp
  unfold atAngle
  rw [e, Real.cos_add_int_mul_two_pi, Real.sin_add_int_mul_two_pi]

/-- the modes in closed form: the discrete Fourier coefficients over the `N` angles -/
theorem sampledRT_eq (p : ProfileObj) (F : ℝ → ℝ → ℝ → ℂ) (hF : p.Pointwise F) (n N : ℕ) (h : 2 * n - 1 ≤ N)
    (hn : 1 ≤ n) {nr nt : ℕ} (r : Fin nr → ℝ) (t : Fin nt → ℝ) (i : Fin (2 * n - 1)) (j : Fin nr) (k : Fin nt) :
    sampledRT p n N h hn r t i j k =
      (∑ q : Fin N, atAngle F N (r j) (t k) (q : ℕ) * chr N (modeAt n i * (q : ℕ))) / N := by
  have hN : N ≠ 0 := by omega
  simp only [sampledRT, Laser.sampleTheta]
  rw [ifft_eq_chr]
  congr 1
  refine Finset.sum_congr rfl fun q _ => ?_
  rw [hF]
  congr 1
  · unfold atAngle
    rw [show 2 * Real.pi / (N : ℝ) * ((q : ℕ) : ℝ) = 2 * Real.pi * (((q : ℕ) : ℤ) : ℝ) / N by push_cast; ring]
  · refine chr_periodic hN ?_
    have := Dvd.dvd.mul_right (pickModes_dvd n N h hn i) ((q : ℕ) : ℤ)
    rwa [sub_mul] at this

variable [Phys]

/-! ## C122: energy -/

/-- the grid of a laser built in `rt` geometry -/
theorem init_rt_volume {lo0 lo1 hi0 hi1 : ℝ} {nr nt n : ℕ} {p : ProfileObj} {nT : Option ℕ}
    {l : Laser ⟨2 * n - 1, nr, nt⟩} (h : Laser.init "rt" [lo0, lo1] [hi0, hi1] [nr, nt] p (some n) nT = .ok ⟨_, l⟩) (j : Fin nr) :
    l.grid.cellVolume j =
      2 * Real.pi * linspace lo0 hi0 nr j * ((hi0 - lo0) / (nr - 1)) * (c * ((hi1 - lo1) / (nt - 1))) := by
  obtain ⟨g, f, hg, -, hgeo, ht, -⟩ := Laser.init_facts h
  obtain ⟨-, -, -, -, hc⟩ := Grid.init_ok hg
  rcases hc with ⟨l0, l1, u0, u1, m', r, t, rest, e1, e2, e3, e4, e5, e6, e7, e8, hm, e9⟩ |
    ⟨l0, l1, l2, u0, u1, u2, x, y, t, e1, -⟩
  swap
  · exact absurd e1 (by decide)
  simp only [List.cons.injEq, and_true] at e2 e3
  obtain ⟨rfl, rfl⟩ := e2
  obtain ⟨rfl, rfl⟩ := e3
  obtain ⟨hr2, hr⟩ := mkAxis_ok e6
  obtain ⟨ht2, ht'⟩ := mkAxis_ok e7
  have hrd : r.dx = (hi0 - lo0) / ((nr : ℝ) - 1) := by rw [hr]; simp [linspace]
  have htd : g.t.dx = (hi1 - lo1) / ((nt : ℝ) - 1) := by rw [e8, ht']; simp [linspace]
  have hpt : r.pts = linspace lo0 hi0 nr := by rw [hr]
  simp only [Grid.cellVolume, hgeo, ht, e9, cellVolumeRT, hrd, htd, hpt]
  ring

/-- **C122.** With the default number of angles `N = 2n-1`, the energy of a laser built in `rt` geometry is the sum over the
cells `(r_j, t_k)` of volume `2π r dr · c dt` of `ε₀/2` times the mean of `|E|²` over the `N` angles, for every profile. -/
theorem C122_angular_mean (lo0 lo1 hi0 hi1 : ℝ) (nr nt n : ℕ) (h0 : 2 ≤ nr) (h1 : 2 ≤ nt) (hn : 1 ≤ n) (p : ProfileObj)
    (hp : p.laserEnergy = none) (F : ℝ → ℝ → ℝ → ℂ) (hF : p.Pointwise F) :
    ∃ l : Laser ⟨2 * n - 1, nr, nt⟩, Laser.init "rt" [lo0, lo1] [hi0, hi1] [nr, nt] p (some n) none = .ok ⟨_, l⟩ ∧
      l.energy = .ok (eps0 / 2 * ∑ j : Fin nr, ∑ k : Fin nt,
        2 * Real.pi * linspace lo0 hi0 nr j * ((hi0 - lo0) / (nr - 1)) * (c * ((hi1 - lo1) / (nt - 1))) *
          ((∑ q : Fin (2 * n - 1), ‖F (linspace lo0 hi0 nr j * Real.cos (2 * Real.pi * (q : ℕ) / (2 * n - 1 : ℕ)))
            (linspace lo0 hi0 nr j * Real.sin (2 * Real.pi * (q : ℕ) / (2 * n - 1 : ℕ))) (linspace lo1 hi1 nt k)‖ ^ 2) /
              (2 * n - 1 : ℕ))) := by
  obtain ⟨l, hl, hhas⟩ := Laser.init_rt lo0 lo1 hi0 hi1 nr nt n _ h0 h1 hn le_rfl p hp none rfl
  refine ⟨l, hl, ?_⟩
  rw [hhas.energy]
  congr 2
  rw [Finset.sum_comm]
  refine Finset.sum_congr rfl fun j _ => ?_
  rw [Finset.sum_comm]
  refine Finset.sum_congr rfl fun k _ => ?_
  rw [← Finset.mul_sum, init_rt_volume hl]
  congr 1
  have hN : ((2 * n - 1 : ℕ) : ℝ) ≠ 0 := by
    have : 2 * n - 1 ≠ 0 := by omega
    exact_mod_cast this
  have hpick : ∀ i : Fin (2 * n - 1), Laser.pickModes n (2 * n - 1) le_rfl hn i = i := by
    intro i
    have hi := i.2
    unfold Laser.pickModes
    by_cases hlt : (i : ℕ) < n
    · simp [hlt]
    · simp only [hlt, dif_neg, not_false_eq_true]
      ext
      simp only
      omega
  rw [eq_div_iff hN, mul_comm]
  simp only [sampledRT, hpick]
  rw [← parseval_ifft]
  refine Finset.sum_congr rfl fun q _ => ?_
  simp only [Laser.sampleTheta]
  rw [hF, show 2 * Real.pi / ((2 * n - 1 : ℕ) : ℝ) * ((q : ℕ) : ℝ) =
    2 * Real.pi * ((q : ℕ) : ℝ) / ((2 * n - 1 : ℕ) : ℝ) by ring]

/-- **C122** (more angles). With any number `N ≥ 2n-1` of angles the laser has at most that energy: only `2n-1` of the `N`
components are kept. -/
theorem C122_angular_bound (lo0 lo1 hi0 hi1 : ℝ) (nr nt n N : ℕ) (h0 : 2 ≤ nr) (h1 : 2 ≤ nt) (hn : 1 ≤ n)
    (hN : 2 * n - 1 ≤ N) (hlo : 0 ≤ lo0) (hr : lo0 ≤ hi0) (ht : lo1 ≤ hi1) (p : ProfileObj)
    (hp : p.laserEnergy = none) (F : ℝ → ℝ → ℝ → ℂ) (hF : p.Pointwise F) :
    ∃ (l : Laser ⟨2 * n - 1, nr, nt⟩) (E : ℝ),
      Laser.init "rt" [lo0, lo1] [hi0, hi1] [nr, nt] p (some n) (some N) = .ok ⟨_, l⟩ ∧ l.energy = .ok E ∧
      E ≤ eps0 / 2 * ∑ j : Fin nr, ∑ k : Fin nt,
        2 * Real.pi * linspace lo0 hi0 nr j * ((hi0 - lo0) / (nr - 1)) * (c * ((hi1 - lo1) / (nt - 1))) *
          ((∑ q : Fin N, ‖F (linspace lo0 hi0 nr j * Real.cos (2 * Real.pi * (q : ℕ) / N))
            (linspace lo0 hi0 nr j * Real.sin (2 * Real.pi * (q : ℕ) / N)) (linspace lo1 hi1 nt k)‖ ^ 2) / N) := by
  obtain ⟨l, hl, hhas⟩ := Laser.init_rt lo0 lo1 hi0 hi1 nr nt n N h0 h1 hn hN p hp (some N) rfl
  refine ⟨l, _, hl, hhas.energy, ?_⟩
  refine mul_le_mul_of_nonneg_left ?_ (by have := eps0_pos; positivity)
  rw [Finset.sum_comm]
  refine Finset.sum_le_sum fun j _ => ?_
  rw [Finset.sum_comm]
  refine Finset.sum_le_sum fun k _ => ?_
  rw [← Finset.mul_sum, init_rt_volume hl]
  have hnr : (0 : ℝ) < (nr : ℝ) - 1 := by
    have : (2 : ℝ) ≤ nr := by exact_mod_cast h0
    linarith
  have hnt : (0 : ℝ) < (nt : ℝ) - 1 := by
    have : (2 : ℝ) ≤ nt := by exact_mod_cast h1
    linarith
  have hrj : 0 ≤ linspace lo0 hi0 nr j := by
    simp only [linspace]
    have : 0 ≤ ((j : ℕ) : ℝ) * ((hi0 - lo0) / ((nr : ℝ) - 1)) :=
      mul_nonneg (Nat.cast_nonneg _) (div_nonneg (by linarith) hnr.le)
    linarith
  have hc := c_pos
  have hpi := Real.pi_pos
  refine mul_le_mul_of_nonneg_left ?_ (mul_nonneg (mul_nonneg (by positivity) (div_nonneg (by linarith) hnr.le))
    (mul_nonneg hc.le (div_nonneg (by linarith) hnt.le)))
  have hN0 : (0 : ℝ) < N := by
    have : 0 < N := by omega
    exact_mod_cast this
  rw [le_div_iff₀ hN0, mul_comm]
  have e : ∑ q : Fin N, ‖F (linspace lo0 hi0 nr j * Real.cos (2 * Real.pi * (q : ℕ) / N))
            (linspace lo0 hi0 nr j * Real.sin (2 * Real.pi * (q : ℕ) / N)) (linspace lo1 hi1 nt k)‖ ^ 2 =
      N * ∑ κ : Fin N, ‖ifft (fun q => Laser.sampleTheta p N (linspace lo0 hi0 nr) (linspace lo1 hi1 nt) q j k) κ‖ ^ 2 := by
    rw [← parseval_ifft]
    refine Finset.sum_congr rfl fun q _ => ?_
    simp only [Laser.sampleTheta]
    rw [hF, show 2 * Real.pi / (N : ℝ) * ((q : ℕ) : ℝ) = 2 * Real.pi * ((q : ℕ) : ℝ) / (N : ℝ) by ring]
  rw [e]
  refine mul_le_mul_of_nonneg_left ?_ hN0.le
  have hinj : Function.Injective (Laser.pickModes n N hN hn) := by
    intro a b hab
    have ha := a.2
    have hb := b.2
    unfold Laser.pickModes at hab
    ext
    split at hab <;> split at hab <;> (have := congrArg Fin.val hab; simp only at this; omega)
  simp only [sampledRT]
  rw [← Finset.sum_image (s := Finset.univ) (g := Laser.pickModes n N hN hn) (fun a _ b _ h => hinj h)
    (f := fun κ => ‖ifft (fun q => Laser.sampleTheta p N (linspace lo0 hi0 nr) (linspace lo1 hi1 nt) q j k) κ‖ ^ 2)]
  exact Finset.sum_le_sum_of_subset_of_nonneg (Finset.subset_univ _) fun _ _ _ => by positivity

omit [Phys] in
/-- Parseval on the circle, for trigonometric polynomials -/
theorem circle_parseval (S : Finset ℤ) (a : ℤ → ℂ) :
    ∫ θ in Set.Ioo (-Real.pi) Real.pi, ‖∑ m ∈ S, a m * exp (-I * m * θ)‖ ^ 2 = 2 * Real.pi * ∑ m ∈ S, ‖a m‖ ^ 2 := by
  apply Complex.ofReal_injective
  rw [← integral_complex_ofReal]
  have e : ∀ θ : ℝ, ((‖∑ m ∈ S, a m * exp (-I * m * θ)‖ ^ 2 : ℝ) : ℂ) =
      ∑ m ∈ S, ∑ m' ∈ S, a m * starRingEnd ℂ (a m') * exp (I * (m' - m : ℤ) * θ) := by
    intro θ
    rw [← Complex.normSq_eq_norm_sq, ← Complex.mul_conj, map_sum, Finset.sum_mul_sum]
    refine Finset.sum_congr rfl fun m _ => Finset.sum_congr rfl fun m' _ => ?_
    have hc : starRingEnd ℂ (exp (-I * m' * θ)) = exp (I * m' * θ) := by
      rw [← Complex.exp_conj]
      congr 1
      simp
    rw [map_mul, hc, show I * ((m' - m : ℤ) : ℂ) * θ = -I * m * θ + I * m' * θ by push_cast; ring, Complex.exp_add]
    ring
  simp only [e]
  have hi : ∀ m m' : ℤ, MeasureTheory.IntegrableOn
      (fun θ : ℝ => a m * starRingEnd ℂ (a m') * exp (I * (m' - m : ℤ) * θ)) (Set.Ioo (-Real.pi) Real.pi) := by
    intro m m'
    exact (Continuous.integrableOn_Icc (by fun_prop)).mono_set Set.Ioo_subset_Icc_self
  rw [MeasureTheory.integral_finsetSum _ fun m _ => MeasureTheory.integrable_finsetSum _ fun m' _ => hi m m']
  have e2 : ∀ m ∈ S, ∫ θ in Set.Ioo (-Real.pi) Real.pi, ∑ m' ∈ S, a m * starRingEnd ℂ (a m') * exp (I * (m' - m : ℤ) * θ) =
      2 * Real.pi * (‖a m‖ ^ 2 : ℝ) := by
    intro m hm
    rw [MeasureTheory.integral_finsetSum _ fun m' _ => hi m m']
    rw [Finset.sum_eq_single m]
    · rw [MeasureTheory.integral_const_mul, azimuthal_integral, if_pos (sub_self m), Complex.mul_conj,
        Complex.normSq_eq_norm_sq]
      push_cast
      ring
    · intro m' _ hne
      rw [MeasureTheory.integral_const_mul, azimuthal_integral, if_neg (sub_ne_zero.2 hne), Complex.ofReal_zero, mul_zero]
    · intro h
      exact absurd hm h
  rw [Finset.sum_congr rfl e2, ← Finset.mul_sum]
  push_cast
  ring

omit [Phys] in
/-- a sum over the components is a sum over the modes -/
theorem sum_modeAt {n : ℕ} (hn : 1 ≤ n) (h : ℤ → ℝ) :
    ∑ i : Fin (2 * n - 1), h (modeAt n i) = ∑ m ∈ Finset.Ioo (-(n : ℤ)) n, h m := by
  refine Finset.sum_bij (fun i _ => modeAt n i) ?_ ?_ ?_ fun _ _ => rfl
  · intro i _
    have := ((modeAt_iff hn i _).1 rfl).1
    rw [abs_lt] at this
    exact Finset.mem_Ioo.2 this
  · intro a _ b _ hab
    have h1 := ((modeAt_iff hn a _).1 rfl).2
    have h2 := ((modeAt_iff hn b _).1 hab.symm).2
    rw [h1] at h2
    exact Except.ok.inj h2
  · intro m hm
    rw [Finset.mem_Ioo] at hm
    by_cases h0 : 0 ≤ m
    · refine ⟨⟨m.toNat, by omega⟩, Finset.mem_univ _, ?_⟩
      simp only [modeAt]
      rw [if_pos (by omega)]
      omega
    · refine ⟨⟨(2 * n - 1 + m).toNat, by omega⟩, Finset.mem_univ _, ?_⟩
      simp only [modeAt]
      rw [if_neg (by omega)]
      omega

/-- **C122** (all angles). If the profile has no more azimuthal modes than the laser, the energy is the integral over all
angles: the sum over the cells of `ε₀/2 · dr · c dt · ∫ |E(r, θ, t)|² r dθ`, with any admissible number of angles. -/
theorem C122_all_angles (lo0 lo1 hi0 hi1 : ℝ) (nr nt n : ℕ) (h0 : 2 ≤ nr) (h1 : 2 ≤ nt) (hn : 1 ≤ n) (nTheta : Option ℕ)
    (hN : ∀ N, nTheta = some N → 2 * n - 1 ≤ N) (p : ProfileObj) (hp : p.laserEnergy = none) (F : ℝ → ℝ → ℝ → ℂ)
    (hF : p.Pointwise F) (cm : ℤ → ℝ → ℝ → ℂ)
    (hband : ∀ r θ t : ℝ, F (r * Real.cos θ) (r * Real.sin θ) t =
      ∑ m ∈ Finset.Ioo (-(n : ℤ)) n, cm m r t * exp (-I * m * θ)) :
    ∃ l : Laser ⟨2 * n - 1, nr, nt⟩, Laser.init "rt" [lo0, lo1] [hi0, hi1] [nr, nt] p (some n) nTheta = .ok ⟨_, l⟩ ∧
      l.energy = .ok (∑ j : Fin nr, ∑ k : Fin nt, eps0 / 2 * ((hi0 - lo0) / (nr - 1)) * (c * ((hi1 - lo1) / (nt - 1))) *
        ∫ θ in Set.Ioo (-Real.pi) Real.pi, ‖F (linspace lo0 hi0 nr j * Real.cos θ) (linspace lo0 hi0 nr j * Real.sin θ)
          (linspace lo1 hi1 nt k)‖ ^ 2 * linspace lo0 hi0 nr j) := by
  obtain ⟨l, f, hl, hhas, hf⟩ := C12_azimuthal_exact lo0 lo1 hi0 hi1 nr nt n h0 h1 hn nTheta hN p hp F hF cm hband
  refine ⟨l, hl, ?_⟩
  rw [hhas.energy]
  congr 1
  rw [Finset.sum_comm, Finset.mul_sum]
  refine Finset.sum_congr rfl fun j _ => ?_
  rw [Finset.sum_comm, Finset.mul_sum]
  refine Finset.sum_congr rfl fun k _ => ?_
  rw [← Finset.mul_sum, init_rt_volume hl, MeasureTheory.integral_mul_const]
  simp only [hband]
  rw [circle_parseval, ← sum_modeAt hn fun m => ‖cm m (linspace lo0 hi0 nr j) (linspace lo1 hi1 nt k)‖ ^ 2]
  rw [show ∑ i : Fin (2 * n - 1), ‖f i j k‖ ^ 2 =
      ∑ i : Fin (2 * n - 1), ‖cm (modeAt n i) (linspace lo0 hi0 nr j) (linspace lo1 hi1 nt k)‖ ^ 2 from
    Finset.sum_congr rfl fun i _ => by
      obtain ⟨ha, hb⟩ := (modeAt_iff hn i _).1 rfl
      rw [hf _ i ha hb j k]]
  ring

/-! ## C123: rotations -/

/-- **C123.** Let `F'` be the profile `F` turned by the angle `α = 2πa/N`, a multiple of the angle between two samples. Then
the laser built from `F'` has the modes of the laser built from `F`, mode `m` multiplied by `e^{imα}`; in particular the
two have the same energy. -/
theorem C123_rotation (lo0 lo1 hi0 hi1 : ℝ) (nr nt n N : ℕ) (h0 : 2 ≤ nr) (h1 : 2 ≤ nt) (hn : 1 ≤ n) (hN : 2 * n - 1 ≤ N)
    (nT : Option ℕ) (hT : nT = some N ∨ (nT = none ∧ N = 2 * n - 1)) (p p' : ProfileObj) (hp : p.laserEnergy = none)
    (hp' : p'.laserEnergy = none) (F F' : ℝ → ℝ → ℝ → ℂ) (hF : p.Pointwise F) (hF' : p'.Pointwise F') (a : ℤ) (α : ℝ)
    (hα : α = 2 * Real.pi * a / N)
    (hrot : ∀ r θ t : ℝ, F' (r * Real.cos θ) (r * Real.sin θ) t = F (r * Real.cos (θ - α)) (r * Real.sin (θ - α)) t) :
    ∃ (l l' : Laser ⟨2 * n - 1, nr, nt⟩) (f f' : Field ⟨2 * n - 1, nr, nt⟩),
      Laser.init "rt" [lo0, lo1] [hi0, hi1] [nr, nt] p (some n) nT = .ok ⟨_, l⟩ ∧ l.Has f ∧
      Laser.init "rt" [lo0, lo1] [hi0, hi1] [nr, nt] p' (some n) nT = .ok ⟨_, l'⟩ ∧ l'.Has f' ∧
      (∀ i j k, f' i j k = exp (I * modeAt n i * α) * f i j k) ∧ l'.energy = l.energy := by
  have hg : nT.getD (2 * n - 1) = N := by
    rcases hT with rfl | ⟨rfl, rfl⟩ <;> rfl
  have hN0 : N ≠ 0 := by omega
  obtain ⟨l, hl, hhas⟩ := Laser.init_rt lo0 lo1 hi0 hi1 nr nt n N h0 h1 hn hN p hp nT hg
  obtain ⟨l', hl', hhas'⟩ := Laser.init_rt lo0 lo1 hi0 hi1 nr nt n N h0 h1 hn hN p' hp' nT hg
  have key : ∀ (i : Fin (2 * n - 1)) (j : Fin nr) (k : Fin nt),
      sampledRT p' n N hN hn (linspace lo0 hi0 nr) (linspace lo1 hi1 nt) i j k =
      exp (I * modeAt n i * α) * sampledRT p n N hN hn (linspace lo0 hi0 nr) (linspace lo1 hi1 nt) i j k := by
    intro i j k
    rw [sampledRT_eq p F hF, sampledRT_eq p' F' hF', ← mul_div_assoc, Finset.mul_sum]
    congr 1
    have hα' : exp (I * modeAt n i * α) = chr N (modeAt n i * a) := by
      rw [hα, chr]
      congr 1
      push_cast
      ring
    have e1 : ∀ q : ℤ, atAngle F' N (linspace lo0 hi0 nr j) (linspace lo1 hi1 nt k) q =
        atAngle F N (linspace lo0 hi0 nr j) (linspace lo1 hi1 nt k) (q - a) := by
      intro q
      unfold atAngle
      rw [hrot, show 2 * Real.pi * ((q - a : ℤ) : ℝ) / N = 2 * Real.pi * q / N - α by rw [hα]; push_cast; ring]
    rw [← sum_period_shift hN0 (fun q => exp (I * modeAt n i * α) *
      (atAngle F N (linspace lo0 hi0 nr j) (linspace lo1 hi1 nt k) q * chr N (modeAt n i * q))) ?_ a]
    · refine Finset.sum_congr rfl fun q _ => ?_
      rw [e1, hα', show modeAt n i * ((q : ℕ) : ℤ) = modeAt n i * a + modeAt n i * ((q : ℕ) - a) by ring, chr_add]
      ring
    · intro u v huv
      rw [atAngle_periodic F hN0 _ _ huv, chr_periodic hN0 (a := modeAt n i * u) (b := modeAt n i * v)
        (by rw [← mul_sub]; exact Dvd.dvd.mul_left huv _)]
  refine ⟨l, l', _, _, hl, hhas, hl', hhas', key, ?_⟩
  rw [hhas.energy, hhas'.energy]
  congr 2
  refine Finset.sum_congr rfl fun i _ => Finset.sum_congr rfl fun j _ => Finset.sum_congr rfl fun k _ => ?_
  have hv : l'.grid.cellVolume j = l.grid.cellVolume j := by
    rw [init_rt_volume hl, init_rt_volume hl']
  have hu : ‖exp (I * modeAt n i * α)‖ = 1 := by
    rw [show I * (modeAt n i : ℂ) * (α : ℂ) = ((modeAt n i * α : ℝ) : ℂ) * I by push_cast; ring, norm_exp_ofReal_mul_I]
  rw [key, norm_mul, hu, one_mul, hv]

/-- **C123** (every angle). If the profile has no more azimuthal modes than the laser, the same holds for every angle. -/
theorem C123_rotation_band (lo0 lo1 hi0 hi1 : ℝ) (nr nt n : ℕ) (h0 : 2 ≤ nr) (h1 : 2 ≤ nt) (hn : 1 ≤ n)
    (nTheta : Option ℕ) (hN : ∀ N, nTheta = some N → 2 * n - 1 ≤ N) (p p' : ProfileObj) (hp : p.laserEnergy = none)
    (hp' : p'.laserEnergy = none) (F F' : ℝ → ℝ → ℝ → ℂ) (hF : p.Pointwise F) (hF' : p'.Pointwise F') (α : ℝ)
    (cm : ℤ → ℝ → ℝ → ℂ)
    (hband : ∀ r θ t : ℝ, F (r * Real.cos θ) (r * Real.sin θ) t =
      ∑ m ∈ Finset.Ioo (-(n : ℤ)) n, cm m r t * exp (-I * m * θ))
    (hrot : ∀ r θ t : ℝ, F' (r * Real.cos θ) (r * Real.sin θ) t = F (r * Real.cos (θ - α)) (r * Real.sin (θ - α)) t) :
    ∃ (l l' : Laser ⟨2 * n - 1, nr, nt⟩) (f f' : Field ⟨2 * n - 1, nr, nt⟩),
      Laser.init "rt" [lo0, lo1] [hi0, hi1] [nr, nt] p (some n) nTheta = .ok ⟨_, l⟩ ∧ l.Has f ∧
      Laser.init "rt" [lo0, lo1] [hi0, hi1] [nr, nt] p' (some n) nTheta = .ok ⟨_, l'⟩ ∧ l'.Has f' ∧
      (∀ i j k, f' i j k = exp (I * modeAt n i * α) * f i j k) := by
  obtain ⟨l, f, hl, hhas, hf⟩ := C12_azimuthal_exact lo0 lo1 hi0 hi1 nr nt n h0 h1 hn nTheta hN p hp F hF cm hband
  obtain ⟨l', f', hl', hhas', hf'⟩ := C12_azimuthal_exact lo0 lo1 hi0 hi1 nr nt n h0 h1 hn nTheta hN p' hp' F' hF'
    (fun m r t => exp (I * m * α) * cm m r t) (by
      intro r θ t
      rw [hrot, hband]
      refine Finset.sum_congr rfl fun m _ => ?_
      rw [show -I * (m : ℂ) * ((θ - α : ℝ) : ℂ) = I * m * α + -I * m * θ by push_cast; ring, Complex.exp_add]
      ring)
  refine ⟨l, l', f, f', hl, hhas, hl', hhas', fun i j k => ?_⟩
  obtain ⟨ha, hb⟩ := (modeAt_iff hn i _).1 rfl
  rw [hf _ i ha hb j k, hf' _ i ha hb j k]

/-! ## C124: symmetries -/

/-- **C124.** Symmetries of the profile show in the modes, with any admissible number of angles:
a profile that is even in `y` has equal modes `m` and `-m`; a real profile has complex conjugate modes `m` and `-m`; an
axially symmetric profile has only mode `0`, which is the profile itself. -/
theorem C124_symmetry (lo0 lo1 hi0 hi1 : ℝ) (nr nt n N : ℕ) (h0 : 2 ≤ nr) (h1 : 2 ≤ nt) (hn : 1 ≤ n) (hN : 2 * n - 1 ≤ N)
    (nT : Option ℕ) (hT : nT = some N ∨ (nT = none ∧ N = 2 * n - 1)) (p : ProfileObj) (hp : p.laserEnergy = none)
    (F : ℝ → ℝ → ℝ → ℂ) (hF : p.Pointwise F) :
    ∃ (l : Laser ⟨2 * n - 1, nr, nt⟩) (f : Field ⟨2 * n - 1, nr, nt⟩),
      Laser.init "rt" [lo0, lo1] [hi0, hi1] [nr, nt] p (some n) nT = .ok ⟨_, l⟩ ∧ l.Has f ∧
      ((∀ x y t, F x (-y) t = F x y t) → ∀ i i', modeAt n i' = -modeAt n i → ∀ j k, f i' j k = f i j k) ∧
      ((∀ x y t, (F x y t).im = 0) → ∀ i i', modeAt n i' = -modeAt n i → ∀ j k, f i' j k = starRingEnd ℂ (f i j k)) ∧
      (∀ G : ℝ → ℝ → ℂ, (∀ r θ t : ℝ, F (r * Real.cos θ) (r * Real.sin θ) t = G r t) → ∀ i j k,
        f i j k = if modeAt n i = 0 then G (linspace lo0 hi0 nr j) (linspace lo1 hi1 nt k) else 0) := by
  have hg : nT.getD (2 * n - 1) = N := by
    rcases hT with rfl | ⟨rfl, rfl⟩ <;> rfl
  have hN0 : N ≠ 0 := by omega
  have hNc : (N : ℂ) ≠ 0 := by exact_mod_cast hN0
  obtain ⟨l, hl, hhas⟩ := Laser.init_rt lo0 lo1 hi0 hi1 nr nt n N h0 h1 hn hN p hp nT hg
  refine ⟨l, _, hl, hhas, fun hy i i' hi j k => ?_, fun hre i i' hi j k => ?_, fun G hG i j k => ?_⟩
  · rw [sampledRT_eq p F hF, sampledRT_eq p F hF]
    congr 1
    rw [← sum_period_neg hN0 (fun q => atAngle F N (linspace lo0 hi0 nr j) (linspace lo1 hi1 nt k) q * chr N (modeAt n i * q))]
    · refine Finset.sum_congr rfl fun q _ => ?_
      rw [hi, mul_neg, neg_mul]
      congr 1
      unfold atAngle
      push_cast
      rw [mul_neg, neg_div, Real.cos_neg, Real.sin_neg, mul_neg, hy]
    · intro u v huv
      rw [atAngle_periodic F hN0 _ _ huv, chr_periodic hN0 (a := modeAt n i * u) (b := modeAt n i * v)
        (by rw [← mul_sub]; exact Dvd.dvd.mul_left huv _)]
  · rw [sampledRT_eq p F hF, sampledRT_eq p F hF, map_div₀, map_sum, Complex.conj_natCast]
    congr 1
    refine Finset.sum_congr rfl fun q _ => ?_
    rw [map_mul, ← chr_neg, hi, neg_mul]
    congr 1
    exact (Complex.conj_eq_iff_im.2 (hre _ _ _)).symm
  · rw [sampledRT_eq p F hF]
    have e : ∀ q : Fin N, atAngle F N (linspace lo0 hi0 nr j) (linspace lo1 hi1 nt k) (q : ℕ) * chr N (modeAt n i * (q : ℕ)) =
        G (linspace lo0 hi0 nr j) (linspace lo1 hi1 nt k) * chr N ((q : ℕ) * modeAt n i) := by
      intro q
      unfold atAngle
      rw [hG, mul_comm (modeAt n i)]
    rw [Finset.sum_congr rfl fun q _ => e q, ← Finset.mul_sum, sum_chr hN0]
    have hm := ((modeAt_iff hn i _).1 rfl).1
    rw [abs_lt] at hm
    by_cases h : modeAt n i = 0
    · rw [if_pos (by rw [h]; exact dvd_zero _), if_pos h]
      field_simp
    · rw [if_neg, if_neg h, mul_zero, zero_div]
      intro hd
      exact h (Int.eq_zero_of_abs_lt_dvd hd (by rw [abs_lt]; omega))

/-- the premises of C122–C124 are met: `E = t + x + iy`, which is not symmetric, and the same turned by a third of a turn -/
example : ∃ (p p' : ProfileObj) (F F' : ℝ → ℝ → ℝ → ℂ), p.laserEnergy = none ∧ p'.laserEnergy = none ∧ p.Pointwise F ∧
    p'.Pointwise F' ∧ (∀ r θ t : ℝ, F' (r * Real.cos θ) (r * Real.sin θ) t =
      F (r * Real.cos (θ - 2 * Real.pi * (1 : ℤ) / (3 : ℕ))) (r * Real.sin (θ - 2 * Real.pi * (1 : ℤ) / (3 : ℕ))) t) ∧
    F 0 1 0 ≠ F 1 0 0 := by
  let F : ℝ → ℝ → ℝ → ℂ := fun x y t => t + x + I * y
  let α : ℝ := 2 * Real.pi * (1 : ℤ) / (3 : ℕ)
  let F' : ℝ → ℝ → ℝ → ℂ := fun x y t => F (x * Real.cos α + y * Real.sin α) (y * Real.cos α - x * Real.sin α) t
  refine ⟨{ constProfile none with evaluate := fun x y t i j k => F (x i j k) (y i j k) (t i j k) },
    { constProfile none with evaluate := fun x y t i j k => F' (x i j k) (y i j k) (t i j k) }, F, F', rfl, rfl,
    fun _ _ _ _ _ _ _ _ _ => rfl, fun _ _ _ _ _ _ _ _ _ => rfl, fun r θ t => ?_, ?_⟩
  · change F _ _ _ = F (r * Real.cos (θ - α)) (r * Real.sin (θ - α)) t
    rw [Real.cos_sub, Real.sin_sub]
    congr 1 <;> ring
  · simp only [F]
    intro h
    have := congrArg Complex.re h
    simp at this

end Lasy
