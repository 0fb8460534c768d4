import Verif.Props.GaussianPeak
import Verif.Props.LaguerreOrtho
import Verif.Props.Profile
import Verif.Props.Paraxial
import Mathlib.Topology.Algebra.Polynomial

/-!
# Property C151: the energy of a superposition of orthogonal fields
-/

namespace Lasy
open Phys MeasureTheory Complex Filter

variable [Phys]

/-! ## Integrals over large boxes -/

omit [Phys] in
theorem box_integral {lo0 lo1 lo2 hi0 hi1 hi2 : ℝ} (h0 : lo0 ≤ hi0) (h1 : lo1 ≤ hi1) (h2 : lo2 ≤ hi2) {G : (ℝ × ℝ) × ℝ → ℝ}
    (hG : Integrable G) :
    ∫ x in lo0..hi0, ∫ y in lo1..hi1, ∫ t in lo2..hi2, G ((x, y), t) =
      ∫ q in (Set.Ioc lo0 hi0 ×ˢ Set.Ioc lo1 hi1) ×ˢ Set.Ioc lo2 hi2, G q := by
  have hi : IntegrableOn G ((Set.Ioc lo0 hi0 ×ˢ Set.Ioc lo1 hi1) ×ˢ Set.Ioc lo2 hi2) (volume.prod volume) := hG.integrableOn
  rw [Measure.volume_eq_prod, setIntegral_prod _ hi]
  have hi2 : IntegrableOn (fun v : ℝ × ℝ => ∫ t in Set.Ioc lo2 hi2, G (v, t)) (Set.Ioc lo0 hi0 ×ˢ Set.Ioc lo1 hi1)
      (volume.prod volume) := by
    have : Integrable G (((volume.restrict (Set.Ioc lo0 hi0 ×ˢ Set.Ioc lo1 hi1))).prod (volume.restrict (Set.Ioc lo2 hi2))) := by
      rw [Measure.prod_restrict]
      exact hi
    exact this.integral_prod_left
  rw [Measure.volume_eq_prod, setIntegral_prod _ hi2, intervalIntegral.integral_of_le h0]
  refine integral_congr_ae (Eventually.of_forall fun x => ?_)
  simp only
  rw [intervalIntegral.integral_of_le h1]
  refine integral_congr_ae (Eventually.of_forall fun y => ?_)
  simp only
  rw [intervalIntegral.integral_of_le h2]

omit [Phys] in
theorem cyl_integral {R lo1 hi1 : ℝ} (h1 : lo1 ≤ hi1) {G : (ℝ × ℝ) × ℝ → ℝ} (hG : Integrable G) :
    ∫ t in lo1..hi1, ∫ v in {v : ℝ × ℝ | v.1 ^ 2 + v.2 ^ 2 ≤ R ^ 2}, G (v, t) =
      ∫ q in {v : ℝ × ℝ | v.1 ^ 2 + v.2 ^ 2 ≤ R ^ 2} ×ˢ Set.Ioc lo1 hi1, G q := by
  have : Integrable G (((volume.restrict {v : ℝ × ℝ | v.1 ^ 2 + v.2 ^ 2 ≤ R ^ 2})).prod (volume.restrict (Set.Ioc lo1 hi1))) := by
    rw [Measure.prod_restrict]
    exact hG.integrableOn
  have e : (volume : Measure ((ℝ × ℝ) × ℝ)).restrict ({v : ℝ × ℝ | v.1 ^ 2 + v.2 ^ 2 ≤ R ^ 2} ×ˢ Set.Ioc lo1 hi1) =
      (volume.restrict {v : ℝ × ℝ | v.1 ^ 2 + v.2 ^ 2 ≤ R ^ 2}).prod (volume.restrict (Set.Ioc lo1 hi1)) :=
    (Measure.prod_restrict _ _).symm
  rw [e, integral_prod_symm _ this, intervalIntegral.integral_of_le h1]

omit [Phys] in
/-- the integral over a set that contains a large box is almost the whole integral -/
theorem large_set {G : (ℝ × ℝ) × ℝ → ℝ} (hG : Integrable G) (h0 : ∀ q, 0 ≤ G q) {ε : ℝ} (hε : 0 < ε) :
    ∃ L : ℝ, 0 < L ∧ ∀ S : Set ((ℝ × ℝ) × ℝ), MeasurableSet S →
      (∀ q : (ℝ × ℝ) × ℝ, |q.1.1| < L → |q.1.2| < L → |q.2| < L → q ∈ S) → |(∫ q in S, G q) - ∫ q, G q| ≤ ε := by
  let B : ℕ → Set ((ℝ × ℝ) × ℝ) := fun n => (Set.Ioo (-(n : ℝ)) n ×ˢ Set.Ioo (-(n : ℝ)) n) ×ˢ Set.Ioo (-(n : ℝ)) n
  have hB : ∀ n, MeasurableSet (B n) := fun n => (measurableSet_Ioo.prod measurableSet_Ioo).prod measurableSet_Ioo
  have hmono : Monotone B := by
    intro m n h
    have h' : (m : ℝ) ≤ n := by exact_mod_cast h
    have : Set.Ioo (-(m : ℝ)) m ⊆ Set.Ioo (-(n : ℝ)) n := Set.Ioo_subset_Ioo (by linarith) h'
    exact Set.prod_mono (Set.prod_mono this this) this
  have hU : ⋃ n, B n = Set.univ := by
    refine Set.eq_univ_of_forall fun q => ?_
    obtain ⟨n, hn⟩ := exists_nat_gt (max (max |q.1.1| |q.1.2|) |q.2|)
    simp only [max_lt_iff] at hn
    exact Set.mem_iUnion.2 ⟨n, ⟨abs_lt.1 hn.1.1, abs_lt.1 hn.1.2⟩, abs_lt.1 hn.2⟩
  have ht := tendsto_setIntegral_of_monotone hB hmono (f := G) (by rw [hU]; exact hG.integrableOn)
  rw [hU, setIntegral_univ] at ht
  obtain ⟨n, hn⟩ := (Metric.tendsto_atTop.1 ht) ε hε
  refine ⟨n + 1, by positivity, fun S hS h => ?_⟩
  have h1 := hn n le_rfl
  rw [Real.dist_eq, abs_lt] at h1
  have hsub : B n ⊆ S := by
    rintro q ⟨⟨a, b⟩, c⟩
    have ha := abs_lt.2 a
    have hb := abs_lt.2 b
    have hc := abs_lt.2 c
    exact h q (by linarith) (by linarith) (by linarith)
  have h2 : ∫ q in B n, G q ≤ ∫ q in S, G q :=
    setIntegral_mono_set hG.integrableOn (ae_of_all _ h0) hsub.eventuallyLE
  have h3 : ∫ q in S, G q ≤ ∫ q, G q := setIntegral_le_integral hG (ae_of_all _ h0)
  rw [abs_le]
  constructor <;> linarith

/-! ## Sums of orthogonal fields -/

omit [Phys] in
/-- products of square integrable fields are integrable -/
theorem integrable_cross {α : Type*} [MeasurableSpace α] {μ : Measure α} {f g : α → ℂ} (hf : AEStronglyMeasurable f μ)
    (hg : AEStronglyMeasurable g μ) (hf2 : Integrable (fun v => ‖f v‖ ^ 2) μ) (hg2 : Integrable (fun v => ‖g v‖ ^ 2) μ) :
    Integrable (fun v => starRingEnd ℂ (f v) * g v) μ := by
  refine Integrable.mono' (hf2.add hg2) ((Complex.continuous_conj.comp_aestronglyMeasurable hf).mul hg)
    (ae_of_all _ fun v => ?_)
  rw [norm_mul, RCLike.norm_conj, Pi.add_apply]
  nlinarith [sq_nonneg (‖f v‖ - ‖g v‖), sq_nonneg ‖f v‖, sq_nonneg ‖g v‖]

omit [Phys] in
theorem sum_orthogonal {α ι : Type*} [Fintype ι] [DecidableEq ι] [MeasurableSpace α] {μ : Measure α} {f : ι → α → ℂ}
    (hf : ∀ a, AEStronglyMeasurable (f a) μ) (hf2 : ∀ a, Integrable (fun v => ‖f a v‖ ^ 2) μ)
    (ho : ∀ a b, a ≠ b → ∫ v, starRingEnd ℂ (f a v) * f b v ∂μ = 0) :
    Integrable (fun v => ‖∑ a, f a v‖ ^ 2) μ ∧ ∫ v, ‖∑ a, f a v‖ ^ 2 ∂μ = ∑ a, ∫ v, ‖f a v‖ ^ 2 ∂μ := by
  have e : ∀ v, ((‖∑ a, f a v‖ ^ 2 : ℝ) : ℂ) = ∑ a, ∑ b, starRingEnd ℂ (f a v) * f b v := by
    intro v
    rw [← Complex.normSq_eq_norm_sq, Complex.normSq_eq_conj_mul_self, map_sum, Finset.sum_mul]
    simp only [Finset.mul_sum]
  have hi := fun a b => integrable_cross (hf a) (hf b) (hf2 a) (hf2 b)
  have hs : Integrable (fun v => ((‖∑ a, f a v‖ ^ 2 : ℝ) : ℂ)) μ := by
    simp only [e]
    exact integrable_finsetSum _ fun a _ => integrable_finsetSum _ fun b _ => hi a b
  refine ⟨hs.re, ?_⟩
  apply Complex.ofReal_injective
  rw [← integral_complex_ofReal]
  simp only [e]
  rw [integral_finsetSum _ fun a _ => integrable_finsetSum _ fun b _ => hi a b, Complex.ofReal_sum]
  refine Finset.sum_congr rfl fun a _ => ?_
  rw [integral_finsetSum _ fun b _ => hi a b, Finset.sum_eq_single a (fun b _ h => ho a b h.symm) (by simp),
    ← integral_complex_ofReal]
  refine integral_congr_ae (ae_of_all _ fun v => ?_)
  simp only
  rw [← Complex.normSq_eq_norm_sq, Complex.normSq_eq_conj_mul_self]

/-- the energy of a pulse that is given everywhere, `∫ ε₀/2 |E|² dx dy c dt` -/
noncomputable def Spec.totalEnergy (F : ℝ → ℝ → ℝ → ℂ) : ℝ :=
  eps0 / 2 * c * ∫ q : (ℝ × ℝ) × ℝ, ‖F q.1.1 q.1.2 q.2‖ ^ 2

/-- **C151** (one pulse, Cartesian). On a large box with a fine grid the energy of a new laser is the energy of the pulse. -/
theorem C151_pulse_xyt (p : ProfileObj) (hp : p.laserEnergy = none) (hd : p.dtype = .c128) {F : ℝ → ℝ → ℝ → ℂ}
    (hF : p.Pointwise F) (hc : Continuous fun q : ℝ × ℝ × ℝ => F q.1 q.2.1 q.2.2)
    (hi : Integrable fun q : (ℝ × ℝ) × ℝ => ‖F q.1.1 q.1.2 q.2‖ ^ 2) (m nT : Option ℕ) {ε : ℝ} (hε : 0 < ε) :
    ∃ L : ℝ, 0 < L ∧ ∀ lo0 lo1 lo2 hi0 hi1 hi2 : ℝ, lo0 ≤ -L → lo1 ≤ -L → lo2 ≤ -L → L ≤ hi0 → L ≤ hi1 → L ≤ hi2 →
      ∃ N : ℕ, ∀ nx ≥ N, ∀ ny ≥ N, ∀ nt ≥ N, ∃ (l : Laser ⟨nx, ny, nt⟩) (E : ℝ),
        Laser.init "xyt" [lo0, lo1, lo2] [hi0, hi1, hi2] [nx, ny, nt] p m nT = .ok ⟨_, l⟩ ∧ l.energy = .ok E ∧
        |E - Spec.totalEnergy F| ≤ ε := by
  have hcp := Phys.c_pos
  have he := eps0_pos
  obtain ⟨L, hL, key⟩ := large_set hi (fun q => by positivity) (ε := ε / 2 / (eps0 / 2 * c)) (by positivity)
  refine ⟨L, hL, fun lo0 lo1 lo2 hi0 hi1 hi2 a0 a1 a2 b0 b1 b2 => ?_⟩
  have h0 : lo0 ≤ hi0 := by linarith
  have h1 : lo1 ≤ hi1 := by linarith
  have h2 : lo2 ≤ hi2 := by linarith
  obtain ⟨N, hN⟩ := C126_energy_xyt lo0 lo1 lo2 hi0 hi1 hi2 h0 h1 h2 p hp hd F hF hc.continuousOn m nT (half_pos hε)
  refine ⟨N, fun nx hx ny hy nt ht => ?_⟩
  obtain ⟨l, E, hl, hE, hb⟩ := hN nx hx ny hy nt ht
  refine ⟨l, E, hl, hE, ?_⟩
  have k := key ((Set.Ioc lo0 hi0 ×ˢ Set.Ioc lo1 hi1) ×ˢ Set.Ioc lo2 hi2)
    ((measurableSet_Ioc.prod measurableSet_Ioc).prod measurableSet_Ioc) (fun q u v w => by
      rw [abs_lt] at u v w
      exact ⟨⟨⟨by linarith, by linarith⟩, ⟨by linarith, by linarith⟩⟩, ⟨by linarith, by linarith⟩⟩)
  rw [← box_integral h0 h1 h2 hi] at k
  simp only [intervalIntegral.integral_mul_const] at hb
  rw [le_div_iff₀ (by positivity)] at k
  unfold Spec.totalEnergy
  set X := ∫ x in lo0..hi0, ∫ y in lo1..hi1, ∫ t in lo2..hi2, ‖F x y t‖ ^ 2
  set Y := ∫ q : (ℝ × ℝ) × ℝ, ‖F q.1.1 q.1.2 q.2‖ ^ 2
  have e : E - eps0 / 2 * c * Y = (E - eps0 / 2 * (X * c)) + (X - Y) * (eps0 / 2 * c) := by ring
  rw [e]
  refine (abs_add_le _ _).trans ?_
  rw [abs_mul (X - Y), abs_of_pos (show 0 < eps0 / 2 * c by positivity)]
  linarith

/-- **C151** (one pulse, cylindrical). The same in `rt` geometry, with enough azimuthal modes. -/
theorem C151_pulse_rt (p : ProfileObj) (hp : p.laserEnergy = none) {F : ℝ → ℝ → ℝ → ℂ}
    (hF : p.Pointwise F) (hc : Continuous fun q : ℝ × ℝ × ℝ => F q.1 q.2.1 q.2.2)
    (hi : Integrable fun q : (ℝ × ℝ) × ℝ => ‖F q.1.1 q.1.2 q.2‖ ^ 2) {ε : ℝ} (hε : 0 < ε) :
    ∃ L : ℝ, 0 < L ∧ ∀ R lo1 hi1 : ℝ, L ≤ R → lo1 ≤ -L → L ≤ hi1 →
      ∃ N : ℕ, ∀ nr ≥ N, ∀ nt ≥ N, ∀ n ≥ N, ∃ (l : Laser ⟨2 * n - 1, nr, nt⟩) (E : ℝ),
        Laser.init "rt" [0, lo1] [R, hi1] [nr, nt] p (some n) none = .ok ⟨_, l⟩ ∧ l.energy = .ok E ∧
        |E - Spec.totalEnergy F| ≤ ε := by
  have hcp := Phys.c_pos
  have he := eps0_pos
  obtain ⟨L, hL, key⟩ := large_set hi (fun q => by positivity) (ε := ε / 2 / (eps0 / 2 * c)) (by positivity)
  refine ⟨2 * L, by positivity, fun R lo1 hi1 a b d => ?_⟩
  have h1 : lo1 ≤ hi1 := by linarith
  obtain ⟨N, hN⟩ := C126_energy_disc R lo1 hi1 (by linarith) h1 p hp F hF hc (half_pos hε)
  refine ⟨N, fun nr hr nt ht n hn => ?_⟩
  obtain ⟨l, E, hl, hE, hb⟩ := hN nr hr nt ht n hn
  refine ⟨l, E, hl, hE, ?_⟩
  have hm : MeasurableSet {v : ℝ × ℝ | v.1 ^ 2 + v.2 ^ 2 ≤ R ^ 2} := measurableSet_le (by fun_prop) (by fun_prop)
  have k := key ({v : ℝ × ℝ | v.1 ^ 2 + v.2 ^ 2 ≤ R ^ 2} ×ˢ Set.Ioc lo1 hi1)
    (hm.prod measurableSet_Ioc) (fun q u v w => by
      refine ⟨?_, ?_⟩
      · have hu := sq_lt_sq' (abs_lt.1 u).1 (abs_lt.1 u).2
        have hv := sq_lt_sq' (abs_lt.1 v).1 (abs_lt.1 v).2
        have hR := pow_le_pow_left₀ (by positivity) a 2
        show q.1.1 ^ 2 + q.1.2 ^ 2 ≤ R ^ 2
        nlinarith
      · rw [abs_lt] at w
        exact ⟨by linarith, by linarith⟩)
  rw [← cyl_integral h1 hi] at k
  simp only [integral_mul_const, intervalIntegral.integral_mul_const] at hb
  rw [le_div_iff₀ (by positivity)] at k
  unfold Spec.totalEnergy
  set X := ∫ t in lo1..hi1, ∫ v in {v : ℝ × ℝ | v.1 ^ 2 + v.2 ^ 2 ≤ R ^ 2}, ‖F v.1 v.2 t‖ ^ 2
  set Y := ∫ q : (ℝ × ℝ) × ℝ, ‖F q.1.1 q.1.2 q.2‖ ^ 2
  have e : E - eps0 / 2 * c * Y = (E - eps0 / 2 * (X * c)) + (X - Y) * (eps0 / 2 * c) := by ring
  rw [e]
  refine (abs_add_le _ _).trans ?_
  rw [abs_mul (X - Y), abs_of_pos (show 0 < eps0 / 2 * c by positivity)]
  linarith

/-- what `SummedProfile` makes of profiles that act point by point -/
theorem summed_pointwise {n : ℕ} {ps : Fin n → ProfileObj} {F : Fin n → ℝ → ℝ → ℝ → ℂ} (hF : ∀ a, (ps a).Pointwise (F a))
    (hd : ∀ a, (ps a).dtype = .c128) {q : ProfileObj} (hq : summedProfile (List.ofFn ps) = .ok q) :
    q.laserEnergy = none ∧ q.dtype = .c128 ∧ q.Pointwise fun x y t => ∑ a, F a x y t := by
  refine ⟨?_, ?_, fun u v w x y t i j k => ?_⟩
  · cases n with
    | zero => simp [summedProfile] at hq
    | succ n =>
      rw [List.ofFn_succ] at hq
      obtain ⟨-, -, rfl⟩ := summedProfile_ok hq
      rfl
  · cases n with
    | zero => simp [summedProfile] at hq
    | succ n =>
      rw [List.ofFn_succ] at hq
      obtain ⟨-, -, rfl⟩ := summedProfile_ok hq
      simp only [hd 0]
      generalize List.ofFn (fun i : Fin n => ps i.succ) = l
      have : ∀ l : List ProfileObj, l.foldl (fun d q => d.promote q.dtype) DType.c128 = .c128 := by
        intro l
        induction l with
        | nil => rfl
        | cons p l ih => exact ih
      exact this l
  · rw [C38_sum _ _ hq, List.map_ofFn, List.sum_ofFn]
    exact Finset.sum_congr rfl fun a _ => hF a u v w x y t i j k

section
variable {n : ℕ} {ps : Fin n → ProfileObj} {F : Fin n → ℝ → ℝ → ℝ → ℂ}

omit [Phys] in
theorem measurable_field {F : ℝ → ℝ → ℝ → ℂ} (hc : Continuous fun q : ℝ × ℝ × ℝ => F q.1 q.2.1 q.2.2) :
    Continuous fun q : (ℝ × ℝ) × ℝ => F q.1.1 q.1.2 q.2 :=
  hc.comp (by fun_prop : Continuous fun q : (ℝ × ℝ) × ℝ => (q.1.1, q.1.2, q.2))

theorem pulseEnergy_sum (hc : ∀ a, Continuous fun q : ℝ × ℝ × ℝ => F a q.1 q.2.1 q.2.2)
    (hi : ∀ a, Integrable fun q : (ℝ × ℝ) × ℝ => ‖F a q.1.1 q.1.2 q.2‖ ^ 2)
    (ho : ∀ a b, a ≠ b → ∫ q : (ℝ × ℝ) × ℝ, starRingEnd ℂ (F a q.1.1 q.1.2 q.2) * F b q.1.1 q.1.2 q.2 = 0) :
    (Integrable fun q : (ℝ × ℝ) × ℝ => ‖∑ a, F a q.1.1 q.1.2 q.2‖ ^ 2) ∧
      Spec.totalEnergy (fun x y t => ∑ a, F a x y t) = ∑ a, Spec.totalEnergy (F a) := by
  obtain ⟨h1, h2⟩ := sum_orthogonal (f := fun a (q : (ℝ × ℝ) × ℝ) => F a q.1.1 q.1.2 q.2)
    (fun a => (measurable_field (hc a)).aestronglyMeasurable) hi ho
  refine ⟨h1, ?_⟩
  unfold Spec.totalEnergy
  rw [h2, Finset.mul_sum]

/-- **C151** (sums, Cartesian). Let any number of profiles with continuous, square integrable and pairwise orthogonal fields be
added. On all boxes that are large enough and all grids that are fine enough, the energy of the laser made of the sum is, up to
any given error, the sum of the energies of the pulses. -/
theorem C151_sum_xyt (hF : ∀ a, (ps a).Pointwise (F a)) (hd : ∀ a, (ps a).dtype = .c128)
    (hc : ∀ a, Continuous fun q : ℝ × ℝ × ℝ => F a q.1 q.2.1 q.2.2)
    (hi : ∀ a, Integrable fun q : (ℝ × ℝ) × ℝ => ‖F a q.1.1 q.1.2 q.2‖ ^ 2)
    (ho : ∀ a b, a ≠ b → ∫ q : (ℝ × ℝ) × ℝ, starRingEnd ℂ (F a q.1.1 q.1.2 q.2) * F b q.1.1 q.1.2 q.2 = 0)
    {q : ProfileObj} (hq : summedProfile (List.ofFn ps) = .ok q) (m nT : Option ℕ) {ε : ℝ} (hε : 0 < ε) :
    ∃ L : ℝ, 0 < L ∧ ∀ lo0 lo1 lo2 hi0 hi1 hi2 : ℝ, lo0 ≤ -L → lo1 ≤ -L → lo2 ≤ -L → L ≤ hi0 → L ≤ hi1 → L ≤ hi2 →
      ∃ N : ℕ, ∀ nx ≥ N, ∀ ny ≥ N, ∀ nt ≥ N, ∃ (l : Laser ⟨nx, ny, nt⟩) (E : ℝ),
        Laser.init "xyt" [lo0, lo1, lo2] [hi0, hi1, hi2] [nx, ny, nt] q m nT = .ok ⟨_, l⟩ ∧ l.energy = .ok E ∧
        |E - ∑ a, Spec.totalEnergy (F a)| ≤ ε := by
  obtain ⟨h1, h2, h3⟩ := summed_pointwise hF hd hq
  obtain ⟨h4, h5⟩ := pulseEnergy_sum hc hi ho
  rw [← h5]
  exact C151_pulse_xyt q h1 h2 h3 (continuous_finsetSum _ fun a _ => hc a) h4 m nT hε

/-- **C151** (sums, cylindrical). -/
theorem C151_sum_rt (hF : ∀ a, (ps a).Pointwise (F a)) (hd : ∀ a, (ps a).dtype = .c128)
    (hc : ∀ a, Continuous fun q : ℝ × ℝ × ℝ => F a q.1 q.2.1 q.2.2)
    (hi : ∀ a, Integrable fun q : (ℝ × ℝ) × ℝ => ‖F a q.1.1 q.1.2 q.2‖ ^ 2)
    (ho : ∀ a b, a ≠ b → ∫ q : (ℝ × ℝ) × ℝ, starRingEnd ℂ (F a q.1.1 q.1.2 q.2) * F b q.1.1 q.1.2 q.2 = 0)
    {q : ProfileObj} (hq : summedProfile (List.ofFn ps) = .ok q) {ε : ℝ} (hε : 0 < ε) :
    ∃ L : ℝ, 0 < L ∧ ∀ R lo1 hi1 : ℝ, L ≤ R → lo1 ≤ -L → L ≤ hi1 →
      ∃ N : ℕ, ∀ nr ≥ N, ∀ nt ≥ N, ∀ k ≥ N, ∃ (l : Laser ⟨2 * k - 1, nr, nt⟩) (E : ℝ),
        Laser.init "rt" [0, lo1] [R, hi1] [nr, nt] q (some k) none = .ok ⟨_, l⟩ ∧ l.energy = .ok E ∧
        |E - ∑ a, Spec.totalEnergy (F a)| ≤ ε := by
  obtain ⟨h1, -, h3⟩ := summed_pointwise hF hd hq
  obtain ⟨h4, h5⟩ := pulseEnergy_sum hc hi ho
  rw [← h5]
  exact C151_pulse_rt q h1 h3 (continuous_finsetSum _ fun a _ => hc a) h4 hε

end

/-! ## Superpositions of transverse modes -/

section
variable {n : ℕ} {u : Fin n → ℝ → ℝ → ℂ} {G : ℝ → ℂ}

/-- facts about the fields `a * u(x, y) * G(t)` -/
theorem modes_facts (hu : ∀ a, Continuous fun v : ℝ × ℝ => u a v.1 v.2) (hG : Continuous G)
    (hu2 : ∀ a, Integrable fun v : ℝ × ℝ => ‖u a v.1 v.2‖ ^ 2) (hG2 : Integrable fun t => ‖G t‖ ^ 2)
    (ho : ∀ a b, a ≠ b → ∫ v : ℝ × ℝ, starRingEnd ℂ (u a v.1 v.2) * u b v.1 v.2 = 0) (f : Fin n → ℝ) :
    (∀ a, Continuous fun q : ℝ × ℝ × ℝ => u a q.1 q.2.1 * G q.2.2 * (f a : ℂ)) ∧
    (∀ a, Integrable fun q : (ℝ × ℝ) × ℝ => ‖u a q.1.1 q.1.2 * G q.2 * (f a : ℂ)‖ ^ 2) ∧
    (∀ a b, a ≠ b → ∫ q : (ℝ × ℝ) × ℝ, starRingEnd ℂ (u a q.1.1 q.1.2 * G q.2 * (f a : ℂ)) *
      (u b q.1.1 q.1.2 * G q.2 * (f b : ℂ)) = 0) ∧
    ∀ a, Spec.totalEnergy (fun x y t => u a x y * G t * (f a : ℂ)) =
      eps0 / 2 * c * (f a ^ 2 * (∫ v : ℝ × ℝ, ‖u a v.1 v.2‖ ^ 2) * ∫ t, ‖G t‖ ^ 2) := by
  have e : ∀ a (q : (ℝ × ℝ) × ℝ), ‖u a q.1.1 q.1.2 * G q.2 * (f a : ℂ)‖ ^ 2 =
      f a ^ 2 * (‖u a q.1.1 q.1.2‖ ^ 2 * ‖G q.2‖ ^ 2) := by
    intro a q
    rw [norm_mul, norm_mul, Complex.norm_real, Real.norm_eq_abs, mul_pow, mul_pow, sq_abs]
    ring
  refine ⟨fun a => ?_, fun a => ?_, fun a b hab => ?_, fun a => ?_⟩
  · exact (((hu a).comp (by fun_prop : Continuous fun q : ℝ × ℝ × ℝ => (q.1, q.2.1))).mul (hG.comp (by fun_prop))).mul
      continuous_const
  · simp only [e]
    exact ((hu2 a).mul_prod hG2).const_mul _
  · have e2 : ∀ q : (ℝ × ℝ) × ℝ, starRingEnd ℂ (u a q.1.1 q.1.2 * G q.2 * (f a : ℂ)) *
        (u b q.1.1 q.1.2 * G q.2 * (f b : ℂ)) = ((f a : ℂ) * f b) * ((starRingEnd ℂ (u a q.1.1 q.1.2) * u b q.1.1 q.1.2) *
        (starRingEnd ℂ (G q.2) * G q.2)) := by
      intro q
      simp only [map_mul, Complex.conj_ofReal]
      ring
    simp only [e2]
    rw [integral_const_mul, Measure.volume_eq_prod, integral_prod_mul (fun v : ℝ × ℝ => starRingEnd ℂ (u a v.1 v.2) * u b v.1 v.2)
      (fun t => starRingEnd ℂ (G t) * G t), ho a b hab, zero_mul, mul_zero]
  · unfold Spec.totalEnergy
    simp only [e]
    rw [integral_const_mul, Measure.volume_eq_prod, integral_prod_mul (fun v : ℝ × ℝ => ‖u a v.1 v.2‖ ^ 2)
      (fun t => ‖G t‖ ^ 2)]
    ring

/-- the profile `factor * CombinedLongitudinalTransverseProfile(wavelength, pol, laser_energy, long, trans)` -/
theorem scaled_combined {wavelength : ℝ} {pol : List ℂ} {E : Option ℝ} {G : ℝ → ℂ} {dl : DType} {u : ℝ → ℝ → ℂ} {f : ℝ}
    {P p : ProfileObj} (hP : combinedProfile wavelength pol E G dl u .c128 = .ok P) (hp : scaledProfile P (.float f) = .ok p) :
    p.Pointwise (fun x y t => u x y * G t * (f : ℂ)) ∧ p.dtype = .c128 := by
  unfold combinedProfile profileInit at hP
  split at hP
  · injection hP with hP
    subst hP
    unfold scaledProfile profileInit at hp
    simp only [DType.promote] at hp
    injection hp with hp
    subst hp
    exact ⟨fun _ _ _ _ _ _ _ _ _ => rfl, rfl⟩
  · cases hP

end

/-! ## Hermite-Gauss and Laguerre-Gauss modes -/

omit [Phys] in
theorem hermiteGaussianTrans_continuous (w0 ζ : ℝ) (i j : ℕ) :
    Continuous fun v : ℝ × ℝ => hermiteGaussianTrans w0 i j ζ v.1 v.2 := by
  have h1 := (hermiteH i).continuous
  have h2 := (hermiteH j).continuous
  unfold hermiteGaussianTrans
  simp only
  have a1 : Continuous fun v : ℝ × ℝ => (hermiteH i).eval (Real.sqrt 2 * v.1 / (w0 * ‖diffractFactor ζ‖)) :=
    h1.comp (by fun_prop)
  have a2 : Continuous fun v : ℝ × ℝ => (hermiteH j).eval (Real.sqrt 2 * v.2 / (w0 * ‖diffractFactor ζ‖)) :=
    h2.comp (by fun_prop)
  exact (((continuous_const.mul (continuous_ofReal.comp a1)).mul (continuous_ofReal.comp a2)).mul (by fun_prop)).mul
    continuous_const

omit [Phys] in
theorem laguerreGaussianTrans_continuous (w0 ζ : ℝ) (p : ℕ) (m : ℤ) :
    Continuous fun v : ℝ × ℝ => laguerreGaussianTrans w0 p m ζ v.1 v.2 := by
  have h1 := (laguerreL p m.natAbs).continuous
  unfold laguerreGaussianTrans
  simp only
  have key : ∀ g : ℝ × ℝ → ℂ, Continuous g → Continuous fun v => g v ^ m.natAbs *
      (((laguerreL p m.natAbs).eval (2 * ‖g v‖ ^ 2 / (w0 * ‖diffractFactor ζ‖) ^ 2) : ℝ) : ℂ) *
      exp (-((‖g v‖ ^ 2 : ℝ) : ℂ) / ((w0 ^ 2 : ℝ) * diffractFactor ζ) - I * ((2 * (p : ℤ) + m : ℤ) : ℂ) * arg (diffractFactor ζ))
      * (1 / diffractFactor ζ) := by
    intro g hg
    have a1 : Continuous fun v => (laguerreL p m.natAbs).eval (2 * ‖g v‖ ^ 2 / (w0 * ‖diffractFactor ζ‖) ^ 2) :=
      h1.comp (by fun_prop)
    exact (((hg.pow _).mul (continuous_ofReal.comp a1)).mul (by fun_prop)).mul continuous_const
  split_ifs
  · exact key (fun v => v.1 - I * v.2) (by fun_prop)
  · exact key (fun v => v.1 + I * v.2) (by fun_prop)

omit [Phys] in
theorem sq_integrable_of {α : Type*} [MeasurableSpace α] {μ : Measure α} {f : α → ℂ}
    (h : ∫ v, starRingEnd ℂ (f v) * f v ∂μ ≠ 0) : Integrable (fun v => ‖f v‖ ^ 2) μ := by
  refine (Integrable.of_integral_ne_zero h).norm.congr (ae_of_all _ fun v => ?_)
  simp only [norm_mul, RCLike.norm_conj]
  ring

omit [Phys] in
theorem hermite_sq_integrable {w0 : ℝ} (hw : 0 < w0) (ζ : ℝ) (i j : ℕ) :
    Integrable fun v : ℝ × ℝ => ‖hermiteGaussianTrans w0 i j ζ v.1 v.2‖ ^ 2 := by
  have h1 : ∀ k : ℕ, Integrable fun x : ℝ => ‖hg1 w0 k x (-ζ)‖ ^ 2 := by
    intro k
    refine sq_integrable_of ?_
    rw [integral_hg1 w0 (-ζ) hw, if_pos rfl]
    have := rho_pos (-ζ)
    have hpi := Real.pi_pos
    have : 0 < w0 * rho (-ζ) / Real.sqrt 2 * (2 ^ k * k.factorial * Real.sqrt Real.pi) := by positivity
    exact_mod_cast this.ne'
  have := (((h1 i).mul_prod (h1 j)).const_mul (‖(Real.sqrt (2 / Real.pi) : ℂ) * (Real.sqrt (1 / (2 ^ i * i.factorial * w0)) : ℂ)
        * (Real.sqrt (1 / (2 ^ j * j.factorial * w0)) : ℂ) / (1 + I * (-ζ : ℝ))‖ ^ 2))
  refine this.congr (ae_of_all _ fun v => ?_)
  simp only
  rw [show hermiteGaussianTrans w0 i j ζ v.1 v.2 = hermiteGaussianTrans w0 i j (-(-ζ)) v.1 v.2 by rw [neg_neg],
    hermiteGaussianTrans_eq, ← mul_pow, ← norm_mul, ← mul_pow, ← norm_mul]
  congr 2
  ring

omit [Phys] in
/-- orthonormality on the plane -/
theorem hermite_plane {w0 lam zFoc ζ : ℝ} (hw : 0 < w0) (hz : zFocOverZr w0 (some lam) zFoc = .ok ζ) (nx ny mx my : ℕ) :
    ∫ v : ℝ × ℝ, starRingEnd ℂ (hermiteGaussianTrans w0 nx ny ζ v.1 v.2) * hermiteGaussianTrans w0 mx my ζ v.1 v.2 =
      if nx = mx ∧ ny = my then 1 else 0 := by
  obtain ⟨ζ', h1, h2⟩ := C71_orthonormal w0 lam zFoc hw nx ny mx my
  rw [hz] at h1
  injection h1 with h1
  subst h1
  have hi := integrable_cross (μ := (volume : Measure (ℝ × ℝ))) (hermiteGaussianTrans_continuous w0 ζ nx ny).aestronglyMeasurable
    (hermiteGaussianTrans_continuous w0 ζ mx my).aestronglyMeasurable (hermite_sq_integrable hw ζ nx ny)
    (hermite_sq_integrable hw ζ mx my)
  rw [Measure.volume_eq_prod] at hi ⊢
  rw [integral_prod _ hi]
  exact h2

omit [Phys] in
theorem sq_integral_of {α : Type*} [MeasurableSpace α] {μ : Measure α} {f : α → ℂ} {r : ℝ}
    (h : ∫ v, starRingEnd ℂ (f v) * f v ∂μ = r) : ∫ v, ‖f v‖ ^ 2 ∂μ = r := by
  apply Complex.ofReal_injective
  rw [← h, ← integral_complex_ofReal]
  refine integral_congr_ae (ae_of_all _ fun v => ?_)
  simp only
  rw [← Complex.normSq_eq_norm_sq, Complex.normSq_eq_conj_mul_self]

section
variable {n : ℕ} {wavelength : ℝ} {pol : List ℂ} {E : Fin n → Option ℝ} {G : ℝ → ℂ} {dl : DType} {w0 zFoc ζ : ℝ}
  {f : Fin n → ℝ} {P p : Fin n → ProfileObj} {q : ProfileObj}

/-- **C151** (Hermite-Gauss modes, Cartesian). `f₁ HG₁ + f₂ HG₂ + ...`, any number of different Hermite-Gauss modes with the same
waist and focal plane, combined with the same longitudinal profile `G` and multiplied by numbers: in large boxes and on fine
grids the laser has the energy `ε₀ c/2 ∫|G|² dt (f₁² + f₂² + ...)`. -/
theorem C151_hermite_xyt (hw : 0 < w0) (hz : zFocOverZr w0 (some wavelength) zFoc = .ok ζ) (modes : Fin n → ℕ × ℕ)
    (hinj : Function.Injective modes) (hG : Continuous G) (hG2 : Integrable fun t => ‖G t‖ ^ 2)
    (hP : ∀ a, combinedProfile wavelength pol (E a) G dl (hermiteGaussianTrans w0 (modes a).1 (modes a).2 ζ) .c128 = .ok (P a))
    (hp : ∀ a, scaledProfile (P a) (.float (f a)) = .ok (p a)) (hq : summedProfile (List.ofFn p) = .ok q)
    (m nT : Option ℕ) {ε : ℝ} (hε : 0 < ε) :
    ∃ L : ℝ, 0 < L ∧ ∀ lo0 lo1 lo2 hi0 hi1 hi2 : ℝ, lo0 ≤ -L → lo1 ≤ -L → lo2 ≤ -L → L ≤ hi0 → L ≤ hi1 → L ≤ hi2 →
      ∃ N : ℕ, ∀ nx ≥ N, ∀ ny ≥ N, ∀ nt ≥ N, ∃ (l : Laser ⟨nx, ny, nt⟩) (W : ℝ),
        Laser.init "xyt" [lo0, lo1, lo2] [hi0, hi1, hi2] [nx, ny, nt] q m nT = .ok ⟨_, l⟩ ∧ l.energy = .ok W ∧
        |W - eps0 * c / 2 * (∫ t, ‖G t‖ ^ 2) * ∑ a, f a ^ 2| ≤ ε := by
  obtain ⟨h1, h2, h3, h4⟩ := modes_facts (u := fun a x y => hermiteGaussianTrans w0 (modes a).1 (modes a).2 ζ x y) (G := G)
    (fun a => hermiteGaussianTrans_continuous _ _ _ _) hG (fun a => hermite_sq_integrable hw _ _ _) hG2
    (fun a b hab => by
      rw [hermite_plane hw hz, if_neg]
      exact fun h => hab (hinj (Prod.ext h.1 h.2))) f
  have hs : ∑ a, Spec.totalEnergy (fun x y t => hermiteGaussianTrans w0 (modes a).1 (modes a).2 ζ x y * G t * (f a : ℂ)) =
      eps0 * c / 2 * (∫ t, ‖G t‖ ^ 2) * ∑ a, f a ^ 2 := by
    rw [Finset.mul_sum]
    refine Finset.sum_congr rfl fun a _ => ?_
    rw [h4 a, sq_integral_of (r := 1) (by rw [hermite_plane hw hz, if_pos ⟨rfl, rfl⟩, Complex.ofReal_one])]
    ring
  rw [← hs]
  exact C151_sum_xyt (fun a => (scaled_combined (hP a) (hp a)).1) (fun a => (scaled_combined (hP a) (hp a)).2) h1 h2 h3 hq m nT hε

/-- **C151** (Hermite-Gauss modes, cylindrical). -/
theorem C151_hermite_rt (hw : 0 < w0) (hz : zFocOverZr w0 (some wavelength) zFoc = .ok ζ) (modes : Fin n → ℕ × ℕ)
    (hinj : Function.Injective modes) (hG : Continuous G) (hG2 : Integrable fun t => ‖G t‖ ^ 2)
    (hP : ∀ a, combinedProfile wavelength pol (E a) G dl (hermiteGaussianTrans w0 (modes a).1 (modes a).2 ζ) .c128 = .ok (P a))
    (hp : ∀ a, scaledProfile (P a) (.float (f a)) = .ok (p a)) (hq : summedProfile (List.ofFn p) = .ok q) {ε : ℝ} (hε : 0 < ε) :
    ∃ L : ℝ, 0 < L ∧ ∀ R lo1 hi1 : ℝ, L ≤ R → lo1 ≤ -L → L ≤ hi1 →
      ∃ N : ℕ, ∀ nr ≥ N, ∀ nt ≥ N, ∀ k ≥ N, ∃ (l : Laser ⟨2 * k - 1, nr, nt⟩) (W : ℝ),
        Laser.init "rt" [0, lo1] [R, hi1] [nr, nt] q (some k) none = .ok ⟨_, l⟩ ∧ l.energy = .ok W ∧
        |W - eps0 * c / 2 * (∫ t, ‖G t‖ ^ 2) * ∑ a, f a ^ 2| ≤ ε := by
  obtain ⟨h1, h2, h3, h4⟩ := modes_facts (u := fun a x y => hermiteGaussianTrans w0 (modes a).1 (modes a).2 ζ x y) (G := G)
    (fun a => hermiteGaussianTrans_continuous _ _ _ _) hG (fun a => hermite_sq_integrable hw _ _ _) hG2
    (fun a b hab => by
      rw [hermite_plane hw hz, if_neg]
      exact fun h => hab (hinj (Prod.ext h.1 h.2))) f
  have hs : ∑ a, Spec.totalEnergy (fun x y t => hermiteGaussianTrans w0 (modes a).1 (modes a).2 ζ x y * G t * (f a : ℂ)) =
      eps0 * c / 2 * (∫ t, ‖G t‖ ^ 2) * ∑ a, f a ^ 2 := by
    rw [Finset.mul_sum]
    refine Finset.sum_congr rfl fun a _ => ?_
    rw [h4 a, sq_integral_of (r := 1) (by rw [hermite_plane hw hz, if_pos ⟨rfl, rfl⟩, Complex.ofReal_one])]
    ring
  rw [← hs]
  exact C151_sum_rt (fun a => (scaled_combined (hP a) (hp a)).1) (fun a => (scaled_combined (hP a) (hp a)).2) h1 h2 h3 hq hε

/-- the energy factor `(π w0²/2) (w²/2)^|m| (p+|m|)!/p!` of a Laguerre-Gauss mode, `w` being the spot size in the plane `z = 0` -/
noncomputable def Spec.laguerreNorm (w0 wavelength zFoc : ℝ) (p : ℕ) (m : ℤ) : ℝ :=
  Real.pi * w0 ^ 2 / 2 * (w0 ^ 2 * (1 + (zFoc * wavelength / (Real.pi * w0 ^ 2)) ^ 2) / 2) ^ m.natAbs *
    ((p + m.natAbs).factorial / p.factorial)

omit [Phys] in
theorem laguerre_plane {lam : ℝ} (hw : 0 < w0) (hz : zFocOverZr w0 (some lam) zFoc = .ok ζ) (k k' : ℕ) (m m' : ℤ) :
    ∫ v : ℝ × ℝ, starRingEnd ℂ (laguerreGaussianTrans w0 k m ζ v.1 v.2) * laguerreGaussianTrans w0 k' m' ζ v.1 v.2 =
      if k = k' ∧ m = m' then ((Spec.laguerreNorm w0 lam zFoc k m : ℝ) : ℂ) else 0 := by
  obtain ⟨ζ', h1, h2⟩ := C120_orthogonal w0 lam zFoc hw k k' m m'
  rw [hz] at h1
  injection h1 with h1
  subst h1
  exact h2

omit [Phys] in
theorem laguerre_sq_integrable {lam : ℝ} (hw : 0 < w0) (hz : zFocOverZr w0 (some lam) zFoc = .ok ζ) (k : ℕ) (m : ℤ) :
    Integrable fun v : ℝ × ℝ => ‖laguerreGaussianTrans w0 k m ζ v.1 v.2‖ ^ 2 := by
  refine sq_integrable_of ?_
  rw [laguerre_plane hw hz, if_pos ⟨rfl, rfl⟩]
  have hpi := Real.pi_pos
  have : 0 < Spec.laguerreNorm w0 lam zFoc k m := by
    unfold Spec.laguerreNorm
    positivity
  exact_mod_cast this.ne'

/-- **C151** (Laguerre-Gauss modes, Cartesian). The same for Laguerre-Gauss modes with the energy factors of C120. -/
theorem C151_laguerre_xyt (hw : 0 < w0) (hz : zFocOverZr w0 (some wavelength) zFoc = .ok ζ) (modes : Fin n → ℕ × ℤ)
    (hinj : Function.Injective modes) (hG : Continuous G) (hG2 : Integrable fun t => ‖G t‖ ^ 2)
    (hP : ∀ a, combinedProfile wavelength pol (E a) G dl (laguerreGaussianTrans w0 (modes a).1 (modes a).2 ζ) .c128 = .ok (P a))
    (hp : ∀ a, scaledProfile (P a) (.float (f a)) = .ok (p a)) (hq : summedProfile (List.ofFn p) = .ok q)
    (m nT : Option ℕ) {ε : ℝ} (hε : 0 < ε) :
    ∃ L : ℝ, 0 < L ∧ ∀ lo0 lo1 lo2 hi0 hi1 hi2 : ℝ, lo0 ≤ -L → lo1 ≤ -L → lo2 ≤ -L → L ≤ hi0 → L ≤ hi1 → L ≤ hi2 →
      ∃ N : ℕ, ∀ nx ≥ N, ∀ ny ≥ N, ∀ nt ≥ N, ∃ (l : Laser ⟨nx, ny, nt⟩) (W : ℝ),
        Laser.init "xyt" [lo0, lo1, lo2] [hi0, hi1, hi2] [nx, ny, nt] q m nT = .ok ⟨_, l⟩ ∧ l.energy = .ok W ∧
        |W - eps0 * c / 2 * (∫ t, ‖G t‖ ^ 2) * ∑ a, f a ^ 2 * Spec.laguerreNorm w0 wavelength zFoc (modes a).1 (modes a).2| ≤
          ε := by
  obtain ⟨h1, h2, h3, h4⟩ := modes_facts (u := fun a x y => laguerreGaussianTrans w0 (modes a).1 (modes a).2 ζ x y) (G := G)
    (fun a => laguerreGaussianTrans_continuous _ _ _ _) hG (fun a => laguerre_sq_integrable hw hz _ _) hG2
    (fun a b hab => by
      rw [laguerre_plane hw hz, if_neg]
      exact fun h => hab (hinj (Prod.ext h.1 h.2))) f
  have hs : ∑ a, Spec.totalEnergy (fun x y t => laguerreGaussianTrans w0 (modes a).1 (modes a).2 ζ x y * G t * (f a : ℂ)) =
      eps0 * c / 2 * (∫ t, ‖G t‖ ^ 2) * ∑ a, f a ^ 2 * Spec.laguerreNorm w0 wavelength zFoc (modes a).1 (modes a).2 := by
    rw [Finset.mul_sum]
    refine Finset.sum_congr rfl fun a _ => ?_
    rw [h4 a, sq_integral_of (r := Spec.laguerreNorm w0 wavelength zFoc (modes a).1 (modes a).2)
      (by rw [laguerre_plane hw hz, if_pos ⟨rfl, rfl⟩])]
    ring
  rw [← hs]
  exact C151_sum_xyt (fun a => (scaled_combined (hP a) (hp a)).1) (fun a => (scaled_combined (hP a) (hp a)).2) h1 h2 h3 hq m nT hε

/-- **C151** (Laguerre-Gauss modes, cylindrical). -/
theorem C151_laguerre_rt (hw : 0 < w0) (hz : zFocOverZr w0 (some wavelength) zFoc = .ok ζ) (modes : Fin n → ℕ × ℤ)
    (hinj : Function.Injective modes) (hG : Continuous G) (hG2 : Integrable fun t => ‖G t‖ ^ 2)
    (hP : ∀ a, combinedProfile wavelength pol (E a) G dl (laguerreGaussianTrans w0 (modes a).1 (modes a).2 ζ) .c128 = .ok (P a))
    (hp : ∀ a, scaledProfile (P a) (.float (f a)) = .ok (p a)) (hq : summedProfile (List.ofFn p) = .ok q) {ε : ℝ} (hε : 0 < ε) :
    ∃ L : ℝ, 0 < L ∧ ∀ R lo1 hi1 : ℝ, L ≤ R → lo1 ≤ -L → L ≤ hi1 →
      ∃ N : ℕ, ∀ nr ≥ N, ∀ nt ≥ N, ∀ k ≥ N, ∃ (l : Laser ⟨2 * k - 1, nr, nt⟩) (W : ℝ),
        Laser.init "rt" [0, lo1] [R, hi1] [nr, nt] q (some k) none = .ok ⟨_, l⟩ ∧ l.energy = .ok W ∧
        |W - eps0 * c / 2 * (∫ t, ‖G t‖ ^ 2) * ∑ a, f a ^ 2 * Spec.laguerreNorm w0 wavelength zFoc (modes a).1 (modes a).2| ≤
          ε := by
  obtain ⟨h1, h2, h3, h4⟩ := modes_facts (u := fun a x y => laguerreGaussianTrans w0 (modes a).1 (modes a).2 ζ x y) (G := G)
    (fun a => laguerreGaussianTrans_continuous _ _ _ _) hG (fun a => laguerre_sq_integrable hw hz _ _) hG2
    (fun a b hab => by
      rw [laguerre_plane hw hz, if_neg]
      exact fun h => hab (hinj (Prod.ext h.1 h.2))) f
  have hs : ∑ a, Spec.totalEnergy (fun x y t => laguerreGaussianTrans w0 (modes a).1 (modes a).2 ζ x y * G t * (f a : ℂ)) =
      eps0 * c / 2 * (∫ t, ‖G t‖ ^ 2) * ∑ a, f a ^ 2 * Spec.laguerreNorm w0 wavelength zFoc (modes a).1 (modes a).2 := by
    rw [Finset.mul_sum]
    refine Finset.sum_congr rfl fun a _ => ?_
    rw [h4 a, sq_integral_of (r := Spec.laguerreNorm w0 wavelength zFoc (modes a).1 (modes a).2)
      (by rw [laguerre_plane hw hz, if_pos ⟨rfl, rfl⟩])]
    ring
  rw [← hs]
  exact C151_sum_rt (fun a => (scaled_combined (hP a) (hp a)).1) (fun a => (scaled_combined (hP a) (hp a)).2) h1 h2 h3 hq hε

end

/-- the profiles of the theorems above are accepted: same wavelength, same polarisation -/
theorem modes_accepted {n : ℕ} (wavelength : ℝ) (px py : ℂ) (E : Fin (n + 1) → Option ℝ) (G : ℝ → ℂ) (dl : DType)
    (u : Fin (n + 1) → ℝ → ℝ → ℂ) (f : Fin (n + 1) → ℝ) :
    ∃ (P p : Fin (n + 1) → ProfileObj) (q : ProfileObj),
      (∀ a, combinedProfile wavelength [px, py] (E a) G dl (u a) .c128 = .ok (P a)) ∧
      (∀ a, scaledProfile (P a) (.float (f a)) = .ok (p a)) ∧ summedProfile (List.ofFn p) = .ok q := by
  have h : ∀ a, ∃ P p : ProfileObj, combinedProfile wavelength [px, py] (E a) G dl (u a) .c128 = .ok P ∧
      scaledProfile P (.float (f a)) = .ok p ∧ p.lambda0 = wavelength ∧ p.pol = polNormalised (polNormalised (px, py)) :=
    fun a => ⟨_, _, rfl, rfl, rfl, rfl⟩
  choose P p h1 h2 h3 h4 using h
  refine ⟨P, p, ?_⟩
  have hs : ∀ q ∈ p 0 :: List.ofFn fun i : Fin n => p i.succ, q.lambda0 = wavelength ∧ q.pol = polNormalised (polNormalised (px, py)) := by
    intro q hq
    rw [← List.ofFn_succ, List.mem_ofFn] at hq
    obtain ⟨a, rfl⟩ := hq
    exact ⟨h3 a, h4 a⟩
  refine Exists.imp (fun q hq => ⟨h1, h2, hq⟩) ?_
  unfold summedProfile
  rw [List.ofFn_succ]
  simp only
  rw [if_neg, if_neg]
  · exact ⟨_, rfl⟩
  · rw [not_not]
    intro q hq
    rw [(hs q hq).2, (hs _ List.mem_cons_self).2]
    exact ⟨isClose_self _, isClose_self _⟩
  · rw [not_not]
    intro q hq
    rw [(hs q hq).1, (hs _ List.mem_cons_self).1]
    exact isClose_self _

theorem gaussianLong_sq (wavelength tau tPeak cep : ℝ) (htau : 0 < tau) :
    Continuous (gaussianLong wavelength tau tPeak cep) ∧ (Integrable fun t => ‖gaussianLong wavelength tau tPeak cep t‖ ^ 2) ∧
      ∫ t, ‖gaussianLong wavelength tau tPeak cep t‖ ^ 2 = tau * Real.sqrt (Real.pi / 2) := by
  have e : ∀ t, ‖gaussianLong wavelength tau tPeak cep t‖ ^ 2 = Real.exp (-(2 / tau ^ 2) * (t - tPeak) ^ 2) := by
    intro t
    rw [norm_gaussianLong, ← Real.exp_nat_mul]
    congr 1
    push_cast
    ring
  refine ⟨?_, ?_, ?_⟩
  · unfold gaussianLong
    fun_prop
  · simp only [e]
    exact (integrable_exp_neg_mul_sq (by positivity : 0 < 2 / tau ^ 2)).comp_sub_right tPeak
  · simp only [e]
    rw [integral_sub_right_eq_self (fun t => Real.exp (-(2 / tau ^ 2) * t ^ 2)) tPeak, integral_gaussian,
      show Real.pi / (2 / tau ^ 2) = tau ^ 2 * (Real.pi / 2) by field_simp, Real.sqrt_mul (by positivity),
      Real.sqrt_sq htau.le]

/-- the hypotheses are met: `3 HG₀₀ + 4 HG₁₀` with a Gaussian pulse, defocused, has 25 times the energy of `HG₀₀` -/
example {ε : ℝ} (hε : 0 < ε) : ∃ (P p : Fin 2 → ProfileObj) (q : ProfileObj) (ζ : ℝ),
    zFocOverZr 1 (some 1) 1 = .ok ζ ∧
    (∀ a : Fin 2, combinedProfile 1 [1, 0] (some 2) (gaussianLong 1 1 0 0) .c128 (hermiteGaussianTrans 1 a 0 ζ) .c128 = .ok (P a)) ∧
    (∀ a, scaledProfile (P a) (.float (![3, 4] a)) = .ok (p a)) ∧ summedProfile (List.ofFn p) = .ok q ∧
    ∃ L : ℝ, 0 < L ∧ ∀ lo0 lo1 lo2 hi0 hi1 hi2 : ℝ, lo0 ≤ -L → lo1 ≤ -L → lo2 ≤ -L → L ≤ hi0 → L ≤ hi1 → L ≤ hi2 →
      ∃ N : ℕ, ∀ nx ≥ N, ∀ ny ≥ N, ∀ nt ≥ N, ∃ (l : Laser ⟨nx, ny, nt⟩) (W : ℝ),
        Laser.init "xyt" [lo0, lo1, lo2] [hi0, hi1, hi2] [nx, ny, nt] q none none = .ok ⟨_, l⟩ ∧ l.energy = .ok W ∧
        |W - 25 * (eps0 * c / 2 * Real.sqrt (Real.pi / 2))| ≤ ε := by
  obtain ⟨ζ, hz, -⟩ := C71_orthonormal 1 1 1 one_pos 0 0 0 0
  obtain ⟨P, p, q, hP, hp, hq⟩ := modes_accepted (n := 1) 1 1 0 (fun _ => some 2) (gaussianLong 1 1 0 0) .c128
    (fun a => hermiteGaussianTrans 1 a 0 ζ) ![3, 4]
  obtain ⟨g1, g2, g3⟩ := gaussianLong_sq 1 1 0 0 one_pos
  refine ⟨P, p, q, ζ, hz, hP, hp, hq, ?_⟩
  have := C151_hermite_xyt (E := fun _ => some 2) one_pos hz (fun a : Fin 2 => ((a : ℕ), 0))
    (fun a b h => Fin.ext (Prod.ext_iff.1 h).1) g1 g2 hP hp hq none none hε
  rw [g3] at this
  have e : eps0 * c / 2 * (1 * Real.sqrt (Real.pi / 2)) * ∑ a : Fin 2, (![3, 4] a : ℝ) ^ 2 =
      25 * (eps0 * c / 2 * Real.sqrt (Real.pi / 2)) := by
    rw [Fin.sum_univ_two]
    simp only [Matrix.cons_val_zero, Matrix.cons_val_one]
    ring
  rwa [e] at this

end Lasy
