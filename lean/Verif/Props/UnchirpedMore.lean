import Verif.Props.Unchirped
import Verif.Props.OpenPMD
import Verif.Props.LaserInit
import Verif.Props.PulseDuration

/-!
# Property C158: files of cylindrical lasers, and more profiles without chirp
-/

namespace Lasy
open Spec Phys Complex

variable [Phys] {s : Shape}

/-- **C158.** A file written with `save_as_vector_potential=True` from a cylindrical laser without chirp, read by the openPMD
rule at any angle, is `-i e E / (m_e omega_0 c)` with `E` the field at that angle. -/
theorem C158_file_rt (a : WriteArgs) (l : Laser s) (f : Field s) (hf : l.Has f) (hu : Unchirped f) (hne : ∃ i j k, f i j k ≠ 0)
    (hn : 3 ≤ s.nt) (ht : Increasing l.grid.t.pts) (hl : 0 < l.profile.lambda0) (disk : Disk)
    (hv : a.asVectorPotential = true) (ha : a.fault = .ok) {n hm r} (hgeo : l.grid.geom = .rt n hm r) :
    ∃ l' disk' m, writeToFile a (l, disk) = (.ok (), (l', disk')) ∧ l'.Has f ∧
      disk' (filePath a.dir a.pre a.fmt l.outputIteration) = some m ∧ m.envelopeField = "normalized_vector_potential" ∧
      ∀ (θ : ℝ) (j : Fin s.n1) (k : Fin s.nt),
        m.atAngle θ k j = -I * e * fieldAtAngle (fun i j k => f (Fin.cast hm.2.symm i) j k) θ j k /
          (me * (2 * Real.pi * c / l.profile.lambda0 : ℝ) * c) := by
  have hcp := Phys.c_pos
  have hpi := Real.pi_pos
  set w0 := 2 * Real.pi * c / l.profile.lambda0 with hw0
  have hw : 0 < w0 := by positivity
  obtain ⟨g', e1, h1⟩ := writeToFile_potential a l f hf disk hv ha (v := fun i j k => -I * e * f i j k / (me * w0 * c)) (by
    intro g hg hgg hgt
    have hlf : LocalFrequency w0 g.t.pts f fun _ _ _ => w0 := by
      rw [hgt]
      exact hu.localFrequency hn ht w0
    obtain ⟨g1, v, e1, h1, hg1, ht1⟩ := hlf.freq hg (B := w0) (fun _ _ _ => ⟨le_rfl, by linarith⟩) hne
    obtain ⟨g2, e2, h2, hg2, ht2⟩ := h1.getT
    refine ⟨g2, ?_, h2, by rw [hg2, hg1, hgg], by rw [ht2, ht1, hgt]⟩
    unfold fieldToVectorPotential
    rw [Py.bind_ok (Py.get_apply g), Py.bind_ok (Py.require_pos hg.env g), Py.bind_ok e1]
    simp only
    rw [Py.bind_ok e2]
    rfl)
  refine ⟨_, _, _, e1, h1, Function.update_self .., by simp [mkMesh, hgeo], fun θ j k => ?_⟩
  rw [C33_cos_sin _ _ _ _ _ hgeo]
  unfold fieldAtAngle
  rw [Finset.mul_sum, Finset.sum_div]
  exact Finset.sum_congr rfl fun i _ => by ring

/-- **C158** (any separable profile). Let the profile be `T(x, y) L(t)` with any transverse part `T`, and let the phase of `L` be
the same everywhere in the time window `[a, b]`. Then the vector potential of a new laser, in either geometry, of any energy, and
on any grid with at least three samples in time, is exactly `-i e E / (m_e omega_0 c)`. -/
theorem C158_separable {dim : String} {lo hi : List ℝ} {np : List ℕ} {p : ProfileObj} {m N : Option ℕ} {l : Laser s}
    (h : Laser.init dim lo hi np p m N = .ok ⟨s, l⟩) {a b : ℝ} (hlo : lo.getLast? = some a) (hhi : hi.getLast? = some b)
    (hab : a < b) (hn : 3 ≤ s.nt) (T : ℝ → ℝ → ℂ) (L : ℝ → ℂ) (hF : p.Pointwise fun x y t => T x y * L t)
    (u : ℂ) (hL : ∀ t ∈ Set.Icc a b, ∃ A > 0, L t = ((A : ℝ) : ℂ) * u) (w0 : ℝ) (hw : 0 < w0) :
    ∃ f, l.Has f ∧ ((∃ i j k, f i j k ≠ 0) →
      ∃ g', fieldToVectorPotential w0 l.grid = (.ok fun i j k => -I * e * f i j k / (me * w0 * c), g') ∧ g'.Holds (some f)) := by
  obtain ⟨A, hA⟩ := init_separable h T L hF
  have hpts := init_time_axis h hlo hhi
  refine ⟨_, hA, fun hne => C158_unchirped l _ hA (fun i j => ?_) hne hn ?_ w0 hw⟩
  · have hm : ∀ k, l.grid.t.pts k ∈ Set.Icc a b := fun k => by rw [hpts]; exact linspace_mem hab.le k
    choose B hB hBL using fun k => hL _ (hm k)
    exact ⟨A i j * u, B, hB, fun k => by simp only [hBL]; ring⟩
  · intro k hk
    rw [hpts]
    have h3 : (3 : ℝ) ≤ s.nt := by exact_mod_cast hn
    have hd : 0 < (b - a) / ((s.nt : ℝ) - 1) := div_pos (by linarith) (by linarith)
    simp only [linspace]
    push_cast
    linarith

/-- **C158** for the built-in pulses: a Gaussian or super-Gaussian pulse in any time window, or a cosine pulse in a window that
lies inside its support, combined with any transverse profile. -/
theorem C158_built_in {dim : String} {lo hi : List ℝ} {np : List ℕ} {p : ProfileObj} {m N : Option ℕ} {l : Laser s}
    (h : Laser.init dim lo hi np p m N = .ok ⟨s, l⟩) {a b : ℝ} (hlo : lo.getLast? = some a) (hhi : hi.getLast? = some b)
    (hab : a < b) (hn : 3 ≤ s.nt) {wavelength tau tPeak cep : ℝ} (hwl : 0 < wavelength) (htau : 0 < tau) {pol : List ℂ}
    {energy : Option ℝ} {trans : ℝ → ℝ → ℂ} {dl dt : DType} {long : ℝ → ℂ}
    (hlong : long = gaussianLong wavelength tau tPeak cep ∨ (∃ nOrder, long = superGaussianLong wavelength tau tPeak nOrder cep) ∨
      (long = cosineLong wavelength tau tPeak cep ∧ tPeak - tau < a ∧ b < tPeak + tau))
    (hp : combinedProfile wavelength pol energy long dl trans dt = .ok p) :
    ∃ f, l.Has f ∧ ((∃ i j k, f i j k ≠ 0) →
      ∃ g', fieldToVectorPotential (2 * Real.pi * c / wavelength) l.grid =
        (.ok fun i j k => -I * e * f i j k / (me * (2 * Real.pi * c / wavelength : ℝ) * c), g') ∧ g'.Holds (some f)) := by
  have hcp := Phys.c_pos
  have hpi := Real.pi_pos
  refine C158_separable h hlo hhi hab hn _ _ (combined_pointwise hp)
    (exp (I * ((cep + longOmega0 wavelength * tPeak : ℝ) : ℂ))) (fun t ht => ?_) _ (by positivity)
  rcases hlong with rfl | ⟨nOrder, rfl⟩ | ⟨rfl, ha, hb⟩
  · refine ⟨Real.exp (-((t - tPeak) ^ 2 / tau ^ 2)), Real.exp_pos _, ?_⟩
    rw [gaussianLong, Complex.exp_add]
    push_cast
    rfl
  · refine ⟨Real.exp (-((t - tPeak) ^ 2 / tau ^ 2) ^ (nOrder / 2)), Real.exp_pos _, ?_⟩
    rw [superGaussianLong, Complex.exp_add, ← Complex.ofReal_neg, ← Complex.ofReal_exp]
  · have h1 : -1 < (t - tPeak) / tau := by
      rw [lt_div_iff₀ htau]
      linarith [ht.1]
    have h2 : (t - tPeak) / tau < 1 := by
      rw [div_lt_one htau]
      linarith [ht.2]
    refine ⟨Real.cos (0.5 * Real.pi * ((t - tPeak) / tau)), Real.cos_pos_of_mem_Ioo ⟨?_, ?_⟩, ?_⟩
    · norm_num
      nlinarith
    · norm_num
      nlinarith
    · simp only [cosineLong, gt_iff_lt, h1, h2, if_true, mul_one]

/-- the hypotheses of `C158_built_in` are met: a super-Gaussian pulse of order 4 with a flat transverse profile -/
example : ∃ (p : ProfileObj) (l : Laser ⟨2, 2, 5⟩),
    combinedProfile 1 [1, 0] (some 1) (superGaussianLong 1 2 0 4 0) .c128 (fun _ _ => 1) .c128 = .ok p ∧
    Laser.init "xyt" [0, 0, -3] [1, 1, 3] [2, 2, 5] p none none = .ok ⟨_, l⟩ ∧
    ∃ f g', l.Has f ∧ fieldToVectorPotential (2 * Real.pi * c / 1) l.grid =
        (.ok fun i j k => -I * e * f i j k / (me * (2 * Real.pi * c / 1 : ℝ) * c), g') ∧ g'.Holds (some f) := by
  obtain ⟨p, hp, hE, hd⟩ : ∃ p, combinedProfile 1 [1, 0] (some 1) (superGaussianLong 1 2 0 4 0) .c128 (fun _ _ => 1) .c128 = .ok p ∧
      p.laserEnergy = some (some 1) ∧ p.dtype = .c128 := ⟨_, rfl, rfl, rfl⟩
  obtain ⟨l, κ, hκ, hl, hf⟩ := scaled_xyt 0 0 (-3) 1 1 3 2 2 5 one_pos one_pos (by norm_num) le_rfl le_rfl (by norm_num) p 1 one_pos
    hE hd _ (combined_pointwise hp) (fun _ _ _ => by rw [one_mul]; exact Complex.exp_ne_zero _) none none
  obtain ⟨f, hf', h⟩ := C158_built_in hl (a := -3) (b := 3) rfl rfl (by norm_num) (by norm_num) one_pos two_pos
    (.inr (.inl ⟨4, rfl⟩)) hp
  obtain ⟨g', e, hg⟩ := h ⟨0, 0, 0, by
    rw [hf'.unique hf]
    simp only [one_mul]
    exact mul_ne_zero (Complex.exp_ne_zero _) (by exact_mod_cast hκ.ne')⟩
  exact ⟨p, l, hp, hl, f, g', hf', e, hg⟩

end Lasy
