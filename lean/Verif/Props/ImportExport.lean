import Verif.Spec.ImportExport
import Verif.Lemmas.Energy
import Verif.Lemmas.Utils
import Verif.Lemmas.AxipropWitness
import Verif.Props.Hilbert

/-!
# C112–C115: `export_to_z` and `import_from_z`
-/

namespace Lasy
open Phys Complex Spec

/-! ## Harmonics -/

theorem exp_fftfreq {n : ℕ} {d : ℝ} (hd : d ≠ 0) (m k : Fin n) :
    exp (-I * (2 * Real.pi * fftfreq n d m : ℝ) * ((k : ℕ) * d : ℝ)) = chr n (-((m : ℕ) * (k : ℕ))) := by
  have hn : n ≠ 0 := by have := m.2; omega
  have hn' : (n : ℂ) ≠ 0 := by exact_mod_cast hn
  have hd' : (d : ℂ) ≠ 0 := by exact_mod_cast hd
  have h1 : exp (-I * (2 * Real.pi * fftfreq n d m : ℝ) * ((k : ℕ) * d : ℝ)) = chr n (-(fftfreqInt n m * (k : ℕ))) := by
    unfold chr fftfreq
    congr 1
    push_cast
    field_simp
  rw [h1]
  refine chr_periodic hn ?_
  have h2 : (n : ℤ) ∣ fftfreqInt n m - (m : ℕ) := by
    unfold fftfreqInt
    split
    · simp
    · exact ⟨-1, by ring⟩
  obtain ⟨e, he⟩ := h2
  exact ⟨-(e * (k : ℕ)), by rw [show fftfreqInt n m = n * e + (m : ℕ) by omega]; ring⟩

/-- the samples of a sum of harmonics on a uniform axis, as a DFT -/
theorem harmonics_fft {n : ℕ} {p : Fin n → ℝ} {a d : ℝ} (hp : Uniform p a d) (A : Fin n → ℂ) (k : Fin n) :
    harmonics d A (p k) = fft (fun m => A m * exp (-I * (2 * Real.pi * fftfreq n d m : ℝ) * a)) k := by
  rw [fft_eq_chr]
  unfold harmonics
  refine Finset.sum_congr rfl fun m _ => ?_
  rw [← exp_fftfreq hp.1, mul_assoc (A m), ← Complex.exp_add, hp.2 k]
  congr 2
  push_cast
  ring

/-- every array of samples on a uniform axis is a sum of harmonics -/
theorem exists_harmonics {n : ℕ} {p : Fin n → ℝ} {a d : ℝ} (hp : Uniform p a d) (E : Fin n → ℂ) :
    ∃ A : Fin n → ℂ, ∀ k, E k = harmonics d A (p k) := by
  refine ⟨fun m => ifft E m * exp (I * (2 * Real.pi * fftfreq n d m : ℝ) * a), fun k => ?_⟩
  rw [harmonics_fft hp]
  have : (fun m => ifft E m * exp (I * (2 * Real.pi * fftfreq n d m : ℝ) * a) *
      exp (-I * (2 * Real.pi * fftfreq n d m : ℝ) * a)) = ifft E := by
    funext m
    rw [mul_assoc, ← Complex.exp_add]
    ring_nf
    simp
  rw [this, fft_ifft]

theorem harmonics_conj {n : ℕ} (d : ℝ) (A : Fin n → ℂ) (x : ℝ) :
    harmonics d A (-x) = (starRingEnd ℂ) (harmonics d (fun m => (starRingEnd ℂ) (A m)) x) := by
  unfold harmonics
  rw [map_sum]
  refine Finset.sum_congr rfl fun m _ => ?_
  rw [map_mul, Complex.conj_conj, ← Complex.exp_conj]
  simp only [map_mul, map_neg, conj_I, conj_ofReal]
  congr 2
  push_cast
  ring

theorem harmonics_scale {n : ℕ} {b : ℝ} (hb : b ≠ 0) (d : ℝ) (A : Fin n → ℂ) (x : ℝ) :
    harmonics (b * d) A (b * x) = harmonics d A x := by
  unfold harmonics fftfreq
  refine Finset.sum_congr rfl fun m _ => ?_
  have hb' : (b : ℂ) ≠ 0 := by exact_mod_cast hb
  congr 2
  by_cases hd : d = 0
  · simp [hd]
  by_cases hn : n = 0
  · simp [hn]
  have hn' : (n : ℂ) ≠ 0 := by exact_mod_cast hn
  have hd' : (d : ℂ) ≠ 0 := by exact_mod_cast hd
  push_cast
  field_simp

/-- Parseval for the samples of a sum of harmonics -/
theorem harmonics_norm {n : ℕ} {p : Fin n → ℝ} {a d : ℝ} (hp : Uniform p a d) (A : Fin n → ℂ) :
    ∑ k, ‖harmonics d A (p k)‖ ^ 2 = n * ∑ m, ‖A m‖ ^ 2 := by
  simp only [harmonics_fft hp, parseval_fft, norm_mul]
  congr 1
  refine Finset.sum_congr rfl fun m _ => ?_
  have : -I * (2 * Real.pi * fftfreq n d m : ℝ) * a = ((-(2 * Real.pi * fftfreq n d m) * a : ℝ) : ℂ) * I := by
    push_cast; ring
  rw [this, Complex.norm_exp_ofReal_mul_I, mul_one]

variable [Phys] {s : Shape}

theorem c_ne : (c : ℂ) ≠ 0 := by exact_mod_cast (Phys.c_pos).ne'

/-! ## The two functions on separable fields -/

omit [Phys] in
theorem fieldFt_harmonics {n : ℕ} {p : Fin n → ℝ} {a d : ℝ} (hp : Uniform p a d) (A : Fin n → ℂ) (w : ℂ) (m : Fin n) :
    fieldFt d a (fun k => w * harmonics d A (p k)) m = w * A m := by
  unfold fieldFt
  simp only [harmonics_fft hp, ifft_smul]
  rw [ifft_fft, mul_assoc, mul_assoc, ← Complex.exp_add]
  ring_nf
  simp

theorem snapshot_sum {n : ℕ} (omega0 dt : ℝ) (A : Fin n → ℂ) (z : ℝ) :
    (∑ m, A m * exp (I * kFreq omega0 dt n m * z)) * exp (-I * (z / c + (0 : ℝ)) * omega0) =
      harmonics dt A (-(z / c)) := by
  unfold harmonics
  rw [Finset.sum_mul]
  refine Finset.sum_congr rfl fun m _ => ?_
  rw [mul_assoc, ← Complex.exp_add]
  congr 2
  unfold kFreq fftfreq
  by_cases hd : dt = 0
  · simp [hd]; ring
  have hn : n ≠ 0 := by have := m.2; omega
  have hn' : (n : ℂ) ≠ 0 := by exact_mod_cast hn
  have hd' : (dt : ℂ) ≠ 0 := by exact_mod_cast hd
  have := c_ne
  push_cast
  field_simp
  ring

theorem zTransform_harmonics {n : ℕ} {p : Fin n → ℝ} {a d : ℝ} (hp : Uniform p a d) (omega0 : ℝ) (A : Fin n → ℂ) (w : ℂ)
    (m : Fin n) : zTransform omega0 d a (fun k => w * harmonics d A (-(p k))) m = w * A m := by
  have hn : n ≠ 0 := by have := m.2; omega
  have hn' : (n : ℂ) ≠ 0 := by exact_mod_cast hn
  have hd' : (d : ℂ) ≠ 0 := by exact_mod_cast hp.1
  have hc := c_ne
  have h1 : (fun k => w * harmonics d A (-(p k))) = fun k =>
      (w * n) * ifft (fun m => A m * exp (I * (2 * Real.pi * fftfreq n d m : ℝ) * a)) k := by
    funext k
    rw [harmonics_conj, harmonics_fft hp, fft_eq_chr, ifft_eq_chr, map_sum, mul_assoc, mul_div_cancel₀ _ hn']
    congr 1
    refine Finset.sum_congr rfl fun l _ => ?_
    rw [map_mul, map_mul, ← chr_neg, Complex.conj_conj, ← Complex.exp_conj, neg_neg, mul_comm ((l : ℕ) : ℤ)]
    simp only [map_mul, map_neg, conj_I, conj_ofReal, neg_neg]
  unfold zTransform
  rw [h1, fft_smul]
  simp only [fft_ifft]
  have h2 : (-I * a * ((((2 * Real.pi * fftfreq n (d / c) m + omega0) / c : ℝ) : ℂ) - omega0 / c)) =
      -(I * (2 * Real.pi * fftfreq n d m : ℝ) * a) := by
    unfold fftfreq
    push_cast
    field_simp
    ring
  rw [h2, mul_assoc w, mul_div_assoc, mul_div_cancel_left₀ _ hn', mul_assoc, mul_assoc, ← Complex.exp_add]
  simp

theorem record_sum {n : ℕ} (omega0 d : ℝ) (A : Fin n → ℂ) (t : ℝ) :
    (∑ m, A m * exp (-I * ((2 * Real.pi * fftfreq n (d / c) m + omega0) / c : ℝ) * c * t)) *
      exp (I * ((0 : ℝ) / c + t) * omega0) = harmonics d A (c * t) := by
  unfold harmonics
  rw [Finset.sum_mul]
  refine Finset.sum_congr rfl fun m _ => ?_
  rw [mul_assoc, ← Complex.exp_add]
  congr 2
  unfold fftfreq
  have hc := c_ne
  by_cases hd : d = 0
  · simp [hd]; field_simp; ring
  have hn : n ≠ 0 := by have := m.2; omega
  have hn' : (n : ℂ) ≠ 0 := by exact_mod_cast hn
  have hd' : (d : ℂ) ≠ 0 := by exact_mod_cast hd
  push_cast
  field_simp
  ring

theorem exportArray_free {g : Grid s} {ax : AxipropZ} {φ : Fin s.n0 → Fin s.n1 → ℂ} (hφ : g.Free ax φ) (omega0 : ℝ)
    {ta dt : ℝ} (hp : Uniform g.t.pts ta dt) (A : Fin s.nt → ℂ) {nz : ℕ} (z : Fin nz → ℝ) (b : String) :
    exportArray ax g omega0 .c128 (fun i j k => φ i j * harmonics dt A (g.t.pts k)) dt ta z 0 0 b =
      .ok fun i j q => φ i j * harmonics dt A (-(z q / c)) := by
  unfold exportArray
  unfold Grid.Free at hφ
  rcases hg : g.geom with ⟨x, y⟩ | ⟨n, hm, r⟩
  · rw [hg] at hφ
    dsimp only at hφ ⊢
    simp only [fieldFt_harmonics hp, hφ.t2z]
    congr 1
    funext i j q
    rw [mul_assoc, snapshot_sum]
  · rw [hg] at hφ
    dsimp only at hφ ⊢
    rw [if_pos rfl]
    simp only [fieldFt_harmonics hp]
    congr 1
    funext i j q
    rw [(hφ i).t2z, mul_assoc, snapshot_sum]

theorem importArray_free {g : Grid s} {ax : AxipropZ} {φ : Fin s.n0 → Fin s.n1 → ℂ} (hφ : g.Free ax φ) (omega0 : ℝ)
    {nz : ℕ} {z : Fin nz → ℝ} {za dz : ℝ} (hp : Uniform z za dz) (A : Fin nz → ℂ) (b : String) :
    importArray ax g omega0 (fun i j q => φ i j * harmonics dz A (-(z q))) dz za 0 0 b =
      fun i j k => φ i j * harmonics dz A (c * g.t.pts k) := by
  unfold importArray
  unfold Grid.Free at hφ
  rcases hg : g.geom with ⟨x, y⟩ | ⟨n, hm, r⟩
  · rw [hg] at hφ
    dsimp only at hφ ⊢
    simp only [zTransform_harmonics hp, hφ.z2t]
    funext i j q
    rw [mul_assoc, record_sum]
  · rw [hg] at hφ
    dsimp only at hφ ⊢
    simp only [zTransform_harmonics hp]
    funext i j q
    rw [(hφ i).z2t, mul_assoc, record_sum]

omit [Phys] in
theorem uniform_step {n : ℕ} {p : Fin n → ℝ} {a d : ℝ} (hp : Uniform p a d) (h : 2 ≤ n) :
    p ⟨1, by omega⟩ - p ⟨0, by omega⟩ = d ∧ p ⟨0, by omega⟩ = a := by
  rw [hp.2, hp.2]
  constructor <;> simp

theorem exportToZ_free (ax : AxipropZ) (g : Grid s) (h2 : 2 ≤ s.nt) (φ : Fin s.n0 → Fin s.n1 → ℂ) (hφ : g.Free ax φ)
    (ta dt : ℝ) (hp : Uniform g.t.pts ta dt) (A : Fin s.nt → ℂ)
    (h : g.Holds (some fun i j k => φ i j * harmonics dt A (g.t.pts k))) (omega0 : ℝ) (zAxis : Option (Σ n : ℕ, Fin n → ℝ))
    (z : Σ n : ℕ, Fin n → ℝ) (hz : zAxis.getD ⟨s.nt, fun k => g.t.pts k * c⟩ = z) (b : String) :
    ∃ g', exportToZ ax omega0 zAxis 0 0 b g = (.ok ⟨z.1, fun i j q => φ i j * harmonics dt A (-(z.2 q / c))⟩, g') ∧
      g'.Holds (some fun i j k => φ i j * harmonics dt A (g.t.pts k)) ∧ g'.geom = g.geom ∧ g'.t = g.t := by
  obtain ⟨g', e, h', hg, ht⟩ := h.getT
  refine ⟨g', ?_, h', hg, ht⟩
  unfold exportToZ
  rw [Py.bind_ok (Py.get_apply g), hz]
  refine (congrFun (dif_pos h2) g).trans ?_
  rw [Py.bind_ok e, (uniform_step hp h2).1, (uniform_step hp h2).2, exportArray_free hφ omega0 hp A z.2 b]
  rfl

theorem importFromZ_free (ax : AxipropZ) (g : Grid s) {st : Option (Field s)} (h : g.Holds st) (φ : Fin s.n0 → Fin s.n1 → ℂ)
    (hφ : g.Free ax φ) {nz : ℕ} (h2 : 2 ≤ nz) (z : Fin nz → ℝ) (za dz : ℝ) (hp : Uniform z za dz) (A : Fin nz → ℂ)
    (omega0 : ℝ) (b : String) :
    ∃ g', importFromZ ax omega0 ⟨nz, fun i j q => φ i j * harmonics dz A (-(z q))⟩ z 0 0 b g = (.ok (), g') ∧
      g'.Holds (some fun i j k => φ i j * harmonics dz A (c * g.t.pts k)) ∧ g'.geom = g.geom ∧ g'.t = g.t := by
  obtain ⟨g', e, h', hg, ht⟩ := h.setT fun i j k => φ i j * harmonics dz A (c * g.t.pts k)
  refine ⟨g', ?_, h', hg, ht⟩
  unfold importFromZ
  rw [Py.bind_ok (Py.get_apply g)]
  refine (congrFun (dif_pos h2) g).trans ?_
  rw [(uniform_step hp h2).1, (uniform_step hp h2).2, importArray_free hφ omega0 hp A b]
  exact e

/-! ## C112 -/

/-- **C112.** Round trip: if axiprop carries the transverse profile `φ` without diffraction, a field that is `φ` times any
pulse, exported with the default `z_axis` and imported with the `z_axis` that the documentation gives for this case
(`c * t_axis`) into any envelope grid with the same transverse axes and the same time axis, is restored in every sample,
whatever this grid held before. The first grid keeps its field. -/
theorem C112_round_trip (ax : AxipropZ) (g g2 : Grid s) (h2 : 2 ≤ s.nt) (φ : Fin s.n0 → Fin s.n1 → ℂ) (hφ : g.Free ax φ)
    (ta dt : ℝ) (hp : Uniform g.t.pts ta dt) (E : Fin s.nt → ℂ) (h : g.Holds (some fun i j k => φ i j * E k))
    (st : Option (Field s)) (hst : g2.Holds st) (hgeom : g2.geom = g.geom) (ht : g2.t.pts = g.t.pts) (omega0 : ℝ)
    (b b2 : String) :
    ∃ (u : Fin s.n0 → Fin s.n1 → Fin s.nt → ℂ) (g' g2' : Grid s),
      exportToZ ax omega0 none 0 0 b g = (.ok ⟨s.nt, u⟩, g') ∧ g'.Holds (some fun i j k => φ i j * E k) ∧
      importFromZ ax omega0 ⟨s.nt, u⟩ (fun k => c * g.t.pts k) 0 0 b2 g2 = (.ok (), g2') ∧
      g2'.Holds (some fun i j k => φ i j * E k) := by
  obtain ⟨A, hA⟩ := exists_harmonics hp E
  obtain rfl : E = fun k => harmonics dt A (g.t.pts k) := funext hA
  obtain ⟨g', e1, h1, -, -⟩ := exportToZ_free ax g h2 φ hφ ta dt hp A h omega0 none _ rfl b
  have hc : (c : ℝ) ≠ 0 := Phys.c_pos.ne'
  have hu : ∀ k, harmonics dt A (-(g.t.pts k * c / c)) = harmonics (c * dt) A (-(c * g.t.pts k)) := by
    intro k
    rw [mul_div_cancel_right₀ _ hc, ← mul_neg, harmonics_scale hc]
  simp only [Option.getD_none, hu] at e1
  have hz : Uniform (fun k => c * g.t.pts k) (c * ta) (c * dt) :=
    ⟨mul_ne_zero hc hp.1, fun k => by dsimp only; rw [hp.2]; ring⟩
  have hφ2 : g2.Free ax φ := by
    unfold Grid.Free at hφ ⊢
    rwa [hgeom]
  obtain ⟨g2', e2, h2', -, -⟩ := importFromZ_free ax g2 hst φ hφ2 h2 (fun k => c * g.t.pts k) _ _ hz A omega0 b2
  refine ⟨_, g', g2', e1, h1, e2, ?_⟩
  simp only [harmonics_scale hc, ht] at h2'
  exact h2'

/-! ## C113 -/

/-- **C113.** If axiprop carries the transverse profile `φ` without diffraction, and the field of the grid is `φ` times a pulse
`E(t)` made of the frequencies of its (uniform) time axis, then `export_to_z` returns `φ · E(-z/c)` at every `z` of every
axis: what passes `z = 0` at time `t` is found at `z = -ct` in the snapshot, the front of the pulse at larger `z`. The grid
still holds its field on its axes. -/
theorem C113_export (ax : AxipropZ) (g : Grid s) (h2 : 2 ≤ s.nt) (φ : Fin s.n0 → Fin s.n1 → ℂ) (hφ : g.Free ax φ)
    (ta dt : ℝ) (hp : Uniform g.t.pts ta dt) (A : Fin s.nt → ℂ)
    (h : g.Holds (some fun i j k => φ i j * harmonics dt A (g.t.pts k))) (omega0 : ℝ) {nz : ℕ} (z : Fin nz → ℝ)
    (b : String) :
    ∃ g', exportToZ ax omega0 (some ⟨nz, z⟩) 0 0 b g = (.ok ⟨nz, fun i j q => φ i j * harmonics dt A (-(z q / c))⟩, g') ∧
      g'.Holds (some fun i j k => φ i j * harmonics dt A (g.t.pts k)) ∧ g'.geom = g.geom ∧ g'.t = g.t :=
  exportToZ_free ax g h2 φ hφ ta dt hp A h omega0 (some ⟨nz, z⟩) ⟨nz, z⟩ rfl b

/-- **C113**, sample by sample, for any pulse: a point `z = -c t_k` of the axis shows the sample `k`. -/
theorem C113_samples (ax : AxipropZ) (g : Grid s) (h2 : 2 ≤ s.nt) (φ : Fin s.n0 → Fin s.n1 → ℂ) (hφ : g.Free ax φ)
    (ta dt : ℝ) (hp : Uniform g.t.pts ta dt) (E : Fin s.nt → ℂ) (h : g.Holds (some fun i j k => φ i j * E k)) (omega0 : ℝ)
    {nz : ℕ} (z : Fin nz → ℝ) (b : String) :
    ∃ (u : Fin s.n0 → Fin s.n1 → Fin nz → ℂ) (g' : Grid s),
      exportToZ ax omega0 (some ⟨nz, z⟩) 0 0 b g = (.ok ⟨nz, u⟩, g') ∧
      ∀ q k, z q = -(c * g.t.pts k) → ∀ i j, u i j q = φ i j * E k := by
  obtain ⟨A, hA⟩ := exists_harmonics hp E
  obtain rfl : E = fun k => harmonics dt A (g.t.pts k) := funext hA
  obtain ⟨g', e, -⟩ := C113_export ax g h2 φ hφ ta dt hp A h omega0 z b
  refine ⟨_, g', e, fun q k hq i j => ?_⟩
  have hc : (c : ℝ) ≠ 0 := Phys.c_pos.ne'
  dsimp only
  rw [hq, neg_div, neg_neg, mul_div_cancel_left₀ _ hc]

/-- **C113**, the default axis on a time window centred on 0: the snapshot is the field with the time axis reversed. -/
theorem C113_reversed (ax : AxipropZ) (g : Grid s) (h2 : 2 ≤ s.nt) (φ : Fin s.n0 → Fin s.n1 → ℂ) (hφ : g.Free ax φ)
    (T : ℝ) (hT : T ≠ 0) (hp : g.t.pts = linspace (-T) T s.nt) (E : Fin s.nt → ℂ)
    (h : g.Holds (some fun i j k => φ i j * E k)) (omega0 : ℝ) (b : String) :
    ∃ g', exportToZ ax omega0 none 0 0 b g = (.ok ⟨s.nt, fun i j q => φ i j * E q.rev⟩, g') := by
  have hn : ((s.nt : ℝ) - 1) ≠ 0 := by
    have : (2 : ℝ) ≤ s.nt := by exact_mod_cast h2
    linarith
  have hu : Uniform g.t.pts (-T) ((T - -T) / ((s.nt : ℝ) - 1)) := by
    refine ⟨div_ne_zero (by intro h; apply hT; linarith) hn, fun k => ?_⟩
    rw [hp]; rfl
  obtain ⟨A, hA⟩ := exists_harmonics hu E
  obtain rfl : E = fun k => harmonics _ A (g.t.pts k) := funext hA
  obtain ⟨g', e, -⟩ := exportToZ_free ax g h2 φ hφ _ _ hu A h omega0 none _ rfl b
  refine ⟨g', e.trans ?_⟩
  congr 3
  change (fun i j (q : Fin s.nt) => φ i j * harmonics _ A (-(g.t.pts q * c / c))) = _
  funext i j q
  have hc : (c : ℝ) ≠ 0 := Phys.c_pos.ne'
  congr 2
  rw [mul_div_cancel_right₀ _ hc, hp]
  have hq : ((q.rev : Fin s.nt) : ℕ) = s.nt - 1 - (q : ℕ) := by rw [Fin.val_rev]; omega
  have hq' : (((q.rev : Fin s.nt) : ℕ) : ℝ) = (s.nt : ℝ) - 1 - (q : ℕ) := by
    rw [hq, Nat.cast_sub (by have := q.2; omega), Nat.cast_sub (by omega)]
    simp
  unfold linspace
  rw [hq']
  field_simp
  ring

/-! ## C114 -/

/-- **C114.** `import_from_z` records what passes `z = 0`: from `φ` times a snapshot `U(z)` made of the wavenumbers of its
(uniform) `z` axis, the grid gets `φ · U(-ct)` at every point of its time axis, whatever it held before; its axes stay. -/
theorem C114_import (ax : AxipropZ) (g : Grid s) (st : Option (Field s)) (h : g.Holds st) (φ : Fin s.n0 → Fin s.n1 → ℂ)
    (hφ : g.Free ax φ) {nz : ℕ} (h2 : 2 ≤ nz) (z : Fin nz → ℝ) (za dz : ℝ) (hp : Uniform z za dz) (A : Fin nz → ℂ)
    (U : ℝ → ℂ) (hU : ∀ x, U x = ∑ m, A m * exp (I * (2 * Real.pi * fftfreq nz dz m : ℝ) * x)) (omega0 : ℝ) (b : String) :
    ∃ g', importFromZ ax omega0 ⟨nz, fun i j q => φ i j * U (z q)⟩ z 0 0 b g = (.ok (), g') ∧
      g'.Holds (some fun i j k => φ i j * U (-(c * g.t.pts k))) ∧ g'.geom = g.geom ∧ g'.t = g.t := by
  have hU' : ∀ x, U x = harmonics dz A (-x) := by
    intro x
    rw [hU]
    unfold harmonics
    refine Finset.sum_congr rfl fun m _ => ?_
    congr 2
    push_cast
    ring
  have e1 : (fun i j q => φ i j * U (z q)) = fun i j q => φ i j * harmonics dz A (-(z q)) := by
    funext i j q; rw [hU']
  have e2 : (fun i j k => φ i j * U (-(c * g.t.pts k))) = fun i j k => φ i j * harmonics dz A (c * g.t.pts k) := by
    funext i j k; rw [hU', neg_neg]
  rw [e1, e2]
  exact importFromZ_free ax g h φ hφ h2 z za dz hp A omega0 b

/-- **C114**, the other round trip: importing a snapshot into a grid with the time axis `z_axis / c` and exporting it again
gives the snapshot back. -/
theorem C114_round_trip (ax : AxipropZ) (g : Grid s) (st : Option (Field s)) (h : g.Holds st) (h2 : 2 ≤ s.nt)
    (φ : Fin s.n0 → Fin s.n1 → ℂ) (hφ : g.Free ax φ) (ta dt : ℝ) (hp : Uniform g.t.pts ta dt) (U : Fin s.nt → ℂ)
    (omega0 : ℝ) (b b2 : String) :
    ∃ g1 g2, importFromZ ax omega0 ⟨s.nt, fun i j q => φ i j * U q⟩ (fun k => g.t.pts k * c) 0 0 b g = (.ok (), g1) ∧
      exportToZ ax omega0 none 0 0 b2 g1 = (.ok ⟨s.nt, fun i j q => φ i j * U q⟩, g2) := by
  have hc : (c : ℝ) ≠ 0 := Phys.c_pos.ne'
  have hz : Uniform (fun k => g.t.pts k * c) (ta * c) (c * dt) :=
    ⟨mul_ne_zero hc hp.1, fun k => by dsimp only; rw [hp.2]; ring⟩
  obtain ⟨A', hA'⟩ := exists_harmonics hz fun q => (starRingEnd ℂ) (U q)
  obtain ⟨A, rfl⟩ : ∃ A : Fin s.nt → ℂ, A' = fun m => (starRingEnd ℂ) (A m) :=
    ⟨fun m => (starRingEnd ℂ) (A' m), by funext m; simp⟩
  have hU : U = fun q => harmonics (c * dt) A (-(g.t.pts q * c)) := by
    funext q
    rw [harmonics_conj, ← hA' q, Complex.conj_conj]
  subst hU
  obtain ⟨g1, e1, h1, hg, ht⟩ := importFromZ_free ax g h φ hφ h2 _ _ _ hz A omega0 b
  simp only [harmonics_scale hc, ← ht] at h1
  have hφ1 : g1.Free ax φ := by
    unfold Grid.Free at hφ ⊢
    rwa [hg]
  obtain ⟨g2, e2, -⟩ := exportToZ_free ax g1 h2 φ hφ1 ta dt (by rw [ht]; exact hp) A h1 omega0 none _ rfl b2
  refine ⟨g1, g2, e1, e2.trans ?_⟩
  congr 3
  funext i j q
  dsimp only [Option.getD_none]
  rw [mul_div_cancel_right₀ _ hc, ht, ← harmonics_scale hc, mul_neg, mul_comm (c : ℝ) (g.t.pts q)]

/-! ## C115 -/

/-- **C115.** `export_to_z` with the default axis conserves the energy in each transverse cell: `∑_z |E_z|² = ∑_t |E|²`
(the steps of the two axes are `c dt` and `dt`). -/
theorem C115_energy (ax : AxipropZ) (g : Grid s) (h2 : 2 ≤ s.nt) (φ : Fin s.n0 → Fin s.n1 → ℂ) (hφ : g.Free ax φ)
    (ta dt : ℝ) (hp : Uniform g.t.pts ta dt) (E : Fin s.nt → ℂ) (f : Field s) (hf : f = fun i j k => φ i j * E k)
    (h : g.Holds (some f)) (omega0 : ℝ) (b : String) :
    ∃ (u : Fin s.n0 → Fin s.n1 → Fin s.nt → ℂ) (g' : Grid s), exportToZ ax omega0 none 0 0 b g = (.ok ⟨s.nt, u⟩, g') ∧
      ∀ i j, ∑ q, ‖u i j q‖ ^ 2 = ∑ k, ‖f i j k‖ ^ 2 := by
  obtain ⟨A, hA⟩ := exists_harmonics hp E
  obtain rfl : E = fun k => harmonics dt A (g.t.pts k) := funext hA
  subst hf
  obtain ⟨g', e, -⟩ := exportToZ_free ax g h2 φ hφ ta dt hp A h omega0 none _ rfl b
  refine ⟨_, g', e, fun i j => ?_⟩
  have hc : (c : ℝ) ≠ 0 := Phys.c_pos.ne'
  simp only [Option.getD_none, norm_mul, mul_pow, ← Finset.mul_sum, mul_div_cancel_right₀ _ hc, harmonics_conj,
    RCLike.norm_conj, harmonics_norm hp]

/-! ## C116 -/

/-- **C116.** `import_from_z` refuses a grid that holds full fields, and the grid stays as it is. -/
theorem C116_full_field_refused (ax : AxipropZ) (g : Grid s) (hg : g.isEnvelope = false) (u : FieldZ s) (h2 : 2 ≤ u.nz)
    (z : Fin u.nz → ℝ) (omega0 z0 t0 : ℝ) (b : String) :
    importFromZ ax omega0 u z z0 t0 b g = (.error .assertion, g) := by
  unfold importFromZ
  rw [Py.bind_ok (Py.get_apply g)]
  refine (congrFun (dif_pos h2) g).trans ?_
  exact setTemporalField_err (by simp [hg, dtypeOf])

/-- **C116.** `export_to_z` refuses a full field in `rt` geometry (with a `TypeError`, from NumPy), and the grid stays as it
is. -/
theorem C116_export_rt_refused (ax : AxipropZ) (g : Grid s) (h2 : 2 ≤ s.nt) (E : RField s) (h : g.HoldsReal E)
    (hg : g.geom.dim = .rt) (omega0 z0 t0 : ℝ) (zAxis : Option (Σ n : ℕ, Fin n → ℝ)) (b : String) :
    exportToZ ax omega0 zAxis z0 t0 b g = (.error .type, g) := by
  unfold exportToZ
  rw [Py.bind_ok (Py.get_apply g)]
  refine (congrFun (dif_pos h2) g).trans ?_
  rw [Py.bind_ok h.getT]
  unfold exportArray
  rcases hgeom : g.geom with ⟨x, y⟩ | ⟨n, hm, r⟩
  · rw [hgeom] at hg; cases hg
  · rfl

/-- **C116 is refuted** for `export_to_z` in Cartesian geometry: a full field is accepted without complaint. -/
theorem C116_refuted (ax : AxipropZ) (g : Grid s) (h2 : 2 ≤ s.nt) (E : RField s) (h : g.HoldsReal E)
    (hg : g.geom.dim = .xyt) (omega0 z0 t0 : ℝ) (zAxis : Option (Σ n : ℕ, Fin n → ℝ)) (b : String) :
    ∃ u, exportToZ ax omega0 zAxis z0 t0 b g = (.ok u, g) := by
  rcases hgeom : g.geom with ⟨x, y⟩ | ⟨n, hm, r⟩
  · refine ⟨?_, ?_⟩
    rotate_left
    · unfold exportToZ
      rw [Py.bind_ok (Py.get_apply g)]
      refine (congrFun (dif_pos h2) g).trans ?_
      rw [Py.bind_ok h.getT]
      unfold exportArray
      rw [hgeom]
      rfl
  · rw [hgeom] at hg; cases hg

/-! ## The contract on axiprop can be met -/

/-- the longitudinal wavenumber with the sign of `k` -/
noncomputable def kLongSigned (Lx Ly k : ℝ) {nx ny : ℕ} (i : Fin nx) (j : Fin ny) : ℝ :=
  if 0 ≤ k then kLong Lx Ly k i j else -kLong Lx Ly k i j

/-- the frequency (over `c`) of the plane wave with longitudinal wavenumber `k`, with the sign of `k` -/
noncomputable def kTotalSigned (Lx Ly k : ℝ) {nx ny : ℕ} (i : Fin nx) (j : Fin ny) : ℝ :=
  let K := Real.sqrt (k ^ 2 + (2 * Real.pi * fftfreq nx (Lx / nx) i) ^ 2 + (2 * Real.pi * fftfreq ny (Ly / ny) j) ^ 2)
  if 0 ≤ k then K else -K

/-- propagation in free space: in Cartesian geometry by the angular spectrum, in `rt` without diffraction; `z0 = t0 = 0` -/
noncomputable def AxipropZ.freeSpace : AxipropZ where
  t2zRT := fun _ k _ _ _ _ z u q j => ∑ l, u l j * exp (I * k l * z q)
  z2tRT := fun _ k _ _ _ _ t u q j => ∑ l, u l j * exp (-I * k l * c * t q)
  t2zXY := fun Lx Ly k _ _ _ z u q =>
    ifft2 fun i j => ∑ l, fft2 (u l) i j * exp (I * (kLongSigned Lx Ly (k l) i j : ℝ) * z q)
  z2tXY := fun Lx Ly k _ _ _ t u q =>
    ifft2 fun i j => ∑ l, fft2 (u l) i j * exp (-I * (kTotalSigned Lx Ly (k l) i j : ℝ) * c * t q)

theorem AxipropZ.freeSpace_rt {nr : ℕ} (r : Fin nr → ℝ) (m : ℤ) (φ : Fin nr → ℂ) : AxipropZ.freeSpace.FreeRT r m φ where
  t2z := by
    intro nk nz k b z a q j
    simp only [freeSpace, Finset.mul_sum, mul_assoc]
  z2t := by
    intro nk nt k b t a q j
    simp only [freeSpace, Finset.mul_sum, mul_assoc]

omit [Phys] in
theorem fft2_const {nx ny : ℕ} (w : ℂ) (i : Fin nx) (j : Fin ny) :
    fft2 (fun (_ : Fin nx) (_ : Fin ny) => w) i j = if (i : ℕ) = 0 ∧ (j : ℕ) = 0 then w * nx * ny else 0 := by
  have key : ∀ {n : ℕ} (v : ℂ) (k : Fin n), fft (fun _ : Fin n => v) k = if (k : ℕ) = 0 then v * n else 0 := by
    intro n v k
    have hn : n ≠ 0 := by have := k.2; omega
    rw [fft_eq_chr, ← Finset.mul_sum]
    have h1 := sum_chr hn (-((k : ℕ) : ℤ))
    have h2 : ∀ j : Fin n, chr n (-((j : ℕ) * (k : ℕ))) = chr n ((j : ℕ) * (-((k : ℕ) : ℤ))) := by
      intro j; congr 1; ring
    simp only [h2, h1]
    have h3 : (n : ℤ) ∣ -((k : ℕ) : ℤ) ↔ (k : ℕ) = 0 := by
      rw [dvd_neg, Int.natCast_dvd_natCast]
      exact ⟨fun h => Nat.eq_zero_of_dvd_of_lt h k.2, fun h => h ▸ dvd_zero n⟩
    by_cases hk : (k : ℕ) = 0
    · rw [if_pos (h3.2 hk), if_pos hk]
    · rw [if_neg (fun h => hk (h3.1 h)), if_neg hk, mul_zero]
  simp only [fft2, key]
  split_ifs with h1 h2 h3 <;> simp_all
  ring

omit [Phys] in
theorem sqrt_signed (k : ℝ) : (if 0 ≤ k then Real.sqrt (k ^ 2) else -Real.sqrt (k ^ 2)) = k := by
  rw [Real.sqrt_sq_eq_abs]
  split_ifs with h
  · exact abs_of_nonneg h
  · rw [abs_of_neg (not_le.1 h), neg_neg]

omit [Phys] in
/-- the angular spectrum carries a transversely uniform field without diffraction -/
theorem angular_uniform {nx ny nk : ℕ} (w : ℂ) (a : Fin nk → ℂ) (e : Fin nk → Fin nx → Fin ny → ℂ) (e0 : Fin nk → ℂ)
    (he : ∀ l (i : Fin nx) (j : Fin ny), (i : ℕ) = 0 → (j : ℕ) = 0 → e l i j = e0 l) (i : Fin nx) (j : Fin ny) :
    ifft2 (fun i j => ∑ l, fft2 (fun _ _ => w * a l) i j * e l i j) i j = w * ∑ l, a l * e0 l := by
  have h1 : (fun i j => ∑ l, fft2 (fun (_ : Fin nx) (_ : Fin ny) => w * a l) i j * e l i j) =
      fft2 (fun _ _ => w * ∑ l, a l * e0 l) := by
    funext i j
    simp only [fft2_const]
    split_ifs with h
    · simp only [he _ i j h.1 h.2, Finset.mul_sum, Finset.sum_mul]
      refine Finset.sum_congr rfl fun l _ => ?_
      ring
    · simp
  rw [h1, ifft2_fft2]

theorem AxipropZ.freeSpace_xy {nx ny : ℕ} (Lx Ly : ℝ) (w : ℂ) :
    AxipropZ.freeSpace.FreeXY Lx Ly (fun (_ : Fin nx) (_ : Fin ny) => w) where
  t2z := by
    intro nk nz k b z a q i j
    refine angular_uniform w a _ (fun l => exp (I * k l * z q)) (fun l i j hi hj => ?_) i j
    have : kLongSigned Lx Ly (k l) i j = k l := by
      unfold kLongSigned kLong fftfreq fftfreqInt
      simp only [hi, hj]
      simpa using sqrt_signed (k l)
    rw [this]
  z2t := by
    intro nk nt k b t a q i j
    refine angular_uniform w a _ (fun l => exp (-I * k l * c * t q)) (fun l i j hi hj => ?_) i j
    have : kTotalSigned Lx Ly (k l) i j = k l := by
      unfold kTotalSigned fftfreq fftfreqInt
      simp only [hi, hj]
      simpa using sqrt_signed (k l)
    rw [this]

/-- Non-vacuity of C112–C115: a plane-wave pulse with an arbitrary temporal shape on a Cartesian grid, carried by the
angular-spectrum propagator. -/
example (E : Fin 5 → ℂ) (w : ℂ) : ∃ (ax : AxipropZ) (g : Grid ⟨4, 4, 5⟩), g.Free ax (fun _ _ => w) ∧
    Uniform g.t.pts (-2) 1 ∧ g.Holds (some fun _ _ k => w * E k) := by
  refine ⟨AxipropZ.freeSpace, Grid.holding (.xyt ⟨-1, 1, 2 / 3, linspace (-1) 1 4⟩ ⟨-1, 1, 2 / 3, linspace (-1) 1 4⟩)
    ⟨-2, 2, 1, linspace (-2) 2 5⟩ (fun _ _ k => w * E k), ?_, ⟨one_ne_zero, fun k => ?_⟩, Grid.holding_holds _ _ _⟩
  · exact AxipropZ.freeSpace_xy _ _ w
  · simp only [Grid.holding, linspace]
    norm_num

/-- Non-vacuity in `rt` geometry with two azimuthal modes and an arbitrary transverse profile. -/
example (E : Fin 5 → ℂ) (φ : Fin 3 → Fin 4 → ℂ) : ∃ (ax : AxipropZ) (g : Grid ⟨3, 4, 5⟩), g.Free ax φ ∧
    Uniform g.t.pts (-2) 1 ∧ g.Holds (some fun i j k => φ i j * E k) := by
  refine ⟨AxipropZ.freeSpace, Grid.holding (.rt 2 ⟨by omega, rfl⟩ ⟨0, 1, 1 / 3, linspace 0 1 4⟩)
    ⟨-2, 2, 1, linspace (-2) 2 5⟩ (fun i j k => φ i j * E k), ?_, ⟨one_ne_zero, fun k => ?_⟩, Grid.holding_holds _ _ _⟩
  · exact fun i => AxipropZ.freeSpace_rt _ _ _
  · simp only [Grid.holding, linspace]
    norm_num

end Lasy
