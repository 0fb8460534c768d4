import Verif.Props.Spectrum
import Verif.Props.Hilbert
import Verif.Lemmas.Lines
import Verif.Lemmas.NpInterp

/-!
# Properties C102-C106: `get_spectrum` of full fields, on the axis, `raw`, and in a frequency range
-/

namespace Lasy
open Spec Phys Complex

variable {s : Shape} [Phys]

/-! ## what the calls return -/

/-- the columns of the spectrum of an envelope -/
noncomputable def envColumns (g : Grid s) (f : Field s) (w0 dt : ℝ) : List (Column s) :=
  (((List.finRange s.nt).map fun k =>
      { omega := bandFreq s.nt dt w0 k
        amp := fun i j => 0.5 * fft (f i j) k * g.t.dx : Column s }).insertionSort
    (fun a b => a.omega ≤ b.omega)).filter fun col => 0 ≤ col.omega

/-- the columns of the spectrum of a real field -/
noncomputable def realColumns (g : Grid s) (E : RField s) (dt : ℝ) : List (Column s) :=
  ((List.finRange s.nt).map fun k =>
      { omega := 2 * Real.pi * fftfreq s.nt dt k
        amp := fun i j => fft (fun k => (E i j k : ℂ)) k * g.t.dx : Column s }).take (s.nt / 2)

omit [Phys] in
theorem mem_envColumns {g : Grid s} {f : Field s} {w0 dt : ℝ} {col : Column s} :
    col ∈ envColumns g f w0 dt ↔ ∃ k, col = ⟨bandFreq s.nt dt w0 k, fun i j => 0.5 * fft (f i j) k * g.t.dx⟩ ∧
      0 ≤ bandFreq s.nt dt w0 k := by
  unfold envColumns
  rw [List.mem_filter, (List.perm_insertionSort _ _).mem_iff, List.mem_map]
  constructor
  · rintro ⟨⟨k, -, rfl⟩, h⟩
    exact ⟨k, rfl, by simpa using h⟩
  · rintro ⟨k, rfl, h⟩
    exact ⟨⟨k, List.mem_finRange k, rfl⟩, by simpa using h⟩

omit [Phys] in
theorem mem_realColumns {g : Grid s} {E : RField s} {dt : ℝ} {col : Column s} :
    col ∈ realColumns g E dt ↔ ∃ k : Fin s.nt, (k : ℕ) < s.nt / 2 ∧
      col = ⟨2 * Real.pi * fftfreq s.nt dt k, fun i j => fft (fun k => (E i j k : ℂ)) k * g.t.dx⟩ := by
  unfold realColumns
  rw [List.mem_take_iff_getElem]
  constructor
  · rintro ⟨i, hi, rfl⟩
    simp only [List.length_map, List.length_finRange] at hi
    exact ⟨⟨i, by omega⟩, by simp only; omega, by simp⟩
  · rintro ⟨k, hk, rfl⟩
    exact ⟨k, by simp; omega, by simp⟩

omit [Phys] in
theorem getSpectrumRaw_holds {g : Grid s} {f : Field s} (h : g.Holds (some f)) (h2 : 2 ≤ s.nt) (w0 : ℝ) :
    ∃ g', getSpectrumRaw (some w0) g =
        (.ok (envColumns g f w0 (g.t.pts ⟨1, by omega⟩ - g.t.pts ⟨0, by omega⟩)), g') ∧
      g'.Holds (some f) ∧ g'.geom = g.geom ∧ g'.t = g.t := by
  obtain ⟨g', e, h', hg, ht⟩ := h.getT
  refine ⟨g', ?_, h', hg, ht⟩
  unfold getSpectrumRaw
  rw [Py.bind_ok e, Py.bind_ok (Py.get_apply g'), dif_pos h2]
  simp only [h'.env, Py.pure_apply, Option.getD_some, spectrumColumns, if_true, envColumns, bandFreq, ht]

omit [Phys] in
theorem getSpectrumRaw_real {g : Grid s} {E : RField s} (h : g.HoldsReal E) (h2 : 2 ≤ s.nt) (w0 : Option ℝ) :
    getSpectrumRaw w0 g =
        (.ok (realColumns g E (g.t.pts ⟨1, by omega⟩ - g.t.pts ⟨0, by omega⟩)), g) := by
  unfold getSpectrumRaw
  rw [Py.bind_ok h.getT, Py.bind_ok (Py.get_apply g), dif_pos h2]
  simp only [h.env, Py.pure_apply, spectrumColumns, realColumns]
  simp

theorem getSpectrumSum_env {g : Grid s} {f : Field s} (h : g.Holds (some f)) (h2 : 2 ≤ s.nt) (w0 : ℝ) :
    ∃ g', getSpectrumSum (some w0) g =
        (.ok ((envColumns g f w0 (g.t.pts ⟨1, by omega⟩ - g.t.pts ⟨0, by omega⟩)).map
          fun col => (col.omega, spectralWeight g col)), g') := by
  obtain ⟨g', e, -⟩ := getSpectrumSum_holds h h2 w0
  exact ⟨g', e⟩

theorem getSpectrumSum_real {g : Grid s} {E : RField s} (h : g.HoldsReal E) (h2 : 2 ≤ s.nt) (w0 : Option ℝ) :
    getSpectrumSum w0 g =
        (.ok ((realColumns g E (g.t.pts ⟨1, by omega⟩ - g.t.pts ⟨0, by omega⟩)).map
          fun col => (col.omega, spectralWeight g col)), g) := by
  unfold getSpectrumSum
  rw [Py.bind_ok h.getT, Py.bind_ok (Py.get_apply g), dif_pos h2]
  simp only [h.env, Py.pure_apply, spectrumColumns, realColumns]
  simp only [Bool.false_eq_true, if_false]
  rfl

theorem getSpectrumOnAxis_env {g : Grid s} {f : Field s} (h : g.Holds (some f)) (h2 : 2 ≤ s.nt) (w0 : ℝ)
    {cell : Fin s.n0 × Fin s.n1} (hc : onAxisCell g = .ok cell) :
    ∃ g', getSpectrumOnAxis (some w0) g =
        (.ok ((envColumns g f w0 (g.t.pts ⟨1, by omega⟩ - g.t.pts ⟨0, by omega⟩)).map (cellDensity cell)), g') := by
  obtain ⟨g', e, h', hg, ht⟩ := getSpectrumRaw_holds h h2 w0
  refine ⟨g', ?_⟩
  have hc' : onAxisCell g' = .ok cell := by
    rw [← hc]; unfold onAxisCell; rw [hg]
  unfold getSpectrumOnAxis
  rw [Py.bind_ok e, Py.bind_ok (Py.get_apply g'), hc']
  rfl

theorem getSpectrumOnAxis_real {g : Grid s} {E : RField s} (h : g.HoldsReal E) (h2 : 2 ≤ s.nt) (w0 : Option ℝ)
    {cell : Fin s.n0 × Fin s.n1} (hc : onAxisCell g = .ok cell) :
    getSpectrumOnAxis w0 g =
        (.ok ((realColumns g E (g.t.pts ⟨1, by omega⟩ - g.t.pts ⟨0, by omega⟩)).map (cellDensity cell)), g) := by
  unfold getSpectrumOnAxis
  rw [Py.bind_ok (getSpectrumRaw_real h h2 w0), Py.bind_ok (Py.get_apply g), hc]
  rfl

/-! ## C102: envelope and full field -/

/-- the time axis is uniform -/
structure UniformTime {n : ℕ} (t : Axis n) (t0 dt : ℝ) : Prop where
  pos : 0 < dt
  dx : t.dx = dt
  pts : ∀ k : Fin n, t.pts k = t0 + (k : ℕ) * dt

/-- the complex field `∑_q a_q exp(-i ω_q t)` of resolved frequencies `ω_q = 2πq/(N dt)` with carrier `ω0` taken off:
the envelope `∑_q a_q exp(-i (ω_q - ω0) t)` -/
noncomputable def lineEnvelope (t : Axis s.nt) (w0 : ℝ) (a : Fin s.n0 → Fin s.n1 → Fin s.nt → ℂ) : Field s := fun i j k =>
  ∑ q, a i j q * exp (-I * (lineFreq s.nt t.dx (q : ℕ) - w0 : ℝ) * t.pts k)

/-- all lines strictly between zero and Nyquist -/
def BelowNyquist (a : Fin s.n0 → Fin s.n1 → Fin s.nt → ℂ) : Prop :=
  ∀ i j q, a i j q ≠ 0 → 0 < (q : ℕ) ∧ 2 * (q : ℕ) < s.nt

omit [Phys] in
theorem UniformTime.step {t : Axis s.nt} {t0 dt : ℝ} (hu : UniformTime t t0 dt) (h2 : 2 ≤ s.nt) :
    t.pts ⟨1, by omega⟩ - t.pts ⟨0, by omega⟩ = t.dx := by
  rw [hu.pts, hu.pts, hu.dx]; simp

omit [Phys] in
theorem fft_lineEnvelope {t : Axis s.nt} {t0 dt : ℝ} (hu : UniformTime t t0 dt) (m : ℤ)
    (a : Fin s.n0 → Fin s.n1 → Fin s.nt → ℂ) (i : Fin s.n0) (j : Fin s.n1) (q r : Fin s.nt)
    (hr : (s.nt : ℤ) ∣ m - (q : ℕ) - (r : ℕ)) :
    fft (lineEnvelope t (lineFreq s.nt dt m) a i j) r =
      s.nt * (a i j q * exp (-I * (lineFreq s.nt dt (q : ℕ) - lineFreq s.nt dt m : ℝ) * t0)) := by
  have hN : s.nt ≠ 0 := by have := q.2; omega
  rw [← fft_envelope_line hN hu.pos.ne' t0 m (a i j) q r hr]
  congr 1
  funext k
  simp only [lineEnvelope, hu.pts, hu.dx]

omit [Phys] in
theorem fft_lineReal {t : Axis s.nt} {t0 dt : ℝ} (hu : UniformTime t t0 dt) (w0 : ℝ)
    {a : Fin s.n0 → Fin s.n1 → Fin s.nt → ℂ} (ha : BelowNyquist a) (i : Fin s.n0) (j : Fin s.n1) (q : Fin s.nt)
    (hq : 2 * (q : ℕ) < s.nt) :
    fft (fun k => (((lineEnvelope t w0 a i j k * exp (-I * w0 * t.pts k)).re : ℝ) : ℂ)) q =
      s.nt / 2 * (starRingEnd ℂ) (a i j q * exp (-I * (lineFreq s.nt dt (q : ℕ) : ℝ) * t0)) := by
  have hN : s.nt ≠ 0 := by have := q.2; omega
  rw [← fft_real_line hN hu.pos.ne' t0 (a i j) (ha i j) q hq]
  congr 1
  funext k
  simp only [lineEnvelope, hu.dx, Finset.sum_mul]
  congr 2
  refine Finset.sum_congr rfl fun p _ => ?_
  rw [mul_assoc, ← Complex.exp_add, hu.pts]
  congr 2
  push_cast
  ring

theorem spectralWeight_norm {g g' : Grid s} (hg : g'.geom = g.geom) (ht : g'.t = g.t) {c c' : Column s}
    (h : ∀ i j, ‖c.amp i j‖ = ‖c'.amp i j‖) : spectralWeight g c = spectralWeight g' c' := by
  unfold spectralWeight Grid.cellArea Grid.cellVolume
  rw [hg, ht]
  simp only [h]

omit [Phys] in
theorem onAxisCell_ok (g : Grid s) (h0 : 0 < s.n0) (h1 : 0 < s.n1) : ∃ cell, onAxisCell g = .ok cell := by
  unfold onAxisCell
  rw [dif_pos ⟨h0, h1⟩]
  cases g.geom <;> exact ⟨_, rfl⟩

omit [Phys] in
theorem onAxisCell_congr {g g' : Grid s} (h : g'.geom = g.geom) : onAxisCell g' = onAxisCell g := by
  unfold onAxisCell; rw [h]

omit [Phys] in
theorem lineFreq_inj {N : ℕ} (hN : N ≠ 0) {dt : ℝ} (hdt : dt ≠ 0) {p q : ℤ} (h : lineFreq N dt p = lineFreq N dt q) :
    p = q := by
  have h1 : (N : ℝ) ≠ 0 := by exact_mod_cast hN
  unfold lineFreq at h
  rw [div_left_inj' (mul_ne_zero h1 hdt)] at h
  exact_mod_cast mul_left_cancel₀ (by have := Real.pi_pos; positivity) h

omit [Phys] in
theorem bandFreq_line (N : ℕ) (dt : ℝ) (m : ℤ) (k : Fin N) :
    bandFreq N dt (lineFreq N dt m) k = lineFreq N dt (m - fftfreqInt N k) := by
  unfold bandFreq fftfreq lineFreq
  push_cast
  ring

omit [Phys] in
theorem fftfreq_line {N : ℕ} (dt : ℝ) (k : Fin N) (hk : (k : ℕ) < N / 2) :
    2 * Real.pi * fftfreq N dt k = lineFreq N dt (k : ℕ) := by
  unfold fftfreq lineFreq fftfreqInt
  rw [if_pos (by omega)]
  ring

omit [Phys] in
theorem norm_env_col {t : Axis s.nt} {t0 dt : ℝ} (hu : UniformTime t t0 dt) (m : ℤ)
    (a : Fin s.n0 → Fin s.n1 → Fin s.nt → ℂ) (i : Fin s.n0) (j : Fin s.n1) (q r : Fin s.nt)
    (hr : (s.nt : ℤ) ∣ m - (q : ℕ) - (r : ℕ)) :
    ‖0.5 * fft (lineEnvelope t (lineFreq s.nt dt m) a i j) r * t.dx‖ = s.nt / 2 * ‖a i j q‖ * dt := by
  rw [fft_lineEnvelope hu m a i j q r hr]
  have h1 : ‖exp (-I * (lineFreq s.nt dt (q : ℕ) - lineFreq s.nt dt m : ℝ) * t0)‖ = 1 := by
    rw [Complex.norm_exp]; simp
  rw [norm_mul, norm_mul, norm_mul, norm_mul, h1, hu.dx, norm_real, Real.norm_of_nonneg hu.pos.le, norm_natCast,
    show ‖(0.5 : ℂ)‖ = 1 / 2 by norm_num]
  ring

omit [Phys] in
theorem norm_real_col {t : Axis s.nt} {t0 dt : ℝ} (hu : UniformTime t t0 dt) (w0 : ℝ)
    {a : Fin s.n0 → Fin s.n1 → Fin s.nt → ℂ} (ha : BelowNyquist a) (i : Fin s.n0) (j : Fin s.n1) (q : Fin s.nt)
    (hq : 2 * (q : ℕ) < s.nt) :
    ‖fft (fun k => (((lineEnvelope t w0 a i j k * exp (-I * w0 * t.pts k)).re : ℝ) : ℂ)) q * t.dx‖ =
      s.nt / 2 * ‖a i j q‖ * dt := by
  rw [fft_lineReal hu w0 ha i j q hq]
  have h1 : ‖exp (-I * (lineFreq s.nt dt (q : ℕ) : ℝ) * t0)‖ = 1 := by
    rw [Complex.norm_exp]; simp
  rw [norm_mul, norm_mul, RCLike.norm_conj, norm_mul, h1, hu.dx, norm_real, Real.norm_of_nonneg hu.pos.le, norm_div, norm_natCast]
  norm_num

/-- **C102.** The spectrum of an envelope and the spectrum of the real field `Re(envelope * exp(-i ω0 t))` it stands for
agree, for `method="sum"` and `method="on_axis"`, if the carrier is a resolved frequency (so that the two calls have
frequencies in common) and the field has no content at zero frequency or beyond Nyquist: at every frequency which both
calls return, the values are the same; and the common frequencies are those which the two windows have in common. -/
theorem C102_agree (method : SpectrumMethod) {g gr : Grid s} (hgeom : gr.geom = g.geom) (ht : gr.t = g.t) {t0 dt : ℝ}
    (hu : UniformTime g.t t0 dt) (h2 : 2 ≤ s.nt) (h0 : 0 < s.n0) (h1 : 0 < s.n1) (m : ℤ)
    {a : Fin s.n0 → Fin s.n1 → Fin s.nt → ℂ} (ha : BelowNyquist a)
    (h : g.Holds (some (lineEnvelope g.t (lineFreq s.nt dt m) a)))
    (hr : gr.HoldsReal fun i j k => (lineEnvelope g.t (lineFreq s.nt dt m) a i j k * exp (-I * lineFreq s.nt dt m * g.t.pts k)).re)
    (bins : ℕ) (w : Option ℝ) :
    ∃ (specE specF : List (ℝ × ℝ)) (g' gr' : Grid s),
      getSpectrum method none bins (some (lineFreq s.nt dt m)) g = (.ok specE, g') ∧
      getSpectrum method none bins w gr = (.ok specF, gr') ∧
      (∀ ω S S', (ω, S) ∈ specE → (ω, S') ∈ specF → S = S') ∧
      ∀ q : ℕ, q < s.nt / 2 → 2 * |(q : ℤ) - m| < s.nt →
        ∃ S, (lineFreq s.nt dt q, S) ∈ specE ∧ (lineFreq s.nt dt q, S) ∈ specF := by
  have hN : s.nt ≠ 0 := by omega
  have hstep := hu.step h2
  -- the value attached to a column depends on the moduli only
  obtain ⟨cell, hcell⟩ := onAxisCell_ok g h0 h1
  have hcell' : onAxisCell gr = .ok cell := by rw [onAxisCell_congr hgeom, hcell]
  obtain ⟨val, valr, hval, specE, specF, g', gr', eE, eF, hE, hF⟩ : ∃ (val valr : Column s → ℝ),
      (∀ c c', (∀ i j, ‖c.amp i j‖ = ‖c'.amp i j‖) → val c = valr c') ∧
      ∃ (specE specF : List (ℝ × ℝ)) (g' gr' : Grid s),
        getSpectrum method none bins (some (lineFreq s.nt dt m)) g = (.ok specE, g') ∧
        getSpectrum method none bins w gr = (.ok specF, gr') ∧
        specE = (envColumns g (lineEnvelope g.t (lineFreq s.nt dt m) a) (lineFreq s.nt dt m) g.t.dx).map (fun c => (c.omega, val c)) ∧
        specF = (realColumns gr (fun i j k => (lineEnvelope g.t (lineFreq s.nt dt m) a i j k *
          exp (-I * lineFreq s.nt dt m * g.t.pts k)).re) g.t.dx).map (fun c => (c.omega, valr c)) := by
    cases method with
    | sum =>
      obtain ⟨g', e⟩ := getSpectrumSum_env h h2 (lineFreq s.nt dt m)
      have e' := getSpectrumSum_real hr h2 w
      simp only [ht] at e'
      rw [hstep] at e e'
      refine ⟨spectralWeight g, spectralWeight gr, fun c c' hcc => spectralWeight_norm hgeom ht hcc, _, _, g', gr, ?_, ?_, rfl, rfl⟩
      · unfold getSpectrum SpectrumMethod.base
        rw [Py.bind_ok e]
        rfl
      · unfold getSpectrum SpectrumMethod.base
        rw [Py.bind_ok e']
        rfl
    | onAxis =>
      obtain ⟨g', e⟩ := getSpectrumOnAxis_env h h2 (lineFreq s.nt dt m) hcell
      have e' := getSpectrumOnAxis_real hr h2 w hcell'
      simp only [ht] at e'
      rw [hstep] at e e'
      refine ⟨fun c => (cellDensity cell c).2, fun c => (cellDensity cell c).2, fun c c' hcc => ?_, _, _, g', gr, ?_, ?_, rfl, rfl⟩
      · simp only [cellDensity, hcc]
      · unfold getSpectrum SpectrumMethod.base
        rw [Py.bind_ok e]
        rfl
      · unfold getSpectrum SpectrumMethod.base
        rw [Py.bind_ok e']
        rfl
  have hdt := hu.pos.ne'
  refine ⟨specE, specF, g', gr', eE, eF, ?_, ?_⟩
  · intro ω S S' h3 h4
    rw [hE] at h3
    rw [hF] at h4
    obtain ⟨c, hc, e3⟩ := List.mem_map.1 h3
    obtain ⟨c', hc', e4⟩ := List.mem_map.1 h4
    obtain ⟨k, rfl, -⟩ := mem_envColumns.1 hc
    obtain ⟨q, hq, rfl⟩ := mem_realColumns.1 hc'
    simp only [Prod.mk.injEq] at e3 e4
    obtain ⟨e3, rfl⟩ := e3
    obtain ⟨e4, rfl⟩ := e4
    apply hval
    intro i j
    have hq2 : 2 * (q : ℕ) < s.nt := by omega
    have hdvd : (s.nt : ℤ) ∣ m - (q : ℕ) - (k : ℕ) := by
      rw [← e4, hu.dx, bandFreq_line, fftfreq_line dt q hq] at e3
      have := lineFreq_inj hN hdt e3
      have h5 := fftfreqInt_dvd s.nt k
      rw [show m - (q : ℕ) - (k : ℕ) = fftfreqInt s.nt k - (k : ℕ) by omega]
      exact h5
    simp only
    rw [norm_env_col hu m a i j q k hdvd, ht, norm_real_col hu _ ha i j q hq2]
  · intro q hq hqm
    obtain ⟨k, hk⟩ : ∃ k : Fin s.nt, fftfreqInt s.nt k = m - q := by
      rcases le_or_gt (q : ℤ) m with hle | hgt
      · refine ⟨⟨(m - q).toNat, by have := abs_of_nonpos (by omega : (q : ℤ) - m ≤ 0); omega⟩, ?_⟩
        simp only [fftfreqInt]
        rw [if_pos (by have := abs_of_nonpos (by omega : (q : ℤ) - m ≤ 0); omega)]
        omega
      · have := abs_of_pos (by omega : 0 < (q : ℤ) - m)
        refine ⟨⟨(s.nt + m - q).toNat, by omega⟩, ?_⟩
        simp only [fftfreqInt]
        rw [if_neg (by omega)]
        omega
    have hkf : bandFreq s.nt g.t.dx (lineFreq s.nt dt m) k = lineFreq s.nt dt q := by
      rw [hu.dx, bandFreq_line, hk]; congr 1; ring
    have hpos : 0 ≤ lineFreq s.nt dt q := by
      unfold lineFreq; have := Real.pi_pos; have := hu.pos; positivity
    let q' : Fin s.nt := ⟨q, by omega⟩
    refine ⟨val ⟨bandFreq s.nt g.t.dx (lineFreq s.nt dt m) k,
      fun i j => 0.5 * fft (lineEnvelope g.t (lineFreq s.nt dt m) a i j) k * g.t.dx⟩, ?_, ?_⟩
    · rw [hE]
      refine List.mem_map.2 ⟨_, mem_envColumns.2 ⟨k, rfl, by rw [hkf]; exact hpos⟩, ?_⟩
      simp only [hkf]
    · rw [hF]
      refine List.mem_map.2 ⟨_, mem_realColumns.2 ⟨q', hq, rfl⟩, ?_⟩
      simp only [Prod.mk.injEq]
      refine ⟨?_, ?_⟩
      · rw [hu.dx, fftfreq_line dt q' hq]
      · symm
        apply hval
        intro i j
        have hdvd : (s.nt : ℤ) ∣ m - (q' : ℕ) - (k : ℕ) := by
          have h5 := fftfreqInt_dvd s.nt k
          have : ((q' : ℕ) : ℤ) = q := rfl
          rw [show m - (q' : ℕ) - (k : ℕ) = fftfreqInt s.nt k - (k : ℕ) by omega]
          exact h5
        simp only
        rw [norm_env_col hu m a i j q' k hdvd, ht, norm_real_col hu _ ha i j q' (by show 2 * q < s.nt; omega)]

/-- the premises of `C102_agree` are met by two grids of four time samples with the carrier itself as the only line -/
example : ∃ (g gr : Grid ⟨2, 2, 4⟩) (a : Fin 2 → Fin 2 → Fin 4 → ℂ), gr.geom = g.geom ∧ gr.t = g.t ∧
    UniformTime g.t 0 1 ∧ BelowNyquist (s := ⟨2, 2, 4⟩) a ∧ a 0 0 1 ≠ 0 ∧
    g.Holds (some (lineEnvelope g.t (lineFreq 4 1 1) a)) ∧
    gr.HoldsReal fun i j k => (lineEnvelope g.t (lineFreq 4 1 1) a i j k * exp (-I * lineFreq 4 1 1 * g.t.pts k)).re := by
  let x : Axis 2 := ⟨0, 1, 1, fun k => (k : ℕ)⟩
  let t : Axis 4 := ⟨0, 3, 1, fun k => (k : ℕ)⟩
  let a : Fin 2 → Fin 2 → Fin 4 → ℂ := fun _ _ q => if q = 1 then 1 else 0
  refine ⟨Grid.holding (s := ⟨2, 2, 4⟩) (.xyt x x) t (lineEnvelope (s := ⟨2, 2, 4⟩) t (lineFreq 4 1 1) a),
    Grid.holdingReal (s := ⟨2, 2, 4⟩) (.xyt x x) t fun i j k =>
      (lineEnvelope (s := ⟨2, 2, 4⟩) t (lineFreq 4 1 1) a i j k * exp (-I * lineFreq 4 1 1 * t.pts k)).re,
    a, rfl, rfl, ⟨by norm_num, rfl, fun k => by simp [Grid.holding, t]⟩, ?_, by simp [a], Grid.holding_holds _ _ _,
    Grid.holdingReal_holds _ _ _⟩
  intro i j q hq
  by_cases h : q = 1
  · subst h; norm_num
  · exact absurd (by simp [a, h]) hq

/-! ## C103: `method="raw"` -/

/-- `∫ E(t) exp(-iωt) dt` over the time window, as the documentation defines the raw spectrum -/
noncomputable def fourierIntegral (t : Axis s.nt) (E : Fin s.nt → ℝ) (w : ℝ) : ℂ :=
  t.dx * ∑ k, (E k : ℂ) * exp (-I * w * t.pts k)

omit [Phys] in
theorem fft_fourierIntegral {t : Axis s.nt} {t0 dt : ℝ} (hu : UniformTime t t0 dt) (E : Fin s.nt → ℝ) (q : Fin s.nt) :
    fft (fun k => (E k : ℂ)) q * t.dx =
      exp (I * lineFreq s.nt dt (q : ℕ) * t0) * fourierIntegral t E (lineFreq s.nt dt (q : ℕ)) := by
  have hN : s.nt ≠ 0 := by have := q.2; omega
  unfold fourierIntegral
  rw [fft_eq_chr, mul_comm _ (t.dx : ℂ), mul_left_comm (exp _)]
  congr 1
  rw [Finset.mul_sum]
  refine Finset.sum_congr rfl fun k _ => ?_
  rw [hu.pts, exp_line hN hu.pos.ne', mul_left_comm, ← mul_assoc (exp _) (exp _), ← Complex.exp_add]
  rw [show I * (lineFreq s.nt dt (q : ℕ) : ℂ) * t0 + -I * (lineFreq s.nt dt (q : ℕ) : ℂ) * t0 = 0 by ring, Complex.exp_zero, one_mul]
  congr 2
  ring

omit [Phys] in
/-- **C103** (full fields): the raw spectrum of a real field is the documented Fourier integral, except that times are
counted from the start of the window: every value is multiplied by `exp(iω t[0])`. The moduli are exact. -/
theorem C103_full_partial {gr : Grid s} {E : RField s} (hr : gr.HoldsReal E) {t0 dt : ℝ} (hu : UniformTime gr.t t0 dt)
    (h2 : 2 ≤ s.nt) (w : Option ℝ) :
    ∃ cols, getSpectrumRaw w gr = (.ok cols, gr) ∧ cols.length = s.nt / 2 ∧
      (∀ q : ℕ, q < s.nt / 2 → ∃ col ∈ cols, col.omega = lineFreq s.nt dt q) ∧
      ∀ col ∈ cols, (∃ q : ℕ, q < s.nt / 2 ∧ col.omega = lineFreq s.nt dt q) ∧
        ∀ i j, col.amp i j = exp (I * col.omega * t0) * fourierIntegral gr.t (E i j) col.omega := by
  have e := getSpectrumRaw_real hr h2 w
  rw [hu.step h2, hu.dx] at e
  refine ⟨_, e, ?_, ?_, ?_⟩
  · unfold realColumns
    simp
    omega
  · intro q hq
    exact ⟨_, mem_realColumns.2 ⟨⟨q, by omega⟩, hq, rfl⟩, fftfreq_line dt ⟨q, by omega⟩ hq⟩
  · intro col hcol
    obtain ⟨k, hk, rfl⟩ := mem_realColumns.1 hcol
    refine ⟨⟨k, hk, fftfreq_line dt k hk⟩, fun i j => ?_⟩
    simp only [fftfreq_line dt k hk]
    exact fft_fourierIntegral hu (E i j) k

omit [Phys] in
/-- **C103 is false of the code for envelopes**: the raw spectrum of an envelope is the complex *conjugate* of the
Fourier integral of the real field it stands for (times a phase, which is 1 if the window starts at zero time). -/
theorem C103_envelope_refuted {g : Grid s} {t0 dt : ℝ} (hu : UniformTime g.t t0 dt) (h2 : 2 ≤ s.nt) (m : ℤ)
    {a : Fin s.n0 → Fin s.n1 → Fin s.nt → ℂ} (ha : BelowNyquist a)
    (h : g.Holds (some (lineEnvelope g.t (lineFreq s.nt dt m) a))) :
    ∃ cols g', getSpectrumRaw (some (lineFreq s.nt dt m)) g = (.ok cols, g') ∧
      ∀ col ∈ cols, ∀ q : ℕ, 2 * q < s.nt → col.omega = lineFreq s.nt dt q → ∀ i j,
        col.amp i j = exp (I * lineFreq s.nt dt m * t0) * (starRingEnd ℂ) (exp (I * col.omega * t0) * fourierIntegral g.t
          (fun k => (lineEnvelope g.t (lineFreq s.nt dt m) a i j k * exp (-I * lineFreq s.nt dt m * g.t.pts k)).re) col.omega) := by
  have hN : s.nt ≠ 0 := by omega
  obtain ⟨g', e, -⟩ := getSpectrumRaw_holds h h2 (lineFreq s.nt dt m)
  rw [hu.step h2, hu.dx] at e
  refine ⟨_, g', e, fun col hcol q hq hom i j => ?_⟩
  obtain ⟨k, rfl, -⟩ := mem_envColumns.1 hcol
  simp only at hom ⊢
  have hdvd : (s.nt : ℤ) ∣ m - ((⟨q, by omega⟩ : Fin s.nt) : ℕ) - (k : ℕ) := by
    rw [bandFreq_line] at hom
    have := lineFreq_inj hN hu.pos.ne' hom
    have h5 := fftfreqInt_dvd s.nt k
    simp only
    rw [show m - (q : ℕ) - (k : ℕ) = fftfreqInt s.nt k - (k : ℕ) by omega]
    exact h5
  rw [hom]
  have e1 := fft_fourierIntegral hu (fun k => (lineEnvelope g.t (lineFreq s.nt dt m) a i j k *
    exp (-I * lineFreq s.nt dt m * g.t.pts k)).re) ⟨q, by omega⟩
  rw [fft_lineReal hu _ ha i j ⟨q, by omega⟩ hq] at e1
  simp only at e1
  rw [← e1, fft_lineEnvelope hu m a i j ⟨q, by omega⟩ k hdvd]
  simp only [map_mul, Complex.conj_conj, map_div₀, Complex.conj_natCast, Complex.conj_ofReal]
  have h2' : (starRingEnd ℂ) 2 = 2 := Complex.conj_ofNat 2
  have e2 : exp (-I * (lineFreq s.nt dt (q : ℤ) - lineFreq s.nt dt m : ℝ) * t0) =
      exp (I * lineFreq s.nt dt m * t0) * exp (-I * (lineFreq s.nt dt (q : ℤ) : ℝ) * t0) := by
    rw [← Complex.exp_add]; congr 1; push_cast; ring
  rw [h2', e2]
  norm_num
  ring

omit [Phys] in
/-- an instance: the envelope is the constant `i`, the window starts at zero; the raw spectrum at the carrier is `2i`,
the documented integral `-2i` -/
theorem C103_refuted : ∃ (g g' : Grid ⟨2, 2, 4⟩) (cols : List (Column ⟨2, 2, 4⟩)) (col : Column ⟨2, 2, 4⟩),
    g.Holds (some fun _ _ _ => I) ∧
    UniformTime g.t 0 1 ∧ getSpectrumRaw (some (lineFreq 4 1 1)) g = (.ok cols, g') ∧ col ∈ cols ∧
    col.omega = lineFreq 4 1 1 ∧ col.amp 0 0 = 2 * I ∧
    fourierIntegral (s := ⟨2, 2, 4⟩) g.t (fun k => (I * exp (-I * lineFreq 4 1 1 * g.t.pts k)).re) (lineFreq 4 1 1) = -2 * I := by
  let x : Axis 2 := ⟨0, 1, 1, fun k => (k : ℕ)⟩
  let t : Axis 4 := ⟨0, 3, 1, fun k => (k : ℕ)⟩
  let g : Grid ⟨2, 2, 4⟩ := Grid.holding (s := ⟨2, 2, 4⟩) (.xyt x x) t fun _ _ _ => I
  have hh : g.Holds (some fun _ _ _ => I) := Grid.holding_holds _ _ _
  have hu : UniformTime g.t 0 1 := ⟨by norm_num, rfl, fun k => by simp [g, Grid.holding, t]⟩
  let a : Fin 2 → Fin 2 → Fin 4 → ℂ := fun _ _ q => if q = 1 then I else 0
  have ha : BelowNyquist (s := ⟨2, 2, 4⟩) a := by
    intro i j q hq
    by_cases h : q = 1
    · subst h; norm_num
    · exact absurd (by simp [a, h]) hq
  have hl : (fun _ _ _ => I : Field ⟨2, 2, 4⟩) = lineEnvelope (s := ⟨2, 2, 4⟩) g.t (lineFreq 4 1 1) a := by
    funext i j k
    unfold lineEnvelope
    rw [Finset.sum_eq_single 1]
    · simp [a, hu.dx]
    · intro q _ hq; simp [a, hq]
    · simp
  obtain ⟨g', e, -⟩ := getSpectrumRaw_holds hh (by norm_num) (lineFreq 4 1 1)
  rw [hu.step (s := ⟨2, 2, 4⟩) (by norm_num), hu.dx] at e
  have hb : bandFreq 4 1 (lineFreq 4 1 1) 0 = lineFreq 4 1 1 := by
    rw [bandFreq_line]; congr 1
  have hpos : 0 ≤ lineFreq 4 1 1 := by unfold lineFreq; have := Real.pi_pos; positivity
  have hamp : (0.5 : ℂ) * fft (fun _ : Fin 4 => I) 0 * (g.t.dx : ℂ) = 2 * I := by
    rw [hu.dx, fft_eq_chr]
    simp [chr_zero]
    ring
  refine ⟨g, g', _, ⟨bandFreq 4 1 (lineFreq 4 1 1) 0, fun _ _ => 0.5 * fft (fun _ : Fin 4 => I) 0 * g.t.dx⟩,
    hh, hu, e, mem_envColumns.2 ⟨0, rfl, ?_⟩, hb, hamp, ?_⟩
  · rw [hb]; exact hpos
  · have e1 := fft_fourierIntegral hu (fun k => (I * exp (-I * lineFreq 4 1 1 * g.t.pts k)).re) 1
    have e2 := fft_lineReal hu (lineFreq 4 1 1) ha 0 0 1 (by norm_num)
    rw [← hl] at e2
    have e4 : lineFreq 4 1 (((1 : Fin 4) : ℕ) : ℤ) = lineFreq 4 1 1 := by norm_num
    simp only at e1 e2
    rw [e2] at e1
    rw [e4] at e1
    simp only [ofReal_zero, mul_zero, Complex.exp_zero, one_mul, mul_one, hu.dx, ofReal_one] at e1
    rw [← e1]
    simp [a]
    norm_num

end Lasy
