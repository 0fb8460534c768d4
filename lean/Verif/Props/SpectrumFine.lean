import Verif.Lemmas.SampledSpectrum
import Verif.Props.SpectralFilter
import Verif.Props.SpectrumRange
import Verif.Props.FilteredDuration
import Mathlib.Topology.UniformSpace.HeineCantor

/-!
# Property C144: on fine grids `get_spectrum` returns the spectral energy density of the pulse
-/

namespace Lasy
open Spec Phys Complex MeasureTheory

variable [Phys] {s : Shape}

/-- the spectral energy density per area, for positive frequencies, of the field `Re (E(t) exp(-i ω0 t))` whose envelope `E` has
the spectrum `S`: `ε0 c |S(ω - ω0) / 2|² / π` -/
noncomputable def pulseDensity (S : ℝ → ℂ) (W : ℝ) : ℝ := eps0 * c / (4 * Real.pi) * ‖S W‖ ^ 2

/-- what the transverse profile `A` of a separable field contributes to a spectrum: for `on_axis` its modulus squared at the cell
that is taken for the axis (the middle index in `xyt`, mode 0 and the innermost ring in `rt`), for `sum` the sum over the cells (in `rt` of the mode 0) of the modulus squared times the area -/
noncomputable def transverseWeight (method : SpectrumMethod) (g : Grid s) (A : Fin s.n0 → Fin s.n1 → ℂ) : ℝ :=
  match method with
  | .sum =>
    match g.geom with
    | .xyt _ _ => ∑ i, ∑ j, ‖A i j‖ ^ 2 * g.cellArea j
    | .rt m hm _ => ∑ j, ‖A ⟨0, by omega⟩ j‖ ^ 2 * g.cellArea j
  | .onAxis =>
    if h : 0 < s.n0 ∧ 0 < s.n1 then
      match g.geom with
      | .xyt _ _ => ‖A ⟨s.n0 / 2, by omega⟩ ⟨s.n1 / 2, by omega⟩‖ ^ 2
      | .rt _ _ _ => ‖A ⟨0, h.1⟩ ⟨0, h.2⟩‖ ^ 2
    else 0

theorem transverseWeight_onAxis {g : Grid s} {cell : Fin s.n0 × Fin s.n1} (h : onAxisCell g = .ok cell)
    (A : Fin s.n0 → Fin s.n1 → ℂ) : transverseWeight .onAxis g A = ‖A cell.1 cell.2‖ ^ 2 := by
  unfold onAxisCell at h
  unfold transverseWeight
  dsimp only
  split_ifs at h ⊢ with h0
  cases hg : g.geom with
  | xyt x y => rw [hg] at h; injection h with h; rw [← h]
  | rt m hm r => rw [hg] at h; injection h with h; rw [← h]

/-- half of the discrete spectrum of the samples of a pulse on the axis of time of a new laser -/
theorem sampled_amplitude {dim : String} {lo hi : List ℝ} {np : List ℕ} {p : ProfileObj} {m N : Option ℕ} {l : Laser s}
    (h : Laser.init dim lo hi np p m N = .ok ⟨s, l⟩) {t0 W : ℝ} (hW : 0 < W) (ha : lo.getLast? = some (t0 - W))
    (hb : hi.getLast? = some (t0 + W)) (w0 : ℝ) {S : ℝ → ℂ} {C1 C2 : ℝ} {q : ℕ} (hq : 2 ≤ q) (hc : Continuous S)
    (hS : Localised S 0 C1 q) (hE : Localised (pulse S) t0 C2 q) (k : Fin s.nt) :
    ‖0.5 * fft (fun k => pulse S (l.grid.t.pts k)) k * l.grid.t.dx - S (bandFreq s.nt l.grid.t.dx w0 k - w0) / 2 *
        exp (-I * ((bandFreq s.nt l.grid.t.dx w0 k - w0 : ℝ) : ℂ) * ((t0 - W : ℝ) : ℂ))‖ ≤
      zeta2 / 2 * (C2 * (s.nt * l.grid.t.dx) * (2 / (s.nt * l.grid.t.dx)) ^ q + C1 * (l.grid.t.dx / Real.pi) ^ q) := by
  obtain ⟨h2, hd, hpts⟩ := init_time_step h ha hb
  have hn : (2 : ℝ) ≤ s.nt := by exact_mod_cast h2
  have hdx : l.grid.t.dx * ((s.nt : ℝ) - 1) = 2 * W := by
    rw [hd, div_mul_cancel₀ _ (by linarith)]; ring
  have hpos : 0 < l.grid.t.dx := by
    rw [hd]
    exact div_pos (by linarith) (by linarith)
  have key := fft_pulse_error hc hq hS hE hpos (N := s.nt) (by omega) (t0 - W) (fun k => by
    have hk : ((k : ℕ) : ℝ) ≤ s.nt - 1 := by
      have : (k : ℕ) + 1 ≤ s.nt := k.2
      have : ((k : ℕ) : ℝ) + 1 ≤ s.nt := by exact_mod_cast this
      linarith
    have hk0 : (0 : ℝ) ≤ (k : ℕ) := Nat.cast_nonneg _
    rw [abs_le]
    constructor <;> nlinarith) k
  have e1 : bandFreq s.nt l.grid.t.dx w0 k - w0 = -(2 * Real.pi * fftfreq s.nt l.grid.t.dx k) := by
    unfold bandFreq; ring
  simp only [hpts, e1]
  have e2 : ∀ a b : ℂ, (0.5 : ℂ) * a * (l.grid.t.dx : ℂ) - b / 2 * exp (-I * ((-(2 * Real.pi * fftfreq s.nt l.grid.t.dx k) : ℝ) : ℂ) * ((t0 - W : ℝ) : ℂ)) =
      1 / 2 * (a * l.grid.t.dx - b * exp (I * ((2 * Real.pi * fftfreq s.nt l.grid.t.dx k : ℝ) : ℂ) * ((t0 - W : ℝ) : ℂ))) := by
    intro a b
    rw [show -I * ((-(2 * Real.pi * fftfreq s.nt l.grid.t.dx k) : ℝ) : ℂ) = I * ((2 * Real.pi * fftfreq s.nt l.grid.t.dx k : ℝ) : ℂ) by
      push_cast; ring]
    norm_num
    ring
  rw [e2, norm_mul]
  have e3 : ‖(1 / 2 : ℂ)‖ = 1 / 2 := by norm_num
  rw [e3]
  linarith

/-- **C144** (`raw`). On a new laser in the window `[t0 - W, t0 + W]`, `get_spectrum(method="raw")` returns at every frequency `ω`
of its list, at a cell that holds the samples of the pulse with the spectrum `S`, half of `S(ω - ω0)`, turned by the phase of the
first time of the axis, up to an explicit bound: one term from the pulse that wraps around the window and one from the
frequencies that the axis aliases. -/
theorem C144_raw {dim : String} {lo hi : List ℝ} {np : List ℕ} {p : ProfileObj} {m N : Option ℕ} {l : Laser s}
    (h : Laser.init dim lo hi np p m N = .ok ⟨s, l⟩) {t0 W : ℝ} (hW : 0 < W) (ha : lo.getLast? = some (t0 - W))
    (hb : hi.getLast? = some (t0 + W)) {f : Field s} (hf : l.Has f) (w0 : ℝ) :
    ∃ cols g', getSpectrumRaw (some w0) l.grid = (.ok cols, g') ∧
      (∀ w, w ∈ cols.map Column.omega ↔ 0 ≤ w ∧ ∃ k : ℤ, -((s.nt : ℤ) - 1) ≤ 2 * k ∧ 2 * k ≤ s.nt ∧
        w = w0 + k * (2 * Real.pi / (s.nt * l.grid.t.dx))) ∧
      ∀ (i : Fin s.n0) (j : Fin s.n1) (S : ℝ → ℂ) (C1 C2 : ℝ) (q : ℕ), 2 ≤ q → (∀ k, f i j k = pulse S (l.grid.t.pts k)) →
        Continuous S → Localised S 0 C1 q → Localised (pulse S) t0 C2 q → ∀ col ∈ cols,
        ‖col.amp i j - S (col.omega - w0) / 2 * exp (-I * ((col.omega - w0 : ℝ) : ℂ) * ((t0 - W : ℝ) : ℂ))‖ ≤
          zeta2 / 2 * (C2 * (s.nt * l.grid.t.dx) * (2 / (s.nt * l.grid.t.dx)) ^ q + C1 * (l.grid.t.dx / Real.pi) ^ q) := by
  obtain ⟨h2, hd, hpts⟩ := init_time_step h ha hb
  have hn : (2 : ℝ) ≤ s.nt := by exact_mod_cast h2
  have hstep : l.grid.t.pts ⟨1, by omega⟩ - l.grid.t.pts ⟨0, by omega⟩ = l.grid.t.dx := by
    rw [hpts, hpts]; simp
  obtain ⟨g', e, -⟩ := getSpectrumRaw_holds hf h2 w0
  rw [hstep] at e
  refine ⟨_, g', e, fun w => ?_, fun i j S C1 C2 q hq hfi hc hS hE col hcol => ?_⟩
  · simp only [List.mem_map, mem_envColumns]
    constructor
    · rintro ⟨_, ⟨k, rfl, h0⟩, rfl⟩
      refine ⟨h0, -fftfreqInt s.nt k, ?_, ?_, ?_⟩
      · have := k.2
        unfold fftfreqInt
        split_ifs <;> omega
      · have := k.2
        unfold fftfreqInt
        split_ifs <;> omega
      · simp only [bandFreq, fftfreq]
        push_cast
        ring
    · rintro ⟨h0, k, hk1, hk2, rfl⟩
      obtain ⟨k', hk'⟩ : ∃ k' : Fin s.nt, fftfreqInt s.nt k' = -k := by
        by_cases hk : 0 < k
        · refine ⟨⟨(s.nt - k).toNat, by omega⟩, ?_⟩
          unfold fftfreqInt
          simp only
          split_ifs <;> omega
        · refine ⟨⟨(-k).toNat, by omega⟩, ?_⟩
          unfold fftfreqInt
          simp only
          split_ifs <;> omega
      have hw : bandFreq s.nt l.grid.t.dx w0 k' = w0 + k * (2 * Real.pi / (s.nt * l.grid.t.dx)) := by
        simp only [bandFreq, fftfreq, hk']
        push_cast
        ring
      exact ⟨_, ⟨k', rfl, by rw [hw]; exact h0⟩, hw⟩
  · obtain ⟨k, rfl, -⟩ := mem_envColumns.1 hcol
    have hfe : f i j = fun k : Fin s.nt => pulse S (l.grid.t.pts k) := funext fun k => hfi k
    simp only [hfe]
    exact sampled_amplitude h hW ha hb w0 hq hc hS hE k

/-! ## separable pulses -/

/-- the points of the spectrum of a separable field -/
theorem separable_spectrum {g : Grid s} {A : Fin s.n0 → Fin s.n1 → ℂ} {o : Fin s.nt → ℂ} (hf : g.Holds (some fun i j k => A i j * o k))
    (h2 : 2 ≤ s.nt) (h0 : 0 < s.n0) (h1 : 0 < s.n1) (hstep : g.t.pts ⟨1, by omega⟩ - g.t.pts ⟨0, by omega⟩ = g.t.dx) (w0 : ℝ)
    (method : SpectrumMethod) (bins : ℕ) :
    ∃ spec g', getSpectrum method none bins (some w0) g = (.ok spec, g') ∧
      (∀ pt ∈ spec, ∃ k, pt = (bandFreq s.nt g.t.dx w0 k,
        transverseWeight method g A * (eps0 * c / Real.pi * ‖0.5 * fft o k * g.t.dx‖ ^ 2))) ∧
      ∀ k, 0 ≤ bandFreq s.nt g.t.dx w0 k → bandFreq s.nt g.t.dx w0 k ∈ spec.map Prod.fst := by
  obtain ⟨cell, hcell⟩ := onAxisCell_ok g h0 h1
  have hamp : ∀ i j k, ‖(0.5 : ℂ) * fft (fun k => A i j * o k) k * g.t.dx‖ ^ 2 = ‖A i j‖ ^ 2 * ‖(0.5 : ℂ) * fft o k * g.t.dx‖ ^ 2 := by
    intro i j k
    rw [fft_smul, ← mul_pow, ← norm_mul]
    congr 2
    ring
  cases method with
  | sum =>
    obtain ⟨g', e⟩ := getSpectrumSum_env hf h2 w0
    rw [hstep] at e
    refine ⟨_, g', by unfold getSpectrum SpectrumMethod.base; rw [Py.bind_ok e]; rfl, fun pt hpt => ?_, fun k hk => ?_⟩
    · obtain ⟨col, hcol, rfl⟩ := List.mem_map.1 hpt
      obtain ⟨k, rfl, -⟩ := mem_envColumns.1 hcol
      refine ⟨k, Prod.ext rfl ?_⟩
      simp only [spectralWeight, transverseWeight]
      cases g.geom with
      | xyt x y =>
        simp only [hamp]
        rw [Finset.sum_mul]
        refine Finset.sum_congr rfl fun i _ => ?_
        rw [Finset.sum_mul]
        exact Finset.sum_congr rfl fun j _ => by ring
      | rt m hm r =>
        simp only [hamp]
        rw [Finset.sum_mul]
        exact Finset.sum_congr rfl fun j _ => by ring
    · rw [List.map_map]
      exact List.mem_map.2 ⟨_, mem_envColumns.2 ⟨k, rfl, hk⟩, rfl⟩
  | onAxis =>
    obtain ⟨g', e⟩ := getSpectrumOnAxis_env hf h2 w0 hcell
    rw [hstep] at e
    refine ⟨_, g', by unfold getSpectrum SpectrumMethod.base; rw [Py.bind_ok e]; rfl, fun pt hpt => ?_, fun k hk => ?_⟩
    · obtain ⟨col, hcol, rfl⟩ := List.mem_map.1 hpt
      obtain ⟨k, rfl, -⟩ := mem_envColumns.1 hcol
      refine ⟨k, Prod.ext rfl ?_⟩
      simp only [cellDensity, transverseWeight_onAxis hcell, hamp]
      ring
    · rw [List.map_map]
      exact List.mem_map.2 ⟨_, mem_envColumns.2 ⟨k, rfl, hk⟩, rfl⟩

omit [Phys] in
/-- moduli squared of close numbers -/
theorem norm_sq_close {a b : ℂ} {η K : ℝ} (h : ‖a - b‖ ≤ η) (hK : ‖b‖ ≤ K) : |‖a‖ ^ 2 - ‖b‖ ^ 2| ≤ η * (η + 2 * K) := by
  have h1 : |‖a‖ - ‖b‖| ≤ η := (abs_norm_sub_norm_le a b).trans h
  have h2 : ‖a‖ ≤ η + K := by
    have := abs_le.1 h1
    linarith
  have hη : 0 ≤ η := (norm_nonneg _).trans h
  rw [show ‖a‖ ^ 2 - ‖b‖ ^ 2 = (‖a‖ - ‖b‖) * (‖a‖ + ‖b‖) by ring, abs_mul, abs_of_nonneg (add_nonneg (norm_nonneg a) (norm_nonneg b))]
  exact mul_le_mul h1 (by linarith) (by positivity) hη

theorem transverseWeight_nonneg (method : SpectrumMethod) {g : Grid s} (hg : ∀ j, 0 ≤ g.cellArea j) (A : Fin s.n0 → Fin s.n1 → ℂ) :
    0 ≤ transverseWeight method g A := by
  unfold transverseWeight
  cases method with
  | sum =>
    cases g.geom with
    | xyt x y => exact Finset.sum_nonneg fun i _ => Finset.sum_nonneg fun j _ => mul_nonneg (by positivity) (hg j)
    | rt m hm r => exact Finset.sum_nonneg fun j _ => mul_nonneg (by positivity) (hg j)
  | onAxis =>
    dsimp only
    split_ifs with h0
    · cases g.geom with
      | xyt x y => positivity
      | rt m hm r => positivity
    · exact le_rfl

omit [Phys] in
/-- values on a polygon through points that are close to a graph -/
theorem polygon_close {l : List (ℝ × ℝ)} (hasc : (l.map Prod.fst).Pairwise (· < ·)) {F : ℝ → ℝ} {e1 e2 δ : ℝ}
    (h1 : ∀ pt ∈ l, |pt.2 - F pt.1| ≤ e1) (h2 : ∀ a b, |a - b| ≤ δ → |F a - F b| ≤ e2) {x y : ℝ}
    (hgap : ∀ (k : ℕ) (h : k + 1 < l.length), (l[k + 1]).1 - (l[k]).1 ≤ δ)
    (hfirst : ∀ h : 0 < l.length, (l[0]).1 - x ≤ δ) (hlast : ∀ h : 0 < l.length, x - (l[l.length - 1]).1 ≤ δ)
    (hy : OnPolygon l x y) : |y - F x| ≤ e1 + e2 := by
  have near : ∀ pt ∈ l, |pt.1 - x| ≤ δ → |pt.2 - F x| ≤ e1 + e2 := by
    intro pt hpt hd
    have a1 := h1 pt hpt
    have a2 := h2 _ _ hd
    rw [abs_le] at *
    constructor <;> linarith
  rcases hy with ⟨h, hx, rfl⟩ | ⟨h, hx, rfl⟩ | ⟨k, h, hx1, hx2, rfl⟩
  · exact near _ (List.getElem_mem _) (by rw [abs_of_nonneg (by linarith)]; exact hfirst h)
  · exact near _ (List.getElem_mem _) (by rw [abs_sub_comm, abs_of_nonneg (by linarith)]; exact hlast h)
  · have hlt : (l[k]).1 < (l[k + 1]).1 := by
      have := List.pairwise_iff_getElem.1 hasc k (k + 1) (by simp; omega) (by simpa using h) (by omega)
      simpa using this
    have hg := hgap k h
    have n1 := near _ (List.getElem_mem (by omega : k < l.length)) (by
      rw [abs_sub_comm, abs_of_nonneg (by linarith)]; linarith)
    have n2 := near _ (List.getElem_mem h) (by rw [abs_of_nonneg (by linarith)]; linarith)
    set θ : ℝ := (x - (l[k]).1) / ((l[k + 1]).1 - (l[k]).1) with hθ
    have ht0 : 0 ≤ θ := div_nonneg (by linarith) (by linarith)
    have ht1 : θ ≤ 1 := by
      rw [hθ, div_le_one (by linarith)]
      linarith
    rw [abs_le] at *
    constructor <;> nlinarith

omit [Phys] in
/-- the frequencies of a band of spacing `δ` have no gaps -/
theorem band_gaps {l : List (ℝ × ℝ)} (hasc : (l.map Prod.fst).Pairwise (· < ·)) {w0 δ : ℝ} (hδ : 0 < δ) {a b : ℤ}
    (hmem : ∀ w, w ∈ l.map Prod.fst ↔ 0 ≤ w ∧ ∃ k : ℤ, a ≤ k ∧ k ≤ b ∧ w = w0 + k * δ) :
    (∀ (k : ℕ) (h : k + 1 < l.length), (l[k + 1]).1 - (l[k]).1 ≤ δ) ∧
    (∀ (h : 0 < l.length), w0 + a * δ ≤ 0 → (l[0]).1 ≤ δ) ∧
    (∀ (h : 0 < l.length), w0 + b * δ ≤ (l[l.length - 1]).1) := by
  have hpw := List.pairwise_iff_getElem.1 hasc
  have at_ : ∀ (k : ℕ) (h : k < l.length), (l[k]).1 ∈ l.map Prod.fst := fun k h => List.mem_map.2 ⟨_, List.getElem_mem h, rfl⟩
  have idx : ∀ w, w ∈ l.map Prod.fst → ∃ (k : ℕ) (h : k < l.length), (l[k]).1 = w := by
    intro w hw
    obtain ⟨pt, hpt, rfl⟩ := List.mem_map.1 hw
    obtain ⟨k, hk, rfl⟩ := List.mem_iff_getElem.1 hpt
    exact ⟨k, hk, rfl⟩
  have mono : ∀ (i j : ℕ) (hi : i < l.length) (hj : j < l.length), i ≤ j → (l[i]).1 ≤ (l[j]).1 := by
    intro i j hi hj hij
    rcases hij.eq_or_lt with rfl | hlt
    · rfl
    · have := hpw i j (by simpa using hi) (by simpa using hj) hlt
      simpa using this.le
  refine ⟨fun k h => ?_, fun h ha => ?_, fun h => ?_⟩
  · obtain ⟨h0, m, hm1, hm2, hm⟩ := (hmem _).1 (at_ k (by omega))
    obtain ⟨h0', m', hm1', hm2', hm'⟩ := (hmem _).1 (at_ (k + 1) h)
    have hlt : (l[k]).1 < (l[k + 1]).1 := by
      have := hpw k (k + 1) (by simp; omega) (by simpa using h) (by omega)
      simpa using this
    have hmm : m + 1 ≤ m' := by
      rw [hm, hm'] at hlt
      have : (m : ℝ) < m' := by nlinarith
      exact_mod_cast this
    obtain ⟨r, hr, hrw⟩ := idx (w0 + ((m + 1 : ℤ) : ℝ) * δ) ((hmem _).2 ⟨by push_cast; nlinarith, m + 1, by omega, by omega, rfl⟩)
    have hkr : k < r := by
      by_contra hc
      have := mono r k hr (by omega) (by omega)
      rw [hrw, hm] at this
      push_cast at this
      nlinarith
    have := mono (k + 1) r h hr hkr
    rw [hrw] at this
    rw [hm]
    push_cast at this
    linarith
  · obtain ⟨h0, m, hm1, hm2, hm⟩ := (hmem _).1 (at_ 0 h)
    by_contra hc
    push Not at hc
    have ham : a < m := by
      have : (a : ℝ) < m := by nlinarith
      exact_mod_cast this
    obtain ⟨r, hr, hrw⟩ := idx (w0 + ((m - 1 : ℤ) : ℝ) * δ) ((hmem _).2 ⟨by push_cast; nlinarith, m - 1, by omega, by omega, rfl⟩)
    have := mono 0 r h hr (by omega)
    rw [hrw, hm] at this
    push_cast at this
    nlinarith
  · obtain ⟨h0, m, hm1, hm2, hm⟩ := (hmem _).1 (at_ (l.length - 1) (by omega))
    by_contra hc
    push Not at hc
    have hmb : m < b := by
      have : (m : ℝ) < b := by nlinarith
      exact_mod_cast this
    obtain ⟨r, hr, hrw⟩ := idx (w0 + ((m + 1 : ℤ) : ℝ) * δ) ((hmem _).2 ⟨by push_cast; nlinarith, m + 1, by omega, by omega, rfl⟩)
    have := mono r (l.length - 1) hr (by omega) (by omega)
    rw [hrw, hm] at this
    push_cast at this
    nlinarith

/-- the grid of a new laser has cells -/
theorem init_cells {dim : String} {lo hi : List ℝ} {np : List ℕ} {p : ProfileObj} {m N : Option ℕ} {l : Laser s}
    (h : Laser.init dim lo hi np p m N = .ok ⟨s, l⟩) : 0 < s.n0 ∧ 0 < s.n1 := by
  obtain ⟨g, f, hg, -⟩ := Laser.init_facts h
  obtain ⟨-, -, -, -, hc⟩ := Grid.init_ok hg
  rcases hc with ⟨l0, l1, u0, u1, m', r, t, rest, e1, e2, e3, e4, e5, e6, e7, e8, hm, e9⟩ |
    ⟨l0, l1, l2, u0, u1, u2, x, y, t, e1, e2, e3, e4, e5, e6, e7, e8, e9⟩
  · have := (mkAxis_ok e6).1
    omega
  · have := (mkAxis_ok e5).1
    have := (mkAxis_ok e6).1
    omega

omit [Phys] in
/-- the error of the amplitudes is small in large windows and on fine axes -/
theorem amplitude_bound {C1 C2 W P dt : ℝ} (h1 : 0 ≤ C1) (h2 : 0 ≤ C2) (hW : 0 < W) (hP : 2 * W ≤ P) (hdt : 0 < dt) :
    zeta2 / 2 * (C2 * P * (2 / P) ^ 2 + C1 * (dt / Real.pi) ^ 2) ≤ zeta2 * (C2 / W + C1 * dt ^ 2) := by
  have hz : 0 ≤ zeta2 := tsum_nonneg fun m => by positivity
  have hP0 : 0 < P := by linarith
  have e1 : C2 * P * (2 / P) ^ 2 ≤ 2 * (C2 / W) := by
    rw [show C2 * P * (2 / P) ^ 2 = 4 * C2 / P by field_simp; ring, show 2 * (C2 / W) = 4 * C2 / (2 * W) by field_simp; ring]
    exact div_le_div_of_nonneg_left (by positivity) (by positivity) hP
  have e2 : C1 * (dt / Real.pi) ^ 2 ≤ C1 * dt ^ 2 := by
    refine mul_le_mul_of_nonneg_left (pow_le_pow_left₀ (by positivity) ?_ 2) h1
    exact div_le_self hdt.le (by linarith [Real.two_le_pi])
  have e3 : 0 ≤ C1 * dt ^ 2 := by positivity
  calc zeta2 / 2 * (C2 * P * (2 / P) ^ 2 + C1 * (dt / Real.pi) ^ 2) ≤ zeta2 / 2 * (2 * (C2 / W) + 2 * (C1 * dt ^ 2)) :=
        mul_le_mul_of_nonneg_left (by linarith) (by positivity)
    _ = _ := by ring

/-- the density of a separable pulse, with its error -/
theorem density_error {dim : String} {lo hi : List ℝ} {np : List ℕ} {p : ProfileObj} {m N : Option ℕ} {l : Laser s}
    (h : Laser.init dim lo hi np p m N = .ok ⟨s, l⟩) {t0 W : ℝ} (hW : 0 < W) (ha : lo.getLast? = some (t0 - W))
    (hb : hi.getLast? = some (t0 + W)) (w0 : ℝ) {S : ℝ → ℂ} {C1 C2 : ℝ} (hc : Continuous S)
    (hS : Localised S 0 C1 2) (hE : Localised (pulse S) t0 C2 2) (k : Fin s.nt) {η : ℝ}
    (hη : zeta2 * (C2 / W + C1 * l.grid.t.dx ^ 2) ≤ η) :
    |eps0 * c / Real.pi * ‖0.5 * fft (fun k => pulse S (l.grid.t.pts k)) k * l.grid.t.dx‖ ^ 2 -
        pulseDensity S (bandFreq s.nt l.grid.t.dx w0 k - w0)| ≤ eps0 * c / Real.pi * (η * (η + C1)) := by
  obtain ⟨h2, hd, hpts⟩ := init_time_step h ha hb
  have hn : (2 : ℝ) ≤ s.nt := by exact_mod_cast h2
  have hdx : l.grid.t.dx * ((s.nt : ℝ) - 1) = 2 * W := by
    rw [hd, div_mul_cancel₀ _ (by linarith)]; ring
  have hpos : 0 < l.grid.t.dx := by
    rw [hd]
    exact div_pos (by linarith) (by linarith)
  have hP : 2 * W ≤ s.nt * l.grid.t.dx := by nlinarith
  have key := (sampled_amplitude h hW ha hb w0 le_rfl hc hS hE k).trans
    ((amplitude_bound hS.nonneg hE.nonneg hW hP hpos).trans hη)
  set v := bandFreq s.nt l.grid.t.dx w0 k - w0 with hv
  set b : ℂ := S v / 2 * exp (-I * (v : ℂ) * ((t0 - W : ℝ) : ℂ)) with hbd
  have hbn : ‖b‖ = ‖S v‖ / 2 := by
    rw [hbd, norm_mul, show -I * (v : ℂ) * ((t0 - W : ℝ) : ℂ) = ((-(v * (t0 - W)) : ℝ) : ℂ) * I by push_cast; ring,
      norm_exp_ofReal_mul_I, mul_one, norm_div]
    norm_num
  have hSn : ‖S v‖ ≤ C1 := by
    refine (hS v).trans (div_le_self hS.nonneg ?_)
    have := abs_nonneg (v - 0)
    nlinarith
  have hK : 0 ≤ eps0 * c / Real.pi := by
    have := eps0_pos
    have := c_pos
    have := Real.pi_pos
    positivity
  have := norm_sq_close key (K := C1 / 2) (by rw [hbn]; linarith)
  have e : pulseDensity S v = eps0 * c / Real.pi * ‖b‖ ^ 2 := by
    rw [hbn, pulseDensity]
    ring
  rw [e, ← mul_sub, abs_mul, abs_of_nonneg hK]
  refine mul_le_mul_of_nonneg_left (this.trans (le_of_eq ?_)) hK
  ring

/-- **C144** (separable pulses). The longitudinal profile of a laser has the spectrum `S`; the transverse profile is arbitrary. In
every window around `t0` that is large enough and with enough points in time, all points `(ω, D)` that `get_spectrum` returns,
with `method` `"sum"` or `"on_axis"`, are on the curve of the spectral energy density of the pulse, `ε0 c |S(ω - ω0)|² / 4π`
times the contribution of the transverse profile, up to any given relative error. -/
theorem C144_separable (S : ℝ → ℂ) (hc : Continuous S) (t0 C1 C2 : ℝ) (hS : Localised S 0 C1 2)
    (hE : Localised (pulse S) t0 C2 2) {ε : ℝ} (hε : 0 < ε) :
    ∃ W0 : ℝ, 0 < W0 ∧ ∀ W ≥ W0, ∃ n : ℕ,
    ∀ {s : Shape} {dim : String} {lo hi : List ℝ} {np : List ℕ} {p : ProfileObj} {m N : Option ℕ} {l : Laser s}
      {trans : ℝ → ℝ → ℂ} (w0 : ℝ) (method : SpectrumMethod) (bins : ℕ), Laser.init dim lo hi np p m N = .ok ⟨s, l⟩ →
      lo.getLast? = some (t0 - W) → hi.getLast? = some (t0 + W) → n ≤ s.nt →
      p.Pointwise (fun x y t => trans x y * pulse S t) →
      ∃ (A : Fin s.n0 → Fin s.n1 → ℂ) (spec : List (ℝ × ℝ)) (g' : Grid s),
        (l.Has fun i j k => A i j * pulse S (l.grid.t.pts k)) ∧
        getSpectrum method none bins (some w0) l.grid = (.ok spec, g') ∧
        (spec.map Prod.fst).Pairwise (· < ·) ∧
        (∀ w, w ∈ spec.map Prod.fst ↔ 0 ≤ w ∧ ∃ k : ℤ, -(((s.nt : ℤ) - 1) / 2) ≤ k ∧ k ≤ s.nt / 2 ∧
          w = w0 + k * (2 * Real.pi / (s.nt * l.grid.t.dx))) ∧
        ∀ ω D, (ω, D) ∈ spec → |D - transverseWeight method l.grid A * pulseDensity S (ω - w0)| ≤
          |transverseWeight method l.grid A| * ε := by
  have hC1 := hS.nonneg
  have hC2 := hE.nonneg
  have hz : 0 ≤ zeta2 := tsum_nonneg fun m => by positivity
  set K : ℝ := eps0 * c / Real.pi with hK
  have hK0 : 0 ≤ K := by
    have := eps0_pos
    have := c_pos
    have := Real.pi_pos
    positivity
  obtain ⟨η, hη0, hη1⟩ : ∃ η : ℝ, 0 < η ∧ K * (η * (η + C1)) ≤ ε := by
    refine ⟨min 1 (ε / (K * (1 + C1) + 1)), by positivity, ?_⟩
    set η := min 1 (ε / (K * (1 + C1) + 1)) with hη
    have h0 : 0 < η := by positivity
    have h1 : η ≤ 1 := min_le_left _ _
    have h2 : η ≤ ε / (K * (1 + C1) + 1) := min_le_right _ _
    rw [le_div_iff₀ (by positivity)] at h2
    have h3 : η * (η + C1) ≤ η * (1 + C1) := mul_le_mul_of_nonneg_left (by linarith) h0.le
    have h4 : K * (η * (η + C1)) ≤ K * (η * (1 + C1)) := mul_le_mul_of_nonneg_left h3 hK0
    nlinarith
  refine ⟨max 1 (2 * (zeta2 * C2) / η), by positivity, fun W hW => ?_⟩
  have hW1 : 1 ≤ W := (le_max_left _ _).trans hW
  have hW2 : 2 * (zeta2 * C2) / η ≤ W := (le_max_right _ _).trans hW
  have hW0 : 0 < W := by linarith
  obtain ⟨n, hn⟩ := Filter.eventually_atTop.1
    ((step_tendsto W (zeta2 * C1) 2 (by norm_num)).eventually (gt_mem_nhds (half_pos hη0)))
  refine ⟨n, fun {s dim lo hi np p m N l trans} w0 method bins h ha hb hs hF => ?_⟩
  obtain ⟨A, hA⟩ := init_separable h trans (pulse S) hF
  obtain ⟨h2, hd, hpts⟩ := init_time_step h ha hb
  obtain ⟨h0, h1⟩ := init_cells h
  have hn2 : (2 : ℝ) ≤ s.nt := by exact_mod_cast h2
  have hd' : l.grid.t.dx = 2 * W / ((s.nt : ℝ) - 1) := by rw [hd]; ring
  have hpos : 0 < l.grid.t.dx := by
    rw [hd']
    exact div_pos (by linarith) (by linarith)
  have hstep : l.grid.t.pts ⟨1, by omega⟩ - l.grid.t.pts ⟨0, by omega⟩ = l.grid.t.dx := by
    rw [hpts, hpts]; simp
  obtain ⟨spec, g', e, hpt, hall⟩ := separable_spectrum hA h2 h0 h1 hstep w0 method bins
  obtain ⟨spec', g'', e', hasc⟩ := C105_ascending method bins (t0 := t0 - W) ⟨hpos, rfl, hpts⟩ h2 h0 h1 w0 (.inl ⟨_, hA⟩)
  rw [e] at e'
  simp only [Prod.mk.injEq, Except.ok.injEq] at e'
  rw [← e'.1] at hasc
  have hsmall : zeta2 * (C2 / W + C1 * l.grid.t.dx ^ 2) ≤ η := by
    have a1 := hn s.nt hs
    rw [← hd'] at a1
    have a2 : zeta2 * (C2 / W) ≤ η / 2 := by
      rw [← mul_div_assoc, div_le_iff₀ hW0]
      rw [div_le_iff₀ hη0] at hW2
      linarith
    nlinarith
  refine ⟨A, spec, g', hA, e, hasc, fun w => ?_, fun ω D hmem => ?_⟩
  · obtain ⟨cols, g3, e3, hc3, -⟩ := C144_raw h hW0 ha hb hA w0
    obtain ⟨g4, e4, -⟩ := getSpectrumRaw_holds hA h2 w0
    rw [e3, hstep] at e4
    simp only [Prod.mk.injEq, Except.ok.injEq] at e4
    have hfreq : w ∈ cols.map Column.omega ↔ w ∈ spec.map Prod.fst := by
      rw [e4.1]
      simp only [List.mem_map, mem_envColumns]
      constructor
      · rintro ⟨_, ⟨k, rfl, hk⟩, rfl⟩
        simpa using hall k hk
      · rintro ⟨pt, hp, rfl⟩
        obtain ⟨k, rfl⟩ := hpt pt hp
        refine ⟨_, ⟨k, rfl, ?_⟩, rfl⟩
        obtain ⟨spec5, g5, e5, hpos5⟩ : ∃ sp g5, getSpectrum method none bins (some w0) l.grid = (.ok sp, g5) ∧
            ∀ pt ∈ sp, 0 ≤ pt.1 := by
          obtain ⟨cell, hcell⟩ := onAxisCell_ok l.grid h0 h1
          cases method with
          | sum =>
            obtain ⟨g5, e5⟩ := getSpectrumSum_env hA h2 w0
            refine ⟨_, g5, by unfold getSpectrum SpectrumMethod.base; rw [Py.bind_ok e5]; rfl, fun pt hp => ?_⟩
            obtain ⟨col, hcol, rfl⟩ := List.mem_map.1 hp
            obtain ⟨k, rfl, hk⟩ := mem_envColumns.1 hcol
            exact hk
          | onAxis =>
            obtain ⟨g5, e5⟩ := getSpectrumOnAxis_env hA h2 w0 hcell
            refine ⟨_, g5, by unfold getSpectrum SpectrumMethod.base; rw [Py.bind_ok e5]; rfl, fun pt hp => ?_⟩
            obtain ⟨col, hcol, rfl⟩ := List.mem_map.1 hp
            obtain ⟨k, rfl, hk⟩ := mem_envColumns.1 hcol
            exact hk
        rw [e] at e5
        simp only [Prod.mk.injEq, Except.ok.injEq] at e5
        exact hpos5 _ (e5.1 ▸ hp)
    rw [← hfreq, hc3]
    refine and_congr_right fun _ => exists_congr fun k => ?_
    constructor
    · rintro ⟨a1, a2, a3⟩
      exact ⟨by omega, by omega, a3⟩
    · rintro ⟨a1, a2, a3⟩
      exact ⟨by omega, by omega, a3⟩
  · obtain ⟨k, hk⟩ := hpt _ hmem
    simp only [Prod.mk.injEq] at hk
    obtain ⟨rfl, rfl⟩ := hk
    rw [← mul_sub, abs_mul]
    exact mul_le_mul_of_nonneg_left ((density_error h hW0 ha hb w0 hc hS hE k hsmall).trans hη1) (abs_nonneg _)

/-- the density of a localised spectrum is uniformly continuous -/
theorem pulseDensity_uniform {S : ℝ → ℂ} (hc : Continuous S) {C1 : ℝ} (hS : Localised S 0 C1 2) {ε : ℝ} (hε : 0 < ε) :
    ∃ δ > 0, ∀ a b, |a - b| ≤ δ → |pulseDensity S a - pulseDensity S b| ≤ ε := by
  have h1 : Filter.Tendsto (fun w => ‖S w‖) (Filter.cocompact ℝ) (nhds 0) := by
    have hO := hS.isBigO le_rfl one_pos
    simp only [mul_one] at hO
    have h2 : Filter.Tendsto (fun x : ℝ => |x| ^ (-(2 : ℝ))) (Filter.cocompact ℝ) (nhds 0) :=
      (tendsto_rpow_neg_atTop (by norm_num : (0 : ℝ) < 2)).comp (tendsto_norm_cocompact_atTop (E := ℝ))
    simpa using (hO.trans_tendsto h2).norm
  have h2 : Filter.Tendsto (pulseDensity S) (Filter.cocompact ℝ) (nhds 0) := by
    have := (h1.pow 2).const_mul (eps0 * c / (4 * Real.pi))
    rw [zero_pow (by norm_num), mul_zero] at this
    exact this
  have h3 : Continuous (pulseDensity S) := by
    unfold pulseDensity
    fun_prop
  have hu := h3.uniformContinuous_of_tendsto_cocompact h2
  rw [Metric.uniformContinuous_iff] at hu
  obtain ⟨δ, hδ, h⟩ := hu ε hε
  refine ⟨δ / 2, half_pos hδ, fun a b hab => ?_⟩
  have := h (a := a) (b := b) (by rw [Real.dist_eq]; linarith)
  rw [Real.dist_eq] at this
  exact this.le

set_option maxHeartbeats 1000000 in
/-- **C144** (in a range). The same of `get_spectrum` with `range=(a, b)`, `0 ≤ a ≤ b`, and any number of bins: the frequencies
are the bins of the range, and the interpolated values are the spectral energy density of the pulse at these frequencies, up to
any given relative error, in every window that is large enough and with enough points in time. -/
theorem C144_range (S : ℝ → ℂ) (hc : Continuous S) (t0 C1 C2 : ℝ) (hS : Localised S 0 C1 2)
    (hE : Localised (pulse S) t0 C2 2) (w0 : ℝ) {a b : ℝ} (ha0 : 0 ≤ a) (hab : a ≤ b) {ε : ℝ} (hε : 0 < ε) :
    ∃ W0 : ℝ, 0 < W0 ∧ ∀ W ≥ W0, ∃ n : ℕ,
    ∀ {s : Shape} {dim : String} {lo hi : List ℝ} {np : List ℕ} {p : ProfileObj} {m N : Option ℕ} {l : Laser s}
      {trans : ℝ → ℝ → ℂ} (method : SpectrumMethod) (bins : ℕ), Laser.init dim lo hi np p m N = .ok ⟨s, l⟩ →
      lo.getLast? = some (t0 - W) → hi.getLast? = some (t0 + W) → n ≤ s.nt →
      p.Pointwise (fun x y t => trans x y * pulse S t) →
      ∃ (A : Fin s.n0 → Fin s.n1 → ℂ) (spec : List (ℝ × ℝ)) (g' : Grid s),
        (l.Has fun i j k => A i j * pulse S (l.grid.t.pts k)) ∧
        getSpectrum method (some (a, b)) bins (some w0) l.grid = (.ok spec, g') ∧ spec.length = bins ∧
        (∀ (i : ℕ) (h : i < spec.length), (spec[i]).1 = a + i * ((b - a) / (bins - 1))) ∧
        ∀ ω D, (ω, D) ∈ spec → |D - transverseWeight method l.grid A * pulseDensity S (ω - w0)| ≤
          |transverseWeight method l.grid A| * ε := by
  have hpi := Real.pi_pos
  obtain ⟨δ, hδ, hunif⟩ := pulseDensity_uniform hc hS (half_pos hε)
  obtain ⟨W1, hW1, key⟩ := C144_separable S hc t0 C1 C2 hS hE (half_pos hε)
  refine ⟨max W1 (Real.pi / δ), lt_max_of_lt_left hW1, fun W hW => ?_⟩
  have hWa : W1 ≤ W := (le_max_left _ _).trans hW
  have hWb : Real.pi / δ ≤ W := (le_max_right _ _).trans hW
  have hW0 : 0 < W := by linarith
  obtain ⟨n1, key1⟩ := key W hWa
  -- the axis resolves the range
  obtain ⟨n2, hn2⟩ := Filter.eventually_atTop.1
    ((step_tendsto W (3 * (|w0| + b + 1)) 1 one_ne_zero).eventually (gt_mem_nhds hpi))
  refine ⟨max (max n1 n2) 3, fun {s dim lo hi np p m N l trans} method bins h hlo hhi hs hF => ?_⟩
  obtain ⟨A, spec, g', hA, e, hasc, hmem, hval⟩ := key1 w0 method bins h hlo hhi (by omega) hF
  obtain ⟨h2, hd, hpts⟩ := init_time_step h hlo hhi
  have h3 : 3 ≤ s.nt := by omega
  have hn3 : (3 : ℝ) ≤ s.nt := by exact_mod_cast h3
  have hd' : l.grid.t.dx = 2 * W / ((s.nt : ℝ) - 1) := by rw [hd]; ring
  have hpos : 0 < l.grid.t.dx := by
    rw [hd']
    exact div_pos (by linarith) (by linarith)
  have hdx : l.grid.t.dx * ((s.nt : ℝ) - 1) = 2 * W := by rw [hd', div_mul_cancel₀ _ (by linarith)]
  have hP : 2 * W ≤ s.nt * l.grid.t.dx := by nlinarith
  have hres := hn2 s.nt (by omega)
  rw [← hd', pow_one] at hres
  set P : ℝ := s.nt * l.grid.t.dx with hPd
  have hP0 : 0 < P := by linarith
  set d : ℝ := 2 * Real.pi / P with hdd
  have hd0 : 0 < d := by positivity
  have hdδ : d ≤ δ := by
    rw [hdd, div_le_iff₀ hP0]
    rw [div_le_iff₀ hδ] at hWb
    nlinarith
  have hw0 := neg_abs_le w0
  have hw0' := le_abs_self w0
  have hb0 : 0 ≤ b := ha0.trans hab
  -- half of the band
  have hhalf : |w0| + b + 1 ≤ d * (((s.nt : ℝ) - 2) / 2) := by
    have e1 : d * l.grid.t.dx * s.nt = 2 * Real.pi := by
      rw [hdd, hPd]
      field_simp
    have e3 : ((|w0| + b + 1) * 3) * l.grid.t.dx ≤ (d * s.nt / 2) * l.grid.t.dx := by nlinarith
    have e4 := le_of_mul_le_mul_right e3 hpos
    nlinarith
  obtain ⟨hgap, hfirst, hlast⟩ := band_gaps hasc hd0 hmem
  have hlow : w0 + ((-(((s.nt : ℤ) - 1) / 2) : ℤ) : ℝ) * d ≤ 0 := by
    have : (s.nt : ℤ) - 2 ≤ 2 * (((s.nt : ℤ) - 1) / 2) := by omega
    have : ((s.nt : ℝ) - 2) / 2 ≤ ((((s.nt : ℤ) - 1) / 2 : ℤ) : ℝ) := by
      have h : ((s.nt : ℝ)) - 2 ≤ 2 * ((((s.nt : ℤ) - 1) / 2 : ℤ) : ℝ) := by exact_mod_cast this
      linarith
    push_cast at this ⊢
    nlinarith
  have hhigh : b ≤ w0 + (((s.nt : ℤ) / 2 : ℤ) : ℝ) * d := by
    have : (s.nt : ℤ) - 2 ≤ 2 * ((s.nt : ℤ) / 2) := by omega
    have : ((s.nt : ℝ) - 2) / 2 ≤ (((s.nt : ℤ) / 2 : ℤ) : ℝ) := by
      have h : ((s.nt : ℝ)) - 2 ≤ 2 * (((s.nt : ℤ) / 2 : ℤ) : ℝ) := by exact_mod_cast this
      linarith
    nlinarith
  have hlen : 0 < spec.length := by
    have : w0 + (((s.nt : ℤ) / 2 : ℤ) : ℝ) * d ∈ spec.map Prod.fst :=
      (hmem _).2 ⟨by linarith, _, by omega, le_rfl, rfl⟩
    have := List.length_pos_of_mem this
    simpa using this
  obtain ⟨r, er, hr, hri⟩ := C105_range method a b bins (some w0) e hlen hasc
  refine ⟨A, r, g', hA, er, hr, fun i hi => (hri i hi).1, fun ω D hD => ?_⟩
  obtain ⟨i, hi, hiD⟩ := List.mem_iff_getElem.1 hD
  obtain ⟨hω, hpoly⟩ := hri i hi
  rw [hiD] at hω hpoly
  simp only at hω hpoly
  have hωa : a ≤ ω ∧ ω ≤ b := by
    rw [hω]
    have hib : i + 1 ≤ bins := by omega
    have hir : (i : ℝ) + 1 ≤ bins := by exact_mod_cast hib
    have hi0 : (0 : ℝ) ≤ i := Nat.cast_nonneg _
    rcases eq_or_lt_of_le (by linarith : (1 : ℝ) ≤ bins) with hb1 | hb1
    · rw [← hb1]
      simp [hab]
    · have e1 : (i : ℝ) * ((b - a) / (bins - 1)) = (b - a) * (i / (bins - 1)) := by ring
      have e2 : (i : ℝ) / (bins - 1) ≤ 1 := by
        rw [div_le_one (by linarith)]
        linarith
      have e3 : 0 ≤ (i : ℝ) / (bins - 1) := div_nonneg hi0 (by linarith)
      rw [e1]
      constructor <;> nlinarith
  have := polygon_close (F := fun w => transverseWeight method l.grid A * pulseDensity S (w - w0))
    (e1 := |transverseWeight method l.grid A| * (ε / 2)) (e2 := |transverseWeight method l.grid A| * (ε / 2)) hasc
    (fun pt hpt => hval pt.1 pt.2 hpt) (fun u v huv => by
      rw [← mul_sub, abs_mul]
      exact mul_le_mul_of_nonneg_left (hunif _ _ (by rwa [show u - w0 - (v - w0) = u - v by ring])) (abs_nonneg _))
    (fun k h => (hgap k h).trans hdδ) (fun h => by linarith [hfirst h hlow]) (fun h => by linarith [hlast h]) hpoly
  refine this.trans (le_of_eq ?_)
  ring

/-! ## the spectrum in terms of the energy -/

/-- the energy of a separable field and its transverse weight -/
theorem separable_energy {l : Laser s} {A : Fin s.n0 → Fin s.n1 → ℂ} {o : Fin s.nt → ℂ} (hA : l.Has fun i j k => A i j * o k)
    (hs : l.grid.geom.Single) (hdt : l.grid.t.dx ≠ 0) {E : ℝ} (hE : l.energy = .ok E) :
    E = transverseWeight .sum l.grid A * (eps0 * c / 2) * (l.grid.t.dx * ∑ k, ‖o k‖ ^ 2) := by
  have hcp := c_pos.ne'
  obtain ⟨g', e, -⟩ := Grid.Holds.energy hA
  have hE' : E = pulseEnergy l.grid fun i j k => A i j * o k := by
    have : l.energy = (computeLaserEnergy l.grid).1 := rfl
    rw [hE, e] at this
    exact Except.ok.inj this
  have hsum : ∀ i j, ∑ k, l.grid.cellVolume j * eps0 * ‖A i j * o k‖ ^ 2 =
      ‖A i j‖ ^ 2 * l.grid.cellArea j * (eps0 * c) * (l.grid.t.dx * ∑ k, ‖o k‖ ^ 2) := by
    intro i j
    rw [Finset.mul_sum, Finset.mul_sum]
    refine Finset.sum_congr rfl fun k _ => ?_
    rw [norm_mul, mul_pow]
    unfold Grid.cellArea
    field_simp
  rw [hE', pulseEnergy, transverseWeight]
  simp only [hsum, ← Finset.sum_mul]
  cases hg : l.grid.geom with
  | xyt x y =>
    simp only
    ring
  | rt m hm r =>
    rw [hg] at hs
    have hm1 : m = 1 := hs
    have hu : (Finset.univ : Finset (Fin s.n0)) = {⟨0, by omega⟩} := by
      ext i
      simp [Fin.ext_iff]
      omega
    simp only
    rw [hu, Finset.sum_singleton]
    ring

set_option maxHeartbeats 1000000 in
/-- the step from the transverse weight to the energy -/
theorem energy_window (S : ℝ → ℂ) (hc : Continuous S) (t0 C1 C2 : ℝ) (hS : Localised S 0 C1 2)
    (hE : Localised (pulse S) t0 C2 3) (hF : 0 < fluence (pulse S)) {ε : ℝ} (hε : 0 < ε) :
    ∃ ε1 > 0, ∃ W0 : ℝ, 0 < W0 ∧ ∀ W ≥ W0, ∃ n : ℕ,
    ∀ {s : Shape} {dim : String} {lo hi : List ℝ} {np : List ℕ} {p : ProfileObj} {m N : Option ℕ} {l : Laser s}
      {A : Fin s.n0 → Fin s.n1 → ℂ} {E : ℝ}, Laser.init dim lo hi np p m N = .ok ⟨s, l⟩ →
      lo.getLast? = some (t0 - W) → hi.getLast? = some (t0 + W) → n ≤ s.nt →
      (l.Has fun i j k => A i j * pulse S (l.grid.t.pts k)) → l.grid.geom.Single → l.energy = .ok E →
      ∀ D v, |D - transverseWeight .sum l.grid A * pulseDensity S v| ≤ |transverseWeight .sum l.grid A| * ε1 →
        |D - E * (‖S v‖ ^ 2 / (2 * Real.pi * fluence (pulse S)))| ≤ |E| * ε := by
  have hpi := Real.pi_pos
  have hcp := c_pos
  have hep := eps0_pos
  set F := fluence (pulse S) with hFd
  set K : ℝ := eps0 * c with hK
  have hK0 : 0 < K := by positivity
  obtain ⟨Wa, hWa, ka⟩ := moment_close (continuous_pulse hc hS) hE (w := fun _ => 1) continuous_const (B := 1) (fun t => by
    rw [abs_one]; nlinarith [sq_nonneg (t - t0)]) (K1 := 0) (K2 := 0) le_rfl
    (δ := min (F / 2) (ε * Real.pi * F ^ 2 / (2 * C1 ^ 2 + 1))) (by positivity)
  refine ⟨ε * K * F / 8, by positivity, max 1 Wa, by positivity, fun W hW => ?_⟩
  have hW0 : 0 < W := by linarith [(le_max_left 1 Wa).trans hW]
  obtain ⟨n, ka⟩ := ka W ((le_max_right _ _).trans hW)
  refine ⟨n, fun {s dim lo hi np p m N l A E} h hlo hhi hs hA hsing hEn D v hD => ?_⟩
  obtain ⟨h2, hd, hpts⟩ := init_time_step h hlo hhi
  have hax := init_time_axis h hlo hhi
  have hn2 : (2 : ℝ) ≤ s.nt := by exact_mod_cast h2
  have hd' : l.grid.t.dx = 2 * W / ((s.nt : ℝ) - 1) := by rw [hd]; ring
  have hpos : 0 < l.grid.t.dx := by
    rw [hd']
    exact div_pos (by linarith) (by linarith)
  have key := ka s.nt hs (fun k => pulse S (l.grid.t.pts k)) (by
    rw [hax]
    simp)
  simp only [one_mul] at key
  rw [← hd'] at key
  set Fn := l.grid.t.dx * ∑ k, ‖pulse S (l.grid.t.pts k)‖ ^ 2 with hFn
  have hkey : |Fn - F| ≤ min (F / 2) (ε * Real.pi * F ^ 2 / (2 * C1 ^ 2 + 1)) := key
  have hk1 := hkey.trans (min_le_left _ _)
  have hk2 := hkey.trans (min_le_right _ _)
  have hFn2 : F / 2 ≤ Fn := by
    have := (abs_le.1 hk1).1
    linarith
  have hFn0 : 0 < Fn := by linarith
  have hEe := separable_energy hA hsing hpos.ne' hEn
  rw [← hFn, ← hK] at hEe
  set wt := transverseWeight .sum l.grid A with hwt
  have hwE : wt = 2 * E / (K * Fn) := by
    rw [hEe]
    field_simp
  have hSn : ‖S v‖ ^ 2 ≤ C1 ^ 2 := by
    refine pow_le_pow_left₀ (norm_nonneg _) ((hS v).trans (div_le_self hS.nonneg ?_)) 2
    have := abs_nonneg (v - 0)
    nlinarith
  have e1 : wt * pulseDensity S v = E * (‖S v‖ ^ 2 / (2 * Real.pi * Fn)) := by
    rw [hwE, pulseDensity, ← hK]
    field_simp
    ring
  have e2 : |wt| * (ε * K * F / 8) ≤ |E| * (ε / 2) := by
    rw [hwE, abs_div, abs_mul, abs_two, abs_of_pos (mul_pos hK0 hFn0)]
    rw [show 2 * |E| / (K * Fn) * (ε * K * F / 8) = |E| * (ε / 2 * (F / 2 / Fn)) by field_simp; ring]
    refine mul_le_mul_of_nonneg_left ?_ (abs_nonneg _)
    have : F / 2 / Fn ≤ 1 := by
      rw [div_le_one hFn0]
      exact hFn2
    nlinarith
  have e3 : |‖S v‖ ^ 2 / (2 * Real.pi * Fn) - ‖S v‖ ^ 2 / (2 * Real.pi * F)| ≤ ε / 2 := by
    rw [show ‖S v‖ ^ 2 / (2 * Real.pi * Fn) - ‖S v‖ ^ 2 / (2 * Real.pi * F) =
      ‖S v‖ ^ 2 * (-(Fn - F)) / (2 * Real.pi * Fn * F) by field_simp; ring]
    rw [abs_div, abs_mul, abs_neg, abs_of_nonneg (sq_nonneg ‖S v‖), abs_of_pos (by positivity : 0 < 2 * Real.pi * Fn * F),
      div_le_iff₀ (by positivity)]
    rw [le_div_iff₀ (by positivity)] at hk2
    have a1 : ‖S v‖ ^ 2 * |Fn - F| ≤ C1 ^ 2 * |Fn - F| := mul_le_mul_of_nonneg_right hSn (abs_nonneg _)
    have a2 : ε * Real.pi * F ^ 2 ≤ 2 * (ε * Real.pi * (Fn * F)) := by
      have : F * F ≤ 2 * (Fn * F) := by nlinarith
      have := mul_le_mul_of_nonneg_left this (by positivity : 0 ≤ ε * Real.pi)
      nlinarith
    have a3 := abs_nonneg (Fn - F)
    have a4 : C1 ^ 2 * |Fn - F| * 2 ≤ |Fn - F| * (2 * C1 ^ 2 + 1) := by linarith
    have a5 : ε / 2 * (2 * Real.pi * Fn * F) = ε * Real.pi * (Fn * F) := by ring
    rw [a5]
    linarith
  rw [e1] at hD
  calc |D - E * (‖S v‖ ^ 2 / (2 * Real.pi * F))| ≤ |D - E * (‖S v‖ ^ 2 / (2 * Real.pi * Fn))| +
        |E * (‖S v‖ ^ 2 / (2 * Real.pi * Fn)) - E * (‖S v‖ ^ 2 / (2 * Real.pi * F))| := abs_sub_le _ _ _
    _ ≤ |E| * (ε / 2) + |E| * (ε / 2) := by
        refine add_le_add (hD.trans e2) ?_
        rw [← mul_sub, abs_mul]
        exact mul_le_mul_of_nonneg_left e3 (abs_nonneg _)
    _ = _ := by ring

/-- **C144** (the energy). For a separable pulse on a Cartesian grid, or with one azimuthal mode, with the energy `E`:
`get_spectrum(method="sum")` returns the curve `E |S(ω - ω0)|² / (2π ∫|L|²)`, `L` the longitudinal profile and `S` its spectrum,
that is the energy times the normalised spectrum of the pulse, up to any given relative error, in every window that is large
enough and with enough points in time. -/
theorem C144_energy (S : ℝ → ℂ) (hc : Continuous S) (t0 C1 C2 : ℝ) (hS : Localised S 0 C1 2)
    (hE : Localised (pulse S) t0 C2 3) (hF : 0 < fluence (pulse S)) {ε : ℝ} (hε : 0 < ε) :
    ∃ W0 : ℝ, 0 < W0 ∧ ∀ W ≥ W0, ∃ n : ℕ,
    ∀ {s : Shape} {dim : String} {lo hi : List ℝ} {np : List ℕ} {p : ProfileObj} {m N : Option ℕ} {l : Laser s}
      {trans : ℝ → ℝ → ℂ} {E : ℝ} (w0 : ℝ) (bins : ℕ), Laser.init dim lo hi np p m N = .ok ⟨s, l⟩ →
      lo.getLast? = some (t0 - W) → hi.getLast? = some (t0 + W) → n ≤ s.nt →
      p.Pointwise (fun x y t => trans x y * pulse S t) → l.grid.geom.Single → l.energy = .ok E →
      ∃ (spec : List (ℝ × ℝ)) (g' : Grid s), getSpectrum .sum none bins (some w0) l.grid = (.ok spec, g') ∧
        (∀ w, w ∈ spec.map Prod.fst ↔ 0 ≤ w ∧ ∃ k : ℤ, -(((s.nt : ℤ) - 1) / 2) ≤ k ∧ k ≤ s.nt / 2 ∧
          w = w0 + k * (2 * Real.pi / (s.nt * l.grid.t.dx))) ∧
        ∀ ω D, (ω, D) ∈ spec → |D - E * (‖S (ω - w0)‖ ^ 2 / (2 * Real.pi * fluence (pulse S)))| ≤ |E| * ε := by
  obtain ⟨ε1, hε1, Wa, hWa, ka⟩ := energy_window S hc t0 C1 C2 hS hE hF hε
  obtain ⟨Wb, hWb, kb⟩ := C144_separable S hc t0 C1 C2 hS (hE.mono (by norm_num)) hε1
  refine ⟨max Wa Wb, lt_max_of_lt_left hWa, fun W hW => ?_⟩
  obtain ⟨na, ka⟩ := ka W ((le_max_left _ _).trans hW)
  obtain ⟨nb, kb⟩ := kb W ((le_max_right _ _).trans hW)
  refine ⟨max na nb, fun {s dim lo hi np p m N l trans E} w0 bins h hlo hhi hs hF hsing hEn => ?_⟩
  obtain ⟨A, spec, g', hA, e, -, hmem, hval⟩ := kb w0 .sum bins h hlo hhi ((le_max_right _ _).trans hs) hF
  exact ⟨spec, g', e, hmem, fun ω D hD => ka h hlo hhi ((le_max_left _ _).trans hs) hA hsing hEn D _ (hval ω D hD)⟩

/-- **C144** (the energy in a range of frequencies) -/
theorem C144_energy_range (S : ℝ → ℂ) (hc : Continuous S) (t0 C1 C2 : ℝ) (hS : Localised S 0 C1 2)
    (hE : Localised (pulse S) t0 C2 3) (hF : 0 < fluence (pulse S)) (w0 : ℝ) {a b : ℝ} (ha0 : 0 ≤ a) (hab : a ≤ b)
    {ε : ℝ} (hε : 0 < ε) :
    ∃ W0 : ℝ, 0 < W0 ∧ ∀ W ≥ W0, ∃ n : ℕ,
    ∀ {s : Shape} {dim : String} {lo hi : List ℝ} {np : List ℕ} {p : ProfileObj} {m N : Option ℕ} {l : Laser s}
      {trans : ℝ → ℝ → ℂ} {E : ℝ} (bins : ℕ), Laser.init dim lo hi np p m N = .ok ⟨s, l⟩ →
      lo.getLast? = some (t0 - W) → hi.getLast? = some (t0 + W) → n ≤ s.nt →
      p.Pointwise (fun x y t => trans x y * pulse S t) → l.grid.geom.Single → l.energy = .ok E →
      ∃ (spec : List (ℝ × ℝ)) (g' : Grid s), getSpectrum .sum (some (a, b)) bins (some w0) l.grid = (.ok spec, g') ∧
        spec.length = bins ∧ (∀ (i : ℕ) (h : i < spec.length), (spec[i]).1 = a + i * ((b - a) / (bins - 1))) ∧
        ∀ ω D, (ω, D) ∈ spec → |D - E * (‖S (ω - w0)‖ ^ 2 / (2 * Real.pi * fluence (pulse S)))| ≤ |E| * ε := by
  obtain ⟨ε1, hε1, Wa, hWa, ka⟩ := energy_window S hc t0 C1 C2 hS hE hF hε
  obtain ⟨Wb, hWb, kb⟩ := C144_range S hc t0 C1 C2 hS (hE.mono (by norm_num)) w0 ha0 hab hε1
  refine ⟨max Wa Wb, lt_max_of_lt_left hWa, fun W hW => ?_⟩
  obtain ⟨na, ka⟩ := ka W ((le_max_left _ _).trans hW)
  obtain ⟨nb, kb⟩ := kb W ((le_max_right _ _).trans hW)
  refine ⟨max na nb, fun {s dim lo hi np p m N l trans E} bins h hlo hhi hs hF hsing hEn => ?_⟩
  obtain ⟨A, spec, g', hA, e, hlen, hfr, hval⟩ := kb .sum bins h hlo hhi ((le_max_right _ _).trans hs) hF
  exact ⟨spec, g', e, hlen, hfr, fun ω D hD => ka h hlo hhi ((le_max_left _ _).trans hs) hA hsing hEn D _ (hval ω D hD)⟩

/-- **C144** (Gaussian pulses). For a combined profile with a Gaussian longitudinal profile of duration `tau` and any transverse
profile, on a Cartesian grid or with one azimuthal mode, with the energy `E`: `get_spectrum(method="sum", range=(a, b))` returns
the Gaussian spectrum `E tau / √(2π) exp(-tau² (ω - ω0)² / 2)` at the bins of the range. -/
theorem C144_gaussian (wavelength tau tPeak cep t0 : ℝ) (htau : 0 < tau) {a b : ℝ} (ha0 : 0 ≤ a) (hab : a ≤ b)
    {ε : ℝ} (hε : 0 < ε) :
    ∃ W0 : ℝ, 0 < W0 ∧ ∀ W ≥ W0, ∃ n : ℕ,
    ∀ {s : Shape} {dim : String} {lo hi : List ℝ} {np : List ℕ} {p : ProfileObj} {m N : Option ℕ} {l : Laser s}
      {pol : List ℂ} {energy : Option ℝ} {trans : ℝ → ℝ → ℂ} {dl dt : DType} {E : ℝ} (bins : ℕ),
      combinedProfile wavelength pol energy (gaussianLong wavelength tau tPeak cep) dl trans dt = .ok p →
      Laser.init dim lo hi np p m N = .ok ⟨s, l⟩ → lo.getLast? = some (t0 - W) → hi.getLast? = some (t0 + W) → n ≤ s.nt →
      l.grid.geom.Single → l.energy = .ok E →
      ∃ (spec : List (ℝ × ℝ)) (g' : Grid s), getSpectrum .sum (some (a, b)) bins (some p.omega0) l.grid = (.ok spec, g') ∧
        spec.length = bins ∧ (∀ (i : ℕ) (h : i < spec.length), (spec[i]).1 = a + i * ((b - a) / (bins - 1))) ∧
        ∀ ω D, (ω, D) ∈ spec →
          |D - E * (tau / Real.sqrt (2 * Real.pi) * Real.exp (-(tau ^ 2 * (ω - p.omega0) ^ 2 / 2)))| ≤ |E| * ε := by
  have hpi := Real.pi_pos
  obtain ⟨S, hSe, hc, hpulse⟩ : ∃ S : ℝ → ℂ, (∀ w, ‖S w‖ = tau * Real.sqrt Real.pi * Real.exp (-(tau ^ 2 / 4 * (w - 0) ^ 2))) ∧
      Continuous S ∧ gaussianLong wavelength tau tPeak cep = pulse S := by
    refine ⟨_, fun w => ?_, ?_, funext fun t => C118_gaussian_spectrum wavelength tau tPeak cep htau t⟩
    · rw [norm_mul, norm_mul, norm_mul, mul_comm I, norm_exp_ofReal_mul_I, one_mul, Complex.norm_real, Real.norm_eq_abs,
        abs_of_nonneg (by positivity), ← Complex.ofReal_neg, Complex.norm_exp_ofReal,
        show I * (w : ℂ) * (tPeak : ℂ) = ((w * tPeak : ℝ) : ℂ) * I by push_cast; ring, norm_exp_ofReal_mul_I, mul_one]
      congr 2
      ring
    · fun_prop
  have hS := gaussian_localised (by positivity : 0 < tau ^ 2 / 4) (by positivity : 0 ≤ tau * Real.sqrt Real.pi) fun w => (hSe w).le
  have hE : Localised (pulse S) tPeak (1 * (8 * (1 + 2 / (1 / tau ^ 2) ^ 2))) 3 := by
    refine gaussian_localised (by positivity) zero_le_one fun t => ?_
    rw [← hpulse, norm_gaussianLong, one_mul]
    refine le_of_eq ?_
    congr 2
    ring
  have hfl : fluence (pulse S) = tau * Real.sqrt (Real.pi / 2) := by
    unfold fluence
    rw [← hpulse]
    have : ∀ t, ‖gaussianLong wavelength tau tPeak cep t‖ ^ 2 = Real.exp (-(2 / tau ^ 2) * (t - tPeak) ^ 2) := by
      intro t
      rw [norm_gaussianLong, ← Real.exp_nat_mul]
      congr 1
      push_cast
      field_simp
    simp only [this]
    rw [integral_sub_right_eq_self (fun x : ℝ => Real.exp (-(2 / tau ^ 2) * x ^ 2)) tPeak, integral_gaussian,
      show Real.pi / (2 / tau ^ 2) = tau ^ 2 * (Real.pi / 2) by field_simp, Real.sqrt_mul (by positivity), Real.sqrt_sq htau.le]
  obtain ⟨W0, hW0, key⟩ := C144_energy_range S hc t0 _ _ (hS.mono (by norm_num)) (hE.recenter t0)
    (by rw [hfl]; positivity) (2 * Real.pi * c / wavelength) ha0 hab hε
  refine ⟨W0, hW0, fun W hW => ?_⟩
  obtain ⟨n, hn⟩ := key W hW
  refine ⟨n, fun {s dim lo hi np p m N l pol energy trans dl dt E} bins hp hl hlo hhi hs hsing hEn => ?_⟩
  have hpo : p.omega0 = 2 * Real.pi * c / wavelength := by
    unfold combinedProfile profileInit at hp
    split at hp
    · cases hp
      rfl
    · cases hp
  have hpw := combined_pointwise hp
  rw [hpulse] at hpw
  obtain ⟨spec, g', e, hlen, hfr, hval⟩ := hn bins hl hlo hhi hs hpw hsing hEn
  rw [hpo]
  refine ⟨spec, g', e, hlen, hfr, fun ω D hD => ?_⟩
  have := hval ω D hD
  rw [hfl, hSe] at this
  convert this using 4
  rw [mul_pow, mul_pow, Real.sq_sqrt hpi.le, ← Real.exp_nat_mul]
  have e1 : Real.sqrt (2 * Real.pi) = 2 * Real.sqrt (Real.pi / 2) := by
    rw [show 2 * Real.pi = 2 ^ 2 * (Real.pi / 2) by ring, Real.sqrt_mul (by norm_num), Real.sqrt_sq (by norm_num)]
  have e2 : ((2 : ℕ) : ℝ) * -(tau ^ 2 / 4 * (ω - 2 * Real.pi * c / wavelength - 0) ^ 2) =
      -(tau ^ 2 * (ω - 2 * Real.pi * c / wavelength) ^ 2 / 2) := by
    push_cast
    ring
  rw [e1, e2]
  field_simp

/-- the premises of C144 are met: there are lasers with a Gaussian pulse of `tau = 2` and 1 J for which
`get_spectrum(range=(0, 10), bins=101)` is the Gaussian spectrum to a percent -/
example : ∃ (s : Shape) (l : Laser s) (p : ProfileObj) (spec : List (ℝ × ℝ)) (g' : Grid s),
    gaussianProfile 1 [1, 0] (some 1) 1 2 0 = .ok p ∧
    (∃ (lo hi : List ℝ) (np : List ℕ), Laser.init "xyt" lo hi np p none none = .ok ⟨s, l⟩) ∧ l.energy = .ok 1 ∧
    getSpectrum .sum (some (0, 10)) 101 (some p.omega0) l.grid = (.ok spec, g') ∧ spec.length = 101 ∧
    ∀ ω D, (ω, D) ∈ spec → |D - 2 / Real.sqrt (2 * Real.pi) * Real.exp (-(2 ^ 2 * (ω - p.omega0) ^ 2 / 2))| ≤ 1 / 100 := by
  have hpi := Real.pi_pos
  have hc := c_pos
  have he := eps0_pos
  obtain ⟨p, hp, -⟩ := C40_formula 1 one_ne_zero 1 0 (some 1) 1 2 0 0 0
  have hp' : ∃ ζ, combinedProfile 1 [1, 0] (some 1) (gaussianLong 1 2 0 0) .c128 (gaussianTrans 1 ζ) .c128 = .ok p := by
    unfold gaussianProfile at hp
    rcases hz : zFocOverZr 1 (some 0) 1 with e | ζ
    · rw [hz] at hp
      cases hp
    · rw [hz] at hp
      exact ⟨ζ, hp⟩
  obtain ⟨ζ, hp'⟩ := hp'
  set K := eps0 * c / 2 * (Real.pi * 1 ^ 2 / 2) * (2 * Real.sqrt (Real.pi / 2)) with hK
  have hKp : 0 < K := by
    have : 0 < Real.sqrt (Real.pi / 2) := Real.sqrt_pos.2 (by positivity)
    positivity
  obtain ⟨L, hL, h⟩ := C133_gaussian_xyt 1 one_ne_zero 1 0 1 zero_le_one 1 2 one_pos two_pos 0 0 0 hp (Real.sqrt (1 / K)) _
    (Real.sqrt_nonneg _) (by
      rw [Real.sq_sqrt (by positivity)]
      rw [show eps0 * c / 2 * (1 / K) * (Real.pi * 1 ^ 2 / 2) * (2 * Real.sqrt (Real.pi / 2)) = K / K by rw [hK]; ring]
      exact div_self hKp.ne') rfl none none one_pos
  obtain ⟨W, hW, h'⟩ := C144_gaussian 1 2 0 0 0 two_pos le_rfl (by norm_num : (0 : ℝ) ≤ 10) (by norm_num : (0 : ℝ) < 1 / 100)
  obtain ⟨N, hN⟩ := h (-max L W) (-max L W) (-max L W) (max L W) (max L W) (max L W) (by simp) (by simp) (by simp) (by simp)
    (by simp) (by simp)
  obtain ⟨n, hn⟩ := h' (max L W) (by simp)
  obtain ⟨l, f, hl, -, hE, -⟩ := hN N le_rfl N le_rfl (max N n) (le_max_left _ _)
  have hsing : l.grid.geom.Single := by
    obtain ⟨g, f, hg, -, hgeo, -⟩ := Laser.init_facts hl
    obtain ⟨-, -, -, -, hcase⟩ := Grid.init_ok hg
    rcases hcase with ⟨l0, l1, u0, u1, m', r, t, rest, e1, -⟩ | ⟨l0, l1, l2, u0, u1, u2, x, y, t, e1, e2, e3, e4, e5, e6, e7, e8, e9⟩
    · exact absurd e1 (by decide)
    · rw [hgeo, e9]
      trivial
  obtain ⟨spec, g', e, hlen, -, hval⟩ := hn 101 hp' hl (by simp) (by simp) (le_max_right _ _) hsing hE
  refine ⟨_, l, p, spec, g', hp, ⟨_, _, _, hl⟩, hE, e, hlen, fun ω D hD => ?_⟩
  have := hval ω D hD
  simpa using this

end Lasy
