import Verif.Props.Optics
import Verif.Lemmas.Utils
import Mathlib.Data.List.Sort
import Mathlib.Algebra.BigOperators.Field

/-!
# Properties C55, C73: `get_spectrum`
-/

namespace Lasy
open Spec Phys Complex

variable {s : Shape} [Phys]

/-! ## C55 -/

/-- the frequencies at which the spectrum of an envelope with carrier `ω0` is computed:
`ω0 - 2π m/(N dt)` for the `N` integers `m` around `0` -/
noncomputable def bandFreq (N : ℕ) (dt omega0 : ℝ) (k : Fin N) : ℝ := omega0 - 2 * Real.pi * fftfreq N dt k

/-- the transverse area of the cells `(·, j, ·)`, as `get_spectrum` uses it -/
noncomputable def spectralWeight (g : Grid s) (col : Column s) : ℝ :=
  match g.geom with
  | .xyt _ _ => ∑ i, ∑ j, ‖col.amp i j‖ ^ 2 * eps0 * c / Real.pi * g.cellArea j
  | .rt m hm _ => ∑ j, ‖col.amp ⟨0, by omega⟩ j‖ ^ 2 * eps0 * c / Real.pi * g.cellArea j

/-- `get_spectrum` on an envelope grid that holds `f` -/
theorem getSpectrumSum_holds {g : Grid s} {f : Field s} (h : g.Holds (some f)) (h2 : 2 ≤ s.nt) (w0 : ℝ) :
    ∃ g', getSpectrumSum (some w0) g = (.ok (((((List.finRange s.nt).map fun k =>
        { omega := bandFreq s.nt (g.t.pts ⟨1, by omega⟩ - g.t.pts ⟨0, by omega⟩) w0 k
          amp := fun i j => 0.5 * fft (f i j) k * g.t.dx : Column s }).insertionSort
      (fun a b => a.omega ≤ b.omega)).filter fun col => 0 ≤ col.omega).map
        fun col => (col.omega, spectralWeight g col)), g') ∧ g'.Holds (some f) := by
  obtain ⟨g', e, h', hg, ht⟩ := h.getT
  refine ⟨g', ?_, h'⟩
  unfold getSpectrumSum
  rw [Py.bind_ok e, Py.bind_ok (Py.get_apply g'), dif_pos h2]
  simp only [h'.env, Py.pure_apply, Option.getD_some, spectrumColumns, if_true, bandFreq]
  congr 2
  refine congrArg₂ List.map ?_ (by rw [ht])
  funext col
  simp only [spectralWeight, Grid.cellArea, Grid.cellVolume, hg, ht]
  cases hh : g.geom <;> rfl

omit [Phys] in
/-- sums over the whole band do not depend on the order; nothing is dropped if all frequencies are `≥ 0` -/
theorem sum_sorted_band {N : ℕ} (col : Fin N → Column s) (w : Column s → ℝ) (hband : ∀ k, 0 ≤ (col k).omega) :
    ((((((List.finRange N).map col).insertionSort (fun a b => a.omega ≤ b.omega)).filter
      fun a => 0 ≤ a.omega).map fun a => (a.omega, w a)).map Prod.snd).sum = ∑ k, w (col k) := by
  have hperm := List.perm_insertionSort (fun a b : Column s => a.omega ≤ b.omega) ((List.finRange N).map col)
  have hf : (((List.finRange N).map col).insertionSort (fun a b => a.omega ≤ b.omega)).filter
      (fun a => 0 ≤ a.omega) = ((List.finRange N).map col).insertionSort (fun a b => a.omega ≤ b.omega) := by
    rw [List.filter_eq_self]
    intro a ha
    obtain ⟨k, -, rfl⟩ := List.mem_map.1 (hperm.mem_iff.1 ha)
    simpa using hband k
  rw [hf, List.map_map]
  have := (hperm.map (Prod.snd ∘ fun a => (a.omega, w a))).sum_eq
  rw [this, List.map_map, ← List.ofFn_eq_map, List.sum_ofFn]
  rfl

/-- the grid has only the components which `get_spectrum` sums: Cartesian, or one azimuthal mode -/
def Geom.Single {n0 n1 : ℕ} : Geom n0 n1 → Prop
  | .xyt _ _ => True
  | .rt m _ _ => m = 1

/-- the explicit energy `ε₀/2 ∑ dV |f|²` -/
theorem sum_spectralWeight (g : Grid s) (f : Field s) (hs : g.geom.Single) (hdt : g.t.dx ≠ 0)
    (hn : s.nt ≠ 0) (om : Fin s.nt → ℝ) :
    (∑ k, spectralWeight g ⟨om k, fun i j => 0.5 * fft (f i j) k * g.t.dx⟩) *
      (2 * Real.pi / (s.nt * g.t.dx)) = pulseEnergy g f := by
  have hc := c_pos.ne'
  have hpi := Real.pi_ne_zero
  have hN : (s.nt : ℝ) ≠ 0 := by exact_mod_cast hn
  have hterm : ∀ i j, (∑ k, ‖(0.5 * fft (f i j) k * g.t.dx : ℂ)‖ ^ 2 * eps0 * c / Real.pi * g.cellArea j) *
      (2 * Real.pi / (s.nt * g.t.dx)) = (∑ k, g.cellVolume j * eps0 * ‖f i j k‖ ^ 2) * 0.5 := by
    intro i j
    have h1 : ∀ k, ‖(0.5 * fft (f i j) k * g.t.dx : ℂ)‖ ^ 2 * eps0 * c / Real.pi * g.cellArea j =
        (0.25 * g.t.dx ^ 2 * eps0 * c / Real.pi * g.cellArea j) * ‖fft (f i j) k‖ ^ 2 := by
      intro k
      rw [norm_mul, norm_mul, mul_pow, mul_pow, norm_real, Real.norm_eq_abs, sq_abs]
      have : ‖(0.5 : ℂ)‖ ^ 2 = 0.25 := by norm_num
      rw [this]
      ring
    rw [Finset.sum_congr rfl fun k _ => h1 k, ← Finset.mul_sum, parseval_fft, ← Finset.mul_sum]
    unfold Grid.cellArea
    field_simp
    ring
  unfold spectralWeight pulseEnergy
  cases hg : g.geom with
  | xyt x y =>
    simp only
    rw [Finset.sum_comm, Finset.sum_mul, Finset.sum_mul]
    refine Finset.sum_congr rfl fun i _ => ?_
    rw [Finset.sum_comm, Finset.sum_mul, Finset.sum_mul]
    exact Finset.sum_congr rfl fun j _ => hterm i j
  | rt m hm r =>
    simp only
    rw [hg] at hs
    have hm1 : m = 1 := hs
    have h0 : s.n0 = 1 := by omega
    have hu : (Finset.univ : Finset (Fin s.n0)) = {⟨0, by omega⟩} := by
      ext i
      simp [Fin.ext_iff]
      omega
    rw [hu, Finset.sum_singleton, Finset.sum_comm, Finset.sum_mul, Finset.sum_mul]
    exact Finset.sum_congr rfl fun j _ => hterm _ j

/-- **C55 (the part that is true of the code).** On a Cartesian grid, or with one azimuthal mode: if the
time axis has the spacing `dx[-1] ≠ 0` and the whole sampled band is non-negative, then
`sum(spectrum) * dω`, with `dω = 2π/(N dt)` the spacing of the frequencies, is the energy which
`compute_laser_energy` returns. -/
theorem C55_energy_partial (g : Grid s) (f : Field s) (h : g.Holds (some f)) (h2 : 2 ≤ s.nt) (w0 : ℝ)
    (hs : g.geom.Single) (hdt : g.t.dx ≠ 0)
    (hstep : g.t.pts ⟨1, by omega⟩ - g.t.pts ⟨0, by omega⟩ = g.t.dx)
    (hband : ∀ k, 0 ≤ bandFreq s.nt g.t.dx w0 k) :
    ∃ (spec : List (ℝ × ℝ)) (g' : Grid s), getSpectrumSum (some w0) g = (.ok spec, g') ∧
      spec.length = s.nt ∧
      (computeLaserEnergy g).1 = .ok ((spec.map Prod.snd).sum * (2 * Real.pi / (s.nt * g.t.dx))) := by
  obtain ⟨g', e, -⟩ := getSpectrumSum_holds h h2 w0
  refine ⟨_, g', e, ?_, ?_⟩
  · rw [List.length_map, List.filter_eq_self.2, (List.perm_insertionSort _ _).length_eq]
    · simp
    · intro a ha
      obtain ⟨k, -, rfl⟩ := List.mem_map.1 ((List.perm_insertionSort _ _).mem_iff.1 ha)
      simp only [hstep]
      simpa using hband k
  · rw [sum_sorted_band _ _ (by intro k; simp only [hstep]; exact hband k)]
    obtain ⟨g'', e', -⟩ := h.energy
    rw [e', sum_spectralWeight g f hs hdt (by omega)]

/-- the returned frequencies are in ascending order and non-negative, for every envelope -/
theorem C55_frequencies (g : Grid s) (f : Field s) (h : g.Holds (some f)) (h2 : 2 ≤ s.nt) (w0 : ℝ)
    (hdt : 0 < g.t.pts ⟨1, by omega⟩ - g.t.pts ⟨0, by omega⟩) :
    ∃ (spec : List (ℝ × ℝ)) (g' : Grid s), getSpectrumSum (some w0) g = (.ok spec, g') ∧
      (spec.map Prod.fst).Pairwise (· < ·) ∧ (∀ w ∈ spec.map Prod.fst, 0 ≤ w) ∧
      (∀ p ∈ spec, ∃ k, p.1 = bandFreq s.nt (g.t.pts ⟨1, by omega⟩ - g.t.pts ⟨0, by omega⟩) w0 k) ∧
      (∀ k, 0 ≤ bandFreq s.nt (g.t.pts ⟨1, by omega⟩ - g.t.pts ⟨0, by omega⟩) w0 k →
        bandFreq s.nt (g.t.pts ⟨1, by omega⟩ - g.t.pts ⟨0, by omega⟩) w0 k ∈ spec.map Prod.fst) := by
  obtain ⟨g', e, -⟩ := getSpectrumSum_holds h h2 w0
  refine ⟨_, g', e, ?_, ?_, ?_, ?_⟩
  all_goals
    set dt := g.t.pts ⟨1, by omega⟩ - g.t.pts ⟨0, by omega⟩ with hdt'
    set cols := (List.finRange s.nt).map fun k =>
        ({ omega := bandFreq s.nt dt w0 k
           amp := fun i j => 0.5 * fft (f i j) k * g.t.dx } : Column s) with hcols
    have hperm := List.perm_insertionSort (fun a b : Column s => a.omega ≤ b.omega) cols
  · rw [List.map_map]
    have hnd : (cols.map Column.omega).Nodup := by
      rw [hcols, List.map_map]
      refine (List.nodup_finRange _).map ?_
      intro a b hab
      simp only [Function.comp, bandFreq, fftfreq] at hab
      have hN : (s.nt : ℝ) ≠ 0 := by exact_mod_cast (by omega : s.nt ≠ 0)
      have h1 : (fftfreqInt s.nt a : ℝ) / (s.nt * dt) = fftfreqInt s.nt b / (s.nt * dt) := by
        have := Real.pi_pos
        have h3 : 2 * Real.pi * ((fftfreqInt s.nt a : ℝ) / (s.nt * dt)) =
          2 * Real.pi * (fftfreqInt s.nt b / (s.nt * dt)) := by linarith
        exact mul_left_cancel₀ (by positivity) h3
      rw [div_left_inj' (mul_ne_zero hN hdt.ne')] at h1
      have h4 : fftfreqInt s.nt a = fftfreqInt s.nt b := by exact_mod_cast h1
      have ha := fftfreqInt_dvd s.nt a
      have hb := fftfreqInt_dvd s.nt b
      rw [h4] at ha
      have := dvd_sub hb ha
      rw [← Fin.dvd_sub_iff]
      simpa using this
    have hnd' : ((cols.insertionSort fun a b => a.omega ≤ b.omega).map Column.omega).Nodup :=
      (hperm.map _).nodup_iff.2 hnd
    have hsort : ((cols.insertionSort fun a b => a.omega ≤ b.omega).map Column.omega).Pairwise (· ≤ ·) := by
      rw [List.pairwise_map]
      have : IsTrans (Column s) (fun a b => a.omega ≤ b.omega) := ⟨fun a b c => le_trans⟩
      have : Std.Total (fun a b : Column s => a.omega ≤ b.omega) := ⟨fun a b => le_total _ _⟩
      exact List.pairwise_insertionSort _ _
    have hlt : ((cols.insertionSort fun a b => a.omega ≤ b.omega).map Column.omega).Pairwise (· < ·) :=
      (hsort.and hnd').imp fun h => lt_of_le_of_ne h.1 h.2
    rw [List.pairwise_map] at hlt
    rw [List.pairwise_map]
    exact hlt.filter _
  · intro w hw
    simp only [List.map_map, List.mem_map, List.mem_filter, Function.comp] at hw
    obtain ⟨a, ⟨-, ha⟩, rfl⟩ := hw
    simpa using ha
  · intro p hp
    simp only [List.mem_map, List.mem_filter] at hp
    obtain ⟨a, ⟨ha, -⟩, rfl⟩ := hp
    obtain ⟨k, -, rfl⟩ := List.mem_map.1 (hperm.mem_iff.1 ha)
    exact ⟨k, rfl⟩
  · intro k hk
    rw [List.map_map]
    refine List.mem_map.2 ⟨_, List.mem_filter.2 ⟨hperm.mem_iff.2 (List.mem_map.2 ⟨k, by simp, rfl⟩), ?_⟩, rfl⟩
    simpa using hk

/-- every constructed laser has the time axis which `C55_energy_partial` asks for -/
theorem C55_constructed {dim : String} {lo hi : List ℝ} {np : List ℕ} {p : ProfileObj}
    {m : Option ℕ} {N : Option ℕ} {l : Laser s} (h : Laser.init dim lo hi np p m N = .ok ⟨s, l⟩)
    (hs : l.grid.geom.Single) (hdt : l.grid.t.lo ≠ l.grid.t.hi)
    (hband : ∀ k, 0 ≤ bandFreq s.nt l.grid.t.dx p.omega0 k) :
    ∃ (spec : List (ℝ × ℝ)) (g' : Grid s), getSpectrumSum (some p.omega0) l.grid = (.ok spec, g') ∧
      spec.length = s.nt ∧
      l.energy = .ok ((spec.map Prod.snd).sum * (2 * Real.pi / (s.nt * l.grid.t.dx))) := by
  obtain ⟨g, f, hg, hf, -, ht, -⟩ := Laser.init_facts h
  obtain ⟨-, -, -, -, hcase⟩ := Grid.init_ok hg
  have key : ∃ h2 : 2 ≤ s.nt, ∀ k, l.grid.t.pts k = linspace l.grid.t.lo l.grid.t.hi s.nt k ∧
      l.grid.t.dx = linspace l.grid.t.lo l.grid.t.hi s.nt ⟨1, by omega⟩ -
        linspace l.grid.t.lo l.grid.t.hi s.nt ⟨0, by omega⟩ := by
    simp only [ht]
    rcases hcase with ⟨l0, l1, u0, u1, m', r, t, rest, -, -, -, -, -, -, e7, e8, -⟩ |
      ⟨l0, l1, l2, u0, u1, u2, x, y, t, -, -, -, -, -, -, e7, e8, -⟩ <;>
    · obtain ⟨h2', hax⟩ := mkAxis_ok e7
      refine ⟨h2', fun k => ?_⟩
      rw [e8, hax]
      exact ⟨rfl, rfl⟩
  obtain ⟨h2, hk⟩ := key
  have hdx := (hk ⟨0, by omega⟩).2
  refine C55_energy_partial l.grid f hf h2 p.omega0 hs ?_ ?_ hband
  · rw [hdx]
    simp only [linspace]
    have : (s.nt : ℝ) - 1 ≠ 0 := by
      have : (2 : ℝ) ≤ s.nt := by exact_mod_cast h2
      linarith
    have h3 := div_ne_zero (sub_ne_zero.2 hdt.symm) this
    simpa using h3
  · rw [(hk _).1, (hk _).1, hdx]

/-- **C55 is false of the code** for several azimuthal modes: only the component of mode `0` enters the
spectrum. Whatever the other components contain, a field without mode `0` has the spectrum zero. -/
theorem C55_refuted (g : Grid s) (f : Field s) (h : g.Holds (some f)) (h2 : 2 ≤ s.nt) (w0 : ℝ)
    {m : ℕ} {hm : 1 ≤ m ∧ s.n0 = 2 * m - 1} {r : Axis s.n1} (hg : g.geom = .rt m hm r)
    (h0 : ∀ j k, f ⟨0, by omega⟩ j k = 0) :
    ∃ (spec : List (ℝ × ℝ)) (g' : Grid s), getSpectrumSum (some w0) g = (.ok spec, g') ∧
      ∀ p ∈ spec, p.2 = 0 := by
  obtain ⟨g', e, -⟩ := getSpectrumSum_holds h h2 w0
  refine ⟨_, g', e, ?_⟩
  intro p hp
  simp only [List.mem_map, List.mem_filter] at hp
  obtain ⟨a, ⟨ha, -⟩, rfl⟩ := hp
  obtain ⟨k, -, rfl⟩ := List.mem_map.1 ((List.perm_insertionSort _ _).mem_iff.1 ha)
  simp only [spectralWeight, hg]
  refine Finset.sum_eq_zero fun j _ => ?_
  have : fft (f ⟨0, by omega⟩ j) k = 0 := by simp [fft, h0]
  simp [this]

/-- such a field with positive energy, and a band that is entirely positive -/
theorem C55_refuted_concrete : ∃ (g : Grid ⟨3, 2, 2⟩) (E : ℝ) (spec : List (ℝ × ℝ)) (g' : Grid ⟨3, 2, 2⟩),
    (∀ k, 0 < bandFreq 2 g.t.dx 10 k) ∧ g.t.dx = 1 ∧ getSpectrumSum (some 10) g = (.ok spec, g') ∧
    (spec.map Prod.snd).sum = 0 ∧ (computeLaserEnergy g).1 = .ok E ∧ 0 < E := by
  let t : Axis 2 := ⟨0, 1, 1, fun k => (k : ℕ)⟩
  let g : Grid ⟨3, 2, 2⟩ := Grid.holding (s := ⟨3, 2, 2⟩) (.rt 2 ⟨by norm_num, rfl⟩ t) t
    fun i _ _ => if i = 1 then 1 else 0
  have hh : g.Holds _ := Grid.holding_holds _ _ _
  obtain ⟨spec, g', e, hz⟩ := C55_refuted g _ hh (by norm_num) 10 (m := 2) (r := t)
    (hm := ⟨by norm_num, rfl⟩) rfl (by intro j k; simp)
  obtain ⟨g'', e', -⟩ := hh.energy
  refine ⟨g, _, spec, g', ?_, rfl, e, ?_, by rw [e'], ?_⟩
  · intro k
    have := Real.pi_pos
    fin_cases k
    · simp [bandFreq, fftfreq, fftfreqInt]
    · have hd : g.t.dx = 1 := rfl
      simp [bandFreq, fftfreq, fftfreqInt, hd]
      nlinarith
  · refine List.sum_eq_zero fun x hx => ?_
    obtain ⟨p, hp, rfl⟩ := List.mem_map.1 hx
    exact hz p hp
  · have h1 := c_pos
    have h2 := eps0_pos
    have h3 := Real.pi_pos
    simp only [pulseEnergy, Grid.cellVolume, cellVolumeRT, g, Grid.holding, t]
    simp only [Fin.sum_univ_three, Fin.sum_univ_two]
    norm_num
    positivity

/-! ## C73 -/

/-- **C73.** A monochromatic envelope `a(x,y) exp(-iδt)`, with `δ` one of the resolved frequencies
`2πm/(N dt)`, `2|m| < N`, appears in the spectrum at the frequency `ω0 + δ` and nowhere else, and the
line carries the whole energy. -/
theorem C73_line (g : Grid s) (a : Fin s.n0 → Fin s.n1 → ℂ) (t0 : ℝ) (m : ℤ) (h2 : 2 ≤ s.nt) (w0 : ℝ)
    (hs : g.geom.Single) (hdt : 0 < g.t.dx) (hm : 2 * |m| < s.nt)
    (hax : ∀ k : Fin s.nt, g.t.pts k = t0 + (k : ℕ) * g.t.dx)
    (h : g.Holds (some fun i j k => a i j * exp (-I * (2 * Real.pi * m / (s.nt * g.t.dx) : ℝ) * g.t.pts k)))
    (hpos : 0 ≤ w0 + 2 * Real.pi * m / (s.nt * g.t.dx)) :
    ∃ (spec : List (ℝ × ℝ)) (g' : Grid s) (S : ℝ), getSpectrumSum (some w0) g = (.ok spec, g') ∧
      (w0 + 2 * Real.pi * m / (s.nt * g.t.dx), S) ∈ spec ∧
      (∀ p ∈ spec, p.1 ≠ w0 + 2 * Real.pi * m / (s.nt * g.t.dx) → p.2 = 0) ∧
      (computeLaserEnergy g).1 = .ok (S * (2 * Real.pi / (s.nt * g.t.dx))) := by
  set δ : ℝ := 2 * Real.pi * m / (s.nt * g.t.dx) with hδ
  set f : Field s := fun i j k => a i j * exp (-I * δ * g.t.pts k) with hf
  have hN : (s.nt : ℝ) ≠ 0 := by exact_mod_cast (by omega : s.nt ≠ 0)
  obtain ⟨g', e, -⟩ := getSpectrumSum_holds h h2 w0
  have hstep : g.t.pts ⟨1, by omega⟩ - g.t.pts ⟨0, by omega⟩ = g.t.dx := by
    rw [hax, hax]; simp
  simp only [hstep] at e
  -- the index of the line
  obtain ⟨k0, hk0⟩ : ∃ k0 : Fin s.nt, fftfreqInt s.nt k0 = -m := by
    have h1 := abs_lt.1 (show |m| < (s.nt + 1) / 2 by omega)
    rcases le_or_gt m 0 with hle | hgt
    · refine ⟨⟨(-m).toNat, by omega⟩, ?_⟩
      simp only [fftfreqInt]
      rw [if_pos (by have := abs_of_nonpos hle; omega)]
      omega
    · refine ⟨⟨(s.nt - m).toNat, by omega⟩, ?_⟩
      simp only [fftfreqInt]
      rw [if_neg (by have := abs_of_pos hgt; omega)]
      omega
  have hband : ∀ k, bandFreq s.nt g.t.dx w0 k = w0 - 2 * Real.pi * fftfreqInt s.nt k / (s.nt * g.t.dx) := by
    intro k; simp only [bandFreq, fftfreq]; ring
  have hb0 : bandFreq s.nt g.t.dx w0 k0 = w0 + δ := by
    rw [hband, hk0, hδ]; push_cast; ring
  have hzero : ∀ k, k ≠ k0 → ∀ i j, fft (f i j) k = 0 := by
    intro k hk i j
    have h1 : ∀ q : Fin s.nt, f i j q = a i j * exp (-I * δ * t0) * chr s.nt ((q : ℕ) * (-m)) := by
      intro q
      simp only [hf, hax, mul_assoc, ← Complex.exp_add, chr]
      congr 2
      rw [hδ]
      have hN' : (s.nt : ℂ) ≠ 0 := by exact_mod_cast hN
      have hd' : (g.t.dx : ℂ) ≠ 0 := by exact_mod_cast hdt.ne'
      push_cast
      field_simp
      ring
    rw [fft_eq_chr]
    have h3 : ∀ q : Fin s.nt, f i j q * chr s.nt (-((q : ℕ) * (k : ℕ))) =
        a i j * exp (-I * δ * t0) * chr s.nt ((q : ℕ) * (-m - (k : ℕ))) := by
      intro q
      rw [h1, mul_assoc, ← chr_add]
      congr 2
      ring
    rw [Finset.sum_congr rfl fun q _ => h3 q, ← Finset.mul_sum, sum_chr (by omega), if_neg, mul_zero]
    intro hd
    apply hk
    rw [← Fin.dvd_sub_iff]
    have h4 := fftfreqInt_dvd s.nt k0
    rw [hk0] at h4
    have := dvd_sub hd h4
    rw [← dvd_neg]
    simpa using this
  have hw0 : ∀ k, k ≠ k0 → spectralWeight g
      ⟨bandFreq s.nt g.t.dx w0 k, fun i j => 0.5 * fft (f i j) k * g.t.dx⟩ = 0 := by
    intro k hk
    simp only [spectralWeight]
    cases g.geom <;> simp [hzero k hk]
  refine ⟨_, g', spectralWeight g ⟨bandFreq s.nt g.t.dx w0 k0, fun i j => 0.5 * fft (f i j) k0 * g.t.dx⟩,
    e, ?_, ?_, ?_⟩
  · refine List.mem_map.2 ⟨⟨bandFreq s.nt g.t.dx w0 k0, fun i j => 0.5 * fft (f i j) k0 * g.t.dx⟩,
      List.mem_filter.2 ⟨(List.perm_insertionSort _ _).mem_iff.2 (List.mem_map.2 ⟨k0, by simp, rfl⟩), ?_⟩, ?_⟩
    · simpa [hb0] using hpos
    · simp only [hb0]
  · intro p hp hne
    simp only [List.mem_map, List.mem_filter] at hp
    obtain ⟨b, ⟨hb, -⟩, rfl⟩ := hp
    obtain ⟨k, -, rfl⟩ := List.mem_map.1 ((List.perm_insertionSort _ _).mem_iff.1 hb)
    refine hw0 k ?_
    rintro rfl
    exact hne hb0
  · obtain ⟨g'', e', -⟩ := h.energy
    rw [e', ← sum_spectralWeight g f hs hdt.ne' (by omega) (bandFreq s.nt g.t.dx w0),
      Finset.sum_eq_single k0 (fun k _ hk => hw0 k hk) (by simp)]

/-- the hypotheses of C55 and C73 are met: a Cartesian grid with four time points, carrier frequency 10,
detuning `δ = 2π/4` -/
example : ∃ g : Grid ⟨2, 2, 4⟩, g.geom.Single ∧ 0 < g.t.dx ∧ (∀ k : Fin 4, g.t.pts k = 0 + (k : ℕ) * g.t.dx) ∧
    2 * |(1 : ℤ)| < (4 : ℕ) ∧ (∀ k, 0 ≤ bandFreq 4 g.t.dx 10 k) ∧
    g.Holds (some fun _ _ k => 1 * exp (-I * (2 * Real.pi * (1 : ℤ) / ((4 : ℕ) * g.t.dx) : ℝ) * g.t.pts k)) ∧
    0 ≤ 10 + 2 * Real.pi * (1 : ℤ) / ((4 : ℕ) * g.t.dx) := by
  let x : Axis 2 := ⟨0, 1, 1, fun k => (k : ℕ)⟩
  let t : Axis 4 := ⟨0, 3, 1, fun k => (k : ℕ)⟩
  refine ⟨Grid.holding (s := ⟨2, 2, 4⟩) (.xyt x x) t
    (fun _ _ k => 1 * exp (-I * (2 * Real.pi * (1 : ℤ) / ((4 : ℕ) * t.dx) : ℝ) * t.pts k)),
    trivial, one_pos, ?_, by norm_num, ?_, Grid.holding_holds _ _ _, ?_⟩
  · intro k
    simp [Grid.holding, t]
  · intro k
    have h1 := Real.pi_pos
    have h2 := Real.pi_le_four
    fin_cases k <;> simp [bandFreq, fftfreq, fftfreqInt, Grid.holding, t] <;> nlinarith
  · have h1 := Real.pi_pos
    simp only [Grid.holding, t]
    norm_num
    positivity

end Lasy
