import Verif.Lemmas.Energy
import Verif.Props.Grid

/-!
# Properties C10, C11, C15, C16, C17, C18: modes, cell volumes, energy, normalisation
-/

namespace Lasy
open Spec Phys

variable {s : Shape}

/-! ## C10 -/

/-- **C10.** The list of modes contains exactly the integers `m` with `|m| < n`, each once; and Python's
`field[m]` addresses the component at the position at which `m` stands in the list. -/
theorem C10_mode_layout (n : ℕ) (hn : 1 ≤ n) :
    (azimuthalModes n).Nodup ∧ (∀ m : ℤ, m ∈ azimuthalModes n ↔ |m| < n) ∧
    (azimuthalModes n).length = 2 * n - 1 ∧
    ∀ (i : Fin (2 * n - 1)) (m : ℤ),
      (azimuthalModes n)[(i : ℕ)]? = some m ↔ (|m| < n ∧ pyIndex (2 * n - 1) m = .ok i) := by
  have hlen : (azimuthalModes n).length = 2 * n - 1 := by
    simp [azimuthalModes]; omega
  have hmem : ∀ m : ℤ, m ∈ azimuthalModes n ↔ |m| < n := by
    intro m
    simp only [azimuthalModes, List.mem_append, List.mem_map, List.mem_range, abs_lt]
    constructor
    · rintro (⟨k, hk, rfl⟩ | ⟨k, hk, rfl⟩) <;> omega
    · rintro ⟨h1, h2⟩
      by_cases h0 : 0 ≤ m
      · exact .inl ⟨m.toNat, by omega, by omega⟩
      · exact .inr ⟨(m + n - 1).toNat, by omega, by omega⟩
  have hget : ∀ i : ℕ, i < 2 * n - 1 → (azimuthalModes n)[i]? =
      some (if i < n then (i : ℤ) else (i : ℤ) - (2 * n - 1)) := by
    intro i hi
    by_cases h : i < n
    · simp only [azimuthalModes, h, if_true]
      rw [List.getElem?_append_left (by simpa using h)]
      simp [h]
    · have h2 : i - n < n - 1 := by omega
      simp only [azimuthalModes, h, if_false]
      rw [List.getElem?_append_right (by simpa using h)]
      simp only [List.length_map, List.length_range, List.getElem?_map, List.getElem?_range, h2,
        Option.map_some, Option.some.injEq]
      push_cast [Nat.cast_sub (not_lt.mp h)]
      ring
  refine ⟨?_, hmem, hlen, ?_⟩
  · rw [azimuthalModes, List.nodup_append]
    refine ⟨?_, ?_, ?_⟩
    · exact List.Nodup.map (fun a b h => by simpa using h) List.nodup_range
    · exact List.Nodup.map (fun a b h => by simpa using h) List.nodup_range
    · intro a ha b hb
      simp only [List.mem_map, List.mem_range] at ha hb
      obtain ⟨k, hk, rfl⟩ := ha
      obtain ⟨k', hk', rfl⟩ := hb
      omega
  · intro i m
    rw [hget i i.2]
    have hi := i.2
    simp only [pyIndex, Option.some.injEq, abs_lt]
    constructor
    · intro h
      by_cases h' : (i : ℕ) < n
      · simp only [h', if_true] at h
        subst h
        refine ⟨by omega, ?_⟩
        rw [dif_pos (by omega)]
        simp
      · simp only [h', if_false] at h
        subst h
        refine ⟨by omega, ?_⟩
        rw [dif_neg (by omega), dif_pos (by omega)]
        congr 1
        ext
        simp only
        omega
    · rintro ⟨h1, h2⟩
      by_cases h0 : 0 ≤ m
      · rw [dif_pos (by omega)] at h2
        have : (i : ℕ) = m.toNat := by rw [← Except.ok.inj h2]
        rw [if_pos (by omega)]
        omega
      · rw [dif_neg (by omega), dif_pos (by omega)] at h2
        have : (i : ℕ) = (((2 * n - 1 : ℕ) : ℤ) + m).toNat := by rw [← Except.ok.inj h2]
        rw [if_neg (by omega)]
        omega

example : azimuthalModes 3 = [0, 1, 2, -2, -1] := by decide

variable [Phys]

/-! ## C11 -/

/-- the radial cell volumes telescope -/
theorem sum_cellVolumeRT {n nt : ℕ} (lo hi : ℝ) (a : Axis n) (ha : mkAxis lo hi n = .ok a)
    (t : Axis nt) :
    ∑ j, cellVolumeRT a t j =
      Real.pi * ((hi + a.dx / 2) ^ 2 - (lo - a.dx / 2) ^ 2) * (t.dx * c) := by
  obtain ⟨h2, rfl⟩ := mkAxis_ok ha
  set d : ℝ := (hi - lo) / ((n : ℝ) - 1) with hd
  have hn : ((n : ℝ) - 1) ≠ 0 := by
    have : (2 : ℝ) ≤ n := by exact_mod_cast h2
    linarith
  have hdx : linspace lo hi n ⟨1, h2⟩ - linspace lo hi n ⟨0, by omega⟩ = d := by
    simp [linspace, hd]
  simp only [cellVolumeRT, hdx]
  rw [← Finset.sum_mul, ← Finset.mul_sum]
  congr 2
  have : ∀ m : ℕ, ∑ j ∈ Finset.range m, ((lo + (j : ℝ) * d + 0.5 * d) ^ 2 -
      (lo + (j : ℝ) * d - 0.5 * d) ^ 2) = (lo + (m : ℝ) * d - d / 2) ^ 2 - (lo - d / 2) ^ 2 := by
    intro m
    induction m with
    | zero => simp
    | succ m ih => rw [Finset.sum_range_succ, ih]; push_cast; ring
  have e : ∑ j : Fin n, ((linspace lo hi n j + 0.5 * d) ^ 2 - (linspace lo hi n j - 0.5 * d) ^ 2) =
      ∑ j ∈ Finset.range n, ((lo + (j : ℝ) * d + 0.5 * d) ^ 2 - (lo + (j : ℝ) * d - 0.5 * d) ^ 2) := by
    rw [← Fin.sum_univ_eq_sum_range
      (fun j : ℕ => ((lo + (j : ℝ) * d + 0.5 * d) ^ 2 - (lo + (j : ℝ) * d - 0.5 * d) ^ 2))]
    rfl
  rw [e, this]
  have : lo + (n : ℝ) * d = hi + d := by
    rw [hd]; field_simp; ring
  rw [this]; ring

/-- **C11.** On a new cylindrical grid with `0 ≤ lo_r < hi_r` and `lo_t < hi_t`: every cell volume is
nonnegative, it vanishes exactly at `r = 0`, and the volumes of the radial cells add up to the volume
between the radii `lo_r - dr/2` and `hi_r + dr/2` over the length `c dt`. -/
theorem C11_cell_volumes_rt {lo0 lo1 hi0 hi1 : ℝ} {nr nt m : ℕ} {b : Bool}
    {g : Grid s} (h : Grid.init "rt" [lo0, lo1] [hi0, hi1] [nr, nt] (some m) b = .ok ⟨s, g⟩)
    (h0 : 0 ≤ lo0) (h1 : lo0 < hi0) (ht : lo1 < hi1) :
    ∃ (hm : _) (r : Axis s.n1), g.geom = .rt m hm r ∧
      (∀ j, 0 ≤ g.cellVolume j) ∧ (∀ j, g.cellVolume j = 0 ↔ r.pts j = 0) ∧
      ∑ j, g.cellVolume j =
        Real.pi * ((hi0 + r.dx / 2) ^ 2 - (lo0 - r.dx / 2) ^ 2) * (c * g.t.dx) ∧
      r.dx = (hi0 - lo0) / (nr - 1) ∧ g.t.dx = (hi1 - lo1) / (nt - 1) := by
  obtain ⟨-, -, -, -, hc⟩ := Grid.init_ok h
  rcases hc with ⟨l0, l1, u0, u1, m', r, t, rest, e1, e2, e3, e4, e5, e6, e7, e8, hm, e9⟩ |
    ⟨l0, l1, l2, u0, u1, u2, x, y, t, e1, -⟩
  swap
  · exact absurd e1 (by decide)
  simp only [List.cons.injEq, and_true] at e2 e3
  obtain ⟨rfl, rfl⟩ := e2
  obtain ⟨rfl, rfl⟩ := e3
  simp only [List.cons.injEq] at e4
  obtain ⟨rfl, rfl, -⟩ := e4
  obtain rfl : m = m' := by simpa using e5
  subst e8
  have hsum := sum_cellVolumeRT lo0 hi0 r e6 g.t
  obtain ⟨hr2, hr⟩ := mkAxis_ok e6
  obtain ⟨ht2, ht'⟩ := mkAxis_ok e7
  have hrd : r.dx = (hi0 - lo0) / ((s.n1 : ℝ) - 1) := by rw [hr]; simp [linspace]
  have htd : g.t.dx = (hi1 - lo1) / ((s.nt : ℝ) - 1) := by rw [ht']; simp [linspace]
  have hr1 : (0 : ℝ) < (s.n1 : ℝ) - 1 := by
    have : (2 : ℝ) ≤ s.n1 := by exact_mod_cast hr2
    linarith
  have ht1 : (0 : ℝ) < (s.nt : ℝ) - 1 := by
    have : (2 : ℝ) ≤ s.nt := by exact_mod_cast ht2
    linarith
  have hrp : 0 < r.dx := by rw [hrd]; exact div_pos (by linarith) hr1
  have htp : 0 < g.t.dx := by rw [htd]; exact div_pos (by linarith) ht1
  have hcv : ∀ j, g.cellVolume j = 2 * Real.pi * r.dx * (g.t.dx * c) * r.pts j := by
    intro j
    simp only [Grid.cellVolume, e9, cellVolumeRT]
    ring
  have hK : 0 < 2 * Real.pi * r.dx * (g.t.dx * c) := by
    have := Real.pi_pos; have := c_pos; positivity
  have hpos : ∀ j, 0 ≤ r.pts j := by
    intro j
    rw [hr]
    simp only [linspace]
    have : 0 ≤ ((j : ℕ) : ℝ) * ((hi0 - lo0) / ((s.n1 : ℝ) - 1)) :=
      mul_nonneg (Nat.cast_nonneg _) (div_nonneg (by linarith) hr1.le)
    linarith
  refine ⟨hm, r, e9, ?_, ?_, ?_, hrd, htd⟩
  · intro j; rw [hcv]; exact mul_nonneg hK.le (hpos j)
  · intro j; rw [hcv]; simp [hK.ne']
  · simp only [Grid.cellVolume, e9]
    rw [hsum]; ring

/-- **C11**, Cartesian: every cell of a new grid has volume `dx dy c dt`. -/
theorem C11_cell_volumes_xyt {lo hi : List ℝ} {np : List ℕ} {m : Option ℕ} {b : Bool}
    {g : Grid s} (h : Grid.init "xyt" lo hi np m b = .ok ⟨s, g⟩) :
    ∃ x y, g.geom = .xyt x y ∧ ∀ j, g.cellVolume j = x.dx * y.dx * (c * g.t.dx) := by
  obtain ⟨-, -, -, -, hc⟩ := Grid.init_ok h
  rcases hc with ⟨l0, l1, u0, u1, m', r, t, rest, e1, -⟩ |
    ⟨l0, l1, l2, u0, u1, u2, x, y, t, e1, -, -, -, -, -, -, -, e9⟩
  · exact absurd e1 (by decide)
  · refine ⟨x, y, e9, fun j => ?_⟩
    simp only [Grid.cellVolume, e9, cellVolumeXYT]
    ring

/-! ## C15 -/

/-- `compute_laser_energy(laser.dim, laser.grid)` -/
noncomputable def Laser.energy (l : Laser s) : Except PyErr ℝ := (computeLaserEnergy l.grid).1

/-- the energy computed is `ε₀/2 ∑ dV |E|²` of the stored field -/
theorem Laser.Has.energy {l : Laser s} {f : Field s} (h : l.Has f) :
    l.energy = .ok (eps0 / 2 * ∑ i, ∑ j, ∑ k, l.grid.cellVolume j * ‖f i j k‖ ^ 2) := by
  obtain ⟨g', e, -⟩ := Grid.Holds.energy h
  simp only [Laser.energy, e, pulseEnergy, Finset.sum_mul, Finset.mul_sum]
  congr 1
  refine Finset.sum_congr rfl fun i _ => Finset.sum_congr rfl fun j _ =>
    Finset.sum_congr rfl fun k _ => ?_
  ring

/-- **C15.** `normalize(E, 'energy')` with `0 ≤ E` on a laser whose energy is positive succeeds, makes the
energy `E`, and multiplies the field by one nonnegative real. -/
theorem C15_normalize_energy (l : Laser s) (f : Field s) (h : l.Has f) (E E0 : ℝ) (hE : 0 ≤ E)
    (h0 : l.energy = .ok E0) (hpos : 0 < E0) :
    ∃ (l' : Laser s) (a : ℝ), Laser.normalize (some E) "energy" l = (.ok (), l') ∧ 0 ≤ a ∧
      l'.Has (fun i j k => f i j k * (a : ℂ)) ∧ l'.energy = .ok E ∧
      l'.grid.geom = l.grid.geom ∧ l'.grid.t = l.grid.t ∧ l'.profile = l.profile ∧
      l'.omega1d = l.omega1d := by
  obtain ⟨g1, e1, h1, -⟩ := Grid.Holds.energy h
  have hE0 : pulseEnergy l.grid f = E0 := by
    rw [Laser.energy, e1] at h0; simpa using h0
  obtain ⟨g', e, h', hg, ht⟩ := Grid.Holds.normEnergy h E (by rw [hE0]; exact hpos.ne')
  rw [hE0] at h'
  refine ⟨{ l with grid := g' }, Real.sqrt (E / E0), ?_, Real.sqrt_nonneg _, h', ?_, hg, ht, rfl, rfl⟩
  · simp only [Laser.normalize, if_true]
    exact onGrid_eq e
  · obtain ⟨g2, e2, -⟩ := Grid.Holds.energy h'
    simp only [Laser.energy]
    rw [e2, pulseEnergy_congr hg ht, pulseEnergy_scale, hE0]
    simp only [Complex.norm_real, Real.norm_eq_abs, sq_abs]
    rw [Real.sq_sqrt (div_nonneg hE hpos.le)]
    congr 1
    field_simp

/-- **C15**: a field without energy is left unchanged. -/
theorem C15_normalize_energy_zero (l : Laser s) (f : Field s) (h : l.Has f) (E : ℝ)
    (h0 : l.energy = .ok 0) :
    ∃ l' : Laser s, Laser.normalize (some E) "energy" l = (.ok (), l') ∧ l'.Has f := by
  obtain ⟨g1, e1, h1, -⟩ := Grid.Holds.energy h
  have hE0 : pulseEnergy l.grid f = 0 := by
    rw [Laser.energy, e1] at h0; simpa using h0
  obtain ⟨g', e, h', -⟩ := Grid.Holds.normEnergy_zero h E hE0
  exact ⟨{ l with grid := g' }, by simp only [Laser.normalize, if_true]; exact onGrid_eq e, h'⟩

/-- **C15/C16/C17**: `normalize(None, kind)` does nothing, for all three kinds. -/
theorem C15_normalize_none (l : Laser s) (kind : String)
    (hk : kind = "energy" ∨ kind = "field" ∨ kind = "intensity") :
    Laser.normalize none kind l = (.ok (), l) := by
  rcases hk with rfl | rfl | rfl <;> rfl

/-- **C15**: normalising twice is normalising once to the last value. -/
theorem C15_normalize_twice (l : Laser s) (f : Field s) (h : l.Has f) (E E' E0 : ℝ) (hE : 0 < E)
    (hE' : 0 ≤ E') (h0 : l.energy = .ok E0) (hpos : 0 < E0) :
    ∃ (l1 l2 l3 : Laser s) (f' : Field s),
      Laser.normalize (some E) "energy" l = (.ok (), l1) ∧
      Laser.normalize (some E') "energy" l1 = (.ok (), l2) ∧
      Laser.normalize (some E') "energy" l = (.ok (), l3) ∧
      l2.Has f' ∧ l3.Has f' ∧ l2.energy = .ok E' := by
  obtain ⟨g1, e1, h1, -⟩ := Grid.Holds.energy h
  have hE0 : pulseEnergy l.grid f = E0 := by
    rw [Laser.energy, e1] at h0; simpa using h0
  obtain ⟨ga, ea, ha, hag, hat⟩ := Grid.Holds.normEnergy h E (by rw [hE0]; exact hpos.ne')
  obtain ⟨gc, ec, hc, hcg, hct⟩ := Grid.Holds.normEnergy h E' (by rw [hE0]; exact hpos.ne')
  rw [hE0] at ha hc
  have hEa : pulseEnergy ga (fun i j k => f i j k * ((Real.sqrt (E / E0) : ℝ) : ℂ)) = E := by
    rw [pulseEnergy_congr hag hat, pulseEnergy_scale, hE0]
    simp only [Complex.norm_real, Real.norm_eq_abs, sq_abs]
    rw [Real.sq_sqrt (div_nonneg hE.le hpos.le)]
    field_simp
  obtain ⟨gb, eb, hb, hbg, hbt⟩ := Grid.Holds.normEnergy ha E' (by rw [hEa]; exact hE.ne')
  rw [hEa] at hb
  have key : (fun i j k => f i j k * ((Real.sqrt (E / E0) : ℝ) : ℂ) * ((Real.sqrt (E' / E) : ℝ) : ℂ))
      = (fun i j k => f i j k * ((Real.sqrt (E' / E0) : ℝ) : ℂ)) := by
    funext i j k
    rw [mul_assoc, ← Complex.ofReal_mul, ← Real.sqrt_mul (div_nonneg hE.le hpos.le)]
    congr 3
    field_simp
  refine ⟨{ l with grid := ga }, { l with grid := gb }, { l with grid := gc }, _, ?_, ?_, ?_,
    key ▸ hb, hc, ?_⟩
  · simp only [Laser.normalize, if_true]; exact onGrid_eq ea
  · simp only [Laser.normalize, if_true]; exact onGrid_eq eb
  · simp only [Laser.normalize, if_true]; exact onGrid_eq ec
  · obtain ⟨g2, e2, -⟩ := Grid.Holds.energy hc
    have : l.energy = .ok E0 := h0
    obtain ⟨g3, e3, -⟩ := Grid.Holds.energy hb
    simp only [Laser.energy]
    rw [e3, pulseEnergy_congr (hbg.trans hag) (hbt.trans hat), key, pulseEnergy_scale, hE0]
    simp only [Complex.norm_real, Real.norm_eq_abs, sq_abs]
    rw [Real.sq_sqrt (div_nonneg hE' hpos.le)]
    congr 1
    field_simp

/-- the energy is positive as soon as the field is non-zero in a cell with positive volume, and no cell
has negative volume (C11): the hypotheses of C15 are met by every ordinary pulse -/
theorem Laser.Has.energy_pos {l : Laser s} {f : Field s} (h : l.Has f)
    (hv : ∀ j, 0 ≤ l.grid.cellVolume j) (i : Fin s.n0) (j : Fin s.n1) (k : Fin s.nt)
    (hj : 0 < l.grid.cellVolume j) (hf : f i j k ≠ 0) : ∃ E0, l.energy = .ok E0 ∧ 0 < E0 := by
  refine ⟨_, h.energy, mul_pos (half_pos eps0_pos) ?_⟩
  have hnn : ∀ i j k, 0 ≤ l.grid.cellVolume j * ‖f i j k‖ ^ 2 := fun i j k =>
    mul_nonneg (hv j) (by positivity)
  refine Finset.sum_pos' (fun i _ => Finset.sum_nonneg fun j _ => Finset.sum_nonneg fun k _ => hnn i j k)
    ⟨i, Finset.mem_univ _, Finset.sum_pos' (fun j _ => Finset.sum_nonneg fun k _ => hnn i j k)
      ⟨j, Finset.mem_univ _, Finset.sum_pos' (fun k _ => hnn i j k) ⟨k, Finset.mem_univ _, ?_⟩⟩⟩
  exact mul_pos hj (by positivity)

/-! ## C16 -/

/-- **C16.** `normalize(A, 'field')` with `0 ≤ A` on a non-zero field succeeds, the largest `|E|` becomes
exactly `A`, and the field is multiplied by one nonnegative real. -/
theorem C16_normalize_field (l : Laser s) (f : Field s) (h : l.Has f) (A : ℝ) (hA : 0 ≤ A)
    (hf : ∃ i j k, f i j k ≠ 0) :
    ∃ (l' : Laser s) (a : ℝ) (f' : Field s), Laser.normalize (some A) "field" l = (.ok (), l') ∧ 0 ≤ a ∧
      f' = (fun i j k => f i j k * (a : ℂ)) ∧ l'.Has f' ∧
      IsGreatest {x | ∃ i j k, x = ‖f' i j k‖} A := by
  obtain ⟨i0, j0, k0, hf⟩ := hf
  have hs : 0 < s.n0 ∧ 0 < s.n1 ∧ 0 < s.nt := ⟨i0.pos, j0.pos, k0.pos⟩
  obtain ⟨⟨i1, j1, k1, hm⟩, hub⟩ := absMax_isGreatest f hs
  have hpos : 0 < absMax f :=
    lt_of_lt_of_le (norm_pos_iff.mpr hf) (hub ⟨i0, j0, k0, rfl⟩)
  obtain ⟨g', e, h', -⟩ := Grid.Holds.normPeak h A hpos.ne'
  have hn : 0 ≤ A / absMax f := div_nonneg hA hpos.le
  have hnorm : ∀ z : ℂ, ‖z * ((A / absMax f : ℝ) : ℂ)‖ = ‖z‖ * (A / absMax f) := by
    intro z
    rw [norm_mul, Complex.norm_real, Real.norm_of_nonneg hn]
  refine ⟨{ l with grid := g' }, A / absMax f, _, ?_, hn, rfl, h', ?_, ?_⟩
  · have hne : ¬ ("field" = "energy") := by decide
    simp only [Laser.normalize, hne, if_true, if_false]
    exact onGrid_eq e
  · exact ⟨i1, j1, k1, by rw [hnorm, ← hm]; field_simp⟩
  · rintro _ ⟨i, j, k, rfl⟩
    rw [hnorm]
    have : ‖f i j k‖ ≤ absMax f := hub ⟨i, j, k, rfl⟩
    calc ‖f i j k‖ * (A / absMax f) ≤ absMax f * (A / absMax f) :=
          mul_le_mul_of_nonneg_right this hn
      _ = A := by field_simp

/-- **C16**: the zero field is left unchanged. -/
theorem C16_normalize_field_zero (l : Laser s) (h : l.Has fun _ _ _ => 0) (A : ℝ) :
    ∃ l' : Laser s, Laser.normalize (some A) "field" l = (.ok (), l') ∧ l'.Has fun _ _ _ => 0 := by
  have h0 : absMax (fun _ _ _ => 0 : Field s) = 0 := by simp [absMax]
  obtain ⟨g', e, h', -⟩ := Grid.Holds.normPeak_zero h A h0
  refine ⟨{ l with grid := g' }, ?_, h'⟩
  have hne : ¬ ("field" = "energy") := by decide
  simp only [Laser.normalize, hne, if_true, if_false]
  exact onGrid_eq e

/-! ## C17 -/

/-- **C17 is false of the code.** `normalize(I, 'intensity')` raises `AssertionError` for every
non-zero field and every value `I`, and the stored field is not changed. -/
theorem C17_refuted (l : Laser s) (f : Field s) (h : l.Has f) (I : ℝ) (hf : ∃ i j k, f i j k ≠ 0) :
    ∃ l' : Laser s, Laser.normalize (some I) "intensity" l = (.error .assertion, l') ∧ l'.Has f := by
  obtain ⟨i0, j0, k0, hf⟩ := hf
  obtain ⟨g', e, h', -⟩ := Grid.Holds.getT h
  have hs : 0 < s.n0 ∧ 0 < s.n1 ∧ 0 < s.nt := ⟨i0.pos, j0.pos, k0.pos⟩
  have hpos : absMax (fun i j k => (eps0 : ℂ) * f i j k ^ 2 / 2 * (c : ℂ)) ≠ 0 := by
    obtain ⟨-, hub⟩ := absMax_isGreatest (fun i j k => (eps0 : ℂ) * f i j k ^ 2 / 2 * (c : ℂ)) hs
    have h1 := hub ⟨i0, j0, k0, rfl⟩
    have h2 : (0 : ℝ) < ‖(eps0 : ℂ) * f i0 j0 k0 ^ 2 / 2 * (c : ℂ)‖ := by
      rw [norm_pos_iff]
      have h3 := Complex.ofReal_ne_zero.mpr eps0_pos.ne'
      have h4 := Complex.ofReal_ne_zero.mpr c_pos.ne'
      exact mul_ne_zero (div_ne_zero (mul_ne_zero h3 (pow_ne_zero 2 hf)) two_ne_zero) h4
    exact (lt_of_lt_of_le h2 h1).ne'
  refine ⟨{ l with grid := g' }, ?_, h'⟩
  have hne : ¬ ("intensity" = "energy") := by decide
  have hne' : ¬ ("intensity" = "field") := by decide
  simp only [Laser.normalize, hne, hne', if_true, if_false]
  apply onGrid_eq
  simp only [normalizePeakIntensity, Py.bind_apply, e, hpos, if_false]
  exact setTemporalField_err (by simp [Shape.toList])

/-- **C17, the part that holds**: the zero field is accepted and left unchanged. -/
theorem C17_normalize_intensity_zero_partial (l : Laser s) (h : l.Has fun _ _ _ => 0) (I : ℝ) :
    ∃ l' : Laser s, Laser.normalize (some I) "intensity" l = (.ok (), l') ∧ l'.Has fun _ _ _ => 0 := by
  obtain ⟨g', e, h', -⟩ := Grid.Holds.getT h
  refine ⟨{ l with grid := g' }, ?_, h'⟩
  have hne : ¬ ("intensity" = "energy") := by decide
  have hne' : ¬ ("intensity" = "field") := by decide
  simp only [Laser.normalize, hne, hne', if_true, if_false]
  apply onGrid_eq
  simp [normalizePeakIntensity, Py.bind_apply, e, absMax]

/-! ## C18 -/

/-- **C18.** Any other `kind` raises `ValueError` and leaves the whole object unchanged. -/
theorem C18_unknown_kind (l : Laser s) (v : Option ℝ) (kind : String)
    (hk : kind ≠ "energy" ∧ kind ≠ "field" ∧ kind ≠ "intensity") :
    Laser.normalize v kind l = (.error .value, l) := by
  simp [Laser.normalize, hk.1, hk.2.1, hk.2.2]

example : ("average_intensity" : String) ≠ "energy" ∧ "average_intensity" ≠ "field" ∧
    "average_intensity" ≠ "intensity" := by decide

end Lasy
