import Verif.Spec.OpenPMD
import Verif.Props.Propagate
import Verif.Lemmas.Utils

/-!
# Properties C33, C34: what `write_to_file` stores
-/

namespace Lasy
open Spec Phys Complex

variable {s : Shape} [Phys]

/-! ## Regular grids -/

/-- the samples of the axis are where its end points and number of points say -/
def Axis.Regular {n : ℕ} (a : Axis n) : Prop := ∀ k, a.pts k = linspace a.lo a.hi n k

def Geom.Regular {a b : ℕ} : Geom a b → Prop
  | .xyt x y => x.Regular ∧ y.Regular
  | .rt _ _ r => r.Regular

/-- every axis is regular. Every constructed grid is (`Grid.regular_of_init`), and stays so under
propagation (`regular_propagateAll`). -/
def Grid.Regular (g : Grid s) : Prop := g.geom.Regular ∧ g.t.Regular

omit [Phys] in
theorem Axis.regular_of_mk {lo hi : ℝ} {n : ℕ} {a : Axis n} (h : mkAxis lo hi n = .ok a) : a.Regular := by
  obtain ⟨-, rfl⟩ := mkAxis_ok h
  intro k
  rfl

omit [Phys] in
theorem Grid.regular_of_init {dim : String} {lo hi : List ℝ} {np : List ℕ} {m : Option ℕ} {b : Bool}
    {g : Grid s} (h : Grid.init dim lo hi np m b = .ok ⟨s, g⟩) : g.Regular := by
  obtain ⟨-, -, -, -, hc⟩ := Grid.init_ok h
  rcases hc with ⟨l0, l1, u0, u1, m', r, t, rest, -, -, -, -, -, h1, h2, h3, hm, h4⟩ |
    ⟨l0, l1, l2, u0, u1, u2, x, y, t, -, -, -, -, h1, h2, h3, h4, h5⟩
  · refine ⟨?_, ?_⟩
    · rw [h4]; exact Axis.regular_of_mk h1
    · rw [h3]; exact Axis.regular_of_mk h2
  · refine ⟨?_, ?_⟩
    · rw [h5]; exact ⟨Axis.regular_of_mk h1, Axis.regular_of_mk h2⟩
    · rw [h4]; exact Axis.regular_of_mk h3

theorem Laser.regular_of_init {dim : String} {lo hi : List ℝ} {np : List ℕ} {p : ProfileObj}
    {m : Option ℕ} {N : Option ℕ} {l : Laser s} (h : Laser.init dim lo hi np p m N = .ok ⟨s, l⟩) :
    l.grid.Regular := by
  obtain ⟨g, f, hg, -, h1, h2, -⟩ := Laser.init_facts h
  have := Grid.regular_of_init hg
  exact ⟨by rw [h1]; exact this.1, by rw [h2]; exact this.2⟩

omit [Phys] in
theorem Axis.Regular.shift {n : ℕ} {a : Axis n} (h : a.Regular) (τ : ℝ) : (a.shift τ).Regular := by
  intro k
  simp only [Axis.shift, h k, linspace]
  ring

theorem regular_propagate (ax : Axiprop) (a : PropCall) (L L' : Σ s, Laser s) (hL : L.2.Ready)
    (hg : ∀ g, a.grid = some g → (∃ st, g.2.Holds st) ∧ g.2.Regular) (hr : L.2.grid.Regular)
    (h : Laser.propagate ax a.distance a.nrBoundary a.grid a.backend L = (.ok (), L')) :
    L'.2.grid.Regular := by
  obtain ⟨-, -, h1, h2, hnt, h3, -, h4⟩ := propagate_inv ax a L L' hL (fun g e => (hg g e).1) h
  refine ⟨?_, ?_⟩
  · rcases hag : a.grid with _ | g'
    · obtain ⟨l', rfl, h5, -⟩ := h4 (.inl hag)
      simp only [h5]; exact hr.1
    · rcases hgeo : L.2.grid.geom with ⟨x, y⟩ | ⟨n, hn, r⟩
      · obtain ⟨l', rfl, h5, -⟩ := h4 (.inr (by rw [hgeo]; rfl))
        simp only [h5]; exact hr.1
      · obtain ⟨⟨f, hf⟩, hc⟩ := hL
        unfold Laser.propagate at h
        rw [hag] at h
        simp only [hgeo] at h
        obtain ⟨w, n0, hn0, r0, n', hn', r', hw, hgeo0, hgeo', hnt, hm⟩ :=
          propagateOnto_inv ax a.distance a.backend L.2 f hf a.nrBoundary g'.2 h
        obtain ⟨⟨st, hst⟩, hreg⟩ := hg g' hag
        obtain ⟨l', e', -, k2, -⟩ := propagateOnto_ok ax a.distance
          a.backend L.2 f hf a.nrBoundary hw g'.2 hst hgeo0 hgeo' hnt hm
        rw [e'] at h
        simp only [Prod.mk.injEq, true_and] at h
        subst h
        simp only [k2]
        exact hreg.1
  · intro k
    rw [h3, hr.2, h1, h2]
    simp only [linspace, Fin.val_cast, hnt]
    ring

/-- C34, premise: a regular grid stays regular under every sequence of propagations, also onto other regular
grids -/
theorem regular_propagateAll (ax : Axiprop) (as : List PropCall) (L L' : Σ s, Laser s) (hL : L.2.Ready)
    (hg : ∀ a ∈ as, ∀ g, a.grid = some g → (∃ st, g.2.Holds st) ∧ g.2.Regular) (hr : L.2.grid.Regular)
    (h : propagateAll ax as L = (.ok (), L')) : L'.2.grid.Regular := by
  induction as generalizing L with
  | nil =>
    simp only [propagateAll, Py.pure_apply, Prod.mk.injEq, true_and] at h
    subst h
    exact hr
  | cons a as ih =>
    simp only [propagateAll, Py.bind_apply] at h
    rcases h1 : Laser.propagate ax a.distance a.nrBoundary a.grid a.backend L with ⟨e | u, L1⟩
    · simp [h1] at h
    · simp only [h1] at h
      have h2 := propagate_inv ax a L L1 hL (fun g e => (hg a (by simp) g e).1) h1
      exact ih L1 h2.1 (fun b hb => hg b (by simp [hb]))
        (regular_propagate ax a L L1 hL (hg a (by simp)) hr h1) h

/-! ## Writing -/

/-- a write of the field: it succeeds unless the file system refuses, and stores `mkMesh`; no other file is
touched, and the laser keeps its field -/
theorem writeToFile_ok (a : WriteArgs) (l : Laser s) (f : Field s) (hf : l.Has f) (disk : Disk)
    (hv : a.asVectorPotential = false) (ha : a.fault = .ok) :
    ∃ g', writeToFile a (l, disk) = (.ok (),
        ({ l with grid := g', outputIteration := l.outputIteration + 1 },
          Function.update disk (filePath a.dir a.pre a.fmt l.outputIteration)
            (some (mkMesh l.grid l.profile.lambda0 l.profile.pol false ⟨.c128, f⟩)))) ∧
      g'.Holds (some f) ∧ g'.geom = l.grid.geom ∧ g'.t = l.grid.t := by
  obtain ⟨g', e, h', hg, ht⟩ := Grid.Holds.getT hf
  refine ⟨g', ?_, h', hg, ht⟩
  unfold writeToFile writeMesh
  simp only [onGrid_eq e, ha, hv]
  simp only [Bool.false_eq_true, if_false]
  simp only [mkMesh, hg, ht]

/-- the same with `save_as_vector_potential=True`: the data are those of `field_to_vector_potential` -/
theorem writeToFile_potential (a : WriteArgs) (l : Laser s) (f : Field s) (hf : l.Has f) (disk : Disk)
    (hv : a.asVectorPotential = true) (ha : a.fault = .ok) {v : Field s}
    (hp : ∀ g : Grid s, g.Holds (some f) → g.geom = l.grid.geom → g.t = l.grid.t →
      ∃ g', fieldToVectorPotential (2 * Real.pi * c / l.profile.lambda0) g = (.ok v, g') ∧
        g'.Holds (some f) ∧ g'.geom = l.grid.geom ∧ g'.t = l.grid.t) :
    ∃ g', writeToFile a (l, disk) = (.ok (),
        ({ l with grid := g', outputIteration := l.outputIteration + 1 },
          Function.update disk (filePath a.dir a.pre a.fmt l.outputIteration)
            (some (mkMesh l.grid l.profile.lambda0 l.profile.pol true ⟨.c128, v⟩)))) ∧
      g'.Holds (some f) := by
  obtain ⟨g', e, h', hg, ht⟩ := Grid.Holds.getT hf
  obtain ⟨g2, e2, h2, hg2, ht2⟩ := hp g' h' hg ht
  refine ⟨g2, ?_, h2⟩
  unfold writeToFile writeMesh
  simp only [onGrid_eq e, ha, hv]
  simp only [if_true, onGrid_eq (l := { l with grid := g' }) e2]
  simp only [mkMesh, hg2, ht2]

/-! ## C33 -/

omit [Phys] in
theorem sum_Icc_one (p : ℕ) (G : ℕ → ℂ) :
    ∑ m ∈ Finset.Icc 1 p, G m = ∑ m ∈ Finset.range p, G (m + 1) := by
  induction p with
  | zero => simp
  | succ p ih => rw [Finset.sum_Icc_succ_top (by omega), Finset.sum_range_succ, ih]

omit [Phys] in
/-- the sum over the components `0, 1, .., p, -p, .., -1`, by pairs of opposite modes -/
theorem sum_pairs (p : ℕ) (F : ℕ → ℂ) :
    ∑ q ∈ Finset.range (2 * p + 1), F q = F 0 + ∑ m ∈ Finset.Icc 1 p, (F m + F (2 * p + 1 - m)) := by
  rw [sum_Icc_one, Finset.sum_range_succ', add_comm, two_mul, Finset.sum_range_add, ← Finset.sum_range_reflect
    (fun x => F (p + x + 1)), ← Finset.sum_add_distrib]
  congr 1
  apply Finset.sum_congr rfl
  intro m hm
  rw [Finset.mem_range] at hm
  congr 2
  omega

omit [Phys] in
/-- cosine and sine parts against exponentials -/
theorem cosSin_sum {nr nt : ℕ} (p : ℕ) (f : Fin (2 * (p + 1) - 1) → Fin nr → Fin nt → ℂ) (θ : ℝ) (j : Fin nr)
    (k : Fin nt) (G : ℕ → ℂ) (hG : ∀ q (hq : q < 2 * (p + 1) - 1), G q = cosSin (p + 1) f ⟨q, hq⟩ j k) :
    G 0 + ∑ q ∈ Finset.Icc 1 p, (G (2 * q - 1) * Real.cos (q * θ) + G (2 * q) * Real.sin (q * θ)) =
      fieldAtAngle f θ j k := by
  let F : ℕ → ℂ := fun q => if h : q < 2 * (p + 1) - 1 then f ⟨q, h⟩ j k else 0
  have hL : fieldAtAngle f θ j k = ∑ q ∈ Finset.range (2 * p + 1), F q * exp (-I *
      ((if q < p + 1 then (q : ℤ) else (q : ℤ) - (2 * (p + 1 : ℕ) - 1) : ℤ) : ℂ) * θ) := by
    unfold fieldAtAngle
    rw [show 2 * p + 1 = 2 * (p + 1) - 1 by omega, Finset.sum_range]
    apply Finset.sum_congr rfl
    intro i _
    simp only [F, i.2, dif_pos, modeAt]
  rw [hL, sum_pairs]
  congr 1
  · rw [hG 0 (by omega)]
    have h0 : 0 < 2 * (p + 1) - 1 := by omega
    simp [cosSin, F, h0]
  · apply Finset.sum_congr rfl
    intro m hm
    rw [Finset.mem_Icc] at hm
    rw [hG (2 * m - 1) (by omega), hG (2 * m) (by omega)]
    have a1 : cosSin (p + 1) f ⟨2 * m - 1, by omega⟩ j k =
        f ⟨m, by omega⟩ j k + f ⟨2 * p + 1 - m, by omega⟩ j k := by
      unfold cosSin
      simp only
      rw [dif_neg (by omega), if_pos (by omega)]
      congr 3 <;> omega
    have a2 : cosSin (p + 1) f ⟨2 * m, by omega⟩ j k =
        -I * f ⟨m, by omega⟩ j k + I * f ⟨2 * p + 1 - m, by omega⟩ j k := by
      unfold cosSin
      simp only
      rw [dif_neg (by omega), if_neg (by omega)]
      congr 4 <;> omega
    rw [a1, a2]
    simp only [F]
    rw [dif_pos (by omega), dif_pos (by omega), if_pos (by omega), if_neg (by omega)]
    have e1 : -I * ((m : ℤ) : ℂ) * θ = ((-(m * θ) : ℝ) : ℂ) * I := by push_cast; ring
    have e2 : -I * (((2 * p + 1 - m : ℕ) - (2 * ((p + 1 : ℕ) : ℤ) - 1) : ℤ) : ℂ) * θ =
        ((m * θ : ℝ) : ℂ) * I := by
      have : ((2 * p + 1 - m : ℕ) - (2 * ((p + 1 : ℕ) : ℤ) - 1) : ℤ) = -(m : ℤ) := by omega
      rw [this]; push_cast; ring
    rw [e1, e2, Complex.exp_mul_I, Complex.exp_mul_I, ← Complex.ofReal_cos, ← Complex.ofReal_sin,
      ← Complex.ofReal_cos, ← Complex.ofReal_sin, Real.cos_neg, Real.sin_neg]
    push_cast
    ring

/-- **C33.** In `rt` geometry the mesh which `write_to_file` stores means, at every angle `θ`, the same field
as the laser: `data[0] + ∑_m (data[2m-1] cos mθ + data[2m] sin mθ) = ∑_m f_m exp(-i m θ)`. -/
theorem C33_cos_sin (g : Grid s) (lambda0 : ℝ) (pol : ℂ × ℂ) (vp : Bool) (f : Field s) {n hn r}
    (hgeo : g.geom = .rt n hn r) (θ : ℝ) (j : Fin s.n1) (k : Fin s.nt) :
    (mkMesh g lambda0 pol vp ⟨.c128, f⟩).atAngle θ k j =
      fieldAtAngle (fun i j k => f (Fin.cast hn.2.symm i) j k) θ j k := by
  obtain ⟨n0, nr, nt⟩ := s
  obtain ⟨h1, h2⟩ := hn
  simp only at h2
  subst h2
  obtain ⟨p, rfl⟩ : ∃ p, n = p + 1 := ⟨n - 1, by omega⟩
  have hshape : (mkMesh g lambda0 pol vp ⟨.c128, f⟩).data.shape = [2 * (p + 1) - 1, nt, nr] := by
    simp [mkMesh, hgeo, dataRT, Arr.toNd, Shape.toList]
  unfold Mesh.atAngle
  rw [hshape]
  have e0 : (2 * (p + 1) - 1 - 1) / 2 = p := by omega
  simp only [List.headD_cons, e0]
  refine cosSin_sum p (fun i j k => f i j k) θ j k
    (fun q => (mkMesh g lambda0 pol vp ⟨.c128, f⟩).data.get [q, k, j]) ?_
  intro q hq
  simp [mkMesh, hgeo, dataRT, Arr.toNd, hq]

/-- C33 is not vacuous: modes 0, 1, -1 with different contents; at `θ = 0` the file says `f_0 + f_1 + f_{-1}`,
at `θ = π` it says `f_0 - f_1 - f_{-1}` -/
example : ∃ (g : Grid ⟨3, 2, 2⟩) (f : Field ⟨3, 2, 2⟩) (m : Mesh),
    m = mkMesh g 1 (1, 0) false ⟨.c128, f⟩ ∧ m.atAngle 0 0 0 = 6 ∧ m.atAngle Real.pi 0 0 = -4 := by
  let ax : Axis 2 := ⟨0, 1, 1, fun k => (k : ℕ)⟩
  let f : Field ⟨3, 2, 2⟩ := fun i _ _ => (i : ℕ) + 1
  let g : Grid ⟨3, 2, 2⟩ := Grid.holding (.rt 2 ⟨by norm_num, rfl⟩ ax) ax f
  refine ⟨g, f, _, rfl, ?_, ?_⟩
  · rw [show (0 : ℕ) = ((0 : Fin 2) : ℕ) from rfl]
    have := C33_cos_sin g 1 (1, 0) false f (n := 2) (hn := ⟨by norm_num, rfl⟩) (r := ax) rfl 0 0 0
    rw [this]
    simp [fieldAtAngle, Fin.sum_univ_succ, f]
    norm_num
  · rw [show (0 : ℕ) = ((0 : Fin 2) : ℕ) from rfl]
    have := C33_cos_sin g 1 (1, 0) false f (n := 2) (hn := ⟨by norm_num, rfl⟩) (r := ax) rfl Real.pi 0 0
    rw [this]
    have h1 : exp (-(I * Real.pi)) = -1 := by rw [mul_comm, Complex.exp_neg, Complex.exp_pi_mul_I]; norm_num
    have h2 : exp (I * Real.pi) = -1 := by rw [mul_comm, Complex.exp_pi_mul_I]
    simp [fieldAtAngle, Fin.sum_univ_succ, f, modeAt, h1]
    rw [show -(I * (1 + 1 - 3) * (Real.pi : ℂ)) = I * Real.pi by ring, h2]
    norm_num

/-! ## C34 -/

omit [Phys] in
theorem Axis.Regular.coord {n : ℕ} {a : Axis n} (h : a.Regular) (k : Fin n) :
    a.lo + (k : ℕ) * ((a.hi - a.lo) / ((n : ℝ) - 1)) = a.pts k := (h k).symm

/-- **C34** (Cartesian). A write of a laser on a regular grid (every constructed laser, after any
propagations: `Laser.regular_of_init`, `regular_propagateAll`) succeeds; the file contains the field with the
axes reversed, and the metadata of the mesh locate every sample. The laser keeps its field. -/
theorem C34_xyt (a : WriteArgs) (l : Laser s) (f : Field s) (hf : l.Has f) (hr : l.grid.Regular) (disk : Disk)
    (hv : a.asVectorPotential = false) (ha : a.fault = .ok) {x y} (hgeo : l.grid.geom = .xyt x y) :
    ∃ l' disk' m, writeToFile a (l, disk) = (.ok (), (l', disk')) ∧ l'.Has f ∧
      disk' (filePath a.dir a.pre a.fmt l.outputIteration) = some m ∧
      m.axisLabels = ["t", "y", "x"] ∧ m.data.shape = [s.nt, s.n1, s.n0] ∧
      m.angularFrequency = 2 * Real.pi * c / l.profile.lambda0 ∧ m.polarization = l.profile.pol ∧
      ∀ (i : Fin s.n0) (j : Fin s.n1) (k : Fin s.nt), m.data.get [k, j, i] = f i j k ∧ m.coord "x" i = some (x.pts i) ∧
        m.coord "y" j = some (y.pts j) ∧ m.coord "t" k = some (l.grid.t.pts k) := by
  obtain ⟨g', e, h', -⟩ := writeToFile_ok a l f hf disk hv ha
  refine ⟨_, _, _, e, h', Function.update_self .., ?_, ?_, ?_, ?_, ?_⟩
  · simp [mkMesh, hgeo]
  · simp [mkMesh, hgeo, dataXYT, Shape.toList]
  · simp [mkMesh, hgeo]
  · simp [mkMesh, hgeo]
  · intro i j k
    have h1 := hr.1
    rw [hgeo] at h1
    refine ⟨?_, ?_, ?_, ?_⟩
    · simp [mkMesh, hgeo, dataXYT, Arr.toNd]
    · rw [← h1.1.coord i]
      simp [mkMesh, hgeo, Mesh.coord]
    · rw [← h1.2.coord j]
      simp [mkMesh, hgeo, Mesh.coord]
    · rw [← hr.2.coord k]
      simp [mkMesh, hgeo, Mesh.coord]

/-- **C34** (cylindrical). The same; the content is the one of C33. -/
theorem C34_rt (a : WriteArgs) (l : Laser s) (f : Field s) (hf : l.Has f) (hr : l.grid.Regular) (disk : Disk)
    (hv : a.asVectorPotential = false) (ha : a.fault = .ok) {n hn r} (hgeo : l.grid.geom = .rt n hn r) :
    ∃ l' disk' m, writeToFile a (l, disk) = (.ok (), (l', disk')) ∧ l'.Has f ∧
      disk' (filePath a.dir a.pre a.fmt l.outputIteration) = some m ∧
      m.axisLabels = ["t", "r"] ∧ m.data.shape = [s.n0, s.nt, s.n1] ∧
      m.angularFrequency = 2 * Real.pi * c / l.profile.lambda0 ∧ m.polarization = l.profile.pol ∧
      ∀ (j : Fin s.n1) (k : Fin s.nt), m.coord "r" j = some (r.pts j) ∧ m.coord "t" k = some (l.grid.t.pts k) ∧
        ∀ θ, m.atAngle θ k j = fieldAtAngle (fun i j k => f (Fin.cast hn.2.symm i) j k) θ j k := by
  obtain ⟨g', e, h', -⟩ := writeToFile_ok a l f hf disk hv ha
  refine ⟨_, _, _, e, h', Function.update_self .., ?_, ?_, ?_, ?_, ?_⟩
  · simp [mkMesh, hgeo]
  · simp [mkMesh, hgeo, dataRT, Shape.toList]
  · simp [mkMesh, hgeo]
  · simp [mkMesh, hgeo]
  · intro j k
    have h1 := hr.1
    rw [hgeo] at h1
    refine ⟨?_, ?_, ?_⟩
    · rw [← h1.coord j]
      simp [mkMesh, hgeo, Mesh.coord]
    · rw [← hr.2.coord k]
      simp [mkMesh, hgeo, Mesh.coord]
    · intro θ
      exact C33_cos_sin l.grid _ _ false f hgeo θ j k

/-- **C34** (labels). Whatever is written - field or vector potential, any laser state - a write that succeeds leaves a mesh
under the file name that says which of the two it holds, the geometry, the frequency and the polarisation. -/
theorem C34_labels (a : WriteArgs) (l l' : Laser s) (disk disk' : Disk)
    (h : writeToFile a (l, disk) = (.ok (), (l', disk'))) :
    ∃ m, disk' (filePath a.dir a.pre a.fmt l.outputIteration) = some m ∧
      m.envelopeField = (if a.asVectorPotential then "normalized_vector_potential" else "electric_field") ∧
      m.geometry = (match l'.grid.geom with | .xyt _ _ => "cartesian" | .rt _ _ _ => "thetaMode") ∧
      m.angularFrequency = 2 * Real.pi * c / l'.profile.lambda0 ∧ m.polarization = l'.profile.pol := by
  have mesh : ∀ (g : Grid s) (lam : ℝ) (pol : ℂ × ℂ) (v : Bool) (arr : Arr s),
      (mkMesh g lam pol v arr).envelopeField = (if v then "normalized_vector_potential" else "electric_field") ∧
      (mkMesh g lam pol v arr).geometry = (match g.geom with | .xyt _ _ => "cartesian" | .rt _ _ _ => "thetaMode") ∧
      (mkMesh g lam pol v arr).angularFrequency = 2 * Real.pi * c / lam ∧ (mkMesh g lam pol v arr).polarization = pol := by
    intro g lam pol v arr
    unfold mkMesh
    rcases g.geom with ⟨x, y⟩ | ⟨n, hn, r⟩ <;> exact ⟨rfl, rfl, rfl, rfl⟩
  unfold writeToFile writeMesh at h
  simp only at h
  split at h
  · cases h
  · rename_i l1 d1 hm
    split at hm
    · cases hm
    · split at hm
      · cases hm
      · split at hm
        · cases hm
        · split at hm
          · cases hm
          · simp only [Prod.mk.injEq, true_and] at hm h
            obtain ⟨rfl, rfl⟩ := hm
            obtain ⟨rfl, rfl⟩ := h
            exact ⟨_, Function.update_self .., mesh _ _ _ _ _⟩

/-- C34 for constructed lasers after any propagations without exception: the premises hold. -/
theorem C34_premises (ax : Axiprop) (as : List PropCall) {dim : String} {lo hi : List ℝ} {np : List ℕ}
    {p : ProfileObj} {m N : Option ℕ} {l : Laser s} (h : Laser.init dim lo hi np p m N = .ok ⟨s, l⟩)
    (hg : ∀ a ∈ as, ∀ g, a.grid = some g → (∃ st, g.2.Holds st) ∧ g.2.Regular) {L' : Σ s, Laser s}
    (hp : propagateAll ax as ⟨s, l⟩ = (.ok (), L')) : (∃ f, L'.2.Has f) ∧ L'.2.grid.Regular := by
  have hL := Laser.ready_of_init h
  exact ⟨(propagateAll_inv ax as _ L' hL (fun a ha g e => (hg a ha g e).1) hp).1.1,
    regular_propagateAll ax as _ L' hL hg (Laser.regular_of_init h) hp⟩

/-- not vacuous: a constructed laser, propagated twice, is regular and can be written -/
example (ax : Axiprop) : ∃ (l' : Laser ⟨2, 2, 2⟩) (f : Field ⟨2, 2, 2⟩), l'.Has f ∧ l'.grid.Regular := by
  obtain ⟨l, E0, h, -⟩ := constLaser
  have hno : ∀ a ∈ [(⟨1, none, none, "b"⟩ : PropCall), ⟨2, none, none, "b"⟩],
      a.grid = none ∧ a.nrBoundary = none := by simp
  obtain ⟨l', e, -⟩ := C24_constructed ax [⟨1, none, none, "b"⟩, ⟨2, none, none, "b"⟩] h hno
  obtain ⟨⟨f, hf⟩, hr⟩ := C34_premises ax _ h (by
    intro a ha g hg
    rw [(hno a ha).1] at hg
    cases hg) e
  exact ⟨l', f, hf, hr⟩

end Lasy
