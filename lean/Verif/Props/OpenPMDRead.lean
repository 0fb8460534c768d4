import Verif.Props.OpenPMD
import Verif.Props.FromArray

/-!
# Properties C36 and C69: reading openPMD files back
-/

namespace Lasy
open Spec Phys Complex

variable [Phys] {s : Shape}

omit [Phys] in
theorem Vec.ext {a b : Vec} (h : a.1 = b.1) (hv : ∀ i, a.2 i = b.2 (Fin.cast h i)) : a = b := by
  obtain ⟨n, f⟩ := a
  obtain ⟨m, g⟩ := b
  simp only at h
  subst h
  congr 1
  funext i
  exact hv i

omit [Phys] in
theorem swap02_dataXYT (f : Field s) : (dataXYT f .c128).swap02 = nd3 f := by
  have hget : ∀ idx, (dataXYT f .c128).swap02.get idx = (nd3 f).get idx := by
    intro idx
    simp only [NdArray.swap02, dataXYT, nd3, Arr.toNd]
    match idx with
    | [] => rfl
    | [_] => rfl
    | [_, _] => rfl
    | [i, j, k] =>
      simp only [List.reverse_cons, List.reverse_nil, List.nil_append, List.cons_append]
      by_cases h : i < s.n0 ∧ j < s.n1 ∧ k < s.nt
      · rw [dif_pos h, dif_pos ⟨h.2.2, h.2.1, h.1⟩]
      · rw [dif_neg h, dif_neg (fun h' => h ⟨h'.2.2, h'.2.1, h'.1⟩)]
    | a :: b :: c :: d :: rest =>
      have : ∀ l : List ℕ, l.length ≠ 3 → (match l with
          | [i, j, k] => if h : i < s.nt ∧ j < s.n1 ∧ k < s.n0 then f ⟨k, h.2.2⟩ ⟨j, h.2.1⟩ ⟨i, h.1⟩ else 0
          | _ => (0 : ℂ)) = 0 := by
        intro l hl
        split
        · simp at hl
        · rfl
      exact this _ (by simp)
  have : (dataXYT f .c128).swap02.get = (nd3 f).get := funext hget
  change NdArray.mk (dataXYT f .c128).swap02.shape (dataXYT f .c128).swap02.dtype
    (dataXYT f .c128).swap02.get = NdArray.mk (nd3 f).shape (nd3 f).dtype (nd3 f).get
  rw [this]
  rfl

omit [Phys] in
theorem Axis.Regular.coords {n : ℕ} {a : Axis n} (h : a.Regular) :
    Lasy.coords a.lo ((a.hi - a.lo) / ((n : ℝ) - 1)) n = ⟨n, a.pts⟩ := by
  have : (fun i : Fin n => a.lo + (a.hi - a.lo) / ((n : ℝ) - 1) * ((i : ℕ) : ℝ)) = a.pts := by
    funext i
    rw [← h.coord i, mul_comm]
  change (⟨n, fun i : Fin n => a.lo + (a.hi - a.lo) / ((n : ℝ) - 1) * ((i : ℕ) : ℝ)⟩ : Vec) = _
  rw [this]

omit [Phys] in
theorem Axis.Regular.ascending {n : ℕ} {b : Axis n} (hb : b.Regular) (hn : 2 ≤ n) (hlt : b.lo < b.hi) :
    Ascending b.pts := by
  intro i j hij
  rw [hb i, hb j]
  simp only [linspace]
  have hn' : (0 : ℝ) < (n : ℝ) - 1 := by
    have : (2 : ℝ) ≤ n := by exact_mod_cast hn
    linarith
  have hd : 0 < (b.hi - b.lo) / ((n : ℝ) - 1) := div_pos (by linarith) hn'
  have : ((i : ℕ) : ℝ) < (j : ℕ) := by exact_mod_cast hij
  nlinarith

/-- **C36** (Cartesian). What `write_to_file` stores for a laser on a regular grid, seen through
openpmd-viewer and `reorder_array`, is the laser's array, with the laser's axes. -/
theorem C36_reorder_xyt (g : Grid s) (hr : g.Regular) (lambda0 : ℝ) (pol : ℂ × ℂ) (vp : Bool) (f : Field s)
    {x y} (hgeo : g.geom = .xyt x y) :
    ∃ F md, viewXYT (mkMesh g lambda0 pol vp ⟨.c128, f⟩) = some (F, md) ∧
      reorderArray F md "xyt" = .ok (nd3 f,
        { x := some ⟨s.n0, x.pts⟩, y := some ⟨s.n1, y.pts⟩, t := some ⟨s.nt, g.t.pts⟩ }) := by
  have h1 := hr.1
  rw [hgeo] at h1
  refine ⟨dataXYT f .c128, { labels := ["t", "y", "x"]
                             t := some ⟨s.nt, g.t.pts⟩, y := some ⟨s.n1, y.pts⟩, x := some ⟨s.n0, x.pts⟩ }, ?_, ?_⟩
  · simp only [viewXYT, mkMesh, hgeo]
    simp only [List.reverse_cons, List.reverse_nil, List.nil_append, List.cons_append,
      dataXYT, Arr.toNd_shape, Shape.toList, h1.1.coords, h1.2.coords, hr.2.coords]
  · unfold reorderArray reorderXYT
    rw [if_pos rfl, if_neg (by simp)]
    simp only [or_true, if_true]
    rw [if_neg (by simp)]
    simp only [swap02_dataXYT]
    rfl

/-- **C36** (Cartesian, round trip). A laser on a regular grid with two or more points and ascending axes,
written to a file and read back with `FromOpenPMDProfile`, gives a profile of the same wavelength whose
values at the grid points are the laser's field. -/
theorem C36_roundtrip_xyt (a : WriteArgs) (l : Laser s) (f : Field s) (hf : l.Has f) (hr : l.grid.Regular)
    (disk : Disk) (hv : a.asVectorPotential = false) (ha : a.fault = .ok) {x y} (hgeo : l.grid.geom = .xyt x y)
    (h0 : 2 ≤ s.n0) (h1 : 2 ≤ s.n1) (h2 : 2 ≤ s.nt) (hx : x.lo < x.hi) (hy : y.lo < y.hi)
    (ht : l.grid.t.lo < l.grid.t.hi) :
    ∃ l' disk' m p, writeToFile a (l, disk) = (.ok (), (l', disk')) ∧
      disk' (filePath a.dir a.pre a.fmt l.outputIteration) = some m ∧
      fromOpenPMDEnvelope m none = .ok (l.profile.lambda0, p) ∧
      ∀ i j k, p.evaluate (x.pts i) (y.pts j) (l.grid.t.pts k) = f i j k := by
  obtain ⟨g', e, h', -⟩ := writeToFile_ok a l f hf disk hv ha
  have hreg := hr.1
  rw [hgeo] at hreg
  obtain ⟨F, md, e1, e2⟩ := C36_reorder_xyt l.grid hr l.profile.lambda0 l.profile.pol false f hgeo
  obtain ⟨p, hp, hn, -⟩ := C46_nodes_xyt x.pts y.pts l.grid.t.pts h0 h1 h2 (hreg.1.ascending h0 hx)
    (hreg.2.ascending h1 hy) (hr.2.ascending h2 ht) f
  refine ⟨_, _, _, p, e, Function.update_self .., ?_, hn⟩
  simp only [fromOpenPMDEnvelope, e1, e2, hp]
  have hw : (mkMesh l.grid l.profile.lambda0 l.profile.pol false ⟨.c128, f⟩).angularFrequency =
      2 * Real.pi * c / l.profile.lambda0 := by simp [mkMesh, hgeo]
  rw [hw]
  congr 2
  have hc : 2 * Real.pi * c ≠ 0 := mul_ne_zero (mul_ne_zero two_ne_zero Real.pi_ne_zero) c_pos.ne'
  rw [div_div_cancel₀ hc]

/-- **C36** (what is refused). Axis labels that are not one of the four supported lists are an `AssertionError`; with
supported labels, an axis which the metadata do not have is an `AttributeError`. -/
theorem C36_refused (array : NdArray) (md : FieldMeta) :
    (md.labels ∉ [["x", "y", "z"], ["z", "y", "x"], ["x", "y", "t"], ["t", "y", "x"]] →
      reorderArray array md "xyt" = .error .assertion) ∧
    (md.labels ∉ [["r", "z"], ["z", "r"], ["r", "t"], ["t", "r"]] → reorderArray array md "rt" = .error .assertion) ∧
    (md.labels ∈ [["x", "y", "t"], ["t", "y", "x"]] → (md.x = none ∨ md.y = none ∨ md.t = none) →
      reorderArray array md "xyt" = .error .attribute) ∧
    (md.labels ∈ [["r", "t"], ["t", "r"]] → (md.r = none ∨ md.t = none) →
      reorderArray array md "rt" = .error .attribute) := by
  refine ⟨?_, ?_, ?_, ?_⟩
  · intro h
    simp only [List.mem_cons, List.not_mem_nil, or_false] at h
    simp only [reorderArray, if_true, reorderXYT, h, not_false_eq_true]
  · intro h
    simp only [List.mem_cons, List.not_mem_nil, or_false] at h
    have : ¬ ("rt" = "xyt") := by decide
    simp only [reorderArray, this, if_false, reorderRT, h, not_false_eq_true, if_true]
  · intro h h'
    simp only [List.mem_cons, List.not_mem_nil, or_false] at h
    simp only [reorderArray, if_true, reorderXYT]
    rw [if_neg (by rw [not_not]; rcases h with h | h <;> simp [h]), if_neg (by rcases h with h | h <;> simp [h])]
    rcases ht : md.t with _ | t
    · rfl
    rcases hx : md.x with _ | x
    · rfl
    rcases hy : md.y with _ | y
    · rfl
    rw [ht, hx, hy] at h'
    simp at h'
  · intro h h'
    simp only [List.mem_cons, List.not_mem_nil, or_false] at h
    have : ¬ ("rt" = "xyt") := by decide
    simp only [reorderArray, this, if_false, reorderRT]
    rw [if_neg (by rw [not_not]; rcases h with h | h <;> simp [h]), if_neg (by rcases h with h | h <;> simp [h])]
    rcases ht : md.t with _ | t
    · rfl
    rcases hr : md.r with _ | r
    · rfl
    rw [ht, hr] at h'
    simp at h'

/-! ## data along `z` -/

theorem zToT_ok {n : ℕ} (z : Fin n → ℝ) (h : 0 < n) :
    zToT ⟨n, z⟩ = .ok ⟨n, fun k => (z k - z ⟨0, h⟩) / c⟩ := dif_pos h

/-- the time axis made of a `z` axis: it starts at `0`, ascends if `z` does, and is the time at which a sample passes the
last position -/
theorem time_of_z {nz : ℕ} (z : Fin nz → ℝ) (hz : 0 < nz) (t : Fin nz → ℝ)
    (ht : t = (fun k => (z k - z ⟨0, hz⟩) / c)) : t ⟨0, hz⟩ = 0 ∧
      (Ascending z → Ascending t) ∧
      (∀ z0 d, (∀ k : Fin nz, z k = z0 + d * k) → ∀ k, t k = (z (Fin.rev ⟨0, hz⟩) - z k.rev) / c) := by
  subst ht
  refine ⟨by simp, ?_, ?_⟩
  · intro h i j hij
    have := h i j hij
    exact div_lt_div_of_pos_right (by linarith) c_pos
  · intro z0 d h k
    simp only
    rw [h k, h ⟨0, hz⟩, h k.rev, h (Fin.rev ⟨0, hz⟩), Fin.val_rev, Fin.val_rev]
    have h1 : (((nz - ((k : ℕ) + 1) : ℕ)) : ℝ) = nz - ((k : ℕ) + 1) := by
      rw [Nat.cast_sub (by omega)]
      push_cast
      ring
    have h2 : (((nz - (0 + 1) : ℕ)) : ℝ) = nz - 1 := by
      rw [Nat.cast_sub (by omega)]
      simp
    simp only [h1, h2]
    push_cast
    ring

/-- **C36** (`z` data, Cartesian). An array with axes `z, y, x` or `x, y, z` comes back in the order
`x, y, t` with the longitudinal axis reversed: sample `k` in time is sample `nz - 1 - k` in `z`. The new axis
is `t_k = (z_k - z_0) / c`: it starts at `0` and ascends if `z` does; and for a uniform `z` axis a sample that
was at `z` is now at the time `(z_last - z) / c` at which it passes the position `z_last`. -/
theorem C36_z {nx ny nz : ℕ} (x : Fin nx → ℝ) (y : Fin ny → ℝ) (z : Fin nz → ℝ) (hz : 0 < nz)
    (f : Fin nx → Fin ny → Fin nz → ℂ) (a : NdArray) (labels : List String)
    (ha : (labels = ["x", "y", "z"] ∧ a.shape = [nx, ny, nz] ∧
        ∀ (i : Fin nx) (j : Fin ny) (k : Fin nz), a.get [i, j, k] = f i j k) ∨
      (labels = ["z", "y", "x"] ∧ a.shape = [nz, ny, nx] ∧
        ∀ (i : Fin nx) (j : Fin ny) (k : Fin nz), a.get [k, j, i] = f i j k)) :
    ∃ b t, reorderArray a { labels := labels, x := some ⟨nx, x⟩, y := some ⟨ny, y⟩, z := some ⟨nz, z⟩ } "xyt" =
        .ok (b, { x := some ⟨nx, x⟩, y := some ⟨ny, y⟩, t := some ⟨nz, t⟩ }) ∧ b.shape = [nx, ny, nz] ∧
      (∀ (i : Fin nx) (j : Fin ny) (k : Fin nz), b.get [i, j, k] = f i j k.rev) ∧ t ⟨0, hz⟩ = 0 ∧ (Ascending z → Ascending t) ∧
      (∀ z0 d, (∀ k : Fin nz, z k = z0 + d * k) → ∀ k, t k = (z (Fin.rev ⟨0, hz⟩) - z k.rev) / c) := by
  have hrev : ∀ k : Fin nz, nz - 1 - (k : ℕ) = (k.rev : ℕ) := fun k => by rw [Fin.val_rev]; omega
  have ht := time_of_z z hz
  rcases ha with ⟨rfl, hs, hg⟩ | ⟨rfl, hs, hg⟩
  · refine ⟨a.flip3, _, ?_, hs, ?_, ht _ rfl⟩
    · unfold reorderArray reorderXYT
      rw [if_pos rfl, if_neg (by simp), if_pos (by simp)]
      rw [if_neg (by simp)]
      change (zToT ⟨nz, z⟩ >>= fun t => _) = _
      rw [zToT_ok z hz]
      rfl
    · intro i j k
      simp only [NdArray.flip3, hs, hrev]
      exact hg i j k.rev
  · refine ⟨a.swap02.flip3, _, ?_, ?_, ?_, ht _ rfl⟩
    · unfold reorderArray reorderXYT
      rw [if_pos rfl, if_neg (by simp), if_pos (by simp)]
      rw [if_pos (by simp)]
      change (zToT ⟨nz, z⟩ >>= fun t => _) = _
      rw [zToT_ok z hz]
      rfl
    · simp [NdArray.flip3, NdArray.swap02, hs]
    · intro i j k
      simp only [NdArray.flip3, NdArray.swap02, hs, hrev, List.reverse_cons, List.reverse_nil, List.nil_append,
        List.cons_append]
      exact hg i j k.rev

/-- the premises of `C36_z` are met by every array -/
example (f : Fin 2 → Fin 1 → Fin 3 → ℂ) : ∃ b ax, reorderArray (nd3 f)
    { labels := ["x", "y", "z"], x := some ⟨2, fun i => (i : ℕ)⟩, y := some ⟨1, fun _ => 0⟩,
      z := some ⟨3, fun k => 5 + (k : ℕ)⟩ } "xyt" = .ok (b, ax) ∧ b.get [0, 0, 0] = f 0 0 2 := by
  obtain ⟨b, t, h, -, h2, -⟩ := C36_z (fun i : Fin 2 => (i : ℕ)) (fun _ : Fin 1 => 0) (fun k : Fin 3 => 5 + (k : ℕ))
    (by norm_num) f (nd3 f) _ (.inl ⟨rfl, rfl, fun i j k => nd3_get f i j k⟩)
  exact ⟨b, _, h, h2 0 0 0⟩

/-- **C36** (`z` data, cylindrical). An array over the full diameter (`2n` rows, below and above the axis) with axes `z, r`
or `r, z` comes back in the order `r, t`: the mean of the two halves, with the longitudinal axis reversed and the time axis
as in `C36_z`; the radial axis is the half above the axis. -/
theorem C36_z_rt {n nz : ℕ} (r : Fin (2 * n) → ℝ) (z : Fin nz → ℝ) (hz : 0 < nz) (f : Fin (2 * n) → Fin nz → ℂ) (a : NdArray)
    (labels : List String)
    (ha : (labels = ["r", "z"] ∧ a.shape = [2 * n, nz] ∧ ∀ (i : Fin (2 * n)) (k : Fin nz), a.get [i, k] = f i k) ∨
      (labels = ["z", "r"] ∧ a.shape = [nz, 2 * n] ∧ ∀ (i : Fin (2 * n)) (k : Fin nz), a.get [k, i] = f i k)) :
    ∃ b rr t, reorderArray a { labels := labels, r := some ⟨2 * n, r⟩, z := some ⟨nz, z⟩ } "rt" =
        .ok (b, { r := some rr, t := some ⟨nz, t⟩ }) ∧ b.shape = [n, nz] ∧
      (∀ (i : Fin n) (k : Fin nz), b.get [i, k] =
        (f ⟨n + i, by omega⟩ k.rev + f ⟨n - 1 - i, by omega⟩ k.rev) / 2) ∧
      rr = ⟨n, fun i => r ⟨n + i, by omega⟩⟩ ∧ t ⟨0, hz⟩ = 0 ∧ (Ascending z → Ascending t) ∧
      (∀ z0 d, (∀ k : Fin nz, z k = z0 + d * k) → ∀ k, t k = (z (Fin.rev ⟨0, hz⟩) - z k.rev) / c) := by
  have hrev : ∀ k : Fin nz, nz - 1 - (k : ℕ) = (k.rev : ℕ) := fun k => by rw [Fin.val_rev]; omega
  have hr : upperHalf ⟨2 * n, r⟩ = ⟨n, fun i => r ⟨n + i, by omega⟩⟩ := by
    have key : ∀ (m q : ℕ) (hm : m = n) (hq : q = n), (⟨m, fun i => r ⟨q + i, by omega⟩⟩ : Vec) =
        ⟨n, fun i => r ⟨n + i, by omega⟩⟩ := by
      rintro m q rfl rfl
      rfl
    exact key (2 * n - 2 * n / 2) (2 * n / 2) (by omega) (by omega)
  have ht := time_of_z z hz
  have hfold : ∀ B : NdArray, B.shape = [2 * n, nz] → ∃ b, B.foldHalves = .ok b ∧ b.shape = [n, nz] ∧
      ∀ i k : ℕ, b.get [i, k] = (B.get [n + i, k] + B.get [n - 1 - i, k]) / 2 := by
    intro B hB
    have hn3 : 2 * n / 2 = n := by omega
    refine ⟨_, by unfold NdArray.foldHalves; rw [hB]; exact if_pos (by omega), by simp only [hn3], fun i k => ?_⟩
    simp only [hn3]
    norm_num
    ring
  rcases ha with ⟨rfl, hs, hg⟩ | ⟨rfl, hs, hg⟩
  · obtain ⟨b, h1, h2, h3⟩ := hfold a.flip2 (by simp [NdArray.flip2, hs])
    refine ⟨b, _, _, ?_, h2, fun i k => ?_, hr, ht _ rfl⟩
    · unfold reorderArray reorderRT
      rw [if_neg (by decide), if_neg (by simp), if_pos (by simp)]
      rw [if_neg (by simp)]
      change (zToT ⟨nz, z⟩ >>= fun t => _) = _
      rw [zToT_ok z hz]
      simp only [attr, bind, Except.bind, h1]
    · rw [h3]
      simp only [NdArray.flip2, hs, hrev]
      rw [← hg ⟨n + i, by omega⟩ k.rev, ← hg ⟨n - 1 - i, by omega⟩ k.rev]
  · obtain ⟨b, h1, h2, h3⟩ := hfold a.swap01.flip2 (by simp [NdArray.flip2, NdArray.swap01, hs])
    refine ⟨b, _, _, ?_, h2, fun i k => ?_, hr, ht _ rfl⟩
    · unfold reorderArray reorderRT
      rw [if_neg (by decide), if_neg (by simp), if_pos (by simp)]
      rw [if_pos (by simp)]
      change (zToT ⟨nz, z⟩ >>= fun t => _) = _
      rw [zToT_ok z hz]
      simp only [attr, bind, Except.bind, h1]
    · rw [h3]
      simp only [NdArray.flip2, NdArray.swap01, hs, hrev, List.reverse_cons, List.reverse_nil, List.nil_append,
        List.cons_append]
      rw [← hg ⟨n + i, by omega⟩ k.rev, ← hg ⟨n - 1 - i, by omega⟩ k.rev]

/-- the premises of `C36_z_rt` are met by every array -/
example (f : Fin 4 → Fin 3 → ℂ) : ∃ b ax, reorderArray ⟨[4, 3], .c128, fun idx => match idx with
      | [i, k] => if h : i < 4 ∧ k < 3 then f ⟨i, h.1⟩ ⟨k, h.2⟩ else 0
      | _ => 0⟩
    { labels := ["r", "z"], r := some ⟨4, fun i => (i : ℕ) - 1.5⟩, z := some ⟨3, fun k => 5 + (k : ℕ)⟩ } "rt" =
      .ok (b, ax) ∧ b.get [0, 0] = (f 2 2 + f 1 2) / 2 := by
  obtain ⟨b, rr, t, h, -, h2, -⟩ := C36_z_rt (n := 2) (fun i : Fin 4 => (i : ℕ) - 1.5) (fun k : Fin 3 => 5 + (k : ℕ))
    (by norm_num) f ⟨[4, 3], .c128, fun idx => match idx with
      | [i, k] => if h : i < 4 ∧ k < 3 then f ⟨i, h.1⟩ ⟨k, h.2⟩ else 0
      | _ => 0⟩ ["r", "z"] (.inl ⟨rfl, rfl, fun i k => by simp⟩)
  exact ⟨b, _, h, h2 0 0⟩

/-! ## cylindrical geometry -/

omit [Phys] in
theorem sum_fin_pairs (p : ℕ) (F : ℕ → ℂ) :
    ∑ q : Fin (2 * p + 1), F q = F 0 + ∑ m ∈ Finset.Icc 1 p, (F (2 * m - 1) + F (2 * m)) := by
  rw [Fin.sum_univ_eq_sum_range F]
  induction p with
  | zero => simp
  | succ p ih =>
    rw [show 2 * (p + 1) + 1 = 2 * p + 1 + 1 + 1 by ring, Finset.sum_range_succ, Finset.sum_range_succ, ih,
      Finset.sum_Icc_succ_top (by omega)]
    rw [show 2 * (p + 1) - 1 = 2 * p + 1 by omega, show 2 * (p + 1) = 2 * p + 1 + 1 by ring]
    ring

omit [Phys] in
theorem upperHalf_eq {n : ℕ} (R : Vec) (x : Fin n → ℝ) (h1 : R.1 = 2 * n)
    (h2 : ∀ i : Fin n, R.2 ⟨n + i, by omega⟩ = x i) : upperHalf R = ⟨n, x⟩ := by
  refine Vec.ext (by simp only [upperHalf]; omega) fun i => ?_
  have hi : (i : ℕ) < n := by
    have := i.2
    simp only [upperHalf] at this
    omega
  refine Eq.trans ?_ (h2 ⟨i, hi⟩)
  exact congrArg R.2 (Fin.ext (show R.1 / 2 + (i : ℕ) = n + i by omega))

omit [Phys] in
/-- what openpmd-viewer shows above the axis is the field at `θ`, and below the axis the field at `θ + π` -/
theorem viewRT_planes (m : Mesh) {p nt nr : ℕ} (hs : m.data.shape = [2 * p + 1, nt, nr]) (θ : ℝ)
    {F md} (hv : viewRT m θ = some (F, md)) (k j : ℕ) (hj : j < nr) :
    F.get [k, nr + j] = m.atAngle θ k j ∧ F.get [k, nr - 1 - j] = m.atAngle (θ + Real.pi) k j := by
  unfold viewRT at hv
  split at hv
  · rename_i h1 h2 h3 h4
    rw [hs] at h4
    simp only [List.cons.injEq, and_true] at h4
    obtain ⟨rfl, rfl, rfl⟩ := h4
    injection hv with hv
    injection hv with h1 h2
    subst h1
    simp only
    rw [if_neg (by omega), if_pos (by omega), show nr + j - nr = j by omega,
      show nr - 1 - (nr - 1 - j) = j by omega]
    unfold Mesh.atAngle
    simp only [hs, List.headD_cons, show (2 * p + 1 - 1) / 2 = p by omega]
    constructor
    · rw [sum_fin_pairs p (fun q => ((if q = 0 then (1 : ℝ) else if q % 2 = 1 then
        Real.cos (((q + 1) / 2 : ℕ) * θ) else Real.sin (((q + 1) / 2 : ℕ) * θ) : ℝ) : ℂ) * m.data.get [q, k, j])]
      congr 1
      · simp
      · refine Finset.sum_congr rfl fun q hq => ?_
        rw [Finset.mem_Icc] at hq
        rw [if_neg (by omega), if_pos (by omega), if_neg (by omega), if_neg (by omega),
          show (2 * q - 1 + 1) / 2 = q by omega, show (2 * q + 1) / 2 = q by omega]
        ring
    · rw [sum_fin_pairs p (fun q => (-1) ^ ((q + 1) / 2) * ((if q = 0 then (1 : ℝ) else if q % 2 = 1 then
        Real.cos (((q + 1) / 2 : ℕ) * θ) else Real.sin (((q + 1) / 2 : ℕ) * θ) : ℝ) : ℂ) * m.data.get [q, k, j])]
      congr 1
      · simp
      · refine Finset.sum_congr rfl fun q hq => ?_
        rw [Finset.mem_Icc] at hq
        rw [if_neg (by omega), if_pos (by omega), if_neg (by omega), if_neg (by omega),
          show (2 * q - 1 + 1) / 2 = q by omega, show (2 * q + 1) / 2 = q by omega, mul_add,
          Real.cos_add_nat_mul_pi, Real.sin_add_nat_mul_pi]
        push_cast
        ring
  · cases hv

/-- **C69** (cylindrical). What `write_to_file` stores for an `rt` laser on a regular grid, seen through
openpmd-viewer at angle `θ` and `reorder_array`, has the laser's axes, and holds the mean of the laser's field
at `θ` and at the opposite angle `θ + π`. With one azimuthal mode this is the laser's array
(`C69_one_mode_partial`); with more modes it is not (`C69_refuted`). -/
theorem C69_mean_partial (g : Grid s) (hr : g.Regular) (lambda0 : ℝ) (pol : ℂ × ℂ) (vp : Bool) (f : Field s)
    {n hn r} (hgeo : g.geom = .rt n hn r) (θ : ℝ) :
    ∃ F md b, viewRT (mkMesh g lambda0 pol vp ⟨.c128, f⟩) θ = some (F, md) ∧
      reorderArray F md "rt" = .ok (b, { r := some ⟨s.n1, r.pts⟩, t := some ⟨s.nt, g.t.pts⟩ }) ∧
      b.shape = [s.n1, s.nt] ∧ ∀ (j : Fin s.n1) (k : Fin s.nt), b.get [j, k] =
        (fieldAtAngle (fun i j k => f (Fin.cast hn.2.symm i) j k) θ j k +
          fieldAtAngle (fun i j k => f (Fin.cast hn.2.symm i) j k) (θ + Real.pi) j k) / 2 := by
  have h1 := hr.1
  rw [hgeo] at h1
  have hr1 : r.Regular := h1
  set m := mkMesh g lambda0 pol vp ⟨.c128, f⟩ with hm
  have hn0 : s.n0 = 2 * (n - 1) + 1 := by have := hn.1; have := hn.2; omega
  have hshape : m.data.shape = [2 * (n - 1) + 1, s.nt, s.n1] := by
    simp [hm, mkMesh, hgeo, dataRT, Arr.toNd, Shape.toList, hn0]
  have hview : ∃ F md, viewRT m θ = some (F, md) ∧ F.shape = [s.nt, 2 * s.n1] ∧ md.labels = ["t", "r"] ∧
      md.t = some ⟨s.nt, g.t.pts⟩ ∧ ∃ R, md.r = some R ∧ upperHalf R = ⟨s.n1, r.pts⟩ := by
    have hdata : (dataRT n hn.2 f .c128).shape = [s.n0, s.nt, s.n1] := rfl
    rw [hm]
    unfold viewRT mkMesh
    simp only [hgeo, List.reverse_cons, List.reverse_nil, List.nil_append, List.cons_append, hdata]
    refine ⟨_, _, rfl, rfl, rfl, ?_, _, rfl, ?_⟩
    · simp only [hr.2.coords]
    · refine upperHalf_eq _ _ rfl fun i => ?_
      change (if h : s.n1 + (i : ℕ) < s.n1 then _ else
        r.lo + (r.hi - r.lo) / ((s.n1 : ℝ) - 1) * ((s.n1 + (i : ℕ) - s.n1 : ℕ) : ℝ)) = _
      rw [dif_neg (by omega), show s.n1 + (i : ℕ) - s.n1 = i by omega, mul_comm, hr1.coord]
  obtain ⟨F, md, e1, e2, e3, e4, R, e5, e6⟩ := hview
  have hfold : ∃ b, F.swap01.foldHalves = .ok b ∧ b.shape = [s.n1, s.nt] ∧ ∀ (j : Fin s.n1) (k : Fin s.nt),
      b.get [j, k] = 0.5 * (F.get [k, s.n1 + j] + F.get [k, s.n1 - 1 - j]) := by
    have : F.swap01.shape = [2 * s.n1, s.nt] := by simp [NdArray.swap01, e2]
    unfold NdArray.foldHalves
    simp only [this]
    rw [if_pos (by omega)]
    refine ⟨_, rfl, by simp, ?_⟩
    intro j k
    simp [NdArray.swap01]
  obtain ⟨b, hb, hbs, hbg⟩ := hfold
  refine ⟨F, md, b, e1, ?_, hbs, ?_⟩
  · unfold reorderArray reorderRT
    rw [if_neg (by simp), e3, if_neg (by simp), if_neg (by simp), if_pos (by simp), e4, e5]
    change (F.swap01.foldHalves >>= fun a => _) = _
    rw [hb, ← e6]
    rfl
  · intro j k
    obtain ⟨v1, v2⟩ := viewRT_planes m hshape θ e1 k j j.2
    rw [hbg, v1, v2, hm, C33_cos_sin g lambda0 pol vp f hgeo, C33_cos_sin g lambda0 pol vp f hgeo]
    norm_num
    ring

omit [Phys] in
/-- two arrays of two dimensions with the same entries give the same profile -/
theorem FromArray.init_congr2 {a b : ℕ} (A B : NdArray) (hA : A.shape = [a, b]) (hB : B.shape = [a, b])
    (h : ∀ (i : Fin a) (k : Fin b), A.get [i, k] = B.get [i, k]) (axes : AxesDict) (order : List String) :
    FromArray.init "rt" A axes order = FromArray.init "rt" B axes order := by
  rcases Nat.eq_zero_or_pos a with rfl | ha
  · unfold FromArray.init
    simp only [hA, hB, h, if_true]
  · have h1 : ∀ (i : Fin (a + 1)) (k : Fin b), A.get [(i : ℕ) - 1, k] = B.get [(i : ℕ) - 1, k] :=
      fun i k => h ⟨(i : ℕ) - 1, by omega⟩ k
    unfold FromArray.init
    simp only [hA, hB, h, h1]

/-- **C69** (cylindrical, one mode). With one azimuthal mode the array that comes back is the laser's, at any
angle. -/
theorem C69_one_mode_partial (g : Grid s) (hr : g.Regular) (lambda0 : ℝ) (pol : ℂ × ℂ) (vp : Bool) (f : Field s)
    {hn r} (hgeo : g.geom = .rt 1 hn r) (θ : ℝ) :
    ∃ F md b, viewRT (mkMesh g lambda0 pol vp ⟨.c128, f⟩) θ = some (F, md) ∧
      reorderArray F md "rt" = .ok (b, { r := some ⟨s.n1, r.pts⟩, t := some ⟨s.nt, g.t.pts⟩ }) ∧
      b.shape = [s.n1, s.nt] ∧ ∀ (i : Fin s.n0) (j : Fin s.n1) (k : Fin s.nt), b.get [j, k] = f i j k := by
  obtain ⟨F, md, b, h1, h2, h3, h4⟩ := C69_mean_partial g hr lambda0 pol vp f hgeo θ
  refine ⟨F, md, b, h1, h2, h3, fun i j k => ?_⟩
  rw [h4 j k]
  have h0 : (⟨0, by have := hn.2; omega⟩ : Fin s.n0) = i := Fin.ext (by have := i.2; have := hn.2; simp; omega)
  have e : ∀ θ, fieldAtAngle (n := 1) (fun i j k => f (Fin.cast hn.2.symm i) j k) θ j k = f i j k := by
    intro θ
    unfold fieldAtAngle
    rw [Fin.sum_univ_one]
    change f ⟨0, _⟩ j k * _ = _
    rw [h0]
    simp [modeAt]
  rw [e, e]
  ring

/-- **C69** (cylindrical, round trip). A laser with one azimuthal mode, written to a file and read back with
`FromOpenPMDProfile` at any angle, gives a profile of the same wavelength whose values at the grid points are
the laser's field. -/
theorem C69_roundtrip_one_mode_partial (a : WriteArgs) (l : Laser s) (f : Field s) (hf : l.Has f) (hr : l.grid.Regular)
    (disk : Disk) (hv : a.asVectorPotential = false) (ha : a.fault = .ok) {hn r}
    (hgeo : l.grid.geom = .rt 1 hn r) (h1 : 2 ≤ s.n1) (h2 : 2 ≤ s.nt) (hr0 : 0 ≤ r.lo) (hrr : r.lo < r.hi)
    (ht : l.grid.t.lo < l.grid.t.hi) (θ : ℝ) :
    ∃ l' disk' m p, writeToFile a (l, disk) = (.ok (), (l', disk')) ∧
      disk' (filePath a.dir a.pre a.fmt l.outputIteration) = some m ∧
      fromOpenPMDEnvelope m (some θ) = .ok (l.profile.lambda0, p) ∧
      ∀ i j k x y, Real.sqrt (x ^ 2 + y ^ 2) = r.pts j → p.evaluate x y (l.grid.t.pts k) = f i j k := by
  obtain ⟨g', e, h', -⟩ := writeToFile_ok a l f hf disk hv ha
  have hreg := hr.1
  rw [hgeo] at hreg
  have hr1 : r.Regular := hreg
  have h00 : 0 ≤ r.pts ⟨0, by omega⟩ := by rw [hr1]; simpa [linspace] using hr0
  have i0 : Fin s.n0 := ⟨0, by have := hn.2; omega⟩
  obtain ⟨F, md, b, e1, e2, e3, e4⟩ := C69_one_mode_partial l.grid hr l.profile.lambda0 l.profile.pol false f hgeo θ
  obtain ⟨p, hp, hq, -⟩ := C46_nodes_rt r.pts l.grid.t.pts h1 h2 (hr1.ascending h1 hrr) (hr.2.ascending h2 ht)
    h00 (f i0)
  refine ⟨_, _, _, p, e, Function.update_self .., ?_, ?_⟩
  · simp only [fromOpenPMDEnvelope, e1, e2]
    rw [FromArray.init_congr2 b (nd2 (f i0)) e3 rfl (fun j k => (e4 i0 j k).trans (nd2_get _ j k).symm), hp]
    have hw : (mkMesh l.grid l.profile.lambda0 l.profile.pol false ⟨.c128, f⟩).angularFrequency =
        2 * Real.pi * c / l.profile.lambda0 := by simp [mkMesh, hgeo]
    rw [hw]
    have hc : 2 * Real.pi * c ≠ 0 := mul_ne_zero (mul_ne_zero two_ne_zero Real.pi_ne_zero) c_pos.ne'
    rw [div_div_cancel₀ hc]
  · intro i j k x y hxy
    rw [hq j k x y hxy, ← e4 i0 j k, e4 i j k]

/-- **C69** fails for two azimuthal modes or more: the mean of opposite angles drops the odd modes. A laser
whose field is mode `1` alone comes back as zero. -/
theorem C69_refuted : ∃ (g : Grid ⟨3, 2, 2⟩) (f : Field ⟨3, 2, 2⟩), g.Regular ∧ (∀ j k, f 1 j k = 1) ∧
    ∀ θ, ∃ F md b ax, viewRT (mkMesh g 1 (1, 0) false ⟨.c128, f⟩) θ = some (F, md) ∧
      reorderArray F md "rt" = .ok (b, ax) ∧ ∀ j k : Fin 2, b.get [j, k] = 0 := by
  let ax : Axis 2 := ⟨0, 1, 1, fun k => (k : ℕ)⟩
  let f : Field ⟨3, 2, 2⟩ := fun i _ _ => if i = 1 then 1 else 0
  let g : Grid ⟨3, 2, 2⟩ := Grid.holding (.rt 2 ⟨by norm_num, rfl⟩ ax) ax f
  have hax : ax.Regular := by
    intro k
    simp [ax, linspace]
    norm_num
  refine ⟨g, f, ⟨hax, hax⟩, fun j k => by simp [f], fun θ => ?_⟩
  obtain ⟨F, md, b, h1, h2, -, h4⟩ := C69_mean_partial g ⟨hax, hax⟩ 1 (1, 0) false f (n := 2)
    (hn := ⟨by norm_num, rfl⟩) (r := ax) rfl θ
  refine ⟨F, md, b, _, h1, h2, fun j k => ?_⟩
  rw [h4]
  have e : exp (-(I * (Real.pi : ℂ))) = -1 := by
    rw [mul_comm, Complex.exp_neg, Complex.exp_pi_mul_I]; norm_num
  simp [fieldAtAngle, f, modeAt, mul_add, Complex.exp_add, e]

/-- the premises of both round trips are met, for any content -/
example (f : Field ⟨2, 3, 2⟩) (h : Field ⟨1, 3, 2⟩) (disk : Disk) :
    (∃ (l : Laser ⟨2, 3, 2⟩) (m : Mesh) (p : FromArray), l.Has f ∧
      (writeToFile {} (l, disk)).2.2 "diags/laser_00000.h5".toList = some m ∧
      fromOpenPMDEnvelope m none = .ok (2, p) ∧ p.evaluate 1 0.5 1 = f 1 1 1) ∧
    (∃ (l : Laser ⟨1, 3, 2⟩) (m : Mesh) (p : FromArray), l.Has h ∧
      (writeToFile {} (l, disk)).2.2 "diags/laser_00000.h5".toList = some m ∧
      fromOpenPMDEnvelope m (some 3) = .ok (2, p) ∧ p.evaluate 0.3 0.4 1 = h 0 1 1) := by
  let ax : (n : ℕ) → Axis n := fun n => ⟨0, 1, 1 / ((n : ℝ) - 1), linspace 0 1 n⟩
  have hax : ∀ n, (ax n).Regular := fun n k => rfl
  let mk : {s : Shape} → Geom s.n0 s.n1 → Field s → Laser s := fun g f =>
    { grid := Grid.holding g (ax _) f, profile := { constProfile none with lambda0 := 2 }
      outputIteration := 0, omega1d := fun _ => 0, prop := .absent }
  have hpath : filePath "diags".toList "laser".toList "h5".toList 0 = "diags/laser_00000.h5".toList := by
    simp [filePath, joinPath, pad5, Nat.digitChar]
  constructor
  · let l : Laser ⟨2, 3, 2⟩ := mk (.xyt (ax 2) (ax 3)) f
    obtain ⟨l', d', m, p, h1, h2, h3, h4⟩ := C36_roundtrip_xyt {} l f (Grid.holding_holds ..)
      ⟨⟨hax _, hax _⟩, hax _⟩ disk rfl rfl (x := ax 2) (y := ax 3) rfl (by norm_num) (by norm_num) (by norm_num)
      (by norm_num [ax]) (by norm_num [ax]) (by norm_num [l, mk, ax, Grid.holding])
    refine ⟨l, m, p, Grid.holding_holds .., ?_, h3, ?_⟩
    · rw [h1]
      rw [← hpath]
      exact h2
    · have := h4 1 1 1
      norm_num [l, mk, ax, Grid.holding, linspace] at this ⊢
      exact this
  · let l : Laser ⟨1, 3, 2⟩ := mk (.rt 1 ⟨by norm_num, rfl⟩ (ax 3)) h
    obtain ⟨l', d', m, p, h1, h2, h3, h4⟩ := C69_roundtrip_one_mode_partial {} l h (Grid.holding_holds ..)
      ⟨hax _, hax _⟩ disk rfl rfl (hn := ⟨by norm_num, rfl⟩) (r := ax 3) rfl (by norm_num) (by norm_num)
      (by norm_num [ax]) (by norm_num [ax]) (by norm_num [l, mk, ax, Grid.holding]) 3
    refine ⟨l, m, p, Grid.holding_holds .., ?_, h3, ?_⟩
    · rw [h1]
      rw [← hpath]
      exact h2
    · have h5 : Real.sqrt (0.3 ^ 2 + 0.4 ^ 2) = 0.5 := by
        rw [show (0.3 : ℝ) ^ 2 + 0.4 ^ 2 = 0.5 ^ 2 by norm_num]
        exact Real.sqrt_sq (by norm_num)
      have := h4 0 1 1 0.3 0.4 (by rw [h5]; norm_num [ax, linspace])
      norm_num [l, mk, ax, Grid.holding, linspace] at this ⊢
      exact this

end Lasy
