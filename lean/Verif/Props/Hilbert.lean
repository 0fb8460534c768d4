import Verif.Lemmas.Hilbert
import Verif.Props.Frequency

/-!
# Properties C58, C83, C84, C86: `field_to_envelope` and the central frequency of a full electric field
-/

namespace Lasy
open Spec Phys Complex

variable {s : Shape}

/-- the grid holds the real electric field `E` (not an envelope), as after
`Grid(.., is_envelope=False)` and `set_temporal_field(E)` -/
structure Grid.HoldsReal (g : Grid s) (E : RField s) : Prop where
  env : g.isEnvelope = false
  valid : g.temporalValid = true
  val : g.temporal = ⟨.f64, fun i j k => (E i j k : ℂ)⟩

/-- such a grid -/
def Grid.holdingReal (geom : Geom s.n0 s.n1) (t : Axis s.nt) (E : RField s) : Grid s where
  geom := geom
  t := t
  isEnvelope := false
  temporal := ⟨.f64, fun i j k => (E i j k : ℂ)⟩
  temporalValid := true
  spectral := fun _ _ _ => 0
  spectralValid := false

theorem Grid.holdingReal_holds (geom : Geom s.n0 s.n1) (t : Axis s.nt) (E : RField s) :
    (Grid.holdingReal geom t E).HoldsReal E := ⟨rfl, rfl, rfl⟩

/-- setting a real field makes a grid that holds it -/
theorem Grid.HoldsReal.set (g : Grid s) (hg : g.isEnvelope = false) (hd : g.temporal.dtype = .f64) (E : RField s) :
    ∃ g', Grid.setTemporalField (Arr.toNd (s := s) ⟨.f64, fun i j k => (E i j k : ℂ)⟩) g = (.ok (), g') ∧
      g'.HoldsReal E := by
  refine ⟨{ g with temporal := ⟨g.temporal.dtype, fun i j k => (E i j k : ℂ)⟩
                   temporalValid := true, spectralValid := false }, ?_, hg, rfl, ?_⟩
  · rw [setTemporalField_ok rfl (by rw [hg]; rfl), Arr.toNd_content]
  · simp [hd]

theorem Grid.HoldsReal.getT {g : Grid s} {E : RField s} (h : g.HoldsReal E) :
    Grid.getTemporalField g = (.ok ⟨.f64, fun i j k => (E i j k : ℂ)⟩, g) := by
  rw [getTemporalField_valid h.valid, h.val]

/-! ## the phase of a real field -/

theorem angle_real (x : ℝ) : angle (x : ℂ) = if 0 ≤ x then 0 else Real.pi := by
  unfold angle
  split
  · exact Complex.arg_ofReal_of_nonneg ‹_›
  · exact Complex.arg_ofReal_of_neg (by linarith)

theorem unwrapCorr_half {d : ℝ} (h : d = 0 ∨ d = Real.pi ∨ d = -Real.pi) : unwrapCorr d = 0 := by
  have hp := Real.pi_pos
  unfold unwrapCorr wrapDiff fmod
  rcases h with rfl | rfl | rfl
  · simp [hp]
  · have : (Real.pi + Real.pi) / (2 * Real.pi) = (1 : ℤ) := by field_simp; norm_num
    rw [this, Int.floor_intCast, if_neg (by rw [abs_of_pos hp]; exact lt_irrefl _), if_pos ⟨by push_cast; ring, hp⟩]
    ring
  · rw [if_neg (by rw [abs_neg, abs_of_pos hp]; exact lt_irrefl _), if_neg (by intro h; linarith [h.2])]
    simp

/-- the "unwrapped" phase of a real field is `0` where it is not negative, `π` elsewhere -/
theorem unwrap_real {n : ℕ} (x : Fin n → ℝ) :
    unwrap (fun k => angle (x k : ℂ)) = fun k => if 0 ≤ x k then 0 else Real.pi := by
  funext k
  unfold unwrap
  rw [Finset.sum_eq_zero, add_zero]
  · exact angle_real _
  intro j _
  dsimp only
  apply unwrapCorr_half
  rw [angle_real, angle_real]
  split_ifs <;> simp

theorem gradient_neg {n : ℕ} (f : Fin n → ℝ) (x : Fin n → ℝ) (v : Fin n → ℝ) (h : gradient f x = .ok v) :
    gradient (fun k => -f k) x = .ok fun k => -v k := by
  unfold gradient at h ⊢
  split at h
  · rename_i hn
    rw [dif_pos hn]
    injection h with h
    subst h
    congr 1
    funext k
    dsimp only
    split_ifs <;> simp only [smul_eq_mul] <;> ring
  · cases h

theorem sub_rev {n : ℕ} {x : Fin n → ℝ} {a : ℝ} (hx : ∀ k, x k.rev = a - x k) (p q p' q' : Fin n) (hp : p' = p.rev)
    (hq : q' = q.rev) : x p' - x q' = x q - x p := by
  rw [hp, hq, hx, hx]; ring

/-- the gradient of the time-reversed samples is minus the time-reversed gradient -/
theorem gradient_rev {n : ℕ} (f : Fin n → ℝ) (x : Fin n → ℝ) (a : ℝ) (hx : ∀ k, x k.rev = a - x k)
    (hf : ∀ k, f k.rev = f k) (v : Fin n → ℝ) (h : gradient f x = .ok v) (k : Fin n) : v k.rev = -v k := by
  unfold gradient at h
  split at h
  rotate_left
  · cases h
  rename_i hn
  injection h with h
  subst h
  obtain ⟨k, hk⟩ := k
  have e : (⟨k, hk⟩ : Fin n).rev = ⟨n - 1 - k, by omega⟩ := by ext; simp only [Fin.val_rev]; omega
  have fe : ∀ p q : Fin n, p = q.rev → f p = f q := by rintro p q rfl; exact hf q
  have xe := @sub_rev n x a hx
  rw [e]
  dsimp only
  rcases Nat.eq_zero_or_pos k with rfl | k0
  · rw [dif_neg (by omega), dif_pos (by omega), dif_pos rfl]
    rw [fe ⟨n - 3, by omega⟩ ⟨2, by omega⟩ (by ext; simp only [Fin.val_rev]),
      fe ⟨n - 2, by omega⟩ ⟨1, by omega⟩ (by ext; simp only [Fin.val_rev]),
      fe ⟨n - 1, by omega⟩ ⟨0, by omega⟩ (by ext; simp only [Fin.val_rev]),
      xe ⟨1, by omega⟩ ⟨2, by omega⟩ ⟨n - 2, by omega⟩ ⟨n - 3, by omega⟩ (by ext; simp only [Fin.val_rev])
        (by ext; simp only [Fin.val_rev]),
      xe ⟨0, by omega⟩ ⟨1, by omega⟩ ⟨n - 1, by omega⟩ ⟨n - 2, by omega⟩ (by ext; simp only [Fin.val_rev])
        (by ext; simp only [Fin.val_rev])]
    simp only [smul_eq_mul]
    ring
  · by_cases kn : k + 1 = n
    · rw [dif_pos (by omega), dif_neg (by omega), dif_pos kn]
      rw [fe ⟨n - 3, by omega⟩ ⟨2, by omega⟩ (by ext; simp only [Fin.val_rev]),
        fe ⟨n - 2, by omega⟩ ⟨1, by omega⟩ (by ext; simp only [Fin.val_rev]),
        fe ⟨n - 1, by omega⟩ ⟨0, by omega⟩ (by ext; simp only [Fin.val_rev]),
        xe ⟨1, by omega⟩ ⟨2, by omega⟩ ⟨n - 2, by omega⟩ ⟨n - 3, by omega⟩ (by ext; simp only [Fin.val_rev])
          (by ext; simp only [Fin.val_rev]),
        xe ⟨0, by omega⟩ ⟨1, by omega⟩ ⟨n - 1, by omega⟩ ⟨n - 2, by omega⟩ (by ext; simp only [Fin.val_rev])
          (by ext; simp only [Fin.val_rev])]
      simp only [smul_eq_mul]
      ring
    · rw [dif_neg (by omega), dif_neg (by omega), dif_neg (by omega), dif_neg kn]
      rw [fe ⟨n - 1 - k - 1, by omega⟩ ⟨k + 1, by omega⟩ (by ext; simp only [Fin.val_rev]; omega),
        fe ⟨n - 1 - k, by omega⟩ ⟨k, by omega⟩ (by ext; simp only [Fin.val_rev]; omega),
        fe ⟨n - 1 - k + 1, by omega⟩ ⟨k - 1, by omega⟩ (by ext; simp only [Fin.val_rev]; omega),
        xe ⟨k, by omega⟩ ⟨k + 1, by omega⟩ ⟨n - 1 - k, by omega⟩ ⟨n - 1 - k - 1, by omega⟩
          (by ext; simp only [Fin.val_rev]; omega) (by ext; simp only [Fin.val_rev]; omega),
        xe ⟨k - 1, by omega⟩ ⟨k, by omega⟩ ⟨n - 1 - k + 1, by omega⟩ ⟨n - 1 - k, by omega⟩
          (by ext; simp only [Fin.val_rev]; omega) (by ext; simp only [Fin.val_rev]; omega)]
      simp only [smul_eq_mul]
      ring

/-! ## `get_frequency` on a real field -/

/-- the amplitude by which the frequency of the cell `(i, j, k)` is weighted -/
theorem fullFieldWeights_neg (g : Grid s) (E : RField s) :
    fullFieldWeights g (fun i j k => ((-E i j k : ℝ) : ℂ)) = fullFieldWeights g (fun i j k => (E i j k : ℂ)) := by
  funext i j k
  unfold fullFieldWeights
  split <;> simp

/-- the local frequency computed from a real field -/
noncomputable def realRate (t : Fin s.nt → ℝ) (E : RField s) (w : RField s) : Prop :=
  ∀ i j, gradient (fun k => -(if 0 ≤ E i j k then 0 else Real.pi)) t = .ok (w i j)

theorem realRate_exists (hn : 3 ≤ s.nt) (t : Fin s.nt → ℝ) (E : RField s) : ∃ w, realRate t E w := by
  choose w hw using fun i j => gradient_ok hn (fun k => -(if 0 ≤ E i j k then 0 else Real.pi)) t
  exact ⟨w, hw⟩

theorem getFrequency_real {g : Grid s} {E : RField s} (h : g.HoldsReal E) {w : RField s} (hw : realRate g.t.pts E w)
    (hsum : ∑ p : Fin s.n0 × Fin s.n1 × Fin s.nt, fullFieldWeights g (fun i j k => (E i j k : ℂ)) p.1 p.2.1 p.2.2 ≠ 0)
    (w0 : Option ℝ) (lower upper : ℝ) :
    getFrequency true w0 lower upper g = (.ok (fun i j k => clipFrequency lower upper
      ((∑ p : Fin s.n0 × Fin s.n1 × Fin s.nt,
        w p.1 p.2.1 p.2.2 * fullFieldWeights g (fun i j k => (E i j k : ℂ)) p.1 p.2.1 p.2.2) /
        ∑ p : Fin s.n0 × Fin s.n1 × Fin s.nt, fullFieldWeights g (fun i j k => (E i j k : ℂ)) p.1 p.2.1 p.2.2)
        (w i j k),
      (∑ p : Fin s.n0 × Fin s.n1 × Fin s.nt,
        w p.1 p.2.1 p.2.2 * fullFieldWeights g (fun i j k => (E i j k : ℂ)) p.1 p.2.1 p.2.2) /
        ∑ p : Fin s.n0 × Fin s.n1 × Fin s.nt, fullFieldWeights g (fun i j k => (E i j k : ℂ)) p.1 p.2.1 p.2.2), g) := by
  unfold getFrequency
  rw [Py.bind_ok h.getT, Py.bind_ok (Py.get_apply g), if_neg (by rw [h.env]; simp), if_neg (by simp)]
  have hr : phaseRate (fun i j k => (E i j k : ℂ)) g.t.pts = .ok w := by
    apply phaseRate_of
    intro i j
    have := hw i j
    rw [← this]
    congr 1
    funext k
    rw [unwrap_real]
  have ha : average3 w (fullFieldWeights g (fun i j k => (E i j k : ℂ))) = .ok _ := average_ok hsum
  simp only [hr, ha, Py.pure_apply]

/-- The central frequency that `get_frequency(grid, is_hilbert=True)` returns for the real field `E` on the grid
`geom`, `t` is `w`. -/
def CentralFrequency (geom : Geom s.n0 s.n1) (t : Axis s.nt) (E : RField s) (w : ℝ) : Prop :=
  ∃ omega, getFrequency true none 0.2 5.0 (Grid.holdingReal geom t E) = (.ok (omega, w), Grid.holdingReal geom t E)

theorem CentralFrequency.unique {geom : Geom s.n0 s.n1} {t : Axis s.nt} {E : RField s} {w w' : ℝ}
    (h : CentralFrequency geom t E w) (h' : CentralFrequency geom t E w') : w = w' := by
  obtain ⟨o, e⟩ := h
  obtain ⟨o', e'⟩ := h'
  rw [e] at e'
  simp only [Prod.mk.injEq, Except.ok.injEq] at e'
  exact e'.1.2

theorem centralFrequency_of {geom : Geom s.n0 s.n1} {t : Axis s.nt} {E : RField s} {w : RField s}
    (hr : realRate t.pts E w)
    (hsum : ∑ p : Fin s.n0 × Fin s.n1 × Fin s.nt,
      fullFieldWeights (Grid.holdingReal geom t E) (fun i j k => (E i j k : ℂ)) p.1 p.2.1 p.2.2 ≠ 0) {v : ℝ}
    (hv : v = (∑ p : Fin s.n0 × Fin s.n1 × Fin s.nt, w p.1 p.2.1 p.2.2 *
        fullFieldWeights (Grid.holdingReal geom t E) (fun i j k => (E i j k : ℂ)) p.1 p.2.1 p.2.2) /
      ∑ p : Fin s.n0 × Fin s.n1 × Fin s.nt,
        fullFieldWeights (Grid.holdingReal geom t E) (fun i j k => (E i j k : ℂ)) p.1 p.2.1 p.2.2) :
    CentralFrequency geom t E v := by
  subst hv
  exact ⟨_, getFrequency_real (Grid.holdingReal_holds geom t E) (w := w) hr hsum none 0.2 5.0⟩

/-! ## C58 -/

/-- **C58 is false**: whatever the (nowhere zero) real field, the central frequencies found for `E` and `-E` are
*opposite* numbers, because the phase of the real field itself is used instead of that of its Hilbert transform. -/
theorem C58_opposite_refuted (geom : Geom s.n0 s.n1) (t : Axis s.nt) (E : RField s) (hE : ∀ i j k, E i j k ≠ 0)
    (ht : Increasing t.pts) (hn : 3 ≤ s.nt)
    (hw : ∑ p : Fin s.n0 × Fin s.n1 × Fin s.nt,
      fullFieldWeights (Grid.holdingReal geom t E) (fun i j k => (E i j k : ℂ)) p.1 p.2.1 p.2.2 ≠ 0) :
    ∃ w, CentralFrequency geom t E w ∧ CentralFrequency geom t (fun i j k => -E i j k) (-w) := by
  obtain ⟨w, hr⟩ := realRate_exists hn t.pts E
  have hr' : realRate t.pts (fun i j k => -E i j k) (fun i j k => -w i j k) := by
    intro i j
    have h1 := gradient_neg _ _ _ (hr i j)
    have h2 := gradient_add_const t.pts ht (fun k => - -(if 0 ≤ E i j k then 0 else Real.pi)) (-Real.pi)
    rw [h1] at h2
    rw [← h2]
    congr 1
    funext k
    have := hE i j k
    rcases lt_or_gt_of_ne this with h | h
    · rw [if_pos (by linarith), if_neg (by linarith)]; ring
    · rw [if_neg (by linarith), if_pos (by linarith)]; ring
  have hw' : ∑ p : Fin s.n0 × Fin s.n1 × Fin s.nt, fullFieldWeights (Grid.holdingReal geom t fun i j k => -E i j k)
      (fun i j k => ((-E i j k : ℝ) : ℂ)) p.1 p.2.1 p.2.2 ≠ 0 := by
    rw [fullFieldWeights_neg]; exact hw
  refine ⟨_, centralFrequency_of hr hw rfl, centralFrequency_of hr' hw' ?_⟩
  rw [fullFieldWeights_neg, ← neg_div, ← Finset.sum_neg_distrib]
  simp only [neg_mul]
  rfl

/-- the central frequency of a uniform real field `(a, b, c)` in time on the time axis `0, 1, 2` -/
theorem centralFrequency_three (a b d : ℝ) (hs : |a| + |b| + |d| ≠ 0) (p : ℝ → ℝ)
    (hp : ∀ x, p x = if 0 ≤ x then 0 else Real.pi) :
    CentralFrequency (s := ⟨2, 2, 3⟩) (.xyt axis01 axis01) axis012 (fun _ _ => ![a, b, d])
      (((3 / 2 * p a - 2 * p b + 1 / 2 * p d) * |a| + (1 / 2 * p a - 1 / 2 * p d) * |b| +
        (-(1 / 2) * p a + 2 * p b - 3 / 2 * p d) * |d|) / (|a| + |b| + |d|)) := by
  have hr : realRate (s := ⟨2, 2, 3⟩) axis012.pts (fun _ _ => ![a, b, d])
      (fun _ _ => ![3 / 2 * p a - 2 * p b + 1 / 2 * p d, 1 / 2 * p a - 1 / 2 * p d,
        -(1 / 2) * p a + 2 * p b - 3 / 2 * p d]) := by
    intro i j
    rw [gradient_three _ axis012.pts (fun k => rfl)]
    congr 1
    funext k
    simp only [← hp]
    fin_cases k <;> simp <;> ring
  refine centralFrequency_of hr ?_ ?_
  · simp only [fullFieldWeights, Grid.holdingReal, Fintype.sum_prod_type, Fin.sum_univ_succ]
    simp
    intro h
    apply hs
    linarith
  · simp only [fullFieldWeights, Grid.holdingReal, Fintype.sum_prod_type, Fin.sum_univ_succ]
    simp
    rw [div_eq_div_iff hs (by intro h; apply hs; linarith)]
    ring

/-- **C58 is false**, concretely: the field `(1, 1, -1)` at the times `0, 1, 2` has a negative central frequency,
`(-1, -1, 1)` a positive one. -/
theorem C58_refuted : ∃ (E : RField ⟨2, 2, 3⟩) (w w' : ℝ),
    CentralFrequency (.xyt axis01 axis01) axis012 E w ∧
    CentralFrequency (.xyt axis01 axis01) axis012 (fun i j k => -E i j k) w' ∧ w < 0 ∧ 0 < w' := by
  have h1 := centralFrequency_three 1 1 (-1) (by norm_num) _ (fun x => rfl)
  have h2 := centralFrequency_three (-1) (-1) 1 (by norm_num) _ (fun x => rfl)
  have he : (fun (i : Fin 2) (j : Fin 2) (k : Fin 3) => -(![1, 1, -1] : Fin 3 → ℝ) k) = fun _ _ => ![-1, -1, 1] := by
    funext i j k
    fin_cases k <;> simp
  have := Real.pi_pos
  rw [← he] at h2
  refine ⟨fun _ _ => ![1, 1, -1], _, _, h1, h2, ?_, ?_⟩
  · norm_num
    linarith
  · norm_num
    linarith

/-! ## C86 -/

/-- **C86 is false**: for *every* pulse `A(t) cos(ω t)` that is symmetric in time (whatever its shape, its carrier
frequency `ω` and its transverse profile), sampled on an axis symmetric about zero, the central frequency found is
`0`. -/
theorem C86_refuted (geom : Geom s.n0 s.n1) (t : Axis s.nt) (ht : ∀ k, t.pts k.rev = -t.pts k) (hn : 3 ≤ s.nt)
    (A : Fin s.n0 → Fin s.n1 → ℝ → ℝ) (hA : ∀ i j τ, A i j (-τ) = A i j τ) (ω : ℝ)
    (hw : ∑ p : Fin s.n0 × Fin s.n1 × Fin s.nt, fullFieldWeights (Grid.holdingReal geom t
      fun i j k => A i j (t.pts k) * Real.cos (ω * t.pts k))
      (fun i j k => ((A i j (t.pts k) * Real.cos (ω * t.pts k) : ℝ) : ℂ)) p.1 p.2.1 p.2.2 ≠ 0) :
    CentralFrequency geom t (fun i j k => A i j (t.pts k) * Real.cos (ω * t.pts k)) 0 := by
  let E : RField s := fun i j k => A i j (t.pts k) * Real.cos (ω * t.pts k)
  have hE : ∀ i j k, E i j k.rev = E i j k := by
    intro i j k
    simp only [E, ht, hA, mul_neg, Real.cos_neg]
  obtain ⟨w, hr⟩ := realRate_exists hn t.pts E
  have hwr : ∀ i j k, w i j k.rev = -w i j k := by
    intro i j k
    exact gradient_rev _ t.pts 0 (by intro k; rw [ht]; ring) (by intro k; simp only [hE]) _ (hr i j) k
  refine centralFrequency_of (E := E) hr hw ?_
  symm
  rw [div_eq_zero_iff]
  left
  have key : ∀ i j, ∑ k : Fin s.nt, w i j k *
      fullFieldWeights (Grid.holdingReal geom t E) (fun i j k => (E i j k : ℂ)) i j k = 0 := by
    intro i j
    have h1 : ∑ k : Fin s.nt, w i j k *
        fullFieldWeights (Grid.holdingReal geom t E) (fun i j k => (E i j k : ℂ)) i j k =
        ∑ k : Fin s.nt, w i j k.rev *
        fullFieldWeights (Grid.holdingReal geom t E) (fun i j k => (E i j k : ℂ)) i j k.rev :=
      (Equiv.sum_comp Fin.revPerm _).symm
    have h2 : ∀ k, fullFieldWeights (Grid.holdingReal geom t E) (fun i j k => (E i j k : ℂ)) i j k.rev =
        fullFieldWeights (Grid.holdingReal geom t E) (fun i j k => (E i j k : ℂ)) i j k := by
      intro k
      simp only [fullFieldWeights, hE]
    simp only [hwr, h2, neg_mul, Finset.sum_neg_distrib] at h1
    linarith
  simp only [Fintype.sum_prod_type, key, Finset.sum_const_zero]

/-- the hypotheses of `C86_refuted` are met: three samples of `cos(π t)` -/
example : ∃ (t : Axis 3), (∀ k, t.pts k.rev = -t.pts k) ∧ Increasing t.pts ∧
    CentralFrequency (s := ⟨2, 2, 3⟩) (.xyt axis01 axis01) t (fun _ _ k => 1 * Real.cos (Real.pi * t.pts k)) 0 := by
  let t : Axis 3 := { lo := -1, hi := 1, dx := 1, pts := fun k => (k : ℕ) - 1 }
  have ht : ∀ k, t.pts k.rev = -t.pts k := by intro k; fin_cases k <;> simp [t] <;> norm_num
  refine ⟨t, ht, by intro k hk; simp [t], ?_⟩
  refine C86_refuted (s := ⟨2, 2, 3⟩) (.xyt axis01 axis01) t ht (by simp) (fun _ _ _ => 1) (by simp) Real.pi ?_
  simp only [fullFieldWeights, Grid.holdingReal, Fintype.sum_prod_type, Fin.sum_univ_succ]
  simp [t]
  norm_num

/-! ## C87 -/

/-- **C87 is false**: with the default `is_hilbert=False`, `get_frequency` never works on a full electric field: whatever
the state of a grid that holds one and whatever the other arguments, the answer is a `TypeError`. -/
theorem C87_refuted {g : Grid s} {E : RField s} (h : g.HoldsReal E) (w0 : Option ℝ) (lower upper : ℝ) :
    getFrequency false w0 lower upper g = (.error .type, g) := by
  unfold getFrequency
  rw [Py.bind_ok h.getT, Py.bind_ok (Py.get_apply g), if_neg (by rw [h.env]; simp), if_pos rfl]
  rfl

/-! ## C83, C84 -/

/-- `field_to_envelope` on a real field -/
theorem fieldToEnvelope_real {g : Grid s} {E : RField s} (h : g.HoldsReal E) {o : RField s} {w : ℝ}
    (hf : getFrequency true none 0.2 5.0 g = (.ok (o, w), g)) :
    ∃ g', fieldToEnvelope g = (.ok w, g') ∧ g'.Holds (some fun i j k => hilbertTransform (E i j) k *
      exp (I * w * g.t.pts k)) ∧ g'.geom = g.geom ∧ g'.t = g.t := by
  let F : Field s := fun i j k => hilbertTransform (E i j) k * exp (I * w * g.t.pts k)
  refine ⟨{ g with isEnvelope := true, temporal := ⟨.c128, F⟩, temporalValid := true, spectralValid := false },
    ?_, ?_, rfl, rfl⟩
  · unfold fieldToEnvelope
    rw [Py.bind_ok (Py.get_apply _), Py.bind_ok (Py.require_pos h.env _), Py.bind_ok h.getT, if_neg (by simp),
      Py.bind_ok hf]
    dsimp only
    rw [Py.bind_ok (Py.get_apply _)]
    simp only [ofReal_re]
    have e1 : Grid.setIsEnvelope true g = (.ok (), { g with temporal := Grid.astype .c128 g.temporal, isEnvelope := true }) :=
      rfl
    rw [Py.bind_ok e1, Py.bind_ok (setTemporalField_ok rfl rfl)]
    simp [Grid.astype, F]
  · exact ⟨rfl, rfl, by simp, by rintro f' hf'; injection hf' with hf'; subst hf'; simp [F]⟩

theorem exp_cancel (z : ℂ) (w t : ℝ) : z * exp (I * w * t) * exp (-I * w * t) = z := by
  rw [mul_assoc, ← Complex.exp_add, show I * (w : ℂ) * t + -I * w * t = 0 by ring, Complex.exp_zero, mul_one]

/-- **C83.** For a real field with at least three samples in time and some (weighted) amplitude, `field_to_envelope`
succeeds; the grid then holds an envelope, on the same axes, that represents exactly the original field with the
returned carrier frequency `w`: `Re(envelope * exp(-i w t)) = E` at every sample. -/
theorem C83_represents {g : Grid s} {E : RField s} (h : g.HoldsReal E) (hn : 3 ≤ s.nt)
    (hw : ∑ p : Fin s.n0 × Fin s.n1 × Fin s.nt,
      fullFieldWeights g (fun i j k => (E i j k : ℂ)) p.1 p.2.1 p.2.2 ≠ 0) :
    ∃ (w : ℝ) (g' : Grid s) (F : Field s), fieldToEnvelope g = (.ok w, g') ∧ g'.Holds (some F) ∧
      g'.geom = g.geom ∧ g'.t = g.t ∧ ∀ i j k, (F i j k * exp (-I * w * g.t.pts k)).re = E i j k := by
  obtain ⟨r, hr⟩ := realRate_exists hn g.t.pts E
  obtain ⟨g', e, h1, h2, h3⟩ := fieldToEnvelope_real h (getFrequency_real h hr hw none 0.2 5.0)
  refine ⟨_, g', _, e, h1, h2, h3, fun i j k => ?_⟩
  rw [exp_cancel, hilbertTransform_re]

/-- **C84.** If the field in each cell is the real part of a signal `z` all of whose frequencies lie strictly between
zero and the Nyquist frequency (in the lasy convention `exp(-i ω t)`), then `field_to_envelope` recovers `z` exactly:
`envelope * exp(-i w t) = z`; in particular the modulus of the envelope is exact, whatever the carrier frequency `w`
found. -/
theorem C84_exact {g : Grid s} {c : Field s} (h : g.HoldsReal fun i j k => (fft (c i j) k).re) (hn : 3 ≤ s.nt)
    (hc : ∀ i j m, c i j m ≠ 0 → 0 < (m : ℕ) ∧ 2 * (m : ℕ) < s.nt)
    (hw : ∑ p : Fin s.n0 × Fin s.n1 × Fin s.nt,
      fullFieldWeights g (fun i j k => ((fft (c i j) k).re : ℂ)) p.1 p.2.1 p.2.2 ≠ 0) :
    ∃ (w : ℝ) (g' : Grid s) (F : Field s), fieldToEnvelope g = (.ok w, g') ∧ g'.Holds (some F) ∧
      (∀ i j k, F i j k * exp (-I * w * g.t.pts k) = fft (c i j) k) ∧ ∀ i j k, ‖F i j k‖ = ‖fft (c i j) k‖ := by
  obtain ⟨r, hr⟩ := realRate_exists hn g.t.pts fun i j k => (fft (c i j) k).re
  obtain ⟨g', e, h1, h2, h3⟩ := fieldToEnvelope_real h (getFrequency_real h hr hw none 0.2 5.0)
  have hh : ∀ i j, hilbertTransform (fun k => (fft (c i j) k).re) = fft (c i j) := fun i j =>
    hilbertTransform_analytic (c i j) (hc i j)
  simp only [hh] at h1
  refine ⟨_, g', _, e, h1, fun i j k => exp_cancel _ _ _, fun i j k => ?_⟩
  rw [norm_mul, show ∀ w t : ℝ, I * (w : ℂ) * (t : ℂ) = ((w * t : ℝ) : ℂ) * I by intros; push_cast; ring,
    Complex.norm_exp_ofReal_mul_I, mul_one]

/-- the hypotheses of `C83_represents` and `C84_exact` are met: `cos(2π k/5)` at five samples -/
example : ∃ (g : Grid ⟨2, 2, 5⟩) (c : Field ⟨2, 2, 5⟩) (w : ℝ) (g' : Grid ⟨2, 2, 5⟩),
    g.HoldsReal (fun i j k => (fft (c i j) k).re) ∧ (∀ i j m, c i j m ≠ 0 → 0 < (m : ℕ) ∧ 2 * (m : ℕ) < 5) ∧
    (∀ i j k, (fft (c i j) k).re = Real.cos (2 * Real.pi * (k : ℕ) / 5)) ∧ fieldToEnvelope g = (.ok w, g') := by
  let c : Field ⟨2, 2, 5⟩ := fun _ _ m => if (m : ℕ) = 1 then 1 else 0
  let t : Axis 5 := { lo := 0, hi := 4, dx := 1, pts := fun k => (k : ℕ) }
  have hc : ∀ i j m, c i j m ≠ 0 → 0 < (m : ℕ) ∧ 2 * (m : ℕ) < 5 := by
    intro i j m h
    simp only [c] at h
    split at h
    · omega
    · exact absurd rfl h
  have hv : ∀ i j k, (fft (c i j) k).re = Real.cos (2 * Real.pi * (k : ℕ) / 5) := by
    intro i j k
    have : fft (c i j) k = exp ((-(2 * Real.pi * (k : ℕ) / 5) : ℝ) * I) := by
      simp only [fft, c, ite_mul, one_mul, zero_mul]
      rw [Finset.sum_eq_single (⟨1, by simp⟩ : Fin 5)]
      · rw [if_pos rfl]
        congr 1
        push_cast
        ring
      · intro b _ hb
        rw [if_neg]
        intro h
        exact hb (Fin.ext h)
      · simp
    rw [this, Complex.exp_ofReal_mul_I_re, Real.cos_neg]
  have hg := Grid.holdingReal_holds (s := ⟨2, 2, 5⟩) (.xyt axis01 axis01) t (fun i j k => (fft (c i j) k).re)
  obtain ⟨w, g', F, e, -⟩ := C84_exact hg (by simp) hc (by
    refine (Finset.sum_pos' (fun p _ => ?_) ⟨(0, 0, 0), Finset.mem_univ _, ?_⟩).ne'
    · simp only [fullFieldWeights, Grid.holdingReal]
      exact norm_nonneg _
    · simp only [fullFieldWeights, Grid.holdingReal, hv]
      simp)
  exact ⟨_, c, w, g', hg, hc, hv, e⟩

end Lasy
