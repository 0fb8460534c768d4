import Verif.Model.LongFromData
import Verif.Lemmas.NpInterp
import Verif.Lemmas.Signal
import Verif.Lemmas.Fourier
import Verif.Props.FromData

/-!
# Longitudinal profiles from data (C49, C79, C80, C81, C82)
-/

namespace Lasy
open Phys Complex

/-! ## specification -/

/-- sample `k` is the (first) one nearest to `x` -/
def NearestSample {n : ℕ} (axis : Fin n → ℝ) (x : ℝ) (k : Fin n) : Prop :=
  (∀ j, |axis k - x| ≤ |axis j - x|) ∧ ∀ j, j < k → |axis k - x| < |axis j - x|

/-- the field of a sample with intensity `i` and phase `p` -/
noncomputable def sampleField (i p : ℝ) : ℂ := Real.sqrt i * exp (-I * p)

/-! ## C49 -/

theorem cropLong_eq {n : ℕ} (h : 0 < n) (time inten ph : Fin n → ℝ) (cwl lo hi : ℝ) :
    ∃ a b : Fin n, NearestSample time lo a ∧ NearestSample time hi b ∧
      cropLong time inten ph cwl lo hi =
        .ok ⟨b - a, slice1 time a b b.2.le, slice1 inten a b b.2.le, slice1 ph a b b.2.le, cwl⟩ := by
  obtain ⟨a, ea, ha⟩ := argmin_ok h fun k => |time k - lo|
  obtain ⟨b, eb, hb⟩ := argmin_ok h fun k => |time k - hi|
  refine ⟨a, b, ha, hb, ?_⟩
  unfold cropLong
  rw [ea, eb]
  rfl

theorem NearestSample.unique {n : ℕ} {axis : Fin n → ℝ} {x : ℝ} {k l : Fin n} (h1 : NearestSample axis x k)
    (h2 : NearestSample axis x l) : k = l :=
  first_min_unique (x := fun k => |axis k - x|) h1 h2

theorem cropLong_of {n : ℕ} (time inten ph : Fin n → ℝ) (cwl : ℝ) {lo hi : ℝ} {a b : Fin n} (ha : NearestSample time lo a)
    (hb : NearestSample time hi b) : cropLong time inten ph cwl lo hi =
        .ok ⟨b - a, slice1 time a b b.2.le, slice1 inten a b b.2.le, slice1 ph a b b.2.le, cwl⟩ := by
  obtain ⟨a', b', ha', hb', e⟩ := cropLong_eq (by have := a.2; omega) time inten ph cwl lo hi
  rw [ha.unique ha', hb.unique hb']
  exact e

theorem evaluate_of {p : LongProf} {t i ph : ℝ} (h1 : npInterp p.time p.intensity t = .ok i)
    (h2 : npInterp p.time p.phase t = .ok ph) : p.evaluate t = .ok (sampleField i ph) := by
  unfold LongProf.evaluate
  rw [h1, h2]
  rfl

/-- a kept sample of a cut profile -/
theorem crop_sample {n : ℕ} {time : Fin n → ℝ} (inten ph : Fin n → ℝ) (cwl : ℝ) (hasc : Ascending time) {a b k : Fin n}
    (hak : a ≤ k) (hkb : k < b) :
    (⟨b - a, slice1 time a b b.2.le, slice1 inten a b b.2.le, slice1 ph a b b.2.le, cwl⟩ : LongProf).evaluate (time k) =
      .ok (sampleField (inten k) (ph k)) := by
  rw [Fin.le_def] at hak
  rw [Fin.lt_def] at hkb
  have hs : Ascending (slice1 time a b b.2.le) := ascending_slice1 hasc a b b.2.le
  have e : ∀ f : Fin n → ℝ, slice1 f a b b.2.le ⟨k - a, by omega⟩ = f k := by
    intro f
    unfold slice1
    congr 1
    exact Fin.ext (by simp; omega)
  apply evaluate_of
  · have := npInterp_node hs (slice1 inten a b b.2.le) ⟨k - a, by omega⟩
    rwa [e, e] at this
  · have := npInterp_node hs (slice1 ph a b b.2.le) ⟨k - a, by omega⟩
    rwa [e, e] at this

/-- **C49.** Temporal data on an increasing time axis: construction succeeds, and with `a`, `b` the samples nearest to
`lo` and `hi`, evaluating at sample `k`, `a ≤ k < b`, returns `sqrt(I_k) exp(-i φ_k)`; between two kept samples
intensity and phase are linear; before `a` and after the last kept sample the field is constant. -/
theorem C49_samples {n : ℕ} (hn : 0 < n) {axis : Fin n → ℝ} (hasc : Ascending axis) (inten : Fin n → ℝ)
    (phase : Option (Fin n → ℝ)) (wavelength lo hi : ℝ) :
    ∃ (a b : Fin n) (p : LongProf), NearestSample axis lo a ∧ NearestSample axis hi b ∧
      longTemporal axis inten phase wavelength lo hi = .ok p ∧ p.lambda0 = wavelength ∧
      (∀ k, a ≤ k → k < b → p.evaluate (axis k) = .ok (sampleField (inten k) (phase.getD (fun _ => 0) k))) ∧
      (∀ (k : ℕ) (h : k + 1 < n) (s : ℝ), (a : ℕ) ≤ k → k + 1 < (b : ℕ) → 0 ≤ s → s ≤ 1 →
        p.evaluate ((1 - s) * axis ⟨k, by omega⟩ + s * axis ⟨k + 1, h⟩) =
          .ok (sampleField ((1 - s) * inten ⟨k, by omega⟩ + s * inten ⟨k + 1, h⟩)
            ((1 - s) * phase.getD (fun _ => 0) ⟨k, by omega⟩ + s * phase.getD (fun _ => 0) ⟨k + 1, h⟩))) ∧
      (∀ t, a < b → t ≤ axis a → p.evaluate t = .ok (sampleField (inten a) (phase.getD (fun _ => 0) a))) ∧
      (∀ l : Fin n, (l : ℕ) + 1 = b → a ≤ l → ∀ t, axis l ≤ t →
        p.evaluate t = .ok (sampleField (inten l) (phase.getD (fun _ => 0) l))) := by
  obtain ⟨a, b, ha, hb, e⟩ := cropLong_eq hn axis inten (phase.getD fun _ => 0) wavelength lo hi
  have hs : Ascending (slice1 axis a b b.2.le) := ascending_slice1 hasc a b b.2.le
  refine ⟨a, b, _, ha, hb, e, rfl, ?_, ?_, ?_, ?_⟩
  · intro k h1 h2
    exact crop_sample inten _ wavelength hasc h1 h2
  · intro k h s hak hkb h0 h1
    have hlt : axis ⟨k, by omega⟩ < axis ⟨k + 1, h⟩ := hasc _ _ (by rw [Fin.lt_def]; simp)
    have key : ∀ f : Fin n → ℝ, npInterp (slice1 axis a b b.2.le) (slice1 f a b b.2.le)
        ((1 - s) * axis ⟨k, by omega⟩ + s * axis ⟨k + 1, h⟩) =
        .ok ((1 - s) * f ⟨k, by omega⟩ + s * f ⟨k + 1, h⟩) := by
      intro f
      have e1 : ∀ g : Fin n → ℝ, slice1 g a b b.2.le ⟨k - a, by omega⟩ = g ⟨k, by omega⟩ := by
        intro g; unfold slice1; congr 1; exact Fin.ext (by simp; omega)
      have e2 : ∀ g : Fin n → ℝ, slice1 g a b b.2.le ⟨k - a + 1, by omega⟩ = g ⟨k + 1, h⟩ := by
        intro g; unfold slice1; congr 1; exact Fin.ext (by simp; omega)
      have := npInterp_between hs (slice1 f a b b.2.le) (k := k - a) (by omega)
        (x := (1 - s) * axis ⟨k, by omega⟩ + s * axis ⟨k + 1, h⟩) (by rw [e1]; nlinarith) (by rw [e2]; nlinarith)
      rw [this, e1, e1, e2, e2]
      congr 1
      have : axis ⟨k + 1, h⟩ - axis ⟨k, by omega⟩ ≠ 0 := by linarith
      field_simp
      ring
    exact evaluate_of (key inten) (key _)
  · intro t hab ht
    rw [Fin.lt_def] at hab
    have key : ∀ f : Fin n → ℝ, npInterp (slice1 axis a b b.2.le) (slice1 f a b b.2.le) t = .ok (f a) :=
      fun f => npInterp_left (by omega) _ _ ht
    exact evaluate_of (key inten) (key _)
  · intro l hl hal t ht
    rw [Fin.le_def] at hal
    have e1 : ∀ g : Fin n → ℝ, slice1 g a b b.2.le ⟨b - a - 1, by omega⟩ = g l := by
      intro g; unfold slice1; congr 1; exact Fin.ext (by simp; omega)
    have key : ∀ f : Fin n → ℝ, npInterp (slice1 axis a b b.2.le) (slice1 f a b b.2.le) t = .ok (f l) := by
      intro f
      rw [npInterp_right (by omega) hs _ (by rw [e1]; exact ht), e1]
    exact evaluate_of (key inten) (key _)

/-- the sample nearest to `hi` is not kept: the field there is that of the sample before -/
theorem C49_hi_refuted {n : ℕ} {axis : Fin n → ℝ} (hasc : Ascending axis) (inten : Fin n → ℝ)
    (phase : Option (Fin n → ℝ)) (wavelength : ℝ) {lo hi : ℝ} {a b l : Fin n} (ha : NearestSample axis lo a)
    (hb : NearestSample axis hi b) (hl : (l : ℕ) + 1 = b) (hal : a ≤ l) :
    ∃ p, longTemporal axis inten phase wavelength lo hi = .ok p ∧
      p.evaluate (axis b) = .ok (sampleField (inten l) (phase.getD (fun _ => 0) l)) := by
  obtain ⟨a', b', p, ha', hb', e, -, -, -, -, h⟩ :=
    C49_samples (by have := a.2; omega) hasc inten phase wavelength lo hi
  rw [← ha.unique ha', ← hb.unique hb'] at *
  exact ⟨p, e, h l hl hal _ (hasc _ _ (by rw [Fin.lt_def]; omega)).le⟩

/-- the whole recording: `lo` and `hi` at the ends of the axis still lose the last sample -/
example : ∃ p, longTemporal ![0, 1, 2] ![1, 4, 9] none 1 0 2 = .ok p ∧
    p.evaluate (![0, 1, 2] (2 : Fin 3)) = .ok (sampleField 4 0) := by
  have hasc : Ascending (![0, 1, 2] : Fin 3 → ℝ) := by
    intro i j hij
    fin_cases i <;> fin_cases j <;> simp at hij ⊢
  refine C49_hi_refuted hasc ![1, 4, 9] none 1 (lo := 0) (hi := 2) (a := 0) (b := 2) (l := 1) ⟨?_, ?_⟩ ⟨?_, ?_⟩ rfl (by decide)
  · intro j; fin_cases j <;> simp
  · intro j hj; exact absurd hj (by simp)
  · intro j; fin_cases j <;> simp
  · have e : (![0, 1, 2] : Fin 3 → ℝ) 2 = 2 := rfl
    intro j hj; rw [e]; fin_cases j <;> first | exact absurd hj (by decide) | norm_num

theorem nearest_descending {n : ℕ} {axis : Fin n → ℝ} (hd : Descending axis) {lo hi : ℝ} (h : lo ≤ hi) {a b : Fin n}
    (ha : NearestSample axis lo a) (hb : NearestSample axis hi b) : b ≤ a := by
  by_contra hc
  have hc := not_le.mp hc
  have h1 := hd a b hc
  have h2 := ha.1 b
  have h3 := hb.2 a hc
  rcases abs_cases (axis a - lo) with ⟨e1, _⟩ | ⟨e1, _⟩ <;> rcases abs_cases (axis b - lo) with ⟨e2, _⟩ | ⟨e2, _⟩ <;>
    rcases abs_cases (axis a - hi) with ⟨e3, _⟩ | ⟨e3, _⟩ <;> rcases abs_cases (axis b - hi) with ⟨e4, _⟩ | ⟨e4, _⟩ <;> linarith

/-- the documentation allows a decreasing axis, but the profile built from it is empty: every evaluation fails -/
theorem C49_descending_refuted {n : ℕ} (hn : 0 < n) {axis : Fin n → ℝ} (hd : Descending axis) (inten : Fin n → ℝ)
    (phase : Option (Fin n → ℝ)) (wavelength : ℝ) {lo hi : ℝ} (h : lo ≤ hi) :
    ∃ p, longTemporal axis inten phase wavelength lo hi = .ok p ∧ ∀ t, p.evaluate t = .error .value := by
  obtain ⟨a, b, ha, hb, e⟩ := cropLong_eq hn axis inten (phase.getD fun _ => 0) wavelength lo hi
  refine ⟨_, e, fun t => ?_⟩
  have := nearest_descending hd h ha hb
  rw [Fin.le_def] at this
  unfold LongProf.evaluate
  rw [npInterp_empty (by simp only; omega)]
  rfl

example : Descending (![3, 2, 0] : Fin 3 → ℝ) := by
  intro i j hij
  fin_cases i <;> fin_cases j <;> first | exact absurd hij (by decide) | norm_num

/-! ## C79 -/

section order
variable {n : ℕ}

theorem diffPos_iff {w : Fin n → ℝ} : diffPos w ↔ Ascending w := by
  constructor
  · intro h i j hij
    obtain ⟨i, hi⟩ := i
    obtain ⟨j, hj⟩ := j
    rw [Fin.lt_def] at hij
    simp only at hij
    induction j, hij using Nat.le_induction with
    | base => have := h i hj; linarith
    | succ j hij ih => have := h j hj; have := ih (by omega); linarith
  · intro h i hi
    have := h ⟨i, by omega⟩ ⟨i + 1, hi⟩ (by rw [Fin.lt_def]; simp)
    linarith

theorem diffNeg_iff {w : Fin n → ℝ} : diffNeg w ↔ Ascending fun k => w k.rev := by
  rw [← diffPos_iff]
  constructor
  · intro h i hi
    have e := h (n - 2 - i) (by omega)
    have e1 : (⟨i + 1, hi⟩ : Fin n).rev = ⟨n - 2 - i, by omega⟩ := Fin.ext (by simp [Fin.val_rev]; omega)
    have e2 : (⟨i, by omega⟩ : Fin n).rev = ⟨n - 2 - i + 1, by omega⟩ := Fin.ext (by simp [Fin.val_rev]; omega)
    simp only [e1, e2]
    linarith
  · intro h i hi
    have e := h (n - 2 - i) (by omega)
    have e1 : (⟨n - 2 - i + 1, by omega⟩ : Fin n).rev = ⟨i, by omega⟩ := Fin.ext (by simp [Fin.val_rev]; omega)
    have e2 : (⟨n - 2 - i, by omega⟩ : Fin n).rev = ⟨i + 1, hi⟩ := Fin.ext (by simp [Fin.val_rev]; omega)
    simp only [e1, e2] at e
    linarith

theorem ascending_not_rev (hn : 2 ≤ n) {w : Fin n → ℝ} (h1 : Ascending w) (h2 : Ascending fun k => w k.rev) : False := by
  have a1 := h1 ⟨0, by omega⟩ ⟨1, by omega⟩ (by rw [Fin.lt_def]; simp)
  have a2 := h2 (Fin.rev ⟨1, by omega⟩) (Fin.rev ⟨0, by omega⟩) (by rw [Fin.lt_def]; simp [Fin.val_rev]; omega)
  simp only [Fin.rev_rev] at a2
  linarith

variable [Phys]

/-- the wavelength axis ascends, descends, or is rejected -/
theorem longSpectral_cases (axisIsWavelength : Bool) (hn : 2 ≤ n) (axis inten : Fin n → ℝ) (phase : Option (Fin n → ℝ))
    (dt lo hi : ℝ) :
    (Ascending (spectralAxis axisIsWavelength axis inten).1 ∧ longSpectral axisIsWavelength axis inten phase dt lo hi =
      longFromWavelength (fun k => (spectralAxis axisIsWavelength axis inten).1 k)
        (fun k => (spectralAxis axisIsWavelength axis inten).2 k) (fun k => phase.getD (fun _ => 0) k) dt lo hi) ∨
    (Ascending (fun k => (spectralAxis axisIsWavelength axis inten).1 k.rev) ∧
      longSpectral axisIsWavelength axis inten phase dt lo hi =
      longFromWavelength (fun k => (spectralAxis axisIsWavelength axis inten).1 k.rev)
        (fun k => (spectralAxis axisIsWavelength axis inten).2 k.rev) (fun k => phase.getD (fun _ => 0) k.rev) dt lo hi) ∨
    ((¬ Ascending (spectralAxis axisIsWavelength axis inten).1 ∧
      ¬ Ascending (fun k => (spectralAxis axisIsWavelength axis inten).1 k.rev)) ∧
      longSpectral axisIsWavelength axis inten phase dt lo hi = .error .assertion) := by
  unfold longSpectral
  by_cases h1 : Ascending (spectralAxis axisIsWavelength axis inten).1
  · have h2 : ¬ diffNeg (spectralAxis axisIsWavelength axis inten).1 :=
      fun h => ascending_not_rev hn h1 (diffNeg_iff.mp h)
    left
    refine ⟨h1, ?_⟩
    dsimp only
    rw [if_pos (Or.inl (diffPos_iff.mpr h1)), if_neg h2]
  · have h1' : ¬ diffPos (spectralAxis axisIsWavelength axis inten).1 := fun h => h1 (diffPos_iff.mp h)
    by_cases h2 : Ascending (fun k => (spectralAxis axisIsWavelength axis inten).1 k.rev)
    · right; left
      refine ⟨h2, ?_⟩
      dsimp only
      rw [if_pos (Or.inr (diffNeg_iff.mpr h2)), if_pos (diffNeg_iff.mpr h2)]
    · have h2' : ¬ diffNeg (spectralAxis axisIsWavelength axis inten).1 := fun h => h2 (diffNeg_iff.mp h)
      right; right
      refine ⟨⟨h1, h2⟩, ?_⟩
      dsimp only
      rw [if_neg (by tauto)]

/-- **C79.** Spectral data recorded in the opposite order (axis, intensity and phase all reversed) give the same
profile, or the same error, whichever axis is used. -/
theorem C79_order (axisIsWavelength : Bool) (axis inten : Fin n → ℝ) (phase : Option (Fin n → ℝ)) (dt lo hi : ℝ) :
    longSpectral axisIsWavelength (fun k => axis k.rev) (fun k => inten k.rev) (phase.map fun p k => p k.rev) dt lo hi =
      longSpectral axisIsWavelength axis inten phase dt lo hi := by
  by_cases hn : n ≤ 1
  · have hrev : ∀ k : Fin n, k.rev = k := fun k => Fin.ext (by have := k.2; rw [Fin.val_rev]; omega)
    simp only [hrev]
    cases phase <;> rfl
  have e1 : (spectralAxis axisIsWavelength (fun k => axis k.rev) fun k => inten k.rev).1 =
      fun k => (spectralAxis axisIsWavelength axis inten).1 k.rev := by
    unfold spectralAxis; cases axisIsWavelength <;> rfl
  have e2 : (spectralAxis axisIsWavelength (fun k => axis k.rev) fun k => inten k.rev).2 =
      fun k => (spectralAxis axisIsWavelength axis inten).2 k.rev := by
    unfold spectralAxis; cases axisIsWavelength <;> rfl
  have e3 : ((phase.map fun p (k : Fin n) => p k.rev).getD fun _ => (0 : ℝ)) = fun k => phase.getD (fun _ => 0) k.rev := by
    cases phase <;> rfl
  have hn2 : 2 ≤ n := by omega
  rcases longSpectral_cases axisIsWavelength hn2 axis inten phase dt lo hi with ⟨h, e⟩ | ⟨h, e⟩ | ⟨h, e⟩ <;>
    rcases longSpectral_cases axisIsWavelength hn2 (fun k => axis k.rev) (fun k => inten k.rev)
      (phase.map fun p k => p k.rev) dt lo hi with ⟨h', e'⟩ | ⟨h', e'⟩ | ⟨h', e'⟩ <;>
    rw [e, e'] <;> simp only [e1, e2, e3, Fin.rev_rev] at h' ⊢
  · exact (ascending_not_rev hn2 h h').elim
  · exact (h'.2 h).elim
  · exact (ascending_not_rev hn2 h' h).elim
  · exact (h'.1 h).elim
  · exact (h.2 h').elim
  · exact (h.1 h').elim

end order

end Lasy
