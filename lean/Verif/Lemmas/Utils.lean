import Verif.Model.Utils
import Verif.Lemmas.Energy
import Verif.Lemmas.Signal
import Mathlib.Algebra.Order.BigOperators.Ring.Finset

/-! # Computation rules for `Model/Utils.lean` -/

namespace Lasy
open Spec Phys Complex

variable {s : Shape}

/-- an envelope grid on which `set_temporal_field(f)` was called -/
noncomputable def Grid.holding (geom : Geom s.n0 s.n1) (t : Axis s.nt) (f : Field s) : Grid s where
  geom := geom
  t := t
  isEnvelope := true
  temporal := ⟨.c128, f⟩
  temporalValid := true
  spectral := fun _ _ _ => 0
  spectralValid := false

theorem Grid.holding_holds (geom : Geom s.n0 s.n1) (t : Axis s.nt) (f : Field s) :
    (Grid.holding geom t f).Holds (some f) where
  env := rfl
  dt := rfl
  unset := by simp
  isSet := by
    rintro f' h
    cases h
    exact ⟨.inl rfl, fun _ => rfl, fun h => by simp [Grid.holding] at h⟩

theorem alongT_of {α : Type} {f : (Fin s.nt → α) → Except PyErr (Fin s.nt → ℝ)}
    {a : Fin s.n0 → Fin s.n1 → Fin s.nt → α} {r : RField s} (h : ∀ i j, f (a i j) = .ok (r i j)) :
    alongT f a = .ok r := by
  unfold alongT
  rw [if_pos (by intro i j; rw [h]; rfl)]
  congr 1
  funext i j
  simp only [h]

theorem phaseRate_of {h : Field s} {t : Fin s.nt → ℝ} {r : RField s}
    (hr : ∀ i j, gradient (fun k => -unwrap (fun k => angle (h i j k)) k) t = .ok (r i j)) :
    phaseRate h t = .ok r := alongT_of hr

theorem gradient_ok {n : ℕ} (hn : 3 ≤ n) (f : Fin n → ℝ) (x : Fin n → ℝ) : ∃ v, gradient f x = .ok v := by
  unfold gradient
  rw [dif_pos hn]
  exact ⟨_, rfl⟩

theorem phaseRate_ok (hn : 3 ≤ s.nt) (h : Field s) (t : Fin s.nt → ℝ) :
    ∃ r : RField s, phaseRate h t = .ok r ∧
      ∀ i j, gradient (fun k => -unwrap (fun k => angle (h i j k)) k) t = .ok (r i j) := by
  choose r hr using fun i j => gradient_ok hn (fun k => -unwrap (fun k => angle (h i j k)) k) t
  exact ⟨r, phaseRate_of hr, hr⟩

theorem average_ok {ι : Type} [Fintype ι] {a w : ι → ℝ} (h : ∑ i, w i ≠ 0) :
    average a w = .ok ((∑ i, a i * w i) / ∑ i, w i) := by
  unfold average
  rw [if_neg h]

theorem average_inv {ι : Type} [Fintype ι] {a w : ι → ℝ} {v : ℝ} (h : average a w = .ok v) :
    ∑ i, w i ≠ 0 ∧ v = (∑ i, a i * w i) / ∑ i, w i := by
  unfold average at h
  split at h
  · cases h
  · rename_i hne
    exact ⟨hne, by injection h with h; exact h.symm⟩

/-- a weighted mean lies between the bounds of its values -/
theorem average_bounds {ι : Type} [Fintype ι] {a w : ι → ℝ} {v lo hi : ℝ} (h : average a w = .ok v)
    (hw : ∀ i, 0 ≤ w i) (hlo : ∀ i, lo ≤ a i) (hhi : ∀ i, a i ≤ hi) : lo ≤ v ∧ v ≤ hi := by
  obtain ⟨hne, rfl⟩ := average_inv h
  have hpos : 0 < ∑ i, w i := lt_of_le_of_ne (Finset.sum_nonneg fun i _ => hw i) (Ne.symm hne)
  rw [le_div_iff₀ hpos, div_le_iff₀ hpos, Finset.mul_sum, Finset.mul_sum]
  exact ⟨Finset.sum_le_sum fun i _ => mul_le_mul_of_nonneg_right (hlo i) (hw i),
    Finset.sum_le_sum fun i _ => mul_le_mul_of_nonneg_right (hhi i) (hw i)⟩

theorem average_const {ι : Type} [Fintype ι] {w : ι → ℝ} (c : ℝ) (h : ∑ i, w i ≠ 0) :
    average (fun _ => c) w = .ok c := by
  rw [average_ok h, ← Finset.mul_sum, mul_div_assoc, div_self h, mul_one]

/-- `get_frequency` on an envelope grid that holds `f` -/
theorem getFrequency_holds {g : Grid s} {f : Field s} (h : g.Holds (some f)) (ih : Bool) (w0 lower upper : ℝ)
    {rate : RField s} (hr : phaseRate f g.t.pts = .ok rate) {central : ℝ}
    (hc : average3 (fun i j k => w0 + rate i j k) (fun i j k => ‖f i j k‖) = .ok central) :
    ∃ g', getFrequency ih (some w0) lower upper g =
      (.ok (fun i j k => clipFrequency lower upper central (w0 + rate i j k), central), g') ∧
      g'.Holds (some f) ∧ g'.geom = g.geom ∧ g'.t = g.t := by
  obtain ⟨g', e, h', hg, ht⟩ := h.getT
  refine ⟨g', ?_, h', hg, ht⟩
  unfold getFrequency
  rw [Py.bind_ok e, Py.bind_ok (Py.get_apply g')]
  rw [if_pos h'.env]
  simp only [ht, hr, hc]
  rfl

theorem clipFrequency_id {lower upper central w : ℝ} (h1 : lower * central ≤ w)
    (h2 : w ≤ upper * central) : clipFrequency lower upper central w = w := by
  unfold clipFrequency
  rw [max_eq_left h1, min_eq_left h2]

end Lasy
