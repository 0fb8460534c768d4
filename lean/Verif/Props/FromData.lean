import Verif.Model.FromData
import Verif.Lemmas.Interp
import Mathlib.Algebra.BigOperators.Field

/-!
# C50 (moments of an image), C48 (transverse profiles from data), C78 (centring)
-/

namespace Lasy
open Finset

variable {rows cols : ℕ}

theorem linspace_pixel (n : ℕ) (k : Fin n) : linspace 0 ((n : ℝ) - 1) n k = (k : ℕ) := by
  have hk := k.2
  simp only [linspace, sub_zero, zero_add]
  rcases Nat.lt_or_ge 1 n with h | h
  · rw [div_self, mul_one]
    have : (1 : ℝ) < n := by exact_mod_cast h
    linarith
  · have : (k : ℕ) = 0 := by omega
    rw [this]; simp

/-- specification: `img'` is `img` moved by `k` columns and `l` rows, and nothing is lost at the borders -/
def Moved (k l : ℤ) (img img' : Img rows cols) : Prop :=
  (∀ q c, img q c ≠ 0 → ∃ (q' : Fin rows) (c' : Fin cols), ((q' : ℕ) : ℤ) = (q : ℕ) + l ∧ ((c' : ℕ) : ℤ) = (c : ℕ) + k ∧ img' q' c' = img q c) ∧
  ∀ q' c', img' q' c' ≠ 0 → ∃ (q : Fin rows) (c : Fin cols), ((q' : ℕ) : ℤ) = (q : ℕ) + l ∧ ((c' : ℕ) : ℤ) = (c : ℕ) + k ∧ img' q' c' = img q c

theorem Moved.sum {k l : ℤ} {img img' : Img rows cols} (h : Moved k l img img') (G : ℤ → ℤ → ℝ) :
    ∑ q, ∑ c, img' q c * G (q : ℕ) (c : ℕ) = ∑ q, ∑ c, img q c * G ((q : ℕ) + l) ((c : ℕ) + k) := by
  simp only [← sum_product', univ_product_univ]
  symm
  choose a b ha hb hab using h.1
  have hne : ∀ p : Fin rows × Fin cols, img p.1 p.2 * G ((p.1 : ℕ) + l) ((p.2 : ℕ) + k) ≠ 0 → img p.1 p.2 ≠ 0 :=
    fun p hp h0 => hp (by rw [h0, zero_mul])
  refine sum_bij_ne_zero (fun p _ hp => (a p.1 p.2 (hne p hp), b p.1 p.2 (hne p hp))) (fun _ _ _ => mem_univ _) ?_ ?_ ?_
  · intro p _ hp p' _ hp' e
    simp only [Prod.mk.injEq] at e
    have h1 := ha p.1 p.2 (hne p hp)
    have h2 := ha p'.1 p'.2 (hne p' hp')
    have h3 := hb p.1 p.2 (hne p hp)
    have h4 := hb p'.1 p'.2 (hne p' hp')
    rw [e.1] at h1
    rw [e.2] at h3
    refine Prod.ext (Fin.ext ?_) (Fin.ext ?_) <;> omega
  · intro p _ hp
    have hp' : img' p.1 p.2 ≠ 0 := fun h0 => hp (by rw [h0, zero_mul])
    obtain ⟨q, c, h1, h2, h3⟩ := h.2 p.1 p.2 hp'
    have hqc : img q c ≠ 0 := by rw [← h3]; exact hp'
    refine ⟨(q, c), mem_univ _, ?_, ?_⟩
    · dsimp only
      rw [← h1, ← h2, ← h3]; exact hp
    · have h4 := ha q c hqc
      have h5 := hb q c hqc
      refine Prod.ext (Fin.ext ?_) (Fin.ext ?_)
      · show ((a q c _ : Fin rows) : ℕ) = p.1; omega
      · show ((b q c _ : Fin cols) : ℕ) = p.2; omega
  · intro p _ hp
    dsimp only
    rw [hab, ha, hb]

theorem imgSum_moved {k l : ℤ} {img img' : Img rows cols} (h : Moved k l img img') : imgSum img' = imgSum img := by
  have := h.sum (fun _ _ => 1)
  simpa [imgSum] using this

theorem com_fst (img : Img rows cols) : (findCenterOfMass img).1 = (∑ q, ∑ c, img q c * ((c : ℕ) : ℝ)) / imgSum img := by
  simp only [findCenterOfMass, linspace_pixel]

theorem com_snd (img : Img rows cols) : (findCenterOfMass img).2 = (∑ q, ∑ c, img q c * ((q : ℕ) : ℝ)) / imgSum img := by
  simp only [findCenterOfMass, linspace_pixel]
  rw [sum_comm]

theorem com_moved {k l : ℤ} {img img' : Img rows cols} (h : Moved k l img img') (h0 : imgSum img ≠ 0) :
    findCenterOfMass img' = ((findCenterOfMass img).1 + k, (findCenterOfMass img).2 + l) := by
  have h1 := h.sum (fun _ c => (c : ℝ))
  have h2 := h.sum (fun q _ => (q : ℝ))
  push_cast at h1 h2
  refine Prod.ext ?_ ?_
  · simp only [com_fst]
    rw [imgSum_moved h, h1, div_add' _ _ _ h0]
    congr 1
    simp only [mul_add, sum_add_distrib, imgSum]
    rw [mul_comm (k : ℝ), sum_mul]
    simp only [sum_mul]
  · simp only [com_snd]
    rw [imgSum_moved h, h2, div_add' _ _ _ h0]
    congr 1
    simp only [mul_add, sum_add_distrib, imgSum]
    rw [mul_comm (l : ℝ), sum_mul]
    simp only [sum_mul]

theorem d4_eq (img : Img rows cols) : findD4sigma img =
    (4 * Real.sqrt ((∑ q, ∑ c, img q c * (((c : ℕ) : ℝ) - (findCenterOfMass img).1) ^ 2) / imgSum img),
     4 * Real.sqrt ((∑ q, ∑ c, img q c * (((q : ℕ) : ℝ) - (findCenterOfMass img).2) ^ 2) / imgSum img)) := by
  simp only [findD4sigma, linspace_pixel]
  congr 4
  rw [sum_comm]

/-! ## C50 -/

/-- **C50.** The centre of mass of a non-zero image without negative pixels lies inside the image. -/
theorem C50_inside (img : Img rows cols) (hpos : ∀ q c, 0 ≤ img q c) (h0 : imgSum img ≠ 0) :
    0 ≤ (findCenterOfMass img).1 ∧ (findCenterOfMass img).1 ≤ cols - 1 ∧
    0 ≤ (findCenterOfMass img).2 ∧ (findCenterOfMass img).2 ≤ rows - 1 := by
  have hs : 0 < imgSum img := lt_of_le_of_ne (sum_nonneg fun q _ => sum_nonneg fun c _ => hpos q c) (Ne.symm h0)
  have hle : ∀ {n : ℕ} (k : Fin n), ((k : ℕ) : ℝ) ≤ n - 1 := by
    intro n k
    have : ((k : ℕ) : ℝ) + 1 ≤ n := by exact_mod_cast k.2
    linarith
  rw [com_fst, com_snd]
  refine ⟨div_nonneg (sum_nonneg fun q _ => sum_nonneg fun c _ => mul_nonneg (hpos q c) (Nat.cast_nonneg _)) hs.le, ?_,
    div_nonneg (sum_nonneg fun q _ => sum_nonneg fun c _ => mul_nonneg (hpos q c) (Nat.cast_nonneg _)) hs.le, ?_⟩
  · rw [div_le_iff₀ hs, imgSum, mul_sum]
    refine sum_le_sum fun q _ => ?_
    rw [mul_sum]
    refine sum_le_sum fun c _ => ?_
    rw [mul_comm]
    exact mul_le_mul_of_nonneg_right (hle c) (hpos q c)
  · rw [div_le_iff₀ hs, imgSum, mul_sum]
    refine sum_le_sum fun q _ => ?_
    rw [mul_sum]
    refine sum_le_sum fun c _ => ?_
    rw [mul_comm]
    exact mul_le_mul_of_nonneg_right (hle q) (hpos q c)

/-- **C50.** If the image moves by `k` columns and `l` rows without losing pixels, the centre of mass moves by
`(k, l)` and `D4sigma` stays the same. -/
theorem C50_translation {k l : ℤ} {img img' : Img rows cols} (h : Moved k l img img') (h0 : imgSum img ≠ 0) :
    findCenterOfMass img' = ((findCenterOfMass img).1 + k, (findCenterOfMass img).2 + l) ∧
    findD4sigma img' = findD4sigma img := by
  have hc := com_moved h h0
  refine ⟨hc, ?_⟩
  have h1 := h.sum (fun _ c => ((c : ℝ) - ((findCenterOfMass img).1 + k)) ^ 2)
  have h2 := h.sum (fun q _ => ((q : ℝ) - ((findCenterOfMass img).2 + l)) ^ 2)
  push_cast at h1 h2
  rw [d4_eq, d4_eq, hc, imgSum_moved h, h1, h2]
  simp only [add_sub_add_right_eq_sub]

/-- **C50.** Both measures do not depend on the scale of the intensity. -/
theorem C50_scale (img : Img rows cols) {a : ℝ} (ha : a ≠ 0) :
    findCenterOfMass (fun q c => a * img q c) = findCenterOfMass img ∧
    findD4sigma (fun q c => a * img q c) = findD4sigma img := by
  have hs : imgSum (fun q c => a * img q c) = a * imgSum img := by simp only [imgSum, mul_sum]
  have hm : ∀ g : Fin rows → Fin cols → ℝ, (∑ q, ∑ c, a * img q c * g q c) / (a * imgSum img) =
      (∑ q, ∑ c, img q c * g q c) / imgSum img := by
    intro g
    rw [← mul_div_mul_left _ (imgSum img) ha]
    simp only [mul_sum, mul_assoc]
  have hc : findCenterOfMass (fun q c => a * img q c) = findCenterOfMass img := by
    refine Prod.ext ?_ ?_
    · rw [com_fst, com_fst, hs, hm]
    · rw [com_snd, com_snd, hs, hm]
  refine ⟨hc, ?_⟩
  rw [d4_eq, d4_eq, hc, hs, hm, hm]

/-- **C50.** `D4sigma` is not negative and at most twice the size of the image. -/
theorem C50_width (img : Img rows cols) (hpos : ∀ q c, 0 ≤ img q c) (h0 : imgSum img ≠ 0) :
    0 ≤ (findD4sigma img).1 ∧ (findD4sigma img).1 ≤ 2 * (cols - 1) ∧
    0 ≤ (findD4sigma img).2 ∧ (findD4sigma img).2 ≤ 2 * (rows - 1) := by
  have hs : 0 < imgSum img := lt_of_le_of_ne (sum_nonneg fun q _ => sum_nonneg fun c _ => hpos q c) (Ne.symm h0)
  obtain ⟨hx0, hx1, hy0, hy1⟩ := C50_inside img hpos h0
  have key : ∀ (N μ : ℝ) (g : Fin rows → Fin cols → ℝ), (∀ q c, 0 ≤ g q c ∧ g q c ≤ N) → 0 ≤ N →
      (∑ q, ∑ c, img q c * g q c) / imgSum img = μ →
      (∑ q, ∑ c, img q c * (g q c - μ) ^ 2) / imgSum img ≤ (N / 2) ^ 2 := by
    intro N μ g hg hN hμ
    have hμ' : ∑ q, ∑ c, img q c * g q c = μ * imgSum img := by rw [← hμ, div_mul_cancel₀ _ h0]
    rw [div_le_iff₀ hs]
    have h1 : ∑ q, ∑ c, img q c * (g q c - μ) ^ 2 ≤ ∑ q, ∑ c, ((N - 2 * μ) * (img q c * g q c) + μ ^ 2 * img q c) := by
      refine sum_le_sum fun q _ => sum_le_sum fun c _ => ?_
      have : img q c * (g q c * (N - g q c)) ≥ 0 :=
        mul_nonneg (hpos q c) (mul_nonneg (hg q c).1 (by linarith [(hg q c).2]))
      nlinarith
    refine h1.trans ?_
    simp only [sum_add_distrib, ← mul_sum]
    rw [hμ']
    have : ∑ q, ∑ c, img q c = imgSum img := rfl
    rw [this]
    nlinarith [mul_nonneg hs.le (sq_nonneg (N / 2 - μ))]
  have hle : ∀ {n : ℕ} (k : Fin n), ((k : ℕ) : ℝ) ≤ n - 1 := by
    intro n k
    have : ((k : ℕ) : ℝ) + 1 ≤ n := by exact_mod_cast k.2
    linarith
  rw [d4_eq]
  refine ⟨by positivity, ?_, by positivity, ?_⟩
  · have := key ((cols : ℝ) - 1) _ (fun _ c => ((c : ℕ) : ℝ)) (fun q c => ⟨Nat.cast_nonneg _, hle c⟩)
      (hx0.trans hx1) (com_fst img).symm
    have := Real.sqrt_le_sqrt this
    rw [Real.sqrt_sq (by linarith)] at this
    dsimp only
    linarith
  · have := key ((rows : ℝ) - 1) _ (fun q _ => ((q : ℕ) : ℝ)) (fun q c => ⟨Nat.cast_nonneg _, hle q⟩)
      (hy0.trans hy1) (com_snd img).symm
    have := Real.sqrt_le_sqrt this
    rw [Real.sqrt_sq (by linarith)] at this
    dsimp only
    linarith

/-- an image with one lit pixel -/
def onePixel (rows cols : ℕ) (q0 : Fin rows) (c0 : Fin cols) : Img rows cols := fun q c =>
  if q = q0 ∧ c = c0 then 1 else 0

theorem onePixel_sum (q0 : Fin rows) (c0 : Fin cols) (g : Fin rows → Fin cols → ℝ) :
    ∑ q, ∑ c, onePixel rows cols q0 c0 q c * g q c = g q0 c0 := by
  rw [sum_eq_single q0, sum_eq_single c0]
  · simp [onePixel]
  · intro c _ hc; simp [onePixel, hc]
  · simp
  · intro q _ hq
    exact sum_eq_zero fun c _ => by simp [onePixel, hq]
  · simp

theorem onePixel_imgSum (q0 : Fin rows) (c0 : Fin cols) : imgSum (onePixel rows cols q0 c0) = 1 := by
  have := onePixel_sum q0 c0 (fun _ _ => 1)
  simpa [imgSum] using this

/-- the centre of mass of one lit pixel is that pixel, its width is zero; it can be moved -/
example : findCenterOfMass (onePixel 3 5 1 2) = (2, 1) ∧ findD4sigma (onePixel 3 5 1 2) = (0, 0) ∧
    Moved 2 (-1) (onePixel 3 5 1 2) (onePixel 3 5 0 4) := by
  have hc : findCenterOfMass (onePixel 3 5 1 2) = (2, 1) := by
    refine Prod.ext ?_ ?_
    · rw [com_fst, onePixel_sum, onePixel_imgSum]; simp
    · rw [com_snd, onePixel_sum, onePixel_imgSum]; simp
  refine ⟨hc, ?_, ?_, ?_⟩
  · rw [d4_eq, hc, onePixel_sum, onePixel_sum, onePixel_imgSum]
    simp
  · intro q c h
    have h' : q = 1 ∧ c = 2 := by by_contra hh; exact h (by simp [onePixel, hh])
    obtain ⟨rfl, rfl⟩ := h'
    exact ⟨0, 4, by decide, by decide, by simp [onePixel]⟩
  · intro q c h
    have h' : q = 0 ∧ c = 4 := by by_contra hh; exact h (by simp [onePixel, hh])
    obtain ⟨rfl, rfl⟩ := h'
    exact ⟨1, 2, by decide, by decide, by simp [onePixel]⟩

/-! ## rolling an image -/

theorem wrapIndex_val {n : ℕ} (h : 0 < n) (i : ℤ) : (((wrapIndex h i : Fin n) : ℕ) : ℤ) = i % n := by
  have h1 : (0 : ℤ) < n := by exact_mod_cast h
  have := Int.emod_nonneg i h1.ne'
  simp [wrapIndex, this]

theorem wrapIndex_of {n : ℕ} (h : 0 < n) {i : ℤ} {j : Fin n} (e : i % n = (j : ℕ)) : wrapIndex h i = j := by
  have := wrapIndex_val h i
  exact Fin.ext (by omega)

/-- `np.roll` along both axes -/
def roll2 (k l : ℤ) (img : Img rows cols) : Img rows cols := roll l fun q => roll k (img q)

theorem emod_fin {n : ℕ} (j : Fin n) : ((j : ℕ) : ℤ) % n = (j : ℕ) := Int.emod_eq_of_lt (by omega) (by omega)

theorem moved_eq_roll2 {k l : ℤ} {img img' : Img rows cols} (h : Moved k l img img') : img' = roll2 k l img := by
  funext q' c'
  have hr : 0 < rows := by have := q'.2; omega
  have hc : 0 < cols := by have := c'.2; omega
  show img' q' c' = img (wrapIndex hr ((q' : ℕ) - l)) (wrapIndex hc ((c' : ℕ) - k))
  by_cases h0 : img' q' c' = 0
  · by_contra hne
    rw [h0] at hne
    obtain ⟨q'', c'', h1, h2, h3⟩ := h.1 _ _ (Ne.symm hne)
    rw [wrapIndex_val] at h1 h2
    have e1 : q'' = q' := by
      have : ((q'' : ℕ) : ℤ) % rows = ((q' : ℕ) : ℤ) % rows := by rw [h1]; simp
      rw [emod_fin, emod_fin] at this
      exact Fin.ext (by omega)
    have e2 : c'' = c' := by
      have : ((c'' : ℕ) : ℤ) % cols = ((c' : ℕ) : ℤ) % cols := by rw [h2]; simp
      rw [emod_fin, emod_fin] at this
      exact Fin.ext (by omega)
    rw [e1, e2, h0] at h3
    exact hne h3
  · obtain ⟨q, c, h1, h2, h3⟩ := h.2 q' c' h0
    rw [h3, wrapIndex_of hr (j := q), wrapIndex_of hc (j := c)]
    · rw [h2, add_sub_cancel_right]; exact emod_fin c
    · rw [h1, add_sub_cancel_right]; exact emod_fin q

theorem roll2_moved {k l : ℤ} {img : Img rows cols}
    (h : ∀ q c, img q c ≠ 0 → (0 ≤ ((q : ℕ) : ℤ) + l ∧ ((q : ℕ) : ℤ) + l < rows) ∧
      0 ≤ ((c : ℕ) : ℤ) + k ∧ ((c : ℕ) : ℤ) + k < cols) : Moved k l img (roll2 k l img) := by
  constructor
  · intro q c h0
    obtain ⟨⟨h1, h2⟩, h3, h4⟩ := h q c h0
    have hr : 0 < rows := by have := q.2; omega
    have hc : 0 < cols := by have := c.2; omega
    refine ⟨⟨(((q : ℕ) : ℤ) + l).toNat, by omega⟩, ⟨(((c : ℕ) : ℤ) + k).toNat, by omega⟩, by simp [h1], by simp [h3], ?_⟩
    show img (wrapIndex hr _) (wrapIndex hc _) = _
    rw [wrapIndex_of hr (j := q), wrapIndex_of hc (j := c)]
    · simp only [Int.toNat_of_nonneg h3, add_sub_cancel_right]; exact emod_fin c
    · simp only [Int.toNat_of_nonneg h1, add_sub_cancel_right]; exact emod_fin q
  · intro q' c' h0
    have hr : 0 < rows := by have := q'.2; omega
    have hc : 0 < cols := by have := c'.2; omega
    have h0' : img (wrapIndex hr ((q' : ℕ) - l)) (wrapIndex hc ((c' : ℕ) - k)) ≠ 0 := h0
    obtain ⟨⟨h1, h2⟩, h3, h4⟩ := h _ _ h0'
    refine ⟨_, _, ?_, ?_, rfl⟩
    · rw [← Int.emod_eq_of_lt h1 h2, wrapIndex_val]
      simp [emod_fin]
    · rw [← Int.emod_eq_of_lt h3 h4, wrapIndex_val]
      simp [emod_fin]

theorem roll2_roll2 (k l k' l' : ℤ) (img : Img rows cols) : roll2 k l (roll2 k' l' img) = roll2 (k + k') (l + l') img := by
  funext q c
  have hr : 0 < rows := by have := q.2; omega
  have hc : 0 < cols := by have := c.2; omega
  show img (wrapIndex hr (_ - l')) (wrapIndex hc (_ - k')) = img (wrapIndex hr _) (wrapIndex hc _)
  congr 1
  · refine wrapIndex_of hr ?_
    rw [wrapIndex_val, wrapIndex_val, Int.emod_sub_emod, sub_sub]
  · refine wrapIndex_of hc ?_
    rw [wrapIndex_val, wrapIndex_val, Int.emod_sub_emod, sub_sub]

theorem centreImage_eq (img : Img rows cols) : centreImage img =
    roll2 (-pyInt ((findCenterOfMass img).1 - (cols : ℝ) / 2)) (-pyInt ((findCenterOfMass img).2 - (rows : ℝ) / 2)) img := rfl

theorem pyInt_close (x : ℝ) : |x - pyInt x| < 1 := by
  unfold pyInt
  split_ifs with h
  · rw [abs_lt]
    have := Int.floor_le x
    have := Int.lt_floor_add_one x
    constructor <;> linarith
  · rw [abs_lt]
    have := Int.le_ceil x
    have := Int.ceil_lt_add_one x
    constructor <;> linarith

theorem pyInt_add {x : ℝ} {k : ℤ} (h : (0 ≤ x ∧ 0 ≤ x + k) ∨ (x ≤ 0 ∧ x + k ≤ 0)) : pyInt (x + k) = pyInt x + k := by
  unfold pyInt
  rcases h with ⟨h1, h2⟩ | ⟨h1, h2⟩
  · rw [if_pos h1, if_pos h2, Int.floor_add_intCast]
  · have e : ∀ y : ℝ, y ≤ 0 → (if 0 ≤ y then ⌊y⌋ else ⌈y⌉) = ⌈y⌉ := by
      intro y hy
      split_ifs with h
      · have : y = 0 := le_antisymm hy h
        rw [this]; simp
      · rfl
    rw [e _ h1, e _ h2, Int.ceil_add_intCast]

/-- the rolled image has the same sum (nothing is lost even if it wraps) -/
theorem roll2_sum (k l : ℤ) (img : Img rows cols) : imgSum (roll2 k l img) = imgSum img := by
  unfold imgSum
  have bij : ∀ {n : ℕ} (s : ℤ) (f : Fin n → ℝ), ∑ i, roll s f i = ∑ i, f i := by
    intro n s f
    rcases Nat.eq_zero_or_pos n with rfl | hn
    · simp
    · refine Fintype.sum_equiv (⟨fun i => wrapIndex hn ((i : ℕ) - s), fun i => wrapIndex hn ((i : ℕ) + s), ?_, ?_⟩ : Fin n ≃ Fin n) _ _ ?_
      · intro i
        refine wrapIndex_of hn ?_
        rw [wrapIndex_val, Int.emod_add_emod, sub_add_cancel]
        exact emod_fin i
      · intro i
        refine wrapIndex_of hn ?_
        rw [wrapIndex_val, Int.emod_sub_emod, add_sub_cancel_right]
        exact emod_fin i
      · intro i; rfl
  have h1 : ∀ q, ∑ c, roll2 k l img q c = roll l (fun q => ∑ c, img q c) q := by
    intro q
    exact bij k _
  simp only [h1]
  exact bij l _

/-! ## C48 -/

theorem ascending_linspace {lo hi : ℝ} (h : lo < hi) {n : ℕ} (hn : 2 ≤ n) : Ascending (linspace lo hi n) := by
  intro i j hij
  have hn' : (0 : ℝ) < n - 1 := by
    have : (2 : ℝ) ≤ n := by exact_mod_cast hn
    linarith
  have hlt : ((i : ℕ) : ℝ) < (j : ℕ) := by exact_mod_cast hij
  simp only [linspace]
  have : 0 < (hi - lo) / ((n : ℝ) - 1) := div_pos (by linarith) hn'
  nlinarith

/-- what is constructed -/
theorem transFromData_eq {ny nx : ℕ} (hy : 2 ≤ ny) (hx : 2 ≤ nx) (data : Img ny nx) {lo hi : ℝ × ℝ}
    (h1 : lo.1 < hi.1) (h2 : lo.2 < hi.2) (b : Bool) :
    transFromData data lo hi b = .ok ⟨ny, nx,
      if b then linspace (-((hi.2 - lo.2) / 2)) ((hi.2 - lo.2) / 2) ny else linspace lo.2 hi.2 ny,
      if b then linspace (-((hi.1 - lo.1) / 2)) ((hi.1 - lo.1) / 2) nx else linspace lo.1 hi.1 nx,
      fun q c => Real.sqrt ((if b then centreImage data else data) q c /
        (imgSum data * ((hi.1 - lo.1) / nx) * ((hi.2 - lo.2) / ny)))⟩ := by
  have hs : imgSum (if b = true then centreImage data else data) = imgSum data := by
    cases b
    · rfl
    · exact roll2_sum _ _ data
  unfold transFromData
  simp only [abs_of_pos (sub_pos.2 h1), abs_of_pos (sub_pos.2 h2), hs, neg_div]
  rw [if_pos]
  cases b
  · exact ⟨ascending_linspace h1 hx, ascending_linspace h2 hy⟩
  · have a1 := abs_pos.2 (sub_pos.2 h1).ne'
    have a2 := abs_pos.2 (sub_pos.2 h2).ne'
    exact ⟨ascending_linspace (by linarith) hx, ascending_linspace (by linarith) hy⟩

/-- **C48.** For every image with at least two rows and columns, no negative pixel and a non-zero sum, and every
window `lo < hi`, the profile is constructed, and the squares of the stored field sum up to `1 / (dx dy)`, with
`dx = (hi - lo) / n_x`, `dy = (hi - lo) / n_y`. -/
theorem C48_normalised {ny nx : ℕ} (hy : 2 ≤ ny) (hx : 2 ≤ nx) (data : Img ny nx) {lo hi : ℝ × ℝ}
    (h1 : lo.1 < hi.1) (h2 : lo.2 < hi.2) (b : Bool) (hpos : ∀ q c, 0 ≤ data q c) (h0 : imgSum data ≠ 0) :
    ∃ y x field, transFromData data lo hi b = .ok ⟨ny, nx, y, x, field⟩ ∧
      (∑ q, ∑ c, field q c ^ 2) * ((hi.1 - lo.1) / nx) * ((hi.2 - lo.2) / ny) = 1 ∧
      ∀ q c, field q c ^ 2 = (if b then centreImage data else data) q c /
        (imgSum data * ((hi.1 - lo.1) / nx) * ((hi.2 - lo.2) / ny)) := by
  have hx' : (0 : ℝ) < nx := by exact_mod_cast (by omega : 0 < nx)
  have hy' : (0 : ℝ) < ny := by exact_mod_cast (by omega : 0 < ny)
  have hdx : 0 < (hi.1 - lo.1) / nx := div_pos (by linarith) hx'
  have hdy : 0 < (hi.2 - lo.2) / ny := div_pos (by linarith) hy'
  have hs : 0 < imgSum data := lt_of_le_of_ne (sum_nonneg fun q _ => sum_nonneg fun c _ => hpos q c) (Ne.symm h0)
  refine ⟨_, _, _, transFromData_eq hy hx data h1 h2 b, ?_⟩
  have hsq : ∀ q c, Real.sqrt ((if b then centreImage data else data) q c /
        (imgSum data * ((hi.1 - lo.1) / nx) * ((hi.2 - lo.2) / ny))) ^ 2 = (if b then centreImage data else data) q c /
        (imgSum data * ((hi.1 - lo.1) / nx) * ((hi.2 - lo.2) / ny)) := by
    intro q c
    refine Real.sq_sqrt (div_nonneg ?_ (by positivity))
    cases b
    · exact hpos q c
    · exact hpos _ _
  refine ⟨?_, hsq⟩
  simp only [hsq, ← sum_div]
  have hs' : ∑ q, ∑ c, (if b then centreImage data else data) q c = imgSum data := by
    cases b
    · rfl
    · exact roll2_sum _ _ data
  rw [hs']
  field_simp
  exact div_self (mul_pos (sub_pos.2 h1) (sub_pos.2 h2)).ne'

/-- **C48.** The field at the samples is the stored one, and outside the window it is zero. With `center_data`
the window is `[-X/2, X/2] × [-Y/2, Y/2]`, otherwise `[lo, hi]`. -/
theorem C48_evaluate {ny nx : ℕ} (hy : 2 ≤ ny) (hx : 2 ≤ nx) (data : Img ny nx) {lo hi : ℝ × ℝ}
    (h1 : lo.1 < hi.1) (h2 : lo.2 < hi.2) (b : Bool) : ∃ y x field, transFromData data lo hi b = .ok ⟨ny, nx, y, x, field⟩ ∧
      (∀ q c, TransFromData.evaluate ⟨ny, nx, y, x, field⟩ (x c) (y q) = field q c) ∧
      ∀ x' y' : ℝ, (x' < (if b then -((hi.1 - lo.1) / 2) else lo.1) ∨ (if b then (hi.1 - lo.1) / 2 else hi.1) < x' ∨
        y' < (if b then -((hi.2 - lo.2) / 2) else lo.2) ∨ (if b then (hi.2 - lo.2) / 2 else hi.2) < y') →
        TransFromData.evaluate ⟨ny, nx, y, x, field⟩ x' y' = 0 := by
  refine ⟨_, _, _, transFromData_eq hy hx data h1 h2 b, ?_, ?_⟩
  · intro q c
    unfold TransFromData.evaluate
    apply interp2_node hy hx
    · cases b
      · exact ascending_linspace h2 hy
      · exact ascending_linspace (by linarith) hy
    · cases b
      · exact ascending_linspace h1 hx
      · exact ascending_linspace (by linarith) hx
  · intro x' y' h
    unfold TransFromData.evaluate interp2
    rw [if_neg]
    have bd : ∀ {n : ℕ} (_ : 2 ≤ n) {l u : ℝ} (_ : l < u) {z : ℝ}, Inside (linspace l u n) z → l ≤ z ∧ z ≤ u := by
      rintro n hn l u hlu z ⟨⟨i, hi⟩, ⟨j, hj⟩⟩
      have hn' : (0 : ℝ) < n - 1 := by
        have : (2 : ℝ) ≤ n := by exact_mod_cast hn
        linarith
      have hd : 0 < (u - l) / ((n : ℝ) - 1) := div_pos (by linarith) hn'
      simp only [linspace] at hi hj
      refine ⟨le_trans ?_ hi, hj.trans ?_⟩
      · have := mul_nonneg (Nat.cast_nonneg (i : ℕ)) hd.le
        linarith
      · have h3 : ((j : ℕ) : ℝ) ≤ n - 1 := by
          have : ((j : ℕ) : ℝ) + 1 ≤ n := by exact_mod_cast j.2
          linarith
        have := mul_le_mul_of_nonneg_right h3 hd.le
        rw [mul_div_cancel₀ _ hn'.ne'] at this
        linarith
    rintro ⟨hiy, hix⟩
    cases b
    · have := bd hy h2 hiy
      have := bd hx h1 hix
      simp only [Bool.false_eq_true, if_false] at h
      rcases h with h | h | h | h <;> linarith
    · have := bd hy (show -((hi.2 - lo.2) / 2) < (hi.2 - lo.2) / 2 by linarith) hiy
      have := bd hx (show -((hi.1 - lo.1) / 2) < (hi.1 - lo.1) / 2 by linarith) hix
      simp only [if_true] at h
      rcases h with h | h | h | h <;> linarith

/-- no lit pixel leaves the image when it is centred -/
def NoWrap (img : Img rows cols) : Prop := ∀ q c, img q c ≠ 0 →
  (0 ≤ ((q : ℕ) : ℤ) - pyInt ((findCenterOfMass img).2 - (rows : ℝ) / 2) ∧
    ((q : ℕ) : ℤ) - pyInt ((findCenterOfMass img).2 - (rows : ℝ) / 2) < rows) ∧
  0 ≤ ((c : ℕ) : ℤ) - pyInt ((findCenterOfMass img).1 - (cols : ℝ) / 2) ∧
    ((c : ℕ) : ℤ) - pyInt ((findCenterOfMass img).1 - (cols : ℝ) / 2) < cols

/-- **C48.** With `center_data`, if no lit pixel is pushed over the border, the centre of mass of the stored
intensity is less than one pixel away from `n / 2`, in both directions; and in metres it is less than `3/2`
sample spacings away from `(0, 0)`. -/
theorem C48_centred {ny nx : ℕ} (hy : 2 ≤ ny) (hx : 2 ≤ nx) (data : Img ny nx) {lo hi : ℝ × ℝ}
    (h1 : lo.1 < hi.1) (h2 : lo.2 < hi.2) (hpos : ∀ q c, 0 ≤ data q c) (h0 : imgSum data ≠ 0) (hw : NoWrap data) :
    ∃ y x field, transFromData data lo hi true = .ok ⟨ny, nx, y, x, field⟩ ∧
      |(findCenterOfMass fun q c => field q c ^ 2).1 - (nx : ℝ) / 2| < 1 ∧
      |(findCenterOfMass fun q c => field q c ^ 2).2 - (ny : ℝ) / 2| < 1 ∧
      |(∑ q, ∑ c, field q c ^ 2 * x c) / ∑ q, ∑ c, field q c ^ 2| < 3 / 2 * ((hi.1 - lo.1) / (nx - 1)) ∧
      |(∑ q, ∑ c, field q c ^ 2 * y q) / ∑ q, ∑ c, field q c ^ 2| < 3 / 2 * ((hi.2 - lo.2) / (ny - 1)) := by
  obtain ⟨y, x, field, e, hn, hsq⟩ := C48_normalised hy hx data h1 h2 true hpos h0
  have e' := transFromData_eq hy hx data h1 h2 true
  rw [e] at e'
  simp only [if_true, Except.ok.injEq, TransFromData.mk.injEq, heq_eq_eq, true_and] at e'
  obtain ⟨ey, ex, -⟩ := e'
  refine ⟨y, x, field, e, ?_⟩
  set K : ℝ := imgSum data * ((hi.1 - lo.1) / nx) * ((hi.2 - lo.2) / ny) with hK
  have hmul : (∑ q, ∑ c, field q c ^ 2) ≠ 0 := fun h => by rw [h] at hn; norm_num at hn
  have hfun : (fun q c => field q c ^ 2) = fun q c => K⁻¹ * centreImage data q c := by
    funext q c
    rw [hsq]; simp only [if_true]; ring
  have hKne : K⁻¹ ≠ 0 := by
    intro h
    apply hmul
    have : ∀ q c, field q c ^ 2 = 0 := fun q c => by rw [congrFun (congrFun hfun q) c, h, zero_mul]
    simp [this]
  have hm := roll2_moved (k := -pyInt ((findCenterOfMass data).1 - (nx : ℝ) / 2))
    (l := -pyInt ((findCenterOfMass data).2 - (ny : ℝ) / 2)) hw
  have hcom : findCenterOfMass (fun q c => field q c ^ 2) =
      ((findCenterOfMass data).1 + (-pyInt ((findCenterOfMass data).1 - (nx : ℝ) / 2) : ℤ),
       (findCenterOfMass data).2 + (-pyInt ((findCenterOfMass data).2 - (ny : ℝ) / 2) : ℤ)) := by
    rw [hfun, (C50_scale _ hKne).1, centreImage_eq, com_moved hm h0]
  have c1 : |(findCenterOfMass fun q c => field q c ^ 2).1 - (nx : ℝ) / 2| < 1 := by
    rw [hcom]
    have := pyInt_close ((findCenterOfMass data).1 - (nx : ℝ) / 2)
    rw [show (findCenterOfMass data).1 + ((-pyInt ((findCenterOfMass data).1 - (nx : ℝ) / 2) : ℤ) : ℝ) - (nx : ℝ) / 2 =
      (findCenterOfMass data).1 - (nx : ℝ) / 2 - pyInt ((findCenterOfMass data).1 - (nx : ℝ) / 2) by push_cast; ring]
    exact this
  have c2 : |(findCenterOfMass fun q c => field q c ^ 2).2 - (ny : ℝ) / 2| < 1 := by
    rw [hcom]
    have := pyInt_close ((findCenterOfMass data).2 - (ny : ℝ) / 2)
    rw [show (findCenterOfMass data).2 + ((-pyInt ((findCenterOfMass data).2 - (ny : ℝ) / 2) : ℤ) : ℝ) - (ny : ℝ) / 2 =
      (findCenterOfMass data).2 - (ny : ℝ) / 2 - pyInt ((findCenterOfMass data).2 - (ny : ℝ) / 2) by push_cast; ring]
    exact this
  have metre : ∀ (n : ℕ) (_ : 2 ≤ n) (X : ℝ) (_ : 0 < X) (g : Fin ny → Fin nx → ℕ) (com : ℝ) (z : Fin ny → Fin nx → ℝ),
      (∀ q c, z q c = -(X / 2) + (g q c : ℝ) * ((X / 2 - -(X / 2)) / ((n : ℝ) - 1))) →
      (∑ q, ∑ c, field q c ^ 2 * (g q c : ℝ)) / (∑ q, ∑ c, field q c ^ 2) = com → |com - (n : ℝ) / 2| < 1 →
      |(∑ q, ∑ c, field q c ^ 2 * z q c) / ∑ q, ∑ c, field q c ^ 2| < 3 / 2 * (X / (n - 1)) := by
    intro n hn2 X hX g com z hz hcom' hclose
    have hn' : (0 : ℝ) < n - 1 := by
      have : (2 : ℝ) ≤ n := by exact_mod_cast hn2
      linarith
    have hval : (∑ q, ∑ c, field q c ^ 2 * z q c) / ∑ q, ∑ c, field q c ^ 2 = (com - ((n : ℝ) - 1) / 2) * (X / (n - 1)) := by
      rw [div_eq_iff hmul]
      rw [div_eq_iff hmul] at hcom'
      have : ∀ q c, field q c ^ 2 * z q c = (X / (n - 1)) * (field q c ^ 2 * (g q c : ℝ)) - X / 2 * field q c ^ 2 := by
        intro q c
        rw [hz]; ring
      simp only [this, sum_sub_distrib, ← mul_sum]
      rw [hcom']
      field_simp
    rw [hval, abs_mul, abs_of_pos (div_pos hX hn')]
    refine mul_lt_mul_of_pos_right ?_ (div_pos hX hn')
    rw [abs_lt] at hclose ⊢
    constructor <;> linarith [hclose.1, hclose.2]
  refine ⟨c1, c2, ?_, ?_⟩
  · exact metre nx hx _ (by linarith) (fun _ c => c) _ (fun _ c => x c) (fun q c => by rw [ex]; rfl) (com_fst _).symm c1
  · exact metre ny hy _ (by linarith) (fun q _ => q) _ (fun q _ => y q) (fun q c => by rw [ey]; rfl) (com_snd _).symm c2

/-- a beam in the corner of the image, which centring moves without wrapping -/
example : NoWrap (onePixel 5 7 0 6) := by
  have hc : findCenterOfMass (onePixel 5 7 0 6) = (6, 0) := by
    refine Prod.ext ?_ ?_
    · rw [com_fst, onePixel_sum, onePixel_imgSum]; simp
    · rw [com_snd, onePixel_sum, onePixel_imgSum]; simp
  have e1 : pyInt ((6 : ℝ) - (7 : ℕ) / 2) = 2 := by
    unfold pyInt; rw [if_pos (by norm_num), Int.floor_eq_iff]; norm_num
  have e2 : pyInt ((0 : ℝ) - (5 : ℕ) / 2) = -2 := by
    unfold pyInt; rw [if_neg (by norm_num), Int.ceil_eq_iff]; norm_num
  intro q c h
  have h' : q = 0 ∧ c = 6 := by by_contra hh; exact h (by simp [onePixel, hh])
  obtain ⟨rfl, rfl⟩ := h'
  rw [hc]
  dsimp only
  rw [e1, e2]
  decide

/-! ## C78 -/

/-- **C78 (the part that is true of the code).** Let the beam sit elsewhere on the camera, `k` columns and `l`
rows away. If its centre of mass is on the same side of the middle of the image in both cases, horizontally
and vertically, the constructed profile is the same. -/
theorem C78_position_partial {ny nx : ℕ} {data data' : Img ny nx} (h0 : imgSum data ≠ 0) {k l : ℤ} (h : Moved k l data data')
    (hx : ((nx : ℝ) / 2 ≤ (findCenterOfMass data).1 ∧ (nx : ℝ) / 2 ≤ (findCenterOfMass data').1) ∨
      ((findCenterOfMass data).1 ≤ (nx : ℝ) / 2 ∧ (findCenterOfMass data').1 ≤ (nx : ℝ) / 2))
    (hy : ((ny : ℝ) / 2 ≤ (findCenterOfMass data).2 ∧ (ny : ℝ) / 2 ≤ (findCenterOfMass data').2) ∨
      ((findCenterOfMass data).2 ≤ (ny : ℝ) / 2 ∧ (findCenterOfMass data').2 ≤ (ny : ℝ) / 2))
    (lo hi : ℝ × ℝ) : transFromData data' lo hi true = transFromData data lo hi true := by
  have hc := com_moved h h0
  have e : centreImage data' = centreImage data := by
    rw [hc] at hx hy
    rw [centreImage_eq, centreImage_eq, moved_eq_roll2 h, roll2_roll2, ← moved_eq_roll2 h, hc]
    dsimp only at hx hy ⊢
    have e1 : (findCenterOfMass data).1 + (k : ℝ) - (nx : ℝ) / 2 = (findCenterOfMass data).1 - (nx : ℝ) / 2 + k := by ring
    have e2 : (findCenterOfMass data).2 + (l : ℝ) - (ny : ℝ) / 2 = (findCenterOfMass data).2 - (ny : ℝ) / 2 + l := by ring
    rw [e1, e2, pyInt_add, pyInt_add]
    · congr 1 <;> ring
    · rcases hy with ⟨a, b⟩ | ⟨a, b⟩
      · left; constructor <;> linarith
      · right; constructor <;> linarith
    · rcases hx with ⟨a, b⟩ | ⟨a, b⟩
      · left; constructor <;> linarith
      · right; constructor <;> linarith
  unfold transFromData
  simp only [if_true, e]

/-- **C78 is false of the code**: `int` rounds towards zero, so a pixel just left and a pixel just right of the
middle are both left where they are. On a `3 × 3` image, the beam in the centre pixel and the same beam one
pixel to the right give different profiles: at `(0, 0)` the first has its maximum, the second is zero. -/
theorem C78_refuted : ∃ (data data' : Img 3 3) (p p' : TransFromData), Moved 1 0 data data' ∧ imgSum data ≠ 0 ∧
    transFromData data (-1, -1) (1, 1) true = .ok p ∧ transFromData data' (-1, -1) (1, 1) true = .ok p' ∧
    p.evaluate 0 0 = 3 / 2 ∧ p'.evaluate 0 0 = 0 := by
  have hc : ∀ a b : Fin 3, findCenterOfMass (onePixel 3 3 a b) = (((b : ℕ) : ℝ), ((a : ℕ) : ℝ)) := by
    intro a b
    refine Prod.ext ?_ ?_
    · rw [com_fst, onePixel_sum, onePixel_imgSum]; simp
    · rw [com_snd, onePixel_sum, onePixel_imgSum]; simp
  have e1 : pyInt ((((1 : Fin 3) : ℕ) : ℝ) - (3 : ℕ) / 2) = 0 := by
    unfold pyInt; rw [if_neg (by norm_num), Int.ceil_eq_iff]; norm_num
  have e2 : pyInt ((((2 : Fin 3) : ℕ) : ℝ) - (3 : ℕ) / 2) = 0 := by
    unfold pyInt; rw [if_pos (by norm_num), Int.floor_eq_iff]; norm_num
  have r0 : ∀ img : Img 3 3, roll2 0 0 img = img := by
    intro img
    funext q c
    show img (wrapIndex _ _) (wrapIndex _ _) = _
    rw [wrapIndex_of _ (j := q), wrapIndex_of _ (j := c)]
    · rw [sub_zero]; exact emod_fin c
    · rw [sub_zero]; exact emod_fin q
  have c1 : centreImage (onePixel 3 3 1 1) = onePixel 3 3 1 1 := by
    rw [centreImage_eq, hc]; dsimp only; rw [e1, neg_zero, r0]
  have c2 : centreImage (onePixel 3 3 1 2) = onePixel 3 3 1 2 := by
    rw [centreImage_eq, hc]; dsimp only; rw [e1, e2, neg_zero, r0]
  have ev : ∀ a : Fin 3, centreImage (onePixel 3 3 1 a) = onePixel 3 3 1 a →
      ∃ p, transFromData (onePixel 3 3 1 a) (-1, -1) (1, 1) true = .ok p ∧
        p.evaluate 0 0 = Real.sqrt (onePixel 3 3 1 a 1 1 / (4 / 9)) := by
    intro a ha
    have heq := transFromData_eq (by norm_num) (by norm_num) (onePixel 3 3 1 a) (lo := (-1, -1)) (hi := (1, 1))
      (by norm_num) (by norm_num) true
    refine ⟨_, heq, ?_⟩
    simp only [if_true, ha, onePixel_imgSum]
    have asc := ascending_linspace (lo := -((1 - -1) / 2)) (hi := (1 - -1) / 2) (by norm_num) (n := 3) (by norm_num)
    have hnode : linspace (-((1 - -1) / 2)) ((1 - -1) / 2) 3 1 = 0 := by simp [linspace]; norm_num
    have := interp2_node (by norm_num) (by norm_num) asc asc
      (fun q c => Real.sqrt (onePixel 3 3 1 a q c / (1 * ((1 - -1) / (3 : ℕ)) * ((1 - -1) / (3 : ℕ))))) 1 1
    rw [hnode] at this
    unfold TransFromData.evaluate
    refine this.trans ?_
    norm_num
  obtain ⟨p, hp, ep⟩ := ev 1 c1
  obtain ⟨p', hp', ep'⟩ := ev 2 c2
  refine ⟨_, _, p, p', ?_, ?_, hp, hp', ?_, ?_⟩
  · constructor
    · intro q c h
      have h' : q = 1 ∧ c = 1 := by by_contra hh; exact h (by simp [onePixel, hh])
      obtain ⟨rfl, rfl⟩ := h'
      exact ⟨1, 2, by decide, by decide, by simp [onePixel]⟩
    · intro q c h
      have h' : q = 1 ∧ c = 2 := by by_contra hh; exact h (by simp [onePixel, hh])
      obtain ⟨rfl, rfl⟩ := h'
      exact ⟨1, 1, by decide, by decide, by simp [onePixel]⟩
  · rw [onePixel_imgSum]; norm_num
  · rw [ep]
    rw [show onePixel 3 3 1 1 1 1 = 1 by simp [onePixel], show (1 : ℝ) / (4 / 9) = (3 / 2) ^ 2 by norm_num]
    exact Real.sqrt_sq (by norm_num)
  · rw [ep']
    rw [show onePixel 3 3 1 2 1 1 = 0 by simp [onePixel]]
    simp

end Lasy
