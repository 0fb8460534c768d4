import Verif.Model.Profile
import Verif.Props.LaserInit

/-!
# Properties C37, C38, C39 and C70: the base class of profiles, sums and multiples
-/

namespace Lasy
open Spec Phys Complex

/-! ## C37 -/

theorem normPol_pos {p : ℂ × ℂ} (h : p ≠ (0, 0)) : 0 < normPol p := by
  refine Real.sqrt_pos.mpr ?_
  by_contra hc
  have h1 : 0 ≤ ‖p.1‖ ^ 2 := sq_nonneg _
  have h2 : 0 ≤ ‖p.2‖ ^ 2 := sq_nonneg _
  have e1 : ‖p.1‖ ^ 2 = 0 := by linarith
  have e2 : ‖p.2‖ ^ 2 = 0 := by linarith
  apply h
  ext1
  · simpa using e1
  · simpa using e2

theorem polNormalised_unit {p : ℂ × ℂ} (h : p ≠ (0, 0)) :
    ‖(polNormalised p).1‖ ^ 2 + ‖(polNormalised p).2‖ ^ 2 = 1 := by
  have hp := normPol_pos h
  have hsq : normPol p ^ 2 = ‖p.1‖ ^ 2 + ‖p.2‖ ^ 2 := Real.sq_sqrt (by positivity)
  simp only [polNormalised, norm_div, Complex.norm_real, Real.norm_eq_abs, abs_of_pos hp, div_pow]
  rw [← add_div, ← hsq]
  exact div_self (by positivity)

theorem normPol_unit {p : ℂ × ℂ} (h : ‖p.1‖ ^ 2 + ‖p.2‖ ^ 2 = 1) : normPol p = 1 := by
  rw [normPol, h, Real.sqrt_one]

theorem polNormalised_id {p : ℂ × ℂ} (h : ‖p.1‖ ^ 2 + ‖p.2‖ ^ 2 = 1) : polNormalised p = p := by
  simp [polNormalised, normPol_unit h]

variable [Phys]

/-- **C37.** For every wavelength and every polarisation vector but `(0, 0)` the constructor of a profile
succeeds; the stored vector has norm 1 and the direction of the given one (it is a positive multiple of it, so
the relative phase of the components is kept); normalising again changes nothing; and
`omega0 * lambda0 = 2 π c`. -/
theorem C37_normalised (wavelength : ℝ) (hw : wavelength ≠ 0) (px py : ℂ) (hp : (px, py) ≠ (0, 0))
    (E : Option (Option ℝ)) (d : DType)
    (ev : {a b c : ℕ} → Coords a b c → Coords a b c → Coords a b c → Fin a → Fin b → Fin c → ℂ) :
    ∃ p, profileInit wavelength [px, py] E d ev = .ok p ∧ ‖p.pol.1‖ ^ 2 + ‖p.pol.2‖ ^ 2 = 1 ∧
      (∃ k : ℝ, 0 < k ∧ px = k * p.pol.1 ∧ py = k * p.pol.2) ∧ polNormalised p.pol = p.pol ∧
      p.lambda0 = wavelength ∧ p.omega0 * p.lambda0 = 2 * Real.pi * c := by
  have hu := polNormalised_unit hp
  have hpos := normPol_pos hp
  have hne : (normPol (px, py) : ℂ) ≠ 0 := by exact_mod_cast hpos.ne'
  refine ⟨_, rfl, hu, ⟨normPol (px, py), hpos, ?_, ?_⟩, polNormalised_id hu, rfl, ?_⟩
  · simp only [polNormalised]
    field_simp
  · simp only [polNormalised]
    field_simp
  · simp only
    field_simp

/-- **C37** (wrong length). Any list of other than two numbers is rejected. -/
theorem C37_length (wavelength : ℝ) (pol : List ℂ) (h : pol.length ≠ 2) (E : Option (Option ℝ)) (d : DType)
    (ev : {a b c : ℕ} → Coords a b c → Coords a b c → Coords a b c → Fin a → Fin b → Fin c → ℂ) :
    profileInit wavelength pol E d ev = .error .assertion := by
  unfold profileInit
  split
  · simp at h
  · rfl

/-- not vacuous: circular polarisation -/
example : ((1, I) : ℂ × ℂ) ≠ (0, 0) ∧ polNormalised (1, I) = (1 / (Real.sqrt 2 : ℂ), I / (Real.sqrt 2 : ℂ)) := by
  constructor
  · simp
  · have : normPol (1, I) = Real.sqrt 2 := by
      rw [normPol]
      norm_num
    rw [polNormalised, this]

/-! ## C38 -/

/-- a Python expression made of profiles with `+` and `*` -/
inductive ProfileExpr
  | base (p : ProfileObj)
  | add (a b : ProfileExpr)
  | mul (a : ProfileExpr) (k : PyVal)

/-- execution of the expression with the methods of the code -/
noncomputable def ProfileExpr.build : ProfileExpr → Except PyErr ProfileObj
  | .base p => .ok p
  | .add a b => match a.build with
    | .error e => .error e
    | .ok p => match b.build with
      | .error e => .error e
      | .ok q => profileAdd p q
  | .mul a k => match a.build with
    | .error e => .error e
    | .ok p => profileMul p k

omit [Phys] in
/-- what the expression means at a point of the arrays -/
noncomputable def ProfileExpr.value (e : ProfileExpr) {a b c : ℕ} (x y t : Coords a b c) (i : Fin a) (j : Fin b)
    (k : Fin c) : ℂ :=
  match e with
  | .base p => p.evaluate x y t i j k
  | .add a b => a.value x y t i j k + b.value x y t i j k
  | .mul a f => f.toC * a.value x y t i j k

omit [Phys] in
/-- the leftmost profile of the expression -/
def ProfileExpr.first : ProfileExpr → ProfileObj
  | .base p => p
  | .add a _ => a.first
  | .mul a _ => a.first

omit [Phys] in
/-- the profiles in the expression -/
def ProfileExpr.leaves : ProfileExpr → List ProfileObj
  | .base p => [p]
  | .add a b => a.leaves ++ b.leaves
  | .mul a _ => a.leaves

/-- what every constructed profile satisfies -/
def ProfileObj.Normal (p : ProfileObj) : Prop :=
  ‖p.pol.1‖ ^ 2 + ‖p.pol.2‖ ^ 2 = 1 ∧ p.omega0 = 2 * Real.pi * c / p.lambda0

theorem summedProfile_ok {p : ProfileObj} {rest : List ProfileObj} {q : ProfileObj}
    (h : summedProfile (p :: rest) = .ok q) :
    (∀ r ∈ p :: rest, isClose (r.lambda0 : ℂ) p.lambda0) ∧
    (∀ r ∈ p :: rest, isClose r.pol.1 p.pol.1 ∧ isClose r.pol.2 p.pol.2) ∧
    q = { omega0 := 2 * Real.pi * c / p.lambda0, lambda0 := p.lambda0, pol := polNormalised p.pol
          laserEnergy := none, dtype := rest.foldl (fun d q => d.promote q.dtype) p.dtype
          evaluate := fun x y t i j k => (p :: rest).foldl (fun acc q => acc + q.evaluate x y t i j k) 0 } := by
  unfold summedProfile at h
  simp only at h
  split at h
  · cases h
  · rename_i h1
    split at h
    · cases h
    · rename_i h2
      rw [not_not] at h1 h2
      refine ⟨h1, h2, ?_⟩
      simp only [profileInit] at h
      injection h with h
      exact h.symm

omit [Phys] in
theorem foldl_add_eq_sum {α : Type} (l : List α) (f : α → ℂ) (z : ℂ) :
    l.foldl (fun acc q => acc + f q) z = z + (l.map f).sum := by
  induction l generalizing z with
  | nil => simp
  | cons a l ih => simp [ih, add_assoc]

/-- **C38** (sums of any number of profiles). If `SummedProfile(*profiles)` is accepted, it evaluates to the sum
of the profiles at every point. -/
theorem C38_sum (ps : List ProfileObj) (q : ProfileObj) (h : summedProfile ps = .ok q) {a b c : ℕ}
    (x y t : Coords a b c) (i : Fin a) (j : Fin b) (k : Fin c) :
    q.evaluate x y t i j k = (ps.map fun p => p.evaluate x y t i j k).sum := by
  match ps with
  | [] => cases h
  | p :: rest =>
    obtain ⟨-, -, rfl⟩ := summedProfile_ok h
    simp only
    rw [foldl_add_eq_sum, zero_add]

/-- **C38.** Every expression made of profiles with `+` and `*`, however nested, that Python accepts evaluates,
on any arrays, to the corresponding sum and multiples of the fields. It has the wavelength of its leftmost
profile, and also its polarisation and frequency if the profiles are normalised (C37). -/
theorem C38_algebra (e : ProfileExpr) (p : ProfileObj) (h : e.build = .ok p) :
    (∀ (a b c : ℕ) (x y t : Coords a b c) (i : Fin a) (j : Fin b) (k : Fin c),
      p.evaluate x y t i j k = e.value x y t i j k) ∧ p.lambda0 = e.first.lambda0 ∧
    ((∀ q ∈ e.leaves, q.Normal) → p.Normal ∧ p.pol = e.first.pol) := by
  induction e generalizing p with
  | base q =>
    injection h with h
    subst h
    exact ⟨fun _ _ _ _ _ _ _ _ _ => rfl, rfl, fun hq => ⟨hq _ (by simp [ProfileExpr.leaves]), rfl⟩⟩
  | add a b iha ihb =>
    simp only [ProfileExpr.build] at h
    split at h
    · cases h
    · rename_i pa ha
      split at h
      · cases h
      · rename_i pb hb
        obtain ⟨va, la, na⟩ := iha pa ha
        obtain ⟨vb, -, -⟩ := ihb pb hb
        obtain ⟨-, -, rfl⟩ := summedProfile_ok h
        refine ⟨?_, la, ?_⟩
        · intro _ _ _ x y t i j k
          simp [ProfileExpr.value, va, vb]
        · intro hq
          obtain ⟨n1, n2⟩ := na fun q hq' => hq q (by simp [ProfileExpr.leaves, hq'])
          simp only [ProfileObj.Normal, polNormalised_id n1.1]
          exact ⟨⟨n1.1, trivial⟩, n2⟩
  | mul a k iha =>
    simp only [ProfileExpr.build] at h
    split at h
    · cases h
    · rename_i pa ha
      obtain ⟨va, la, na⟩ := iha pa ha
      have hs : ∃ d, p = { omega0 := 2 * Real.pi * Phys.c / pa.lambda0, lambda0 := pa.lambda0
                           pol := polNormalised pa.pol, laserEnergy := none, dtype := d
                           evaluate := fun x y t i j l => pa.evaluate x y t i j l * k.toC } := by
        unfold profileMul scaledProfile at h
        split at h
        · cases h
        · cases h
        · injection h with h
          exact ⟨_, h.symm⟩
      obtain ⟨d, rfl⟩ := hs
      refine ⟨?_, la, ?_⟩
      · intro _ _ _ x y t i j l
        simp [ProfileExpr.value, va, mul_comm]
      · intro hq
        obtain ⟨n1, n2⟩ := na fun q hq' => hq q (by simpa [ProfileExpr.leaves] using hq')
        simp only [ProfileObj.Normal, polNormalised_id n1.1]
        exact ⟨⟨n1.1, trivial⟩, n2⟩

/-- **C38** (factors). A product with a Python integer or float is the profile times this number; products with anything
else are refused. -/
theorem C38_factor (p : ProfileObj) :
    (∀ n : ℤ, ∃ q, profileMul p (.int n) = .ok q ∧ ∀ {a b c : ℕ} (x y t : Coords a b c) (i : Fin a) (j : Fin b) (k : Fin c),
      q.evaluate x y t i j k = (n : ℂ) * p.evaluate x y t i j k) ∧
    (∀ v : ℝ, ∃ q, profileMul p (.float v) = .ok q ∧ ∀ {a b c : ℕ} (x y t : Coords a b c) (i : Fin a) (j : Fin b) (k : Fin c),
      q.evaluate x y t i j k = (v : ℂ) * p.evaluate x y t i j k) ∧
    (∀ z : ℂ, profileMul p (.complex z) = .error .assertion) ∧ profileMul p .other = .error .assertion :=
  ⟨fun _ => ⟨_, rfl, fun _ _ _ _ _ _ => mul_comm _ _⟩, fun _ => ⟨_, rfl, fun _ _ _ _ _ _ => mul_comm _ _⟩, fun _ => rfl, rfl⟩

omit [Phys] in
theorem DType.promote_c128 (d e : DType) : d.promote e = .c128 ↔ d = .c128 ∨ e = .c128 := by
  cases d <;> cases e <;> simp [DType.promote]

/-- **C38** (complex fields). A sum gives complex values exactly if one of its terms does, so no imaginary part is
dropped; a multiple, if the profile does; a combined profile, if the transverse or the longitudinal profile does. -/
theorem C38_complex :
    (∀ (ps : List ProfileObj) (q : ProfileObj), summedProfile ps = .ok q →
      (q.dtype = .c128 ↔ ∃ p ∈ ps, p.dtype = .c128)) ∧
    (∀ (p : ProfileObj) (k : PyVal) (q : ProfileObj), profileMul p k = .ok q → q.dtype = p.dtype) ∧
    (∀ (w : ℝ) (pol : List ℂ) (E : Option ℝ) (long : ℝ → ℂ) (dl : DType) (trans : ℝ → ℝ → ℂ) (dt : DType) (q : ProfileObj),
      combinedProfile w pol E long dl trans dt = .ok q → (q.dtype = .c128 ↔ dt = .c128 ∨ dl = .c128)) := by
  refine ⟨?_, ?_, ?_⟩
  · intro ps q h
    match ps with
    | [] => cases h
    | p :: rest =>
      obtain ⟨-, -, rfl⟩ := summedProfile_ok h
      have : ∀ (rest : List ProfileObj) (d : DType), rest.foldl (fun d q => d.promote q.dtype) d = .c128 ↔
          d = .c128 ∨ ∃ p ∈ rest, p.dtype = .c128 := by
        intro rest
        induction rest with
        | nil => simp
        | cons r rest ih => intro d; simp [ih, DType.promote_c128, or_assoc]
      simp [this]
  · intro p k q h
    cases k with
    | int n => cases h; rfl
    | float v => cases h; rfl
    | complex z => cases h
    | other => cases h
  · intro w pol E long dl trans dt q h
    unfold combinedProfile profileInit at h
    split at h
    · cases h
      exact DType.promote_c128 _ _
    · cases h

omit [Phys] in
theorem isClose_self (a : ℂ) : isClose a a := by
  unfold isClose
  simp
  positivity

omit [Phys] in
/-- all factors are Python integers or floats -/
def ProfileExpr.factorsReal : ProfileExpr → Prop
  | .base _ => True
  | .add a b => a.factorsReal ∧ b.factorsReal
  | .mul a k => a.factorsReal ∧ ((∃ n, k = .int n) ∨ ∃ x, k = .float x)

/-- **C38** (acceptance). Expressions are accepted if the profiles have the same wavelength and polarisation
(normalised) and the factors are Python integers or floats. -/
theorem C38_accepted (e : ProfileExpr) (hn : ∀ q ∈ e.leaves, q.Normal)
    (hs : ∀ q ∈ e.leaves, q.lambda0 = e.first.lambda0 ∧ q.pol = e.first.pol)
    (hk : e.factorsReal) : ∃ p, e.build = .ok p := by
  have hfirst : ∀ e : ProfileExpr, e.first ∈ e.leaves := by
    intro e
    induction e with
    | base p => simp [ProfileExpr.first, ProfileExpr.leaves]
    | add a b iha ihb => simp [ProfileExpr.first, ProfileExpr.leaves, iha]
    | mul a k iha => simpa [ProfileExpr.first, ProfileExpr.leaves] using iha
  generalize e.first.lambda0 = L at hs
  generalize e.first.pol = P at hs
  induction e with
  | base p => exact ⟨p, rfl⟩
  | add a b iha ihb =>
    have na : ∀ q ∈ a.leaves, q.Normal := fun q h => hn q (by simp [ProfileExpr.leaves, h])
    have nb : ∀ q ∈ b.leaves, q.Normal := fun q h => hn q (by simp [ProfileExpr.leaves, h])
    have sa : ∀ q ∈ a.leaves, q.lambda0 = L ∧ q.pol = P := fun q h => hs q (by simp [ProfileExpr.leaves, h])
    have sb : ∀ q ∈ b.leaves, q.lambda0 = L ∧ q.pol = P := fun q h => hs q (by simp [ProfileExpr.leaves, h])
    obtain ⟨pa, ha⟩ := iha na hk.1 sa
    obtain ⟨pb, hb⟩ := ihb nb hk.2 sb
    obtain ⟨-, la, ma⟩ := C38_algebra a pa ha
    obtain ⟨-, lb, mb⟩ := C38_algebra b pb hb
    have la' : pa.lambda0 = L := la.trans (sa _ (hfirst a)).1
    have lb' : pb.lambda0 = L := lb.trans (sb _ (hfirst b)).1
    have qa' : pa.pol = P := (ma na).2.trans (sa _ (hfirst a)).2
    have qb' : pb.pol = P := (mb nb).2.trans (sb _ (hfirst b)).2
    simp only [ProfileExpr.build, ha, hb, profileAdd, summedProfile]
    rw [if_neg (by simp [la', lb', isClose_self]), if_neg (by simp [qa', qb', isClose_self])]
    exact ⟨_, rfl⟩
  | mul a k iha =>
    obtain ⟨pa, ha⟩ := iha (fun q h => hn q (by simpa [ProfileExpr.leaves] using h)) hk.1
      (fun q h => hs q (by simpa [ProfileExpr.leaves] using h))
    simp only [ProfileExpr.build, ha, profileMul, scaledProfile]
    rcases hk.2 with ⟨n, rfl⟩ | ⟨x, rfl⟩
    · exact ⟨_, rfl⟩
    · exact ⟨_, rfl⟩

/-- C38 is not vacuous: `2 * (p + q) + p * 0.5` for two different profiles -/
example (f g : ℝ → ℝ → ℝ → ℂ) : ∃ p q r : ProfileObj, p.Pointwise f ∧ q.Pointwise g ∧
    (ProfileExpr.add (.mul (.add (.base p) (.base q)) (.int 2)) (.mul (.base p) (.float 0.5))).build = .ok r ∧
    r.Pointwise fun x y t => 2 * (f x y t + g x y t) + 0.5 * f x y t := by
  let mk : (ℝ → ℝ → ℝ → ℂ) → ProfileObj := fun f => ⟨2 * Real.pi * c / 1, 1, (1, 0), none, .c128,
    fun x y t i j k => f (x i j k) (y i j k) (t i j k)⟩
  have hn : ∀ f, (mk f).Normal := fun f => ⟨by simp [mk], by simp [mk]⟩
  set e := ProfileExpr.add (.mul (.add (.base (mk f)) (.base (mk g))) (.int 2))
    (.mul (.base (mk f)) (.float 0.5)) with he
  obtain ⟨r, hr⟩ := C38_accepted e (by simp [he, ProfileExpr.leaves, hn])
    (by simp [he, ProfileExpr.leaves, ProfileExpr.first, mk]) (by simp [he, ProfileExpr.factorsReal])
  refine ⟨mk f, mk g, r, fun _ _ _ _ _ _ _ _ _ => rfl, fun _ _ _ _ _ _ _ _ _ => rfl, hr, ?_⟩
  intro a b c x y t i j k
  rw [(C38_algebra e r hr).1]
  simp [he, ProfileExpr.value, PyVal.toC, mk]

/-! ## C39 -/

/-- **C39** is false of the code: `np.allclose` is called with its absolute tolerance of `1e-8`, which for
wavelengths in metres is 10 nm. Two profiles at 800 nm and 809 nm are added. -/
theorem C39_refuted (p q : ProfileObj) (hp : p.lambda0 = 800 / 10 ^ 9) (hq : q.lambda0 = 809 / 10 ^ 9)
    (hpol : q.pol = p.pol) : ∃ r, profileAdd p q = .ok r ∧ r.lambda0 = 800 / 10 ^ 9 := by
  simp only [profileAdd, summedProfile]
  have h1 : isClose (q.lambda0 : ℂ) p.lambda0 := by
    unfold isClose
    rw [hp, hq, ← Complex.ofReal_sub, Complex.norm_real, Complex.norm_real, Real.norm_eq_abs, Real.norm_eq_abs]
    norm_num [abs_of_pos]
  rw [if_neg (by simp [isClose_self, h1]), if_neg (by simp [isClose_self, hpol])]
  exact ⟨_, rfl, hp⟩

/-- **C39**, what does hold: the wavelengths and polarisations of profiles that are added agree up to the
tolerances of `np.allclose`; anything further apart is rejected. -/
theorem C39_tolerance_partial (p q : ProfileObj) :
    ((∃ r, profileAdd p q = .ok r) ↔ |q.lambda0 - p.lambda0| ≤ 1 / 10 ^ 8 + 1 / 10 ^ 5 * |p.lambda0| ∧
      ‖q.pol.1 - p.pol.1‖ ≤ 1 / 10 ^ 8 + 1 / 10 ^ 5 * ‖p.pol.1‖ ∧
      ‖q.pol.2 - p.pol.2‖ ≤ 1 / 10 ^ 8 + 1 / 10 ^ 5 * ‖p.pol.2‖) ∧
    ((¬ ∃ r, profileAdd p q = .ok r) → profileAdd p q = .error .assertion) := by
  have hl : isClose (q.lambda0 : ℂ) p.lambda0 ↔
      |q.lambda0 - p.lambda0| ≤ 1 / 10 ^ 8 + 1 / 10 ^ 5 * |p.lambda0| := by
    unfold isClose
    rw [← Complex.ofReal_sub, Complex.norm_real, Complex.norm_real, Real.norm_eq_abs, Real.norm_eq_abs]
  rw [← hl]
  simp only [profileAdd, summedProfile]
  by_cases h1 : isClose (q.lambda0 : ℂ) p.lambda0
  · by_cases h2 : isClose q.pol.1 p.pol.1 ∧ isClose q.pol.2 p.pol.2
    · rw [if_neg (by simp [isClose_self, h1]), if_neg (by simp [isClose_self, h2])]
      refine ⟨⟨fun _ => ⟨h1, h2⟩, fun _ => ⟨_, rfl⟩⟩, fun h => absurd ⟨_, rfl⟩ h⟩
    · rw [if_neg (by simp [isClose_self, h1]), if_pos (by simp [isClose_self]; exact fun h => by tauto)]
      refine ⟨⟨?_, fun h => absurd h.2 h2⟩, fun _ => rfl⟩
      rintro ⟨r, h⟩
      cases h
  · rw [if_pos (by simp [isClose_self, h1])]
    refine ⟨⟨?_, fun h => absurd h.1 h1⟩, fun _ => rfl⟩
    rintro ⟨r, h⟩
    cases h

/-- both sides of the tolerance occur: 800 nm and 820 nm are not added -/
example (p q : ProfileObj) (hp : p.lambda0 = 800 / 10 ^ 9) (hq : q.lambda0 = 820 / 10 ^ 9) :
    profileAdd p q = .error .assertion := by
  refine (C39_tolerance_partial p q).2 fun h => ?_
  have := ((C39_tolerance_partial p q).1.mp h).1
  rw [hp, hq] at this
  norm_num [abs_of_pos] at this

/-! ## C70 -/

/-- a laser made without normalisation: its grid is the one of the arguments, and it holds the sample -/
theorem Laser.init_noEnergy {s : Shape} {dim : String} {lo hi : List ℝ} {np : List ℕ} {p : ProfileObj}
    {m N : Option ℕ} {l : Laser s} (h : Laser.init dim lo hi np p m N = .ok ⟨s, l⟩) (hp : p.laserEnergy = none) :
    ∃ g : Grid s, Grid.init dim lo hi np m true = .ok ⟨s, g⟩ ∧
      (∃ f, l.Has f ∧ Laser.sample g p N = .ok (Arr.toNd ⟨.c128, f⟩)) ∧
      l.grid.geom = g.geom ∧ l.grid.t = g.t := by
  obtain ⟨g, f, l1, h1, h2, -, h4, h5, h6, hc⟩ := Laser.init_ok h
  rcases hc with ⟨-, rfl⟩ | ⟨e, he, -⟩
  · exact ⟨g, h1, ⟨f, h4, h2⟩, h5, h6⟩
  · rw [hp] at he
    cases he

/-- and the converse -/
theorem Laser.init_of_sample {s : Shape} {dim : String} {lo hi : List ℝ} {np : List ℕ} {p : ProfileObj}
    {m N : Option ℕ} {g : Grid s} (hg : Grid.init dim lo hi np m true = .ok ⟨s, g⟩) {f : Field s}
    (hs : Laser.sample g p N = .ok (Arr.toNd ⟨.c128, f⟩)) (hp : p.laserEnergy = none) :
    ∃ l : Laser s, Laser.init dim lo hi np p m N = .ok ⟨s, l⟩ ∧ l.Has f := by
  obtain ⟨g', e', h', -⟩ := (Grid.init_holds hg).setT f
  refine ⟨{ Laser.raw g p with grid := g' }, ?_, h'⟩
  unfold Laser.init
  simp only [hg, hs, Bind.bind, Except.bind, hp]
  rw [onGrid_eq (l := Laser.raw g p) e']

omit [Phys] in
theorem toNd_inj {s : Shape} {a b : Arr s} (h : a.toNd = b.toNd) : a = b := by
  have h1 : a.dtype = b.dtype := congrArg NdArray.dtype h
  have h2 : a.val = b.val := by rw [← Arr.toNd_content a, ← Arr.toNd_content b, h]
  cases a
  cases b
  simp_all

omit [Phys] in
/-- the sample is linear in the values of the profile -/
theorem Laser.sample_combine {s : Shape} {g : Grid s} {N : Option ℕ} {p q r : ProfileObj} {f h : Field s}
    (hp : Laser.sample g p N = .ok (Arr.toNd ⟨.c128, f⟩)) (hq : Laser.sample g q N = .ok (Arr.toNd ⟨.c128, h⟩))
    (u v : ℂ) (hd : p.dtype = .c128 → r.dtype = .c128)
    (hr : ∀ {a b c : ℕ} (x y t : Coords a b c) (i : Fin a) (j : Fin b) (k : Fin c),
      r.evaluate x y t i j k = u * p.evaluate x y t i j k + v * q.evaluate x y t i j k) :
    Laser.sample g r N = .ok (Arr.toNd ⟨.c128, fun i j k => u * f i j k + v * h i j k⟩) := by
  unfold Laser.sample at hp hq ⊢
  split at hp
  · rename_i x y hgeo
    rw [hgeo] at hq
    injection hp with hp
    injection hq with hq
    have hp' := toNd_inj hp
    have hq' := toNd_inj hq
    injection hp' with e1 e2
    injection hq' with e3 e4
    congr 3
    · exact hd e1
    · rw [← e2, ← e4]
      funext i j k
      exact hr ..
  · rename_i n hm r' hgeo
    rw [hgeo] at hq
    dsimp only at hp hq ⊢
    split at hp
    · rename_i hN
      rw [dif_pos hN] at hq ⊢
      injection hp with hp
      injection hq with hq
      have hp' := toNd_inj hp
      have hq' := toNd_inj hq
      injection hp' with e1 e2
      injection hq' with e3 e4
      congr 3
      rw [← e2, ← e4]
      funext i j k
      have : (fun q' => Laser.sampleTheta r (N.getD (2 * n - 1)) r'.pts g.t.pts q' j k) = fun q' =>
          u * Laser.sampleTheta p (N.getD (2 * n - 1)) r'.pts g.t.pts q' j k +
            v * Laser.sampleTheta q (N.getD (2 * n - 1)) r'.pts g.t.pts q' j k := by
        funext q'
        exact hr ..
      rw [this, ifft_add, ifft_smul, ifft_smul]
    · cases hp

/-- **C70**, what does hold: for profiles without an energy, in any geometry, the laser made from `p + q` is
constructed and holds the sum of the fields of the lasers made from `p` and from `q`. -/
theorem C70_add_partial {s : Shape} {dim : String} {lo hi : List ℝ} {np : List ℕ} {p q r : ProfileObj}
    {m N : Option ℕ} {lp lq : Laser s} (hp : p.laserEnergy = none) (hq : q.laserEnergy = none)
    (hlp : Laser.init dim lo hi np p m N = .ok ⟨s, lp⟩) (hlq : Laser.init dim lo hi np q m N = .ok ⟨s, lq⟩)
    (hr : profileAdd p q = .ok r) (f h : Field s) (hf : lp.Has f) (hh : lq.Has h) :
    ∃ l : Laser s, Laser.init dim lo hi np r m N = .ok ⟨s, l⟩ ∧ l.Has fun i j k => f i j k + h i j k := by
  obtain ⟨g, g1, ⟨f', g2, g3⟩, -⟩ := Laser.init_noEnergy hlp hp
  obtain ⟨g', g1', ⟨h', g2', g3'⟩, -⟩ := Laser.init_noEnergy hlq hq
  obtain rfl : g = g' := by
    rw [g1] at g1'
    simpa using g1'
  obtain rfl : f = f' := hf.unique g2
  obtain rfl : h = h' := hh.unique g2'
  obtain ⟨-, -, hre⟩ := summedProfile_ok hr
  have := Laser.sample_combine (r := r) g3 g3' 1 1 (by
    intro hd
    rw [hre]
    simp [hd, DType.promote]) (by
    intro a b c x y t i j k
    rw [one_mul, one_mul]
    exact C38_sum _ _ hr x y t i j k |>.trans (by simp))
  simp only [one_mul] at this
  exact Laser.init_of_sample g1 this (by rw [hre])

/-- **C70**, what does hold: the laser made from `k * p`, `p` without an energy, holds `k` times the field. -/
theorem C70_mul_partial {s : Shape} {dim : String} {lo hi : List ℝ} {np : List ℕ} {p r : ProfileObj} {k : PyVal}
    {m N : Option ℕ} {lp : Laser s} (hp : p.laserEnergy = none)
    (hlp : Laser.init dim lo hi np p m N = .ok ⟨s, lp⟩)
    (hr : profileMul p k = .ok r) (f : Field s) (hf : lp.Has f) :
    ∃ l : Laser s, Laser.init dim lo hi np r m N = .ok ⟨s, l⟩ ∧ l.Has fun i j l => k.toC * f i j l := by
  obtain ⟨g, g1, ⟨f', g2, g3⟩, -⟩ := Laser.init_noEnergy hlp hp
  obtain rfl : f = f' := hf.unique g2
  have hev := (C38_algebra (.mul (.base p) k) r (by simpa [ProfileExpr.build] using hr)).1
  have hd : r.dtype = p.dtype ∧ r.laserEnergy = none := by
    unfold profileMul scaledProfile at hr
    split at hr
    · cases hr
    · cases hr
    · injection hr with hr
      rw [← hr]
      exact ⟨rfl, rfl⟩
  have := Laser.sample_combine (r := r) g3 g3 k.toC 0 (fun h => hd.1.trans h) (by
    intro a b c x y t i j l
    rw [hev]
    simp [ProfileExpr.value])
  simp only [zero_mul, add_zero] at this
  exact Laser.init_of_sample g1 this hd.2

/-- the premises of `C70_mul_partial` are met: the laser made from `3 * p`, `p` constant, holds `3` -/
example : ∃ (q : ProfileObj) (l : Laser ⟨2, 2, 2⟩), profileMul (constProfile none) (.int 3) = .ok q ∧
    Laser.init "xyt" [0, 0, 0] [1, 1, 1] [2, 2, 2] q none none = .ok ⟨_, l⟩ ∧ l.Has fun _ _ _ => 3 := by
  obtain ⟨l0, E0, h0, hf, -⟩ := constLaser
  obtain ⟨l, h1, h2⟩ := C70_mul_partial (p := constProfile none) (k := .int 3) rfl h0 rfl _ hf
  refine ⟨_, l, rfl, h1, ?_⟩
  simpa [PyVal.toC] using h2

/-- **C70** is false of the code for profiles with an energy: `p * 1` has no attribute `laser_energy`, so the
laser made from it is not normalised. The two lasers below are made from `p` and from `p * 1`. -/
theorem C70_refuted : ∃ (p q : ProfileObj) (l l' : Laser ⟨2, 2, 2⟩) (E E' : ℝ),
    profileMul p (.int 1) = .ok q ∧
    Laser.init "xyt" [0, 0, 0] [1, 1, 1] [2, 2, 2] p none none = .ok ⟨_, l⟩ ∧
    Laser.init "xyt" [0, 0, 0] [1, 1, 1] [2, 2, 2] q none none = .ok ⟨_, l'⟩ ∧
    p.laserEnergy = some (some E) ∧ l.energy = .ok E ∧ l'.energy = .ok E' ∧ E ≠ E' := by
  obtain ⟨l0, E0, h0, hf, hE, hpos⟩ := constLaser
  obtain ⟨l, f, h1, h2, h3, -⟩ := C14_energy_at_construction (constProfile (some (some (E0 + 1)))) none none
    (E0 + 1) (by linarith) rfl l0 _ hf E0 hE hpos.le h0
  obtain ⟨h4, -⟩ := h3 hpos.ne'
  obtain ⟨l', h5, h6⟩ := C14_unscaled_xyt 0 0 0 1 1 1 2 2 2 le_rfl le_rfl le_rfl
    ({ constProfile none with
        omega0 := 2 * Real.pi * c / 1, pol := polNormalised (1, 0)
        evaluate := fun {a b c} x y t i j k =>
          (constProfile none).evaluate (a := a) (b := b) (c := c) x y t i j k * (PyVal.int 1).toC })
    rfl rfl (fun _ _ _ => 1) (fun _ _ _ _ _ _ _ _ _ => by simp [constProfile, PyVal.toC]) none none
  obtain ⟨g, g1, -, g3, g4⟩ := Laser.init_noEnergy h0 rfl
  obtain ⟨g', g1', -, g3', g4'⟩ := Laser.init_noEnergy h5 rfl
  obtain rfl : g = g' := by
    rw [g1] at g1'
    simpa using g1'
  have hE' : l'.energy = .ok E0 := by
    rw [h6.energy]
    rw [hf.energy] at hE
    rw [← hE]
    simp only [Grid.cellVolume, g3, g4, g3', g4']
  exact ⟨_, _, l, l', E0 + 1, E0, rfl, h1, h5, rfl, h4, hE', by linarith⟩

end Lasy
