import Verif.Spec.Register

/-!
# Specification of array isolation

A world without references: the caller holds a list of array *values*; the grid holds one field
(`Spec.Register`). Writing to the caller's array number `i` changes that value and nothing else.
-/

namespace Lasy.Spec

/-- what the caller can do, with the arrays it holds named by their position -/
inductive Act
  /-- `a = np.array(...)` -/
  | new (a : NdArray)
  /-- `a_i[idx] = v` -/
  | write (i : ℕ) (idx : List ℕ) (v : ℂ)
  /-- `grid.set_temporal_field(a_i)` -/
  | setTemporal (i : ℕ)
  /-- `grid.set_spectral_field(a_i)` -/
  | setSpectral (i : ℕ)
  /-- `a_new = grid.get_temporal_field()` -/
  | getTemporal
  /-- `a_new = grid.get_spectral_field()` -/
  | getSpectral

/-- `a[idx] = v` -/
def poke (a : NdArray) (idx : List ℕ) (v : ℂ) : NdArray :=
  { a with get := fun j => if j = idx then v else a.get j }

/-- caller's arrays and the register -/
structure Values (s : Shape) where
  mine : List NdArray
  field : Option (Field s)

/-- one step: the exception, if any, and the new world. Naming an array that the caller does not hold
is a `NameError` in Python, shown as `.key`. -/
noncomputable def Values.step {s : Shape} (w : Values s) : Act → Option PyErr × Values s
  | .new a => (none, { w with mine := w.mine ++ [a] })
  | .write i idx v =>
      match w.mine[i]? with
      | some a => (none, { w with mine := w.mine.set i (poke a idx v) })
      | none => (some .key, w)
  | .setTemporal i =>
      match w.mine[i]? with
      | some a => if fits s a then (none, { w with field := some (contents s a) })
                  else (some .assertion, w)
      | none => (some .key, w)
  | .setSpectral i =>
      match w.mine[i]? with
      | some a => if fits s a then (none, { w with field := some (dft (contents s a)) })
                  else (some .assertion, w)
      | none => (some .key, w)
  | .getTemporal =>
      match w.field with
      | some f => (none, { w with mine := w.mine ++ [Arr.toNd ⟨.c128, f⟩] })
      | none => (some .value, w)
  | .getSpectral =>
      match w.field with
      | some f => (none, { w with mine := w.mine ++ [Arr.toNd ⟨.c128, idft f⟩] })
      | none => (some .value, w)

/-- everything the caller sees along a history: after each action, the exception and the values of all
arrays it holds -/
noncomputable def Values.trace {s : Shape} (w : Values s) : List Act → List (Option PyErr × List NdArray)
  | [] => []
  | a :: as => ((w.step a).1, (w.step a).2.mine) :: (w.step a).2.trace as

end Lasy.Spec
