import Mathlib.Data.Complex.Basic

/-!
# Python execution model

* `PyErr`   – the exception classes raised by the modelled code.
* `Py σ α`  – a method acting on an object with state `σ`: it returns either a value or an
  exception *together with the state at that moment*. An exception does not undo the mutations made
  before it was raised, exactly as in Python.
* `DType`, `NdArray` – a NumPy array as seen by code that checks `.shape` and `.dtype`.
-/

namespace Lasy

/-- Exception classes of Python/NumPy raised by the modelled code. -/
inductive PyErr
  | assertion | value | type | index | attribute | unbound | notImplemented | axis | key
  | zeroDivision | runtime
  deriving DecidableEq, Repr

/-- A Python method on an object with state `σ`. -/
def Py (σ α : Type) := σ → Except PyErr α × σ

namespace Py
variable {σ α β : Type}

/-- `return a` -/
def ret (a : α) : Py σ α := fun s => (.ok a, s)

/-- `raise e` -/
def raise (e : PyErr) : Py σ α := fun s => (.error e, s)

/-- `x = m; f(x)`: the exception of `m` propagates with the state that `m` left. -/
def bind (m : Py σ α) (f : α → Py σ β) : Py σ β := fun s =>
  match m s with
  | (.ok a, s') => f a s'
  | (.error e, s') => (.error e, s')

instance : Monad (Py σ) where
  pure := ret
  bind := bind

/-- the current state of `self` -/
def get : Py σ σ := fun s => (.ok s, s)

/-- assignment to attributes of `self` -/
def modify (f : σ → σ) : Py σ Unit := fun s => (.ok (), f s)

/-- `assert b` -/
def require (b : Prop) [Decidable b] : Py σ Unit := fun s =>
  if b then (.ok (), s) else (.error .assertion, s)

@[simp] theorem pure_apply (a : α) (s : σ) : (Pure.pure a : Py σ α) s = (.ok a, s) := rfl
@[simp] theorem ret_apply (a : α) (s : σ) : (ret a : Py σ α) s = (.ok a, s) := rfl
@[simp] theorem raise_apply (e : PyErr) (s : σ) : (raise e : Py σ α) s = (.error e, s) := rfl
@[simp] theorem get_apply (s : σ) : (get : Py σ σ) s = (.ok s, s) := rfl
@[simp] theorem modify_apply (f : σ → σ) (s : σ) : modify f s = (.ok (), f s) := rfl
theorem require_apply (b : Prop) [Decidable b] (s : σ) :
    (require b : Py σ Unit) s = if b then (.ok (), s) else (.error .assertion, s) := rfl
@[simp] theorem require_pos {b : Prop} [Decidable b] (h : b) (s : σ) :
    (require b : Py σ Unit) s = (.ok (), s) := by simp [require, h]
@[simp] theorem require_neg {b : Prop} [Decidable b] (h : ¬ b) (s : σ) :
    (require b : Py σ Unit) s = (.error .assertion, s) := by simp [require, h]
theorem bind_apply (m : Py σ α) (f : α → Py σ β) (s : σ) :
    (m >>= f) s = match m s with
      | (.ok a, s') => f a s'
      | (.error e, s') => (.error e, s') := rfl
theorem bind_ok {m : Py σ α} {f : α → Py σ β} {s s' : σ} {a : α} (h : m s = (.ok a, s')) :
    (m >>= f) s = f a s' := by simp [bind_apply, h]
theorem bind_error {m : Py σ α} {f : α → Py σ β} {s s' : σ} {e : PyErr}
    (h : m s = (.error e, s')) : (m >>= f) s = (.error e, s') := by simp [bind_apply, h]

end Py

/-- The element types lasy distinguishes (`grid.py:87-90`): `"complex128"`, `"float64"`; everything
else (ints, bools, ...) is `other`. -/
inductive DType
  | c128 | f64 | other
  deriving DecidableEq, Repr

/-- A NumPy array as an argument of a checking function: `shape`, `dtype` and the elements. Only the
values of `get` at index lists inside `shape` are meaningful. A real (`f64`) array stores real numbers
as elements of `ℂ`. -/
structure NdArray where
  shape : List ℕ
  dtype : DType
  get : List ℕ → ℂ

/-- Shape of a `Grid`: `self.shape` (`grid.py:62-68`). -/
structure Shape where
  n0 : ℕ
  n1 : ℕ
  nt : ℕ
  deriving DecidableEq, Repr

/-- Contents of a 3-D array of shape `s`. -/
abbrev Field (s : Shape) := Fin s.n0 → Fin s.n1 → Fin s.nt → ℂ

/-- the shape tuple -/
def Shape.toList (s : Shape) : List ℕ := [s.n0, s.n1, s.nt]

/-- A 3-D array whose shape is known to be `s`. -/
structure Arr (s : Shape) where
  dtype : DType
  val : Field s

/-- forget that the shape is known -/
def Arr.toNd {s : Shape} (a : Arr s) : NdArray where
  shape := s.toList
  dtype := a.dtype
  get := fun idx => match idx with
    | [i, j, k] =>
      if h : i < s.n0 ∧ j < s.n1 ∧ k < s.nt then a.val ⟨i, h.1⟩ ⟨j, h.2.1⟩ ⟨k, h.2.2⟩ else 0
    | _ => 0

/-- the content of an array, read with the index ranges of shape `s` (meaningful when
`a.shape = s.toList`) -/
def NdArray.content (a : NdArray) (s : Shape) : Field s := fun i j k => a.get [i, j, k]

@[simp] theorem Arr.toNd_shape {s : Shape} (a : Arr s) : a.toNd.shape = s.toList := rfl
@[simp] theorem Arr.toNd_dtype {s : Shape} (a : Arr s) : a.toNd.dtype = a.dtype := rfl
@[simp] theorem Arr.toNd_content {s : Shape} (a : Arr s) : a.toNd.content s = a.val := by
  funext i j k
  simp [NdArray.content, Arr.toNd]

end Lasy
