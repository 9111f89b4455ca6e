import Verif.Model.Time
import Verif.Spec.LinAlg

/-!
# Model of `PrePostProcessingDMD` and of the linear pre-processings

Sources: `/repo/pydmd/preprocessing/pre_post_processing.py`, `zero_mean.py`, `svd_projection.py`,
`randomized.py` in the same directory.
-/

set_option autoImplicit false

namespace Verif.Prepost

open Verif Verif.LinAlg Matrix

/-- A `PrePostProcessing`, pre_post_processing.py L18-27: pre-processing returns a state and the
transformed data, post-processing gets that state back. -/
structure Layer (D : Type) where
  S : Type
  pre : D → S × D
  post : S → D → D

/-- A DMD class as far as the wrappers are concerned: its instances `B`, `fit`, and the
reconstruction over a time window (`reconstructed_data` reads `dmd_time` of the instance). -/
structure Base (D B : Type) where
  fit : B → D → B
  window : B → Time.Window
  setWindow : B → Time.Window → B
  recon : B → D

/-- A wrapped instance: the DMD itself, or a `PrePostProcessingDMD` around a wrapped instance with
the stored `_pre_processing_output` (`None` before `fit`) and the instance attribute `dmd_time`
(absent unless somebody assigns it), pre_post_processing.py L45-55. -/
inductive Obj (D B : Type)
  | base (b : B)
  | wrap (l : Layer D) (out : Option l.S) (shadow : Option Time.Window) (inner : Obj D B)

variable {D B : Type}

/-- `fit`, pre_post_processing.py L98-107: the object after the call. -/
def Obj.fit (c : Base D B) : Obj D B → D → Obj D B
  | .base b, x => .base (c.fit b x)
  | .wrap l _ sh inner, x => .wrap l (some (l.pre x).1) sh (inner.fit c (l.pre x).2)

/-- The object returned by `fit`: `return self._dmd.fit(...)`, L107, and `return self` in the DMD
classes. -/
def Obj.fitReturn (c : Base D B) : Obj D B → D → Obj D B
  | .base b, x => .base (c.fit b x)
  | .wrap l _ _ inner, x => inner.fitReturn c (l.pre x).2

/-- `reconstructed_data`, pre_post_processing.py L66-67 and L109-117. Before `fit` the state is
`None`, which the post-processings of the package use as an array (`TypeError`). -/
def Obj.recon (c : Base D B) : Obj D B → Except PyErr D
  | .base b => .ok (c.recon b)
  | .wrap l out _ inner => do
      let y ← inner.recon c
      match out with
      | some s => pure (l.post s y)
      | none => .error .typeError

/-- Reading `dmd_time`: an attribute of the wrapper if present (`object.__getattribute__`, L58-61),
else the one of the wrapped instance, L70-75. -/
def Obj.window (c : Base D B) : Obj D B → Time.Window
  | .base b => c.window b
  | .wrap _ _ (some w) _ => w
  | .wrap _ _ none inner => inner.window c

/-- `obj.dmd_time = w`: the class has no such property and no `__setattr__`, so the assignment
creates an attribute of the wrapper. -/
def Obj.assignWindow (c : Base D B) : Obj D B → Time.Window → Obj D B
  | .base b, w => .base (c.setWindow b w)
  | .wrap l out _ inner, w => .wrap l out (some w) inner

/-- `obj.dmd_time["t0"] = …` etc.: the dictionary found by `Obj.window` is modified in place. -/
def Obj.editWindow (c : Base D B) : Obj D B → (Time.Window → Time.Window) → Obj D B
  | .base b, f => .base (c.setWindow b (f (c.window b)))
  | .wrap l out (some w) inner, f => .wrap l out (some (f w)) inner
  | .wrap l out none inner, f => .wrap l out none (inner.editWindow c f)

/-- The data the wrapped instance is fitted on by `fit(x, y)`: only the first argument is replaced,
pre_post_processing.py L98-107 and L138-147. -/
def pairData (l : Layer D) (x y : D) : D × D := ((l.pre x).2, y)

/-- Wrapping an instance in layers, outermost first (constructor, L45-55). -/
def Obj.stack : List (Layer D) → B → Obj D B
  | [], b => .base b
  | l :: ls, b => .wrap l none none (Obj.stack ls b)

variable {m n r : Type} [Fintype m] [Fintype n] [Fintype r]

/-- The average taken by zero-mean pre-processing, broadcast to the shape of the data:
`np.average(X, keepdims=True)` over all entries (default), zero_mean.py L40-41. -/
noncomputable def meanAll (X : Matrix m n ℂ) : ℂ :=
  (∑ i, ∑ j, X i j) / (Fintype.card m * Fintype.card n : ℕ)

/-- `np.average(X, axis=1, keepdims=True)`. -/
noncomputable def meanTime (X : Matrix m n ℂ) (i : m) : ℂ := (∑ j, X i j) / (Fintype.card n : ℕ)

/-- `_ZeroMeanPrePostProcessing` with default arguments, zero_mean.py L37-49. -/
noncomputable def zeroMeanAll : Layer (Matrix m n ℂ) where
  S := ℂ
  pre X := (meanAll X, fun i j => X i j - meanAll X)
  post c Y := fun i j => Y i j + c

/-- `_ZeroMeanPrePostProcessing` with `axis=1`. -/
noncomputable def zeroMeanTime : Layer (Matrix m n ℂ) where
  S := m → ℂ
  pre X := (meanTime X, fun i j => X i j - meanTime X i)
  post c Y := fun i j => Y i j + c i

/-- `_SvdProjectionPrePostProcessing.pre_processing` with projection matrix `U`,
svd_projection.py L40-54: `projection_matrix.T.dot(X)`. -/
def svdPre (U : Matrix m r ℂ) (X : Matrix m n ℂ) : Matrix r n ℂ := Uᵀ * X

/-- `_SvdProjectionPrePostProcessing.post_processing`, svd_projection.py L56-60. -/
def svdPost (U : Matrix m r ℂ) (Y : Matrix r n ℂ) : Matrix m n ℂ := U * Y

/-- `_RandomizedPrePostProcessing`, randomized.py L56-66; the state is `Q.conj().T`. -/
def randPre (Q : Matrix m r ℂ) (X : Matrix m n ℂ) : Matrix r m ℂ × Matrix r n ℂ := (Qᴴ, Qᴴ * X)

/-- `post_processing`, randomized.py L62-66. -/
def randPost (C : Matrix r m ℂ) (Y : Matrix r n ℂ) : Matrix m n ℂ := Cᴴ * Y

/-- `fit(X, Y)` of a DMD wrapped by the SVD projection: the shapes are compared, dmd.py L68 and
dmdbase.py L747-756, after the first argument was projected on `r` directions; the time instants
are assumed to be equally many. -/
def projectedPair {n r T : ℕ} (U : Matrix (Fin n) (Fin r) ℂ) (X Y : Matrix (Fin n) (Fin T) ℂ) :
    Except PyErr (Matrix (Fin r) (Fin T) ℂ × Matrix (Fin r) (Fin T) ℂ) :=
  if h : r = n then .ok (svdPre U X, Y.submatrix (Fin.cast h) id) else .error .valueError

end Verif.Prepost
