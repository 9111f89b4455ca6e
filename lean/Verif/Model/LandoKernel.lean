import Verif.Model.Py
import Mathlib.Tactic

/-!
# Model of the checks of kernels in LANDO

Source: `/repo/pydmd/lando.py` L472-480, L513-589, L986-1079.
-/

set_option autoImplicit false

namespace Verif.LandoKernel

open Verif

/-- The argument `kernel_metric`. -/
inductive Metric
  | linear
  | poly
  | rbf
  | other
  deriving DecidableEq

/-- The entry `gamma` of `kernel_params`: not given, `None`, or a number. -/
inductive Gamma
  | absent
  | none
  | value (g : ℚ)
  deriving DecidableEq

/-- The argument `kernel_params`: not a dictionary, or a dictionary of which `gamma` matters here. `sklearn`
tells whether `pairwise_kernels` accepts the dictionary on the dummy data (L1000-1005). -/
inductive Params
  | notDict
  | dict (gamma : Gamma) (sklearn : Bool)
  deriving DecidableEq

/-- A function given by the caller. `isFunction` is `inspect.isfunction`, true for functions written in
Python and false for other callables (`functools.partial`, objects with `__call__`, NumPy functions).
`shape n p q` is the shape returned for arrays of shapes `(n, p)` and `(n, q)`, `none` if the call raises or
returns something else. -/
structure Fn where
  isFunction : Bool
  shape : ℕ → ℕ → ℕ → Option (List ℕ)

/-- `_test_kernel_inputs`, L986-1014. -/
def testInputs (m : Metric) : Params → Except PyErr Unit
  | p =>
    if m = .other then .error .valueError
    else match p with
      | .notDict => .error .typeError
      | .dict _ ok => if ok then .ok () else .error .valueError

/-- `_test_kernel_functions`, L1016-1079: dummy arrays of shapes `(5, 10)` and `(5, 20)`; the gradient is
called with the first column of the second one. -/
def testFunctions : Option Fn → Option Fn → Except PyErr Unit
  | none, none => .ok ()
  | none, some _ => .error .valueError
  | some k, g => do
    if !k.isFunction then .error .typeError
    else match g with
      | none => if k.shape 5 10 20 = some [10, 20] then .ok () else .error .valueError
      | some g =>
        if !g.isFunction then .error .typeError
        else if k.shape 5 10 20 ≠ some [10, 20] then .error .valueError
        else if g.shape 5 10 1 ≠ some [10, 5] then .error .valueError
        else .ok ()

/-- The checks of the constructor, L475-480. -/
def construct (m : Metric) (p : Params) (k g : Option Fn) : Except PyErr Unit := do
  testInputs m p
  testFunctions k g

/-- The number `gamma` used by `pairwise_kernels` for `n` features: sklearn takes `1 / n` if it is `None` or
not given. -/
def kernelGamma (n : ℕ) : Gamma → ℚ
  | .absent => 1 / n
  | .none => 1 / n
  | .value g => g

/-- The number `gamma` used by `kernel_gradient`, L560-589 (`None` cannot be multiplied). The linear kernel
does not need it. -/
def gradientGamma (n : ℕ) : Gamma → Except PyErr ℚ
  | .absent => .ok (1 / n)
  | .none => .error .typeError
  | .value g => .ok g

/-- `kernel_gradient` as far as errors are concerned, L530-589. -/
def gradient (m : Metric) (n : ℕ) (p : Gamma) (k g : Option Fn) : Except PyErr Unit :=
  match k, g with
  | some _, none => .error .valueError
  | some _, some g => if (g.shape n n 1).isSome then .ok () else .error .valueError
  | none, _ => if m = .linear then .ok () else (gradientGamma n p).map fun _ => ()

end Verif.LandoKernel
