import Verif.Model.Py
import Mathlib.Analysis.Complex.Trigonometric
import Mathlib.Tactic

/-!
# Model of the preparation of the windows in `COSTS.fit`

Source: `/repo/pydmd/costs.py`. Real data, exact arithmetic.
-/

set_option autoImplicit false

namespace Verif.CostsKern

open Verif

/-- The argument `corner_sharpness`, costs.py L323-324: 16 by default. -/
noncomputable def sharpness : Option ℝ → ℝ
  | none => 16
  | some c => c

/-- Entry `i` of `calculate_lv_kern(window_length, corner_sharpness)`, costs.py L326-337. -/
noncomputable def lvKern (wl : ℕ) (c : Option ℝ) (i : ℕ) : ℝ :=
  Real.tanh (sharpness c * (i / wl)) - Real.tanh (sharpness c * ((i : ℝ) - wl - 1) / wl) - 1

/-- The data of a window as given to BOPDMD, costs.py L565-571: `x a i` is the value of variable `a` at
step `i` of the window. -/
noncomputable def prepared (wl : ℕ) (c : Option ℝ) (x : ℕ → ℕ → ℝ) (a i : ℕ) : ℝ :=
  (x a i - (∑ j ∈ Finset.range wl, x a j) / wl) * lvKern wl c i

/-- What `fit` does with the shape of `time` before it fits the first window, costs.py L458-463 and
L559-563: the number of elements is compared, then `time[:, slice]` is taken. Shapes of length 2 other than
`(1, n)` are passed on (`none` of the modelled errors). -/
def timeCheck (n : ℕ) (shape : List ℕ) : Except PyErr Unit :=
  if shape.prod ≠ n then .error .valueError
  else if shape.length < 2 then .error .indexError
  else .ok ()

end Verif.CostsKern
