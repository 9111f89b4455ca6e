import Verif.Model.Time
import Verif.Model.MrDMD
import Mathlib.Analysis.SpecialFunctions.Complex.Log
import Mathlib.Analysis.SpecialFunctions.Pow.Real

/-!
# Model of `frequency` and `growth_rate`

Source: `/repo/pydmd/dmdbase.py` L271-301, L372-390; `/repo/pydmd/varprodmd.py` L806-835;
`/repo/pydmd/mrdmd.py` L270-330.

Simplifications: exact real and complex numbers; a time step 0 (numpy: `nan` or `inf` with a warning)
gives 0 here, and the theorems exclude it.
-/

set_option autoImplicit false

namespace Verif.Spectrum

open Verif

/-- The array of eigenvalues. `np.linalg.eig` returns an array of floats if the matrix is real and so
are all its eigenvalues, and an array of complex numbers else (dmdoperator.py L222). -/
inductive Eigs
  | real (l : List ℝ)
  | cplx (l : List ℂ)

/-- `np.log(eigs).imag`: the logarithm of an array of floats is an array of floats (`nan` for negative
entries), whose imaginary part is an array of zeros. -/
noncomputable def logImag : Eigs → List ℝ
  | .real l => l.map fun _ => 0
  | .cplx l => l.map fun z => (Complex.log z).im

/-- `eigs.real`. -/
def realPart : Eigs → List ℝ
  | .real l => l
  | .cplx l => l.map fun z => z.re

/-- `DMDBase.frequency`, dmdbase.py L372-380; `none` is an `original_time` that no `fit` has set, whose
getter raises (L560-564). -/
noncomputable def frequency (eigs : Eigs) : Option Time.Window → Except PyErr (List ℝ)
  | none => .error .runtimeError
  | some w => .ok ((logImag eigs).map fun a => a / (2 * Real.pi * (w.dt : ℝ)))

/-- `DMDBase.growth_rate`, dmdbase.py L382-390. -/
noncomputable def growthRate (eigs : Eigs) : Option Time.Window → Except PyErr (List ℝ)
  | none => .error .runtimeError
  | some w => .ok ((realPart eigs).map fun a => a / (w.dt : ℝ))

/-- `np.power(temp, tpow)` at one eigenvalue, dmdbase.py L301, on an array of floats: `none` stands for
`nan`, the power of a negative float with an exponent that is no integer. (A zero base with a negative
exponent gives `inf` in numpy and 0 here.) -/
noncomputable def powReal (x : ℝ) (p : ℚ) : Option ℝ :=
  if x < 0 then (if p.den = 1 then some (x ^ p.num) else none) else some (x ^ (p : ℝ))

/-- One column of `np.power(temp, tpow)`, dmdbase.py L301, for both types of arrays. -/
noncomputable def powers (p : ℚ) : Eigs → List (Option ℂ)
  | .real l => l.map fun x => (powReal x p).map fun y : ℝ => (y : ℂ)
  | .cplx l => l.map fun z => some (Time.npPow z p)

/-- The classes that inherit `frequency` and `growth_rate`, by what their `fit` does to
`original_time`. -/
inductive Cls
  /-- `DMD` and the classes whose `fit` calls `_set_initial_time_dictionary` with the number of
  snapshots (dmd.py L73-77, lando.py L787-789, cdmd.py L239-241, ...). -/
  | dmd
  /-- `BOPDMD`, whose `fit` and `fit_econ` set `_time` only (bopdmd.py L1388-1572). -/
  | bop

/-- `original_time` after `fit` on `n` snapshots. -/
def Cls.timeAfterFit : Cls → ℕ → Option Time.Window
  | .dmd, n => some (Time.fitWindow n)
  | .bop, _ => none

/-- `VarProDMD.frequency`, varprodmd.py L817-824. -/
noncomputable def varproFrequency (eigs : List ℂ) : List ℝ := eigs.map fun z => z.im / (2 * Real.pi)

/-- `VarProDMD.growth_rate`, varprodmd.py L826-835. -/
def varproGrowthRate (eigs : List ℂ) : List ℝ := eigs.map fun z => z.re

/-- One column of `VarProDMD.dynamics`, varprodmd.py L806-815, without the amplitudes. -/
noncomputable def varproPowers (eigs : List ℂ) (t : ℝ) : List ℂ :=
  eigs.map fun z => Complex.exp (z * t)

/-- `MrDMD.time_window_frequency` (mrdmd.py L283-294) for `q = frequency`,
`time_window_growth_rate` (L296-309) for `q = growthRate`. `window` is the `original_time` of the
`MrDMD`, `leaf b` the eigenvalues and the `original_time` of the DMD in bin `b`. `np.concatenate` of no
arrays raises. -/
noncomputable def timeWindow (q : Eigs → Option Time.Window → Except PyErr (List ℝ))
    (window : Time.Window) (maxLevel : ℕ) (leaf : ℕ × ℕ → Eigs × Option Time.Window) (t0 tend : ℚ) :
    Except PyErr (List ℝ) :=
  match MrDMD.timeWindowBins window maxLevel t0 tend with
  | [] => .error .valueError
  | bins => (bins.mapM fun b => q (leaf b).1 (leaf b).2).map List.flatten

end Verif.Spectrum
