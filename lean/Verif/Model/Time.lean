import Verif.Model.Bitmask
import Mathlib.Analysis.SpecialFunctions.Pow.Complex
import Mathlib.Data.Rat.Floor

/-!
# Model of timesteps, dynamics and reconstruction of `DMDBase`

Source: `/repo/pydmd/dmdbase.py` L199-334.

Simplifications: times are exact rationals (numpy uses floats, so the number of
elements of `np.arange` may be off by one for non-dyadic values); eigenvalues, modes and
amplitudes are exact complex numbers; `dynamics` is stored by columns (one list per
timestep) instead of by rows.
-/

namespace Verif.Time

open Verif Verif.Bitmask

/-- `np.arange(start, stop, step)`: `ceil((stop - start) / step)` elements `start + i * step`
(none if that is not positive). A zero step raises (`ZeroDivisionError` for integers,
`ValueError` for floats; modelled as `ValueError`). -/
def arange (start stop step : ℚ) : Except PyErr (List ℚ) :=
  if step = 0 then .error .valueError
  else .ok ((List.range ⌈(stop - start) / step⌉.toNat).map fun i : ℕ => start + i * step)

/-- The contents of a `DMDTimeDict` with its three keys, dmdbase.py L759-774. -/
structure Window where
  t0 : ℚ
  tend : ℚ
  dt : ℚ
  deriving DecidableEq, Repr

/-- `dmd_timesteps` / `original_timesteps`, dmdbase.py L199-225. -/
def Window.timesteps (w : Window) : Except PyErr (List ℚ) := arange w.t0 (w.tend + w.dt) w.dt

/-- The time dictionary set by `fit` on `n` snapshots, dmd.py L73-77 (and the same lines in
the other classes). -/
def fitWindow (n : ℕ) : Window := ⟨0, (n : ℚ) - 1, 1⟩

/-- The constructor argument `opt`: a boolean or an integer. -/
inductive Opt
  | bool (b : Bool)
  | int (k : ℤ)
  deriving DecidableEq, Repr

/-- `DMDBase._translate_eigs_exponent`, dmdbase.py L303-324; `nsnap` is
`self.snapshots.shape[1]`. -/
def translate (opt : Opt) (nsnap : ℕ) (tpow : ℚ) : ℚ :=
  let idx : ℤ := match opt with
    | .bool _ => 0
    | .int k => k
  if idx < 0 then tpow - ((nsnap : ℚ) + idx) else tpow - idx

/-- `np.power` on complex bases and real exponents (L301). Differences at excluded points:
numpy gives `nan` for base 0 with negative exponent (Lean: 0). -/
noncomputable def npPow (z : ℂ) (e : ℚ) : ℂ := z ^ (e : ℂ)

/-- The exponent of the eigenvalues at time `t`, dmdbase.py L290-299. -/
def exponent (orig : Window) (opt : Opt) (nsnap : ℕ) (t : ℚ) : ℚ :=
  translate opt nsnap ((t - orig.t0) / orig.dt)

/-- One column of `DMDBase.dynamics`, dmdbase.py L301: `power(eigs, p) * amplitudes`. -/
noncomputable def dynamicsAt (eigs amps : List ℂ) (p : ℚ) : List ℂ :=
  List.zipWith (fun e a => npPow e p * a) eigs amps

/-- `DMDBase.dynamics`, dmdbase.py L271-301, by columns. -/
noncomputable def dynamics (eigs amps : List ℂ) (orig dmd : Window) (opt : Opt) (nsnap : ℕ) :
    Except PyErr (List (List ℂ)) :=
  dmd.timesteps.map fun ts => ts.map fun t => dynamicsAt eigs amps (exponent orig opt nsnap t)

/-- `modes.dot(column)`: the linear combination of the columns of `modes`. -/
def dotCol {ι : Type} (modes : List (ι → ℂ)) (col : List ℂ) : ι → ℂ :=
  (List.zipWith (fun m c => fun x => m x * c) modes col).sum

/-- `DMDBase.reconstructed_data`, dmdbase.py L326-334, as the list of its columns. Before
`fit` the getters return `None`, on which the numpy operations raise `TypeError`. -/
noncomputable def reconstructed {ι : Type} (o : Obj (ι → ℂ) ℂ ℂ) (orig dmd : Window) (opt : Opt)
    (nsnap : ℕ) : Except PyErr (List (ι → ℂ)) := do
  let (ms, o) ← o.getModes
  let (es, o) ← o.getEigs
  let (as, _) ← o.getAmps
  match ms, es, as with
  | some ms, some es, some as => do
      let dyn ← dynamics es as orig dmd opt nsnap
      pure (dyn.map (dotCol ms))
  | _, _, _ => .error .typeError

end Verif.Time
