import Verif.Model.Py
import Mathlib.Analysis.Complex.Basic
import Mathlib.Data.Real.Sign

/-!
# Model of the eigenvalue constraints of BOP-DMD

Source: `/repo/pydmd/bopdmd.py` L286-356 (`_push_eigenvalues`) and L1302-1352
(`_check_eig_constraints`). Arithmetic is exact. Constraint functions given by the user are not
modelled (they are applied as they are).
-/

set_option autoImplicit false

namespace Verif.BopEigs

open Verif

/-- `np.argmin` of `f 0, ..., f (n-1)`, `n ≥ 1`: the first index of the smallest value. -/
noncomputable def argmin (n : ℕ) (f : ℕ → ℝ) : ℕ :=
  (List.range n).foldl (fun b i => if f i < f b then i else b) 0

/-- The index of the eigenvalue nearest to the conjugate of eigenvalue `i`, L325. -/
noncomputable def near (n : ℕ) (e : ℕ → ℂ) (i : ℕ) : ℕ :=
  argmin n fun j => ‖e j - (starRingEnd ℂ) (e i)‖

/-- The new value of eigenvalue `i` when paired with `j`, L342-346. -/
noncomputable def pairVal (e : ℕ → ℂ) (i j : ℕ) : ℂ :=
  let a := (1 / 2) * ((e i).re + (e j).re)
  let b := (1 / 2) * (|(e i).im| + |(e j).im|)
  (a : ℂ) + Complex.I * ((b * Real.sign (e i).im : ℝ) : ℂ)

/-- The loop L318-346. `pop` stands for `set.pop`, which takes an arbitrary element. `new` is the
array `new_eigs`, `none` where not yet assigned (`np.empty`). The first argument bounds the number
of iterations (every iteration removes two elements). -/
noncomputable def pairLoop (n : ℕ) (e : ℕ → ℂ) (pop : Finset ℕ → ℕ) :
    ℕ → Finset ℕ → (ℕ → Option ℂ) → Except PyErr (ℕ → Option ℂ)
  | 0, _, new => .ok new
  | k + 1, S, new =>
    if S = ∅ then .ok new
    else
      let i1 := pop S
      let S1 := S.erase i1
      let i2 := near n e i1
      if i2 ∉ S1 then .error .valueError
      else
        pairLoop n e pop k (S1.erase i2)
          (Function.update (Function.update new i1 (some (pairVal e i1 i2))) i2
            (some (pairVal e i2 i1)))

/-- The part for `"conjugate_pairs"`, L302-348. -/
noncomputable def conjugatePairs (n : ℕ) (e : ℕ → ℂ) (pop : Finset ℕ → ℕ) :
    Except PyErr (ℕ → Option ℂ) :=
  if n % 2 = 1 then
    let i0 := argmin n fun j => |(e j).im|
    pairLoop n e pop n ((Finset.range n).erase i0)
      (Function.update (fun _ => none) i0 (some ((e i0).re : ℂ)))
  else pairLoop n e pop n (Finset.range n) fun _ => none

/-- A valid set of constraints. -/
structure Constraints where
  stable : Bool
  imag : Bool
  conj : Bool
  deriving DecidableEq, Repr

/-- `"stable"`, L350-352. -/
noncomputable def pushStable (z : ℂ) : ℂ := if z.re > 0 then Complex.I * z.im else z

/-- `"imag"`, L353-354. -/
noncomputable def pushImag (z : ℂ) : ℂ := Complex.I * z.im

/-- The last part, L350-354. -/
noncomputable def pushLast (c : Constraints) (z : ℂ) : ℂ :=
  if c.stable then pushStable z else if c.imag then pushImag z else z

/-- `_push_eigenvalues` on the `n` values `e 0, ..., e (n-1)`, L299-356. -/
noncomputable def push (c : Constraints) (n : ℕ) (e : ℕ → ℂ) (pop : Finset ℕ → ℕ) :
    Except PyErr (ℕ → Option ℂ) :=
  match (if c.conj then conjugatePairs n e pop else .ok fun i => some (e i)) with
  | .error er => .error er
  | .ok v => .ok fun i => (v i).map (pushLast c)

/-- The array passed to `_push_eigenvalues` after the call: L352 assigns into it unless it was
copied at L348. -/
noncomputable def inputAfter (c : Constraints) (e : ℕ → ℂ) : ℕ → ℂ :=
  if c.stable ∧ ¬ c.conj then fun i => pushStable (e i) else e

/-- `_check_eig_constraints` for a set of strings, L1342-1352. -/
def check (s : List String) : Except PyErr Unit :=
  if s.any fun x => x ∉ ["stable", "imag", "conjugate_pairs"] then .error .valueError
  else if "stable" ∈ s ∧ "imag" ∈ s then .error .valueError
  else .ok ()

/-- The constraints meant by a set of strings. -/
def ofSet (s : List String) : Constraints :=
  ⟨decide ("stable" ∈ s), decide ("imag" ∈ s), decide ("conjugate_pairs" ∈ s)⟩

end Verif.BopEigs
