import Verif.Model.Py
import Verif.Spec.LinAlg
import Mathlib.Analysis.Complex.Basic

/-!
# Model of HAVOK

Source: `/repo/pydmd/havok.py`. Arithmetic is exact. `scipy.signal.lsim`, histograms, Gaussian fits
and plots are not modelled.
-/

set_option autoImplicit false

namespace Verif.Havok

open Verif Matrix

/-- The argument of `hankel` by number of dimensions; entries are functions of the indexes. -/
inductive In
  | notArray
  | zeroDim
  | oneDim (m : ℕ) (x : ℕ → ℂ)
  | twoDim (n m : ℕ) (x : ℕ → ℕ → ℂ)
  | more

/-- A two-dimensional array of floats made by `np.empty`; an entry that was never assigned is
`none` (its value in Python is arbitrary). -/
structure Mat where
  rows : ℕ
  cols : ℕ
  get : ℕ → ℕ → Option ℝ

/-- The check of `fit` on `delays`, `lag` and `num_chaos` (integers), L343-347. -/
def fitCheck (delays lag numChaos : ℤ) : Except PyErr Unit :=
  if delays < 1 ∨ lag < 1 ∨ numChaos < 1 then .error .valueError else .ok ()

/-- The loop of `hankel`, L305-307: assignment of the rows `i*n : (i+1)*n`. `H` holds floats, so
imaginary parts are dropped. -/
noncomputable def hankelLoop (n lag : ℕ) (x : ℕ → ℕ → ℂ) (delays : ℕ) : ℕ → ℕ → Option ℝ :=
  (List.range delays).foldl
    (fun H i r c => if i * n ≤ r ∧ r < (i + 1) * n then some (x (r - i * n) (i * lag + c)).re
      else H r c)
    fun _ _ => none

/-- `hankel` on a two-dimensional array, L293-309, for positive `delays` and `lag`. -/
noncomputable def hankel2 (delays lag n m : ℕ) (x : ℕ → ℕ → ℂ) : Except PyErr Mat :=
  if m < lag * (delays - 1) + 1 then .error .valueError
  else .ok ⟨n * delays, m - (delays - 1) * lag, hankelLoop n lag x delays⟩

/-- `hankel`, L279-309. Unpacking the shape of a 0-dimensional array raises `ValueError`. -/
noncomputable def hankel (delays lag : ℕ) (X : In) : Except PyErr Mat :=
  match X with
  | .notArray => .error .valueError
  | .more => .error .valueError
  | .zeroDim => .error .valueError
  | .oneDim m x => hankel2 delays lag 1 m fun _ => x
  | .twoDim n m x => hankel2 delays lag n m x

/-- The loop of `dehankel`, L328-329: assignment of the columns `i*lag : i*lag + Hm`. -/
def dehankelLoop (n lag Hm : ℕ) (H : ℕ → ℕ → Option ℝ) (delays : ℕ) : ℕ → ℕ → Option ℝ :=
  (List.range delays).foldl
    (fun X i a t => if i * lag ≤ t ∧ t < i * lag + Hm then H (i * n + a) (t - i * lag)
      else X a t)
    fun _ _ => none

/-- `dehankel` on a two-dimensional array, L324-331: the shape after `np.squeeze`, and the entries by
row and column before it (squeezing moves no entry). -/
def dehankel (delays lag : ℕ) (H : Mat) : List ℕ × Mat :=
  let n := H.rows / delays
  let m := H.cols + (delays - 1) * lag
  ([n, m].filter (· ≠ 1), ⟨n, m, dehankelLoop n lag H.cols H.get delays⟩)

/-- `_get_index_slices`, L827-832. `x[0]` of an empty array raises `IndexError`. -/
def indexSlices (x : List ℤ) (minJump : ℤ) : Except PyErr (List (ℤ × ℤ)) :=
  match x with
  | [] => .error .indexError
  | a :: l =>
    let pairs := ((a :: l).dropLast.zip l).filter fun p => decide (p.2 - p.1 > minJump)
    let starts := a :: pairs.map (·.2)
    let ends := pairs.map (·.1) ++ [(a :: l).getLast (List.cons_ne_nil a l)]
    .ok (starts.zip ends)

section Operator

variable {p q : ℕ} {k m n : Type} [Fintype k] [DecidableEq k]

/-- `linear_dynamics`, L189-200: the columns `: -num_chaos` of `V`, for `r = p + q`, `num_chaos = q`. -/
def linearDynamics (V : Matrix k (Fin (p + q)) ℂ) : Matrix k (Fin p) ℂ :=
  V.submatrix id (Fin.castAdd q)

/-- `forcing`, L202-213: the last `num_chaos` columns of `V`. -/
def forcing (V : Matrix k (Fin (p + q)) ℂ) : Matrix k (Fin q) ℂ :=
  V.submatrix id (Fin.natAdd p)

/-- `A`, L228-239. -/
def blockA (op : Matrix (Fin (p + q)) (Fin (p + q)) ℂ) : Matrix (Fin p) (Fin p) ℂ :=
  op.submatrix (Fin.castAdd q) (Fin.castAdd q)

/-- `B`, L241-252. -/
def blockB (op : Matrix (Fin (p + q)) (Fin (p + q)) ℂ) : Matrix (Fin p) (Fin q) ℂ :=
  op.submatrix (Fin.castAdd q) (Fin.natAdd p)

/-- The operator with `lstsq=True`, L406-408; `W` is the result of `np.linalg.lstsq(V, V_dot)`. -/
def operatorLstsq (W : Matrix (Fin (p + q)) (Fin (p + q)) ℂ) :
    Matrix (Fin (p + q)) (Fin (p + q)) ℂ := Wᵀ

/-- The operator with `lstsq=False`, L409-410; `P` is `np.linalg.pinv(V)`. -/
def operatorPinv (P : Matrix (Fin (p + q)) k ℂ) (Vdot : Matrix k (Fin (p + q)) ℂ) :
    Matrix (Fin (p + q)) (Fin (p + q)) ℂ := (P * Vdot)ᵀ

/-- The matrix `H` of `_embeddings_to_original`, L809-811, when `V` has the first `p` coordinates. -/
noncomputable def embeddingsToHankel (U : Matrix m (Fin (p + q)) ℂ) (s : Fin (p + q) → ℝ)
    (V : Matrix n (Fin p) ℂ) : Matrix m n ℂ :=
  U.submatrix id (Fin.castAdd q) * LinAlg.rdiag (fun i => s (Fin.castAdd q i)) * Vᴴ

end Operator

/-- The check on the number of embeddings, L396-403. -/
def rankCheck (r numChaos : ℕ) : Except PyErr Unit :=
  if r < numChaos + 1 then .error .valueError else .ok ()

end Verif.Havok
