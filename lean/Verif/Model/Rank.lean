import Verif.Model.Py
import Mathlib.Algebra.Order.Field.Basic
import Mathlib.Algebra.BigOperators.Group.List.Basic
import Mathlib.Data.List.Sort

/-!
# Model of rank selection and of the truncated SVD

Source: `/repo/pydmd/utils.py` L19-116, L155-191.

Singular values live in an arbitrary linearly ordered field `K` (numpy: floats), a matrix is
the list of its columns. `np.linalg.svd` is a parameter.
-/

namespace Verif.Rank

variable {K : Type} [Field K] [LinearOrder K]

/-- The argument `svd_rank`: a Python `int` (`bool` included), a numpy integer (which is *not*
an instance of `int`), or a float. -/
inductive SvdRank (K : Type)
  | int (k : ℤ)
  | npInt (k : ℤ)
  | float (q : K)

/-- The numerical value of the argument. -/
def SvdRank.val : SvdRank K → K
  | .int k => k
  | .npInt k => k
  | .float q => q

/-- `np.median`: middle element of the sorted values, mean of the two middle ones for an even
count (`nan` for no values, not modelled: 0). -/
def median (l : List K) : K :=
  let s := l.insertionSort (· ≤ ·)
  if l.length % 2 = 1 then s.getD (l.length / 2) 0
  else (s.getD (l.length / 2 - 1) 0 + s.getD (l.length / 2) 0) / 2

/-- `beta = np.divide(*sorted((rows, cols)))`, utils.py L38. -/
def beta (rows cols : ℕ) : K := (min rows cols : ℕ) / (max rows cols : ℕ)

/-- The polynomial of utils.py L39. -/
def omega (b : K) : K := (56 / 100) * b ^ 3 - (95 / 100) * b ^ 2 + (182 / 100) * b + 143 / 100

/-- `_svht`, utils.py L19-51: number of singular values above the threshold, at least 1. -/
def svht (sigma : List K) (rows cols : ℕ) : ℕ :=
  let tau := median sigma * omega (beta rows cols)
  let rank := sigma.countP fun s => tau < s
  if rank = 0 then 1 else rank

/-- `np.cumsum`. -/
def cumsum (l : List K) : List K := (l.scanl (· + ·) 0).tail

/-- `np.cumsum(sigma ** 2 / (sigma ** 2).sum())`, utils.py L82. With zero total all entries are
`nan` (`none`). -/
def cumulativeEnergy (sigma : List K) : List (Option K) :=
  let sq := sigma.map (· ^ 2)
  if sq.sum = 0 then sigma.map fun _ => none
  else (cumsum (sq.map (· / sq.sum))).map some

/-- numpy's `v <= x` with `nan` (`none`) counting as larger than everything. -/
def reaches (v : K) : Option K → Bool
  | none => true
  | some x => decide (v ≤ x)

/-- `np.searchsorted(a, v)` (side left) on an ascending array, `nan` counting as larger than
everything: the first position whose entry is not smaller than `v`. -/
def searchsorted (a : List (Option K)) (v : K) : ℕ :=
  a.findIdx (reaches v)

/-- `_compute_rank`, utils.py L54-91. -/
def computeRank (sigma : List K) (rows cols : ℕ) (svdRank : SvdRank K) : ℕ :=
  if svdRank.val = 0 then svht sigma rows cols
  else if 0 < svdRank.val ∧ svdRank.val < 1 then
    searchsorted (cumulativeEnergy sigma) svdRank.val + 1
  else match svdRank with
    | .int k => if 1 ≤ k then min k.toNat sigma.length else min rows cols
    | _ => min rows cols

/-- The result of `np.linalg.svd(X, full_matrices=False)` with matrices as lists of columns:
`U` by columns, the singular values, and the columns of `V = (Vh)^H`. -/
structure SVD (C D K : Type) where
  U : List C
  s : List K
  V : List D

/-- `compute_svd`, utils.py L155-191; `svd` is the result of `np.linalg.svd`, `rows` and `cols`
the shape of the matrix. -/
def computeSvd {C D : Type} (svd : SVD C D K) (rows cols : ℕ) (svdRank : SvdRank K) :
    SVD C D K :=
  let rank := computeRank svd.s rows cols svdRank
  ⟨svd.U.take rank, svd.s.take rank, svd.V.take rank⟩

/-- `compute_rank`, utils.py L94-116. -/
def computeRankOf {C D : Type} (svd : SVD C D K) (rows cols : ℕ) (svdRank : SvdRank K) : ℕ :=
  computeRank svd.s rows cols svdRank

end Verif.Rank
