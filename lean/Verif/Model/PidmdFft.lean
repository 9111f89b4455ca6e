import Verif.Model.Pidmd
import Mathlib.Analysis.SpecialFunctions.Complex.CircleAddChar

/-!
# Model of physics-informed DMD: circulant, Toeplitz and block-circulant manifolds

Source: `/repo/pydmd/pidmd_utils.py` L130-214 and L272-367. Exact arithmetic. Rows of the data
are indexed by `ZMod N` (the row number), and for the block manifolds by the pair of indexes that
`reshape(*block_shape, n, order="F")` produces; that a row count other than the product of the
block shape makes `reshape` fail is not modelled. `NaN` is `none`.
-/

set_option autoImplicit false

namespace Verif.Pidmd

open Matrix LinAlg Verif

/-- The matrix of `np.fft.fft` for length `N`: `exp(-2 pi i k j / N)`. -/
noncomputable def dft (N : ℕ) : Matrix (ZMod N) (ZMod N) ℂ :=
  Matrix.of fun k j => Complex.exp (-(2 * Real.pi * Complex.I * (k.val * j.val) / N))

/-- The matrix of `np.fft.fft2` on arrays of shape `(p, q)`. -/
noncomputable def dft2 (p q : ℕ) : Matrix (ZMod p × ZMod q) (ZMod p × ZMod q) ℂ :=
  Matrix.of fun k j => dft p k.1 j.1 * dft q k.2 j.2

section Circulant

variable {G m : Type} [Fintype G] [Fintype m] [DecidableEq G]

/-- Elementwise conjugate. -/
def cj {a b : Type} (M : Matrix a b ℂ) : Matrix a b ℂ := M.map star

/-- The matrix of `ifft` if `F` is the one of `fft`. -/
noncomputable def invF (F : Matrix G G ℂ) : Matrix G G ℂ :=
  ((Fintype.card G : ℂ)⁻¹) • Fᴴ

/-- `np.diag(fX.dot(fY.conj().T))` with `fX = fft(X)` and `fY = fft(Y.conj())`, pidmd_utils.py
L187-190. -/
def circNum (F : Matrix G G ℂ) (X Y : Matrix G m ℂ) (k : G) : ℂ := ((F * X) * (F * cj Y)ᴴ) k k

/-- `fX_norm**2`, pidmd_utils.py L189-190. -/
def circDen (F : Matrix G G ℂ) (X : Matrix G m ℂ) (k : G) : ℝ := normSq ((F * X) k)

/-- The part of the manifold name after `circulant_` (pidmd.py L140) or `BCCB` (L168). -/
inductive CircOpt
  | plain
  | unitary
  | symmetric
  | skewsymmetric
  deriving DecidableEq

/-- `np.exp(1j * np.angle(z))`. -/
noncomputable def phase (z : ℂ) : ℂ := Complex.exp (Complex.I * (Complex.arg z : ℂ))

/-- The adjustments of an eigenvalue, pidmd_utils.py L192-197 and L307-312. -/
noncomputable def adjust : CircOpt → ℂ → ℂ
  | .plain, z => z
  | .unitary, z => phase z
  | .symmetric, z => (z.re : ℂ)
  | .skewsymmetric, z => Complex.I * (z.im : ℂ)

/-- The eigenvalues before the truncation, pidmd_utils.py L190-197; 0/0 is `NaN`. -/
noncomputable def circEig (F : Matrix G G ℂ) (X Y : Matrix G m ℂ) (o : CircOpt) (k : G) :
    Option ℂ :=
  if circDen F X k = 0 then none else some (adjust o (circNum F X Y k / circDen F X k))

/-- `res`, pidmd_utils.py L201-204. -/
noncomputable def circRes (F : Matrix G G ℂ) (X Y : Matrix G m ℂ) (k : G) : Option ℝ :=
  if circDen F X k = 0 then none else some (‖circNum F X Y k‖ / Real.sqrt (circDen F X k))

/-- `E` is an admissible result of `np.argpartition(res, nx - r)[: nx - r]`, pidmd_utils.py L205:
`nx - r` indexes, none of them with a larger `res` than a remaining one, `NaN` counting as
largest. -/
def IsExcluded (res : G → Option ℝ) (r : ℕ) (E : Finset G) : Prop :=
  E.card = Fintype.card G - r ∧ ∀ e ∈ E, ∀ k, k ∉ E →
    match res e, res k with
    | _, none => True
    | none, some _ => False
    | some a, some b => a ≤ b

/-- The eigenvalues after the truncation, pidmd_utils.py L206. -/
noncomputable def circEigs (F : Matrix G G ℂ) (X Y : Matrix G m ℂ) (o : CircOpt) (E : Finset G)
    (k : G) : Option ℂ := if k ∈ E then some 0 else circEig F X Y o k

/-- `fft(np.multiply(eigenvalues, ifft(np.eye(nx), axis=0).T).T, axis=0)`, pidmd_utils.py L209. -/
noncomputable def circA (F : Matrix G G ℂ) (lam : G → ℂ) : Matrix G G ℂ :=
  F * (Matrix.of fun i j => lam j * (invF F)ᵀ i j)ᵀ

open Classical in
/-- `compute_circulant` with `compute_A`, pidmd_utils.py L178-210. One `NaN` eigenvalue makes every
entry of the transform `NaN`. -/
noncomputable def computeCirculant (F : Matrix G G ℂ) (X Y : Matrix G m ℂ) (o : CircOpt)
    (E : Finset G) : Option (Matrix G G ℂ) :=
  if ∀ k, (circEigs F X Y o E k).isSome then
    some (circA F fun k => (circEigs F X Y o E k).getD 0)
  else none

/-! ### Block circulant with circulant blocks -/

/-- `fft_block2d(X.conj())`, pidmd_utils.py L281-296. -/
noncomputable def bccbF (F : Matrix G G ℂ) (X : Matrix G m ℂ) : Matrix G m ℂ :=
  ((Real.sqrt (Fintype.card G) : ℂ)⁻¹) • (F * cj X)

/-- `d[j]` without option, pidmd_utils.py L299-302; 0/0 is `NaN`. -/
noncomputable def bccbPlain (F : Matrix G G ℂ) (X Y : Matrix G m ℂ) (k : G) : Option ℂ :=
  if normSq (bccbF F X k) = 0 then none
  else some (star (∑ t, bccbF F X k t * star (bccbF F Y k t)) / (normSq (bccbF F X k) : ℂ))

/-- `d[j]` with an option, pidmd_utils.py L303-312, from the least-squares solutions `dp`. -/
noncomputable def bccbD (F : Matrix G G ℂ) (X Y : Matrix G m ℂ) (o : CircOpt) (dp : G → ℂ)
    (E : Finset G) (k : G) : Option ℂ :=
  if k ∈ E then some 0
  else if o = .plain then bccbPlain F X Y k
  else some (adjust o (dp k))

/-- The final product, pidmd_utils.py L321 (`fft_block2d(np.eye(nx))` is the scaled matrix of
`fft2`). -/
noncomputable def bccbA (F : Matrix G G ℂ) (d : G → ℂ) : Matrix G G ℂ :=
  ((Real.sqrt (Fintype.card G) : ℂ)⁻¹) • (F *
    (Matrix.of fun i j => star (d j) *
      (((Real.sqrt (Fintype.card G) : ℂ)⁻¹ • F)ᴴ) i j)ᵀ)

open Classical in
/-- `compute_BCCB`, pidmd_utils.py L272-323. -/
noncomputable def computeBCCB (F : Matrix G G ℂ) (X Y : Matrix G m ℂ) (o : CircOpt) (dp : G → ℂ)
    (E : Finset G) : Option (Matrix G G ℂ) :=
  if ∀ k, (bccbD F X Y o dp E k).isSome then
    some (bccbA F fun k => (bccbD F X Y o dp E k).getD 0)
  else none

/-! ### Block circulant -/

variable {I : Type} [Fintype I] [DecidableEq I]

/-- `fft_block`, pidmd_utils.py L334-346: the transform along the second index, scaled. -/
noncomputable def fftBlock {m : Type} (F : Matrix G G ℂ) (X : Matrix (I × G) m ℂ) :
    Matrix (I × G) m ℂ :=
  Matrix.of fun a t => (∑ b, F a.2 b * X (a.1, b) t) / (Real.sqrt (Fintype.card G) : ℂ)

/-- `fX[ls].T` for the block `k`, pidmd_utils.py L353-361 (`ls` are the rows `(i, k)`). -/
noncomputable def blockData (F : Matrix G G ℂ) (X : Matrix (I × G) m ℂ) (k : G) : Matrix m I ℂ :=
  Matrix.of fun t i => fftBlock F X (i, k) t

/-- The final products of `compute_BC`, pidmd_utils.py L364-366, from the blocks `d`. -/
noncomputable def bcA (F : Matrix G G ℂ) (d : G → Matrix I I ℂ) : Matrix (I × G) (I × G) ℂ :=
  cj (fftBlock F (cj (blockDiagonal d * fftBlock F 1)))

end Circulant

/-! ### Toeplitz and Hankel -/

section Toeplitz

variable {n : ℕ} {m : Type} [Fintype m]

/-- Row `i < n` in the doubled length. -/
def emb (i : Fin n) : ZMod (2 * n) := ((i : ℕ) : ZMod (2 * n))

/-- `J.dot(X)`, pidmd_utils.py L139-142. -/
def applyJ (flipped : Bool) (X : Matrix (Fin n) m ℂ) : Matrix (Fin n) m ℂ :=
  if flipped then flipud X else X

/-- `Am`, pidmd_utils.py L145-146. -/
noncomputable def toepAm : Matrix (Fin n) (ZMod (2 * n)) ℂ :=
  Matrix.of fun i k => star (dft (2 * n) k (emb i)) / (Real.sqrt (2 * n) : ℂ)

/-- `B`, pidmd_utils.py L147-148. -/
noncomputable def toepB (flipped : Bool) (X : Matrix (Fin n) m ℂ) : Matrix m (ZMod (2 * n)) ℂ :=
  Matrix.of fun t k =>
    star (∑ j, dft (2 * n) k (emb j) * star (applyJ flipped X j t)) / (Real.sqrt (2 * n) : ℂ)

/-- `AAt`, pidmd_utils.py L151-162: `F P F^{-1}` with `P` the projection on the first half. -/
noncomputable def toepAAt : Matrix (ZMod (2 * n)) (ZMod (2 * n)) ℂ :=
  Matrix.of fun k l =>
    ∑ i : Fin n, dft (2 * n) k (emb i) * star (dft (2 * n) (emb i) l) / (2 * n : ℂ)

/-- `y`, pidmd_utils.py L165. -/
noncomputable def toepY (flipped : Bool) (X Y : Matrix (Fin n) m ℂ) (k : ZMod (2 * n)) : ℂ :=
  star (∑ t, (∑ i, star (toepAm i k) * star (Y i t)) * toepB flipped X t k)

/-- `L`, pidmd_utils.py L166. -/
noncomputable def toepL (flipped : Bool) (X : Matrix (Fin n) m ℂ) :
    Matrix (ZMod (2 * n)) (ZMod (2 * n)) ℂ :=
  (Matrix.of fun k l => toepAAt k l * ∑ t, star (toepB flipped X t l) * toepB flipped X t k)ᴴ

/-- The last index, `-1` in `L[:-1, :-1]` and `y[:-1]`. -/
def lastK : ZMod (2 * n) := -1

/-- The indexes kept in `[:-1]`. -/
abbrev Init (n : ℕ) := {k : ZMod (2 * n) // k ≠ lastK}

/-- `L[:-1, :-1].T`, pidmd_utils.py L167. -/
noncomputable def toepM (flipped : Bool) (X : Matrix (Fin n) m ℂ) : Matrix (Init n) (Init n) ℂ :=
  Matrix.of fun k l => toepL flipped X l.1 k.1

/-- `np.append(eigenvalues, 0)`, pidmd_utils.py L168. -/
noncomputable def toepEigs (e : Init n → ℂ) (k : ZMod (2 * n)) : ℂ :=
  if h : k ≠ lastK then e ⟨k, h⟩ else 0

/-- `new_A = ifft(fft(np.diag(eigenvalues), axis=0).T, axis=0).T`, pidmd_utils.py L171. -/
noncomputable def toepNewA [NeZero n] (e : Init n → ℂ) : Matrix (ZMod (2 * n)) (ZMod (2 * n)) ℂ :=
  (invF (dft (2 * n)) * (dft (2 * n) * diagonal (toepEigs e))ᵀ)ᵀ

/-- `new_A[:nx, :nx].dot(J)`, pidmd_utils.py L174. -/
noncomputable def toepA [NeZero n] (flipped : Bool) (e : Init n → ℂ) : Matrix (Fin n) (Fin n) ℂ :=
  Matrix.of fun i j => toepNewA e (emb i) (emb (if flipped then Fin.rev j else j))

end Toeplitz

end Verif.Pidmd
