import Verif.Spec.LinAlg
import Mathlib.LinearAlgebra.Matrix.DotProduct
import Mathlib.LinearAlgebra.Matrix.Hermitian
import Mathlib.Tactic.Linarith
import Mathlib.Tactic.Ring
import Mathlib.Tactic.NoncommRing
import Mathlib.Tactic.LinearCombination

/-! Helper lemmas: least squares, pseudo-inverses, SVD algebra. -/

namespace Verif.LinAlg

open Matrix

variable {m n k r : Type} [Fintype m] [Fintype n] [Fintype k] [Fintype r] [DecidableEq k]
  [DecidableEq r] [DecidableEq m] [DecidableEq n]

omit [DecidableEq m] in
theorem normSq_nonneg (v : m → ℂ) : 0 ≤ normSq v :=
  Finset.sum_nonneg fun _ _ => Complex.normSq_nonneg _

omit [DecidableEq m] in
theorem normSq_eq_zero (v : m → ℂ) : normSq v = 0 ↔ v = 0 := by
  unfold normSq
  rw [Finset.sum_eq_zero_iff_of_nonneg fun _ _ => Complex.normSq_nonneg _]
  constructor
  · intro h; funext i; simpa using h i (Finset.mem_univ i)
  · rintro rfl i _; simp

omit [DecidableEq m] in
theorem normSq_eq_dot (v : m → ℂ) : ((normSq v : ℝ) : ℂ) = star v ⬝ᵥ v := by
  simp [normSq, dotProduct, Complex.normSq_eq_conj_mul_self]

omit [DecidableEq m] in
theorem normSq_add (v w : m → ℂ) :
    normSq (v + w) = normSq v + normSq w + 2 * (star v ⬝ᵥ w).re := by
  simp only [normSq, Pi.add_apply, Complex.normSq_add, Finset.sum_add_distrib, dotProduct,
    Pi.star_apply, Complex.re_sum, Finset.mul_sum]
  congr 1
  refine Finset.sum_congr rfl fun i _ => ?_
  simp only [Complex.star_def, Complex.mul_re, Complex.conj_re, Complex.conj_im]
  ring

omit [DecidableEq m] [DecidableEq n] in
/-- The normal equations characterise least-squares solutions (sufficiency, with the gap). -/
theorem lstsq_gap (A : Matrix m n ℂ) (y : m → ℂ) (b : n → ℂ) (h : Aᴴ *ᵥ (A *ᵥ b - y) = 0)
    (c : n → ℂ) : normSq (A *ᵥ c - y) = normSq (A *ᵥ b - y) + normSq (A *ᵥ (c - b)) := by
  have e : A *ᵥ c - y = (A *ᵥ b - y) + A *ᵥ (c - b) := by
    rw [mulVec_sub]; abel
  rw [e, normSq_add]
  have : star (A *ᵥ b - y) ⬝ᵥ A *ᵥ (c - b) = 0 := by
    rw [dotProduct_mulVec, ← star_star (star (A *ᵥ b - y) ᵥ* A), star_vecMul, star_star, h]
    simp
  rw [this]; simp

omit [DecidableEq m] [DecidableEq n] in
theorem isLstsq_of_normal (A : Matrix m n ℂ) (y : m → ℂ) (b : n → ℂ)
    (h : Aᴴ *ᵥ (A *ᵥ b - y) = 0) : IsLstsq A y b := fun c => by
  rw [lstsq_gap A y b h c]
  have := normSq_nonneg (A *ᵥ (c - b))
  linarith

omit [DecidableEq m] [DecidableEq n] in
/-- A least-squares solution of a solvable system solves it. -/
theorem lstsq_solves (A : Matrix m n ℂ) (c b : n → ℂ) (h : IsLstsq A (A *ᵥ c) b) :
    A *ᵥ b = A *ᵥ c := by
  have := h c
  rw [sub_self] at this
  have h0 : normSq (0 : m → ℂ) = 0 := (normSq_eq_zero _).mpr rfl
  have h1 : normSq (A *ᵥ b - A *ᵥ c) = 0 := le_antisymm (h0 ▸ this) (normSq_nonneg _)
  exact sub_eq_zero.mp ((normSq_eq_zero _).mp h1)

omit [DecidableEq m] [DecidableEq n] in
/-- The Moore–Penrose pseudo-inverse is unique. -/
theorem IsPinv.unique {A : Matrix m n ℂ} {P Q : Matrix n m ℂ} (hP : IsPinv A P) (hQ : IsPinv A Q) :
    P = Q := by
  have h1 : P = P * A * Q := by
    calc P = P * (A * P)ᴴ := by rw [hP.ap, ← Matrix.mul_assoc, hP.pap]
      _ = P * ((A * Q * A) * P)ᴴ := by rw [hQ.apa]
      _ = P * ((A * P)ᴴ * (A * Q)ᴴ) := by
          rw [← conjTranspose_mul]; simp only [Matrix.mul_assoc]
      _ = P * (A * P * (A * Q)) := by rw [hP.ap, hQ.ap]
      _ = P * A * P * A * Q := by simp only [Matrix.mul_assoc]
      _ = P * A * Q := by rw [hP.pap]
  have h2 : Q = P * A * Q := by
    calc Q = (Q * A)ᴴ * Q := by rw [hQ.pa, hQ.pap]
      _ = (Q * (A * P * A))ᴴ * Q := by rw [hP.apa]
      _ = ((P * A)ᴴ * (Q * A)ᴴ) * Q := by
          rw [← conjTranspose_mul]; simp only [Matrix.mul_assoc]
      _ = P * A * (Q * A) * Q := by rw [hP.pa, hQ.pa]
      _ = P * A * (Q * A * Q) := by simp only [Matrix.mul_assoc]
      _ = P * A * Q := by rw [hQ.pap]
  rw [h1, ← h2]

theorem rdiag_mul_inv (s : k → ℝ) (hs : ∀ i, s i ≠ 0) :
    rdiag s * rdiag (fun i => (s i)⁻¹) = 1 := by
  rw [rdiag, rdiag, diagonal_mul_diagonal, ← diagonal_one]
  congr 1; funext i
  have : (s i : ℂ) ≠ 0 := by exact_mod_cast hs i
  push_cast
  exact mul_inv_cancel₀ this

theorem rdiag_inv_mul (s : k → ℝ) (hs : ∀ i, s i ≠ 0) :
    rdiag (fun i => (s i)⁻¹) * rdiag s = 1 := by
  rw [rdiag, rdiag, diagonal_mul_diagonal, ← diagonal_one]
  congr 1; funext i
  have : (s i : ℂ) ≠ 0 := by exact_mod_cast hs i
  push_cast
  exact inv_mul_cancel₀ this

omit [Fintype k] in
theorem rdiag_conjTranspose (s : k → ℝ) : (rdiag s)ᴴ = rdiag s := by
  rw [rdiag, diagonal_conjTranspose]
  congr 1; funext i; simp

omit [DecidableEq m] [DecidableEq n] in
/-- The pseudo-inverse read off an SVD with nonzero singular values. -/
theorem IsSVD.isPinv {X : Matrix m n ℂ} {U : Matrix m k ℂ} {s : k → ℝ} {V : Matrix n k ℂ}
    (h : IsSVD X U s V) (hs : ∀ i, s i ≠ 0) : IsPinv X (V * rdiag (fun i => (s i)⁻¹) * Uᴴ) := by
  have xp : X * (V * rdiag (fun i => (s i)⁻¹) * Uᴴ) = U * Uᴴ := by
    rw [h.eq]
    calc U * rdiag s * Vᴴ * (V * rdiag (fun i => (s i)⁻¹) * Uᴴ)
        = U * rdiag s * (Vᴴ * V) * rdiag (fun i => (s i)⁻¹) * Uᴴ := by
          simp only [Matrix.mul_assoc]
      _ = U * (rdiag s * rdiag (fun i => (s i)⁻¹)) * Uᴴ := by
          rw [h.v]; simp only [Matrix.mul_one, Matrix.mul_assoc]
      _ = U * Uᴴ := by rw [rdiag_mul_inv s hs, Matrix.mul_one]
  have px : V * rdiag (fun i => (s i)⁻¹) * Uᴴ * X = V * Vᴴ := by
    rw [h.eq]
    calc V * rdiag (fun i => (s i)⁻¹) * Uᴴ * (U * rdiag s * Vᴴ)
        = V * rdiag (fun i => (s i)⁻¹) * (Uᴴ * U) * rdiag s * Vᴴ := by
          simp only [Matrix.mul_assoc]
      _ = V * (rdiag (fun i => (s i)⁻¹) * rdiag s) * Vᴴ := by
          rw [h.u]; simp only [Matrix.mul_one, Matrix.mul_assoc]
      _ = V * Vᴴ := by rw [rdiag_inv_mul s hs, Matrix.mul_one]
  refine ⟨?_, ?_, ?_, ?_⟩
  · rw [xp, h.eq]
    calc U * Uᴴ * (U * rdiag s * Vᴴ) = U * (Uᴴ * U) * rdiag s * Vᴴ := by
          simp only [Matrix.mul_assoc]
      _ = U * rdiag s * Vᴴ := by rw [h.u, Matrix.mul_one]
  · rw [px]
    calc V * Vᴴ * (V * rdiag (fun i => (s i)⁻¹) * Uᴴ)
        = V * (Vᴴ * V) * rdiag (fun i => (s i)⁻¹) * Uᴴ := by simp only [Matrix.mul_assoc]
      _ = V * rdiag (fun i => (s i)⁻¹) * Uᴴ := by rw [h.v, Matrix.mul_one]
  · rw [xp, conjTranspose_mul, conjTranspose_conjTranspose]
  · rw [px, conjTranspose_mul, conjTranspose_conjTranspose]

end Verif.LinAlg

namespace Verif.LinAlg

open Matrix

variable {m n k r : Type} [Fintype m] [Fintype n] [Fintype k] [Fintype r] [DecidableEq k]
  [DecidableEq r] [DecidableEq m] [DecidableEq n]

/-- The entries of a matrix as one vector. -/
def flat (A : Matrix m n ℂ) : m × n → ℂ := fun p => A p.1 p.2

omit [DecidableEq m] [DecidableEq n] in
theorem frobSq_flat (A : Matrix m n ℂ) : frobSq A = normSq (flat A) := by
  simp only [frobSq, normSq, flat]
  rw [Fintype.sum_prod_type]

omit [DecidableEq m] [DecidableEq n] in
theorem frobSq_nonneg (A : Matrix m n ℂ) : 0 ≤ frobSq A := by
  rw [frobSq_flat]; exact normSq_nonneg _

omit [DecidableEq m] [DecidableEq n] in
theorem frobSq_eq_zero (A : Matrix m n ℂ) : frobSq A = 0 ↔ A = 0 := by
  rw [frobSq_flat, normSq_eq_zero]
  constructor
  · intro h; ext i j; exact congrFun h (i, j)
  · rintro rfl; rfl

omit [DecidableEq m] [DecidableEq n] in
theorem frobSq_add (A B : Matrix m n ℂ) :
    frobSq (A + B) = frobSq A + frobSq B + 2 * (trace (Aᴴ * B)).re := by
  have e : flat (A + B) = flat A + flat B := rfl
  rw [frobSq_flat, e, normSq_add, frobSq_flat, frobSq_flat]
  congr 3
  simp only [dotProduct, flat, trace, diag_apply, Matrix.mul_apply, conjTranspose_apply,
    Pi.star_apply]
  rw [Fintype.sum_prod_type, Finset.sum_comm]

/-- Leading columns. -/
def lead {p : ℕ} (q : ℕ) (h : q ≤ p) (U : Matrix m (Fin p) ℂ) : Matrix m (Fin q) ℂ :=
  U.submatrix id (Fin.castLE h)

omit [DecidableEq m] in
theorem lead_orthonormal {p q : ℕ} (h : q ≤ p) (U : Matrix m (Fin p) ℂ) (hU : Uᴴ * U = 1) :
    (lead q h U)ᴴ * lead q h U = 1 := by
  ext i j
  have := congrFun (congrFun hU (Fin.castLE h i)) (Fin.castLE h j)
  simp only [lead, Matrix.mul_apply, conjTranspose_apply, submatrix_apply, id_eq] at this ⊢
  rw [this]
  simp [Matrix.one_apply, Fin.ext_iff]

omit [DecidableEq m] [DecidableEq n] in
/-- Truncating an SVD gives the SVD of the truncated data. -/
theorem IsSVD.lead {p : ℕ} {X : Matrix m n ℂ} {U : Matrix m (Fin p) ℂ} {s : Fin p → ℝ}
    {V : Matrix n (Fin p) ℂ} (h : IsSVD X U s V) (q : ℕ) (hq : q ≤ p) :
    IsSVD (lead q hq U * rdiag (s ∘ Fin.castLE hq) * (lead q hq V)ᴴ) (lead q hq U)
      (s ∘ Fin.castLE hq) (lead q hq V) :=
  ⟨rfl, lead_orthonormal hq U h.u, lead_orthonormal hq V h.v, fun _ => h.nonneg _⟩

omit [DecidableEq m] [DecidableEq n] in
/-- `X^H U_q = V_q S_q` for the leading columns. -/
theorem IsSVD.conj_mul_lead {p : ℕ} {X : Matrix m n ℂ} {U : Matrix m (Fin p) ℂ} {s : Fin p → ℝ}
    {V : Matrix n (Fin p) ℂ} (h : IsSVD X U s V) (q : ℕ) (hq : q ≤ p) :
    Xᴴ * LinAlg.lead q hq U = LinAlg.lead q hq V * rdiag (s ∘ Fin.castLE hq) := by
  have e : Xᴴ * U = V * rdiag s := by
    rw [h.eq, conjTranspose_mul, conjTranspose_mul, conjTranspose_conjTranspose,
      rdiag_conjTranspose, Matrix.mul_assoc, Matrix.mul_assoc, h.u, Matrix.mul_one]
  ext i j
  have := congrFun (congrFun e i) (Fin.castLE hq j)
  simp only [rdiag, mul_diagonal] at this ⊢
  simpa [LinAlg.lead, Matrix.mul_apply] using this

end Verif.LinAlg
