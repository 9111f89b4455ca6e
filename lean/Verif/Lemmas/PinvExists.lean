import Verif.Lemmas.SvdExists
import Verif.Lemmas.LinAlg

/-!
# Every matrix has a pseudo-inverse
-/

set_option autoImplicit false

namespace Verif.LinAlg

open Matrix

variable {m n : Type} [Fintype m] [Fintype n] [DecidableEq m] [DecidableEq n]

/-- From a singular value decomposition, with `1 / 0 = 0`. -/
theorem IsSVD.isPinv_zero {k : Type} [Fintype k] [DecidableEq k] {X : Matrix m n ℂ} {U : Matrix m k ℂ} {s : k → ℝ}
    {V : Matrix n k ℂ} (h : IsSVD X U s V) : IsPinv X (V * rdiag (fun i => (s i)⁻¹) * Uᴴ) := by
  have hd : ∀ a b : k → ℝ, rdiag a * rdiag b = rdiag fun i => a i * b i := by
    intro a b
    rw [rdiag, rdiag, diagonal_mul_diagonal, rdiag]
    congr 1
    funext i
    push_cast
    rfl
  have hh : ∀ a : k → ℝ, (rdiag a)ᴴ = rdiag a := by
    intro a
    rw [rdiag, diagonal_conjTranspose]
    congr 1
    funext i
    simp
  have xp : X * (V * rdiag (fun i => (s i)⁻¹) * Uᴴ) = U * rdiag (fun i => s i * (s i)⁻¹) * Uᴴ := by
    rw [h.eq]
    calc U * rdiag s * Vᴴ * (V * rdiag (fun i => (s i)⁻¹) * Uᴴ)
        = U * rdiag s * (Vᴴ * V) * rdiag (fun i => (s i)⁻¹) * Uᴴ := by simp only [Matrix.mul_assoc]
      _ = U * (rdiag s * rdiag (fun i => (s i)⁻¹)) * Uᴴ := by rw [h.v, Matrix.mul_one, Matrix.mul_assoc U]
      _ = _ := by rw [hd]
  have px : (V * rdiag (fun i => (s i)⁻¹) * Uᴴ) * X = V * rdiag (fun i => (s i)⁻¹ * s i) * Vᴴ := by
    rw [h.eq]
    calc V * rdiag (fun i => (s i)⁻¹) * Uᴴ * (U * rdiag s * Vᴴ)
        = V * rdiag (fun i => (s i)⁻¹) * (Uᴴ * U) * rdiag s * Vᴴ := by simp only [Matrix.mul_assoc]
      _ = V * (rdiag (fun i => (s i)⁻¹) * rdiag s) * Vᴴ := by rw [h.u, Matrix.mul_one, Matrix.mul_assoc V]
      _ = _ := by rw [hd]
  refine ⟨?_, ?_, ?_, ?_⟩
  · rw [xp, h.eq]
    calc U * rdiag (fun i => s i * (s i)⁻¹) * Uᴴ * (U * rdiag s * Vᴴ)
        = U * rdiag (fun i => s i * (s i)⁻¹) * (Uᴴ * U) * rdiag s * Vᴴ := by simp only [Matrix.mul_assoc]
      _ = U * (rdiag (fun i => s i * (s i)⁻¹) * rdiag s) * Vᴴ := by rw [h.u, Matrix.mul_one, Matrix.mul_assoc U]
      _ = _ := by
        rw [hd]
        congr 3
        funext i
        exact mul_inv_mul_cancel _
  · rw [px]
    calc V * rdiag (fun i => (s i)⁻¹ * s i) * Vᴴ * (V * rdiag (fun i => (s i)⁻¹) * Uᴴ)
        = V * rdiag (fun i => (s i)⁻¹ * s i) * (Vᴴ * V) * rdiag (fun i => (s i)⁻¹) * Uᴴ := by
          simp only [Matrix.mul_assoc]
      _ = V * (rdiag (fun i => (s i)⁻¹ * s i) * rdiag (fun i => (s i)⁻¹)) * Uᴴ := by
          rw [h.v, Matrix.mul_one, Matrix.mul_assoc V]
      _ = _ := by
        rw [hd]
        congr 3
        funext i
        by_cases h0 : s i = 0
        · simp [h0]
        · field_simp
  · rw [xp, conjTranspose_mul, conjTranspose_mul, conjTranspose_conjTranspose, hh, Matrix.mul_assoc]
  · rw [px, conjTranspose_mul, conjTranspose_mul, conjTranspose_conjTranspose, hh, Matrix.mul_assoc]

theorem exists_pinv (X : Matrix m n ℂ) : ∃ P, IsPinv X P := by
  let e := Fintype.equivFin m
  let f := Fintype.equivFin n
  obtain ⟨U, s, V, h, -⟩ := exists_svd (X.submatrix e.symm f.symm)
  have h' : IsSVD X (U.submatrix e id) s (V.submatrix f id) := by
    refine ⟨?_, ?_, ?_, h.nonneg⟩
    · have := congrArg (fun M => M.submatrix e f) h.eq
      simp only [submatrix_submatrix, Equiv.symm_comp_self, submatrix_id_id] at this
      exact this
    · rw [← h.u]
      ext i j
      simp only [Matrix.mul_apply, conjTranspose_apply, submatrix_apply, id]
      exact Equiv.sum_comp e fun x => star (U x i) * U x j
    · rw [← h.v]
      ext i j
      simp only [Matrix.mul_apply, conjTranspose_apply, submatrix_apply, id]
      exact Equiv.sum_comp f fun x => star (V x i) * V x j
  exact ⟨_, h'.isPinv_zero⟩

/-- Every least-squares problem has a solution. -/
theorem exists_isLstsq (X : Matrix m n ℂ) (y : m → ℂ) : ∃ b, IsLstsq X y b := by
  obtain ⟨P, hP⟩ := exists_pinv X
  refine ⟨P *ᵥ y, isLstsq_of_normal _ _ _ ?_⟩
  rw [mulVec_sub, mulVec_mulVec, mulVec_mulVec]
  have h1 : Xᴴ * (X * P) = Xᴴ := by
    have := congrArg conjTranspose hP.apa
    rw [conjTranspose_mul, hP.ap] at this
    exact this
  rw [Matrix.mul_assoc, h1, sub_self]

end Verif.LinAlg
