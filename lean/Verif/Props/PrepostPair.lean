import Verif.Model.Prepost
import Verif.Model.Operator
import Verif.Spec.LinAlg
import Mathlib.LinearAlgebra.Matrix.Determinant.Basic
import Mathlib.LinearAlgebra.Matrix.NonsingularInverse
import Mathlib.Tactic.NormNum

/-!
# C98: pre-processing of pairs of data
-/

set_option autoImplicit false

namespace Verif.Prepost

open Verif Verif.LinAlg Matrix

section

variable {m n r : Type} [Fintype m] [Fintype n] [Fintype r] [DecidableEq r]

/-- The right singular vectors of data centred over time are centred. -/
theorem centred_svd [Nonempty n] (X : Matrix m n ℂ) (U : Matrix m r ℂ) (s : r → ℝ)
    (V : Matrix n r ℂ) (h : IsSVD (zeroMeanTime.pre X).2 U s V) (i : r) (hs : s i ≠ 0) :
    ∑ t, V t i = 0 := by
  have hn : (Fintype.card n : ℂ) ≠ 0 := Nat.cast_ne_zero.mpr Fintype.card_ne_zero
  have hrow : ∀ a, ∑ t, (zeroMeanTime.pre X).2 a t = 0 := by
    intro a
    simp only [zeroMeanTime, Finset.sum_sub_distrib, Finset.sum_const, Finset.card_univ,
      nsmul_eq_mul, meanTime]
    field_simp
    ring
  have hU : Uᴴ * (zeroMeanTime.pre X).2 = rdiag s * Vᴴ := by
    rw [h.eq, Matrix.mul_assoc U, ← Matrix.mul_assoc Uᴴ, h.u, Matrix.one_mul]
  have hz : ∑ t, (Uᴴ * (zeroMeanTime.pre X).2) i t = 0 := by
    simp only [Matrix.mul_apply]
    rw [Finset.sum_comm]
    refine Finset.sum_eq_zero fun a _ => ?_
    rw [← Finset.mul_sum, hrow, mul_zero]
  rw [hU] at hz
  have : ∀ t, (rdiag s * Vᴴ) i t = (s i : ℂ) * star (V t i) := by
    intro t
    simp [rdiag, Matrix.diagonal_mul]
  simp only [this, ← Finset.mul_sum] at hz
  have h0 : ∑ t, star (V t i) = 0 := (mul_eq_zero.1 hz).resolve_left (by exact_mod_cast hs)
  have := congrArg star h0
  rw [star_sum] at this
  simpa using this

/-- **C98** (partial). A DMD wrapped by zero-mean pre-processing over time (`axis=1`) and fitted on
`(X, Y)` has the reduced operator and the modes it would have if `Y` had been centred in the same way
(indeed shifted by any vector), although `Y` is passed on as it is. Missing: the default zero-mean
pre-processing and the projections, see below. -/
theorem C98_centred_partial [Nonempty n] (X Y : Matrix m n ℂ) (U : Matrix m r ℂ) (s : r → ℝ)
    (V : Matrix n r ℂ) (h : IsSVD (pairData zeroMeanTime X Y).1 U s V) (hs : ∀ i, s i ≠ 0)
    (tik : Option (ℝ × ℝ)) (exact : Bool) (E : Matrix r r ℂ) (c : m → ℂ) :
    Operator.leastSquareOperator tik U s V (pairData zeroMeanTime X Y).2 =
      Operator.leastSquareOperator tik U s V (Matrix.of fun i t => Y i t - c i) ∧
    Operator.computeModes exact tik (pairData zeroMeanTime X Y).2 U s V E =
      Operator.computeModes exact tik (Matrix.of fun i t => Y i t - c i) U s V E := by
  have hY : Y * V = (Matrix.of fun i t => Y i t - c i) * V := by
    ext i k
    simp only [Matrix.mul_apply, Matrix.of_apply, sub_mul, Finset.sum_sub_distrib,
      ← Finset.mul_sum]
    rw [centred_svd X U s V h k (hs k), mul_zero, sub_zero]
  refine ⟨?_, ?_⟩
  · rw [Operator.leastSquareOperator, Operator.leastSquareOperator]
    change Uᴴ * Y * V * _ = _
    rw [Matrix.mul_assoc Uᴴ Y V, hY, ← Matrix.mul_assoc]
  · unfold Operator.computeModes
    change (if exact = true then Y * V * _ * E else _) = _
    rw [hY]

end

/-- **C98** fails for the default zero-mean pre-processing: for data that do not change
(`Y = X`) the reduced operator is the identity if both are centred, but singular as fitted. -/
theorem C98_default_false :
    ∃ X : Matrix (Fin 2) (Fin 2) ℂ, ∀ (U : Matrix (Fin 2) (Fin 2) ℂ) (s : Fin 2 → ℝ)
      (V : Matrix (Fin 2) (Fin 2) ℂ), IsSVD (pairData zeroMeanAll X X).1 U s V →
      (∀ i, s i ≠ 0) ∧
      Operator.leastSquareOperator none U s V (fun i j => X i j - meanAll X) = 1 ∧
      (Operator.leastSquareOperator none U s V (pairData zeroMeanAll X X).2).det = 0 := by
  have hm : meanAll (!![1, 3; 0, 0] : Matrix (Fin 2) (Fin 2) ℂ) = 1 := by
    simp [meanAll, Fin.sum_univ_two]
    norm_num
  refine ⟨!![1, 3; 0, 0], fun U s V h => ?_⟩
  have hX : (pairData zeroMeanAll (!![1, 3; 0, 0] : Matrix (Fin 2) (Fin 2) ℂ) !![1, 3; 0, 0]).1
      = !![0, 2; -1, -1] := by
    ext i j
    simp only [pairData, zeroMeanAll, hm]
    fin_cases i <;> fin_cases j <;> norm_num
  have hc : (fun i j => (!![1, 3; 0, 0] : Matrix (Fin 2) (Fin 2) ℂ) i j
      - meanAll (!![1, 3; 0, 0] : Matrix (Fin 2) (Fin 2) ℂ)) = (!![0, 2; -1, -1] : Matrix (Fin 2) (Fin 2) ℂ) := hX
  rw [hX] at h
  have hdet : (!![0, 2; -1, -1] : Matrix (Fin 2) (Fin 2) ℂ).det = 2 := by
    rw [Matrix.det_fin_two_of]; norm_num
  have hs : ∀ i, s i ≠ 0 := by
    intro i hi
    have := congrArg Matrix.det h.eq
    rw [hdet, Matrix.det_mul, Matrix.det_mul] at this
    have hr : (rdiag s).det = 0 := by
      rw [rdiag, Matrix.det_diagonal]
      exact Finset.prod_eq_zero (Finset.mem_univ i) (by simp [hi])
    rw [hr, mul_zero, zero_mul] at this
    norm_num at this
  have hinv : (rdiag s * rdiag fun i => (s i)⁻¹) = 1 := by
    rw [rdiag, rdiag, Matrix.diagonal_mul_diagonal, ← Matrix.diagonal_one]
    congr 1
    funext i
    have : (s i : ℂ) ≠ 0 := by exact_mod_cast hs i
    push_cast
    exact mul_inv_cancel₀ this
  have hop : ∀ A : Matrix (Fin 2) (Fin 2) ℂ,
      Operator.leastSquareOperator none U s V (A * !![0, 2; -1, -1]) = Uᴴ * A * U := by
    intro A
    rw [Operator.leastSquareOperator, h.eq]
    simp only [Operator.tikSigma]
    calc Uᴴ * (A * (U * rdiag s * Vᴴ)) * V * (rdiag fun i => (s i)⁻¹)
        = Uᴴ * A * U * (rdiag s * (Vᴴ * V) * rdiag fun i => (s i)⁻¹) := by
          simp only [Matrix.mul_assoc]
      _ = Uᴴ * A * U := by rw [h.v, Matrix.mul_one, hinv, Matrix.mul_one]
  refine ⟨hs, ?_, ?_⟩
  · rw [hc]
    have := hop 1
    rw [Matrix.one_mul, Matrix.mul_one] at this
    rw [this, h.u]
  · have e : (pairData zeroMeanAll (!![1, 3; 0, 0] : Matrix (Fin 2) (Fin 2) ℂ) !![1, 3; 0, 0]).2
        = !![1, -1; 0, 0] * !![0, 2; -1, -1] := by
      change !![1, 3; 0, 0] = _
      ext i j
      fin_cases i <;> fin_cases j <;> simp [Matrix.mul_apply, Fin.sum_univ_two]; norm_num
    rw [e, hop, Matrix.det_mul, Matrix.det_mul, Matrix.det_fin_two_of]
    norm_num

/-- **C98** fails for the SVD projection: if it reduces the number of rows, `fit(X, Y)` raises; if
it does not, the operator is fitted from the rotated `X` to the unrotated `Y`: for the identity
(`Y = X`) with `U` exchanging the rows, `Y` is not the projection of `X`. -/
theorem C98_projection_false :
    (∀ (n r T : ℕ) (U : Matrix (Fin n) (Fin r) ℂ) (X Y : Matrix (Fin n) (Fin T) ℂ), r < n →
      projectedPair U X Y = .error .valueError) ∧
    ∃ (X U : Matrix (Fin 2) (Fin 2) ℂ) (s : Fin 2 → ℝ) (V : Matrix (Fin 2) (Fin 2) ℂ),
      IsSVD X U s V ∧ ∃ a b, projectedPair U X X = .ok (a, b) ∧ b ≠ svdPre U X := by
  refine ⟨fun n r T U X Y h => by rw [projectedPair, dif_neg (by omega)], ?_⟩
  refine ⟨!![0, 1; 2, 0], !![0, 1; 1, 0], ![2, 1], 1, ⟨?_, ?_, by simp, ?_⟩, _, _, dif_pos rfl, ?_⟩
  · ext i j
    fin_cases i <;> fin_cases j <;> simp [rdiag, Matrix.vecMul_diagonal]
  · ext i j
    fin_cases i <;> fin_cases j <;>
      simp [Matrix.mul_apply, Fin.sum_univ_two]
  · intro i
    fin_cases i <;> simp
  · intro h
    have := congrFun (congrFun h 0) 0
    simp [svdPre, Matrix.mul_apply, Fin.sum_univ_two] at this

/-- The hypotheses of `C98_centred_partial` are met by one sensor that shows 1 and 3, with mean 2. -/
example : ∃ (U : Matrix (Fin 1) (Fin 1) ℂ) (s : Fin 1 → ℝ) (V : Matrix (Fin 2) (Fin 1) ℂ),
    IsSVD (pairData zeroMeanTime (!![1, 3] : Matrix (Fin 1) (Fin 2) ℂ) !![5, 6]).1 U s V ∧ ∀ i, s i ≠ 0 := by
  have h2 : ((√2 : ℝ) : ℂ) * (√2 : ℝ) = 2 := by
    rw [← Complex.ofReal_mul, Real.mul_self_sqrt (by norm_num)]; norm_num
  have h0 : ((√2 : ℝ) : ℂ) ≠ 0 := by
    rw [Complex.ofReal_ne_zero]; positivity
  refine ⟨1, fun _ => √2, of ![![-1 / (√2 : ℝ)], ![1 / (√2 : ℝ)]], ⟨?_, by simp, ?_, fun _ => Real.sqrt_nonneg _⟩,
    fun _ => by positivity⟩
  · ext i j
    fin_cases i
    fin_cases j <;> simp [pairData, zeroMeanTime, meanTime, rdiag, Matrix.mul_apply, Fin.sum_univ_two, h0] <;>
      field_simp <;> norm_num
  · ext i j
    fin_cases i; fin_cases j
    simp [Matrix.mul_apply, Fin.sum_univ_two]
    field_simp
    rw [sq, h2]; norm_num

end Verif.Prepost
