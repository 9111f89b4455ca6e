import Verif.Props.Operator
import Verif.Lemmas.EckartYoung

/-!
# Property C14, optimality: total least squares
-/

set_option autoImplicit false

namespace Verif.Operator

open Verif Verif.LinAlg Matrix

variable {m n : Type} [Fintype m] [Fintype n] [DecidableEq m] [DecidableEq n]

open scoped ComplexOrder in
/-- **C14** (optimality). Among all pairs of matrices which stacked have rank at most `q`, the one
`compute_tlsq` returns is nearest to the data: it changes `X` and `Y` together as little as
possible. -/
theorem C14_best {k : ℕ} (X Y : Matrix m n ℂ) (U : Matrix (m ⊕ m) (Fin k) ℂ) (s : Fin k → ℝ)
    (V : Matrix n (Fin k) ℂ) (h : IsSVD (fromRows X Y) U s V) (hs : Antitone s) (q : ℕ) (hq : q ≠ 0)
    (X' Y' : Matrix m n ℂ) (hr : (fromRows X' Y').rank ≤ q) :
    frobSq (X - (computeTlsq V X Y q).1) + frobSq (Y - (computeTlsq V X Y q).2) ≤
      frobSq (X - X') + frobSq (Y - Y') := by
  by_cases hk : k ≤ q
  · rw [C14_low_rank_unchanged X Y U s V h q (fun i hi => absurd i.2 (by omega))]
    simp only [sub_self, (frobSq_eq_zero (0 : Matrix m n ℂ)).mpr rfl, add_zero]
    exact add_nonneg (frobSq_nonneg _) (frobSq_nonneg _)
  have hst : ∀ A B C D : Matrix m n ℂ, frobSq (A - C) + frobSq (B - D) =
      frobSq (fromRows A B - fromRows C D) := by
    intro A B C D
    simp [frobSq, Fintype.sum_sum_type]
  have hmin : min q k = q := by omega
  have hT : computeTlsq V X Y q =
      (X * (lead q (by omega) V * (lead q (by omega) V)ᴴ), Y * (lead q (by omega) V * (lead q (by omega) V)ᴴ)) := by
    have e : tlsqProj V (min_le_right q k) = lead q (by omega) V * (lead q (by omega) V)ᴴ := by
      ext i j
      simp only [tlsqProj, lead, Matrix.mul_apply, conjTranspose_apply, submatrix_apply, id_eq]
      exact Fintype.sum_equiv (finCongr hmin) _ _ fun _ => rfl
    simp only [computeTlsq, hq, if_false, e]
  have h' : IsSVD (fromRows X Y)ᴴ V s U := by
    refine ⟨?_, h.v, h.u, h.nonneg⟩
    conv_lhs => rw [h.eq]
    rw [conjTranspose_mul, conjTranspose_mul, conjTranspose_conjTranspose, rdiag_conjTranspose,
      Matrix.mul_assoc]
  have key := eckartYoung (show q ≤ k by omega) h' hs (fromRows X' Y')ᴴ
    (by rw [rank_conjTranspose]; exact hr)
  rw [hst, hst, hT]
  rw [← frobSq_conjTranspose, ← frobSq_conjTranspose (fromRows X Y - fromRows X' Y')]
  refine le_trans (le_of_eq ?_) (key.trans (le_of_eq ?_))
  · congr 1
    rw [← fromRows_mul, conjTranspose_sub, conjTranspose_mul, conjTranspose_mul,
      conjTranspose_conjTranspose, Matrix.mul_assoc]
  · rw [conjTranspose_sub]

/-- Instance of the hypotheses: `X = 2`, `Y = 0`; the only singular value is 2. -/
example : ∃ (X Y : Matrix (Fin 1) (Fin 1) ℂ) (U : Matrix (Fin 1 ⊕ Fin 1) (Fin 1) ℂ) (s : Fin 1 → ℝ)
    (V : Matrix (Fin 1) (Fin 1) ℂ), IsSVD (fromRows X Y) U s V ∧ Antitone s ∧ X ≠ 0 := by
  refine ⟨rdiag fun _ => 2, 0, fromRows 1 0, fun _ => 2, 1, ⟨?_, ?_, by simp, fun _ => by norm_num⟩,
    fun _ _ _ => le_rfl, ?_⟩
  · rw [fromRows_mul, fromRows_mul]; simp
  · ext i j
    simp [Matrix.mul_apply, Fintype.sum_sum_type, Matrix.one_apply, Subsingleton.elim i j]
    exact Subsingleton.elim _ _
  · intro h
    have := congrFun (congrFun h 0) 0
    simp [rdiag] at this

end Verif.Operator
