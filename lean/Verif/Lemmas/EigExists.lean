import Verif.Lemmas.LinAlg
import Mathlib.LinearAlgebra.Matrix.Charpoly.Basic
import Mathlib.LinearAlgebra.Matrix.Charpoly.Coeff
import Mathlib.LinearAlgebra.Matrix.Charpoly.Eigs
import Mathlib.LinearAlgebra.Matrix.ToLinearEquiv
import Mathlib.Analysis.Complex.Polynomial.Basic

/-!
# `np.linalg.eig` has a result for every square matrix
-/

set_option autoImplicit false

namespace Verif.LinAlg

open Matrix

theorem exists_eig {k : ℕ} (A : Matrix (Fin k) (Fin k) ℂ) :
    ∃ (W : Matrix (Fin k) (Fin k) ℂ) (eigs : Fin k → ℂ), A * W = W * diagonal eigs ∧
      A.charpoly.roots = Finset.univ.val.map eigs ∧ ∀ j, normSq (fun i => W i j) = 1 := by
  have hcard : A.charpoly.roots.card = k := by
    rw [Polynomial.splits_iff_card_roots.mp (IsAlgClosed.splits A.charpoly), Matrix.charpoly_natDegree_eq_dim,
      Fintype.card_fin]
  obtain ⟨l, hl⟩ := Quot.exists_rep A.charpoly.roots
  have hlen : l.length = k := by rw [← hcard, ← hl]; rfl
  subst hlen
  have hroots : A.charpoly.roots = Finset.univ.val.map l.get := by
    rw [Fin.univ_val_map, List.ofFn_get, ← hl]
    rfl
  have heig : ∀ j, ∃ v : Fin l.length → ℂ, normSq v = 1 ∧ A *ᵥ v = l.get j • v := by
    intro j
    have hmem : l.get j ∈ A.charpoly.roots := by
      rw [hroots]
      exact Multiset.mem_map_of_mem l.get (Finset.mem_univ_val j)
    have hroot := (Polynomial.mem_roots'.mp hmem).2
    rw [Polynomial.IsRoot, Matrix.eval_charpoly] at hroot
    obtain ⟨v, hv0, hv⟩ := Matrix.exists_mulVec_eq_zero_iff.mpr hroot
    have hv1 : A *ᵥ v = l.get j • v := by
      rw [sub_mulVec, sub_eq_zero] at hv
      rw [← hv]
      funext i
      simp [Matrix.scalar_apply, mulVec_diagonal]
    have hpos : 0 < normSq v := lt_of_le_of_ne (normSq_nonneg v) fun h => hv0 ((normSq_eq_zero v).mp h.symm)
    refine ⟨((Real.sqrt (normSq v))⁻¹ : ℂ) • v, ?_, ?_⟩
    · have h2 : normSq (((Real.sqrt (normSq v))⁻¹ : ℂ) • v) = (normSq v)⁻¹ * normSq v := by
        have h3 : Complex.normSq ((Real.sqrt (normSq v))⁻¹ : ℂ) = (normSq v)⁻¹ := by
          rw [Complex.normSq_inv, Complex.normSq_ofReal, Real.mul_self_sqrt hpos.le]
        rw [← h3]
        simp [normSq, Finset.mul_sum]
      rw [h2, inv_mul_cancel₀ hpos.ne']
    · rw [mulVec_smul, hv1, smul_comm]
  choose w hw1 hw2 using heig
  refine ⟨of fun i j => w j i, l.get, ?_, hroots, hw1⟩
  ext i j
  have h1 := congrFun (hw2 j) i
  rw [mul_diagonal, of_apply, mul_comm]
  exact h1

end Verif.LinAlg
