import Verif.Props.Frequencies
import Mathlib.LinearAlgebra.Matrix.Charpoly.Coeff
import Mathlib.Algebra.Polynomial.Reverse
import Mathlib.LinearAlgebra.Matrix.Charpoly.Eigs

/-! # The eigenvalues of an inverse matrix, with multiplicities -/

set_option autoImplicit false

namespace Verif.InvRoots

open Polynomial Matrix

theorem reverse_linear (e : ℂ) : (X - C e : ℂ[X]).reverse = C (-e) * X + C 1 := by
  have h : (X - C e : ℂ[X]) = 1 * X + C (-e) := by simp [sub_eq_add_neg]
  have h1 : (1 : ℂ[X]).reverse = 1 := by rw [← C_1, reverse_C]
  rw [h, reverse_add_C, reverse_mul_X, h1, one_mul, natDegree_X, pow_one, C_1, add_comm]

theorem reverse_roots (s : Multiset ℂ) (h : ∀ e ∈ s, e ≠ 0) :
    ((s.map fun e => X - C e).prod.reverse).roots = s.map fun e => e⁻¹ := by
  induction s using Multiset.induction with
  | empty =>
    rw [Multiset.map_zero, Multiset.prod_zero, ← C_1, reverse_C, roots_C, Multiset.map_zero]
  | cons a s ih =>
    have ha : a ≠ 0 := h a (Multiset.mem_cons_self a s)
    rw [Multiset.map_cons, Multiset.prod_cons, reverse_mul_of_domain, roots_mul, ih fun e he => h e (Multiset.mem_cons_of_mem he),
      Multiset.map_cons, reverse_linear, roots_C_mul_X_add_C _ (neg_ne_zero.mpr ha)]
    · rw [mul_one, inv_neg, neg_neg, Multiset.singleton_add]
    · refine mul_ne_zero (fun h0 => ?_) (fun h0 => ?_)
      · rw [reverse_eq_zero] at h0
        exact X_sub_C_ne_zero a h0
      · rw [reverse_eq_zero] at h0
        refine Multiset.prod_ne_zero ?_ h0
        intro hm
        obtain ⟨b, -, hb⟩ := Multiset.mem_map.mp hm
        exact X_sub_C_ne_zero b hb

theorem charpoly_inv_roots {q : ℕ} (S : Matrix (Fin q) (Fin q) ℂ) (eigs : Fin q → ℂ)
    (hr : S.charpoly.roots = Finset.univ.val.map eigs) (h0 : ∀ j, eigs j ≠ 0) :
    IsUnit S.det ∧ S⁻¹.charpoly.roots = Finset.univ.val.map fun j => (eigs j)⁻¹ := by
  have hdet : S.det = ∏ j, eigs j := by
    rw [Matrix.det_eq_prod_roots_charpoly_of_splits (IsAlgClosed.splits _), hr]
    rfl
  have hu : IsUnit S.det := by
    rw [hdet, isUnit_iff_ne_zero]
    exact Finset.prod_ne_zero_iff.mpr fun j _ => h0 j
  refine ⟨hu, ?_⟩
  have hs : S.charpoly = ((Finset.univ.val.map eigs).map fun e => X - C e).prod := by
    rw [← hr]
    exact ((IsAlgClosed.splits S.charpoly).eq_prod_roots_of_monic (charpoly_monic S))
  rw [charpoly_inv S ((Matrix.isUnit_iff_isUnit_det S).mpr hu), ← reverse_charpoly, hs]
  have hc : ((-1) ^ Fintype.card (Fin q) * C (Ring.inverse S.det) : ℂ[X]) = C ((-1) ^ Fintype.card (Fin q) * Ring.inverse S.det) := by
    simp
  rw [hc, roots_C_mul, reverse_roots]
  · rw [Multiset.map_map]; rfl
  · intro e he
    obtain ⟨j, -, rfl⟩ := Multiset.mem_map.mp he
    exact h0 j
  · refine mul_ne_zero (pow_ne_zero _ (by norm_num)) ?_
    rw [Ring.inverse_eq_inv']
    exact inv_ne_zero hu.ne_zero

end Verif.InvRoots
