import Verif.Model.Operator
import Verif.Lemmas.LinAlg
import Mathlib.LinearAlgebra.Matrix.Rank
import Mathlib.LinearAlgebra.Matrix.Charpoly.Basic

/-! Helper lemmas on the DMD operator. -/

namespace Verif.Operator

open Verif Verif.LinAlg Matrix

variable {m n r : Type} [Fintype m] [Fintype n] [Fintype r] [DecidableEq r] [DecidableEq n]

/-- Sorting by a key keeps the relative order of equal keys. -/
theorem mergeSort_stable {α κ : Type} [LinearOrder κ] (key : α → κ) (l : List α) (c : κ) :
    (l.mergeSort fun a b => decide (key a ≤ key b)).filter (fun x => key x = c) =
      l.filter fun x => key x = c := by
  have trans : ∀ a b c : α, decide (key a ≤ key b) = true → decide (key b ≤ key c) = true →
      decide (key a ≤ key c) = true := by
    intro a b c h1 h2
    simp only [decide_eq_true_eq] at *
    exact le_trans h1 h2
  have total : ∀ a b : α, (decide (key a ≤ key b) || decide (key b ≤ key a)) = true := by
    intro a b
    simp only [Bool.or_eq_true, decide_eq_true_eq]
    exact le_total _ _
  have hp : (l.filter fun x => key x = c).Pairwise fun a b => decide (key a ≤ key b) = true := by
    rw [List.pairwise_iff_forall_sublist]
    intro a b hab
    have ha : a ∈ l.filter fun x => key x = c := hab.subset (by simp)
    have hb : b ∈ l.filter fun x => key x = c := hab.subset (by simp)
    simp only [List.mem_filter, decide_eq_true_eq] at ha hb
    simp [ha.2, hb.2]
  have hs := List.sublist_mergeSort trans total hp List.filter_sublist
  have hs' := hs.filter (fun x => decide (key x = c))
  rw [List.filter_filter] at hs'
  simp only [Bool.and_self] at hs'
  symm
  refine hs'.eq_of_length ?_
  exact ((List.mergeSort_perm l _).filter _).length_eq.symm

theorem mergeSort_sorted {α κ : Type} [LinearOrder κ] (key : α → κ) (l : List α) :
    (l.mergeSort fun a b => decide (key a ≤ key b)).Pairwise fun a b => key a ≤ key b := by
  have := List.pairwise_mergeSort (le := fun a b => decide (key a ≤ key b))
    (fun a b c h1 h2 => by simp only [decide_eq_true_eq] at *; exact le_trans h1 h2)
    (fun a b => by simp only [Bool.or_eq_true, decide_eq_true_eq]; exact le_total _ _) l
  exact this.imp fun h => by simpa using h

/-- Scaling factors: the two diagonal matrices are inverse to each other. -/
theorem factors_inv (r : ℕ) (l : List ℝ) (hl : l.length = r) (hpos : ∀ x ∈ l, 0 < x) :
    factorsSqrt r l * factorsInvSqrt r l = 1 ∧ factorsInvSqrt r l * factorsSqrt r l = 1 := by
  have hne : ∀ i : Fin r, Real.sqrt (l.getD i 0) ≠ 0 ∧ l.getD i 0 ≠ 0 := by
    intro i
    have hi : (i : ℕ) < l.length := by rw [hl]; exact i.2
    have : 0 < l.getD i 0 := by
      simp only [List.getD_eq_getElem?_getD, List.getElem?_eq_getElem hi, Option.getD_some]
      exact hpos _ (List.getElem_mem hi)
    exact ⟨(Real.sqrt_pos.mpr this).ne', this.ne'⟩
  have e : factorsInvSqrt r l = rdiag fun i : Fin r => (Real.sqrt (l.getD i 0))⁻¹ := by
    unfold factorsInvSqrt
    congr 1; funext i
    rw [if_neg (hne i).2]
  rw [e]
  exact ⟨rdiag_mul_inv _ fun i => (hne i).1, rdiag_inv_mul _ fun i => (hne i).1⟩

end Verif.Operator
