import Verif.Model.BopRun
import Verif.Props.BopStep
import Mathlib.Analysis.InnerProductSpace.GramSchmidtOrtho
import Mathlib.Analysis.InnerProductSpace.PiL2

/-! Helper: pivoted QR decompositions exist, and so do all results of the library in a run of the variable projection. -/

set_option autoImplicit false

namespace Verif.BopRun

open Verif Verif.LinAlg Verif.VarPro Verif.BopStep Matrix InnerProductSpace

variable {m l n : ℕ}

theorem exists_pivqr {P : Type} [Fintype P] [DecidableEq P] (hP : l ≤ Fintype.card P) (J : Matrix P (Fin l) ℂ) :
    Nonempty (PivQr J) := by
  let N := Fintype.card P
  let f : Fin N → EuclideanSpace ℂ P := fun i => if h : (i : ℕ) < l then WithLp.toLp 2 fun p => J p ⟨i, h⟩ else 0
  have hE : Module.finrank ℂ (EuclideanSpace ℂ P) = Fintype.card (Fin N) := by simp [N]
  let b := gramSchmidtOrthonormalBasis hE f
  let ι : Fin l → Fin N := Fin.castLE hP
  have hf : ∀ j : Fin l, f (ι j) = WithLp.toLp 2 fun p => J p j := by
    intro j
    simp [f, ι]
  have htri : ∀ i j, i < j → inner ℂ (b j) (f i) = 0 := fun i j h => gramSchmidtOrthonormalBasis_inv_triangular hE f h
  refine ⟨⟨Matrix.of fun p j => (b (ι j)) p, Matrix.of fun i j => inner ℂ (b (ι i)) (f (ι j)), Equiv.refl _, ?_, ?_, ?_⟩⟩
  · ext i j
    have := orthonormal_iff_ite.mp b.orthonormal (ι i) (ι j)
    rw [Matrix.mul_apply]
    simp only [conjTranspose_apply, Matrix.of_apply]
    rw [PiLp.inner_apply] at this
    simp only [RCLike.inner_apply] at this
    rw [Matrix.one_apply]
    have h2 : (ι i = ι j) ↔ i = j := by simp [ι]
    rw [if_congr h2 rfl rfl] at this
    rw [← this]
    refine Finset.sum_congr rfl fun p _ => ?_
    simp [mul_comm]
  · intro i j h
    exact htri _ _ (by simpa [ι] using h)
  · ext p j
    have h1 := b.sum_repr (f (ι j))
    have h2 : ∀ i : Fin N, i ∉ Finset.univ.map ⟨ι, Fin.castLE_injective hP⟩ → b.repr (f (ι j)) i • b i = 0 := by
      intro i hi
      have : ι j < i := by
        by_contra hc
        apply hi
        rw [Finset.mem_map]
        have hlt : (i : ℕ) < l := lt_of_le_of_lt (by simpa [Fin.le_def, ι] using not_lt.mp hc) j.2
        exact ⟨⟨i, hlt⟩, Finset.mem_univ _, rfl⟩
      rw [b.repr_apply_apply, htri _ _ this, zero_smul]
    rw [← Finset.sum_subset (Finset.subset_univ _) (fun i _ hi => h2 i hi), Finset.sum_map] at h1
    have h3 := congrArg (fun v : EuclideanSpace ℂ P => v p) h1
    rw [hf j] at h3
    simp only [submatrix_apply, id, Equiv.refl_apply, Matrix.mul_apply, Matrix.of_apply]
    rw [← hf j] at h3
    have h4 : (f (ι j)) p = J p j := by rw [hf j]
    rw [h4] at h3
    rw [← h3]
    simp only [Function.Embedding.coeFn_mk, WithLp.ofLp_sum, Finset.sum_apply, WithLp.ofLp_smul, Pi.smul_apply, smul_eq_mul]
    refine Finset.sum_congr rfl fun i _ => ?_
    rw [b.repr_apply_apply, mul_comm]

theorem exists_lib (fulljac : Bool) (hl : l ≤ m * n) (time : Fin m → ℝ) (H : Matrix (Fin m) (Fin n) ℂ) :
    Nonempty (Lib l fulljac time H) := by
  obtain ⟨B, hB⟩ := exists_computeB (l := l) time H
  choose ls hls using fun (A : Matrix (Fin l ⊕ Fin l) (Fin l) ℂ) (y : Fin l ⊕ Fin l → ℂ) => exists_lstsq A y
  have hf : ∀ α, Nonempty (Fact fulljac time H B α) := by
    intro α
    obtain ⟨U, s, V, h, -⟩ := exists_svd (phi time α)
    obtain ⟨q⟩ := exists_pivqr (by simpa using hl) (djac fulljac time α U s V (B α) (BopStep.residual time H B α))
    exact ⟨⟨_, U, s, V, h, q⟩⟩
  exact ⟨⟨B, hB, fun α => (hf α).some, ls, hls⟩⟩

end Verif.BopRun
