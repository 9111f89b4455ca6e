import Verif.Model.Edmd
import Verif.Model.Operator
import Mathlib.LinearAlgebra.Matrix.DotProduct
import Mathlib.LinearAlgebra.Matrix.Rank
import Mathlib.Data.Real.StarOrdered

/-!
# Properties C83 and C84: kernelized extended DMD
-/

set_option autoImplicit false

namespace Verif.Edmd

open Verif Matrix

variable {n N : Type} [Fintype N] {m : ℕ}

/-! ## The factors of the feature matrix -/

theorem rank_gram {G E : Matrix (Fin m) (Fin m) ℝ} {g : Fin m → ℝ} (h : G * E = E * diagonal g)
    (ho : Eᵀ * E = 1) : G.rank = Fintype.card {i // g i ≠ 0} := by
  have ho' : E * Eᵀ = 1 := mul_eq_one_comm.mp ho
  rw [← rank_diagonal]
  apply le_antisymm
  · have : G = E * diagonal g * Eᵀ := by rw [← h, Matrix.mul_assoc, ho', Matrix.mul_one]
    rw [this]
    exact (rank_mul_le_left _ _).trans (rank_mul_le_right _ _)
  · have : diagonal g = Eᵀ * (G * E) := by rw [h, ← Matrix.mul_assoc, ho, Matrix.one_mul]
    rw [this]
    exact (rank_mul_le_right _ _).trans (rank_mul_le_left _ _)

theorem svals_eq_zero {g : Fin m → ℝ} {i : Fin m} : svals g i = 0 ↔ g i = 0 := by
  unfold svals
  split_ifs with h
  · rw [Real.sqrt_eq_zero (by linarith)]; constructor <;> intro h' <;> linarith
  · rw [Real.sqrt_eq_zero (by linarith)]

section

variable {G : Matrix (Fin m) (Fin m) ℝ} {Ψ : Matrix (Fin m) N ℝ} {svdRank : Rank.SvdRank ℝ}
  (d : Svd G svdRank) (hG : G = Ψ * Ψᵀ)

include hG

theorem g_nonneg (i : Fin m) : 0 ≤ d.g i := by
  have h1 : (d.Eᵀ * G * d.E) i i = d.g i := by
    rw [Matrix.mul_assoc, d.eig, ← Matrix.mul_assoc, d.ortho, Matrix.one_mul, diagonal_apply_eq]
  rw [← h1]
  have h2 : d.Eᵀ * G * d.E = (Ψᵀ * d.E)ᵀ * (Ψᵀ * d.E) := by
    refine Eq.trans (congrArg (fun M => d.Eᵀ * M * d.E) hG) ?_
    rw [transpose_mul, transpose_transpose]; simp only [Matrix.mul_assoc]
  rw [h2, Matrix.mul_apply]
  exact Finset.sum_nonneg fun j _ => mul_self_nonneg _

theorem Q_apply (a : Fin m) (i : Fin d.r) :
    d.Q a i = d.E a (d.p (Fin.castLE (rank_le _ _ _) i)) := by
  simp [Svd.Q, flipped, not_lt.mpr (g_nonneg d hG _)]

theorem s_sq (i : Fin d.r) : d.s i ^ 2 = d.g (d.p (Fin.castLE (rank_le _ _ _) i)) := by
  have := g_nonneg d hG (d.p (Fin.castLE (rank_le _ _ _) i))
  rw [Svd.s, svals, if_neg (not_lt.mpr this), Real.sq_sqrt this]

theorem gram_Q : G * d.Q = d.Q * diagonal fun i => d.s i ^ 2 := by
  ext a i
  have := congrFun (congrFun d.eig a) (d.p (Fin.castLE (rank_le _ _ _) i))
  rw [mul_diagonal] at this ⊢
  rw [s_sq d hG, Q_apply d hG, ← this, Matrix.mul_apply, Matrix.mul_apply]
  exact Finset.sum_congr rfl fun b _ => by rw [Q_apply d hG]

theorem Q_ortho : d.Qᵀ * d.Q = 1 := by
  ext i j
  have := congrFun (congrFun d.ortho (d.p (Fin.castLE (rank_le _ _ _) i)))
    (d.p (Fin.castLE (rank_le _ _ _) j))
  rw [Matrix.mul_apply] at this ⊢
  simp only [transpose_apply, Q_apply d hG] at this ⊢
  rw [this, Matrix.one_apply, Matrix.one_apply]
  simp [Fin.ext_iff]

omit hG in
omit [Fintype N] in
/-- The retained columns cover all nonzero singular values if there are at least as many as the
rank. -/
theorem covers (hr : G.rank ≤ d.r) (i : Fin m) (hi : svals d.g (d.p i) ≠ 0) : (i : ℕ) < d.r := by
  by_contra hc
  push Not at hc
  rw [rank_gram d.eig d.ortho] at hr
  have h1 : ∀ j : Fin m, j ≤ i → d.g (d.p j) ≠ 0 := by
    intro j hj h0
    have h2 := d.sorted j i hj
    rw [svals_eq_zero.mpr h0] at h2
    exact hi (le_antisymm h2 (Real.sqrt_nonneg _))
  have h3 : Fintype.card {j : Fin m // j ≤ i} ≤ Fintype.card {j // d.g j ≠ 0} :=
    Fintype.card_le_of_injective (fun j => ⟨d.p j.1, h1 j.1 j.2⟩) fun a b h => by
      simpa [Subtype.ext_iff] using h
  have h4 : Fintype.card {j : Fin m // j ≤ i} = (i : ℕ) + 1 := by
    rw [Fintype.card_subtype]
    have : Finset.univ.filter (fun j : Fin m => j ≤ i) = Finset.Iic i := by ext; simp
    rw [this, Fin.card_Iic]
  omega

theorem gram_eq (hr : G.rank ≤ d.r) :
    G = d.Q * (diagonal fun i => d.s i ^ 2) * d.Qᵀ := by
  have ho' : d.E * d.Eᵀ = 1 := mul_eq_one_comm.mp d.ortho
  have e : G = d.E * diagonal d.g * d.Eᵀ := by
    rw [← d.eig, Matrix.mul_assoc, ho', Matrix.mul_one]
  ext a b
  refine (congrFun (congrFun e a) b).trans ?_
  rw [Matrix.mul_apply, Matrix.mul_apply]
  simp only [mul_diagonal, transpose_apply, Q_apply d hG, s_sq d hG]
  rw [← Equiv.sum_comp d.p]
  have hinj : Function.Injective (Fin.castLE (rank_le d.g d.p svdRank)) := Fin.castLE_injective _
  rw [← Finset.sum_image (s := Finset.univ) (g := Fin.castLE (rank_le d.g d.p svdRank))
    (f := fun j => d.E a (d.p j) * d.g (d.p j) * d.E b (d.p j)) (fun x _ y _ h => hinj h)]
  symm
  apply Finset.sum_subset (Finset.subset_univ _)
  intro j _ hj
  have : d.g (d.p j) = 0 := by
    by_contra h0
    have := covers d hr j (fun h => h0 (svals_eq_zero.mp h))
    exact hj (Finset.mem_image.mpr ⟨⟨j, this⟩, Finset.mem_univ _, by ext; rfl⟩)
  rw [this]; simp

/-- `Q` times the projection onto its columns with nonzero singular value fixes the features. -/
theorem proj_feature (hr : G.rank ≤ d.r) :
    d.Q * (diagonal fun i => d.s i ^ 2) * (diagonal fun i => (d.s i)⁻¹) * (diagonal fun i => (d.s i)⁻¹) *
      d.Qᵀ * Ψ = Ψ := by
  set S2 := diagonal fun i => d.s i ^ 2
  set D := diagonal fun i => (d.s i)⁻¹
  have hP : S2 * D * D * S2 = S2 := by
    simp only [S2, D, diagonal_mul_diagonal]
    congr 1; funext i
    by_cases h : d.s i = 0
    · simp [h]
    · field_simp
  have hg := gram_eq d hG hr
  have h0 : (d.Q * S2 * D * D * d.Qᵀ - 1) * G = 0 := by
    rw [Matrix.sub_mul, Matrix.one_mul, sub_eq_zero]
    calc d.Q * S2 * D * D * d.Qᵀ * G
        = d.Q * S2 * D * D * d.Qᵀ * (d.Q * S2 * d.Qᵀ) := congrArg (_ * ·) hg
      _ = d.Q * (S2 * D * D) * (d.Qᵀ * d.Q) * S2 * d.Qᵀ := by simp only [Matrix.mul_assoc]
      _ = d.Q * (S2 * D * D * S2) * d.Qᵀ := by rw [Q_ortho d hG, Matrix.mul_one]; simp only [Matrix.mul_assoc]
      _ = G := by rw [hP]; exact hg.symm
  have h1 : (d.Q * S2 * D * D * d.Qᵀ - 1) * Ψ = 0 := by
    have := (mul_self_mul_conjTranspose_eq_zero Ψ (d.Q * S2 * D * D * d.Qᵀ - 1)).mp
      (by rw [conjTranspose_eq_transpose_of_trivial]; exact (congrArg (_ * ·) hG).symm.trans h0)
    exact this
  rwa [Matrix.sub_mul, Matrix.one_mul, sub_eq_zero] at h1

end

theorem pinvDiag_eq {r : ℕ} (s : Fin r → ℝ) (hs : ∀ i j, s i ≠ 0 → 1e-15 * s j < s i) :
    pinvDiag s = diagonal fun i => (s i)⁻¹ := by
  unfold pinvDiag
  congr 1
  funext i
  by_cases h : s i = 0
  · rw [if_neg]
    · rw [h, _root_.inv_zero]
    · intro hc
      have := hc i
      rw [h] at this
      simp at this
  · rw [if_pos fun j => hs i j h]

theorem toC_mul {a b c : Type} [Fintype b] (M : Matrix a b ℝ) (M' : Matrix b c ℝ) :
    toC (M * M') = toC M * toC M' := by
  ext i j; simp [toC, Matrix.mul_apply]

/-- Real vectors as complex ones. -/
noncomputable def vc {a : Type} (v : a → ℝ) (i : a) : ℂ := v i

theorem vc_vecMul {a b : Type} [Fintype a] (v : a → ℝ) (M : Matrix a b ℝ) :
    vc (v ᵥ* M) = vc v ᵥ* toC M := by
  funext i; simp [vc, vecMul, dotProduct, toC]

theorem vc_mulVec {a b : Type} [Fintype b] (v : b → ℝ) (M : Matrix a b ℝ) :
    vc (M *ᵥ v) = toC M *ᵥ vc v := by
  funext i; simp [vc, mulVec, dotProduct, toC]

/-- The matrix of features of the columns of `X`. -/
def feat (ψ : (n → ℝ) → N → ℝ) (X : Matrix n (Fin m) ℝ) : Matrix (Fin m) N ℝ :=
  Matrix.of fun j => ψ (X.col j)

theorem pairwise_eq {k : (n → ℝ) → (n → ℝ) → ℝ} {ψ : (n → ℝ) → N → ℝ}
    (hk : ∀ x y, k x y = ψ x ⬝ᵥ ψ y) (Y X : Matrix n (Fin m) ℝ) :
    pairwise k Y X = feat ψ Y * (feat ψ X)ᵀ := by
  ext i j; simp [pairwise, hk, feat, Matrix.mul_apply, dotProduct]

section

variable {k : (n → ℝ) → (n → ℝ) → ℝ} {ψ : (n → ℝ) → N → ℝ} (hk : ∀ x y, k x y = ψ x ⬝ᵥ ψ y)
  {svdRank : Rank.SvdRank ℝ} {X Y : Matrix n (Fin m) ℝ} (f : Fit k svdRank X Y)

/-- The right factors of the feature matrix. -/
noncomputable def right (ψ : (n → ℝ) → N → ℝ) (f : Fit k svdRank X Y) : Matrix N (Fin f.svd.r) ℝ :=
  (feat ψ X)ᵀ * f.svd.Q * pinvDiag f.svd.s

include hk in
theorem eigenfunctions_eq (x : n → ℝ) : eigenfunctions k X f.svd.Q f.svd.s f.V x =
    .ok (vc (ψ x ᵥ* right ψ f) ᵥ* f.V) := by
  rw [eigenfunctions, dif_pos rfl]
  congr 1
  funext i
  have h : ∀ j, ((Matrix.of fun (_ : Fin 1) (j : Fin m) => k x (X.col j)) * f.svd.Q *
      pinvDiag f.svd.s) 0 j = (ψ x ᵥ* right ψ f) j := by
    intro j
    rw [mul_apply_eq_vecMul, mul_apply_eq_vecMul, right, ← vecMul_vecMul, ← vecMul_vecMul]
    congr 3
    funext l
    simp [hk, vecMul, dotProduct, feat]
  rw [Matrix.mul_apply]
  refine Finset.sum_congr rfl fun j _ => ?_
  congr 1
  exact congrArg (fun r : ℝ => (r : ℂ)) (h j)

variable (hr : (pairwise k X X).rank ≤ f.svd.r)
  (hs : ∀ i j, f.svd.s i ≠ 0 → 1e-15 * f.svd.s j < f.svd.s i)

include hk hr hs

/-- Invariance of the retained right factors. -/
theorem right_inv (B : Matrix N N ℝ) (hY : feat ψ Y = feat ψ X * Bᵀ) :
    feat ψ X * Bᵀ * right ψ f = feat ψ X * right ψ f * kHat f.svd.Q f.svd.s (pairwise k Y X) := by
  have hG := pairwise_eq hk X X
  have h1 := proj_feature f.svd hG hr
  have h2 := gram_Q f.svd hG
  have hD := pinvDiag_eq f.svd.s hs
  set D := diagonal fun i => (f.svd.s i)⁻¹
  set S2 := diagonal fun i => f.svd.s i ^ 2
  have h3 : feat ψ X * right ψ f = f.svd.Q * S2 * D := by
    rw [right, hD, ← h2, ← Matrix.mul_assoc, ← Matrix.mul_assoc]
    exact congrArg (fun M => M * f.svd.Q * D) hG.symm
  have h4 : kHat f.svd.Q f.svd.s (pairwise k Y X) = D * f.svd.Qᵀ * feat ψ X * Bᵀ * right ψ f := by
    rw [kHat, pairwise_eq hk Y X, hY, right, hD]
    simp only [Matrix.mul_assoc]
  rw [h4, h3]
  calc feat ψ X * Bᵀ * right ψ f
      = f.svd.Q * S2 * D * D * f.svd.Qᵀ * feat ψ X * Bᵀ * right ψ f := by rw [h1]
    _ = _ := by simp only [Matrix.mul_assoc]

/-- The right factors project onto the span of the features. -/
theorem right_proj : right ψ f * (right ψ f)ᵀ * (feat ψ X)ᵀ = (feat ψ X)ᵀ := by
  have hG := pairwise_eq hk X X
  have h1 := proj_feature f.svd hG hr
  have h2 := gram_Q f.svd hG
  have hD := pinvDiag_eq f.svd.s hs
  set D := diagonal fun i => (f.svd.s i)⁻¹
  set S2 := diagonal fun i => f.svd.s i ^ 2
  have hDt : Dᵀ = D := diagonal_transpose _
  have h3 : feat ψ X * right ψ f = f.svd.Q * S2 * D := by
    rw [right, hD, ← h2, ← Matrix.mul_assoc, ← Matrix.mul_assoc]
    exact congrArg (fun M => M * f.svd.Q * D) hG.symm
  have h5 : feat ψ X * (right ψ f * (right ψ f)ᵀ) = feat ψ X := by
    calc feat ψ X * (right ψ f * (right ψ f)ᵀ) = feat ψ X * right ψ f * (right ψ f)ᵀ := by
          rw [Matrix.mul_assoc]
      _ = f.svd.Q * S2 * D * D * f.svd.Qᵀ * feat ψ X := by
          rw [h3, right, hD, transpose_mul, transpose_mul, transpose_transpose, hDt]
          simp only [Matrix.mul_assoc]
      _ = feat ψ X := h1
  have := congrArg transpose h5
  rw [transpose_mul, transpose_mul, transpose_transpose] at this
  exact this

/-- **C83** (Koopman eigenfunctions). Let the kernel be given by finitely many features whose span is
invariant under the dynamics `F`, and let the data be pairs `(x, F x)` whose features span that of
`x`. If `EDMD` retains at least the rank of the Gram matrix and no positive singular value is cut by
`pinv`, each function evaluated by `eigenfunctions` satisfies `φ (F x) = λ φ x` with the eigenvalue at
the same position. -/
theorem C83_koopman_partial (F : (n → ℝ) → n → ℝ) (B : Matrix N N ℝ) (hB : ∀ x, ψ (F x) = B *ᵥ ψ x)
    (hY : ∀ j, Y.col j = F (X.col j)) (x : n → ℝ)
    (hx : ∃ c : Fin m → ℝ, ψ x = ∑ j, c j • ψ (X.col j)) :
    ∃ v w, eigenfunctions k X f.svd.Q f.svd.s f.V x = .ok v ∧
      eigenfunctions k X f.svd.Q f.svd.s f.V (F x) = .ok w ∧ ∀ i, w i = f.eigs i * v i := by
  refine ⟨_, _, eigenfunctions_eq hk f x, eigenfunctions_eq hk f (F x), fun i => ?_⟩
  have hYf : feat ψ Y = feat ψ X * Bᵀ := by
    ext j a
    simp [feat, hY, hB, Matrix.mul_apply, mulVec, dotProduct, mul_comm]
  obtain ⟨c, hc⟩ := hx
  have hc' : ψ x = c ᵥ* feat ψ X := by
    rw [hc]; funext a; simp [vecMul, dotProduct, feat, Finset.sum_apply]
  have h1 : ψ (F x) ᵥ* right ψ f =
      ψ x ᵥ* right ψ f ᵥ* kHat f.svd.Q f.svd.s (pairwise k Y X) := by
    rw [hB, ← vecMul_transpose, hc']
    simp only [vecMul_vecMul]
    rw [right_inv hk f hr hs B hYf]
  rw [h1, vc_vecMul, vecMul_vecMul, f.eig, ← vecMul_vecMul, vecMul_diagonal, mul_comm]

omit hr in
/-- **C83** (not trivial). An eigenfunction with nonzero eigenvalue does not vanish on the data. -/
theorem C83_nonzero (i : Fin f.svd.r) (hi : f.eigs i ≠ 0) :
    ∃ j v, eigenfunctions k X f.svd.Q f.svd.s f.V (X.col j) = .ok v ∧ v i ≠ 0 := by
  have hG := pairwise_eq hk X X
  have h2 := gram_Q f.svd hG
  have hD := pinvDiag_eq f.svd.s hs
  by_contra hc
  push Not at hc
  set D := diagonal fun i => (f.svd.s i)⁻¹ with hDdef
  set S2 := diagonal fun i => f.svd.s i ^ 2 with hS2
  have h3 : feat ψ X * right ψ f = f.svd.Q * S2 * D := by
    rw [right, hD, ← h2, ← Matrix.mul_assoc, ← Matrix.mul_assoc]
    exact congrArg (fun M => M * f.svd.Q * D) hG.symm
  have h4 : toC (feat ψ X * right ψ f) *ᵥ f.V.col i = 0 := by
    funext j
    have := hc j _ (eigenfunctions_eq hk f (X.col j))
    rw [Pi.zero_apply, ← this]
    simp only [mulVec, vecMul, dotProduct, vc, toC, Matrix.mul_apply, feat, Matrix.map_apply, Matrix.of_apply,
      Matrix.col_apply]
  have h5 : toC (S2 * D) *ᵥ f.V.col i = 0 := by
    have : S2 * D = f.svd.Qᵀ * (feat ψ X * right ψ f) := by
      rw [h3, Matrix.mul_assoc f.svd.Q, ← Matrix.mul_assoc, Q_ortho f.svd hG, Matrix.one_mul]
    rw [this, toC_mul, ← mulVec_mulVec, h4, mulVec_zero]
  have h6 : toC D *ᵥ f.V.col i = 0 := by
    have e : D = diagonal (fun i => (f.svd.s i)⁻¹ ^ 2) * (S2 * D) := by
      simp only [hDdef, hS2, diagonal_mul_diagonal]
      congr 1; funext i
      by_cases h : f.svd.s i = 0
      · simp [h]
      · field_simp
    rw [e, toC_mul, ← mulVec_mulVec, h5, mulVec_zero]
  have h7 : toC (kHat f.svd.Q f.svd.s (pairwise k Y X)) *ᵥ f.V.col i = 0 := by
    rw [kHat, hD, toC_mul, ← mulVec_mulVec, h6, mulVec_zero]
  have h8 : f.eigs i • f.V.col i = 0 := by
    rw [← h7]
    funext a
    have := congrFun (congrFun f.eig a) i
    rw [mul_diagonal] at this
    rw [Pi.smul_apply, Matrix.col_apply, smul_eq_mul, mul_comm, ← this]
    rfl
  have h9 : f.V.col i = 0 := (smul_eq_zero.mp h8).resolve_left hi
  have hdet := (Matrix.isUnit_iff_isUnit_det _).mp f.inv
  have : (f.V⁻¹ * f.V) i i = 0 := by
    rw [Matrix.mul_apply]
    exact Finset.sum_eq_zero fun a _ => by
      have := congrFun h9 a
      rw [Matrix.col_apply, Pi.zero_apply] at this
      rw [this, mul_zero]
  rw [Matrix.nonsing_inv_mul _ hdet, Matrix.one_apply_eq] at this
  exact one_ne_zero this

/-- **C83** (completeness). Every linear combination of the features that is multiplied by a number
from each snapshot to the next, and is not zero on all snapshots, has that number among the
eigenvalues, provided that the features of the later snapshots are in the span of those of the
earlier ones. -/
theorem C83_complete (hspan : ∀ i, ∃ c : Fin m → ℝ, ψ (Y.col i) = ∑ j, c j • ψ (X.col j))
    (ξ : N → ℂ) (l : ℂ)
    (hξ : ∀ j, ∑ a, (ψ (Y.col j) a : ℂ) * ξ a = l * ∑ a, (ψ (X.col j) a : ℂ) * ξ a)
    (h0 : ∃ j, ∑ a, (ψ (X.col j) a : ℂ) * ξ a ≠ 0) : ∃ i, f.eigs i = l := by
  have hP := right_proj hk f hr hs
  have hD := pinvDiag_eq f.svd.s hs
  have hP' : feat ψ X * right ψ f * (right ψ f)ᵀ = feat ψ X := by
    have := congrArg transpose hP
    rwa [transpose_mul, transpose_mul, transpose_transpose, transpose_transpose, ← Matrix.mul_assoc] at this
  have hYP : feat ψ Y * right ψ f * (right ψ f)ᵀ = feat ψ Y := by
    choose c hc using hspan
    have : feat ψ Y = Matrix.of c * feat ψ X := by
      ext i a
      have := congrFun (hc i) a
      simpa [feat, Matrix.mul_apply, Finset.sum_apply] using this
    rw [this, Matrix.mul_assoc (Matrix.of c), Matrix.mul_assoc (Matrix.of c), hP']
  have hR : (right ψ f)ᵀ = pinvDiag f.svd.s * f.svd.Qᵀ * feat ψ X := by
    rw [right, hD, transpose_mul, transpose_mul, transpose_transpose, diagonal_transpose, Matrix.mul_assoc]
  have hx : toC (feat ψ Y) *ᵥ ξ = l • (toC (feat ψ X) *ᵥ ξ) := funext hξ
  have hK : kHat f.svd.Q f.svd.s (pairwise k Y X) * (right ψ f)ᵀ =
      pinvDiag f.svd.s * f.svd.Qᵀ * feat ψ Y := by
    calc kHat f.svd.Q f.svd.s (pairwise k Y X) * (right ψ f)ᵀ
        = pinvDiag f.svd.s * f.svd.Qᵀ * (feat ψ Y * right ψ f * (right ψ f)ᵀ) := by
          have : kHat f.svd.Q f.svd.s (pairwise k Y X) =
              pinvDiag f.svd.s * f.svd.Qᵀ * (feat ψ Y * right ψ f) := by
            rw [kHat, pairwise_eq hk Y X, right]
            simp only [Matrix.mul_assoc]
          rw [this]
          simp only [Matrix.mul_assoc]
      _ = _ := by rw [hYP]
  set v := toC ((right ψ f)ᵀ) *ᵥ ξ with hv
  have h1 : toC (kHat f.svd.Q f.svd.s (pairwise k Y X)) *ᵥ v = l • v := by
    rw [hv, mulVec_mulVec, ← toC_mul, hK, toC_mul, ← mulVec_mulVec, hx, mulVec_smul, mulVec_mulVec,
      ← toC_mul, hR]
  have hv0 : v ≠ 0 := by
    intro hv0
    obtain ⟨j, hj⟩ := h0
    apply hj
    have : toC (feat ψ X) *ᵥ ξ = 0 := by
      rw [← hP', toC_mul, ← mulVec_mulVec, ← hv, hv0, mulVec_zero]
    exact congrFun this j
  have hdet := (Matrix.isUnit_iff_isUnit_det _).mp f.inv
  set w := f.V⁻¹ *ᵥ v with hw
  have hVw : f.V *ᵥ w = v := by
    rw [hw, mulVec_mulVec, Matrix.mul_nonsing_inv _ hdet, one_mulVec]
  have h2 : diagonal f.eigs *ᵥ w = l • w := by
    have : f.V⁻¹ *ᵥ (f.V *ᵥ (diagonal f.eigs *ᵥ w)) = l • w := by
      rw [mulVec_mulVec _ f.V, ← f.eig, ← mulVec_mulVec, hVw, h1, mulVec_smul]
    rwa [mulVec_mulVec, Matrix.nonsing_inv_mul _ hdet, one_mulVec] at this
  have hw0 : w ≠ 0 := by
    intro h; rw [h, mulVec_zero] at hVw; exact hv0 hVw.symm
  obtain ⟨i, hi⟩ := Function.ne_iff.mp hw0
  refine ⟨i, ?_⟩
  have := congrFun h2 i
  rw [mulVec_diagonal, Pi.smul_apply, smul_eq_mul] at this
  exact mul_right_cancel₀ hi this

/-- The sum of the modes times the eigenfunctions is the state. -/
theorem decompose (C : Matrix n N ℝ) (hC : ∀ x, x = C *ᵥ ψ x) (x : n → ℝ)
    (hx : ∃ c : Fin m → ℝ, ψ x = ∑ j, c j • ψ (X.col j)) :
    f.modes *ᵥ (vc (ψ x ᵥ* right ψ f) ᵥ* f.V) = vc x := by
  have hX : X = C * (feat ψ X)ᵀ := by
    ext a j
    have := congrFun (hC (X.col j)) a
    simpa [feat, Matrix.mul_apply, mulVec, dotProduct] using this
  have hm : f.modes = toC (C * right ψ f) * (f.V⁻¹)ᵀ := by
    have : X * f.svd.Q * pinvDiag f.svd.s = C * right ψ f := by
      rw [right, ← Matrix.mul_assoc, ← Matrix.mul_assoc]
      exact congrArg (fun M => M * f.svd.Q * pinvDiag f.svd.s) hX
    rw [Fit.modes, Edmd.modes, ← toC_mul, ← toC_mul, this]
  have hdet := (Matrix.isUnit_iff_isUnit_det _).mp f.inv
  have hV : (f.V⁻¹)ᵀ * f.Vᵀ = 1 := by
    rw [← transpose_mul, Matrix.mul_nonsing_inv _ hdet, transpose_one]
  obtain ⟨c, hc⟩ := hx
  have hc' : ψ x = (feat ψ X)ᵀ *ᵥ c := by
    rw [hc]; funext a; simp [mulVec, dotProduct, feat, Finset.sum_apply, mul_comm]
  rw [hm, ← mulVec_transpose, mulVec_mulVec, Matrix.mul_assoc, hV, Matrix.mul_one, ← vc_mulVec,
    ← mulVec_transpose, mulVec_mulVec, Matrix.mul_assoc, ← mulVec_mulVec]
  congr 1
  conv_rhs => rw [hC x]
  congr 1
  rw [hc', mulVec_mulVec, right_proj hk f hr hs]

/-- **C84** (Koopman mode decomposition, all eigenvalues). If moreover the state is linear in the
features, then the states of the orbit of `x` are sums of the modes times the eigenfunctions times the
powers of the eigenvalues. -/
theorem C84_orbit (F : (n → ℝ) → n → ℝ) (B : Matrix N N ℝ) (hB : ∀ x, ψ (F x) = B *ᵥ ψ x)
    (hY : ∀ j, Y.col j = F (X.col j)) (hspan : ∀ x, ∃ c : Fin m → ℝ, ψ x = ∑ j, c j • ψ (X.col j))
    (C : Matrix n N ℝ) (hC : ∀ x, x = C *ᵥ ψ x) (x : n → ℝ) (t : ℕ) :
    ∃ v, eigenfunctions k X f.svd.Q f.svd.s f.V x = .ok v ∧
      ∀ a, ((F^[t] x a : ℝ) : ℂ) = ∑ i, f.modes a i * (f.eigs i ^ t * v i) := by
  refine ⟨_, eigenfunctions_eq hk f x, fun a => ?_⟩
  have h : ∀ t i, (vc (ψ (F^[t] x) ᵥ* right ψ f) ᵥ* f.V) i =
      f.eigs i ^ t * (vc (ψ x ᵥ* right ψ f) ᵥ* f.V) i := by
    intro t i
    induction t with
    | zero => simp
    | succ t ih =>
      obtain ⟨v, w, hv, hw, he⟩ := C83_koopman_partial hk f hr hs F B hB hY (F^[t] x) (hspan _)
      rw [eigenfunctions_eq hk f] at hv hw
      cases hv; cases hw
      rw [Function.iterate_succ_apply', he, ih, pow_succ]
      ring
  have := congrFun (decompose hk f hr hs C hC (F^[t] x) (hspan _)) a
  rw [← vc, ← this]
  simp only [mulVec, dotProduct, h]

open Classical in
/-- **C84** (Koopman mode decomposition). The stored eigenvalues and modes are those with modulus above
`1e-16`; if the others are exactly zero, the stored ones suffice from the first step on. -/
theorem C84_stored_partial (F : (n → ℝ) → n → ℝ) (B : Matrix N N ℝ) (hB : ∀ x, ψ (F x) = B *ᵥ ψ x)
    (hY : ∀ j, Y.col j = F (X.col j)) (hspan : ∀ x, ∃ c : Fin m → ℝ, ψ x = ∑ j, c j • ψ (X.col j))
    (C : Matrix n N ℝ) (hC : ∀ x, x = C *ᵥ ψ x) (h0 : ∀ i, ¬ Kept f.eigs i → f.eigs i = 0)
    (x : n → ℝ) (t : ℕ) (ht : 1 ≤ t) :
    ∃ v, eigenfunctions k X f.svd.Q f.svd.s f.V x = .ok v ∧
      ∀ a, ((F^[t] x a : ℝ) : ℂ) =
        ∑ i with Kept f.eigs i, f.modes a i * (f.eigs i ^ t * v i) := by
  obtain ⟨v, hv, h⟩ := C84_orbit hk f hr hs F B hB hY hspan C hC x t
  refine ⟨v, hv, fun a => ?_⟩
  rw [h a]
  symm
  apply Finset.sum_subset (Finset.subset_univ _)
  intro i _ hi
  have : f.eigs i = 0 := h0 i (by simpa using hi)
  rw [this, zero_pow (by omega)]; ring

end

/-! ## C85: the linear kernel -/

theorem toC_conjTranspose {a b : Type} (M : Matrix a b ℝ) : (toC M)ᴴ = toC Mᵀ := by
  ext i j; simp [toC, Complex.conj_ofReal]

theorem rdiag_eq {r : ℕ} (s : Fin r → ℝ) : LinAlg.rdiag s = toC (diagonal s) := by
  ext i j
  by_cases h : i = j
  · subst h; simp [LinAlg.rdiag, toC]
  · simp [LinAlg.rdiag, toC, h]

theorem toC_one {a : Type} [DecidableEq a] : toC (1 : Matrix a a ℝ) = 1 := by
  ext i j
  by_cases h : i = j
  · subst h; simp [toC]
  · simp [toC, h]

/-- **C85**. With the linear kernel `EDMD` has the eigenvalues and modes of `DMD(exact=False)`: they
come from the reduced operator of `DMD` for the leading singular triplets `(U, s, Q)` of `X` (for a
singular value decomposition of `X`, if at least the rank is retained). It is assumed that no retained
singular value is cut by `pinv`. -/
theorem C85_linear [Fintype n] {svdRank : Rank.SvdRank ℝ} {X Y : Matrix n (Fin m) ℝ}
    (f : Fit (fun x y => x ⬝ᵥ y) svdRank X Y) (hs : ∀ i j, 1e-15 * f.svd.s j < f.svd.s i) :
    ∃ (U : Matrix n (Fin f.svd.r) ℂ) (V : Matrix (Fin m) (Fin f.svd.r) ℂ)
      (W : Matrix (Fin f.svd.r) (Fin f.svd.r) ℂ),
      Uᴴ * U = 1 ∧ Vᴴ * V = 1 ∧ toC X * V = U * LinAlg.rdiag f.svd.s ∧
      (toC X)ᴴ * U = V * LinAlg.rdiag f.svd.s ∧
      ((Xᵀ * X).rank ≤ f.svd.r → LinAlg.IsSVD (toC X) U f.svd.s V) ∧
      IsUnit W ∧
      Operator.leastSquareOperator none U f.svd.s V (toC Y) * W = W * diagonal f.eigs ∧
      f.modes = Operator.computeModes false none (toC Y) U f.svd.s V W := by
  have hk : ∀ x y : n → ℝ, (fun x y : n → ℝ => x ⬝ᵥ y) x y = id x ⬝ᵥ id y := fun _ _ => rfl
  have hf : ∀ M : Matrix n (Fin m) ℝ, feat (id : (n → ℝ) → n → ℝ) M = Mᵀ := fun M => rfl
  have hG := pairwise_eq hk X X
  rw [hf, transpose_transpose] at hG
  have hG' : pairwise (fun x y : n → ℝ => x ⬝ᵥ y) X X = Xᵀ * Xᵀᵀ := by rw [transpose_transpose]; exact hG
  have hA := pairwise_eq hk Y X
  rw [hf, hf, transpose_transpose] at hA
  have hQ := Q_ortho f.svd hG'
  have hGQ := gram_Q f.svd hG'
  have hpos : ∀ i, 0 < f.svd.s i := by
    intro i
    have := hs i i
    by_contra hc
    have h0 : f.svd.s i = 0 := le_antisymm (not_lt.mp hc) (Real.sqrt_nonneg _)
    rw [h0] at this; simp at this
  have hD := pinvDiag_eq f.svd.s fun i j _ => hs i j
  set D := diagonal fun i => (f.svd.s i)⁻¹ with hDdef
  set S := diagonal f.svd.s with hS
  have hDS : D * S = 1 := by
    rw [hDdef, hS, diagonal_mul_diagonal, ← diagonal_one]
    congr 1; funext i; exact inv_mul_cancel₀ (hpos i).ne'
  have hSD : S * D = 1 := mul_eq_one_comm.mp hDS
  have hS2 : (diagonal fun i => f.svd.s i ^ 2) = S * S := by
    rw [hS, diagonal_mul_diagonal]; congr 1; funext i; ring
  have hDt : Dᵀ = D := diagonal_transpose _
  rw [hS2] at hGQ
  have hGQ' : Xᵀ * X * f.svd.Q = f.svd.Q * (S * S) := by rw [← hGQ]; exact congrArg (· * f.svd.Q) hG.symm
  have h1 : (X * f.svd.Q * D)ᵀ * (X * f.svd.Q * D) = 1 := by
    rw [transpose_mul, transpose_mul, hDt]
    calc D * (f.svd.Qᵀ * Xᵀ) * (X * f.svd.Q * D) = D * f.svd.Qᵀ * (Xᵀ * X * f.svd.Q) * D := by
          simp only [Matrix.mul_assoc]
      _ = D * (f.svd.Qᵀ * f.svd.Q) * (S * (S * D)) := by rw [hGQ']; simp only [Matrix.mul_assoc]
      _ = 1 := by rw [hQ, hSD, Matrix.mul_one, Matrix.mul_one, hDS]
  have h2 : X * f.svd.Q = X * f.svd.Q * D * S := by rw [Matrix.mul_assoc _ D, hDS, Matrix.mul_one]
  have h3 : Xᵀ * (X * f.svd.Q * D) = f.svd.Q * S := by
    calc Xᵀ * (X * f.svd.Q * D) = Xᵀ * X * f.svd.Q * D := by simp only [Matrix.mul_assoc]
      _ = f.svd.Q * S * (S * D) := by rw [hGQ']; simp only [Matrix.mul_assoc]
      _ = _ := by rw [hSD, Matrix.mul_one]
  have hdet := (Matrix.isUnit_iff_isUnit_det _).mp f.inv
  have hVt : (f.V⁻¹)ᵀ * f.Vᵀ = 1 := by
    rw [← transpose_mul, Matrix.mul_nonsing_inv _ hdet, transpose_one]
  have hVt' : f.Vᵀ * (f.V⁻¹)ᵀ = 1 := mul_eq_one_comm.mp hVt
  have hu : (toC (X * f.svd.Q * D))ᴴ * toC (X * f.svd.Q * D) = 1 := by
    rw [toC_conjTranspose, ← toC_mul, h1, toC_one]
  have hv : (toC f.svd.Q)ᴴ * toC f.svd.Q = 1 := by
    rw [toC_conjTranspose, ← toC_mul, hQ, toC_one]
  refine ⟨toC (X * f.svd.Q * D), toC f.svd.Q, (f.V⁻¹)ᵀ, hu, hv, ?_, ?_, ?_, ?_, ?_, ?_⟩
  · rw [rdiag_eq, ← toC_mul, ← toC_mul, ← h2]
  · rw [rdiag_eq, toC_conjTranspose, ← toC_mul, ← toC_mul, h3]
  · intro hr
    refine ⟨?_, hu, hv, fun i => (hpos i).le⟩
    have hr' : (pairwise (fun x y : n → ℝ => x ⬝ᵥ y) X X).rank ≤ f.svd.r := by
      refine le_trans (le_of_eq (congrArg Matrix.rank hG)) hr
    have h4 := proj_feature f.svd hG' hr'
    rw [hS2] at h4
    have h5 : f.svd.Q * f.svd.Qᵀ * Xᵀ = Xᵀ := by
      calc f.svd.Q * f.svd.Qᵀ * Xᵀ = f.svd.Q * (S * (S * D) * D) * f.svd.Qᵀ * Xᵀ := by
            rw [hSD, Matrix.mul_one, hSD, Matrix.mul_one]
        _ = Xᵀ := by rw [← hDdef] at h4; simpa only [Matrix.mul_assoc] using h4
    have h6 : X * (f.svd.Q * f.svd.Qᵀ) = X := by
      have := congrArg transpose h5
      rw [transpose_mul, transpose_mul] at this
      simpa using this
    rw [rdiag_eq, toC_conjTranspose, ← toC_mul, ← toC_mul, ← h2, Matrix.mul_assoc, h6]
  · exact IsUnit.of_mul_eq_one _ hVt
  · have hop : Operator.leastSquareOperator none (toC (X * f.svd.Q * D)) f.svd.s (toC f.svd.Q) (toC Y) =
        (toC (kHat f.svd.Q f.svd.s (pairwise (fun x y : n → ℝ => x ⬝ᵥ y) Y X)))ᵀ := by
      rw [Operator.leastSquareOperator, toC_conjTranspose]
      change _ * LinAlg.rdiag (fun i => (f.svd.s i)⁻¹) = _
      rw [rdiag_eq, ← toC_mul, ← toC_mul, ← toC_mul, kHat, hA, hD, ← hDdef]
      have : ∀ M : Matrix (Fin f.svd.r) (Fin f.svd.r) ℝ, (toC M)ᵀ = toC Mᵀ := fun M => rfl
      rw [this]
      congr 1
      simp only [transpose_mul, transpose_transpose, hDt, Matrix.mul_assoc]
    rw [hop]
    have he := congrArg transpose f.eig
    rw [transpose_mul, transpose_mul, diagonal_transpose] at he
    calc (toC (kHat f.svd.Q f.svd.s (pairwise (fun x y : n → ℝ => x ⬝ᵥ y) Y X)))ᵀ * (f.V⁻¹)ᵀ
        = (f.V⁻¹)ᵀ * (f.Vᵀ * (toC (kHat f.svd.Q f.svd.s (pairwise (fun x y : n → ℝ => x ⬝ᵥ y) Y X)))ᵀ) *
            (f.V⁻¹)ᵀ := by rw [← Matrix.mul_assoc (f.V⁻¹)ᵀ, hVt, Matrix.one_mul]
      _ = (f.V⁻¹)ᵀ * diagonal f.eigs * (f.Vᵀ * (f.V⁻¹)ᵀ) := by rw [he]; simp only [Matrix.mul_assoc]
      _ = _ := by rw [hVt', Matrix.mul_one]
  · rw [Fit.modes, Edmd.modes, Operator.computeModes, hD, ← toC_mul, ← toC_mul]
    simp

/-- **C85** (without `Y`). Fitted on a single series of snapshots, `EDMD` with the linear kernel is
`DMD(exact=False)` from the snapshots without the last to the snapshots without the first. -/
theorem C85_series [Fintype n] {N : ℕ} {svdRank : Rank.SvdRank ℝ} (S : Matrix n (Fin (N + 1)) ℝ)
    (f : Fit (fun x y => x ⬝ᵥ y) svdRank (inputs S).1 (inputs S).2)
    (hs : ∀ i j, 1e-15 * f.svd.s j < f.svd.s i) :
    ∃ (U : Matrix n (Fin f.svd.r) ℂ) (V : Matrix (Fin N) (Fin f.svd.r) ℂ)
      (W : Matrix (Fin f.svd.r) (Fin f.svd.r) ℂ),
      Uᴴ * U = 1 ∧ Vᴴ * V = 1 ∧
      (Matrix.of fun (a : n) (t : Fin N) => (S a t.castSucc : ℂ)) * V = U * LinAlg.rdiag f.svd.s ∧
      (Matrix.of fun (a : n) (t : Fin N) => (S a t.castSucc : ℂ))ᴴ * U
        = V * LinAlg.rdiag f.svd.s ∧ IsUnit W ∧
      Operator.leastSquareOperator none U f.svd.s V
        (Matrix.of fun (a : n) (t : Fin N) => (S a t.succ : ℂ)) * W = W * diagonal f.eigs ∧
      f.modes = Operator.computeModes false none
        (Matrix.of fun (a : n) (t : Fin N) => (S a t.succ : ℂ)) U f.svd.s V W := by
  obtain ⟨U, V, W, h1, h2, h3, h4, -, h5, h6, h7⟩ := C85_linear f hs
  exact ⟨U, V, W, h1, h2, h3, h4, h5, h6, h7⟩

/-! ## Instances -/

/-- The linear kernel in the plane. -/
abbrev dot2 (x y : Fin 2 → ℝ) : ℝ := x ⬝ᵥ y

theorem pairwise_dot2 (Y : Matrix (Fin 2) (Fin 2) ℝ) :
    pairwise dot2 Y (1 : Matrix (Fin 2) (Fin 2) ℝ) = Yᵀ := by
  ext i j; fin_cases j <;> simp [pairwise, Matrix.one_apply]

/-- The singular value decomposition for the snapshots `(1, 0)`, `(0, 1)` and the linear kernel. -/
noncomputable def idSvd : Svd (pairwise dot2 (1 : Matrix (Fin 2) (Fin 2) ℝ) (1 : Matrix (Fin 2) (Fin 2) ℝ)) (.int (-1)) where
  g := 1
  E := 1
  eig := by
    rw [pairwise_dot2]
    have : (diagonal (1 : Fin 2 → ℝ)) = 1 := diagonal_one
    rw [this]; simp
  ortho := by simp
  p := 1
  sorted := by intro i j _; simp [svals]

theorem idSvd_s (i : Fin idSvd.r) : idSvd.s i = 1 := by simp [Svd.s, idSvd, svals]

theorem idSvd_r : idSvd.r = 2 := by
  simp only [Svd.r, rank, rankFromSvals, Rank.SvdRank.val]
  norm_num [sortedVals]

theorem idSvd_Q (a : Fin 2) (i : Fin idSvd.r) : idSvd.Q a i = if a = Fin.castLE (rank_le _ _ _) i then 1 else 0 := by
  simp only [Svd.Q, submatrix_apply, id_eq, flipped, Matrix.of_apply]
  have : ∀ j, ¬ idSvd.g j < 0 := fun j => by simp [idSvd]
  rw [if_neg (this _)]
  exact Matrix.one_apply

theorem idSvd_pinv : pinvDiag idSvd.s = 1 := by
  rw [pinvDiag_eq]
  · simp only [idSvd_s, inv_one]; exact diagonal_one
  · intro i j _; rw [idSvd_s, idSvd_s]; norm_num

/-- A fit for these snapshots, with the coordinates multiplied by `a`. -/
noncomputable def idFit (a : Fin 2 → ℝ) :
    Fit dot2 (.int (-1)) (1 : Matrix (Fin 2) (Fin 2) ℝ) (diagonal a) where
  svd := idSvd
  eigs := fun i => a (Fin.castLE (rank_le _ _ _) i)
  V := 1
  eig := by
    rw [Matrix.mul_one, Matrix.one_mul, kHat, idSvd_pinv, Matrix.one_mul, Matrix.mul_one,
      pairwise_dot2 (diagonal a)]
    ext i j
    simp only [toC, Matrix.map_apply, Matrix.mul_apply, transpose_apply, idSvd_Q,
      ite_mul, one_mul, zero_mul, Finset.sum_ite_eq', Finset.mem_univ, if_true, mul_ite, mul_one, mul_zero]
    by_cases h : i = j
    · subst h
      simp [diagonal_apply]
    · have : Fin.castLE (rank_le idSvd.g idSvd.p (.int (-1))) i ≠ Fin.castLE (rank_le _ _ _) j :=
        fun e => h (Fin.castLE_injective _ e)
      simp [diagonal_apply, h, this, this.symm]
  inv := isUnit_one

theorem idFit_rank (a : Fin 2 → ℝ) :
    (pairwise dot2 (1 : Matrix (Fin 2) (Fin 2) ℝ) (1 : Matrix (Fin 2) (Fin 2) ℝ)).rank ≤ (idFit a).svd.r := by
  have : (idFit a).svd.r = 2 := idSvd_r
  rw [this]
  exact (rank_le_card_width _).trans (by simp)

theorem idFit_small (a : Fin 2 → ℝ) (i j : Fin (idFit a).svd.r) :
    1e-15 * (idFit a).svd.s j < (idFit a).svd.s i := by
  have h : ∀ i, (idFit a).svd.s i = 1 := idSvd_s
  rw [h, h]; norm_num

/-- The hypotheses of `C83_koopman_partial`, `C83_nonzero`, `C83_complete`, `C84_orbit` and
`C84_stored_partial` are met by the map `(x, y) ↦ (x / 2, y / 3)`, the linear kernel and the snapshots
`(1, 0)`, `(0, 1)`; its orbits are computed from the stored modes. -/
example (x : Fin 2 → ℝ) (t : ℕ) (ht : 1 ≤ t) := by
  classical
  exact C84_stored_partial (k := dot2) (ψ := id) (fun _ _ => rfl)
    (idFit ![1 / 2, 1 / 3]) (idFit_rank _) (fun i j _ => idFit_small _ i j)
    (fun x => diagonal ![1 / 2, 1 / 3] *ᵥ x) (diagonal ![1 / 2, 1 / 3]) (fun _ => rfl)
    (fun j => by funext a; rw [mulVec_diagonal]; simp [diagonal_apply, Matrix.one_apply])
    (fun x => ⟨x, by funext a; fin_cases a <;> simp [Fin.sum_univ_two]⟩) 1 (fun x => by simp)
    (fun i hi => by
      exfalso; apply hi
      have : ∀ b : Fin 2, (1e-16 : ℝ) < ‖((![1 / 2, 1 / 3] b : ℝ) : ℂ)‖ := by
        intro b; fin_cases b <;> norm_num
      exact this _) x t ht

/-- **C84** is false for the positions: with an eigenvalue 0, which is not stored, the values of
`eigenfunctions` do not correspond to the entries of `eigs`. Here the map is `(x, y) ↦ (0, y / 2)`,
the stored eigenvalues are `[1 / 2]` only, and the first value returned by `eigenfunctions` is not
multiplied by it (disagreement D78). -/
theorem C84_positions_false : ∃ (f : Fit dot2 (.int (-1))
      (1 : Matrix (Fin 2) (Fin 2) ℝ) (diagonal ![0, 1 / 2])) (h0 : 0 < f.svd.r) (h1 : 1 < f.svd.r),
    f.svd.r = 2 ∧ ¬ Kept f.eigs ⟨0, h0⟩ ∧ Kept f.eigs ⟨1, h1⟩ ∧
    ∃ (x : Fin 2 → ℝ) (v w : Fin f.svd.r → ℂ),
      eigenfunctions dot2 (1 : Matrix (Fin 2) (Fin 2) ℝ) f.svd.Q f.svd.s f.V x
        = .ok v ∧
      eigenfunctions dot2 (1 : Matrix (Fin 2) (Fin 2) ℝ) f.svd.Q f.svd.s f.V
        (diagonal ![0, 1 / 2] *ᵥ x) = .ok w ∧
      w ⟨0, h0⟩ ≠ f.eigs ⟨1, h1⟩ * v ⟨0, h0⟩ := by
  have hr : (idFit ![0, 1 / 2]).svd.r = 2 := idSvd_r
  refine ⟨idFit ![0, 1 / 2], by omega, by omega, hr, ?_, ?_, ?_⟩
  · change ¬ (1e-16 : ℝ) < ‖((![0, 1 / 2] (0 : Fin 2) : ℝ) : ℂ)‖
    norm_num
  · change (1e-16 : ℝ) < ‖((![0, 1 / 2] (1 : Fin 2) : ℝ) : ℂ)‖
    norm_num
  · have hk : ∀ x y : Fin 2 → ℝ, dot2 x y = id x ⬝ᵥ id y := fun _ _ => rfl
    have key : ∀ (x : Fin 2 → ℝ) (h : 0 < idSvd.r), (vc (id x ᵥ* ((feat id
        (1 : Matrix (Fin 2) (Fin 2) ℝ))ᵀ * idSvd.Q * pinvDiag idSvd.s)) ᵥ*
        (1 : Matrix (Fin idSvd.r) (Fin idSvd.r) ℂ)) ⟨0, h⟩ = x 0 := by
      intro x h
      rw [vecMul_one, idSvd_pinv, Matrix.mul_one]
      simp only [vc, vecMul, dotProduct, Matrix.mul_apply, idSvd_Q, feat, transpose_apply, Matrix.of_apply]
      have e : Fin.castLE (rank_le idSvd.g idSvd.p (.int (-1))) (⟨0, h⟩ : Fin idSvd.r) = 0 := rfl
      simp only [e]
      simp [Fin.sum_univ_two]
    refine ⟨![1, 1], _, _, eigenfunctions_eq hk _ _, eigenfunctions_eq hk _ _, ?_⟩
    have hr0 : 0 < idSvd.r := by rw [idSvd_r]; omega
    have e1 := key ![1, 1] hr0
    have e2 := key (diagonal ![0, 1 / 2] *ᵥ ![1, 1]) hr0
    intro hc
    have e3 : ∀ h, (idFit ![0, 1 / 2]).eigs ⟨1, h⟩ = 1 / 2 := by
      intro h
      change ((![0, 1 / 2] (1 : Fin 2) : ℝ) : ℂ) = 1 / 2
      norm_num
    rw [e3] at hc
    have := e2.symm.trans (hc.trans (congrArg (1 / 2 * ·) e1))
    simp [mulVec_diagonal] at this

/-- **C83** needs orthonormal eigenvectors of the Gram matrix, which `np.linalg.eig` does not guarantee
for repeated eigenvalues. Here the Gram matrix is the identity, the vectors `E` are unit eigenvectors
and a basis, the map is the identity, and yet `K_hat` has the eigenvalue 8/5 (disagreement D79). -/
theorem C83_eig_false : ∃ (E : Matrix (Fin 2) (Fin 2) ℝ) (v : Fin 2 → ℝ),
    pairwise dot2 (1 : Matrix (Fin 2) (Fin 2) ℝ) (1 : Matrix (Fin 2) (Fin 2) ℝ) * E = E * diagonal 1 ∧
    (∀ i, E.col i ⬝ᵥ E.col i = 1) ∧ IsUnit E ∧ v ≠ 0 ∧
    kHat E (fun _ => 1) (pairwise dot2 (1 : Matrix (Fin 2) (Fin 2) ℝ) (1 : Matrix (Fin 2) (Fin 2) ℝ)) *ᵥ v =
      (8 / 5 : ℝ) • v := by
  have hG : pairwise dot2 (1 : Matrix (Fin 2) (Fin 2) ℝ) (1 : Matrix (Fin 2) (Fin 2) ℝ) = 1 := by
    rw [pairwise_dot2, transpose_one]
  have hD : pinvDiag (fun _ : Fin 2 => (1 : ℝ)) = 1 := by
    rw [pinvDiag_eq]
    · simp only [inv_one]; exact diagonal_one
    · intro i j _; norm_num
  refine ⟨!![1, 3 / 5; 0, 4 / 5], ![1, 1], ?_, ?_, ?_, ?_, ?_⟩
  · rw [hG]
    have : (diagonal (1 : Fin 2 → ℝ)) = 1 := diagonal_one
    rw [this, Matrix.one_mul, Matrix.mul_one]
  · intro i; fin_cases i <;> simp [dotProduct, Fin.sum_univ_two]; norm_num
  · rw [Matrix.isUnit_iff_isUnit_det]
    simp [det_fin_two]
  · intro h; have := congrFun h 0; simp at this
  · rw [kHat, hG, hD]
    funext i
    fin_cases i <;> simp [mulVec, dotProduct, Fin.sum_univ_two, Matrix.mul_apply] <;> norm_num

/-- **C86** is false without `Y`: after `fit(X)` the operator has one column less than the snapshots,
and `eigenfunctions` always raises `ValueError` (disagreement D80). -/
theorem C86_without_Y_false {M : ℕ} (k : (n → ℝ) → (n → ℝ) → ℝ) (svdRank : Rank.SvdRank ℝ)
    (S : Matrix n (Fin (M + 1)) ℝ) (f : Fit k svdRank (inputs S).1 (inputs S).2) (x : n → ℝ) :
    eigenfunctions k S f.svd.Q f.svd.s f.V x = .error .valueError := by
  rw [eigenfunctions, dif_neg (by omega)]

/-- **C86** (with `Y`). After `fit(X, Y)` `eigenfunctions` returns one value for each retained singular
value. -/
theorem C86_with_Y (k : (n → ℝ) → (n → ℝ) → ℝ) (svdRank : Rank.SvdRank ℝ)
    (X Y : Matrix n (Fin m) ℝ) (f : Fit k svdRank X Y) (x : n → ℝ) :
    ∃ v, eigenfunctions k X f.svd.Q f.svd.s f.V x = .ok v := by
  rw [eigenfunctions, dif_pos rfl]; exact ⟨_, rfl⟩

/-- **C86** (truncation). `svd_rank` has the meaning it has for `DMD`: the number of retained
singular values is that computed by `DMD` for a square matrix with these singular values. -/
theorem C86_rank (s : List ℝ) (svdRank : Rank.SvdRank ℝ) (h : svdRank.val ≠ 0) :
    rankFromSvals s svdRank = min (Rank.computeRank s s.length s.length svdRank) s.length := by
  unfold rankFromSvals Rank.computeRank
  rw [if_neg h]
  split_ifs
  · rfl
  · cases svdRank <;> simp only <;> (try split_ifs) <;> omega

/-- **C86** (constructor). The constructor succeeds exactly if `svd_rank` is not zero, the parameters
are a dictionary (or `None`), and `pairwise_kernels` accepts them with the metric; a wrong type of the
parameters gives `TypeError`, everything else `ValueError`. -/
theorem C86_init (svdRank : Rank.SvdRank ℝ) [Decidable (svdRank.val = 0)] (metricOk : Bool) (params : Params) :
    (init svdRank metricOk params = .ok () ↔
      svdRank.val ≠ 0 ∧ ((params = .none ∧ metricOk = true) ∨ params = .dict true)) ∧
    (init svdRank metricOk params = .error .typeError ↔ svdRank.val ≠ 0 ∧ params = .other) ∧
    (init svdRank metricOk params = .error .valueError ↔
      svdRank.val = 0 ∨ (params = .none ∧ metricOk = false) ∨ params = .dict false) := by
  unfold init
  by_cases h : svdRank.val = 0
  · simp [h]
  · rcases params with _ | b | _
    · cases metricOk <;> simp [h]
    · cases b <;> simp [h]
    · simp [h]

end Verif.Edmd
