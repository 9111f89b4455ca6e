import Verif.Lemmas.BopTime
import Verif.Props.RealData

/-! # Lemmas for C154: a run of BOP-DMD on real data and complex conjugation -/

set_option autoImplicit false

namespace Verif.BopRun

open Verif Verif.LinAlg Verif.VarPro Verif.BopStep Verif.RealData Matrix

variable {m l n : ℕ} {fulljac : Bool} {time : Fin m → ℝ} {H : Matrix (Fin m) (Fin n) ℂ}

/-- The permutation as a matrix: column `j` of `M * permM σ` is column `σ j` of `M`. -/
def permM (σ : Equiv.Perm (Fin l)) : Matrix (Fin l) (Fin l) ℂ := Matrix.of fun i j => if i = σ j then 1 else 0

theorem mul_permM {P : Type} (M : Matrix P (Fin l) ℂ) (σ : Equiv.Perm (Fin l)) (i : P) (j : Fin l) :
    (M * permM σ) i j = M i (σ j) := by
  simp [permM, Matrix.mul_apply]

theorem permM_unit (σ : Equiv.Perm (Fin l)) : (permM σ)ᴴ * permM σ = 1 := by
  ext i j
  rw [mul_permM, conjTranspose_apply, permM, Matrix.of_apply, Matrix.one_apply]
  by_cases h : i = j
  · subst h; simp
  · have : σ j ≠ σ i := fun e => h (σ.injective e).symm
    simp [h, this]

theorem permM_det (σ : Equiv.Perm (Fin l)) : IsUnit (permM σ).det := by
  have := congrArg det (permM_unit σ)
  rw [det_mul, det_one] at this
  exact IsUnit.of_mul_eq_one_right _ this

theorem permM_inv (σ : Equiv.Perm (Fin l)) : (permM σ)⁻¹ = (permM σ)ᴴ := Matrix.inv_eq_left_inv (permM_unit σ)

theorem map_star_conjTranspose {P Q : Type} (M : Matrix P Q ℂ) : (M.map star)ᴴ = (Mᴴ).map star := rfl

theorem phi_conj (σ : Equiv.Perm (Fin l)) (α : Fin l → ℂ) :
    phi time (fun j => star (α (σ j))) = (phi time α).map star * permM σ := by
  ext i j
  rw [mul_permM, map_apply, phi, phi, Matrix.of_apply, Matrix.of_apply, Complex.star_def, ← Complex.exp_conj,
    map_mul, Complex.conj_ofReal]

theorem dphi_conj (σ : Equiv.Perm (Fin l)) (α : Fin l → ℂ) (j : Fin l) :
    dphi time (fun j => star (α (σ j))) j = (dphi time α (σ j)).map star * permM σ := by
  ext i k
  rw [mul_permM, map_apply, dphi, dphi, Matrix.of_apply, Matrix.of_apply]
  by_cases h : k = j
  · subst h
    rw [if_pos rfl, if_pos rfl, Complex.star_def, map_mul, ← Complex.exp_conj, map_mul, Complex.conj_ofReal]
  · rw [if_neg h, if_neg (fun e => h (σ.injective e)), star_zero]

theorem injective_conj {Φ : Matrix (Fin m) (Fin l) ℂ} (h : Injective Φ) : Injective (Φ.map star) := by
  intro v hv
  have : Φ *ᵥ (fun j => star (v j)) = 0 := by
    funext i
    have := congrArg star (congrFun hv i)
    simp only [mulVec, dotProduct, map_apply, star_sum, star_mul', star_star, Pi.zero_apply, star_zero] at this
    simpa only [mulVec, dotProduct, Pi.zero_apply] using this
  have h1 := h _ this
  funext j
  have := congrArg star (congrFun h1 j)
  simpa using this

theorem linv_conj {Φ : Matrix (Fin m) (Fin l) ℂ} (h : Injective Φ) : linv (Φ.map star) = (linv Φ).map star := by
  have hg := gram_det h
  have e : ((Φᴴ * Φ).map star)⁻¹ = ((Φᴴ * Φ)⁻¹).map star := by
    refine Matrix.inv_eq_left_inv ?_
    rw [← map_star_mul, nonsing_inv_mul _ hg]
    ext i j
    by_cases e : i = j
    · subst e; simp
    · simp [e]
  rw [linv, linv, map_star_conjTranspose, ← map_star_mul, e, ← map_star_mul]

/-- The residual of the conjugate eigenvalues is the conjugate residual. -/
theorem residual_conj (L : Lib l fulljac time H) (hH : IsReal H) (σ : Equiv.Perm (Fin l)) (α : Fin l → ℂ) :
    BopStep.residual time H L.B (fun j => star (α (σ j))) = (BopStep.residual time H L.B α).map star := by
  have hphi : ∀ β : Fin l → ℂ, phi time (fun j => star (β j)) = (phi time β).map star := by
    intro β
    have := phi_conj (time := time) 1 β
    rw [show permM (1 : Equiv.Perm (Fin l)) = 1 by ext i j; simp only [permM, Matrix.one_apply, Matrix.of_apply]; rfl, Matrix.mul_one] at this
    exact this
  let B' : (Fin l → ℂ) → Matrix (Fin l) (Fin n) ℂ := fun β => (L.B fun j => star (β j)).map star
  have hB' : IsComputeB time H B' := by
    intro β c z
    have h := L.isB (fun j => star (β j)) c fun j => star (z j)
    have hn : ∀ v : Fin m → ℂ, normSq (fun i => star (v i)) = normSq v := by
      intro v
      simp [normSq, Complex.normSq_conj]
    have e : ∀ w : Fin l → ℂ, (phi time β *ᵥ w - fun i => H i c) =
        fun i => star ((phi time (fun j => star (β j)) *ᵥ (fun j => star (w j)) - fun i => H i c) i) := by
      intro w
      funext i
      rw [hphi]
      simp only [Pi.sub_apply, mulVec, dotProduct, map_apply, star_sub, star_sum, star_mul', star_star]
      rw [show star (H i c) = H i c from Complex.conj_eq_iff_im.mpr (hH i c)]
    rw [e, e, hn, hn]
    have eb : (fun j => star ((fun j => B' β j c) j)) = fun j => (L.B fun j => star (β j)) j c := by
      funext j
      simp [B']
    rw [eb]
    exact h
  have h1 := residual_proj (H := H) (time := time) (time' := time) B' L.B hB' L.isB (α := fun j => star (α j))
    (α' := fun j => star (α (σ j))) (permM_det σ) (by rw [phi_conj, hphi])
  rw [h1, BopStep.residual, BopStep.residual, hphi]
  have eb : B' (fun j => star (α j)) = (L.B α).map star := by
    simp only [B', star_star]
  rw [eb, ← map_star_mul]
  ext i j
  simp only [Matrix.sub_apply, map_apply, star_sub]
  rw [show star (H i j) = H i j from Complex.conj_eq_iff_im.mpr (hH i j)]

theorem jacM_conj (hH : IsReal H) (σ : Equiv.Perm (Fin l)) {α : Fin l → ℂ} (hinj : Injective (phi time α))
    (R : Matrix (Fin m) (Fin n) ℂ) (j : Fin l) :
    jacM fulljac time H (R.map star) (fun j => star (α (σ j))) j = (jacM fulljac time H R α (σ j)).map star := by
  have hone : (1 : Matrix (Fin m) (Fin m) ℂ).map star = 1 := by
    ext i k
    by_cases e : i = k
    · subst e; simp
    · simp [e]
  have hsub : ∀ A B : Matrix (Fin m) (Fin m) ℂ, (A - B).map star = A.map star - B.map star := by intro A B; ext; simp
  have hadd : ∀ A B : Matrix (Fin m) (Fin n) ℂ, (A + B).map star = A.map star + B.map star := by intro A B; ext; simp
  have hpp : permM σ * (permM σ)ᴴ = 1 := by rw [← permM_inv, mul_nonsing_inv _ (permM_det σ)]
  have hl : linv (phi time (fun j => star (α (σ j)))) = (permM σ)ᴴ * (linv (phi time α)).map star := by
    rw [phi_conj, linv_mul_right (permM_det σ), permM_inv, linv_conj hinj]
  have hP : phi time (fun j => star (α (σ j))) * linv (phi time (fun j => star (α (σ j)))) =
      (phi time α * linv (phi time α)).map star := by
    rw [hl, phi_conj, map_star_mul, Matrix.mul_assoc, ← Matrix.mul_assoc (permM σ), hpp, Matrix.one_mul]
  rw [jacM, jacM, hP, hadd, hl, dphi_conj]
  refine congrArg₂ _ ?_ ?_
  · rw [map_star_mul ((1 - _) * _), map_star_mul (1 - _), hsub, hone, map_star_mul (linv _) H, (isReal_iff H).mp hH]
    simp only [Matrix.mul_assoc]
    rw [← Matrix.mul_assoc (permM σ), hpp, Matrix.one_mul]
  · cases fulljac
    · ext; simp
    · rw [if_pos rfl, if_pos rfl, map_star_mul, map_star_mul, conjTranspose_mul, conjTranspose_mul, conjTranspose_conjTranspose,
        map_star_conjTranspose, map_star_conjTranspose]
      simp only [Matrix.mul_assoc]
      rw [← Matrix.mul_assoc (permM σ), hpp, Matrix.one_mul]

theorem injective_phi_conj (σ : Equiv.Perm (Fin l)) {α : Fin l → ℂ} (hinj : Injective (phi time α)) :
    Injective (phi time fun j => star (α (σ j))) := by
  rw [phi_conj]
  exact injective_mul (injective_conj hinj) (permM_det σ)

theorem jac_conj (L : Lib l fulljac time H) (hH : IsReal H) (σ : Equiv.Perm (Fin l)) {α : Fin l → ℂ}
    (hinj : Injective (phi time α)) (p : Fin m × Fin n) (j : Fin l) :
    jac L (fun j => star (α (σ j))) p j = star (jac L α p (σ j)) := by
  rw [jac_eq L (injective_phi_conj σ hinj), jac_eq L hinj, residual_conj L hH, jacM_conj hH σ hinj]
  rfl

theorem scales_conj (L : Lib l fulljac time H) (hH : IsReal H) (levmarq : Bool) (σ : Equiv.Perm (Fin l)) {α : Fin l → ℂ}
    (hinj : Injective (phi time α)) (j : Fin l) :
    scales levmarq (jac L fun j => star (α (σ j))) j = scales levmarq (jac L α) (σ j) := by
  have : normSq ((jac L fun j => star (α (σ j))).col j) = normSq ((jac L α).col (σ j)) := by
    simp only [normSq, Matrix.col_apply, jac_conj L hH σ hinj]
    simp only [Complex.star_def, Complex.normSq_conj]
  rw [scales, scales, this]

theorem delta_conj (L : Lib l fulljac time H) (hH : IsReal H) (levmarq : Bool) (σ : Equiv.Perm (Fin l)) {α : Fin l → ℂ}
    (hinj : Injective (phi time α)) (lam : ℝ) (hlam : 0 < lam) :
    delta L levmarq (fun j => star (α (σ j))) lam = fun j => star (delta L levmarq α lam (σ j)) := by
  have h1 := delta_eqn L levmarq α lam
  refine normal_unique (jac L fun j => star (α (σ j))) (scales levmarq (jac L fun j => star (α (σ j)))) (scales_pos levmarq _)
    lam hlam _ _ ?_
  rw [delta_eqn]
  funext j
  have h2 := congrArg star (congrFun h1 (σ j))
  simp only [Pi.add_apply, mulVec, dotProduct, Matrix.mul_apply, conjTranspose_apply, star_add, star_sum, star_mul', star_star]
    at h2
  simp only [Pi.add_apply, mulVec, dotProduct, Matrix.mul_apply, conjTranspose_apply, jac_conj L hH σ hinj, scales_conj L hH
    levmarq σ hinj, residual_conj L hH, map_apply, star_star]
  rw [← h2]
  congr 1
  · rw [← Equiv.sum_comp σ]
  · congr 1
    rw [Complex.star_def, Complex.conj_ofReal]

end Verif.BopRun
