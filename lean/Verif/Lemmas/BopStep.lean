import Verif.Model.BopStep
import Verif.Lemmas.VarPro
import Verif.Lemmas.Lstsq
import Mathlib.Analysis.Calculus.Deriv.Slope
import Mathlib.Analysis.Calculus.Deriv.Pow
import Mathlib.Analysis.Calculus.Deriv.Pi

/-!
# Lemmas on the step of `BOPDMD._variable_projection`
-/

set_option autoImplicit false

namespace Verif.BopStep

open Verif Verif.LinAlg Verif.VarPro Matrix Filter Topology

variable {m l n k : ℕ}

theorem triu_eq {P : Type} [Fintype P] {J : Matrix P (Fin l) ℂ} (d : PivQr J) : triu d.r = d.r := by
  ext i j
  simp only [triu, Matrix.of_apply]
  split_ifs with h
  · rfl
  · exact (d.upper i j (not_le.mp h)).symm

/-- The normal equations of a step. -/
theorem delta_normal {P : Type} [Fintype P] {J : Matrix P (Fin l) ℂ} (lstsq : Lstsq l)
    (hl : ∀ A y, IsLstsq A y (lstsq A y)) (d : PivQr J) (sc : Fin l → ℝ) (res : P → ℂ) (lam : ℝ) :
    (Jᴴ * J) *ᵥ delta lstsq d sc res lam + (fun i => ((lam * sc i) ^ 2 : ℝ) * delta lstsq d sc res lam i) =
      Jᴴ *ᵥ res := by
  have hn := (hl (rjac d sc lam) (rhs d res)).normal
  set y := lstsq (rjac d sc lam) (rhs d res) with hy
  have hd : delta lstsq d sc res lam = y ∘ d.piv.symm := rfl
  rw [hd]
  have hJ : ∀ p i, J p (d.piv i) = (d.q * d.r) p i := fun p i => congrFun (congrFun d.eq p) i
  rw [rjac, triu_eq, rhs, conjTranspose_fromRows_eq_fromCols_conjTranspose, mulVec_sub,
    fromCols_mulVec_sumElim, fromRows_mulVec, fromCols_mulVec_sumElim, mulVec_zero, add_zero, sub_eq_zero] at hn
  have e1 : d.rᴴ *ᵥ (d.r *ᵥ y) = (d.q * d.r)ᴴ *ᵥ ((d.q * d.r) *ᵥ y) := by
    rw [mulVec_mulVec, mulVec_mulVec, conjTranspose_mul, Matrix.mul_assoc, ← Matrix.mul_assoc d.qᴴ, d.orth,
      Matrix.one_mul]
  have e2 : d.rᴴ *ᵥ (d.qᴴ *ᵥ res) = (d.q * d.r)ᴴ *ᵥ res := by
    rw [mulVec_mulVec, conjTranspose_mul]
  rw [e1, e2] at hn
  have e3 : (d.q * d.r) *ᵥ y = J *ᵥ (y ∘ d.piv.symm) := by
    funext p
    simp only [mulVec, dotProduct, Function.comp]
    rw [← Equiv.sum_comp d.piv fun i => J p i * y (d.piv.symm i)]
    refine Finset.sum_congr rfl fun i _ => ?_
    rw [hJ, Equiv.symm_apply_apply]
  have e4 : ∀ w : P → ℂ, ∀ i, ((d.q * d.r)ᴴ *ᵥ w) i = (Jᴴ *ᵥ w) (d.piv i) := by
    intro w i
    simp only [mulVec, dotProduct, conjTranspose_apply, hJ]
  rw [e3] at hn
  funext i
  have := congrFun hn (d.piv.symm i)
  simp only [Pi.add_apply, e4, Equiv.apply_symm_apply] at this
  rw [Pi.add_apply, ← mulVec_mulVec, ← this]
  congr 1
  simp [rdiag, conjTranspose_smul, smul_mulVec, mulVec_smul, mulVec_diagonal, diagonal_conjTranspose]
  ring

variable {time : Fin m → ℝ} {H : Matrix (Fin m) (Fin n) ℂ}
    {B : (Fin l → ℂ) → Matrix (Fin l) (Fin n) ℂ}

/-- Where the exponentials are independent, the coefficients are `Φ⁺ H`. -/
theorem computeB_eq (hB : IsComputeB time H B) {α : Fin l → ℂ} (hinj : Injective (phi time α)) :
    B α = linv (phi time α) * H := by
  have h : (phi time α)ᴴ * (phi time α * B α - H) = 0 := by
    ext j c
    exact congrFun (hB α c).normal j
  rw [linv, Matrix.mul_assoc]
  rw [Matrix.mul_sub, sub_eq_zero, ← Matrix.mul_assoc] at h
  rw [← h, ← Matrix.mul_assoc, nonsing_inv_mul _ (gram_det hinj), Matrix.one_mul]

theorem residual_eq (hB : IsComputeB time H B) {α : Fin l → ℂ} (hinj : Injective (phi time α)) :
    residual time H B α = H - phi time α * linv (phi time α) * H := by
  rw [residual, computeB_eq hB hinj, Matrix.mul_assoc]

theorem linv_residual (hB : IsComputeB time H B) {α : Fin l → ℂ} (hinj : Injective (phi time α)) :
    linv (phi time α) * residual time H B α = 0 := by
  rw [residual_eq hB hinj, Matrix.mul_sub, ← Matrix.mul_assoc, ← Matrix.mul_assoc, linv_mul hinj, Matrix.one_mul,
    sub_self]

theorem proj_residual (hB : IsComputeB time H B) {α : Fin l → ℂ} (hinj : Injective (phi time α)) :
    phi time α * linv (phi time α) * residual time H B α = 0 := by
  rw [Matrix.mul_assoc, linv_residual hB hinj, Matrix.mul_zero]

/-- The derivative of the exponentials by one exponent. -/
noncomputable def dphi (time : Fin m → ℝ) (α : Fin l → ℂ) (j : Fin l) : Matrix (Fin m) (Fin l) ℂ :=
  Matrix.of fun i j' => if j' = j then time i * Complex.exp (α j * time i) else 0

/-- Entries of `Jᴴ ρ`, the same with and without the second term of the Jacobian. -/
theorem djac_residual (hB : IsComputeB time H B) {α : Fin l → ℂ} (hinj : Injective (phi time α)) (full : Bool)
    {U : Matrix (Fin m) (Fin k) ℂ} {s : Fin k → ℝ} {V : Matrix (Fin l) (Fin k) ℂ}
    (d : IsSVD (phi time α) U s V) (j : Fin l) :
    ((djac full time α U s V (B α) (residual time H B α))ᴴ *ᵥ fun p => residual time H B α p.1 p.2) j =
      trace ((dphi time α j * B α)ᴴ * residual time H B α) := by
  obtain ⟨e1, e2⟩ := svd_linv hinj d
  set R := residual time H B α
  have hf : ((djac full time α U s V (B α) R)ᴴ *ᵥ fun p => R p.1 p.2) j =
      trace ((bopJac full time α U s V (B α) R j)ᴴ * R) := by
    simp only [mulVec, dotProduct, djac, conjTranspose_apply, Matrix.of_apply, Fintype.sum_prod_type, trace, diag,
      Matrix.mul_apply]
    exact Finset.sum_comm
  rw [hf]
  have p1 : Uᴴ * R = 0 := by
    have : Uᴴ * (U * Uᴴ * R) = Uᴴ * R := by
      rw [← Matrix.mul_assoc, ← Matrix.mul_assoc, d.u, Matrix.one_mul]
    rw [← this, e1, proj_residual hB hinj, Matrix.mul_zero]
  have a1 : ((dphi time α j - U * (Uᴴ * dphi time α j)) * B α)ᴴ * R = (dphi time α j * B α)ᴴ * R := by
    rw [Matrix.sub_mul, conjTranspose_sub, Matrix.sub_mul]
    have : (U * (Uᴴ * dphi time α j) * B α)ᴴ * R = 0 := by
      rw [Matrix.mul_assoc, conjTranspose_mul, Matrix.mul_assoc, p1, Matrix.mul_zero]
    rw [this, sub_zero]
  have a2 : (U * (rdiag fun i => (s i)⁻¹) * Vᴴ * ((dphi time α j)ᴴ * R))ᴴ * R = 0 := by
    rw [Matrix.mul_assoc, Matrix.mul_assoc, conjTranspose_mul, Matrix.mul_assoc, p1, Matrix.mul_zero]
  cases full
  · have : bopJac false time α U s V (B α) R j = (dphi time α j - U * (Uᴴ * dphi time α j)) * B α := rfl
    rw [this, a1]
  · have : bopJac true time α U s V (B α) R j = (dphi time α j - U * (Uᴴ * dphi time α j)) * B α +
      U * (rdiag fun i => (s i)⁻¹) * Vᴴ * ((dphi time α j)ᴴ * R) := rfl
    rw [this, conjTranspose_add, Matrix.add_mul, a1, a2, add_zero]

theorem hasDerivAt_normSq {f : ℝ → ℂ} {f' : ℂ} (h : HasDerivAt f f' 0) :
    HasDerivAt (fun e => Complex.normSq (f e)) (2 * (star f' * f 0).re) 0 := by
  have hr : HasDerivAt (fun e => (f e).re) f'.re 0 := by
    exact Complex.reCLM.hasFDerivAt.comp_hasDerivAt (0 : ℝ) h
  have hi : HasDerivAt (fun e => (f e).im) f'.im 0 := by
    exact Complex.imCLM.hasFDerivAt.comp_hasDerivAt (0 : ℝ) h
  have := (hr.fun_mul hr).fun_add (hi.fun_mul hi)
  simp only [Complex.normSq_apply]
  refine this.congr_deriv ?_
  simp; ring

/-- Derivative of the squared error along a curve of exponents. -/
theorem hasDerivAt_frob (hB : IsComputeB time H B) (γ : ℝ → Fin l → ℂ) (δ : Fin l → ℂ)
    (hγ : ∀ j, HasDerivAt (fun e => γ e j) (δ j) 0) (hinj : Injective (phi time (γ 0))) :
    HasDerivAt (fun e => frobSq (residual time H B (γ e)))
      (-2 * ∑ j, (star (δ j) * trace ((dphi time (γ 0) j * B (γ 0))ᴴ * residual time H B (γ 0))).re) 0 := by
  let D : Matrix (Fin m) (Fin l) ℂ := Matrix.of fun i j => time i * δ j * Complex.exp (time i * γ 0 j)
  have hD : ∀ i j, HasDerivAt (fun e => phi time (γ e) i j) (D i j) 0 := by
    intro i j
    simp only [phi, Matrix.of_apply, D]
    have := ((hγ j).const_mul (time i : ℂ)).cexp
    convert this using 1
    ring
  have hcont : Tendsto (fun e => phi time (γ e)) (𝓝 0) (𝓝 (phi time (γ 0))) := by
    rw [tendsto_matrix]; intro i j
    exact (hD i j).continuousAt.tendsto
  set R := residual time H B (γ 0) with hR
  set P := phi time (γ 0) * linv (phi time (γ 0)) with hP
  have hres : R = (1 - P) * H := by
    rw [hR, residual_eq hB hinj, Matrix.sub_mul, Matrix.one_mul]
  let G : Matrix (Fin m) (Fin n) ℂ := ((linv (phi time (γ 0)))ᴴ * Dᴴ * (1 - P) +
        (1 - P) * D * linv (phi time (γ 0))) * H
  have hp : ∀ i c, HasDerivAt (fun e => residual time H B (γ e) i c) (-G i c) 0 := by
    intro i c
    have he : (fun e => residual time H B (γ e) i c) =ᶠ[𝓝 0]
        fun e => H i c - (phi time (γ e) * linv (phi time (γ e)) * H) i c := by
      filter_upwards [injective_eventually hcont hinj] with e hi
      rw [residual_eq hB hi]; rfl
    refine HasDerivAt.congr_of_eventuallyEq ?_ he
    exact (hasDerivAt_proj hD hinj H i c).const_sub (H i c)
  have hs : HasDerivAt (fun e => frobSq (residual time H B (γ e)))
      (∑ i, ∑ c, 2 * (star (-G i c) * R i c).re) 0 :=
    HasDerivAt.fun_sum fun i _ => HasDerivAt.fun_sum fun c _ => hasDerivAt_normSq (hp i c)
  refine hs.congr_deriv ?_
  have t1 : ∑ i, ∑ c, 2 * (star (-G i c) * R i c).re = -2 * (trace (Gᴴ * R)).re := by
    have : trace (Gᴴ * R) = ∑ i, ∑ c, star (G i c) * R i c := by
      simp only [trace, diag, Matrix.mul_apply, conjTranspose_apply]
      exact Finset.sum_comm
    rw [this, Complex.re_sum, Finset.mul_sum]
    refine Finset.sum_congr rfl fun i _ => ?_
    rw [Complex.re_sum, Finset.mul_sum]
    refine Finset.sum_congr rfl fun c _ => ?_
    simp; ring
  rw [t1]
  have hb : B (γ 0) = linv (phi time (γ 0)) * H := computeB_eq hB hinj
  have hPR : P * R = 0 := proj_residual hB hinj
  have hPh : Pᴴ = P := proj_herm _
  have t2 : Gᴴ * R = (D * B (γ 0))ᴴ * R + Rᴴ * D * (linv (phi time (γ 0)) * R) := by
    have g : G = (linv (phi time (γ 0)))ᴴ * Dᴴ * R + (1 - P) * (D * B (γ 0)) := by
      simp only [G, Matrix.add_mul]
      rw [hb, hres]
      simp only [Matrix.mul_assoc]
    rw [g, conjTranspose_add, Matrix.add_mul, add_comm]
    congr 1
    · rw [conjTranspose_mul (1 - P), conjTranspose_sub, conjTranspose_one, hPh, Matrix.mul_assoc, Matrix.sub_mul,
        Matrix.one_mul, hPR, sub_zero]
    · rw [conjTranspose_mul, conjTranspose_mul, conjTranspose_conjTranspose, conjTranspose_conjTranspose]
      simp only [Matrix.mul_assoc]
  rw [t2, linv_residual hB hinj, Matrix.mul_zero, add_zero]
  have hDs : D = ∑ j, δ j • dphi time (γ 0) j := by
    ext i j
    simp only [Matrix.sum_apply, Matrix.smul_apply, dphi, Matrix.of_apply, smul_eq_mul, mul_ite, mul_zero, D]
    rw [Finset.sum_ite_eq Finset.univ j]
    simp only [Finset.mem_univ, if_true]
    rw [mul_comm (time i : ℂ) (γ 0 j)]; ring
  have t3 : trace ((D * B (γ 0))ᴴ * R) = ∑ j, star (δ j) * trace ((dphi time (γ 0) j * B (γ 0))ᴴ * R) := by
    rw [hDs, Matrix.sum_mul, conjTranspose_sum, Matrix.sum_mul, trace_sum]
    refine Finset.sum_congr rfl fun j _ => ?_
    rw [Matrix.smul_mul, conjTranspose_smul, Matrix.smul_mul, trace_smul, smul_eq_mul]
  rw [t3, Complex.re_sum]

end Verif.BopStep
