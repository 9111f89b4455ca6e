import Verif.Lemmas.BopUnit

/-! # Lemmas for C155: order of the snapshots, coordinates and units of the data in a run of BOP-DMD -/

set_option autoImplicit false

namespace Verif.BopRun

open Verif Verif.LinAlg Verif.VarPro Verif.BopStep Matrix
open scoped ComplexOrder

variable {m l n n' : ℕ} {fulljac : Bool} {time : Fin m → ℝ} {H : Matrix (Fin m) (Fin n) ℂ}

/-- Two runs whose Jacobians have the same inner products with each other and with the residual make the same step. -/
theorem delta_gram {time' : Fin m → ℝ} {H' : Matrix (Fin m) (Fin n') ℂ} (L : Lib l fulljac time H) (L' : Lib l fulljac time' H')
    (levmarq : Bool) {α α' : Fin l → ℂ} (hg : (jac L' α')ᴴ * jac L' α' = (jac L α)ᴴ * jac L α)
    (hr : ((jac L' α')ᴴ *ᵥ fun p => BopStep.residual time' H' L'.B α' p.1 p.2) =
      (jac L α)ᴴ *ᵥ fun p => BopStep.residual time H L.B α p.1 p.2)
    (lam : ℝ) (hlam : 0 < lam) : delta L' levmarq α' lam = delta L levmarq α lam := by
  have hn : ∀ j, normSq ((jac L' α').col j) = normSq ((jac L α).col j) := by
    intro j
    have e : ∀ {P : Type} [Fintype P] (J : Matrix P (Fin l) ℂ), ((normSq (J.col j) : ℝ) : ℂ) = (Jᴴ * J) j j := by
      intro P _ J
      rw [normSq, Matrix.mul_apply]
      push_cast
      refine Finset.sum_congr rfl fun p _ => ?_
      rw [conjTranspose_apply, Complex.star_def, Matrix.col_apply, ← Complex.normSq_eq_conj_mul_self]
    have := congrFun (congrFun hg j) j
    rw [← e, ← e] at this
    exact_mod_cast this
  have hsc : scales levmarq (jac L' α') = scales levmarq (jac L α) := by
    funext j
    rw [scales, scales, hn]
  have h1 := delta_eqn L levmarq α lam
  have h2 := delta_eqn L' levmarq α' lam
  rw [hg, hsc, hr] at h2
  exact normal_unique (jac L α) (scales levmarq (jac L α)) (scales_pos levmarq _) lam hlam _ _ (h2.trans h1.symm)

/-- The rows in another order. -/
def rowP (π : Equiv.Perm (Fin m)) : Matrix (Fin m) (Fin m) ℂ := Matrix.of fun i k => if π i = k then 1 else 0

theorem rowP_mul {P : Type} (π : Equiv.Perm (Fin m)) (M : Matrix (Fin m) P ℂ) (i : Fin m) (j : P) :
    (rowP π * M) i j = M (π i) j := by
  simp [rowP, Matrix.mul_apply]

theorem rowP_unit (π : Equiv.Perm (Fin m)) : (rowP π)ᴴ * rowP π = 1 := by
  have h : rowP π * (rowP π)ᴴ = 1 := by
    ext i j
    rw [rowP_mul, conjTranspose_apply, rowP, Matrix.of_apply, Matrix.one_apply]
    by_cases h : i = j
    · subst h; simp
    · have : π j ≠ π i := fun e => h (π.injective e).symm
      simp [h, this]
  exact mul_eq_one_comm.mp h

theorem phi_order (π : Equiv.Perm (Fin m)) (α : Fin l → ℂ) : phi (fun i => time (π i)) α = rowP π * phi time α := by
  ext i j
  rw [rowP_mul]
  rfl

theorem dphi_order (π : Equiv.Perm (Fin m)) (α : Fin l → ℂ) (j : Fin l) :
    dphi (fun i => time (π i)) α j = rowP π * dphi time α j := by
  ext i k
  rw [rowP_mul]
  rfl

theorem injective_order (π : Equiv.Perm (Fin m)) {Φ : Matrix (Fin m) (Fin l) ℂ} (h : Injective Φ) : Injective (rowP π * Φ) := by
  intro v hv
  rw [← mulVec_mulVec] at hv
  have := congrArg (fun w => (rowP π)ᴴ *ᵥ w) hv
  simp only [mulVec_mulVec, ← Matrix.mul_assoc, rowP_unit, Matrix.one_mul, mulVec_zero] at this
  exact h v this

theorem linv_order (π : Equiv.Perm (Fin m)) (Φ : Matrix (Fin m) (Fin l) ℂ) : linv (rowP π * Φ) = linv Φ * (rowP π)ᴴ := by
  rw [linv, linv, conjTranspose_mul, Matrix.mul_assoc Φᴴ, ← Matrix.mul_assoc (rowP π)ᴴ, rowP_unit, Matrix.one_mul, Matrix.mul_assoc]

theorem residual_order (π : Equiv.Perm (Fin m)) (Q : Matrix (Fin n) (Fin n') ℂ) (L : Lib l fulljac time H)
    (L' : Lib l fulljac (fun i => time (π i)) (rowP π * H * Q)) (α : Fin l → ℂ) :
    BopStep.residual (fun i => time (π i)) (rowP π * H * Q) L'.B α = rowP π * BopStep.residual time H L.B α * Q := by
  have h1 : (phi time α)ᴴ * (phi time α * L.B α - H) = 0 := by
    ext j c
    exact congrFun (L.isB α c).normal j
  have h2 : (phi (fun i => time (π i)) α)ᴴ * (phi (fun i => time (π i)) α * L'.B α - rowP π * H * Q) = 0 := by
    ext j c
    exact congrFun (L'.isB α c).normal j
  rw [BopStep.residual, BopStep.residual]
  generalize L'.B α = B' at h2 ⊢
  have e : (phi time α)ᴴ * (phi time α * (B' - L.B α * Q)) = 0 := by
    have h3 : (phi time α)ᴴ * (phi time α * B' - H * Q) = 0 := by
      rw [phi_order] at h2
      rw [conjTranspose_mul, Matrix.mul_assoc (rowP π) H, Matrix.mul_assoc (rowP π), ← Matrix.mul_sub, Matrix.mul_assoc,
        ← Matrix.mul_assoc (rowP π)ᴴ, rowP_unit, Matrix.one_mul] at h2
      exact h2
    have h4 : (phi time α)ᴴ * (phi time α * (L.B α * Q) - H * Q) = 0 := by
      rw [← Matrix.mul_assoc, ← Matrix.sub_mul, ← Matrix.mul_assoc, h1, Matrix.zero_mul]
    have h5 : phi time α * (B' - L.B α * Q) = (phi time α * B' - H * Q) - (phi time α * (L.B α * Q) - H * Q) := by
      rw [Matrix.mul_sub]; abel
    rw [h5, Matrix.mul_sub, h3, h4, sub_zero]
  have hz : phi time α * (B' - L.B α * Q) = 0 := by
    refine Matrix.conjTranspose_mul_self_eq_zero.mp ?_
    rw [conjTranspose_mul, Matrix.mul_assoc, e, Matrix.mul_zero]
  rw [Matrix.mul_sub, sub_eq_zero] at hz
  rw [phi_order, Matrix.mul_assoc (rowP π) (phi time α), hz, Matrix.mul_sub, Matrix.sub_mul]
  simp only [Matrix.mul_assoc]

theorem jacM_order (π : Equiv.Perm (Fin m)) (Q : Matrix (Fin n) (Fin n') ℂ) (R : Matrix (Fin m) (Fin n) ℂ) (α : Fin l → ℂ)
    (j : Fin l) : jacM fulljac (fun i => time (π i)) (rowP π * H * Q) (rowP π * R * Q) α j =
      rowP π * jacM fulljac time H R α j * Q := by
  rw [jacM, jacM, phi_order, linv_order, dphi_order, Matrix.mul_add, Matrix.add_mul]
  refine congrArg₂ _ ?_ ?_
  · rw [Matrix.sub_mul, Matrix.sub_mul, Matrix.sub_mul, Matrix.sub_mul, Matrix.mul_sub, Matrix.sub_mul]
    simp only [Matrix.mul_assoc, Matrix.one_mul]
    simp only [← Matrix.mul_assoc (rowP π)ᴴ (rowP π), rowP_unit, Matrix.one_mul]
  · cases fulljac
    · simp
    · rw [if_pos rfl, if_pos rfl, conjTranspose_mul, conjTranspose_mul, conjTranspose_conjTranspose]
      simp only [Matrix.mul_assoc]
      simp only [← Matrix.mul_assoc (rowP π)ᴴ (rowP π), rowP_unit, Matrix.one_mul]

/-- The inner product of two matrices. -/
theorem inner_eq {n : ℕ} (A B : Matrix (Fin m) (Fin n) ℂ) : ∑ p : Fin m × Fin n, star (A p.1 p.2) * B p.1 p.2 = (Aᴴ * B).trace := by
  rw [Fintype.sum_prod_type, Finset.sum_comm]
  rfl

theorem inner_order (π : Equiv.Perm (Fin m)) {Q : Matrix (Fin n) (Fin n') ℂ} (hQ : Q * Qᴴ = 1) (A B : Matrix (Fin m) (Fin n) ℂ) :
    ((rowP π * A * Q)ᴴ * (rowP π * B * Q)).trace = (Aᴴ * B).trace := by
  rw [conjTranspose_mul, conjTranspose_mul, Matrix.mul_assoc (rowP π), Matrix.mul_assoc Qᴴ, Matrix.mul_assoc Aᴴ,
    ← Matrix.mul_assoc (rowP π)ᴴ, rowP_unit, Matrix.one_mul, Matrix.trace_mul_comm, Matrix.mul_assoc, Matrix.mul_assoc, hQ, Matrix.mul_one]

theorem frobSq_trace {n : ℕ} (A : Matrix (Fin m) (Fin n) ℂ) : ((frobSq A : ℝ) : ℂ) = (Aᴴ * A).trace := by
  rw [← inner_eq, Fintype.sum_prod_type, frobSq]
  push_cast
  refine Finset.sum_congr rfl fun i _ => Finset.sum_congr rfl fun j _ => ?_
  rw [Complex.star_def, ← Complex.normSq_eq_conj_mul_self]

theorem frobSq_order (π : Equiv.Perm (Fin m)) {Q : Matrix (Fin n) (Fin n') ℂ} (hQ : Q * Qᴴ = 1) (A : Matrix (Fin m) (Fin n) ℂ) :
    frobSq (rowP π * A * Q) = frobSq A := by
  have := inner_order π hQ A A
  rw [← frobSq_trace, ← frobSq_trace] at this
  exact_mod_cast this

theorem jac_order (π : Equiv.Perm (Fin m)) {Q : Matrix (Fin n) (Fin n') ℂ} (hQ : Q * Qᴴ = 1) (L : Lib l fulljac time H)
    (L' : Lib l fulljac (fun i => time (π i)) (rowP π * H * Q)) {α : Fin l → ℂ} (hinj : Injective (phi time α)) :
    (jac L' α)ᴴ * jac L' α = (jac L α)ᴴ * jac L α ∧
    ((jac L' α)ᴴ *ᵥ fun p => BopStep.residual (fun i => time (π i)) (rowP π * H * Q) L'.B α p.1 p.2) =
      (jac L α)ᴴ *ᵥ fun p => BopStep.residual time H L.B α p.1 p.2 := by
  have hinj' : Injective (phi (fun i => time (π i)) α) := by rw [phi_order]; exact injective_order π hinj
  have hj : ∀ p j, jac L' α p j = (rowP π * jacM fulljac time H (BopStep.residual time H L.B α) α j * Q) p.1 p.2 := by
    intro p j
    rw [jac_eq L' hinj', residual_order π Q L L', jacM_order]
  constructor
  · ext i j
    rw [Matrix.mul_apply, Matrix.mul_apply]
    simp only [conjTranspose_apply, hj, jac_eq L hinj]
    rw [inner_eq, inner_eq, inner_order π hQ]
  · funext j
    simp only [mulVec, dotProduct, conjTranspose_apply, hj, jac_eq L hinj, residual_order π Q L L']
    rw [inner_eq, inner_eq, inner_order π hQ]

/-! ### Unit of the data -/

theorem residual_scale {g : ℂ} (L : Lib l fulljac time H) (L' : Lib l fulljac time (g • H)) (α : Fin l → ℂ) :
    BopStep.residual time (g • H) L'.B α = g • BopStep.residual time H L.B α := by
  have h1 : (phi time α)ᴴ * (phi time α * L.B α - H) = 0 := by
    ext j c
    exact congrFun (L.isB α c).normal j
  have h2 : (phi time α)ᴴ * (phi time α * L'.B α - g • H) = 0 := by
    ext j c
    exact congrFun (L'.isB α c).normal j
  have hz : phi time α * (L'.B α - g • L.B α) = 0 := by
    refine Matrix.conjTranspose_mul_self_eq_zero.mp ?_
    have h5 : phi time α * (L'.B α - g • L.B α) = (phi time α * L'.B α - g • H) - g • (phi time α * L.B α - H) := by
      rw [Matrix.mul_sub, smul_sub, Matrix.mul_smul]; abel
    rw [conjTranspose_mul, Matrix.mul_assoc, h5, Matrix.mul_sub, h2, Matrix.mul_smul, h1, smul_zero, sub_zero, Matrix.mul_zero]
  rw [Matrix.mul_sub, sub_eq_zero, Matrix.mul_smul] at hz
  rw [BopStep.residual, BopStep.residual, hz, smul_sub]

theorem jac_scale {g : ℂ} (L : Lib l fulljac time H) (L' : Lib l fulljac time (g • H)) {α : Fin l → ℂ}
    (hinj : Injective (phi time α)) : jac L' α = g • jac L α := by
  ext p j
  rw [Matrix.smul_apply, jac_eq L' hinj, jac_eq L hinj, residual_scale L L']
  have : jacM fulljac time (g • H) (g • BopStep.residual time H L.B α) α j =
      g • jacM fulljac time H (BopStep.residual time H L.B α) α j := by
    rw [jacM, jacM, smul_add, Matrix.mul_smul, Matrix.mul_smul]
    refine congrArg₂ _ rfl ?_
    split_ifs
    · rw [Matrix.mul_smul, Matrix.mul_smul]
    · rw [smul_zero]
  rw [this, Matrix.smul_apply]

end Verif.BopRun
