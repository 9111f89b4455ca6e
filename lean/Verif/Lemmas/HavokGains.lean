import Verif.Model.HavokGains
import Verif.Props.HavokSim
import Mathlib.Analysis.Calculus.MeanValue
import Mathlib.Analysis.ODE.ExistUnique
import Mathlib.Analysis.Calculus.Deriv.Prod

/-! Helper lemmas: the exponential of the step matrix of `lsim`. -/

set_option autoImplicit false

namespace Verif.HavokSim

open Verif Matrix

section General

variable {m n : Type} [Fintype m] [DecidableEq m] [Fintype n] [DecidableEq n]

open scoped Matrix.Norms.Operator in
set_option backward.isDefEq.respectTransparency false in
/-- If `M E = E X` then `exp(M) E = E exp(X)`. -/
theorem exp_intertwine (M : Matrix m m ℂ) (X : Matrix n n ℂ) (E : Matrix m n ℂ) (h : M * E = E * X) :
    NormedSpace.exp M * E = E * NormedSpace.exp X := by
  have hp : ∀ k : ℕ, M ^ k * E = E * X ^ k := by
    intro k
    induction k with
    | zero => simp
    | succ k ih => rw [pow_succ, Matrix.mul_assoc, h, ← Matrix.mul_assoc, ih, Matrix.mul_assoc, ← pow_succ]
  have h1 := NormedSpace.exp_series_hasSum_exp' (𝕂 := ℂ) M
  have h2 := NormedSpace.exp_series_hasSum_exp' (𝕂 := ℂ) X
  have h3 := h1.map (AddMonoidHom.mk' (fun M : Matrix m m ℂ => M * E) (fun a b => Matrix.add_mul a b E))
    (by simp only [AddMonoidHom.mk'_apply]; exact continuous_id.matrix_mul continuous_const)
  have h4 := h2.map (AddMonoidHom.mk' (fun X : Matrix n n ℂ => E * X) (fun a b => Matrix.mul_add E a b))
    (by simp only [AddMonoidHom.mk'_apply]; exact continuous_const.matrix_mul continuous_id)
  refine h3.unique ?_
  convert h4 using 1
  · funext k
    simp [hp, Matrix.smul_mul, Matrix.mul_smul]
  · rfl

open scoped Matrix.Norms.Operator in
set_option backward.isDefEq.respectTransparency false in
theorem exp_deriv (M : Matrix m m ℂ) (z : m → ℂ) (t : ℝ) (i : m) :
    HasDerivAt (fun s : ℝ => (NormedSpace.exp ((s : ℂ) • M) *ᵥ z) i)
      ((M *ᵥ (NormedSpace.exp ((t : ℂ) • M) *ᵥ z)) i) t := by
  have h : HasDerivAt (fun s : ℝ => NormedSpace.exp (s • M)) (M * NormedSpace.exp (t • M)) t :=
    hasDerivAt_exp_smul_const' M t
  have hs : ∀ s : ℝ, NormedSpace.exp ((s : ℂ) • M) = NormedSpace.exp (s • M) := by
    intro s
    congr 1
  simp only [hs, mulVec_mulVec]
  let L : Matrix m m ℂ →L[ℝ] ℂ := LinearMap.toContinuousLinearMap
    { toFun := fun M => (M *ᵥ z) i
      map_add' := fun M N => by simp [add_mulVec]
      map_smul' := fun c M => by simp [smul_mulVec] }
  exact (HasFDerivAt.comp_hasDerivAt t (L.hasFDerivAt) h)

open scoped Matrix.Norms.Operator in
set_option backward.isDefEq.respectTransparency false in
/-- `exp N = 1 + N` if `N² = 0`. -/
theorem exp_sq_zero (N : Matrix m m ℂ) (h : N * N = 0) : NormedSpace.exp N = 1 + N := by
  have h1 := NormedSpace.exp_series_hasSum_exp' (𝕂 := ℂ) N
  refine h1.unique ?_
  have h2 : ∀ k ∉ Finset.range 2, ((k.factorial : ℂ)⁻¹ • N ^ k) = 0 := by
    intro k hk
    obtain ⟨j, rfl⟩ : ∃ j, k = 2 + j := ⟨k - 2, by simp at hk; omega⟩
    rw [pow_add, pow_two, h, Matrix.zero_mul, smul_zero]
  have h3 := hasSum_sum_of_ne_finset_zero (L := SummationFilter.unconditional ℕ) h2
  simpa [Finset.sum_range_succ] using h3

end General

variable {p q : ℕ} (A : Matrix (Fin p) (Fin p) ℂ) (B : Matrix (Fin p) (Fin q) ℂ)

theorem stepMatrix_state (dt : ℝ) :
    stepMatrix A B dt * fromRows (1 : Matrix (Fin p) (Fin p) ℂ) (0 : Matrix (Fin q ⊕ Fin q) (Fin p) ℂ) =
      fromRows (1 : Matrix (Fin p) (Fin p) ℂ) (0 : Matrix (Fin q ⊕ Fin q) (Fin p) ℂ) * ((dt : ℂ) • A) := by
  rw [stepMatrix, fromBlocks_mul_fromRows, fromRows_mul]
  simp

/-- The block of the state is the flow. -/
theorem exp_state (dt : ℝ) :
    (NormedSpace.exp (stepMatrix A B dt)).submatrix Sum.inl Sum.inl = flow A dt := by
  have h := exp_intertwine _ _ _ (stepMatrix_state A B dt)
  ext i j
  have := congrFun (congrFun h (Sum.inl i)) j
  rw [fromRows_mul, fromRows_apply_inl, Matrix.one_mul] at this
  rw [submatrix_apply, flow, ← this, Matrix.mul_apply, Fintype.sum_sum_type]
  simp [Matrix.one_apply]

/-- The step matrix acts on the inputs as a shift. -/
theorem stepMatrix_input (dt : ℝ) (c : ℂ) :
    (c • (fromBlocks 0 1 0 0 : Matrix (Fin q ⊕ Fin q) (Fin q ⊕ Fin q) ℂ)) *
        fromCols (0 : Matrix (Fin q ⊕ Fin q) (Fin p) ℂ) (1 : Matrix (Fin q ⊕ Fin q) (Fin q ⊕ Fin q) ℂ) =
      fromCols (0 : Matrix (Fin q ⊕ Fin q) (Fin p) ℂ) (1 : Matrix (Fin q ⊕ Fin q) (Fin q ⊕ Fin q) ℂ) *
        (c • stepMatrix A B dt) := by
  rw [Matrix.mul_smul, Matrix.smul_mul]
  congr 1
  rw [stepMatrix, fromCols_mul_fromBlocks, mul_fromCols]
  simp

/-- The state and the inputs carried by the exponential. -/
theorem exp_input (dt : ℝ) (c : ℂ) (z : Fin p ⊕ (Fin q ⊕ Fin q) → ℂ) (i : Fin q) :
    (NormedSpace.exp (c • stepMatrix A B dt) *ᵥ z) (Sum.inr (Sum.inl i)) =
      z (Sum.inr (Sum.inl i)) + c * z (Sum.inr (Sum.inr i)) := by
  have h := exp_intertwine _ _ _ (stepMatrix_input A B dt c)
  rw [exp_sq_zero _ (by rw [Matrix.smul_mul, Matrix.mul_smul, fromBlocks_multiply]; simp [fromBlocks_zero])] at h
  have h' := congrFun (congrArg (fun M => M *ᵥ z) h) (Sum.inl i)
  simp only [← mulVec_mulVec] at h'
  have e : ∀ y : Fin p ⊕ (Fin q ⊕ Fin q) → ℂ,
      fromCols (0 : Matrix (Fin q ⊕ Fin q) (Fin p) ℂ) (1 : Matrix (Fin q ⊕ Fin q) (Fin q ⊕ Fin q) ℂ) *ᵥ y =
        y ∘ Sum.inr := by
    intro y
    rw [fromCols_mulVec]
    simp
  rw [e, e] at h'
  rw [Function.comp_apply] at h'
  rw [← h', add_mulVec, one_mulVec, smul_mulVec, fromBlocks_mulVec]
  simp

/-- One step of `lsim` is the solution of the forced equation, with the input interpolated. -/
theorem step_solution (dt : ℝ) (hdt : dt ≠ 0) (x : Fin p → ℂ) (u u' : Fin q → ℂ) :
    ∃ v : ℝ → Fin p → ℂ, v 0 = x ∧
      v dt = flow A dt *ᵥ x + (scipyGains A B).in0 dt *ᵥ u + (scipyGains A B).in1 dt *ᵥ u' ∧
      ∀ τ i, HasDerivAt (fun τ => v τ i)
        ((A *ᵥ v τ + B *ᵥ (u + ((τ / dt : ℝ) : ℂ) • (u' - u))) i) τ := by
  let z : Fin p ⊕ (Fin q ⊕ Fin q) → ℂ := Sum.elim x (Sum.elim u (u' - u))
  refine ⟨fun τ => (NormedSpace.exp (((τ / dt : ℝ) : ℂ) • stepMatrix A B dt) *ᵥ z) ∘ Sum.inl, ?_, ?_, ?_⟩
  · funext i
    simp [NormedSpace.exp_zero, z]
  · have h1 : ((dt / dt : ℝ) : ℂ) = 1 := by rw [div_self hdt]; norm_num
    funext i
    simp only [Function.comp_apply, h1, one_smul]
    rw [← exp_state A B]
    simp only [Pi.add_apply, mulVec, dotProduct, Fintype.sum_sum_type, z, Sum.elim_inl, Sum.elim_inr, scipyGains,
      submatrix_apply, Matrix.sub_apply, Function.comp_apply, Pi.sub_apply]
    rw [add_assoc]
    congr 1
    rw [← Finset.sum_add_distrib, ← Finset.sum_add_distrib]
    exact Finset.sum_congr rfl fun j _ => by ring
  · intro τ i
    have h := exp_deriv (stepMatrix A B dt) z (τ / dt) (Sum.inl i)
    have hc : HasDerivAt (fun s : ℝ => s / dt) (1 / dt) τ := by
      simpa using (hasDerivAt_id τ).div_const dt
    have h2 := HasDerivAt.scomp τ h hc
    refine h2.congr_deriv ?_
    have hin : ∀ j, (NormedSpace.exp (((τ / dt : ℝ) : ℂ) • stepMatrix A B dt) *ᵥ z) (Sum.inr (Sum.inl j)) =
        u j + ((τ / dt : ℝ) : ℂ) * (u' j - u j) := by
      intro j
      rw [exp_input]
      simp [z]
    beta_reduce
    generalize NormedSpace.exp (((τ / dt : ℝ) : ℂ) • stepMatrix A B dt) *ᵥ z = y at hin ⊢
    have hy : (stepMatrix A B dt *ᵥ y) (Sum.inl i) = (dt : ℂ) * ((A *ᵥ (y ∘ Sum.inl)) i) +
        (dt : ℂ) * ((B *ᵥ (y ∘ Sum.inr ∘ Sum.inl)) i) := by
      rw [stepMatrix, fromBlocks_mulVec, Sum.elim_inl, Pi.add_apply, fromCols_mulVec, smul_mulVec, smul_mulVec]
      simp [Function.comp_assoc]
    have hu : (y ∘ Sum.inr ∘ Sum.inl) = u + ((τ / dt : ℝ) : ℂ) • (u' - u) := by
      funext j
      simp [hin j]
    rw [hy, hu, Pi.add_apply, Complex.real_smul]
    have hd : (dt : ℂ) ≠ 0 := Complex.ofReal_ne_zero.mpr hdt
    push_cast
    field_simp

/-- Two solutions of the forced equation on `[0, h]` with the same start agree. -/
theorem forced_unique (f : ℝ → Fin q → ℂ) (h : ℝ) (v w : ℝ → Fin p → ℂ) (h0 : v 0 = w 0)
    (hv : ∀ τ, 0 ≤ τ → τ ≤ h → ∀ i, HasDerivAt (fun τ => v τ i) ((A *ᵥ v τ + B *ᵥ f τ) i) τ)
    (hw : ∀ τ, 0 ≤ τ → τ ≤ h → ∀ i, HasDerivAt (fun τ => w τ i) ((A *ᵥ w τ + B *ᵥ f τ) i) τ)
    (τ : ℝ) (h1 : 0 ≤ τ) (h2 : τ ≤ h) : v τ = w τ := by
  have hd : ∀ (v : ℝ → Fin p → ℂ) (τ : ℝ),
      (∀ i, HasDerivAt (fun τ => v τ i) ((A *ᵥ v τ + B *ᵥ f τ) i) τ) →
      HasDerivAt v (A *ᵥ v τ + B *ᵥ f τ) τ := fun v τ hv => hasDerivAt_pi.mpr hv
  let L : (Fin p → ℂ) →L[ℂ] (Fin p → ℂ) := LinearMap.toContinuousLinearMap A.mulVecLin
  have hL : ∀ τ : ℝ, LipschitzWith ‖L‖₊ fun x : Fin p → ℂ => A *ᵥ x + B *ᵥ f τ := by
    intro τ
    refine LipschitzWith.of_dist_le_mul fun x y => ?_
    rw [dist_add_right]
    exact L.lipschitz.dist_le_mul x y
  have := ODE_solution_unique (v := fun τ x => A *ᵥ x + B *ᵥ f τ) (K := ‖L‖₊) (a := 0) (b := h) (f := v)
    (g := w) hL
    (fun t ht => (hd v t (hv t ht.1 ht.2)).continuousAt.continuousWithinAt)
    (fun t ht => (hd v t (hv t ht.1 ht.2.le)).hasDerivWithinAt)
    (fun t ht => (hd w t (hw t ht.1 ht.2)).continuousAt.continuousWithinAt)
    (fun t ht => (hd w t (hw t ht.1 ht.2.le)).hasDerivWithinAt) h0
  exact this ⟨h1, h2⟩

end Verif.HavokSim
