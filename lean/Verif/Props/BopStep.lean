import Verif.Lemmas.BopStep
import Verif.Lemmas.SvdExists
import Verif.Props.Bop
import Verif.Props.VarPro
import Mathlib.LinearAlgebra.Matrix.Rank

/-!
# Property C89: the step of `BOPDMD._variable_projection`
-/

set_option autoImplicit false

namespace Verif.BopStep

open Verif Verif.LinAlg Verif.VarPro Matrix Filter Topology

variable {m l n : ℕ}

/-- **C89** (the step). Whatever the pivoting, `delta` minimises the linearised error with the
penalty `λ² Σ (d_i |δ_i|)²`. -/
theorem C89_step {P : Type} [Fintype P] {J : Matrix P (Fin l) ℂ} (lstsq : Lstsq l)
    (hl : ∀ A y, IsLstsq A y (lstsq A y)) (d : PivQr J) (sc : Fin l → ℝ) (res : P → ℂ) (lam : ℝ)
    (c : Fin l → ℂ) :
    (∑ p, ‖res p - ∑ j, J p j * delta lstsq d sc res lam j‖ ^ 2) +
        lam ^ 2 * ∑ j, (sc j * ‖delta lstsq d sc res lam j‖) ^ 2 ≤
      (∑ p, ‖res p - ∑ j, J p j * c j‖ ^ 2) + lam ^ 2 * ∑ j, (sc j * ‖c j‖) ^ 2 := by
  set x := delta lstsq d sc res lam with hx
  have hn := delta_normal lstsq hl d sc res lam
  rw [← hx] at hn
  have key : IsLstsq (fromRows J ((lam : ℂ) • rdiag sc)) (Sum.elim res 0) x := by
    refine isLstsq_of_normal _ _ _ ?_
    rw [conjTranspose_fromRows_eq_fromCols_conjTranspose, mulVec_sub,
      fromCols_mulVec_sumElim, fromRows_mulVec, fromCols_mulVec_sumElim, mulVec_zero, add_zero, sub_eq_zero, ← hn,
      mulVec_mulVec]
    congr 1
    funext i
    simp [rdiag, conjTranspose_smul, smul_mulVec, mulVec_smul, mulVec_diagonal, diagonal_conjTranspose]
    ring
  have e : ∀ c : Fin l → ℂ, normSq (fromRows J ((lam : ℂ) • rdiag sc) *ᵥ c - Sum.elim res 0) =
      (∑ p, ‖res p - ∑ j, J p j * c j‖ ^ 2) + lam ^ 2 * ∑ j, (sc j * ‖c j‖) ^ 2 := by
    intro c
    rw [fromRows_mulVec, normSq, Fintype.sum_sum_type, Finset.mul_sum]
    congr 1
    · refine Finset.sum_congr rfl fun p _ => ?_
      rw [← Complex.normSq_eq_norm_sq, ← Complex.normSq_neg]
      simp [mulVec, dotProduct]
    · refine Finset.sum_congr rfl fun j _ => ?_
      rw [mul_pow, ← Complex.normSq_eq_norm_sq]
      simp [rdiag, smul_mulVec, mulVec_diagonal, Complex.normSq_mul, Complex.normSq_ofReal]
      ring
  rw [← e, ← e]
  exact key c

theorem scales_pos (levmarq : Bool) (J : Matrix (Fin m × Fin n) (Fin l) ℂ) (j : Fin l) :
    0 < scales levmarq J j := by
  rw [scales]
  split_ifs
  · exact lt_of_lt_of_le (by norm_num) (le_max_right _ _)
  · norm_num

section

variable {time : Fin m → ℝ} {H : Matrix (Fin m) (Fin n) ℂ}
    {B : (Fin l → ℂ) → Matrix (Fin l) (Fin n) ℂ} {α : Fin l → ℂ} {full : Bool}

/-- The gradient in terms of the Jacobian. -/
theorem hasDerivAt_dir (hB : IsComputeB time H B) (hinj : Injective (phi time α)) (f : Fact full time H B α)
    (γ : ℝ → Fin l → ℂ) (h0 : γ 0 = α) (δ : Fin l → ℂ) (hγ : ∀ j, HasDerivAt (fun e => γ e j) (δ j) 0) :
    HasDerivAt (fun e => frobSq (residual time H B (γ e)))
      (-2 * ∑ j, (star (δ j) * ((djac full time α f.U f.s f.V (B α) (residual time H B α))ᴴ *ᵥ
        fun p => residual time H B α p.1 p.2) j).re) 0 := by
  subst h0
  refine (hasDerivAt_frob hB γ δ hγ hinj).congr_deriv ?_
  congr 1
  refine Finset.sum_congr rfl fun j _ => ?_
  rw [djac_residual hB hinj full f.isSVD]

/-- Solution of the penalised normal equations, as a function of `e = 1 / λ²`. -/
noncomputable def pen {P : Type} [Fintype P] (J : Matrix P (Fin l) ℂ) (sc : Fin l → ℝ) (e : ℝ) :
    Matrix (Fin l) (Fin l) ℂ := (e : ℂ) • (Jᴴ * J) + rdiag fun i => sc i ^ 2

theorem tendsto_pen_inv {P : Type} [Fintype P] (J : Matrix P (Fin l) ℂ) (sc : Fin l → ℝ) (hs : ∀ i, 0 < sc i)
    (g : Fin l → ℂ) (i : Fin l) :
    Tendsto (fun e => ((pen J sc e)⁻¹ *ᵥ g) i) (𝓝 0) (𝓝 (g i / ((sc i ^ 2 : ℝ) : ℂ))) := by
  have hc : Continuous (pen J sc) := by
    refine continuous_matrix fun i j => ?_
    simp only [pen, Matrix.add_apply, Matrix.smul_apply, smul_eq_mul]
    fun_prop
  have h0 : pen J sc 0 = diagonal fun i => ((sc i ^ 2 : ℝ) : ℂ) := by simp [pen, rdiag]
  have hne : ∀ i, ((sc i ^ 2 : ℝ) : ℂ) ≠ 0 := fun i => by exact_mod_cast (pow_pos (hs i) 2).ne'
  have hd : (pen J sc 0).det ≠ 0 := by
    rw [h0, det_diagonal]; exact Finset.prod_ne_zero_iff.mpr fun i _ => hne i
  have hi : Tendsto (fun e => (pen J sc e)⁻¹) (𝓝 0) (𝓝 (pen J sc 0)⁻¹) := by
    have e : (fun e => (pen J sc e)⁻¹) = fun e => ((pen J sc e).det)⁻¹ • (pen J sc e).adjugate := by
      funext e; rw [Matrix.inv_def, Ring.inverse_eq_inv]
    rw [e, Matrix.inv_def, Ring.inverse_eq_inv]
    exact ((hc.matrix_det.continuousAt.inv₀ hd).smul hc.matrix_adjugate.continuousAt).tendsto
  rw [tendsto_matrix] at hi
  have ht : Tendsto (fun e => ((pen J sc e)⁻¹ *ᵥ g) i) (𝓝 0) (𝓝 (((pen J sc 0)⁻¹ *ᵥ g) i)) := by
    simp only [mulVec, dotProduct]
    exact tendsto_finsetSum _ fun j _ => (hi i j).mul tendsto_const_nhds
  convert ht using 2
  have hu : IsUnit (pen J sc 0).det := isUnit_iff_ne_zero.mpr hd
  have hv : (pen J sc 0) *ᵥ (fun i => g i / ((sc i ^ 2 : ℝ) : ℂ)) = g := by
    rw [h0]; funext i; rw [mulVec_diagonal]; exact mul_div_cancel₀ _ (hne i)
  conv_rhs => rw [← hv, mulVec_mulVec, nonsing_inv_mul _ hu, one_mulVec]

/-- The matrix of the penalised normal equations is regular. -/
theorem pen_det {P : Type} [Fintype P] (J : Matrix P (Fin l) ℂ) (sc : Fin l → ℝ) (hs : ∀ i, 0 < sc i) (e : ℝ)
    (he : 0 ≤ e) : IsUnit (pen J sc e).det := by
  rw [isUnit_iff_ne_zero]
  intro h0
  obtain ⟨v, hv, hz⟩ := Matrix.exists_mulVec_eq_zero_iff.mpr h0
  apply hv
  have h1 : star v ⬝ᵥ (pen J sc e *ᵥ v) = ((e * normSq (J *ᵥ v) + ∑ i, sc i ^ 2 * Complex.normSq (v i) : ℝ) : ℂ) := by
    rw [pen, add_mulVec, dotProduct_add, smul_mulVec, dotProduct_smul]
    push_cast
    congr 1
    · rw [normSq_eq_dot, star_mulVec, smul_eq_mul, ← dotProduct_mulVec, mulVec_mulVec]
    · simp only [dotProduct, rdiag, mulVec_diagonal]
      refine Finset.sum_congr rfl fun i _ => ?_
      rw [Complex.normSq_eq_conj_mul_self]
      simp; ring
  rw [hz, dotProduct_zero] at h1
  have h2 := Complex.ofReal_eq_zero.mp h1.symm
  have h3 : 0 ≤ e * normSq (J *ᵥ v) := mul_nonneg he (normSq_nonneg _)
  have h4 : ∀ i ∈ Finset.univ, 0 ≤ sc i ^ 2 * Complex.normSq (v i) := fun i _ =>
    mul_nonneg (sq_nonneg _) (Complex.normSq_nonneg _)
  have h5 : ∑ i, sc i ^ 2 * Complex.normSq (v i) = 0 := by
    have := Finset.sum_nonneg h4
    linarith
  funext i
  have := (Finset.sum_eq_zero_iff_of_nonneg h4).mp h5 i (Finset.mem_univ i)
  rcases mul_eq_zero.mp this with h | h
  · exact absurd h (pow_pos (hs i) 2).ne'
  · exact Complex.normSq_eq_zero.mp h

/-- **C89** (descent). At exponents whose exponentials are independent, with either Jacobian and
either scaling: if some direction changes the error to first order, every step with a sufficiently
large `_lambda` reduces the error. -/
theorem C89_descent (hB : IsComputeB time H B) (hinj : Injective (phi time α)) (f : Fact full time H B α)
    (levmarq : Bool) (lstsq : Lstsq l) (hl : ∀ A y, IsLstsq A y (lstsq A y))
    (v : Fin l → ℂ) (g : ℝ) (hg : g ≠ 0)
    (hv : HasDerivAt (fun e : ℝ => frobSq (H - phi time (α + fun j => e * v j) * B (α + fun j => e * v j))) g 0) :
    ∃ Λ : ℝ, 0 < Λ ∧ ∀ lam ≥ Λ, frobSq (H - phi time (step levmarq lstsq f lam) * B (step levmarq lstsq f lam)) <
      frobSq (H - phi time α * B α) := by
  set J := djac full time α f.U f.s f.V (B α) (residual time H B α) with hJ
  set res : Fin m × Fin n → ℂ := fun p => residual time H B α p.1 p.2 with hres
  set sc := scales levmarq J with hsc
  have hs : ∀ i, 0 < sc i := scales_pos levmarq J
  set w := Jᴴ *ᵥ res with hw
  -- the gradient does not vanish
  have hw0 : w ≠ 0 := by
    intro h0
    have := hasDerivAt_dir hB hinj f (fun e => α + fun j => (e : ℂ) * v j) (by funext j; simp) v (by
      intro j
      simp only [Pi.add_apply]
      have := ((Complex.ofRealCLM.hasDerivAt (x := (0 : ℝ))).mul_const (v j)).const_add (α j)
      simpa using this)
    rw [← hJ, ← hres, ← hw, h0] at this
    simp at this
    exact hg (hv.unique this)
  -- the curve of steps
  let γ : ℝ → Fin l → ℂ := fun e => α + fun j => (e : ℂ) * ((pen J sc e)⁻¹ *ᵥ w) j
  have hγ : ∀ j, HasDerivAt (fun e => γ e j) (w j / ((sc j ^ 2 : ℝ) : ℂ)) 0 := by
    intro j
    rw [hasDerivAt_iff_tendsto_slope]
    refine ((tendsto_pen_inv J sc hs w j).mono_left nhdsWithin_le_nhds).congr' ?_
    filter_upwards [self_mem_nhdsWithin] with e he
    have he : (e : ℂ) ≠ 0 := by exact_mod_cast he
    simp only [slope, vsub_eq_sub, sub_zero, γ, Pi.add_apply, Complex.ofReal_zero, zero_mul, add_zero,
      add_sub_cancel_left]
    rw [Complex.real_smul, Complex.ofReal_inv, ← mul_assoc, inv_mul_cancel₀ he, one_mul]
  have hd := hasDerivAt_dir hB hinj f γ (by funext j; simp [γ]) _ hγ
  rw [← hJ, ← hres, ← hw] at hd
  set D := -2 * ∑ j, (star (w j / ((sc j ^ 2 : ℝ) : ℂ)) * w j).re with hD
  have hneg : D < 0 := by
    have e : ∀ j, (star (w j / ((sc j ^ 2 : ℝ) : ℂ)) * w j).re = Complex.normSq (w j) / sc j ^ 2 := by
      intro j
      have : star (w j / ((sc j ^ 2 : ℝ) : ℂ)) * w j = ((Complex.normSq (w j) / sc j ^ 2 : ℝ) : ℂ) := by
        rw [Complex.ofReal_div, Complex.normSq_eq_conj_mul_self, star_div₀]
        simp only [Complex.star_def, Complex.conj_ofReal]
        ring
      rw [this, Complex.ofReal_re]
    have : 0 < ∑ j, Complex.normSq (w j) / sc j ^ 2 := by
      obtain ⟨j, hj⟩ := Function.ne_iff.mp hw0
      refine Finset.sum_pos' (fun i _ => div_nonneg (Complex.normSq_nonneg _) (sq_nonneg _)) ⟨j, Finset.mem_univ j, ?_⟩
      exact div_pos (Complex.normSq_pos.mpr hj) (pow_pos (hs j) 2)
    rw [hD]
    simp only [e]
    linarith
  rw [hasDerivAt_iff_tendsto_slope] at hd
  have hev := hd.eventually (gt_mem_nhds hneg)
  rw [eventually_nhdsWithin_iff, Metric.eventually_nhds_iff] at hev
  obtain ⟨ε, hε, hev⟩ := hev
  refine ⟨√(2 / ε), Real.sqrt_pos.mpr (by positivity), fun lam hlam => ?_⟩
  have hlp : 0 < lam := lt_of_lt_of_le (Real.sqrt_pos.mpr (by positivity)) hlam
  have hl2 : 2 / ε ≤ lam ^ 2 := by
    have := Real.sqrt_le_left hlp.le |>.mp hlam
    exact this
  set e := (lam ^ 2)⁻¹ with he
  have hep : 0 < e := by positivity
  have hee : e < ε := by
    rw [he, inv_lt_comm₀ (by positivity) hε]
    have : ε⁻¹ < 2 / ε := by
      rw [div_eq_mul_inv]; have := inv_pos.mpr hε; linarith
    linarith
  have hslope := hev (by rw [Real.dist_eq, sub_zero, abs_of_pos hep]; exact hee) hep.ne'
  have h0 : γ 0 = α := by funext j; simp [γ]
  have hstep : step levmarq lstsq f lam = γ e := by
    have hn := delta_normal lstsq hl f.qr sc res lam
    set δ := delta lstsq f.qr sc res lam with hδ
    have h1 : pen J sc e *ᵥ δ = (e : ℂ) • w := by
      rw [hw, ← hn, pen, add_mulVec, smul_mulVec, smul_add]
      congr 1
      funext i
      simp only [rdiag, mulVec_diagonal, Pi.smul_apply, smul_eq_mul]
      rw [← mul_assoc, ← Complex.ofReal_mul]
      congr 2
      rw [he]; field_simp
    have h2 : δ = (e : ℂ) • ((pen J sc e)⁻¹ *ᵥ w) := by
      rw [← mulVec_smul, ← h1, mulVec_mulVec, nonsing_inv_mul _ (pen_det J sc hs e hep.le), one_mulVec]
    have h3 : step levmarq lstsq f lam = α + δ := rfl
    rw [h3, h2]
    rfl
  rw [hstep]
  have hs2 : frobSq (residual time H B (γ e)) - frobSq (residual time H B (γ 0)) < 0 := by
    simp only [slope, vsub_eq_sub, sub_zero, smul_eq_mul] at hslope
    by_contra hc
    exact absurd hslope (not_lt.mpr (mul_nonneg (inv_pos.mpr hep).le (not_lt.mp hc)))
  rw [h0] at hs2
  exact sub_neg.mp hs2

/-- If one of the steps tried has a smaller error, the search ends with a smaller error. -/
theorem search_succeeds {A : Type} (p : Bop.Prob A) (o : Bop.Opts) (E : A → ℝ) (a : A) (k : ℕ) :
    ∀ (lam : ℝ) (c : A), p.err a = some (E a) → (∀ lam, p.err (p.step a lam) = some (E (p.step a lam))) →
      (∃ j, 1 ≤ j ∧ j ≤ k ∧ E (p.step a (lam * o.lamup ^ j)) < E a) →
      E (Bop.search p o a k lam c).2 < E a := by
  induction k with
  | zero => rintro lam c - - ⟨j, h1, h2, -⟩; omega
  | succ k ih =>
    rintro lam c ha hs ⟨j, h1, h2, h3⟩
    rw [Bop.search]
    simp only [ha, hs, Bop.flt, decide_eq_true_eq]
    split_ifs with h
    · exact h
    · refine ih _ _ ha hs ⟨j - 1, ?_, by omega, ?_⟩
      · by_contra hj
        obtain rfl : j = 1 := by omega
        rw [pow_one] at h3
        exact h h3
      · have : lam * o.lamup * o.lamup ^ (j - 1) = lam * o.lamup ^ j := by
          rw [mul_assoc, ← pow_succ', Nat.sub_add_cancel h1]
        rwa [this]

/-- **C89** (the search for a step length). In the same situation, with data that are not zero,
`_lambda > 0` and `lamup > 1`: if `maxlam` is large enough, increasing `_lambda` finds a step that
reduces the relative error. So the routine gives up only where no direction changes the error to
first order, or because `maxlam` is too small. -/
theorem C89_search (hB : IsComputeB time H B) (hH : H ≠ 0) (hinj : Injective (phi time α))
    (f : Fact full time H B α) (levmarq : Bool) (lstsq : Lstsq l) (hl : ∀ A y, IsLstsq A y (lstsq A y))
    (v : Fin l → ℂ) (g : ℝ) (hg : g ≠ 0)
    (hv : HasDerivAt (fun e : ℝ => frobSq (H - phi time (α + fun j => e * v j) * B (α + fun j => e * v j))) g 0)
    (p : Bop.Prob (Fin l → ℂ)) (hpe : p.err = error time H B) (hps : ∀ lam, p.step α lam = step levmarq lstsq f lam)
    (o : Bop.Opts) (hup : 1 < o.lamup) (lam : ℝ) (hlam : 0 < lam) :
    ∃ K, ∀ k ≥ K, ∀ c, Bop.flt (p.err (Bop.search p o α k lam c).2) (p.err α) = true := by
  obtain ⟨Λ, hΛ, h⟩ := C89_descent hB hinj f levmarq lstsq hl v g hg hv
  have hHn : √(frobSq H) ≠ 0 := by
    intro h0
    rw [Real.sqrt_eq_zero (frobSq_nonneg _)] at h0
    apply hH
    ext i j
    have h1 := (Finset.sum_eq_zero_iff_of_nonneg fun i _ => Finset.sum_nonneg fun j _ =>
      Complex.normSq_nonneg (H i j)).mp h0 i (Finset.mem_univ i)
    exact Complex.normSq_eq_zero.mp ((Finset.sum_eq_zero_iff_of_nonneg fun j _ =>
      Complex.normSq_nonneg (H i j)).mp h1 j (Finset.mem_univ j))
  have hHp : 0 < √(frobSq H) := lt_of_le_of_ne (Real.sqrt_nonneg _) (Ne.symm hHn)
  let E : (Fin l → ℂ) → ℝ := fun a => √(frobSq (residual time H B a)) / √(frobSq H)
  have hE : ∀ a, p.err a = some (E a) := by
    intro a; rw [hpe, error, Bop.relError, if_neg hHn]
  obtain ⟨j, hj⟩ := (tendsto_pow_atTop_atTop_of_one_lt hup).eventually_ge_atTop (Λ / lam) |>.exists
  refine ⟨j + 1, fun k hk c => ?_⟩
  rw [hE, hE]
  simp only [Bop.flt, decide_eq_true_eq]
  refine search_succeeds p o E α k lam c (hE α) (fun _ => hE _) ⟨j + 1, by omega, hk, ?_⟩
  rw [hps]
  have hge : Λ ≤ lam * o.lamup ^ (j + 1) := by
    have h1 : Λ ≤ lam * o.lamup ^ j := by
      have := (div_le_iff₀ hlam).mp hj
      linarith
    have h2 : o.lamup ^ j ≤ o.lamup ^ (j + 1) := pow_le_pow_right₀ hup.le (Nat.le_succ j)
    exact h1.trans (mul_le_mul_of_nonneg_left h2 hlam.le)
  exact div_lt_div_of_pos_right (Real.sqrt_lt_sqrt (frobSq_nonneg _) (h _ hge)) hHp

/-- **C89** (stationary points). Where no direction changes the error to first order, the step is
zero for every `_lambda > 0`, so no step is accepted. -/
theorem C89_stationary (hB : IsComputeB time H B) (hinj : Injective (phi time α)) (f : Fact full time H B α)
    (levmarq : Bool) (lstsq : Lstsq l) (hl : ∀ A y, IsLstsq A y (lstsq A y))
    (hst : ∀ v : Fin l → ℂ, HasDerivAt
      (fun e : ℝ => frobSq (H - phi time (α + fun j => e * v j) * B (α + fun j => e * v j))) 0 0)
    (lam : ℝ) (hlam : 0 < lam) : step levmarq lstsq f lam = α := by
  set J := djac full time α f.U f.s f.V (B α) (residual time H B α) with hJ
  set res : Fin m × Fin n → ℂ := fun p => residual time H B α p.1 p.2 with hres
  set sc := scales levmarq J with hsc
  have hs : ∀ i, 0 < sc i := scales_pos levmarq J
  set w := Jᴴ *ᵥ res with hw
  have hw0 : w = 0 := by
    have := hasDerivAt_dir hB hinj f (fun e => α + fun j => (e : ℂ) * w j) (by funext j; simp) w (by
      intro j
      simp only [Pi.add_apply]
      have := ((Complex.ofRealCLM.hasDerivAt (x := (0 : ℝ))).mul_const (w j)).const_add (α j)
      simpa using this)
    rw [← hJ, ← hres, ← hw] at this
    have h0 := this.unique (hst w)
    have e : ∀ j, (star (w j) * w j).re = Complex.normSq (w j) := fun j => by
      simp [Complex.normSq_apply]
    simp only [e] at h0
    have h1 : ∑ j, Complex.normSq (w j) = 0 := by linarith
    exact (normSq_eq_zero w).mp h1
  have hn := delta_normal lstsq hl f.qr sc res lam
  set δ := delta lstsq f.qr sc res lam with hδ
  have hlamC : (lam : ℂ) ≠ 0 := by exact_mod_cast hlam.ne'
  have h1 : pen J sc (lam ^ 2)⁻¹ *ᵥ δ = 0 := by
    rw [← smul_zero (((lam ^ 2)⁻¹ : ℝ) : ℂ), ← hw0, hw, ← hn, pen, add_mulVec, smul_mulVec, smul_add]
    congr 1
    funext i
    simp only [rdiag, mulVec_diagonal, Pi.smul_apply, smul_eq_mul]
    rw [← mul_assoc, ← Complex.ofReal_mul]
    congr 2
    field_simp
  have h2 : δ = 0 := by
    have := congrArg (fun x => (pen J sc (lam ^ 2)⁻¹)⁻¹ *ᵥ x) h1
    simpa [mulVec_mulVec, nonsing_inv_mul _ (pen_det J sc hs _ (by positivity : (0 : ℝ) ≤ (lam ^ 2)⁻¹))] using this
  have h3 : step levmarq lstsq f lam = α + δ := rfl
  rw [h3, h2, add_zero]

end

/-! ### A case meeting the hypotheses -/

open scoped ComplexOrder in
/-- Least-squares solutions exist. -/
theorem exists_lstsq {P : Type} [Fintype P] [DecidableEq P] (A : Matrix P (Fin l) ℂ) (y : P → ℂ) :
    ∃ b, IsLstsq A y b := by
  have hr : LinearMap.range (Aᴴ * A).mulVecLin = LinearMap.range Aᴴ.mulVecLin := by
    refine Submodule.eq_of_le_of_finrank_eq ?_ ?_
    · rw [mulVecLin_mul]; exact LinearMap.range_comp_le_range _ _
    · have h1 := rank_conjTranspose_mul_self A
      have h2 := rank_conjTranspose A
      exact h1.trans h2.symm
  have : Aᴴ *ᵥ y ∈ LinearMap.range (Aᴴ * A).mulVecLin := by
    rw [hr]; exact ⟨y, rfl⟩
  obtain ⟨b, hb⟩ := this
  refine ⟨b, isLstsq_of_normal _ _ _ ?_⟩
  rw [mulVec_sub, mulVec_mulVec, sub_eq_zero]
  exact hb

theorem exists_computeB (time : Fin m → ℝ) (H : Matrix (Fin m) (Fin n) ℂ) :
    ∃ B : (Fin l → ℂ) → Matrix (Fin l) (Fin n) ℂ, IsComputeB time H B := by
  choose b hb using fun (α : Fin l → ℂ) (c : Fin n) => exists_lstsq (phi time α) fun i => H i c
  exact ⟨fun α => Matrix.of fun j c => b α c j, hb⟩

/-- A matrix with one column has a pivoted QR decomposition. -/
theorem exists_qr {P : Type} [Fintype P] [DecidableEq P] [Nonempty P] (J : Matrix P (Fin 1) ℂ) :
    Nonempty (PivQr J) := by
  by_cases h0 : J.col 0 = 0
  · obtain ⟨p⟩ := ‹Nonempty P›
    refine ⟨⟨Matrix.of fun x _ => if x = p then 1 else 0, 0, Equiv.refl _, ?_, fun _ _ _ => rfl, ?_⟩⟩
    · ext i j
      obtain rfl : i = 0 := Subsingleton.elim _ _
      obtain rfl : j = 0 := Subsingleton.elim _ _
      simp [Matrix.mul_apply]
    · ext x j
      obtain rfl : j = 0 := Subsingleton.elim _ _
      simpa using congrFun h0 x
  · have hn : 0 < normSq (J.col 0) :=
      lt_of_le_of_ne (normSq_nonneg _) fun h => h0 ((normSq_eq_zero _).mp h.symm)
    have hs : (√(normSq (J.col 0)) : ℂ) ≠ 0 := by exact_mod_cast (Real.sqrt_pos.mpr hn).ne'
    refine ⟨⟨Matrix.of fun x _ => J x 0 / √(normSq (J.col 0)), Matrix.of fun _ _ => √(normSq (J.col 0)),
      Equiv.refl _, ?_, fun i j h => absurd h (by simp), ?_⟩⟩
    · ext i j
      obtain rfl : i = 0 := Subsingleton.elim _ _
      obtain rfl : j = 0 := Subsingleton.elim _ _
      simp only [Matrix.mul_apply, conjTranspose_apply, Matrix.of_apply, one_apply_eq]
      have e : ∀ x, star (J x 0 / (√(normSq (J.col 0)) : ℂ)) * (J x 0 / √(normSq (J.col 0))) =
          (Complex.normSq (J x 0) : ℂ) / (normSq (J.col 0) : ℂ) := by
        intro x
        rw [star_div₀, div_mul_div_comm, Complex.normSq_eq_conj_mul_self]
        simp only [Complex.star_def, Complex.conj_ofReal]
        rw [← Complex.ofReal_mul, Real.mul_self_sqrt hn.le]
      simp only [e]
      rw [← Finset.sum_div, ← Complex.ofReal_sum]
      have : ∑ x, Complex.normSq (J x 0) = normSq (J.col 0) := rfl
      rw [this, div_self]
      exact_mod_cast hn.ne'
    · ext x j
      obtain rfl : j = 0 := Subsingleton.elim _ _
      simp only [submatrix_apply, id, Equiv.refl_apply, Matrix.mul_apply, Finset.univ_unique, Finset.sum_singleton,
        Matrix.of_apply]
      rw [div_mul_cancel₀ _ hs]

/-- Instance of the hypotheses of `C89_descent`: samples `1, 0` at times `0, 1`, exponent 0, with the
derivative 1/2 of the squared error. -/
example : ∃ (B : (Fin 1 → ℂ) → Matrix (Fin 1) (Fin 1) ℂ) (lstsq : Lstsq 1),
    IsComputeB ![0, 1] (!![1; 0] : Matrix (Fin 2) (Fin 1) ℂ) B ∧ Injective (phi ![0, 1] (0 : Fin 1 → ℂ)) ∧
    (∀ full, Nonempty (Fact full ![0, 1] (!![1; 0] : Matrix (Fin 2) (Fin 1) ℂ) B 0)) ∧
    (∀ A y, IsLstsq A y (lstsq A y)) ∧
    HasDerivAt (fun e : ℝ => frobSq ((!![1; 0] : Matrix (Fin 2) (Fin 1) ℂ) -
      phi ![0, 1] ((0 : Fin 1 → ℂ) + fun _ => (e : ℂ) * 1) * B ((0 : Fin 1 → ℂ) + fun _ => (e : ℂ) * 1))) (1 / 2) 0 := by
  obtain ⟨B, hB⟩ := exists_computeB (l := 1) ![0, 1] (!![1; 0] : Matrix (Fin 2) (Fin 1) ℂ)
  choose ls hls using fun (A : Matrix (Fin 1 ⊕ Fin 1) (Fin 1) ℂ) (y : Fin 1 ⊕ Fin 1 → ℂ) => exists_lstsq A y
  have hinj : Injective (phi ![0, 1] (0 : Fin 1 → ℂ)) := by
    refine phi_injective 0 1 _ (fun i => ?_) _ (fun i j h => Subsingleton.elim _ _) (by norm_num)
    fin_cases i <;> simp
  refine ⟨B, ls, hB, hinj, fun full => ?_, hls, ?_⟩
  · obtain ⟨U, s, V, h, -⟩ := exists_svd (phi (![0, 1] : Fin 2 → ℝ) (0 : Fin 1 → ℂ))
    obtain ⟨q⟩ := exists_qr (djac full ![0, 1] 0 U s V (B 0) (residual ![0, 1] (!![1; 0] : Matrix (Fin 2) (Fin 1) ℂ) B 0))
    exact ⟨⟨_, U, s, V, h, q⟩⟩
  · let γ : ℝ → Fin 1 → ℂ := fun e => (0 : Fin 1 → ℂ) + fun _ => (e : ℂ) * 1
    have hγ : ∀ j, HasDerivAt (fun e => γ e j) 1 0 := by
      intro j
      have := ((Complex.ofRealCLM.hasDerivAt (x := (0 : ℝ))).mul_const (1 : ℂ)).const_add (0 : ℂ)
      simpa [γ] using this
    have h0 : γ 0 = 0 := by funext j; simp [γ]
    have hd := hasDerivAt_frob hB γ (fun _ => 1) hγ (by rw [h0]; exact hinj)
    refine hd.congr_deriv ?_
    rw [h0]
    have hb : B 0 0 0 = 1 / 2 := by
      have := congrFun (hB 0 0).normal 0
      simp [mulVec, dotProduct, phi, Fin.sum_univ_two] at this
      linear_combination (1 / 2 : ℂ) * this
    simp [trace, Matrix.mul_apply, Fin.sum_univ_two, dphi, residual, phi, hb]

end Verif.BopStep
