import Verif.Model.VarProRun
import Verif.Lemmas.VarPro
import Verif.Lemmas.SvdExists
import Verif.Props.VarPro
import Verif.Props.VarProFit

/-!
# C162: the origin and the unit of time in `VarProDMD`

Model: `Verif/Model/VarProRun.lean`. The optimizer is any deterministic program that calls the residual and the Jacobian.
-/

set_option autoImplicit false

namespace Verif.VarPro

open Verif Verif.LinAlg Matrix

variable {m l n q : ℕ}

/-! ### Helpers -/

/-- The factor of column `j`. -/
noncomputable def shiftD (τ : ℝ) (α : Fin l → ℂ) : Matrix (Fin l) (Fin l) ℂ := diagonal fun j => Complex.exp (τ * α j)

theorem phi_shift (time : Fin m → ℝ) (τ : ℝ) (α : Fin l → ℂ) :
    phi (fun i => time i + τ) α = phi time α * shiftD τ α := by
  ext i j
  rw [shiftD, mul_diagonal]
  simp only [phi, of_apply]
  rw [← Complex.exp_add]
  congr 1
  push_cast
  ring

theorem shiftD_mul (τ : ℝ) (α : Fin l → ℂ) : shiftD τ α * shiftD (-τ) α = 1 := by
  rw [shiftD, shiftD, diagonal_mul_diagonal, ← diagonal_one]
  congr 1
  funext j
  rw [← Complex.exp_add]
  push_cast
  rw [show (τ : ℂ) * α j + -τ * α j = 0 by ring, Complex.exp_zero]

theorem shiftD_inv (τ : ℝ) (α : Fin l → ℂ) : (shiftD τ α)⁻¹ = shiftD (-τ) α := inv_eq_right_inv (shiftD_mul τ α)

theorem injective_shift {time : Fin m → ℝ} {α : Fin l → ℂ} (h : Injective (phi time α)) (τ : ℝ) :
    Injective (phi (fun i => time i + τ) α) := by
  intro v hv
  rw [phi_shift, ← mulVec_mulVec] at hv
  have := congrArg (fun w => shiftD (-τ) α *ᵥ w) (h _ hv)
  have e := shiftD_mul (-τ) α
  rw [neg_neg] at e
  simpa [mulVec_mulVec, e] using this

theorem linv_shift (time : Fin m → ℝ) (τ : ℝ) (α : Fin l → ℂ) :
    linv (phi (fun i => time i + τ) α) = shiftD (-τ) α * linv (phi time α) := by
  have e := congrArg conjTranspose (shiftD_mul τ α)
  rw [conjTranspose_mul, conjTranspose_one] at e
  have e2 : ((shiftD τ α)ᴴ)⁻¹ * (shiftD τ α)ᴴ = 1 := by
    rw [← conjTranspose_nonsing_inv, shiftD_inv, e]
  rw [phi_shift, linv, linv, conjTranspose_mul]
  rw [show (shiftD τ α)ᴴ * (phi time α)ᴴ * (phi time α * shiftD τ α) =
    (shiftD τ α)ᴴ * ((phi time α)ᴴ * phi time α) * shiftD τ α by simp only [Matrix.mul_assoc]]
  rw [Matrix.mul_inv_rev, Matrix.mul_inv_rev, shiftD_inv]
  calc _ = shiftD (-τ) α * ((phi time α)ᴴ * phi time α)⁻¹ * (((shiftD τ α)ᴴ)⁻¹ * (shiftD τ α)ᴴ) * (phi time α)ᴴ := by
        simp only [Matrix.mul_assoc]
    _ = _ := by rw [e2, Matrix.mul_one, Matrix.mul_assoc]

/-- What the helper holds, with the left inverse. -/
theorem helper_eq {time : Fin m → ℝ} (data : Matrix (Fin m) (Fin n) ℂ) {α : Fin l → ℂ} (h : Injective (phi time α))
    (d : Svd (phi time α)) :
    (helper time data α d).b = linv (phi time α) * data ∧
      (helper time data α d).rho = data - phi time α * linv (phi time α) * data ∧
      d.U * d.Uᴴ = phi time α * linv (phi time α) ∧
      d.U * rdiag (sPhiInv d.s) * d.Vᴴ = (linv (phi time α))ᴴ := by
  have hs : sPhiInv d.s = fun i => (d.s i)⁻¹ := by
    funext i
    simp [sPhiInv, svd_ne_zero h d.isSVD i]
  obtain ⟨h1, h2⟩ := svd_linv h d.isSVD
  refine ⟨?_, ?_, h1, ?_⟩
  · simp only [helper]; rw [hs, h2]
  · simp only [helper]; rw [h1]
  · have hr : ∀ s : Fin (min m l) → ℝ, (rdiag s)ᴴ = rdiag s := by
      intro s
      simp [rdiag, diagonal_conjTranspose, Pi.star_def]
    rw [← h2, hs, conjTranspose_mul, conjTranspose_mul, conjTranspose_conjTranspose, hr, Matrix.mul_assoc]

theorem jacG_eq {time : Fin m → ℝ} (data : Matrix (Fin m) (Fin n) ℂ) {α : Fin l → ℂ} (h : Injective (phi time α))
    (d : Svd (phi time α)) (j : Fin l) :
    jacG time (helper time data α d) j =
      vecMulVec (fun i => star (linv (phi time α) j i))
        (star (dPhi time (helper time data α d) j) ᵥ* (helper time data α d).rho) := by
  obtain ⟨-, -, -, h4⟩ := helper_eq data h d
  rw [jacG]
  have e : star ((helper time data α d).v j) = d.Vᴴ *ᵥ Pi.single j 1 := by
    funext i
    simp [helper, mulVec_single]
  rw [e, mul_vecMulVec, mulVec_mulVec]
  have e2 : (helper time data α d).u * rdiag (helper time data α d).sInv * d.Vᴴ = (linv (phi time α))ᴴ := h4
  rw [e2]
  congr 1
  funext i
  simp [mulVec_single]

/-- The residual is orthogonal to every column of the matrix of exponentials. -/
theorem phi_rho {time : Fin m → ℝ} (data : Matrix (Fin m) (Fin n) ℂ) {α : Fin l → ℂ} (h : Injective (phi time α)) (j : Fin l) :
    star ((phi time α).col j) ᵥ* (data - phi time α * linv (phi time α) * data) = 0 := by
  have e : (phi time α)ᴴ * (data - phi time α * linv (phi time α) * data) = 0 := by
    have := congrArg (fun M => (phi time α)ᴴ * M) (proj_herm (phi time α)).symm
    have b : (phi time α)ᴴ * (phi time α * linv (phi time α)) = (phi time α)ᴴ := by
      rw [← proj_herm, ← conjTranspose_mul, Matrix.mul_assoc, linv_mul h, Matrix.mul_one]
    rw [Matrix.mul_sub, ← Matrix.mul_assoc, b, sub_self]
  funext c
  have := congrFun (congrFun e j) c
  rw [Matrix.mul_apply] at this
  simpa [vecMul, dotProduct] using this

/-- Residual, Jacobian and coefficients for shifted times. -/
theorem rho_shift {time : Fin m → ℝ} (data : Matrix (Fin m) (Fin n) ℂ) {α : Fin l → ℂ} (h : Injective (phi time α)) (τ : ℝ)
    (d : Svd (phi time α)) (d' : Svd (phi (fun i => time i + τ) α)) :
    (helper (fun i => time i + τ) data α d').rho = (helper time data α d).rho := by
  obtain ⟨-, h2, -, -⟩ := helper_eq data h d
  obtain ⟨-, g2, -, -⟩ := helper_eq data (injective_shift h τ) d'
  rw [h2, g2, linv_shift, phi_shift]
  congr 2
  rw [Matrix.mul_assoc, ← Matrix.mul_assoc (shiftD τ α), shiftD_mul, Matrix.one_mul]

theorem b_shift {time : Fin m → ℝ} (data : Matrix (Fin m) (Fin n) ℂ) {α : Fin l → ℂ} (h : Injective (phi time α)) (τ : ℝ)
    (d : Svd (phi time α)) (d' : Svd (phi (fun i => time i + τ) α)) (j : Fin l) (c : Fin n) :
    (helper (fun i => time i + τ) data α d').b j c = Complex.exp (-τ * α j) * (helper time data α d).b j c := by
  obtain ⟨h1, -, -, -⟩ := helper_eq data h d
  obtain ⟨g1, -, -, -⟩ := helper_eq data (injective_shift h τ) d'
  rw [h1, g1, linv_shift, Matrix.mul_assoc, shiftD, diagonal_mul]
  push_cast
  rfl

theorem jacC_shift {time : Fin m → ℝ} (data : Matrix (Fin m) (Fin n) ℂ) {α : Fin l → ℂ} (h : Injective (phi time α)) (τ : ℝ)
    (d : Svd (phi time α)) (d' : Svd (phi (fun i => time i + τ) α)) (j : Fin l) :
    jacC (fun i => time i + τ) (helper (fun i => time i + τ) data α d') j = jacC time (helper time data α d) j := by
  have hP : d'.U * d'.Uᴴ = d.U * d.Uᴴ := by
    obtain ⟨-, -, h3, -⟩ := helper_eq data h d
    obtain ⟨-, -, g3, -⟩ := helper_eq data (injective_shift h τ) d'
    rw [h3, g3, linv_shift, phi_shift, Matrix.mul_assoc, ← Matrix.mul_assoc (shiftD τ α), shiftD_mul, Matrix.one_mul]
  have hne : Complex.exp (τ * α j) ≠ 0 := Complex.exp_ne_zero _
  have hinv : Complex.exp (-τ * α j) = (Complex.exp (τ * α j))⁻¹ := by rw [← Complex.exp_neg]; congr 1; ring
  have hd : dPhi (fun i => time i + τ) (helper (fun i => time i + τ) data α d') j =
      Complex.exp (τ * α j) • (dPhi time (helper time data α d) j + (τ : ℂ) • (phi time α).col j) := by
    funext i
    have := congrFun (congrFun (phi_shift time τ α) i) j
    rw [shiftD, mul_diagonal] at this
    simp only [dPhi, helper, Pi.smul_apply, Pi.add_apply, smul_eq_mul, Matrix.col_apply]
    rw [this]
    push_cast
    ring
  have hb : (helper (fun i => time i + τ) data α d').b j = (Complex.exp (τ * α j))⁻¹ • (helper time data α d).b j := by
    funext c
    rw [b_shift data h τ d d', hinv]
    rfl
  have hA : jacA (fun i => time i + τ) (helper (fun i => time i + τ) data α d') j = jacA time (helper time data α d) j := by
    have hcol : d.U * d.Uᴴ * vecMulVec ((phi time α).col j) ((helper time data α d).b j) =
        vecMulVec ((phi time α).col j) ((helper time data α d).b j) := by
      obtain ⟨-, -, h3, -⟩ := helper_eq data h d
      rw [h3, mul_vecMulVec]
      congr 1
      have e : phi time α * linv (phi time α) * phi time α = phi time α := by
        rw [Matrix.mul_assoc, linv_mul h, Matrix.mul_one]
      funext i
      have := congrFun (congrFun e i) j
      rw [Matrix.mul_apply] at this
      exact this
    simp only [jacA]
    rw [hd, hb]
    have e : vecMulVec (Complex.exp (τ * α j) • (dPhi time (helper time data α d) j + (τ : ℂ) • (phi time α).col j))
        ((Complex.exp (τ * α j))⁻¹ • (helper time data α d).b j) =
        vecMulVec (dPhi time (helper time data α d) j) ((helper time data α d).b j) +
          (τ : ℂ) • vecMulVec ((phi time α).col j) ((helper time data α d).b j) := by
      ext i c
      simp only [vecMulVec_apply, Pi.smul_apply, Pi.add_apply, smul_eq_mul, Matrix.add_apply, Matrix.smul_apply]
      field_simp
    rw [e]
    have hu : (helper (fun i => time i + τ) data α d').u * ((helper (fun i => time i + τ) data α d').u)ᴴ =
        (helper time data α d).u * ((helper time data α d).u)ᴴ := hP
    rw [hu, Matrix.mul_add, Matrix.mul_smul]
    have hcol' : (helper time data α d).u * ((helper time data α d).u)ᴴ *
      vecMulVec ((phi time α).col j) ((helper time data α d).b j) =
        vecMulVec ((phi time α).col j) ((helper time data α d).b j) := hcol
    rw [hcol']
    abel
  have hG : jacG (fun i => time i + τ) (helper (fun i => time i + τ) data α d') j = jacG time (helper time data α d) j := by
    rw [jacG_eq data h, jacG_eq data (injective_shift h τ), rho_shift data h τ d d', hd, linv_shift]
    have h0 : star ((phi time α).col j) ᵥ* (helper time data α d).rho = 0 := by
      rw [(helper_eq data h d).2.1]
      exact phi_rho data h j
    rw [star_smul, star_add, star_smul, smul_vecMul, add_vecMul, smul_vecMul, h0, smul_zero, add_zero]
    ext i c
    have hs : star (Complex.exp (τ * α j)) ≠ 0 := by simpa using hne
    simp only [vecMulVec_apply, Pi.smul_apply, smul_eq_mul, shiftD, diagonal_mul]
    push_cast
    rw [hinv, star_mul, star_inv₀]
    field_simp
  rw [jacC, jacC, hA, hG]

/-! ### Origin of time -/

theorem optRun_evals (opt : Optimizer m l n) (time : Fin m → ℝ) (data : Matrix (Fin m) (Fin n) ℂ)
    (lib : ∀ α : Fin l → ℂ, Svd (phi time α)) (x0 : Point l) (k : ℕ) (a : Point l)
    (h : a ∈ (optRun opt time data lib x0 k).evals) : a ∈ (optRun opt time data lib x0 (k + 1)).evals := by
  rw [optRun, OState.step]
  split
  · exact h
  · split
    · simp [h]
    · exact h
    · exact h

/-- **C162** (initial guess). What the initial guess is computed from does not depend on the origin of time. -/
theorem C162_initial {t : ℕ} (time : Fin (t + 1) → ℝ) (D : Matrix (Fin q) (Fin (t + 1)) ℂ) (τ : ℝ) :
    preprocessing (fun i => time i + τ) D = preprocessing time D := by
  simp only [preprocessing]
  congr 1
  ext i j
  simp only [slopes, of_apply]
  congr 1
  push_cast
  ring

/-- **C162** (optimisation). If all times are shifted, the optimizer is told the same, asks for the same points and returns
the same point at every step, whatever program it is, as long as the exponentials are independent at the points it visits. -/
theorem C162_run (opt : Optimizer m l n) (time : Fin m → ℝ) (data : Matrix (Fin m) (Fin n) ℂ) (τ : ℝ)
    (lib : ∀ α : Fin l → ℂ, Svd (phi time α)) (lib' : ∀ α : Fin l → ℂ, Svd (phi (fun i => time i + τ) α)) (x0 : Point l)
    (k : ℕ) (h : ∀ a ∈ (optRun opt time data lib x0 k).evals, Injective (phi time (complexAlphas a))) :
    optRun opt (fun i => time i + τ) data lib' x0 k = optRun opt time data lib x0 k := by
  induction k with
  | zero => rfl
  | succ k ih =>
    have hk := fun a ha => h a (optRun_evals opt time data lib x0 k a ha)
    have e := ih hk
    simp only [optRun]
    rw [e]
    simp only [OState.step]
    split
    · rfl
    · rename_i hr
      split
      · rename_i a ha
        have hm : a ∈ (optRun opt time data lib x0 (k + 1)).evals := by
          simp only [optRun, OState.step]
          rw [hr]
          simp [ha]
        have hinj := h a hm
        have : residual (fun i => time i + τ) data lib' a = residual time data lib a := by
          rw [residual, residual, rho_shift data hinj τ (lib (complexAlphas a)) (lib' (complexAlphas a))]
        rw [this]
      · have : jacAnswer (fun i => time i + τ) data lib' (optRun opt time data lib x0 k).evals =
            jacAnswer time data lib (optRun opt time data lib x0 k).evals := by
          simp only [jacAnswer]
          split
          · rfl
          · rename_i a ha
            have hinj := hk a (List.mem_of_getLast? ha)
            funext c p
            simp only [jacobian, jacC_shift data hinj τ (lib (complexAlphas a)) (lib' (complexAlphas a))]
        rw [this]
      · rfl

/-- The modes times amplitudes, scaled. -/
theorem xi_shift {time : Fin m → ℝ} (data : Matrix (Fin m) (Fin q) ℂ) {α : Fin l → ℂ} (h : Injective (phi time α)) (τ : ℝ)
    (d : Svd (phi time α)) (d' : Svd (phi (fun i => time i + τ) α)) (W : Matrix (Fin n) (Fin q) ℂ) (i : Fin n) (j : Fin l) :
    xi W (helper (fun i => time i + τ) data α d').b i j =
      Complex.exp (-τ * α j) * xi W (helper time data α d).b i j := by
  simp only [xi, Matrix.mul_apply, transpose_apply, b_shift data h τ d d', Finset.mul_sum]
  exact Finset.sum_congr rfl fun c _ => by ring

theorem eigenf_scale (X X' : Matrix (Fin n) (Fin l) ℂ) (c : Fin l → ℂ) (h : ∀ i j, X' i j = c j * X i j) (j : Fin l) :
    eigenf X' j = ‖c j‖ * eigenf X j := by
  have : normSq (X'.col j) = ‖c j‖ ^ 2 * normSq (X.col j) := by
    simp only [normSq, Matrix.col_apply, h, Finset.mul_sum, Complex.normSq_eq_norm_sq, norm_mul, mul_pow]
  rw [eigenf, eigenf, this, Real.sqrt_mul (by positivity), Real.sqrt_sq (norm_nonneg _)]

theorem predict_scale (X X' : Matrix (Fin n) (Fin l) ℂ) (c : Fin l → ℂ) (h : ∀ i j, X' i j = c j * X i j)
    (hc : ∀ j, c j ≠ 0) (om om' : Fin l → ℂ) (t t' : ℝ)
    (ht : ∀ j, c j * Complex.exp (om' j * t') = Complex.exp (om j * t)) (i : Fin n) :
    predict (modes X') om' (eigenf X') t' i = predict (modes X) om (eigenf X) t i := by
  have hef := eigenf_scale X X' c h
  simp only [predict]
  congr 1
  funext j
  have hp : ‖c j‖ ≠ 0 := norm_ne_zero_iff.mpr (hc j)
  by_cases h0 : eigenf X j = 0
  · have h1 : eigenf X' j = 0 := by rw [hef j, h0, mul_zero]
    simp [modes, h0, h1]
  · have h1 : eigenf X' j ≠ 0 := by rw [hef j]; exact mul_ne_zero hp h0
    have h0' : (eigenf X j : ℂ) ≠ 0 := by exact_mod_cast h0
    have h1' : (eigenf X' j : ℂ) ≠ 0 := by exact_mod_cast h1
    simp only [modes, h0, h1, if_false, Option.map_some, Option.some.injEq]
    rw [h i j, ← ht j]
    field_simp

/-- **C162** (exponents). With all times shifted the fit returns the same exponents, and the amplitudes are multiplied by
`exp (-Re (alpha) τ)`, where `alpha` is the point evaluated last. -/
theorem C162_exponents (opt : Optimizer m l q) (time : Fin m → ℝ) (data : Matrix (Fin m) (Fin q) ℂ) (τ : ℝ)
    (lib : ∀ α : Fin l → ℂ, Svd (phi time α)) (lib' : ∀ α : Fin l → ℂ, Svd (phi (fun i => time i + τ) α)) (x0 : Point l)
    (W : Matrix (Fin n) (Fin q) ℂ) (k : ℕ)
    (h : ∀ a ∈ (optRun opt time data lib x0 k).evals, Injective (phi time (complexAlphas a)))
    (M : Fin n → Fin l → Option ℂ) (om : Fin l → ℂ) (ef : Fin l → ℝ)
    (hfit : fitRun opt time data lib x0 W k = some (M, om, ef)) :
    ∃ M' ef', fitRun opt (fun i => time i + τ) data lib' x0 W k = some (M', om, ef') ∧
      ∃ a, (optRun opt time data lib x0 k).evals.getLast? = some a ∧
        (∀ j, ef' j = Real.exp (-(complexAlphas a j).re * τ) * ef j) ∧
        ∀ (om' : Fin l → ℂ) (t t' : ℝ) (i : Fin n),
          (∀ j, om' j * t' - τ * complexAlphas a j = om j * t) → predict M' om' ef' t' i = predict M om ef t i := by
  have e := C162_run opt time data τ lib lib' x0 k h
  simp only [fitRun, e] at hfit ⊢
  split at hfit
  · rename_i x a hx ha
    have hinj := h a (List.mem_of_getLast? ha)
    simp only [Option.some.injEq, Prod.mk.injEq] at hfit
    obtain ⟨rfl, rfl, rfl⟩ := hfit
    have hX := xi_shift data hinj τ (lib (complexAlphas a)) (lib' (complexAlphas a)) W
    have hef := eigenf_scale _ _ _ hX
    have hn : ∀ j, ‖Complex.exp (-τ * complexAlphas a j)‖ = Real.exp (-(complexAlphas a j).re * τ) := by
      intro j
      rw [Complex.norm_exp]
      congr 1
      simp
      ring
    refine ⟨_, _, rfl, a, ha, fun j => ?_, fun om' t t' i ht => ?_⟩
    · rw [hef j, hn j]
    · refine predict_scale _ _ _ hX (fun j => Complex.exp_ne_zero _) _ _ _ _ (fun j => ?_) i
      rw [← ht j, ← Complex.exp_add]
      congr 1
      ring
  · cases hfit

/-- **C162** (forecasts, as far as it goes). If the optimizer evaluated the returned point last, the forecast of the shifted fit
at `t + τ` is that of the original fit at `t`. Missing: the other case, see `C162_stale_false`. -/
theorem C162_forecast_partial (opt : Optimizer m l q) (time : Fin m → ℝ) (data : Matrix (Fin m) (Fin q) ℂ) (τ : ℝ)
    (lib : ∀ α : Fin l → ℂ, Svd (phi time α)) (lib' : ∀ α : Fin l → ℂ, Svd (phi (fun i => time i + τ) α)) (x0 : Point l)
    (W : Matrix (Fin n) (Fin q) ℂ) (k : ℕ)
    (h : ∀ a ∈ (optRun opt time data lib x0 k).evals, Injective (phi time (complexAlphas a)))
    (hlast : (optRun opt time data lib x0 k).evals.getLast? = (optRun opt time data lib x0 k).result)
    (M : Fin n → Fin l → Option ℂ) (om : Fin l → ℂ) (ef : Fin l → ℝ)
    (hfit : fitRun opt time data lib x0 W k = some (M, om, ef)) :
    ∃ M' ef', fitRun opt (fun i => time i + τ) data lib' x0 W k = some (M', om, ef') ∧
      ∀ (t : ℝ) (i : Fin n), predict M' om ef' (t + τ) i = predict M om ef t i := by
  obtain ⟨M', ef', h1, a, ha, -, hp⟩ := C162_exponents opt time data τ lib lib' x0 W k h M om ef hfit
  refine ⟨M', ef', h1, fun t i => hp om t (t + τ) i fun j => ?_⟩
  have : om = complexAlphas a := by
    rw [ha] at hlast
    simp only [fitRun, ← hlast, ha, Option.some.injEq, Prod.mk.injEq] at hfit
    exact hfit.2.1.symm
  rw [this]
  push_cast
  ring

/-- A program that evaluates two points and returns the first, as an optimizer does whose last step was rejected. -/
noncomputable def rejecting : Optimizer 1 1 1 := fun x0 ans =>
  match ans.length with
  | 0 => .inl (.rho x0)
  | 1 => .inl (.rho 0)
  | _ => .inr x0

theorem phi_zero (time : Fin 1 → ℝ) : phi time (complexAlphas (0 : Point 1)) = 1 := by
  ext i j
  obtain rfl : i = 0 := Subsingleton.elim _ _
  obtain rfl : j = 0 := Subsingleton.elim _ _
  have : complexAlphas (0 : Point 1) 0 = 0 := rfl
  simp [phi, this]

/-- **C162** is false if the optimizer evaluated another point last: the forecast depends on the origin of time. One sample `1` at
time `0` with the exponent `1` returned and `0` evaluated last is forecast as `1` at time `0`; recorded at time `1` instead it
is forecast as `e` at time `1` (disagreement D215). -/
theorem C162_stale_false : ∃ (opt : Optimizer 1 1 1) (time : Fin 1 → ℝ) (data : Matrix (Fin 1) (Fin 1) ℂ) (τ : ℝ) (x0 : Point 1)
    (k : ℕ), ∀ (lib : ∀ α : Fin 1 → ℂ, Svd (phi time α)) (lib' : ∀ α : Fin 1 → ℂ, Svd (phi (fun i => time i + τ) α)),
      (∀ a ∈ (optRun opt time data lib x0 k).evals, Injective (phi time (complexAlphas a))) ∧
      ∃ M om ef M' ef', fitRun opt time data lib x0 (1 : Matrix (Fin 1) (Fin 1) ℂ) k = some (M, om, ef) ∧
        fitRun opt (fun i => time i + τ) data lib' x0 (1 : Matrix (Fin 1) (Fin 1) ℂ) k = some (M', om, ef') ∧
        predict M om ef 0 0 = some 1 ∧ predict M' om ef' (0 + τ) 0 ≠ some 1 := by
  let x0 : Point 1 := Sum.elim 1 0
  refine ⟨rejecting, fun _ => 0, 1, 1, x0, 3, fun lib lib' => ?_⟩
  have hinj : ∀ (time : Fin 1 → ℝ) (α : Fin 1 → ℂ), Injective (phi time α) := by
    intro time α v hv
    funext i
    obtain rfl : i = 0 := Subsingleton.elim _ _
    have := congrFun hv 0
    simpa [mulVec, dotProduct, phi] using this
  have hX : ∀ (time : Fin 1 → ℝ) (d : Svd (phi time (complexAlphas (0 : Point 1)))),
      xi (1 : Matrix (Fin 1) (Fin 1) ℂ) (helper time 1 (complexAlphas 0) d).b = 1 := by
    intro time d
    rw [xi, (helper_eq 1 (hinj _ _) d).1, phi_zero, linv]
    simp
  let X := xi (1 : Matrix (Fin 1) (Fin 1) ℂ) (helper (fun _ => 0) 1 (complexAlphas 0) (lib (complexAlphas 0))).b
  let X' := xi (1 : Matrix (Fin 1) (Fin 1) ℂ)
    (helper (fun i => (fun _ => (0 : ℝ)) i + 1) 1 (complexAlphas 0) (lib' (complexAlphas 0))).b
  have e : X = 1 := hX _ _
  have e' : X' = 1 := hX _ _
  refine ⟨fun a _ => hinj _ _, modes X, complexAlphas x0, eigenf X, modes X', eigenf X', rfl, rfl, ?_, ?_⟩
  · rw [e, predict_eq _ (fun j h => by simpa using congrFun h j)]
    simp
  · rw [e', predict_eq _ (fun j h => by simpa using congrFun h j)]
    have : complexAlphas x0 0 = 1 := rfl
    simp only [Finset.univ_unique, Fin.default_eq_zero, Finset.sum_singleton, Matrix.one_apply_eq, one_mul, this, zero_add,
      Complex.ofReal_one, ne_eq, Option.some.injEq]
    intro h
    have := congrArg (fun z : ℂ => ‖z‖) h
    simp [Complex.norm_exp] at this

/-! ### Unit of time -/

/-- **C162** (objective). In another unit of time the residual is the same function of the exponents in that unit. -/
theorem C162_unit_residual (time : Fin m → ℝ) (data : Matrix (Fin m) (Fin n) ℂ) (c : ℝ) (hc : c ≠ 0)
    (lib : ∀ α : Fin l → ℂ, Svd (phi time α)) (lib' : ∀ α : Fin l → ℂ, Svd (phi (fun i => c * time i) α)) (a : Point l)
    (h : Injective (phi time (complexAlphas a))) :
    residual (fun i => c * time i) data lib' (fun p => a p / c) = residual time data lib a := by
  have e : phi (fun i => c * time i) (complexAlphas fun p => a p / c) = phi time (complexAlphas a) := by
    ext i j
    simp only [phi, of_apply]
    congr 1
    have : complexAlphas (fun p => a p / c) j = complexAlphas a j / c := by
      apply Complex.ext <;> simp [complexAlphas]
    have hc' : (c : ℂ) ≠ 0 := by exact_mod_cast hc
    rw [this]
    push_cast
    field_simp
  rw [residual, residual, (helper_eq data h _).2.1, (helper_eq data (e ▸ h) _).2.1, e]

/-- **C162** (initial guess in another unit). Multiplying all times by `c` multiplies the matrix whose eigenvalues the
optimisation starts from by `c`. -/
theorem C162_unit_initial_partial {t r : ℕ} (time : Fin (t + 1) → ℝ) (D : Matrix (Fin q) (Fin (t + 1)) ℂ) (c : ℝ) (hc : 0 < c)
    (U : Matrix (Fin q) (Fin r) ℂ) (s : Fin r → ℝ) (V : Matrix (Fin t) (Fin r) ℂ) (h : IsSVD (initialSvdOf time D) U s V) :
    IsSVD (initialSvdOf (fun i => c * time i) D) U (fun i => s i / c) V ∧
      initialMatrix (fun i => c * time i) D U (fun i => s i / c) V = (c : ℂ) • initialMatrix time D U s V := by
  have hc' : (c : ℂ) ≠ 0 := by exact_mod_cast hc.ne'
  have hr : ∀ (d : ℝ), (rdiag fun i => d * s i) = (d : ℂ) • rdiag s := by
    intro d
    ext i j
    by_cases hij : i = j <;> simp [rdiag, hij]
  refine ⟨⟨?_, h.u, h.v, fun i => div_nonneg (h.nonneg i) hc.le⟩, ?_⟩
  · have e : initialSvdOf (fun i => c * time i) D = ((c⁻¹ : ℝ) : ℂ) • initialSvdOf time D := by
      ext i j
      simp only [initialSvdOf, preprocessing, slopes, of_apply, Matrix.smul_apply, smul_eq_mul]
      push_cast
      rw [← mul_sub, div_mul_eq_div_div_swap]
      field_simp
    rw [e, show (fun i => s i / c) = fun i => c⁻¹ * s i by funext i; field_simp, hr, h.eq, Matrix.mul_smul, Matrix.smul_mul]
  · have hi : (rdiag fun i => (s i / c)⁻¹) = (c : ℂ) • rdiag fun i => (s i)⁻¹ := by
      ext i j
      by_cases hij : i = j
      · subst hij
        simp [rdiag, inv_div, div_eq_mul_inv]
      · simp [rdiag, hij]
    simp only [initialMatrix, aApprox, preprocessing]
    rw [hi, Matrix.mul_smul, Matrix.mul_smul]

/-- **C162** is false for the unit of time: the samples `1, 3` at the times `0, 1/2` are started at the exponent `1/2`. In half
the unit the times are `0, 1`, the exponent `1/2` is `1/4`, and the optimisation is started at `1` (disagreement D216). -/
theorem C162_unit_false : ∃ (time : Fin 2 → ℝ) (D : Matrix (Fin 1) (Fin 2) ℂ) (U V : Matrix (Fin 1) (Fin 1) ℂ)
    (s s' : Fin 1 → ℝ), IsSVD (initialSvdOf time D) U s V ∧ IsSVD (initialSvdOf (fun i => 2 * time i) D) U s' V ∧
      initialMatrix time D U s V = !![1 / 2] ∧ initialMatrix (fun i => 2 * time i) D U s' V = !![1] := by
  have hM : initialMatrix (![0, 1 / 2] : Fin 2 → ℝ) (!![1, 3] : Matrix (Fin 1) (Fin 2) ℂ) 1 (fun _ : Fin 1 => 4) 1 =
      !![1 / 2] := by
    ext i j
    obtain rfl : i = 0 := Subsingleton.elim _ _
    obtain rfl : j = 0 := Subsingleton.elim _ _
    simp [initialMatrix, aApprox, preprocessing, means, rdiag]
    norm_num
  have hS : IsSVD (initialSvdOf (![0, 1 / 2] : Fin 2 → ℝ) (!![1, 3] : Matrix (Fin 1) (Fin 2) ℂ)) 1 (fun _ : Fin 1 => 4) 1 := by
    refine ⟨?_, by simp, by simp, by simp⟩
    ext i j
    obtain rfl : i = 0 := Subsingleton.elim _ _
    obtain rfl : j = 0 := Subsingleton.elim _ _
    simp [initialSvdOf, preprocessing, slopes, rdiag]
    norm_num
  obtain ⟨h1, h2⟩ := C162_unit_initial_partial _ _ 2 two_pos _ _ _ hS
  refine ⟨_, _, 1, 1, _, _, hS, h1, hM, ?_⟩
  rw [h2, hM]
  ext i j
  obtain rfl : i = 0 := Subsingleton.elim _ _
  obtain rfl : j = 0 := Subsingleton.elim _ _
  simp

/-- `C162_exponents` and `C162_forecast_partial` apply: three samples at the times `0, 1, 2`, two exponents `0` and `1`, an optimizer
that evaluates its starting point, asks for the Jacobian and returns the starting point. -/
example : ∃ (opt : Optimizer 3 2 1) (lib : ∀ α : Fin 2 → ℂ, Svd (phi (fun i : Fin 3 => (i : ℝ)) α)) (x0 : Point 2),
    (∀ a ∈ (optRun opt _ !![1; 2; 5] lib x0 3).evals, Injective (phi (fun i : Fin 3 => (i : ℝ)) (complexAlphas a))) ∧
    (optRun opt _ !![1; 2; 5] lib x0 3).evals.getLast? = (optRun opt _ !![1; 2; 5] lib x0 3).result ∧
    (optRun opt _ !![1; 2; 5] lib x0 3).result = some x0 ∧
    ∃ r, fitRun opt _ !![1; 2; 5] lib x0 (1 : Matrix (Fin 1) (Fin 1) ℂ) 3 = some r := by
  have hl : ∀ α : Fin 2 → ℂ, Nonempty (Svd (phi (fun i : Fin 3 => (i : ℝ)) α)) := by
    intro α
    obtain ⟨U, s, V, h, -⟩ := exists_svd (phi (fun i : Fin 3 => (i : ℝ)) α)
    exact ⟨⟨U, s, V, h⟩⟩
  refine ⟨fun x0 ans => match ans.length with
    | 0 => .inl (.rho x0)
    | 1 => .inl (.jac x0)
    | _ => .inr x0, fun α => (hl α).some, Sum.elim ![0, 1] 0, ?_, rfl, rfl, _, rfl⟩
  intro a ha
  have : a = Sum.elim ![0, 1] 0 := by simpa [optRun, OState.step] using ha
  subst this
  refine phi_injective 0 1 _ (fun i => by simp) _ ?_ (by norm_num)
  have hne : Complex.exp 1 ≠ 1 := by
    intro h
    have := congrArg (fun z : ℂ => ‖z‖) h
    simp [Complex.norm_exp] at this
  have e0 : complexAlphas (Sum.elim ![0, 1] 0 : Point 2) 0 = 0 := rfl
  have e1 : complexAlphas (Sum.elim ![0, 1] 0 : Point 2) 1 = 1 := rfl
  intro i j hij
  have h0 : Complex.exp ((1 : ℝ) * complexAlphas (Sum.elim ![0, 1] 0 : Point 2) 0) = 1 := by rw [e0]; simp
  have h1 : Complex.exp ((1 : ℝ) * complexAlphas (Sum.elim ![0, 1] 0 : Point 2) 1) = Complex.exp 1 := by rw [e1]; simp
  fin_cases i <;> fin_cases j
  · rfl
  · exact absurd (h1.symm.trans (hij.symm.trans h0)) hne
  · exact absurd (h1.symm.trans (hij.trans h0)) hne
  · rfl

end Verif.VarPro
