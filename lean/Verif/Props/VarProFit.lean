import Verif.Props.VarPro
import Verif.Model.Rank
import Mathlib.Analysis.SpecialFunctions.Log.Basic
import Mathlib.Data.Rat.Floor
import Batteries.Lean.Except

/-!
# Properties C90-C93: the fit of `VarProDMD`
-/

set_option autoImplicit false

namespace Verif.VarPro

open Verif Verif.LinAlg Matrix

variable {m l n q : ℕ}

/-! ### Forecast -/

theorem frobSq_transpose {a b : Type} [Fintype a] [Fintype b] (A : Matrix a b ℂ) : frobSq Aᵀ = frobSq A := by
  simp only [frobSq, transpose_apply]
  exact Finset.sum_comm

/-- Modes, exponents and amplitudes multiply to the coefficients. -/
theorem predict_eq (X : Matrix (Fin n) (Fin l) ℂ) (hX : ∀ j, X.col j ≠ 0) (om : Fin l → ℂ) (t : ℝ)
    (i : Fin n) : predict (modes X) om (eigenf X) t i = some (∑ j, X i j * Complex.exp (om j * t)) := by
  have h0 : ∀ j, eigenf X j ≠ 0 := by
    intro j h
    rw [eigenf, Real.sqrt_eq_zero (normSq_nonneg _)] at h
    exact hX j ((normSq_eq_zero _).mp h)
  have h1 : ∀ j, ((modes X i j).map fun z => z * (Complex.exp (om j * t) * (eigenf X j : ℂ))) =
      some (X i j * Complex.exp (om j * t)) := by
    intro j
    have hc : (eigenf X j : ℂ) ≠ 0 := by exact_mod_cast h0 j
    simp only [modes, h0 j, if_false, Option.map_some, Option.some.injEq]
    field_simp
  simp only [predict, nanSum, h1]
  simp

/-- **C90** (the forecast is the best fit). Let the last point `least_squares` evaluated be the one
it returns, the singular values of its exponentials be nonzero and no exponential be unused. At
the selected times the forecast is the best approximation of the (truncated) snapshots `W D` by
combinations of the exponentials, in the Frobenius norm. -/
theorem C90_forecast (time : Fin m → ℝ) (W : Matrix (Fin n) (Fin q) ℂ) (hW : Wᴴ * W = 1)
    (D : Matrix (Fin q) (Fin m) ℂ) (lib : ∀ α : Fin l → ℂ, Svd (phi time α)) (run : Run l)
    (hlast : run.evals.getLast run.nonempty = run.x) (hs : ∀ i, (lib (omegas run)).s i ≠ 0)
    (hnz : ∀ j, (xi W (finalB time Dᵀ lib run)).col j ≠ 0) :
    ∃ F : Matrix (Fin n) (Fin m) ℂ,
      (∀ i t, predict (modes (xi W (finalB time Dᵀ lib run))) (omegas run)
        (eigenf (xi W (finalB time Dᵀ lib run))) (time t) i = some (F i t)) ∧
      ∀ C : Matrix (Fin n) (Fin l) ℂ, frobSq (W * D - F) ≤
        frobSq (W * D - C * Matrix.of fun j t => Complex.exp (omegas run j * time t)) := by
  set b := finalB time Dᵀ lib run with hb
  have hb' : b = (helper time Dᵀ (omegas run) (lib (omegas run))).b := by
    rw [hb, finalB, omegas, hlast]
  have hΨ : (Matrix.of fun j t => Complex.exp (omegas run j * time t) : Matrix (Fin l) (Fin m) ℂ) =
      (phi time (omegas run))ᵀ := by
    ext j t; simp [phi, mul_comm]
  refine ⟨W * (phi time (omegas run) * b)ᵀ, fun i t => ?_, fun C => ?_⟩
  · rw [predict_eq _ hnz]
    congr 1
    rw [transpose_mul, ← Matrix.mul_assoc, Matrix.mul_apply]
    refine Finset.sum_congr rfl fun j _ => ?_
    simp [xi, phi, mul_comm]
  · obtain ⟨r1, r2⟩ := C87_residual time Dᵀ (omegas run) (lib (omegas run)) hs
    have e1 : frobSq (W * D - W * (phi time (omegas run) * b)ᵀ) =
        frobSq (helper time Dᵀ (omegas run) (lib (omegas run))).rho := by
      rw [← Matrix.mul_sub]
      have h := frobSq_proj hW (0 : Matrix (Fin n) (Fin m) ℂ) (D - (phi time (omegas run) * b)ᵀ)
      simp only [Matrix.mul_zero, sub_zero, zero_sub] at h
      have hn : ∀ {a c : Type} [Fintype a] [Fintype c] (A : Matrix a c ℂ), frobSq (-A) = frobSq A := by
        intro a c _ _ A; simp [frobSq, Complex.normSq_neg]
      rw [hn, hn] at h
      have h0 : frobSq (0 : Matrix (Fin n) (Fin m) ℂ) = 0 := by simp [frobSq]
      rw [h, h0, zero_add, r1, ← frobSq_transpose, transpose_sub, transpose_transpose, hb']
      rfl
    rw [e1, hΨ]
    refine (r2 (Wᴴ * C)ᵀ).trans ?_
    have e2 : frobSq (Dᵀ - phi time (omegas run) * (Wᴴ * C)ᵀ) =
        frobSq (Wᴴ * (W * D - C * (phi time (omegas run))ᵀ)) := by
      rw [← frobSq_transpose, transpose_sub, transpose_transpose, transpose_mul, transpose_transpose,
        Matrix.mul_sub, ← Matrix.mul_assoc, hW, Matrix.one_mul, Matrix.mul_assoc]
    have e3 := frobSq_proj_le hW (W * D - C * (phi time (omegas run))ᵀ)
    have e4 := frobSq_nonneg (W * D - C * (phi time (omegas run))ᵀ -
      W * (Wᴴ * (W * D - C * (phi time (omegas run))ᵀ)))
    have e5 : (Matrix.of fun i j => Complex.exp (time i * omegas run j) : Matrix (Fin m) (Fin l) ℂ) =
      phi time (omegas run) := rfl
    rw [e5, e2]
    linarith

/-- **C90** (with projection). If the retained singular triples reproduce the snapshots `X`, the fit
in the projected coordinates `Σ V^H` is the best approximation of the snapshots themselves. -/
theorem C90_snapshots (time : Fin m → ℝ) (X : Matrix (Fin n) (Fin m) ℂ) (U : Matrix (Fin n) (Fin q) ℂ)
    (s : Fin q → ℝ) (V : Matrix (Fin m) (Fin q) ℂ) (hX : IsSVD X U s V)
    (lib : ∀ α : Fin l → ℂ, Svd (phi time α)) (run : Run l)
    (hlast : run.evals.getLast run.nonempty = run.x) (hs : ∀ i, (lib (omegas run)).s i ≠ 0)
    (hnz : ∀ j, (xi U (finalB time (projected s V)ᵀ lib run)).col j ≠ 0) :
    ∃ F : Matrix (Fin n) (Fin m) ℂ,
      (∀ i t, predict (modes (xi U (finalB time (projected s V)ᵀ lib run))) (omegas run)
        (eigenf (xi U (finalB time (projected s V)ᵀ lib run))) (time t) i = some (F i t)) ∧
      ∀ C : Matrix (Fin n) (Fin l) ℂ, frobSq (X - F) ≤
        frobSq (X - C * Matrix.of fun j t => Complex.exp (omegas run j * time t)) := by
  have h := C90_forecast time U hX.u (projected s V) lib run hlast hs hnz
  have e : U * projected s V = X := by rw [projected, ← Matrix.mul_assoc, ← hX.eq]
  rwa [e] at h

/-- **C90** (unused exponentials). If an exponential has zero coefficients, its mode is `0 / 0` and
every forecast is NaN. -/
theorem C90_unused (X : Matrix (Fin n) (Fin l) ℂ) (j : Fin l) (hX : X.col j = 0) (om : Fin l → ℂ) (t : ℝ)
    (i : Fin n) : predict (modes X) om (eigenf X) t i = none := by
  have h0 : eigenf X j = 0 := by
    rw [eigenf, (normSq_eq_zero _).mpr hX, Real.sqrt_zero]
  have h1 : ((modes X i j).map fun z => z * (Complex.exp (om j * t) * (eigenf X j : ℂ))) = none := by
    simp [modes, h0]
  simp only [predict, nanSum]
  rw [if_pos ⟨j, h1⟩]

/-- One exponential: the coefficients written out. -/
theorem b_one (time : Fin m → ℝ) (hm : 0 < m) (data : Matrix (Fin m) (Fin n) ℂ) (α : Fin 1 → ℂ)
    (d : Svd (phi time α)) (c : Fin n) :
    (helper time data α d).b 0 c = (∑ k, star (Complex.exp (time k * α 0)) * data k c) /
        ((∑ k, Complex.normSq (Complex.exp (time k * α 0)) : ℝ) : ℂ) := by
  have hinj : Injective (phi time α) := by
    intro v hv
    have := congrFun hv ⟨0, hm⟩
    funext j
    obtain rfl : j = 0 := Subsingleton.elim _ _
    simpa [mulVec, dotProduct, phi, Complex.exp_ne_zero] using this
  have h1 := congrFun (congrFun (C87_residual time data α d (svd_ne_zero hinj d.isSVD)).1 ⟨0, hm⟩) c
  rw [rho_one time hm] at h1
  simp only [Matrix.sub_apply, Matrix.mul_apply, Matrix.of_apply, Finset.univ_unique,
    Finset.sum_singleton, Fin.default_eq_zero] at h1
  have h2 := sub_right_inj.mp h1
  rw [mul_div_assoc] at h2
  exact (mul_left_cancel₀ (Complex.exp_ne_zero _) h2).symm

/-- **C90** is false if `least_squares` ends on a rejected step. For the samples `1, 1` at times
`0, 1` let the exponents `log 2` and then `-log 3` be evaluated. The first has the smaller
residual and is returned, but the coefficient is that of the second: the forecast at time 0 is
`6/5`, and the error (squared) is 2 where the coefficient `3/5` has `1/5` (disagreement D83). -/
theorem C90_stale_false (lib : ∀ α : Fin 1 → ℂ, Svd (phi ![0, 1] α)) :
    ∃ (D : Matrix (Fin 1) (Fin 2) ℂ) (run : Run 1) (F : Matrix (Fin 1) (Fin 2) ℂ),
      (∀ a ∈ run.evals, ∑ p, residual ![0, 1] Dᵀ lib run.x p ^ 2 ≤ ∑ p, residual ![0, 1] Dᵀ lib a p ^ 2) ∧
      (∀ i t, predict (modes (xi (1 : Matrix (Fin 1) (Fin 1) ℂ) (finalB ![0, 1] Dᵀ lib run))) (omegas run)
        (eigenf (xi (1 : Matrix (Fin 1) (Fin 1) ℂ) (finalB ![0, 1] Dᵀ lib run))) ((![0, 1] : Fin 2 → ℝ) t) i = some (F i t)) ∧
      F 0 0 = 6 / 5 ∧ frobSq (D - F) = 2 ∧
      ∃ C : Matrix (Fin 1) (Fin 1) ℂ, frobSq (D - C * Matrix.of fun j t =>
        Complex.exp (omegas run j * ((![0, 1] : Fin 2 → ℝ) t))) = 1 / 5 := by
  let a₁ : Fin 1 ⊕ Fin 1 → ℝ := Sum.elim (fun _ => Real.log 2) fun _ => 0
  let a₂ : Fin 1 ⊕ Fin 1 → ℝ := Sum.elim (fun _ => -Real.log 3) fun _ => 0
  have c1 : complexAlphas a₁ 0 = (Real.log 2 : ℝ) := rfl
  have c2 : complexAlphas a₂ 0 = (-Real.log 3 : ℝ) := rfl
  have x1 : Complex.exp (Real.log 2 : ℝ) = 2 := by
    rw [← Complex.ofReal_exp, Real.exp_log (by norm_num)]; norm_num
  have x2 : Complex.exp (-Real.log 3 : ℝ) = 1 / 3 := by
    rw [← Complex.ofReal_exp, Real.exp_neg, Real.exp_log (by norm_num)]; norm_num
  have x1' : Complex.exp (Complex.log 2) = 2 := Complex.exp_log (by norm_num)
  have x2' : Complex.exp (-Complex.log 3) = 1 / 3 := by
    rw [Complex.exp_neg, Complex.exp_log (by norm_num)]; norm_num
  let D : Matrix (Fin 1) (Fin 2) ℂ := !![1, 1]
  let run : Run 1 := ⟨[a₁, a₂], by simp, a₁, by simp⟩
  have hb : finalB ![0, 1] Dᵀ lib run 0 0 = 6 / 5 := by
    have e : finalB ![0, 1] Dᵀ lib run =
      (helper ![0, 1] Dᵀ (complexAlphas a₂) (lib (complexAlphas a₂))).b := rfl
    rw [e, b_one _ (by norm_num)]
    simp only [Fin.sum_univ_two, Matrix.cons_val_zero, Matrix.cons_val_one, Complex.ofReal_zero,
      Complex.ofReal_one, zero_mul, one_mul, c2, x2, Complex.exp_zero]
    simp [D, Complex.normSq_apply]
    norm_num
  have hX : ∀ j, (xi (1 : Matrix (Fin 1) (Fin 1) ℂ) (finalB ![0, 1] Dᵀ lib run)).col j ≠ 0 := by
    intro j h
    obtain rfl : j = 0 := Subsingleton.elim _ _
    have := congrFun h 0
    simp [xi, hb] at this
  have r1 : ∀ p, (helper ![0, 1] Dᵀ (complexAlphas a₁) (lib (complexAlphas a₁))).rho p 0 = ![2 / 5, -1 / 5] p := by
    intro p
    rw [rho_one _ (by norm_num)]
    simp only [Fin.sum_univ_two, Matrix.cons_val_zero, Matrix.cons_val_one, Complex.ofReal_zero,
      Complex.ofReal_one, zero_mul, one_mul, c1, x1, Complex.exp_zero]
    fin_cases p <;> simp [D, x1', Complex.normSq_apply] <;> norm_num
  have r2 : ∀ p, (helper ![0, 1] Dᵀ (complexAlphas a₂) (lib (complexAlphas a₂))).rho p 0 = ![-1 / 5, 3 / 5] p := by
    intro p
    rw [rho_one _ (by norm_num)]
    simp only [Fin.sum_univ_two, Matrix.cons_val_zero, Matrix.cons_val_one, Complex.ofReal_zero,
      Complex.ofReal_one, zero_mul, one_mul, c2, x2, Complex.exp_zero]
    fin_cases p <;> simp [D, x2', Complex.normSq_apply] <;> norm_num
  refine ⟨D, run, Matrix.of fun _ t => 6 / 5 * 2 ^ (t : ℕ), ?_, ?_, ?_, ?_, ?_⟩
  · have q1 : ∑ p, residual ![0, 1] Dᵀ lib a₁ p ^ 2 = 1 / 5 := by
      rw [residual, sum_flat]
      simp only [frobSq, Finset.univ_unique, Finset.sum_singleton, Fin.default_eq_zero, r1,
        Fin.sum_univ_two, Complex.normSq_apply]
      simp; norm_num
    have q2 : ∑ p, residual ![0, 1] Dᵀ lib a₂ p ^ 2 = 2 / 5 := by
      rw [residual, sum_flat]
      simp only [frobSq, Finset.univ_unique, Finset.sum_singleton, Fin.default_eq_zero, r2,
        Fin.sum_univ_two, Complex.normSq_apply]
      simp; norm_num
    intro a ha
    have hx : run.x = a₁ := rfl
    rw [hx, q1]
    rcases List.mem_pair.mp ha with rfl | rfl
    · rw [q1]
    · rw [q2]; norm_num
  · intro i t
    rw [predict_eq _ hX]
    obtain rfl : i = 0 := Subsingleton.elim _ _
    have ho : omegas run 0 = (Real.log 2 : ℝ) := rfl
    fin_cases t
    · simp [xi, hb]
    · simp [xi, hb, ho, x1']
  · simp
  · simp [frobSq, D, Fin.sum_univ_two, Complex.normSq_apply]
    norm_num
  · refine ⟨!![3 / 5], ?_⟩
    have ho : omegas run 0 = (Real.log 2 : ℝ) := rfl
    simp only [frobSq, Finset.univ_unique, Finset.sum_singleton, Fin.default_eq_zero, Fin.sum_univ_two,
      Matrix.sub_apply, Matrix.mul_apply, Matrix.of_apply, Matrix.cons_val_zero, Matrix.cons_val_one, ho,
      Complex.ofReal_zero, Complex.ofReal_one, mul_zero, mul_one, x1, Complex.exp_zero, D,
      Complex.normSq_apply]
    norm_num

/-- Instance of the hypotheses of `C90_forecast`: the samples `1, 1` at times `0, 1`, one evaluation
at the exponent 1. -/
example (lib : ∀ α : Fin 1 → ℂ, Svd (phi ![0, 1] α)) : ∃ run : Run 1,
    run.evals.getLast run.nonempty = run.x ∧ (∀ i, (lib (omegas run)).s i ≠ 0) ∧
    ∀ j, (xi (1 : Matrix (Fin 1) (Fin 1) ℂ)
      (finalB ![0, 1] (!![1, 1] : Matrix (Fin 1) (Fin 2) ℂ)ᵀ lib run)).col j ≠ 0 := by
  let a₁ : Fin 1 ⊕ Fin 1 → ℝ := Sum.elim (fun _ => 1) fun _ => 0
  let run : Run 1 := ⟨[a₁], by simp, a₁, by simp⟩
  refine ⟨run, rfl, ?_, ?_⟩
  · apply svd_ne_zero _ (lib (omegas run)).isSVD
    refine phi_injective 0 1 _ (fun i => ?_) _ (fun i j h => Subsingleton.elim _ _) (by norm_num)
    fin_cases i <;> simp
  · intro j h
    obtain rfl : j = 0 := Subsingleton.elim _ _
    have h := congrFun h 0
    have e : finalB ![0, 1] (!![1, 1] : Matrix (Fin 1) (Fin 2) ℂ)ᵀ lib run =
      (helper ![0, 1] (!![1, 1] : Matrix (Fin 1) (Fin 2) ℂ)ᵀ (complexAlphas a₁) (lib (complexAlphas a₁))).b := rfl
    have c1 : complexAlphas a₁ 0 = ((1 : ℝ) : ℂ) := rfl
    have hc : (xi (1 : Matrix (Fin 1) (Fin 1) ℂ)
        (finalB ![0, 1] (!![1, 1] : Matrix (Fin 1) (Fin 2) ℂ)ᵀ lib run)).col 0 0 =
        finalB ![0, 1] (!![1, 1] : Matrix (Fin 1) (Fin 2) ℂ)ᵀ lib run 0 0 := by simp [xi]
    rw [hc, e, b_one _ (by norm_num)] at h
    simp only [Fin.sum_univ_two, Matrix.cons_val_zero, Matrix.cons_val_one, Complex.ofReal_zero,
      Complex.ofReal_one, zero_mul, one_mul, c1, Complex.exp_zero] at h
    have hp := Real.exp_pos 1
    have hre : (Complex.exp 1).re = Real.exp 1 := by
      rw [← Complex.ofReal_one, ← Complex.ofReal_exp, Complex.ofReal_re]
    rcases div_eq_zero_iff.mp h with h1 | h1
    · have := congrArg Complex.re h1
      simp [hre] at this
      linarith
    · have := Complex.ofReal_eq_zero.mp h1
      rw [Complex.normSq_one] at this
      linarith [Complex.normSq_nonneg (Complex.exp 1)]

/-! ### Initial guess -/

/-- **C91** (initial guess, as far as it goes). If the slopes are the image of the means under an
invertible matrix `A` (the trapezoidal rule holds exactly) and the slopes have full row rank, the
eigenvalues used to start the optimisation are the reciprocals of eigenvalues of `A`. Missing: they
should be the eigenvalues themselves, see `C91_initial_false`. -/
theorem C91_initial_partial {t : ℕ} (time : Fin (t + 1) → ℝ) (D : Matrix (Fin q) (Fin (t + 1)) ℂ)
    (A : Matrix (Fin q) (Fin q) ℂ) (hA : IsUnit A.det)
    (hZ : ∀ i (j : Fin t), (D i j.succ - D i j.castSucc) / (time j.succ - time j.castSucc) =
      ∑ k, A i k * ((D k j.castSucc + D k j.succ) / 2))
    (U : Matrix (Fin q) (Fin q) ℂ) (s : Fin q → ℝ) (V : Matrix (Fin t) (Fin q) ℂ)
    (h : IsSVD (initialSvdOf time D) U s V) (hs : ∀ i, s i ≠ 0) (om : ℂ) (w : Fin q → ℂ) (hw : w ≠ 0)
    (hom : Eig (initialMatrix time D U s V) om w) :
    om ≠ 0 ∧ ∃ v, v ≠ 0 ∧ Eig A om⁻¹ v := by
  have hZ' : initialSvdOf time D = A * means D := by
    ext i j
    rw [Matrix.mul_apply]
    exact hZ i j
  have hmean : means D = A⁻¹ * initialSvdOf time D := by
    rw [hZ', ← Matrix.mul_assoc, nonsing_inv_mul _ hA, Matrix.one_mul]
  have hM : initialMatrix time D U s V = Uᴴ * A⁻¹ * U := by
    have e : initialMatrix time D U s V = Uᴴ * means D * (V * rdiag fun i => (s i)⁻¹) := rfl
    rw [e, hmean]
    have := Compressed.svd_mul_v h.eq h.v hs
    calc Uᴴ * (A⁻¹ * initialSvdOf time D) * (V * rdiag fun i => (s i)⁻¹)
        = Uᴴ * A⁻¹ * (initialSvdOf time D * V * rdiag fun i => (s i)⁻¹) := by simp only [Matrix.mul_assoc]
      _ = _ := by rw [this]
  have hU : U * Uᴴ = 1 := mul_eq_one_comm.mp h.u
  have hv : U *ᵥ w ≠ 0 := by
    intro h0
    apply hw
    have := congrArg (fun x => Uᴴ *ᵥ x) h0
    simpa [mulVec_mulVec, h.u] using this
  have hinv : A⁻¹ *ᵥ (U *ᵥ w) = om • (U *ᵥ w) := by
    rw [Eig, hM] at hom
    have := congrArg (fun x => U *ᵥ x) hom
    simp only [mulVec_mulVec, mulVec_smul] at this
    rw [← Matrix.mul_assoc, ← Matrix.mul_assoc, hU, Matrix.one_mul] at this
    rw [mulVec_mulVec, this]
  have hA1 : U *ᵥ w = om • (A *ᵥ (U *ᵥ w)) := by
    have := congrArg (fun x => A *ᵥ x) hinv
    simp only [mulVec_mulVec, mulVec_smul] at this
    rw [← Matrix.mul_assoc, mul_nonsing_inv _ hA, Matrix.one_mul] at this
    rw [mulVec_mulVec]; exact this
  have h0 : om ≠ 0 := by
    rintro rfl
    rw [zero_smul] at hA1
    exact hv hA1
  refine ⟨h0, U *ᵥ w, hv, ?_⟩
  rw [Eig]
  conv_rhs => rw [hA1]
  rw [smul_smul, inv_mul_cancel₀ h0, one_smul]

/-- **C91** is false: the samples `1, 3` at times `0, 1/2` satisfy the trapezoidal rule with the
rate 2, but the optimisation is started at `1/2` (disagreement D84). -/
theorem C91_initial_false : ∃ (time : Fin 2 → ℝ) (D : Matrix (Fin 1) (Fin 2) ℂ) (U V : Matrix (Fin 1) (Fin 1) ℂ)
    (s : Fin 1 → ℝ), (D 0 1 - D 0 0) / (time 1 - time 0) = 2 * ((D 0 0 + D 0 1) / 2) ∧
    IsSVD (initialSvdOf time D) U s V ∧ (∀ i, s i ≠ 0) ∧ Eig (initialMatrix time D U s V) (1 / 2) ![1] ∧
    ¬ ∃ w, w ≠ 0 ∧ Eig (initialMatrix time D U s V) 2 w := by
  have hM : initialMatrix (![0, 1 / 2] : Fin 2 → ℝ) (!![1, 3] : Matrix (Fin 1) (Fin 2) ℂ) 1 (fun _ : Fin 1 => 4) 1 =
      !![1 / 2] := by
    ext i j
    obtain rfl : i = 0 := Subsingleton.elim _ _
    obtain rfl : j = 0 := Subsingleton.elim _ _
    simp [initialMatrix, aApprox, preprocessing, means, rdiag]
    norm_num
  refine ⟨![0, 1 / 2], !![1, 3], 1, 1, fun _ => 4, ?_, ⟨?_, by simp, by simp, by simp⟩, by simp, ?_, ?_⟩
  · simp; norm_num
  · ext i j
    obtain rfl : i = 0 := Subsingleton.elim _ _
    obtain rfl : j = 0 := Subsingleton.elim _ _
    simp [initialSvdOf, preprocessing, slopes, rdiag]
    norm_num
  · rw [hM, Eig]; ext i; simp
  · rintro ⟨w, hw, he⟩
    rw [hM, Eig] at he
    apply hw
    funext i
    obtain rfl : i = 0 := Subsingleton.elim _ _
    have := congrFun he 0
    simp [mulVec, dotProduct] at this
    rcases this with h3 | h3
    · norm_num at h3
    · exact h3

/-- Instance of the hypotheses of `C91_initial_partial`, the same samples. -/
example : ∃ (A U V : Matrix (Fin 1) (Fin 1) ℂ) (s : Fin 1 → ℝ), IsUnit A.det ∧
    (∀ i (j : Fin 1), ((!![1, 3] : Matrix (Fin 1) (Fin 2) ℂ) i j.succ - (!![1, 3] : Matrix (Fin 1) (Fin 2) ℂ) i j.castSucc) /
      (((![0, 1 / 2] : Fin 2 → ℝ) j.succ : ℂ) - ((![0, 1 / 2] : Fin 2 → ℝ) j.castSucc : ℂ)) =
      ∑ k, A i k * (((!![1, 3] : Matrix (Fin 1) (Fin 2) ℂ) k j.castSucc + (!![1, 3] : Matrix (Fin 1) (Fin 2) ℂ) k j.succ) / 2)) ∧
    IsSVD (initialSvdOf (![0, 1 / 2] : Fin 2 → ℝ) !![1, 3]) U s V ∧ ∀ i, s i ≠ 0 := by
  refine ⟨!![2], 1, 1, fun _ => 4, by simp, ?_, ⟨?_, by simp, by simp, by simp⟩, by simp⟩
  · intro i j
    obtain rfl : i = 0 := Subsingleton.elim _ _
    obtain rfl : j = 0 := Subsingleton.elim _ _
    simp; norm_num
  · ext i j
    obtain rfl : i = 0 := Subsingleton.elim _ _
    obtain rfl : j = 0 := Subsingleton.elim _ _
    simp [initialSvdOf, preprocessing, slopes, rdiag]
    norm_num

/-! ### Sorting -/

theorem exists_argsort : ∃ argsort : (Fin l → ℝ) → Equiv.Perm (Fin l), ∀ key, IsArgsort key (argsort key) :=
  ⟨Tuple.sort, fun key => Tuple.monotone_sort key⟩

/-- **C92** (sorting). With `'real'`, `'imag'` and `'abs'` the eigenvalues are in descending order of
`|Re|`, `|Im|` and `|.|`, and modes and amplitudes move with them; with `False` nothing moves; other
strings raise. -/
theorem C92_sorted (argsort : (Fin l → ℝ) → Equiv.Perm (Fin l)) (ha : ∀ key, IsArgsort key (argsort key))
    (om : Fin l → ℂ) (M : Fin n → Fin l → Option ℂ) (ef : Fin l → ℝ) :
    (∃ σ : Equiv.Perm (Fin l), sortResults .real argsort om M ef =
      .ok (om ∘ σ, fun i j => M i (σ j), ef ∘ σ) ∧ Antitone fun j => |(om (σ j)).re|) ∧
    (∃ σ : Equiv.Perm (Fin l), sortResults .imag argsort om M ef =
      .ok (om ∘ σ, fun i j => M i (σ j), ef ∘ σ) ∧ Antitone fun j => |(om (σ j)).im|) ∧
    (∃ σ : Equiv.Perm (Fin l), sortResults .abs argsort om M ef =
      .ok (om ∘ σ, fun i j => M i (σ j), ef ∘ σ) ∧ Antitone fun j => ‖om (σ j)‖) ∧
    sortResults .off argsort om M ef = .ok (om, M, ef) ∧
    sortResults .other argsort om M ef = .error .valueError := by
  refine ⟨⟨Fin.revPerm.trans (argsort fun j => |(om j).re|), rfl, fun i j hij => ?_⟩,
    ⟨Fin.revPerm.trans (argsort fun j => |(om j).im|), rfl, fun i j hij => ?_⟩,
    ⟨Fin.revPerm.trans (argsort fun j => ‖om j‖), rfl, fun i j hij => ?_⟩, rfl, rfl⟩
  · exact ha (fun j => |(om j).re|) (Fin.rev_le_rev.mpr hij)
  · exact ha (fun j => |(om j).im|) (Fin.rev_le_rev.mpr hij)
  · exact ha (fun j => ‖om j‖) (Fin.rev_le_rev.mpr hij)

/-- The variance of a function of the eigenvalues: the mean squared distance from the mean. -/
noncomputable def spread (om : Fin l → ℂ) (f : ℂ → ℝ) : ℝ :=
  (∑ i, (f (om i) - (∑ j, f (om j)) / l) ^ 2) / l

/-- **C92** (automatic sorting). `'auto'` also permutes eigenvalues, modes and amplitudes together;
they are in descending order of the real part, the imaginary part or the absolute value, whichever
has the largest variance. Missing: the absolute values of the real and imaginary parts, as
documented; see `C92_auto_false`. -/
theorem C92_auto_partial (argsort : (Fin l → ℝ) → Equiv.Perm (Fin l))
    (ha : ∀ key, IsArgsort key (argsort key)) (om : Fin l → ℂ)
    (M : Fin n → Fin l → Option ℂ) (ef : Fin l → ℝ) :
    ∃ (σ : Equiv.Perm (Fin l)) (f : ℂ → ℝ), f ∈ [Complex.re, Complex.im, fun z => ‖z‖] ∧
      (∀ g ∈ [Complex.re, Complex.im, fun z => ‖z‖], spread om g ≤ spread om f) ∧
      sortResults .auto argsort om M ef = .ok (om ∘ σ, fun i j => M i (σ j), ef ∘ σ) ∧
      Antitone fun i => f (om (σ i)) := by
  have hkey : ∃ f ∈ [Complex.re, Complex.im, fun z => ‖z‖], autoKey om = (fun j => f (om j)) ∧
      ∀ g ∈ [Complex.re, Complex.im, fun z => ‖z‖], spread om g ≤ spread om f := by
    have e : ∀ g : ℂ → ℝ, variance (fun j => g (om j)) = spread om g := fun g => rfl
    unfold autoKey
    simp only [e Complex.re, e Complex.im, e fun z => ‖z‖]
    split
    · rename_i h
      exact ⟨Complex.re, by simp, rfl, by simpa using h⟩
    · rename_i h
      split
      · rename_i h'
        refine ⟨Complex.im, by simp, rfl, ?_⟩
        simp only [List.mem_cons, List.not_mem_nil, or_false, forall_eq_or_imp, forall_eq, le_refl,
          true_and]
        refine ⟨?_, h'⟩
        by_contra hc
        exact h ⟨(not_le.mp hc).le, h'.trans (not_le.mp hc).le⟩
      · rename_i h'
        refine ⟨fun z => ‖z‖, by simp, rfl, ?_⟩
        simp only [List.mem_cons, List.not_mem_nil, or_false, forall_eq_or_imp, forall_eq, le_refl,
          and_true]
        have h' := (not_le.mp h').le
        refine ⟨?_, h'⟩
        by_contra hc
        exact h ⟨h'.trans (not_le.mp hc).le, (not_le.mp hc).le⟩
  obtain ⟨f, hf, hk, hmax⟩ := hkey
  refine ⟨Fin.revPerm.trans (argsort (autoKey om)), f, hf, hmax, rfl, fun i j hij => ?_⟩
  have := ha (autoKey om) (Fin.rev_le_rev.mpr hij)
  simp only [Function.comp] at this
  rw [hk] at this ⊢
  exact this

/-- **C92** (forecasts). Sorting does not change any forecast. -/
theorem C92_forecast (om : Fin l → ℂ) (M : Fin n → Fin l → Option ℂ) (ef : Fin l → ℝ)
    (σ : Equiv.Perm (Fin l)) (t : ℝ) (i : Fin n) :
    predict (fun i j => M i (σ j)) (om ∘ σ) (ef ∘ σ) t i = predict M om ef t i := by
  simp only [predict, nanSum, Function.comp]
  set f : Fin l → Option ℂ := fun j => (M i j).map fun z => z * (Complex.exp (om j * t) * (ef j : ℂ)) with hf
  have h1 : (∃ j, f (σ j) = none) ↔ ∃ j, f j = none :=
    ⟨fun ⟨j, h⟩ => ⟨_, h⟩, fun ⟨j, h⟩ => ⟨σ.symm j, by simpa using h⟩⟩
  have h2 : ∑ j, (f (σ j)).getD 0 = ∑ j, (f j).getD 0 := Equiv.sum_comp σ fun j => (f j).getD 0
  have e : (fun j => (M i (σ j)).map fun z => z * (Complex.exp (om (σ j) * t) * (ef (σ j) : ℂ))) =
    fun j => f (σ j) := rfl
  by_cases h : ∃ j, f j = none
  · rw [if_pos (h1.mpr h), if_pos h]
  · rw [if_neg fun x => h (h1.mp x), if_neg h]
    exact congrArg some h2

/-- **C92** is false for `'auto'` as documented (the absolute values of real or imaginary parts in
descending order): the eigenvalues `-3, 1` become `1, -3`, for every `argsort` (disagreement
D85). -/
theorem C92_auto_false (argsort : (Fin 2 → ℝ) → Equiv.Perm (Fin 2)) (ha : ∀ key, IsArgsort key (argsort key))
    (M : Fin n → Fin 2 → Option ℂ) (ef : Fin 2 → ℝ) :
    ∃ r, sortResults .auto argsort ![-3, 1] M ef = .ok r ∧ r.1 = ![1, -3] := by
  refine ⟨_, rfl, ?_⟩
  have hk : autoKey ![-3, 1] = ![-3, 1] := by
    have h1 : (fun j => ((![-3, 1] : Fin 2 → ℂ) j).re) = ![-3, 1] := by funext j; fin_cases j <;> simp
    have h2 : (fun j => ((![-3, 1] : Fin 2 → ℂ) j).im) = ![0, 0] := by funext j; fin_cases j <;> simp
    have h3 : (fun j => ‖(![-3, 1] : Fin 2 → ℂ) j‖) = ![3, 1] := by funext j; fin_cases j <;> simp
    simp only [autoKey, h1, h2, h3, variance, Fin.sum_univ_two]
    norm_num
  have hm := ha (![-3, 1] : Fin 2 → ℝ)
  have h01 := hm (Fin.zero_le 1)
  simp only [hk]
  have two : ∀ x : Fin 2, x = 0 ∨ x = 1 := by decide
  have hne : argsort ![-3, 1] 0 ≠ argsort ![-3, 1] 1 := fun h => by
    have := (argsort ![-3, 1]).injective h
    simp at this
  have hp : argsort ![-3, 1] 0 = 0 := by
    rcases two (argsort ![-3, 1] 0) with h | h
    · exact h
    · exfalso
      have h' : argsort ![-3, 1] 1 = 0 := by
        rcases two (argsort ![-3, 1] 1) with h' | h'
        · exact h'
        · exact absurd (h.trans h'.symm) hne
      simp only [Function.comp, h, h'] at h01
      norm_num at h01
  have hq : argsort ![-3, 1] 1 = 1 := by
    rcases two (argsort ![-3, 1] 1) with h | h
    · exact absurd (hp.trans h.symm) hne
    · exact h
  funext j
  fin_cases j
  · simp [hq]
  · simp [hp]

/-! ### Samples, residual, reconstruction -/

/-- **C93** (samples). Without compression all samples are used; with `0 < c < 1` and
`⌊(1 - c) m⌋ ≥ 2`, that many different ones, the first of the pivoted QR; `c ≥ 1` raises. -/
theorem C93_samples (m : ℕ) (c : ℚ) (perm : List ℕ) (hp : perm.Perm (List.range m)) :
    (c ≤ 0 → indices m c perm = .ok (List.range m)) ∧
    (1 ≤ c → indices m c perm = .error .valueError) ∧
    (0 < c → c < 1 → 2 ≤ ⌊(1 - c) * m⌋₊ → ∃ l, indices m c perm = .ok l ∧ l.length = ⌊(1 - c) * m⌋₊ ∧
      l.Nodup ∧ (∀ i ∈ l, i < m) ∧ l <+: perm) := by
  refine ⟨fun h => by simp [indices, not_lt.mpr h], fun h => ?_, fun h0 h1 h2 => ?_⟩
  · have : (0 : ℚ) < c := by linarith
    simp [indices, selectBestSamples, this, not_lt.mpr h]
  · have hlen : ⌊(1 - c) * m⌋₊ ≤ perm.length := by
      rw [hp.length_eq, List.length_range]
      refine Nat.floor_le_of_le ?_
      have : (0 : ℚ) ≤ m := Nat.cast_nonneg _
      nlinarith
    have hc : (m : ℚ) * (1 - c) = (1 - c) * m := mul_comm _ _
    have hl : (perm.take ⌊(1 - c) * m⌋₊).length = ⌊(1 - c) * m⌋₊ := by
      rw [List.length_take, min_eq_left hlen]
    refine ⟨perm.take ⌊(1 - c) * m⌋₊, ?_, hl, ?_, fun i hi => ?_, List.take_prefix _ _⟩
    · simp only [indices, selectBestSamples, h0, h1, hc, if_true, and_self, not_true_eq_false, if_false, hl]
      rw [if_neg (by omega)]
    · exact ((hp.nodup_iff).mpr List.nodup_range).sublist (List.take_sublist _ _)
    · exact List.mem_range.mp (hp.mem_iff.mp (List.mem_of_mem_take hi))

/-- **C93** is false for strong compression: if one or no sample would be selected, the fit raises
`TypeError` (disagreement D86). -/
theorem C93_few_samples_false (m : ℕ) (c : ℚ) (perm : List ℕ) (h0 : 0 < c) (h1 : c < 1)
    (h2 : ⌊(1 - c) * m⌋₊ ≤ 1) : indices m c perm = .error .typeError := by
  have hc : (m : ℚ) * (1 - c) = (1 - c) * m := mul_comm _ _
  have hl : (perm.take ⌊(1 - c) * m⌋₊).length ≤ 1 := (List.length_take_le _ _).trans h2
  simp only [indices, selectBestSamples, h0, h1, hc, if_true, and_self, not_true_eq_false, if_false, hl]

/-- Ten samples, default compression 0.9 of `select_best_samples_fast`. -/
example : indices 10 (9 / 10) [3, 1, 4, 0, 5, 9, 2, 6, 8, 7] = .error .typeError := by decide +kernel
/-- Ten samples, compression 0.5. -/
example : indices 10 (1 / 2) [3, 1, 4, 0, 5, 9, 2, 6, 8, 7] = .ok [3, 1, 4, 0, 5] := by decide +kernel

/-- **C93** (`ssr`). Without compression `ssr` is the norm of the residual: there are at least as
many residuals as times, so the number of degrees of freedom is taken to be 1. -/
theorem C93_ssr {N : ℕ} (l size : ℕ) (res : Fin N ⊕ Fin N → ℝ) (h : size ≤ N) :
    ssr l size res ^ 2 = ∑ p, res p ^ 2 ∧ 0 ≤ ssr l size res := by
  have hd : max ((size : ℤ) - N - l) 1 = 1 := by omega
  have hs : ssr l size res = √(normSq fun i => (⟨res (.inl i), res (.inr i)⟩ : ℂ)) := by
    simp only [ssr, hd]; simp
  rw [hs]
  refine ⟨?_, Real.sqrt_nonneg _⟩
  rw [Real.sq_sqrt (normSq_nonneg _), Fintype.sum_sum_type, ← Finset.sum_add_distrib, normSq]
  refine Finset.sum_congr rfl fun i _ => ?_
  simp [Complex.normSq_apply, sq]

/-- **C93** (reconstruction). `reconstructed_data` is the forecast at all times given to `fit`. -/
theorem C93_reconstructed (M : Fin n → Fin l → Option ℂ) (om : Fin l → ℂ) (ef : Fin l → ℝ)
    (time : Fin m → ℝ) (i : Fin n) (t : Fin m) :
    reconstructed M (dynamics om ef time) i t = predict M om ef (time t) i := by
  simp only [reconstructed, predict, dynamics, Matrix.of_apply]
  congr 1
  funext j
  congr 1
  funext z
  ring

/-- **C93** (number of eigenvalues). With `m` snapshots, of which `r` singular values are retained
(projection), there are `min(r, m - 1)` eigenvalues. -/
theorem C93_count (r m : ℕ) (hr : 1 ≤ r) (sigma : List ℚ) (hs : sigma.length = min r (m - 1)) :
    Rank.computeRank sigma r (m - 1) (.int r) = min r (m - 1) := by
  have h1 : ¬ ((r : ℚ) = 0) := by exact_mod_cast (by omega : r ≠ 0)
  have h2 : ¬ ((r : ℚ) < 1) := by
    have : (1 : ℚ) ≤ r := by exact_mod_cast hr
    linarith
  simp [Rank.computeRank, Rank.SvdRank.val, h1, h2, hs]

end Verif.VarPro
