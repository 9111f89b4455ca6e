import Verif.Lemmas.BopTime

/-! # One step of BOP-DMD on two samples of one signal, worked out -/

set_option autoImplicit false

namespace Verif.BopRun

open Verif Verif.LinAlg Verif.VarPro Verif.BopStep Matrix

/-- The samples 3/2 and 1/2. -/
noncomputable def twoH : Matrix (Fin 2) (Fin 1) ℂ := !![3 / 2; 1 / 2]

section

variable {time : Fin 2 → ℝ} {T : ℝ} (h0 : time 0 = 0) (h1 : time 1 = T)

include h0 h1

theorem two_phi (a : ℝ) : phi time (fun _ : Fin 1 => (a : ℂ)) = !![1; (Real.exp (T * a) : ℂ)] := by
  ext i j
  fin_cases i <;> simp [phi, h0, h1]

theorem two_inj (α : Fin 1 → ℂ) : Injective (phi time α) := by
  intro v hv
  have := congrFun hv 0
  simp [phi, Matrix.mulVec, dotProduct, h0] at this
  funext j
  rw [Subsingleton.elim j 0, this]
  rfl

theorem two_linv (a : ℝ) : linv (phi time (fun _ : Fin 1 => (a : ℂ))) =
    !![((1 / (1 + Real.exp (T * a) ^ 2) : ℝ) : ℂ), ((Real.exp (T * a) / (1 + Real.exp (T * a) ^ 2) : ℝ) : ℂ)] := by
  rw [two_phi h0 h1, linv]
  generalize Real.exp (T * a) = x
  have hx : (1 + x ^ 2 : ℂ) ≠ 0 := by exact_mod_cast (by positivity : (0 : ℝ) < 1 + x ^ 2).ne'
  have e : (((!![1; (x : ℂ)] : Matrix (Fin 2) (Fin 1) ℂ)ᴴ * !![1; (x : ℂ)])⁻¹) = !![1 / (1 + x ^ 2 : ℂ)] := by
    refine Matrix.inv_eq_right_inv ?_
    ext i j
    rw [Subsingleton.elim i 0, Subsingleton.elim j 0]
    simp [Matrix.mul_apply, Fin.sum_univ_two]
    field_simp
  rw [e]
  ext i j
  rw [Subsingleton.elim i 0]
  fin_cases j <;> simp [Matrix.mul_apply] <;> field_simp

theorem two_dphi (a : ℝ) : dphi time (fun _ : Fin 1 => (a : ℂ)) 0 = !![0; ((T * Real.exp (T * a) : ℝ) : ℂ)] := by
  ext i j
  rw [Subsingleton.elim j 0]
  fin_cases i <;> simp [dphi, h0, h1, mul_comm]

theorem two_res (L : Lib 1 true time twoH) (a : ℝ) : BopStep.residual time twoH L.B (fun _ => (a : ℂ)) =
    !![((-Real.exp (T * a) * (1 / 2 - 3 / 2 * Real.exp (T * a)) / (1 + Real.exp (T * a) ^ 2) : ℝ) : ℂ);
      (((1 / 2 - 3 / 2 * Real.exp (T * a)) / (1 + Real.exp (T * a) ^ 2) : ℝ) : ℂ)] := by
  rw [residual_eq L.isB (two_inj h0 h1 _), two_linv h0 h1, two_phi h0 h1]
  generalize Real.exp (T * a) = x
  have hx : (1 + x ^ 2 : ℂ) ≠ 0 := by exact_mod_cast (by positivity : (0 : ℝ) < 1 + x ^ 2).ne'
  ext i j
  rw [Subsingleton.elim j 0]
  fin_cases i <;> simp [Matrix.mul_apply, Fin.sum_univ_two, twoH] <;> field_simp <;> ring

theorem two_jac (L : Lib 1 true time twoH) (a : ℝ) (p : Fin 2 × Fin 1) (j : Fin 1) : jac L (fun _ => (a : ℂ)) p j =
    ((![T * Real.exp (T * a) * (1 / 2 - 3 * Real.exp (T * a) - 1 / 2 * Real.exp (T * a) ^ 2) / (1 + Real.exp (T * a) ^ 2) ^ 2,
      T * Real.exp (T * a) * (3 / 2 + Real.exp (T * a) - 3 / 2 * Real.exp (T * a) ^ 2) / (1 + Real.exp (T * a) ^ 2) ^ 2] p.1 : ℝ)
      : ℂ) := by
  rw [jac_eq L (two_inj h0 h1 _), Subsingleton.elim j 0, two_res h0 h1, jacM, two_linv h0 h1, two_phi h0 h1, two_dphi h0 h1,
    if_pos rfl]
  generalize Real.exp (T * a) = x
  have hx : (1 + x ^ 2 : ℂ) ≠ 0 := by exact_mod_cast (by positivity : (0 : ℝ) < 1 + x ^ 2).ne'
  obtain ⟨i, j⟩ := p
  rw [Subsingleton.elim j 0]
  fin_cases i <;>
    simp [Matrix.mul_apply, Fin.sum_univ_two, twoH, Matrix.one_apply] <;> field_simp <;> ring

theorem two_norm (L : Lib 1 true time twoH) (a : ℝ) (j : Fin 1) : normSq ((jac L (fun _ => (a : ℂ))).col j) =
    5 / 2 * (T * Real.exp (T * a) / (1 + Real.exp (T * a) ^ 2)) ^ 2 := by
  simp only [normSq, Matrix.col_apply, two_jac h0 h1, Fintype.sum_prod_type, Fin.sum_univ_two, Complex.normSq_ofReal]
  generalize Real.exp (T * a) = x
  have hx : (1 + x ^ 2 : ℝ) ≠ 0 := (by positivity : (0 : ℝ) < 1 + x ^ 2).ne'
  simp
  field_simp
  ring

theorem two_error (L : Lib 1 true time twoH) (a : ℝ) : frobSq (BopStep.residual time twoH L.B (fun _ => (a : ℂ))) =
    (1 / 2 - 3 / 2 * Real.exp (T * a)) ^ 2 / (1 + Real.exp (T * a) ^ 2) := by
  rw [two_res h0 h1]
  generalize Real.exp (T * a) = x
  have hx : (1 + x ^ 2 : ℝ) ≠ 0 := (by positivity : (0 : ℝ) < 1 + x ^ 2).ne'
  simp only [frobSq, Fin.sum_univ_two]
  simp [Complex.normSq_ofReal, -Complex.ofReal_div, -Complex.ofReal_mul, -Complex.ofReal_neg]
  field_simp
  ring

/-- The first step from the guess 0 with `_lambda = 1`. -/
theorem two_delta (L : Lib 1 true time twoH) (d : ℝ)
    (hd : (5 / 8 * T ^ 2 + max (min (√(5 / 8 * T ^ 2)) 1) (1 / 10 ^ 6) ^ 2) * d = -T / 2) :
    delta L true (fun _ => 0) 1 = fun _ => (d : ℂ) := by
  have e0 : (fun _ : Fin 1 => (0 : ℂ)) = fun _ => ((0 : ℝ) : ℂ) := by simp
  rw [e0]
  have hsc : scales true (jac L fun _ => ((0 : ℝ) : ℂ)) = fun _ => max (min (√(5 / 8 * T ^ 2)) 1) (1 / 10 ^ 6) := by
    funext j
    rw [scales, if_pos rfl, two_norm h0 h1, mul_zero, Real.exp_zero]
    have e : 5 / 2 * (T * 1 / (1 + 1 ^ 2)) ^ 2 = 5 / 8 * T ^ 2 := by ring
    rw [e]
  refine normal_unique (jac L fun _ => ((0 : ℝ) : ℂ)) (scales true (jac L fun _ => ((0 : ℝ) : ℂ))) (scales_pos true _) 1 one_pos
    _ _ ?_
  rw [delta_eqn, hsc]
  funext j
  simp only [Pi.add_apply, Matrix.mulVec, dotProduct, Matrix.mul_apply, Finset.univ_unique, Finset.sum_singleton,
    Matrix.conjTranspose_apply, two_jac h0 h1, Fintype.sum_prod_type, Fin.sum_univ_two, two_res h0 h1, mul_zero, Real.exp_zero]
  generalize max (min (√(5 / 8 * T ^ 2)) 1) (1 / 10 ^ 6) = s at hd
  simp only [Complex.star_def, Complex.conj_ofReal]
  norm_num
  have hdC : ((5 / 8 * T ^ 2 + s ^ 2) * d : ℂ) = -T / 2 := by
    have := congrArg (fun r : ℝ => (r : ℂ)) hd
    push_cast at this
    exact this
  linear_combination -hdC

/-- One iteration with an accepted step. -/
theorem two_run (L : Lib 1 true time twoH) (o : Bop.Opts) (hi : o.initLambda = 1) (hm : o.maxiter = 1) (d : ℝ)
    (hd : (5 / 8 * T ^ 2 + max (min (√(5 / 8 * T ^ 2)) 1) (1 / 10 ^ 6) ^ 2) * d = -T / 2)
    (hx : Real.exp (T * d) < 1) (hx' : 2 / 5 < Real.exp (T * d)) :
    (run L true id o fun _ => 0).alpha = (fun _ => (d : ℂ)) ∧ (run L true id o fun _ => 0).trace = [fun _ => (d : ℂ), fun _ => 0] := by
  have hstep : (prob L true id).step (fun _ => 0) o.initLambda = fun _ => (d : ℂ) := by
    rw [hi]
    simp only [prob, two_delta h0 h1 L d hd, id]
    funext j
    simp
  have hflt : Bop.flt ((prob L true id).err fun _ => (d : ℂ)) ((prob L true id).err fun _ => 0) = true := by
    have e0 : (fun _ : Fin 1 => (0 : ℂ)) = fun _ => ((0 : ℝ) : ℂ) := by simp
    have hn : √(frobSq twoH) ≠ 0 := by
      intro h
      rw [Real.sqrt_eq_zero (frobSq_nonneg _), frobSq_eq_zero] at h
      have := congrFun (congrFun h 0) 0
      norm_num [twoH] at this
    rw [e0]
    simp only [prob, BopStep.error, Bop.relError, if_neg hn, Bop.flt, two_error h0 h1, mul_zero, Real.exp_zero, decide_eq_true_eq]
    refine div_lt_div_of_pos_right (Real.sqrt_lt_sqrt ?_ ?_) (lt_of_le_of_ne (Real.sqrt_nonneg _) (Ne.symm hn))
    · positivity
    · rw [div_lt_iff₀ (by positivity)]
      nlinarith
  unfold run Bop.varpro
  rw [hm]
  simp only [id, Bop.iterate, hstep, hflt, if_true]
  split_ifs <;> exact ⟨rfl, rfl⟩

end

end Verif.BopRun
