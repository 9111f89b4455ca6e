import Verif.Lemmas.BopOrder
import Verif.Props.BopTime

/-!
# Property C155: order of the snapshots, coordinates and unit of the data in BOP-DMD
-/

set_option autoImplicit false

namespace Verif.BopRun

open Verif Verif.LinAlg Verif.VarPro Verif.BopStep Matrix

variable {m l n n' : ℕ} {fulljac : Bool} {time : Fin m → ℝ} {H : Matrix (Fin m) (Fin n) ℂ}

/-- The row norms of `B` are kept by `Q`. -/
theorem norm_row {Q : Matrix (Fin n) (Fin n') ℂ} (hQ : Q * Qᴴ = 1) (B : Matrix (Fin l) (Fin n) ℂ) (j : Fin l) :
    ∑ i, ‖(B * Q) j i‖ ^ 2 = ∑ i, ‖B j i‖ ^ 2 := by
  have e : ∀ {k : ℕ} (C : Matrix (Fin l) (Fin k) ℂ), ((∑ i, ‖C j i‖ ^ 2 : ℝ) : ℂ) = (C * Cᴴ) j j := by
    intro k C
    rw [Matrix.mul_apply]
    push_cast
    refine Finset.sum_congr rfl fun i _ => ?_
    rw [conjTranspose_apply, Complex.star_def, ← Complex.ofReal_pow, ← Complex.normSq_eq_norm_sq, Complex.mul_conj]
  have : ((∑ i, ‖(B * Q) j i‖ ^ 2 : ℝ) : ℂ) = ((∑ i, ‖B j i‖ ^ 2 : ℝ) : ℂ) := by
    rw [e, e, conjTranspose_mul, Matrix.mul_assoc, ← Matrix.mul_assoc Q, hQ, Matrix.one_mul]
  exact_mod_cast this

theorem forecast_rotate {Q : Matrix (Fin n) (Fin n') ℂ} (hQ : Q * Qᴴ = 1) (B : Matrix (Fin l) (Fin n) ℂ) (α : Fin l → ℂ) (ε t : ℝ)
    (i : Fin n') : forecast ε (B * Q) α t i = ∑ k, forecast ε B α t k * Q k i := by
  have hl : largest (B * Q) = largest B := by
    simp only [largest, norm_row hQ]
  have ha : ∀ j, amps ε (B * Q) j = amps ε B j := by
    intro j
    simp only [amps, Bop.normalise, norm_row hQ, hl]
    split_ifs <;> rfl
  have hm : ∀ j, modes ε (B * Q) j i = ∑ k, modes ε B j k * Q k i := by
    intro j
    simp only [modes, Bop.normalise, norm_row hQ, hl]
    split_ifs
    · simp
    · simp
    · simp only [Option.getD_some, Matrix.mul_apply, Finset.sum_div]
      exact Finset.sum_congr rfl fun k _ => by ring
  unfold forecast Bop.forecast
  simp only [ha, hm, Finset.sum_mul]
  rw [Finset.sum_comm]
  exact Finset.sum_congr rfl fun k _ => Finset.sum_congr rfl fun j _ => by ring

/-- **C155** (order and coordinates). The snapshots in another order (with their times) and in other orthonormal coordinates,
possibly of a larger space, from the same initial guess: the eigenvalues and the convergence flag are the same, and the forecast
is the old one in the new coordinates. -/
theorem C155_order (π : Equiv.Perm (Fin m)) {Q : Matrix (Fin n) (Fin n') ℂ} (hQ : Q * Qᴴ = 1) (L : Lib l fulljac time H)
    (H' : Matrix (Fin m) (Fin n') ℂ) (hH' : ∀ i c, H' i c = ∑ k, H (π i) k * Q k c)
    (L' : Lib l fulljac (fun i => time (π i)) H') (levmarq : Bool)
    (push : (Fin l → ℂ) → Fin l → ℂ) (o : Bop.Opts) (hup : 0 < o.lamup) (hin : 0 < o.initLambda) (init : Fin l → ℂ)
    (hinj : ∀ a ∈ (run L levmarq push o init).trace, Injective (phi time a)) :
    (run L' levmarq push o init).alpha = (run L levmarq push o init).alpha ∧
    (run L' levmarq push o init).converged = (run L levmarq push o init).converged ∧
    (∀ j c, coeffs L' levmarq push o init j c = ∑ k, coeffs L levmarq push o init j k * Q k c) ∧
    ∀ ε t c, forecast ε (coeffs L' levmarq push o init) (run L' levmarq push o init).alpha t c =
      ∑ k, forecast ε (coeffs L levmarq push o init) (run L levmarq push o init).alpha t k * Q k c := by
  obtain rfl : H' = rowP π * H * Q := by
    ext i c
    rw [hH', Matrix.mul_assoc, rowP_mul]
    rfl
  have hd : ∀ a, Injective (phi time a) → ∀ lam, 0 < lam → delta L' levmarq a lam = delta L levmarq a lam :=
    fun a ha lam hlam => delta_gram L L' levmarq (jac_order π hQ L L' ha).1 (jac_order π hQ L L' ha).2 lam hlam
  have hf : ∀ a, frobSq (BopStep.residual (fun i => time (π i)) (rowP π * H * Q) L'.B a) = frobSq (BopStep.residual time H L.B a) :=
    fun a => by rw [residual_order π Q L L', frobSq_order π hQ]
  have hrun : run L' levmarq push o init = run L levmarq push o init := by
    have := varpro_congr id (prob L levmarq push) (prob L' levmarq push) o ?_ hup hin (fun a => Injective (phi time a)) ?_ ?_ _
      hinj
    · rw [mapRes, List.map_id] at this
      exact this
    · intro a
      simp only [prob, BopStep.error, id, hf, frobSq_order π hQ]
    · intro a ha lam hlam
      simp only [prob, id, hd a ha lam hlam]
    · intro a ha c lam hlam
      refine ⟨?_, mul_pos hlam (max_third_pos _)⟩
      simp only [prob, id, ratio, hf, hd a ha lam hlam]
      rw [(jac_order π hQ L L' ha).2]
  have hmem : (run L levmarq push o init).alpha ∈ (run L levmarq push o init).trace :=
    alpha_mem _ _ _ _ _ _ _ _ (List.mem_singleton_self _)
  have hi := hinj _ hmem
  have hco : coeffs L' levmarq push o init = coeffs L levmarq push o init * Q := by
    rw [coeffs, coeffs, hrun, computeB_eq L.isB hi, computeB_eq L'.isB (by rw [phi_order]; exact injective_order π hi), phi_order,
      linv_order]
    simp only [Matrix.mul_assoc]
    rw [← Matrix.mul_assoc (rowP π)ᴴ, rowP_unit, Matrix.one_mul]
  refine ⟨by rw [hrun], by rw [hrun], fun j c => by rw [hco]; rfl, fun ε t c => ?_⟩
  rw [hco, hrun, forecast_rotate hQ]

/-- **C155** (unit of the data; partial: with the scaling of Marquardt, and where it is not clipped). The same snapshots in another
unit, multiplied by `g > 0`: the eigenvalues and the flag are the same, the coefficients are multiplied by `g`. -/
theorem C155_unit_partial {g : ℝ} (hg : 0 < g) (L : Lib l fulljac time H) (L' : Lib l fulljac time ((g : ℂ) • H))
    (push : (Fin l → ℂ) → Fin l → ℂ) (o : Bop.Opts) (hup : 0 < o.lamup) (hin : 0 < o.initLambda) (init : Fin l → ℂ)
    (hinj : ∀ a ∈ (run L true push o init).trace, Injective (phi time a) ∧ ∀ j,
      1 / 10 ^ 6 ≤ √(normSq ((jac L a).col j)) ∧ √(normSq ((jac L a).col j)) ≤ 1 ∧
      1 / 10 ^ 6 ≤ g * √(normSq ((jac L a).col j)) ∧ g * √(normSq ((jac L a).col j)) ≤ 1) :
    (run L' true push o init).alpha = (run L true push o init).alpha ∧
    (run L' true push o init).converged = (run L true push o init).converged ∧
    coeffs L' true push o init = (g : ℂ) • coeffs L true push o init := by
  have hgC : (g : ℂ) ≠ 0 := by exact_mod_cast hg.ne'
  let Good : (Fin l → ℂ) → Prop := fun a => Injective (phi time a) ∧ ∀ j,
      1 / 10 ^ 6 ≤ √(normSq ((jac L a).col j)) ∧ √(normSq ((jac L a).col j)) ≤ 1 ∧
      1 / 10 ^ 6 ≤ g * √(normSq ((jac L a).col j)) ∧ g * √(normSq ((jac L a).col j)) ≤ 1
  have hst : star (g : ℂ) = g := by simp
  have hsc : ∀ a, Good a → scales true (jac L' a) = fun j => g * scales true (jac L a) j := by
    intro a ha
    funext j
    obtain ⟨h1, h2, h3, h4⟩ := ha.2 j
    have hn : √(normSq ((jac L' a).col j)) = g * √(normSq ((jac L a).col j)) := by
      rw [jac_scale L L' ha.1]
      have : normSq (((g : ℂ) • jac L a).col j) = g ^ 2 * normSq ((jac L a).col j) := by
        simp only [normSq, Finset.mul_sum]
        refine Finset.sum_congr rfl fun p _ => ?_
        simp only [Matrix.col_apply, Matrix.smul_apply, smul_eq_mul, Complex.normSq_mul, Complex.normSq_ofReal]
        ring
      rw [this, Real.sqrt_mul (sq_nonneg g), Real.sqrt_sq hg.le]
    rw [scales, scales, if_pos rfl, if_pos rfl, hn, min_eq_left h4, max_eq_left h3, min_eq_left h2, max_eq_left h1]
  have hrhs : ∀ a, Good a → ((jac L' a)ᴴ *ᵥ fun p => BopStep.residual time ((g : ℂ) • H) L'.B a p.1 p.2) =
      ((g : ℂ) * g) • ((jac L a)ᴴ *ᵥ fun p => BopStep.residual time H L.B a p.1 p.2) := by
    intro a ha
    rw [residual_scale L L', jac_scale L L' ha.1, conjTranspose_smul, hst, smul_mulVec, ← smul_smul]
    congr 1
    exact mulVec_smul (jac L a)ᴴ (g : ℂ) fun p => BopStep.residual time H L.B a p.1 p.2
  have hd : ∀ a, Good a → ∀ lam, 0 < lam → delta L' true a lam = delta L true a lam := by
    intro a ha lam hlam
    have h1 := delta_eqn L true a lam
    have h2 := delta_eqn L' true a lam
    refine normal_unique (jac L a) (scales true (jac L a)) (scales_pos true _) lam hlam _ _ ?_
    rw [h1]
    rw [hrhs a ha, hsc a ha, jac_scale L L' ha.1, conjTranspose_smul, hst, Matrix.smul_mul, Matrix.mul_smul, smul_smul,
      smul_mulVec] at h2
    refine smul_right_injective _ (mul_ne_zero hgC hgC) ?_
    dsimp only
    rw [← h2, smul_add]
    congr 1
    funext j
    simp only [Pi.smul_apply, smul_eq_mul]
    push_cast
    ring
  have hfs : ∀ M : Matrix (Fin m) (Fin n) ℂ, frobSq ((g : ℂ) • M) = g ^ 2 * frobSq M := by
    intro M
    simp only [frobSq, Finset.mul_sum, Matrix.smul_apply, smul_eq_mul, Complex.normSq_mul, Complex.normSq_ofReal]
    refine Finset.sum_congr rfl fun i _ => Finset.sum_congr rfl fun j _ => by ring
  have hrun : run L' true push o init = run L true push o init := by
    have := varpro_congr id (prob L true push) (prob L' true push) o ?_ hup hin Good ?_ ?_ _ hinj
    · rw [mapRes, List.map_id] at this
      exact this
    · intro a
      simp only [prob, BopStep.error, id, residual_scale L L', hfs, Real.sqrt_mul (sq_nonneg g), Real.sqrt_sq hg.le, Bop.relError,
        mul_eq_zero, hg.ne', false_or]
      split_ifs
      · rfl
      · rw [mul_div_mul_left _ _ hg.ne']
    · intro a ha lam hlam
      simp only [prob, id, hd a ha lam hlam]
    · intro a ha c lam hlam
      refine ⟨?_, mul_pos hlam (max_third_pos _)⟩
      simp only [prob, id, ratio, hd a ha lam hlam, hrhs a ha]
      simp only [residual_scale L L', hfs, dotProduct_smul, smul_eq_mul]
      rw [← Complex.ofReal_mul, Complex.re_ofReal_mul]
      have e : ∀ x y z : ℝ, (1 / 2 * (g ^ 2 * x) - 1 / 2 * (g ^ 2 * y)) / (1 / 2 * (g * g * z)) =
          (1 / 2 * x - 1 / 2 * y) / (1 / 2 * z) := by
        intro x y z
        rw [show 1 / 2 * (g ^ 2 * x) - 1 / 2 * (g ^ 2 * y) = (g * g) * (1 / 2 * x - 1 / 2 * y) by ring,
          show 1 / 2 * (g * g * z) = (g * g) * (1 / 2 * z) by ring, mul_div_mul_left _ _ (mul_pos hg hg).ne']
      rw [e]
  have hmem : (run L true push o init).alpha ∈ (run L true push o init).trace :=
    alpha_mem _ _ _ _ _ _ _ _ (List.mem_singleton_self _)
  have hi := (hinj _ hmem).1
  refine ⟨by rw [hrun], by rw [hrun], ?_⟩
  rw [coeffs, coeffs, hrun, computeB_eq L.isB hi, computeB_eq L'.isB hi, Matrix.mul_smul]

/-- The first step from the guess 0 for the doubled samples. -/
theorem double_delta (L : Lib 1 true ![0, 1] twoH) (L' : Lib 1 true ![0, 1] (((2 : ℝ) : ℂ) • twoH)) :
    delta L' true (fun _ => 0) 1 = fun _ => ((-4 / 7 : ℝ) : ℂ) := by
  have h0 : (![0, 1] : Fin 2 → ℝ) 0 = 0 := by simp
  have h1 : (![0, 1] : Fin 2 → ℝ) 1 = 1 := by simp
  have e0 : (fun _ : Fin 1 => (0 : ℂ)) = fun _ => ((0 : ℝ) : ℂ) := by simp
  rw [e0]
  have hj := jac_scale L L' (two_inj h0 h1 fun _ => ((0 : ℝ) : ℂ))
  have hsc : scales true (jac L' fun _ => ((0 : ℝ) : ℂ)) = fun _ => 1 := by
    funext j
    have hn : normSq ((jac L' fun _ => ((0 : ℝ) : ℂ)).col j) = 5 / 2 := by
      have e : normSq ((jac L' fun _ => ((0 : ℝ) : ℂ)).col j) = 4 * normSq ((jac L fun _ => ((0 : ℝ) : ℂ)).col j) := by
        rw [hj]
        simp only [normSq, Finset.mul_sum]
        refine Finset.sum_congr rfl fun p _ => ?_
        simp only [Matrix.col_apply, Matrix.smul_apply, smul_eq_mul, Complex.normSq_mul, Complex.normSq_ofReal]
        ring
      rw [e, two_norm h0 h1, mul_zero, Real.exp_zero]
      norm_num
    have hs : 1 ≤ √(5 / 2 : ℝ) := Real.le_sqrt_of_sq_le (by norm_num)
    rw [scales, if_pos rfl, hn, min_eq_right hs, max_eq_left (by norm_num)]
  refine normal_unique (jac L' fun _ => ((0 : ℝ) : ℂ)) (scales true (jac L' fun _ => ((0 : ℝ) : ℂ))) (scales_pos true _) 1 one_pos
    _ _ ?_
  rw [delta_eqn, hsc]
  funext j
  simp only [Pi.add_apply, Matrix.mulVec, dotProduct, Matrix.mul_apply, Finset.univ_unique, Finset.sum_singleton, hj,
    residual_scale L L', Matrix.smul_apply, smul_eq_mul,
    Matrix.conjTranspose_apply, two_jac h0 h1, Fintype.sum_prod_type, Fin.sum_univ_two, two_res h0 h1, mul_zero, Real.exp_zero]
  simp only [Complex.star_def, Complex.conj_ofReal, map_mul]
  norm_num

/-- **C155** (unit of the data; negative part). The samples 3/2 and 1/2 at the times 0 and 1, fitted with one eigenvalue from the
guess 0, with the default options apart from one iteration: the eigenvalue is -2/5. The same samples in half the unit, 3 and 1:
the eigenvalue is -4/7. -/
theorem C155_unit_false : ∃ H : Matrix (Fin 2) (Fin 1) ℂ,
    Nonempty (Lib 1 true ![0, 1] H) ∧ Nonempty (Lib 1 true ![0, 1] (((2 : ℝ) : ℂ) • H)) ∧
    ∀ (L : Lib 1 true ![0, 1] H) (L' : Lib 1 true ![0, 1] (((2 : ℝ) : ℂ) • H)) (o : Bop.Opts), o.initLambda = 1 → o.maxiter = 1 →
      (run L true id o fun _ => 0).alpha 0 = -2 / 5 ∧ (run L' true id o fun _ => 0).alpha 0 = -4 / 7 := by
  refine ⟨twoH, exists_lib _ (by norm_num) _ _, exists_lib _ (by norm_num) _ _, fun L L' o hi hm => ⟨?_, ?_⟩⟩
  · rw [(two_first (by simp) (by simp) L o hi hm).1]
    push_cast
    rfl
  have h0 : (![0, 1] : Fin 2 → ℝ) 0 = 0 := by simp
  have h1 : (![0, 1] : Fin 2 → ℝ) 1 = 1 := by simp
  have hstep : (prob L' true id).step (fun _ => 0) o.initLambda = fun _ => ((-4 / 7 : ℝ) : ℂ) := by
    rw [hi]
    simp only [prob, double_delta L L', id]
    funext j
    simp
  have hflt : Bop.flt ((prob L' true id).err fun _ => ((-4 / 7 : ℝ) : ℂ)) ((prob L' true id).err fun _ => 0) = true := by
    have e0 : (fun _ : Fin 1 => (0 : ℂ)) = fun _ => ((0 : ℝ) : ℂ) := by simp
    have hn : √(frobSq (((2 : ℝ) : ℂ) • twoH)) ≠ 0 := by
      intro h
      rw [Real.sqrt_eq_zero (frobSq_nonneg _), frobSq_eq_zero] at h
      have := congrFun (congrFun h 0) 0
      norm_num [twoH] at this
    have hfs : ∀ a : ℝ, frobSq (BopStep.residual ![0, 1] (((2 : ℝ) : ℂ) • twoH) L'.B fun _ => (a : ℂ)) =
        4 * ((1 / 2 - 3 / 2 * Real.exp (1 * a)) ^ 2 / (1 + Real.exp (1 * a) ^ 2)) := by
      intro a
      rw [residual_scale L L', ← two_error h0 h1 L]
      simp only [frobSq, Finset.mul_sum, Matrix.smul_apply, smul_eq_mul, Complex.normSq_mul, Complex.normSq_ofReal]
      refine Finset.sum_congr rfl fun i _ => Finset.sum_congr rfl fun j _ => by ring
    rw [e0]
    simp only [prob, BopStep.error, Bop.relError, if_neg hn, Bop.flt, hfs, mul_zero, Real.exp_zero, decide_eq_true_eq]
    have hx : Real.exp (1 * (-4 / 7)) < 1 := lt_of_le_of_lt (exp_upper (by norm_num)) (by norm_num)
    have hx' : 2 / 5 < Real.exp (1 * (-4 / 7)) := lt_of_lt_of_le (by norm_num) (Real.add_one_le_exp _)
    generalize Real.exp (1 * (-4 / 7)) = x at hx hx'
    refine div_lt_div_of_pos_right (Real.sqrt_lt_sqrt ?_ ?_) (lt_of_le_of_ne (Real.sqrt_nonneg _) (Ne.symm hn))
    · positivity
    · rw [← mul_div_assoc, div_lt_iff₀ (by positivity)]
      nlinarith
  have : (run L' true id o fun _ => 0).alpha = fun _ => ((-4 / 7 : ℝ) : ℂ) := by
    unfold run Bop.varpro
    rw [hm]
    simp only [id, Bop.iterate, hstep, hflt, if_true]
    split_ifs <;> rfl
  rw [this]
  push_cast
  rfl

/-- The hypotheses of `C155_order` hold for these samples, exchanged, along the direction (3/5, 4/5) of the plane, whatever the
options; the data of the second fit are then (3/10, 2/5) at time 1 and (9/10, 6/5) at time 0. -/
example : Nonempty (Lib 1 true ![0, 1] twoH) ∧ (!![3 / 5, 4 / 5] : Matrix (Fin 1) (Fin 2) ℂ) * (!![3 / 5, 4 / 5] : Matrix (Fin 1) (Fin 2) ℂ)ᴴ = 1 ∧
    Nonempty (Lib 1 true (fun i => ![0, 1] (Equiv.swap (0 : Fin 2) 1 i)) !![3 / 10, 2 / 5; 9 / 10, 6 / 5]) ∧
    (∀ i c, !![3 / 10, 2 / 5; 9 / 10, 6 / 5] i c = ∑ k, twoH (Equiv.swap (0 : Fin 2) 1 i) k * !![3 / 5, 4 / 5] k c) ∧
    ∀ (L : Lib 1 true ![0, 1] twoH) (levmarq : Bool) (push : (Fin 1 → ℂ) → Fin 1 → ℂ) (o : Bop.Opts) (init : Fin 1 → ℂ),
      ∀ a ∈ (run L levmarq push o init).trace, Injective (phi ![0, 1] a) := by
  refine ⟨exists_lib _ (by norm_num) _ _, ?_, exists_lib _ (by norm_num) _ _, ?_, ?_⟩
  · ext i j
    rw [Subsingleton.elim i 0, Subsingleton.elim j 0, Matrix.mul_apply]
    simp only [Fin.sum_univ_two, Matrix.conjTranspose_apply, Complex.star_def]
    simp
    norm_num [map_ofNat]
  · intro i c
    fin_cases i <;> fin_cases c <;> simp [twoH] <;> norm_num
  · intro L levmarq push o init a _
    exact two_inj (T := 1) (by simp) (by simp) a

/-- The hypotheses of `C155_unit_partial` hold for these samples in twice the unit: the run moves to another point, and the
scaling is not clipped in either unit. -/
example : Nonempty (Lib 1 true ![0, 1] twoH) ∧ Nonempty (Lib 1 true ![0, 1] (((1 / 2 : ℝ) : ℂ) • twoH)) ∧
    ∀ (L : Lib 1 true ![0, 1] twoH) (o : Bop.Opts), o.initLambda = 1 → o.maxiter = 1 →
      (run L true id o fun _ => 0).trace.length = 2 ∧ ∀ a ∈ (run L true id o fun _ => 0).trace, Injective (phi ![0, 1] a) ∧ ∀ j,
      1 / 10 ^ 6 ≤ √(normSq ((jac L a).col j)) ∧ √(normSq ((jac L a).col j)) ≤ 1 ∧
      1 / 10 ^ 6 ≤ (1 / 2) * √(normSq ((jac L a).col j)) ∧ (1 / 2) * √(normSq ((jac L a).col j)) ≤ 1 :=
  ⟨exists_lib _ (by norm_num) _ _, exists_lib _ (by norm_num) _ _, two_unclipped.2.2⟩

end Verif.BopRun
