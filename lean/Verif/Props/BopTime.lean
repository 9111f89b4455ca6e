import Verif.Lemmas.BopTime
import Verif.Lemmas.BopUnit
import Verif.Model.BopEigs
import Verif.Lemmas.QrExists

/-!
# Property C152: origin and unit of time in BOP-DMD
-/

set_option autoImplicit false

namespace Verif.BopRun

open Verif Verif.LinAlg Verif.VarPro Verif.BopStep Matrix

variable {m l n : ℕ} {fulljac : Bool} {time : Fin m → ℝ} {H : Matrix (Fin m) (Fin n) ℂ}

/-- **C152** (origin of time). Two runs of the variable projection on the same data, at the times `t` and `t + τ`, from the
same initial guess and with the same options, whatever the library returns in each: the eigenvalues and the flag are the same,
the coefficients differ by the factors `exp(-τ α)`, and the fitted sum of exponentials is the same function of physical time.
The exponentials are assumed to be independent at the points that the first run accepts. -/
theorem C152_origin {τ : ℝ} (L : Lib l fulljac time H) (L' : Lib l fulljac (fun i => time i + τ) H) (levmarq : Bool)
    (push : (Fin l → ℂ) → Fin l → ℂ) (o : Bop.Opts) (hup : 0 < o.lamup) (hin : 0 < o.initLambda) (init : Fin l → ℂ)
    (hinj : ∀ a ∈ (run L levmarq push o init).trace, Injective (phi time a)) :
    (run L' levmarq push o init).alpha = (run L levmarq push o init).alpha ∧
    (run L' levmarq push o init).converged = (run L levmarq push o init).converged ∧
    (∀ j c, coeffs L' levmarq push o init j c =
      Complex.exp (-τ * (run L levmarq push o init).alpha j) * coeffs L levmarq push o init j c) ∧
    ∀ t c, Bop.fitted (coeffs L' levmarq push o init) (run L' levmarq push o init).alpha (t + τ) c =
      Bop.fitted (coeffs L levmarq push o init) (run L levmarq push o init).alpha t c := by
  have hrun := run_shift L L' levmarq push o hup hin init hinj
  have hmem : (run L levmarq push o init).alpha ∈ (run L levmarq push o init).trace :=
    alpha_mem _ _ _ _ _ _ _ _ (List.mem_singleton_self _)
  have hc : ∀ j c, coeffs L' levmarq push o init j c =
      Complex.exp (-τ * (run L levmarq push o init).alpha j) * coeffs L levmarq push o init j c := by
    intro j c
    rw [coeffs, coeffs, hrun]
    generalize hα : (run L levmarq push o init).alpha = α at *
    have hi := hinj α hmem
    have hD := expd_det τ α
    have hi' : Injective (phi (fun i => time i + τ) α) := by rw [phi_shift]; exact injective_mul hi hD
    rw [computeB_eq L.isB hi, computeB_eq L'.isB hi', phi_shift, linv_mul_right hD, Matrix.mul_assoc]
    have : (diagonal fun j => Complex.exp (τ * α j))⁻¹ = diagonal fun j => Complex.exp (-τ * α j) := by
      refine Matrix.inv_eq_left_inv ?_
      rw [diagonal_mul_diagonal, ← diagonal_one]
      congr 1
      funext j
      rw [← Complex.exp_add, neg_mul, neg_add_cancel, Complex.exp_zero]
    rw [this, diagonal_mul]
  refine ⟨by rw [hrun], by rw [hrun], hc, fun t c => ?_⟩
  rw [hrun]
  unfold Bop.fitted
  refine Finset.sum_congr rfl fun j _ => ?_
  rw [hc, ← mul_assoc, ← Complex.exp_add]
  congr 2
  push_cast
  ring

/-- **C152** (origin of time, what the user sees; partial: no amplitude falls below `10 * eps` times the largest in either
run). `forecast` is the same function of physical time. -/
theorem C152_forecast_partial {τ : ℝ} (L : Lib l fulljac time H) (L' : Lib l fulljac (fun i => time i + τ) H) (levmarq : Bool)
    (push : (Fin l → ℂ) → Fin l → ℂ) (o : Bop.Opts) (hup : 0 < o.lamup) (hin : 0 < o.initLambda) (init : Fin l → ℂ)
    (hinj : ∀ a ∈ (run L levmarq push o init).trace, Injective (phi time a)) (ε : ℝ)
    (h0 : ∀ j, ∃ i, coeffs L levmarq push o init j i ≠ 0)
    (hs : ∀ j, ε * largest (coeffs L levmarq push o init) ≤ √(∑ i, ‖coeffs L levmarq push o init j i‖ ^ 2))
    (hs' : ∀ j, ε * largest (coeffs L' levmarq push o init) ≤ √(∑ i, ‖coeffs L' levmarq push o init j i‖ ^ 2)) (t : ℝ)
    (i : Fin n) :
    forecast ε (coeffs L' levmarq push o init) (run L' levmarq push o init).alpha (t + τ) i =
      forecast ε (coeffs L levmarq push o init) (run L levmarq push o init).alpha t i := by
  obtain ⟨-, -, hc, hf⟩ := C152_origin L L' levmarq push o hup hin init hinj
  have key : ∀ (B : Matrix (Fin l) (Fin n) ℂ) (α : Fin l → ℂ) (t : ℝ), (∀ j, ∃ i, B j i ≠ 0) →
      (∀ j, ε * largest B ≤ √(∑ i, ‖B j i‖ ^ 2)) → forecast ε B α t i = Bop.fitted B α t i := by
    intro B α t h0 hs
    obtain ⟨M, h1, -, -, h4⟩ := Bop.C68_forecast_partial ε (largest B) B α (by
      intro k
      rw [Bop.small, decide_eq_false_iff_not, abs_of_nonneg (Real.sqrt_nonneg _), not_lt]
      exact hs k) h0
    rw [← h4, forecast]
    congr 1
    funext j i
    rw [modes, h1, Option.getD_some]
  rw [key _ _ _ ?_ hs', key _ _ _ h0 hs, hf]
  intro j
  obtain ⟨i, hi⟩ := h0 j
  exact ⟨i, by rw [hc]; exact mul_ne_zero (Complex.exp_ne_zero _) hi⟩

/-- **C152** (initial guess). The matrix whose eigenvalues are the default initial guess does not depend on the origin of time,
and in another unit of time its entries, and so the guess, are divided by the factor. -/
theorem C152_initial {t q r : ℕ} (time : Fin (t + 1) → ℝ) (D : Matrix (Fin q) (Fin (t + 1)) ℂ) (U : Matrix (Fin q) (Fin r) ℂ)
    (s : Fin r → ℝ) (V : Matrix (Fin t) (Fin r) ℂ) (τ c : ℝ) :
    initialMatrix (fun i => c * time i + τ) D U s V = (c⁻¹ : ℂ) • initialMatrix time D U s V := by
  have : slopes (fun i => c * time i + τ) D = (c⁻¹ : ℂ) • slopes time D := by
    ext i j
    rw [Matrix.smul_apply, slopes, slopes, Matrix.of_apply, Matrix.of_apply, smul_eq_mul]
    push_cast
    rw [add_sub_add_right_eq_sub, ← mul_sub, mul_comm (c : ℂ), ← div_div, div_eq_mul_inv _ (c : ℂ), mul_comm]
  rw [initialMatrix, initialMatrix, this, Matrix.mul_smul, Matrix.smul_mul, Matrix.smul_mul]

/-! ### The threshold of the amplitudes -/

theorem shift_data : (Matrix.of fun i (_ : Fin 1) => 1 + Complex.exp (-((![0, 1] : Fin 2 → ℝ) i)) :
    Matrix (Fin 2) (Fin 1) ℂ) = phi ![0, 1] ![0, -1] * (Matrix.of fun _ _ => 1 : Matrix (Fin 2) (Fin 1) ℂ) := by
  ext i c
  simp [Matrix.mul_apply, Fin.sum_univ_two, phi]

theorem forecast_two (ε : ℝ) (B : Matrix (Fin 2) (Fin 1) ℂ) (α : Fin 2 → ℂ) (t : ℝ) (h0 : B 0 0 = 1)
    (h1 : ‖B 1 0‖ ≤ 1) (hε : ε ≤ 1) : largest B = 1 ∧
    (ε ≤ ‖B 1 0‖ → B 1 0 ≠ 0 → forecast ε B α t 0 = Complex.exp (α 0 * t) + B 1 0 * Complex.exp (α 1 * t)) ∧
    (‖B 1 0‖ < ε → forecast ε B α t 0 = Complex.exp (α 0 * t)) := by
  have hn : ∀ j, √(∑ i, ‖B j i‖ ^ 2) = ‖B j 0‖ := by
    intro j
    rw [Fin.sum_univ_one, Real.sqrt_sq (norm_nonneg _)]
  have hl : largest B = 1 := by
    rw [largest]
    apply le_antisymm
    · refine ciSup_le fun j => ?_
      rw [hn]
      fin_cases j
      · simp [h0]
      · exact h1
    · have := le_ciSup (f := fun j => √(∑ i, ‖B j i‖ ^ 2)) (Set.finite_range _).bddAbove 0
      refine le_trans (le_of_eq ?_) this
      exact ((hn 0).trans (by rw [h0, norm_one])).symm
  have a0 : amps ε B 0 = 1 ∧ modes ε B 0 0 = 1 := by
    have : Bop.small ε 1 (√(∑ i, ‖B 0 i‖ ^ 2)) = false := by
      rw [hn, h0]
      simpa [Bop.small] using hε
    rw [amps, modes, hl, Bop.normalise]
    simp only [this, Bool.false_eq_true, if_false]
    rw [hn, h0]
    simp
  refine ⟨hl, fun h hb => ?_, fun h => ?_⟩
  · have : Bop.small ε 1 (√(∑ i, ‖B 1 i‖ ^ 2)) = false := by
      rw [hn]
      simpa [Bop.small] using h
    have hb' : ‖B 1 0‖ ≠ 0 := norm_ne_zero_iff.mpr hb
    have a1 : modes ε B 1 0 * amps ε B 1 = B 1 0 := by
      rw [amps, modes, hl, Bop.normalise]
      simp only [this, Bool.false_eq_true, if_false]
      rw [hn, if_neg hb', Option.getD_some, div_mul_cancel₀]
      exact_mod_cast hb'
    rw [forecast, Bop.forecast, Fin.sum_univ_two, a0.1, a0.2, a1]
    simp
  · have : Bop.small ε 1 (√(∑ i, ‖B 1 i‖ ^ 2)) = true := by
      rw [hn]
      simpa [Bop.small] using h
    have a1 : amps ε B 1 = 0 := by
      rw [amps, hl, Bop.normalise]
      simp only [this, if_true]
    rw [forecast, Bop.forecast, Fin.sum_univ_two, a0.1, a0.2, a1]
    simp

/-- **C152** is false of what the user sees: the threshold of the amplitudes compares them at the time 0. The data
`1 + exp(-t)` at `t = 0, 1` are reproduced exactly; with the clock set back by 100 the second mode, half of the first snapshot,
is dropped. For all options, Jacobians and results of the library, from the exact eigenvalues as initial guess. -/
theorem C152_origin_false : ∃ (H : Matrix (Fin 2) (Fin 1) ℂ) (init : Fin 2 → ℂ), H 0 0 = 2 ∧
    (∀ fulljac, Nonempty (Lib 2 fulljac ![0, 1] H) ∧ Nonempty (Lib 2 fulljac (fun i => ![0, 1] i + -100) H)) ∧
    ∀ fulljac (L : Lib 2 fulljac ![0, 1] H) (L' : Lib 2 fulljac (fun i => ![0, 1] i + -100) H) (levmarq : Bool) (o : Bop.Opts),
      0 < o.lamup → 0 < o.initLambda →
      (∀ i, forecast (10 / 2 ^ 52) (coeffs L levmarq id o init) (run L levmarq id o init).alpha (![0, 1] i) 0 = H i 0) ∧
      forecast (10 / 2 ^ 52) (coeffs L' levmarq id o init) (run L' levmarq id o init).alpha (![0, 1] 0 + -100) 0 = 1 := by
  obtain ⟨H, hH⟩ : ∃ H : Matrix (Fin 2) (Fin 1) ℂ, H = Matrix.of fun i (_ : Fin 1) =>
    1 + Complex.exp (-((![0, 1] : Fin 2 → ℝ) i)) := ⟨_, rfl⟩
  have hHd : H = phi ![0, 1] ![0, -1] * (Matrix.of fun _ _ => 1 : Matrix (Fin 2) (Fin 1) ℂ) := hH.trans shift_data
  refine ⟨H, ![0, -1], by rw [hH]; norm_num, fun _ => ⟨exists_lib _ (by norm_num) _ _, exists_lib _ (by norm_num) _ _⟩, ?_⟩
  intro fulljac L L' levmarq o hup hin
  have hinj : Injective (phi ![0, 1] (![0, -1] : Fin 2 → ℂ)) := by
    refine phi_injective 0 1 _ (fun i => ?_) _ ?_ le_rfl
    · fin_cases i <;> simp
    · have hne : Complex.exp (-1) ≠ 1 := by
        intro h
        have := congrArg (fun z : ℂ => ‖z‖) h
        simp only [Complex.norm_exp, Complex.neg_re, Complex.one_re, norm_one, Real.exp_eq_one_iff] at this
        norm_num at this
      intro i j h
      fin_cases i <;> fin_cases j <;> simp at h ⊢
      · exact hne h.symm
      · exact hne h
  have hres : BopStep.residual ![0, 1] H L.B ![0, -1] = 0 := by
    rw [residual_eq L.isB hinj, hHd, ← Matrix.mul_assoc, Matrix.mul_assoc (phi _ _) (linv _), linv_mul hinj, Matrix.mul_one,
      sub_self]
  have hHn : √(frobSq H) ≠ 0 := by
    intro h
    rw [Real.sqrt_eq_zero (frobSq_nonneg _), frobSq_eq_zero] at h
    have := congrFun (congrFun h 0) 0
    rw [hH] at this
    norm_num at this
  have hper := Bop.C44_perfect_guess_false (prob L levmarq id) o (![0, -1] : Fin 2 → ℂ)
    (fun a => √(frobSq (BopStep.residual ![0, 1] H L.B a)) / √(frobSq H))
    (fun a => by simp only [prob, BopStep.error, Bop.relError, if_neg hHn]) (fun a => by positivity)
    (by simp [hres, frobSq])
  have hal : (run L levmarq id o ![0, -1]).alpha = ![0, -1] := hper.1
  have htr : ∀ a ∈ (run L levmarq id o ![0, -1]).trace, a = ![0, -1] := by
    obtain ⟨older, h1, h2, h3, h4, -⟩ := Bop.C44_descent_partial (prob L levmarq id) o
      (fun a => √(frobSq (BopStep.residual ![0, 1] H L.B a)) / √(frobSq H))
      (fun a => by simp only [prob, BopStep.error, Bop.relError, if_neg hHn]) ![0, -1]
    intro a ha
    change a ∈ (Bop.varpro (prob L levmarq id) o (![0, -1] : Fin 2 → ℂ)).trace at ha
    obtain ⟨ys, hys⟩ := List.getLast?_eq_some_iff.mp h2
    rw [hys] at ha h4
    rcases List.mem_append.mp ha with ha | ha
    · have hp : (ys ++ [(![0, -1] : Fin 2 → ℂ)]).Pairwise fun x y => √(frobSq (BopStep.residual ![0, 1] H L.B x)) / √(frobSq H) <
          √(frobSq (BopStep.residual ![0, 1] H L.B y)) / √(frobSq H) := by
        have := h4.imp (S := fun x y => √(frobSq (BopStep.residual ![0, 1] H L.B x)) / √(frobSq H) <
          √(frobSq (BopStep.residual ![0, 1] H L.B y)) / √(frobSq H)) fun _ _ h => h.1
        have ht : IsTrans (Fin 2 → ℂ) fun x y => √(frobSq (BopStep.residual ![0, 1] H L.B x)) / √(frobSq H) <
          √(frobSq (BopStep.residual ![0, 1] H L.B y)) / √(frobSq H) := ⟨fun _ _ _ => lt_trans⟩
        exact List.isChain_iff_pairwise.mp this
      have := (List.pairwise_append.mp hp).2.2 a ha ![0, -1] (List.mem_singleton_self _)
      rw [hres] at this
      have h0 : √(frobSq (0 : Matrix (Fin 2) (Fin 1) ℂ)) / √(frobSq H) = 0 := by simp [frobSq]
      rw [h0] at this
      exact absurd this (not_lt.mpr (by positivity))
    · exact List.mem_singleton.mp ha
  obtain ⟨h1, -, h3, -⟩ := C152_origin L L' levmarq id o hup hin ![0, -1] (fun a ha => by rw [htr a ha]; exact hinj)
  have hB : coeffs L levmarq id o ![0, -1] = Matrix.of fun _ _ => 1 := by
    rw [coeffs, hal, computeB_eq L.isB hinj, hHd, ← Matrix.mul_assoc, linv_mul hinj, Matrix.one_mul]
  have he : Real.exp (-100) < 10 / 2 ^ 52 := by
    have h1 : Real.exp (-1) ≤ 1 / 2 := by
      rw [Real.exp_neg, inv_le_comm₀ (Real.exp_pos _) (by norm_num)]
      have := Real.add_one_le_exp (1 : ℝ)
      norm_num at this ⊢
      exact this
    have h2 : Real.exp (-100) = Real.exp (-1) ^ 100 := by rw [← Real.exp_nat_mul]; norm_num
    rw [h2]
    calc Real.exp (-1) ^ 100 ≤ (1 / 2) ^ 100 := pow_le_pow_left₀ (Real.exp_pos _).le h1 _
      _ < 10 / 2 ^ 52 := by norm_num
  constructor
  · intro i
    rw [hal]
    have := (forecast_two (10 / 2 ^ 52) (coeffs L levmarq id o ![0, -1]) ![0, -1] ((![0, 1] : Fin 2 → ℝ) i) (by rw [hB]; rfl)
      (by rw [hB]; simp) (by norm_num)).2.1 (by rw [hB]; norm_num) (by rw [hB]; simp)
    rw [this, hB, hH]
    simp
  · have hb0 : coeffs L' levmarq id o ![0, -1] 0 0 = 1 := by rw [h3, hal, hB]; simp
    have hb1 : ‖coeffs L' levmarq id o ![0, -1] 1 0‖ = Real.exp (-100) := by
      rw [h3, hal, hB, Matrix.of_apply, mul_one, Complex.norm_exp]
      simp
    rw [(forecast_two (10 / 2 ^ 52) (coeffs L' levmarq id o ![0, -1]) _ _ hb0 (by rw [hb1]; simp) (by norm_num)).2.2
      (by rw [hb1]; exact he), h1, hal]
    simp

/-! ### Unit of time -/

/-- **C152** (unit of time; partial: with the scaling of Marquardt, and where it is not clipped). Two runs on the same data at
the times `t` and `c t`, from corresponding initial guesses, with constraints that do not depend on the unit: the eigenvalues of
the second are those of the first divided by `c`, the coefficients are the same. The norms of the columns of the Jacobian are
assumed to lie between `1e-6` and 1 in both units at the points that the first run accepts. -/
theorem C152_unit_partial {c : ℝ} (hc : 0 < c) (L : Lib l fulljac time H) (L' : Lib l fulljac (fun i => c * time i) H)
    (push : (Fin l → ℂ) → Fin l → ℂ) (hpush : ∀ α, push (fun j => α j / c) = fun j => push α j / c)
    (o : Bop.Opts) (hup : 0 < o.lamup) (hin : 0 < o.initLambda) (init : Fin l → ℂ)
    (hinj : ∀ a ∈ (run L true push o init).trace, Injective (phi time a) ∧ ∀ j,
      1 / 10 ^ 6 ≤ √(normSq ((jac L a).col j)) ∧ √(normSq ((jac L a).col j)) ≤ 1 ∧
      1 / 10 ^ 6 ≤ c * √(normSq ((jac L a).col j)) ∧ c * √(normSq ((jac L a).col j)) ≤ 1) :
    (run L' true push o fun j => init j / c).alpha = (fun j => (run L true push o init).alpha j / c) ∧
    (run L' true push o fun j => init j / c).converged = (run L true push o init).converged ∧
    coeffs L' true push o (fun j => init j / c) = coeffs L true push o init ∧
    ∀ t i, Bop.fitted (coeffs L' true push o fun j => init j / c) (run L' true push o fun j => init j / c).alpha (c * t) i =
      Bop.fitted (coeffs L true push o init) (run L true push o init).alpha t i := by
  have hcC : (c : ℂ) ≠ 0 := by exact_mod_cast hc.ne'
  have hres : ∀ α : Fin l → ℂ, BopStep.residual (fun i => c * time i) H L'.B (fun j => α j / c) =
      BopStep.residual time H L.B α := fun α =>
    residual_proj (time' := fun i => c * time i) (α' := fun j => α j / c) (α := α) (H := H) L.B L'.B L.isB L'.isB
      (D := 1) (by simp) (by rw [phi_unit hc.ne', Matrix.mul_one])
  let Good : (Fin l → ℂ) → Prop := fun a => Injective (phi time a) ∧ ∀ j,
      1 / 10 ^ 6 ≤ √(normSq ((jac L a).col j)) ∧ √(normSq ((jac L a).col j)) ≤ 1 ∧
      1 / 10 ^ 6 ≤ c * √(normSq ((jac L a).col j)) ∧ c * √(normSq ((jac L a).col j)) ≤ 1
  have hsc : ∀ a, Good a → scales true (jac L' fun j => a j / c) = fun j => c * scales true (jac L a) j := by
    intro a ha
    funext j
    obtain ⟨h1, h2, h3, h4⟩ := ha.2 j
    have hn : √(normSq ((jac L' fun j => a j / c).col j)) = c * √(normSq ((jac L a).col j)) := by
      rw [jac_unit hc.ne' L L' ha.1]
      have : normSq (((c : ℂ) • jac L a).col j) = c ^ 2 * normSq ((jac L a).col j) := by
        simp only [normSq, Finset.mul_sum]
        refine Finset.sum_congr rfl fun p _ => ?_
        simp only [Matrix.col_apply, Matrix.smul_apply, smul_eq_mul, Complex.normSq_mul, Complex.normSq_ofReal]
        ring
      rw [this, Real.sqrt_mul (sq_nonneg c), Real.sqrt_sq hc.le]
    rw [scales, scales, if_pos rfl, if_pos rfl, hn, min_eq_left h4, max_eq_left h3, min_eq_left h2, max_eq_left h1]
  have hd : ∀ a, Good a → ∀ lam, 0 < lam →
      delta L' true (fun j => a j / c) lam = fun j => delta L true a lam j / c := by
    intro a ha lam hlam
    have h1 := delta_eqn L true a lam
    have h2 := delta_eqn L' true (fun j => a j / c) lam
    rw [hsc a ha, jac_unit hc.ne' L L' ha.1, hres] at h2
    have h3 : (fun j => (c : ℂ) * delta L' true (fun j => a j / c) lam j) = delta L true a lam := by
      refine normal_unique (jac L a) (scales true (jac L a)) (scales_pos true _) lam hlam _ _ ?_
      rw [h1]
      rw [conjTranspose_smul, smul_mulVec, Matrix.smul_mul, Matrix.mul_smul, smul_smul, smul_mulVec] at h2
      have hst : star (c : ℂ) = c := by simp
      rw [hst] at h2
      have h4 := congrArg (fun v => ((c : ℂ)⁻¹) • v) h2
      simp only [smul_add, smul_smul] at h4
      rw [inv_mul_cancel₀ hcC, one_smul] at h4
      rw [← h4]
      have e : (fun j => (c : ℂ) * delta L' true (fun j => a j / c) lam j) =
          (c : ℂ) • delta L' true (fun j => a j / c) lam := rfl
      rw [e, mulVec_smul]
      congr 1
      · congr 1
        field_simp
      · funext j
        simp only [Pi.smul_apply, smul_eq_mul]
        push_cast
        field_simp
    funext j
    rw [← congrFun h3 j]
    field_simp
  have hrun : run L' true push o (fun j => init j / c) = mapRes (fun a j => a j / (c : ℂ)) (run L true push o init) := by
    have := varpro_congr (fun (a : Fin l → ℂ) j => a j / (c : ℂ)) (prob L true push) (prob L' true push) o ?_ hup hin Good ?_ ?_
      (push init) hinj
    · rw [run, hpush]
      exact this
    · intro a
      simp only [prob, BopStep.error, hres]
    · intro a ha lam hlam
      simp only [prob]
      rw [hd a ha lam hlam, ← hpush]
      congr 1
      funext j
      simp only [Pi.add_apply]
      ring
    · intro a ha x lam hlam
      refine ⟨?_, mul_pos hlam (max_third_pos _)⟩
      simp only [prob, ratio, hres]
      rw [hd a ha lam hlam, jac_unit hc.ne' L L' ha.1]
      have e : (star fun j => delta L true a lam j / (c : ℂ)) ⬝ᵥ (((c : ℂ) • jac L a)ᴴ *ᵥ
          fun p => BopStep.residual time H L.B a p.1 p.2) =
          star (delta L true a lam) ⬝ᵥ ((jac L a)ᴴ *ᵥ fun p => BopStep.residual time H L.B a p.1 p.2) := by
        have e1 : (star fun j => delta L true a lam j / (c : ℂ)) = ((c : ℂ)⁻¹) • star (delta L true a lam) := by
          funext j
          simp [div_eq_mul_inv, mul_comm]
        have hst : star (c : ℂ) = c := by simp
        rw [e1, conjTranspose_smul, hst, smul_mulVec, smul_dotProduct, dotProduct_smul, smul_smul, inv_mul_cancel₀ hcC, one_smul]
      rw [e]
  have hal : (run L' true push o fun j => init j / c).alpha = (fun j => (run L true push o init).alpha j / c) := by
    rw [hrun]; rfl
  have hmem : (run L true push o init).alpha ∈ (run L true push o init).trace :=
    alpha_mem _ _ _ _ _ _ _ _ (List.mem_singleton_self _)
  have hi := (hinj _ hmem).1
  have hco : coeffs L' true push o (fun j => init j / c) = coeffs L true push o init := by
    rw [coeffs, coeffs, hal, computeB_eq L.isB hi, computeB_eq L'.isB (by rw [phi_unit hc.ne']; exact hi), phi_unit hc.ne']
  refine ⟨hal, by rw [hrun]; rfl, hco, fun t i => ?_⟩
  rw [hco, hal]
  unfold Bop.fitted
  refine Finset.sum_congr rfl fun j _ => ?_
  congr 2
  push_cast
  field_simp

theorem exp_upper {x : ℝ} (h : 0 < 1 - x) : Real.exp x ≤ 1 / (1 - x) := by
  rw [le_div_iff₀ h]
  have := Real.add_one_le_exp (-x)
  calc Real.exp x * (1 - x) ≤ Real.exp x * Real.exp (-x) := mul_le_mul_of_nonneg_left (by linarith) (Real.exp_pos _).le
    _ = 1 := by rw [← Real.exp_add]; simp

theorem two_first {time : Fin 2 → ℝ} (h0 : time 0 = 0) (h1 : time 1 = 1) (L : Lib 1 true time twoH) (o : Bop.Opts)
    (hi : o.initLambda = 1) (hm : o.maxiter = 1) :
    (run L true id o fun _ => 0).alpha = (fun _ => ((-2 / 5 : ℝ) : ℂ)) ∧
    (run L true id o fun _ => 0).trace = [fun _ => ((-2 / 5 : ℝ) : ℂ), fun _ => 0] := by
  refine two_run h0 h1 L o hi hm _ ?_ ?_ ?_
  · have hs : √(5 / 8 * 1 ^ 2 : ℝ) ≤ 1 := Real.sqrt_le_one.mpr (by norm_num)
    have hs' : (1 / 10 ^ 6 : ℝ) ≤ √(5 / 8 * 1 ^ 2 : ℝ) := Real.le_sqrt_of_sq_le (by norm_num)
    rw [min_eq_left hs, max_eq_left hs', Real.sq_sqrt (by norm_num)]
    norm_num
  · exact lt_of_le_of_lt (exp_upper (by norm_num)) (by norm_num)
  · exact lt_of_lt_of_le (by norm_num) (Real.add_one_le_exp _)

/-- **C152** (unit of time; negative part). The samples 3/2 and 1/2 of one signal, fitted with one eigenvalue from the guess 0,
with the default options apart from one iteration. If the second sample is taken 1 after the first, then the eigenvalue is -2/5.
If the same instant is called 2, in half the unit, then it is not -1/5 but -2/7. -/
theorem C152_unit_false : ∃ H : Matrix (Fin 2) (Fin 1) ℂ,
    Nonempty (Lib 1 true ![0, 1] H) ∧ Nonempty (Lib 1 true (fun i => 2 * ![0, 1] i) H) ∧
    ∀ (L : Lib 1 true ![0, 1] H) (L' : Lib 1 true (fun i => 2 * ![0, 1] i) H) (o : Bop.Opts), o.initLambda = 1 → o.maxiter = 1 →
      (run L true id o fun _ => 0).alpha 0 = -2 / 5 ∧ (run L' true id o fun _ => 0).alpha 0 = -2 / 7 := by
  refine ⟨twoH, exists_lib _ (by norm_num) _ _, exists_lib _ (by norm_num) _ _, fun L L' o hi hm => ⟨?_, ?_⟩⟩
  · rw [(two_first (by simp) (by simp) L o hi hm).1]
    push_cast
    rfl
  · rw [(two_run (T := 2) (by simp) (by simp) L' o hi hm (-2 / 7) ?_ ?_ ?_).1]
    · push_cast
      rfl
    · have hs : 1 ≤ √(5 / 8 * 2 ^ 2 : ℝ) := Real.le_sqrt_of_sq_le (by norm_num)
      rw [min_eq_right hs, max_eq_left (by norm_num)]
      norm_num
    · exact lt_of_le_of_lt (exp_upper (by norm_num)) (by norm_num)
    · exact lt_of_lt_of_le (by norm_num) (Real.add_one_le_exp _)

/-- The hypotheses of `C152_unit_partial` (and those of `C152_origin`) hold for the first run above and half of the times: the
run moves to another point, and there and at the start the norm of the column is between `1e-6` and 1 in both units. -/
theorem two_unclipped : Nonempty (Lib 1 true ![0, 1] twoH) ∧ Nonempty (Lib 1 true (fun i => (1 / 2) * ![0, 1] i) twoH) ∧
    ∀ (L : Lib 1 true ![0, 1] twoH) (o : Bop.Opts), o.initLambda = 1 → o.maxiter = 1 →
      (run L true id o fun _ => 0).trace.length = 2 ∧ ∀ a ∈ (run L true id o fun _ => 0).trace, Injective (phi ![0, 1] a) ∧ ∀ j,
      1 / 10 ^ 6 ≤ √(normSq ((jac L a).col j)) ∧ √(normSq ((jac L a).col j)) ≤ 1 ∧
      1 / 10 ^ 6 ≤ (1 / 2) * √(normSq ((jac L a).col j)) ∧ (1 / 2) * √(normSq ((jac L a).col j)) ≤ 1 := by
  refine ⟨exists_lib _ (by norm_num) _ _, exists_lib _ (by norm_num) _ _, fun L o hi hm => ?_⟩
  have h0 : (![0, 1] : Fin 2 → ℝ) 0 = 0 := by simp
  have h1 : (![0, 1] : Fin 2 → ℝ) 1 = 1 := by simp
  rw [(two_first h0 h1 L o hi hm).2]
  refine ⟨rfl, fun a ha => ⟨two_inj h0 h1 _, fun j => ?_⟩⟩
  obtain ⟨r, hr, har⟩ : ∃ r : ℝ, 1 / 2 ≤ Real.exp (1 * r) ∧ a = fun _ => (r : ℂ) := by
    rcases List.mem_pair.mp ha with h | h
    · exact ⟨-2 / 5, le_trans (by norm_num) (Real.add_one_le_exp _), h⟩
    · exact ⟨0, by norm_num, h.trans (by simp)⟩
  have hr1 : Real.exp (1 * r) ≤ 1 := by
    rcases List.mem_pair.mp ha with h | h
    · have := congrFun (har.symm.trans h) 0
      rw [Complex.ofReal_inj] at this
      rw [this]
      exact le_trans (exp_upper (by norm_num)) (by norm_num)
    · have := congrFun (har.symm.trans h) 0
      simp only [Complex.ofReal_eq_zero] at this
      rw [this]
      norm_num
  rw [har, two_norm h0 h1]
  generalize Real.exp (1 * r) = x at hr hr1
  have hx : (0 : ℝ) < 1 + x ^ 2 := by positivity
  have hlo : 1 / 4 ≤ 1 * x / (1 + x ^ 2) := by rw [le_div_iff₀ hx]; nlinarith
  have hhi : 1 * x / (1 + x ^ 2) ≤ 1 / 2 := by rw [div_le_iff₀ hx]; nlinarith [sq_nonneg (x - 1)]
  generalize 1 * x / (1 + x ^ 2) = y at hlo hhi
  have h3 : 1 / 4 ≤ √(5 / 2 * y ^ 2) := Real.le_sqrt_of_sq_le (by nlinarith)
  have h4 : √(5 / 2 * y ^ 2) ≤ 1 := Real.sqrt_le_one.mpr (by nlinarith)
  refine ⟨le_trans (by norm_num) h3, h4, by linarith, by linarith⟩

theorem argmin_scale {c : ℝ} (hc : 0 < c) (n : ℕ) (f g : ℕ → ℝ) (h : ∀ i, g i = f i / c) :
    BopEigs.argmin n g = BopEigs.argmin n f := by
  unfold BopEigs.argmin
  congr 1
  funext b i
  rw [h, h]
  simp only [div_lt_div_iff_of_pos_right hc]

theorem near_scale {c : ℝ} (hc : 0 < c) (n : ℕ) (e : ℕ → ℂ) (i : ℕ) :
    BopEigs.near n (fun j => e j / c) i = BopEigs.near n e i := by
  refine argmin_scale hc n _ _ fun j => ?_
  rw [map_div₀, Complex.conj_ofReal, ← sub_div, norm_div, Complex.norm_real, Real.norm_of_nonneg hc.le]

theorem pairVal_scale {c : ℝ} (hc : 0 < c) (e : ℕ → ℂ) (i j : ℕ) :
    BopEigs.pairVal (fun k => e k / c) i j = BopEigs.pairVal e i j / c := by
  have hcC : (c : ℂ) ≠ 0 := by exact_mod_cast hc.ne'
  have hs : Real.sign ((e i).im / c) = Real.sign (e i).im := by
    rcases lt_trichotomy (e i).im 0 with h | h | h
    · rw [Real.sign_of_neg h, Real.sign_of_neg (div_neg_of_neg_of_pos h hc)]
    · rw [h, zero_div]
    · rw [Real.sign_of_pos h, Real.sign_of_pos (div_pos h hc)]
  simp only [BopEigs.pairVal, Complex.div_ofReal_re, Complex.div_ofReal_im, hs, abs_div, abs_of_pos hc]
  push_cast
  field_simp

theorem pairLoop_scale {c : ℝ} (hc : 0 < c) (n : ℕ) (e : ℕ → ℂ) (pop : Finset ℕ → ℕ) : ∀ k S new,
    BopEigs.pairLoop n (fun j => e j / c) pop k S (fun i => (new i).map (· / (c : ℂ))) =
      (BopEigs.pairLoop n e pop k S new).map fun v i => (v i).map (· / (c : ℂ))
  | 0, S, new => rfl
  | k + 1, S, new => by
    unfold BopEigs.pairLoop
    simp only [near_scale hc]
    split_ifs
    · rfl
    · rw [← pairLoop_scale hc n e pop k]
      congr 1
      funext i
      simp only [Function.update_apply, pairVal_scale hc]
      split_ifs <;> rfl
    · rfl

/-- **C152** (the built-in constraints do not depend on the unit). `_push_eigenvalues` with any valid constraints, applied to
eigenvalues in another unit of time, gives the constrained eigenvalues in that unit, or the same error. This is the hypothesis on
`push` in `C152_unit_partial`. -/
theorem C152_constraints {c : ℝ} (hc : 0 < c) (k : BopEigs.Constraints) (n : ℕ) (e : ℕ → ℂ) (pop : Finset ℕ → ℕ) :
    BopEigs.push k n (fun j => e j / c) pop = (BopEigs.push k n e pop).map fun v i => (v i).map (· / (c : ℂ)) := by
  have hcC : (c : ℂ) ≠ 0 := by exact_mod_cast hc.ne'
  have hl : ∀ z : ℂ, BopEigs.pushLast k (z / c) = BopEigs.pushLast k z / c := by
    intro z
    simp only [BopEigs.pushLast, BopEigs.pushStable, BopEigs.pushImag, Complex.div_ofReal_re, Complex.div_ofReal_im, gt_iff_lt,
      div_pos_iff_of_pos_right hc]
    split_ifs <;> push_cast <;> field_simp
  have hp : BopEigs.conjugatePairs n (fun j => e j / c) pop =
      (BopEigs.conjugatePairs n e pop).map fun v i => (v i).map (· / (c : ℂ)) := by
    unfold BopEigs.conjugatePairs
    have h0 : (BopEigs.argmin n fun j => |(e j / (c : ℂ)).im|) = BopEigs.argmin n fun j => |(e j).im| :=
      argmin_scale hc n _ _ fun j => by rw [Complex.div_ofReal_im, abs_div, abs_of_pos hc]
    rw [h0]
    split_ifs
    · dsimp only
      rw [← pairLoop_scale hc n e pop]
      congr 1
      funext i
      simp only [Function.update_apply, Complex.div_ofReal_re]
      split_ifs <;> simp
    · rw [← pairLoop_scale hc n e pop]
      rfl
  unfold BopEigs.push
  cases hk : k.conj
  · simp only [Bool.false_eq_true, if_false]
    simp only [Except.map, Option.map_some, hl]
  · simp only [if_true, hp]
    cases BopEigs.conjugatePairs n e pop with
    | error er => rfl
    | ok v =>
      simp only [Except.map, Option.map_map]
      congr 1
      funext i
      cases v i with
      | none => rfl
      | some z => simp [hl]

/-- The constraint acts: with `"stable"` the value `2 + 3i` becomes `3i`, and in half the unit `3i/2`. -/
example (pop : Finset ℕ → ℕ) : BopEigs.push ⟨true, false, false⟩ 1 (fun _ => ⟨2, 3⟩) pop = .ok (fun _ => some (Complex.I * 3)) ∧
    BopEigs.push ⟨true, false, false⟩ 1 (fun _ => ⟨2, 3⟩ / (2 : ℝ)) pop = .ok (fun _ => some (Complex.I * 3 / (2 : ℝ))) := by
  have h : BopEigs.push ⟨true, false, false⟩ 1 (fun _ => ⟨2, 3⟩) pop = .ok (fun _ => some (Complex.I * 3)) := by
    simp [BopEigs.push, BopEigs.pushLast, BopEigs.pushStable]
  exact ⟨h, by rw [C152_constraints (by norm_num) _ _ (fun _ => (⟨2, 3⟩ : ℂ)), h]; rfl⟩

end Verif.BopRun
