import Verif.Lemmas.Linear

/-!
# Properties C16, C19, C54: linear trajectories, optimal amplitudes, forward-backward DMD
-/

set_option autoImplicit false

namespace Verif.Operator

open Verif Verif.LinAlg Verif.Time Verif.Bitmask Matrix

variable {m n r : Type} [Fintype m] [Fintype n] [Fintype r] [DecidableEq r] [DecidableEq n]

private theorem mulVec_diag (d v : r → ℂ) : diagonal d *ᵥ v = fun i => d i * v i :=
  funext fun i => mulVec_diagonal d v i

/-- **C16** (linear trajectories, projected modes). Let the `N + 1` snapshots be
`x_{k+1} = A x_k`, let `X = U S V^H` be an SVD of the first `N` with all (nonzero) singular values
kept, let the last snapshot be a combination of the earlier ones, and the reduced operator be
diagonalised by an invertible `W`. Then, with the amplitudes computed from the first snapshot,
`reconstructed_data` over any window `0, …, T` (also far beyond the training window) consists of
the true states `x_0, …, x_T`. -/
theorem C16_projected [DecidableEq m] {N q : ℕ} (A : Matrix m m ℂ) (x : ℕ → m → ℂ)
    (hx : ∀ k, x (k + 1) = A *ᵥ x k) (X Y : Matrix m (Fin N) ℂ)
    (hX : ∀ p (j : Fin N), X p j = x j p) (hY : ∀ p (j : Fin N), Y p j = x (j + 1) p)
    (U : Matrix m (Fin q) ℂ) (s : Fin q → ℝ) (V : Matrix (Fin N) (Fin q) ℂ) (h : IsSVD X U s V)
    (hs : ∀ i, s i ≠ 0) (hN : 0 < N) (hspan : ∃ c, x N = X *ᵥ c)
    (W : Matrix (Fin q) (Fin q) ℂ) (hWu : IsUnit W.det) (eigs : Fin q → ℂ)
    (hW : leastSquareOperator none U s V Y * W = W * diagonal eigs)
    (b : Fin q → ℂ) (hb : IsLstsq (computeModes false none Y U s V W) (x 0) b) (T : ℕ) :
    reconstructed
      (afterFit (List.ofFn fun i p => computeModes false none Y U s V W p i) (List.ofFn eigs)
        (List.ofFn b)) (fitWindow (N + 1)) ⟨0, T, 1⟩ (.bool false) (N + 1) =
      .ok ((List.range (T + 1)).map x) := by
  obtain ⟨hA, -, hproj, htraj⟩ := reduced_trajectory A x hx X Y hX hY U s V h hs hN hspan
  have hm : computeModes false none Y U s V W = U * W := by simp [computeModes]
  rw [hm] at hb ⊢
  -- the first snapshot is reached exactly
  have hx0 : x 0 = (U * W) *ᵥ (W⁻¹ *ᵥ (Uᴴ *ᵥ x 0)) := by
    rw [mulVec_mulVec, Matrix.mul_assoc, mul_nonsing_inv W hWu, Matrix.mul_one, hproj]
  have hb0 : (U * W) *ᵥ b = x 0 := by
    rw [hx0] at hb
    rw [lstsq_solves _ _ _ hb, ← hx0]
  have hWb : W *ᵥ b = Uᴴ *ᵥ x 0 := by
    rw [← hb0, mulVec_mulVec, ← Matrix.mul_assoc, h.u, Matrix.one_mul]
  apply reconstructed_ofFn
  intro k
  have h1 : (fun p => ∑ i, (U * W) p i * (eigs i ^ k * b i)) =
      (U * W) *ᵥ (diagonal (fun i => eigs i ^ k) *ᵥ b) := by
    funext p
    rw [mulVec_diag]
    simp [mulVec, dotProduct]
  rw [h1, mulVec_mulVec, Matrix.mul_assoc, ← pow_diagonalised _ _ _ hW, ← mulVec_mulVec,
    ← mulVec_mulVec, hWb, htraj]

/-- **C16** (linear trajectories, exact modes). The same holds with `exact=True` if no eigenvalue
of the reduced operator is zero. -/
theorem C16_exact [DecidableEq m] {N q : ℕ} (A : Matrix m m ℂ) (x : ℕ → m → ℂ)
    (hx : ∀ k, x (k + 1) = A *ᵥ x k) (X Y : Matrix m (Fin N) ℂ)
    (hX : ∀ p (j : Fin N), X p j = x j p) (hY : ∀ p (j : Fin N), Y p j = x (j + 1) p)
    (U : Matrix m (Fin q) ℂ) (s : Fin q → ℝ) (V : Matrix (Fin N) (Fin q) ℂ) (h : IsSVD X U s V)
    (hs : ∀ i, s i ≠ 0) (hN : 0 < N) (hspan : ∃ c, x N = X *ᵥ c)
    (W : Matrix (Fin q) (Fin q) ℂ) (hWu : IsUnit W.det) (eigs : Fin q → ℂ) (he : ∀ i, eigs i ≠ 0)
    (hW : leastSquareOperator none U s V Y * W = W * diagonal eigs)
    (b : Fin q → ℂ) (hb : IsLstsq (computeModes true none Y U s V W) (x 0) b) (T : ℕ) :
    reconstructed
      (afterFit (List.ofFn fun i p => computeModes true none Y U s V W p i) (List.ofFn eigs)
        (List.ofFn b)) (fitWindow (N + 1)) ⟨0, T, 1⟩ (.bool false) (N + 1) =
      .ok ((List.range (T + 1)).map x) := by
  obtain ⟨hA, hall, hproj, htraj⟩ := reduced_trajectory A x hx X Y hX hY U s V h hs hN hspan
  -- exact modes lie in the range of U
  have hUY : U * (Uᴴ * Y) = Y := by
    ext p j
    have := congrFun (hproj (j + 1)) p
    rw [hY, ← this, Matrix.mul_apply, mulVec, dotProduct]
    refine Finset.sum_congr rfl fun a _ => ?_
    congr 1
    rw [Matrix.mul_apply, mulVec, dotProduct]
    exact Finset.sum_congr rfl fun c _ => by rw [hY]
  have hm : computeModes true none Y U s V W = U * W * diagonal eigs := by
    have h0 : computeModes true none Y U s V W = Y * V * rdiag (fun i => (s i)⁻¹) * W := by
      simp [computeModes, tikSigma]
    have h1 : leastSquareOperator none U s V Y = Uᴴ * Y * V * rdiag (fun i => (s i)⁻¹) := by
      simp [leastSquareOperator, tikSigma]
    rw [h0, Matrix.mul_assoc U, ← hW, h1]
    conv_lhs => rw [← hUY]
    simp only [Matrix.mul_assoc]
  rw [hm] at hb ⊢
  have hDu : diagonal eigs * diagonal (fun i => (eigs i)⁻¹) = 1 := by
    rw [diagonal_mul_diagonal, ← diagonal_one]
    congr 1; funext i; exact mul_inv_cancel₀ (he i)
  have hx0 : x 0 = (U * W * diagonal eigs) *ᵥ
      (diagonal (fun i => (eigs i)⁻¹) *ᵥ (W⁻¹ *ᵥ (Uᴴ *ᵥ x 0))) := by
    rw [mulVec_mulVec, Matrix.mul_assoc (U * W), hDu, Matrix.mul_one, mulVec_mulVec,
      Matrix.mul_assoc, mul_nonsing_inv W hWu, Matrix.mul_one, hproj]
  have hb0 : (U * W * diagonal eigs) *ᵥ b = x 0 := by
    rw [hx0] at hb
    rw [lstsq_solves _ _ _ hb, ← hx0]
  have hWb : W *ᵥ (diagonal eigs *ᵥ b) = Uᴴ *ᵥ x 0 := by
    rw [← hb0, mulVec_mulVec, mulVec_mulVec]
    congr 1
    calc W * diagonal eigs = (Uᴴ * U) * W * diagonal eigs := by rw [h.u, Matrix.one_mul]
      _ = _ := by simp only [Matrix.mul_assoc]
  apply reconstructed_ofFn
  intro k
  have h1 : (fun p => ∑ i, (U * W * diagonal eigs) p i * (eigs i ^ k * b i)) =
      (U * W * diagonal (fun i => eigs i ^ k)) *ᵥ (diagonal eigs *ᵥ b) := by
    funext p
    rw [mulVec_diag]
    simp only [mulVec, dotProduct, mul_diagonal]
    refine Finset.sum_congr rfl fun i _ => ?_
    ring
  rw [h1, Matrix.mul_assoc U, ← pow_diagonalised _ _ _ hW, ← mulVec_mulVec, ← mulVec_mulVec, hWb,
    htraj]

/-- **C16**, the span condition cannot be dropped: for the two snapshots `e1, e2` of a linear
system the (only) reduced operator is 0 and the second snapshot is reconstructed as 0. -/
theorem C16_no_span_false :
    ∃ (A : Matrix (Fin 2) (Fin 2) ℂ) (x : ℕ → Fin 2 → ℂ) (X Y : Matrix (Fin 2) (Fin 1) ℂ)
      (U : Matrix (Fin 2) (Fin 1) ℂ) (s : Fin 1 → ℝ) (V W : Matrix (Fin 1) (Fin 1) ℂ)
      (eigs b : Fin 1 → ℂ),
      (∀ k, x (k + 1) = A *ᵥ x k) ∧ (∀ p (j : Fin 1), X p j = x j p) ∧
      (∀ p (j : Fin 1), Y p j = x (j + 1) p) ∧ IsSVD X U s V ∧ (∀ i, s i ≠ 0) ∧ IsUnit W.det ∧
      leastSquareOperator none U s V Y * W = W * diagonal eigs ∧
      IsLstsq (computeModes false none Y U s V W) (x 0) b ∧
      (fun p => ∑ i, computeModes false none Y U s V W p i * (eigs i ^ 1 * b i)) ≠ x 1 := by
  refine ⟨!![0, 0; 1, 0], fun k => if k = 0 then ![1, 0] else if k = 1 then ![0, 1] else 0,
    !![1; 0], !![0; 1], !![1; 0], fun _ => 1, 1, 1, fun _ => 0, fun _ => 1, ?_, ?_, ?_, ?_,
    by simp, by simp, ?_, ?_, ?_⟩
  · intro k
    rcases k with _ | _ | k
    · funext i; fin_cases i <;> simp [mulVec, dotProduct]
    · funext i; fin_cases i <;> simp [mulVec, dotProduct]
    · funext i; simp
  · intro p j; fin_cases p <;> fin_cases j <;> simp
  · intro p j; fin_cases p <;> fin_cases j <;> simp
  · refine ⟨?_, ?_, by simp, by simp⟩
    · ext i j; fin_cases i <;> fin_cases j <;> simp [rdiag]
    · ext i j; fin_cases i; fin_cases j; simp [Matrix.mul_apply, Fin.sum_univ_two]
  · ext i j; fin_cases i; fin_cases j
    simp [leastSquareOperator, tikSigma, rdiag, Matrix.mul_apply, Fin.sum_univ_two]
  · apply isLstsq_of_normal
    funext i; fin_cases i
    simp [computeModes, mulVec, dotProduct]
  · intro h
    have := congrFun h 1
    simp at this

/-- Instance of the hypotheses of C16: the scalar trajectory `1, 2, 4, …`. -/
example : ∃ (x : ℕ → Fin 1 → ℂ) (X Y : Matrix (Fin 1) (Fin 1) ℂ),
    (∀ k, x (k + 1) = !![(2 : ℂ)] *ᵥ x k) ∧ (∀ p (j : Fin 1), X p j = x j p) ∧
    (∀ p (j : Fin 1), Y p j = x (j + 1) p) ∧ IsSVD X 1 (fun _ => 1) (1 : Matrix (Fin 1) (Fin 1) ℂ) ∧
    (∃ c, x 1 = X *ᵥ c) ∧ IsUnit (1 : Matrix (Fin 1) (Fin 1) ℂ).det ∧
    leastSquareOperator none 1 (fun _ => 1) (1 : Matrix (Fin 1) (Fin 1) ℂ) Y * 1 =
      1 * diagonal (fun _ => (2 : ℂ)) := by
  refine ⟨fun k _ => 2 ^ k, 1, !![2], ?_, ?_, ?_, ⟨by simp [rdiag], by simp, by simp, by simp⟩,
    ⟨fun _ => 2, by funext i; simp⟩, by simp, ?_⟩
  · intro k; funext i; fin_cases i; simp [mulVec, dotProduct, pow_succ']
  · intro p j; fin_cases p; fin_cases j; simp
  · intro p j; fin_cases p; fin_cases j; simp
  · ext i j; fin_cases i; fin_cases j
    simp [leastSquareOperator, tikSigma, rdiag, Matrix.mul_apply]

/-! ## C19 -/

/-- The matrix whose columns are the flattened contributions of the modes. -/
def stack (modes : Matrix m r ℂ) (V : Matrix r n ℂ) : Matrix (m × n) r ℂ :=
  of fun pj i => modes pj.1 i * V i pj.2

theorem stack_mulVec (modes : Matrix m r ℂ) (V : Matrix r n ℂ) (b : r → ℂ) :
    stack modes V *ᵥ b = flat (modes * diagonal b * V) := by
  funext ⟨p, j⟩
  simp only [mulVec, dotProduct, stack, of_apply, flat, Matrix.mul_apply (M := modes * _),
    mul_diagonal]
  exact Finset.sum_congr rfl fun i _ => by ring

theorem stack_gram (modes : Matrix m r ℂ) (V : Matrix r n ℂ) :
    (stack modes V)ᴴ * stack modes V = optP modes V := by
  ext i k
  simp only [Matrix.mul_apply, conjTranspose_apply, stack, of_apply, optP, star_sum, star_mul',
    star_star, Fintype.sum_prod_type, Finset.sum_mul_sum]
  refine Finset.sum_congr rfl fun p _ => Finset.sum_congr rfl fun j _ => ?_
  ring

theorem stack_rhs (modes : Matrix m r ℂ) (V : Matrix r n ℂ) (X : Matrix m n ℂ) :
    (stack modes V)ᴴ *ᵥ flat X = optQExact modes V X := by
  funext i
  simp only [mulVec, dotProduct, conjTranspose_apply, stack, of_apply, optQExact, flat,
    Matrix.mul_apply, star_sum, star_mul', star_star, Fintype.sum_prod_type, Finset.sum_mul]
  refine Finset.sum_congr rfl fun p _ => Finset.sum_congr rfl fun j _ => ?_
  ring

theorem opt_gap (modes : Matrix m r ℂ) (V : Matrix r n ℂ) (X : Matrix m n ℂ) (b : r → ℂ)
    (hb : optP modes V *ᵥ b = optQExact modes V X) (c : r → ℂ) :
    frobSq (modes * diagonal c * V - X) =
      frobSq (modes * diagonal b * V - X) + frobSq (modes * diagonal (c - b) * V) := by
  have hn : (stack modes V)ᴴ *ᵥ (stack modes V *ᵥ b - flat X) = 0 := by
    rw [mulVec_sub, mulVec_mulVec, stack_gram, hb, stack_rhs, sub_self]
  have := lstsq_gap _ _ _ hn c
  rw [stack_mulVec, stack_mulVec, stack_mulVec] at this
  rw [frobSq_flat, frobSq_flat, frobSq_flat]
  exact this

/-- **C19** (`exact=True`). Amplitudes solving `P b = q` minimise the Frobenius distance between
the snapshots and `modes * diag(b) * V` over all amplitude vectors (`V` is the Vandermonde matrix
of the eigenvalues); if `P` is invertible, they are the only minimiser. -/
theorem C19_exact {N : ℕ} (modes : Matrix m r ℂ) (eigs : r → ℂ) (snaps : Matrix m (Fin N) ℂ)
    (b : r → ℂ)
    (hb : optP modes (vander eigs N) *ᵥ b = optQExact modes (vander eigs N) snaps) :
    (∀ c, frobSq (modes * diagonal b * (of fun i (j : Fin N) => eigs i ^ (j : ℕ)) - snaps) ≤
      frobSq (modes * diagonal c * (of fun i (j : Fin N) => eigs i ^ (j : ℕ)) - snaps)) ∧
    (IsUnit (optP modes (vander eigs N)).det → ∀ c,
      frobSq (modes * diagonal c * (of fun i (j : Fin N) => eigs i ^ (j : ℕ)) - snaps) ≤
      frobSq (modes * diagonal b * (of fun i (j : Fin N) => eigs i ^ (j : ℕ)) - snaps) →
      c = b) := by
  have hv : (of fun i (j : Fin N) => eigs i ^ (j : ℕ)) = vander eigs N := rfl
  rw [hv]
  refine ⟨fun c => ?_, fun hu c hc => ?_⟩
  · rw [opt_gap modes _ snaps b hb c]
    have := frobSq_nonneg (modes * diagonal (c - b) * vander eigs N)
    linarith
  · rw [opt_gap modes _ snaps b hb c] at hc
    have h0 : frobSq (modes * diagonal (c - b) * vander eigs N) = 0 :=
      le_antisymm (by linarith) (frobSq_nonneg _)
    rw [frobSq_flat, normSq_eq_zero, ← stack_mulVec] at h0
    have h1 : optP modes (vander eigs N) *ᵥ (c - b) = 0 := by
      rw [← stack_gram, ← mulVec_mulVec, h0, mulVec_zero]
    have h2 : (optP modes (vander eigs N))⁻¹ *ᵥ (optP modes (vander eigs N) *ᵥ (c - b)) = c - b := by
      rw [mulVec_mulVec, nonsing_inv_mul _ hu, one_mulVec]
    rw [h1, mulVec_zero] at h2
    exact sub_eq_zero.mp h2.symm

/-- **C19** (`exact=False`). With a separate `Y` given to `fit`, no `rescale_mode` and no total
least squares, `q` is the exact one, so the amplitudes are optimal as well: `U, s, VX` is the
truncated SVD of the snapshots and `E` the operator's eigenvectors, so the modes are `U * E`.
Missing for the full property: the call without `Y` (see `C19_projected_false`), and the
combinations with `rescale_mode` and `tlsq_rank`. -/
theorem C19_projected_partial {N p q : ℕ} (hq : q ≤ p) (snaps : Matrix m (Fin N) ℂ)
    (U : Matrix m (Fin p) ℂ) (s : Fin p → ℝ) (VX : Matrix (Fin N) (Fin p) ℂ)
    (h : IsSVD snaps U s VX) (E : Matrix (Fin q) (Fin q) ℂ) (eigs b : Fin q → ℂ)
    (hb : optP (lead q hq U * E) (vander eigs N) *ᵥ b =
      optQProjected (vander eigs N) (lead q hq VX) (s ∘ Fin.castLE hq) E) (c : Fin q → ℂ) :
    frobSq (lead q hq U * E * diagonal b * (of fun i (j : Fin N) => eigs i ^ (j : ℕ)) - snaps) ≤
      frobSq (lead q hq U * E * diagonal c * (of fun i (j : Fin N) => eigs i ^ (j : ℕ)) - snaps)
    := by
  refine (C19_exact (lead q hq U * E) eigs snaps b ?_).1 c
  rw [hb]
  funext i
  have e : vander eigs N * snapsᴴ * (lead q hq U * E) =
      vander eigs N * lead q hq VX * rdiag (s ∘ Fin.castLE hq) * E := by
    calc _ = vander eigs N * (snapsᴴ * lead q hq U) * E := by simp only [Matrix.mul_assoc]
      _ = _ := by rw [h.conj_mul_lead q hq]; simp only [Matrix.mul_assoc]
  simp only [optQProjected, optQExact, e]

/-- **C19** fails for `DMD(opt=True, exact=False).fit(X)` (the default `exact` of `DMD`): `P` sums
over all `N` snapshots, `q` only over the first `N - 1`. For the constant snapshots `1, 1, 1` the
amplitude is 2/3, while amplitude 1 reproduces the data. -/
theorem C19_projected_false :
    ∃ (snaps : Matrix (Fin 1) (Fin 3) ℂ) (X Y : Matrix (Fin 1) (Fin 2) ℂ)
      (U : Matrix (Fin 1) (Fin 1) ℂ) (s : Fin 1 → ℝ) (VX : Matrix (Fin 2) (Fin 1) ℂ)
      (E : Matrix (Fin 1) (Fin 1) ℂ) (eigs : Fin 1 → ℂ),
      X = snaps.submatrix id Fin.castSucc ∧ Y = snaps.submatrix id Fin.succ ∧ IsSVD X U s VX ∧
      leastSquareOperator none U s VX Y * E = E * diagonal eigs ∧ Eᴴ * E = 1 ∧
      (∀ b, optP (U * E) (vander eigs 3) *ᵥ b = optQProjected (vander eigs 2) VX s E →
        b = fun _ => 2 / 3) ∧
      frobSq (U * E * diagonal (fun _ => 1) * vander eigs 3 - snaps) <
        frobSq (U * E * diagonal (fun _ => 2 / 3) * vander eigs 3 - snaps) := by
  have h2 : Real.sqrt 2 * Real.sqrt 2 = 2 := Real.mul_self_sqrt (by norm_num)
  have h2c : (Real.sqrt 2 : ℂ) * (Real.sqrt 2 : ℂ) = 2 := by exact_mod_cast h2
  have h0 : (Real.sqrt 2 : ℂ) ≠ 0 := by
    intro h; rw [h] at h2c; norm_num at h2c
  have hi : (Real.sqrt 2 : ℂ)⁻¹ * (Real.sqrt 2 : ℂ)⁻¹ = 1 / 2 := by
    rw [← mul_inv, h2c]; norm_num
  refine ⟨of fun _ _ => 1, of fun _ _ => 1, of fun _ _ => 1, 1, fun _ => Real.sqrt 2,
    of fun _ _ => (Real.sqrt 2 : ℂ)⁻¹, 1, fun _ => 1, ?_, ?_, ?_, ?_, by simp, ?_, ?_⟩
  · ext i j; simp
  · ext i j; simp
  · refine ⟨?_, by simp, ?_, fun _ => Real.sqrt_nonneg _⟩
    · ext i j; fin_cases i
      simp [rdiag, Matrix.mul_apply, h0]
    · ext i j; fin_cases i; fin_cases j
      simp only [Matrix.mul_apply, conjTranspose_apply, of_apply, Fin.sum_univ_two]
      simp only [Complex.star_def, map_inv₀, Complex.conj_ofReal, hi]
      norm_num
  · ext i j; fin_cases i; fin_cases j
    simp [leastSquareOperator, tikSigma, rdiag, Matrix.mul_apply]
    linear_combination 2 * hi
  · intro b hb
    have := congrFun hb 0
    simp [optP, optQProjected, vander, mulVec, dotProduct, Matrix.mul_apply, rdiag, h0] at this
    funext i
    fin_cases i
    have h3 : 3 * b 0 = 2 := by
      first
        | linear_combination this
        | (rw [this]; norm_num)
    show b 0 = 2 / 3
    linear_combination h3 / 3
  · simp [frobSq, Matrix.mul_apply, vander, Fin.sum_univ_three]
    norm_num [Complex.normSq_apply]

/-- Instance of the hypothesis of C19: one mode, eigenvalue 2, snapshots `3, 6`. -/
example : optP (1 : Matrix (Fin 1) (Fin 1) ℂ) (vander (fun _ => 2) 2) *ᵥ (fun _ => 3) =
    optQExact 1 (vander (fun _ => 2) 2) !![3, 6] := by
  funext i; fin_cases i
  simp [optP, optQExact, vander, mulVec, dotProduct, Matrix.mul_apply, Fin.sum_univ_two]
  norm_num

/-! ## C17, the part about repeated fits -/

/-- **C17** (history, partial). For a `rescale_mode` other than `'auto'` the stored attribute is
not changed by a fit, and with `'auto'` on a *fresh* operator the factors are the singular values
of that fit. Missing: `'auto'` on an operator already fitted, see `C17_auto_refit_false`. -/
theorem C17_history_partial {q : ℕ} (s : Fin q → ℝ) (A : Matrix (Fin q) (Fin q) ℂ) :
    (∀ a : RescaleAttr, a ≠ .auto → (fitScaled a s A).2 = a) ∧
    (fitScaled .auto s A).1 = scaledOperator (.array (List.ofFn s)) A := by
  refine ⟨fun a ha => ?_, rfl⟩
  cases a <;> first | rfl | exact absurd rfl ha

/-- **C17** (history) fails for `rescale_mode='auto'`: the first fit replaces `'auto'` by its
singular values. A second fit on data of another rank then raises, though a fresh instance with
the same parameters accepts the data. -/
theorem C17_auto_refit_false :
    ∃ (s₁ : Fin 2 → ℝ) (A₁ : Matrix (Fin 2) (Fin 2) ℂ) (s₂ : Fin 1 → ℝ)
      (A₂ : Matrix (Fin 1) (Fin 1) ℂ),
      (fitScaled (fitScaled .auto s₁ A₁).2 s₂ A₂).1 = .error .valueError ∧
      ∃ B, (fitScaled .auto s₂ A₂).1 = .ok B := by
  refine ⟨fun _ => 1, 1, fun _ => 1, 1, ?_, ?_⟩
  · simp [fitScaled, RescaleAttr.resolve, RescaleAttr.mode, scaledOperator]
  · simp [fitScaled, RescaleAttr.resolve, RescaleAttr.mode, scaledOperator]

/-! ## C54 -/

/-- **C54** (partial). On noise-free linear data `Y = A X` whose SVD bases span the same space
(`bU = U Q` with `Q` unitary), the matrix whose square root is taken is `Af (Q^H Af Q)`, `Af` the
forward operator. So if the two bases agree (`Q = 1`), every square root `S` of the code has
`S^2 = Af^2`. Missing for the full property: bases that differ, see `C54_forward_backward_false`. -/
theorem C54_forward_backward_partial (A : Matrix m m ℂ) (X Y : Matrix m n ℂ) (hY : Y = A * X)
    (U : Matrix m r ℂ) (s : r → ℝ) (V : Matrix n r ℂ) (h : IsSVD X U s V) (hs : ∀ i, s i ≠ 0)
    (bU : Matrix m r ℂ) (bs : r → ℝ) (bV : Matrix n r ℂ) (hb : IsSVD Y bU bs bV)
    (hbs : ∀ i, bs i ≠ 0) (Q : Matrix r r ℂ) (hQ : Qᴴ * Q = 1) (hbU : bU = U * Q)
    (S : Matrix r r ℂ) (hS : IsForwardBackward (leastSquareOperator none U s V Y)
      (backwardOperator none bU bs bV X) S) :
    S * S = leastSquareOperator none U s V Y * (Qᴴ * leastSquareOperator none U s V Y * Q) := by
  have hQ' : Q * Qᴴ = 1 := mul_eq_one_comm.mp hQ
  rw [hS]
  congr 1
  apply inv_eq_left_inv
  have e1 : leastSquareOperator none U s V Y = Uᴴ * Y * V * rdiag (fun i => (s i)⁻¹) := by
    simp [leastSquareOperator, tikSigma]
  have e2 : backwardOperator none bU bs bV X = bUᴴ * X * bV * rdiag (fun i => (bs i)⁻¹) := by
    simp [backwardOperator, leastSquareOperator, tikSigma]
  -- Y V V^H = Y
  have hX : X * (V * Vᴴ) = X := by
    rw [h.eq]
    calc U * rdiag s * Vᴴ * (V * Vᴴ) = U * rdiag s * (Vᴴ * V) * Vᴴ := by
          simp only [Matrix.mul_assoc]
      _ = _ := by rw [h.v, Matrix.mul_one]
  have hYV : Y * (V * Vᴴ) = Y := by rw [hY, Matrix.mul_assoc, hX]
  -- S^{-1} U^H X = V^H
  have hV : rdiag (fun i => (s i)⁻¹) * (Uᴴ * X) = Vᴴ := by
    rw [h.eq]
    calc rdiag (fun i => (s i)⁻¹) * (Uᴴ * (U * rdiag s * Vᴴ))
        = rdiag (fun i => (s i)⁻¹) * ((Uᴴ * U) * rdiag s * Vᴴ) := by simp only [Matrix.mul_assoc]
      _ = (rdiag (fun i => (s i)⁻¹) * rdiag s) * Vᴴ := by
          rw [h.u, Matrix.one_mul, Matrix.mul_assoc]
      _ = Vᴴ := by rw [rdiag_inv_mul s hs, Matrix.one_mul]
  -- Y bV bS^{-1} = bU
  have hbUe : Y * bV * rdiag (fun i => (bs i)⁻¹) = bU := by
    rw [hb.eq]
    calc bU * rdiag bs * bVᴴ * bV * rdiag (fun i => (bs i)⁻¹)
        = bU * rdiag bs * (bVᴴ * bV) * rdiag (fun i => (bs i)⁻¹) := by
          simp only [Matrix.mul_assoc]
      _ = bU * (rdiag bs * rdiag (fun i => (bs i)⁻¹)) := by
          rw [hb.v, Matrix.mul_one, Matrix.mul_assoc]
      _ = bU := by rw [rdiag_mul_inv bs hbs, Matrix.mul_one]
  have hbc : bUᴴ = Qᴴ * Uᴴ := by rw [hbU, conjTranspose_mul]
  rw [e1, e2, hbc]
  calc Qᴴ * (Uᴴ * Y * V * rdiag (fun i => (s i)⁻¹)) * Q *
        (Qᴴ * Uᴴ * X * bV * rdiag (fun i => (bs i)⁻¹))
      = Qᴴ * Uᴴ * Y * V * rdiag (fun i => (s i)⁻¹) * (Q * Qᴴ) * Uᴴ * X * bV *
          rdiag (fun i => (bs i)⁻¹) := by simp only [Matrix.mul_assoc]
    _ = Qᴴ * Uᴴ * Y * V * (rdiag (fun i => (s i)⁻¹) * (Uᴴ * X)) * bV *
          rdiag (fun i => (bs i)⁻¹) := by
        rw [hQ', Matrix.mul_one]; simp only [Matrix.mul_assoc]
    _ = Qᴴ * Uᴴ * (Y * (V * Vᴴ)) * bV * rdiag (fun i => (bs i)⁻¹) := by
        rw [hV]; simp only [Matrix.mul_assoc]
    _ = Qᴴ * Uᴴ * (Y * bV * rdiag (fun i => (bs i)⁻¹)) := by
        rw [hYV]; simp only [Matrix.mul_assoc]
    _ = Qᴴ * (Uᴴ * U) * Q := by rw [hbUe, hbU]; simp only [Matrix.mul_assoc]
    _ = 1 := by rw [h.u, Matrix.mul_one, hQ]

/-- **C54** fails in general: the forward operator is expressed in the left singular basis of `X`,
the backward operator in that of `Y`, and the two are multiplied. For the noise-free trajectory
`(2,0), (0,1), (1/8,0)` of `A = [[0,1/8],[1/2,0]]` (eigenvalues `1/4` and `-1/4`) no square root
has `1/4` or `-1/4` as an eigenvalue, although the forward operator is `A` itself. -/
theorem C54_forward_backward_false :
    ∃ (A X Y U V bU bV : Matrix (Fin 2) (Fin 2) ℂ) (s bs : Fin 2 → ℝ),
      Y = A * X ∧ IsSVD X U s V ∧ IsSVD Y bU bs bV ∧ s 1 ≤ s 0 ∧ bs 1 ≤ bs 0 ∧ 0 < s 1 ∧ 0 < bs 1 ∧
      (∃ w ≠ 0, A *ᵥ w = (1 / 4 : ℂ) • w) ∧ (∃ w ≠ 0, A *ᵥ w = (-1 / 4 : ℂ) • w) ∧
      leastSquareOperator none U s V Y = A ∧
      IsUnit (backwardOperator none bU bs bV X).det ∧
      ∀ S, IsForwardBackward (leastSquareOperator none U s V Y)
        (backwardOperator none bU bs bV X) S →
        ∀ (l : ℂ) (w : Fin 2 → ℂ), (l = 1 / 4 ∨ l = -1 / 4) → S *ᵥ w = l • w → w = 0 := by
  have hAf : leastSquareOperator none (1 : Matrix (Fin 2) (Fin 2) ℂ) ![2, 1] 1
      !![0, 1/8; 1, 0] = !![0, 1/8; 1/2, 0] := by
    ext i j; fin_cases i <;> fin_cases j <;>
      simp [leastSquareOperator, tikSigma, rdiag, Matrix.mul_apply, Fin.sum_univ_two]
  have hAb : backwardOperator none (!![0, 1; 1, 0] : Matrix (Fin 2) (Fin 2) ℂ) ![1, 1/8] 1
      !![2, 0; 0, 1] = !![0, 8; 2, 0] := by
    ext i j; fin_cases i <;> fin_cases j <;>
      simp [backwardOperator, leastSquareOperator, tikSigma, rdiag, Matrix.mul_apply,
        Fin.sum_univ_two]
  have hinv : (!![0, 8; 2, 0] : Matrix (Fin 2) (Fin 2) ℂ)⁻¹ = !![0, 1/2; 1/8, 0] := by
    apply inv_eq_left_inv
    ext i j; fin_cases i <;> fin_cases j <;> simp [Matrix.mul_apply, Fin.sum_univ_two]
  refine ⟨!![0, 1/8; 1/2, 0], !![2, 0; 0, 1], !![0, 1/8; 1, 0], 1, 1, !![0, 1; 1, 0], 1, ![2, 1],
    ![1, 1/8], ?_, ?_, ?_, by simp, by norm_num, by simp, by norm_num, ?_, ?_, hAf, ?_, ?_⟩
  · ext i j; fin_cases i <;> fin_cases j <;> simp [Matrix.mul_apply, Fin.sum_univ_two]
  · refine ⟨?_, by simp, by simp, ?_⟩
    · ext i j; fin_cases i <;> fin_cases j <;> simp [rdiag]
    · intro i; fin_cases i <;> simp
  · refine ⟨?_, ?_, by simp, ?_⟩
    · ext i j; fin_cases i <;> fin_cases j <;> simp [rdiag, vecMul_diagonal]
    · ext i j; fin_cases i <;> fin_cases j <;> simp [Matrix.mul_apply, Fin.sum_univ_two]
    · intro i; fin_cases i <;> simp
  · refine ⟨![1, 2], fun h => by simpa using congrFun h 0, ?_⟩
    funext i; fin_cases i <;> simp [mulVec, dotProduct] <;> norm_num
  · refine ⟨![1, -2], fun h => by simpa using congrFun h 0, ?_⟩
    funext i; fin_cases i <;> simp [mulVec, dotProduct] <;> norm_num
  · rw [hAb]; simp [det_fin_two]
  · intro S hS l w hl hw
    rw [hAf, hAb, IsForwardBackward, hinv] at hS
    have h2 : (S * S) *ᵥ w = (1 / 16 : ℂ) • w := by
      rw [← mulVec_mulVec, hw, mulVec_smul, hw, smul_smul]
      rcases hl with rfl | rfl <;> norm_num
    rw [hS] at h2
    have a := congrFun h2 0
    have b := congrFun h2 1
    simp [mulVec, dotProduct, Matrix.mul_apply, Fin.sum_univ_two] at a b
    funext i
    fin_cases i
    · show w 0 = 0
      exact a.resolve_left (by norm_num)
    · show w 1 = 0
      exact b.resolve_left (by norm_num)

end Verif.Operator
