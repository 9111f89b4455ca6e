import Verif.Props.Linear

/-!
# Property C60: one-step prediction
-/

set_option autoImplicit false

namespace Verif.Operator

open Verif Verif.LinAlg Matrix

variable {m n r : Type} [Fintype m] [Fintype n] [Fintype r] [DecidableEq r] [DecidableEq m]

/-- With independent columns the pseudoinverse is a left inverse. -/
theorem pinv_left {A : Matrix m r ℂ} {P : Matrix r m ℂ} (hP : IsPinv A P)
    (hA : ∀ c, A *ᵥ c = 0 → c = 0) : P * A = 1 := by
  apply Matrix.ext_of_mulVec_single
  intro j
  have h0 : A *ᵥ ((P * A) *ᵥ Pi.single j 1 - (1 : Matrix r r ℂ) *ᵥ Pi.single j 1) = 0 := by
    rw [mulVec_sub, mulVec_mulVec, ← Matrix.mul_assoc, hP.apa, one_mulVec, sub_self]
  exact sub_eq_zero.mp (hA _ h0)

/-- **C60** (prediction). For linearly independent modes, `predict(X)` applies the learnt
dynamics once: it is the combination of the modes whose coefficients are the least-squares
coefficients `c` of the input, multiplied by the eigenvalues. In particular a combination of modes
has each coefficient multiplied by its eigenvalue. -/
theorem C60_predict (modes : Matrix m r ℂ) (eigs : r → ℂ) (P : Matrix r m ℂ) (hP : IsPinv modes P)
    (hind : ∀ c, modes *ᵥ c = 0 → c = 0) :
    (∀ (X : Matrix m n ℂ) (j : n) (c : r → ℂ), IsLstsq modes (fun p => X p j) c →
      ∀ p, predict modes eigs P X p j = ∑ i, modes p i * (eigs i * c i)) ∧
    (∀ C : Matrix r n ℂ, predict modes eigs P (modes * C) =
      modes * of fun i j => eigs i * C i j) := by
  have hPA := pinv_left hP hind
  have first : ∀ (X : Matrix m n ℂ) (j : n) (c : r → ℂ), IsLstsq modes (fun p => X p j) c →
      ∀ p, predict modes eigs P X p j = ∑ i, modes p i * (eigs i * c i) := by
    intro X j c hc p
    have hn : modesᴴ *ᵥ (modes *ᵥ (P *ᵥ fun p => X p j) - fun p => X p j) = 0 := by
      have : modesᴴ * (modes * P) = modesᴴ := by
        rw [← hP.ap, ← conjTranspose_mul, hP.apa]
      rw [mulVec_sub, mulVec_mulVec, mulVec_mulVec, Matrix.mul_assoc, this, sub_self]
    have hgap := lstsq_gap modes _ _ hn c
    have hle := hc (P *ᵥ fun p => X p j)
    have h0 : normSq (modes *ᵥ (c - P *ᵥ fun p => X p j)) = 0 :=
      le_antisymm (by linarith) (normSq_nonneg _)
    have hcP : c = P *ᵥ fun p => X p j :=
      sub_eq_zero.mp (hind _ ((normSq_eq_zero _).mp h0))
    have e1 : predict modes eigs P X p j =
        (modes *ᵥ (diagonal eigs *ᵥ (P *ᵥ fun p => X p j))) p := by
      rw [mulVec_mulVec, mulVec_mulVec]
      rfl
    rw [e1, ← hcP]
    show ∑ i, modes p i * (diagonal eigs *ᵥ c) i = _
    simp only [mulVec_diagonal]
  refine ⟨first, fun C => ?_⟩
  have e : predict modes eigs P (modes * C) = modes * (diagonal eigs * C) := by
    unfold predict
    rw [Matrix.mul_assoc (modes * diagonal eigs), ← Matrix.mul_assoc P, hPA, Matrix.one_mul,
      Matrix.mul_assoc]
  rw [e]
  congr 1
  ext i j
  simp [diagonal_mul]

/-- **C60** (agreement with the reconstruction). Predicting from the reconstructed states
`x_k = Σ mode_i eig_i^k b_i` gives the next reconstructed states. -/
theorem C60_next_state {N : ℕ} (modes : Matrix m r ℂ) (eigs b : r → ℂ) (P : Matrix r m ℂ)
    (hP : IsPinv modes P) (hind : ∀ c, modes *ᵥ c = 0 → c = 0) (k : Fin N → ℕ) :
    predict modes eigs P (of fun p (j : Fin N) => ∑ i, modes p i * (eigs i ^ k j * b i)) =
      of fun p (j : Fin N) => ∑ i, modes p i * (eigs i ^ (k j + 1) * b i) := by
  have e : (of fun p (j : Fin N) => ∑ i, modes p i * (eigs i ^ k j * b i)) =
      modes * of fun i (j : Fin N) => eigs i ^ k j * b i := by
    ext p j; simp [Matrix.mul_apply]
  rw [e, (C60_predict (n := Fin N) modes eigs P hP hind).2]
  ext p j
  simp [Matrix.mul_apply, pow_succ', mul_assoc]

/-- **C60** (linear systems). Under the hypotheses of C16 (noise-free linear trajectory in the
span of the snapshots, full rank kept) `predict` maps every state of the trajectory to the true
next state. -/
theorem C60_trajectory {N : ℕ} (A : Matrix m m ℂ) (x : ℕ → m → ℂ)
    (hx : ∀ k, x (k + 1) = A *ᵥ x k) (X Y : Matrix m (Fin N) ℂ)
    (hX : ∀ p (j : Fin N), X p j = x j p) (hY : ∀ p (j : Fin N), Y p j = x (j + 1) p)
    (U : Matrix m r ℂ) (s : r → ℝ) (V : Matrix (Fin N) r ℂ) (h : IsSVD X U s V)
    (hs : ∀ i, s i ≠ 0) (hN : 0 < N) (hspan : ∃ c, x N = X *ᵥ c)
    (W : Matrix r r ℂ) (hWu : IsUnit W.det) (eigs : r → ℂ)
    (hW : leastSquareOperator none U s V Y * W = W * diagonal eigs) (P : Matrix r m ℂ)
    (hP : IsPinv (computeModes false none Y U s V W) P) {K : ℕ} (k : Fin K → ℕ) :
    predict (computeModes false none Y U s V W) eigs P (of fun p (j : Fin K) => x (k j) p) =
      of fun p (j : Fin K) => x (k j + 1) p := by
  obtain ⟨hA, -, hproj, htraj⟩ := reduced_trajectory A x hx X Y hX hY U s V h hs hN hspan
  have hm : computeModes false none Y U s V W = U * W := by simp [computeModes]
  rw [hm] at hP ⊢
  have hind : ∀ c, (U * W) *ᵥ c = 0 → c = 0 := by
    intro c hc
    have h1 : W⁻¹ *ᵥ (Uᴴ *ᵥ ((U * W) *ᵥ c)) = c := by
      rw [mulVec_mulVec, mulVec_mulVec, Matrix.mul_assoc, ← Matrix.mul_assoc Uᴴ, h.u, Matrix.one_mul,
        nonsing_inv_mul _ hWu, one_mulVec]
    rw [← h1, hc, mulVec_zero, mulVec_zero]
  have hst : ∀ q : ℕ, x q = fun p => ∑ i, (U * W) p i * (eigs i ^ q * (W⁻¹ *ᵥ (Uᴴ *ᵥ x 0)) i) := by
    intro q
    have e1 : (fun p => ∑ i, (U * W) p i * (eigs i ^ q * (W⁻¹ *ᵥ (Uᴴ *ᵥ x 0)) i)) =
        (U * W * diagonal (fun i => eigs i ^ q)) *ᵥ (W⁻¹ *ᵥ (Uᴴ *ᵥ x 0)) := by
      funext p
      simp only [mulVec, dotProduct, mul_diagonal]
      exact Finset.sum_congr rfl fun i _ => by ring
    rw [e1, Matrix.mul_assoc U, ← pow_diagonalised _ _ _ hW, mulVec_mulVec, Matrix.mul_assoc U,
      Matrix.mul_assoc _ W, mul_nonsing_inv W hWu, Matrix.mul_one, ← mulVec_mulVec, htraj]
  have e1 : (of fun p (j : Fin K) => x (k j) p) = of fun p (j : Fin K) =>
      ∑ i, (U * W) p i * (eigs i ^ k j * (W⁻¹ *ᵥ (Uᴴ *ᵥ x 0)) i) := by
    ext p j; exact congrFun (hst (k j)) p
  have e2 : (of fun p (j : Fin K) => x (k j + 1) p) = of fun p (j : Fin K) =>
      ∑ i, (U * W) p i * (eigs i ^ (k j + 1) * (W⁻¹ *ᵥ (Uᴴ *ᵥ x 0)) i) := by
    ext p j; exact congrFun (hst (k j + 1)) p
  rw [e1, e2]
  exact C60_next_state (U * W) eigs _ P hP hind k

/-- Instance: modes `(1,1)` and `(1,-1)`, eigenvalues 2 and 3. -/
example : IsPinv (!![1, 1; 1, -1] : Matrix (Fin 2) (Fin 2) ℂ) !![1/2, 1/2; 1/2, -1/2] ∧
    ∀ c, (!![1, 1; 1, -1] : Matrix (Fin 2) (Fin 2) ℂ) *ᵥ c = 0 → c = 0 := by
  have h1 : (!![1, 1; 1, -1] : Matrix (Fin 2) (Fin 2) ℂ) * !![1/2, 1/2; 1/2, -1/2] = 1 := by
    ext i j; fin_cases i <;> fin_cases j <;> norm_num [Matrix.mul_apply, Fin.sum_univ_two]
  have h2 : (!![1/2, 1/2; 1/2, -1/2] : Matrix (Fin 2) (Fin 2) ℂ) * !![1, 1; 1, -1] = 1 :=
    mul_eq_one_comm.mp h1
  refine ⟨⟨by rw [h1, Matrix.one_mul], by rw [h2, Matrix.one_mul], by rw [h1]; simp,
    by rw [h2]; simp⟩, fun c hc => ?_⟩
  have := congrArg (fun v => (!![1/2, 1/2; 1/2, -1/2] : Matrix (Fin 2) (Fin 2) ℂ) *ᵥ v) hc
  simpa only [mulVec_mulVec, h2, one_mulVec, mulVec_zero] using this

end Verif.Operator
