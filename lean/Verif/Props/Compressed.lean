import Verif.Lemmas.Compressed

/-!
# Properties C77–C79: compressed and randomized DMD
-/

set_option autoImplicit false

namespace Verif.Compressed

open Verif Verif.LinAlg Matrix

section cdmd

variable {m n k : Type} [Fintype m] [Fintype n] [Fintype k] [DecidableEq n]

/-- **C77** (rank). If the compression loses nothing on the span of the snapshots, the compressed
snapshots have as many nonzero singular values as the snapshots. -/
theorem C77_same_rank {r r' : ℕ} (X : Matrix m n ℂ) (C : Matrix k m ℂ)
    (hC : ∀ v, C *ᵥ (X *ᵥ v) = 0 → X *ᵥ v = 0)
    (U : Matrix m (Fin r) ℂ) (s : Fin r → ℝ) (V : Matrix n (Fin r) ℂ) (h : IsSVD X U s V)
    (hs : ∀ i, s i ≠ 0) (U' : Matrix k (Fin r') ℂ) (s' : Fin r' → ℝ) (V' : Matrix n (Fin r') ℂ)
    (h' : IsSVD (C * X) U' s' V') (hs' : ∀ i, s' i ≠ 0) : r' = r := by
  obtain ⟨T, T', h1, h2, -, -⟩ := exists_change hC h hs h' hs'
  apply le_antisymm
  · have : (1 : Matrix (Fin r') (Fin r') ℂ).rank ≤ r := by
      rw [← h1]
      exact (rank_mul_le_left _ _).trans ((rank_le_card_width T).trans (by simp))
    simpa using this
  · have : (1 : Matrix (Fin r) (Fin r) ℂ).rank ≤ r' := by
      rw [← h2]
      exact (rank_mul_le_left _ _).trans ((rank_le_card_width T').trans (by simp))
    simpa using this

/-- **C77** (compressed DMD returns the DMD). Let the compression `C` lose nothing on the span of
the snapshots `X`, and let the snapshots `Y` lie in that span. Then the reduced operator of the
compressed data has the same eigenvalues (with multiplicity) as that of the data, and whatever
eigenvectors `W'` are found for it, the modes returned are those DMD returns for some
eigenvectors `W` with the same eigenvalues, no column of which vanishes where none of `W'`
does. -/
theorem C77_compressed_is_dmd {r : ℕ} (X Y : Matrix m n ℂ) (C : Matrix k m ℂ)
    (hC : ∀ v, C *ᵥ (X *ᵥ v) = 0 → X *ᵥ v = 0) (hY : ∃ K : Matrix n n ℂ, Y = X * K)
    (U : Matrix m (Fin r) ℂ) (s : Fin r → ℝ) (V : Matrix n (Fin r) ℂ) (h : IsSVD X U s V)
    (hs : ∀ i, s i ≠ 0) (U' : Matrix k (Fin r) ℂ) (s' : Fin r → ℝ) (V' : Matrix n (Fin r) ℂ)
    (h' : IsSVD (C * X) U' s' V') (hs' : ∀ i, s' i ≠ 0) :
    ∃ At, computeOperator none .none U' s' V' (C * Y) = .ok At ∧
      At.charpoly = (Operator.leastSquareOperator none U s V Y).charpoly ∧
      ∀ (W' : Matrix (Fin r) (Fin r) ℂ) (eigs : Fin r → ℂ), At * W' = W' * diagonal eigs →
        ∃ W : Matrix (Fin r) (Fin r) ℂ,
          Operator.leastSquareOperator none U s V Y * W = W * diagonal eigs ∧
          (∀ i, W'.col i ≠ 0 → W.col i ≠ 0) ∧
          computeModes Y s' V' W' = Operator.computeModes true none Y U s V W := by
  obtain ⟨T, T', h1, h2, hT, hT'⟩ := exists_change hC h hs h' hs'
  obtain ⟨K, hK⟩ := hY
  have hX : X * (V' * V'ᴴ) = X := proj_of_injective hC (svd_proj h'.eq h'.v)
  have hU : X * V * rdiag (fun i => (s i)⁻¹) = U := svd_mul_v h.eq h.v hs
  have hCX : U'ᴴ * (C * X) = rdiag s' * V'ᴴ := by
    conv_lhs => rw [h'.eq]
    rw [← Matrix.mul_assoc, ← Matrix.mul_assoc, h'.u, Matrix.one_mul]
  have hVV : V' * V'ᴴ * V = V := by
    have h3 : Uᴴ * X = rdiag s * Vᴴ := by
      rw [h.eq, ← Matrix.mul_assoc, ← Matrix.mul_assoc, h.u, Matrix.one_mul]
    have h4 : rdiag s * Vᴴ * (V' * V'ᴴ) = rdiag s * Vᴴ := by
      rw [← h3, Matrix.mul_assoc, hX]
    have h5 := congrArg conjTranspose h4
    have h6 : V' * V'ᴴ * V * rdiag s = V * rdiag s := by
      simpa [conjTranspose_mul, rdiag_conjTranspose, Matrix.mul_assoc] using h5
    have := congrArg (· * rdiag fun i => (s i)⁻¹) h6
    simpa [Matrix.mul_assoc, rdiag_mul_inv s hs] using this
  -- the modes in both coordinates
  have hM : Y * V' * rdiag (fun i => (s' i)⁻¹) * T = Y * V * rdiag (fun i => (s i)⁻¹) := by
    calc Y * V' * rdiag (fun i => (s' i)⁻¹) * T
        = Y * V' * rdiag (fun i => (s' i)⁻¹) * (U'ᴴ * (C * X)) * V * rdiag (fun i => (s i)⁻¹) := by
          rw [hT, ← hU]; simp only [Matrix.mul_assoc]
      _ = Y * V' * (rdiag (fun i => (s' i)⁻¹) * rdiag s') * V'ᴴ * V * rdiag (fun i => (s i)⁻¹) := by
          rw [hCX]; simp only [Matrix.mul_assoc]
      _ = Y * (V' * V'ᴴ * V) * rdiag (fun i => (s i)⁻¹) := by
          rw [rdiag_inv_mul s' hs', Matrix.mul_one]; simp only [Matrix.mul_assoc]
      _ = _ := by rw [hVV]
  have hUY : U * Uᴴ * Y = Y := by
    rw [hK, ← Matrix.mul_assoc, svd_left h.eq h.u]
  have hA : Operator.leastSquareOperator none U' s' V' (C * Y) * T =
      T * Operator.leastSquareOperator none U s V Y := by
    simp only [Operator.leastSquareOperator, Operator.tikSigma]
    calc U'ᴴ * (C * Y) * V' * rdiag (fun i => (s' i)⁻¹) * T
        = U'ᴴ * C * (Y * V' * rdiag (fun i => (s' i)⁻¹) * T) := by simp only [Matrix.mul_assoc]
      _ = U'ᴴ * C * (U * Uᴴ * Y) * V * rdiag (fun i => (s i)⁻¹) := by
          rw [hM, hUY]; simp only [Matrix.mul_assoc]
      _ = T * (Uᴴ * Y * V * rdiag (fun i => (s i)⁻¹)) := by
          rw [hT]; simp only [Matrix.mul_assoc]
  refine ⟨_, rfl, ?_, ?_⟩
  · have : Operator.leastSquareOperator none U' s' V' (C * Y) =
        T * Operator.leastSquareOperator none U s V Y * T' := by
      rw [← hA, Matrix.mul_assoc, h1, Matrix.mul_one]
    rw [this, Matrix.mul_assoc, charpoly_mul_comm, Matrix.mul_assoc, h2, Matrix.mul_one]
  · intro W' eigs hW
    refine ⟨T' * W', ?_, ?_, ?_⟩
    · have : T' * Operator.leastSquareOperator none U' s' V' (C * Y) =
          Operator.leastSquareOperator none U s V Y * T' := by
        have e : T' * (Operator.leastSquareOperator none U' s' V' (C * Y) * T) * T' =
            T' * Operator.leastSquareOperator none U' s' V' (C * Y) := by
          rw [← Matrix.mul_assoc, Matrix.mul_assoc _ T, h1, Matrix.mul_one]
        rw [← e, hA, ← Matrix.mul_assoc, h2, Matrix.one_mul]
      rw [← Matrix.mul_assoc, ← this, Matrix.mul_assoc, hW, Matrix.mul_assoc]
    · intro i hi h0
      apply hi
      have e : T * (T' * W') = W' := by rw [← Matrix.mul_assoc, h1, Matrix.one_mul]
      funext a
      have ha := congrFun (congrFun e a) i
      have hz : ∀ b, (T' * W') b i = 0 := fun b => congrFun h0 b
      rw [Matrix.mul_apply] at ha
      simp only [hz, mul_zero, Finset.sum_const_zero] at ha
      exact ha.symm
    · simp only [computeModes, Operator.computeModes, Operator.tikSigma, if_true]
      rw [← hM, Matrix.mul_assoc _ T, ← Matrix.mul_assoc T, h1, Matrix.one_mul]

/-- **C77** (linear systems). If moreover `Y = A X`, the modes are eigenvectors of `A` with the
computed eigenvalues, and do not vanish unless the eigenvalue does. -/
theorem C77_linear_system {r : ℕ} (X Y : Matrix m n ℂ) (A : Matrix m m ℂ) (C : Matrix k m ℂ)
    (hC : ∀ v, C *ᵥ (X *ᵥ v) = 0 → X *ᵥ v = 0) (hA : Y = A * X)
    (hY : ∃ K : Matrix n n ℂ, Y = X * K)
    (U' : Matrix k (Fin r) ℂ) (s' : Fin r → ℝ) (V' : Matrix n (Fin r) ℂ)
    (h' : IsSVD (C * X) U' s' V') (hs' : ∀ i, s' i ≠ 0)
    (W' : Matrix (Fin r) (Fin r) ℂ) (eigs : Fin r → ℂ) (At : Matrix (Fin r) (Fin r) ℂ)
    (hAt : computeOperator none .none U' s' V' (C * Y) = .ok At) (hW : At * W' = W' * diagonal eigs) :
    A * computeModes Y s' V' W' = computeModes Y s' V' W' * diagonal eigs ∧
      ∀ i, eigs i ≠ 0 → W'.col i ≠ 0 → (computeModes Y s' V' W').col i ≠ 0 := by
  obtain ⟨K, hK⟩ := hY
  have hAt' : U'ᴴ * (C * Y) * V' * rdiag (fun i => (s' i)⁻¹) = At := by
    simpa [computeOperator, Operator.scaledOperator, Operator.RescaleAttr.mode,
      Operator.leastSquareOperator, Operator.tikSigma] using hAt
  have hX : X * (V' * V'ᴴ) = X := proj_of_injective hC (svd_proj h'.eq h'.v)
  have hCX : U'ᴴ * (C * X) = rdiag s' * V'ᴴ := by
    conv_lhs => rw [h'.eq]
    rw [← Matrix.mul_assoc, ← Matrix.mul_assoc, h'.u, Matrix.one_mul]
  have hUm : U'ᴴ * C * computeModes Y s' V' W' = W' * diagonal eigs := by
    rw [← hW, ← hAt', computeModes]; simp only [Matrix.mul_assoc]
  -- on the span of the snapshots `A` acts through the compressed coordinates
  have hAX : Y * V' * rdiag (fun i => (s' i)⁻¹) * (U'ᴴ * (C * X)) = A * X := by
    calc Y * V' * rdiag (fun i => (s' i)⁻¹) * (U'ᴴ * (C * X))
        = Y * V' * (rdiag (fun i => (s' i)⁻¹) * rdiag s') * V'ᴴ := by
          rw [hCX]; simp only [Matrix.mul_assoc]
      _ = A * (X * (V' * V'ᴴ)) := by
          rw [rdiag_inv_mul s' hs', Matrix.mul_one, hA]; simp only [Matrix.mul_assoc]
      _ = A * X := by rw [hX]
  constructor
  · have e : computeModes Y s' V' W' = X * (K * V' * rdiag (fun i => (s' i)⁻¹) * W') := by
      rw [computeModes, hK]; simp only [Matrix.mul_assoc]
    calc A * computeModes Y s' V' W'
        = Y * V' * rdiag (fun i => (s' i)⁻¹) * (U'ᴴ * C * computeModes Y s' V' W') := by
          rw [e, ← Matrix.mul_assoc, ← hAX]; simp only [Matrix.mul_assoc]
      _ = computeModes Y s' V' W' * diagonal eigs := by
          rw [hUm, computeModes]; simp only [Matrix.mul_assoc]
  · intro i hi hw h0
    apply hw
    funext a
    have ha := congrFun (congrFun hUm a) i
    have hz : ∀ b, (computeModes Y s' V' W') b i = 0 := fun b => congrFun h0 b
    rw [Matrix.mul_apply, mul_diagonal] at ha
    simp only [hz, mul_zero, Finset.sum_const_zero] at ha
    simpa [hi] using ha.symm

end cdmd

/-- **C77** outside its hypotheses: if `Y` leaves the span of `X`, compression changes the
eigenvalues. One snapshot pair `(1, 0) ↦ (1, 1)`: DMD finds 1, the compression by the row
`(1, 1)`, injective on the span of `(1, 0)`, makes it 2 (disagreement D70). -/
theorem C77_inconsistent_false :
    ∃ (X Y : Matrix (Fin 2) (Fin 1) ℂ) (C : Matrix (Fin 1) (Fin 2) ℂ)
      (U : Matrix (Fin 2) (Fin 1) ℂ) (s : Fin 1 → ℝ) (V : Matrix (Fin 1) (Fin 1) ℂ)
      (U' : Matrix (Fin 1) (Fin 1) ℂ) (s' : Fin 1 → ℝ) (V' : Matrix (Fin 1) (Fin 1) ℂ),
      (∀ v, C *ᵥ (X *ᵥ v) = 0 → X *ᵥ v = 0) ∧ IsSVD X U s V ∧ (∀ i, s i ≠ 0) ∧
      IsSVD (C * X) U' s' V' ∧ (∀ i, s' i ≠ 0) ∧
      Operator.leastSquareOperator none U s V Y = 1 ∧
      computeOperator none .none U' s' V' (C * Y) = .ok !![2] := by
  refine ⟨!![1; 0], !![1; 1], !![1, 1], !![1; 0], fun _ => 1, 1, 1, fun _ => 1, 1, ?_,
    ⟨?_, ?_, by simp, by simp⟩, by simp, ⟨?_, by simp, by simp, by simp⟩, by simp, ?_, ?_⟩
  · intro v hv
    have := congrFun hv 0
    simp [Matrix.mulVec, dotProduct, Fin.sum_univ_two] at this
    funext i
    fin_cases i <;> simp [Matrix.mulVec, dotProduct, this]
  · ext i j; fin_cases i <;> fin_cases j <;> simp [rdiag]
  · ext i j; fin_cases i; fin_cases j; simp [Matrix.mul_apply, Fin.sum_univ_two]
  · ext i j; fin_cases i; fin_cases j; simp [rdiag, Matrix.mul_apply, Fin.sum_univ_two]
  · ext i j; fin_cases i; fin_cases j
    simp [Operator.leastSquareOperator, Operator.tikSigma, rdiag, Matrix.mul_apply,
      Fin.sum_univ_two]
  · simp only [computeOperator, Operator.scaledOperator, Operator.RescaleAttr.mode]
    congr 1
    ext i j; fin_cases i; fin_cases j
    simp [Operator.leastSquareOperator, Operator.tikSigma, rdiag, Matrix.mul_apply]
    norm_num

/-- Instance of the hypotheses of C77: the constant-direction trajectory `(1, 1), (2, 2)` of
`A = 2`, compressed to the sum of its components, with the singular values `√2` and `2`. -/
example : ∃ (X Y : Matrix (Fin 2) (Fin 1) ℂ) (A : Matrix (Fin 2) (Fin 2) ℂ)
    (C : Matrix (Fin 1) (Fin 2) ℂ) (U' : Matrix (Fin 1) (Fin 1) ℂ) (s' : Fin 1 → ℝ)
    (V' : Matrix (Fin 1) (Fin 1) ℂ), (∀ v, C *ᵥ (X *ᵥ v) = 0 → X *ᵥ v = 0) ∧ Y = A * X ∧
      (∃ K : Matrix (Fin 1) (Fin 1) ℂ, Y = X * K) ∧ IsSVD (C * X) U' s' V' ∧ (∀ i, s' i ≠ 0) ∧
      computeOperator none .none U' s' V' (C * Y) = .ok !![2] := by
  refine ⟨!![1; 1], !![2; 2], (2 : ℂ) • 1, !![1, 1], 1, fun _ => 2, 1, ?_, ?_, ⟨(2 : ℂ) • 1, ?_⟩,
    ⟨?_, by simp, by simp, by simp⟩, by simp, ?_⟩
  · intro v hv
    have := congrFun hv 0
    simp [Matrix.mulVec, dotProduct, Fin.sum_univ_two] at this
    funext i
    fin_cases i <;> simp [Matrix.mulVec, dotProduct, this]
  · ext i j; fin_cases i <;> fin_cases j <;> simp
  · ext i j; fin_cases i <;> fin_cases j <;> simp
  · ext i j; fin_cases i; fin_cases j; simp [rdiag, Matrix.mul_apply, Fin.sum_univ_two]; norm_num
  · simp only [computeOperator, Operator.scaledOperator, Operator.RescaleAttr.mode]
    congr 1
    ext i j; fin_cases i; fin_cases j
    simp [Operator.leastSquareOperator, Operator.tikSigma, rdiag, Matrix.mul_apply]
    norm_num

/-! ### Randomized DMD -/

section rdmd

variable {qr : QrFun} (hqr : IsQr qr) {n t l : ℕ}

include hqr

/-- **C78** (QB decomposition). For every test matrix and number of power iterations, the basis
has orthonormal columns and `B` holds the best coefficients: no other `Z` approximates the
snapshots better by `Q Z`. -/
theorem C78_best_coefficients (S : Matrix (Fin n) (Fin t) ℂ) (T : Matrix (Fin t) (Fin l) ℂ) (p : ℕ) :
    (rqbQ qr S T p).2ᴴ * (rqbQ qr S T p).2 = 1 ∧
    ∀ Z : Matrix (Fin (rqbQ qr S T p).1) (Fin t) ℂ,
      frobSq (S - (rqbQ qr S T p).2 * rqbB qr S T p) ≤ frobSq (S - (rqbQ qr S T p).2 * Z) := by
  have hQ := rqbQ_orth hqr S T p
  refine ⟨hQ, fun Z => ?_⟩
  rw [rqbB]
  generalize (rqbQ qr S T p).2 = Q at *
  have e : S - Q * Z = (S - Q * (Qᴴ * S)) + Q * (Qᴴ * S - Z) := by
    rw [Matrix.mul_sub]; abel
  rw [e, frobSq_add]
  have hz : ((S - Q * (Qᴴ * S))ᴴ * (Q * (Qᴴ * S - Z))) = 0 := by
    have : (S - Q * (Qᴴ * S))ᴴ * Q = 0 := by
      rw [conjTranspose_sub, conjTranspose_mul, conjTranspose_mul, conjTranspose_conjTranspose,
        Matrix.sub_mul, Matrix.mul_assoc (Sᴴ * Q), hQ, Matrix.mul_one, sub_self]
    rw [← Matrix.mul_assoc, this, Matrix.zero_mul]
  rw [hz]
  have := frobSq_nonneg (Q * (Qᴴ * S - Z))
  simp
  linarith

/-- **C78** (randomized DMD is DMD when the sketch captures the snapshots). Suppose every snapshot
is a combination of the columns of the sketch `S T`. Then for every number of power iterations the
snapshots are recovered from the compressed ones, the Gram matrix is kept, and for every truncated
SVD `U, s, V` of the compressed left snapshots, `Q U, s, V` is one of the left snapshots
themselves, with the same reduced operator and the same modes; `X`, `Y` are the left and right
snapshots. -/
theorem C78_captured_is_dmd (S : Matrix (Fin n) (Fin (t + 1)) ℂ) (T : Matrix (Fin (t + 1)) (Fin l) ℂ)
    (X Y : Matrix (Fin n) (Fin t) ℂ) (hX : ∀ i j, X i j = S i j.castSucc) (hY : ∀ i j, Y i j = S i j.succ)
    (p : ℕ) (hT : ∃ G : Matrix (Fin l) (Fin (t + 1)) ℂ, S = S * T * G) :
    (rqbQ qr S T p).2 * rqbB qr S T p = S ∧ (rqbB qr S T p)ᴴ * rqbB qr S T p = Sᴴ * S ∧
    ∀ (r : ℕ) (U : Matrix (Fin (rqbQ qr S T p).1) (Fin r) ℂ) (s : Fin r → ℝ)
      (V : Matrix (Fin t) (Fin r) ℂ),
      (IsSVD (init (rqbB qr S T p)) U s V → IsSVD X ((rqbQ qr S T p).2 * U) s V) ∧
      computeOperator none .none U s V (tail (rqbB qr S T p)) =
        .ok (Operator.leastSquareOperator none ((rqbQ qr S T p).2 * U) s V Y) ∧
      ∀ W, computeModes (tail S) s V W =
        Operator.computeModes true none Y ((rqbQ qr S T p).2 * U) s V W := by
  have hQ := rqbQ_orth hqr S T p
  have hc := rqbQ_captures hqr S T p hT
  obtain rfl : X = init S := by ext i j; exact hX i j
  obtain rfl : Y = tail S := by ext i j; exact hY i j
  simp only [rqbB]
  generalize (rqbQ qr S T p).2 = Q at *
  rw [Matrix.mul_assoc] at hc
  have hi : ∀ B : Matrix (Fin (rqbQ qr S T p).1) (Fin n) ℂ, init (B * S) = B * init S := by
    intro B; ext i j; simp [init, Matrix.mul_apply]
  have ht : ∀ B : Matrix (Fin (rqbQ qr S T p).1) (Fin n) ℂ, tail (B * S) = B * tail S := by
    intro B; ext i j; simp [tail, Matrix.mul_apply]
  have hc' : Q * (Qᴴ * init S) = init S := by
    have := congrArg init hc
    refine Eq.trans ?_ this
    ext i j; simp [init, Matrix.mul_apply]
  refine ⟨hc, ?_, fun r U s V => ⟨fun h => ⟨?_, ?_, h.v, h.nonneg⟩, ?_, fun W => ?_⟩⟩
  · rw [conjTranspose_mul, conjTranspose_conjTranspose, Matrix.mul_assoc, hc]
  · rw [Matrix.mul_assoc Q, Matrix.mul_assoc Q, ← h.eq, hi, hc']
  · rw [conjTranspose_mul, Matrix.mul_assoc, ← Matrix.mul_assoc Qᴴ, hQ, Matrix.one_mul, h.u]
  · simp only [computeOperator, Operator.scaledOperator, Operator.RescaleAttr.mode,
      Operator.leastSquareOperator]
    rw [ht, conjTranspose_mul]
    simp only [Matrix.mul_assoc]
  · simp [computeModes, Operator.computeModes, Operator.tikSigma]

end rdmd

/-- The assumption on `np.linalg.qr` can be met, and a test matrix capturing the snapshots exists
for all of them (the identity). -/
example : ∃ qr : QrFun, IsQr qr ∧ ∀ (n t : ℕ) (S : Matrix (Fin n) (Fin (t + 1)) ℂ),
    ∃ G : Matrix (Fin (t + 1)) (Fin (t + 1)) ℂ, S = S * (1 : Matrix (Fin (t + 1)) (Fin (t + 1)) ℂ) * G := by
  obtain ⟨qr, h⟩ := exists_isQr
  exact ⟨qr, h, fun n t S => ⟨1, by simp⟩⟩

/-- **C78** fails for `svd_rank=0`: the optimal rank is computed from the shape of the compressed
snapshots. With the same singular values, 1000 rows compressed to 5 give a smaller rank
(disagreement D71). -/
theorem C78_auto_rank_false :
    ∃ (s : List ℚ), Rank.computeRank s 1000 5 (.int 0) = 2 ∧ Rank.computeRank s 5 5 (.int 0) = 1 := by
  refine ⟨[8, 4, 2, 1, 1/2], ?_, ?_⟩ <;> decide +kernel

/-! ### Options of compressed DMD -/

/-- **C79** (sampling). With `'sample'` and at least as many values per snapshot as snapshots, the
compressed snapshots are the chosen values: row `i` is row `choice i` of the snapshots. -/
theorem C79_sample {n t : ℕ} (g : Draws t n) (S : Matrix (Fin n) (Fin t) ℂ) (h : t ≤ n) :
    compressSnapshots .sample g S = .ok ⟨t, Matrix.of fun i j => S (g.choice i) j⟩ := by
  have : sampleMatrix g.choice * S = Matrix.of fun i j => S (g.choice i) j := by
    ext i j
    simp [sampleMatrix, Matrix.mul_apply]
  simp [compressSnapshots, not_lt.mpr h, this]

/-- **C79** (random matrices). With `'uniform'`, `'sparse'` and `'normal'` the snapshots are
multiplied by the matrix of the named distribution. -/
theorem C79_random {n t : ℕ} (g : Draws t n) (S : Matrix (Fin n) (Fin t) ℂ) :
    compressSnapshots .uniform g S = .ok ⟨t, Matrix.of fun i j => ∑ a, g.uniform i a * S a j⟩ ∧
    compressSnapshots .sparse g S = .ok ⟨t, Matrix.of fun i j => ∑ a, g.sparse i a * S a j⟩ ∧
    compressSnapshots .normal g S = .ok ⟨t, Matrix.of fun i j => ∑ a, g.normal i a * S a j⟩ :=
  ⟨rfl, rfl, rfl⟩

/-- **C79** (errors). More snapshots than values per snapshot, an array with the wrong number of
columns, and any other value raise; a matching array is applied. -/
theorem C79_errors {n t : ℕ} (g : Draws t n) (S : Matrix (Fin n) (Fin t) ℂ) :
    (n < t → compressSnapshots .sample g S = .error .valueError) ∧
    (∀ rows cols C, cols ≠ n → compressSnapshots (.array rows cols C) g S = .error .valueError) ∧
    (∀ rows C, ∃ B : Matrix (Fin rows) (Fin t) ℂ, compressSnapshots (.array rows n C) g S = .ok ⟨rows, B⟩ ∧
      ∀ i j, B i j = ∑ a : Fin n, C i a * S a j) ∧
    compressSnapshots .other g S = .error .unboundLocalError := by
  refine ⟨fun h => by simp [compressSnapshots, h], fun rows cols C h => by simp [compressSnapshots, h],
    fun rows C => ⟨(Matrix.of fun (i : Fin rows) (j : Fin n) => C i j) * S,
      by simp only [compressSnapshots, ne_eq, not_true_eq_false, if_false], ?_⟩, rfl⟩
  intro i j
  simp [Matrix.mul_apply]

/-- **C79** is false for the documented options `rescale_mode='auto'` and
`tikhonov_regularization`: on all data the first raises `ValueError` and the second `TypeError`
(disagreement D72). -/
theorem C79_options_false {k n : Type} [Fintype k] [Fintype n] {r : ℕ} (U : Matrix k (Fin r) ℂ)
    (s : Fin r → ℝ) (V : Matrix n (Fin r) ℂ) (cY : Matrix k n ℂ) :
    computeOperator none .auto U s V cY = .error .valueError ∧
    ∀ tik mode, computeOperator (some tik) mode U s V cY = .error .typeError :=
  ⟨rfl, fun _ _ => rfl⟩

/-- **C79** (the other scalings work). Without these options the reduced operator is scaled as in
DMD. -/
theorem C79_scaling_partial {k n : Type} [Fintype k] [Fintype n] {r : ℕ} (U : Matrix k (Fin r) ℂ)
    (s : Fin r → ℝ) (V : Matrix n (Fin r) ℂ) (cY : Matrix k n ℂ) :
    computeOperator none .none U s V cY =
      .ok (Uᴴ * cY * V * rdiag fun i => (s i)⁻¹) ∧
    ∀ l : List ℝ, l.length = r → (∀ x ∈ l, 0 < x) →
      ∃ At, computeOperator none (.array l) U s V cY = .ok At ∧
        ∀ i j, At i j = (Uᴴ * cY * V * rdiag fun i => (s i)⁻¹) i j *
          ((Real.sqrt (l.getD j 0) / Real.sqrt (l.getD i 0) : ℝ) : ℂ) := by
  refine ⟨rfl, fun l hl hp => ⟨Operator.factorsInvSqrt r l *
    Operator.leastSquareOperator none U s V cY * Operator.factorsSqrt r l, by simp only [computeOperator, Operator.scaledOperator,
    Operator.RescaleAttr.mode, hl, ne_eq, not_true_eq_false, if_false], ?_⟩⟩
  intro i j
  have hi : l.getD i 0 ≠ 0 := by
    have : (i : ℕ) < l.length := by rw [hl]; exact i.2
    rw [List.getD_eq_getElem?_getD, List.getElem?_eq_getElem this, Option.getD_some]
    exact (hp _ (List.getElem_mem this)).ne'
  simp only [Operator.factorsInvSqrt, Operator.factorsSqrt, rdiag, diagonal_mul, mul_diagonal, hi,
    if_false, Operator.leastSquareOperator, Operator.tikSigma]
  push_cast
  ring

/-- Instance of C79: two snapshots of three values, of which the last and the first are kept. -/
example (g : Draws 2 3) (hg : g.choice = ![2, 0]) (a b c d e f : ℂ) :
    compressSnapshots .sample g !![a, b; c, d; e, f] = .ok ⟨2, !![e, f; a, b]⟩ := by
  rw [C79_sample g _ (by norm_num), hg]
  congr 2
  ext i j
  fin_cases i <;> fin_cases j <;> rfl

end Verif.Compressed
