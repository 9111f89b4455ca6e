import Verif.Lemmas.Operator
import Mathlib.Data.Matrix.ColumnRowPartitioned

/-!
# Properties C14–C18, C55: the DMD operator
-/

namespace Verif.Operator

open Verif Verif.LinAlg Matrix

variable {m n r : Type} [Fintype m] [Fintype n] [Fintype r] [DecidableEq r] [DecidableEq n]

/-- **C14** (total least squares). With rank 0 the data is returned as it is; otherwise there is an
orthogonal projection `P` (Hermitian, idempotent) of rank at most the requested one with which
both matrices are multiplied, so that multiplying once more changes nothing. `V` are the right
singular vectors of the stacked data, of which only orthonormality is used. -/
theorem C14_projection [DecidableEq m] {k : ℕ} (V : Matrix n (Fin k) ℂ) (hV : Vᴴ * V = 1)
    (X Y : Matrix m n ℂ) :
    computeTlsq V X Y 0 = (X, Y) ∧
    ∀ q : ℕ, q ≠ 0 → ∃ P : Matrix n n ℂ, P.IsHermitian ∧ P * P = P ∧ P.rank ≤ q ∧
      computeTlsq V X Y q = (X * P, Y * P) ∧
      computeTlsq V (X * P) (Y * P) q = computeTlsq V X Y q := by
  refine ⟨by simp [computeTlsq], fun q hq => ?_⟩
  have hVr : ((V.submatrix id (Fin.castLE (min_le_right q k)))ᴴ *
      V.submatrix id (Fin.castLE (min_le_right q k)) : Matrix (Fin (min q k)) (Fin (min q k)) ℂ) = 1 := by
    ext i j
    have := congrFun (congrFun hV (Fin.castLE (min_le_right q k) i))
      (Fin.castLE (min_le_right q k) j)
    simp only [Matrix.mul_apply, conjTranspose_apply, submatrix_apply, id_eq] at this ⊢
    rw [this]
    simp [Matrix.one_apply, Fin.ext_iff]
  have hid : tlsqProj V (min_le_right q k) * tlsqProj V (min_le_right q k) =
      tlsqProj V (min_le_right q k) := by
    simp only [tlsqProj]
    rw [Matrix.mul_assoc, ← Matrix.mul_assoc _ _ (V.submatrix id _)ᴴ, hVr, Matrix.one_mul]
  refine ⟨tlsqProj V (min_le_right q k), ?_, hid, ?_, by simp [computeTlsq, hq], ?_⟩
  · simp [tlsqProj, IsHermitian, conjTranspose_mul]
  · refine le_trans (rank_mul_le_left _ _) (le_trans (rank_le_card_width _) ?_)
    simp
  · simp [computeTlsq, hq, Matrix.mul_assoc, hid]

/-- **C14** (noise-free data is untouched). If the stacked data `[X; Y]` has at most `q` nonzero
singular values (the first ones), de-noising with rank `q` returns it unchanged. -/
theorem C14_low_rank_unchanged [DecidableEq m] {k : ℕ} (X Y : Matrix m n ℂ)
    (U : Matrix (m ⊕ m) (Fin k) ℂ) (s : Fin k → ℝ) (V : Matrix n (Fin k) ℂ)
    (h : IsSVD (fromRows X Y) U s V) (q : ℕ) (hs : ∀ i : Fin k, q ≤ (i : ℕ) → s i = 0) :
    computeTlsq V X Y q = (X, Y) := by
  by_cases hq : q = 0
  · simp [computeTlsq, hq]
  have key : fromRows X Y * tlsqProj V (min_le_right q k) = fromRows X Y := by
    have e : Vᴴ * tlsqProj V (min_le_right q k) =
        (rdiag fun i : Fin k => if (i : ℕ) < q then 1 else 0) * Vᴴ := by
      ext a b
      simp only [tlsqProj]
      rw [← Matrix.mul_assoc]
      have e1 : Vᴴ * V.submatrix id (Fin.castLE (min_le_right q k)) =
          Matrix.of fun (a : Fin k) (i : Fin (min q k)) => if (a : ℕ) = i then (1 : ℂ) else 0 := by
        ext a i
        have := congrFun (congrFun h.v a) (Fin.castLE (min_le_right q k) i)
        simp only [Matrix.mul_apply, conjTranspose_apply, submatrix_apply, id_eq] at this ⊢
        rw [this]
        simp [Matrix.one_apply, Fin.ext_iff, Matrix.of_apply]
      rw [e1, rdiag, diagonal_mul, Matrix.mul_apply]
      simp only [Matrix.of_apply, conjTranspose_apply, submatrix_apply, id_eq, ite_mul, one_mul, zero_mul]
      by_cases ha : (a : ℕ) < q
      · have ha' : (a : ℕ) < min q k := lt_min ha a.2
        rw [Finset.sum_eq_single (⟨a, ha'⟩ : Fin (min q k))]
        · simp [ha]
        · intro i _ hi
          rw [if_neg]
          intro h'
          exact hi (Fin.ext h'.symm)
        · simp
      · rw [Finset.sum_eq_zero]
        · simp [ha]
        · intro i _
          rw [if_neg]
          have := i.2
          omega
    have e2 : rdiag s * (rdiag fun i : Fin k => if (i : ℕ) < q then 1 else 0) = rdiag s := by
      rw [rdiag, rdiag, diagonal_mul_diagonal]
      congr 1; funext i
      by_cases hi : (i : ℕ) < q
      · simp [hi]
      · simp [hi, hs i (by omega)]
    conv_lhs => rw [h.eq]
    conv_rhs => rw [h.eq]
    rw [Matrix.mul_assoc, e, ← Matrix.mul_assoc, Matrix.mul_assoc U, e2]
  rw [fromRows_mul] at key
  obtain ⟨k1, k2⟩ := fromRows_inj key
  simp [computeTlsq, hq, k1, k2]

/-- A rank-one instance: the single right singular vector of two equal columns. -/
example : ∃ V : Matrix (Fin 2) (Fin 1) ℂ, Vᴴ * V = 1 :=
  ⟨!![1; 0], by ext i j; fin_cases i; fin_cases j; simp [Matrix.mul_apply, Fin.sum_univ_two]⟩

/-- **C15** (exact modes). Let `X = U S V^H` be an SVD of the left snapshots, truncated to `q`
nonzero singular values, and `P` the pseudo-inverse of the truncated data. If the columns of `W`
are eigenvectors of the reduced operator with eigenvalues `eigs`, then the exact modes are
eigenvectors of the best-fit operator `Y P` with the same eigenvalues, nonzero if the eigenvalue
is (and the reduced eigenvector does not vanish). -/
theorem C15_exact_modes {p : ℕ} (X Y : Matrix m n ℂ) (U : Matrix m (Fin p) ℂ) (s : Fin p → ℝ)
    (V : Matrix n (Fin p) ℂ) (h : IsSVD X U s V) (q : ℕ) (hq : q ≤ p)
    (hs : ∀ i : Fin q, s (Fin.castLE hq i) ≠ 0) (P : Matrix n m ℂ)
    (hP : IsPinv (lead q hq U * rdiag (s ∘ Fin.castLE hq) * (lead q hq V)ᴴ) P)
    (W : Matrix (Fin q) (Fin q) ℂ) (eigs : Fin q → ℂ)
    (hW : leastSquareOperator none (lead q hq U) (s ∘ Fin.castLE hq) (lead q hq V) Y * W =
      W * diagonal eigs) :
    let modes := computeModes true none Y (lead q hq U) (s ∘ Fin.castLE hq) (lead q hq V) W
    (Y * P) * modes = modes * diagonal eigs ∧
      ∀ i, eigs i ≠ 0 → W.col i ≠ 0 → modes.col i ≠ 0 := by
  intro modes
  have hP' : P = lead q hq V * rdiag (fun i => ((s ∘ Fin.castLE hq) i)⁻¹) * (lead q hq U)ᴴ :=
    hP.unique ((h.lead q hq).isPinv hs)
  have hm : modes = Y * lead q hq V * rdiag (fun i => ((s ∘ Fin.castLE hq) i)⁻¹) * W := by
    simp [modes, computeModes, tikSigma]
  have hA : leastSquareOperator none (lead q hq U) (s ∘ Fin.castLE hq) (lead q hq V) Y =
      (lead q hq U)ᴴ * Y * lead q hq V * rdiag (fun i => ((s ∘ Fin.castLE hq) i)⁻¹) := by
    simp [leastSquareOperator, tikSigma]
  have hUm : (lead q hq U)ᴴ * modes = W * diagonal eigs := by
    rw [hm, ← hW, hA]; simp only [Matrix.mul_assoc]
  constructor
  · calc Y * P * modes
        = Y * lead q hq V * rdiag (fun i => ((s ∘ Fin.castLE hq) i)⁻¹) *
            ((lead q hq U)ᴴ * modes) := by rw [hP']; simp only [Matrix.mul_assoc]
      _ = modes * diagonal eigs := by rw [hUm, hm]; simp only [Matrix.mul_assoc]
  · intro i hi hw h0
    apply hw
    have := congrArg (fun M : Matrix (Fin q) (Fin q) ℂ => M.col i) hUm
    funext a
    have ha := congrFun this a
    simp only [col_apply, mul_diagonal] at ha
    rw [Matrix.mul_apply] at ha
    have hz : ∀ b, modes b i = 0 := fun b => congrFun h0 b
    simp only [hz, mul_zero, Finset.sum_const_zero] at ha
    simpa [hi] using ha.symm

/-- **C15** (projected modes). With the same data, the projected modes are eigenvectors of the
projected best-fit operator `U U^H Y P` with the same eigenvalues, and never vanish. -/
theorem C15_projected_modes {p : ℕ} (X Y : Matrix m n ℂ) (U : Matrix m (Fin p) ℂ) (s : Fin p → ℝ)
    (V : Matrix n (Fin p) ℂ) (h : IsSVD X U s V) (q : ℕ) (hq : q ≤ p)
    (hs : ∀ i : Fin q, s (Fin.castLE hq i) ≠ 0) (P : Matrix n m ℂ)
    (hP : IsPinv (lead q hq U * rdiag (s ∘ Fin.castLE hq) * (lead q hq V)ᴴ) P)
    (W : Matrix (Fin q) (Fin q) ℂ) (eigs : Fin q → ℂ)
    (hW : leastSquareOperator none (lead q hq U) (s ∘ Fin.castLE hq) (lead q hq V) Y * W =
      W * diagonal eigs) :
    let modes := computeModes false none Y (lead q hq U) (s ∘ Fin.castLE hq) (lead q hq V) W
    (lead q hq U * (lead q hq U)ᴴ * (Y * P)) * modes = modes * diagonal eigs ∧
      ∀ i, W.col i ≠ 0 → modes.col i ≠ 0 := by
  intro modes
  have hP' : P = lead q hq V * rdiag (fun i => ((s ∘ Fin.castLE hq) i)⁻¹) * (lead q hq U)ᴴ :=
    hP.unique ((h.lead q hq).isPinv hs)
  have hm : modes = lead q hq U * W := by simp [modes, computeModes]
  have hA : leastSquareOperator none (lead q hq U) (s ∘ Fin.castLE hq) (lead q hq V) Y =
      (lead q hq U)ᴴ * Y * lead q hq V * rdiag (fun i => ((s ∘ Fin.castLE hq) i)⁻¹) := by
    simp [leastSquareOperator, tikSigma]
  have hUm : (lead q hq U)ᴴ * modes = W := by
    rw [hm, ← Matrix.mul_assoc, lead_orthonormal hq U h.u, Matrix.one_mul]
  constructor
  · calc lead q hq U * (lead q hq U)ᴴ * (Y * P) * modes
        = lead q hq U * (leastSquareOperator none (lead q hq U) (s ∘ Fin.castLE hq)
            (lead q hq V) Y * ((lead q hq U)ᴴ * modes)) := by
          rw [hP', hA]; simp only [Matrix.mul_assoc]
      _ = modes * diagonal eigs := by rw [hUm, hW, hm, Matrix.mul_assoc]
  · intro i hw h0
    apply hw
    funext a
    have ha := congrFun (congrFun hUm a) i
    have hz : ∀ b, modes b i = 0 := fun b => congrFun h0 b
    rw [Matrix.mul_apply] at ha
    simp only [hz, mul_zero, Finset.sum_const_zero] at ha
    exact ha.symm

/-- **C15**: without truncation `P` is the pseudo-inverse of `X` itself. -/
theorem C15_untruncated {p : ℕ} (X : Matrix m n ℂ) (U : Matrix m (Fin p) ℂ) (s : Fin p → ℝ)
    (V : Matrix n (Fin p) ℂ) (h : IsSVD X U s V) :
    lead p le_rfl U * rdiag (s ∘ Fin.castLE le_rfl) * (lead p le_rfl V)ᴴ = X := by
  rw [h.eq]; rfl

/-- **C15**: an exact mode can vanish when its eigenvalue is zero, so it is not an eigenvector
there (documented limitation of exact DMD; the projected modes do not have it). Snapshots 1, 0. -/
theorem C15_zero_eigenvalue_false :
    ∃ (X Y : Matrix (Fin 1) (Fin 1) ℂ) (U V W : Matrix (Fin 1) (Fin 1) ℂ) (s : Fin 1 → ℝ)
      (eigs : Fin 1 → ℂ), IsSVD X U s V ∧ (∀ i, s i ≠ 0) ∧
      leastSquareOperator none U s V Y * W = W * diagonal eigs ∧ W.col 0 ≠ 0 ∧
      (computeModes true none Y U s V W).col 0 = 0 := by
  refine ⟨1, 0, 1, 1, 1, fun _ => 1, fun _ => 0, ⟨?_, by simp, by simp, by simp⟩, by simp, ?_, ?_, ?_⟩
  · simp [rdiag]
  · simp [leastSquareOperator]
  · intro h; have := congrFun h 0; simp at this
  · funext i; simp [computeModes]

/-- Instance of the hypotheses of C15: scalar data `x = 1, 2, 4`. -/
example : ∃ (X Y : Matrix (Fin 1) (Fin 2) ℂ) (U : Matrix (Fin 1) (Fin 1) ℂ) (s : Fin 1 → ℝ)
    (V : Matrix (Fin 2) (Fin 1) ℂ), IsSVD X U s V ∧ (∀ i, s i ≠ 0) ∧
      leastSquareOperator none U s V Y * 1 = 1 * diagonal (fun _ => (2 : ℂ)) := by
  have h5 : (Real.sqrt 5 : ℂ) * Real.sqrt 5 = 5 := by
    rw [← Complex.ofReal_mul, Real.mul_self_sqrt (by norm_num)]; norm_num
  have h0 : (Real.sqrt 5 : ℂ) ≠ 0 := by
    intro h; rw [h] at h5; norm_num at h5
  refine ⟨!![1, 2], !![2, 4], 1, fun _ => Real.sqrt 5, !![1 / Real.sqrt 5; 2 / Real.sqrt 5],
    ⟨?_, by simp, ?_, fun _ => Real.sqrt_nonneg _⟩, ?_, ?_⟩
  · ext i j; fin_cases i; fin_cases j <;>
      simp [rdiag, Matrix.mul_apply] <;> field_simp
  · ext i j; fin_cases i; fin_cases j
    have h2 : (starRingEnd ℂ) 2 = 2 := by simpa using Complex.conj_ofReal 2
    simp [Matrix.mul_apply, Fin.sum_univ_two, h2]
    field_simp
    rw [show ((Real.sqrt 5 : ℝ) : ℂ) ^ 2 = 5 by rw [sq]; exact h5]; norm_num
  · intro i; exact (Real.sqrt_pos.mpr (by norm_num)).ne'
  · ext i j; fin_cases i; fin_cases j
    simp [leastSquareOperator, tikSigma, rdiag, Matrix.mul_apply, Fin.sum_univ_two]
    field_simp
    rw [pow_two, h5]; norm_num

/-- **C17** (rescaling). With a positive scaling vector of the right length the scaled operator has
the same characteristic polynomial as the reduced operator (same eigenvalues with multiplicity),
and the vectors `W` used for the modes are eigenvectors of the unscaled operator, nonvanishing as
the computed ones; wrong lengths and other values raise `ValueError`. -/
theorem C17_rescaling {q : ℕ} (A : Matrix (Fin q) (Fin q) ℂ) :
    (∀ l : List ℝ, l.length = q → (∀ x ∈ l, 0 < x) → ∃ Ahat, scaledOperator (.array l) A = .ok Ahat ∧
      Ahat.charpoly = A.charpoly ∧
      ∀ (E : Matrix (Fin q) (Fin q) ℂ) (eigs : Fin q → ℂ), Ahat * E = E * diagonal eigs →
        A * modeCoefficients (.array l) E = modeCoefficients (.array l) E * diagonal eigs ∧
        ∀ i, E.col i ≠ 0 → (modeCoefficients (.array l) E).col i ≠ 0) ∧
    (∀ l : List ℝ, l.length ≠ q → scaledOperator (.array l) A = .error .valueError) ∧
    scaledOperator .other A = .error .valueError ∧
    scaledOperator .none A = .ok A := by
  refine ⟨?_, ?_, rfl, rfl⟩
  · intro l hl hpos
    obtain ⟨h1, h2⟩ := factors_inv q l hl hpos
    refine ⟨factorsInvSqrt q l * A * factorsSqrt q l, by simp [scaledOperator, hl], ?_, ?_⟩
    · rw [Matrix.mul_assoc, charpoly_mul_comm, Matrix.mul_assoc, h1, Matrix.mul_one]
    · intro E eigs hE
      simp only [modeCoefficients]
      constructor
      · calc A * (factorsSqrt q l * E)
            = (factorsSqrt q l * factorsInvSqrt q l) * A * factorsSqrt q l * E := by
              rw [h1, Matrix.one_mul, Matrix.mul_assoc]
          _ = factorsSqrt q l * (factorsInvSqrt q l * A * factorsSqrt q l * E) := by
              simp only [Matrix.mul_assoc]
          _ = factorsSqrt q l * E * diagonal eigs := by rw [hE, Matrix.mul_assoc]
      · intro i hi h0
        apply hi
        have : factorsInvSqrt q l * (factorsSqrt q l * E) = E := by
          rw [← Matrix.mul_assoc, h2, Matrix.one_mul]
        funext a
        have ha := congrFun (congrFun this a) i
        have hz : ∀ b, (factorsSqrt q l * E) b i = 0 := fun b => congrFun h0 b
        rw [Matrix.mul_apply] at ha
        simp only [hz, mul_zero, Finset.sum_const_zero] at ha
        exact ha.symm
  · intro l hl
    simp [scaledOperator, hl]

/-- **C17** at the excluded point: a zero factor (which the code explicitly allows, zeroing a row)
changes the eigenvalues: the 1×1 operator 1 becomes 0 (disagreement D06). -/
theorem C17_zero_factor_false :
    ∃ (A Ahat : Matrix (Fin 1) (Fin 1) ℂ), scaledOperator (.array [0]) A = .ok Ahat ∧
      Ahat.charpoly ≠ A.charpoly := by
  refine ⟨1, 0, ?_, ?_⟩
  · simp [scaledOperator, factorsInvSqrt, factorsSqrt, rdiag]
  · intro h
    have := congrArg (fun p => Polynomial.eval 0 p) h
    simp [Matrix.charpoly, Matrix.charmatrix, Matrix.det_unique] at this

example : ∃ Ahat, scaledOperator (.array [4, 9]) (1 : Matrix (Fin 2) (Fin 2) ℂ) = .ok Ahat ∧
    Ahat.charpoly = (1 : Matrix (Fin 2) (Fin 2) ℂ).charpoly := by
  obtain ⟨B, h1, h2, -⟩ := (C17_rescaling (1 : Matrix (Fin 2) (Fin 2) ℂ)).1 [4, 9] rfl
    (by intro x hx; simp at hx; rcases hx with rfl | rfl <;> norm_num)
  exact ⟨B, h1, h2⟩

/-- **C18** (sorting). `'abs'` sorts by modulus, `'real'` by (real, imaginary) part, `False`/`None`
leaves the pairs alone and other values raise `ValueError`. Sorting permutes the pairs (so each
eigenvector stays with its eigenvalue, none lost or duplicated), the keys ascend, and pairs with
equal key keep their order. -/
theorem C18_sorting {E : Type} (pairs : List (ℂ × E)) :
    (∃ l, sortEigs .abs pairs = .ok l ∧ l.Perm pairs ∧ l.Pairwise (fun a b => ‖a.1‖ ≤ ‖b.1‖) ∧
      ∀ c : ℝ, l.filter (fun x => ‖x.1‖ = c) = pairs.filter fun x => ‖x.1‖ = c) ∧
    (∃ l, sortEigs .real pairs = .ok l ∧ l.Perm pairs ∧
      l.Pairwise (fun a b => a.1.re < b.1.re ∨ (a.1.re = b.1.re ∧ a.1.im ≤ b.1.im)) ∧
      ∀ z : ℂ, l.filter (fun x => x.1 = z) = pairs.filter fun x => x.1 = z) ∧
    sortEigs .off pairs = .ok pairs ∧ sortEigs .other pairs = .error .valueError := by
  refine ⟨⟨_, rfl, List.mergeSort_perm _ _, mergeSort_sorted (fun x : ℂ × E => ‖x.1‖) pairs,
    fun c => mergeSort_stable (fun x : ℂ × E => ‖x.1‖) pairs c⟩, ⟨_, rfl, List.mergeSort_perm _ _,
    ?_, ?_⟩, rfl, rfl⟩
  · refine (mergeSort_sorted (fun x : ℂ × E => realKey x.1) pairs).imp ?_
    intro a b hab
    exact Prod.Lex.toLex_le_toLex.mp hab
  · intro z
    have := mergeSort_stable (fun x : ℂ × E => realKey x.1) pairs (realKey z)
    have e : ∀ x : ℂ × E, (realKey x.1 = realKey z) = (x.1 = z) := by
      intro x
      simp only [realKey, toLex_inj, Prod.mk.injEq, eq_iff_iff]
      exact Complex.ext_iff.symm
    simpa only [e] using this

example := C18_sorting [((3 : ℂ), "a"), (Complex.I, "b"), (-1, "c")]

/-- **C55** (Tikhonov). With `tikhonov_regularization = t`, put `mu = t * norm_X`, where `mu` makes
no denominator vanish. The reduced operator is `U^H A U` for the matrix `A = Y V S_t^{-1} U^H`, and
`A` solves the ridge problem: it satisfies `A (X X^H + mu) = Y X^H` and, for `mu ≥ 0`, minimises
`‖A X - Y‖² + mu ‖A‖²` among all matrices. -/
theorem C55_tikhonov_ridge [DecidableEq m] (X Y : Matrix m n ℂ) (U : Matrix m r ℂ) (s : r → ℝ)
    (V : Matrix n r ℂ) (h : IsSVD X U s V) (hs : ∀ i, s i ≠ 0) (t nX : ℝ) (hmu : 0 ≤ t * nX) :
    let A := Y * V * rdiag (fun i => (tikSigma (some (t, nX)) s i)⁻¹) * Uᴴ
    leastSquareOperator (some (t, nX)) U s V Y = Uᴴ * A * U ∧
    A * (X * Xᴴ + ((t * nX : ℝ) : ℂ) • 1) = Y * Xᴴ ∧
    ∀ B : Matrix m m ℂ, frobSq (A * X - Y) + t * nX * frobSq A ≤
      frobSq (B * X - Y) + t * nX * frobSq B := by
  intro A
  have hA : A = Y * V * rdiag (fun i => (tikSigma (some (t, nX)) s i)⁻¹) * Uᴴ := rfl
  have hne : ∀ i, s i ^ 2 + t * nX ≠ 0 := by
    intro i
    have := sq_pos_of_ne_zero (hs i)
    linarith
  have hnorm : A * (X * Xᴴ + ((t * nX : ℝ) : ℂ) • 1) = Y * Xᴴ := by
    have hXX : X * Xᴴ = U * rdiag (fun i => s i ^ 2) * Uᴴ := by
      rw [h.eq, conjTranspose_mul, conjTranspose_mul, conjTranspose_conjTranspose,
        rdiag_conjTranspose]
      calc U * rdiag s * Vᴴ * (V * (rdiag s * Uᴴ)) = U * rdiag s * (Vᴴ * V) * rdiag s * Uᴴ := by
            simp only [Matrix.mul_assoc]
        _ = U * (rdiag s * rdiag s) * Uᴴ := by rw [h.v]; simp only [Matrix.mul_one, Matrix.mul_assoc]
        _ = _ := by
          congr 2
          rw [rdiag, diagonal_mul_diagonal, rdiag]
          congr 1; funext i; push_cast; ring
    have hYX : Y * Xᴴ = Y * V * rdiag s * Uᴴ := by
      rw [h.eq, conjTranspose_mul, conjTranspose_mul, conjTranspose_conjTranspose,
        rdiag_conjTranspose]; simp only [Matrix.mul_assoc]
    rw [hXX, hYX, Matrix.mul_add, hA]
    have e1 : Y * V * rdiag (fun i => (tikSigma (some (t, nX)) s i)⁻¹) * Uᴴ *
        (U * rdiag (fun i => s i ^ 2) * Uᴴ) =
        Y * V * (rdiag (fun i => (tikSigma (some (t, nX)) s i)⁻¹) * rdiag (fun i => s i ^ 2)) * Uᴴ := by
      calc _ = Y * V * rdiag (fun i => (tikSigma (some (t, nX)) s i)⁻¹) * (Uᴴ * U) *
            rdiag (fun i => s i ^ 2) * Uᴴ := by simp only [Matrix.mul_assoc]
        _ = _ := by rw [h.u]; simp only [Matrix.mul_one, Matrix.mul_assoc]
    have e2 : Y * V * rdiag (fun i => (tikSigma (some (t, nX)) s i)⁻¹) * Uᴴ *
        (((t * nX : ℝ) : ℂ) • 1) =
        Y * V * (rdiag (fun i => (tikSigma (some (t, nX)) s i)⁻¹ * (t * nX))) * Uᴴ := by
      have : rdiag (fun i => (tikSigma (some (t, nX)) s i)⁻¹ * (t * nX)) =
          ((t * nX : ℝ) : ℂ) • rdiag (fun i => (tikSigma (some (t, nX)) s i)⁻¹) := by
        rw [rdiag, rdiag, ← diagonal_smul]
        congr 1; funext i
        simp [mul_comm]
      rw [this]
      simp only [Matrix.mul_smul, Matrix.mul_one, Matrix.smul_mul]
    rw [e1, e2, ← Matrix.add_mul, ← Matrix.mul_add]
    congr 2
    rw [rdiag, rdiag, rdiag, diagonal_mul_diagonal, diagonal_add, rdiag]
    congr 1; funext i
    have : (tikSigma (some (t, nX)) s i)⁻¹ * s i ^ 2 + (tikSigma (some (t, nX)) s i)⁻¹ * (t * nX) =
        s i := by
      simp only [tikSigma]
      have := hs i
      have := hne i
      field_simp
    exact_mod_cast this
  refine ⟨?_, hnorm, ?_⟩
  · calc leastSquareOperator (some (t, nX)) U s V Y
        = Uᴴ * Y * V * rdiag (fun i => (tikSigma (some (t, nX)) s i)⁻¹) * (Uᴴ * U) := by
          rw [h.u, Matrix.mul_one]; rfl
      _ = _ := by rw [hA]; simp only [Matrix.mul_assoc]
  · intro B
    have e1 : B * X - Y = (A * X - Y) + (B - A) * X := by rw [Matrix.sub_mul]; abel
    have e2 : B = A + (B - A) := by abel
    have h1 := frobSq_add (A * X - Y) ((B - A) * X)
    have h2 := frobSq_add A (B - A)
    rw [← e1] at h1
    rw [← e2] at h2
    have cross : trace ((A * X - Y)ᴴ * ((B - A) * X)) + ((t * nX : ℝ) : ℂ) * trace (Aᴴ * (B - A)) = 0 := by
      have : X * (A * X - Y)ᴴ + ((t * nX : ℝ) : ℂ) • Aᴴ = 0 := by
        have h3 : (A * (X * Xᴴ + ((t * nX : ℝ) : ℂ) • 1) - Y * Xᴴ)ᴴ = 0 := by
          rw [hnorm, sub_self, conjTranspose_zero]
        rw [← h3]
        simp only [Matrix.mul_add, conjTranspose_sub, conjTranspose_add, conjTranspose_mul,
          conjTranspose_conjTranspose, Matrix.mul_smul, Matrix.mul_one, conjTranspose_smul,
          Matrix.mul_sub, Complex.star_def, Complex.conj_ofReal, Matrix.mul_assoc]
        abel
      rw [← Matrix.mul_assoc, trace_mul_comm, ← Matrix.mul_assoc,
        ← smul_eq_mul (a := ((t * nX : ℝ) : ℂ)), ← trace_smul, ← trace_add, ← Matrix.smul_mul, ← Matrix.add_mul, this]
      simp
    have cross' := congrArg Complex.re cross
    simp only [Complex.add_re, Complex.re_ofReal_mul, Complex.zero_re] at cross'
    have n1 := frobSq_nonneg ((B - A) * X)
    have n2 := mul_nonneg hmu (frobSq_nonneg (B - A))
    rw [h1, h2]
    nlinarith

end Verif.Operator
