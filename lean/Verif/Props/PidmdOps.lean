import Verif.Model.PidmdOps
import Verif.Lemmas.LinAlg
import Verif.Lemmas.PinvExists
import Verif.Lemmas.Fourier
import Verif.Props.PidmdFft
import Verif.Props.PidmdRecover
import Verif.Props.Frequencies

/-!
# Property C147: the operators, modes and eigenvalues of PiDMD belong together
-/

set_option autoImplicit false

namespace Verif.Pidmd

open Matrix LinAlg Verif

variable {n r k m : Type} [Fintype n] [Fintype r] [Fintype k] [Fintype m] [DecidableEq n] [DecidableEq r] [DecidableEq k]

/-- **C147** (unitary, symmetric, skew-symmetric): with a diagonalizable reduced operator, the modes are eigenvectors of
`U atilde Uᴴ` for the eigenvalues, whether or not `compute_A` is set, and with `compute_A` the attribute `A` is this
matrix; its compression to the basis is the reduced operator. -/
theorem C147_reduced (computeA : Bool) (U : Matrix n r ℂ) (hU : Uᴴ * U = 1) (a W : Matrix r r ℂ) (hW : IsUnit W.det)
    (o : Stored n r r) (h : IsReduced computeA U a W o) :
    U * a * Uᴴ * o.modes = o.modes * diagonal o.eigs ∧ o.A = (if computeA then some (U * a * Uᴴ) else none) ∧
      Uᴴ * (U * a * Uᴴ) * U = o.atilde := by
  obtain ⟨h1, h2, h3, P, hP, h4⟩ := h
  have hPeq : P = W⁻¹ * Uᴴ := by
    refine hP.unique ?_
    have e1 : W⁻¹ * Uᴴ * (U * W) = 1 := by
      rw [Matrix.mul_assoc, ← Matrix.mul_assoc Uᴴ, hU, Matrix.one_mul, nonsing_inv_mul W hW]
    have e2 : U * W * (W⁻¹ * Uᴴ) = U * Uᴴ := by
      rw [Matrix.mul_assoc, ← Matrix.mul_assoc W, mul_nonsing_inv W hW, Matrix.one_mul]
    rw [h3]
    refine ⟨?_, ?_, ?_, ?_⟩
    · rw [Matrix.mul_assoc (U * W), e1, Matrix.mul_one]
    · rw [e1, Matrix.one_mul]
    · rw [e2, conjTranspose_mul, conjTranspose_conjTranspose]
    · rw [e1, conjTranspose_one]
  refine ⟨?_, ?_, ?_⟩
  · rw [h3, Matrix.mul_assoc (U * a), ← Matrix.mul_assoc Uᴴ, hU, Matrix.one_mul, Matrix.mul_assoc, h1, Matrix.mul_assoc]
  · rw [h4, hPeq, fullOperator]
    cases computeA
    · rfl
    · have : U * W * diagonal o.eigs * (W⁻¹ * Uᴴ) = U * a * Uᴴ := by
        rw [Matrix.mul_assoc U W, ← h1, Matrix.mul_assoc U, Matrix.mul_assoc a, ← Matrix.mul_assoc W,
          mul_nonsing_inv W hW, Matrix.one_mul, Matrix.mul_assoc]
      rw [if_pos rfl, if_pos rfl, this]
  · rw [h2, Matrix.mul_assoc U a, ← Matrix.mul_assoc Uᴴ U, hU, Matrix.one_mul, Matrix.mul_assoc, hU, Matrix.mul_one]

/-- **C147** (the manifolds that compute `A`; partial: no truncation): if the basis spans all states and `A` is
diagonalizable, the reduced operator is `A` in the coordinates of the basis. -/
theorem C147_full_partial (U : Matrix n r ℂ) (hU : Uᴴ * U = 1) (hU' : U * Uᴴ = 1) (A : Matrix n n ℂ) (o : Stored n r n)
    (h : IsFull U A o) (hM : IsUnit o.modes.det) : o.atilde = Uᴴ * A * U := by
  obtain ⟨-, h1, P, hP, h2⟩ := h
  have hPeq : P = o.modes⁻¹ * U := by
    refine hP.unique ?_
    have e1 : o.modes⁻¹ * U * (Uᴴ * o.modes) = 1 := by
      rw [Matrix.mul_assoc, ← Matrix.mul_assoc U, hU', Matrix.one_mul, nonsing_inv_mul _ hM]
    have e2 : Uᴴ * o.modes * (o.modes⁻¹ * U) = 1 := by
      rw [Matrix.mul_assoc, ← Matrix.mul_assoc o.modes, mul_nonsing_inv _ hM, Matrix.one_mul, hU]
    refine ⟨?_, ?_, ?_, ?_⟩
    · rw [e2, Matrix.one_mul]
    · rw [e1, Matrix.one_mul]
    · rw [e2, conjTranspose_one]
    · rw [e1, conjTranspose_one]
  rw [h2, hPeq, Matrix.mul_assoc Uᴴ, ← h1, ← Matrix.mul_assoc Uᴴ A, Matrix.mul_assoc _ o.modes, ← Matrix.mul_assoc o.modes,
    mul_nonsing_inv _ hM, Matrix.one_mul]

/-- **C147** (partial: orthonormal modes, as for the circulant manifolds with different eigenvalues): for every
truncation the reduced operator is the compression of `A`. -/
theorem C147_normal_partial (U : Matrix n r ℂ) (hU : Uᴴ * U = 1) (A : Matrix n n ℂ) (o : Stored n r n)
    (h : IsFull U A o) (hM : o.modesᴴ * o.modes = 1) : o.atilde = Uᴴ * A * U := by
  obtain ⟨-, h1, P, hP, h2⟩ := h
  have hM' : o.modes * o.modesᴴ = 1 := mul_eq_one_comm.mp hM
  have hPeq : P = o.modesᴴ * U := by
    refine hP.unique ?_
    have e2 : Uᴴ * o.modes * (o.modesᴴ * U) = 1 := by
      rw [Matrix.mul_assoc, ← Matrix.mul_assoc o.modes, hM', Matrix.one_mul, hU]
    refine ⟨?_, ?_, ?_, ?_⟩
    · rw [e2, Matrix.one_mul]
    · rw [Matrix.mul_assoc, e2, Matrix.mul_one]
    · rw [e2, conjTranspose_one]
    · simp only [conjTranspose_mul, conjTranspose_conjTranspose, Matrix.mul_assoc]
  rw [h2, hPeq, Matrix.mul_assoc Uᴴ, ← h1, ← Matrix.mul_assoc Uᴴ A, Matrix.mul_assoc _ o.modes, ← Matrix.mul_assoc o.modes,
    hM', Matrix.one_mul]

/-- Amplitudes for invertible modes give the powers of the operator. -/
theorem recon_full (A M : Matrix n n ℂ) (eigs : n → ℂ) (h1 : A * M = M * diagonal eigs) (hM : IsUnit M.det) (x0 b : n → ℂ)
    (hb : IsLstsq M x0 b) (t : ℕ) : reconAt M eigs b t = A ^ t *ᵥ x0 := by
  have h2 : M *ᵥ b = x0 := by
    have h3 : x0 = M *ᵥ (M⁻¹ *ᵥ x0) := by rw [mulVec_mulVec, mul_nonsing_inv _ hM, one_mulVec]
    rw [h3] at hb
    rw [lstsq_solves _ _ _ hb, ← h3]
  induction t with
  | zero => simpa [reconAt] using h2
  | succ t ih =>
    have e1 : (fun j => eigs j ^ (t + 1) * b j) = diagonal eigs *ᵥ fun j => eigs j ^ t * b j := by
      funext j; rw [mulVec_diagonal]; ring
    rw [reconAt, e1, mulVec_mulVec, ← h1, ← mulVec_mulVec]
    change A *ᵥ reconAt M eigs b t = _
    rw [ih, mulVec_mulVec, pow_succ']

/-- **C147** (`compute_A` of the circulant manifolds): with or without `compute_A`, the reconstruction at the times 1, 2, …
is that of the operator `A`; at time 0 it is the first snapshot with, and its part in the frequencies that are kept
without. -/
theorem C147_circulant (N : ℕ) [NeZero N] (X Y : Matrix (ZMod N) m ℂ) (opt : CircOpt) (E : Finset (ZMod N))
    (A : Matrix (ZMod N) (ZMod N) ℂ) (h : computeCirculant (dft N) X Y opt E = some A) (x0 : ZMod N → ℂ)
    (U : Matrix (ZMod N) r ℂ) (o : Stored (ZMod N) r (ZMod N)) (ho : IsFull U A o) (hM : IsUnit o.modes.det)
    (b : ZMod N → ℂ) (hb : IsLstsq o.modes x0 b) (o' : Stored (ZMod N) r {k // k ∉ E})
    (ho' : IsSpectral U (circSpectral (dft N) X Y opt E).1 (circSpectral (dft N) X Y opt E).2 o')
    (b' : {k // k ∉ E} → ℂ) (hb' : IsLstsq o'.modes x0 b') :
    (∀ t, reconAt o.modes o.eigs b t = A ^ t *ᵥ x0) ∧
    (∀ t, 1 ≤ t → reconAt o'.modes o'.eigs b' t = A ^ t *ᵥ x0) ∧
    reconAt o'.modes o'.eigs b' 0 = (dft N * diagonal (fun k => if k ∈ E then 0 else 1) * invF (dft N)) *ᵥ x0 := by
  refine ⟨recon_full A o.modes o.eigs ho.2.1 hM x0 b hb, ?_⟩
  have hF := dft_isFourier N
  obtain ⟨hne, hA⟩ := computeCirculant_some h
  set lam : ZMod N → ℂ := fun k => if k ∈ E then 0 else adjust opt (circNum (dft N) X Y k / circDen (dft N) X k) with hlam
  obtain ⟨-, he, hm, -⟩ := ho'
  have hNz : (Fintype.card (ZMod N) : ℂ) ≠ 0 := by
    rw [ZMod.card]; exact_mod_cast NeZero.ne N
  -- amplitudes
  have hcol : o'.modesᴴ * o'.modes = (Fintype.card (ZMod N) : ℂ) • 1 := by
    have h1 := congrArg (fun M => M.submatrix (Subtype.val : {k // k ∉ E} → ZMod N) (Subtype.val : {k // k ∉ E} → ZMod N))
      hF.orth
    rw [hm]
    ext i j
    have h2 := congrFun (congrFun h1 i) j
    simp only [submatrix_apply, Matrix.smul_apply] at h2
    rw [Matrix.smul_apply]
    refine Eq.trans (Eq.trans rfl h2) ?_
    rw [Matrix.one_apply, Matrix.one_apply]
    simp [Subtype.ext_iff]
  have hbk : ∀ k, b' k = (invF (dft N) *ᵥ x0) k := by
    let c : {k // k ∉ E} → ℂ := fun k => (invF (dft N) *ᵥ x0) k
    have hc : o'.modesᴴ *ᵥ (o'.modes *ᵥ c - x0) = 0 := by
      rw [mulVec_sub, mulVec_mulVec, hcol]
      funext k
      have h3 : (o'.modesᴴ *ᵥ x0) k = ((dft N)ᴴ *ᵥ x0) k := by rw [hm]; rfl
      simp only [Pi.sub_apply, h3, smul_mulVec, one_mulVec, Pi.smul_apply, smul_eq_mul, c, invF, Pi.zero_apply]
      rw [← mul_assoc, mul_inv_cancel₀ hNz, one_mul, sub_self]
    have h4 := lstsq_gap o'.modes x0 c hc b'
    have h5 := hb' c
    have h6 : normSq (o'.modes *ᵥ (b' - c)) = 0 := by
      have := normSq_nonneg (o'.modes *ᵥ (b' - c))
      linarith
    have h7 : o'.modesᴴ *ᵥ (o'.modes *ᵥ (b' - c)) = 0 := by
      rw [(normSq_eq_zero _).mp h6, mulVec_zero]
    rw [mulVec_mulVec, hcol, smul_mulVec, one_mulVec] at h7
    intro k
    have h8 := congrFun h7 k
    simp only [Pi.smul_apply, smul_eq_mul, Pi.sub_apply, Pi.zero_apply] at h8
    exact sub_eq_zero.mp ((mul_eq_zero.mp h8).resolve_left hNz)
  have heig : ∀ k : {k // k ∉ E}, o'.eigs k = lam k := by
    intro k
    rw [he]
    simp [circSpectral, circEigs, circEig, k.2, hne k k.2, hlam]
  have hrec : ∀ t, reconAt o'.modes o'.eigs b' t =
      (dft N * diagonal (fun k => if k ∈ E then 0 else lam k ^ t) * invF (dft N)) *ᵥ x0 := by
    intro t
    funext i
    rw [← mulVec_mulVec, ← mulVec_mulVec]
    simp only [reconAt, mulVec, dotProduct]
    have h9 : ∑ j, dft N i j * ∑ x, diagonal (fun k => if k ∈ E then 0 else lam k ^ t) j x *
        ∑ y, invF (dft N) x y * x0 y = ∑ j, dft N i j * ((if j ∈ E then 0 else lam j ^ t) * (invF (dft N) *ᵥ x0) j) := by
      refine Finset.sum_congr rfl fun j _ => ?_
      congr 1
      exact mulVec_diagonal (fun k => if k ∈ E then 0 else lam k ^ t) (invF (dft N) *ᵥ x0) j
    refine Eq.trans ?_ h9.symm
    have h10 : ∑ j, dft N i j * ((if j ∈ E then 0 else lam j ^ t) * (invF (dft N) *ᵥ x0) j) =
        ∑ j ∈ Finset.univ.filter (fun j => j ∉ E), dft N i j * (lam j ^ t * (invF (dft N) *ᵥ x0) j) := by
      rw [Finset.sum_filter]
      refine Finset.sum_congr rfl fun j _ => ?_
      by_cases hj : j ∈ E <;> simp [hj]
    rw [h10, Finset.sum_subtype (p := fun j => j ∉ E) (Finset.univ.filter fun j => j ∉ E) (by simp)]
    refine Finset.sum_congr rfl fun j _ => ?_
    rw [hm, heig, hbk]
    rfl
  refine ⟨fun t ht => ?_, ?_⟩
  · rw [hrec, hA, hF.circA_eq]
    congr 1
    have h11 : ∀ t, (dft N * diagonal lam * invF (dft N)) ^ t = dft N * diagonal (fun k => lam k ^ t) * invF (dft N) := by
      intro t
      induction t with
      | zero => simp [hF.mul_inv]
      | succ t ih =>
        rw [pow_succ, ih]
        calc dft N * diagonal (fun k => lam k ^ t) * invF (dft N) * (dft N * diagonal lam * invF (dft N))
            = dft N * diagonal (fun k => lam k ^ t) * (invF (dft N) * dft N) * diagonal lam * invF (dft N) := by
              simp only [Matrix.mul_assoc]
          _ = dft N * (diagonal (fun k => lam k ^ t) * diagonal lam) * invF (dft N) := by
              rw [hF.inv_mul, Matrix.mul_one, Matrix.mul_assoc (dft N)]
          _ = _ := by
              rw [diagonal_mul_diagonal]
              simp only [pow_succ]
    rw [h11]
    congr 3
    funext k
    by_cases hk : k ∈ E
    · simp [hk, hlam, show t ≠ 0 by omega]
    · simp [hk]
  · simpa using hrec 0

/-- The results the theorems speak of exist: reduced for every basis and diagonalizable operator. -/
example (computeA : Bool) (U : Matrix n r ℂ) (a W : Matrix r r ℂ) (e : r → ℂ) (h : a * W = W * diagonal e) :
    ∃ o, IsReduced computeA U a W o := by
  obtain ⟨P, hP⟩ := exists_pinv (U * W)
  exact ⟨⟨if computeA then some (fullOperator U W e P) else none, a, e, U * W⟩, h, rfl, rfl, P, hP, rfl⟩

/-- The results exist for every circulant operator that is computed, with any basis and first snapshot. -/
example (N : ℕ) [NeZero N] (X Y : Matrix (ZMod N) m ℂ) (opt : CircOpt) (E : Finset (ZMod N))
    (A : Matrix (ZMod N) (ZMod N) ℂ) (h : computeCirculant (dft N) X Y opt E = some A) (x0 : ZMod N → ℂ)
    (U : Matrix (ZMod N) r ℂ) :
    (∃ o : Stored (ZMod N) r (ZMod N), IsFull U A o ∧ IsUnit o.modes.det ∧ ∃ b, IsLstsq o.modes x0 b) ∧
    ∃ o' : Stored (ZMod N) r {k // k ∉ E},
      IsSpectral U (circSpectral (dft N) X Y opt E).1 (circSpectral (dft N) X Y opt E).2 o' ∧ ∃ b', IsLstsq o'.modes x0 b' := by
  have hF := dft_isFourier N
  obtain ⟨-, hA⟩ := computeCirculant_some h
  rw [hF.circA_eq] at hA
  constructor
  · obtain ⟨P, hP⟩ := exists_pinv (Uᴴ * dft N)
    set lam : ZMod N → ℂ := fun k => if k ∈ E then 0 else adjust opt (circNum (dft N) X Y k / circDen (dft N) X k)
    refine ⟨⟨some A, Uᴴ * dft N * diagonal lam * P, lam, dft N⟩, ⟨rfl, ?_, P, hP, rfl⟩, ?_, exists_isLstsq _ _⟩
    · rw [hA, Matrix.mul_assoc, hF.inv_mul, Matrix.mul_one]
    · exact (isUnit_iff_isUnit_det _).mp (IsUnit.of_mul_eq_one _ hF.mul_inv)
  · obtain ⟨P, hP⟩ := exists_pinv (Uᴴ * (circSpectral (dft N) X Y opt E).2)
    exact ⟨⟨none, Uᴴ * (circSpectral (dft N) X Y opt E).2 * diagonal (circSpectral (dft N) X Y opt E).1 * P, (circSpectral (dft N) X Y opt E).1, (circSpectral (dft N) X Y opt E).2⟩,
      ⟨rfl, rfl, rfl, P, hP, rfl⟩, exists_isLstsq _ _⟩

/-- **C147, refuted** (truncated basis): snapshots `(2, 0)`, `(0, 1)` mapped to `(2, 0)`, `(3/4, 2)`, the manifold
`uppertriangular` and `svd_rank=1`. The operator `A` is found, its compression to the leading singular vector is 1, the
reduced operator is `43/34`: neither the compression nor an eigenvalue of `A`. -/
theorem C147_truncated_false :
    ∃ (X Y R Q : Matrix (Fin 2) (Fin 2) ℂ) (Ri U V A : Matrix (Fin 2) (Fin 2) ℂ) (s : Fin 2 → ℝ)
      (o : Stored (Fin 2) (Fin 1) (Fin 2)),
      X = R * Q ∧ Q * Qᴴ = 1 ∧ triu R = R ∧ IsPinv R Ri ∧ A = upperTriangular Y Q Ri ∧ A * X = Y ∧ IsSVD X U s V ∧
      s 1 < s 0 ∧ IsFull (U.submatrix id (fun _ => 0)) A o ∧ IsUnit o.modes.det ∧
      (∀ j, normSq (fun i => o.modes i j) = 1) ∧
      ((U.submatrix id (fun _ : Fin 1 => (0 : Fin 2)))ᴴ * A * U.submatrix id (fun _ : Fin 1 => (0 : Fin 2))) 0 0 = 1 ∧
      o.atilde 0 0 = 43 / 34 ∧ ∀ j, o.atilde 0 0 ≠ o.eigs j := by
  have h01 : ∀ a : Fin 2, a = 0 ∨ a = 1 := by decide
  have hE : ((1 : Matrix (Fin 2) (Fin 2) ℂ).submatrix id (fun _ : Fin 1 => (0 : Fin 2)))ᴴ *
      !![(1 : ℂ), 3 / 5; 0, 4 / 5] = !![1, 3 / 5] := by
    ext i j
    rw [Subsingleton.elim i 0]
    rcases h01 j with rfl | rfl <;> simp [Matrix.mul_apply, Matrix.one_apply]
  refine ⟨!![2, 0; 0, 1], !![2, 3 / 4; 0, 2], !![2, 0; 0, 1], 1, !![1 / 2, 0; 0, 1], 1, 1, !![1, 3 / 4; 0, 2], ![2, 1],
    ⟨some !![1, 3 / 4; 0, 2], !![43 / 34], ![1, 2], !![1, 3 / 5; 0, 4 / 5]⟩, ?_, ?_, ?_, ?_, ?_, ?_, ?_, ?_, ?_, ?_, ?_,
    ?_, ?_, ?_⟩
  · simp
  · simp
  · ext i j
    rcases h01 i with rfl | rfl <;> rcases h01 j with rfl | rfl <;> simp [triu]
  · refine ⟨?_, ?_, ?_, ?_⟩ <;> ext i j <;>
      rcases h01 i with rfl | rfl <;> rcases h01 j with rfl | rfl <;> simp [Matrix.mul_apply, Fin.sum_univ_two]
  · ext i j
    rcases h01 i with rfl | rfl <;> rcases h01 j with rfl | rfl <;>
      simp [upperTriangular, triu, Matrix.mul_apply, Fin.sum_univ_two]
  · ext i j
    rcases h01 i with rfl | rfl <;> rcases h01 j with rfl | rfl <;> simp [Matrix.mul_apply, Fin.sum_univ_two]
  · refine ⟨?_, by simp, by simp, fun i => by rcases h01 i with rfl | rfl <;> simp⟩
    ext i j
    rcases h01 i with rfl | rfl <;> rcases h01 j with rfl | rfl <;> simp [rdiag]
  · simp
  · refine ⟨rfl, ?_, !![25 / 34; 15 / 34], ⟨?_, ?_, ?_, ?_⟩, ?_⟩
    · ext i j
      rcases h01 i with rfl | rfl <;> rcases h01 j with rfl | rfl <;>
        simp [Matrix.mul_apply, Fin.sum_univ_two, diagonal_apply] <;> norm_num
    · rw [hE]
      ext i j
      rw [Subsingleton.elim i 0]
      rcases h01 j with rfl | rfl <;> simp [Matrix.mul_apply] <;> norm_num
    · rw [hE]
      ext i j
      rw [Subsingleton.elim j 0]
      rcases h01 i with rfl | rfl <;> simp [Matrix.mul_apply, Fin.sum_univ_two] <;> norm_num
    · rw [hE]
      ext i j
      rw [Subsingleton.elim i 0, Subsingleton.elim j 0]
      simp [Matrix.mul_apply, Fin.sum_univ_two]
    · rw [hE]
      ext i j
      rcases h01 i with rfl | rfl <;> rcases h01 j with rfl | rfl <;> simp [Matrix.mul_apply] <;> norm_num
    · rw [hE]
      ext i j
      rw [Subsingleton.elim i 0, Subsingleton.elim j 0]
      simp [Matrix.mul_apply, Fin.sum_univ_two, vecMul_diagonal]
      norm_num
  · rw [isUnit_iff_ne_zero, det_fin_two]
    simp
  · intro j
    rcases h01 j with rfl | rfl <;> simp [normSq, Fin.sum_univ_two, Complex.normSq_apply] <;> norm_num
  · simp [Matrix.mul_apply, Fin.sum_univ_two, Matrix.one_apply]
  · simp
  · intro j
    rcases h01 j with rfl | rfl <;> simp <;> norm_num

/-- **C147, refuted** (`compute_A` of the diagonal manifold): snapshots `(1, 1, 1)` and `(3, 2, 1)`. With `compute_A` all
snapshots are reconstructed. Without, which is the default, one mode is kept (the rank of a single snapshot), and both
reconstructed snapshots are zero except in the first entry. -/
theorem C147_compute_A_false (w : Fin 3 → ℤ × ℤ) (hw : widths (.none : Opt 3) = .ok w) (X Y : Matrix (Fin 3) (Fin 1) ℂ)
    (hX : ∀ i, X i 0 = 1) (hY : ∀ i, Y i 0 = ![3, 2, 1] i) (R : (i : Fin 3) → Cols w i → ℂ)
    (hR : ∀ i, IsLstsq (bandData w X i) (Y i) (R i)) (U : Matrix (Fin 3) (Fin 1) ℂ) :
    sparseEigs false 3 1 = .ok () ∧
    (∀ (o : Stored (Fin 3) (Fin 1) (Fin 3)) (b : Fin 3 → ℂ), IsFull U (banded w R) o → IsUnit o.modes.det →
      IsLstsq o.modes (fun i => X i 0) b →
      reconAt o.modes o.eigs b 0 = ![1, 1, 1] ∧ reconAt o.modes o.eigs b 1 = ![3, 2, 1]) ∧
    ∀ (o : Stored (Fin 3) (Fin 1) (Fin 1)) (eigs : Fin 1 → ℂ) (modes : Matrix (Fin 3) (Fin 1) ℂ) (b : Fin 1 → ℂ),
      IsLargest (banded w R) eigs modes → IsSpectral U eigs modes o → IsLstsq o.modes (fun i => X i 0) b →
      reconAt o.modes o.eigs b 0 = ![1, 0, 0] ∧ reconAt o.modes o.eigs b 1 = ![3, 0, 0] := by
  have hA : banded w R = diagonal ![3, 2, 1] := by
    refine C145_diagonal w hw X Y R hR _ ?_ fun i => ⟨0, by rw [hX]; exact one_ne_zero⟩
    ext i j
    rw [Subsingleton.elim j 0, diagonal_mul, hX, hY, mul_one]
  have h3 : ∀ i : Fin 3, i = 0 ∨ i = 1 ∨ i = 2 := by decide
  have hx : (fun i => X i 0) = fun _ => 1 := funext hX
  refine ⟨rfl, fun o b ho hM hb => ?_, fun o eigs modes b hL hS hb => ?_⟩
  · rw [hA] at ho
    have := recon_full _ o.modes o.eigs ho.2.1 hM _ b hb
    rw [this 0, this 1, hx]
    constructor
    · funext i; rcases h3 i with rfl | rfl | rfl <;> simp
    · funext i
      rw [pow_one, mulVec_diagonal, mul_one]
  · obtain ⟨h1, h2, rest, hroots, hle⟩ := hL
    obtain ⟨-, he, hm, -⟩ := hS
    rw [hA] at h1 hroots
    rw [Frequencies.roots_diagonal] at hroots
    have hset : (Finset.univ.val.map (![3, 2, 1] : Fin 3 → ℂ)) = {3, 2, 1} := rfl
    have hset' : (Finset.univ.val.map eigs) = {eigs 0} := rfl
    rw [hset, hset'] at hroots
    have he3 : eigs 0 = 3 := by
      have m1 : eigs 0 ∈ ({3, 2, 1} : Multiset ℂ) := by rw [hroots]; simp
      have m2 : (3 : ℂ) ∈ ({eigs 0} : Multiset ℂ) + rest := by rw [← hroots]; simp
      rcases Multiset.mem_add.mp m2 with hh | hh
      · exact (Multiset.mem_singleton.mp hh).symm
      · have := hle 0 _ hh
        simp only [Multiset.insert_eq_cons, Multiset.mem_cons, Multiset.mem_singleton] at m1
        rcases m1 with h | h | h
        · exact h
        · rw [h] at this; norm_num at this
        · rw [h] at this; norm_num at this
    have hent : ∀ i, (![3, 2, 1] : Fin 3 → ℂ) i * modes i 0 = modes i 0 * 3 := by
      intro i
      have := congrFun (congrFun h1 i) 0
      rw [diagonal_mul, mul_diagonal, he3] at this
      exact this
    have e1 : modes 1 0 = 0 := by
      have : (2 : ℂ) * modes 1 0 = modes 1 0 * 3 := hent 1
      linear_combination -this
    have e2 : modes 2 0 = 0 := by
      have : (1 : ℂ) * modes 2 0 = modes 2 0 * 3 := hent 2
      linear_combination (-1 / 2 : ℂ) * this
    have e0 : Complex.normSq (modes 0 0) = 1 := by
      have := h2 0
      simpa [normSq, Fin.sum_univ_three, e1, e2] using this
    have e0' : modes 0 0 * star (modes 0 0) = 1 := by
      have h := Complex.mul_conj (modes 0 0)
      rw [e0] at h
      simpa using h
    -- the amplitude
    have hb0 : modes 0 0 * b 0 = 1 := by
      let c : Fin 1 → ℂ := fun _ => star (modes 0 0)
      have hv : ∀ c : Fin 1 → ℂ, o.modes *ᵥ c - (fun i => X i 0) = ![modes 0 0 * c 0 - 1, -1, -1] := by
        intro c
        rw [hm, hx]
        funext i
        rcases h3 i with rfl | rfl | rfl <;> simp [mulVec, dotProduct, e1, e2]
      have := hb c
      rw [hv, hv] at this
      simp only [normSq, Fin.sum_univ_three] at this
      simp [c, e0'] at this
      have h0 : Complex.normSq (modes 0 0 * b 0 - 1) = 0 := by
        have := Complex.normSq_nonneg (modes 0 0 * b 0 - 1)
        refine le_antisymm ?_ this
        first | linarith | (have e0'' : modes 0 0 * (starRingEnd ℂ) (modes 0 0) = 1 := e0'
                            simp [e0''] at *
                            linarith)
      exact sub_eq_zero.mp (Complex.normSq_eq_zero.mp h0)
    constructor
    · funext i
      simp only [reconAt, hm, mulVec, dotProduct, Fin.sum_univ_one, pow_zero, one_mul]
      rcases h3 i with rfl | rfl | rfl <;> simp [e1, e2, hb0]
    · funext i
      simp only [reconAt, hm, he, mulVec, dotProduct, Fin.sum_univ_one, pow_one, he3]
      rcases h3 i with rfl | rfl | rfl
      · simp only [cons_val_zero]
        linear_combination (3 : ℂ) * hb0
      · simp [e1]
      · simp [e2]

/-- The mode that is kept exists. -/
example : IsLargest (diagonal ![3, 2, 1] : Matrix (Fin 3) (Fin 3) ℂ) (fun _ : Fin 1 => 3)
    (Matrix.of fun i _ => if i = 0 then 1 else 0) := by
  have h3 : ∀ i : Fin 3, i = 0 ∨ i = 1 ∨ i = 2 := by decide
  refine ⟨?_, fun j => ?_, {2, 1}, ?_, fun j z hz => ?_⟩
  · ext i j
    rw [diagonal_mul, mul_diagonal]
    rcases h3 i with rfl | rfl | rfl <;> simp
  · simp [normSq]
  · rw [Frequencies.roots_diagonal]
    rfl
  · simp only [Multiset.insert_eq_cons, Multiset.mem_cons, Multiset.mem_singleton] at hz
    rcases hz with rfl | rfl <;> norm_num

end Verif.Pidmd
