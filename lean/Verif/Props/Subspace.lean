import Verif.Model.Subspace
import Verif.Lemmas.Compressed

/-!
# Property C82: subspace DMD
-/

set_option autoImplicit false

namespace Verif.Subspace

open Verif Verif.LinAlg Verif.Compressed Matrix

variable {n t : ℕ}

theorem orth_le {a b : ℕ} {M : Matrix (Fin a) (Fin b) ℂ} {L : Matrix (Fin b) (Fin a) ℂ} (h : L * M = 1) :
    b ≤ a := by
  have : (1 : Matrix (Fin b) (Fin b) ℂ).rank ≤ a := by
    rw [← h]
    exact (rank_mul_le_left _ _).trans ((rank_le_card_width L).trans (by simp))
  simpa using this

/-- **C82** (number of modes). There are at most as many modes as values per snapshot, and at most
`svd_rank` if that is positive. -/
theorem C82_rank (S : Matrix (Fin n) (Fin (t + 3)) ℂ) (svdRank : ℤ) (k : ℕ) (eigs : Fin k → ℂ)
    (modes : Matrix (Fin n) (Fin k) (Option ℂ)) (hf : Fit S svdRank k eigs modes) :
    k ≤ n ∧ (0 < svdRank → (k : ℤ) ≤ svdRank) := by
  cases hf with
  | mk Up sp Vp hp hsp Uq sq Vq hq hsq U s V h hs At hAt W hW hW0 hall =>
    have h1 : k ≤ n := orth_le h.u
    have h2 := orth_le h.v
    refine ⟨h1, fun h0 => ?_⟩
    simp only [retained, gt_iff_lt, h0, if_true] at h2
    omega

/-- What the factors are for noise-free linear data. -/
theorem linear_facts (S : Matrix (Fin n) (Fin (t + 3)) ℂ) (A : Matrix (Fin n) (Fin n) ℂ)
    (hlin : ∀ (j : ℕ) (hj : j + 1 < t + 3),
      S.col ⟨j + 1, hj⟩ = A *ᵥ S.col ⟨j, Nat.lt_of_succ_lt hj⟩) {p R : ℕ}
    (Up : Matrix (Fin n ⊕ Fin n) (Fin p) ℂ) (sp : Fin p → ℝ) (Vp : Matrix (Fin t) (Fin p) ℂ)
    (hp : IsSVD (past S) Up sp Vp) (Uq : Matrix (Fin n ⊕ Fin n) (Fin R) ℂ) (sq : Fin R → ℝ)
    (Vq : Matrix (Fin t) (Fin R) ℂ) (hq : IsSVD (matO S Vp) Uq sq Vq) (hsq : ∀ i, sq i ≠ 0) :
    (slice S 3 (by omega) = A * slice S 2 (by omega)) ∧
    (∃ G : Matrix (Fin t) (Fin R) ℂ, Uq.toRows₁ = slice S 2 (by omega) * G ∧
      Uq.toRows₂ = A * Uq.toRows₁) ∧
    (∃ H : Matrix (Fin R) (Fin t) ℂ, slice S 2 (by omega) = Uq.toRows₁ * H) ∧ R ≤ n := by
  have hsl : ∀ (k : ℕ) (hk : k + 1 ≤ 3), slice S (k + 1) hk = A * slice S k (by omega) := by
    intro k hk
    ext i j
    have := congrFun (hlin (j + k) (by omega)) i
    simpa [slice, Matrix.mul_apply, mulVec, dotProduct, Nat.add_assoc] using this
  have h3 := hsl 2 (by omega)
  have h2 : slice S 2 (by omega) = A * A * slice S 0 (by omega) := by
    rw [hsl 1 (by omega), hsl 0 (by omega), Matrix.mul_assoc]
  have h31 : slice S 3 (by omega) = A * A * slice S 1 (by omega) := by
    rw [h3, hsl 1 (by omega), Matrix.mul_assoc]
  have hP := svd_proj hp.eq hp.v
  rw [past, fromRows_mul] at hP
  have hP0 : slice S 0 (by omega) * (Vp * Vpᴴ) = slice S 0 (by omega) := by
    have := congrArg toRows₁ hP; simpa using this
  have hP1 : slice S 1 (by omega) * (Vp * Vpᴴ) = slice S 1 (by omega) := by
    have := congrArg toRows₂ hP; simpa using this
  have hO : matO S Vp = fromRows (slice S 2 (by omega)) (slice S 3 (by omega)) := by
    rw [matO, future, Matrix.mul_assoc, fromRows_mul]
    congr 1
    · rw [h2, Matrix.mul_assoc, hP0]
    · rw [h31, Matrix.mul_assoc, hP1]
  have hU := svd_mul_v hq.eq hq.v hsq
  rw [hO, Matrix.mul_assoc, fromRows_mul] at hU
  have hU1 : Uq.toRows₁ = slice S 2 (by omega) * (Vq * rdiag fun i => (sq i)⁻¹) := by
    have := congrArg toRows₁ hU; simpa using this.symm
  have hU2 : Uq.toRows₂ = slice S 3 (by omega) * (Vq * rdiag fun i => (sq i)⁻¹) := by
    have := congrArg toRows₂ hU; simpa using this.symm
  have hU3 : Uq.toRows₂ = A * Uq.toRows₁ := by
    rw [hU2, h3, hU1, Matrix.mul_assoc]
  refine ⟨h3, ⟨_, hU1, hU3⟩, ⟨rdiag sq * Vqᴴ, ?_⟩, ?_⟩
  · have := hq.eq
    rw [hO, ← fromRows_toRows Uq, Matrix.mul_assoc, fromRows_mul] at this
    have := congrArg toRows₁ this
    simpa using this
  · have : (Uq.toRows₁ᴴ + Uq.toRows₁ᴴ * Aᴴ * A) * Uq.toRows₁ = 1 := by
      rw [← hq.u]
      conv_rhs => rw [← fromRows_toRows Uq]
      rw [conjTranspose_fromRows_eq_fromCols_conjTranspose, fromCols_mul_fromRows, hU3,
        conjTranspose_mul, Matrix.add_mul]
      simp only [Matrix.mul_assoc]
    exact orth_le this

/-- **C82** (linear systems). Let the snapshots satisfy `x_{i+1} = A x_i`, let the last one be a
combination of those from the third to the last but one, and let `svd_rank` be `-1`. Then there are
as many modes as the rank of these snapshots, every mode with nonzero eigenvalue is an eigenvector
of `A` with that eigenvalue, and every eigenvalue of `A` with an eigenvector in their span is
found. -/
theorem C82_linear_partial (S : Matrix (Fin n) (Fin (t + 3)) ℂ) (A : Matrix (Fin n) (Fin n) ℂ)
    (hlin : ∀ (j : ℕ) (hj : j + 1 < t + 3),
      S.col ⟨j + 1, hj⟩ = A *ᵥ S.col ⟨j, Nat.lt_of_succ_lt hj⟩)
    (hlast : ∃ c : Fin t → ℂ, S.col (Fin.last (t + 2)) = ∑ j : Fin t, c j • S.col ⟨j + 2, by omega⟩)
    (svdRank : ℤ) (hr : svdRank ≤ 0) (k : ℕ) (eigs : Fin k → ℂ)
    (modes : Matrix (Fin n) (Fin k) (Option ℂ)) (hf : Fit S svdRank k eigs modes) :
    k = (S.submatrix id fun j : Fin t => ⟨j + 2, by omega⟩).rank ∧
    (∀ i, eigs i ≠ 0 → ∃ v : Fin n → ℂ, v ≠ 0 ∧ (∀ a, modes a i = some (v a)) ∧ A *ᵥ v = eigs i • v) ∧
    ∀ (l : ℂ) (c : Fin t → ℂ), (∑ j : Fin t, c j • S.col ⟨j + 2, by omega⟩) ≠ 0 →
      A *ᵥ (∑ j : Fin t, c j • S.col ⟨j + 2, by omega⟩) = l • (∑ j : Fin t, c j • S.col ⟨j + 2, by omega⟩) →
      ∃ i, eigs i = l := by
  cases hf with
  | @mk p R k Up sp Vp hp hsp Uq sq Vq hq hsq U s V h hs At hAt eigs W hW hW0 hall =>
  obtain ⟨h3, ⟨G, hG, hUA⟩, ⟨H, hH⟩, hRn⟩ := linear_facts S A hlin Up sp Vp hp Uq sq Vq hq hsq
  have hret : retained R n svdRank = R := by
    simp only [retained, gt_iff_lt, not_lt.mpr hr, if_false]; omega
  set Y2 := slice S 2 (by omega) with hY2
  -- retained columns
  have htop : ∀ a j, top Uq svdRank a j = Uq.toRows₁ a (Fin.castLE (retained_le R n svdRank) j) :=
    fun _ _ => rfl
  have hbot : bottom Uq svdRank = A * top Uq svdRank := by
    ext a j
    have := congrFun (congrFun hUA a) (Fin.castLE (retained_le R n svdRank) j)
    simpa [bottom, Matrix.mul_apply, htop] using this
  have htopG : ∃ G' : Matrix (Fin t) (Fin (retained R n svdRank)) ℂ, top Uq svdRank = Y2 * G' := by
    refine ⟨G.submatrix id (Fin.castLE (retained_le R n svdRank)), ?_⟩
    ext a j
    rw [htop, hG]
    simp [Matrix.mul_apply]
  obtain ⟨G', hG'⟩ := htopG
  have hUV := svd_mul_v h.eq h.v hs
  -- the operator
  have hM : bottom Uq svdRank * V * rdiag (fun i => (s i)⁻¹) = A * U := by
    rw [hbot, ← hUV]; simp only [Matrix.mul_assoc]
  have hAt' : At = Uᴴ * (A * U) := by
    have : Uᴴ * bottom Uq svdRank * V * rdiag (fun i => (s i)⁻¹) = At := by
      simpa [computeOperator, Operator.scaledOperator, Operator.RescaleAttr.mode,
        Operator.leastSquareOperator, Operator.tikSigma] using hAt
    rw [← this, ← hM]; simp only [Matrix.mul_assoc]
  -- the range of `U` is that of `Y2`
  have hUG : U = Y2 * (G' * V * rdiag fun i => (s i)⁻¹) := by
    conv_lhs => rw [← hUV, hG']
    simp only [Matrix.mul_assoc]
  have hproj : U * Uᴴ * Y2 = Y2 := by
    have h1 : U * Uᴴ * Uq.toRows₁ = Uq.toRows₁ := by
      ext a j
      have hj : Fin.castLE (retained_le R n svdRank) ⟨j, by rw [hret]; exact j.2⟩ = j := by ext; rfl
      have := congrFun (congrFun (svd_left h.eq h.u) a) ⟨j, by rw [hret]; exact j.2⟩
      rw [Matrix.mul_apply] at this
      simp only [htop, hj] at this
      rw [Matrix.mul_apply]; exact this
    rw [hH, ← Matrix.mul_assoc, h1]
  have hcomb : ∀ c : Fin t → ℂ, Y2 *ᵥ c = ∑ j : Fin t, c j • S.col ⟨j + 2, by omega⟩ := by
    intro c
    funext a
    simp [hY2, slice, mulVec, dotProduct, Finset.sum_apply, mul_comm]
  -- invariance
  have hK : ∃ K : Matrix (Fin t) (Fin t) ℂ, A * Y2 = Y2 * K := by
    obtain ⟨c, hc⟩ := hlast
    rw [← hcomb] at hc
    refine ⟨Matrix.of fun i j => if hj : (j : ℕ) + 1 < t then (if (i : ℕ) = j + 1 then 1 else 0)
      else c i, ?_⟩
    rw [← h3]
    ext a j
    by_cases hj : (j : ℕ) + 1 < t
    · rw [Matrix.mul_apply, Finset.sum_eq_single ⟨j + 1, hj⟩]
      · simp only [slice, submatrix_apply, id_eq, hY2, Matrix.of_apply, hj, dif_pos, if_true, mul_one]
      · intro i _ hi
        have : (i : ℕ) ≠ j + 1 := fun e => hi (Fin.ext e)
        simp [hj, this]
      · simp
    · have := congrFun hc a
      have hj' : (j : ℕ) + 3 = t + 2 := by have := j.2; omega
      rw [Matrix.mul_apply]
      simp only [Matrix.of_apply, hj, dif_neg, not_false_eq_true]
      refine Eq.trans ?_ this
      simp only [slice, submatrix_apply, id_eq, Matrix.col_apply]
      congr 1
      exact Fin.ext hj'
  obtain ⟨K, hK⟩ := hK
  have hAU : U * Uᴴ * (A * U) = A * U := by
    have e : A * U = Y2 * (K * (G' * V * rdiag fun i => (s i)⁻¹)) := by
      conv_lhs => rw [hUG, ← Matrix.mul_assoc A, hK]
      simp only [Matrix.mul_assoc]
    rw [e, ← Matrix.mul_assoc, hproj]
  have hUAt : A * U = U * At := by rw [hAt', ← Matrix.mul_assoc, hAU]
  refine ⟨?_, ?_, ?_⟩
  · have e : (S.submatrix id fun j : Fin t => ⟨j + 2, by omega⟩) = Y2 := rfl
    rw [e]
    apply le_antisymm
    · have h1 : (1 : Matrix (Fin k) (Fin k) ℂ).rank ≤ Y2.rank := by
        rw [← h.u]
        refine (rank_mul_le_right _ _).trans ?_
        conv_lhs => rw [hUG]
        exact rank_mul_le_left _ _
      simpa using h1
    · rw [← hproj, Matrix.mul_assoc]
      exact (rank_mul_le_left _ _).trans ((rank_le_card_width U).trans (by simp))
  · intro i hi
    have hw : A *ᵥ (U *ᵥ W.col i) = eigs i • (U *ᵥ W.col i) := by
      have h1 : At *ᵥ W.col i = eigs i • W.col i := by
        funext a
        have := congrFun (congrFun hW a) i
        rw [mul_diagonal] at this
        rw [Pi.smul_apply, Matrix.col_apply, smul_eq_mul, mul_comm, ← this]
        rfl
      rw [mulVec_mulVec, hUAt, ← mulVec_mulVec, h1, mulVec_smul]
    refine ⟨U *ᵥ W.col i, ?_, ?_, hw⟩
    · intro h0
      apply hW0 i
      have := congrArg (Uᴴ *ᵥ ·) h0
      simpa [mulVec_mulVec, h.u] using this
    · intro a
      simp only [computeModes, Matrix.of_apply, hi, if_false, hM]
      congr 1
      have : (A * U * W) a i = (A *ᵥ (U *ᵥ W.col i)) a := by
        rw [mulVec_mulVec]; rfl
      rw [this, hw, Pi.smul_apply, smul_eq_mul, mul_comm, ← mul_assoc, inv_mul_cancel₀ hi, one_mul]
  · intro l c hv he
    rw [← hcomb] at hv he
    set v := Y2 *ᵥ c with hvdef
    have hUv : U *ᵥ (Uᴴ *ᵥ v) = v := by
      rw [hvdef, mulVec_mulVec, mulVec_mulVec, hproj]
    refine hall l (Uᴴ *ᵥ v) ?_ ?_
    · rw [hAt', ← Matrix.mul_assoc, ← mulVec_mulVec, hUv, ← mulVec_mulVec, he, mulVec_smul]
    · intro h0
      rw [h0, mulVec_zero] at hUv
      exact hv hUv.symm

/-- **C82** is false for eigenvalue zero: for the trajectory `e3, e2, e1, 0` of the shift, with `e1`
an eigenvector of the shift for the eigenvalue 0, `fit` finds that eigenvalue, and the mode is not
a number (disagreement D76). -/
theorem C82_zero_eigenvalue_false : ∃ (S : Matrix (Fin 3) (Fin (1 + 3)) ℂ) (A : Matrix (Fin 3) (Fin 3) ℂ),
    (∀ (j : ℕ) (hj : j + 1 < 1 + 3), S.col ⟨j + 1, hj⟩ = A *ᵥ S.col ⟨j, Nat.lt_of_succ_lt hj⟩) ∧
    (∃ c : Fin 1 → ℂ, S.col (Fin.last 3) = ∑ j : Fin 1, c j • S.col ⟨j + 2, by omega⟩) ∧
    ∃ modes, Fit S (-1) 1 (fun _ => 0) modes ∧ ∀ a, modes a 0 = none := by
  refine ⟨!![0, 0, 1, 0; 0, 4, 0, 0; 3, 0, 0, 0], !![0, 1 / 4, 0; 0, 0, 4 / 3; 0, 0, 0], ?_, ?_,
    _, Fit.mk (p := 1) (R := 1) (fromRows !![0; 0; 3 / 5] !![0; 4 / 5; 0]) (fun _ => 5) 1
      ⟨?_, ?_, by simp, fun _ => by norm_num⟩ (fun _ => by norm_num)
      (fromRows !![1; 0; 0] !![0; 0; 0]) (fun _ => 1) 1 ⟨?_, ?_, by simp, fun _ => by norm_num⟩
      (fun _ => by norm_num)
      !![1; 0; 0] (fun _ => 1) (Matrix.of fun _ _ => 1) ⟨?_, ?_, ?_, fun _ => by norm_num⟩
      (fun _ => by norm_num) 0 ?_ (fun _ => 0) 1 ?_ ?_ ?_, ?_⟩
  · intro j hj
    have : j = 0 ∨ j = 1 ∨ j = 2 := by omega
    rcases this with rfl | rfl | rfl <;> funext i <;> fin_cases i <;>
      simp [mulVec, dotProduct, Fin.sum_univ_three]
  · refine ⟨0, ?_⟩
    funext i; fin_cases i <;> simp
  · ext i j
    rcases i with i | i <;> fin_cases i <;> fin_cases j <;>
      simp [past, slice, rdiag, Matrix.mul_apply]
  · ext i j
    fin_cases i; fin_cases j
    simp [Matrix.mul_apply, Fintype.sum_sum_type, Fin.sum_univ_three, map_ofNat]
    norm_num
  · ext i j
    rcases i with i | i <;> fin_cases i <;> fin_cases j <;>
      simp [matO, future, slice, rdiag, Matrix.mul_apply]
  · ext i j
    fin_cases i; fin_cases j
    simp [Matrix.mul_apply, Fintype.sum_sum_type, Fin.sum_univ_three]
  · have e : top (fromRows !![1; 0; 0] !![0; 0; 0] : Matrix (Fin 3 ⊕ Fin 3) (Fin 1) ℂ) (-1) =
        (!![1; 0; 0] : Matrix (Fin 3) (Fin 1) ℂ) := by
      ext i j; fin_cases i <;> rfl
    rw [e]
    have key : (!![1; 0; 0] : Matrix (Fin 3) (Fin 1) ℂ) =
        (!![1; 0; 0] : Matrix (Fin 3) (Fin 1) ℂ) * rdiag (fun _ : Fin 1 => 1) *
          (Matrix.of fun (_ : Fin 1) (_ : Fin 1) => (1 : ℂ))ᴴ := by
      ext i j
      fin_cases i <;> fin_cases j <;> simp [rdiag, Matrix.mul_apply]
    exact key
  · ext i j
    fin_cases i; fin_cases j
    simp [Matrix.mul_apply, Fin.sum_univ_three]
  · ext i j
    fin_cases i; fin_cases j
    change ((Matrix.of fun (_ : Fin 1) (_ : Fin 1) => (1 : ℂ))ᴴ * Matrix.of fun (_ : Fin 1) (_ : Fin 1) => (1 : ℂ)) 0 0 = 1
    simp [Matrix.mul_apply]
  · have hb : bottom (fromRows !![1; 0; 0] !![0; 0; 0] : Matrix (Fin 3 ⊕ Fin 3) (Fin 1) ℂ) (-1) = 0 := by
      ext i j
      fin_cases i <;> fin_cases j <;> rfl
    rw [hb]
    simp [computeOperator, Operator.scaledOperator, Operator.RescaleAttr.mode,
      Operator.leastSquareOperator]
  · simp
  · intro i h0
    have := congrFun h0 i
    simp at this
  · intro l w hw hw0
    refine ⟨0, ?_⟩
    rw [zero_mulVec] at hw
    rcases smul_eq_zero.mp hw.symm with h | h
    · exact h.symm
    · exact absurd h hw0
  · intro a
    simp [computeModes]

/-- Instance of the hypotheses of `C82_linear_partial` with a nonzero eigenvalue: the constant
trajectory 1, 1, 1, 1. -/
example : ∃ modes, Fit (Matrix.of fun (_ : Fin 1) (_ : Fin (1 + 3)) => (1 : ℂ)) (-1) 1 (fun _ => 1) modes := by
  have h2 : (Real.sqrt 2 : ℂ) * Real.sqrt 2 = 2 := by
    exact_mod_cast Real.mul_self_sqrt (by norm_num : (0 : ℝ) ≤ 2)
  have h0 : (Real.sqrt 2 : ℂ) ≠ 0 := by
    intro h; rw [h] at h2; norm_num at h2
  have hi : (Real.sqrt 2 : ℂ)⁻¹ * (Real.sqrt 2 : ℂ)⁻¹ = 1 / 2 := by
    rw [← mul_inv, h2]; norm_num
  have hsp : 0 < Real.sqrt 2 := Real.sqrt_pos.mpr (by norm_num)
  let Uq : Matrix (Fin 1 ⊕ Fin 1) (Fin 1) ℂ := Matrix.of fun _ _ => (Real.sqrt 2 : ℂ)⁻¹
  have htop : top Uq (-1) = (Matrix.of fun _ _ => (Real.sqrt 2 : ℂ)⁻¹) := by ext i j; rfl
  have hbot : bottom Uq (-1) = (Matrix.of fun _ _ => (Real.sqrt 2 : ℂ)⁻¹) := by ext i j; rfl
  have hq : ∀ M : Matrix (Fin 1 ⊕ Fin 1) (Fin 1) ℂ, M = (Matrix.of fun _ _ => 1) →
      IsSVD M Uq (fun _ => Real.sqrt 2) 1 := by
    rintro M rfl
    refine ⟨?_, ?_, by simp, fun _ => hsp.le⟩
    · ext i j
      simp [Uq, rdiag, Matrix.mul_apply, diagonal_apply, Matrix.one_apply,
        Subsingleton.elim j 0]
    · ext i j
      rw [Subsingleton.elim i 0, Subsingleton.elim j 0]
      simp [Uq, Matrix.mul_apply, Complex.conj_ofReal, hi]
  refine ⟨_, Fit.mk (p := 1) (R := 1) Uq (fun _ => Real.sqrt 2) 1 (hq _ ?_) (fun _ => hsp.ne')
    Uq (fun _ => Real.sqrt 2) 1 (hq _ ?_) (fun _ => hsp.ne') 1 (fun _ => (Real.sqrt 2)⁻¹)
    (Matrix.of fun _ _ => 1) ⟨?_, by simp, ?_, fun _ => (inv_pos.mpr hsp).le⟩
    (fun _ => (inv_pos.mpr hsp).ne') 1 ?_ _ 1 (by simp) ?_ ?_⟩
  · ext i j; rcases i with i | i <;> rfl
  · ext i j
    rw [matO, conjTranspose_one, Matrix.mul_one, Matrix.mul_one]
    rcases i with i | i <;> rfl
  · rw [htop]
    have key : (Matrix.of fun (_ : Fin 1) (_ : Fin 1) => (Real.sqrt 2 : ℂ)⁻¹) =
        (1 : Matrix (Fin 1) (Fin 1) ℂ) * rdiag (fun _ : Fin 1 => (Real.sqrt 2)⁻¹) *
          (Matrix.of fun (_ : Fin 1) (_ : Fin 1) => (1 : ℂ))ᴴ := by
      ext i j
      rw [Subsingleton.elim i 0, Subsingleton.elim j 0]
      simp [rdiag, Matrix.mul_apply]
    exact key
  · ext i j
    fin_cases i; fin_cases j
    change ((Matrix.of fun (_ : Fin 1) (_ : Fin 1) => (1 : ℂ))ᴴ * Matrix.of fun (_ : Fin 1) (_ : Fin 1) => (1 : ℂ)) 0 0 = 1
    simp [Matrix.mul_apply]
  · rw [hbot]
    change Except.ok ((1 : Matrix (Fin 1) (Fin 1) ℂ)ᴴ * (Matrix.of fun (_ : Fin 1) (_ : Fin 1) => (Real.sqrt 2 : ℂ)⁻¹) *
      (Matrix.of fun (_ : Fin 1) (_ : Fin 1) => (1 : ℂ)) * rdiag (fun _ => ((Real.sqrt 2)⁻¹)⁻¹)) = Except.ok 1
    congr 1
    ext i j
    rw [Subsingleton.elim i 0, Subsingleton.elim j 0]
    simp [rdiag, Matrix.mul_apply]
  · intro i h0
    have := congrFun h0 i
    simp at this
  · intro l w hw hw0
    refine ⟨0, ?_⟩
    rw [one_mulVec] at hw
    by_contra hl
    apply hw0
    have : (1 - l) • w = 0 := by rw [sub_smul, one_smul, ← hw, sub_self]
    rcases smul_eq_zero.mp this with h | h
    · exact absurd (sub_eq_zero.mp h) hl
    · exact h

/-- **C82** is false for the documented `rescale_mode='auto'`, which always raises `ValueError`
(disagreement D77). -/
theorem C82_auto_false {a : Type} [Fintype a] {k : ℕ} (U : Matrix (Fin n) (Fin k) ℂ) (s : Fin k → ℝ)
    (V : Matrix a (Fin k) ℂ) (Uq2 : Matrix (Fin n) a ℂ) :
    computeOperator .auto U s V Uq2 = .error .valueError := rfl

end Verif.Subspace
