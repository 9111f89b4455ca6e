import Verif.Props.Whole
import Verif.Props.Rank
import Verif.Props.OptDmd
import Verif.Lemmas.EckartYoung
import Verif.Lemmas.SvdExists

/-!
# C151: a larger `svd_rank` never predicts the snapshot pairs worse

`fit` computes the whole SVD of `X` and keeps the first columns (utils.py L155-191), so that two fits of the same data
share the factors `U, s, V` and differ in the number `q` of columns. The error is `‖dmd.predict(X) - Y‖`.
-/

set_option autoImplicit false

namespace Verif.RankFit

open Verif Verif.LinAlg Verif.Operator Matrix

variable {m n : Type} [Fintype m] [Fintype n]

/-- What a fit to rank `q` leaves, given the SVD of `X`: the eigenvalues and the modes, with independent eigenvectors
(the operator can be diagonalised), and the `pinv(modes)` that `predict` computes. -/
structure Fit (exact : Bool) (tik : Option (ℝ × ℝ)) {p : ℕ} (Y : Matrix m n ℂ) (U : Matrix m (Fin p) ℂ) (s : Fin p → ℝ)
    (V : Matrix n (Fin p) ℂ) (q : ℕ) (hq : q ≤ p) (eigs : Fin q → ℂ) (modes : Matrix m (Fin q) ℂ)
    (P : Matrix (Fin q) m ℂ) : Prop where
  fit : ∃ W : Matrix (Fin q) (Fin q) ℂ, IsUnit W.det ∧ (∀ j, normSq (fun i => W i j) = 1) ∧
    leastSquareOperator tik (lead q hq U) (s ∘ Fin.castLE hq) (lead q hq V) Y * W = W * diagonal eigs ∧
    modes = computeModes exact tik Y (lead q hq U) (s ∘ Fin.castLE hq) (lead q hq V) W
  pinv : IsPinv modes P

theorem pinv_projected {q : ℕ} (U : Matrix m (Fin q) ℂ) (hU : Uᴴ * U = 1) (W : Matrix (Fin q) (Fin q) ℂ)
    (hW : IsUnit W.det) : IsPinv (U * W) (W⁻¹ * Uᴴ) := by
  have h1 : W * W⁻¹ = 1 := Matrix.mul_nonsing_inv W hW
  have h2 : W⁻¹ * W = 1 := Matrix.nonsing_inv_mul W hW
  have e1 : U * W * (W⁻¹ * Uᴴ) = U * Uᴴ := by
    rw [Matrix.mul_assoc, ← Matrix.mul_assoc W, h1, Matrix.one_mul]
  have e2 : W⁻¹ * Uᴴ * (U * W) = 1 := by
    rw [Matrix.mul_assoc, ← Matrix.mul_assoc Uᴴ, hU, Matrix.one_mul, h2]
  refine ⟨?_, ?_, ?_, ?_⟩
  · rw [Matrix.mul_assoc, e2, Matrix.mul_one]
  · rw [e2, Matrix.one_mul]
  · rw [e1]; simp
  · rw [e2]; simp

/-- The factor by which direction `j` is reproduced: 1 without regularization, `s² / (s² + mu)` with. -/
noncomputable def gain {p : ℕ} (tik : Option (ℝ × ℝ)) (s : Fin p → ℝ) (j : Fin p) : ℝ := (tikSigma tik s j)⁻¹ * s j

theorem gain_mem {p : ℕ} (tik : Option (ℝ × ℝ)) (htik : ∀ t ∈ tik, 0 ≤ t.1 * t.2) (s : Fin p → ℝ) (j : Fin p) :
    0 ≤ gain tik s j ∧ gain tik s j ≤ 1 := by
  rcases tik with _ | ⟨t, nX⟩
  · simp only [gain, tikSigma]
    by_cases h : s j = 0
    · simp [h]
    · rw [inv_mul_cancel₀ h]; norm_num
  · have hmu : 0 ≤ t * nX := htik _ rfl
    simp only [gain, tikSigma, mul_inv, inv_inv, mul_assoc]
    by_cases h : s j = 0
    · simp [h]
    · have hp : 0 < s j ^ 2 + t * nX := by positivity
      rw [inv_mul_eq_div]
      constructor
      · exact div_nonneg (mul_self_nonneg _) hp.le
      · rw [div_le_one hp]; nlinarith

/-- The error of a fit to rank `q`: what is gained on each of the `q * q` entries of `U^H Y V`. -/
theorem error_eq {p q : ℕ} (hq : q ≤ p) (tik : Option (ℝ × ℝ)) (X Y : Matrix m n ℂ) (U : Matrix m (Fin p) ℂ) (s : Fin p → ℝ)
    (V : Matrix n (Fin p) ℂ) (h : IsSVD X U s V) (eigs : Fin q → ℂ) (modes : Matrix m (Fin q) ℂ) (P : Matrix (Fin q) m ℂ)
    (f : Fit false tik Y U s V q hq eigs modes P) :
    frobSq (Y - predict modes eigs P X) = frobSq Y - ∑ i : Fin q, ∑ j : Fin q,
      Complex.normSq ((Uᴴ * Y * V) (Fin.castLE hq i) (Fin.castLE hq j)) *
        (1 - (1 - gain tik s (Fin.castLE hq j)) ^ 2) := by
  obtain ⟨⟨W, hdet, -, hW, rfl⟩, hP⟩ := f
  have hU := lead_orthonormal hq U h.u
  have hV := lead_orthonormal hq V h.v
  rw [computeModes, if_neg (by simp)] at hP ⊢
  rw [hP.unique (pinv_projected _ hU W hdet)]
  set Uq := lead q hq U
  set Vq := lead q hq V
  set G := Uqᴴ * Y * Vq with hG
  have h1 : predict (Uq * W) eigs (W⁻¹ * Uqᴴ) X =
      Uq * (G * rdiag (fun j => gain tik s (Fin.castLE hq j)) * Vqᴴ) := by
    have hx : Uqᴴ * X = rdiag (s ∘ Fin.castLE hq) * Vqᴴ := by
      have := congrArg conjTranspose (h.conj_mul_lead q hq)
      rwa [conjTranspose_mul, conjTranspose_mul, conjTranspose_conjTranspose, rdiag_conjTranspose] at this
    have ha : leastSquareOperator tik Uq (s ∘ Fin.castLE hq) Vq Y = W * diagonal eigs * W⁻¹ := by
      rw [← hW, Matrix.mul_assoc, Matrix.mul_nonsing_inv W hdet, Matrix.mul_one]
    have hg : rdiag (fun j => gain tik s (Fin.castLE hq j)) =
        rdiag (fun i => (tikSigma tik (s ∘ Fin.castLE hq) i)⁻¹) * rdiag (s ∘ Fin.castLE hq) := by
      rw [rdiag, rdiag, rdiag, diagonal_mul_diagonal]
      congr 1
      funext j
      rcases tik with _ | ⟨t, nX⟩ <;> simp [gain, tikSigma]
    rw [predict]
    calc Uq * W * diagonal eigs * (W⁻¹ * Uqᴴ) * X = Uq * (W * diagonal eigs * W⁻¹) * (Uqᴴ * X) := by
          simp only [Matrix.mul_assoc]
      _ = _ := by
          rw [← ha, hx, leastSquareOperator, hg, hG]
          simp only [Matrix.mul_assoc]
  rw [h1, frobSq_proj hU, frobSq_proj_le hU, ← frobSq_conjTranspose (Uqᴴ * Y - _), conjTranspose_sub]
  have h2 : (G * rdiag (fun j => gain tik s (Fin.castLE hq j)) * Vqᴴ)ᴴ =
      Vq * (G * rdiag (fun j => gain tik s (Fin.castLE hq j)))ᴴ := by
    rw [conjTranspose_mul _ Vqᴴ, conjTranspose_conjTranspose]
  rw [h2, frobSq_proj hV, frobSq_proj_le hV, frobSq_conjTranspose]
  have h3 : Vqᴴ * (Uqᴴ * Y)ᴴ = Gᴴ := by rw [hG, ← conjTranspose_mul]
  rw [h3, ← conjTranspose_sub, frobSq_conjTranspose, frobSq_conjTranspose]
  have h4 : frobSq (G - G * rdiag (fun j => gain tik s (Fin.castLE hq j))) =
      ∑ i : Fin q, ∑ j : Fin q, Complex.normSq (G i j) * (1 - gain tik s (Fin.castLE hq j)) ^ 2 := by
    rw [frobSq]
    refine Finset.sum_congr rfl fun i _ => Finset.sum_congr rfl fun j _ => ?_
    rw [Matrix.sub_apply, rdiag, Matrix.mul_diagonal, ← mul_one_sub, Complex.normSq_mul, ← Complex.ofReal_one,
      ← Complex.ofReal_sub, Complex.normSq_ofReal, sq]
  have h5 : ∀ i j, G i j = (Uᴴ * Y * V) (Fin.castLE hq i) (Fin.castLE hq j) := by
    intro i j
    simp [hG, Uq, Vq, lead, Matrix.mul_apply]
  rw [h4]
  have h6 : frobSq G = ∑ i : Fin q, ∑ j : Fin q, Complex.normSq (G i j) := rfl
  have h7 : ∑ i : Fin q, ∑ j : Fin q, Complex.normSq ((Uᴴ * Y * V) (Fin.castLE hq i) (Fin.castLE hq j)) *
      (1 - (1 - gain tik s (Fin.castLE hq j)) ^ 2) =
      frobSq G - ∑ i : Fin q, ∑ j : Fin q, Complex.normSq (G i j) * (1 - gain tik s (Fin.castLE hq j)) ^ 2 := by
    rw [h6, ← Finset.sum_sub_distrib]
    refine Finset.sum_congr rfl fun i _ => ?_
    rw [← Finset.sum_sub_distrib]
    refine Finset.sum_congr rfl fun j _ => ?_
    rw [h5]; ring
  rw [h7]
  ring

/-- **C151** (DMD with projected modes, with or without regularization): the error of `predict` on the snapshot pairs does
not grow with the rank. -/
theorem C151_dmd_partial {p q q' : ℕ} (hqq : q ≤ q') (hq' : q' ≤ p) (tik : Option (ℝ × ℝ)) (htik : ∀ t ∈ tik, 0 ≤ t.1 * t.2)
    (X Y : Matrix m n ℂ) (U : Matrix m (Fin p) ℂ) (s : Fin p → ℝ) (V : Matrix n (Fin p) ℂ) (h : IsSVD X U s V)
    (eigs : Fin q → ℂ) (modes : Matrix m (Fin q) ℂ) (P : Matrix (Fin q) m ℂ)
    (f : Fit false tik Y U s V q (hqq.trans hq') eigs modes P) (eigs' : Fin q' → ℂ) (modes' : Matrix m (Fin q') ℂ)
    (P' : Matrix (Fin q') m ℂ) (f' : Fit false tik Y U s V q' hq' eigs' modes' P') :
    frobSq (Y - predict modes' eigs' P' X) ≤ frobSq (Y - predict modes eigs P X) := by
  rw [error_eq _ tik X Y U s V h eigs modes P f, error_eq _ tik X Y U s V h eigs' modes' P' f']
  have hpos : ∀ j, 0 ≤ 1 - (1 - gain tik s j) ^ 2 := by
    intro j
    obtain ⟨h0, h1⟩ := gain_mem tik htik s j
    nlinarith
  have hsum : ∀ g : Fin q' → ℝ, (∀ i, 0 ≤ g i) → ∑ i : Fin q, g (Fin.castLE hqq i) ≤ ∑ i, g i := by
    intro g hg
    refine le_trans (le_of_eq (Finset.sum_map Finset.univ (Fin.castLEEmb hqq) g).symm) ?_
    exact Finset.sum_le_sum_of_subset_of_nonneg (Finset.subset_univ _) fun i _ _ => hg i
  let a : Fin q' → Fin q' → ℝ := fun i j => Complex.normSq ((Uᴴ * Y * V) (Fin.castLE hq' i) (Fin.castLE hq' j)) *
    (1 - (1 - gain tik s (Fin.castLE hq' j)) ^ 2)
  have ha : ∀ i j, 0 ≤ a i j := fun i j => mul_nonneg (Complex.normSq_nonneg _) (hpos _)
  have h1 : ∑ i : Fin q, ∑ j : Fin q, a (Fin.castLE hqq i) (Fin.castLE hqq j) ≤ ∑ i, ∑ j, a i j :=
    le_trans (Finset.sum_le_sum fun i _ => hsum _ (ha _)) (hsum (fun i => ∑ j, a i j) fun i => Finset.sum_nonneg fun j _ => ha i j)
  have h2 : ∑ i : Fin q, ∑ j : Fin q, a (Fin.castLE hqq i) (Fin.castLE hqq j) =
      ∑ i : Fin q, ∑ j : Fin q, Complex.normSq ((Uᴴ * Y * V) (Fin.castLE (hqq.trans hq') i) (Fin.castLE (hqq.trans hq') j)) *
        (1 - (1 - gain tik s (Fin.castLE (hqq.trans hq') j)) ^ 2) := rfl
  rw [← h2]
  linarith

/-- **C151** (how the rank follows from `svd_rank`): larger integers and larger energies give larger ranks. -/
theorem C151_svd_rank (sigma : List ℝ) (rows cols : ℕ) (hs : sigma.length = min rows cols) (hnz : ∃ s ∈ sigma, s ≠ 0) :
    (∀ k k' : ℤ, 1 ≤ k → k ≤ k' → Rank.computeRank sigma rows cols (.int k) ≤ Rank.computeRank sigma rows cols (.int k')) ∧
    (∀ e e' : ℝ, 0 < e → e ≤ e' → e' < 1 →
      Rank.computeRank sigma rows cols (.float e) ≤ Rank.computeRank sigma rows cols (.float e')) ∧
    ∀ r : Rank.SvdRank ℝ, Rank.computeRank sigma rows cols r ≤ Rank.computeRank sigma rows cols (.int (-1)) := by
  have hne : 1 ≤ sigma.length := by
    obtain ⟨s, hs, -⟩ := hnz
    exact List.length_pos_of_mem hs
  obtain ⟨h1, h2, -, -⟩ := Rank.C12_rank sigma rows cols hs hne
  refine ⟨fun k k' hk hkk => ?_, fun e e' h0 hle h1' => Rank.C13_monotone sigma rows cols hnz e e' h0 hle h1', fun r => ?_⟩
  · have a := h1 k hk
    have b := h1 k' (hk.trans hkk)
    omega
  · rw [h2]; exact (Rank.C12_rank_any sigma rows cols hs hne r).2

/-- **C151** (OptDMD): the error of `predict` on the snapshot pairs does not grow with the rank. -/
theorem C151_optdmd {p p' r r' : ℕ} (prec : OptDmd.Prec) (X Y : Matrix m n ℂ) (U : Matrix m (Fin p) ℂ)
    (s : Fin p → ℝ) (V : Matrix n (Fin p) ℂ) (h : IsSVD X U s V) (hgap : ∀ i, s i = 0 ∨ OptDmd.rcond prec < s i)
    (Uz : Matrix m (Fin p') ℂ) (sz : Fin p' → ℝ) (Vz : Matrix n (Fin p') ℂ)
    (hz : IsSVD (OptDmd.matZ prec Y s V) Uz sz Vz) (hsort : Antitone sz) (hrr : r ≤ r') (hr' : r' ≤ p') :
    ∃ a b, OptDmd.predict .svd (OptDmd.fitSpaces .svd prec (lead r (hrr.trans hr') Uz)
        (OptDmd.matQ prec Y U s V (lead r (hrr.trans hr') Uz)) 0 0) X = .ok a ∧
      OptDmd.predict .svd (OptDmd.fitSpaces .svd prec (lead r' hr' Uz) (OptDmd.matQ prec Y U s V (lead r' hr' Uz)) 0 0) X = .ok b ∧
      frobSq (Y - b) ≤ frobSq (Y - a) := by
  classical
  obtain ⟨A, hA, hA1, -⟩ := OptDmd.C80_optimal_partial prec X Y U s V h hgap Uz sz Vz hz hsort (hrr.trans hr')
  obtain ⟨B, hB, -, hB2⟩ := OptDmd.C80_optimal_partial prec X Y U s V h hgap Uz sz Vz hz hsort hr'
  exact ⟨_, _, hA n X, hB n X, hB2 A (hA1.trans hrr)⟩

/-! ## Exact modes -/

/-- Three sensors, two snapshot pairs. -/
def X₀ : Matrix (Fin 3) (Fin 2) ℂ := !![2, 0; 0, 1; 0, 0]
def Y₀ : Matrix (Fin 3) (Fin 2) ℂ := !![0, 6; 0, 8; 2, 0]
def U₀ : Matrix (Fin 3) (Fin 2) ℂ := !![1, 0; 0, 1; 0, 0]
def s₀ : Fin 2 → ℝ := ![2, 1]

theorem svd₀ : IsSVD X₀ U₀ s₀ 1 := by
  refine ⟨?_, ?_, by simp, ?_⟩
  · ext i j; fin_cases i <;> fin_cases j <;> simp [X₀, U₀, s₀, rdiag, Matrix.mul_apply, Matrix.vecMul, dotProduct, Matrix.diagonal_apply, Fin.sum_univ_two]
  · ext i j; fin_cases i <;> fin_cases j <;> simp [U₀, Matrix.mul_apply, Matrix.vecMul, dotProduct, Matrix.diagonal_apply, Fin.sum_univ_three]
  · intro i; fin_cases i <;> simp [s₀]

/-- **C151** is false with `exact=True`: the same data fitted with ranks 1 and 2, and the prediction of rank 2 is the worse
one. -/
theorem C151_exact_false :
    ∃ (eigs : Fin 1 → ℂ) (modes : Matrix (Fin 3) (Fin 1) ℂ) (P : Matrix (Fin 1) (Fin 3) ℂ) (eigs' : Fin 2 → ℂ)
      (modes' : Matrix (Fin 3) (Fin 2) ℂ) (P' : Matrix (Fin 2) (Fin 3) ℂ),
      IsSVD X₀ U₀ s₀ 1 ∧ Antitone s₀ ∧ Fit true none Y₀ U₀ s₀ 1 1 (by norm_num) eigs modes P ∧
      Fit true none Y₀ U₀ s₀ 1 2 le_rfl eigs' modes' P' ∧
      frobSq (Y₀ - predict modes eigs P X₀) = 104 ∧ 106 < frobSq (Y₀ - predict modes' eigs' P' X₀) := by
  refine ⟨fun _ => 0, !![0; 0; 1], !![0, 0, 1], ![0, 8], !![0, 24/5; 0, 32/5; 1, 3/5],
    !![-9/200, -3/50, 1; 3/40, 1/10, 0], svd₀, ?_, ⟨⟨1, by simp, ?_, ?_, ?_⟩, ?_⟩,
    ⟨⟨!![1, 3/5; 0, 4/5], ?_, ?_, ?_, ?_⟩, ?_⟩, ?_, ?_⟩
  · intro i j hij; fin_cases i <;> fin_cases j <;> simp [s₀] at hij ⊢
  · intro j; rw [Subsingleton.elim j 0]; simp [normSq]
  · ext i j; rw [Subsingleton.elim i 0, Subsingleton.elim j 0]
    simp [leastSquareOperator, lead, Matrix.mul_apply, Matrix.vecMul, dotProduct, Matrix.diagonal_apply, Y₀, U₀, Fin.sum_univ_three, rdiag, Matrix.one_apply]
  · ext i j; rw [Subsingleton.elim j 0]
    fin_cases i <;>
      simp [computeModes, lead, Matrix.mul_apply, Matrix.vecMul, dotProduct, Matrix.diagonal_apply, Y₀, tikSigma, s₀, rdiag, Matrix.one_apply]
  · refine ⟨?_, ?_, ?_, ?_⟩
    · ext i j; rw [Subsingleton.elim j 0]; fin_cases i <;> simp [Matrix.mul_apply, Matrix.vecMul, dotProduct, Matrix.diagonal_apply, Fin.sum_univ_three]
    · ext i j; rw [Subsingleton.elim i 0]; fin_cases j <;> simp [Matrix.mul_apply, Matrix.vecMul, dotProduct, Matrix.diagonal_apply, Fin.sum_univ_three]
    · ext i j; fin_cases i <;> fin_cases j <;> simp [Matrix.mul_apply]
    · ext i j; rw [Subsingleton.elim i 0, Subsingleton.elim j 0]; simp [Matrix.mul_apply, Matrix.vecMul, dotProduct, Matrix.diagonal_apply, Fin.sum_univ_three]
  · simp [Matrix.det_fin_two]
  · intro j; fin_cases j <;> simp [normSq, Fin.sum_univ_two, Complex.normSq_apply] <;> norm_num
  · ext i j; fin_cases i <;> fin_cases j <;>
      simp [leastSquareOperator, lead, Matrix.mul_apply, Matrix.vecMul, dotProduct, Matrix.diagonal_apply, Y₀, U₀, Fin.sum_univ_three, Fin.sum_univ_two, rdiag, tikSigma, s₀,
        Matrix.one_apply, Matrix.diagonal_apply] <;> norm_num
  · ext i j; fin_cases i <;> fin_cases j <;>
      simp [computeModes, lead, Matrix.mul_apply, Matrix.vecMul, dotProduct, Matrix.diagonal_apply, Y₀, tikSigma, s₀, rdiag, Fin.sum_univ_two, Matrix.one_apply,
        Matrix.diagonal_apply] <;> norm_num
  · refine ⟨?_, ?_, ?_, ?_⟩
    · ext i j; fin_cases i <;> fin_cases j <;> simp [Matrix.mul_apply, Matrix.vecMul, dotProduct, Matrix.diagonal_apply, Fin.sum_univ_three, Fin.sum_univ_two] <;> norm_num
    · ext i j; fin_cases i <;> fin_cases j <;> simp [Matrix.mul_apply, Matrix.vecMul, dotProduct, Matrix.diagonal_apply, Fin.sum_univ_three, Fin.sum_univ_two] <;> norm_num
    · ext i j; fin_cases i <;> fin_cases j <;> simp [Matrix.mul_apply, Matrix.vecMul, dotProduct, Matrix.diagonal_apply, Fin.sum_univ_three, Fin.sum_univ_two] <;> norm_num
    · ext i j; fin_cases i <;> fin_cases j <;> simp [Matrix.mul_apply, Matrix.vecMul, dotProduct, Matrix.diagonal_apply, Fin.sum_univ_three, Fin.sum_univ_two] <;> norm_num
  · simp [frobSq, predict, Fin.sum_univ_three, Fin.sum_univ_two, Y₀, Matrix.mul_apply, Matrix.vecMul, dotProduct, Matrix.diagonal_apply, Complex.normSq_apply]
    norm_num
  · simp [frobSq, predict, Fin.sum_univ_three, Fin.sum_univ_two, Y₀, X₀, Matrix.mul_apply, Matrix.vecMul, dotProduct, Matrix.diagonal_apply, Complex.normSq_apply,
      Matrix.diagonal_apply]
    norm_num

/-- Fits as in `C151_dmd_partial`: the same data with projected modes and ranks 1 and 2. -/
example : (∃ eigs modes P, Fit false none Y₀ U₀ s₀ 1 1 (by norm_num) eigs modes P) ∧
    ∃ eigs modes P, Fit false none Y₀ U₀ s₀ 1 2 le_rfl eigs modes P := by
  have hd : ∀ {q : ℕ} (hq : q ≤ 2) (W : Matrix (Fin q) (Fin q) ℂ) (eigs : Fin q → ℂ), IsUnit W.det →
      (∀ j, normSq (fun i => W i j) = 1) →
      leastSquareOperator none (lead q hq U₀) (s₀ ∘ Fin.castLE hq) (lead q hq 1) Y₀ * W = W * diagonal eigs →
      ∃ eigs modes P, Fit false none Y₀ U₀ s₀ 1 q hq eigs modes P := fun hq W eigs h1 h2 h3 =>
    ⟨eigs, _, _, ⟨W, h1, h2, h3, rfl⟩, by
      rw [computeModes, if_neg (by simp)]
      exact pinv_projected _ (lead_orthonormal hq U₀ svd₀.u) W h1⟩
  refine ⟨hd _ 1 (fun _ => 0) (by simp) ?_ ?_, hd _ !![1, 3/5; 0, 4/5] ![0, 8] ?_ ?_ ?_⟩
  · intro j; rw [Subsingleton.elim j 0]; simp [normSq]
  · ext i j; rw [Subsingleton.elim i 0, Subsingleton.elim j 0]
    simp [leastSquareOperator, lead, Matrix.mul_apply, Matrix.vecMul, dotProduct, Matrix.diagonal_apply, Y₀, U₀, Fin.sum_univ_three, rdiag, Matrix.one_apply]
  · simp [Matrix.det_fin_two]
  · intro j; fin_cases j <;> simp [normSq, Fin.sum_univ_two, Complex.normSq_apply] <;> norm_num
  · ext i j; fin_cases i <;> fin_cases j <;>
      simp [leastSquareOperator, lead, Matrix.mul_apply, Matrix.vecMul, dotProduct, Matrix.diagonal_apply, Y₀, U₀, Fin.sum_univ_three, Fin.sum_univ_two, rdiag, tikSigma, s₀,
        Matrix.one_apply, Matrix.diagonal_apply] <;> norm_num

end Verif.RankFit
