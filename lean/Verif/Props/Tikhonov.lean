import Verif.Props.RankFit
import Verif.Props.Frequencies

/-!
# C157: more Tikhonov regularization, smaller predictions and larger errors

`t` and `t'` are two values of `tikhonov_regularization`, `nX` is the norm of `X` kept by the operator; the SVD is that of `X`,
shared by both fits.
-/

set_option autoImplicit false

namespace Verif.RankFit

open Verif Verif.LinAlg Verif.Operator Matrix

variable {m n : Type} [Fintype m] [Fintype n]

/-- `tik` regularizes less than `tik'`. -/
def Weaker : Option (ℝ × ℝ) → Option (ℝ × ℝ) → Prop
  | none, none => True
  | none, some (t', nX') => 0 ≤ t' ∧ 0 ≤ nX'
  | some _, none => False
  | some (t, nX), some (t', nX') => 0 ≤ t ∧ t ≤ t' ∧ nX = nX' ∧ 0 ≤ nX

theorem gain_antitone {p : ℕ} {tik tik' : Option (ℝ × ℝ)} (h : Weaker tik tik') (s : Fin p → ℝ) (j : Fin p) :
    0 ≤ gain tik' s j ∧ gain tik' s j ≤ gain tik s j ∧ gain tik s j ≤ 1 := by
  have htik : ∀ t ∈ tik, 0 ≤ t.1 * t.2 := by
    rcases tik with _ | ⟨t, nX⟩ <;> rcases tik' with _ | ⟨t', nX'⟩ <;> simp_all [Weaker]
    exact mul_nonneg h.1 (h.2.2.1 ▸ h.2.2.2)
  have htik' : ∀ t ∈ tik', 0 ≤ t.1 * t.2 := by
    rcases tik with _ | ⟨t, nX⟩ <;> rcases tik' with _ | ⟨t', nX'⟩ <;> simp_all [Weaker]
    · exact mul_nonneg h.1 h.2
    · exact mul_nonneg (h.1.trans h.2.1) (h.2.2.1 ▸ h.2.2.2)
  refine ⟨(gain_mem tik' htik' s j).1, ?_, (gain_mem tik htik s j).2⟩
  rcases tik' with _ | ⟨t', nX'⟩
  · rcases tik with _ | ⟨t, nX⟩
    · exact le_rfl
    · exact absurd h (by simp [Weaker])
  rcases tik with _ | ⟨t, nX⟩
  · by_cases hs : s j = 0
    · simp [gain, hs, tikSigma]
    · refine (gain_mem _ htik' s j).2.trans (le_of_eq ?_)
      simp [gain, tikSigma, inv_mul_cancel₀ hs]
  · obtain ⟨h0, h1, rfl, h2⟩ := h
    by_cases hs : s j = 0
    · simp [gain, hs]
    · have hp : 0 < s j ^ 2 := by positivity
      simp only [gain, tikSigma, mul_inv, inv_inv, mul_assoc]
      refine mul_le_mul_of_nonneg_right ?_ (mul_self_nonneg _)
      have := mul_nonneg h0 h2
      exact inv_anti₀ (by linarith) (by nlinarith)

/-- **C157** (DMD with projected modes): the error of `predict` on the snapshot pairs grows with the regularization. -/
theorem C157_error_partial {p q : ℕ} (hq : q ≤ p) (tik tik' : Option (ℝ × ℝ)) (hw : Weaker tik tik')
    (X Y : Matrix m n ℂ) (U : Matrix m (Fin p) ℂ) (s : Fin p → ℝ) (V : Matrix n (Fin p) ℂ) (h : IsSVD X U s V)
    (eigs eigs' : Fin q → ℂ) (modes modes' : Matrix m (Fin q) ℂ) (P P' : Matrix (Fin q) m ℂ)
    (f : Fit false tik Y U s V q hq eigs modes P) (f' : Fit false tik' Y U s V q hq eigs' modes' P') :
    frobSq (Y - predict modes eigs P X) ≤ frobSq (Y - predict modes' eigs' P' X) := by
  rw [error_eq _ tik X Y U s V h eigs modes P f, error_eq _ tik' X Y U s V h eigs' modes' P' f']
  refine sub_le_sub_left (Finset.sum_le_sum fun i _ => Finset.sum_le_sum fun j _ => ?_) _
  refine mul_le_mul_of_nonneg_left ?_ (Complex.normSq_nonneg _)
  obtain ⟨h0, h1, h2⟩ := gain_antitone hw s (Fin.castLE hq j)
  nlinarith

/-- **C157** (the operator): the entries of the reduced operator, and with them its norm, do not grow with the regularization. -/
theorem C157_operator {p : ℕ} (tik tik' : Option (ℝ × ℝ)) (hw : Weaker tik tik') (Y : Matrix m n ℂ)
    (U : Matrix m (Fin p) ℂ) (s : Fin p → ℝ) (V : Matrix n (Fin p) ℂ) (hs : ∀ i, 0 < s i) :
    (∀ i j, Complex.normSq (leastSquareOperator tik' U s V Y i j) ≤ Complex.normSq (leastSquareOperator tik U s V Y i j)) ∧
    frobSq (leastSquareOperator tik' U s V Y) ≤ frobSq (leastSquareOperator tik U s V Y) := by
  have key : ∀ i j, Complex.normSq (leastSquareOperator tik' U s V Y i j) ≤
      Complex.normSq (leastSquareOperator tik U s V Y i j) := by
    intro i j
    simp only [leastSquareOperator, rdiag, Matrix.mul_diagonal, Complex.normSq_mul, Complex.normSq_ofReal]
    refine mul_le_mul_of_nonneg_left ?_ (Complex.normSq_nonneg _)
    obtain ⟨h0, h1, -⟩ := gain_antitone hw s j
    have a : 0 ≤ (tikSigma tik' s j)⁻¹ := nonneg_of_mul_nonneg_left h0 (hs j)
    have b : (tikSigma tik' s j)⁻¹ ≤ (tikSigma tik s j)⁻¹ := le_of_mul_le_mul_right h1 (hs j)
    exact mul_self_le_mul_self a b
  exact ⟨key, Finset.sum_le_sum fun i _ => Finset.sum_le_sum fun j _ => key i j⟩

/-- **C157** (predictions, projected modes): the predicted snapshots do not grow with the regularization. -/
theorem C157_size_partial {p q : ℕ} (hq : q ≤ p) (tik tik' : Option (ℝ × ℝ)) (hw : Weaker tik tik')
    (X Y : Matrix m n ℂ) (U : Matrix m (Fin p) ℂ) (s : Fin p → ℝ) (V : Matrix n (Fin p) ℂ) (h : IsSVD X U s V)
    (eigs eigs' : Fin q → ℂ) (modes modes' : Matrix m (Fin q) ℂ) (P P' : Matrix (Fin q) m ℂ)
    (f : Fit false tik Y U s V q hq eigs modes P) (f' : Fit false tik' Y U s V q hq eigs' modes' P') :
    frobSq (predict modes' eigs' P' X) ≤ frobSq (predict modes eigs P X) := by
  have key : ∀ (tik : Option (ℝ × ℝ)) (eigs : Fin q → ℂ) (modes : Matrix m (Fin q) ℂ) (P : Matrix (Fin q) m ℂ),
      Fit false tik Y U s V q hq eigs modes P → frobSq (predict modes eigs P X) = ∑ i : Fin q, ∑ j : Fin q,
        Complex.normSq (((lead q hq U)ᴴ * Y * lead q hq V) i j) * gain tik s (Fin.castLE hq j) ^ 2 := by
    rintro tik eigs modes P ⟨⟨W, hdet, -, hW, rfl⟩, hP⟩
    have hU := lead_orthonormal hq U h.u
    have hV := lead_orthonormal hq V h.v
    rw [computeModes, if_neg (by simp)] at hP ⊢
    rw [hP.unique (pinv_projected _ hU W hdet)]
    have hx : (lead q hq U)ᴴ * X = rdiag (s ∘ Fin.castLE hq) * (lead q hq V)ᴴ := by
      have := congrArg conjTranspose (h.conj_mul_lead q hq)
      rwa [conjTranspose_mul, conjTranspose_mul, conjTranspose_conjTranspose, rdiag_conjTranspose] at this
    have ha : leastSquareOperator tik (lead q hq U) (s ∘ Fin.castLE hq) (lead q hq V) Y = W * diagonal eigs * W⁻¹ := by
      rw [← hW, Matrix.mul_assoc, Matrix.mul_nonsing_inv W hdet, Matrix.mul_one]
    have hg : rdiag (fun j => gain tik s (Fin.castLE hq j)) =
        rdiag (fun i => (tikSigma tik (s ∘ Fin.castLE hq) i)⁻¹) * rdiag (s ∘ Fin.castLE hq) := by
      rw [rdiag, rdiag, rdiag, diagonal_mul_diagonal]
      congr 1
      funext j
      rcases tik with _ | ⟨t, nX⟩ <;> simp [gain, tikSigma]
    have h1 : predict (lead q hq U * W) eigs (W⁻¹ * (lead q hq U)ᴴ) X = lead q hq U *
        ((lead q hq U)ᴴ * Y * lead q hq V * rdiag (fun j => gain tik s (Fin.castLE hq j)) * (lead q hq V)ᴴ) := by
      rw [predict]
      calc lead q hq U * W * diagonal eigs * (W⁻¹ * (lead q hq U)ᴴ) * X
          = lead q hq U * (W * diagonal eigs * W⁻¹) * ((lead q hq U)ᴴ * X) := by simp only [Matrix.mul_assoc]
        _ = _ := by
          rw [← ha, hx, leastSquareOperator, hg]
          simp only [Matrix.mul_assoc]
    have iso : ∀ {k : ℕ} {l : Type} [Fintype l] {W : Matrix m (Fin k) ℂ} (_ : Wᴴ * W = 1) (C : Matrix (Fin k) l ℂ),
        frobSq (W * C) = frobSq C := by
      intro k l _ W hW C
      have := frobSq_proj hW 0 C
      simpa [frobSq] using this
    have iso' : ∀ {k : ℕ} {l : Type} [Fintype l] {W : Matrix n (Fin k) ℂ} (_ : Wᴴ * W = 1) (C : Matrix (Fin k) l ℂ),
        frobSq (W * C) = frobSq C := by
      intro k l _ W hW C
      have := frobSq_proj hW 0 C
      simpa [frobSq] using this
    rw [h1, iso hU, ← frobSq_conjTranspose, conjTranspose_mul _ (lead q hq V)ᴴ, conjTranspose_conjTranspose, iso' hV,
      frobSq_conjTranspose, frobSq]
    refine Finset.sum_congr rfl fun i _ => Finset.sum_congr rfl fun j _ => ?_
    rw [rdiag, Matrix.mul_diagonal, Complex.normSq_mul, Complex.normSq_ofReal, sq]
  rw [key tik eigs modes P f, key tik' eigs' modes' P' f']
  refine Finset.sum_le_sum fun i _ => Finset.sum_le_sum fun j _ => ?_
  refine mul_le_mul_of_nonneg_left ?_ (Complex.normSq_nonneg _)
  obtain ⟨h0, h1, -⟩ := gain_antitone hw s (Fin.castLE hq j)
  exact pow_le_pow_left₀ h0 h1 2

/-! ## Eigenvalues, exact modes -/

/-- Two sensors, two snapshots. -/
def Xd : Matrix (Fin 2) (Fin 2) ℂ := !![2, 0; 0, 1]

theorem svd_d : IsSVD Xd 1 s₀ 1 := by
  refine ⟨?_, by simp, by simp, ?_⟩
  · ext i j; fin_cases i <;> fin_cases j <;> simp [Xd, s₀, rdiag]
  · intro i; fin_cases i <;> simp [s₀]

theorem anti_d : Antitone s₀ := by
  intro i j hij; fin_cases i <;> fin_cases j <;> simp [s₀] at hij ⊢

theorem norm_d : √(frobSq Xd) = √5 := by
  congr 1
  simp [frobSq, Fin.sum_univ_two, Xd, Complex.normSq_apply]
  norm_num

/-- `t * norm_X` for the value of `t` that makes it `mu`. -/
theorem mu_d (mu : ℝ) (s : Fin 2 → ℝ) : tikSigma (some (mu / √5, √5)) s = fun i => (s i ^ 2 + mu) * (s i)⁻¹ := by
  funext i
  rw [tikSigma, div_mul_cancel₀ mu (by positivity)]

/-- **C157** (negative part, eigenvalues). The eigenvalues can grow: without regularization they are 8/9 and 0, and with
`tikhonov_regularization = 7 / (5 √5)` they are 55/54 and 0, so that a decaying model becomes a growing one. -/
theorem C157_eigenvalues_false : ∃ (X Y : Matrix (Fin 2) (Fin 2) ℂ) (U : Matrix (Fin 2) (Fin 2) ℂ) (s : Fin 2 → ℝ)
    (V : Matrix (Fin 2) (Fin 2) ℂ) (t : ℝ), IsSVD X U s V ∧ Antitone s ∧ 0 < t ∧
    (∃ modes P, Fit false none Y U s V 2 le_rfl ![8 / 9, 0] modes P) ∧
    ∃ modes P, Fit false (some (t, √(frobSq X))) Y U s V 2 le_rfl ![55 / 54, 0] modes P := by
  have hd : ∀ (tik : Option (ℝ × ℝ)) (Y W : Matrix (Fin 2) (Fin 2) ℂ) (eigs : Fin 2 → ℂ), IsUnit W.det →
      (∀ j, normSq (fun i => W i j) = 1) →
      leastSquareOperator tik (lead 2 le_rfl 1) (s₀ ∘ Fin.castLE le_rfl) (lead 2 le_rfl 1) Y * W = W * diagonal eigs →
      ∃ modes P, Fit false tik Y (1 : Matrix (Fin 2) (Fin 2) ℂ) s₀ (1 : Matrix (Fin 2) (Fin 2) ℂ) 2 le_rfl eigs modes P :=
    fun tik Y W eigs h1 h2 h3 =>
    ⟨_, _, ⟨W, h1, h2, h3, rfl⟩, by
      rw [computeModes, if_neg (by simp)]
      exact pinv_projected _ (lead_orthonormal le_rfl (1 : Matrix (Fin 2) (Fin 2) ℂ) svd_d.u) W h1⟩
  refine ⟨Xd, !![4, 8 / 3; -5 / 3, -10 / 9], 1, s₀, 1, 7 / 5 / √5, svd_d, anti_d, by positivity,
    hd _ _ !![12 / 13, 4 / 5; -5 / 13, -3 / 5] _ ?_ ?_ ?_, ?_⟩
  · simp [Matrix.det_fin_two]; norm_num
  · intro j; fin_cases j <;> simp [normSq, Fin.sum_univ_two, Complex.normSq_apply] <;> norm_num
  · ext i j; fin_cases i <;> fin_cases j <;>
      simp [leastSquareOperator, lead, Matrix.mul_apply, Matrix.vecMul, dotProduct, Fin.sum_univ_two, rdiag, tikSigma, s₀, Matrix.one_apply,
        Matrix.diagonal_apply] <;> norm_num
  rw [norm_d]
  refine hd _ _ !![12 / 13, 3 / 5; -5 / 13, -4 / 5] _ ?_ ?_ ?_
  · simp [Matrix.det_fin_two]; norm_num
  · intro j; fin_cases j <;> simp [normSq, Fin.sum_univ_two, Complex.normSq_apply] <;> norm_num
  · rw [leastSquareOperator, mu_d]
    ext i j; fin_cases i <;> fin_cases j <;>
      simp [lead, Matrix.mul_apply, Matrix.vecMul, dotProduct, Fin.sum_univ_two, rdiag, s₀, Matrix.one_apply,
        Matrix.diagonal_apply] <;> norm_num

/-- **C157** (negative part, exact modes). With `exact=True` the regularization can improve the predictions: the squared error
is more than 9157 without and less than 6458 with `tikhonov_regularization = 16 / (11 √5)`. -/
theorem C157_exact_false : ∃ (X Y : Matrix (Fin 2) (Fin 2) ℂ) (U : Matrix (Fin 2) (Fin 2) ℂ) (s : Fin 2 → ℝ)
    (V : Matrix (Fin 2) (Fin 2) ℂ) (t : ℝ) (eigs eigs' : Fin 2 → ℂ) (modes P modes' P' : Matrix (Fin 2) (Fin 2) ℂ),
    IsSVD X U s V ∧ Antitone s ∧ 0 < t ∧ Fit true none Y U s V 2 le_rfl eigs modes P ∧
    Fit true (some (t, √(frobSq X))) Y U s V 2 le_rfl eigs' modes' P' ∧
    9157 < frobSq (Y - predict modes eigs P X) ∧ frobSq (Y - predict modes' eigs' P' X) < 6458 := by
  refine ⟨Xd, !![30, -36; 40, -48], 1, s₀, 1, 16 / 11 / √5, ![-33, 0], ![-77 / 9, 0], !![-99 / 5, 0; -132 / 5, 0],
    !![-1 / 55, -4 / 165; 0, 0], !![-77 / 15, 0; -308 / 45, 0], !![-27 / 385, -36 / 385; 0, 0], svd_d, anti_d, by positivity,
    ⟨⟨!![3 / 5, 12 / 13; 4 / 5, 5 / 13], ?_, ?_, ?_, ?_⟩, ?_⟩, ⟨⟨!![3 / 5, 4 / 5; 4 / 5, 3 / 5], ?_, ?_, ?_, ?_⟩, ?_⟩, ?_, ?_⟩
  · simp [Matrix.det_fin_two]; norm_num
  · intro j; fin_cases j <;> simp [normSq, Fin.sum_univ_two, Complex.normSq_apply] <;> norm_num
  · ext i j; fin_cases i <;> fin_cases j <;>
      simp [leastSquareOperator, lead, Matrix.mul_apply, Matrix.vecMul, dotProduct, Fin.sum_univ_two, rdiag, tikSigma, s₀, Matrix.one_apply,
        Matrix.diagonal_apply] <;> norm_num
  · ext i j; fin_cases i <;> fin_cases j <;>
      simp [computeModes, lead, Matrix.mul_apply, Matrix.vecMul, dotProduct, Fin.sum_univ_two, rdiag, tikSigma, s₀, Matrix.one_apply,
        Matrix.diagonal_apply] <;> norm_num
  · refine ⟨?_, ?_, ?_, ?_⟩ <;> ext i j <;> fin_cases i <;> fin_cases j <;>
      simp [Matrix.mul_apply, Fin.sum_univ_two, Matrix.vecMul, dotProduct] <;> norm_num
  · simp [Matrix.det_fin_two]; norm_num
  · intro j; fin_cases j <;> simp [normSq, Fin.sum_univ_two, Complex.normSq_apply] <;> norm_num
  · rw [norm_d, leastSquareOperator, mu_d]
    ext i j; fin_cases i <;> fin_cases j <;>
      simp [lead, Matrix.mul_apply, Matrix.vecMul, dotProduct, Fin.sum_univ_two, rdiag, s₀, Matrix.one_apply, Matrix.diagonal_apply] <;> norm_num
  · rw [norm_d, computeModes, if_pos rfl, mu_d]
    ext i j; fin_cases i <;> fin_cases j <;>
      simp [lead, Matrix.mul_apply, Matrix.vecMul, dotProduct, Fin.sum_univ_two, rdiag, s₀, Matrix.one_apply, Matrix.diagonal_apply] <;> norm_num
  · refine ⟨?_, ?_, ?_, ?_⟩ <;> ext i j <;> fin_cases i <;> fin_cases j <;>
      simp [Matrix.mul_apply, Fin.sum_univ_two, Matrix.vecMul, dotProduct] <;> norm_num
  · simp [frobSq, predict, Fin.sum_univ_two, Xd, Matrix.mul_apply, Matrix.vecMul, dotProduct, Matrix.diagonal_apply,
      Complex.normSq_apply]
    norm_num
  · simp [frobSq, predict, Fin.sum_univ_two, Xd, Matrix.mul_apply, Matrix.vecMul, dotProduct, Matrix.diagonal_apply,
      Complex.normSq_apply]
    norm_num

/-- The fits of `C157_error_partial` and `C157_size_partial` exist, for instance those of `C157_eigenvalues_false`: the second
option is the stronger one. -/
example : Weaker none (some (7 / 5 / √5, √(frobSq Xd))) ∧ Weaker (some (1, 2)) (some (3, 2)) ∧ ∀ i, 0 < s₀ i := by
  refine ⟨⟨by positivity, Real.sqrt_nonneg _⟩, ⟨by norm_num, by norm_num, rfl, by norm_num⟩, fun i => ?_⟩
  fin_cases i <;> simp [s₀]

end Verif.RankFit
