import Verif.Lemmas.InvRoots
import Verif.Props.Unique
import Mathlib.LinearAlgebra.Matrix.Rank

/-!
# C156: forward-backward DMD treats both directions of time alike

`fit(X, Y)` and `fit(Y, X)`, whatever the data: noise, no linear system behind it, any truncation.
-/

set_option autoImplicit false

namespace Verif.Whole

open Verif Verif.LinAlg Verif.Operator Matrix

variable {m n : Type} [Fintype m] [Fintype n]

/-- **C156**. Forward-backward DMD without regularization, of snapshot pairs `(X, Y)` and of the reversed pairs `(Y, X)`: if
the first gives the non-zero eigenvalues `eigs`, with the eigenvectors `W`, then the second gives their reciprocals, with the
same eigenvectors. The eigenvalues of the principal root, in the right half-plane, become eigenvalues of the principal root. -/
theorem C156_reverse_partial (exact : Bool) {q : ℕ} (X Y : Matrix m n ℂ) (W : Matrix (Fin q) (Fin q) ℂ) (eigs : Fin q → ℂ)
    (modes : Matrix m (Fin q) ℂ) (h : IsResult ⟨exact, true, none⟩ X Y W eigs modes) (h0 : ∀ j, eigs j ≠ 0) :
    (∃ modes', IsResult ⟨exact, true, none⟩ Y X W (fun j => 1 / eigs j) modes') ∧
    ((∀ j, 0 < (eigs j).re) → ∀ j, 0 < (1 / eigs j).re) := by
  refine ⟨?_, fun hp j => ?_⟩
  · obtain ⟨p, hq, U, s, V, hX, hs, A, hA, hW, hr, hn, rfl⟩ := h
    simp only [IsAtilde, if_true, Options.tik, Option.map_none] at hA
    obtain ⟨bU, bs, bV, hY, hbs, hu, hS⟩ := hA
    obtain ⟨huA, hr'⟩ := InvRoots.charpoly_inv_roots A eigs hr h0
    have hsq : A * A = leastSquareOperator none (lead q hq U) (s ∘ Fin.castLE hq) (lead q hq V) Y *
      (backwardOperator none (lead q hq bU) (bs ∘ Fin.castLE hq) (lead q hq bV) X)⁻¹ := hS
    generalize hf : leastSquareOperator none (lead q hq U) (s ∘ Fin.castLE hq) (lead q hq V) Y = f at hsq
    generalize hb : backwardOperator none (lead q hq bU) (bs ∘ Fin.castLE hq) (lead q hq bV) X = b at hsq hu
    have hfA : f = A * A * b := by
      rw [hsq, Matrix.mul_assoc, Matrix.nonsing_inv_mul b hu, Matrix.mul_one]
    refine ⟨_, p, hq, bU, bs, bV, hY, hbs, A⁻¹, ?_, ?_, ?_, hn, rfl⟩
    · simp only [IsAtilde, if_true, Options.tik, Option.map_none]
      refine ⟨U, s, V, hX, hs, ?_, ?_⟩
      · change IsUnit (leastSquareOperator none (lead q hq U) (s ∘ Fin.castLE hq) (lead q hq V) Y).det
        rw [hf, hfA, det_mul, det_mul]
        exact (huA.mul huA).mul hu
      · change A⁻¹ * A⁻¹ = backwardOperator none (lead q hq bU) (bs ∘ Fin.castLE hq) (lead q hq bV) X *
          (leastSquareOperator none (lead q hq U) (s ∘ Fin.castLE hq) (lead q hq V) Y)⁻¹
        rw [hf, hb, hfA, Matrix.mul_inv_rev, Matrix.mul_inv_rev, ← Matrix.mul_assoc, Matrix.mul_nonsing_inv b hu, Matrix.one_mul]
    · have hd : diagonal eigs * diagonal (fun j => 1 / eigs j) = (1 : Matrix (Fin q) (Fin q) ℂ) := by
        rw [diagonal_mul_diagonal, ← diagonal_one]
        congr 1
        funext j
        exact mul_one_div_cancel (h0 j)
      calc A⁻¹ * W = A⁻¹ * (W * (diagonal eigs * diagonal (fun j => 1 / eigs j))) := by rw [hd, Matrix.mul_one]
        _ = A⁻¹ * (A * W) * diagonal (fun j => 1 / eigs j) := by rw [hW]; simp only [Matrix.mul_assoc]
        _ = _ := by rw [← Matrix.mul_assoc A⁻¹, Matrix.nonsing_inv_mul A huA, Matrix.one_mul]
    · rw [hr']
      simp only [one_div]
  · rw [one_div, Complex.inv_re]
    exact div_pos (hp j) (Complex.normSq_pos.mpr (h0 j))

/-- The square of the eigenvalue in the case of one number at each time. -/
theorem single_fb (exact : Bool) {x y t : ℝ} (hx : 0 < x) (hy : 0 < y) (ht : 0 < t) (W : Matrix (Fin 1) (Fin 1) ℂ)
    (eigs : Fin 1 → ℂ) (modes : Matrix (Fin 1) (Fin 1) ℂ)
    (h : IsResult ⟨exact, true, some t⟩ (of fun _ _ => (x : ℂ) : Matrix (Fin 1) (Fin 1) ℂ)
      (of fun _ _ => (y : ℂ) : Matrix (Fin 1) (Fin 1) ℂ) W eigs modes) :
    eigs 0 ^ 2 = (((y ^ 2 + t * x) / (x * (x + t)) : ℝ) : ℂ) := by
  obtain ⟨p, hq, U, s, V, hX, -, A, hA, hW, -, hn, -⟩ := h
  simp only [IsAtilde, if_true, Options.tik, Option.map_some] at hA
  obtain ⟨bU, bs, bV, hY, -, hu, hS⟩ := hA
  have hp : p = 1 := by
    have h1 : (Uᴴ * U).rank ≤ 1 := (Matrix.rank_mul_le_right _ _).trans (by simpa using Matrix.rank_le_card_height U)
    rw [hX.u, rank_one] at h1
    simp at h1
    omega
  subst hp
  have hnx : ∀ z : ℝ, 0 < z → √(frobSq (of fun _ _ => (z : ℂ) : Matrix (Fin 1) (Fin 1) ℂ)) = z := by
    intro z hz
    simp [frobSq, Complex.normSq_ofReal, Real.sqrt_mul_self hz.le]
  -- one factorization: the numbers u, v of modulus 1 and s = x
  have key : ∀ {z w : ℝ}, 0 < z → ∀ (U V : Matrix (Fin 1) (Fin 1) ℂ) (s : Fin 1 → ℝ),
      IsSVD (of fun _ _ => (z : ℂ) : Matrix (Fin 1) (Fin 1) ℂ) U s V →
      leastSquareOperator (some (t, x)) (lead 1 hq U) (s ∘ Fin.castLE hq) (lead 1 hq V)
        (of fun _ _ => (w : ℂ) : Matrix (Fin 1) (Fin 1) ℂ) 0 0 = ((w * (z / (z ^ 2 + t * x)) : ℝ) : ℂ) := by
    intro z w hz U V s hU
    have hu1 := congrFun (congrFun hU.u 0) 0
    have hv1 := congrFun (congrFun hU.v 0) 0
    have he := congrFun (congrFun hU.eq 0) 0
    simp only [Matrix.mul_apply, Finset.univ_unique, Finset.sum_singleton, Matrix.conjTranspose_apply, Matrix.one_apply_eq,
      Matrix.of_apply, rdiag, diagonal_apply_eq, Fin.default_eq_zero, Complex.star_def] at hu1 hv1 he
    have hs : s 0 = z := by
      have h1 := congrArg (fun c : ℂ => Complex.normSq c) he
      simp only [Complex.normSq_mul, Complex.normSq_ofReal, Complex.normSq_conj] at h1
      have h2 := congrArg (fun c : ℂ => c.re) hu1
      have h3 := congrArg (fun c : ℂ => c.re) hv1
      rw [mul_comm, Complex.mul_conj] at hu1 hv1
      have h2 : Complex.normSq (U 0 0) = 1 := by exact_mod_cast hu1
      have h3 : Complex.normSq (V 0 0) = 1 := by exact_mod_cast hv1
      rw [h2, h3] at h1
      nlinarith [hU.nonneg 0]
    rw [hs] at he
    have hzC : (z : ℂ) ≠ 0 := by exact_mod_cast hz.ne'
    have huv : U 0 0 * (starRingEnd ℂ) (V 0 0) = 1 := by
      refine mul_left_cancel₀ hzC ?_
      linear_combination -he
    have hvu : (starRingEnd ℂ) (U 0 0) * V 0 0 = 1 := by
      have := congrArg (starRingEnd ℂ) huv
      simpa using this
    simp only [leastSquareOperator, lead, Matrix.mul_apply, Finset.univ_unique, Finset.sum_singleton, Matrix.conjTranspose_apply,
      Matrix.submatrix_apply, Matrix.of_apply, rdiag, diagonal_apply_eq, Fin.default_eq_zero, tikSigma, Function.comp, id]
    have hc : Fin.castLE hq 0 = (0 : Fin 1) := rfl
    rw [hc, hs, Complex.star_def]
    push_cast
    rw [mul_inv, inv_inv]
    have hne : (z ^ 2 + t * x : ℂ) ≠ 0 := by
      have : (0 : ℝ) < z ^ 2 + t * x := by positivity
      exact_mod_cast this.ne'
    field_simp
    linear_combination (w : ℂ) * hvu
  rw [hnx x hx] at hS hu
  have hF := key (w := y) hx U V s hX
  have hB : backwardOperator (some (t, x)) (lead 1 hq bU) (bs ∘ Fin.castLE hq) (lead 1 hq bV)
      (of fun _ _ => (x : ℂ) : Matrix (Fin 1) (Fin 1) ℂ) 0 0 = _ := key (w := x) hy bU bV bs hY
  have hS0 := congrFun (congrFun hS 0) 0
  have hw0 := congrFun (congrFun hW 0) 0
  have hn0 := hn 0
  simp only [normSq, Finset.univ_unique, Finset.sum_singleton, Fin.default_eq_zero] at hn0
  have hWn : W 0 0 ≠ 0 := by
    intro h; rw [h] at hn0; simp at hn0
  simp only [Matrix.mul_apply, Finset.univ_unique, Finset.sum_singleton, Fin.default_eq_zero, diagonal_apply_eq] at hw0
  have hA0 : A 0 0 = eigs 0 := mul_right_cancel₀ hWn (by rw [hw0, mul_comm])
  have hinv : ∀ M : Matrix (Fin 1) (Fin 1) ℂ, M⁻¹ 0 0 = (M 0 0)⁻¹ := by
    intro M
    rw [Matrix.inv_def]
    simp [Matrix.adjugate_fin_one, Ring.inverse_eq_inv']
  rw [Matrix.mul_apply, Matrix.mul_apply] at hS0
  simp only [Finset.univ_unique, Finset.sum_singleton, Fin.default_eq_zero] at hS0
  rw [hinv, hF, hB, hA0] at hS0
  rw [sq, hS0]
  rw [← Complex.ofReal_inv, ← Complex.ofReal_mul]
  congr 1
  have h1 : 0 < x ^ 2 + t * x := by positivity
  have h2 : 0 < y ^ 2 + t * x := by positivity
  field_simp

/-- There are such results. -/
theorem single_exists (exact : Bool) {x y t : ℝ} (hx : 0 < x) (hy : 0 < y) (ht : 0 < t) :
    ∃ (W : Matrix (Fin 1) (Fin 1) ℂ) (eigs : Fin 1 → ℂ) (modes : Matrix (Fin 1) (Fin 1) ℂ), IsResult ⟨exact, true, some t⟩ (of fun _ _ => (x : ℂ) : Matrix (Fin 1) (Fin 1) ℂ)
      (of fun _ _ => (y : ℂ) : Matrix (Fin 1) (Fin 1) ℂ) W eigs modes := by
  have hsvd : ∀ z : ℝ, 0 < z → IsSVD (of fun _ _ => (z : ℂ) : Matrix (Fin 1) (Fin 1) ℂ) (1 : Matrix (Fin 1) (Fin 1) ℂ) (fun _ => z) 1 := by
    intro z hz
    refine ⟨?_, by simp, by simp, fun _ => hz.le⟩
    ext i j
    rw [Subsingleton.elim i 0, Subsingleton.elim j 0]
    simp [rdiag]
  have hnx : √(frobSq (of fun _ _ => (x : ℂ) : Matrix (Fin 1) (Fin 1) ℂ)) = x := by
    simp [frobSq, Complex.normSq_ofReal, Real.sqrt_mul_self hx.le]
  have hop : ∀ z w : ℝ, leastSquareOperator (some (t, x)) (lead 1 le_rfl (1 : Matrix (Fin 1) (Fin 1) ℂ))
      ((fun _ : Fin 1 => z) ∘ Fin.castLE le_rfl) (lead 1 le_rfl (1 : Matrix (Fin 1) (Fin 1) ℂ))
        (of fun _ _ => (w : ℂ) : Matrix (Fin 1) (Fin 1) ℂ) = of fun _ _ => ((w * ((z ^ 2 + t * x) * z⁻¹)⁻¹ : ℝ) : ℂ) := by
    intro z w
    ext i j
    rw [Subsingleton.elim i 0, Subsingleton.elim j 0]
    simp [leastSquareOperator, lead, Matrix.mul_apply, rdiag, tikSigma]
  have hb : 0 < x * ((y ^ 2 + t * x) * y⁻¹)⁻¹ := by positivity
  refine ⟨1, fun _ => ((√(y * ((x ^ 2 + t * x) * x⁻¹)⁻¹ * (x * ((y ^ 2 + t * x) * y⁻¹)⁻¹)⁻¹) : ℝ) : ℂ), _, 1, le_rfl, 1, fun _ => x, 1,
    hsvd x hx, fun _ _ _ => le_rfl,
    of fun _ _ => ((√(y * ((x ^ 2 + t * x) * x⁻¹)⁻¹ * (x * ((y ^ 2 + t * x) * y⁻¹)⁻¹)⁻¹) : ℝ) : ℂ), ?_, ?_, ?_, ?_, rfl⟩
  · simp only [IsAtilde, if_true, Options.tik, Option.map_some]
    refine ⟨1, fun _ => y, 1, hsvd y hy, fun _ _ _ => le_rfl, ?_, ?_⟩
    · rw [hnx, backwardOperator, hop, det_unique]
      exact isUnit_iff_ne_zero.mpr (by rw [of_apply]; exact_mod_cast hb.ne')
    · rw [hnx, backwardOperator, hop, hop]
      have hinv : (of fun _ _ => ((x * ((y ^ 2 + t * x) * y⁻¹)⁻¹ : ℝ) : ℂ) : Matrix (Fin 1) (Fin 1) ℂ)⁻¹ =
          of fun _ _ => (((x * ((y ^ 2 + t * x) * y⁻¹)⁻¹)⁻¹ : ℝ) : ℂ) := by
        refine Matrix.inv_eq_right_inv ?_
        ext i j
        rw [Subsingleton.elim i 0, Subsingleton.elim j 0]
        simp only [Matrix.mul_apply, Finset.univ_unique, Finset.sum_singleton, of_apply, one_apply_eq]
        rw [← Complex.ofReal_mul, mul_inv_cancel₀ hb.ne', Complex.ofReal_one]
      rw [IsForwardBackward, hinv]
      ext i j
      simp only [Matrix.mul_apply, Finset.univ_unique, Finset.sum_singleton, of_apply]
      rw [← Complex.ofReal_mul, ← Complex.ofReal_mul, Real.mul_self_sqrt (by positivity)]
  · ext i j
    rw [Subsingleton.elim i 0, Subsingleton.elim j 0]
    simp
  · have hd : ∀ c : ℂ, (of fun _ _ => c : Matrix (Fin 1) (Fin 1) ℂ) = diagonal fun _ => c := by
      intro c
      ext i j
      rw [Subsingleton.elim i 0, Subsingleton.elim j 0]
      simp
    rw [hd, Frequencies.roots_diagonal]
  · intro j
    rw [Subsingleton.elim j 0]
    simp [normSq]

/-- **C156** is false with a Tikhonov regularization: the backward operator is regularized with the norm of `X` too. For one
number at each time, 1 and then 2, and `tikhonov_regularization=1`, the square of the eigenvalue is 5/2; for 2 and then 1 it is
1/2, and the reciprocal of the first would be 2/5. -/
theorem C156_tikhonov_false (exact : Bool) (W W' : Matrix (Fin 1) (Fin 1) ℂ) (eigs eigs' : Fin 1 → ℂ)
    (modes modes' : Matrix (Fin 1) (Fin 1) ℂ) (h : IsResult ⟨exact, true, some 1⟩ !![1] !![2] W eigs modes)
    (h' : IsResult ⟨exact, true, some 1⟩ !![2] !![1] W' eigs' modes') :
    eigs 0 ^ 2 = 5 / 2 ∧ eigs' 0 ^ 2 = 1 / 2 := by
  have e : ∀ z : ℝ, (!![(z : ℂ)] : Matrix (Fin 1) (Fin 1) ℂ) = of fun _ _ => (z : ℂ) := by
    intro z
    ext i j
    rw [Subsingleton.elim i 0, Subsingleton.elim j 0]
    rfl
  have e1 : (!![1] : Matrix (Fin 1) (Fin 1) ℂ) = of fun _ _ => ((1 : ℝ) : ℂ) := by rw [← e]; simp
  have e2 : (!![2] : Matrix (Fin 1) (Fin 1) ℂ) = of fun _ _ => ((2 : ℝ) : ℂ) := by rw [← e]; simp
  rw [e1, e2] at h h'
  have a := single_fb exact one_pos two_pos one_pos W eigs modes h
  have b := single_fb exact two_pos one_pos one_pos W' eigs' modes' h'
  constructor
  · rw [a]; norm_num
  · rw [b]; norm_num

/-- The fits of `C156_tikhonov_false` exist. -/
example (exact : Bool) : (∃ (W : Matrix (Fin 1) (Fin 1) ℂ) (eigs : Fin 1 → ℂ) (modes : Matrix (Fin 1) (Fin 1) ℂ), IsResult ⟨exact, true, some 1⟩ (of fun _ _ => ((1 : ℝ) : ℂ) : Matrix (Fin 1) (Fin 1) ℂ)
      (of fun _ _ => ((2 : ℝ) : ℂ) : Matrix (Fin 1) (Fin 1) ℂ) W eigs modes) ∧
    ∃ (W : Matrix (Fin 1) (Fin 1) ℂ) (eigs : Fin 1 → ℂ) (modes : Matrix (Fin 1) (Fin 1) ℂ), IsResult ⟨exact, true, some 1⟩ (of fun _ _ => ((2 : ℝ) : ℂ) : Matrix (Fin 1) (Fin 1) ℂ)
      (of fun _ _ => ((1 : ℝ) : ℂ) : Matrix (Fin 1) (Fin 1) ℂ) W eigs modes :=
  ⟨single_exists exact one_pos two_pos one_pos, single_exists exact two_pos one_pos one_pos⟩

/-- Data as in `C156_reverse_partial`, with the eigenvalues (3 ± 4 i) / 5 in the right half-plane. -/
example : ∃ (X Y W modes : Matrix (Fin 2) (Fin 2) ℂ) (eigs : Fin 2 → ℂ), IsResult ⟨false, true, none⟩ X Y W eigs modes ∧
    (∀ j, eigs j ≠ 0) ∧ (∀ j, 0 < (eigs j).re) ∧ eigs 0 ≠ eigs 1 := by
  obtain ⟨X, Y, -, -, ⟨W, modes, h⟩, -⟩ := Unique.C137_forward_backward_false
  refine ⟨X, Y, W, modes, _, h, ?_, ?_, ?_⟩
  · intro j
    fin_cases j <;> simp [Complex.ext_iff]
  · intro j
    fin_cases j <;> simp
  · simp [Complex.ext_iff]
    norm_num

end Verif.Whole
