import Verif.Model.Pidmd
import Verif.Lemmas.LinAlg
import Mathlib.LinearAlgebra.Matrix.Trace
import Mathlib.Analysis.Complex.Basic
import Mathlib.Tactic.FieldSimp

/-!
# Property C50 (first part): unitary, symmetric, triangular, banded and tridiagonal manifolds
-/

set_option autoImplicit false

namespace Verif.Pidmd

open Matrix LinAlg Verif

section General

variable {n m r : Type} [Fintype n] [Fintype m] [Fintype r] [DecidableEq n]
  [DecidableEq m] [DecidableEq r]

omit [DecidableEq n] [DecidableEq m] in
theorem frobSq_trace (A : Matrix n m ℂ) : frobSq A = (trace (Aᴴ * A)).re := by
  have h := frobSq_add A A
  have h2 : frobSq (A + A) = 4 * frobSq A := by
    simp only [frobSq, Matrix.add_apply, Finset.mul_sum]
    refine Finset.sum_congr rfl fun i _ => Finset.sum_congr rfl fun j _ => ?_
    simp only [Complex.normSq_apply, Complex.add_re, Complex.add_im]
    ring
  linarith

omit [DecidableEq n] [DecidableEq m] in
theorem frobSq_isometry (U : Matrix n r ℂ) (h : Uᴴ * U = 1) (Z : Matrix r m ℂ) :
    frobSq (U * Z) = frobSq Z := by
  rw [frobSq_trace, frobSq_trace, conjTranspose_mul, Matrix.mul_assoc, ← Matrix.mul_assoc Uᴴ, h,
    Matrix.one_mul]

omit [DecidableEq n] [DecidableEq m] in
theorem frobSq_coisometry (V : Matrix m r ℂ) (h : Vᴴ * V = 1) (Z : Matrix n r ℂ) :
    frobSq (Z * Vᴴ) = frobSq Z := by
  rw [frobSq_trace, frobSq_trace, conjTranspose_mul, conjTranspose_conjTranspose, Matrix.mul_assoc,
    trace_mul_comm, Matrix.mul_assoc, Matrix.mul_assoc, h, Matrix.mul_one]

omit [DecidableEq n] in
/-- The full operator is `U atilde U^H`, for any invertible eigenvector matrix. -/
theorem fullOperator_eq (U : Matrix n r ℂ) (hU : Uᴴ * U = 1) (T W : Matrix r r ℂ) (eigs : r → ℂ)
    (hW : IsUnit W.det) (hE : T * W = W * diagonal eigs) (P : Matrix r n ℂ)
    (hP : IsPinv (U * W) P) : fullOperator U W eigs P = U * T * Uᴴ := by
  have hi : W * W⁻¹ = 1 := Matrix.mul_nonsing_inv W hW
  have hi' : W⁻¹ * W = 1 := Matrix.nonsing_inv_mul W hW
  have e1 : U * W * (W⁻¹ * Uᴴ) = U * Uᴴ := by
    rw [Matrix.mul_assoc, ← Matrix.mul_assoc W, hi, Matrix.one_mul]
  have e2 : W⁻¹ * Uᴴ * (U * W) = 1 := by
    rw [Matrix.mul_assoc, ← Matrix.mul_assoc Uᴴ, hU, Matrix.one_mul, hi']
  have hQ : IsPinv (U * W) (W⁻¹ * Uᴴ) := by
    refine ⟨?_, ?_, ?_, ?_⟩
    · rw [Matrix.mul_assoc, e2, Matrix.mul_one]
    · rw [e2, Matrix.one_mul]
    · rw [e1, conjTranspose_mul, conjTranspose_conjTranspose]
    · rw [e2, conjTranspose_one]
  rw [fullOperator, hP.unique hQ]
  calc U * W * diagonal eigs * (W⁻¹ * Uᴴ) = U * (W * diagonal eigs) * W⁻¹ * Uᴴ := by
        simp only [Matrix.mul_assoc]
    _ = U * T * (W * W⁻¹) * Uᴴ := by rw [← hE]; simp only [Matrix.mul_assoc]
    _ = U * T * Uᴴ := by rw [hi, Matrix.mul_one]

/-! ### unitary -/

theorem unitary_diag (W : Matrix r r ℂ) (h : Wᴴ * W = 1) (i : r) : (W i i).re ≤ 1 := by
  have h1 := congrFun (congrFun h i) i
  rw [Matrix.mul_apply, Matrix.one_apply_eq] at h1
  have h2 : ∑ j, Complex.normSq (W j i) = 1 := by
    have := congrArg Complex.re h1
    rw [Complex.re_sum] at this
    rw [← Complex.one_re, ← this]
    refine Finset.sum_congr rfl fun j _ => ?_
    rw [conjTranspose_apply, Complex.star_def, ← Complex.normSq_eq_conj_mul_self,
      Complex.ofReal_re]
  have h3 : Complex.normSq (W i i) ≤ 1 := by
    rw [← h2]
    exact Finset.single_le_sum (f := fun j => Complex.normSq (W j i))
      (fun j _ => Complex.normSq_nonneg _) (Finset.mem_univ i)
  rw [Complex.normSq_apply] at h3
  nlinarith [mul_self_nonneg (W i i).im, sq_nonneg ((W i i).re - 1)]

theorem cross_trace (U : Matrix n r ℂ) (X Y : Matrix n m ℂ) (P Q : Matrix r r ℂ) (s : r → ℝ)
    (h : IsSVD (crossCov U X Y) P s Q) (B : Matrix r r ℂ) (hB : Bᴴ * B = 1) :
    frobSq (Uᴴ * Y - B * (Uᴴ * X)) = frobSq (Uᴴ * Y) + frobSq (Uᴴ * X)
      - 2 * ∑ i, s i * ((Pᴴ * B * Q) i i).re := by
  have e : Uᴴ * Y - B * (Uᴴ * X) = Uᴴ * Y + -(B * (Uᴴ * X)) := sub_eq_add_neg _ _
  have en : frobSq (-(B * (Uᴴ * X))) = frobSq (Uᴴ * X) := by
    rw [← frobSq_isometry B hB (Uᴴ * X)]
    simp [frobSq]
  rw [e, frobSq_add, en]
  have ht : (trace ((Uᴴ * Y)ᴴ * -(B * (Uᴴ * X)))).re = -∑ i, s i * ((Pᴴ * B * Q) i i).re := by
    have e1 : trace ((Uᴴ * Y)ᴴ * (B * (Uᴴ * X))) = trace (rdiag s * (Pᴴ * B * Q)) := by
      have e2 : trace ((Uᴴ * Y)ᴴ * (B * (Uᴴ * X))) = trace ((crossCov U X Y)ᴴ * B) := by
        rw [crossCov, conjTranspose_mul (Uᴴ * Y), conjTranspose_conjTranspose, ← Matrix.mul_assoc,
          trace_mul_comm, ← Matrix.mul_assoc]
      rw [e2, h.eq, conjTranspose_mul, conjTranspose_mul, conjTranspose_conjTranspose,
        rdiag_conjTranspose, Matrix.mul_assoc, trace_mul_comm]
      simp only [Matrix.mul_assoc]
    rw [Matrix.mul_neg, trace_neg, Complex.neg_re, e1]
    congr 1
    simp [trace, rdiag, diagonal_mul, Complex.re_sum]
  rw [ht]
  ring

/-- **C50** (unitary). The reduced operator is unitary and is the best unitary fit of the projected
data; the full operator is `U atilde U^H`. -/
theorem C50_unitary (U : Matrix n r ℂ) (hU : Uᴴ * U = 1) (X Y : Matrix n m ℂ) (P Q : Matrix r r ℂ)
    (s : r → ℝ) (h : IsSVD (crossCov U X Y) P s Q) :
    (unitaryAtilde P Q)ᴴ * unitaryAtilde P Q = 1 ∧ unitaryAtilde P Q * (unitaryAtilde P Q)ᴴ = 1 ∧
    (∀ B : Matrix r r ℂ, Bᴴ * B = 1 →
      frobSq (Uᴴ * Y - unitaryAtilde P Q * (Uᴴ * X)) ≤ frobSq (Uᴴ * Y - B * (Uᴴ * X))) ∧
    ∀ (W : Matrix r r ℂ) (eigs : r → ℂ) (Pi : Matrix r n ℂ), IsUnit W.det →
      unitaryAtilde P Q * W = W * diagonal eigs → IsPinv (U * W) Pi →
      fullOperator U W eigs Pi = U * unitaryAtilde P Q * Uᴴ := by
  have hQ : Q * Qᴴ = 1 := mul_eq_one_comm.mp h.v
  have hP : P * Pᴴ = 1 := mul_eq_one_comm.mp h.u
  have h1 : (unitaryAtilde P Q)ᴴ * unitaryAtilde P Q = 1 := by
    rw [unitaryAtilde, conjTranspose_mul, conjTranspose_conjTranspose, Matrix.mul_assoc,
      ← Matrix.mul_assoc Pᴴ, h.u, Matrix.one_mul, hQ]
  refine ⟨h1, mul_eq_one_comm.mp h1, fun B hB => ?_, fun W eigs Pi hW hE hPi =>
    fullOperator_eq U hU _ W eigs hW hE Pi hPi⟩
  rw [cross_trace U X Y P Q s h _ h1, cross_trace U X Y P Q s h B hB]
  have hd : Pᴴ * unitaryAtilde P Q * Q = 1 := by
    rw [unitaryAtilde, ← Matrix.mul_assoc, h.u, Matrix.one_mul, h.v]
  have hW : (Pᴴ * B * Q)ᴴ * (Pᴴ * B * Q) = 1 := by
    simp only [conjTranspose_mul, conjTranspose_conjTranspose]
    calc Qᴴ * (Bᴴ * P) * (Pᴴ * B * Q) = Qᴴ * (Bᴴ * (P * Pᴴ) * B) * Q := by
          simp only [Matrix.mul_assoc]
      _ = 1 := by rw [hP, Matrix.mul_one, hB, Matrix.mul_one, h.v]
  have : ∑ i, s i * ((Pᴴ * B * Q) i i).re ≤ ∑ i, s i * ((Pᴴ * unitaryAtilde P Q * Q) i i).re := by
    refine Finset.sum_le_sum fun i _ => ?_
    rw [hd, Matrix.one_apply_eq, Complex.one_re]
    exact mul_le_mul_of_nonneg_left (unitary_diag _ hW i) (h.nonneg i)
  linarith

/-- **C50** (unitary, no truncation). If the left singular vectors span the whole space, the full
operator is unitary and the best unitary fit of the data. -/
theorem C50_unitary_full (U : Matrix n r ℂ) (hU : Uᴴ * U = 1) (hU' : U * Uᴴ = 1)
    (X Y : Matrix n m ℂ) (P Q : Matrix r r ℂ) (s : r → ℝ) (h : IsSVD (crossCov U X Y) P s Q)
    (W : Matrix r r ℂ) (eigs : r → ℂ) (Pi : Matrix r n ℂ) (hW : IsUnit W.det)
    (hE : unitaryAtilde P Q * W = W * diagonal eigs) (hPi : IsPinv (U * W) Pi) :
    (fullOperator U W eigs Pi)ᴴ * fullOperator U W eigs Pi = 1 ∧
    ∀ B : Matrix n n ℂ, Bᴴ * B = 1 →
      frobSq (Y - fullOperator U W eigs Pi * X) ≤ frobSq (Y - B * X) := by
  obtain ⟨h1, h2, h3, h4⟩ := C50_unitary U hU X Y P Q s h
  rw [h4 W eigs Pi hW hE hPi]
  have hUU : (Uᴴ)ᴴ * Uᴴ = 1 := by rw [conjTranspose_conjTranspose, hU']
  constructor
  · simp only [conjTranspose_mul, conjTranspose_conjTranspose]
    calc U * ((unitaryAtilde P Q)ᴴ * Uᴴ) * (U * unitaryAtilde P Q * Uᴴ)
        = U * ((unitaryAtilde P Q)ᴴ * (Uᴴ * U) * unitaryAtilde P Q) * Uᴴ := by
          simp only [Matrix.mul_assoc]
      _ = 1 := by rw [hU, Matrix.mul_one, h1, Matrix.mul_one, hU']
  · intro B hB
    have hB' : (Uᴴ * B * U)ᴴ * (Uᴴ * B * U) = 1 := by
      simp only [conjTranspose_mul, conjTranspose_conjTranspose]
      calc Uᴴ * (Bᴴ * U) * (Uᴴ * B * U) = Uᴴ * (Bᴴ * (U * Uᴴ) * B) * U := by
            simp only [Matrix.mul_assoc]
        _ = 1 := by rw [hU', Matrix.mul_one, hB, Matrix.mul_one, hU]
    have := h3 _ hB'
    have e : ∀ T : Matrix r r ℂ, ∀ A : Matrix n n ℂ, A = U * T * Uᴴ →
        frobSq (Y - A * X) = frobSq (Uᴴ * Y - T * (Uᴴ * X)) := by
      intro T A hA
      rw [← frobSq_isometry Uᴴ hUU (Y - A * X), Matrix.mul_sub, hA]
      congr 2
      calc Uᴴ * (U * T * Uᴴ * X) = (Uᴴ * U) * T * (Uᴴ * X) := by simp only [Matrix.mul_assoc]
        _ = T * (Uᴴ * X) := by rw [hU, Matrix.one_mul]
    rw [e _ _ rfl, e (Uᴴ * B * U) B ?_]
    · exact this
    · calc B = (U * Uᴴ) * B * (U * Uᴴ) := by rw [hU', Matrix.one_mul, Matrix.mul_one]
        _ = U * (Uᴴ * B * U) * Uᴴ := by simp only [Matrix.mul_assoc]

/-- A rotation by a quarter turn meets the hypotheses, with eigenvalues `i` and `-i`. -/
example : IsSVD (crossCov (1 : Matrix (Fin 2) (Fin 2) ℂ) (1 : Matrix (Fin 2) (Fin 2) ℂ)
      !![0, -1; 1, 0]) !![0, -1; 1, 0] (fun _ => 1) 1 ∧
    IsUnit (!![1, 1; -Complex.I, Complex.I] : Matrix (Fin 2) (Fin 2) ℂ).det ∧
    unitaryAtilde (!![0, -1; 1, 0] : Matrix (Fin 2) (Fin 2) ℂ) 1 *
      !![1, 1; -Complex.I, Complex.I] =
      !![1, 1; -Complex.I, Complex.I] * diagonal ![Complex.I, -Complex.I] := by
  refine ⟨⟨?_, ?_, by simp, fun _ => zero_le_one⟩, ?_, ?_⟩
  · simp [crossCov, rdiag]
  · ext i j
    fin_cases i <;> fin_cases j <;> simp [Matrix.mul_apply, Fin.sum_univ_two]
  · rw [Matrix.det_fin_two, isUnit_iff_ne_zero]
    simp
  · ext i j
    fin_cases i <;> fin_cases j <;>
      simp [unitaryAtilde, Matrix.mul_apply, Fin.sum_univ_two, diagonal]

/-- **C50** is false for truncated data: whenever fewer singular vectors are kept than there are
states, the full operator is not unitary. -/
theorem C50_unitary_truncated_false (hc : Fintype.card r < Fintype.card n) (U : Matrix n r ℂ)
    (hU : Uᴴ * U = 1) (T : Matrix r r ℂ) (hT : Tᴴ * T = 1) :
    (U * T * Uᴴ)ᴴ * (U * T * Uᴴ) ≠ 1 := by
  intro h
  have e : (U * T * Uᴴ)ᴴ * (U * T * Uᴴ) = U * Uᴴ := by
    simp only [conjTranspose_mul, conjTranspose_conjTranspose]
    calc U * (Tᴴ * Uᴴ) * (U * T * Uᴴ) = U * (Tᴴ * (Uᴴ * U) * T) * Uᴴ := by
          simp only [Matrix.mul_assoc]
      _ = U * Uᴴ := by rw [hU, Matrix.mul_one, hT, Matrix.mul_one]
  rw [e] at h
  have h1 : trace (U * Uᴴ) = Fintype.card n := by rw [h, trace_one]
  have h2 : trace (U * Uᴴ) = Fintype.card r := by rw [trace_mul_comm, hU, trace_one]
  rw [h1] at h2
  have := Nat.cast_injective (R := ℂ) h2
  omega

end General

/-! ### symmetric and skew-symmetric -/

section Symmetric

/-- Two residuals with one unknown: the weighted mean is the best choice. -/
theorem pair_gap (p q b : ℂ) (s t : ℝ) (hst : 0 < s ^ 2 + t ^ 2) :
    let b0 : ℂ := (s * p + t * q) / ((s : ℂ) ^ 2 + (t : ℂ) ^ 2)
    Complex.normSq (p - b0 * s) + Complex.normSq (q - b0 * t) ≤
      Complex.normSq (p - b * s) + Complex.normSq (q - b * t) := by
  intro b0
  have hne : ((s : ℂ) ^ 2 + (t : ℂ) ^ 2) ≠ 0 := by exact_mod_cast hst.ne'
  have hb0 : b0 * ((s : ℂ) ^ 2 + (t : ℂ) ^ 2) = s * p + t * q := div_mul_cancel₀ _ hne
  have hre := congrArg Complex.re hb0
  have him := congrArg Complex.im hb0
  have e2 : ((s : ℂ) ^ 2 + (t : ℂ) ^ 2) = ((s ^ 2 + t ^ 2 : ℝ) : ℂ) := by push_cast; rfl
  rw [e2] at hre him
  simp only [Complex.mul_re, Complex.mul_im, Complex.ofReal_re, Complex.ofReal_im, mul_zero,
    sub_zero, zero_mul, add_zero, zero_add, Complex.add_re, Complex.add_im] at hre him
  simp only [Complex.normSq_apply, Complex.sub_re, Complex.sub_im, Complex.mul_re, Complex.mul_im,
    Complex.ofReal_re, Complex.ofReal_im, mul_zero, sub_zero, add_zero, zero_add]
  have h : (p.re - b.re * s) * (p.re - b.re * s) + (p.im - b.im * s) * (p.im - b.im * s) +
      ((q.re - b.re * t) * (q.re - b.re * t) + (q.im - b.im * t) * (q.im - b.im * t)) =
    (p.re - b0.re * s) * (p.re - b0.re * s) + (p.im - b0.im * s) * (p.im - b0.im * s) +
      ((q.re - b0.re * t) * (q.re - b0.re * t) + (q.im - b0.im * t) * (q.im - b0.im * t)) +
      (s ^ 2 + t ^ 2) * ((b.re - b0.re) ^ 2 + (b.im - b0.im) ^ 2) := by
    linear_combination 2 * (b.re - b0.re) * hre + 2 * (b.im - b0.im) * him
  rw [h]
  exact le_add_of_nonneg_right (by positivity)

/-- Best choice with `B j i = e * conj (B i j)`, `e = ±1`, entry by entry. -/
theorem sym_opt {q : ℕ} (e : ℝ) (he : e = 1 ∨ e = -1) (s : Fin q → ℝ) (hs : ∀ i, 0 < s i)
    (C H B : Matrix (Fin q) (Fin q) ℂ) (hB : Bᴴ = (e : ℂ) • B) (hH : Hᴴ = (e : ℂ) • H)
    (hd : ∀ i, H i i = (C i i + e * star (C i i)) / (2 * s i))
    (ho : ∀ i j, i < j → H i j = (s j * C i j + s i * (e * star (C j i))) /
      ((s j : ℂ) ^ 2 + (s i : ℂ) ^ 2)) :
    frobSq (C - H * rdiag s) ≤ frobSq (C - B * rdiag s) := by
  have key : ∀ M : Matrix (Fin q) (Fin q) ℂ, Mᴴ = (e : ℂ) • M →
      2 * frobSq (C - M * rdiag s) = ∑ i, ∑ j, (Complex.normSq (C i j - M i j * s j) +
        Complex.normSq (e * star (C j i) - M i j * s i)) := by
    intro M hM
    have h1 : frobSq (C - M * rdiag s) = ∑ i, ∑ j, Complex.normSq (C i j - M i j * s j) := by
      simp only [frobSq, Matrix.sub_apply, rdiag, mul_diagonal]
    have h2 : frobSq (C - M * rdiag s) =
        ∑ i, ∑ j, Complex.normSq (e * star (C j i) - M i j * s i) := by
      rw [h1, Finset.sum_comm]
      refine Finset.sum_congr rfl fun i _ => Finset.sum_congr rfl fun j _ => ?_
      have hm : M j i = e * star (M i j) := by
        have := congrFun (congrFun hM j) i
        rw [conjTranspose_apply, Matrix.smul_apply, smul_eq_mul] at this
        rw [this, ← mul_assoc]
        rcases he with rfl | rfl <;> simp
      rw [hm]
      have : Complex.normSq (e * star (C j i) - M i j * s i) =
          Complex.normSq (star (e * star (C j i) - M i j * s i)) := by
        rw [Complex.star_def, Complex.normSq_conj]
      rw [this, star_sub, star_mul', star_mul', star_star]
      rcases he with rfl | rfl
      · simp [Complex.star_def]
      · rw [← Complex.normSq_neg]
        congr 1
        simp [Complex.star_def]
        ring
    rw [two_mul]
    nth_rewrite 1 [h1]
    rw [h2, ← Finset.sum_add_distrib]
    refine Finset.sum_congr rfl fun i _ => ?_
    rw [← Finset.sum_add_distrib]
  have hoo : ∀ i j, H i j = (s j * C i j + s i * (e * star (C j i))) /
      ((s j : ℂ) ^ 2 + (s i : ℂ) ^ 2) := by
    intro i j
    rcases lt_trichotomy i j with h | h | h
    · exact ho i j h
    · subst h
      rw [hd]
      have : (s i : ℂ) ≠ 0 := by exact_mod_cast (hs i).ne'
      field_simp
      ring
    · have hm := congrFun (congrFun hH i) j
      rw [conjTranspose_apply, Matrix.smul_apply, smul_eq_mul] at hm
      have : H i j = e * star (H j i) := by
        rw [hm, ← mul_assoc]
        rcases he with rfl | rfl <;> simp
      rw [this, ho j i h, add_comm ((s j : ℂ) ^ 2)]
      simp only [star_div₀, star_add, star_mul', star_star, star_pow, Complex.star_def,
        Complex.conj_ofReal, Complex.conj_conj]
      rw [mul_div_assoc']
      congr 1
      rcases he with rfl | rfl
      · simp; ring
      · simp
  have h2 := key B hB
  have h1 := key H hH
  have : ∑ i, ∑ j, (Complex.normSq (C i j - H i j * s j) +
        Complex.normSq (e * star (C j i) - H i j * s i)) ≤
      ∑ i, ∑ j, (Complex.normSq (C i j - B i j * s j) +
        Complex.normSq (e * star (C j i) - B i j * s i)) := by
    refine Finset.sum_le_sum fun i _ => Finset.sum_le_sum fun j _ => ?_
    have := pair_gap (C i j) (e * star (C j i)) (B i j) (s j) (s i)
      (by have := hs i; have := hs j; positivity)
    rw [hoo i j]
    exact this
  linarith

theorem symAtilde_diag {q : ℕ} (s : Fin q → ℝ) (C : Matrix (Fin q) (Fin q) ℂ) (i : Fin q) :
    symAtilde s C i i = (((C i i).re / s i : ℝ) : ℂ) := by
  simp only [symAtilde, Matrix.add_apply, Matrix.sub_apply, conjTranspose_apply, diagonal_apply_eq,
    symUpper, Matrix.of_apply, if_true, Complex.ofReal_re, Complex.star_def, Complex.conj_ofReal]
  ring

theorem symAtilde_lt {q : ℕ} (s : Fin q → ℝ) (C : Matrix (Fin q) (Fin q) ℂ) (i j : Fin q)
    (h : i < j) : symAtilde s C i j = symUpper s C i j ∧ symAtilde s C j i =
      star (symUpper s C i j) := by
  have hz : symUpper s C j i = 0 := by
    simp [symUpper, h.ne', not_lt.mpr h.le]
  constructor
  · simp [symAtilde, hz, diagonal_apply_ne _ h.ne]
  · simp [symAtilde, hz, diagonal_apply_ne _ h.ne']

theorem symAtilde_hermitian {q : ℕ} (s : Fin q → ℝ) (C : Matrix (Fin q) (Fin q) ℂ) :
    (symAtilde s C)ᴴ = symAtilde s C := by
  ext i j
  rw [conjTranspose_apply]
  rcases lt_trichotomy i j with h | h | h
  · rw [(symAtilde_lt s C i j h).1, (symAtilde_lt s C i j h).2, star_star]
  · subst h; rw [symAtilde_diag, Complex.star_def, Complex.conj_ofReal]
  · rw [(symAtilde_lt s C j i h).1, (symAtilde_lt s C j i h).2]

theorem skewAtilde_diag {q : ℕ} (s : Fin q → ℝ) (C : Matrix (Fin q) (Fin q) ℂ) (i : Fin q) :
    skewAtilde s C i i = Complex.I * (((C i i).im / s i : ℝ) : ℂ) := by
  simp only [skewAtilde, Matrix.add_apply, Matrix.sub_apply, Matrix.neg_apply,
    conjTranspose_apply, diagonal_apply_eq, skewUpper, Matrix.of_apply, if_true, Complex.star_def]
  apply Complex.ext
  · simp
  · simp

theorem skewAtilde_lt {q : ℕ} (s : Fin q → ℝ) (C : Matrix (Fin q) (Fin q) ℂ) (i j : Fin q)
    (h : i < j) : skewAtilde s C i j = skewUpper s C i j ∧ skewAtilde s C j i =
      -star (skewUpper s C i j) := by
  have hz : skewUpper s C j i = 0 := by
    simp [skewUpper, h.ne', not_lt.mpr h.le]
  constructor
  · simp [skewAtilde, hz, diagonal_apply_ne _ h.ne]
  · simp [skewAtilde, hz, diagonal_apply_ne _ h.ne']

theorem skewAtilde_skew {q : ℕ} (s : Fin q → ℝ) (C : Matrix (Fin q) (Fin q) ℂ) :
    (skewAtilde s C)ᴴ = -skewAtilde s C := by
  ext i j
  rw [conjTranspose_apply, Matrix.neg_apply]
  rcases lt_trichotomy i j with h | h | h
  · rw [(skewAtilde_lt s C i j h).1, (skewAtilde_lt s C i j h).2, star_neg, star_star]
  · subst h
    rw [skewAtilde_diag]
    simp
  · rw [(skewAtilde_lt s C j i h).1, (skewAtilde_lt s C j i h).2, neg_neg]

variable {n m : Type} [Fintype n] [Fintype m] [DecidableEq n] [DecidableEq m]

omit [DecidableEq n] [DecidableEq m] in
/-- Projecting the residual. -/
theorem reduced_error {r : Type} [Fintype r] [DecidableEq r] (U : Matrix n r ℂ) (hU : Uᴴ * U = 1)
    (V : Matrix m r ℂ) (hV : Vᴴ * V = 1) (s : r → ℝ) (X Y : Matrix n m ℂ)
    (hX : Uᴴ * X = rdiag s * Vᴴ) (B : Matrix r r ℂ) :
    frobSq (Y - U * B * Uᴴ * X) =
      frobSq (Y - U * (Uᴴ * Y * V) * Vᴴ) + frobSq (Uᴴ * Y * V - B * rdiag s) := by
  have e : Y - U * B * Uᴴ * X =
      (Y - U * (Uᴴ * Y * V) * Vᴴ) + U * (Uᴴ * Y * V - B * rdiag s) * Vᴴ := by
    rw [Matrix.mul_sub, Matrix.sub_mul, Matrix.mul_assoc (U * B), hX]
    simp only [Matrix.mul_assoc]
    abel
  rw [e, frobSq_add]
  have h0 : trace ((Y - U * (Uᴴ * Y * V) * Vᴴ)ᴴ * (U * (Uᴴ * Y * V - B * rdiag s) * Vᴴ)) = 0 := by
    have h1 : Uᴴ * (Y - U * (Uᴴ * Y * V) * Vᴴ) * V = 0 := by
      rw [Matrix.mul_sub, Matrix.sub_mul]
      have : Uᴴ * (U * (Uᴴ * Y * V) * Vᴴ) * V = (Uᴴ * U) * (Uᴴ * Y * V) * (Vᴴ * V) := by
        simp only [Matrix.mul_assoc]
      rw [this, hU, hV, Matrix.one_mul, Matrix.mul_one, sub_self]
    have h2 := congrArg conjTranspose h1
    simp only [conjTranspose_mul, conjTranspose_conjTranspose, conjTranspose_zero] at h2
    rw [← Matrix.mul_assoc, trace_mul_comm, ← Matrix.mul_assoc, ← Matrix.mul_assoc,
      Matrix.mul_assoc Vᴴ, h2, Matrix.zero_mul, trace_zero]
  rw [h0, frobSq_coisometry V hV, frobSq_isometry U hU]
  simp

omit [DecidableEq n] [DecidableEq m] in
theorem coeffs_lead {p : ℕ} (q : ℕ) (hq : q ≤ p) (U : Matrix n (Fin p) ℂ) (V : Matrix m (Fin p) ℂ)
    (Y : Matrix n m ℂ) : (coeffs U Y V).submatrix (Fin.castLE hq) (Fin.castLE hq) =
      (lead q hq U)ᴴ * Y * lead q hq V := by
  ext i j
  simp only [coeffs, submatrix_apply, Matrix.mul_apply, conjTranspose_apply, lead, id_eq]

omit [DecidableEq n] [DecidableEq m] in
theorem lead_left {p : ℕ} {X : Matrix n m ℂ} {U : Matrix n (Fin p) ℂ} {s : Fin p → ℝ}
    {V : Matrix m (Fin p) ℂ} (h : IsSVD X U s V) (q : ℕ) (hq : q ≤ p) :
    (lead q hq U)ᴴ * X = rdiag (s ∘ Fin.castLE hq) * (lead q hq V)ᴴ := by
  have := congrArg conjTranspose (h.conj_mul_lead q hq)
  rwa [conjTranspose_mul, conjTranspose_mul, conjTranspose_conjTranspose,
    rdiag_conjTranspose] at this

/-- Data that meet the hypotheses of the theorems on the symmetric families (also with `q = 1`, a
truncation). -/
example : IsSVD (!![2, 0, 0; 0, 1, 0] : Matrix (Fin 2) (Fin 3) ℂ) (1 : Matrix (Fin 2) (Fin 2) ℂ)
    ![2, 1] (!![1, 0; 0, 1; 0, 0] : Matrix (Fin 3) (Fin 2) ℂ) ∧
    ∀ i : Fin 1, 0 < (![2, 1] : Fin 2 → ℝ) (Fin.castLE (by omega) i) := by
  refine ⟨⟨?_, by simp, ?_, ?_⟩, ?_⟩
  · ext i j
    fin_cases i <;> fin_cases j <;> simp [Matrix.mul_apply, Fin.sum_univ_two, rdiag, diagonal]
  · ext i j
    fin_cases i <;> fin_cases j <;> simp [Matrix.mul_apply, Fin.sum_univ_three]
  · intro i; fin_cases i <;> simp
  · intro i; fin_cases i; simp

omit [DecidableEq n] [DecidableEq m] in
/-- **C50** (skew-symmetric). The reduced operator is skew-Hermitian and, among all operators
`U B U^H` with skew-Hermitian `B`, the closest fit of the data: for all real or complex data and
every rank, as long as the singular values kept are positive. -/
theorem C50_skew {p : ℕ} (q : ℕ) (hq : q ≤ p) (X Y : Matrix n m ℂ) (U : Matrix n (Fin p) ℂ)
    (s : Fin p → ℝ) (V : Matrix m (Fin p) ℂ) (h : IsSVD X U s V)
    (hs : ∀ i : Fin q, 0 < s (Fin.castLE hq i)) :
    (computeSymmetric true q hq U s V Y)ᴴ = -computeSymmetric true q hq U s V Y ∧
    ∀ B : Matrix (Fin q) (Fin q) ℂ, Bᴴ = -B →
      frobSq (Y - lead q hq U * computeSymmetric true q hq U s V Y * (lead q hq U)ᴴ * X) ≤
        frobSq (Y - lead q hq U * B * (lead q hq U)ᴴ * X) := by
  have hc : computeSymmetric true q hq U s V Y =
      skewAtilde (s ∘ Fin.castLE hq) ((lead q hq U)ᴴ * Y * lead q hq V) := by
    rw [← coeffs_lead]; rfl
  rw [hc]
  refine ⟨skewAtilde_skew _ _, fun B hB => ?_⟩
  have hl := lead_left h q hq
  rw [reduced_error _ (lead_orthonormal hq U h.u) _ (lead_orthonormal hq V h.v) _ X Y hl,
    reduced_error _ (lead_orthonormal hq U h.u) _ (lead_orthonormal hq V h.v) _ X Y hl]
  refine add_le_add_right ?_ _
  set C := (lead q hq U)ᴴ * Y * lead q hq V
  have hk : (skewAtilde (s ∘ Fin.castLE hq) C)ᴴ =
      ((-1 : ℝ) : ℂ) • skewAtilde (s ∘ Fin.castLE hq) C := by
    rw [skewAtilde_skew]; simp
  refine sym_opt (-1) (Or.inr rfl) _ hs C _ B (by simpa using hB) hk (fun i => ?_) fun i j hij => ?_
  · rw [skewAtilde_diag]
    have : ((s (Fin.castLE hq i) : ℝ) : ℂ) ≠ 0 := by exact_mod_cast (hs i).ne'
    have e : C i i + ((-1 : ℝ) : ℂ) * star (C i i) = 2 * (Complex.I * ((C i i).im : ℂ)) := by
      apply Complex.ext <;> simp
      ring
    rw [e]
    simp only [Function.comp_apply]
    push_cast
    field_simp
  · rw [(skewAtilde_lt _ C i j hij).1]
    simp only [skewUpper, Matrix.of_apply, hij.ne, if_false, hij, if_true]
    have e : ∀ a b c d : ℂ, (-a * c + b * d) / (a ^ 2 + b ^ 2) =
        (b * d + a * (((-1 : ℝ) : ℂ) * c)) / (b ^ 2 + a ^ 2) := by
      intro a b c d
      rw [add_comm (a ^ 2)]
      push_cast
      ring
    exact e _ _ _ _

omit [DecidableEq n] [DecidableEq m] in
/-- **C50** (symmetric; partial: real data). The reduced operator is Hermitian, and for real data
the closest fit among all operators `U B U^H` with Hermitian `B`. -/
theorem C50_symmetric_partial {p : ℕ} (q : ℕ) (hq : q ≤ p) (X Y : Matrix n m ℂ)
    (U : Matrix n (Fin p) ℂ) (s : Fin p → ℝ) (V : Matrix m (Fin p) ℂ) (h : IsSVD X U s V)
    (hs : ∀ i : Fin q, 0 < s (Fin.castLE hq i)) :
    (computeSymmetric false q hq U s V Y)ᴴ = computeSymmetric false q hq U s V Y ∧
    ((∀ i j, (U i j).im = 0) → (∀ i j, (Y i j).im = 0) → (∀ i j, (V i j).im = 0) →
    ∀ B : Matrix (Fin q) (Fin q) ℂ, Bᴴ = B →
      frobSq (Y - lead q hq U * computeSymmetric false q hq U s V Y * (lead q hq U)ᴴ * X) ≤
        frobSq (Y - lead q hq U * B * (lead q hq U)ᴴ * X)) := by
  have hc : computeSymmetric false q hq U s V Y =
      symAtilde (s ∘ Fin.castLE hq) ((lead q hq U)ᴴ * Y * lead q hq V) := by
    rw [← coeffs_lead]; rfl
  rw [hc]
  refine ⟨symAtilde_hermitian _ _, fun hUr hYr hVr B hB => ?_⟩
  have hl := lead_left h q hq
  rw [reduced_error _ (lead_orthonormal hq U h.u) _ (lead_orthonormal hq V h.v) _ X Y hl,
    reduced_error _ (lead_orthonormal hq U h.u) _ (lead_orthonormal hq V h.v) _ X Y hl]
  refine add_le_add_right ?_ _
  have hCr : ∀ i j, (((lead q hq U)ᴴ * Y * lead q hq V) i j).im = 0 := by
    intro i j
    simp only [Matrix.mul_apply, conjTranspose_apply, lead, submatrix_apply, id_eq, Complex.im_sum]
    refine Finset.sum_eq_zero fun t _ => ?_
    rw [Complex.mul_im, hVr, mul_zero, zero_add, Complex.im_sum, Finset.sum_eq_zero, zero_mul]
    intro u _
    rw [Complex.mul_im, hYr, Complex.star_def, Complex.conj_im, hUr]
    simp
  set C := (lead q hq U)ᴴ * Y * lead q hq V
  have hreal : ∀ i j, C i j = ((C i j).re : ℂ) := fun i j => by
    apply Complex.ext <;> simp [hCr]
  have hk : (symAtilde (s ∘ Fin.castLE hq) C)ᴴ =
      ((1 : ℝ) : ℂ) • symAtilde (s ∘ Fin.castLE hq) C := by
    rw [symAtilde_hermitian]; simp
  refine sym_opt 1 (Or.inl rfl) _ hs C _ B (by simpa using hB) hk (fun i => ?_) fun i j hij => ?_
  · rw [symAtilde_diag]
    have : ((s (Fin.castLE hq i) : ℝ) : ℂ) ≠ 0 := by exact_mod_cast (hs i).ne'
    have e : C i i + ((1 : ℝ) : ℂ) * star (C i i) = 2 * ((C i i).re : ℂ) := by
      apply Complex.ext <;> simp
      ring
    rw [e]
    simp only [Function.comp_apply]
    push_cast
    field_simp
  · rw [(symAtilde_lt _ C i j hij).1]
    simp only [symUpper, Matrix.of_apply, hij.ne, if_false, hij, if_true]
    rw [hreal i j, hreal j i, Complex.star_def, Complex.conj_ofReal]
    have e : ∀ a b c d : ℝ, (((a * c + b * d : ℂ) / ((a : ℂ) ^ 2 + (b : ℂ) ^ 2)).re : ℂ) =
        (b * d + a * (((1 : ℝ) : ℂ) * c)) / ((b : ℂ) ^ 2 + (a : ℂ) ^ 2) := by
      intro a b c d
      have : ((a * c + b * d : ℂ) / ((a : ℂ) ^ 2 + (b : ℂ) ^ 2)) =
          (((a * c + b * d) / (a ^ 2 + b ^ 2) : ℝ) : ℂ) := by push_cast; rfl
      rw [this, Complex.ofReal_re]
      push_cast
      congr 1 <;> ring
    exact e _ _ _ _

omit [DecidableEq m] in
/-- **C50** (symmetric and skew-symmetric, as many singular vectors as states). Then the full
operator `U atilde U^H` is the closest fit among all (skew-)Hermitian matrices. -/
theorem C50_symmetric_full {p : ℕ} (skew : Bool) (X Y : Matrix n m ℂ)
    (U : Matrix n (Fin p) ℂ) (s : Fin p → ℝ) (V : Matrix m (Fin p) ℂ) (h : IsSVD X U s V)
    (hs : ∀ i, 0 < s i) (hU : U * Uᴴ = 1) (hr : skew = false → (∀ i j, (U i j).im = 0) ∧
      (∀ i j, (Y i j).im = 0) ∧ ∀ i j, (V i j).im = 0) (B : Matrix n n ℂ)
    (hB : Bᴴ = if skew then -B else B) :
    frobSq (Y - U * computeSymmetric skew p le_rfl U s V Y * Uᴴ * X) ≤ frobSq (Y - B * X) := by
  have hl : lead p le_rfl U = U := by ext i j; rfl
  have hBU : U * (Uᴴ * B * U) * Uᴴ = B := by
    calc U * (Uᴴ * B * U) * Uᴴ = (U * Uᴴ) * B * (U * Uᴴ) := by simp only [Matrix.mul_assoc]
      _ = B := by rw [hU, Matrix.one_mul, Matrix.mul_one]
  have hBh : (Uᴴ * B * U)ᴴ = Uᴴ * Bᴴ * U := by
    simp only [conjTranspose_mul, conjTranspose_conjTranspose, Matrix.mul_assoc]
  cases skew with
  | true =>
    have := (C50_skew p le_rfl X Y U s V h hs).2 (Uᴴ * B * U) (by rw [hBh, hB]; simp)
    rwa [hl, hBU] at this
  | false =>
    obtain ⟨h1, h2, h3⟩ := hr rfl
    have := (C50_symmetric_partial p le_rfl X Y U s V h hs).2 h1 h2 h3 (Uᴴ * B * U)
      (by rw [hBh, hB]; simp)
    rwa [hl, hBU] at this

/-- **C50** is false for the symmetric manifold and complex data: with `X = 1` and the Hermitian
`Y = (0, i; -i, 0)`, the operator `Y` fits exactly, but the code returns 0. -/
theorem C50_symmetric_complex_false : ∃ Y : Matrix (Fin 2) (Fin 2) ℂ, Yᴴ = Y ∧
    IsSVD (1 : Matrix (Fin 2) (Fin 2) ℂ) (1 : Matrix (Fin 2) (Fin 2) ℂ) (fun _ => 1) 1 ∧
    computeSymmetric false 2 le_rfl (1 : Matrix (Fin 2) (Fin 2) ℂ) (fun _ => 1) 1 Y = 0 ∧ Y ≠ 0 := by
  refine ⟨!![0, Complex.I; -Complex.I, 0], ?_, ⟨?_, by simp, by simp, fun _ => by simp⟩, ?_, ?_⟩
  · ext i j
    fin_cases i <;> fin_cases j <;> simp
  · simp [rdiag]
  · have hc : ((coeffs (1 : Matrix (Fin 2) (Fin 2) ℂ) !![0, Complex.I; -Complex.I, 0] 1).submatrix
        (Fin.castLE le_rfl) (Fin.castLE le_rfl)) = !![0, Complex.I; -Complex.I, 0] := by
      rw [coeffs, conjTranspose_one, Matrix.one_mul, Matrix.mul_one]; rfl
    have hI : ((Complex.I + Complex.I) / (1 + 1)).re = 0 := by
      have : (Complex.I + Complex.I) / (1 + 1) = Complex.I := by ring
      rw [this, Complex.I_re]
    simp only [computeSymmetric, hc]
    ext i j
    rcases lt_trichotomy i j with hij | hij | hij
    · have : i = 0 ∧ j = 1 := by omega
      obtain ⟨rfl, rfl⟩ := this
      simp only [Bool.false_eq_true, if_false]
      rw [(symAtilde_lt _ _ 0 1 hij).1]
      simp [symUpper, hI]
    · subst hij
      simp only [Bool.false_eq_true, if_false]
      rw [symAtilde_diag]
      fin_cases i <;> simp
    · have : i = 1 ∧ j = 0 := by omega
      obtain ⟨rfl, rfl⟩ := this
      simp only [Bool.false_eq_true, if_false]
      rw [(symAtilde_lt _ _ 0 1 hij).2]
      simp [symUpper, hI]
  · intro h
    have := congrFun (congrFun h 0) 1
    simp at this

/-- **C50** is false with fewer snapshots than states: for the single pair of snapshots
`(1, 0)`, `(0, 1)` the symmetric matrix exchanging the two states fits exactly, but the returned
operator is 0. -/
theorem C50_symmetric_thin_false : ∃ (X Y : Matrix (Fin 2) (Fin 1) ℂ) (U : Matrix (Fin 2) (Fin 1) ℂ)
    (V : Matrix (Fin 1) (Fin 1) ℂ) (B : Matrix (Fin 2) (Fin 2) ℂ), IsSVD X U (fun _ => 1) V ∧
    Bᴴ = B ∧ B * X = Y ∧ Y ≠ 0 ∧
    U * computeSymmetric false 1 le_rfl U (fun _ => 1) V Y * Uᴴ = 0 := by
  refine ⟨!![1; 0], !![0; 1], !![1; 0], 1, !![0, 1; 1, 0], ⟨?_, ?_, by simp, fun _ => by simp⟩, ?_,
    ?_, ?_, ?_⟩
  · simp [rdiag]
  · ext i j; fin_cases i; fin_cases j; simp [Matrix.mul_apply]
  · ext i j; fin_cases i <;> fin_cases j <;> simp
  · ext i j; fin_cases i <;> fin_cases j <;> simp
  · intro h
    have := congrFun (congrFun h 1) 0
    simp at this
  · have hz : computeSymmetric false 1 le_rfl (!![1; 0] : Matrix (Fin 2) (Fin 1) ℂ) (fun _ => 1) 1
        !![0; 1] = 0 := by
      ext i j
      fin_cases i
      fin_cases j
      simp only [computeSymmetric, Bool.false_eq_true, if_false]
      have := symAtilde_diag ((fun _ => 1 : Fin 1 → ℝ) ∘ Fin.castLE (le_refl 1))
        ((coeffs (!![1; 0] : Matrix (Fin 2) (Fin 1) ℂ) !![0; 1] 1).submatrix
          (Fin.castLE le_rfl) (Fin.castLE le_rfl)) 0
      simp only [Fin.zero_eta, Fin.isValue] at this ⊢
      rw [this]
      simp [coeffs, Matrix.mul_apply]
    rw [hz]
    simp

end Symmetric

end Verif.Pidmd
