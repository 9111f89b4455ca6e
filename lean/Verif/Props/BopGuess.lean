import Verif.Model.BopRun
import Verif.Model.BopEigs
import Verif.Props.Frequencies
import Mathlib.Analysis.SpecialFunctions.Trigonometric.Basic

/-!
# Property C153: the initial guess of BOP-DMD
-/

set_option autoImplicit false

namespace Verif.BopRun

open Verif Verif.LinAlg Verif.VarPro Verif.Operator Verif.Frequencies Matrix

/-- Half of the trapezoidal rule: `tanh (w / 2) = (exp w - 1) / (exp w + 1)`. -/
theorem tanh_half (w : ℂ) : Complex.tanh (w / 2) = (Complex.exp w - 1) / (Complex.exp w + 1) := by
  have h1 : Complex.exp (w / 2) ≠ 0 := Complex.exp_ne_zero _
  have h2 : Complex.exp w = Complex.exp (w / 2) * Complex.exp (w / 2) := by rw [← Complex.exp_add]; ring_nf
  rw [Complex.tanh_eq_sinh_div_cosh, Complex.sinh, Complex.cosh, h2, Complex.exp_neg]
  by_cases h : Complex.exp (w / 2) * Complex.exp (w / 2) + 1 = 0
  · have h3 : Complex.exp (w / 2) + (Complex.exp (w / 2))⁻¹ = 0 := by
      field_simp
      rw [mul_zero, ← h]
      ring
    rw [h, h3]
    simp
  · field_simp

/-- **C153** (the guess). Let the snapshots be `∑ a, c a * exp (lam a * t)` with independent `c a`, at the uniform times
`t0 + j h`, at least `q + 1` of them, fine enough to tell the `q` exponentials apart, none of them changing sign from one
snapshot to the next. Then the matrix of `_initialize_alpha` has as many eigenvalues as there are exponentials, and they are
`2/h * tanh (lam a * h / 2)`. -/
theorem C153_guess {p q r N : ℕ} (hN : q ≤ N) (t0 h : ℝ) (hh : 0 < h) (c : Fin q → Fin p → ℂ) (lam : Fin q → ℂ)
    (hc : ∀ v : Fin q → ℂ, (∀ i, ∑ a, v a * c a i = 0) → v = 0)
    (hl : Function.Injective fun a => Complex.exp (lam a * h)) (hn : ∀ a, Complex.exp (lam a * h) ≠ -1)
    (time : Fin (N + 1) → ℝ) (ht : ∀ j, time j = t0 + j * h) (D : Matrix (Fin p) (Fin (N + 1)) ℂ)
    (hD : ∀ i j, D i j = ∑ a, c a i * Complex.exp (lam a * time j))
    (U : Matrix (Fin p) (Fin r) ℂ) (s : Fin r → ℝ) (V : Matrix (Fin N) (Fin r) ℂ) (hsvd : IsSVD (means D) U s V)
    (hs : ∀ i, s i ≠ 0) :
    r = q ∧ (initialMatrix time D U s V).charpoly.roots =
      Finset.univ.val.map fun a => 2 / h * Complex.tanh (lam a * h / 2) := by
  have hhC : (h : ℂ) ≠ 0 := by exact_mod_cast hh.ne'
  set F : Matrix (Fin p) (Fin q) ℂ := of fun i a => c a i
  set G : Matrix (Fin q) (Fin N) ℂ := of fun a j =>
    (Complex.exp (lam a * t0) * ((Complex.exp (lam a * h) + 1) / 2)) * Complex.exp (lam a * h) ^ (j : ℕ)
  set l : Fin q → ℂ := fun a => 2 / h * Complex.tanh (lam a * h / 2) with hlam
  have hne : ∀ a, Complex.exp (lam a * h) + 1 ≠ 0 := fun a e => hn a (eq_neg_of_add_eq_zero_left e)
  have hexp : ∀ a (j : ℕ), Complex.exp (lam a * ((t0 + j * h : ℝ) : ℂ)) =
      Complex.exp (lam a * t0) * Complex.exp (lam a * h) ^ j := by
    intro a j
    rw [← Complex.exp_nat_mul, ← Complex.exp_add]
    congr 1
    push_cast
    ring
  have e1 : means D = F * G := by
    ext i j
    simp only [means, of_apply, Matrix.mul_apply, hD, ht, ← Finset.sum_add_distrib, Finset.sum_div, F, G]
    refine Finset.sum_congr rfl fun a _ => ?_
    rw [hexp, hexp]
    simp only [Fin.val_castSucc, Fin.val_succ, pow_succ]
    ring
  have e2 : slopes time D = F * diagonal l * G := by
    ext i j
    rw [Matrix.mul_apply]
    simp only [slopes, of_apply, hD, ht, ← Finset.sum_sub_distrib, Finset.sum_div, mul_diagonal, F, G]
    refine Finset.sum_congr rfl fun a _ => ?_
    rw [hexp, hexp, hlam]
    simp only [tanh_half]
    simp only [Fin.val_castSucc, Fin.val_succ, pow_succ]
    have hd : (((t0 + ((j : ℕ) + 1 : ℕ) * h : ℝ) : ℂ) - ((t0 + (j : ℕ) * h : ℝ) : ℂ)) = h := by
      push_cast
      ring
    rw [hd]
    have := hne a
    field_simp
  have hF : ∀ v, F *ᵥ v = 0 → v = 0 := by
    intro v hv
    refine hc v fun i => ?_
    have := congrFun hv i
    simp only [mulVec, dotProduct, F, of_apply, Pi.zero_apply] at this
    rw [← this]
    exact Finset.sum_congr rfl fun a _ => mul_comm _ _
  have hG : ∀ v, v ᵥ* G = 0 → v = 0 := by
    intro v hv
    have h0 := pow_injective hN _ hl
      (fun a => v a * (Complex.exp (lam a * t0) * ((Complex.exp (lam a * h) + 1) / 2))) fun j hj => by
        have := congrFun hv ⟨j, hj⟩
        simp only [vecMul, dotProduct, G, of_apply, Pi.zero_apply] at this
        rw [← this]
        exact Finset.sum_congr rfl fun a _ => mul_assoc _ _ _
    funext a
    have := congrFun h0 a
    simp only [Pi.zero_apply, mul_eq_zero, Complex.exp_ne_zero, div_eq_zero_iff, hne, OfNat.ofNat_ne_zero,
      or_false] at this
    exact this
  rw [e1] at hsvd
  have := C136_linear F (diagonal l) G hF hG U s V hsvd hs
  rw [Fintype.card_fin, Fintype.card_fin] at this
  refine ⟨this.1, ?_⟩
  rw [← roots_diagonal, ← this.2, initialMatrix, e2, leastSquareOperator]
  rfl

/-- **C153** (accuracy). The guess is of second order: with at least one snapshot per unit of `1 / |lam|`, its error is at most
`|lam|^3 h^2 / 2`. -/
theorem C153_accuracy (lam : ℂ) (h : ℝ) (hh : 0 < h) (hs : ‖lam‖ * h ≤ 1) :
    ‖2 / h * Complex.tanh (lam * h / 2) - lam‖ ≤ ‖lam‖ ^ 3 * h ^ 2 / 2 := by
  have hhC : (h : ℂ) ≠ 0 := by exact_mod_cast hh.ne'
  obtain ⟨w, hw⟩ : ∃ w : ℂ, w = lam * h := ⟨_, rfl⟩
  have hlam : lam = w / h := by rw [hw]; field_simp
  have hnw : ‖w‖ = ‖lam‖ * h := by rw [hw, norm_mul, Complex.norm_real, Real.norm_of_nonneg hh.le]
  have hw1 : ‖w‖ ≤ 1 := by rw [hnw]; exact hs
  obtain ⟨R, hR⟩ : ∃ R : ℂ, R = Complex.exp w - (1 + w + w ^ 2 / 2 + w ^ 3 / 6) := ⟨_, rfl⟩
  have hRb : ‖R‖ ≤ ‖w‖ ^ 4 * (5 / 96) := by
    have := Complex.exp_bound hw1 (n := 4) (by norm_num)
    simp only [Finset.sum_range_succ, Finset.sum_range_zero, Nat.factorial] at this
    rw [hR]
    refine le_trans (le_of_eq ?_) (this.trans (le_of_eq ?_))
    · congr 1
      norm_num
    · norm_num
  have hre : 1 ≤ ‖Complex.exp w + 1‖ := by
    refine le_trans ?_ (Complex.re_le_norm _)
    rw [Complex.add_re, Complex.one_re, Complex.exp_re]
    have h1 : |w.im| ≤ 1 := (Complex.abs_im_le_norm w).trans hw1
    have h2 : 0 ≤ Real.cos w.im := by
      refine Real.cos_nonneg_of_mem_Icc ⟨?_, ?_⟩
      · have := (abs_le.mp h1).1
        linarith [Real.two_le_pi]
      · have := (abs_le.mp h1).2
        linarith [Real.two_le_pi]
    have := mul_nonneg (Real.exp_pos w.re).le h2
    linarith
  have hne : Complex.exp w + 1 ≠ 0 := fun e => by rw [e, norm_zero] at hre; linarith
  have hnum : 2 * (Complex.exp w - 1) - w * (Complex.exp w + 1) = -(w ^ 3 / 6) - w ^ 4 / 6 + (2 - w) * R := by
    rw [hR]
    ring
  have hb : ‖2 * (Complex.exp w - 1) - w * (Complex.exp w + 1)‖ ≤ ‖w‖ ^ 3 / 2 := by
    rw [hnum]
    have h3 : ‖(2 - w) * R‖ ≤ 3 * (‖w‖ ^ 4 * (5 / 96)) := by
      rw [norm_mul]
      refine mul_le_mul ?_ hRb (norm_nonneg _) (by norm_num)
      refine (norm_sub_le _ _).trans ?_
      have : ‖(2 : ℂ)‖ = 2 := by simp
      linarith
    have h4 : ‖w‖ ^ 4 ≤ ‖w‖ ^ 3 := pow_le_pow_of_le_one (norm_nonneg _) hw1 (by norm_num)
    calc ‖-(w ^ 3 / 6) - w ^ 4 / 6 + (2 - w) * R‖ ≤ ‖-(w ^ 3 / 6)‖ + ‖w ^ 4 / 6‖ + ‖(2 - w) * R‖ :=
          (norm_add_le _ _).trans (add_le_add_left (norm_sub_le _ _) _)
      _ = ‖w‖ ^ 3 / 6 + ‖w‖ ^ 4 / 6 + ‖(2 - w) * R‖ := by simp
      _ ≤ ‖w‖ ^ 3 / 2 := by nlinarith [pow_nonneg (norm_nonneg w) 3]
  have e : 2 / (h : ℂ) * Complex.tanh (lam * h / 2) - lam =
      (2 * (Complex.exp w - 1) - w * (Complex.exp w + 1)) / ((Complex.exp w + 1) * h) := by
    rw [← hw, tanh_half, hlam]
    field_simp
  rw [e, norm_div, norm_mul, Complex.norm_real, Real.norm_of_nonneg hh.le, div_le_iff₀ (mul_pos (by linarith) hh)]
  calc ‖2 * (Complex.exp w - 1) - w * (Complex.exp w + 1)‖ ≤ ‖w‖ ^ 3 / 2 := hb
    _ = ‖lam‖ ^ 3 * h ^ 2 / 2 * (1 * h) := by rw [hnw]; ring
    _ ≤ ‖lam‖ ^ 3 * h ^ 2 / 2 * (‖Complex.exp w + 1‖ * h) := by gcongr

theorem re_cayley (z : ℂ) : ((z - 1) / (z + 1)).re = (Complex.normSq z - 1) / Complex.normSq (z + 1) := by
  rw [Complex.div_re, ← add_div]
  congr 1
  simp [Complex.normSq_apply]
  ring

/-- **C153** (stability). The guess decays, grows or oscillates exactly when the signal does, and the constraint `"stable"` leaves
the guess of a signal that does not grow as it is. -/
theorem C153_stable (lam : ℂ) (h : ℝ) (hh : 0 < h) (hn : Complex.exp (lam * h) ≠ -1) :
    ((2 / h * Complex.tanh (lam * h / 2)).re < 0 ↔ lam.re < 0) ∧
    ((2 / h * Complex.tanh (lam * h / 2)).re = 0 ↔ lam.re = 0) ∧
    (lam.re ≤ 0 → BopEigs.pushStable (2 / h * Complex.tanh (lam * h / 2)) = 2 / h * Complex.tanh (lam * h / 2)) := by
  have hne : Complex.exp (lam * h) + 1 ≠ 0 := fun e => hn (eq_neg_of_add_eq_zero_left e)
  have hpos : 0 < Complex.normSq (Complex.exp (lam * h) + 1) := Complex.normSq_pos.mpr hne
  have e : (2 / h * Complex.tanh (lam * h / 2)).re =
      2 / h * ((Real.exp (lam.re * h * 2) - 1) / Complex.normSq (Complex.exp (lam * h) + 1)) := by
    have : (2 / (h : ℂ)) = ((2 / h : ℝ) : ℂ) := by push_cast; rfl
    rw [this, Complex.re_ofReal_mul, tanh_half, re_cayley _, Complex.normSq_eq_norm_sq (Complex.exp _), Complex.norm_exp,
      ← Real.exp_nat_mul]
    congr 4
    simp
    ring
  have h2 : 0 < 2 / h := by positivity
  have key : ∀ x : ℝ, (Real.exp (x * h * 2) - 1 < 0 ↔ x < 0) ∧ (Real.exp (x * h * 2) - 1 = 0 ↔ x = 0) := by
    intro x
    constructor
    · rw [sub_neg, Real.exp_lt_one_iff]
      constructor
      · intro hx
        by_contra hx'
        have : 0 ≤ x * h * 2 := by have := not_lt.mp hx'; positivity
        linarith
      · intro hx
        have := mul_neg_of_neg_of_pos hx hh
        linarith
    · rw [sub_eq_zero, Real.exp_eq_one_iff]
      constructor
      · intro hx
        have : x * (h * 2) = 0 := by linarith
        rcases mul_eq_zero.mp this with h' | h'
        · exact h'
        · linarith
      · rintro rfl
        simp
  have g1 : (2 / h * Complex.tanh (lam * h / 2)).re < 0 ↔ lam.re < 0 := by
    rw [e, ← (key lam.re).1, mul_neg_iff, div_neg_iff]
    constructor
    · rintro (⟨-, ⟨-, h'⟩ | ⟨h', -⟩⟩ | ⟨h', -⟩)
      · linarith
      · exact h'
      · linarith
    · exact fun h' => Or.inl ⟨h2, Or.inr ⟨h', hpos⟩⟩
  have g2 : (2 / h * Complex.tanh (lam * h / 2)).re = 0 ↔ lam.re = 0 := by
    rw [e, ← (key lam.re).2, mul_eq_zero, or_iff_right h2.ne', div_eq_zero_iff, or_iff_left hpos.ne']
  refine ⟨g1, g2, fun hl => ?_⟩
  rw [BopEigs.pushStable, if_neg]
  rcases lt_or_eq_of_le hl with h' | h'
  · exact not_lt.mpr (g1.mpr h').le
  · exact not_lt.mpr (g2.mpr h').le

/-- **C153** (negative part). Samples that alternate between 1 and -1 (a signal at half the sampling rate): the means of
neighbours vanish, so that `diag(s)`, which `_initialize_alpha` inverts, is zero, although one exponential fits the data. -/
theorem C153_guess_false : ∃ (lam : ℂ) (time : Fin 4 → ℝ) (D : Matrix (Fin 1) (Fin 4) ℂ),
    (∀ j, time j = j) ∧ (∀ j, D 0 j = Complex.exp (lam * time j)) ∧ D 0 0 = 1 ∧ D 0 1 = -1 ∧
    ∀ (r : ℕ) (U : Matrix (Fin 1) (Fin r) ℂ) (s : Fin r → ℝ) (V : Matrix (Fin 3) (Fin r) ℂ), IsSVD (means D) U s V →
      (rdiag s : Matrix (Fin r) (Fin r) ℂ) = 0 := by
  refine ⟨Real.pi * Complex.I, fun j => j, of fun _ j => Complex.exp (Real.pi * Complex.I * (j : ℝ)), fun _ => rfl, fun _ => rfl,
    by simp, by simp, fun r U s V h => ?_⟩
  have e : ∀ j : ℕ, Complex.exp (Real.pi * Complex.I * (j : ℝ)) = (-1) ^ j := by
    intro j
    rw [show Real.pi * Complex.I * ((j : ℝ) : ℂ) = (j : ℂ) * (Real.pi * Complex.I) by push_cast; ring, Complex.exp_nat_mul,
      Complex.exp_pi_mul_I]
  have h0 : means (of fun (_ : Fin 1) (j : Fin 4) => Complex.exp (Real.pi * Complex.I * (j : ℝ)) : Matrix (Fin 1) (Fin 4) ℂ) = 0 := by
    ext i j
    simp only [means, of_apply, e, Fin.val_castSucc, Fin.val_succ, pow_succ, Matrix.zero_apply]
    ring
  have hU : rdiag s = Uᴴ * (U * rdiag s * Vᴴ) * V := by
    rw [← Matrix.mul_assoc, ← Matrix.mul_assoc, h.u, Matrix.one_mul, Matrix.mul_assoc, h.v, Matrix.mul_one]
  rw [hU, ← h.eq, h0, Matrix.mul_zero, Matrix.zero_mul]

/-- The hypotheses of `C153_guess` hold for the samples `exp(-t)` at `0, 1`, one snapshot of which is never the opposite of the
next. -/
example : Function.Injective (fun a : Fin 1 => Complex.exp ((fun _ => (-1 : ℂ)) a * (1 : ℝ))) ∧
    Complex.exp (-1 * (1 : ℝ)) ≠ -1 ∧ (∀ v : Fin 1 → ℂ, (∀ i : Fin 1, ∑ a, v a * (fun _ _ => (1 : ℂ)) a i = 0) → v = 0) ∧
    IsSVD (means (of fun (_ : Fin 1) (j : Fin 2) => Complex.exp (-1 * ((j : ℕ) : ℝ)) : Matrix (Fin 1) (Fin 2) ℂ))
      (1 : Matrix (Fin 1) (Fin 1) ℂ) (fun _ => (1 + Real.exp (-1)) / 2) 1 := by
  refine ⟨fun a b _ => Subsingleton.elim a b, ?_, fun v h => ?_, ?_, by simp, by simp, fun i => by positivity⟩
  · intro h
    have := congrArg Complex.re h
    rw [show (-1 * ((1 : ℝ) : ℂ)) = ((-1 : ℝ) : ℂ) by push_cast; ring, Complex.exp_ofReal_re] at this
    have h2 := Real.exp_pos (-1)
    simp at this
    linarith
  · funext a
    have := h 0
    simp only [mul_one, Finset.univ_unique, Finset.sum_singleton] at this
    rw [Subsingleton.elim a 0]
    exact this
  · ext i j
    rw [Subsingleton.elim i 0, Subsingleton.elim j 0]
    simp [means, rdiag]

end Verif.BopRun
