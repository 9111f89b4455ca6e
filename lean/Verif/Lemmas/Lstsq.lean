import Verif.Lemmas.LinAlg
import Mathlib.Tactic.Positivity
import Mathlib.Tactic.FieldSimp

/-! Helper lemmas: the normal equations are necessary, over ℂ and over ℝ. -/

set_option autoImplicit false

namespace Verif.LinAlg

open Matrix

variable {m n : Type} [Fintype m] [Fintype n]

theorem quad_zero (w u : ℝ) (hw : 0 ≤ w) (hu : 0 ≤ u)
    (h : ∀ e : ℝ, 0 ≤ e → 2 * e * w ≤ e ^ 2 * u) : w = 0 := by
  by_contra hne
  have hw' : 0 < w := lt_of_le_of_ne hw (Ne.symm hne)
  have hpos : 0 < u + 1 := by linarith
  have := h (w / (u + 1)) (by positivity)
  have h2 : 2 * (w / (u + 1)) * w * (u + 1) ^ 2 ≤ (w / (u + 1)) ^ 2 * u * (u + 1) ^ 2 :=
    mul_le_mul_of_nonneg_right this (by positivity)
  have e1 : 2 * (w / (u + 1)) * w * (u + 1) ^ 2 = 2 * w ^ 2 * (u + 1) := by field_simp
  have e2 : (w / (u + 1)) ^ 2 * u * (u + 1) ^ 2 = w ^ 2 * u := by field_simp
  rw [e1, e2] at h2
  nlinarith [sq_pos_of_pos hw']

/-- A least-squares solution satisfies the normal equations. -/
theorem IsLstsq.normal {A : Matrix m n ℂ} {y : m → ℂ} {b : n → ℂ} (h : IsLstsq A y b) :
    Aᴴ *ᵥ (A *ᵥ b - y) = 0 := by
  set r := A *ᵥ b - y with hr
  set w := Aᴴ *ᵥ r with hw
  refine (normSq_eq_zero w).mp (quad_zero (normSq w) (normSq (A *ᵥ w)) (normSq_nonneg _)
    (normSq_nonneg _) fun e he => ?_)
  have h1 := h (b - (e : ℂ) • w)
  have e1 : A *ᵥ (b - (e : ℂ) • w) - y = r + (-(e : ℂ)) • (A *ᵥ w) := by
    rw [mulVec_sub, mulVec_smul, hr, neg_smul]; abel
  rw [e1, normSq_add, ← hr] at h1
  have e2 : normSq ((-(e : ℂ)) • (A *ᵥ w)) = e ^ 2 * normSq (A *ᵥ w) := by
    simp only [normSq, Pi.smul_apply, smul_eq_mul, Complex.normSq_mul, Complex.normSq_neg,
      Complex.normSq_ofReal, Finset.mul_sum]
    refine Finset.sum_congr rfl fun i _ => by ring
  have e3 : (star r ⬝ᵥ (-(e : ℂ)) • (A *ᵥ w)).re = -(e * normSq w) := by
    have : star r ⬝ᵥ A *ᵥ w = star w ⬝ᵥ w := by
      rw [dotProduct_mulVec, ← star_star (star r ᵥ* A), star_vecMul, star_star, ← hw]
    rw [dotProduct_smul, this, ← normSq_eq_dot, smul_eq_mul, ← Complex.ofReal_neg,
      ← Complex.ofReal_mul, Complex.ofReal_re]
    ring
  rw [e2, e3] at h1
  linarith

/-- Solving the normal equations in the least-squares sense solves the original problem. -/
theorem IsLstsq.of_gram {G : Matrix m n ℂ} {y : m → ℂ} {b : n → ℂ}
    (h : IsLstsq (Gᴴ * G) (Gᴴ *ᵥ y) b) : IsLstsq G y b := by
  have h1 := h.normal
  have e : (Gᴴ * G) *ᵥ b - Gᴴ *ᵥ y = Gᴴ *ᵥ (G *ᵥ b - y) := by
    rw [mulVec_sub, mulVec_mulVec]
  rw [e] at h1
  set w := G *ᵥ b - y
  rw [conjTranspose_mul, conjTranspose_conjTranspose] at h1
  have h2 : normSq (G *ᵥ (Gᴴ *ᵥ w)) = 0 := by
    have : ((normSq (G *ᵥ (Gᴴ *ᵥ w)) : ℝ) : ℂ) = 0 := by
      rw [normSq_eq_dot, star_mulVec, dotProduct_mulVec, vecMul_vecMul, ← dotProduct_mulVec, h1]
      simp
    exact_mod_cast this
  have h3 : normSq (Gᴴ *ᵥ w) = 0 := by
    have : ((normSq (Gᴴ *ᵥ w) : ℝ) : ℂ) = 0 := by
      rw [normSq_eq_dot, star_mulVec, conjTranspose_conjTranspose, ← dotProduct_mulVec,
        (normSq_eq_zero _).mp h2]
      simp
    exact_mod_cast this
  exact isLstsq_of_normal G y b ((normSq_eq_zero _).mp h3)

/-- Squared norm of a real vector. -/
def rnormSq (v : m → ℝ) : ℝ := ∑ i, v i ^ 2

/-- Real least squares. -/
def IsLstsqR (A : Matrix m n ℝ) (y : m → ℝ) (b : n → ℝ) : Prop :=
  ∀ c, rnormSq (A *ᵥ b - y) ≤ rnormSq (A *ᵥ c - y)

theorem rnormSq_nonneg (v : m → ℝ) : 0 ≤ rnormSq v := Finset.sum_nonneg fun _ _ => sq_nonneg _

theorem rnormSq_eq_zero (v : m → ℝ) : rnormSq v = 0 ↔ v = 0 := by
  unfold rnormSq
  rw [Finset.sum_eq_zero_iff_of_nonneg fun _ _ => sq_nonneg _]
  constructor
  · intro h; funext i; simpa using h i (Finset.mem_univ i)
  · rintro rfl i _; simp

theorem rnormSq_eq_dot (v : m → ℝ) : rnormSq v = v ⬝ᵥ v := by
  simp [rnormSq, dotProduct, sq]

theorem rnormSq_add (v w : m → ℝ) : rnormSq (v + w) = rnormSq v + rnormSq w + 2 * (v ⬝ᵥ w) := by
  simp only [rnormSq, Pi.add_apply, dotProduct, Finset.mul_sum, ← Finset.sum_add_distrib]
  refine Finset.sum_congr rfl fun i _ => by ring

theorem IsLstsqR.normal {A : Matrix m n ℝ} {y : m → ℝ} {b : n → ℝ} (h : IsLstsqR A y b) :
    Aᵀ *ᵥ (A *ᵥ b - y) = 0 := by
  set r := A *ᵥ b - y with hr
  set w := Aᵀ *ᵥ r with hw
  refine (rnormSq_eq_zero w).mp (quad_zero (rnormSq w) (rnormSq (A *ᵥ w)) (rnormSq_nonneg _)
    (rnormSq_nonneg _) fun e he => ?_)
  have h1 := h (b - e • w)
  have e1 : A *ᵥ (b - e • w) - y = r + (-e) • (A *ᵥ w) := by
    rw [mulVec_sub, mulVec_smul, hr, neg_smul]; abel
  rw [e1, rnormSq_add, ← hr] at h1
  have e2 : rnormSq ((-e) • (A *ᵥ w)) = e ^ 2 * rnormSq (A *ᵥ w) := by
    simp only [rnormSq, Pi.smul_apply, smul_eq_mul, Finset.mul_sum]
    refine Finset.sum_congr rfl fun i _ => by ring
  have e3 : r ⬝ᵥ (-e) • (A *ᵥ w) = -(e * rnormSq w) := by
    have : r ⬝ᵥ A *ᵥ w = w ⬝ᵥ w := by
      rw [dotProduct_mulVec, ← mulVec_transpose, ← hw]
    rw [dotProduct_smul, this, ← rnormSq_eq_dot, smul_eq_mul]
    ring
  rw [e2, e3] at h1
  linarith

theorem isLstsqR_of_normal (A : Matrix m n ℝ) (y : m → ℝ) (b : n → ℝ)
    (h : Aᵀ *ᵥ (A *ᵥ b - y) = 0) : IsLstsqR A y b := fun c => by
  have e : A *ᵥ c - y = (A *ᵥ b - y) + A *ᵥ (c - b) := by
    rw [mulVec_sub]; abel
  rw [e, rnormSq_add]
  have : (A *ᵥ b - y) ⬝ᵥ A *ᵥ (c - b) = 0 := by
    rw [dotProduct_mulVec, ← mulVec_transpose, h]
    simp
  rw [this]
  have := rnormSq_nonneg (A *ᵥ (c - b))
  linarith

theorem IsLstsqR.of_gram {G : Matrix m n ℝ} {y : m → ℝ} {b : n → ℝ}
    (h : IsLstsqR (Gᵀ * G) (Gᵀ *ᵥ y) b) : IsLstsqR G y b := by
  have h1 := h.normal
  have e : (Gᵀ * G) *ᵥ b - Gᵀ *ᵥ y = Gᵀ *ᵥ (G *ᵥ b - y) := by
    rw [mulVec_sub, mulVec_mulVec]
  rw [e] at h1
  set w := G *ᵥ b - y
  rw [transpose_mul, transpose_transpose] at h1
  have h2 : rnormSq (G *ᵥ (Gᵀ *ᵥ w)) = 0 := by
    rw [rnormSq_eq_dot, dotProduct_mulVec, ← mulVec_transpose, mulVec_mulVec, h1]
    simp
  have h3 : rnormSq (Gᵀ *ᵥ w) = 0 := by
    rw [rnormSq_eq_dot, dotProduct_mulVec, ← mulVec_transpose, transpose_transpose,
      (rnormSq_eq_zero _).mp h2]
    simp
  exact isLstsqR_of_normal G y b ((rnormSq_eq_zero _).mp h3)

end Verif.LinAlg
