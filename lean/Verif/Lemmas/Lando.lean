import Verif.Model.Lando
import Verif.Lemmas.Lstsq
import Mathlib.Analysis.InnerProductSpace.Basic
import Mathlib.LinearAlgebra.Matrix.Rank
import Mathlib.LinearAlgebra.Matrix.NonsingularInverse
import Mathlib.Tactic.LinearCombination

/-! Helper lemmas for the dictionary and the online learning of LANDO. -/

set_option autoImplicit false

namespace Verif.Lando

open Matrix Verif.LinAlg

/-- `x` is the minimum-norm least-squares solution of `A x = b`: a least-squares solution in the
row space (specification of `np.linalg.lstsq`). -/
def MinNorm {ι : Type} [Fintype ι] (A : Matrix ι ι ℝ) (b x : ι → ℝ) : Prop :=
  IsLstsqR A b x ∧ ∃ w, x = Aᵀ *ᵥ w

/-- The solver satisfies its specification at every size. -/
def SolverOk (sv : Solver) : Prop :=
  ∀ (ι : Type) [Fintype ι] [DecidableEq ι] (A : Matrix ι ι ℝ) (b : ι → ℝ), MinNorm A b (sv ι A b)

section Solver

variable {ι : Type} [Fintype ι]

theorem range_gram (A : Matrix ι ι ℝ) (b : ι → ℝ) : ∃ z, (Aᵀ * A) *ᵥ z = Aᵀ *ᵥ b := by
  classical
  have hle : LinearMap.range (Aᵀ * A).mulVecLin ≤ LinearMap.range Aᵀ.mulVecLin := by
    rintro _ ⟨z, rfl⟩
    exact ⟨A *ᵥ z, by simp [mulVec_mulVec]⟩
  have hr : (Aᵀ * A).rank = Aᵀ.rank := by
    rw [Matrix.rank_transpose_mul_self, Matrix.rank_transpose]
  have heq := Submodule.eq_of_le_of_finrank_eq hle hr
  have hb : Aᵀ *ᵥ b ∈ LinearMap.range (Aᵀ * A).mulVecLin := by
    rw [heq]; exact ⟨b, rfl⟩
  exact hb

theorem exists_minNorm (A : Matrix ι ι ℝ) (b : ι → ℝ) : ∃ x, MinNorm A b x := by
  obtain ⟨z, hz⟩ := range_gram A b
  obtain ⟨w, hw⟩ := range_gram Aᵀ z
  rw [transpose_transpose] at hw
  refine ⟨Aᵀ *ᵥ w, isLstsqR_of_normal _ _ _ ?_, w, rfl⟩
  rw [mulVec_sub, mulVec_mulVec w A, hw, mulVec_mulVec, hz, sub_self]

theorem exists_solver : ∃ sv : Solver, SolverOk sv :=
  ⟨fun _ _ _ A b => (exists_minNorm A b).choose, fun _ _ _ A b => (exists_minNorm A b).choose_spec⟩

/-- A consistent system is solved. -/
theorem MinNorm.solves {A : Matrix ι ι ℝ} {b x : ι → ℝ} (h : MinNorm A b x) (z : ι → ℝ)
    (hz : A *ᵥ z = b) : A *ᵥ x = b := by
  have := h.1 z
  rw [hz, sub_self] at this
  have h0 : rnormSq (A *ᵥ x - b) = 0 := le_antisymm
    (le_trans this (le_of_eq ((rnormSq_eq_zero _).mpr rfl))) (rnormSq_nonneg _)
  exact sub_eq_zero.mp ((rnormSq_eq_zero _).mp h0)

end Solver

section Feature

variable {X H : Type} [NormedAddCommGroup H] [InnerProductSpace ℝ H] (φ : X → H)

open scoped RealInnerProductSpace

/-- The kernel of a feature map. -/
def kOf (x y : X) : ℝ := ⟪φ x, φ y⟫

/-- Kernel matrix of the dictionary. -/
def gram (st : Dict X) : Matrix st.ι st.ι ℝ := Matrix.of fun a b => kOf φ (st.item a) (st.item b)

/-- The linear combination of the features of the dictionary. -/
def comb (st : Dict X) (c : st.ι → ℝ) : H := ∑ a, c a • φ (st.item a)

variable {φ} {sv : Solver} {tol : ℝ}

theorem inner_comb (st : Dict X) (c : st.ι → ℝ) (h : H) :
    ⟪comb φ st c, h⟫ = ∑ a, c a * ⟪φ (st.item a), h⟫ := by
  rw [comb, sum_inner]
  exact Finset.sum_congr rfl fun a _ => real_inner_smul_left _ _ _

theorem inner_item_comb (st : Dict X) (c : st.ι → ℝ) (a : st.ι) :
    ⟪φ (st.item a), comb φ st c⟫ = (gram φ st *ᵥ c) a := by
  rw [real_inner_comm, inner_comb, mulVec, dotProduct]
  refine Finset.sum_congr rfl fun b _ => ?_
  rw [gram, Matrix.of_apply, kOf, real_inner_comm, mul_comm]

theorem gram_symm (st : Dict X) : (gram φ st)ᵀ = gram φ st := by
  ext a b; simp [gram, kOf, real_inner_comm]

theorem inner_comb_comb (st : Dict X) (c d : st.ι → ℝ) :
    ⟪comb φ st c, comb φ st d⟫ = c ⬝ᵥ (gram φ st *ᵥ d) := by
  rw [inner_comb, dotProduct]
  exact Finset.sum_congr rfl fun a _ => by rw [inner_item_comb]

/-- The kernel column of any point lies in the range of the kernel matrix. -/
theorem kTilde_range (st : Dict X) (x : X) : ∃ z, gram φ st *ᵥ z = kTilde (kOf φ) st x := by
  obtain ⟨z, hz⟩ := range_gram (gram φ st) (kTilde (kOf φ) st x)
  -- residual of the normal equations lies in the kernel of the Gram matrix
  refine ⟨z, ?_⟩
  set v := gram φ st *ᵥ z - kTilde (kOf φ) st x with hv
  have h1 : gram φ st *ᵥ v = 0 := by
    rw [gram_symm, ← mulVec_mulVec] at hz
    rw [hv, mulVec_sub, hz, sub_self]
  have h2 : comb φ st v = 0 := by
    have : ⟪comb φ st v, comb φ st v⟫ = 0 := by rw [inner_comb_comb, h1, dotProduct_zero]
    exact inner_self_eq_zero.mp this
  have h3 : v ⬝ᵥ (gram φ st *ᵥ z) = 0 := by
    rw [← inner_comb_comb, h2, inner_zero_left]
  have h4 : v ⬝ᵥ kTilde (kOf φ) st x = 0 := by
    have := inner_comb (φ := φ) st v (φ x)
    rw [h2, inner_zero_left] at this
    rw [dotProduct]; exact this.symm
  have h5 : rnormSq v = 0 := by
    rw [rnormSq_eq_dot]
    conv_lhs => arg 2; rw [hv]
    rw [dotProduct_sub, h3, h4, sub_zero]
  exact sub_eq_zero.mp ((rnormSq_eq_zero _).mp h5)

/-- The invariant of the factor. -/
def Fac (φ : X → H) (st : Dict X) : Prop := st.chol * st.cholᵀ = gram φ st

theorem chol_s (hsv : SolverOk sv) {st : Dict X} (hF : Fac φ st) (x : X) :
    st.chol *ᵥ sVec (kOf φ) sv st x = kTilde (kOf φ) st x := by
  obtain ⟨z, hz⟩ := kTilde_range (φ := φ) st x
  refine (hsv st.ι st.chol (kTilde (kOf φ) st x)).solves (st.cholᵀ *ᵥ z) ?_
  rw [mulVec_mulVec, hF, hz]

theorem chol_pi (hsv : SolverOk sv) (st : Dict X) (x : X) :
    st.cholᵀ *ᵥ piVec (kOf φ) sv st x = sVec (kOf φ) sv st x := by
  obtain ⟨w, hw⟩ := (hsv st.ι st.chol (kTilde (kOf φ) st x)).2
  exact (hsv st.ι st.cholᵀ (sVec (kOf φ) sv st x)).solves w hw.symm

theorem gram_pi (hsv : SolverOk sv) {st : Dict X} (hF : Fac φ st) (x : X) :
    gram φ st *ᵥ piVec (kOf φ) sv st x = kTilde (kOf φ) st x := by
  rw [← hF, ← mulVec_mulVec, chol_pi hsv, chol_s hsv hF]

/-- The residual `φ x - Σ π_a φ(d_a)` is orthogonal to the span of the dictionary. -/
theorem resid_orth (hsv : SolverOk sv) {st : Dict X} (hF : Fac φ st) (x : X) (c : st.ι → ℝ) :
    ⟪comb φ st c, φ x - comb φ st (piVec (kOf φ) sv st x)⟫ = 0 := by
  rw [inner_sub_right, inner_comb_comb, gram_pi hsv hF, inner_comb, dotProduct]
  exact sub_self _

theorem delta_eq (hsv : SolverOk sv) {st : Dict X} (hF : Fac φ st) (x : X) :
    delta (kOf φ) sv st x = ‖φ x - comb φ st (piVec (kOf φ) sv st x)‖ ^ 2 := by
  rw [← real_inner_self_eq_norm_sq]
  conv_rhs => rw [inner_sub_left, resid_orth hsv hF, sub_zero, inner_sub_right]
  rw [delta, real_inner_comm (comb φ st _) (φ x), inner_comb, dotProduct, kOf]
  congr 1
  exact Finset.sum_congr rfl fun a _ => by rw [kTilde, kOf, mul_comm]

theorem delta_le (hsv : SolverOk sv) {st : Dict X} (hF : Fac φ st) (x : X) (c : st.ι → ℝ) :
    delta (kOf φ) sv st x ≤ ‖φ x - comb φ st c‖ ^ 2 := by
  rw [delta_eq hsv hF]
  set p := piVec (kOf φ) sv st x
  have e : φ x - comb φ st c = comb φ st (p - c) + (φ x - comb φ st p) := by
    have : comb φ st (p - c) = comb φ st p - comb φ st c := by
      simp [comb, sub_smul, Finset.sum_sub_distrib]
    rw [this]; abel
  rw [e, ← real_inner_self_eq_norm_sq (_ + _), inner_add_add_self, resid_orth hsv hF,
    real_inner_comm (comb φ st (p - c)) (φ x - comb φ st p), resid_orth hsv hF, real_inner_self_eq_norm_sq,
    real_inner_self_eq_norm_sq]
  nlinarith [sq_nonneg ‖comb φ st (p - c)‖]

theorem delta_nonneg (hsv : SolverOk sv) {st : Dict X} (hF : Fac φ st) (x : X) :
    0 ≤ delta (kOf φ) sv st x := by rw [delta_eq hsv hF]; positivity

theorem sum_s (hsv : SolverOk sv) {st : Dict X} (hF : Fac φ st) (x : X) :
    kOf φ x x - ∑ a, sVec (kOf φ) sv st x a ^ 2 = delta (kOf φ) sv st x := by
  have : ∑ a, sVec (kOf φ) sv st x a ^ 2
      = kTilde (kOf φ) st x ⬝ᵥ piVec (kOf φ) sv st x := by
    have h := rnormSq_eq_dot (sVec (kOf φ) sv st x)
    rw [rnormSq] at h
    rw [h]
    conv_lhs => arg 1; rw [← chol_pi hsv st x]
    rw [mulVec_transpose, ← dotProduct_mulVec, chol_s hsv hF, dotProduct_comm]
  rw [this, delta]

theorem fac_init (x0 : X) : Fac φ (init (kOf φ) x0) := by
  have : (Matrix.of fun _ _ => Real.sqrt (kOf φ x0 x0) : Matrix Unit Unit ℝ)
      * (Matrix.of fun _ _ => Real.sqrt (kOf φ x0 x0) : Matrix Unit Unit ℝ)ᵀ
      = Matrix.of fun _ _ => kOf φ x0 x0 := by
    ext a b
    simp only [Matrix.mul_apply, transpose_apply, Matrix.of_apply]
    simp only [Finset.univ_unique, Finset.sum_const, Finset.card_singleton, one_smul]
    exact Real.mul_self_sqrt real_inner_self_nonneg
  exact this

/-- Extension of a factorisation by one row. -/
theorem block_fac {ι : Type} [Fintype ι] (C K : Matrix ι ι ℝ) (hC : C * Cᵀ = K) (s b : ι → ℝ)
    (hs : C *ᵥ s = b) (d e : ℝ) (hd : d * d = e - ∑ a, s a ^ 2) :
    (Matrix.fromBlocks C 0 (Matrix.of fun _ a => s a) (Matrix.of fun _ _ => d) :
        Matrix (ι ⊕ Unit) (ι ⊕ Unit) ℝ)
      * (Matrix.fromBlocks C 0 (Matrix.of fun _ a => s a) (Matrix.of fun _ _ => d))ᵀ
    = Matrix.fromBlocks K (Matrix.of fun a _ => b a) (Matrix.of fun _ a => b a)
        (Matrix.of fun _ _ => e) := by
  rw [fromBlocks_transpose, fromBlocks_multiply, transpose_zero, Matrix.zero_mul, Matrix.mul_zero,
    add_zero, hC]
  congr 1
  · ext a u
    simpa [Matrix.mul_apply, mulVec, dotProduct] using congrFun hs a
  · ext u a
    have := congrFun hs a
    simp only [mulVec, dotProduct] at this
    simp only [Matrix.add_apply, Matrix.mul_apply, Matrix.of_apply, transpose_apply,
      Matrix.zero_apply, mul_zero, Finset.sum_const_zero, add_zero]
    rw [← this]
    exact Finset.sum_congr rfl fun c _ => mul_comm _ _
  · ext u v
    simp only [Matrix.add_apply, Matrix.mul_apply, Matrix.of_apply, transpose_apply,
      Finset.univ_unique, Finset.sum_const, Finset.card_singleton, one_smul]
    rw [hd]
    simp only [← sq]
    ring

theorem gram_push (k : X → X → ℝ) (st : Dict X) (x : X) :
    gram φ (push k sv st x) = Matrix.fromBlocks (gram φ st)
      (Matrix.of fun a _ => kTilde (kOf φ) st x a) (Matrix.of fun _ a => kTilde (kOf φ) st x a)
        (Matrix.of fun _ _ => kOf φ x x) := by
  ext a b
  rcases a with a | a <;> rcases b with b | b
  · rfl
  · rfl
  · exact real_inner_comm (φ (st.item b)) (φ x)
  · rfl

theorem fac_push (hsv : SolverOk sv) {st : Dict X} (hF : Fac φ st) (x : X) :
    Fac φ (push (kOf φ) sv st x) := by
  have hd := sum_s hsv hF x
  have h0 := delta_nonneg hsv hF x
  unfold Fac
  rw [gram_push]
  refine block_fac st.chol (gram φ st) hF _ _ (chol_s hsv hF x) _ _ ?_
  rw [hd, abs_of_nonneg (Real.sqrt_nonneg _), max_eq_right (Real.sqrt_nonneg _),
    Real.mul_self_sqrt h0]

theorem fac_step (hsv : SolverOk sv) {st : Dict X} (hF : Fac φ st) (x : X) :
    Fac φ (step (kOf φ) sv tol st x) := by
  unfold step
  split
  · exact fac_push hsv hF x
  · exact hF

theorem fac_learn (hsv : SolverOk sv) (x0 : X) (xs : List X) :
    Fac φ (learn (kOf φ) sv tol x0 xs) := by
  unfold learn
  induction xs using List.reverseRecOn with
  | nil => exact fac_init x0
  | append_singleton xs x ih => rw [List.foldl_append]; exact fac_step hsv ih x

/-- Combinations survive an extension of the dictionary. -/
theorem comb_push (st : Dict X) (x : X) (c : st.ι → ℝ) (t : ℝ) :
    comb φ (push (kOf φ) sv st x) (Sum.elim c fun _ => t) = comb φ st c + t • φ x := by
  unfold comb
  show (∑ a : st.ι ⊕ Unit, _) = _
  rw [Fintype.sum_sum_type]
  simp [push]

theorem indep_push (hsv : SolverOk sv) {st : Dict X} (hF : Fac φ st)
    (hi : ∀ v, comb φ st v = 0 → v = 0) (x : X) (hd : 0 < delta (kOf φ) sv st x)
    (v : (push (kOf φ) sv st x).ι → ℝ) (hv : comb φ (push (kOf φ) sv st x) v = 0) : v = 0 := by
  have hsplit : v = Sum.elim (fun a => v (.inl a)) fun _ => v (.inr ()) := by
    funext a; rcases a with a | a <;> rfl
  rw [hsplit, comb_push] at hv
  by_cases ht : v (.inr ()) = 0
  · rw [ht, zero_smul, add_zero] at hv
    have := hi _ hv
    funext a
    rcases a with a | a
    · exact congrFun this a
    · exact ht
  · exfalso
    have hx : φ x - comb φ st (fun a => -(v (.inr ()))⁻¹ * v (.inl a)) = 0 := by
      have e : comb φ st (fun a => -(v (.inr ()))⁻¹ * v (.inl a))
          = -(v (.inr ()))⁻¹ • comb φ st fun a => v (.inl a) := by
        unfold comb
        rw [Finset.smul_sum]
        exact Finset.sum_congr rfl fun a _ => by rw [smul_smul]
      rw [e, eq_neg_of_add_eq_zero_left hv, smul_neg, neg_smul, neg_neg, smul_smul,
        inv_mul_cancel₀ ht, one_smul, sub_self]
    have := delta_le hsv hF x (fun a => -(v (.inr ()))⁻¹ * v (.inl a))
    rw [hx, norm_zero] at this
    norm_num at this
    linarith

theorem indep_init (x0 : X) (h0 : φ x0 ≠ 0) (v : (init (kOf φ) x0).ι → ℝ)
    (hv : comb φ (init (kOf φ) x0) v = 0) : v = 0 := by
  have h1 : v () • φ x0 = 0 := by
    have : (∑ a : Unit, v a • φ x0) = 0 := hv
    simpa using this
  funext a
  rcases smul_eq_zero.mp h1 with h | h
  · exact h
  · exact absurd h h0

theorem indep_learn (hsv : SolverOk sv) (htol : 0 ≤ tol) (x0 : X) (h0 : φ x0 ≠ 0) (xs : List X)
    (v : (learn (kOf φ) sv tol x0 xs).ι → ℝ)
    (hv : comb φ (learn (kOf φ) sv tol x0 xs) v = 0) : v = 0 := by
  induction xs using List.reverseRecOn with
  | nil => exact indep_init x0 h0 v hv
  | append_singleton xs x ih =>
    have hF := fac_learn (tol := tol) hsv (φ := φ) x0 xs
    have hl : learn (kOf φ) sv tol x0 (xs ++ [x])
        = step (kOf φ) sv tol (learn (kOf φ) sv tol x0 xs) x := by
      rw [learn, List.foldl_append]; rfl
    revert v
    rw [hl]
    unfold step
    by_cases hd : tol < |delta (kOf φ) sv (learn (kOf φ) sv tol x0 xs) x|
    · rw [if_pos hd]
      rw [abs_of_nonneg (delta_nonneg hsv hF x)] at hd
      exact fun v hv => indep_push hsv hF ih x (lt_of_le_of_lt htol hd) v hv
    · rw [if_neg hd]
      exact ih

end Feature

end Verif.Lando
