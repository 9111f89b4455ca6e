import Verif.Lemmas.Lando
import Mathlib.Analysis.InnerProductSpace.PiL2
import Mathlib.LinearAlgebra.LinearIndependent.Basic

/-!
# C72: the sparse dictionary of LANDO

The kernel is the inner product of a feature map `φ` into a real inner product space (every positive
semidefinite kernel is of this form; the linear kernel is shown at the end). `np.linalg.lstsq` is any
solver meeting its specification `SolverOk`.
-/

set_option autoImplicit false

namespace Verif.Lando

open Matrix Verif.LinAlg
open scoped RealInnerProductSpace

variable {X H : Type} [NormedAddCommGroup H] [InnerProductSpace ℝ H] {φ : X → H} {sv : Solver}
  {tol : ℝ}

/-- **C72 (factor).** After any sequence of snapshots, the Cholesky factor times its transpose is the
kernel matrix of the dictionary. -/
theorem C72_factor (hsv : SolverOk sv) (x0 : X) (xs : List X)
    (a b : (learn (kOf φ) sv tol x0 xs).ι) :
    ((learn (kOf φ) sv tol x0 xs).chol * (learn (kOf φ) sv tol x0 xs).cholᵀ) a b
      = ⟪φ ((learn (kOf φ) sv tol x0 xs).item a), φ ((learn (kOf φ) sv tol x0 xs).item b)⟫ := by
  have := fac_learn (tol := tol) hsv (φ := φ) x0 xs
  unfold Fac at this
  rw [this]; rfl

/-- **C72 (distance).** The number compared with `dict_tol` is the least squared distance, in feature
space, between the new snapshot and a combination of the dictionary. -/
theorem C72_distance (hsv : SolverOk sv) (x0 : X) (xs : List X) (x : X) :
    IsLeast {r : ℝ | ∃ c : (learn (kOf φ) sv tol x0 xs).ι → ℝ,
        r = ‖φ x - ∑ a, c a • φ ((learn (kOf φ) sv tol x0 xs).item a)‖ ^ 2}
      (delta (kOf φ) sv (learn (kOf φ) sv tol x0 xs) x) := by
  have hF := fac_learn (tol := tol) hsv (φ := φ) x0 xs
  constructor
  · exact ⟨_, delta_eq hsv hF x⟩
  · rintro _ ⟨c, rfl⟩
    exact delta_le hsv hF x c

/-- **C72 (growth).** The next snapshot is appended to the dictionary exactly if every combination of
the dictionary is further than `dict_tol` (squared distance in feature space) from it; otherwise the
state is unchanged. -/
theorem C72_growth (hsv : SolverOk sv) (x0 : X) (xs : List X) (x : X) :
    ((∀ c : (learn (kOf φ) sv tol x0 xs).ι → ℝ,
        tol < ‖φ x - ∑ a, c a • φ ((learn (kOf φ) sv tol x0 xs).item a)‖ ^ 2) →
      ∃ e : (learn (kOf φ) sv tol x0 xs).ι ⊕ Unit ≃ (learn (kOf φ) sv tol x0 (xs ++ [x])).ι,
        (∀ a, (learn (kOf φ) sv tol x0 (xs ++ [x])).item (e (.inl a))
          = (learn (kOf φ) sv tol x0 xs).item a) ∧
        (learn (kOf φ) sv tol x0 (xs ++ [x])).item (e (.inr ())) = x) ∧
    ((∃ c : (learn (kOf φ) sv tol x0 xs).ι → ℝ,
        ‖φ x - ∑ a, c a • φ ((learn (kOf φ) sv tol x0 xs).item a)‖ ^ 2 ≤ tol) →
      learn (kOf φ) sv tol x0 (xs ++ [x]) = learn (kOf φ) sv tol x0 xs) := by
  have hF := fac_learn (tol := tol) hsv (φ := φ) x0 xs
  have hl : learn (kOf φ) sv tol x0 (xs ++ [x])
      = step (kOf φ) sv tol (learn (kOf φ) sv tol x0 xs) x := by
    rw [learn, List.foldl_append]; rfl
  have h0 := delta_nonneg hsv hF x
  constructor
  · intro h
    have hd : tol < |delta (kOf φ) sv (learn (kOf φ) sv tol x0 xs) x| := by
      rw [abs_of_nonneg h0, delta_eq hsv hF]; exact h _
    rw [hl, step, if_pos hd]
    exact ⟨Equiv.refl _, fun _ => rfl, rfl⟩
  · rintro ⟨c, hc⟩
    rw [hl, step, if_neg]
    rw [abs_of_nonneg h0, not_lt]
    exact le_trans (delta_le hsv hF x c) hc

/-- **C72 (cover).** Every snapshot is within `dict_tol` (squared distance in feature space) of a
combination of the final dictionary. -/
theorem C72_cover (hsv : SolverOk sv) (htol : 0 ≤ tol) (x0 : X) (xs : List X) (y : X)
    (hy : y ∈ x0 :: xs) :
    ∃ c : (learn (kOf φ) sv tol x0 xs).ι → ℝ,
      ‖φ y - ∑ a, c a • φ ((learn (kOf φ) sv tol x0 xs).item a)‖ ^ 2 ≤ tol := by
  induction xs using List.reverseRecOn with
  | nil =>
    rw [List.mem_singleton] at hy
    subst hy
    refine ⟨fun _ => 1, ?_⟩
    have : (∑ a : Unit, (1 : ℝ) • φ ((fun _ : Unit => y) a)) = φ y := by simp
    show ‖φ y - ∑ a : Unit, (1 : ℝ) • φ ((fun _ : Unit => y) a)‖ ^ 2 ≤ tol
    rw [this, sub_self, norm_zero]
    simpa using htol
  | append_singleton xs x ih =>
    have hF := fac_learn (tol := tol) hsv (φ := φ) x0 xs
    have hl : learn (kOf φ) sv tol x0 (xs ++ [x])
        = step (kOf φ) sv tol (learn (kOf φ) sv tol x0 xs) x := by
      rw [learn, List.foldl_append]; rfl
    rw [hl]
    have hy' : y ∈ x0 :: xs ∨ y = x := by
      simp only [List.mem_cons, List.mem_append, List.not_mem_nil, or_false] at hy ⊢
      tauto
    unfold step
    by_cases hd : tol < |delta (kOf φ) sv (learn (kOf φ) sv tol x0 xs) x|
    · rw [if_pos hd]
      rcases hy' with h | h
      · obtain ⟨c, hc⟩ := ih h
        refine ⟨Sum.elim c fun _ => 0, ?_⟩
        have := comb_push (φ := φ) (sv := sv) (learn (kOf φ) sv tol x0 xs) x c 0
        unfold comb at this
        rw [this, zero_smul, add_zero]
        exact hc
      · subst h
        refine ⟨Sum.elim (fun _ => 0) fun _ => 1, ?_⟩
        have := comb_push (φ := φ) (sv := sv) (learn (kOf φ) sv tol x0 xs) y (fun _ => 0) 1
        unfold comb at this
        rw [this]
        simpa using htol
    · rw [if_neg hd]
      rcases hy' with h | h
      · exact ih h
      · subst h
        rw [not_lt, abs_of_nonneg (delta_nonneg hsv hF y), delta_eq hsv hF] at hd
        exact ⟨_, hd⟩

/-- **C72 (sparse).** Every dictionary item is one of the snapshots. -/
theorem C72_subset (x0 : X) (xs : List X) (k : X → X → ℝ) (a : (learn k sv tol x0 xs).ι) :
    (learn k sv tol x0 xs).item a ∈ x0 :: xs := by
  induction xs using List.reverseRecOn with
  | nil => exact List.mem_singleton.mpr rfl
  | append_singleton xs x ih =>
    have hl : learn k sv tol x0 (xs ++ [x]) = step k sv tol (learn k sv tol x0 xs) x := by
      rw [learn, List.foldl_append]; rfl
    revert a
    rw [hl]
    unfold step
    by_cases hd : tol < |delta k sv (learn k sv tol x0 xs) x|
    · rw [if_pos hd]
      rintro (a | a)
      · have := ih a
        simp only [List.mem_cons, List.mem_append] at this ⊢
        rcases this with h | h
        · exact Or.inl h
        · exact Or.inr (Or.inl h)
      · exact List.mem_cons_of_mem _ (List.mem_append_right _ (List.mem_singleton.mpr rfl))
    · rw [if_neg hd]
      intro a
      have := ih a
      simp only [List.mem_cons, List.mem_append] at this ⊢
      rcases this with h | h
      · exact Or.inl h
      · exact Or.inr (Or.inl h)

/-- **C72 (independence).** If the first snapshot has a nonzero feature vector, the features of the
dictionary are linearly independent. -/
theorem C72_independent (hsv : SolverOk sv) (htol : 0 ≤ tol) (x0 : X) (h0 : φ x0 ≠ 0)
    (xs : List X) :
    LinearIndependent ℝ fun a => φ ((learn (kOf φ) sv tol x0 xs).item a) := by
  rw [Fintype.linearIndependent_iff]
  intro g hg a
  exact congrFun (indep_learn hsv htol x0 h0 xs g hg) a

/-- The linear kernel of the code is the kernel of a feature map. -/
example {n : Type} [Fintype n] (x y : n → ℝ) :
    Kernel.eval .linear x y = kOf (fun z : n → ℝ => (WithLp.toLp 2 z : EuclideanSpace ℝ n)) x y := by
  rw [kOf, EuclideanSpace.inner_toLp_toLp, Kernel.eval, star_trivial, dotProduct_comm]

/-- A solver meeting the specification exists, and feature maps with a nonzero first feature do. -/
example : ∃ sv : Solver, SolverOk sv := exists_solver
example : (fun x : ℝ => x) 1 ≠ 0 := one_ne_zero

/-- Concretely: scalar snapshots 1, 2, linear kernel, tolerance 0: the second is dependent and is not
added. -/
example (sv : Solver) (hsv : SolverOk sv) :
    learn (kOf fun x : ℝ => x) sv 0 1 ([] ++ [2]) = learn (kOf fun x : ℝ => x) sv 0 1 [] := by
  refine (C72_growth hsv 1 [] 2).2 ⟨fun _ => 2, ?_⟩
  show ‖(2 : ℝ) - ∑ _a : Unit, (2 : ℝ) • (1 : ℝ)‖ ^ 2 ≤ 0
  simp

end Verif.Lando
