import Verif.Model.VarProWhole
import Verif.Props.VarProFit

/-!
# C91: where a fit of VarProDMD starts
-/

set_option autoImplicit false

namespace Verif.VarPro

open Matrix LinAlg

variable {t m l n q : ℕ}

/-- An optimizer that returns its starting point, as `least_squares` does with `max_nfev=1`. -/
def StaysAtStart (opt : Optimizer m l n) : Prop := ∀ x0 answers x, opt x0 answers = .inr x → x = x0

theorem optRun_stays (opt : Optimizer m l n) (ho : StaysAtStart opt) (time : Fin m → ℝ) (data : Matrix (Fin m) (Fin n) ℂ)
    (lib : ∀ α : Fin l → ℂ, Svd (phi time α)) (x0 : Point l) :
    ∀ k x, (optRun opt time data lib x0 k).result = some x → x = x0 := by
  intro k
  induction k with
  | zero => intro x h; simp [optRun] at h
  | succ k ih =>
    intro x h
    unfold optRun OState.step at h
    split at h
    · exact ih x h
    · rename_i hn
      split at h
      · simp [hn] at h
      · simp [hn] at h
      · rename_i y hy
        simp only [Option.some.injEq] at h
        exact h ▸ ho _ _ _ hy

/-- **C91** (whole fit). If the slopes of the projected data are the image of the means under an invertible matrix `A` and have
full row rank, a fit whose optimizer stays at its starting point reports reciprocals of eigenvalues of `A` as exponents, real
and imaginary parts in their places. Missing: they should be the eigenvalues themselves, see `C91_initial_false`. -/
theorem C91_start_partial (opt : Optimizer m q q) (ho : StaysAtStart opt) (L : Libs t m q q) (time : Fin (t + 1) → ℝ)
    (D : Matrix (Fin q) (Fin (t + 1)) ℂ) (A : Matrix (Fin q) (Fin q) ℂ) (hA : IsUnit A.det)
    (hZ : ∀ i (j : Fin t), (D i j.succ - D i j.castSucc) / (time j.succ - time j.castSucc) =
      ∑ k, A i k * ((D k j.castSucc + D k j.succ) / 2))
    (hsvd : ∀ M, IsSVD M (L.svd M).1 (L.svd M).2.1 (L.svd M).2.2) (hs : ∀ i, (L.svd (initialSvdOf time D)).2.1 i ≠ 0)
    (heig : ∀ M j, ∃ v, v ≠ 0 ∧ Eig M (L.eig M j) v)
    (W : Matrix (Fin n) (Fin q) ℂ) (k : ℕ) (modes : Fin n → Fin q → Option ℂ) (om : Fin q → ℂ) (am : Fin q → ℝ)
    (h : fitAny opt L time D W k = some (modes, om, am)) :
    ∀ j, om j ≠ 0 ∧ ∃ v, v ≠ 0 ∧ Eig A (om j)⁻¹ v := by
  intro j
  unfold fitAny fitRun at h
  split at h
  · rename_i x a hx _
    simp only [Option.some.injEq, Prod.mk.injEq] at h
    have hx0 := optRun_stays opt ho _ _ _ _ k x hx
    have hom : om j = L.eig (initialMatrix time D (L.svd (initialSvdOf time D)).1 (L.svd (initialSvdOf time D)).2.1
        (L.svd (initialSvdOf time D)).2.2) j := by
      rw [← h.2.1, hx0]
      exact Complex.ext rfl rfl
    obtain ⟨w, hw, hE⟩ := heig (initialMatrix time D (L.svd (initialSvdOf time D)).1 (L.svd (initialSvdOf time D)).2.1
        (L.svd (initialSvdOf time D)).2.2) j
    rw [hom]
    exact C91_initial_partial time D A hA hZ _ _ _ (hsvd _) hs _ w hw hE
  · simp at h

/-- Optimizers of this kind exist: evaluate the residual at the starting point, and return it. -/
example : ∃ opt : Optimizer m l n, StaysAtStart opt ∧ ∀ (time : Fin m → ℝ) (data : Matrix (Fin m) (Fin n) ℂ)
    (lib : ∀ α : Fin l → ℂ, Svd (phi time α)) (x0 : Point l), (optRun opt time data lib x0 2).result = some x0 := by
  refine ⟨fun x0 answers => if answers = [] then .inl (.rho x0) else .inr x0, fun x0 answers x h => ?_, fun time data lib x0 => ?_⟩
  · by_cases ha : answers = []
    · simp [ha] at h
    · simpa [ha] using h.symm
  · simp [optRun, OState.step]

/-- The samples `1, 3` at times `0, 1/2` meet the other hypotheses, with the rate 2, whatever SVD is used. -/
example (L : Libs 1 m 1 1) (hsvd : ∀ M, IsSVD M (L.svd M).1 (L.svd M).2.1 (L.svd M).2.2) :
    IsUnit (!![2] : Matrix (Fin 1) (Fin 1) ℂ).det ∧
    (∀ i (j : Fin 1), ((!![1, 3] : Matrix (Fin 1) (Fin 2) ℂ) i j.succ - (!![1, 3] : Matrix (Fin 1) (Fin 2) ℂ) i j.castSucc) /
        ((![0, 1 / 2] : Fin 2 → ℝ) j.succ - (![0, 1 / 2] : Fin 2 → ℝ) j.castSucc) =
      ∑ k, (!![2] : Matrix (Fin 1) (Fin 1) ℂ) i k *
        (((!![1, 3] : Matrix (Fin 1) (Fin 2) ℂ) k j.castSucc + (!![1, 3] : Matrix (Fin 1) (Fin 2) ℂ) k j.succ) / 2)) ∧
    ∀ i, (L.svd (initialSvdOf (![0, 1 / 2] : Fin 2 → ℝ) (!![1, 3] : Matrix (Fin 1) (Fin 2) ℂ))).2.1 i ≠ 0 := by
  refine ⟨by simp, fun i j => ?_, fun i h => ?_⟩
  · obtain rfl : i = 0 := Subsingleton.elim _ _
    obtain rfl : j = 0 := Subsingleton.elim _ _
    simp
    norm_num
  · obtain rfl : i = 0 := Subsingleton.elim _ _
    have hv : initialSvdOf (![0, 1 / 2] : Fin 2 → ℝ) (!![1, 3] : Matrix (Fin 1) (Fin 2) ℂ) 0 0 = 4 := by
      simp [initialSvdOf, preprocessing, slopes]
      norm_num
    have e := congrFun (congrFun (hsvd (initialSvdOf (![0, 1 / 2] : Fin 2 → ℝ) (!![1, 3] : Matrix (Fin 1) (Fin 2) ℂ))).eq 0) 0
    rw [hv] at e
    generalize initialSvdOf (![0, 1 / 2] : Fin 2 → ℝ) (!![1, 3] : Matrix (Fin 1) (Fin 2) ℂ) = M at h e
    simp [Matrix.mul_apply, rdiag, h] at e

end Verif.VarPro
