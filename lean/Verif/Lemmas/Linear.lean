import Verif.Lemmas.Operator
import Verif.Lemmas.Time

/-! Helper lemmas for linear trajectories and optimal amplitudes. -/

set_option autoImplicit false

namespace Verif.Operator

open Verif Verif.LinAlg Matrix

variable {m n r : Type} [Fintype m] [Fintype n] [Fintype r] [DecidableEq r] [DecidableEq n]

/-- Powers of the reduced operator applied to the coefficients of the first snapshot follow the
trajectory. -/
theorem reduced_trajectory {N : ℕ} (A : Matrix m m ℂ) (x : ℕ → m → ℂ)
    (hx : ∀ k, x (k + 1) = A *ᵥ x k) (X Y : Matrix m (Fin N) ℂ)
    (hX : ∀ p (j : Fin N), X p j = x j p) (hY : ∀ p (j : Fin N), Y p j = x (j + 1) p)
    (U : Matrix m r ℂ) (s : r → ℝ) (V : Matrix (Fin N) r ℂ) (h : IsSVD X U s V)
    (hs : ∀ i, s i ≠ 0) (hN : 0 < N) (hspan : ∃ c, x N = X *ᵥ c) :
    leastSquareOperator none U s V Y = Uᴴ * A * U ∧
    (∀ k, ∃ c, x k = X *ᵥ c) ∧
    (∀ k, U *ᵥ (Uᴴ *ᵥ x k) = x k) ∧
    ∀ k, U *ᵥ ((leastSquareOperator none U s V Y) ^ k *ᵥ (Uᴴ *ᵥ x 0)) = x k := by
  have hYA : Y = A * X := by
    ext p j
    rw [hY, hx, Matrix.mul_apply, mulVec, dotProduct]
    exact Finset.sum_congr rfl fun q _ => by rw [hX]
  have hXV : X * V * rdiag (fun i => (s i)⁻¹) = U := by
    rw [h.eq]
    calc U * rdiag s * Vᴴ * V * rdiag (fun i => (s i)⁻¹)
        = U * rdiag s * (Vᴴ * V) * rdiag (fun i => (s i)⁻¹) := by simp only [Matrix.mul_assoc]
      _ = U * (rdiag s * rdiag (fun i => (s i)⁻¹)) := by
          rw [h.v]; simp only [Matrix.mul_one, Matrix.mul_assoc]
      _ = U := by rw [rdiag_mul_inv s hs, Matrix.mul_one]
  have hA : leastSquareOperator none U s V Y = Uᴴ * A * U := by
    simp only [leastSquareOperator, tikSigma]
    rw [hYA]
    calc Uᴴ * (A * X) * V * rdiag (fun i => (s i)⁻¹)
        = Uᴴ * A * (X * V * rdiag (fun i => (s i)⁻¹)) := by simp only [Matrix.mul_assoc]
      _ = _ := by rw [hXV]
  -- every snapshot, also the future ones, is a combination of the first `N`
  have hcol : ∀ j : Fin N, x j = X *ᵥ Pi.single j 1 := by
    intro j; funext p; simp [hX]
  obtain ⟨cN, hcN⟩ := hspan
  have hall : ∀ k, ∃ c, x k = X *ᵥ c := by
    intro k
    induction k with
    | zero => exact ⟨_, hcol ⟨0, hN⟩⟩
    | succ k ih =>
      obtain ⟨c, hc⟩ := ih
      -- A X e_j is again a combination
      have hAX : ∀ j : Fin N, ∃ d, A *ᵥ (X *ᵥ Pi.single j 1) = X *ᵥ d := by
        intro j
        rw [← hcol j, ← hx]
        by_cases hj : (j : ℕ) + 1 < N
        · exact ⟨_, hcol ⟨j + 1, hj⟩⟩
        · have : (j : ℕ) + 1 = N := by have := j.2; omega
          rw [this]; exact ⟨cN, hcN⟩
      choose d hd using hAX
      refine ⟨∑ j, c j • d j, ?_⟩
      rw [hx, hc]
      have : c = ∑ j, c j • Pi.single j (1 : ℂ) := by
        funext i; simp [Finset.sum_apply, Pi.single_apply]
      conv_lhs => rw [this]
      rw [mulVec_sum, mulVec_sum, mulVec_sum]
      exact Finset.sum_congr rfl fun j _ => by rw [mulVec_smul, mulVec_smul, mulVec_smul, hd]
  have hproj : ∀ k, U *ᵥ (Uᴴ *ᵥ x k) = x k := by
    intro k
    obtain ⟨c, hc⟩ := hall k
    rw [hc, h.eq, mulVec_mulVec, mulVec_mulVec]
    congr 1
    calc U * Uᴴ * (U * rdiag s * Vᴴ) = U * (Uᴴ * U) * rdiag s * Vᴴ := by
          simp only [Matrix.mul_assoc]
      _ = _ := by rw [h.u, Matrix.mul_one]
  refine ⟨hA, hall, hproj, ?_⟩
  have hcoef : ∀ k, (leastSquareOperator none U s V Y) ^ k *ᵥ (Uᴴ *ᵥ x 0) = Uᴴ *ᵥ x k := by
    intro k
    induction k with
    | zero => simp
    | succ k ih =>
      rw [pow_succ', ← mulVec_mulVec, ih, hA, ← mulVec_mulVec, ← mulVec_mulVec, hproj, ← hx]
  intro k
  rw [hcoef, hproj]

omit [Fintype m] in
/-- Powers of a diagonalised matrix. -/
theorem pow_diagonalised (B W : Matrix r r ℂ) (eigs : r → ℂ) (h : B * W = W * diagonal eigs)
    (k : ℕ) : B ^ k * W = W * diagonal (fun i => eigs i ^ k) := by
  induction k with
  | zero => simp
  | succ k ih =>
    rw [pow_succ', Matrix.mul_assoc, ih, ← Matrix.mul_assoc, h, Matrix.mul_assoc,
      diagonal_mul_diagonal]
    congr 2; funext i; rw [pow_succ']

end Verif.Operator

namespace Verif.Time

open Verif Verif.Bitmask

/-- The list model of a reconstruction column for matrices given by functions. -/
theorem dotCol_ofFn {ι : Type} {q : ℕ} (Φ : Fin q → ι → ℂ) (eigs b : Fin q → ℂ) (k : ℕ) :
    dotCol (List.ofFn Φ) (dynamicsAt (List.ofFn eigs) (List.ofFn b) ((k : ℤ) : ℚ)) =
      fun p => ∑ i, Φ i p * (eigs i ^ k * b i) := by
  have e : List.zipWith (fun m c => fun x => m x * c) (List.ofFn Φ)
      (dynamicsAt (List.ofFn eigs) (List.ofFn b) ((k : ℤ) : ℚ)) =
      List.ofFn fun i => fun p => Φ i p * (eigs i ^ k * b i) := by
    refine List.ext_getElem (by simp [dynamicsAt]) ?_
    intro i h1 h2
    simp only [dynamicsAt, npPow_int, List.getElem_zipWith, List.getElem_ofFn, zpow_natCast]
  rw [dotCol, e, List.sum_ofFn]
  funext p
  rw [Finset.sum_apply]

/-- If the modal sums give the trajectory, so does `reconstructed_data`. -/
theorem reconstructed_ofFn {ι : Type} {q : ℕ} (Φ : Fin q → ι → ℂ) (eigs b : Fin q → ℂ)
    (x : ℕ → ι → ℂ) (hx : ∀ k, (fun p => ∑ i, Φ i p * (eigs i ^ k * b i)) = x k) (N T : ℕ)
    (bo : Bool) :
    reconstructed (afterFit (List.ofFn Φ) (List.ofFn eigs) (List.ofFn b)) (fitWindow N) ⟨0, T, 1⟩
      (.bool bo) N = .ok ((List.range (T + 1)).map x) := by
  have hr := Rel.init (List.ofFn Φ) (List.ofFn eigs) (List.ofFn b) (n := q) (by simp) (by simp)
    (by simp)
  rw [reconstructed_rel hr, timesteps_ok _ (by norm_num)]
  simp only [Except.map, Spec.afterFit, List.length_ofFn]
  have g : ∀ {α : Type} (f : Fin q → α), gather (List.replicate q true) (List.ofFn f) =
      List.ofFn f := by
    intro α f
    have := gather_true (List.ofFn f)
    rwa [List.length_ofFn] at this
  rw [g, g, g]
  congr 1
  have hs : steps ⟨0, T, 1⟩ = (List.range (T + 1)).map fun i : ℕ => (i : ℚ) := by
    have hl : (steps ⟨0, T, 1⟩).length = T + 1 := by
      rw [length_steps]
      simp
    refine List.ext_getElem? fun i => ?_
    by_cases hi : i < T + 1
    · rw [steps_getElem? _ i (by omega)]
      simp [hi]
    · rw [List.getElem?_eq_none (by omega), List.getElem?_eq_none (by simp; omega)]
  rw [hs, List.map_map]
  refine List.map_congr_left fun k _ => ?_
  simp only [Function.comp]
  have he : exponent (fitWindow N) (.bool bo) N (k : ℚ) = ((k : ℤ) : ℚ) := by
    simp [exponent, fitWindow, translate]
  rw [he, dotCol_ofFn, hx]

end Verif.Time
