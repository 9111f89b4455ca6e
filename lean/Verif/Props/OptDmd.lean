import Verif.Model.OptDmd
import Verif.Lemmas.EckartYoung
import Mathlib.Tactic.NormNum

/-!
# Properties C80, C81: the optimal low-rank operator
-/

set_option autoImplicit false

namespace Verif.OptDmd

open Verif Verif.LinAlg Matrix

section

variable {m n : Type} [Fintype m] [Fintype n] [DecidableEq m]

open Classical in
/-- The singular values above the threshold of `pinv_diag`, the others replaced by zero. -/
noncomputable def kept {p : ℕ} (q : Prec) (s : Fin p → ℝ) : Fin p → ℝ := fun i => if rcond q < s i then s i else 0

theorem rcond_pos (q : Prec) : 0 < rcond q := by cases q <;> simp [rcond]

open Classical in
theorem pinvDiag_facts {p : ℕ} (q : Prec) (s : Fin p → ℝ) :
    ∃ d : Fin p → ℝ, rdiag s * pinvDiag q s = rdiag d ∧ pinvDiag q s * rdiag (kept q s) = rdiag d ∧
      rdiag d * rdiag d = rdiag d ∧ rdiag (kept q s) * rdiag d = rdiag (kept q s) := by
  have h0 := rcond_pos q
  refine ⟨fun i => if rcond q < s i then 1 else 0, ?_, ?_, ?_, ?_⟩ <;>
    simp only [rdiag, pinvDiag, kept, diagonal_mul_diagonal] <;> congr 1 <;> funext i <;>
    split_ifs with h <;> simp
  · have : s i ≠ 0 := by linarith
    exact mul_inv_cancel₀ (by exact_mod_cast this)
  · have : s i ≠ 0 := by linarith
    exact inv_mul_cancel₀ (by exact_mod_cast this)

/-- **C80** (optimality, any data). What `predict` applies is a matrix of rank at most `r`, and no
matrix of rank at most `r` maps the snapshots `X` nearer to `Y`, after the singular values of `X`
below the threshold of `pinv_diag` are replaced by zero. -/
theorem C80_optimal_kept {p p' r : ℕ} (q : Prec) (X Y : Matrix m n ℂ) (U : Matrix m (Fin p) ℂ)
    (s : Fin p → ℝ) (V : Matrix n (Fin p) ℂ) (h : IsSVD X U s V)
    (Uz : Matrix m (Fin p') ℂ) (sz : Fin p' → ℝ) (Vz : Matrix n (Fin p') ℂ)
    (hz : IsSVD (matZ q Y s V) Uz sz Vz) (hsort : Antitone sz) (hr : r ≤ p') :
    ∃ A : Matrix m m ℂ,
      (∀ (k : Type) [Fintype k] (x : Matrix m k ℂ),
        predict .svd (fitSpaces .svd q (lead r hr Uz) (matQ q Y U s V (lead r hr Uz)) 0 0) x =
          .ok (A * x)) ∧
      A.rank ≤ r ∧
      ∀ B : Matrix m m ℂ, B.rank ≤ r →
        frobSq (Y - A * (U * rdiag (kept q s) * Vᴴ)) ≤ frobSq (Y - B * (U * rdiag (kept q s) * Vᴴ)) := by
  classical
  refine ⟨lead r hr Uz * (matQ q Y U s V (lead r hr Uz))ᴴ, fun k _ x => rfl, ?_, fun B hB => ?_⟩
  · exact (rank_mul_le_left _ _).trans ((rank_le_card_width _).trans (by simp))
  set L := lead r hr Uz with hL
  set Xk := U * rdiag (kept q s) * Vᴴ with hXk
  set Z := matZ q Y s V with hZ
  obtain ⟨d, d1, d2, d3, d4⟩ := pinvDiag_facts q s
  set P := V * rdiag d * Vᴴ with hP
  have hZP : Z = Y * P := by
    rw [hZ, matZ, hP, Matrix.mul_assoc (Y * V), d1]; simp only [Matrix.mul_assoc]
  have hPH : Pᴴ = P := by
    rw [hP, conjTranspose_mul, conjTranspose_mul, conjTranspose_conjTranspose, rdiag_conjTranspose,
      Matrix.mul_assoc]
  have hPP : P * P = P := by
    calc P * P = V * (rdiag d * (Vᴴ * V) * rdiag d) * Vᴴ := by
          rw [hP]; simp only [Matrix.mul_assoc]
      _ = P := by rw [h.v, Matrix.mul_one, d3]
  have hXP : Xk * P = Xk := by
    calc Xk * P = U * (rdiag (kept q s) * (Vᴴ * V) * rdiag d) * Vᴴ := by
          rw [hP, hXk]; simp only [Matrix.mul_assoc]
      _ = Xk := by rw [h.v, Matrix.mul_one, d4]
  -- `A X = L Lᴴ Z`
  have hA : L * (matQ q Y U s V L)ᴴ * Xk = L * (Lᴴ * Z) := by
    rw [matQ, conjTranspose_conjTranspose, hXk, hZP, hP]
    calc L * (Lᴴ * Y * V * pinvDiag q s * Uᴴ) * (U * rdiag (kept q s) * Vᴴ)
        = L * (Lᴴ * (Y * V * (pinvDiag q s * (Uᴴ * U) * rdiag (kept q s)) * Vᴴ)) := by
          simp only [Matrix.mul_assoc]
      _ = _ := by rw [h.u, Matrix.mul_one, d2]; simp only [Matrix.mul_assoc]
  -- the part of `Y` that no matrix reaches
  have hsplit : ∀ C : Matrix m m ℂ, frobSq (Y - C * Xk) = frobSq (Z - C * Xk) + frobSq (Y - Z) := by
    intro C
    have e : Y - C * Xk = (Z - C * Xk) + (Y - Z) := by abel
    have h0 : trace ((Z - C * Xk)ᴴ * (Y - Z)) = 0 := by
      have e3 : Z - C * Xk = (Y - C * Xk) * P := by
        rw [Matrix.sub_mul, Matrix.mul_assoc C, hXP, hZP]
      have e4 : (Y - Z) * P = 0 := by
        rw [Matrix.sub_mul, hZP, Matrix.mul_assoc, hPP, sub_self]
      rw [e3, conjTranspose_mul, hPH, Matrix.mul_assoc, trace_mul_comm, Matrix.mul_assoc, e4,
        Matrix.mul_zero, trace_zero]
    rw [e, frobSq_add, h0]
    simp
  rw [hsplit, hsplit, hA]
  have := eckartYoung hr hz hsort (B * Xk) ((rank_mul_le_left _ _).trans hB)
  linarith

/-- **C80** (optimality). If no singular value of `X` lies between zero and the threshold of
`pinv_diag` (`2.2e-12` in double precision), `predict` applies a best approximation: a matrix `A`
of rank at most `r` such that no matrix of rank at most `r` maps `X` nearer to `Y`. Missing: other
data, see `C80_small_data_false`. -/
theorem C80_optimal_partial {p p' r : ℕ} (q : Prec) (X Y : Matrix m n ℂ) (U : Matrix m (Fin p) ℂ)
    (s : Fin p → ℝ) (V : Matrix n (Fin p) ℂ) (h : IsSVD X U s V)
    (hgap : ∀ i, s i = 0 ∨ rcond q < s i)
    (Uz : Matrix m (Fin p') ℂ) (sz : Fin p' → ℝ) (Vz : Matrix n (Fin p') ℂ)
    (hz : IsSVD (matZ q Y s V) Uz sz Vz) (hsort : Antitone sz) (hr : r ≤ p') :
    ∃ A : Matrix m m ℂ,
      (∀ (k : Type) [Fintype k] (x : Matrix m k ℂ),
        predict .svd (fitSpaces .svd q (lead r hr Uz) (matQ q Y U s V (lead r hr Uz)) 0 0) x =
          .ok (A * x)) ∧
      A.rank ≤ r ∧ ∀ B : Matrix m m ℂ, B.rank ≤ r → frobSq (Y - A * X) ≤ frobSq (Y - B * X) := by
  obtain ⟨A, h1, h2, h3⟩ := C80_optimal_kept q X Y U s V h Uz sz Vz hz hsort hr
  have e : kept q s = s := by
    funext i
    rcases hgap i with hi | hi
    · simp [kept, hi, not_lt.mpr (rcond_pos q).le]
    · simp [kept, hi]
  rw [e, ← h.eq] at h3
  exact ⟨A, h1, h2, h3⟩

/-- **C80** (modes). With `factorization='svd'` the modes are an orthonormal basis in which every
prediction lies. -/
theorem C80_modes {r k : Type} [Fintype r] [DecidableEq r] [Fintype k] (q : Prec) (Uz Q : Matrix m r ℂ)
    (hU : Uzᴴ * Uz = 1) (vals : r → ℂ) (W : Matrix r r ℂ) (x : Matrix m k ℂ) :
    ∃ M y, modes (fitSpaces .svd q Uz Q vals W) = some M ∧ Mᴴ * M = 1 ∧
      predict .svd (fitSpaces .svd q Uz Q vals W) x = .ok y ∧ M * (Mᴴ * y) = y := by
  refine ⟨Uz, Uz * Qᴴ * x, rfl, hU, rfl, ?_⟩
  rw [Matrix.mul_assoc Uz, ← Matrix.mul_assoc Uzᴴ, hU, Matrix.one_mul]

/-- **C80** is false for small data: the threshold is absolute. For the single pair `x = y = 1e-12`
the operator 1 is exact, but `predict` returns zero (disagreement D73). -/
theorem C80_small_data_false : ∃ (X Y U V Uz Vz : Matrix (Fin 1) (Fin 1) ℂ) (s sz : Fin 1 → ℝ),
    IsSVD X U s V ∧ IsSVD (matZ .double Y s V) Uz sz Vz ∧ Antitone sz ∧ Y = 1 * X ∧ Y ≠ 0 ∧
    ∀ x : Matrix (Fin 1) (Fin 1) ℂ,
      predict .svd (fitSpaces .svd .double Uz (matQ .double Y U s V Uz) 0 0) x = .ok 0 := by
  have hr : ¬ rcond .double < 1 / 10 ^ 12 := by rw [rcond]; norm_num
  have hp : pinvDiag .double (fun _ : Fin 1 => (1 / 10 ^ 12 : ℝ)) = 0 := by
    rw [pinvDiag]
    simp only [hr, if_false]
    ext i j; simp [rdiag, diagonal_apply]
  refine ⟨rdiag fun _ => 1 / 10 ^ 12, rdiag fun _ => 1 / 10 ^ 12, 1, 1, 1, 1, fun _ => 1 / 10 ^ 12,
    fun _ => 0, ⟨by simp, by simp, by simp, fun _ => by norm_num⟩,
    ⟨?_, by simp, by simp, fun _ => le_rfl⟩, fun _ _ _ => le_rfl, by simp, ?_, ?_⟩
  · rw [matZ, hp]; ext i j; simp [rdiag, diagonal_apply]
  · intro h
    have := congrFun (congrFun h 0) 0
    simp [rdiag] at this
  · intro x
    simp only [predict, fitSpaces, matQ, hp]
    simp

/-- Instance of the hypotheses of `C80_optimal_partial`: `X = 1`, `Y = diag(3, 1)`, rank 1. -/
example : ∃ (X Y U V Uz Vz : Matrix (Fin 2) (Fin 2) ℂ) (s sz : Fin 2 → ℝ),
    IsSVD X U s V ∧ (∀ i, s i = 0 ∨ rcond .double < s i) ∧ IsSVD (matZ .double Y s V) Uz sz Vz ∧
    Antitone sz ∧ 1 ≤ 2 ∧ Y = rdiag ![3, 1] := by
  have hr : rcond .double < 1 := by rw [rcond]; norm_num
  have hp : pinvDiag .double (fun _ : Fin 2 => (1 : ℝ)) = 1 := by
    rw [pinvDiag]
    simp only [hr, if_true]
    ext i j; simp [rdiag, diagonal_apply, Matrix.one_apply]
  refine ⟨1, rdiag ![3, 1], 1, 1, 1, 1, fun _ => 1, ![3, 1],
    ⟨by ext i j; simp [rdiag], by simp, by simp, fun _ => by norm_num⟩,
    fun _ => Or.inr hr, ⟨?_, by simp, by simp, ?_⟩, ?_, by norm_num, rfl⟩
  · rw [matZ, hp]; ext i j; simp [rdiag]
  · intro i; fin_cases i <;> simp
  · intro i j hij; fin_cases i <;> fin_cases j <;> simp_all

end

/-! ### Eigenvectors -/

section

variable {m r : Type} [Fintype m] [Fintype r] [DecidableEq r]

/-- **C81** (eigenvectors). With `factorization="evd"` the modes are eigenvectors, in the weak
sense, of the operator `Uz Qᴴ` that `factorization="svd"` predicts with, for the eigenvalues
`eigs`; a mode is not zero if the real part of its eigenvalue is above the threshold. Missing:
modes for the other eigenvalues, see `C81_modes_vanish`. -/
theorem C81_eigenvectors_partial (q : Prec) (Uz Q : Matrix m r ℂ) (hU : Uzᴴ * Uz = 1) (vals : r → ℂ)
    (W : Matrix r r ℂ) (hW : atilde Q Uz * W = W * diagonal vals) :
    ∃ M, modes (fitSpaces .evd q Uz Q vals W) = some M ∧
      (∃ A : Matrix m m ℂ,
        (∀ x : Matrix m m ℂ, predict .svd (fitSpaces .svd q Uz Q vals W) x = .ok (A * x)) ∧
        A * M = M * diagonal vals) ∧
      ∀ i, rcond q < (vals i).re → W.col i ≠ 0 → M.col i ≠ 0 := by
  have hM : rightVecs q Uz Q vals W = Uz * W * (diagonal vals * pinvDiagC q vals) := by
    rw [rightVecs, Matrix.mul_assoc Uz, hW]; simp only [Matrix.mul_assoc]
  refine ⟨_, rfl, ⟨Uz * Qᴴ, fun x => rfl, ?_⟩, ?_⟩
  · obtain ⟨a, ha⟩ : ∃ a : r → ℝ, pinvDiagC q vals = rdiag a := ⟨_, rfl⟩
    rw [rightVecs, ha]
    have hc : rdiag a * diagonal vals = diagonal vals * rdiag a := by
      simp only [rdiag, diagonal_mul_diagonal]; congr 1; funext i; ring
    calc Uz * Qᴴ * (Uz * atilde Q Uz * W * rdiag a)
        = Uz * ((Qᴴ * Uz) * (atilde Q Uz * W) * rdiag a) := by simp only [Matrix.mul_assoc]
      _ = Uz * (atilde Q Uz * W * (diagonal vals * rdiag a)) := by
          conv_lhs => rw [hW, show Qᴴ * Uz = atilde Q Uz from rfl]
          simp only [Matrix.mul_assoc]
      _ = Uz * atilde Q Uz * W * rdiag a * diagonal vals := by
          rw [← hc]; simp only [Matrix.mul_assoc]
  · intro i hi hw h0
    apply hw
    have hre : 0 < (vals i).re := (rcond_pos q).trans hi
    have hv : vals i ≠ 0 := by
      intro h; rw [h] at hre; simp at hre
    have hinv : ((vals i)⁻¹).re ≠ 0 := by
      rw [Complex.inv_re]
      exact (div_pos hre (Complex.normSq_pos.mpr hv)).ne'
    have hz : ∀ a, (Uz * W) a i = 0 := by
      intro a
      have := congrFun h0 a
      have e : rightVecs q Uz Q vals W a i = 0 := this
      rw [hM, pinvDiagC, rdiag, diagonal_mul_diagonal, mul_diagonal] at e
      rw [if_pos (show Gt (vals i) (rcond q) from Or.inl hi)] at e
      rcases mul_eq_zero.mp e with e | e
      · exact e
      · rcases mul_eq_zero.mp e with e | e
        · exact absurd e hv
        · exact absurd (by exact_mod_cast e) hinv
    have e : Uzᴴ * (Uz * W) = W := by rw [← Matrix.mul_assoc, hU, Matrix.one_mul]
    funext a
    rw [Matrix.col_apply, ← e, Matrix.mul_apply]
    simp [hz]

/-- **C81** (left eigenvectors). What the operator stores as `eigenvectors` are left eigenvectors
of `Uz Qᴴ` in the weak sense. -/
theorem C81_left (q : Prec) (Uz Q : Matrix m r ℂ) (vals : r → ℂ) (WL W : Matrix r r ℂ)
    (hW : WLᴴ * atilde Q Uz = diagonal vals * WLᴴ) :
    (leftVecs q Uz Q vals WL W)ᴴ * (Uz * Qᴴ) = diagonal vals * (leftVecs q Uz Q vals WL W)ᴴ := by
  obtain ⟨a, b, hab⟩ : ∃ a b : r → ℝ, leftVecs q Uz Q vals WL W = Q * WL * rdiag a * rdiag b :=
    ⟨_, _, rfl⟩
  rw [hab]
  simp only [conjTranspose_mul, rdiag_conjTranspose]
  have hc : ∀ c : r → ℝ, rdiag c * diagonal vals = diagonal vals * rdiag c := by
    intro c; simp only [rdiag, diagonal_mul_diagonal]; congr 1; funext i; ring
  calc rdiag b * (rdiag a * (WLᴴ * Qᴴ)) * (Uz * Qᴴ)
      = rdiag b * (rdiag a * ((WLᴴ * (Qᴴ * Uz)) * Qᴴ)) := by simp only [Matrix.mul_assoc]
    _ = rdiag b * (rdiag a * diagonal vals) * (WLᴴ * Qᴴ) := by
        rw [show Qᴴ * Uz = atilde Q Uz from rfl, hW]; simp only [Matrix.mul_assoc]
    _ = _ := by
        rw [hc, ← Matrix.mul_assoc (rdiag b), hc b]; simp only [Matrix.mul_assoc]

/-- **C81** (lost modes). A mode whose eigenvalue has a real part below the threshold, in
particular a negative one, is the zero vector. -/
theorem C81_modes_vanish (q : Prec) (Uz Q : Matrix m r ℂ) (vals : r → ℂ) (W : Matrix r r ℂ) (i : r)
    (hi : (vals i).re < rcond q) : ∃ M, modes (fitSpaces .evd q Uz Q vals W) = some M ∧ M.col i = 0 := by
  refine ⟨_, rfl, ?_⟩
  funext a
  have hg : ¬ Gt (vals i) (rcond q) := by
    rintro (h | ⟨h, -⟩) <;> linarith
  rw [Matrix.col_apply, rightVecs, pinvDiagC, rdiag, mul_diagonal, if_neg hg]
  simp

/-- **C81** is false: the trajectory `1, -1` has the eigenvalue `-1` with eigenvector 1, but the
mode is zero (disagreement D74). -/
theorem C81_modes_false : ∃ (X Y U V Uz Vz W : Matrix (Fin 1) (Fin 1) ℂ) (s sz : Fin 1 → ℝ)
    (vals : Fin 1 → ℂ), Y = -X ∧ IsSVD X U s V ∧ IsSVD (matZ .double Y s V) Uz sz Vz ∧
    atilde (matQ .double Y U s V Uz) Uz * W = W * diagonal vals ∧ W.col 0 ≠ 0 ∧ vals 0 = -1 ∧
    modes (fitSpaces .evd .double Uz (matQ .double Y U s V Uz) vals W) = some 0 := by
  have hr : rcond .double < 1 := by rw [rcond]; norm_num
  have hp : pinvDiag .double (fun _ : Fin 1 => (1 : ℝ)) = 1 := by
    rw [pinvDiag]
    simp only [hr, if_true]
    ext i j; simp [rdiag, diagonal_apply, Matrix.one_apply]
  have h1 : rdiag (fun _ : Fin 1 => (1 : ℝ)) = 1 := by
    ext i j; simp [rdiag, diagonal_apply, Matrix.one_apply]
  refine ⟨1, -1, 1, 1, -1, 1, 1, fun _ => 1, fun _ => 1, fun _ => -1, rfl,
    ⟨by simp [h1], by simp, by simp, fun _ => by norm_num⟩,
    ⟨by simp [matZ, hp, h1], by simp, by simp, fun _ => by norm_num⟩, ?_, ?_, rfl, ?_⟩
  · ext i j
    simp [atilde, matQ, hp, diagonal_apply, Matrix.one_apply, Subsingleton.elim i j]
  · intro h
    have := congrFun h 0
    simp at this
  · obtain ⟨M, h2, h3⟩ := C81_modes_vanish .double (-1 : Matrix (Fin 1) (Fin 1) ℂ)
      (matQ .double (-1 : Matrix (Fin 1) (Fin 1) ℂ) 1 (fun _ : Fin 1 => (1 : ℝ)) 1 (-1)) (fun _ => -1) 1 0
      (by simp; linarith [rcond_pos .double])
    rw [h2]
    congr 1
    ext i j
    rw [Subsingleton.elim j 0]
    exact congrFun h3 i

/-- **C81** is false for prediction: after every `fit` with `factorization="evd"` (the default)
`predict` raises `AttributeError` (disagreement D75). -/
theorem C81_predict_false (q : Prec) (Uz Q : Matrix m r ℂ) (vals : r → ℂ) (W : Matrix r r ℂ)
    (y : Matrix m r ℂ) :
    predict .evd (fitSpaces .evd q Uz Q vals W) y = .error .attributeError := rfl

/-- Instance of the hypotheses of C81: `Uz = Q = 1`, eigenvalue 1. -/
example : (1 : Matrix (Fin 2) (Fin 2) ℂ)ᴴ * 1 = 1 ∧
    atilde (1 : Matrix (Fin 2) (Fin 2) ℂ) 1 * 1 = 1 * diagonal (fun _ => 1) ∧
    rcond .double < ((fun _ => 1 : Fin 2 → ℂ) 0).re := by
  refine ⟨by simp, by simp [atilde], ?_⟩
  rw [rcond]; norm_num

end

end Verif.OptDmd
