import Verif.Model.VarProWhole
import Verif.Props.VarProTime

/-!
# C172: the coordinates and the unit of the data in `VarProDMD`

Model: `Verif/Model/VarProWhole.lean`.
-/

set_option autoImplicit false

namespace Verif.VarPro

open Verif Verif.LinAlg Matrix

variable {m l n n' q q' t : ℕ}

/-! ### Vocabulary -/

/-- The modes `M` in other coordinates: a column without numbers stays one. -/
def InCoords (K : Matrix (Fin n') (Fin n) ℂ) (M : Fin n → Fin l → Option ℂ) (M' : Fin n' → Fin l → Option ℂ) : Prop :=
  ∀ j, ((∀ i, M i j = none) ∧ ∀ i, M' i j = none) ∨
    ∃ w : Fin n → ℂ, (∀ i, M i j = some (w i)) ∧ ∀ i, M' i j = some ((K *ᵥ w) i)

/-- The forecast `x` in other coordinates. -/
def StateInCoords (K : Matrix (Fin n') (Fin n) ℂ) (x : Fin n → Option ℂ) (x' : Fin n' → Option ℂ) : Prop :=
  ((∀ i, x i = none) ∧ ∀ i, x' i = none) ∨
    ∃ w : Fin n → ℂ, (∀ i, x i = some (w i)) ∧ ∀ i, x' i = some ((K *ᵥ w) i)

/-! ### Helpers -/

theorem svd_coords (K : Matrix (Fin n') (Fin n) ℂ) (hK : Kᴴ * K = 1) {p : ℕ} {X : Matrix (Fin n) (Fin t) ℂ}
    {U : Matrix (Fin n) (Fin p) ℂ} {s : Fin p → ℝ} {V : Matrix (Fin t) (Fin p) ℂ} (h : IsSVD X U s V) :
    IsSVD (K * X) (K * U) s V := by
  refine ⟨?_, ?_, h.v, h.nonneg⟩
  · rw [h.eq]; simp only [Matrix.mul_assoc]
  · rw [conjTranspose_mul, Matrix.mul_assoc, ← Matrix.mul_assoc Kᴴ, hK, Matrix.one_mul, h.u]

theorem xi_coords (K : Matrix (Fin n') (Fin n) ℂ) (W : Matrix (Fin n) (Fin q) ℂ) (b : Matrix (Fin l) (Fin q) ℂ) :
    xi (K * W) b = K * xi W b := by rw [xi, xi, Matrix.mul_assoc]

theorem normSq_coords (K : Matrix (Fin n') (Fin n) ℂ) (hK : Kᴴ * K = 1) (v : Fin n → ℂ) : normSq (K *ᵥ v) = normSq v := by
  have e : ∀ {p : ℕ} (w : Fin p → ℂ), ((normSq w : ℝ) : ℂ) = star w ⬝ᵥ w := by
    intro p w
    simp [normSq, dotProduct, Complex.normSq_eq_conj_mul_self]
  have : ((normSq (K *ᵥ v) : ℝ) : ℂ) = ((normSq v : ℝ) : ℂ) := by
    rw [e, e, star_mulVec, ← dotProduct_mulVec, mulVec_mulVec, hK, one_mulVec]
  exact_mod_cast this

theorem eigenf_coords (K : Matrix (Fin n') (Fin n) ℂ) (hK : Kᴴ * K = 1) (X : Matrix (Fin n) (Fin l) ℂ) :
    eigenf (K * X) = eigenf X := by
  funext j
  rw [eigenf, eigenf, show (K * X).col j = K *ᵥ X.col j from rfl, normSq_coords K hK]

theorem modes_coords (K : Matrix (Fin n') (Fin n) ℂ) (hK : Kᴴ * K = 1) (X : Matrix (Fin n) (Fin l) ℂ) :
    InCoords K (modes X) (modes (K * X)) := by
  intro j
  by_cases h : eigenf X j = 0
  · exact Or.inl ⟨fun i => by simp [modes, h], fun i => by simp [modes, eigenf_coords K hK, h]⟩
  · refine Or.inr ⟨fun i => X i j / eigenf X j, fun i => by simp [modes, h], fun i => ?_⟩
    simp only [modes, eigenf_coords K hK, h, if_false, Option.some.injEq, Matrix.mul_apply, mulVec, dotProduct, Finset.sum_div]
    exact Finset.sum_congr rfl fun k _ => by ring

/-- Rotated modes give rotated forecasts. -/
theorem predict_coords (K : Matrix (Fin n') (Fin n) ℂ) (M : Fin n → Fin l → Option ℂ) (M' : Fin n' → Fin l → Option ℂ)
    (h : InCoords K M M') (om : Fin l → ℂ) (ef : Fin l → ℝ) (τ : ℝ) :
    StateInCoords K (predict M om ef τ) (predict M' om ef τ) := by
  by_cases hj : ∃ j, (∀ i, M i j = none) ∧ ∀ i, M' i j = none
  · obtain ⟨j, h1, h2⟩ := hj
    refine Or.inl ⟨fun i => ?_, fun i => ?_⟩
    · rw [predict, nanSum, if_pos ⟨j, by simp [h1 i]⟩]
    · rw [predict, nanSum, if_pos ⟨j, by simp [h2 i]⟩]
  · have : ∀ j, ∃ w : Fin n → ℂ, (∀ i, M i j = some (w i)) ∧ ∀ i, M' i j = some ((K *ᵥ w) i) := by
      intro j
      rcases h j with h | h
      · exact absurd ⟨j, h⟩ hj
      · exact h
    choose w h1 h2 using this
    refine Or.inr ⟨fun i => ∑ j, w j i * (Complex.exp (om j * τ) * ef j), fun i => ?_, fun i => ?_⟩
    · rw [predict, nanSum, if_neg (by simp [h1])]
      simp [h1]
    · rw [predict, nanSum, if_neg (by simp [h2])]
      simp only [h2, Option.map_some, Option.getD_some, Option.some.injEq, mulVec, dotProduct, Finset.mul_sum, Finset.sum_mul]
      rw [Finset.sum_comm]
      exact Finset.sum_congr rfl fun k _ => Finset.sum_congr rfl fun j _ => by ring

/-! ### With projection -/

/-- **C172** (coordinates, `use_proj=True`). Let the columns of `K` be orthonormal: a rotation of the snapshots, another order of the
sensors, or sensors added that record nothing. The rotated data have the rotated left singular vectors, and with them the fit
returns the same exponents and amplitudes, the rotated modes, and rotated forecasts at all times, for every optimizer, every
selection of snapshots and every initial guess that are computed from the projected data. -/
theorem C172_coordinates (opt : Optimizer m l q) (L : Libs t m l q) (time : Fin (t + 1) → ℝ)
    (X : Matrix (Fin n) (Fin (t + 1)) ℂ) (K : Matrix (Fin n') (Fin n) ℂ) (hK : Kᴴ * K = 1)
    {p : ℕ} (U : Matrix (Fin n) (Fin p) ℂ) (s : Fin p → ℝ) (V : Matrix (Fin (t + 1)) (Fin p) ℂ) (h : IsSVD X U s V)
    (r : Fin q → Fin p) (k : ℕ) (M : Fin n → Fin l → Option ℂ) (om : Fin l → ℂ) (ef : Fin l → ℝ)
    (hfit : fitProj opt L time (U.submatrix id r) (fun i => s (r i)) (V.submatrix id r) k = some (M, om, ef)) :
    ∃ U', IsSVD (K * X) U' s V ∧ ∃ M',
      fitProj opt L time (U'.submatrix id r) (fun i => s (r i)) (V.submatrix id r) k = some (M', om, ef) ∧
      InCoords K M M' ∧ ∀ τ, StateInCoords K (predict M om ef τ) (predict M' om ef τ) := by
  have hU : (K * U).submatrix id r = K * U.submatrix id r := rfl
  refine ⟨K * U, svd_coords K hK h, ?_⟩
  rw [hU]
  simp only [fitProj, fitAny, fitRun] at hfit ⊢
  split at hfit
  · simp only [Option.some.injEq, Prod.mk.injEq] at hfit
    obtain ⟨rfl, rfl, rfl⟩ := hfit
    rw [xi_coords, eigenf_coords K hK]
    exact ⟨_, rfl, modes_coords K hK _, fun τ => predict_coords K _ _ (modes_coords K hK _) _ _ τ⟩
  · cases hfit

/-! ### Without projection -/

/-- The answer with the residual vector and every column of the Jacobian mapped by `T`. -/
def Answer.map {n n' : ℕ} (T : ((Fin m × Fin n) ⊕ (Fin m × Fin n) → ℝ) → (Fin m × Fin n') ⊕ (Fin m × Fin n') → ℝ) :
    Answer m l n → Answer m l n'
  | .rho v => .rho (T v)
  | .jac J => .jac fun c => T (J c)

/-- An optimizer that uses the residuals and the columns of the Jacobians only through their lengths and angles, in spaces of
two sizes. -/
def Geometric (opt : Optimizer m l n) (opt' : Optimizer m l n') : Prop :=
  ∀ T : ((Fin m × Fin n) ⊕ (Fin m × Fin n) → ℝ) → (Fin m × Fin n') ⊕ (Fin m × Fin n') → ℝ,
    (∀ v w, T v ⬝ᵥ T w = v ⬝ᵥ w) → ∀ x0 L, opt' x0 (L.map (Answer.map T)) = opt x0 L

/-- An optimizer that does not depend on the unit of the residual. -/
def UnitFree (opt : Optimizer m l n) : Prop :=
  ∀ c : ℝ, 0 < c → ∀ x0 L, opt x0 (L.map (Answer.map fun v => c • v)) = opt x0 L

theorem helper_right (time : Fin m → ℝ) (data : Matrix (Fin m) (Fin n) ℂ) (Q : Matrix (Fin n) (Fin n') ℂ) (α : Fin l → ℂ)
    (d : Svd (phi time α)) :
    (helper time (data * Q) α d).b = (helper time data α d).b * Q ∧
      (helper time (data * Q) α d).rho = (helper time data α d).rho * Q := by
  constructor
  · simp only [helper, Matrix.mul_assoc]
  · simp only [helper, Matrix.sub_mul, Matrix.mul_assoc]

theorem jacC_right (time : Fin m → ℝ) (data : Matrix (Fin m) (Fin n) ℂ) (Q : Matrix (Fin n) (Fin n') ℂ) (α : Fin l → ℂ)
    (d : Svd (phi time α)) (j : Fin l) :
    jacC time (helper time (data * Q) α d) j = jacC time (helper time data α d) j * Q := by
  obtain ⟨hb, hr⟩ := helper_right time data Q α d
  have hbj : (helper time (data * Q) α d).b j = (helper time data α d).b j ᵥ* Q := by
    rw [hb]; rfl
  have hd : dPhi time (helper time (data * Q) α d) j = dPhi time (helper time data α d) j := rfl
  have hv : ∀ (x : Fin m → ℂ) (y : Fin n → ℂ), vecMulVec x (y ᵥ* Q) = vecMulVec x y * Q := by
    intro x y
    rw [vecMulVec_mul]
  have hv' : ∀ (x : Fin (min m l) → ℂ) (y : Fin n → ℂ), vecMulVec x (y ᵥ* Q) = vecMulVec x y * Q := by
    intro x y
    rw [vecMulVec_mul]
  have hA : jacA time (helper time (data * Q) α d) j = jacA time (helper time data α d) j * Q := by
    simp only [jacA]
    rw [hd, hbj, hv, Matrix.sub_mul]
    congr 1
    simp only [Matrix.mul_assoc]
    rfl
  have hG : jacG time (helper time (data * Q) α d) j = jacG time (helper time data α d) j * Q := by
    simp only [jacG]
    rw [hd, hr, ← vecMul_vecMul, hv']
    simp only [Matrix.mul_assoc]
    rfl
  rw [jacC, jacC, hA, hG, Matrix.sub_mul, Matrix.neg_mul]

/-- The complex matrix of a vector of real and imaginary parts. -/
def unflat (v : (Fin m × Fin n) ⊕ (Fin m × Fin n) → ℝ) : Matrix (Fin m) (Fin n) ℂ :=
  Matrix.of fun i c => ⟨v (.inl (i, c)), v (.inr (i, c))⟩

theorem unflat_flat (R : Matrix (Fin m) (Fin n) ℂ) : unflat (flat R) = R := rfl

theorem flat_unflat (v : (Fin m × Fin n) ⊕ (Fin m × Fin n) → ℝ) : flat (unflat v) = v := by
  funext p
  rcases p with p | p <;> rfl

theorem flat_dot (R S : Matrix (Fin m) (Fin n) ℂ) : flat R ⬝ᵥ flat S = ((R * Sᴴ).trace).re := by
  simp only [dotProduct, Fintype.sum_sum_type, flat, Matrix.trace, Matrix.diag_apply, Matrix.mul_apply, conjTranspose_apply,
    Complex.re_sum, ← Finset.sum_add_distrib, Fintype.sum_prod_type]
  exact Finset.sum_congr rfl fun i _ => Finset.sum_congr rfl fun c _ => by simp [Complex.mul_re]

/-- What multiplying the data by `Q` does to residuals. -/
def turn (m : ℕ) (Q : Matrix (Fin n) (Fin n') ℂ) (v : (Fin m × Fin n) ⊕ (Fin m × Fin n) → ℝ) :
    (Fin m × Fin n') ⊕ (Fin m × Fin n') → ℝ := flat (unflat v * Q)

theorem turn_dot (Q : Matrix (Fin n) (Fin n') ℂ) (hQ : Q * Qᴴ = 1) (v w : (Fin m × Fin n) ⊕ (Fin m × Fin n) → ℝ) :
    turn m Q v ⬝ᵥ turn m Q w = v ⬝ᵥ w := by
  rw [turn, turn, flat_dot, conjTranspose_mul, Matrix.mul_assoc, ← Matrix.mul_assoc Q, hQ, Matrix.one_mul, ← flat_dot,
    flat_unflat, flat_unflat]

theorem turn_zero (Q : Matrix (Fin n) (Fin n') ℂ) : turn m Q (fun _ => 0) = fun _ => 0 := by
  have : unflat (m := m) (n := n) (fun _ => 0) = 0 := rfl
  rw [turn, this, Matrix.zero_mul]
  funext p
  rcases p with p | p <;> rfl

theorem turn_smul (c : ℝ) : turn (n := n) m ((c : ℂ) • (1 : Matrix (Fin n) (Fin n) ℂ)) = fun v => c • v := by
  funext v p
  rcases p with p | p <;> simp [turn, flat, unflat]

theorem jacobian_flat (time : Fin m → ℝ) (h : Helper m l n) (j : Fin l) :
    jacobian time h (.inl j) = flat (jacC time h j) ∧ jacobian time h (.inr j) = flat (Complex.I • jacC time h j) := by
  constructor
  · funext p
    rcases p with p | p <;> rfl
  · funext p
    rcases p with p | p <;> simp [jacobian, flat]

theorem residual_right (time : Fin m → ℝ) (data : Matrix (Fin m) (Fin n) ℂ) (Q : Matrix (Fin n) (Fin n') ℂ)
    (lib : ∀ α : Fin l → ℂ, Svd (phi time α)) (a : Point l) :
    residual time (data * Q) lib a = turn m Q (residual time data lib a) := by
  rw [residual, residual, (helper_right _ _ _ _ _).2, turn, unflat_flat]

theorem jacobian_right (time : Fin m → ℝ) (data : Matrix (Fin m) (Fin n) ℂ) (Q : Matrix (Fin n) (Fin n') ℂ) (α : Fin l → ℂ)
    (d : Svd (phi time α)) (c : Fin l ⊕ Fin l) :
    jacobian time (helper time (data * Q) α d) c = turn m Q (jacobian time (helper time data α d) c) := by
  rcases c with j | j
  · rw [(jacobian_flat _ _ _).1, (jacobian_flat _ _ _).1, jacC_right, turn, unflat_flat]
  · rw [(jacobian_flat _ _ _).2, (jacobian_flat _ _ _).2, jacC_right, turn, unflat_flat, Matrix.smul_mul]

/-- The run for data multiplied by `Q` on the right. -/
theorem optRun_right (opt : Optimizer m l n) (opt' : Optimizer m l n') (Q : Matrix (Fin n) (Fin n') ℂ)
    (ho : ∀ x0 L, opt' x0 (L.map (Answer.map (turn m Q))) = opt x0 L) (time : Fin m → ℝ) (data : Matrix (Fin m) (Fin n) ℂ)
    (lib : ∀ α : Fin l → ℂ, Svd (phi time α)) (x0 : Point l) (k : ℕ) :
    optRun opt' time (data * Q) lib x0 k =
      ⟨(optRun opt time data lib x0 k).answers.map (Answer.map (turn m Q)), (optRun opt time data lib x0 k).evals,
        (optRun opt time data lib x0 k).result⟩ := by
  induction k with
  | zero => rfl
  | succ k ih =>
    have hj : ∀ e, jacAnswer time (data * Q) lib e = fun c => turn m Q (jacAnswer time data lib e c) := by
      intro e
      funext c
      rcases he : e.getLast? with _ | a
      · simp only [jacAnswer, he]
        exact (turn_zero Q).symm
      · simp only [jacAnswer, he]
        exact jacobian_right _ _ _ _ _ _
    simp only [optRun]
    rw [ih]
    simp only [OState.step, ho]
    split
    · rfl
    · split
      · simp [residual_right, Answer.map]
      · simp [hj, Answer.map]
      · rfl

/-- The fit for data multiplied by `Q` on the right. -/
theorem fitRun_right (opt : Optimizer m l q) (opt' : Optimizer m l q') (Q : Matrix (Fin q) (Fin q') ℂ)
    (ho : ∀ x0 L, opt' x0 (L.map (Answer.map (turn m Q))) = opt x0 L) (time : Fin m → ℝ) (data : Matrix (Fin m) (Fin q) ℂ)
    (lib : ∀ α : Fin l → ℂ, Svd (phi time α)) (x0 : Point l) (W : Matrix (Fin n) (Fin q) ℂ) (W' : Matrix (Fin n') (Fin q') ℂ) (k : ℕ)
    (M : Fin n → Fin l → Option ℂ) (om : Fin l → ℂ) (ef : Fin l → ℝ) (hfit : fitRun opt time data lib x0 W k = some (M, om, ef)) :
    ∃ b : Matrix (Fin l) (Fin q) ℂ, M = modes (xi W b) ∧ ef = eigenf (xi W b) ∧
      fitRun opt' time (data * Q) lib x0 W' k = some (modes (xi W' (b * Q)), om, eigenf (xi W' (b * Q))) := by
  have hrun := optRun_right opt opt' Q ho time data lib x0 k
  simp only [fitRun] at hfit
  split at hfit
  · rename_i x a hx ha
    simp only [Option.some.injEq, Prod.mk.injEq] at hfit
    obtain ⟨rfl, rfl, rfl⟩ := hfit
    refine ⟨_, rfl, rfl, ?_⟩
    simp only [fitRun, hrun, hx, ha]
    rw [(helper_right _ _ _ _ _).1]
  · cases hfit

theorem fitAny_sel (opt : Optimizer m l q) (L : Libs t m l q) (time : Fin (t + 1) → ℝ) (D : Matrix (Fin q) (Fin (t + 1)) ℂ)
    (W : Matrix (Fin n) (Fin q) ℂ) (k : ℕ) (idx : Fin m → Fin (t + 1)) (h : L.sel D = idx) :
    fitAny opt L time D W k = fitRun opt (fun i => time (idx i)) (Matrix.of fun i c => D c (idx i)) (L.phiSvd _) (start L time D) W k := by
  subst h
  rfl

theorem initialSvdOf_left (time : Fin (t + 1) → ℝ) (K : Matrix (Fin q') (Fin q) ℂ) (D : Matrix (Fin q) (Fin (t + 1)) ℂ) :
    initialSvdOf time (K * D) = K * initialSvdOf time D := by
  ext i j
  simp only [initialSvdOf, preprocessing, slopes, of_apply, Matrix.mul_apply, ← Finset.sum_sub_distrib, Finset.sum_div]
  exact Finset.sum_congr rfl fun c _ => by ring

theorem means_left (K : Matrix (Fin q') (Fin q) ℂ) (D : Matrix (Fin q) (Fin (t + 1)) ℂ) : means (K * D) = K * means D := by
  ext i j
  simp only [means, of_apply, Matrix.mul_apply, ← Finset.sum_add_distrib, Finset.sum_div]
  exact Finset.sum_congr rfl fun c _ => by ring

/-- **C172** (coordinates, `use_proj=False`). The same without projection, for an optimizer that only uses the lengths and angles of
the residuals and of the columns of the Jacobians, if the library returns the rotated left singular vectors for the rotated
derivatives and the same snapshots are selected. -/
theorem C172_full (opt : Optimizer m l n) (opt' : Optimizer m l n') (ho : Geometric opt opt') (L : Libs t m l n)
    (L' : Libs t m l n') (time : Fin (t + 1) → ℝ) (X : Matrix (Fin n) (Fin (t + 1)) ℂ) (K : Matrix (Fin n') (Fin n) ℂ)
    (hK : Kᴴ * K = 1)
    (hsvd : ∀ d, L.svd (initialSvdOf time X) = d → L'.svd (K * initialSvdOf time X) = (K * d.1, d.2))
    (hsel : L'.sel (K * X) = L.sel X) (heig : L'.eig = L.eig) (hphi : L'.phiSvd = L.phiSvd)
    (k : ℕ) (M : Fin n → Fin l → Option ℂ) (om : Fin l → ℂ) (ef : Fin l → ℝ) (hfit : fitFull opt L time X k = some (M, om, ef)) :
    ∃ M', fitFull opt' L' time (K * X) k = some (M', om, ef) ∧ InCoords K M M' ∧
      ∀ τ, StateInCoords K (predict M om ef τ) (predict M' om ef τ) := by
  have hQ : Kᵀ * (Kᵀ)ᴴ = 1 := by
    have := congrArg Matrix.transpose hK
    rw [Matrix.transpose_mul, Matrix.transpose_one] at this
    rw [← this]
    rfl
  have hstart : start L' time (K * X) = start L time X := by
    simp only [start, initialSvdOf_left, hsvd _ rfl, heig]
    congr 2
    simp only [initialMatrix, aApprox, preprocessing, means_left]
    rw [conjTranspose_mul, Matrix.mul_assoc _ Kᴴ, ← Matrix.mul_assoc Kᴴ, hK, Matrix.one_mul]
  have hdata : (Matrix.of fun i c => (K * X) c (L.sel X i) : Matrix (Fin m) (Fin n') ℂ) =
      (Matrix.of fun i c => X c (L.sel X i)) * Kᵀ := by
    ext i c
    simp only [of_apply, Matrix.mul_apply, transpose_apply]
    exact Finset.sum_congr rfl fun _ _ => mul_comm _ _
  rw [fitFull, fitAny_sel _ _ _ _ _ _ _ rfl] at hfit
  obtain ⟨b, rfl, rfl, h⟩ := fitRun_right opt opt' Kᵀ (ho (turn m Kᵀ) (turn_dot Kᵀ hQ)) _ _ _ _ 1 (1 : Matrix (Fin n') (Fin n') ℂ) k _ _ _ hfit
  have hx : xi (1 : Matrix (Fin n') (Fin n') ℂ) (b * Kᵀ) = K * xi 1 b := by
    rw [xi, xi, Matrix.one_mul, Matrix.one_mul, transpose_mul, transpose_transpose]
  rw [hx, eigenf_coords K hK] at h
  rw [fitFull, fitAny_sel _ _ _ _ _ _ _ hsel, hdata, hstart, hphi]
  exact ⟨_, h, modes_coords K hK _, fun τ => predict_coords K _ _ (modes_coords K hK _) _ _ τ⟩

/-! ### Unit of the data -/

theorem svd_unit (c : ℝ) (hc : 0 < c) {p : ℕ} {X : Matrix (Fin n) (Fin t) ℂ} {U : Matrix (Fin n) (Fin p) ℂ} {s : Fin p → ℝ}
    {V : Matrix (Fin t) (Fin p) ℂ} (h : IsSVD X U s V) : IsSVD ((c : ℂ) • X) U (fun i => c * s i) V := by
  refine ⟨?_, h.u, h.v, fun i => mul_nonneg hc.le (h.nonneg i)⟩
  have : (rdiag fun i => c * s i) = (c : ℂ) • rdiag s := by
    ext i j
    by_cases hij : i = j <;> simp [rdiag, hij]
  rw [this, h.eq, Matrix.mul_smul, Matrix.smul_mul]

/-- **C172** (unit of the data). In another unit of the data the fit returns the same exponents and modes, the amplitudes in that
unit, and forecasts in that unit, for an optimizer that does not depend on the unit of the residual, if the library's
decomposition of the derivatives in that unit is that in the old one. Missing: `least_squares` depends on the unit, see
`C172_unit_false`. -/
theorem C172_unit_partial (opt : Optimizer m l q) (ho : UnitFree opt) (L L' : Libs t m l q) (time : Fin (t + 1) → ℝ)
    (X : Matrix (Fin n) (Fin (t + 1)) ℂ) (c : ℝ) (hc : 0 < c) {p : ℕ} (U : Matrix (Fin n) (Fin p) ℂ) (s : Fin p → ℝ)
    (V : Matrix (Fin (t + 1)) (Fin p) ℂ) (h : IsSVD X U s V) (r : Fin q → Fin p)
    (hsvd : ∀ Z d, L.svd Z = d → L'.svd ((c : ℂ) • Z) = (d.1, fun i => c * d.2.1 i, d.2.2))
    (hsel : ∀ D, L'.sel ((c : ℂ) • D) = L.sel D) (heig : L'.eig = L.eig) (hphi : L'.phiSvd = L.phiSvd) (k : ℕ) (M : Fin n → Fin l → Option ℂ) (om : Fin l → ℂ) (ef : Fin l → ℝ)
    (hfit : fitProj opt L time (U.submatrix id r) (fun i => s (r i)) (V.submatrix id r) k = some (M, om, ef)) :
    IsSVD ((c : ℂ) • X) U (fun i => c * s i) V ∧
      fitProj opt L' time (U.submatrix id r) (fun i => c * s (r i)) (V.submatrix id r) k = some (M, om, fun j => c * ef j) ∧
      ∀ τ i, predict M om (fun j => c * ef j) τ i = (predict M om ef τ i).map fun x => (c : ℂ) * x := by
  have hc' : (c : ℂ) ≠ 0 := by exact_mod_cast hc.ne'
  refine ⟨svd_unit c hc h, ?_, fun τ i => ?_⟩
  · have hD : projected (fun i => c * s (r i)) (V.submatrix id r) = (c : ℂ) • projected (fun i => s (r i)) (V.submatrix id r) := by
      ext i j
      simp [projected, rdiag, Matrix.diagonal_mul, mul_assoc]
    have hl : ∀ D : Matrix (Fin q) (Fin (t + 1)) ℂ, (c : ℂ) • D = ((c : ℂ) • (1 : Matrix (Fin q) (Fin q) ℂ)) * D := by
      intro D
      rw [Matrix.smul_mul, Matrix.one_mul]
    simp only [fitProj, hD] at hfit ⊢
    generalize projected (fun i => s (r i)) (V.submatrix id r) = D at hfit ⊢
    have hstart : start L' time ((c : ℂ) • D) = start L time D := by
      have e1 : initialSvdOf time ((c : ℂ) • D) = (c : ℂ) • initialSvdOf time D := by
        rw [hl, initialSvdOf_left, Matrix.smul_mul, Matrix.one_mul]
      have e2 : means ((c : ℂ) • D) = (c : ℂ) • means D := by
        rw [hl, means_left, Matrix.smul_mul, Matrix.one_mul]
      simp only [start, e1, hsvd _ _ rfl, heig]
      congr 2
      simp only [initialMatrix, aApprox, preprocessing, e2]
      have : (rdiag fun i => (c * (L.svd (initialSvdOf time D)).2.1 i)⁻¹) =
          (c : ℂ)⁻¹ • rdiag fun i => ((L.svd (initialSvdOf time D)).2.1 i)⁻¹ := by
        ext i j
        by_cases hij : i = j
        · subst hij
          simp [rdiag, mul_comm]
        · simp [rdiag, hij]
      rw [this, Matrix.mul_smul, Matrix.mul_smul, Matrix.mul_smul, Matrix.smul_mul, smul_smul, inv_mul_cancel₀ hc', one_smul]
    have hdata : (Matrix.of fun i a => ((c : ℂ) • D) a (L.sel D i) : Matrix (Fin m) (Fin q) ℂ) =
        (Matrix.of fun i a => D a (L.sel D i)) * ((c : ℂ) • (1 : Matrix (Fin q) (Fin q) ℂ)) := by
      rw [Matrix.mul_smul, Matrix.mul_one]
      rfl
    rw [fitAny_sel _ _ _ _ _ _ _ rfl] at hfit
    obtain ⟨b, rfl, rfl, h⟩ := fitRun_right opt opt ((c : ℂ) • (1 : Matrix (Fin q) (Fin q) ℂ)) (by rw [turn_smul]; exact ho c hc)
      _ _ _ _ (U.submatrix id r) (U.submatrix id r) k _ _ _ hfit
    have hX : xi (U.submatrix id r) (b * ((c : ℂ) • (1 : Matrix (Fin q) (Fin q) ℂ))) = (c : ℂ) • xi (U.submatrix id r) b := by
      rw [xi, xi, Matrix.mul_smul, Matrix.mul_one, transpose_smul, Matrix.mul_smul]
    rw [hX] at h
    rw [fitAny_sel _ _ _ _ _ _ _ (hsel D), hdata, hstart, hphi, h]
    generalize xi (U.submatrix id r) b = Y
    have hef : ∀ j, eigenf ((c : ℂ) • Y) j = c * eigenf Y j := by
      intro j
      rw [eigenf_scale Y ((c : ℂ) • Y) (fun _ => c) (fun _ _ => rfl)]
      simp [abs_of_pos hc]
    simp only [Option.some.injEq, Prod.mk.injEq]
    refine ⟨?_, trivial, funext hef⟩
    funext i j
    by_cases h0 : eigenf Y j = 0
    · simp only [modes, hef, h0, mul_zero, if_true]
    · simp only [modes, hef, mul_eq_zero, hc.ne', h0, or_self, if_false, Matrix.smul_apply, smul_eq_mul, Option.some.injEq]
      push_cast
      rw [mul_div_mul_left _ _ hc']
  · simp only [predict, nanSum, Option.map_eq_none_iff]
    split
    · rfl
    · rename_i h
      simp only [Option.map_some, Option.some.injEq, Finset.mul_sum]
      refine Finset.sum_congr rfl fun j _ => ?_
      rcases hM : M i j with _ | z
      · exact absurd ⟨j, hM⟩ h
      · simp only [Option.map_some, Option.getD_some]
        push_cast
        ring

/-- What `least_squares` does first (`scipy/optimize/_lsq/trf.py`): residual and Jacobian at the starting point, and, if all
components of the gradient `J^T f` are smaller than `gtol`, return that point. -/
def StopsAt (gtol : ℝ) (opt : Optimizer m l n) : Prop :=
  ∀ x0, opt x0 [] = .inl (.rho x0) ∧ ∀ v, opt x0 [.rho v] = .inl (.jac x0) ∧
    ∀ J, (∀ c, |J c ⬝ᵥ v| < gtol) → opt x0 [.rho v, .jac J] = .inr x0

theorem optRun_done (opt : Optimizer m l n) (time : Fin m → ℝ) (data : Matrix (Fin m) (Fin n) ℂ)
    (lib : ∀ α : Fin l → ℂ, Svd (phi time α)) (x0 : Point l) (k : ℕ) (x : Point l)
    (h : (optRun opt time data lib x0 k).result = some x) (i : ℕ) :
    optRun opt time data lib x0 (k + i) = optRun opt time data lib x0 k := by
  induction i with
  | zero => rfl
  | succ i ih =>
    rw [← Nat.add_assoc, optRun, ih, OState.step, h]

/-- **C172** is false for the unit of the data: `gtol` (by default `1e-8`) is compared with the gradient of the squared residual, which has
the unit of the data squared. For all data and every `gtol > 0` there is a unit such that in it, and in every larger one, the
optimisation stops at the initial guess and the fit returns it as the exponents (disagreement D233). -/
theorem C172_unit_false (gtol : ℝ) (hg : 0 < gtol) (opt : Optimizer m l q) (ho : StopsAt gtol opt) (time : Fin m → ℝ)
    (data : Matrix (Fin m) (Fin q) ℂ) (lib : ∀ α : Fin l → ℂ, Svd (phi time α)) (x0 : Point l) (W : Matrix (Fin n) (Fin q) ℂ) :
    ∃ c0 : ℝ, 0 < c0 ∧ ∀ c : ℝ, 0 < c → c ≤ c0 → ∀ k, 3 ≤ k →
      ∃ M ef, fitRun opt time ((c : ℂ) • data) lib x0 W k = some (M, complexAlphas x0, ef) := by
  let J := jacobian time (helper time data (complexAlphas x0) (lib (complexAlphas x0)))
  let v := residual time data lib x0
  let B := ∑ a, |J a ⬝ᵥ v|
  have hB : 0 ≤ B := Finset.sum_nonneg fun _ _ => abs_nonneg _
  have hp : 0 < gtol / (B + 1) := by positivity
  refine ⟨√(gtol / (B + 1)), Real.sqrt_pos.mpr hp, fun c hc hle k hk => ?_⟩
  have hc2 : c ^ 2 ≤ gtol / (B + 1) := by
    have := Real.sq_sqrt hp.le
    nlinarith [Real.sqrt_nonneg (gtol / (B + 1))]
  have hd : (c : ℂ) • data = data * ((c : ℂ) • (1 : Matrix (Fin q) (Fin q) ℂ)) := by rw [Matrix.mul_smul, Matrix.mul_one]
  have hv : residual time ((c : ℂ) • data) lib x0 = c • v := by
    rw [hd, residual_right, turn_smul]
  have hJ : ∀ a, jacobian time (helper time ((c : ℂ) • data) (complexAlphas x0) (lib (complexAlphas x0))) a = c • J a := by
    intro a
    rw [hd, jacobian_right, turn_smul]
  obtain ⟨h0, h1⟩ := ho x0
  obtain ⟨h2, h3⟩ := h1 (residual time ((c : ℂ) • data) lib x0)
  have h4 := h3 (jacobian time (helper time ((c : ℂ) • data) (complexAlphas x0) (lib (complexAlphas x0)))) (by
    intro a
    rw [hv, hJ, smul_dotProduct, dotProduct_smul, smul_smul, smul_eq_mul, abs_mul, abs_of_pos (by positivity)]
    have ha : |J a ⬝ᵥ v| ≤ B := Finset.single_le_sum (f := fun a => |J a ⬝ᵥ v|) (fun _ _ => abs_nonneg _) (Finset.mem_univ a)
    calc c * c * |J a ⬝ᵥ v| ≤ gtol / (B + 1) * B := by
          rw [← sq]
          exact mul_le_mul hc2 ha (abs_nonneg _) hp.le
      _ < gtol := by
          rw [div_mul_eq_mul_div, div_lt_iff₀ (by positivity)]
          nlinarith)
  have r3 : (optRun opt time ((c : ℂ) • data) lib x0 3).result = some x0 ∧
      (optRun opt time ((c : ℂ) • data) lib x0 3).evals = [x0] := by
    have s1 : optRun opt time ((c : ℂ) • data) lib x0 1 = ⟨[.rho (residual time ((c : ℂ) • data) lib x0)], [x0], none⟩ := by
      simp [optRun, OState.step, h0]
    have s2 : optRun opt time ((c : ℂ) • data) lib x0 2 = ⟨[.rho (residual time ((c : ℂ) • data) lib x0),
        .jac (jacobian time (helper time ((c : ℂ) • data) (complexAlphas x0) (lib (complexAlphas x0))))], [x0], none⟩ := by
      rw [optRun, s1]
      simp only [OState.step, h2]
      rfl
    have s3 : optRun opt time ((c : ℂ) • data) lib x0 3 = ⟨[.rho (residual time ((c : ℂ) • data) lib x0),
        .jac (jacobian time (helper time ((c : ℂ) • data) (complexAlphas x0) (lib (complexAlphas x0))))], [x0], some x0⟩ := by
      rw [optRun, s2]
      simp only [OState.step, h4]
    rw [s3]
    exact ⟨rfl, rfl⟩
  obtain ⟨i, rfl⟩ := Nat.exists_eq_add_of_le hk
  have := optRun_done opt time ((c : ℂ) • data) lib x0 3 x0 r3.1 i
  simp only [fitRun, this, r3.1, r3.2]
  exact ⟨_, _, rfl⟩

/-! ### The hypotheses are met -/

/-- A small optimizer: stop if the gradient is below `gtol`, else try one step along it and keep the better point. -/
noncomputable def gradStep (gtol : ℝ) : Optimizer m l n := fun x0 L =>
  open Classical in
  match L with
  | [] => .inl (.rho x0)
  | [.rho _] => .inl (.jac x0)
  | [.rho v, .jac J] => if ∀ c, |J c ⬝ᵥ v| < gtol then .inr x0 else .inl (.rho fun c => x0 c - J c ⬝ᵥ v / (v ⬝ᵥ v))
  | [.rho v, .jac J, .rho w] => if w ⬝ᵥ w < v ⬝ᵥ v then .inr fun c => x0 c - J c ⬝ᵥ v / (v ⬝ᵥ v) else .inr x0
  | _ => .inr x0

theorem gradStep_stops (gtol : ℝ) : StopsAt gtol (gradStep gtol : Optimizer m l n) :=
  fun x0 => ⟨rfl, fun v => ⟨rfl, fun J h => if_pos h⟩⟩

theorem gradStep_geometric (gtol : ℝ) : Geometric (gradStep gtol : Optimizer m l n) (gradStep gtol : Optimizer m l n') := by
  intro T hT x0 L
  match L with
  | [] => rfl
  | [.rho _] => rfl
  | [.jac _] => rfl
  | [.rho v, .jac J] => simp only [gradStep, List.map_cons, List.map_nil, Answer.map, hT]
  | [.rho v, .jac J, .rho w] => simp only [gradStep, List.map_cons, List.map_nil, Answer.map, hT]
  | [.rho v, .rho w] => rfl
  | [.jac v, .rho w] => rfl
  | [.jac v, .jac w] => rfl
  | [.rho v, .jac J, .jac w] => rfl
  | [.rho v, .rho J, _] => rfl
  | [.jac v, _, _] => rfl
  | a :: b :: c :: d :: L => rcases a with a | a <;> rcases b with b | b <;> rcases c with c | c <;> rfl

theorem gradStep_unitFree : UnitFree (gradStep 0 : Optimizer m l n) := by
  intro c hc x0 L
  have hd : ∀ v w : (Fin m × Fin n) ⊕ (Fin m × Fin n) → ℝ, (c • v) ⬝ᵥ (c • w) = c * c * (v ⬝ᵥ w) := by
    intro v w
    rw [smul_dotProduct, dotProduct_smul, smul_smul, smul_eq_mul]
  have hcc : 0 < c * c := by positivity
  have h1 : ∀ x : ℝ, ¬ |x| < 0 := fun x => not_lt.mpr (abs_nonneg x)
  have h2 : ∀ x y : ℝ, c * c * x / (c * c * y) = x / y := fun x y => mul_div_mul_left _ _ hcc.ne'
  match L with
  | [] => rfl
  | [.rho _] => rfl
  | [.jac _] => rfl
  | [.rho v, .jac J] => simp only [gradStep, List.map_cons, List.map_nil, Answer.map, hd, h1, h2]
  | [.rho v, .jac J, .rho w] =>
    simp only [gradStep, List.map_cons, List.map_nil, Answer.map, hd, h2, mul_lt_mul_iff_right₀ hcc]
  | [.rho v, .rho w] => rfl
  | [.jac v, .rho w] => rfl
  | [.jac v, .jac w] => rfl
  | [.rho v, .jac J, .jac w] => rfl
  | [.rho v, .rho J, _] => rfl
  | [.jac v, _, _] => rfl
  | a :: b :: c :: d :: L => rcases a with a | a <;> rcases b with b | b <;> rcases c with c | c <;> rfl

/-- It always ends, so that the hypothesis `hfit` is met by every data set. -/
theorem gradStep_ends (gtol : ℝ) (time : Fin m → ℝ) (data : Matrix (Fin m) (Fin q) ℂ) (lib : ∀ α : Fin l → ℂ, Svd (phi time α))
    (x0 : Point l) (W : Matrix (Fin n) (Fin q) ℂ) : ∃ M om ef, fitRun (gradStep gtol) time data lib x0 W 4 = some (M, om, ef) := by
  have s2 : optRun (gradStep gtol) time data lib x0 2 = ⟨[.rho (residual time data lib x0), .jac (jacAnswer time data lib [x0])],
      [x0], none⟩ := rfl
  by_cases h : ∀ c, |jacAnswer time data lib [x0] c ⬝ᵥ residual time data lib x0| < gtol
  · have s4 : optRun (gradStep gtol) time data lib x0 4 =
        ⟨[.rho (residual time data lib x0), .jac (jacAnswer time data lib [x0])], [x0], some x0⟩ := by
      rw [optRun, optRun, s2]
      simp only [OState.step, gradStep, if_pos h]
    simp only [fitRun, s4]
    exact ⟨_, _, _, rfl⟩
  · obtain ⟨x1, hx⟩ : ∃ x1, x1 = fun c => x0 c -
      jacAnswer time data lib [x0] c ⬝ᵥ residual time data lib x0 / (residual time data lib x0 ⬝ᵥ residual time data lib x0) := ⟨_, rfl⟩
    have s3 : optRun (gradStep gtol) time data lib x0 3 = ⟨[.rho (residual time data lib x0), .jac (jacAnswer time data lib [x0]),
        .rho (residual time data lib x1)], [x0, x1], none⟩ := by
      rw [optRun, s2]
      simp only [OState.step, gradStep, if_neg h, hx]
      rfl
    have s4 : ∃ x, optRun (gradStep gtol) time data lib x0 4 = ⟨[.rho (residual time data lib x0), .jac (jacAnswer time data lib [x0]),
        .rho (residual time data lib x1)], [x0, x1], some x⟩ := by
      rw [optRun, s3]
      simp only [OState.step, gradStep]
      split_ifs with h1
      · exact ⟨_, rfl⟩
      · exact ⟨_, rfl⟩
    obtain ⟨x, s4⟩ := s4
    simp only [fitRun, s4]
    exact ⟨_, _, _, rfl⟩

/-- Libraries exist. -/
theorem exists_phiSvd : Nonempty (∀ (time : Fin m → ℝ) (α : Fin l → ℂ), Svd (phi time α)) := by
  refine ⟨fun time α => ?_⟩
  have h := exists_svd (phi time α)
  exact ⟨h.choose, h.choose_spec.choose, h.choose_spec.choose_spec.choose, h.choose_spec.choose_spec.choose_spec.1⟩

/-- The libraries after a change of coordinates. -/
def Libs.turned (L : Libs t m l n) (K : Matrix (Fin n') (Fin n) ℂ) : Libs t m l n' where
  svd Z := (K * (L.svd (Kᴴ * Z)).1, (L.svd (Kᴴ * Z)).2)
  eig := L.eig
  sel D := L.sel (Kᴴ * D)
  phiSvd := L.phiSvd

/-- The libraries after a change of the unit. -/
noncomputable def Libs.scaled (L : Libs t m l n) (c : ℝ) : Libs t m l n where
  svd Z := ((L.svd ((c : ℂ)⁻¹ • Z)).1, fun i => c * (L.svd ((c : ℂ)⁻¹ • Z)).2.1 i, (L.svd ((c : ℂ)⁻¹ • Z)).2.2)
  eig := L.eig
  sel D := L.sel ((c : ℂ)⁻¹ • D)
  phiSvd := L.phiSvd

/-- Two sensors exchanged and a third added that records nothing. -/
def exK : Matrix (Fin 3) (Fin 2) ℂ := !![0, 1; 1, 0; 0, 0]

theorem exK_iso : exKᴴ * exK = 1 := by
  ext i j
  fin_cases i <;> fin_cases j <;> simp [exK, Matrix.mul_apply, Fin.sum_univ_three]

/-- `C172_coordinates` and `C172_unit_partial` apply to all data of two sensors. -/
example (L : Libs t m l (min 2 (t + 1))) (time : Fin (t + 1) → ℝ) (X : Matrix (Fin 2) (Fin (t + 1)) ℂ) :
    ∃ U s V, IsSVD X U s V ∧ exKᴴ * exK = 1 ∧ UnitFree (gradStep 0 : Optimizer m l (min 2 (t + 1))) ∧
      (∃ M om ef, fitProj (gradStep 0) L time (U.submatrix id id) (fun i => s (id i)) (V.submatrix id id) 4 = some (M, om, ef)) ∧
      (∀ Z d, L.svd Z = d → (L.scaled 2).svd (((2 : ℝ) : ℂ) • Z) = (d.1, fun i => 2 * d.2.1 i, d.2.2)) ∧
      (∀ D, (L.scaled 2).sel (((2 : ℝ) : ℂ) • D) = L.sel D) := by
  obtain ⟨U, s, V, h, -⟩ := exists_svd X
  have h2 : ∀ {a b : ℕ} (Z : Matrix (Fin a) (Fin b) ℂ), (((2 : ℝ) : ℂ))⁻¹ • (((2 : ℝ) : ℂ) • Z) = Z := by
    intro a b Z
    rw [smul_smul, inv_mul_cancel₀ (by norm_num), one_smul]
  refine ⟨U, s, V, h, exK_iso, gradStep_unitFree, gradStep_ends _ _ _ _ _ _, ?_, fun D => ?_⟩
  · rintro Z _ rfl
    simp only [Libs.scaled, h2]
  · simp only [Libs.scaled, h2]

/-- `C172_full` applies to all data of two sensors. -/
example (L : Libs t m l 2) (time : Fin (t + 1) → ℝ) (X : Matrix (Fin 2) (Fin (t + 1)) ℂ) (gtol : ℝ) :
    Geometric (gradStep gtol : Optimizer m l 2) (gradStep gtol : Optimizer m l 3) ∧
      (∀ d, L.svd (initialSvdOf time X) = d → (L.turned exK).svd (exK * initialSvdOf time X) = (exK * d.1, d.2)) ∧
      (L.turned exK).sel (exK * X) = L.sel X ∧ ∃ M om ef, fitFull (gradStep gtol) L time X 4 = some (M, om, ef) := by
  have h2 : ∀ {b : ℕ} (Z : Matrix (Fin 2) (Fin b) ℂ), exKᴴ * (exK * Z) = Z := by
    intro b Z
    rw [← Matrix.mul_assoc, exK_iso, Matrix.one_mul]
  refine ⟨gradStep_geometric gtol, ?_, ?_, gradStep_ends _ _ _ _ _ _⟩
  · rintro _ rfl
    simp only [Libs.turned, h2]
  · simp only [Libs.turned, h2]

/-- The samples `1, 3` at the times `0, 1`, started at the exponent `0`: the gradient is `-2`, so that in this unit the optimisation does
not stop at the initial guess. -/
example (lib : ∀ α : Fin 1 → ℂ, Svd (phi ![0, 1] α)) :
    jacobian ![0, 1] (helper ![0, 1] !![1; 3] (complexAlphas 0) (lib (complexAlphas 0))) (.inl 0) ⬝ᵥ
      residual ![0, 1] !![1; 3] lib (0 : Point 1) = -2 := by
  have hphi : phi ![0, 1] (complexAlphas (0 : Point 1)) = !![1; 1] := by
    have h0 : complexAlphas (0 : Point 1) 0 = 0 := rfl
    ext i j
    fin_cases i <;> fin_cases j <;> simp [phi, h0]
  have hinj : Injective (phi ![0, 1] (complexAlphas (0 : Point 1))) := by
    intro v hv
    rw [hphi] at hv
    funext i
    obtain rfl : i = 0 := Subsingleton.elim _ _
    have := congrFun hv 0
    simpa [mulVec, dotProduct] using this
  have hl : linv (phi ![0, 1] (complexAlphas (0 : Point 1))) = !![1 / 2, 1 / 2] := by
    rw [hphi, linv]
    have : ((!![1; 1] : Matrix (Fin 2) (Fin 1) ℂ)ᴴ * (!![1; 1] : Matrix (Fin 2) (Fin 1) ℂ))⁻¹ = !![1 / 2] := by
      apply inv_eq_right_inv
      ext i j
      fin_cases i; fin_cases j
      simp [Matrix.mul_apply]
      norm_num
    rw [this]
    ext i j
    fin_cases i
    fin_cases j <;> simp [Matrix.mul_apply, vecMul, dotProduct, conjTranspose_apply]
  obtain ⟨hb, hr, hu, -⟩ := helper_eq !![1; 3] hinj (lib (complexAlphas 0))
  have hr' : (helper ![0, 1] !![1; 3] (complexAlphas (0 : Point 1)) (lib (complexAlphas 0))).rho = !![-1; 1] := by
    rw [hr, hl, hphi]
    ext i j
    fin_cases i <;> fin_cases j <;> simp [Matrix.mul_apply] <;> norm_num
  have hb' : (helper ![0, 1] !![1; 3] (complexAlphas (0 : Point 1)) (lib (complexAlphas 0))).b = !![2] := by
    rw [hb, hl]
    ext i j
    fin_cases i; fin_cases j
    simp [Matrix.mul_apply]
    norm_num
  have hd : dPhi ![0, 1] (helper ![0, 1] !![1; 3] (complexAlphas (0 : Point 1)) (lib (complexAlphas 0))) 0 = ![0, 1] := by
    funext i
    have : (helper ![0, 1] !![1; 3] (complexAlphas (0 : Point 1)) (lib (complexAlphas 0))).phi = !![1; 1] := hphi
    simp only [dPhi, this]
    fin_cases i <;> simp
  have hu' : (helper ![0, 1] !![1; 3] (complexAlphas (0 : Point 1)) (lib (complexAlphas 0))).u *
      (helper ![0, 1] !![1; 3] (complexAlphas (0 : Point 1)) (lib (complexAlphas 0))).uᴴ =
      (!![1; 1] : Matrix (Fin 2) (Fin 1) ℂ) * (!![1 / 2, 1 / 2] : Matrix (Fin 1) (Fin 2) ℂ) := by
    exact hu.trans (congrArg₂ _ hphi hl)
  have hC : jacC ![0, 1] (helper ![0, 1] !![1; 3] (complexAlphas (0 : Point 1)) (lib (complexAlphas 0))) 0 = !![1 / 2; -3 / 2] := by
    rw [jacC, jacA, jacG_eq _ hinj]
    have e1 : vecMulVec (![0, 1] : Fin 2 → ℂ) ((!![2] : Matrix (Fin 1) (Fin 1) ℂ) 0) = !![0; 2] := by
      ext i j
      fin_cases i <;> fin_cases j <;> simp [vecMulVec_apply]
    have e2 : star (![0, 1] : Fin 2 → ℂ) ᵥ* (!![-1; 1] : Matrix (Fin 2) (Fin 1) ℂ) = fun _ => 1 := by
      funext j
      fin_cases j
      simp [vecMul, dotProduct]
    have e3 : (fun i => star ((!![1 / 2, 1 / 2] : Matrix (Fin 1) (Fin 2) ℂ) 0 i)) = fun _ => 1 / 2 := by
      funext i
      fin_cases i <;> simp
    simp only [hd, hb', hu', hr', hl, e1, e2, e3]
    ext i j
    fin_cases i <;> fin_cases j <;> simp [Matrix.mul_apply, vecMulVec_apply] <;> norm_num
  rw [(jacobian_flat _ _ _).1, residual, hC, hr', flat_dot]
  simp only [Matrix.trace, Matrix.diag_apply, Matrix.mul_apply, conjTranspose_apply, Fin.sum_univ_two]
  simp
  norm_num

end Verif.VarPro
