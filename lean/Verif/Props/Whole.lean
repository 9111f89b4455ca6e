import Verif.Model.Whole
import Verif.Model.Rank
import Verif.Props.RealData
import Verif.Lemmas.SvdExists
import Verif.Lemmas.EigExists

/-!
# Property C134: coordinates, order of the snapshots, units
-/

set_option autoImplicit false

namespace Verif.Whole

open Verif Verif.LinAlg Verif.Operator Matrix

variable {m m' n : Type} [Fintype m] [Fintype m'] [Fintype n]

theorem normSq_isometry [DecidableEq m] (Q : Matrix m' m ℂ) (hQ : Qᴴ * Q = 1) (v : m → ℂ) :
    normSq (Q *ᵥ v) = normSq v := by
  have : ((normSq (Q *ᵥ v) : ℝ) : ℂ) = (normSq v : ℝ) := by
    rw [normSq_eq_dot, normSq_eq_dot, star_mulVec, dotProduct_mulVec, vecMul_vecMul, hQ, vecMul_one]
  exact_mod_cast this

theorem frobSq_cols (A : Matrix m n ℂ) : frobSq A = ∑ j, normSq (fun i => A i j) := by
  simp only [frobSq, normSq]
  exact Finset.sum_comm

theorem frobSq_isometry [DecidableEq m] (Q : Matrix m' m ℂ) (hQ : Qᴴ * Q = 1) (X : Matrix m n ℂ) :
    frobSq (Q * X) = frobSq X := by
  rw [frobSq_cols, frobSq_cols]
  refine Finset.sum_congr rfl fun j _ => ?_
  exact normSq_isometry Q hQ fun i => X i j

theorem svd_isometry [DecidableEq m] {p : ℕ} (Q : Matrix m' m ℂ) (hQ : Qᴴ * Q = 1) {X : Matrix m n ℂ}
    {U : Matrix m (Fin p) ℂ} {s : Fin p → ℝ} {V : Matrix n (Fin p) ℂ} (h : IsSVD X U s V) :
    IsSVD (Q * X) (Q * U) s V := by
  refine ⟨?_, ?_, h.v, h.nonneg⟩
  · rw [h.eq]; simp only [Matrix.mul_assoc]
  · rw [conjTranspose_mul, Matrix.mul_assoc, ← Matrix.mul_assoc Qᴴ, hQ, Matrix.one_mul, h.u]

omit [Fintype m'] in
theorem lead_mul {p q : ℕ} (hq : q ≤ p) (Q : Matrix m' m ℂ) (U : Matrix m (Fin p) ℂ) :
    lead q hq (Q * U) = Q * lead q hq U := by
  ext i j
  simp [lead, Matrix.mul_apply]

theorem operator_isometry [DecidableEq m] {r : Type} [Fintype r] [DecidableEq r] (tik : Option (ℝ × ℝ))
    (Q : Matrix m' m ℂ) (hQ : Qᴴ * Q = 1) (U : Matrix m r ℂ) (s : r → ℝ) (V : Matrix n r ℂ) (Y : Matrix m n ℂ) :
    leastSquareOperator tik (Q * U) s V (Q * Y) = leastSquareOperator tik U s V Y := by
  simp only [leastSquareOperator, conjTranspose_mul]
  rw [Matrix.mul_assoc Uᴴ, ← Matrix.mul_assoc Qᴴ, hQ, Matrix.one_mul]

/-- **C134** (coordinates): let `Q` be an isometry, such as a rotation, a permutation of the sensors, or the addition
of sensors that always show zero. Whatever can be the result for the data `X`, `Y` is also a possible result for
`Q X`, `Q Y`: the same eigenvalues, and the modes `Q Φ`. For all options. -/
theorem C134_coordinates [DecidableEq m] (o : Options) {q : ℕ} (Q : Matrix m' m ℂ) (hQ : Qᴴ * Q = 1)
    (X Y : Matrix m n ℂ) (W : Matrix (Fin q) (Fin q) ℂ) (eigs : Fin q → ℂ) (modes : Matrix m (Fin q) ℂ)
    (h : IsResult o X Y W eigs modes) : IsResult o (Q * X) (Q * Y) W eigs (Q * modes) := by
  obtain ⟨p, hq, U, s, V, hX, hs, A, hA, he, hc, hn, hm⟩ := h
  have ht : o.tik (Q * X) = o.tik X := by simp only [Options.tik, frobSq_isometry Q hQ]
  refine ⟨p, hq, Q * U, s, V, svd_isometry Q hQ hX, hs, A, ?_, he, hc, hn, ?_⟩
  · simp only [IsAtilde, ht, lead_mul, operator_isometry _ Q hQ] at hA ⊢
    split_ifs at hA ⊢ with hf
    · obtain ⟨bU, bs, bV, hY, hb, hfb⟩ := hA
      refine ⟨Q * bU, bs, bV, svd_isometry Q hQ hY, hb, ?_⟩
      simpa only [backwardOperator, lead_mul, operator_isometry _ Q hQ] using hfb
    · exact hA
  · rw [hm, ht, lead_mul]
    simp only [computeModes]
    split_ifs <;> simp only [Matrix.mul_assoc]

/-- **C134** (rotations): for a unitary `Q` the possible results correspond to each other exactly. -/
theorem C134_rotation [DecidableEq m] (o : Options) {q : ℕ} (Q : Matrix m m ℂ) (hQ : Qᴴ * Q = 1)
    (X Y : Matrix m n ℂ) (W : Matrix (Fin q) (Fin q) ℂ) (eigs : Fin q → ℂ) (modes : Matrix m (Fin q) ℂ) :
    IsResult o (Q * X) (Q * Y) W eigs modes ↔ IsResult o X Y W eigs (Qᴴ * modes) := by
  have hQ' : Q * Qᴴ = 1 := mul_eq_one_comm.mp hQ
  constructor
  · intro h
    have := C134_coordinates o Qᴴ (by rwa [conjTranspose_conjTranspose]) _ _ _ _ _ h
    rwa [← Matrix.mul_assoc, ← Matrix.mul_assoc, hQ, Matrix.one_mul, Matrix.one_mul] at this
  · intro h
    have := C134_coordinates o Q hQ _ _ _ _ _ h
    rwa [← Matrix.mul_assoc, hQ', Matrix.one_mul] at this

/-- **C134** (amplitudes): fitted to one snapshot, to all snapshots, and as least-squares solution, the amplitudes are
the same in all coordinates. -/
theorem C134_amplitudes [DecidableEq m] [DecidableEq m'] {r : Type} [Fintype r] [DecidableEq r] (Q : Matrix m' m ℂ)
    (hQ : Qᴴ * Q = 1) (modes : Matrix m r ℂ) (x : m → ℂ) {N : ℕ} (eigs : r → ℂ) (snaps : Matrix m (Fin N) ℂ) :
    (∀ b, IsLstsq (Q * modes) (Q *ᵥ x) b ↔ IsLstsq modes x b) ∧
    (∀ P P', IsPinv modes P → IsPinv (Q * modes) P' → P' *ᵥ (Q *ᵥ x) = P *ᵥ x) ∧
    optP (Q * modes) (vander eigs N) = optP modes (vander eigs N) ∧
    optQExact (Q * modes) (vander eigs N) (Q * snaps) = optQExact modes (vander eigs N) snaps := by
  refine ⟨fun b => ?_, fun P P' hP hP' => ?_, ?_, ?_⟩
  · have : ∀ c, normSq ((Q * modes) *ᵥ c - Q *ᵥ x) = normSq (modes *ᵥ c - x) := fun c => by
      rw [← mulVec_mulVec, ← mulVec_sub, normSq_isometry Q hQ]
    simp only [IsLstsq, this]
  · have e : IsPinv (Q * modes) (P * Qᴴ) := by
      have h1 : P * Qᴴ * (Q * modes) = P * modes := by
        rw [Matrix.mul_assoc, ← Matrix.mul_assoc Qᴴ, hQ, Matrix.one_mul]
      refine ⟨?_, ?_, ?_, ?_⟩
      · rw [Matrix.mul_assoc, h1, Matrix.mul_assoc, ← Matrix.mul_assoc modes, hP.apa]
      · rw [h1, ← Matrix.mul_assoc, hP.pap]
      · have : Q * modes * (P * Qᴴ) = Q * (modes * P) * Qᴴ := by simp only [Matrix.mul_assoc]
        rw [this, conjTranspose_mul, conjTranspose_mul, conjTranspose_conjTranspose, hP.ap, Matrix.mul_assoc Q]
      · rw [h1, hP.pa]
    rw [hP'.unique e, mulVec_mulVec, Matrix.mul_assoc, hQ, Matrix.mul_one]
  · have : (Q * modes)ᴴ * (Q * modes) = modesᴴ * modes := by
      rw [conjTranspose_mul, Matrix.mul_assoc, ← Matrix.mul_assoc Qᴴ, hQ, Matrix.one_mul]
    funext i j
    simp only [optP, this]
  · have : vander eigs N * (Q * snaps)ᴴ * (Q * modes) = vander eigs N * snapsᴴ * modes := by
      rw [conjTranspose_mul, Matrix.mul_assoc, Matrix.mul_assoc, ← Matrix.mul_assoc Qᴴ, hQ, Matrix.one_mul,
        Matrix.mul_assoc]
    funext i
    simp only [optQExact, this]

omit [Fintype m'] in
open Verif.Time Verif.Bitmask in
/-- **C134** (reconstruction): with the modes `Q Φ` and the same amplitudes, all selections and all windows give the
reconstruction `Q` times that of the modes `Φ`. -/
theorem C134_reconstruction {q : ℕ} (Q : Matrix m' m ℂ) (Φ : Matrix m (Fin q) ℂ) (eigs b : Fin q → ℂ)
    (mask : Fin q → Bool) (orig w : Window) (hdt : w.dt ≠ 0) (opt : Opt) (nsnap : ℕ) :
    reconstructed ((afterFit (List.ofFn fun j => fun i => (Q * Φ) i j) (List.ofFn eigs) (List.ofFn b)).setMask
        (.bool1 (List.ofFn mask))).2 orig w opt nsnap =
      (reconstructed ((afterFit (List.ofFn fun j => fun i => Φ i j) (List.ofFn eigs) (List.ofFn b)).setMask
        (.bool1 (List.ofFn mask))).2 orig w opt nsnap).map fun cols => cols.map fun c => Q *ᵥ c := by
  rw [RealData.reconstructed_mask _ _ _ _ _ _ hdt, RealData.reconstructed_mask _ _ _ _ _ _ hdt]
  simp only [Except.map, List.map_map]
  congr 1
  refine List.map_congr_left fun t _ => ?_
  funext x
  simp only [Function.comp, mulVec, dotProduct, Matrix.mul_apply, Finset.mul_sum]
  rw [Finset.sum_comm]
  refine Finset.sum_congr rfl fun i _ => ?_
  split_ifs
  · rw [Finset.sum_mul]
    exact Finset.sum_congr rfl fun k _ => by ring
  · simp

/-- **C134** (order): the order of the pairs of snapshots has no influence. -/
theorem C134_order (o : Options) {q : ℕ} (π : Equiv.Perm n) (X Y : Matrix m n ℂ) (W : Matrix (Fin q) (Fin q) ℂ)
    (eigs : Fin q → ℂ) (modes : Matrix m (Fin q) ℂ) :
    IsResult o (X.submatrix id π) (Y.submatrix id π) W eigs modes ↔ IsResult o X Y W eigs modes := by
  have hsvd : ∀ (π : Equiv.Perm n) {p : ℕ} {X : Matrix m n ℂ} {U : Matrix m (Fin p) ℂ} {s : Fin p → ℝ}
      {V : Matrix n (Fin p) ℂ}, IsSVD X U s V → IsSVD (X.submatrix id π) U s (V.submatrix π id) := by
    intro π p X U s V h
    refine ⟨?_, h.u, ?_, h.nonneg⟩
    · rw [h.eq]
      ext i j
      simp [Matrix.mul_apply]
    · rw [← h.v]
      ext i j
      simp only [Matrix.mul_apply, conjTranspose_apply, submatrix_apply, id_eq]
      exact Equiv.sum_comp π fun k => star (V k i) * V k j
  have hYV : ∀ (π : Equiv.Perm n) {p q : ℕ} (hq : q ≤ p) (Y : Matrix m n ℂ) (V : Matrix n (Fin p) ℂ),
      Y.submatrix id π * lead q hq (V.submatrix π id) = Y * lead q hq V := by
    intro π p q hq Y V
    ext i j
    simp only [Matrix.mul_apply, lead, submatrix_apply, id_eq]
    exact Equiv.sum_comp π fun k => Y i k * V k (Fin.castLE hq j)
  have hop : ∀ (π : Equiv.Perm n) {p q : ℕ} (hq : q ≤ p) (tik : Option (ℝ × ℝ)) (U : Matrix m (Fin p) ℂ)
      (s : Fin q → ℝ) (V : Matrix n (Fin p) ℂ) (Y : Matrix m n ℂ),
      leastSquareOperator tik (lead q hq U) s (lead q hq (V.submatrix π id)) (Y.submatrix id π) =
        leastSquareOperator tik (lead q hq U) s (lead q hq V) Y := by
    intro π p q hq tik U s V Y
    simp only [leastSquareOperator]
    rw [Matrix.mul_assoc (lead q hq U)ᴴ, hYV, ← Matrix.mul_assoc]
  have hfwd : ∀ (π : Equiv.Perm n) (X Y : Matrix m n ℂ), IsResult o X Y W eigs modes →
      IsResult o (X.submatrix id π) (Y.submatrix id π) W eigs modes := by
    intro π X Y h
    obtain ⟨p, hq, U, s, V, hX, hs, A, hA, he, hc, hn, hm⟩ := h
    have ht : o.tik (X.submatrix id π) = o.tik X := by
      simp only [Options.tik]
      congr 1
      funext t
      have : frobSq (X.submatrix id π) = frobSq X := by
        simp only [frobSq, submatrix_apply, id_eq]
        exact Finset.sum_congr rfl fun i _ => Equiv.sum_comp π fun j => Complex.normSq (X i j)
      rw [this]
    refine ⟨p, hq, U, s, V.submatrix π id, hsvd π hX, hs, A, ?_, he, hc, hn, ?_⟩
    · simp only [IsAtilde, ht, hop] at hA ⊢
      split_ifs at hA ⊢ with hf
      · obtain ⟨bU, bs, bV, hY, hb, hfb⟩ := hA
        refine ⟨bU, bs, bV.submatrix π id, hsvd π hY, hb, ?_⟩
        simpa only [backwardOperator, hop] using hfb
      · exact hA
    · rw [hm, ht]
      simp only [computeModes, hYV]
  refine ⟨fun h => ?_, hfwd π X Y⟩
  have := hfwd π.symm _ _ h
  simpa [submatrix_submatrix] using this

/-- **C134** (units), in part: without regularization, multiplying all data by a number `c ≠ 0` changes neither the
eigenvalues nor, apart from the phase of `c`, the modes. Missing: the regularization (`C134_units_false`). -/
theorem C134_units_partial (o : Options) (ho : o.tikhonov = none) {q : ℕ} (c : ℂ) (hc : c ≠ 0)
    (X Y : Matrix m n ℂ) (W : Matrix (Fin q) (Fin q) ℂ) (eigs : Fin q → ℂ) (modes : Matrix m (Fin q) ℂ)
    (h : IsResult o X Y W eigs modes) : IsResult o (c • X) (c • Y) W eigs ((c / ‖c‖) • modes) := by
  have hn0 : (‖c‖ : ℂ) ≠ 0 := by simpa using hc
  have hpp : star (c / (‖c‖ : ℂ)) * (c / ‖c‖) = 1 := by
    have h1 : star c * c = (‖c‖ : ℂ) * ‖c‖ := by
      rw [Complex.star_def, Complex.conj_mul']; ring
    rw [star_div₀, show star (‖c‖ : ℂ) = ‖c‖ from Complex.conj_ofReal _, div_mul_div_comm, h1]
    exact div_self (mul_ne_zero hn0 hn0)
  have hsvd : ∀ {p : ℕ} {X : Matrix m n ℂ} {U : Matrix m (Fin p) ℂ} {s : Fin p → ℝ}
      {V : Matrix n (Fin p) ℂ}, IsSVD X U s V →
      IsSVD (c • X) ((c / (‖c‖ : ℂ)) • U) (fun i => ‖c‖ * s i) V := by
    intro p X U s V h
    have hr : rdiag (fun i => ‖c‖ * s i) = (‖c‖ : ℂ) • rdiag s := by
      ext i j
      by_cases hij : i = j
      · subst hij; simp [rdiag]
      · simp [rdiag, hij]
    refine ⟨?_, ?_, h.v, fun i => mul_nonneg (norm_nonneg _) (h.nonneg i)⟩
    · rw [hr, h.eq, Matrix.smul_mul, Matrix.mul_smul, Matrix.smul_mul, Matrix.smul_mul, smul_smul,
        div_mul_cancel₀ _ hn0]
    · rw [conjTranspose_smul, Matrix.smul_mul, Matrix.mul_smul, smul_smul, hpp, h.u, one_smul]
  have hlead : ∀ {p q : ℕ} (hq : q ≤ p) (a : ℂ) (U : Matrix m (Fin p) ℂ), lead q hq (a • U) = a • lead q hq U :=
    fun _ _ _ => rfl
  have hinv : ∀ {q : ℕ} (s : Fin q → ℝ), (rdiag fun i => (tikSigma none (fun i => ‖c‖ * s i) i)⁻¹) =
      (‖c‖ : ℂ)⁻¹ • rdiag fun i => (tikSigma none s i)⁻¹ := by
    intro q s
    ext i j
    by_cases hij : i = j
    · subst hij; simp [rdiag, tikSigma, mul_comm]
    · simp [rdiag, hij]
  have hcomp : ∀ {p q : ℕ} (hq : q ≤ p) (s : Fin p → ℝ),
      (fun i => ‖c‖ * s i) ∘ Fin.castLE hq = fun i => ‖c‖ * (s ∘ Fin.castLE hq) i := fun _ _ => rfl
  have hop : ∀ {q : ℕ} (U : Matrix m (Fin q) ℂ) (s : Fin q → ℝ) (V : Matrix n (Fin q) ℂ) (Y : Matrix m n ℂ),
      leastSquareOperator none ((c / (‖c‖ : ℂ)) • U) (fun i => ‖c‖ * s i) V (c • Y) =
        leastSquareOperator none U s V Y := by
    intro q U s V Y
    simp only [leastSquareOperator, hinv, conjTranspose_smul, Matrix.smul_mul, Matrix.mul_smul, smul_smul]
    rw [show (‖c‖ : ℂ)⁻¹ * (c * star (c / (‖c‖ : ℂ))) = 1 by rw [← hpp]; ring, one_smul]
  have hX0 : ∀ X : Matrix m n ℂ, o.tik X = none := fun X => by simp [Options.tik, ho]
  obtain ⟨p, hq, U, s, V, hX, hs, A, hA, he, hr, hn, hm⟩ := h
  refine ⟨p, hq, _, _, V, hsvd hX, fun i j hij => mul_le_mul_of_nonneg_left (hs hij) (norm_nonneg _), A, ?_, he, hr, hn,
    ?_⟩
  · simp only [IsAtilde, hX0, hlead, hcomp, hop] at hA ⊢
    split_ifs at hA ⊢ with hf
    · obtain ⟨bU, bs, bV, hY, hb, hfb⟩ := hA
      refine ⟨_, _, bV, hsvd hY, fun i j hij => mul_le_mul_of_nonneg_left (hb hij) (norm_nonneg _), ?_⟩
      simpa only [backwardOperator, hlead, hcomp, hop] using hfb
    · exact hA
  · rw [hm, hX0, hX0, hlead, hcomp]
    simp only [computeModes]
    split_ifs
    · simp only [hinv, Matrix.smul_mul, Matrix.mul_smul, smul_smul]
      congr 1
      rw [div_eq_mul_inv, mul_comm]
    · rw [Matrix.smul_mul]

/-- One sensor that shows the constant `x > 0`, with the parameter 1. -/
theorem constant_result (x : ℝ) (hx : 0 < x) (W : Matrix (Fin 1) (Fin 1) ℂ) (eigs : Fin 1 → ℂ)
    (modes : Matrix (Fin 1) (Fin 1) ℂ)
    (h : IsResult ⟨false, false, some 1⟩ (of fun _ _ => (x : ℂ) : Matrix (Fin 1) (Fin 1) ℂ) (of fun _ _ => (x : ℂ)) W
      eigs modes) : eigs 0 = ((x / (x + 1) : ℝ) : ℂ) := by
  obtain ⟨p, hq, U, s, V, hX, hs, A, hA, he, hr, hn, hm⟩ := h
  have hf : frobSq (of fun _ _ => (x : ℂ) : Matrix (Fin 1) (Fin 1) ℂ) = x ^ 2 := by
    simp [frobSq, Complex.normSq_ofReal, sq]
  have hu := congrFun (congrFun (lead_orthonormal hq U hX.u) 0) 0
  have hv := congrFun (congrFun (lead_orthonormal hq V hX.v) 0) 0
  have hc := congrFun (congrFun (hX.conj_mul_lead 1 hq) 0) 0
  have hs0 := hX.nonneg (Fin.castLE hq 0)
  simp only [IsAtilde, Bool.false_eq_true, if_false, Options.tik, Option.map_some, hf, Real.sqrt_sq hx.le] at hA
  have hA0 := congrFun (congrFun hA 0) 0
  have he0 := congrFun (congrFun he 0) 0
  have hn0 := hn 0
  simp only [leastSquareOperator, tikSigma, rdiag, Matrix.mul_apply, conjTranspose_apply, Finset.univ_unique,
    Finset.sum_singleton, Fin.default_eq_zero, of_apply, diagonal_apply_eq, Function.comp, one_apply_eq, normSq,
    Fin.isValue] at hu hv hc hA0 he0 hn0
  generalize lead 1 hq U 0 0 = u at *
  generalize lead 1 hq V 0 0 = v at *
  generalize s (Fin.castLE hq 0) = σ at *
  generalize W 0 0 = w at *
  have hw : w ≠ 0 := by
    rintro rfl
    simp at hn0
  have hA1 : A 0 0 = eigs 0 := mul_right_cancel₀ hw (by rw [he0, mul_comm])
  rw [← hA1, hA0]
  have hxs : star (x : ℂ) = x := Complex.conj_ofReal x
  rw [hxs] at hc
  have hnu : Complex.normSq u = 1 := by
    have : ((Complex.normSq u : ℝ) : ℂ) = 1 := by rw [← hu, Complex.normSq_eq_conj_mul_self]; rfl
    exact_mod_cast this
  have hnv : Complex.normSq v = 1 := by
    have : ((Complex.normSq v : ℝ) : ℂ) = 1 := by rw [← hv, Complex.normSq_eq_conj_mul_self]; rfl
    exact_mod_cast this
  have hσ : σ = x := by
    have := congrArg Complex.normSq hc
    rw [Complex.normSq_mul, Complex.normSq_mul, hnu, hnv, Complex.normSq_ofReal, Complex.normSq_ofReal] at this
    nlinarith
  subst hσ
  have hs0' : (σ : ℂ) ≠ 0 := by exact_mod_cast hx.ne'
  have hvu : v = u := mul_right_cancel₀ hs0' (by rw [← hc, mul_comm])
  subst hvu
  rw [mul_right_comm (star v), hu, one_mul, ← Complex.ofReal_mul]
  congr 1
  field_simp

/-- **C134** is false for units with a regularization: `tikhonov_regularization` is multiplied by the norm of `X`, but
added to squared singular values. For one sensor that shows 1 and 1, all results of the parameter 1 have the eigenvalue
1/2; if the same data are given in half the unit, 2 and 2, the eigenvalue 2/3. -/
theorem C134_units_false :
    let X : Matrix (Fin 1) (Fin 1) ℂ := of fun _ _ => 1
    let o : Options := ⟨false, false, some 1⟩
    (∃ W eigs modes, IsResult (q := 1) o X X W eigs modes) ∧
    (∀ W eigs modes, IsResult (q := 1) o X X W eigs modes → eigs 0 = 1 / 2) ∧
    ∀ W eigs modes, IsResult (q := 1) o ((2 : ℂ) • X) ((2 : ℂ) • X) W eigs modes → eigs 0 = 2 / 3 := by
  intro X o
  have h1 : X = of fun _ _ => ((1 : ℝ) : ℂ) := by simp [X]
  have h2 : (2 : ℂ) • X = of fun _ _ => ((2 : ℝ) : ℂ) := by
    ext i j; simp [X]
  refine ⟨⟨1, fun _ => 1 / 2, 1, 1, le_rfl, 1, fun _ => 1, 1, ⟨?_, by simp, by simp, by simp⟩, antitone_const,
    of fun _ _ => 1 / 2, ?_, ?_, ?_, ?_, ?_⟩, ?_, ?_⟩
  · ext i j; fin_cases i; fin_cases j; simp [X, rdiag]
  · ext i j; fin_cases i; fin_cases j
    simp [o, X, leastSquareOperator, tikSigma, rdiag, Options.tik, frobSq, lead, Matrix.mul_apply]
    norm_num
  · ext i j; fin_cases i; fin_cases j; simp
  · have : (of fun _ _ => 1 / 2 : Matrix (Fin 1) (Fin 1) ℂ) = diagonal fun _ => 1 / 2 := by
      ext i j; fin_cases i; fin_cases j; simp
    rw [this, charpoly_diagonal]
    simp only [Finset.univ_unique, Finset.prod_singleton, Polynomial.roots_X_sub_C]
    rfl
  · intro j; obtain rfl : j = 0 := Subsingleton.elim _ _
    simp [normSq]
  · ext i j; fin_cases i; fin_cases j; simp [o, computeModes, lead]
  · intro W eigs modes h
    rw [h1] at h
    rw [constant_result 1 one_pos W eigs modes h]
    norm_num
  · intro W eigs modes h
    rw [h2] at h
    rw [constant_result 2 two_pos W eigs modes h]
    norm_num

/-- **C134** is false for `svd_rank=0` and added sensors: five singular values of a 5 × 5 matrix give the rank 1, and
the same singular values after five sensors that always show zero are added give the rank 2. -/
theorem C134_rank_false :
    let s : List ℚ := [6, 5, 2, 1, 1]
    Rank.computeRank s 5 5 (.int 0) = 1 ∧ Rank.computeRank s 10 5 (.int 0) = 2 := by
  decide +kernel

/-- Isometries: a rotation, and a sensor that always shows zero. -/
example : (!![0, -1; 1, 0] : Matrix (Fin 2) (Fin 2) ℂ)ᴴ * !![0, -1; 1, 0] = 1 ∧
    (!![1; 0] : Matrix (Fin 2) (Fin 1) ℂ)ᴴ * (!![1; 0] : Matrix (Fin 2) (Fin 1) ℂ) = 1 := by
  constructor
  · ext i j; fin_cases i <;> fin_cases j <;> simp [Matrix.mul_apply, Fin.sum_univ_two]
  · ext i j; fin_cases i; fin_cases j; simp [Matrix.mul_apply, Fin.sum_univ_two]

/-- Results as in the theorems exist for all data, for all ranks up to the size of the data, with and without regularization. -/
example {M N q : ℕ} (hq : q ≤ min M N) (X Y : Matrix (Fin M) (Fin N) ℂ) (exact : Bool) (t : Option ℝ) :
    ∃ (W : Matrix (Fin q) (Fin q) ℂ) (eigs : Fin q → ℂ) (modes : Matrix (Fin M) (Fin q) ℂ),
      IsResult ⟨exact, false, t⟩ X Y W eigs modes := by
  obtain ⟨U, s, V, h, hs⟩ := exists_svd X
  obtain ⟨W, eigs, hW⟩ := exists_eig (leastSquareOperator (Options.tik ⟨exact, false, t⟩ X) (lead q hq U) (s ∘ Fin.castLE hq)
    (lead q hq V) Y)
  exact ⟨W, eigs, _, _, hq, U, s, V, h, hs, _, rfl, hW.1, hW.2.1, hW.2.2, rfl⟩

end Verif.Whole
