import Verif.Model.Possible
import Verif.Props.Whole
import Verif.Lemmas.EckartYoung
import Verif.Lemmas.SvdExists
import Verif.Lemmas.EigExists

/-!
# Property C150: coordinates and units in the other classes
-/

set_option autoImplicit false

namespace Verif.Possible

open Verif Verif.LinAlg Verif.Whole Matrix

variable {m m' n : Type} [Fintype m] [Fintype m'] [Fintype n]

/-- An isometry disappears between a transposed and a plain factor. -/
theorem iso_mul [DecidableEq m] {a b : Type} (Q : Matrix m' m ℂ) (hQ : Qᴴ * Q = 1) (A : Matrix m a ℂ)
    (B : Matrix m b ℂ) : (Q * A)ᴴ * (Q * B) = Aᴴ * B := by
  rw [conjTranspose_mul, Matrix.mul_assoc, ← Matrix.mul_assoc Qᴴ, hQ, Matrix.one_mul]

/-! ## OptDMD -/

/-- **C150** (OptDMD): in other orthonormal coordinates the eigenvalues are the same, and modes, input and output space
are those of before in the new coordinates. -/
theorem C150_optdmd [DecidableEq m] (prec : OptDmd.Prec) {q : ℕ} (O : Matrix m' m ℂ) (hO : Oᴴ * O = 1) (X Y : Matrix m n ℂ)
    (Uz Q : Matrix m (Fin q) ℂ) (eigs : Fin q → ℂ) (modes : Matrix m (Fin q) ℂ)
    (h : OptDmd.IsFit prec X Y Uz Q eigs modes) :
    OptDmd.IsFit prec (O * X) (O * Y) (O * Uz) (O * Q) eigs (O * modes) := by
  obtain ⟨p, U, s, V, hX, pz, hq, Uf, sz, Vz, hZ, hs, rfl, rfl, W, hW, rfl⟩ := h
  have hz : OptDmd.matZ prec (O * Y) s V = O * OptDmd.matZ prec Y s V := by
    simp only [OptDmd.matZ, Matrix.mul_assoc]
  have hQ : OptDmd.matQ prec (O * Y) (O * U) s V (O * lead q hq Uf) = O * OptDmd.matQ prec Y U s V (lead q hq Uf) := by
    simp only [OptDmd.matQ]
    rw [iso_mul O hO, conjTranspose_mul O U, ← Matrix.mul_assoc, conjTranspose_mul (_ * _) Oᴴ, conjTranspose_conjTranspose]
  refine ⟨p, O * U, s, V, svd_isometry O hO hX, pz, hq, O * Uf, sz, Vz, ?_, hs, ?_, ?_, W, ?_, ?_⟩
  · rw [hz]; exact svd_isometry O hO hZ
  · rw [lead_mul]
  · rw [hQ]
  · simpa only [OptDmd.atilde, iso_mul O hO] using hW
  · simp only [OptDmd.rightVecs, OptDmd.atilde, iso_mul O hO, Matrix.mul_assoc]

/-! ## DMDc -/

/-- **C150** (DMDc with known `B`): the matrix `B` is given in the new coordinates too. -/
theorem C150_dmdc_known [DecidableEq m] {c q : ℕ} (O : Matrix m' m ℂ) (hO : Oᴴ * O = 1) (X Y : Matrix m n ℂ)
    (I : Matrix (Fin c) n ℂ) (B : Matrix m (Fin c) ℂ) (eigs : Fin q → ℂ) (modes : Matrix m (Fin q) ℂ)
    (h : Dmdc.IsKnown X Y I B eigs modes) : Dmdc.IsKnown (O * X) (O * Y) I (O * B) eigs (O * modes) := by
  obtain ⟨p, hq, U, s, V, hX, hs, W, hW, rfl⟩ := h
  have hY : O * Y - O * B * I = O * (Y - B * I) := by rw [Matrix.mul_sub, Matrix.mul_assoc]
  refine ⟨p, hq, O * U, s, V, svd_isometry O hO hX, hs, W, ?_, ?_⟩
  · simp only [Dmdc.knownOperator, hY, lead_mul, operator_isometry _ O hO] at hW ⊢
    exact hW
  · simp only [Dmdc.knownModes, hY, lead_mul, Operator.computeModes, if_true]
    simp only [← Matrix.mul_assoc]

/-- The change of coordinates on the stacked states and inputs. -/
def stack {c : ℕ} (O : Matrix m' m ℂ) : Matrix (m' ⊕ Fin c) (m ⊕ Fin c) ℂ := fromBlocks O 0 0 1

theorem stack_iso [DecidableEq m] {c : ℕ} (O : Matrix m' m ℂ) (hO : Oᴴ * O = 1) :
    (stack (c := c) O)ᴴ * stack (c := c) O = 1 := by
  simp [stack, fromBlocks_conjTranspose, fromBlocks_multiply, hO]

omit [Fintype m'] [Fintype n] in
theorem omega_stack {c : ℕ} (O : Matrix m' m ℂ) (X : Matrix m n ℂ) (I : Matrix (Fin c) n ℂ) :
    Dmdc.omega (O * X) I = stack O * Dmdc.omega X I := by
  ext i j
  rcases i with i | i <;> simp [Dmdc.omega, stack, Matrix.mul_apply, Matrix.one_apply]

omit [Fintype m'] in
theorem upper_stack {c k : ℕ} (O : Matrix m' m ℂ) (A : Matrix (m ⊕ Fin c) (Fin k) ℂ) :
    Dmdc.upper (stack O * A) = O * Dmdc.upper A := by
  ext i j
  simp [Dmdc.upper, stack, Matrix.mul_apply]

omit [Fintype m'] in
theorem lower_stack {c k : ℕ} (O : Matrix m' m ℂ) (A : Matrix (m ⊕ Fin c) (Fin k) ℂ) :
    Dmdc.lower (stack O * A) = Dmdc.lower A := by
  ext i j
  simp [Dmdc.lower, stack, Matrix.mul_apply, Matrix.one_apply]

/-- **C150** (DMDc with unknown `B`): the matrix `B` found is that of before in the new coordinates. -/
theorem C150_dmdc_unknown [DecidableEq m] {c q : ℕ} (k : ℕ) (O : Matrix m' m ℂ) (hO : Oᴴ * O = 1) (X Y : Matrix m n ℂ)
    (I : Matrix (Fin c) n ℂ) (B : Matrix m (Fin c) ℂ) (eigs : Fin q → ℂ) (modes : Matrix m (Fin q) ℂ)
    (h : Dmdc.IsUnknown k X Y I B eigs modes) : Dmdc.IsUnknown k (O * X) (O * Y) I (O * B) eigs (O * modes) := by
  obtain ⟨p, hk, Up, sp, Vp, hX, hs, hs0, py, hq, Uy, sy, Vy, hY, hsy, W, hW, rfl, rfl⟩ := h
  refine ⟨p, hk, stack O * Up, sp, Vp, ?_, hs, hs0, py, hq, O * Uy, sy, Vy, svd_isometry O hO hY, hsy, W, ?_, ?_, ?_⟩
  · rw [omega_stack]; exact svd_isometry (stack O) (stack_iso O hO) hX
  · simp only [Dmdc.unknownOperator, lead_mul, upper_stack] at hW ⊢
    rw [iso_mul O hO, Matrix.mul_assoc _ _ (O * lead q hq Uy), iso_mul O hO, ← Matrix.mul_assoc]
    exact hW
  · simp only [Dmdc.unknownModes, lead_mul, upper_stack, Matrix.mul_assoc]
    rw [iso_mul O hO]
  · simp only [Dmdc.unknownB, lead_mul, lower_stack]
    rw [iso_mul O hO]
    simp only [Matrix.mul_assoc]

/-! ## PiDMD -/

/-- **C150** (PiDMD, unitary manifold). -/
theorem C150_pidmd_unitary [DecidableEq m] [DecidableEq m'] {q : ℕ} (O : Matrix m' m ℂ) (hO : Oᴴ * O = 1) (X Y : Matrix m n ℂ)
    (eigs : Fin q → ℂ) (modes : Matrix m (Fin q) ℂ) (h : Pidmd.IsUnitary X Y eigs modes) :
    Pidmd.IsUnitary (O * X) (O * Y) eigs (O * modes) := by
  obtain ⟨p, hq, U, s, V, hX, hs, P, R, t, hP, W, hW, rfl⟩ := h
  refine ⟨p, hq, O * U, s, V, svd_isometry O hO hX, hs, P, R, t, ?_, W, hW, ?_⟩
  · simpa only [Pidmd.crossCov, lead_mul, iso_mul O hO] using hP
  · rw [lead_mul, Matrix.mul_assoc]

/-- **C150** (PiDMD, symmetric and skew-symmetric manifolds). -/
theorem C150_pidmd_symmetric [DecidableEq m] (skew : Bool) {q : ℕ} (O : Matrix m' m ℂ) (hO : Oᴴ * O = 1) (X Y : Matrix m n ℂ)
    (eigs : Fin q → ℂ) (modes : Matrix m (Fin q) ℂ) (h : Pidmd.IsSymmetric skew X Y eigs modes) :
    Pidmd.IsSymmetric skew (O * X) (O * Y) eigs (O * modes) := by
  obtain ⟨p, hq, U, s, V, hX, hs, W, hW, rfl⟩ := h
  refine ⟨p, hq, O * U, s, V, svd_isometry O hO hX, hs, W, ?_, ?_⟩
  · simpa only [Pidmd.computeSymmetric, Pidmd.coeffs, iso_mul O hO] using hW
  · rw [lead_mul, Matrix.mul_assoc]

/-! ## SubspaceDMD -/

/-- The product of a matrix with one whose entries may be `NaN`, by columns. -/
noncomputable def liftMul {n k : ℕ} (O : Matrix (Fin n) (Fin n) ℂ) (M : Matrix (Fin n) (Fin k) (Option ℂ)) :
    Matrix (Fin n) (Fin k) (Option ℂ) :=
  of fun i j => if ∀ a, (M a j).isSome then some (∑ a, O i a * (M a j).getD 0) else none

/-- The change of coordinates on two stacked states. -/
def twice {n : ℕ} (O : Matrix (Fin n) (Fin n) ℂ) : Matrix (Fin n ⊕ Fin n) (Fin n ⊕ Fin n) ℂ := fromBlocks O 0 0 O

theorem twice_iso {n : ℕ} (O : Matrix (Fin n) (Fin n) ℂ) (hO : Oᴴ * O = 1) : (twice O)ᴴ * twice O = 1 := by
  simp [twice, fromBlocks_conjTranspose, fromBlocks_multiply, hO]

theorem slice_mul {n t : ℕ} (O : Matrix (Fin n) (Fin n) ℂ) (S : Matrix (Fin n) (Fin (t + 3)) ℂ) (k : ℕ) (hk : k ≤ 3) :
    Subspace.slice (O * S) k hk = O * Subspace.slice S k hk := by
  ext i j
  simp [Subspace.slice, Matrix.mul_apply]

theorem past_mul {n t : ℕ} (O : Matrix (Fin n) (Fin n) ℂ) (S : Matrix (Fin n) (Fin (t + 3)) ℂ) :
    Subspace.past (O * S) = twice O * Subspace.past S := by
  ext i j
  rcases i with i | i <;> simp [Subspace.past, slice_mul, twice, Matrix.mul_apply]

theorem future_mul {n t : ℕ} (O : Matrix (Fin n) (Fin n) ℂ) (S : Matrix (Fin n) (Fin (t + 3)) ℂ) :
    Subspace.future (O * S) = twice O * Subspace.future S := by
  ext i j
  rcases i with i | i <;> simp [Subspace.future, slice_mul, twice, Matrix.mul_apply]

theorem top_mul {n R : ℕ} (O : Matrix (Fin n) (Fin n) ℂ) (U : Matrix (Fin n ⊕ Fin n) (Fin R) ℂ) (r : ℤ) :
    Subspace.top (twice O * U) r = O * Subspace.top U r := by
  ext i j
  simp [Subspace.top, twice, Matrix.mul_apply]

theorem bottom_mul {n R : ℕ} (O : Matrix (Fin n) (Fin n) ℂ) (U : Matrix (Fin n ⊕ Fin n) (Fin R) ℂ) (r : ℤ) :
    Subspace.bottom (twice O * U) r = O * Subspace.bottom U r := by
  ext i j
  simp [Subspace.bottom, twice, Matrix.mul_apply]

theorem computeModes_mul {n k : ℕ} {a : Type} [Fintype a] (O : Matrix (Fin n) (Fin n) ℂ) (s : Fin k → ℝ)
    (V : Matrix a (Fin k) ℂ) (U : Matrix (Fin n) a ℂ) (eigs : Fin k → ℂ) (W : Matrix (Fin k) (Fin k) ℂ) :
    Subspace.computeModes s V (O * U) eigs W = liftMul O (Subspace.computeModes s V U eigs W) := by
  ext1 i j
  by_cases h : eigs j = 0
  · simp only [Subspace.computeModes, liftMul, of_apply, h, if_true, Option.isSome_none, Bool.false_eq_true]
    rw [if_neg fun h => h i]
  · simp only [Subspace.computeModes, liftMul, of_apply, h, if_false, Option.isSome_some, implies_true, if_true,
      Option.getD_some]
    congr 1
    have : O * U * V * (rdiag fun i => (s i)⁻¹) * W = O * (U * V * (rdiag fun i => (s i)⁻¹) * W) := by
      simp only [Matrix.mul_assoc]
    rw [this, Matrix.mul_apply, Finset.sum_mul]
    refine Finset.sum_congr rfl fun a _ => ?_
    ring

/-- **C150** (SubspaceDMD): after a rotation of the coordinates the eigenvalues are the same and the modes are rotated. -/
theorem C150_subspace {n t : ℕ} (O : Matrix (Fin n) (Fin n) ℂ) (hO : Oᴴ * O = 1) (S : Matrix (Fin n) (Fin (t + 3)) ℂ)
    (svdRank : ℤ) {k : ℕ} (eigs : Fin k → ℂ) (modes : Matrix (Fin n) (Fin k) (Option ℂ))
    (h : Subspace.Fit S svdRank k eigs modes) : Subspace.Fit (O * S) svdRank k eigs (liftMul O modes) := by
  obtain ⟨Up, sp, Vp, hp, hsp, Uq, sq, Vq, hq, hsq, U, s, V, h, hs, At, hAt, _, W, hW, hW0, hall⟩ := h
  rw [← computeModes_mul, ← bottom_mul]
  refine .mk (twice O * Up) sp Vp ?_ hsp (twice O * Uq) sq Vq ?_ hsq (O * U) s V ?_ hs At ?_ eigs W hW hW0 hall
  · rw [past_mul]; exact svd_isometry _ (twice_iso O hO) hp
  · have : Subspace.matO (O * S) Vp = twice O * Subspace.matO S Vp := by
      simp only [Subspace.matO, future_mul, Matrix.mul_assoc]
    rw [this]; exact svd_isometry _ (twice_iso O hO) hq
  · rw [top_mul]; exact svd_isometry O hO h
  · rw [bottom_mul]
    simpa only [Subspace.computeOperator, operator_isometry none O hO] using hAt

/-! ## EDMD -/

/-- **C150** (EDMD): for a kernel that does not see the change of coordinates (inner products and distances) the
eigenvalues are the same and the modes are those of before in the new coordinates. -/
theorem C150_edmd {N : ℕ} (k : (m → ℝ) → (m → ℝ) → ℝ) (k' : (m' → ℝ) → (m' → ℝ) → ℝ) (svdRank : Rank.SvdRank ℝ)
    (O : Matrix m' m ℝ) (hk : ∀ x y, k' (O *ᵥ x) (O *ᵥ y) = k x y) (X Y : Matrix m (Fin N) ℝ) (f : Edmd.Fit k svdRank X Y) :
    ∃ f' : Edmd.Fit k' svdRank (O * X) (O * Y), ∃ hr : f'.svd.r = f.svd.r, (∀ i, f'.eigs i = f.eigs (Fin.cast hr i)) ∧
      ∀ i j, f'.modes i j = (Edmd.toC O * f.modes) i (Fin.cast hr j) := by
  have hp : ∀ A B : Matrix m (Fin N) ℝ, Edmd.pairwise k' (O * A) (O * B) = Edmd.pairwise k A B := by
    intro A B
    ext i j
    exact hk _ _
  obtain ⟨sv, eigs, V, hV, hu⟩ := f
  have key : ∀ (G : Matrix (Fin N) (Fin N) ℝ) (A : Matrix (Fin N) (Fin N) ℝ) (hG : Edmd.pairwise k' (O * X) (O * X) = G)
      (hA : Edmd.pairwise k' (O * Y) (O * X) = A) (sv : Edmd.Svd G svdRank) (eigs : Fin sv.r → ℂ)
      (V : Matrix (Fin sv.r) (Fin sv.r) ℂ) (_ : Edmd.toC (Edmd.kHat sv.Q sv.s A) * V = V * diagonal eigs) (_ : IsUnit V),
      ∃ f' : Edmd.Fit k' svdRank (O * X) (O * Y), ∃ hr : f'.svd.r = sv.r, (∀ i, f'.eigs i = eigs (Fin.cast hr i)) ∧
        ∀ i j, f'.modes i j = (Edmd.toC O * Edmd.modes X sv.Q sv.s V) i (Fin.cast hr j) := by
    intro G A hG hA sv eigs V h1 h2
    subst hG hA
    refine ⟨⟨sv, eigs, V, h1, h2⟩, rfl, fun i => rfl, fun i j => ?_⟩
    have : Edmd.toC (O * X) = Edmd.toC O * Edmd.toC X := by
      ext a b
      simp [Edmd.toC, Matrix.mul_apply]
    simp only [Edmd.Fit.modes, Edmd.modes, this, Matrix.mul_assoc]
    rfl
  exact key _ _ (hp X X) (hp Y X) sv eigs V hV hu

/-- Kernels as in `C150_edmd`: the linear kernel under a rotation. -/
example (O : Matrix m m ℝ) [DecidableEq m] (hO : Oᵀ * O = 1) (x y : m → ℝ) :
    (fun a b : m → ℝ => a ⬝ᵥ b) (O *ᵥ x) (O *ᵥ y) = (fun a b : m → ℝ => a ⬝ᵥ b) x y := by
  simp only [dotProduct_mulVec, vecMul_mulVec, hO, ← dotProduct_mulVec]
  simp [dotProduct_mulVec, vecMul_mulVec, hO]

/-! ## Units of the data in OptDMD -/

theorem pinvDiag_scale {p : ℕ} (prec : OptDmd.Prec) (c : ℝ) (hc : c ≠ 0) (s : Fin p → ℝ)
    (h : ∀ i, OptDmd.rcond prec < c * s i ↔ OptDmd.rcond prec < s i) :
    (c : ℂ) • OptDmd.pinvDiag prec (fun i => c * s i) = OptDmd.pinvDiag prec s := by
  ext i j
  by_cases hij : i = j
  · subst hij
    simp only [OptDmd.pinvDiag, rdiag, Matrix.smul_apply, diagonal_apply_eq, h i, smul_eq_mul]
    split_ifs
    · rw [← Complex.ofReal_mul, mul_inv, ← mul_assoc, mul_inv_cancel₀ hc, one_mul]
    · simp
  · simp [OptDmd.pinvDiag, rdiag, diagonal_apply_ne _ hij]

theorem rdiag_scale {p : ℕ} (c : ℝ) (s : Fin p → ℝ) : rdiag (fun i => c * s i) = (c : ℂ) • rdiag s := by
  ext i j
  by_cases hij : i = j
  · subst hij; simp [rdiag]
  · simp [rdiag, diagonal_apply_ne _ hij]

omit [Fintype m] [Fintype n] in
theorem svd_scale [Fintype m] [Fintype n] {p : ℕ} (c : ℝ) (hc : 0 ≤ c) {X : Matrix m n ℂ} {U : Matrix m (Fin p) ℂ} {s : Fin p → ℝ}
    {V : Matrix n (Fin p) ℂ} (h : IsSVD X U s V) : IsSVD ((c : ℂ) • X) U (fun i => c * s i) V := by
  refine ⟨?_, h.u, h.v, fun i => mul_nonneg hc (h.nonneg i)⟩
  rw [rdiag_scale, h.eq, Matrix.mul_smul, Matrix.smul_mul]

/-- **C150** (OptDMD, units; partial): in another unit the results are the same, as long as no singular value crosses the
absolute threshold of `pinv_diag`. -/
theorem C150_optdmd_units_partial (prec : OptDmd.Prec) {q : ℕ} (c : ℝ) (hc : 0 < c) (X Y : Matrix m n ℂ)
    (hX : ∀ {p : ℕ} (U : Matrix m (Fin p) ℂ) (s : Fin p → ℝ) (V : Matrix n (Fin p) ℂ), IsSVD X U s V →
      ∀ i, OptDmd.rcond prec < c * s i ↔ OptDmd.rcond prec < s i)
    (Uz Q : Matrix m (Fin q) ℂ) (eigs : Fin q → ℂ) (modes : Matrix m (Fin q) ℂ)
    (h : OptDmd.IsFit prec X Y Uz Q eigs modes) :
    OptDmd.IsFit prec ((c : ℂ) • X) ((c : ℂ) • Y) Uz Q eigs modes := by
  obtain ⟨p, U, s, V, hsvd, pz, hq, Uf, sz, Vz, hZ, hs, rfl, rfl, W, hW, rfl⟩ := h
  have hp := pinvDiag_scale prec c hc.ne' s (hX U s V hsvd)
  have hz : OptDmd.matZ prec ((c : ℂ) • Y) (fun i => c * s i) V = (c : ℂ) • OptDmd.matZ prec Y s V := by
    rw [OptDmd.matZ, OptDmd.matZ, rdiag_scale, ← hp]
    simp only [Matrix.smul_mul, Matrix.mul_smul, smul_smul]
  have hQ : OptDmd.matQ prec ((c : ℂ) • Y) U (fun i => c * s i) V (lead q hq Uf) =
      OptDmd.matQ prec Y U s V (lead q hq Uf) := by
    rw [OptDmd.matQ, OptDmd.matQ, ← hp]
    simp only [Matrix.smul_mul, Matrix.mul_smul]
  refine ⟨p, U, _, V, svd_scale c hc.le hsvd, pz, hq, Uf, fun i => c * sz i, Vz, ?_, ?_, rfl, hQ.symm, W, hW, rfl⟩
  · rw [hz]; exact svd_scale c hc.le hZ
  · exact fun i j hij => mul_le_mul_of_nonneg_left (hs hij) hc.le

/-- The square of a singular value is at most the sum of the squares of the data. -/
theorem sing_le_frob {p : ℕ} {X : Matrix m n ℂ} {U : Matrix m (Fin p) ℂ} {s : Fin p → ℝ} {V : Matrix n (Fin p) ℂ}
    (h : IsSVD X U s V) (i : Fin p) : s i ^ 2 ≤ frobSq X := by
  have h1 : frobSq X = ∑ j, s j ^ 2 := by
    rw [h.eq, Matrix.mul_assoc, frobSq_isometry U h.u, ← frobSq_conjTranspose, conjTranspose_mul,
      conjTranspose_conjTranspose, frobSq_isometry V h.v, rdiag_conjTranspose, frobSq]
    refine Finset.sum_congr rfl fun j _ => ?_
    rw [Finset.sum_eq_single j]
    · simp [rdiag, Complex.normSq_ofReal, sq]
    · intro k _ hk; simp [rdiag, diagonal_apply_ne _ hk.symm]
    · simp
  rw [h1]
  exact Finset.single_le_sum (f := fun j => s j ^ 2) (fun j _ => sq_nonneg _) (Finset.mem_univ i)

/-- **C150** is false for the units of OptDMD: the threshold of `pinv_diag` is absolute. Whatever the data, in a unit in
which they are small the operator learnt is zero. -/
theorem C150_optdmd_small_false (prec : OptDmd.Prec) {q : ℕ} (X Y : Matrix m n ℂ)
    (hX : frobSq X ≤ OptDmd.rcond prec ^ 2) (Uz Q : Matrix m (Fin q) ℂ) (eigs : Fin q → ℂ) (modes : Matrix m (Fin q) ℂ)
    (h : OptDmd.IsFit prec X Y Uz Q eigs modes) : Q = 0 ∧ eigs = 0 ∧ modes = 0 := by
  obtain ⟨p, U, s, V, hsvd, pz, hq, Uf, sz, Vz, hZ, hs, rfl, rfl, W, ⟨hW, _, hn⟩, rfl⟩ := h
  have hr : 0 < OptDmd.rcond prec := by cases prec <;> simp only [OptDmd.rcond] <;> positivity
  have hp : OptDmd.pinvDiag prec s = 0 := by
    ext i j
    by_cases hij : i = j
    · subst hij
      have : ¬ OptDmd.rcond prec < s i := by
        rw [not_lt]
        exact abs_le_of_sq_le_sq' (le_trans (sing_le_frob hsvd i) hX) hr.le |>.2
      simp [OptDmd.pinvDiag, rdiag, this]
    · simp [OptDmd.pinvDiag, rdiag, diagonal_apply_ne _ hij]
  have hQ : OptDmd.matQ prec Y U s V (lead q hq Uf) = 0 := by simp [OptDmd.matQ, hp]
  refine ⟨hQ, ?_, ?_⟩
  · rw [hQ] at hW
    simp only [OptDmd.atilde, conjTranspose_zero, Matrix.zero_mul] at hW
    funext j
    by_contra h0
    have h1 : ∀ i, W i j = 0 := fun i => by
      have := congrFun (congrFun hW i) j
      rw [Matrix.mul_diagonal] at this
      exact (mul_eq_zero.mp this.symm).resolve_right h0
    have := hn j
    simp [normSq, h1] at this
  · simp [hQ, OptDmd.rightVecs, OptDmd.atilde]

/-- A fit of one sensor showing 1 and then 2: the eigenvalue is 2. The same data in units of `10 ^ 13` satisfy the
hypothesis of `C150_optdmd_small_false`. -/
example :
    let X : Matrix (Fin 1) (Fin 1) ℂ := of fun _ _ => 1
    let Y : Matrix (Fin 1) (Fin 1) ℂ := of fun _ _ => 2
    (∃ Uz Q modes, OptDmd.IsFit .double X Y Uz Q (fun _ : Fin 1 => 2) modes) ∧
      frobSq (((10 ^ 13 : ℝ)⁻¹ : ℂ) • X) ≤ OptDmd.rcond .double ^ 2 := by
  intro X Y
  have h1 : OptDmd.pinvDiag .double (fun _ : Fin 1 => 1) = (1 : Matrix (Fin 1) (Fin 1) ℂ) := by
    ext i j; fin_cases i; fin_cases j
    have : OptDmd.rcond .double < 1 := by norm_num [OptDmd.rcond]
    simp [OptDmd.pinvDiag, rdiag, this]
  have hr : rdiag (fun _ : Fin 1 => (1 : ℝ)) = 1 := by
    ext i j; fin_cases i; fin_cases j; simp [rdiag]
  have hX : X = 1 := by ext i j; fin_cases i; fin_cases j; simp [X]
  have hY : Y = (2 : ℂ) • (1 : Matrix (Fin 1) (Fin 1) ℂ) := by ext i j; fin_cases i; fin_cases j; simp [Y]
  have hl : lead 1 le_rfl (1 : Matrix (Fin 1) (Fin 1) ℂ) = 1 := by
    ext i j; fin_cases i; fin_cases j; simp [lead]
  constructor
  · refine ⟨1, OptDmd.matQ .double Y 1 (fun _ => 1) 1 1, _, 1, 1, fun _ => 1, 1, ⟨?_, by simp, by simp, by simp⟩, 1, le_rfl, 1,
      fun _ => 2, 1, ⟨?_, by simp, by simp, by simp⟩, antitone_const, hl.symm, rfl, 1, ⟨?_, ?_, ?_⟩, rfl⟩
    · simp [hX, hr]
    · simp only [OptDmd.matZ, hr, h1, hY]
      ext i j; fin_cases i; fin_cases j; simp [rdiag]
    · simp only [OptDmd.atilde, OptDmd.matQ, h1, hY]
      ext i j; fin_cases i; fin_cases j; simp
    · have : OptDmd.atilde (OptDmd.matQ .double Y 1 (fun _ : Fin 1 => 1) (1 : Matrix (Fin 1) (Fin 1) ℂ) 1) 1 =
          diagonal fun _ : Fin 1 => (2 : ℂ) := by
        simp only [OptDmd.atilde, OptDmd.matQ, h1, hY]
        ext i j; fin_cases i; fin_cases j; simp
      rw [this, Matrix.charpoly_diagonal]
      simp
    · intro j
      rw [Subsingleton.elim j 0]
      simp [normSq]
  · simp [frobSq, X, OptDmd.rcond, Complex.normSq_apply]
    norm_num

/-! ## Units of the control input in DMDc -/

/-- The change of the unit of the control input. -/
def unitOf {c : ℕ} [DecidableEq m] (g : ℂ) : Matrix (m ⊕ Fin c) (m ⊕ Fin c) ℂ := diagonal (Sum.elim (fun _ => 1) fun _ => g)

omit [Fintype n] in
theorem omega_unit {c : ℕ} [DecidableEq m] (g : ℂ) (X : Matrix m n ℂ) (I : Matrix (Fin c) n ℂ) :
    Dmdc.omega X (g • I) = unitOf g * Dmdc.omega X I := by
  ext i j
  rcases i with i | i <;> simp [Dmdc.omega, unitOf, Matrix.diagonal_mul]

/-- **C150** (DMDc, units of the control; partial): if states and inputs together are independent, and all nonzero
singular values are kept, the unit of the control input changes neither eigenvalues nor modes, and `B` inversely. -/
theorem C150_dmdc_units_partial [DecidableEq m] [DecidableEq n] {c k k' q : ℕ} (g : ℂ) (hg : g ≠ 0) (X Y : Matrix m n ℂ)
    (I : Matrix (Fin c) n ℂ) (R : Matrix n (m ⊕ Fin c) ℂ) (hR : Dmdc.omega X I * R = 1)
    (Up : Matrix (m ⊕ Fin c) (Fin k) ℂ) (sp : Fin k → ℝ) (Vp : Matrix n (Fin k) ℂ) (h : IsSVD (Dmdc.omega X I) Up sp Vp)
    (hs : ∀ i, sp i ≠ 0) (Up' : Matrix (m ⊕ Fin c) (Fin k') ℂ) (sp' : Fin k' → ℝ) (Vp' : Matrix n (Fin k') ℂ)
    (h' : IsSVD (Dmdc.omega X (g • I)) Up' sp' Vp') (hs' : ∀ i, sp' i ≠ 0) (Ur : Matrix m (Fin q) ℂ)
    (W : Matrix (Fin q) (Fin q) ℂ) :
    Dmdc.unknownOperator Y Up' sp' Vp' Ur = Dmdc.unknownOperator Y Up sp Vp Ur ∧
    Dmdc.unknownModes Y Up' sp' Vp' Ur W = Dmdc.unknownModes Y Up sp Vp Ur W ∧
    Dmdc.unknownB Y Up' sp' Vp' Ur = g⁻¹ • Dmdc.unknownB Y Up sp Vp Ur := by
  obtain ⟨P, hP⟩ : ∃ P : Matrix n (m ⊕ Fin c) ℂ, P = Vp * rdiag (fun i => (sp i)⁻¹) * Upᴴ := ⟨_, rfl⟩
  have hpinv : IsPinv (Dmdc.omega X I) P := hP ▸ h.isPinv hs
  have hone : Dmdc.omega X I * P = (1 : Matrix (m ⊕ Fin c) (m ⊕ Fin c) ℂ) := by
    have := congrArg (· * R) hpinv.apa
    beta_reduce at this
    rwa [Matrix.mul_assoc, hR, Matrix.mul_one] at this
  have hu : unitOf (m := m) (c := c) g⁻¹ * unitOf g = 1 := by
    rw [unitOf, unitOf, diagonal_mul_diagonal, ← diagonal_one]
    congr 1
    funext i
    rcases i with i | i <;> simp [hg]
  have hu' : unitOf (m := m) (c := c) g * unitOf g⁻¹ = 1 := mul_eq_one_comm.mp hu
  have hpinv' : IsPinv (Dmdc.omega X (g • I)) (P * unitOf g⁻¹) := by
    have e1 : Dmdc.omega X (g • I) * (P * unitOf g⁻¹) = (1 : Matrix (m ⊕ Fin c) (m ⊕ Fin c) ℂ) := by
      rw [omega_unit, Matrix.mul_assoc, ← Matrix.mul_assoc _ P, hone, Matrix.one_mul, hu']
    have e2 : P * unitOf g⁻¹ * Dmdc.omega X (g • I) = P * Dmdc.omega X I := by
      rw [omega_unit, Matrix.mul_assoc, ← Matrix.mul_assoc _ (unitOf g), hu, Matrix.one_mul]
    refine ⟨by rw [e1, Matrix.one_mul], ?_, by rw [e1, conjTranspose_one], by rw [e2, hpinv.pa]⟩
    rw [Matrix.mul_assoc, e1, Matrix.mul_one]
  have key : Vp' * rdiag (fun i => (sp' i)⁻¹) * Up'ᴴ = P * unitOf g⁻¹ := (h'.isPinv hs').unique hpinv'
  have hup : ∀ {l : ℕ} (A : Matrix (m ⊕ Fin c) (Fin l) ℂ) (s : Fin l → ℝ) (V : Matrix n (Fin l) ℂ),
      V * rdiag (fun i => (s i)⁻¹) * (Dmdc.upper A)ᴴ = (V * rdiag (fun i => (s i)⁻¹) * Aᴴ).submatrix id Sum.inl := by
    intro l A s V
    ext i j
    simp [Dmdc.upper, Matrix.mul_apply]
  have hlo : ∀ {l : ℕ} (A : Matrix (m ⊕ Fin c) (Fin l) ℂ) (s : Fin l → ℝ) (V : Matrix n (Fin l) ℂ),
      V * rdiag (fun i => (s i)⁻¹) * (Dmdc.lower A)ᴴ = (V * rdiag (fun i => (s i)⁻¹) * Aᴴ).submatrix id Sum.inr := by
    intro l A s V
    ext i j
    simp [Dmdc.lower, Matrix.mul_apply]
  have k1 : Vp' * rdiag (fun i => (sp' i)⁻¹) * (Dmdc.upper Up')ᴴ = Vp * rdiag (fun i => (sp i)⁻¹) * (Dmdc.upper Up)ᴴ := by
    rw [hup, hup, key, ← hP]
    ext i j
    simp [unitOf, Matrix.mul_diagonal]
  have k2 : Vp' * rdiag (fun i => (sp' i)⁻¹) * (Dmdc.lower Up')ᴴ =
      g⁻¹ • (Vp * rdiag (fun i => (sp i)⁻¹) * (Dmdc.lower Up)ᴴ) := by
    rw [hlo, hlo, key, ← hP]
    ext i j
    simp [unitOf, Matrix.mul_diagonal, mul_comm]
  refine ⟨?_, ?_, ?_⟩
  · simp only [Dmdc.unknownOperator]
    rw [Matrix.mul_assoc (Urᴴ * Y), Matrix.mul_assoc (Urᴴ * Y), k1]
    simp only [Matrix.mul_assoc]
  · simp only [Dmdc.unknownModes]
    rw [Matrix.mul_assoc Y, Matrix.mul_assoc Y, k1]
    simp only [Matrix.mul_assoc]
  · simp only [Dmdc.unknownB]
    rw [Matrix.mul_assoc (Urᴴ * Y), Matrix.mul_assoc (Urᴴ * Y), k2, Matrix.mul_smul, Matrix.mul_smul]
    simp only [Matrix.mul_assoc]

/-- One sensor showing 1 and then 2, with a control input `g` in between. -/
def one (a : ℝ) : Matrix (Fin 1) (Fin 1) ℂ := of fun _ _ => (a : ℂ)

theorem one_lead {k : Type} (A : Matrix k (Fin 1) ℂ) : lead 1 le_rfl A = A := by
  ext i j; rw [Subsingleton.elim j 0]; rfl

/-- With one column only one singular value is kept. -/
theorem one_columns {p : ℕ} (hp : 1 ≤ p) (V : Matrix (Fin 1) (Fin p) ℂ) (hV : Vᴴ * V = 1) : p = 1 := by
  by_contra h
  have h2 : 1 < p := by omega
  have e := fun i j => congrFun (congrFun hV i) j
  have e00 := e ⟨0, by omega⟩ ⟨0, by omega⟩
  have e11 := e ⟨1, h2⟩ ⟨1, h2⟩
  have e01 := e ⟨0, by omega⟩ ⟨1, h2⟩
  simp [Matrix.mul_apply] at e00 e11 e01
  rcases e01 with h0 | h0
  · rw [h0] at e00; simp at e00
  · rw [h0] at e11; simp at e11

set_option maxHeartbeats 800000 in
/-- **C150** is false for the units of the control input of DMDc when states and inputs are not independent, as with a
feedback: an input of `g` instead of 1 changes the eigenvalue from 1 to `2 / (1 + g ^ 2)`. Every fit does, and there is one. -/
theorem C150_dmdc_units_false (g : ℝ) :
    (∀ (B : Matrix (Fin 1) (Fin 1) ℂ) (eigs : Fin 1 → ℂ) (modes : Matrix (Fin 1) (Fin 1) ℂ),
      Dmdc.IsUnknown 1 (one 1) (one 2) (one g) B eigs modes → eigs 0 = 2 / (1 + g ^ 2)) ∧
    ∃ (B : Matrix (Fin 1) (Fin 1) ℂ) (eigs : Fin 1 → ℂ) (modes : Matrix (Fin 1) (Fin 1) ℂ),
      Dmdc.IsUnknown 1 (one 1) (one 2) (one g) B eigs modes := by
  have hpos : 0 < 1 + g ^ 2 := by positivity
  have hne : (1 + (g : ℂ) ^ 2) ≠ 0 := by exact_mod_cast hpos.ne'
  have hstar : (Dmdc.omega (one 1) (one g))ᴴ * Dmdc.omega (one 1) (one g) =
      (1 + (g : ℂ) ^ 2) • (1 : Matrix (Fin 1) (Fin 1) ℂ) := by
    ext i j
    rw [Subsingleton.elim i 0, Subsingleton.elim j 0]
    simp [Matrix.mul_apply, Dmdc.omega, one, sq]
  have hop : ∀ (Up : Matrix (Fin 1 ⊕ Fin 1) (Fin 1) ℂ) (sp : Fin 1 → ℝ) (Vp : Matrix (Fin 1) (Fin 1) ℂ)
      (Ur : Matrix (Fin 1) (Fin 1) ℂ), IsSVD (Dmdc.omega (one 1) (one g)) Up sp Vp → (∀ i, sp i ≠ 0) → Urᴴ * Ur = 1 →
      Dmdc.unknownOperator (one 2) Up sp Vp Ur = (2 / (1 + (g : ℂ) ^ 2)) • (1 : Matrix (Fin 1) (Fin 1) ℂ) := by
    intro Up sp Vp Ur h hs hU
    have hp : IsPinv (Dmdc.omega (one 1) (one g)) ((1 + (g : ℂ) ^ 2)⁻¹ • (Dmdc.omega (one 1) (one g))ᴴ) := by
      refine ⟨?_, ?_, ?_, ?_⟩
      · rw [Matrix.mul_assoc, Matrix.smul_mul, hstar, smul_smul, inv_mul_cancel₀ hne, one_smul, Matrix.mul_one]
      · rw [Matrix.smul_mul, hstar, smul_smul, inv_mul_cancel₀ hne, one_smul, Matrix.one_mul]
      · simp [Matrix.mul_smul, conjTranspose_smul]
      · rw [Matrix.smul_mul, hstar, smul_smul, inv_mul_cancel₀ hne]; simp
    have hq := (h.isPinv hs).unique hp
    have h3 : (Vp * rdiag (fun i => (sp i)⁻¹) * (Dmdc.upper Up)ᴴ) = (1 + (g : ℂ) ^ 2)⁻¹ • (1 : Matrix (Fin 1) (Fin 1) ℂ) := by
      ext i j
      have := congrFun (congrFun hq i) (Sum.inl j)
      rw [Subsingleton.elim i 0, Subsingleton.elim j 0] at this ⊢
      simp [Matrix.mul_apply, Dmdc.omega, one, Dmdc.upper] at this ⊢
      exact this
    have h2 : one 2 = (2 : ℂ) • (1 : Matrix (Fin 1) (Fin 1) ℂ) := by
      ext i j; rw [Subsingleton.elim i 0, Subsingleton.elim j 0]; simp [one]
    rw [Dmdc.unknownOperator, Matrix.mul_assoc (Urᴴ * one 2), Matrix.mul_assoc (Urᴴ * one 2), h3, h2]
    simp only [Matrix.mul_smul, Matrix.smul_mul, Matrix.mul_one, smul_smul, hU]
    rw [div_eq_inv_mul]
  constructor
  · intro B eigs modes h
    obtain ⟨p, hk, Up, sp, Vp, h, -, hs, py, hq, Uy, sy, Vy, hY, -, W, ⟨hW, hc, hn⟩, -, -⟩ := h
    obtain rfl := one_columns hk Vp h.v
    have hs' : ∀ i, sp i ≠ 0 := fun i => by have := hs 0; rwa [Subsingleton.elim i 0]
    have e : sp ∘ Fin.castLE hk = sp := by funext i; rw [Subsingleton.elim i 0]; rfl
    rw [one_lead, one_lead, e, hop Up sp Vp _ h hs' (lead_orthonormal hq Uy hY.u)] at hW
    have h0 := congrFun (congrFun hW 0) 0
    have hn0 := hn 0
    rw [Matrix.mul_diagonal] at h0
    simp [normSq] at h0 hn0
    have hw : W 0 0 ≠ 0 := by intro hw; rw [hw] at hn0; simp at hn0
    rw [mul_comm] at h0
    exact (mul_left_cancel₀ hw h0).symm
  · have hr : 0 < √(1 + g ^ 2) := Real.sqrt_pos.mpr hpos
    have hrc : ((√(1 + g ^ 2) : ℝ) : ℂ) ≠ 0 := by exact_mod_cast hr.ne'
    have hrr : ((√(1 + g ^ 2) : ℝ) : ℂ) * ((√(1 + g ^ 2) : ℝ) : ℂ) = 1 + (g : ℂ) ^ 2 := by
      rw [← Complex.ofReal_mul, Real.mul_self_sqrt hpos.le]; push_cast; rfl
    have hsvd : IsSVD (Dmdc.omega (one 1) (one g)) (((√(1 + g ^ 2) : ℝ) : ℂ)⁻¹ • Dmdc.omega (one 1) (one g))
        (fun _ : Fin 1 => √(1 + g ^ 2)) (1 : Matrix (Fin 1) (Fin 1) ℂ) := by
      have hd : rdiag (fun _ : Fin 1 => √(1 + g ^ 2)) = ((√(1 + g ^ 2) : ℝ) : ℂ) • (1 : Matrix (Fin 1) (Fin 1) ℂ) := by
        ext i j; rw [Subsingleton.elim i 0, Subsingleton.elim j 0]; simp [rdiag]
      refine ⟨?_, ?_, by simp, fun _ => hr.le⟩
      · rw [hd]
        rw [Matrix.mul_smul, Matrix.mul_one, smul_smul, mul_inv_cancel₀ hrc, one_smul, conjTranspose_one, Matrix.mul_one]
      · rw [conjTranspose_smul, Matrix.smul_mul, Matrix.mul_smul, hstar, smul_smul, smul_smul, ← hrr]
        simp only [star_inv₀, Complex.star_def, Complex.conj_ofReal]
        rw [show ((√(1 + g ^ 2) : ℝ) : ℂ)⁻¹ * ((√(1 + g ^ 2) : ℝ) : ℂ)⁻¹ * (((√(1 + g ^ 2) : ℝ) : ℂ) *
          ((√(1 + g ^ 2) : ℝ) : ℂ)) = 1 by field_simp, one_smul]
    have hY : IsSVD (one 2) (1 : Matrix (Fin 1) (Fin 1) ℂ) (fun _ => 2) 1 := by
      refine ⟨?_, by simp, by simp, by simp⟩
      ext i j; rw [Subsingleton.elim i 0, Subsingleton.elim j 0]; simp [one, rdiag]
    refine ⟨_, fun _ => 2 / (1 + (g : ℂ) ^ 2), _, 1, le_rfl, _, _, _, hsvd, antitone_const, fun _ => hr.ne', 1, le_rfl, 1,
      fun _ => 2, 1, hY, antitone_const, 1, ⟨?_, ?_, ?_⟩, rfl, rfl⟩
    · simp only [one_lead]
      have e : (fun _ : Fin 1 => √(1 + g ^ 2)) ∘ Fin.castLE (le_refl 1) = fun _ : Fin 1 => √(1 + g ^ 2) := rfl
      rw [e, hop _ _ _ 1 hsvd (fun _ => hr.ne') (by simp)]
      ext i j; rw [Subsingleton.elim i 0, Subsingleton.elim j 0]; simp
    · simp only [one_lead]
      have e : (fun _ : Fin 1 => √(1 + g ^ 2)) ∘ Fin.castLE (le_refl 1) = fun _ : Fin 1 => √(1 + g ^ 2) := rfl
      rw [e, hop _ _ _ 1 hsvd (fun _ => hr.ne') (by simp), Matrix.smul_one_eq_diagonal, Matrix.charpoly_diagonal]
      simp
    · intro j
      rw [Subsingleton.elim j 0]
      simp [normSq]

/-- Fits as in the theorems on coordinates exist for all data and all ranks up to the size of the data. -/
example {M N c q : ℕ} (prec : OptDmd.Prec) (hq : q ≤ min M N) (X Y : Matrix (Fin M) (Fin N) ℂ) (I : Matrix (Fin c) (Fin N) ℂ)
    (B : Matrix (Fin M) (Fin c) ℂ) (skew : Bool) :
    (∃ Uz Q eigs modes, OptDmd.IsFit (q := q) prec X Y Uz Q eigs modes) ∧
    (∃ eigs modes, Dmdc.IsKnown (q := q) X Y I B eigs modes) ∧
    (∃ eigs modes, Pidmd.IsUnitary (q := q) X Y eigs modes) ∧
    (∃ eigs modes, Pidmd.IsSymmetric (q := q) skew X Y eigs modes) := by
  obtain ⟨U, s, V, h, hs⟩ := exists_svd X
  refine ⟨?_, ?_, ?_, ?_⟩
  · obtain ⟨Uf, sz, Vz, hz, hsz⟩ := exists_svd (OptDmd.matZ prec Y s V)
    obtain ⟨W, eigs, hW⟩ := exists_eig (OptDmd.atilde (OptDmd.matQ prec Y U s V (lead q hq Uf)) (lead q hq Uf))
    exact ⟨_, _, eigs, _, _, U, s, V, h, _, hq, Uf, sz, Vz, hz, hsz, rfl, rfl, W, hW, rfl⟩
  · obtain ⟨W, eigs, hW⟩ := exists_eig (Dmdc.knownOperator (lead q hq U) (s ∘ Fin.castLE hq) (lead q hq V) Y B I)
    exact ⟨eigs, _, _, hq, U, s, V, h, hs, W, hW, rfl⟩
  · obtain ⟨P, t, R, hP⟩ := exists_svd_tall le_rfl (Pidmd.crossCov (lead q hq U) X Y)
    obtain ⟨W, eigs, hW⟩ := exists_eig (Pidmd.unitaryAtilde P R)
    exact ⟨eigs, _, _, hq, U, s, V, h, hs, P, R, t, hP, W, hW, rfl⟩
  · obtain ⟨W, eigs, hW⟩ := exists_eig (Pidmd.computeSymmetric skew q hq U s V Y)
    exact ⟨eigs, _, _, hq, U, s, V, h, hs, W, hW, rfl⟩

end Verif.Possible
