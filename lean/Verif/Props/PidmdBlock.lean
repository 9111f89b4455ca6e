import Verif.Props.PidmdFft
import Mathlib.LinearAlgebra.Matrix.Kronecker

/-!
# C70: block-circulant and Toeplitz manifolds of PiDMD
-/

set_option autoImplicit false

namespace Verif.Pidmd

open Matrix LinAlg Kronecker

/-- The hypothesis on `dp` of `C70_bccb` is met by 1 for stationary data. -/
example (p q : ℕ) [NeZero p] [NeZero q] (X : Matrix (ZMod p × ZMod q) (Fin 3) ℂ)
    (k : ZMod p × ZMod q) :
    IsLstsq (Matrix.of fun t (_ : Unit) => bccbF (dft2 p q) X k t) (bccbF (dft2 p q) X k)
      (fun _ => 1) ∧
    ∃ A, computeBCCB (dft2 p q) X X .unitary (fun _ => 1) ∅ = some A := by
  refine ⟨fun c => ?_, _, if_pos fun k => ?_⟩
  · have : (Matrix.of fun t (_ : Unit) => bccbF (dft2 p q) X k t) *ᵥ (fun _ => 1) -
        bccbF (dft2 p q) X k = 0 := by
      funext t
      simp [mulVec, dotProduct]
    rw [this]
    simp only [normSq, Pi.zero_apply, map_zero, Finset.sum_const_zero]
    exact Finset.sum_nonneg fun _ _ => Complex.normSq_nonneg _
  · simp [bccbD]

section Block

variable {G m I : Type} [AddCommGroup G] [Fintype G] [DecidableEq G] [Fintype m] [Fintype I]
  [DecidableEq I]

/-- The scaled transform as a matrix. -/
noncomputable def blockW (I : Type) [DecidableEq I] (F : Matrix G G ℂ) :
    Matrix (I × G) (I × G) ℂ :=
  (1 : Matrix I I ℂ) ⊗ₖ ((Real.sqrt (Fintype.card G) : ℂ)⁻¹ • F)

omit [AddCommGroup G] [DecidableEq G] in
theorem fftBlock_eq {m : Type} (F : Matrix G G ℂ) (X : Matrix (I × G) m ℂ) :
    fftBlock F X = blockW I F * X := by
  ext a t
  obtain ⟨i, a⟩ := a
  rw [Matrix.mul_apply, Fintype.sum_prod_type]
  simp only [fftBlock, Matrix.of_apply, blockW, kroneckerMap_apply, Matrix.smul_apply, smul_eq_mul]
  rw [Finset.sum_eq_single i]
  · rw [Finset.sum_div]
    refine Finset.sum_congr rfl fun b _ => ?_
    rw [Matrix.one_apply_eq]
    ring
  · intro j _ hj
    refine Finset.sum_eq_zero fun b _ => ?_
    rw [Matrix.one_apply_ne (Ne.symm hj)]
    ring
  · simp

theorem blockW_unitary {F : Matrix G G ℂ} (hF : IsFourier F) :
    (blockW I F)ᴴ * blockW I F = 1 := by
  have h : ((Real.sqrt (Fintype.card G) : ℂ)⁻¹ • F)ᴴ * ((Real.sqrt (Fintype.card G) : ℂ)⁻¹ • F) =
      1 := by
    rw [conjTranspose_smul, Matrix.smul_mul, Matrix.mul_smul, hF.orth, star_inv₀, star_ofReal,
      smul_smul, smul_smul, ← sqrt_card_mul]
    have := sqrt_card_ne (G := G)
    have e : (Real.sqrt (Fintype.card G) : ℂ)⁻¹ * (Real.sqrt (Fintype.card G) : ℂ)⁻¹ *
        ((Real.sqrt (Fintype.card G) : ℂ) * (Real.sqrt (Fintype.card G) : ℂ)) = 1 := by
      field_simp
    rw [← mul_assoc] at *
    rw [e, one_smul]
  rw [blockW, conjTranspose_kronecker, ← mul_kronecker_mul, h, conjTranspose_one, Matrix.one_mul,
    one_kronecker_one]

theorem cj_blockW {F : Matrix G G ℂ} (hF : IsFourier F) : cj (blockW I F) = (blockW I F)ᴴ := by
  ext a b
  obtain ⟨i, a⟩ := a
  obtain ⟨j, b⟩ := b
  simp only [cj, Matrix.map_apply, conjTranspose_apply, blockW, kroneckerMap_apply,
    Matrix.smul_apply, smul_eq_mul, hF.symm a b]
  by_cases h : i = j
  · subst h; rfl
  · rw [Matrix.one_apply_ne h, Matrix.one_apply_ne (Ne.symm h)]

omit [AddCommGroup G] [Fintype G] [DecidableEq G] in
theorem cj_mul {a b c : Type} [Fintype b] (M : Matrix a b ℂ) (N : Matrix b c ℂ) :
    cj (M * N) = cj M * cj N := by
  ext i j
  simp [cj, Matrix.mul_apply]

theorem bcA_eq {F : Matrix G G ℂ} (hF : IsFourier F) (d : G → Matrix I I ℂ) :
    bcA F d = (blockW I F)ᴴ * blockDiagonal d * blockW I F := by
  have hcc : ∀ M : Matrix (I × G) (I × G) ℂ, cj (cj M) = M := by
    intro M; ext i j; simp [cj]
  rw [bcA, fftBlock_eq, fftBlock_eq, cj_mul, hcc, cj_blockW hF, Matrix.mul_one, Matrix.mul_assoc]

/-- The blocks of the data at one frequency. -/
noncomputable def freq (F : Matrix G G ℂ) (X : Matrix (I × G) m ℂ) (k : G) : Matrix I m ℂ :=
  Matrix.of fun i t => fftBlock F X (i, k) t

/-- The error splits by frequencies. -/
theorem bc_error {F : Matrix G G ℂ} (hF : IsFourier F) (d : G → Matrix I I ℂ)
    (X Y : Matrix (I × G) m ℂ) :
    frobSq (Y - bcA F d * X) = ∑ k, frobSq (freq F Y k - d k * freq F X k) := by
  have hW := blockW_unitary (I := I) hF
  have hW' : blockW I F * (blockW I F)ᴴ = 1 := mul_eq_one_comm.mp hW
  rw [← frobSq_isometry (blockW I F) hW, Matrix.mul_sub, bcA_eq hF]
  have e : blockW I F * ((blockW I F)ᴴ * blockDiagonal d * blockW I F * X) =
      blockDiagonal d * fftBlock F X := by
    rw [fftBlock_eq]
    calc blockW I F * ((blockW I F)ᴴ * blockDiagonal d * blockW I F * X)
        = (blockW I F * (blockW I F)ᴴ) * blockDiagonal d * (blockW I F * X) := by
          simp only [Matrix.mul_assoc]
      _ = _ := by rw [hW', Matrix.one_mul]
  rw [e, ← fftBlock_eq]
  unfold frobSq
  rw [Fintype.sum_prod_type, Finset.sum_comm]
  refine Finset.sum_congr rfl fun k _ => Finset.sum_congr rfl fun i _ =>
    Finset.sum_congr rfl fun t _ => ?_
  congr 1
  rw [Matrix.sub_apply, Matrix.sub_apply]
  congr 1
  rw [Matrix.mul_apply, Matrix.mul_apply, Fintype.sum_prod_type]
  refine Finset.sum_congr rfl fun j _ => ?_
  rw [Finset.sum_eq_single k]
  · simp [blockDiagonal_apply, freq]
  · intro l _ hl
    simp [blockDiagonal_apply, Ne.symm hl]
  · simp

theorem cj_isFourier {F : Matrix G G ℂ} (hF : IsFourier F) : IsFourier (cj F) := by
  refine ⟨fun i j => ?_, fun k i j => ?_, ?_⟩
  · simp only [cj, Matrix.map_apply, hF.symm i j]
  · simp only [cj, Matrix.map_apply, hF.add, star_mul']
  · have h : (cj F)ᴴ = F := by
      ext i j
      simp only [cj, conjTranspose_apply, Matrix.map_apply, star_star, hF.symm j i]
    have h2 : cj F = Fᴴ := by
      ext i j
      simp only [cj, conjTranspose_apply, Matrix.map_apply, hF.symm j i]
    rw [h, h2, hF.orth']

theorem bcA_apply {F : Matrix G G ℂ} (hF : IsFourier F) (d : G → Matrix I I ℂ) (i j : I) (a b : G) :
    bcA F d (i, a) (j, b) = circA (cj F) (fun k => d k i j) a b := by
  rw [(cj_isFourier hF).circA_apply, bcA_eq hF, Matrix.mul_apply, Fintype.sum_prod_type]
  rw [Finset.sum_eq_single j]
  · rw [Finset.mul_sum]
    refine Finset.sum_congr rfl fun k _ => ?_
    rw [Matrix.mul_apply, Fintype.sum_prod_type, Finset.sum_eq_single i, Finset.sum_eq_single k]
    · simp only [conjTranspose_apply, blockW, kroneckerMap_apply, Matrix.one_apply_eq, one_mul,
        Matrix.smul_apply, smul_eq_mul, blockDiagonal_apply, if_true, star_mul', star_inv₀,
        star_ofReal]
      rw [(cj_isFourier hF).sub]
      simp only [cj, Matrix.map_apply, star_star]
      rw [← sqrt_card_mul, mul_inv]
      ring
    · intro l _ hl
      simp [blockDiagonal_apply, hl]
    · simp
    · intro i' _ hi
      refine Finset.sum_eq_zero fun l _ => ?_
      simp [blockW, Matrix.one_apply_ne hi]
    · simp
  · intro j' _ hj
    refine Finset.sum_eq_zero fun l _ => ?_
    simp [blockW, Matrix.one_apply_ne hj]
  · simp

/-- Block-circulant matrices: the block `(a, b)`, whose entries are indexed by `i` and `j`, depends
only on `a - b`. -/
def IsBlockCirc (A : Matrix (I × G) (I × G) ℂ) : Prop :=
  ∀ i j a b e, A (i, a + e) (j, b + e) = A (i, a) (j, b)

/-- The blocks in the frequency domain of a block-circulant matrix. -/
noncomputable def blocksOf (F : Matrix G G ℂ) (B : Matrix (I × G) (I × G) ℂ) (k : G) :
    Matrix I I ℂ :=
  Matrix.of fun i j => IsFourier.eigsOf (cj F) (Matrix.of fun a b => B (i, a) (j, b)) k

theorem bcA_circ {F : Matrix G G ℂ} (hF : IsFourier F) (d : G → Matrix I I ℂ) :
    IsBlockCirc (bcA F d) := by
  intro i j a b e
  rw [bcA_apply hF, bcA_apply hF]
  exact (cj_isFourier hF).circA_circ _ a b e

theorem eq_bcA {F : Matrix G G ℂ} (hF : IsFourier F) {B : Matrix (I × G) (I × G) ℂ}
    (hB : IsBlockCirc B) : B = bcA F (blocksOf F B) := by
  ext ⟨i, a⟩ ⟨j, b⟩
  rw [bcA_apply hF]
  have h : IsCirc (Matrix.of fun a b => B (i, a) (j, b)) := fun a b e => hB i j a b e
  exact congrFun (congrFun ((cj_isFourier hF).eq_circA h) a) b

/-- **C70** (block circulant, for all real or complex data). The operator built from the
least-squares solutions per frequency is block circulant and the closest fit among all
block-circulant matrices. -/
theorem C70_bc (p q : ℕ) [NeZero q] (X Y : Matrix (Fin p × ZMod q) m ℂ)
    (d : ZMod q → Matrix (Fin p) (Fin p) ℂ)
    (hd : ∀ k i, IsLstsq (blockData (dft q) X k) (fftBlock (dft q) Y (i, k)) (d k i)) :
    IsBlockCirc (bcA (dft q) d) ∧ ∀ B, IsBlockCirc B →
      frobSq (Y - bcA (dft q) d * X) ≤ frobSq (Y - B * X) := by
  have hF := dft_isFourier q
  refine ⟨bcA_circ hF d, fun B hB => ?_⟩
  rw [eq_bcA hF hB, bc_error hF, bc_error hF]
  refine Finset.sum_le_sum fun k _ => ?_
  rw [frobSq_rows, frobSq_rows]
  refine Finset.sum_le_sum fun i _ => ?_
  have e : ∀ M : Matrix (Fin p) (Fin p) ℂ, (freq (dft q) Y k - M * freq (dft q) X k) i =
      fftBlock (dft q) Y (i, k) - blockData (dft q) X k *ᵥ M i := by
    intro M
    funext t
    simp only [Matrix.sub_apply, Pi.sub_apply, freq, Matrix.of_apply, Matrix.mul_apply, mulVec,
      dotProduct, blockData]
    congr 1
    exact Finset.sum_congr rfl fun j _ => mul_comm _ _
  rw [e, e, normSq_sub_comm, normSq_sub_comm (fftBlock (dft q) Y (i, k))]
  exact hd k i _

/-- **C70** (block circulant with tridiagonal blocks, for all data). The operator is block circulant
with tridiagonal blocks and the closest fit among these. -/
theorem C70_bctb (p q : ℕ) [NeZero q] (X Y : Matrix (Fin p × ZMod q) m ℂ)
    (w : Fin p → ℤ × ℤ) (hw : widths (.int 2) = .ok w)
    (R : ZMod q → (i : Fin p) → Cols w i → ℂ)
    (hR : ∀ k i, IsLstsq (bandData w (freq (dft q) X k) i) (freq (dft q) Y k i) (R k i)) :
    let A := bcA (dft q) fun k => banded w (R k)
    (IsBlockCirc A ∧ ∀ (i j : Fin p) a b, 1 < |(i : ℤ) - (j : ℤ)| → A (i, a) (j, b) = 0) ∧
    ∀ B : Matrix (Fin p × ZMod q) (Fin p × ZMod q) ℂ, IsBlockCirc B →
      (∀ (i j : Fin p) a b, 1 < |(i : ℤ) - (j : ℤ)| → B (i, a) (j, b) = 0) →
      frobSq (Y - A * X) ≤ frobSq (Y - B * X) := by
  intro A
  have hF := dft_isFourier q
  have hband : ∀ i j : Fin p, InBand (.int 2 : Opt p) i j ↔ ¬ 1 < |(i : ℤ) - (j : ℤ)| := by
    intro i j
    rw [not_lt, abs_le]
    simp only [InBand]
    omega
  refine ⟨⟨bcA_circ hF _, fun i j a b hij => ?_⟩, fun B hB hBt => ?_⟩
  · have hz : ∀ k, banded w (R k) i j = 0 := by
      intro k
      by_contra hne
      have := (C50_banded (.int 2) w hw (freq (dft q) X k) (freq (dft q) Y k) (R k) (hR k)).1 i j hne
      exact (hband i j).mp this hij
    show bcA (dft q) _ (i, a) (j, b) = 0
    rw [bcA_apply hF, (cj_isFourier hF).circA_apply]
    simp [hz]
  · have hb : ∀ k i j, blocksOf (dft q) B k i j ≠ 0 → InBand (.int 2 : Opt p) i j := by
      intro k i j hne
      rw [hband]
      intro hij
      apply hne
      simp only [blocksOf, Matrix.of_apply, IsFourier.eigsOf]
      exact Finset.sum_eq_zero fun a _ => by rw [hBt i j _ _ hij, zero_mul]
    rw [eq_bcA hF hB]
    show frobSq (Y - bcA (dft q) (fun k => banded w (R k)) * X) ≤ _
    rw [bc_error hF, bc_error hF]
    refine Finset.sum_le_sum fun k _ => ?_
    exact (C50_banded (.int 2) w hw (freq (dft q) X k) (freq (dft q) Y k) (R k) (hR k)).2 _ (hb k)

/-- Stationary data meet the hypothesis of `C70_bc` with identity blocks. -/
example (p q : ℕ) [NeZero q] (X : Matrix (Fin p × ZMod q) (Fin 3) ℂ) (k : ZMod q) (i : Fin p) :
    IsLstsq (blockData (dft q) X k) (fftBlock (dft q) X (i, k))
      ((1 : Matrix (Fin p) (Fin p) ℂ) i) := by
  intro c
  have : blockData (dft q) X k *ᵥ ((1 : Matrix (Fin p) (Fin p) ℂ) i) -
      fftBlock (dft q) X (i, k) = 0 := by
    funext t
    simp [mulVec, dotProduct, blockData, Matrix.one_apply]
  rw [this]
  simp only [normSq, Pi.zero_apply, map_zero, Finset.sum_const_zero]
  exact Finset.sum_nonneg fun _ _ => Complex.normSq_nonneg _

end Block

/-! ### Toeplitz and Hankel -/

section Toeplitz

variable {n : ℕ} [NeZero n] {m : Type} [Fintype m]

/-- Toeplitz matrices: constant along diagonals. -/
def IsToeplitz (A : Matrix (Fin n) (Fin n) ℂ) : Prop :=
  ∀ i j i' j' : Fin n, (i : ℤ) - (j : ℤ) = (i' : ℤ) - (j' : ℤ) → A i j = A i' j'

/-- Hankel matrices: constant along anti-diagonals. -/
def IsHankel (A : Matrix (Fin n) (Fin n) ℂ) : Prop :=
  ∀ i j i' j' : Fin n, (i : ℤ) + (j : ℤ) = (i' : ℤ) + (j' : ℤ) → A i j = A i' j'

theorem emb_sub (i j i' j' : Fin n) :
    emb i - emb j = emb i' - emb j' ↔ (i : ℤ) - (j : ℤ) = (i' : ℤ) - (j' : ℤ) := by
  have hcast : ∀ i j : Fin n, emb i - emb j = (((i : ℤ) - (j : ℤ) : ℤ) : ZMod (2 * n)) := by
    intro i j; simp [emb]
  rw [hcast, hcast]
  constructor
  · intro h
    rw [ZMod.intCast_eq_intCast_iff, Int.modEq_iff_dvd] at h
    obtain ⟨c, hc⟩ := h
    push_cast at hc
    have h1 := i.2; have h2 := j.2; have h3 := i'.2; have h4 := j'.2
    have hc0 : c = 0 := by
      by_contra hne
      rcases lt_or_gt_of_ne hne with h | h
      · have : 2 * (n : ℤ) * c ≤ 2 * (n : ℤ) * (-1) := by
          apply mul_le_mul_of_nonneg_left <;> omega
        omega
      · have : 2 * (n : ℤ) * 1 ≤ 2 * (n : ℤ) * c := by
          apply mul_le_mul_of_nonneg_left <;> omega
        omega
    rw [hc0, mul_zero] at hc
    omega
  · intro h; rw [h]

theorem emb_sub_ne (i j : Fin n) : emb i - emb j ≠ ((n : ℕ) : ZMod (2 * n)) := by
  have hcast : emb i - emb j = (((i : ℤ) - (j : ℤ) : ℤ) : ZMod (2 * n)) := by simp [emb]
  have hn : ((n : ℕ) : ZMod (2 * n)) = ((n : ℤ) : ZMod (2 * n)) := by simp
  rw [hcast, hn]
  intro h
  rw [ZMod.intCast_eq_intCast_iff, Int.modEq_iff_dvd] at h
  obtain ⟨c, hc⟩ := h
  push_cast at hc
  have h1 := i.2; have h2 := j.2
  rcases lt_or_ge c 1 with h | h
  · have : 2 * (n : ℤ) * c ≤ 2 * (n : ℤ) * 0 := by
      apply mul_le_mul_of_nonneg_left <;> omega
    omega
  · have : 2 * (n : ℤ) * 1 ≤ 2 * (n : ℤ) * c := by
      apply mul_le_mul_of_nonneg_left <;> omega
    omega

theorem toepNewA_eq (e : Init n → ℂ) : toepNewA e = circA (dft (2 * n)) (toepEigs e) := by
  have hF := dft_isFourier (2 * n)
  rw [toepNewA, transpose_mul, transpose_transpose, hF.invF_transpose, hF.circA_eq]

/-- Every Toeplitz matrix is represented with the last eigenvalue zero. -/
theorem toeplitz_repr (T : Matrix (Fin n) (Fin n) ℂ) (hT : IsToeplitz T) :
    ∃ e : Init n → ℂ, ∀ i j, toepNewA e (emb i) (emb j) = T i j := by
  classical
  have hF := dft_isFourier (2 * n)
  set F := dft (2 * n)
  set z : ZMod (2 * n) := ((n : ℕ) : ZMod (2 * n)) with hz
  -- entries by diagonals, apart from the free one
  let a0 : ZMod (2 * n) → ℂ := fun d =>
    if h : ∃ q : Fin n × Fin n, emb q.1 - emb q.2 = d then T h.choose.1 h.choose.2 else 0
  set S : ℂ := ∑ d ∈ Finset.univ.erase z, a0 d * star (F d lastK) with hS
  have hne : star (F z lastK) ≠ 0 := by
    intro h0
    have := hF.star_mul_self z lastK
    rw [h0, zero_mul] at this
    exact zero_ne_one this
  let a : ZMod (2 * n) → ℂ := fun d => if d = z then -S / star (F z lastK) else a0 d
  let B : Matrix (ZMod (2 * n)) (ZMod (2 * n)) ℂ := Matrix.of fun x y => a (x - y)
  have hB : IsCirc B := by
    intro x y d
    simp only [B, Matrix.of_apply, add_sub_add_right_eq_sub]
  have hlast : IsFourier.eigsOf F B lastK = 0 := by
    unfold IsFourier.eigsOf
    rw [← Finset.add_sum_erase _ _ (Finset.mem_univ z)]
    have h1 : ∑ d ∈ Finset.univ.erase z, B d 0 * star (F d lastK) = S := by
      rw [hS]
      refine Finset.sum_congr rfl fun d hd => ?_
      have : d ≠ z := Finset.ne_of_mem_erase hd
      simp [B, a, this]
    have h2 : B z 0 = -S / star (F z lastK) := by simp [B, a]
    rw [h1, h2, div_mul_cancel₀ _ hne, neg_add_cancel]
  refine ⟨fun k => IsFourier.eigsOf F B k.1, fun i j => ?_⟩
  have he : toepEigs (fun k : Init n => IsFourier.eigsOf F B k.1) = IsFourier.eigsOf F B := by
    funext k
    by_cases hk : k ≠ lastK
    · simp [toepEigs, hk]
    · rw [not_ne_iff] at hk
      rw [hk, hlast]
      simp [toepEigs]
  rw [toepNewA_eq, he, ← hF.eq_circA hB]
  have hij : emb i - emb j ≠ z := emb_sub_ne i j
  have hex : ∃ q : Fin n × Fin n, emb q.1 - emb q.2 = emb i - emb j := ⟨(i, j), rfl⟩
  show a (emb i - emb j) = T i j
  simp only [a, hij, if_false, a0]
  rw [dif_pos hex]
  exact hT _ _ _ _ ((emb_sub _ _ _ _).mp hex.choose_spec)

theorem toepNewA_toeplitz (e : Init n → ℂ) (i j i' j' : Fin n)
    (h : (i : ℤ) - (j : ℤ) = (i' : ℤ) - (j' : ℤ)) :
    toepNewA e (emb i) (emb j) = toepNewA e (emb i') (emb j') := by
  have hF := dft_isFourier (2 * n)
  rw [toepNewA_eq, hF.circA_apply, hF.circA_apply, (emb_sub _ _ _ _).mpr h]

/-- The map from the eigenvalues to `A X`. -/
noncomputable def toepG (flipped : Bool) (X : Matrix (Fin n) m ℂ) : Matrix (Fin n × m) (Init n) ℂ :=
  Matrix.of fun a k => dft (2 * n) (emb a.1) k.1 / (Real.sqrt (2 * n) : ℂ) *
    toepB flipped X a.2 k.1

omit [NeZero n] in
theorem sqrt_two_mul : (Real.sqrt (2 * n) : ℂ) * (Real.sqrt (2 * n) : ℂ) = (2 * n : ℂ) := by
  rw [← Complex.ofReal_mul, Real.mul_self_sqrt (by positivity)]
  push_cast
  rfl

theorem toepM_gram (flipped : Bool) (X : Matrix (Fin n) m ℂ) :
    toepM flipped X = (toepG flipped X)ᴴ * toepG flipped X := by
  have hF := dft_isFourier (2 * n)
  ext k l
  rw [Matrix.mul_apply, Fintype.sum_prod_type]
  simp only [toepM, toepL, toepAAt, Matrix.of_apply, conjTranspose_apply, star_mul', star_sum,
    star_star, toepG, star_div₀, star_ofReal]
  rw [Finset.sum_mul_sum]
  refine Finset.sum_congr rfl fun i _ => Finset.sum_congr rfl fun t _ => ?_
  have h2 : star (2 * n : ℂ) = 2 * n := by
    have := star_ofReal (2 * n)
    push_cast at this
    exact this
  rw [← star_mul', h2, ← sqrt_two_mul, hF.symm k.1 (emb i)]
  ring

theorem toepY_gram (flipped : Bool) (X Y : Matrix (Fin n) m ℂ) :
    (fun k : Init n => toepY flipped X Y k.1) =
      (toepG flipped X)ᴴ *ᵥ fun a : Fin n × m => Y a.1 a.2 := by
  have hF := dft_isFourier (2 * n)
  funext k
  rw [mulVec, dotProduct, Fintype.sum_prod_type]
  simp only [toepY, toepAm, Matrix.of_apply, conjTranspose_apply, star_mul', star_sum, star_star,
    toepG, star_div₀, star_ofReal, Finset.sum_mul]
  rw [Finset.sum_comm]
  refine Finset.sum_congr rfl fun i _ => Finset.sum_congr rfl fun t _ => ?_
  rw [hF.symm k.1 (emb i)]
  ring

theorem toepA_mul (flipped : Bool) (X : Matrix (Fin n) m ℂ) (e : Init n → ℂ) (i : Fin n) (t : m) :
    (toepA flipped e * X) i t = (toepG flipped X *ᵥ e) (i, t) := by
  have hF := dft_isFourier (2 * n)
  have h1 : (toepA flipped e * X) i t = ∑ j, toepNewA e (emb i) (emb j) * applyJ flipped X j t := by
    rw [Matrix.mul_apply]
    cases flipped
    · simp [toepA, applyJ]
    · simp only [toepA, Matrix.of_apply, if_true, applyJ, flipud]
      exact (Equiv.sum_comp Fin.revPerm fun j => toepNewA e (emb i) (emb j) * X (Fin.rev j) t).symm
        |>.trans (by simp) |>.symm
  rw [h1, mulVec, dotProduct]
  have h2 : ∑ k : Init n, toepG flipped X (i, t) k * e k = ∑ k : ZMod (2 * n),
      dft (2 * n) (emb i) k / (Real.sqrt (2 * n) : ℂ) * toepB flipped X t k * toepEigs e k := by
    refine Fintype.sum_of_injective (fun k : Init n => k.1) Subtype.val_injective _ _ ?_ ?_
    · intro k hk
      have : ¬ k ≠ lastK := fun h => hk ⟨⟨k, h⟩, rfl⟩
      simp [toepEigs, this]
    · intro k
      simp [toepG, toepEigs, k.2]
  rw [h2]
  have h3 : ∀ j, toepNewA e (emb i) (emb j) * applyJ flipped X j t = ∑ k : ZMod (2 * n),
      dft (2 * n) (emb i) k * toepEigs e k * (star (dft (2 * n) k (emb j)) / (2 * n : ℂ)) *
        applyJ flipped X j t := by
    intro j
    rw [toepNewA_eq, hF.circA_eq, Matrix.mul_apply, Finset.sum_mul]
    refine Finset.sum_congr rfl fun k _ => ?_
    rw [mul_diagonal, invF, Matrix.smul_apply, conjTranspose_apply, smul_eq_mul, ZMod.card,
      hF.symm (emb j) k]
    push_cast
    ring
  simp only [h3]
  rw [Finset.sum_comm]
  refine Finset.sum_congr rfl fun k _ => ?_
  simp only [toepB, Matrix.of_apply, star_sum, star_mul', star_star]
  rw [← sqrt_two_mul, Finset.sum_div, Finset.mul_sum, Finset.sum_mul]
  refine Finset.sum_congr rfl fun j _ => ?_
  ring

theorem toep_opt (flipped : Bool) (X Y : Matrix (Fin n) m ℂ) (e : Init n → ℂ)
    (he : IsLstsq (toepM flipped X) (fun k => toepY flipped X Y k.1) e) (e' : Init n → ℂ) :
    frobSq (Y - toepA flipped e * X) ≤ frobSq (Y - toepA flipped e' * X) := by
  rw [toepM_gram, toepY_gram] at he
  have hl := IsLstsq.of_gram he
  have key : ∀ e : Init n → ℂ, frobSq (Y - toepA flipped e * X) =
      normSq (toepG flipped X *ᵥ e - fun a : Fin n × m => Y a.1 a.2) := by
    intro e
    rw [normSq_sub_comm]
    simp only [frobSq, normSq, Fintype.sum_prod_type, Matrix.sub_apply, Pi.sub_apply, toepA_mul]
  rw [key, key]
  exact hl e'

/-- **C70** (Toeplitz, for all real or complex data). The operator is Toeplitz and the closest fit
among all Toeplitz matrices. -/
theorem C70_toeplitz (X Y : Matrix (Fin n) m ℂ) (e : Init n → ℂ)
    (he : IsLstsq (toepM false X) (fun k => toepY false X Y k.1) e) :
    IsToeplitz (toepA false e) ∧ ∀ B, IsToeplitz B →
      frobSq (Y - toepA false e * X) ≤ frobSq (Y - B * X) := by
  refine ⟨fun i j i' j' h => toepNewA_toeplitz e i j i' j' h, fun B hB => ?_⟩
  obtain ⟨e', he'⟩ := toeplitz_repr B hB
  have : toepA false e' = B := by
    ext i j; exact he' i j
  rw [← this]
  exact toep_opt false X Y e he e'

/-- **C70** (Hankel, for all real or complex data). The operator is Hankel and the closest fit among
all Hankel matrices. -/
theorem C70_hankel (X Y : Matrix (Fin n) m ℂ) (e : Init n → ℂ)
    (he : IsLstsq (toepM true X) (fun k => toepY true X Y k.1) e) :
    IsHankel (toepA true e) ∧ ∀ B, IsHankel B →
      frobSq (Y - toepA true e * X) ≤ frobSq (Y - B * X) := by
  have hrev : ∀ j : Fin n, ((Fin.rev j : Fin n) : ℤ) = n - 1 - (j : ℤ) := by
    intro j
    rw [Fin.val_rev]
    omega
  refine ⟨fun i j i' j' h => toepNewA_toeplitz e _ _ _ _ ?_, fun B hB => ?_⟩
  · simp only [if_true, hrev]
    linarith
  · obtain ⟨e', he'⟩ := toeplitz_repr (Matrix.of fun i j => B i (Fin.rev j)) fun i j i' j' h =>
      hB _ _ _ _ (by rw [hrev, hrev]; linarith)
    have : toepA true e' = B := by
      ext i j
      have := he' i (Fin.rev j)
      rw [Matrix.of_apply, Fin.rev_rev] at this
      exact this
    rw [← this]
    exact toep_opt true X Y e he e'

/-- The hypothesis can be met for all data that a Toeplitz matrix (here the identity) fits: every
representation of that matrix solves the system. -/
example (X : Matrix (Fin n) (Fin 3) ℂ) :
    ∃ e : Init n → ℂ, IsLstsq (toepM false X) (fun k => toepY false X X k.1) e := by
  obtain ⟨e, he⟩ := toeplitz_repr (1 : Matrix (Fin n) (Fin n) ℂ) fun i j i' j' h => by
    by_cases hij : i = j
    · have h' : i' = j' := by apply Fin.ext; subst hij; omega
      rw [hij, h', Matrix.one_apply_eq, Matrix.one_apply_eq]
    · have h' : i' ≠ j' := by
        intro hc; subst hc; apply hij; apply Fin.ext; omega
      rw [Matrix.one_apply_ne hij, Matrix.one_apply_ne h']
  refine ⟨e, fun c => ?_⟩
  have h1 : toepA false e = 1 := by ext i j; exact he i j
  have h2 : toepG false X *ᵥ e = fun a : Fin n × Fin 3 => X a.1 a.2 := by
    funext a
    rw [← toepA_mul, h1, Matrix.one_mul]
  rw [toepM_gram, toepY_gram, ← mulVec_mulVec, h2, sub_self]
  simp only [normSq, Pi.zero_apply, map_zero, Finset.sum_const_zero]
  exact Finset.sum_nonneg fun _ _ => Complex.normSq_nonneg _

end Toeplitz

end Verif.Pidmd
