import Verif.Props.PidmdBlock

/-!
# Property C145: PiDMD recovers an operator of the declared structure
-/

set_option autoImplicit false

namespace Verif.Pidmd

open Matrix LinAlg Verif

/-- The best fit of data that can be fitted exactly fits them exactly. -/
theorem fit_exact {n m : Type} [Fintype n] [Fintype m] (X Y : Matrix n m ℂ) (A B : Matrix n n ℂ) (hY : Y = B * X)
    (h : frobSq (Y - A * X) ≤ frobSq (Y - B * X)) : A * X = Y := by
  have h0 : frobSq (Y - B * X) = 0 := by rw [hY, sub_self]; exact (frobSq_eq_zero _).mpr rfl
  have h1 : frobSq (Y - A * X) = 0 := le_antisymm (h0 ▸ h) (frobSq_nonneg _)
  exact (sub_eq_zero.mp ((frobSq_eq_zero _).mp h1)).symm

section Reduced

variable {n m : Type} [Fintype n] [Fintype m] [DecidableEq n] [DecidableEq m]

/-- Cancelling data of full row rank. -/
theorem svd_cancel {p : ℕ} {k : Type} (X : Matrix n m ℂ) (U : Matrix n (Fin p) ℂ) (s : Fin p → ℝ) (V : Matrix m (Fin p) ℂ)
    (h : IsSVD X U s V) (hs : ∀ i, 0 < s i) (S T : Matrix k (Fin p) ℂ) (e : S * (Uᴴ * X) = T * (Uᴴ * X)) : S = T := by
  have h1 : Uᴴ * X * V * rdiag (fun i => (s i)⁻¹) = 1 := by
    have : Uᴴ * X * V = rdiag s := by
      rw [h.eq]
      calc Uᴴ * (U * rdiag s * Vᴴ) * V = (Uᴴ * U) * rdiag s * (Vᴴ * V) := by simp only [Matrix.mul_assoc]
        _ = _ := by rw [h.u, h.v, Matrix.one_mul, Matrix.mul_one]
    rw [this, rdiag_mul_inv s fun i => (hs i).ne']
  calc S = S * (Uᴴ * X) * (V * rdiag fun i => (s i)⁻¹) := by
        rw [Matrix.mul_assoc, ← Matrix.mul_assoc (Uᴴ * X), h1, Matrix.mul_one]
    _ = T * (Uᴴ * X) * (V * rdiag fun i => (s i)⁻¹) := by rw [e]
    _ = T := by rw [Matrix.mul_assoc, ← Matrix.mul_assoc (Uᴴ * X), h1, Matrix.mul_one]

/-- **C145** (unitary, symmetric and skew-symmetric). Let `Y = B X` with an operator `B` of the manifold that leaves the
span of the snapshots invariant, `U` the left singular vectors of all nonzero singular values. Then the reduced
operator is the compression of `B`, and its eigenpairs are eigenpairs of `B`. (For the symmetric manifold the data
are real, see `C50_symmetric_complex_false`.) -/
theorem C145_reduced {p : ℕ} (X Y : Matrix n m ℂ) (B : Matrix n n ℂ) (hY : Y = B * X) (U : Matrix n (Fin p) ℂ)
    (s : Fin p → ℝ) (V : Matrix m (Fin p) ℂ) (h : IsSVD X U s V) (hs : ∀ i, 0 < s i)
    (hinv : U * (Uᴴ * (B * U)) = B * U) :
    (Bᴴ * B = 1 → ∀ (P Q : Matrix (Fin p) (Fin p) ℂ) (s' : Fin p → ℝ), IsSVD (crossCov U X Y) P s' Q →
      unitaryAtilde P Q = Uᴴ * B * U) ∧
    (Bᴴ = -B → computeSymmetric true p le_rfl U s V Y = Uᴴ * B * U) ∧
    (Bᴴ = B → (∀ i j, (U i j).im = 0) → (∀ i j, (Y i j).im = 0) → (∀ i j, (V i j).im = 0) →
      computeSymmetric false p le_rfl U s V Y = Uᴴ * B * U) ∧
    ∀ (l : ℂ) (w : Fin p → ℂ), (Uᴴ * B * U) *ᵥ w = l • w → B *ᵥ (U *ᵥ w) = l • (U *ᵥ w) := by
  have hUX : U * (Uᴴ * X) = X := by
    rw [h.eq]
    calc U * (Uᴴ * (U * rdiag s * Vᴴ)) = U * ((Uᴴ * U) * (rdiag s * Vᴴ)) := by simp only [Matrix.mul_assoc]
      _ = _ := by rw [h.u, Matrix.one_mul, Matrix.mul_assoc]
  have hYT : Y = U * (Uᴴ * B * U) * Uᴴ * X := by
    calc Y = B * (U * (Uᴴ * X)) := by rw [hUX, hY]
      _ = (B * U) * (Uᴴ * X) := by rw [Matrix.mul_assoc]
      _ = U * (Uᴴ * (B * U)) * (Uᴴ * X) := by rw [hinv]
      _ = _ := by simp only [Matrix.mul_assoc]
  have hUY : Uᴴ * Y = Uᴴ * B * U * (Uᴴ * X) := by
    rw [hY]
    nth_rewrite 1 [← hUX]
    simp only [Matrix.mul_assoc]
  have hl : lead p le_rfl U = U := by ext i j; rfl
  -- from an exact fit of the full data to the reduced operator
  have key : ∀ T : Matrix (Fin p) (Fin p) ℂ, frobSq (Y - U * T * Uᴴ * X) ≤ frobSq (Y - U * (Uᴴ * B * U) * Uᴴ * X) →
      T = Uᴴ * B * U := by
    intro T hT
    have e := fit_exact X Y (U * T * Uᴴ) (U * (Uᴴ * B * U) * Uᴴ) hYT hT
    refine svd_cancel X U s V h hs _ _ ?_
    rw [← hUY, ← e]
    calc T * (Uᴴ * X) = (Uᴴ * U) * (T * (Uᴴ * X)) := by rw [h.u, Matrix.one_mul]
      _ = _ := by simp only [Matrix.mul_assoc]
  refine ⟨fun hB P Q s' hPQ => ?_, fun hB => ?_, fun hB h1 h2 h3 => ?_, fun l w hw => ?_⟩
  · obtain ⟨-, -, h3, -⟩ := C50_unitary U h.u X Y P Q s' hPQ
    have hT : (Uᴴ * B * U)ᴴ * (Uᴴ * B * U) = 1 := by
      calc (Uᴴ * B * U)ᴴ * (Uᴴ * B * U) = Uᴴ * (Bᴴ * (U * (Uᴴ * (B * U)))) := by
            simp only [conjTranspose_mul, conjTranspose_conjTranspose, Matrix.mul_assoc]
        _ = Uᴴ * ((Bᴴ * B) * U) := by rw [hinv, Matrix.mul_assoc]
        _ = 1 := by rw [hB, Matrix.one_mul, h.u]
    have h4 := h3 _ hT
    have h0 : frobSq (Uᴴ * Y - Uᴴ * B * U * (Uᴴ * X)) = 0 := by
      rw [hUY, sub_self]; exact (frobSq_eq_zero _).mpr rfl
    have h5 : frobSq (Uᴴ * Y - unitaryAtilde P Q * (Uᴴ * X)) = 0 := le_antisymm (h0 ▸ h4) (frobSq_nonneg _)
    refine svd_cancel X U s V h hs _ _ ?_
    rw [← hUY]
    exact (sub_eq_zero.mp ((frobSq_eq_zero _).mp h5)).symm
  · refine key _ ?_
    have := (C50_skew p le_rfl X Y U s V h hs).2 (Uᴴ * B * U) (by
      simp only [conjTranspose_mul, conjTranspose_conjTranspose, hB, Matrix.mul_neg, Matrix.neg_mul, Matrix.mul_assoc])
    rwa [hl] at this
  · refine key _ ?_
    have := (C50_symmetric_partial p le_rfl X Y U s V h hs).2 h1 h2 h3 (Uᴴ * B * U) (by
      simp only [conjTranspose_mul, conjTranspose_conjTranspose, hB, Matrix.mul_assoc])
    rwa [hl] at this
  · calc B *ᵥ (U *ᵥ w) = (U * (Uᴴ * (B * U))) *ᵥ w := by rw [hinv, mulVec_mulVec]
      _ = U *ᵥ ((Uᴴ * B * U) *ᵥ w) := by rw [mulVec_mulVec]; simp only [Matrix.mul_assoc]
      _ = _ := by rw [hw, mulVec_smul]

end Reduced

/-- The hypotheses are met by three states of a rotation of the plane, a truncated case: the data lie in the first two
coordinates. -/
example : ∃ (X Y : Matrix (Fin 3) (Fin 2) ℂ) (B : Matrix (Fin 3) (Fin 3) ℂ) (U : Matrix (Fin 3) (Fin 2) ℂ) (s : Fin 2 → ℝ)
    (V : Matrix (Fin 2) (Fin 2) ℂ), Y = B * X ∧ IsSVD X U s V ∧ (∀ i, 0 < s i) ∧ U * (Uᴴ * (B * U)) = B * U ∧
    Bᴴ * B = 1 ∧ B ≠ 1 := by
  refine ⟨!![1, 0; 0, 1; 0, 0], _, !![0, -1, 0; 1, 0, 0; 0, 0, 1], !![1, 0; 0, 1; 0, 0], fun _ => 1, 1, rfl,
    ⟨?_, ?_, by simp, by simp⟩, by simp, ?_, ?_, ?_⟩
  · simp [rdiag]
  · ext i j
    fin_cases i <;> fin_cases j <;> simp [Matrix.mul_apply, Fin.sum_univ_succ]
  · ext i j
    fin_cases i <;> fin_cases j <;> simp [Matrix.mul_apply, Fin.sum_univ_succ]
  · ext i j
    fin_cases i <;> fin_cases j <;> simp [Matrix.mul_apply, Fin.sum_univ_succ]
  · intro e
    have := congrFun (congrFun e 0) 0
    simp at this

section Structured

variable {m : Type} [Fintype m]

/-- **C145** (triangular; partial: data of full row rank, see `C50_upper_thin_false`). A triangular operator is recovered
from noise-free data. -/
theorem C145_triangular_partial {p : ℕ} (X Y : Matrix (Fin p) m ℂ) (B : Matrix (Fin p) (Fin p) ℂ) (hY : Y = B * X) :
    (∀ (R : Matrix (Fin p) (Fin p) ℂ) (Q : Matrix (Fin p) m ℂ) (Rinv : Matrix (Fin p) (Fin p) ℂ), IsRQ X R Q →
      IsUnit R.det → IsPinv R Rinv → IsUpper B → upperTriangular Y Q Rinv = B) ∧
    (∀ (R : Matrix (Fin p) (Fin p) ℂ) (Q : Matrix (Fin p) m ℂ) (Rinv : Matrix (Fin p) (Fin p) ℂ), IsRQ (flipud X) R Q →
      IsUnit R.det → IsPinv R Rinv → IsLower B → rot180 (upperTriangular (flipud Y) Q Rinv) = B) := by
  have cancel : ∀ (X : Matrix (Fin p) m ℂ) (R : Matrix (Fin p) (Fin p) ℂ) (Q : Matrix (Fin p) m ℂ), IsRQ X R Q →
      IsUnit R.det → ∀ A B : Matrix (Fin p) (Fin p) ℂ, A * X = B * X → A = B := by
    intro X R Q h hR A B e
    have e1 : A * R = B * R := by
      have := congrArg (· * Qᴴ) e
      simpa only [h.eq, Matrix.mul_assoc, h.orth, Matrix.mul_one] using this
    calc A = A * R * R⁻¹ := by rw [Matrix.mul_assoc, mul_nonsing_inv R hR, Matrix.mul_one]
      _ = B * R * R⁻¹ := by rw [e1]
      _ = B := by rw [Matrix.mul_assoc, mul_nonsing_inv R hR, Matrix.mul_one]
  constructor
  · intro R Q Rinv h hR hP hB
    have := fit_exact X Y _ B hY ((C50_upper_partial X Y R Q h hR Rinv hP).2 B hB)
    exact cancel X R Q h hR _ _ (this.trans hY)
  · intro R Q Rinv h hR hP hB
    have := fit_exact X Y _ B hY ((C50_lower_partial X Y R Q h hR Rinv hP).2 B hB)
    have e : rot180 (rot180 (upperTriangular (flipud Y) Q Rinv)) = rot180 B := by
      refine cancel (flipud X) R Q h hR _ _ ?_
      rw [← flipud_mul, ← flipud_mul, this, hY]
    rw [rot180_rot180] at e
    rw [e, rot180_rot180]

/-- **C145** (banded, among them diagonal). The operator fits noise-free data exactly, and it is the true one if no other
matrix with the band agrees with it on the snapshots. -/
theorem C145_banded {p : ℕ} (o : Opt p) (w : Fin p → ℤ × ℤ) (hw : widths o = .ok w) (X Y : Matrix (Fin p) m ℂ)
    (R : (i : Fin p) → Cols w i → ℂ) (hR : ∀ i, IsLstsq (bandData w X i) (Y i) (R i)) (B : Matrix (Fin p) (Fin p) ℂ)
    (hB : ∀ i j, B i j ≠ 0 → InBand o i j) (hY : Y = B * X) :
    banded w R * X = Y ∧
      ((∀ C : Matrix (Fin p) (Fin p) ℂ, (∀ i j, C i j ≠ 0 → InBand o i j) → C * X = 0 → C = 0) → banded w R = B) := by
  obtain ⟨h1, h2⟩ := C50_banded o w hw X Y R hR
  have e := fit_exact X Y _ B hY (h2 B hB)
  refine ⟨e, fun h => sub_eq_zero.mp (h _ (fun i j hij => ?_) ?_)⟩
  · by_contra hn
    have a1 : banded w R i j = 0 := by_contra fun hne => hn (h1 i j hne)
    have a2 : B i j = 0 := by_contra fun hne => hn (hB i j hne)
    exact hij (by rw [Matrix.sub_apply, a1, a2, sub_zero])
  · rw [Matrix.sub_mul, e, hY, sub_self]

/-- A diagonal operator is recovered from a single snapshot without zeros. -/
theorem C145_diagonal {p : ℕ} (w : Fin p → ℤ × ℤ) (hw : widths (.none : Opt p) = .ok w) (X Y : Matrix (Fin p) m ℂ)
    (R : (i : Fin p) → Cols w i → ℂ) (hR : ∀ i, IsLstsq (bandData w X i) (Y i) (R i)) (d : Fin p → ℂ)
    (hY : Y = diagonal d * X) (hX : ∀ i, ∃ t, X i t ≠ 0) : banded w R = diagonal d := by
  refine (C145_banded .none w hw X Y R hR (diagonal d) (fun i j h => ?_) hY).2 fun C hC hCX => ?_
  · by_contra hne
    exact h (diagonal_apply_ne _ hne)
  · have hd : C = diagonal fun i => C i i := by
      ext i j
      rcases eq_or_ne i j with rfl | hne
      · rw [diagonal_apply_eq]
      · rw [diagonal_apply_ne _ hne]
        exact by_contra fun h => hne (hC i j h)
    ext i j
    rcases eq_or_ne i j with rfl | hne
    · obtain ⟨t, ht⟩ := hX i
      have := congrFun (congrFun hCX i) t
      rw [hd, diagonal_mul] at this
      exact (mul_eq_zero.mp this).resolve_right ht
    · exact by_contra fun h => hne (hC i j h)

/-- **C145** (symmetric tridiagonal, real data). -/
theorem C145_symtridiagonal {p : ℕ} (X Y : Fin p → m → ℝ) (c : Unk p → ℝ) (hc : IsLstsqR (tridT X) (tridD X Y) c)
    (B : Matrix (Fin p) (Fin p) ℝ) (hB : IsSymTrid B) (hY : Matrix.of Y = B * Matrix.of X) :
    tridA c * Matrix.of X = Matrix.of Y ∧
      ((∀ C : Matrix (Fin p) (Fin p) ℝ, IsSymTrid C → C * Matrix.of X = 0 → C = 0) → tridA c = B) := by
  obtain ⟨h1, h2⟩ := C50_symtridiagonal X Y c hc
  have h0 : frobR (Matrix.of Y - tridA c * Matrix.of X) ≤ 0 := by
    refine (h2 B hB).trans (le_of_eq ?_)
    rw [hY, sub_self]
    simp [frobR]
  have e : tridA c * Matrix.of X = Matrix.of Y := by
    ext i t
    have hn : ∀ i t, 0 ≤ (Matrix.of Y - tridA c * Matrix.of X) i t ^ 2 := fun _ _ => sq_nonneg _
    have hz := (Finset.sum_eq_zero_iff_of_nonneg fun i _ => Finset.sum_nonneg fun t _ => hn i t).mp
      (le_antisymm h0 (Finset.sum_nonneg fun i _ => Finset.sum_nonneg fun t _ => hn i t)) i (Finset.mem_univ _)
    have hz' := (Finset.sum_eq_zero_iff_of_nonneg fun t _ => hn i t).mp hz t (Finset.mem_univ _)
    have := pow_eq_zero_iff (two_ne_zero) |>.mp hz'
    rw [Matrix.sub_apply] at this
    linarith
  refine ⟨e, fun h => sub_eq_zero.mp (h _ ⟨fun i j => ?_, fun i j hij => ?_⟩ ?_)⟩
  · rw [Matrix.sub_apply, Matrix.sub_apply, h1.symm i j, hB.symm i j]
  · rw [Matrix.sub_apply, h1.trid i j hij, hB.trid i j hij, sub_zero]
  · rw [Matrix.sub_mul, e, hY, sub_self]

/-- **C145** (Toeplitz and Hankel). -/
theorem C145_toeplitz {n : ℕ} [NeZero n] (X Y : Matrix (Fin n) m ℂ) (e : Init n → ℂ) (B : Matrix (Fin n) (Fin n) ℂ)
    (hY : Y = B * X) :
    (IsLstsq (toepM false X) (fun k => toepY false X Y k.1) e → IsToeplitz B → toepA false e * X = Y ∧
      ((∀ C : Matrix (Fin n) (Fin n) ℂ, IsToeplitz C → C * X = 0 → C = 0) → toepA false e = B)) ∧
    (IsLstsq (toepM true X) (fun k => toepY true X Y k.1) e → IsHankel B → toepA true e * X = Y ∧
      ((∀ C : Matrix (Fin n) (Fin n) ℂ, IsHankel C → C * X = 0 → C = 0) → toepA true e = B)) := by
  constructor
  · intro he hB
    obtain ⟨h1, h2⟩ := C70_toeplitz X Y e he
    have ex := fit_exact X Y _ B hY (h2 B hB)
    refine ⟨ex, fun h => sub_eq_zero.mp (h _ (fun i j i' j' hij => ?_) ?_)⟩
    · rw [Matrix.sub_apply, Matrix.sub_apply, h1 i j i' j' hij, hB i j i' j' hij]
    · rw [Matrix.sub_mul, ex, hY, sub_self]
  · intro he hB
    obtain ⟨h1, h2⟩ := C70_hankel X Y e he
    have ex := fit_exact X Y _ B hY (h2 B hB)
    refine ⟨ex, fun h => sub_eq_zero.mp (h _ (fun i j i' j' hij => ?_) ?_)⟩
    · rw [Matrix.sub_apply, Matrix.sub_apply, h1 i j i' j' hij, hB i j i' j' hij]
    · rw [Matrix.sub_mul, ex, hY, sub_self]

/-- Two snapshots, the first and the last unit vector, determine every Toeplitz matrix. -/
example (n : ℕ) (C : Matrix (Fin (n + 1)) (Fin (n + 1)) ℂ) (hC : IsToeplitz C)
    (h : C * (Matrix.of fun i (t : Fin 2) => if (t = 0 ∧ i = 0) ∨ (t = 1 ∧ i = Fin.last n) then (1 : ℂ) else 0) = 0) :
    C = 0 := by
  have h0 : ∀ i, C i 0 = 0 := fun i => by
    have := congrFun (congrFun h i) 0
    simpa [Matrix.mul_apply] using this
  have h1 : ∀ i, C i (Fin.last n) = 0 := fun i => by
    have := congrFun (congrFun h i) 1
    simpa [Matrix.mul_apply] using this
  ext i j
  rcases le_total j i with hij | hij
  · rw [hC i j ⟨i - j, by omega⟩ 0 (by simp; omega)]
    exact h0 _
  · rw [hC i j ⟨i + n - j, by omega⟩ (Fin.last n) (by simp; omega)]
    exact h1 _

/-- **C145** (block circulant, also with tridiagonal blocks). -/
theorem C145_bc (p q : ℕ) [NeZero q] (X Y : Matrix (Fin p × ZMod q) m ℂ) (B : Matrix (Fin p × ZMod q) (Fin p × ZMod q) ℂ)
    (hY : Y = B * X) (hB : IsBlockCirc B) :
    (∀ d : ZMod q → Matrix (Fin p) (Fin p) ℂ,
      (∀ k i, IsLstsq (blockData (dft q) X k) (fftBlock (dft q) Y (i, k)) (d k i)) →
      bcA (dft q) d * X = Y ∧
        ((∀ C : Matrix (Fin p × ZMod q) (Fin p × ZMod q) ℂ, IsBlockCirc C → C * X = 0 → C = 0) → bcA (dft q) d = B)) ∧
    (∀ (w : Fin p → ℤ × ℤ) (R : ZMod q → (i : Fin p) → Cols w i → ℂ), widths (.int 2) = .ok w →
      (∀ k i, IsLstsq (bandData w (freq (dft q) X k) i) (freq (dft q) Y k i) (R k i)) →
      (∀ (i j : Fin p) a b, 1 < |(i : ℤ) - (j : ℤ)| → B (i, a) (j, b) = 0) →
      bcA (dft q) (fun k => banded w (R k)) * X = Y ∧
        ((∀ C : Matrix (Fin p × ZMod q) (Fin p × ZMod q) ℂ, IsBlockCirc C →
          (∀ (i j : Fin p) a b, 1 < |(i : ℤ) - (j : ℤ)| → C (i, a) (j, b) = 0) → C * X = 0 → C = 0) →
          bcA (dft q) (fun k => banded w (R k)) = B)) := by
  constructor
  · intro d hd
    obtain ⟨h1, h2⟩ := C70_bc p q X Y d hd
    have ex := fit_exact X Y _ B hY (h2 B hB)
    refine ⟨ex, fun h => sub_eq_zero.mp (h _ (fun i j a b e => ?_) ?_)⟩
    · rw [Matrix.sub_apply, Matrix.sub_apply, h1 i j a b e, hB i j a b e]
    · rw [Matrix.sub_mul, ex, hY, sub_self]
  · intro w R hw hR hBt
    obtain ⟨⟨h1, h1'⟩, h2⟩ := C70_bctb p q X Y w hw R hR
    have ex := fit_exact X Y _ B hY (h2 B hB hBt)
    refine ⟨ex, fun h => sub_eq_zero.mp (h _ (fun i j a b e => ?_) (fun i j a b hij => ?_) ?_)⟩
    · rw [Matrix.sub_apply, Matrix.sub_apply, h1 i j a b e, hB i j a b e]
    · rw [Matrix.sub_apply, h1' i j a b hij, hBt i j a b hij, sub_zero]
    · rw [Matrix.sub_mul, ex, hY, sub_self]

/-- A matrix diagonalised by the Fourier transform that vanishes on data without zero frequency is zero. -/
theorem circ_cancel {G : Type} [AddCommGroup G] [Fintype G] [DecidableEq G] {F : Matrix G G ℂ} (hF : IsFourier F)
    (X : Matrix G m ℂ) (hX : ∀ k, normSq ((Fᴴ * X) k) ≠ 0) (C : Matrix G G ℂ) (hC : IsCirc C) (h : C * X = 0) : C = 0 := by
  have h1 : diagonal (IsFourier.eigsOf F C) * (invF F * X) = 0 := by
    have e := hF.eq_circA hC
    rw [hF.circA_eq] at e
    calc diagonal (IsFourier.eigsOf F C) * (invF F * X) = invF F * F * (diagonal (IsFourier.eigsOf F C) * (invF F * X)) := by
          rw [hF.inv_mul, Matrix.one_mul]
      _ = invF F * (F * diagonal (IsFourier.eigsOf F C) * invF F * X) := by simp only [Matrix.mul_assoc]
      _ = 0 := by rw [← e, h, Matrix.mul_zero]
  have h2 : IsFourier.eigsOf F C = 0 := by
    funext k
    by_contra hne
    refine hX k ((normSq_eq_zero _).mpr (funext fun t => ?_))
    have := congrFun (congrFun h1 k) t
    rw [diagonal_mul, invF, Matrix.smul_mul, Matrix.smul_apply, smul_eq_mul, Matrix.zero_apply] at this
    have := (mul_eq_zero.mp this).resolve_left hne
    exact (mul_eq_zero.mp this).resolve_left (inv_ne_zero IsFourier.card_ne)
  rw [hF.eq_circA hC, h2, hF.circA_eq]
  simp

/-- **C145** (circulant; partial: real snapshots, nothing truncated). If the computation succeeds, noise-free data of a
matrix of the manifold give that matrix. -/
theorem C145_circulant_partial (N : ℕ) [NeZero N] (X Y : Matrix (ZMod N) m ℂ) (hX : ∀ i t, (X i t).im = 0) (o : CircOpt)
    (A B : Matrix (ZMod N) (ZMod N) ℂ) (h : computeCirculant (dft N) X Y o ∅ = some A) (hB : InManifold o B)
    (hY : Y = B * X) : A = B := by
  obtain ⟨h1, h2⟩ := C71_circulant_partial N X Y hX o ∅ A h
  have ex := fit_exact X Y _ B hY (h2 B hB (by simp))
  refine sub_eq_zero.mp (circ_cancel (dft_isFourier N) X (fun k => ?_) _ ?_ ?_)
  · rw [← (circ_sigma (dft_isFourier N) X Y hX k).1]
    exact (computeCirculant_some h).1 k (by simp)
  · intro i j d
    rw [Matrix.sub_apply, Matrix.sub_apply, (h1 fun _ => rfl).1 i j d, hB.1 i j d]
  · rw [Matrix.sub_mul, ex, hY, sub_self]

/-- **C145**, negation for the circulant manifold with fewer snapshots than states: the operator has at most as many
nonzero eigenvalues as there are snapshots (`r`). No invertible circulant matrix is recovered, and not even the data are
fitted, although one snapshot without zero frequency determines the matrix. -/
theorem C145_circulant_few_false (N : ℕ) [NeZero N] (X Y : Matrix (ZMod N) m ℂ) (hX : ∀ i t, (X i t).im = 0) (r : ℕ)
    (hr : r < N) (E : Finset (ZMod N)) (hE : IsExcluded (circRes (dft N) X Y) r E) (A B : Matrix (ZMod N) (ZMod N) ℂ)
    (h : computeCirculant (dft N) X Y .plain E = some A) (hB : IsCirc B) (hdet : IsUnit B.det) (hY : Y = B * X)
    (hf : ∀ k, circDen (dft N) X k ≠ 0) :
    A ≠ B ∧ A * X ≠ Y ∧ ∀ B', IsCirc B' → B' * X = Y → B' = B := by
  obtain ⟨h1, h2, -⟩ := C71_circulant_rank_partial N X Y hX r E hE A h
  have hu : ∀ B', IsCirc B' → B' * X = Y → B' = B := by
    intro B' hB' e
    refine sub_eq_zero.mp (circ_cancel (dft_isFourier N) X (fun k => ?_) _ ?_ ?_)
    · rw [← (circ_sigma (dft_isFourier N) X Y hX k).1]
      exact hf k
    · intro i j d
      rw [Matrix.sub_apply, Matrix.sub_apply, hB' i j d, hB i j d]
    · rw [Matrix.sub_mul, e, hY, sub_self]
  have hne : A ≠ B := by
    rintro rfl
    have := rank_of_isUnit A ((Matrix.isUnit_iff_isUnit_det _).mpr hdet)
    rw [ZMod.card] at this
    omega
  exact ⟨hne, fun e => hne (hu A h1 e), hu⟩

/-- The hypotheses of the two theorems are met: any number of states, one snapshot, the first unit vector, and the
shift of all states by one. Every set of the right size may be excluded. -/
example (N : ℕ) [NeZero N] (hN : 1 < N) : ∃ (X Y : Matrix (ZMod N) (Fin 1) ℂ) (B : Matrix (ZMod N) (ZMod N) ℂ),
    Y = B * X ∧ (∀ i t, (X i t).im = 0) ∧ IsCirc B ∧ IsUnit B.det ∧ (∀ k, circDen (dft N) X k ≠ 0) ∧
    (∃ A, computeCirculant (dft N) X Y .plain ∅ = some A) ∧
    ∃ E A, IsExcluded (circRes (dft N) X Y) 1 E ∧ computeCirculant (dft N) X Y .plain E = some A := by
  classical
  set X : Matrix (ZMod N) (Fin 1) ℂ := Matrix.of fun i _ => if i = 0 then 1 else 0 with hX
  set B : Matrix (ZMod N) (ZMod N) ℂ := Matrix.of fun i j => if i = j + 1 then 1 else 0 with hBd
  have hY : ∀ i t, (B * X) i t = if i = 1 then 1 else 0 := by
    intro i t
    simp [hBd, hX, Matrix.mul_apply]
  have hn : ∀ k j, ‖dft N k j‖ = 1 := by
    intro k j
    rw [dft, Matrix.of_apply, show (-(2 * Real.pi * Complex.I * (k.val * j.val) / N) : ℂ) =
      ((-(2 * Real.pi * (k.val * j.val) / N) : ℝ) : ℂ) * Complex.I by push_cast; ring]
    exact Complex.norm_exp_ofReal_mul_I _
  have hden : ∀ k, circDen (dft N) X k = 1 := by
    intro k
    have : (dft N * X) k 0 = dft N k 0 := by simp [hX, Matrix.mul_apply]
    simp only [circDen, normSq, Finset.univ_unique, Fin.default_eq_zero, Finset.sum_singleton, this]
    rw [Complex.normSq_eq_norm_sq, hn, one_pow]
  have hnum : ∀ k, ‖circNum (dft N) X (B * X) k‖ = 1 := by
    intro k
    have h1 : (dft N * X) k 0 = dft N k 0 := by simp [hX, Matrix.mul_apply]
    have h2 : (dft N * cj (B * X)) k 0 = dft N k 1 := by
      rw [Matrix.mul_apply]
      simp only [cj, Matrix.map_apply, hY]
      simp
    rw [circNum, Matrix.mul_apply]
    simp only [Finset.univ_unique, Fin.default_eq_zero, Finset.sum_singleton, conjTranspose_apply, h1, h2]
    rw [norm_mul, norm_star, hn, hn, one_mul]
  have hsome : ∀ E : Finset (ZMod N), ∃ A, computeCirculant (dft N) X (B * X) .plain E = some A := by
    intro E
    unfold computeCirculant
    rw [if_pos fun k => ?_]
    · exact ⟨_, rfl⟩
    · by_cases hk : k ∈ E <;> simp [circEigs, circEig, hk, hden]
  have hdetB : IsUnit B.det := by
    rw [← Matrix.isUnit_iff_isUnit_det]
    have h1 : B * Bᵀ = 1 := by
      ext i j
      simp only [hBd, Matrix.mul_apply, transpose_apply, Matrix.of_apply, Matrix.one_apply, mul_ite, mul_one, mul_zero]
      rw [Finset.sum_eq_single (j - 1)]
      · simp
      · intro b _ hb
        rw [if_neg]
        rintro rfl
        simp at hb
      · simp
    exact ⟨⟨B, Bᵀ, h1, mul_eq_one_comm.mp h1⟩, rfl⟩
  obtain ⟨E, hE⟩ : ∃ E : Finset (ZMod N), E.card = Fintype.card (ZMod N) - 1 := by
    obtain ⟨E, -, hE⟩ := Finset.exists_subset_card_eq (s := (Finset.univ : Finset (ZMod N))) (n := Fintype.card (ZMod N) - 1)
      (by rw [Finset.card_univ]; omega)
    exact ⟨E, hE⟩
  obtain ⟨A, hA⟩ := hsome E
  refine ⟨X, B * X, B, rfl, fun i t => ?_, fun i j d => ?_, hdetB, fun k => ?_, hsome ∅, E, A, ⟨hE, fun e _ k _ => ?_⟩, hA⟩
  · simp only [hX, Matrix.of_apply]
    split_ifs <;> simp
  · simp only [hBd, Matrix.of_apply]
    congr 1
    rw [eq_iff_iff]
    constructor
    · intro h; linear_combination h
    · intro h; linear_combination h
  · rw [hden]; exact one_ne_zero
  · simp [circRes, hden, hnum]

/-- **C145** (block circulant with circulant blocks; partial: nothing truncated). Noise-free data of a matrix of the
manifold are fitted exactly, and without further option give that matrix if the computation succeeds. -/
theorem C145_bccb_partial (p q : ℕ) [NeZero p] [NeZero q] (X Y : Matrix (ZMod p × ZMod q) m ℂ) (o : CircOpt)
    (dp : ZMod p × ZMod q → ℂ)
    (hdp : ∀ k, IsLstsq (Matrix.of fun t (_ : Unit) => bccbF (dft2 p q) X k t) (bccbF (dft2 p q) Y k) fun _ => dp k)
    (A B : Matrix (ZMod p × ZMod q) (ZMod p × ZMod q) ℂ) (h : computeBCCB (dft2 p q) X Y o dp ∅ = some A)
    (hB : InManifold o B) (hY : Y = B * X) : A * X = Y ∧ (o = .plain → A = B) := by
  obtain ⟨h1, h2⟩ := C70_bccb p q X Y o dp hdp ∅ A h
  have ex := fit_exact X Y _ B hY (h2 B hB (by simp))
  refine ⟨ex, fun ho => ?_⟩
  subst ho
  have hF := dft2_isFourier p q
  refine sub_eq_zero.mp (circ_cancel hF X (fun k hk => ?_) _ ?_ ?_)
  · unfold computeBCCB at h
    split_ifs at h with hs
    have := hs k
    have h0 : normSq (bccbF (dft2 p q) X k) = 0 := by
      have := bccbF_normSq hF X k
      rw [hk] at this
      simpa using this
    simp [bccbD, bccbPlain, h0] at this
  · intro i j d
    rw [Matrix.sub_apply, Matrix.sub_apply, (h1 fun _ => rfl).1 i j d, hB.1 i j d]
  · rw [Matrix.sub_mul, ex, hY, sub_self]

end Structured

end Verif.Pidmd
