import Verif.Model.PidmdFft
import Verif.Props.Pidmd
import Mathlib.NumberTheory.LegendreSymbol.AddCharacter
import Mathlib.Algebra.BigOperators.Field

/-! Helper lemmas: Fourier matrices of finite abelian groups and circulant matrices. -/

set_option autoImplicit false

namespace Verif.Pidmd

open Matrix LinAlg

variable {G : Type} [AddCommGroup G] [Fintype G] [DecidableEq G]

/-- The properties of a Fourier matrix that are used. -/
structure IsFourier (F : Matrix G G ℂ) : Prop where
  symm : ∀ i j, F i j = F j i
  add : ∀ k i j, F k (i + j) = F k i * F k j
  orth : Fᴴ * F = (Fintype.card G : ℂ) • 1

theorem dft_eq (N : ℕ) [NeZero N] (k j : ZMod N) : dft N k j = ZMod.stdAddChar (-(k * j)) := by
  have h : (-(k * j)) = ((-((k.val : ℤ) * (j.val : ℤ)) : ℤ) : ZMod N) := by
    push_cast
    rw [ZMod.natCast_zmod_val, ZMod.natCast_zmod_val]
  rw [h, ZMod.stdAddChar_coe]
  simp only [dft, Matrix.of_apply]
  congr 1
  push_cast
  ring

theorem star_stdAddChar (N : ℕ) [NeZero N] (k : ZMod N) :
    star (ZMod.stdAddChar k : ℂ) = ZMod.stdAddChar (-k) := by
  have h : k = ((k.val : ℤ) : ZMod N) := by
    push_cast
    rw [ZMod.natCast_zmod_val]
  generalize (k.val : ℤ) = z at h
  subst h
  have e : 2 * (Real.pi : ℂ) * Complex.I * (z : ℂ) / N =
      ((2 * Real.pi * z / N : ℝ) : ℂ) * Complex.I := by
    push_cast; ring
  rw [← Int.cast_neg, ZMod.stdAddChar_coe, ZMod.stdAddChar_coe, Complex.star_def,
    ← Complex.exp_conj, e, map_mul, Complex.conj_ofReal, Complex.conj_I]
  congr 1
  push_cast
  ring

theorem dft_isFourier (N : ℕ) [NeZero N] : IsFourier (dft N) := by
  refine ⟨fun i j => ?_, fun k i j => ?_, ?_⟩
  · rw [dft_eq, dft_eq, mul_comm]
  · rw [dft_eq, dft_eq, dft_eq, ← AddChar.map_add_eq_mul]
    congr 1
    ring
  · ext i j
    rw [Matrix.mul_apply, Matrix.smul_apply, Matrix.one_apply, smul_eq_mul]
    have h : ∀ k, (dft N)ᴴ i k * dft N k j = ZMod.stdAddChar (k * (i - j)) := by
      intro k
      rw [conjTranspose_apply, dft_eq, dft_eq, star_stdAddChar, ← AddChar.map_add_eq_mul]
      congr 1
      ring
    simp only [h]
    rw [AddChar.sum_mulShift _ (ZMod.isPrimitive_stdAddChar N)]
    by_cases hij : i = j
    · simp [hij]
    · simp [hij, sub_ne_zero.mpr hij]

theorem dft2_isFourier (p q : ℕ) [NeZero p] [NeZero q] : IsFourier (dft2 p q) := by
  have hp := dft_isFourier p
  have hq := dft_isFourier q
  refine ⟨fun i j => ?_, fun k i j => ?_, ?_⟩
  · simp only [dft2, Matrix.of_apply]
    rw [hp.symm, hq.symm]
  · simp only [dft2, Matrix.of_apply, Prod.fst_add, Prod.snd_add]
    rw [hp.add, hq.add]
    ring
  · ext i j
    have h1 := congrFun (congrFun hp.orth i.1) j.1
    have h2 := congrFun (congrFun hq.orth i.2) j.2
    rw [Matrix.mul_apply, Matrix.smul_apply, Matrix.one_apply, smul_eq_mul] at h1 h2
    rw [Matrix.mul_apply, Matrix.smul_apply, Matrix.one_apply, smul_eq_mul, Fintype.sum_prod_type]
    have h : ∀ a b, (dft2 p q)ᴴ i (a, b) * dft2 p q (a, b) j =
        ((dft p)ᴴ i.1 a * dft p a j.1) * ((dft q)ᴴ i.2 b * dft q b j.2) := by
      intro a b
      simp only [conjTranspose_apply, dft2, Matrix.of_apply, star_mul']
      ring
    simp only [h]
    rw [← Finset.sum_mul_sum, h1, h2, Fintype.card_prod]
    by_cases e1 : i.1 = j.1 <;> by_cases e2 : i.2 = j.2
    · simp [Prod.ext_iff, e1, e2]
    · simp [Prod.ext_iff, e1, e2]
    · simp [Prod.ext_iff, e1, e2]
    · simp [Prod.ext_iff, e1, e2]

namespace IsFourier

variable {F : Matrix G G ℂ} (hF : IsFourier F)

theorem card_ne : (Fintype.card G : ℂ) ≠ 0 := by
  have : Fintype.card G ≠ 0 := Fintype.card_ne_zero
  exact_mod_cast this

include hF

theorem transpose_eq : Fᵀ = F := by
  ext i j; exact hF.symm j i

theorem inv_mul : invF F * F = 1 := by
  rw [invF, Matrix.smul_mul, hF.orth, smul_smul, inv_mul_cancel₀ (card_ne (G := G)), one_smul]

theorem mul_inv : F * invF F = 1 := mul_eq_one_comm.mp hF.inv_mul

theorem orth' : F * Fᴴ = (Fintype.card G : ℂ) • 1 := by
  have h := hF.mul_inv
  rw [invF, Matrix.mul_smul] at h
  rw [← h, smul_smul, mul_inv_cancel₀ (card_ne (G := G)), one_smul]

theorem invF_transpose : (invF F)ᵀ = invF F := by
  ext i j
  simp only [invF, transpose_apply, Matrix.smul_apply, conjTranspose_apply]
  rw [hF.symm]

theorem circA_eq (lam : G → ℂ) : circA F lam = F * diagonal lam * invF F := by
  rw [circA, Matrix.mul_assoc]
  congr 1
  ext i j
  rw [diagonal_mul, transpose_apply, Matrix.of_apply, transpose_apply]

theorem map_zero (k : G) : F k 0 = 1 := by
  have h := hF.add k 0 0
  rw [add_zero] at h
  have hne : F k 0 ≠ 0 := by
    intro h0
    have hz : ∀ i, F k i = 0 := fun i => by
      have := hF.add k i 0
      rwa [add_zero, h0, mul_zero] at this
    have := congrFun (congrFun hF.orth' k) k
    rw [Matrix.mul_apply] at this
    simp only [hz, zero_mul, Finset.sum_const_zero, Matrix.smul_apply, Matrix.one_apply_eq,
      smul_eq_mul, mul_one] at this
    exact card_ne (G := G) this.symm
  have : F k 0 * F k 0 = F k 0 * 1 := by rw [mul_one]; exact h.symm
  exact mul_left_cancel₀ hne this

theorem neg_mul (k i : G) : F k (-i) * F k i = 1 := by
  rw [← hF.add, neg_add_cancel, hF.map_zero]

theorem nsmul (k i : G) (n : ℕ) : F k (n • i) = F k i ^ n := by
  induction n with
  | zero => rw [zero_smul, hF.map_zero, pow_zero]
  | succ n ih => rw [succ_nsmul, hF.add, ih, pow_succ]

theorem norm_one (k i : G) : ‖F k i‖ = 1 := by
  have h : F k i ^ Fintype.card G = 1 := by
    rw [← hF.nsmul, card_nsmul_eq_zero, hF.map_zero]
  exact Complex.norm_eq_one_of_pow_eq_one h Fintype.card_ne_zero

theorem star_mul_self (k i : G) : star (F k i) * F k i = 1 := by
  rw [Complex.star_def, ← Complex.normSq_eq_conj_mul_self, Complex.normSq_eq_norm_sq,
    hF.norm_one]
  simp

theorem star_eq (k i : G) : star (F k i) = F k (-i) := by
  have h1 := hF.star_mul_self k i
  have h2 := hF.neg_mul k i
  have hne : F k i ≠ 0 := by
    intro h; rw [h, mul_zero] at h1; exact zero_ne_one h1
  exact mul_right_cancel₀ hne (h1.trans h2.symm)

theorem sub (k i j : G) : F k (i - j) = F k i * star (F k j) := by
  rw [sub_eq_add_neg, hF.add, hF.star_eq]

end IsFourier

/-- Circulant matrices over the group: constant along the (wrapped) diagonals. -/
def IsCirc (A : Matrix G G ℂ) : Prop := ∀ i j d, A (i + d) (j + d) = A i j

namespace IsFourier

variable {F : Matrix G G ℂ} (hF : IsFourier F)

include hF

theorem circA_apply (lam : G → ℂ) (i j : G) :
    circA F lam i j = (Fintype.card G : ℂ)⁻¹ * ∑ k, lam k * F k (i - j) := by
  rw [hF.circA_eq, Matrix.mul_apply, Finset.mul_sum]
  refine Finset.sum_congr rfl fun k _ => ?_
  rw [mul_diagonal, invF, Matrix.smul_apply, conjTranspose_apply, smul_eq_mul, hF.sub, hF.symm i k,
    hF.symm j k]
  ring

theorem circA_circ (lam : G → ℂ) : IsCirc (circA F lam) := by
  intro i j d
  rw [hF.circA_apply, hF.circA_apply, add_sub_add_right_eq_sub]

/-- The eigenvalues of a circulant matrix. -/
noncomputable def eigsOf (F B : Matrix G G ℂ) (k : G) : ℂ := ∑ d, B d 0 * star (F d k)

theorem mul_eq {B : Matrix G G ℂ} (hB : IsCirc B) : B * F = F * diagonal (eigsOf F B) := by
  ext i k
  rw [Matrix.mul_apply, mul_diagonal, eigsOf, Finset.mul_sum]
  rw [← Equiv.sum_comp (Equiv.subLeft i) fun j => B i j * F j k]
  refine Finset.sum_congr rfl fun d _ => ?_
  have h1 : B i (i - d) = B d 0 := by
    have := hB d 0 (i - d)
    rwa [add_sub_cancel, zero_add] at this
  rw [Equiv.subLeft_apply, h1, hF.symm (i - d), hF.sub, hF.symm i k, hF.symm d k]
  ring

theorem eq_circA {B : Matrix G G ℂ} (hB : IsCirc B) : B = circA F (eigsOf F B) := by
  rw [hF.circA_eq, ← hF.mul_eq hB, Matrix.mul_assoc, hF.mul_inv, Matrix.mul_one]

theorem circA_mul (lam mu : G → ℂ) : circA F lam * circA F mu = circA F fun k => lam k * mu k := by
  rw [hF.circA_eq, hF.circA_eq, hF.circA_eq]
  calc F * diagonal lam * invF F * (F * diagonal mu * invF F)
      = F * diagonal lam * (invF F * F) * diagonal mu * invF F := by simp only [Matrix.mul_assoc]
    _ = _ := by rw [hF.inv_mul, Matrix.mul_one, Matrix.mul_assoc F, diagonal_mul_diagonal]

theorem circA_star (lam : G → ℂ) : (circA F lam)ᴴ = circA F fun k => star (lam k) := by
  have h1 : (invF F)ᴴ = (Fintype.card G : ℂ)⁻¹ • F := by
    rw [invF, conjTranspose_smul, conjTranspose_conjTranspose]
    congr 1
    simp
  rw [hF.circA_eq, hF.circA_eq, conjTranspose_mul, conjTranspose_mul, h1, diagonal_conjTranspose,
    invF, Matrix.smul_mul, Matrix.mul_smul, Matrix.mul_assoc]
  rfl

theorem circA_inj {lam mu : G → ℂ} (h : circA F lam = circA F mu) : lam = mu := by
  rw [hF.circA_eq, hF.circA_eq] at h
  have h1 : diagonal lam = diagonal mu := by
    have := congrArg (fun M => invF F * M * F) h
    have e : ∀ l : G → ℂ, invF F * (F * diagonal l * invF F) * F = diagonal l := by
      intro l
      calc invF F * (F * diagonal l * invF F) * F
          = (invF F * F) * diagonal l * (invF F * F) := by simp only [Matrix.mul_assoc]
        _ = _ := by rw [hF.inv_mul, Matrix.one_mul, Matrix.mul_one]
    simpa only [e] using this
  exact diagonal_injective h1

theorem circA_one : circA F (fun _ => 1) = 1 := by
  rw [hF.circA_eq]
  have : (diagonal fun _ : G => (1 : ℂ)) = 1 := diagonal_one
  rw [this, Matrix.mul_one, hF.mul_inv]

variable {m : Type} [Fintype m]

/-- The error of a circulant operator splits by frequencies. -/
theorem error_eq (X Y : Matrix G m ℂ) (lam : G → ℂ) :
    (Fintype.card G : ℝ) * frobSq (Y - circA F lam * X) =
      ∑ k, normSq ((Fᴴ * Y) k - lam k • (Fᴴ * X) k) := by
  have h1 : Fᴴ * (Y - circA F lam * X) = Fᴴ * Y - diagonal lam * (Fᴴ * X) := by
    rw [Matrix.mul_sub, hF.circA_eq]
    congr 1
    calc Fᴴ * (F * diagonal lam * invF F * X)
        = (Fᴴ * F) * diagonal lam * (invF F * X) := by simp only [Matrix.mul_assoc]
      _ = diagonal lam * (Fᴴ * X) := by
        rw [hF.orth, invF, Matrix.smul_mul, Matrix.one_mul, Matrix.smul_mul, Matrix.smul_mul,
          Matrix.mul_smul, smul_smul, mul_inv_cancel₀ (card_ne (G := G)), one_smul]
  have h2 : frobSq (Fᴴ * (Y - circA F lam * X)) =
      (Fintype.card G : ℝ) * frobSq (Y - circA F lam * X) := by
    rw [frobSq_trace, frobSq_trace, conjTranspose_mul, conjTranspose_conjTranspose,
      Matrix.mul_assoc, ← Matrix.mul_assoc F, hF.orth', Matrix.smul_mul, Matrix.one_mul,
      Matrix.mul_smul, trace_smul, smul_eq_mul]
    have : ((Fintype.card G : ℕ) : ℂ) = (((Fintype.card G : ℕ) : ℝ) : ℂ) := by simp
    rw [this, Complex.re_ofReal_mul]
  rw [← h2, h1]
  unfold frobSq normSq
  refine Finset.sum_congr rfl fun k _ => Finset.sum_congr rfl fun t _ => ?_
  rw [Matrix.sub_apply, diagonal_mul]
  rfl

end IsFourier

end Verif.Pidmd
