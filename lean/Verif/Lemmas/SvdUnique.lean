import Verif.Lemmas.LinAlg
import Mathlib.LinearAlgebra.Matrix.Charpoly.Basic
import Mathlib.Algebra.Polynomial.Roots
import Mathlib.Data.List.Sort
import Mathlib.Data.Real.Sqrt
import Mathlib.Tactic

/-! Helper lemmas: what two singular value decompositions of one matrix have in common. -/

set_option autoImplicit false

namespace Verif.SvdUnique

open Verif Verif.LinAlg Matrix

variable {m n : Type} [Fintype m] [Fintype n]

theorem roots_rdiag {p : ℕ} (s : Fin p → ℝ) :
    (rdiag s).charpoly.roots = Finset.univ.val.map fun i => (s i : ℂ) := by
  rw [rdiag, charpoly_diagonal]
  have := Polynomial.roots_multiset_prod_X_sub_C (Finset.univ.val.map fun i => (s i : ℂ))
  rw [Multiset.map_map] at this
  exact this

theorem rdiag_mul {p : ℕ} (s t : Fin p → ℝ) : rdiag s * rdiag t = rdiag fun i => s i * t i := by
  rw [rdiag, rdiag, diagonal_mul_diagonal, rdiag]
  congr 1; funext i; push_cast; rfl

theorem gram {p : ℕ} {X : Matrix m n ℂ} {U : Matrix m (Fin p) ℂ} {s : Fin p → ℝ} {V : Matrix n (Fin p) ℂ}
    (h : IsSVD X U s V) : X * Xᴴ = U * (rdiag fun i => s i * s i) * Uᴴ := by
  have hx : Xᴴ = V * (rdiag s * Uᴴ) := by
    rw [h.eq, conjTranspose_mul, conjTranspose_mul, conjTranspose_conjTranspose, rdiag_conjTranspose]
  rw [hx]
  conv_lhs => rw [h.eq]
  rw [← rdiag_mul]
  calc U * rdiag s * Vᴴ * (V * (rdiag s * Uᴴ)) = U * rdiag s * (Vᴴ * V) * (rdiag s * Uᴴ) := by
        simp only [Matrix.mul_assoc]
    _ = _ := by rw [h.v, Matrix.mul_one]; simp only [Matrix.mul_assoc]

theorem charpoly_gram [DecidableEq m] {p : ℕ} {X : Matrix m n ℂ} {U : Matrix m (Fin p) ℂ} {s : Fin p → ℝ}
    {V : Matrix n (Fin p) ℂ} (h : IsSVD X U s V) :
    Polynomial.X ^ p * (X * Xᴴ).charpoly =
      Polynomial.X ^ Fintype.card m * (rdiag fun i => s i * s i).charpoly := by
  have := charpoly_mul_comm' (U * rdiag fun i => s i * s i) Uᴴ
  rw [Fintype.card_fin, ← gram h, ← Matrix.mul_assoc, h.u, Matrix.one_mul] at this
  exact this

theorem values_perm [DecidableEq m] {p p' : ℕ} {X : Matrix m n ℂ} {U : Matrix m (Fin p) ℂ} {s : Fin p → ℝ}
    {V : Matrix n (Fin p) ℂ} (h : IsSVD X U s V) {U' : Matrix m (Fin p') ℂ} {s' : Fin p' → ℝ}
    {V' : Matrix n (Fin p') ℂ} (h' : IsSVD X U' s' V') :
    (List.ofFn s ++ List.replicate p' 0).Perm (List.ofFn s' ++ List.replicate p 0) := by
  have e : Polynomial.X ^ p' * (rdiag fun i => s i * s i).charpoly =
      Polynomial.X ^ p * (rdiag fun i => s' i * s' i).charpoly := by
    have hx : (Polynomial.X ^ Fintype.card m : Polynomial ℂ) ≠ 0 := pow_ne_zero _ Polynomial.X_ne_zero
    refine mul_left_cancel₀ hx ?_
    rw [mul_left_comm, ← charpoly_gram h, mul_left_comm _ (Polynomial.X ^ p), charpoly_gram h', mul_left_comm]
  have hne : ∀ (k a : ℕ) (t : Fin k → ℝ), (Polynomial.X ^ a * (rdiag t).charpoly : Polynomial ℂ) ≠ 0 := fun k a t =>
    mul_ne_zero (pow_ne_zero _ Polynomial.X_ne_zero) (charpoly_monic _).ne_zero
  have r := congrArg Polynomial.roots e
  rw [Polynomial.roots_mul (hne _ _ _), Polynomial.roots_mul (hne _ _ _), Polynomial.roots_X_pow,
    Polynomial.roots_X_pow, roots_rdiag, roots_rdiag] at r
  have r2 := congrArg (Multiset.map fun z : ℂ => Real.sqrt z.re) r
  simp only [Multiset.map_add, Multiset.map_nsmul, Multiset.map_singleton, Multiset.map_map, Function.comp_def,
    Complex.ofReal_re, Complex.zero_re, Real.sqrt_zero, Real.sqrt_mul_self (h.nonneg _),
    Real.sqrt_mul_self (h'.nonneg _)] at r2
  rw [← Multiset.coe_eq_coe, ← Multiset.coe_add, ← Multiset.coe_add]
  have hr : ∀ k : ℕ, ((List.replicate k (0 : ℝ) : List ℝ) : Multiset ℝ) = k • {0} := fun k => by
    rw [Multiset.nsmul_singleton]; rfl
  have ho : ∀ {k : ℕ} (t : Fin k → ℝ), ((List.ofFn t : List ℝ) : Multiset ℝ) = Finset.univ.val.map t := fun t => by
    rw [Fin.univ_val_map]
  rw [hr, hr, ho, ho, add_comm, r2, add_comm]

/-- The singular values, followed by zeros. -/
def ext {p : ℕ} (s : Fin p → ℝ) (i : ℕ) : ℝ := if h : i < p then s ⟨i, h⟩ else 0

theorem sorted_append {p k : ℕ} (s : Fin p → ℝ) (h0 : ∀ i, 0 ≤ s i) (hs : Antitone s) :
    (List.ofFn s ++ List.replicate k 0).Pairwise (· ≥ ·) := by
  rw [List.pairwise_append]
  refine ⟨?_, ?_, ?_⟩
  · rw [List.pairwise_ofFn]
    exact fun i j hij => hs hij.le
  · rw [List.pairwise_replicate]; right; simp
  · intro a ha b hb
    rw [List.mem_ofFn'] at ha
    obtain ⟨i, rfl⟩ := ha
    rw [List.eq_of_mem_replicate hb]
    exact h0 i

theorem getD_append_zeros {p k : ℕ} (s : Fin p → ℝ) (i : ℕ) : (List.ofFn s ++ List.replicate k 0).getD i 0 = ext s i := by
  rw [List.getD_eq_getElem?_getD, ext]
  split_ifs with hi
  · rw [List.getElem?_append_left (by simpa using hi)]
    simp [hi]
  · rw [List.getElem?_append_right (by simpa using hi), List.getElem?_replicate]
    split_ifs <;> rfl

theorem values_eq [DecidableEq m] {p p' : ℕ} {X : Matrix m n ℂ} {U : Matrix m (Fin p) ℂ} {s : Fin p → ℝ}
    {V : Matrix n (Fin p) ℂ} (h : IsSVD X U s V) (hs : Antitone s) {U' : Matrix m (Fin p') ℂ} {s' : Fin p' → ℝ}
    {V' : Matrix n (Fin p') ℂ} (h' : IsSVD X U' s' V') (hs' : Antitone s') : ext s = ext s' := by
  have e := List.Perm.eq_of_pairwise' (sorted_append s h.nonneg hs) (sorted_append s' h'.nonneg hs')
    (values_perm h h')
  funext i
  rw [← getD_append_zeros (k := p') s i, e, getD_append_zeros]

/-- The leading singular vectors are determined up to a unitary matrix that commutes with the singular values. -/
theorem lead_unique {p p' q : ℕ} (hq : q ≤ p) (hq' : q ≤ p') {X : Matrix m n ℂ} {U : Matrix m (Fin p) ℂ}
    {s : Fin p → ℝ} {V : Matrix n (Fin p) ℂ} (h : IsSVD X U s V) {U' : Matrix m (Fin p') ℂ} {s' : Fin p' → ℝ}
    {V' : Matrix n (Fin p') ℂ} (h' : IsSVD X U' s' V')
    (he : ∀ i : Fin q, s (Fin.castLE hq i) = s' (Fin.castLE hq' i)) (hpos : ∀ i : Fin q, 0 < s (Fin.castLE hq i))
    (hgap : ∀ (i : Fin q) (j : Fin p), q ≤ (j : ℕ) → s j < s (Fin.castLE hq i)) :
    ∃ Q : Matrix (Fin q) (Fin q) ℂ, Qᴴ * Q = 1 ∧ lead q hq' U' = lead q hq U * Q ∧ lead q hq' V' = lead q hq V * Q ∧
      ∀ i j, s (Fin.castLE hq i) ≠ s (Fin.castLE hq j) → Q i j = 0 := by
  have hg : (rdiag fun i => s i * s i) * (Uᴴ * U') = Uᴴ * U' * rdiag fun i => s' i * s' i := by
    have e1 : Uᴴ * (X * Xᴴ) * U' = (rdiag fun i => s i * s i) * (Uᴴ * U') := by
      rw [gram h]
      calc Uᴴ * (U * (rdiag fun i => s i * s i) * Uᴴ) * U' = (Uᴴ * U) * (rdiag fun i => s i * s i) * (Uᴴ * U') := by
            simp only [Matrix.mul_assoc]
        _ = _ := by rw [h.u, Matrix.one_mul]
    have e2 : Uᴴ * (X * Xᴴ) * U' = Uᴴ * U' * rdiag fun i => s' i * s' i := by
      rw [gram h']
      calc Uᴴ * (U' * (rdiag fun i => s' i * s' i) * U'ᴴ) * U' =
            Uᴴ * U' * (rdiag fun i => s' i * s' i) * (U'ᴴ * U') := by simp only [Matrix.mul_assoc]
        _ = _ := by rw [h'.u, Matrix.mul_one]
    rw [← e1, e2]
  have hij : ∀ i j, s i ≠ s' j → (Uᴴ * U') i j = 0 := by
    intro i j hne
    have := congrFun (congrFun hg i) j
    simp only [rdiag, diagonal_mul, mul_diagonal] at this
    have hne2 : s i * s i ≠ s' j * s' j := fun hh =>
      hne ((mul_self_eq_mul_self_iff.mp hh).elim id fun h3 => by
        have a1 := h.nonneg i; have a2 := h'.nonneg j
        linarith)
    have hc : (((s i * s i : ℝ) : ℂ) - ((s' j * s' j : ℝ) : ℂ)) ≠ 0 := by
      rw [← Complex.ofReal_sub]; exact_mod_cast sub_ne_zero.mpr hne2
    have : (((s i * s i : ℝ) : ℂ) - ((s' j * s' j : ℝ) : ℂ)) * (Uᴴ * U') i j = 0 := by
      rw [sub_mul, this]; ring
    exact (mul_eq_zero.mp this).resolve_left hc
  have hX : U * (Uᴴ * X) = X := by
    rw [h.eq]
    calc U * (Uᴴ * (U * rdiag s * Vᴴ)) = U * ((Uᴴ * U) * (rdiag s * Vᴴ)) := by simp only [Matrix.mul_assoc]
      _ = _ := by rw [h.u, Matrix.one_mul, Matrix.mul_assoc]
  have hXV : X * V' = U' * rdiag s' := by
    rw [h'.eq, Matrix.mul_assoc, h'.v, Matrix.mul_one]
  have hU' : ∀ (a : m) (j : Fin q), (U * (Uᴴ * U')) a (Fin.castLE hq' j) = U' a (Fin.castLE hq' j) := by
    intro a j
    have e : U * (Uᴴ * U') * rdiag s' = U' * rdiag s' := by
      calc U * (Uᴴ * U') * rdiag s' = U * (Uᴴ * (U' * rdiag s')) := by simp only [Matrix.mul_assoc]
        _ = U * (Uᴴ * X) * V' := by rw [← hXV]; simp only [Matrix.mul_assoc]
        _ = U' * rdiag s' := by rw [hX, hXV]
    have := congrFun (congrFun e a) (Fin.castLE hq' j)
    simp only [rdiag, mul_diagonal] at this
    have h0 : ((s' (Fin.castLE hq' j) : ℝ) : ℂ) ≠ 0 := by
      rw [← he j]; exact_mod_cast (hpos j).ne'
    exact mul_right_cancel₀ h0 this
  have hUQ : lead q hq' U' = lead q hq U * ((lead q hq U)ᴴ * lead q hq' U') := by
    ext a j
    have e1 : lead q hq' U' a j = ∑ i : Fin p, U a i * (Uᴴ * U') i (Fin.castLE hq' j) := by
      rw [← Matrix.mul_apply, hU']; rfl
    rw [e1, Matrix.mul_apply]
    obtain ⟨c, rfl⟩ := Nat.exists_eq_add_of_le hq
    rw [Fin.sum_univ_add]
    have z : ∑ i : Fin c, U a (Fin.natAdd q i) * (Uᴴ * U') (Fin.natAdd q i) (Fin.castLE hq' j) = 0 := by
      refine Finset.sum_eq_zero fun i _ => ?_
      rw [hij, mul_zero]
      rw [← he j]
      exact (hgap j (Fin.natAdd q i) (by simp)).ne
    rw [z, add_zero]
    rfl
  have hQ0 : ∀ i j, s (Fin.castLE hq i) ≠ s (Fin.castLE hq j) → ((lead q hq U)ᴴ * lead q hq' U') i j = 0 :=
    fun i j hne => hij (Fin.castLE hq i) (Fin.castLE hq' j) (by rwa [← he j])
  have hQ1 : ((lead q hq U)ᴴ * lead q hq' U')ᴴ * ((lead q hq U)ᴴ * lead q hq' U') = 1 := by
    rw [conjTranspose_mul, conjTranspose_conjTranspose, Matrix.mul_assoc, ← hUQ]
    exact lead_orthonormal hq' U' h'.u
  generalize (lead q hq U)ᴴ * lead q hq' U' = Q at hUQ hQ0 hQ1
  refine ⟨Q, hQ1, hUQ, ?_, hQ0⟩
  · have hV : V * rdiag s = Xᴴ * U := by
      rw [h.eq, conjTranspose_mul, conjTranspose_mul, conjTranspose_conjTranspose, rdiag_conjTranspose,
        Matrix.mul_assoc, Matrix.mul_assoc, h.u, Matrix.mul_one]
    have hV' : V' * rdiag s' = Xᴴ * U' := by
      rw [h'.eq, conjTranspose_mul, conjTranspose_mul, conjTranspose_conjTranspose, rdiag_conjTranspose,
        Matrix.mul_assoc, Matrix.mul_assoc, h'.u, Matrix.mul_one]
    ext b j
    have h0 : ((s (Fin.castLE hq j) : ℝ) : ℂ) ≠ 0 := by exact_mod_cast (hpos j).ne'
    refine mul_right_cancel₀ h0 ?_
    have e1 : lead q hq' V' b j * ((s (Fin.castLE hq j) : ℝ) : ℂ) = (Xᴴ * lead q hq' U') b j := by
      have := congrFun (congrFun hV' b) (Fin.castLE hq' j)
      simp only [rdiag, mul_diagonal] at this
      rw [he j]
      exact this
    rw [e1, hUQ, ← Matrix.mul_assoc, Matrix.mul_apply, Matrix.mul_apply, Finset.sum_mul]
    refine Finset.sum_congr rfl fun i _ => ?_
    have e2 : (Xᴴ * lead q hq U) b i = lead q hq V b i * ((s (Fin.castLE hq i) : ℝ) : ℂ) := by
      have := congrFun (congrFun hV b) (Fin.castLE hq i)
      simp only [rdiag, mul_diagonal] at this
      exact this.symm
    rw [e2]
    by_cases hne : s (Fin.castLE hq i) = s (Fin.castLE hq j)
    · rw [hne]; ring
    · rw [hQ0 i j hne]; ring

end Verif.SvdUnique
