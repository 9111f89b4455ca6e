import Verif.Lemmas.LinAlg
import Mathlib.Analysis.InnerProductSpace.PiL2
import Mathlib.LinearAlgebra.Matrix.Rank

/-! Best approximation by matrices of bounded rank (Eckart–Young theorem, Frobenius norm). -/

set_option autoImplicit false

namespace Verif.LinAlg

open Matrix

variable {m n k : Type} [Fintype m] [Fintype n] [Fintype k] [DecidableEq k]

theorem frobSq_sum_cols (A : Matrix m n ℂ) : frobSq A = ∑ j, normSq (A.col j) := by
  simp only [frobSq, normSq, Matrix.col_apply]
  exact Finset.sum_comm

theorem frobSq_conjTranspose (A : Matrix m n ℂ) : frobSq Aᴴ = frobSq A := by
  simp only [frobSq, conjTranspose_apply, Complex.star_def, Complex.normSq_conj]
  exact Finset.sum_comm

/-- Pythagoras for an orthonormal set of columns. -/
theorem frobSq_proj {W : Matrix m k ℂ} (hW : Wᴴ * W = 1) (Z : Matrix m n ℂ) (C : Matrix k n ℂ) :
    frobSq (Z - W * C) = frobSq (Z - W * (Wᴴ * Z)) + frobSq (Wᴴ * Z - C) := by
  have e : Z - W * C = (Z - W * (Wᴴ * Z)) + W * (Wᴴ * Z - C) := by
    rw [Matrix.mul_sub]; abel
  have h0 : (Z - W * (Wᴴ * Z))ᴴ * (W * (Wᴴ * Z - C)) = 0 := by
    have : (Z - W * (Wᴴ * Z))ᴴ * W = 0 := by
      rw [conjTranspose_sub, conjTranspose_mul, conjTranspose_mul, conjTranspose_conjTranspose,
        Matrix.sub_mul, Matrix.mul_assoc (Zᴴ * W), hW, Matrix.mul_one, sub_self]
    rw [← Matrix.mul_assoc, this, Matrix.zero_mul]
  have h1 : ∀ D : Matrix k n ℂ, frobSq (W * D) = frobSq D := by
    intro D
    have ht : ∀ {a b : Type} [Fintype a] [Fintype b] (A : Matrix a b ℂ),
        ((frobSq A : ℝ) : ℂ) = trace (Aᴴ * A) := by
      intro a b _ _ A
      simp only [frobSq, trace, diag_apply, Matrix.mul_apply, conjTranspose_apply]
      push_cast
      rw [Finset.sum_comm]
      refine Finset.sum_congr rfl fun i _ => Finset.sum_congr rfl fun j _ => ?_
      rw [Complex.normSq_eq_conj_mul_self]; rfl
    have : ((frobSq (W * D) : ℝ) : ℂ) = (frobSq D : ℝ) := by
      rw [ht, ht, conjTranspose_mul, Matrix.mul_assoc, ← Matrix.mul_assoc Wᴴ, hW, Matrix.one_mul]
    exact_mod_cast this
  rw [e, frobSq_add, h0, h1]
  simp

theorem frobSq_proj_le {W : Matrix m k ℂ} (hW : Wᴴ * W = 1) (Z : Matrix m n ℂ) :
    frobSq (Z - W * (Wᴴ * Z)) = frobSq Z - frobSq (Wᴴ * Z) := by
  have := frobSq_proj hW Z 0
  simp only [Matrix.mul_zero, sub_zero] at this
  linarith

/-- An orthonormal basis of the range of a matrix, as columns. -/
theorem exists_orth_range [DecidableEq m] (B : Matrix m n ℂ) :
    ∃ (W : Matrix m (Fin B.rank) ℂ), Wᴴ * W = 1 ∧ W * (Wᴴ * B) = B := by
  let E := EuclideanSpace ℂ m
  let L : (n → ℂ) →ₗ[ℂ] E := (WithLp.linearEquiv 2 ℂ (m → ℂ)).symm.toLinearMap ∘ₗ B.mulVecLin
  have hr : Module.finrank ℂ (LinearMap.range L) = B.rank := by
    rw [Matrix.rank, LinearMap.range_comp]
    exact LinearEquiv.finrank_map_eq _ _
  let e := (stdOrthonormalBasis ℂ (LinearMap.range L)).reindex (finCongr hr)
  refine ⟨Matrix.of fun i j => (e j : E) i, ?_, ?_⟩
  · ext i j
    have := (orthonormal_iff_ite.mp e.orthonormal) i j
    rw [Submodule.coe_inner, PiLp.inner_apply] at this
    simp only [Matrix.mul_apply, conjTranspose_apply, Matrix.of_apply, Matrix.one_apply]
    rw [← this]
    refine Finset.sum_congr rfl fun a _ => ?_
    simp [mul_comm]
  · ext i c
    have hx : WithLp.toLp 2 (B.col c) ∈ LinearMap.range L := by
      classical
      exact ⟨Pi.single c 1, by simp [L]⟩
    have h1 := congrArg Subtype.val (e.sum_repr ⟨_, hx⟩)
    have h2 := congrArg (EuclideanSpace.projₗ (𝕜 := ℂ) i) h1
    rw [Submodule.coe_sum, map_sum] at h2
    simp only [Matrix.mul_apply, conjTranspose_apply, Matrix.of_apply]
    refine Eq.trans (Finset.sum_congr rfl fun a _ => ?_) h2
    have : e.repr ⟨_, hx⟩ a = ∑ x, star ((e a : E) x) * B x c := by
      rw [e.repr_apply_apply, Submodule.coe_inner, PiLp.inner_apply]
      refine Finset.sum_congr rfl fun x _ => ?_
      simp [mul_comm]
    rw [← this]
    simp [mul_comm]

/-- Ky Fan: no `r` orthonormal directions capture more than the first `r` singular values. -/
theorem kyFan {p q : ℕ} {r : ℕ} (hr : r ≤ p) {Z : Matrix m n ℂ} {U : Matrix m (Fin p) ℂ} {s : Fin p → ℝ}
    {V : Matrix n (Fin p) ℂ} (h : IsSVD Z U s V) (hs : Antitone s) {W : Matrix m (Fin q) ℂ}
    (hW : Wᴴ * W = 1) (hq : q ≤ r) :
    frobSq (Wᴴ * Z) ≤ frobSq ((lead r hr U)ᴴ * Z) := by
  classical
  -- the squared length of the singular vectors in the span of `W`
  let c : Fin p → ℝ := fun j => normSq ((Wᴴ * U).col j)
  have hVf : ∀ {a : Type} [Fintype a] (D : Matrix a (Fin p) ℂ), frobSq (D * Vᴴ) = frobSq D := by
    intro a _ D
    have := frobSq_proj (m := n) h.v 0 (Dᴴ)
    rw [← frobSq_conjTranspose (D * Vᴴ), conjTranspose_mul, conjTranspose_conjTranspose]
    rw [Matrix.mul_zero, Matrix.mul_zero, zero_sub, zero_sub, zero_sub] at this
    have hneg : ∀ {a b : Type} [Fintype a] [Fintype b] (A : Matrix a b ℂ), frobSq (-A) = frobSq A := by
      intro a b _ _ A; simp [frobSq]
    rw [hneg, hneg, hneg, (frobSq_eq_zero _).mpr rfl, zero_add, frobSq_conjTranspose] at this
    exact this
  have hWZ : frobSq (Wᴴ * Z) = ∑ j, s j ^ 2 * c j := by
    rw [h.eq, ← Matrix.mul_assoc, ← Matrix.mul_assoc, hVf, frobSq_sum_cols]
    refine Finset.sum_congr rfl fun j _ => ?_
    simp only [normSq, Matrix.col_apply, rdiag, mul_diagonal, Complex.normSq_mul,
      Complex.normSq_ofReal, c]
    rw [← Finset.sum_mul]; ring
  have hc0 : ∀ j, 0 ≤ c j := fun j => normSq_nonneg _
  have hcol : ∀ {a : Type} [Fintype a] (v : a → ℂ), frobSq (Matrix.of fun i (_ : Fin 1) => v i) = normSq v := by
    intro a _ v; simp [frobSq, normSq]
  have hc1 : ∀ j, c j ≤ 1 := by
    intro j
    have hu : frobSq (Matrix.of fun i (_ : Fin 1) => U i j) = 1 := by
      rw [hcol]
      have := congrFun (congrFun h.u j) j
      rw [Matrix.mul_apply, Matrix.one_apply_eq] at this
      have h2 : ((normSq fun i => U i j : ℝ) : ℂ) = 1 := by
        rw [← this, normSq]
        push_cast
        refine Finset.sum_congr rfl fun i _ => ?_
        rw [Complex.normSq_eq_conj_mul_self]; rfl
      exact_mod_cast h2
    have h3 := frobSq_proj_le hW (Matrix.of fun i (_ : Fin 1) => U i j)
    have h4 := frobSq_nonneg ((Matrix.of fun i (_ : Fin 1) => U i j) -
      W * (Wᴴ * Matrix.of fun i (_ : Fin 1) => U i j))
    have h5 : frobSq (Wᴴ * Matrix.of fun i (_ : Fin 1) => U i j) = c j := by
      show _ = normSq ((Wᴴ * U).col j)
      rw [← hcol]; congr 1
    rw [h3, hu, h5] at h4
    linarith
  have hcs : ∑ j, c j ≤ r := by
    have h1 : ∑ j, c j = frobSq (Uᴴ * W) := by
      rw [← frobSq_conjTranspose, conjTranspose_mul, conjTranspose_conjTranspose, frobSq_sum_cols]
    have h2 := frobSq_proj_le h.u W
    have h3 := frobSq_nonneg (W - U * (Uᴴ * W))
    have h4 : frobSq W = q := by
      have ht : ((frobSq W : ℝ) : ℂ) = trace (Wᴴ * W) := by
        simp only [frobSq, trace, diag_apply, Matrix.mul_apply, conjTranspose_apply]
        push_cast
        rw [Finset.sum_comm]
        refine Finset.sum_congr rfl fun i _ => Finset.sum_congr rfl fun j _ => ?_
        rw [Complex.normSq_eq_conj_mul_self]; rfl
      rw [hW, trace_one, Fintype.card_fin] at ht
      exact_mod_cast ht
    have h5 : (q : ℝ) ≤ r := by exact_mod_cast hq
    rw [h1]; linarith
  have hlead : frobSq ((lead r hr U)ᴴ * Z) = ∑ j : Fin p, if (j : ℕ) < r then s j ^ 2 else 0 := by
    have e : (lead r hr U)ᴴ * Z = (lead r hr V * rdiag (s ∘ Fin.castLE hr))ᴴ := by
      rw [← h.conj_mul_lead r hr, conjTranspose_mul, conjTranspose_conjTranspose]
    rw [e, frobSq_conjTranspose, frobSq_sum_cols]
    have h1 : ∀ j : Fin r, normSq ((lead r hr V * rdiag (s ∘ Fin.castLE hr)).col j) =
        s (Fin.castLE hr j) ^ 2 := by
      intro j
      have := congrFun (congrFun h.v (Fin.castLE hr j)) (Fin.castLE hr j)
      rw [Matrix.mul_apply, Matrix.one_apply_eq] at this
      have h2 : ((normSq fun i => V i (Fin.castLE hr j) : ℝ) : ℂ) = 1 := by
        rw [← this, normSq]
        push_cast
        refine Finset.sum_congr rfl fun i _ => ?_
        rw [Complex.normSq_eq_conj_mul_self]; rfl
      have h3 : (normSq fun i => V i (Fin.castLE hr j)) = 1 := by exact_mod_cast h2
      rw [normSq] at h3
      simp only [normSq, Matrix.col_apply, rdiag, mul_diagonal, Complex.normSq_mul,
        Complex.normSq_ofReal, LinAlg.lead, submatrix_apply, id_eq, Function.comp]
      rw [← Finset.sum_mul, h3]; ring
    simp only [h1]
    rw [← Finset.sum_filter]
    refine Finset.sum_bij (fun j _ => Fin.castLE hr j) ?_ ?_ ?_ ?_
    · intro j _; simp
    · intro a _ b _ hab; exact Fin.ext (by simpa [Fin.ext_iff] using hab)
    · intro b hb
      simp only [Finset.mem_filter, Finset.mem_univ, true_and] at hb
      exact ⟨⟨b, hb⟩, Finset.mem_univ _, rfl⟩
    · intro j _; rfl
  -- compare with the threshold
  have hs2 : ∀ i j : Fin p, i ≤ j → s j ^ 2 ≤ s i ^ 2 := fun i j hij =>
    pow_le_pow_left₀ (h.nonneg j) (hs hij) 2
  obtain ⟨t, ht0, hlow, hhigh⟩ : ∃ t : ℝ, 0 ≤ t ∧ (∀ j : Fin p, (j : ℕ) < r → t ≤ s j ^ 2) ∧
      ∀ j : Fin p, r ≤ (j : ℕ) → s j ^ 2 ≤ t := by
    by_cases hrp : r < p
    · refine ⟨s ⟨r, hrp⟩ ^ 2, sq_nonneg _, fun j hj => hs2 _ _ ?_, fun j hj => hs2 _ _ ?_⟩
      · exact Fin.le_def.mpr hj.le
      · exact Fin.le_def.mpr hj
    · exact ⟨0, le_rfl, fun j _ => sq_nonneg _, fun j hj => absurd j.2 (by omega)⟩
  have key : ∀ j : Fin p, 0 ≤ ((if (j : ℕ) < r then (1 : ℝ) else 0) - c j) * (s j ^ 2 - t) := by
    intro j
    by_cases hj : (j : ℕ) < r
    · simp only [hj, if_true]
      exact mul_nonneg (sub_nonneg.mpr (hc1 j)) (sub_nonneg.mpr (hlow j hj))
    · simp only [hj, if_false]
      have := hhigh j (by omega)
      exact mul_nonneg_of_nonpos_of_nonpos (by linarith [hc0 j]) (by linarith)
  have hcount : ∑ j : Fin p, (if (j : ℕ) < r then (1 : ℝ) else 0) = r := by
    rw [Finset.sum_boole]
    have : (Finset.univ.filter fun j : Fin p => (j : ℕ) < r).card = r := by
      rw [Fin.card_filter_val_lt]; omega
    rw [this]
  have hsum := Finset.sum_nonneg fun j (_ : j ∈ Finset.univ) => key j
  have e : ∑ j : Fin p, ((if (j : ℕ) < r then (1 : ℝ) else 0) - c j) * (s j ^ 2 - t) =
      (∑ j : Fin p, if (j : ℕ) < r then s j ^ 2 else 0) - ∑ j, s j ^ 2 * c j -
        t * (∑ j : Fin p, (if (j : ℕ) < r then (1 : ℝ) else 0)) + t * ∑ j, c j := by
    rw [Finset.mul_sum, Finset.mul_sum, ← Finset.sum_sub_distrib, ← Finset.sum_sub_distrib,
      ← Finset.sum_add_distrib]
    refine Finset.sum_congr rfl fun j _ => ?_
    split_ifs <;> ring
  rw [e, hcount] at hsum
  rw [hWZ, hlead]
  nlinarith [mul_le_mul_of_nonneg_left hcs ht0]

/-- **Eckart–Young**: the projection on the first `r` left singular vectors is a best
approximation of rank at most `r`. -/
theorem eckartYoung [DecidableEq m] {p r : ℕ} (hr : r ≤ p) {Z : Matrix m n ℂ} {U : Matrix m (Fin p) ℂ}
    {s : Fin p → ℝ} {V : Matrix n (Fin p) ℂ} (h : IsSVD Z U s V) (hs : Antitone s)
    (B : Matrix m n ℂ) (hB : B.rank ≤ r) :
    frobSq (Z - lead r hr U * ((lead r hr U)ᴴ * Z)) ≤ frobSq (Z - B) := by
  obtain ⟨W, hW, hWB⟩ := exists_orth_range B
  have h1 := frobSq_proj hW Z (Wᴴ * B)
  rw [hWB] at h1
  rw [h1, frobSq_proj_le (lead_orthonormal hr U h.u), frobSq_proj_le hW]
  have h2 := kyFan hr h hs hW hB
  have h3 := frobSq_nonneg (Wᴴ * Z - Wᴴ * B)
  linarith

end Verif.LinAlg
