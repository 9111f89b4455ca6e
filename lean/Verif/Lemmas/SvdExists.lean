import Verif.Lemmas.EckartYoung
import Mathlib.Analysis.Matrix.Spectrum
import Mathlib.Analysis.Matrix.PosDef
import Mathlib.Data.Fin.Tuple.Sort

/-!
# Every complex matrix has a thin singular value decomposition

The assumption made of `np.linalg.svd` (`IsSVD`, with descending singular values) can be met for
every matrix.
-/

set_option autoImplicit false

namespace Verif.LinAlg

open Matrix

theorem isSVD_perm {a b : Type} [Fintype a] [Fintype b] {k : ℕ} {X : Matrix a b ℂ}
    {U : Matrix a (Fin k) ℂ} {s : Fin k → ℝ} {V : Matrix b (Fin k) ℂ} (h : IsSVD X U s V)
    (σ : Equiv.Perm (Fin k)) :
    IsSVD X (U.submatrix id σ) (s ∘ σ) (V.submatrix id σ) := by
  refine ⟨?_, ?_, ?_, fun i => h.nonneg _⟩
  · have e : rdiag (s ∘ σ) = (rdiag s).submatrix σ σ := by
      rw [rdiag, rdiag, Matrix.submatrix_diagonal_equiv]; rfl
    rw [e, conjTranspose_submatrix, Matrix.submatrix_mul_equiv, Matrix.submatrix_mul_equiv, ← h.eq]
    rfl
  · have e := congrArg (fun M => M.submatrix σ σ) h.u
    simp only [submatrix_one_equiv] at e
    rw [← e, conjTranspose_submatrix]
    exact (Matrix.submatrix_mul _ _ _ _ _ Function.bijective_id).symm
  · have e := congrArg (fun M => M.submatrix σ σ) h.v
    simp only [submatrix_one_equiv] at e
    rw [← e, conjTranspose_submatrix]
    exact (Matrix.submatrix_mul _ _ _ _ _ Function.bijective_id).symm

theorem isSVD_conjTranspose {a b : Type} [Fintype a] [Fintype b] {k : ℕ} {X : Matrix a b ℂ}
    {U : Matrix a (Fin k) ℂ} {s : Fin k → ℝ} {V : Matrix b (Fin k) ℂ} (h : IsSVD X U s V) :
    IsSVD Xᴴ V s U := by
  refine ⟨?_, h.v, h.u, h.nonneg⟩
  rw [h.eq, conjTranspose_mul, conjTranspose_mul, conjTranspose_conjTranspose]
  have : (rdiag s)ᴴ = rdiag s := by
    ext i j; simp only [rdiag, diagonal_conjTranspose]; congr 1; funext i; simp
  rw [this, Matrix.mul_assoc]

theorem exists_svd_tall {m l : ℕ} (hl : l ≤ m) (M : Matrix (Fin m) (Fin l) ℂ) :
    ∃ (U : Matrix (Fin m) (Fin l) ℂ) (s : Fin l → ℝ) (V : Matrix (Fin l) (Fin l) ℂ), IsSVD M U s V := by
  classical
  have hG : (Mᴴ * M).IsHermitian := isHermitian_conjTranspose_mul_self M
  have hpos : ∀ i, 0 ≤ hG.eigenvalues i := by
    open scoped ComplexOrder in
    exact (posSemidef_conjTranspose_mul_self M).eigenvalues_nonneg
  set V : Matrix (Fin l) (Fin l) ℂ := (hG.eigenvectorUnitary : Matrix (Fin l) (Fin l) ℂ) with hV
  have hVV : Vᴴ * V = 1 := by
    have := (Matrix.mem_unitaryGroup_iff' (A := V)).mp hG.eigenvectorUnitary.2
    exact this
  have hVV' : V * Vᴴ = 1 := by
    have := (Matrix.mem_unitaryGroup_iff (A := V)).mp hG.eigenvectorUnitary.2
    exact this
  -- the columns of `M V` are orthogonal
  have hgram : (M * V)ᴴ * (M * V) = rdiag hG.eigenvalues := by
    have e : (Mᴴ * M) * V = V * rdiag hG.eigenvalues := by
      ext i j
      have h1 := congrFun (hG.mulVec_eigenvectorBasis j) i
      rw [rdiag, Matrix.mul_diagonal]
      have h2 : ∀ a, V a j = (hG.eigenvectorBasis j).ofLp a := fun a => by
        rw [hV, hG.eigenvectorUnitary_apply]
      rw [h2]
      have h3 : ((Mᴴ * M) * V) i j = ((Mᴴ * M) *ᵥ (hG.eigenvectorBasis j).ofLp) i := by
        simp only [Matrix.mul_apply (M := Mᴴ * M), mulVec, dotProduct, h2]
      rw [h3, h1]
      simp [mul_comm]
    rw [conjTranspose_mul, Matrix.mul_assoc, ← Matrix.mul_assoc Mᴴ, e, ← Matrix.mul_assoc, hVV,
      Matrix.one_mul]
  let s : Fin l → ℝ := fun i => √(hG.eigenvalues i)
  have hs2 : ∀ i, (s i) * (s i) = hG.eigenvalues i := fun i => Real.mul_self_sqrt (hpos i)
  have hent : ∀ i j, ∑ a, star ((M * V) a i) * (M * V) a j = if i = j then (hG.eigenvalues i : ℂ) else 0 := by
    intro i j
    have := congrFun (congrFun hgram i) j
    simp only [rdiag, diagonal_apply] at this
    rw [← this, Matrix.mul_apply]
    rfl
  -- an orthonormal basis of the space containing the normalised nonzero columns
  let E := EuclideanSpace ℂ (Fin m)
  let v : Fin m → E := fun i => if h : (i : ℕ) < l then
    WithLp.toLp 2 fun a => (M * V) a ⟨i, h⟩ / s ⟨i, h⟩ else 0
  let S : Set (Fin m) := {i | ∃ h : (i : ℕ) < l, s ⟨i, h⟩ ≠ 0}
  have hon : Orthonormal ℂ (S.domRestrict v) := by
    rw [orthonormal_iff_ite]
    rintro ⟨i, hi, hi0⟩ ⟨j, hj, hj0⟩
    have e1 : S.domRestrict v ⟨i, hi, hi0⟩ = WithLp.toLp 2 fun a => (M * V) a ⟨i, hi⟩ / s ⟨i, hi⟩ := by
      simp [Set.domRestrict, v, hi]
    have e2 : S.domRestrict v ⟨j, hj, hj0⟩ = WithLp.toLp 2 fun a => (M * V) a ⟨j, hj⟩ / s ⟨j, hj⟩ := by
      simp [Set.domRestrict, v, hj]
    rw [e1, e2, PiLp.inner_apply]
    have h1 : ∑ a, inner ℂ ((WithLp.toLp 2 fun a => (M * V) a ⟨i, hi⟩ / s ⟨i, hi⟩ : E) a)
        ((WithLp.toLp 2 fun a => (M * V) a ⟨j, hj⟩ / s ⟨j, hj⟩ : E) a) =
        (∑ a, star ((M * V) a ⟨i, hi⟩) * (M * V) a ⟨j, hj⟩) / (s ⟨i, hi⟩ * s ⟨j, hj⟩) := by
      rw [Finset.sum_div]
      refine Finset.sum_congr rfl fun a _ => ?_
      simp only [RCLike.inner_apply, map_div₀, Complex.conj_ofReal]
      rw [starRingEnd_apply]
      ring
    rw [h1, hent]
    by_cases hij : i = j
    · subst hij
      have : (s ⟨i, hi⟩ : ℂ) ≠ 0 := by exact_mod_cast hi0
      simp only [if_true]
      rw [← hs2]
      push_cast
      field_simp
    · have h2 : ¬ ((⟨i, hi⟩ : Fin l) = ⟨j, hj⟩) := by
        intro h; apply hij; ext; simpa using congrArg Fin.val h
      have h3 : ¬ ((⟨i, hi, hi0⟩ : S) = ⟨j, hj, hj0⟩) := by
        intro h; exact hij (congrArg Subtype.val h)
      simp only [if_neg h2, if_neg h3, zero_div]
  obtain ⟨b, hb⟩ := hon.exists_orthonormalBasis_extension_of_card_eq
    (by simp [E] : Module.finrank ℂ E = Fintype.card (Fin m))
  let U : Matrix (Fin m) (Fin l) ℂ := Matrix.of fun a i => (b (Fin.castLE hl i)).ofLp a
  refine ⟨U, s, V, ?_, ?_, hVV, fun i => Real.sqrt_nonneg _⟩
  · have key : M * V = U * rdiag s := by
      ext a i
      rw [rdiag, Matrix.mul_diagonal]
      by_cases h0 : s i = 0
      · have h1 := hent i i
        have h2 : hG.eigenvalues i = 0 := by rw [← hs2, h0, zero_mul]
        simp only [if_true, h2, Complex.ofReal_zero] at h1
        have h3 : normSq ((M * V).col i) = 0 := by
          have : ((normSq ((M * V).col i) : ℝ) : ℂ) = 0 := by
            rw [normSq_eq_dot]; exact h1
          exact_mod_cast this
        have h4 := congrFun ((normSq_eq_zero _).mp h3) a
        have h5 : (M * V) a i = 0 := h4
        rw [h5, h0]; simp
      · have hmem : Fin.castLE hl i ∈ S := ⟨i.2, h0⟩
        have h1 : U a i = (M * V) a i / s i := by
          simp only [U, Matrix.of_apply]
          rw [hb _ hmem]
          simp [v]
        have : (s i : ℂ) ≠ 0 := by exact_mod_cast h0
        rw [h1]; field_simp
    calc M = M * (V * Vᴴ) := by rw [hVV', Matrix.mul_one]
      _ = U * rdiag s * Vᴴ := by rw [← Matrix.mul_assoc, key]
  · ext i j
    have := (orthonormal_iff_ite.mp b.orthonormal) (Fin.castLE hl i) (Fin.castLE hl j)
    rw [PiLp.inner_apply] at this
    simp only [Matrix.mul_apply, conjTranspose_apply, U, Matrix.of_apply, Matrix.one_apply]
    have e : (Fin.castLE hl i = Fin.castLE hl j) ↔ i = j := (Fin.castLE_injective hl).eq_iff
    simp only [e] at this
    rw [← this]
    refine Finset.sum_congr rfl fun a _ => ?_
    simp [mul_comm]

/-- **Existence of the thin SVD**, with descending singular values. -/
theorem exists_svd {m l : ℕ} (M : Matrix (Fin m) (Fin l) ℂ) :
    ∃ (U : Matrix (Fin m) (Fin (min m l)) ℂ) (s : Fin (min m l) → ℝ) (V : Matrix (Fin l) (Fin (min m l)) ℂ),
      IsSVD M U s V ∧ Antitone s := by
  have key : ∀ k, k = min m l → ∃ (U : Matrix (Fin m) (Fin k) ℂ) (s : Fin k → ℝ)
      (V : Matrix (Fin l) (Fin k) ℂ), IsSVD M U s V := by
    intro k hk
    rcases le_total l m with h | h
    · obtain rfl : k = l := by omega
      exact exists_svd_tall h M
    · obtain rfl : k = m := by omega
      obtain ⟨U, s, V, d⟩ := exists_svd_tall h Mᴴ
      have := isSVD_conjTranspose d
      rw [conjTranspose_conjTranspose] at this
      exact ⟨V, s, U, this⟩
  obtain ⟨U, s, V, d⟩ := key _ rfl
  let σ := Tuple.sort fun i => -s i
  refine ⟨_, _, _, isSVD_perm d σ, fun i j hij => ?_⟩
  have := Tuple.monotone_sort (fun i => -s i) hij
  simp only [Function.comp] at this ⊢
  exact neg_le_neg_iff.mp this

end Verif.LinAlg
