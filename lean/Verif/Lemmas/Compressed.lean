import Verif.Model.Compressed
import Verif.Lemmas.LinAlg
import Mathlib.Analysis.InnerProductSpace.PiL2
import Mathlib.LinearAlgebra.Matrix.Charpoly.Coeff
import Mathlib.LinearAlgebra.Matrix.Rank

/-! Helper lemmas for `CDMD` and `RDMD`. -/

set_option autoImplicit false

namespace Verif.Compressed

open Verif Verif.LinAlg Matrix

/-- Assumed of `np.linalg.qr`: orthonormal columns spanning the columns of the argument. -/
def IsQr (qr : QrFun) : Prop :=
  ∀ (a b : ℕ) (M : Matrix (Fin a) (Fin b) ℂ), (qr a b M)ᴴ * qr a b M = 1 ∧
    ∃ R : Matrix (Fin (min a b)) (Fin b) ℂ, M = qr a b M * R

/-- A matrix whose action on all vectors vanishes is zero. -/
theorem eq_zero_of_mulVec {a b : Type} [Fintype b] [DecidableEq b] (M : Matrix a b ℂ)
    (h : ∀ v, M *ᵥ v = 0) : M = 0 := by
  ext i j
  have := congrFun (h (Pi.single j 1)) i
  simpa using this

section svd

variable {m n k : Type} [Fintype m] [Fintype n] [Fintype k] [DecidableEq n]
  {r r' : ℕ} {X : Matrix m n ℂ} {U : Matrix m (Fin r) ℂ} {s : Fin r → ℝ} {V : Matrix n (Fin r) ℂ}

omit [Fintype m] [DecidableEq n] in
theorem svd_mul_v (h : X = U * rdiag s * Vᴴ) (hv : Vᴴ * V = 1) (hs : ∀ i, s i ≠ 0) :
    X * V * rdiag (fun i => (s i)⁻¹) = U := by
  rw [h, Matrix.mul_assoc _ Vᴴ V, hv, Matrix.mul_one, Matrix.mul_assoc, rdiag_mul_inv s hs,
    Matrix.mul_one]

omit [DecidableEq n] [Fintype m] in
theorem svd_proj (h : X = U * rdiag s * Vᴴ) (hv : Vᴴ * V = 1) : X * (V * Vᴴ) = X := by
  rw [h]
  calc U * rdiag s * Vᴴ * (V * Vᴴ) = U * rdiag s * (Vᴴ * V) * Vᴴ := by simp only [Matrix.mul_assoc]
    _ = _ := by rw [hv, Matrix.mul_one]

omit [DecidableEq n] [Fintype n] in
theorem svd_left (h : X = U * rdiag s * Vᴴ) (hu : Uᴴ * U = 1) : U * Uᴴ * X = X := by
  rw [h]
  calc U * Uᴴ * (U * rdiag s * Vᴴ) = U * (Uᴴ * U) * rdiag s * Vᴴ := by simp only [Matrix.mul_assoc]
    _ = _ := by rw [hu, Matrix.mul_one]

/-- Compression that is injective on the data keeps its row space. -/
theorem proj_of_injective {C : Matrix k m ℂ} (hC : ∀ v, C *ᵥ (X *ᵥ v) = 0 → X *ᵥ v = 0)
    {V' : Matrix n (Fin r') ℂ} (hV : (C * X) * (V' * V'ᴴ) = C * X) : X * (V' * V'ᴴ) = X := by
  have : X * (V' * V'ᴴ - 1) = 0 := by
    refine eq_zero_of_mulVec _ fun v => ?_
    rw [← mulVec_mulVec]
    apply hC
    rw [mulVec_mulVec, mulVec_mulVec, Matrix.mul_sub, hV, Matrix.mul_one,
      sub_self, zero_mulVec]
  rwa [Matrix.mul_sub, Matrix.mul_one, sub_eq_zero] at this

/-- The change of basis between the reduced coordinates of the data and of the compressed data. -/
theorem exists_change {C : Matrix k m ℂ} (hC : ∀ v, C *ᵥ (X *ᵥ v) = 0 → X *ᵥ v = 0)
    (h : IsSVD X U s V) (hs : ∀ i, s i ≠ 0) {U' : Matrix k (Fin r') ℂ} {s' : Fin r' → ℝ}
    {V' : Matrix n (Fin r') ℂ} (h' : IsSVD (C * X) U' s' V') (hs' : ∀ i, s' i ≠ 0) :
    ∃ (T : Matrix (Fin r') (Fin r) ℂ) (T' : Matrix (Fin r) (Fin r') ℂ), T * T' = 1 ∧ T' * T = 1 ∧
      T = U'ᴴ * C * U ∧ T' = rdiag s * Vᴴ * V' * rdiag (fun i => (s' i)⁻¹) := by
  have hX : X * (V' * V'ᴴ) = X := proj_of_injective hC (svd_proj h'.eq h'.v)
  have hVV : V' * V'ᴴ * V * rdiag s = V * rdiag s := by
    have h1 : Uᴴ * X = rdiag s * Vᴴ := by
      rw [h.eq, ← Matrix.mul_assoc, ← Matrix.mul_assoc, h.u, Matrix.one_mul]
    have h2 : rdiag s * Vᴴ * (V' * V'ᴴ) = rdiag s * Vᴴ := by
      rw [← h1, Matrix.mul_assoc, hX]
    have := congrArg conjTranspose h2
    simpa [conjTranspose_mul, rdiag_conjTranspose, Matrix.mul_assoc] using this
  have hVV' : V' * V'ᴴ * V = V := by
    have := congrArg (· * rdiag fun i => (s i)⁻¹) hVV
    simpa [Matrix.mul_assoc, rdiag_mul_inv s hs] using this
  have hU : X * V * rdiag (fun i => (s i)⁻¹) = U := svd_mul_v h.eq h.v hs
  have hCX : U'ᴴ * (C * X) = rdiag s' * V'ᴴ := by
    conv_lhs => rw [h'.eq]
    rw [← Matrix.mul_assoc, ← Matrix.mul_assoc, h'.u, Matrix.one_mul]
  refine ⟨_, _, ?_, ?_, rfl, rfl⟩
  · have e : U * (rdiag s * Vᴴ) = X := by rw [h.eq, Matrix.mul_assoc]
    calc U'ᴴ * C * U * (rdiag s * Vᴴ * V' * rdiag fun i => (s' i)⁻¹)
        = U'ᴴ * (C * (U * (rdiag s * Vᴴ))) * V' * rdiag (fun i => (s' i)⁻¹) := by
          simp only [Matrix.mul_assoc]
      _ = rdiag s' * (V'ᴴ * V') * rdiag (fun i => (s' i)⁻¹) := by
          rw [e, hCX]; simp only [Matrix.mul_assoc]
      _ = 1 := by rw [h'.v, Matrix.mul_one, rdiag_mul_inv s' hs']
  · calc rdiag s * Vᴴ * V' * rdiag (fun i => (s' i)⁻¹) * (U'ᴴ * C * U)
        = rdiag s * Vᴴ * V' * rdiag (fun i => (s' i)⁻¹) *
            (U'ᴴ * (C * X)) * V * rdiag (fun i => (s i)⁻¹) := by
          rw [← hU]; simp only [Matrix.mul_assoc]
      _ = rdiag s * Vᴴ * V' * (rdiag (fun i => (s' i)⁻¹) * rdiag s') * V'ᴴ * V *
            rdiag (fun i => (s i)⁻¹) := by
          rw [hCX]; simp only [Matrix.mul_assoc]
      _ = rdiag s * Vᴴ * (V' * V'ᴴ * V) * rdiag (fun i => (s i)⁻¹) := by
          rw [rdiag_inv_mul s' hs', Matrix.mul_one]; simp only [Matrix.mul_assoc]
      _ = 1 := by
          rw [hVV', Matrix.mul_assoc (rdiag s), h.v, Matrix.mul_one, rdiag_mul_inv s hs]

end svd

/-! ### The QB decomposition -/

section rqb

variable {qr : QrFun} (hqr : IsQr qr) {n t : ℕ} (X : Matrix (Fin n) (Fin t) ℂ)

include hqr

theorem qr_proj {a b : ℕ} (M : Matrix (Fin a) (Fin b) ℂ) :
    qr a b M * (qr a b M)ᴴ * M = M := by
  obtain ⟨hq, R, hR⟩ := hqr a b M
  generalize qr a b M = Q at *
  rw [hR, Matrix.mul_assoc, ← Matrix.mul_assoc Qᴴ, hq, Matrix.one_mul]

/-- As long as the columns of `X` are combinations of those of the sampling matrix, they stay so
during the power iterations. -/
theorem powerIterations_captures : ∀ (p : ℕ) (Y : Σ l, Matrix (Fin n) (Fin l) ℂ),
    (∃ G : Matrix (Fin Y.1) (Fin t) ℂ, X = Y.2 * G) →
    ∃ G : Matrix (Fin (powerIterations qr X p Y).1) (Fin t) ℂ, X = (powerIterations qr X p Y).2 * G
  | 0, _, h => h
  | p + 1, Y, ⟨G, hG⟩ => by
    refine powerIterations_captures p _ ?_
    have h1 : qr n Y.1 Y.2 * (qr n Y.1 Y.2)ᴴ * X = X := by
      conv_lhs => rw [hG]
      rw [← Matrix.mul_assoc, qr_proj hqr, ← hG]
    have h2 := qr_proj hqr (Xᴴ * qr n Y.1 Y.2)
    generalize hZ : qr t (min n Y.1) (Xᴴ * qr n Y.1 Y.2) = Z at h2
    refine ⟨Zᴴ, ?_⟩
    have h3 : Xᴴ * qr n Y.1 Y.2 * (qr n Y.1 Y.2)ᴴ = Xᴴ := by
      have := congrArg conjTranspose h1
      simpa [conjTranspose_mul, Matrix.mul_assoc] using this
    have h4 : Z * Zᴴ * Xᴴ = Xᴴ := by
      have := congrArg (· * (qr n Y.1 Y.2)ᴴ) h2
      rwa [Matrix.mul_assoc (Z * Zᴴ), h3] at this
    have := congrArg conjTranspose h4
    simpa [conjTranspose_mul, Matrix.mul_assoc, hZ] using this.symm

/-- The basis found by `compute_rqb` has orthonormal columns. -/
theorem rqbQ_orth {l : ℕ} (T : Matrix (Fin t) (Fin l) ℂ) (p : ℕ) :
    (rqbQ qr X T p).2ᴴ * (rqbQ qr X T p).2 = 1 := (hqr _ _ _).1

/-- It captures the data if the sketch `X T` does. -/
theorem rqbQ_captures {l : ℕ} (T : Matrix (Fin t) (Fin l) ℂ) (p : ℕ)
    (hT : ∃ G : Matrix (Fin l) (Fin t) ℂ, X = X * T * G) :
    (rqbQ qr X T p).2 * (rqbQ qr X T p).2ᴴ * X = X := by
  obtain ⟨G, hG⟩ := powerIterations_captures hqr X p ⟨l, X * T⟩ hT
  have := qr_proj hqr (powerIterations qr X p ⟨l, X * T⟩).2
  change qr n _ (powerIterations qr X p ⟨l, X * T⟩).2 *
    (qr n _ (powerIterations qr X p ⟨l, X * T⟩).2)ᴴ * X = X
  generalize powerIterations qr X p ⟨l, X * T⟩ = Y at *
  rw [hG, ← Matrix.mul_assoc, this]

end rqb

/-- Reduced QR decompositions exist, so the assumption on `np.linalg.qr` can be met. -/
theorem exists_isQr : ∃ qr : QrFun, IsQr qr := by
  have key : ∀ (a b : ℕ) (M : Matrix (Fin a) (Fin b) ℂ), ∃ Q : Matrix (Fin a) (Fin (min a b)) ℂ,
      Qᴴ * Q = 1 ∧ ∃ R : Matrix (Fin (min a b)) (Fin b) ℂ, M = Q * R := by
    intro a b M
    let E := EuclideanSpace ℂ (Fin a)
    let col : Fin b → E := fun j => WithLp.toLp 2 fun i => M i j
    let S : Submodule ℂ E := Submodule.span ℂ (Set.range col)
    have hb : Module.finrank ℂ S ≤ b := by
      have := finrank_range_le_card (R := ℂ) col
      rwa [Fintype.card_fin] at this
    have ha : Module.finrank ℂ S ≤ a := by
      simpa [E] using Submodule.finrank_le S
    let d := Module.finrank ℂ S
    let e := stdOrthonormalBasis ℂ S
    let v : Fin a → E := fun i => if h : (i : ℕ) < d then (e ⟨i, h⟩ : E) else 0
    let s : Set (Fin a) := {i | (i : ℕ) < d}
    have hv : Orthonormal ℂ (s.domRestrict v) := by
      rw [orthonormal_iff_ite]
      rintro ⟨i, hi⟩ ⟨j, hj⟩
      have hi' : (i : ℕ) < d := hi
      have hj' : (j : ℕ) < d := hj
      have := (orthonormal_iff_ite.mp e.orthonormal) ⟨i, hi'⟩ ⟨j, hj'⟩
      have e1 : s.domRestrict v ⟨i, hi⟩ = (e ⟨i, hi'⟩ : E) := by
        simp only [Set.domRestrict_apply, v, hi', dif_pos]
      have e2 : s.domRestrict v ⟨j, hj⟩ = (e ⟨j, hj'⟩ : E) := by
        simp only [Set.domRestrict_apply, v, hj', dif_pos]
      rw [e1, e2, ← Submodule.coe_inner, this]
      simp [Fin.ext_iff, Subtype.ext_iff]
    obtain ⟨o, ho⟩ := hv.exists_orthonormalBasis_extension_of_card_eq (by simp [E])
    have hd : d ≤ min a b := le_min ha hb
    have hperp : ∀ j : Fin a, ¬ (j : ℕ) < d → ∀ x ∈ S, inner ℂ (o j) x = 0 := by
      intro j hj x hx
      have hx' : x = ∑ i, e.repr ⟨x, hx⟩ i • (e i : E) := by
        have := congrArg (Subtype.val) (e.sum_repr ⟨x, hx⟩)
        simpa using this.symm
      rw [hx', inner_sum]
      refine Finset.sum_eq_zero fun i _ => ?_
      have hi : (⟨i, lt_of_lt_of_le i.2 ha⟩ : Fin a) ∈ s := i.2
      have hoi : o ⟨i, lt_of_lt_of_le i.2 ha⟩ = (e i : E) := by
        rw [ho _ hi]
        simp only [v, show ((i : ℕ) < d) from i.2, dif_pos]
      rw [inner_smul_right, ← hoi, o.inner_eq_ite, if_neg, mul_zero]
      intro h
      rw [h] at hj
      exact hj i.2
    refine ⟨Matrix.of fun i j => o (Fin.castLE (min_le_left a b) j) i, ?_,
      Matrix.of fun j c => inner ℂ (o (Fin.castLE (min_le_left a b) j)) (col c), ?_⟩
    · ext i j
      have := o.inner_eq_ite (Fin.castLE (min_le_left a b) i) (Fin.castLE (min_le_left a b) j)
      rw [PiLp.inner_apply] at this
      simp only [Matrix.mul_apply, conjTranspose_apply, Matrix.of_apply, Matrix.one_apply]
      rw [show (∑ x, star (o (Fin.castLE (min_le_left a b) i) x) *
        o (Fin.castLE (min_le_left a b) j) x) = if Fin.castLE (min_le_left a b) i =
          Fin.castLE (min_le_left a b) j then 1 else 0 by
        rw [← this]; refine Finset.sum_congr rfl fun x _ => ?_
        simp [mul_comm]]
      simp [Fin.ext_iff]
    · ext i c
      have hc : col c ∈ S := Submodule.subset_span ⟨c, rfl⟩
      have h1 := congrArg (fun z : E => z i) (o.sum_repr' (col c))
      have h2 : (∑ j, inner ℂ (o j) (col c) • o j : E) i =
          ∑ j, inner ℂ (o j) (col c) * (o j) i := by
        rw [show (∑ j, inner ℂ (o j) (col c) • o j : E).ofLp i =
          EuclideanSpace.projₗ (𝕜 := ℂ) i (∑ j, inner ℂ (o j) (col c) • o j) from rfl, map_sum]
        refine Finset.sum_congr rfl fun j _ => ?_
        rw [map_smul]
        rfl
      simp only at h1
      rw [h2] at h1
      simp only [Matrix.mul_apply, Matrix.of_apply]
      change col c i = _
      rw [← h1]
      symm
      refine Finset.sum_of_injOn (Fin.castLE (min_le_left a b))
        (fun x _ y _ h => Fin.castLE_injective _ h) (fun _ _ => Finset.mem_coe.2 (Finset.mem_univ _)) ?_ ?_
      · intro j _ hj
        rw [hperp j _ _ hc, zero_mul]
        intro hjd
        exact hj ⟨⟨j, lt_of_lt_of_le hjd hd⟩, by simp, by ext; simp⟩
      · intro j _
        rw [mul_comm]
  choose q hq using key
  exact ⟨q, hq⟩

end Verif.Compressed
