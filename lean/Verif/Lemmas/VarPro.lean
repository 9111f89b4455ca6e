import Verif.Model.VarPro
import Verif.Lemmas.EckartYoung
import Verif.Lemmas.Compressed
import Mathlib.Analysis.Calculus.Deriv.Mul
import Mathlib.Analysis.SpecialFunctions.ExpDeriv
import Mathlib.Topology.Instances.Matrix
import Mathlib.LinearAlgebra.Matrix.NonsingularInverse
import Mathlib.Analysis.Calculus.Deriv.Slope

/-!
# Derivative of an orthogonal projection

For matrices `Φ` with independent columns: `Φ (Φᴴ Φ)⁻¹ Φᴴ` depends differentiably on `Φ`.
-/

set_option autoImplicit false

namespace Verif.VarPro

open Verif Verif.LinAlg Matrix Filter Topology

variable {m l n k : ℕ}

/-- Columns independent, in the form used here. -/
def Injective (Φ : Matrix (Fin m) (Fin l) ℂ) : Prop := ∀ v, Φ *ᵥ v = 0 → v = 0

/-- The left inverse `(Φᴴ Φ)⁻¹ Φᴴ`. -/
noncomputable def linv (Φ : Matrix (Fin m) (Fin l) ℂ) : Matrix (Fin l) (Fin m) ℂ := (Φᴴ * Φ)⁻¹ * Φᴴ

theorem gram_det {Φ : Matrix (Fin m) (Fin l) ℂ} (h : Injective Φ) : IsUnit (Φᴴ * Φ).det := by
  rw [isUnit_iff_ne_zero]
  intro h0
  obtain ⟨v, hv, e⟩ := Matrix.exists_mulVec_eq_zero_iff.mpr h0
  refine hv (h v ?_)
  rw [← normSq_eq_zero, ← Complex.ofReal_eq_zero, normSq_eq_dot]
  have : star (Φ *ᵥ v) ⬝ᵥ (Φ *ᵥ v) = star v ⬝ᵥ ((Φᴴ * Φ) *ᵥ v) := by
    rw [star_mulVec, ← dotProduct_mulVec, mulVec_mulVec]
  rw [this, e, dotProduct_zero]

theorem linv_mul {Φ : Matrix (Fin m) (Fin l) ℂ} (h : Injective Φ) : linv Φ * Φ = 1 := by
  rw [linv, Matrix.mul_assoc, Matrix.nonsing_inv_mul _ (gram_det h)]

theorem proj_herm (Φ : Matrix (Fin m) (Fin l) ℂ) : (Φ * linv Φ)ᴴ = Φ * linv Φ := by
  rw [linv, conjTranspose_mul, conjTranspose_mul, conjTranspose_conjTranspose, conjTranspose_nonsing_inv,
    conjTranspose_mul, conjTranspose_conjTranspose, Matrix.mul_assoc]

theorem tendsto_linv {ι : Type} {f : Filter ι} {Φ : ι → Matrix (Fin m) (Fin l) ℂ}
    {Φ₀ : Matrix (Fin m) (Fin l) ℂ} (h : Tendsto Φ f (𝓝 Φ₀)) (h0 : Injective Φ₀) :
    Tendsto (fun e => linv (Φ e)) f (𝓝 (linv Φ₀)) := by
  have hc : ContinuousAt (fun M : Matrix (Fin m) (Fin l) ℂ => linv M) Φ₀ := by
    have e : (fun M : Matrix (Fin m) (Fin l) ℂ => linv M) =
        fun M => ((Mᴴ * M).det)⁻¹ • (Mᴴ * M).adjugate * Mᴴ := by
      funext M
      rw [linv, Matrix.inv_def, Ring.inverse_eq_inv]
    rw [e]
    have c1 : Continuous fun M : Matrix (Fin m) (Fin l) ℂ => Mᴴ := continuous_id.matrix_conjTranspose
    have c2 : Continuous fun M : Matrix (Fin m) (Fin l) ℂ => Mᴴ * M := c1.matrix_mul continuous_id
    have c3 : ContinuousAt (fun M : Matrix (Fin m) (Fin l) ℂ => ((Mᴴ * M).det)⁻¹) Φ₀ :=
      c2.matrix_det.continuousAt.inv₀ (gram_det h0).ne_zero
    have c4 : Continuous fun M : Matrix (Fin m) (Fin l) ℂ => (Mᴴ * M).adjugate * Mᴴ :=
      c2.matrix_adjugate.matrix_mul c1
    simp only [Matrix.smul_mul]
    exact c3.smul c4.continuousAt
  exact hc.tendsto.comp h

theorem tendsto_matrix {ι a b : Type} {f : Filter ι} {A : ι → Matrix a b ℂ} {A₀ : Matrix a b ℂ} :
    Tendsto A f (𝓝 A₀) ↔ ∀ i j, Tendsto (fun e => A e i j) f (𝓝 (A₀ i j)) :=
  (tendsto_pi_nhds (A := fun _ : a => b → ℂ)).trans (forall_congr' fun _ => tendsto_pi_nhds)

theorem tendsto_mul {ι a b c : Type} [Fintype b] {f : Filter ι}
    {A : ι → Matrix a b ℂ} {B : ι → Matrix b c ℂ} {A₀ : Matrix a b ℂ} {B₀ : Matrix b c ℂ}
    (hA : Tendsto A f (𝓝 A₀)) (hB : Tendsto B f (𝓝 B₀)) :
    Tendsto (fun e => A e * B e) f (𝓝 (A₀ * B₀)) := by
  rw [tendsto_matrix] at *
  intro i j
  simp only [Matrix.mul_apply]
  exact tendsto_finsetSum _ fun x _ => (hA i x).mul (hB x j)

theorem tendsto_conjTranspose {ι a b : Type} {f : Filter ι}
    {A : ι → Matrix a b ℂ} {A₀ : Matrix a b ℂ} (hA : Tendsto A f (𝓝 A₀)) :
    Tendsto (fun e => (A e)ᴴ) f (𝓝 A₀ᴴ) :=
  ((continuous_id (X := Matrix a b ℂ)).matrix_conjTranspose.tendsto A₀).comp hA

/-- The difference of two projections. -/
theorem proj_sub {Φ Ψ : Matrix (Fin m) (Fin l) ℂ} (hΦ : Injective Φ) (hΨ : Injective Ψ) :
    Φ * linv Φ - Ψ * linv Ψ =
      (linv Φ)ᴴ * (Φ - Ψ)ᴴ * (1 - Ψ * linv Ψ) + (1 - Φ * linv Φ) * (Φ - Ψ) * linv Ψ := by
  have a : (linv Φ)ᴴ * Φᴴ = Φ * linv Φ := by rw [← conjTranspose_mul, proj_herm]
  have b : Ψᴴ * (1 - Ψ * linv Ψ) = 0 := by
    rw [← conjTranspose_inj, conjTranspose_mul, conjTranspose_sub, proj_herm, conjTranspose_one,
      conjTranspose_conjTranspose, Matrix.sub_mul, Matrix.mul_assoc, linv_mul hΨ]; simp
  have c : (1 - Φ * linv Φ) * Φ = 0 := by
    rw [Matrix.sub_mul, Matrix.mul_assoc, linv_mul hΦ]; simp
  rw [conjTranspose_sub, Matrix.mul_sub _ Φᴴ, Matrix.sub_mul _ _ (1 - Ψ * linv Ψ), a,
    Matrix.mul_assoc _ Ψᴴ, b, Matrix.mul_sub _ Φ Ψ, c]
  simp only [Matrix.mul_zero, sub_zero, zero_sub, Matrix.neg_mul, Matrix.sub_mul, Matrix.mul_sub,
    Matrix.one_mul, Matrix.mul_one, Matrix.mul_assoc]
  abel

theorem injective_eventually {Φ : ℝ → Matrix (Fin m) (Fin l) ℂ} (h : Tendsto Φ (𝓝 0) (𝓝 (Φ 0)))
    (h0 : Injective (Φ 0)) : ∀ᶠ e in 𝓝 (0 : ℝ), Injective (Φ e) := by
  have hd : Tendsto (fun e => ((Φ e)ᴴ * Φ e).det) (𝓝 0) (𝓝 ((Φ 0)ᴴ * Φ 0).det) := by
    have c : Continuous fun M : Matrix (Fin m) (Fin l) ℂ => (Mᴴ * M).det :=
      ((continuous_id.matrix_conjTranspose).matrix_mul continuous_id).matrix_det
    exact (c.tendsto _).comp h
  filter_upwards [hd.eventually_ne (gram_det h0).ne_zero] with e he v hv
  by_contra hne
  refine he (Matrix.exists_mulVec_eq_zero_iff.mp ⟨v, hne, ?_⟩)
  rw [← mulVec_mulVec, hv, mulVec_zero]

/-- **Derivative of the projection** along a curve of matrices. -/
theorem hasDerivAt_proj {Φ : ℝ → Matrix (Fin m) (Fin l) ℂ} {D : Matrix (Fin m) (Fin l) ℂ}
    (h : ∀ i j, HasDerivAt (fun e => Φ e i j) (D i j) 0) (h0 : Injective (Φ 0))
    (Y : Matrix (Fin m) (Fin n) ℂ) (i : Fin m) (c : Fin n) :
    HasDerivAt (fun e => (Φ e * linv (Φ e) * Y) i c)
      ((((linv (Φ 0))ᴴ * Dᴴ * (1 - Φ 0 * linv (Φ 0)) +
        (1 - Φ 0 * linv (Φ 0)) * D * linv (Φ 0)) * Y : Matrix (Fin m) (Fin n) ℂ) i c)
      0 := by
  have hcont : Tendsto Φ (𝓝 0) (𝓝 (Φ 0)) := by
    rw [tendsto_matrix]; intro i j
    exact (h i j).continuousAt.tendsto
  have hne : Tendsto Φ (𝓝[≠] 0) (𝓝 (Φ 0)) := hcont.mono_left nhdsWithin_le_nhds
  have hD : Tendsto (fun e : ℝ => e⁻¹ • (Φ e - Φ 0)) (𝓝[≠] 0) (𝓝 D) := by
    rw [tendsto_matrix]; intro i j
    have := hasDerivAt_iff_tendsto_slope.mp (h i j)
    refine this.congr' ?_
    filter_upwards with e
    simp [slope]
  have hl := tendsto_linv hne h0
  have key : Tendsto (fun e : ℝ => e⁻¹ • (Φ e * linv (Φ e) - Φ 0 * linv (Φ 0))) (𝓝[≠] 0)
      (𝓝 ((linv (Φ 0))ᴴ * Dᴴ * (1 - Φ 0 * linv (Φ 0)) + (1 - Φ 0 * linv (Φ 0)) * D * linv (Φ 0))) := by
    have t1 := tendsto_mul (tendsto_mul (tendsto_conjTranspose hl) (tendsto_conjTranspose hD))
      (tendsto_const_nhds (x := (1 - Φ 0 * linv (Φ 0))))
    have t2 := tendsto_mul (tendsto_mul ((tendsto_const_nhds (x := (1 : Matrix (Fin m) (Fin m) ℂ))).sub
      (tendsto_mul hne hl)) hD) (tendsto_const_nhds (x := linv (Φ 0)))
    refine (t1.add t2).congr' ?_
    filter_upwards [(injective_eventually hcont h0).filter_mono nhdsWithin_le_nhds] with e he
    rw [proj_sub he h0, smul_add]
    simp only [conjTranspose_smul, Matrix.mul_smul, Matrix.smul_mul, star_trivial]
  rw [hasDerivAt_iff_tendsto_slope]
  have t := tendsto_mul key (tendsto_const_nhds (x := Y))
  rw [tendsto_matrix] at t
  refine (t i c).congr' ?_
  filter_upwards with e
  rw [Matrix.smul_mul, Matrix.sub_mul]
  simp [slope]

/-- For independent columns all singular values of a thin SVD are nonzero. -/
theorem svd_ne_zero {Φ : Matrix (Fin m) (Fin l) ℂ} (h : Injective Φ) {U : Matrix (Fin m) (Fin k) ℂ}
    {s : Fin k → ℝ} {V : Matrix (Fin l) (Fin k) ℂ} (d : IsSVD Φ U s V) (i : Fin k) : s i ≠ 0 := by
  intro h0
  have e : Φ *ᵥ (V *ᵥ Pi.single i 1) = 0 := by
    rw [d.eq, ← mulVec_mulVec, mulVec_mulVec _ Vᴴ, d.v, one_mulVec, ← mulVec_mulVec]
    have : rdiag s *ᵥ Pi.single i 1 = 0 := by
      funext j
      rw [rdiag, mulVec_diagonal]
      by_cases hj : j = i
      · subst hj; simp [h0]
      · simp [hj]
    rw [this, mulVec_zero]
  have e2 := congrArg (fun v => Vᴴ *ᵥ v) (h _ e)
  simp only [mulVec_mulVec, d.v, one_mulVec, mulVec_zero] at e2
  have := congrFun e2 i
  simp at this

theorem svd_linv {Φ : Matrix (Fin m) (Fin l) ℂ} (h : Injective Φ) {U : Matrix (Fin m) (Fin k) ℂ}
    {s : Fin k → ℝ} {V : Matrix (Fin l) (Fin k) ℂ} (d : IsSVD Φ U s V) :
    U * Uᴴ = Φ * linv Φ ∧ V * (rdiag fun i => (s i)⁻¹) * Uᴴ = linv Φ := by
  have hs := svd_ne_zero h d
  have hU : U = Φ * V * rdiag fun i => (s i)⁻¹ := by
    rw [Compressed.svd_mul_v d.eq d.v hs]
  have a : Φ * linv Φ * U = U := by
    conv_lhs => rw [hU]
    rw [← Matrix.mul_assoc, ← Matrix.mul_assoc, Matrix.mul_assoc Φ, linv_mul h, Matrix.mul_one, ← hU]
  have b : U * Uᴴ * Φ = Φ := Compressed.svd_left d.eq d.u
  have e1 : U * Uᴴ = Φ * linv Φ := by
    have x : Φ * linv Φ * (U * Uᴴ) = U * Uᴴ := by rw [← Matrix.mul_assoc, a]
    have y : U * Uᴴ * (Φ * linv Φ) = Φ * linv Φ := by rw [← Matrix.mul_assoc, b]
    have z := congrArg conjTranspose y
    rw [conjTranspose_mul, proj_herm, conjTranspose_mul, conjTranspose_conjTranspose, x] at z
    exact z
  refine ⟨e1, ?_⟩
  have e2 : Φ * (V * (rdiag fun i => (s i)⁻¹) * Uᴴ) = Φ * linv Φ := by
    rw [← e1, ← Matrix.mul_assoc, ← Matrix.mul_assoc, ← hU]
  have := congrArg (fun M => linv Φ * M) e2
  simpa only [← Matrix.mul_assoc, linv_mul h, Matrix.one_mul] using this

end Verif.VarPro
