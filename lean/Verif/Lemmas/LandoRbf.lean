import Verif.Lemmas.Lando
import Mathlib.Analysis.SpecialFunctions.Gaussian.FourierTransform
import Mathlib.MeasureTheory.Function.L2Space
import Mathlib.MeasureTheory.Measure.Haar.InnerProductSpace
import Mathlib.Tactic

/-! The radial basis function kernel is an inner product of features: Gaussians in the square-integrable functions. -/

set_option autoImplicit false

namespace Verif.Lando

open MeasureTheory
open scoped RealInnerProductSpace

variable {n : Type} [Fintype n]

/-- A Gaussian about `x`. -/
noncomputable def bump (g : ℝ) (x t : EuclideanSpace ℝ n) : ℝ := Real.exp (-(2 * g) * ‖t - x‖ ^ 2)

theorem bump_mul (g : ℝ) (x y t : EuclideanSpace ℝ n) :
    bump g x t * bump g y t = Real.exp (-g * ‖x - y‖ ^ 2) * Real.exp (-(4 * g) * ‖t - (1 / 2 : ℝ) • (x + y)‖ ^ 2) := by
  rw [bump, bump, ← Real.exp_add, ← Real.exp_add]
  congr 1
  have h1 : t - x = (t - (1 / 2 : ℝ) • (x + y)) - (1 / 2 : ℝ) • (x - y) := by module
  have h2 : t - y = (t - (1 / 2 : ℝ) • (x + y)) + (1 / 2 : ℝ) • (x - y) := by module
  rw [h1, h2, norm_sub_sq_real, norm_add_sq_real, norm_smul, mul_pow]
  norm_num
  ring

theorem integrable_gauss {b : ℝ} (hb : 0 < b) : Integrable fun t : EuclideanSpace ℝ n => Real.exp (-b * ‖t‖ ^ 2) := by
  have h := (GaussianFourier.integrable_cexp_neg_mul_sq_norm_add (V := EuclideanSpace ℝ n) (b := (b : ℂ))
    (by simpa using hb) 0 0).re
  refine h.congr (Filter.Eventually.of_forall fun t => ?_)
  have e : -(b : ℂ) * (‖t‖ : ℂ) ^ 2 + 0 * ((⟪(0 : EuclideanSpace ℝ n), t⟫ : ℝ) : ℂ) = ((-b * ‖t‖ ^ 2 : ℝ) : ℂ) := by
    push_cast; ring
  simp only [e]
  exact Complex.exp_ofReal_re _

theorem bump_memLp {g : ℝ} (hg : 0 < g) (x : EuclideanSpace ℝ n) : MemLp (bump g x) 2 (volume : Measure _) := by
  have hc : Continuous (bump g x) := by unfold bump; fun_prop
  refine (memLp_two_iff_integrable_sq hc.aestronglyMeasurable).mpr ?_
  have h := (integrable_gauss (n := n) (b := 4 * g) (by positivity)).comp_sub_right x
  refine h.congr (Filter.Eventually.of_forall fun t => ?_)
  simp only [bump, ← Real.exp_nat_mul]
  congr 1
  push_cast
  ring

/-- The kernel `rbf` is the kernel of a feature map. -/
theorem rbf_eval {g : ℝ} (hg : 0 < g) : ∃ ψ : (n → ℝ) → Lp ℝ 2 (volume : Measure (EuclideanSpace ℝ n)),
    ((Kernel.rbf g).eval : (n → ℝ) → (n → ℝ) → ℝ) = kOf ψ := by
  set I := ∫ t : EuclideanSpace ℝ n, Real.exp (-(4 * g) * ‖t‖ ^ 2) with hI
  have hpos : 0 < I := by
    rw [hI, GaussianFourier.integral_rexp_neg_mul_sq_norm (by positivity)]
    positivity
  refine ⟨fun x => (√I)⁻¹ • (bump_memLp hg (WithLp.toLp 2 x)).toLp _, ?_⟩
  funext x y
  rw [kOf, real_inner_smul_left, real_inner_smul_right, L2.inner_def]
  have h1 : ∫ t, ⟪((bump_memLp hg (WithLp.toLp 2 x)).toLp _ : Lp ℝ 2 (volume : Measure (EuclideanSpace ℝ n))) t,
      ((bump_memLp hg (WithLp.toLp 2 y)).toLp _ : Lp ℝ 2 (volume : Measure (EuclideanSpace ℝ n))) t⟫
      = Real.exp (-g * ‖WithLp.toLp 2 x - WithLp.toLp 2 y‖ ^ 2) * I := by
    rw [hI, ← integral_sub_right_eq_self (fun t : EuclideanSpace ℝ n => Real.exp (-(4 * g) * ‖t‖ ^ 2)) ((1 / 2 : ℝ) • (WithLp.toLp 2 x + WithLp.toLp 2 y)),
      ← integral_const_mul]
    refine integral_congr_ae ?_
    filter_upwards [(bump_memLp hg (WithLp.toLp 2 x)).coeFn_toLp, (bump_memLp hg (WithLp.toLp 2 y)).coeFn_toLp] with t h1 h2
    rw [h1, h2, ← bump_mul]
    simp [mul_comm]
  rw [h1, Kernel.eval, EuclideanSpace.norm_sq_eq]
  have h2 : (√I)⁻¹ * ((√I)⁻¹ * I) = 1 := by
    have := Real.mul_self_sqrt hpos.le
    have h3 : √I ≠ 0 := (Real.sqrt_pos.mpr hpos).ne'
    field_simp
    nlinarith
  simp only [PiLp.sub_apply, Real.norm_eq_abs, sq_abs]
  linear_combination (-(Real.exp (-g * ∑ i, (x i - y i) ^ 2))) * h2

end Verif.Lando
