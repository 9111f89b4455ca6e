import Verif.Model.Lando
import Mathlib.Analysis.Calculus.FDeriv.Pi
import Mathlib.Analysis.Calculus.FDeriv.Pow
import Mathlib.Analysis.Calculus.FDeriv.Mul
import Mathlib.Analysis.Calculus.FDeriv.Add
import Mathlib.Analysis.SpecialFunctions.ExpDeriv
import Mathlib.Analysis.Normed.Module.FiniteDimension
import Mathlib.LinearAlgebra.Matrix.ToLin

/-!
# C49: LANDO splits the learnt model into bias, linear and nonlinear part
-/

set_option autoImplicit false

namespace Verif.Lando

open Matrix

variable {n j : Type} [Fintype n] [DecidableEq n] [Fintype j]

/-- The continuous linear map given by a matrix. -/
noncomputable def clm (A : Matrix n n ℝ) : (n → ℝ) →L[ℝ] (n → ℝ) :=
  LinearMap.toContinuousLinearMap A.mulVecLin

theorem clm_apply (A : Matrix n n ℝ) (v : n → ℝ) : clm A v = A *ᵥ v := rfl

/-- The continuous linear functional given by a vector. -/
noncomputable def cdot (g : n → ℝ) : (n → ℝ) →L[ℝ] ℝ :=
  LinearMap.toContinuousLinearMap (dotProductBilin ℝ ℝ g)

theorem cdot_apply (g v : n → ℝ) : cdot g v = g ⬝ᵥ v := rfl

/-- `g` is the gradient of `k(x, ·)` at `y`. -/
def IsGrad (k : Kernel) (x y g : n → ℝ) : Prop :=
  HasFDerivAt (fun z => k.eval x z) (cdot g) y

theorem hasFDerivAt_dot (x y : n → ℝ) : HasFDerivAt (fun z : n → ℝ => x ⬝ᵥ z) (cdot x) y :=
  (cdot x).hasFDerivAt

theorem isGrad_linear (x y : n → ℝ) : IsGrad .linear x y (Kernel.grad .linear x y) :=
  hasFDerivAt_dot x y

theorem isGrad_poly (g c : ℝ) (d : ℕ) (x y : n → ℝ) :
    IsGrad (.poly g c d) x y (Kernel.grad (.poly g c d) x y) := by
  have h := (((hasFDerivAt_dot x y).const_mul g).add_const c).pow d
  refine h.congr_fderiv (ContinuousLinearMap.ext fun v => ?_)
  simp only [_root_.smul_apply, cdot_apply, smul_eq_mul, nsmul_eq_mul, Kernel.grad,
    dotProduct, Finset.mul_sum]
  refine Finset.sum_congr rfl fun i _ => ?_
  rw [← Finset.mul_sum, add_comm c]
  ring

theorem isGrad_rbf (g : ℝ) (x y : n → ℝ) :
    IsGrad (.rbf g) x y (-Kernel.grad (.rbf g) x y) := by
  have hi : ∀ i ∈ (Finset.univ : Finset n), HasFDerivAt (fun z : n → ℝ => (x i - z i) ^ 2)
      ((2 • (x i - y i) ^ (2 - 1)) • (-(ContinuousLinearMap.proj (R := ℝ) (φ := fun _ : n => ℝ) i))) y :=
    fun i _ => ((hasFDerivAt_apply i y).const_sub (x i)).pow 2
  have h := ((HasFDerivAt.fun_sum hi).const_mul (-g)).exp
  refine h.congr_fderiv (ContinuousLinearMap.ext fun v => ?_)
  simp only [_root_.smul_apply, _root_.sum_apply, cdot_apply,
    smul_eq_mul, nsmul_eq_mul, Kernel.grad, dotProduct, Finset.mul_sum, Pi.neg_apply,
    ContinuousLinearMap.neg_apply, ContinuousLinearMap.proj_apply]
  refine Finset.sum_congr rfl fun i _ => ?_
  push_cast
  ring

/-- The derivative of the learnt model when `G a` is the gradient of the kernel for each dictionary
item `a`. -/
theorem hasFDerivAt_f (k : Kernel) (rho : n → ℝ) (D : j → n → ℝ) (W : Matrix n j ℝ)
    (xbar : n → ℝ) (G : j → n → ℝ) (hG : ∀ a, IsGrad k (D a) (rescale rho xbar) (G a)) :
    HasFDerivAt (f k rho D W) (clm (W * Matrix.of fun a i => G a i * rho i)) xbar := by
  rw [hasFDerivAt_pi']
  intro r
  have hR : HasFDerivAt (rescale rho) (clm (diagonal rho)) xbar := by
    refine HasFDerivAt.congr_of_eventuallyEq (clm (diagonal rho)).hasFDerivAt ?_
    refine Filter.Eventually.of_forall fun z => funext fun i => ?_
    rw [clm_apply, mulVec_diagonal, rescale, mul_comm]
  have ha : ∀ a ∈ (Finset.univ : Finset j), HasFDerivAt
      (fun z => W r a * k.eval (D a) (rescale rho z))
      (W r a • (cdot (G a)).comp (clm (diagonal rho))) xbar :=
    fun a _ => ((hG a).comp xbar hR).const_mul (W r a)
  refine (HasFDerivAt.fun_sum ha).congr_fderiv (ContinuousLinearMap.ext fun v => ?_)
  simp only [_root_.sum_apply, _root_.smul_apply,
    ContinuousLinearMap.comp_apply, ContinuousLinearMap.proj_apply, clm_apply, cdot_apply,
    smul_eq_mul, ← mulVec_mulVec]
  rw [mulVec, dotProduct]
  refine Finset.sum_congr rfl fun a _ => ?_
  congr 1
  rw [mulVec, dotProduct, dotProduct]
  refine Finset.sum_congr rfl fun i _ => ?_
  rw [mulVec_diagonal, Matrix.of_apply]
  ring

omit [DecidableEq n] in
/-- **C49 (splitting).** For every kernel, dictionary, weights, rescaling and base point, the learnt
model at `xbar + x` is the sum of the bias, the linear operator applied to `x`, and the value of
`nonlinear`; the nonlinear part vanishes at the base point. -/
theorem C49_split (k : Kernel) (rho : n → ℝ) (D : j → n → ℝ) (W : Matrix n j ℝ) (xbar x : n → ℝ) :
    f k rho D W (xbar + x)
        = bias k rho D W xbar + linear k rho D W xbar *ᵥ x + nonlinear k rho D W xbar x
      ∧ nonlinear k rho D W xbar 0 = 0 := by
  constructor
  · rw [nonlinear, linear, add_comm x xbar]
    abel
  · rw [nonlinear, bias, zero_add, mulVec_zero]
    abel

/-- The kernels whose gradient the code computes correctly. -/
def Kernel.exact : Kernel → Prop
  | .linear => True
  | .poly _ _ _ => True
  | .rbf _ => False

/-- **C49 (derivative), part.** For the linear and polynomial kernels (any parameters), the linear
part is the Fréchet derivative of the learnt model at the base point, including the factor of the
rescaling. The claim for the RBF kernel is false, see `C49_rbf_false`. -/
theorem C49_derivative_partial (k : Kernel) (hk : k.exact) (rho : n → ℝ) (D : j → n → ℝ)
    (W : Matrix n j ℝ) (xbar : n → ℝ) :
    HasFDerivAt (f k rho D W) (clm (linear k rho D W xbar)) xbar := by
  refine hasFDerivAt_f k rho D W xbar (fun a => k.grad (D a) (rescale rho xbar)) fun a => ?_
  cases k with
  | linear => exact isGrad_linear _ _
  | poly g c d => exact isGrad_poly g c d _ _
  | rbf g => exact absurd hk id

/-- **C49 (nonlinear remainder), part.** For the same kernels the nonlinear part is of second order:
its derivative at 0 vanishes. -/
theorem C49_nonlinear_partial (k : Kernel) (hk : k.exact) (rho : n → ℝ) (D : j → n → ℝ)
    (W : Matrix n j ℝ) (xbar : n → ℝ) :
    HasFDerivAt (nonlinear k rho D W xbar) (0 : (n → ℝ) →L[ℝ] (n → ℝ)) 0 := by
  have h := C49_derivative_partial k hk rho D W xbar
  have h1 : HasFDerivAt (fun x : n → ℝ => f k rho D W (x + xbar))
      (clm (linear k rho D W xbar)) 0 := by
    have h0 : HasFDerivAt (fun x : n → ℝ => x + xbar) (ContinuousLinearMap.id ℝ (n → ℝ)) 0 :=
      (hasFDerivAt_id 0).add_const xbar
    have := HasFDerivAt.comp (0 : n → ℝ) (f := fun x : n → ℝ => x + xbar)
      (g := f k rho D W) (by simpa using h) h0
    simpa using this
  have h2 := (h1.sub_const (bias k rho D W xbar)).sub
    (clm (W * kernelGrad k rho D xbar)).hasFDerivAt
  refine h2.congr_fderiv ?_
  exact sub_self _

/-- **C49 (RBF), what holds.** For the RBF kernel the derivative of the learnt model is the
*negative* of the linear part. -/
theorem C49_rbf_negated_partial (g : ℝ) (rho : n → ℝ) (D : j → n → ℝ) (W : Matrix n j ℝ)
    (xbar : n → ℝ) :
    HasFDerivAt (f (.rbf g) rho D W) (clm (-linear (.rbf g) rho D W xbar)) xbar := by
  have h := hasFDerivAt_f (.rbf g) rho D W xbar
    (fun a => -Kernel.grad (.rbf g) (D a) (rescale rho xbar)) fun a => isGrad_rbf g _ _
  have e : W * Matrix.of (fun a i => (-Kernel.grad (.rbf g) (D a) (rescale rho xbar)) i * rho i)
      = -linear (.rbf g) rho D W xbar := by
    rw [linear, kernelGrad, ← Matrix.mul_neg]
    congr 1
    ext a i
    simp [Matrix.of_apply]
  rw [e] at h
  exact h

/-- **C49 (RBF), negation.** One feature, one dictionary item 0, weight 1, `gamma = 1`, base point
1: the linear part is not the derivative of the learnt model. -/
theorem C49_rbf_false :
    ∃ (D : Unit → Unit → ℝ) (W : Matrix Unit Unit ℝ) (xbar : Unit → ℝ),
      ¬ HasFDerivAt (f (.rbf 1) (fun _ => 1) D W)
        (clm (linear (.rbf 1) (fun _ => 1) D W xbar)) xbar := by
  refine ⟨fun _ _ => 0, Matrix.of fun _ _ => 1, fun _ => 1, fun h => ?_⟩
  have h' := h.unique (C49_rbf_negated_partial 1 (fun _ => 1) (fun _ _ => 0)
    (Matrix.of fun _ _ => 1) fun _ => 1)
  have h2 := congrFun (congrArg (fun L => L (fun _ : Unit => (1 : ℝ))) h') ()
  simp [clm_apply, linear, kernelGrad, Kernel.grad, rescale, mulVec, dotProduct,
    Matrix.mul_apply] at h2
  have := Real.exp_pos (-1)
  linarith

/-- A case with a genuinely nonlinear model: `f(x) = (x + 1)^3` on one feature, with rescaling 2
(so `f(x) = (2x + 1)^3`); at base point 1 the linear part is 54. -/
example : linear (.poly 1 1 3) (fun _ : Unit => 2) (fun _ _ => 1) (Matrix.of fun _ (_ : Unit) => 1)
    (fun _ => 1) () () = 54 := by
  simp [linear, kernelGrad, Kernel.grad, rescale, dotProduct, Matrix.mul_apply]
  norm_num

example : (Kernel.poly 1 1 3).exact := trivial

end Verif.Lando
