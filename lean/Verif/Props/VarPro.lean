import Verif.Lemmas.VarPro
import Verif.Lemmas.SvdExists
import Mathlib.Analysis.Calculus.Deriv.Pow
import Mathlib.Analysis.Calculus.Deriv.Pi
import Mathlib.LinearAlgebra.Vandermonde
import Mathlib.Analysis.Calculus.Deriv.Inv

/-!
# Properties C87, C88: variable projection

`Injective` (independent columns, `Verif.Lemmas.VarPro`) is the only notion used from the lemmas.
-/

set_option autoImplicit false

namespace Verif.VarPro

open Verif Verif.LinAlg Matrix Filter Topology

variable {m l n k : ℕ}

/-! ### The residual -/

theorem mul_sPhiInv (s : Fin k → ℝ) (hs : ∀ i, s i ≠ 0) : sPhiInv s = fun i => (s i)⁻¹ := by
  funext i; simp [sPhiInv, hs i]

/-- **C87** (elimination of the coefficients). If the singular values of the matrix of exponentials
are not zero, the residual of `_compute_dmd_rho` is the error of the stored coefficients
`b_matrix`, and no other coefficients have a smaller error. -/
theorem C87_residual (time : Fin m → ℝ) (data : Matrix (Fin m) (Fin n) ℂ) (α : Fin l → ℂ)
    (d : Svd (phi time α)) (hs : ∀ i, d.s i ≠ 0) :
    (helper time data α d).rho =
      data - (Matrix.of fun i j => Complex.exp (time i * α j)) * (helper time data α d).b ∧
    ∀ B : Matrix (Fin l) (Fin n) ℂ, frobSq (helper time data α d).rho ≤
      frobSq (data - (Matrix.of fun i j => Complex.exp (time i * α j)) * B) := by
  have e : (Matrix.of fun i j => Complex.exp (time i * α j) : Matrix (Fin m) (Fin l) ℂ) = phi time α := rfl
  rw [e]
  constructor
  · simp only [helper, mul_sPhiInv d.s hs]
    have h : phi time α * (d.V * rdiag (fun i => (d.s i)⁻¹) * d.Uᴴ * data) =
        phi time α * d.V * rdiag (fun i => (d.s i)⁻¹) * d.Uᴴ * data := by
      simp only [Matrix.mul_assoc]
    rw [h, Compressed.svd_mul_v d.isSVD.eq d.isSVD.v hs]
  · intro B
    have h : phi time α * B = d.U * (rdiag d.s * d.Vᴴ * B) := by
      conv_lhs => rw [d.isSVD.eq]
      simp only [Matrix.mul_assoc]
    simp only [helper]
    rw [h, Matrix.mul_assoc]
    have := frobSq_proj d.isSVD.u data (rdiag d.s * d.Vᴴ * B)
    have h0 := frobSq_nonneg (d.Uᴴ * data - rdiag d.s * d.Vᴴ * B)
    linarith

/-- The sum of squares seen by `least_squares` is the squared Frobenius norm. -/
theorem sum_flat (R : Matrix (Fin m) (Fin n) ℂ) : ∑ p, flat R p ^ 2 = frobSq R := by
  simp only [Fintype.sum_sum_type, flat, Fintype.sum_prod_type, frobSq, Complex.normSq_apply]
  rw [← Finset.sum_add_distrib]
  refine Finset.sum_congr rfl fun i _ => ?_
  rw [← Finset.sum_add_distrib]
  refine Finset.sum_congr rfl fun j _ => ?_
  ring

/-- **C87** (joint optimality). If `a` minimises the sum of squares that `least_squares` is given,
then its exponents with the stored coefficients minimise the error over all exponents and all
coefficients together. -/
theorem C87_joint (time : Fin m → ℝ) (data : Matrix (Fin m) (Fin n) ℂ)
    (lib : ∀ α : Fin l → ℂ, Svd (phi time α)) (a : Fin l ⊕ Fin l → ℝ)
    (hs : ∀ i, (lib (complexAlphas a)).s i ≠ 0)
    (hmin : ∀ a', ∑ p, residual time data lib a p ^ 2 ≤ ∑ p, residual time data lib a' p ^ 2)
    (β : Fin l → ℂ) (B : Matrix (Fin l) (Fin n) ℂ) :
    frobSq (data - (Matrix.of fun i j => Complex.exp (time i * (⟨a (.inl j), a (.inr j)⟩ : ℂ))) *
      (helper time data (complexAlphas a) (lib (complexAlphas a))).b) ≤
    frobSq (data - (Matrix.of fun i j => Complex.exp (time i * β j)) * B) := by
  have h1 := (C87_residual time data (complexAlphas a) (lib (complexAlphas a)) hs).1
  have e1 : (data - (Matrix.of fun i j => Complex.exp (time i * (⟨a (.inl j), a (.inr j)⟩ : ℂ))) *
      (helper time data (complexAlphas a) (lib (complexAlphas a))).b) =
      (helper time data (complexAlphas a) (lib (complexAlphas a))).rho := h1.symm
  rw [e1, ← sum_flat]
  let a' : Fin l ⊕ Fin l → ℝ := Sum.elim (fun j => (β j).re) (fun j => (β j).im)
  have e2 : complexAlphas a' = β := by funext j; simp [complexAlphas, a']
  refine (hmin a').trans ?_
  simp only [residual]
  rw [sum_flat, e2]
  -- the projection onto a larger space leaves a smaller residual
  set d := lib β
  have h : (Matrix.of fun i j => Complex.exp (time i * β j) : Matrix (Fin m) (Fin l) ℂ) * B =
      d.U * (rdiag d.s * d.Vᴴ * B) := by
    have : (Matrix.of fun i j => Complex.exp (time i * β j) : Matrix (Fin m) (Fin l) ℂ) = phi time β := rfl
    rw [this]
    conv_lhs => rw [d.isSVD.eq]
    simp only [Matrix.mul_assoc]
  simp only [helper]
  rw [h, Matrix.mul_assoc]
  have := frobSq_proj d.isSVD.u data (rdiag d.s * d.Vᴴ * B)
  have h0 := frobSq_nonneg (d.Uᴴ * data - rdiag d.s * d.Vᴴ * B)
  linarith

/-! ### The Jacobian -/

/-- Derivative of the residual along a curve of exponents. -/
theorem hasDerivAt_rho (time : Fin m → ℝ) (data : Matrix (Fin m) (Fin n) ℂ)
    (lib : ∀ α : Fin l → ℂ, Svd (phi time α)) (γ : ℝ → Fin l → ℂ) (δ : Fin l → ℂ)
    (hγ : ∀ j, HasDerivAt (fun e => γ e j) (δ j) 0) (hinj : Injective (phi time (γ 0))) (i : Fin m) (c : Fin n) :
    HasDerivAt (fun e => (helper time data (γ e) (lib (γ e))).rho i c)
      (-(∑ j, (δ j * jacA time (helper time data (γ 0) (lib (γ 0))) j i c +
        star (δ j) * jacG time (helper time data (γ 0) (lib (γ 0))) j i c))) 0 := by
  set h := helper time data (γ 0) (lib (γ 0)) with hh
  set d := lib (γ 0)
  let D : Matrix (Fin m) (Fin l) ℂ := Matrix.of fun i j => time i * δ j * Complex.exp (time i * γ 0 j)
  have hD : ∀ i j, HasDerivAt (fun e => phi time (γ e) i j) (D i j) 0 := by
    intro i j
    simp only [phi, Matrix.of_apply, D]
    have := ((hγ j).const_mul (time i : ℂ)).cexp
    convert this using 1
    ring
  have hp := hasDerivAt_proj hD hinj data i c
  have hcont : Tendsto (fun e => phi time (γ e)) (𝓝 0) (𝓝 (phi time (γ 0))) := by
    rw [tendsto_matrix]; intro i j
    exact (hD i j).continuousAt.tendsto
  have he : (fun e => (helper time data (γ e) (lib (γ e))).rho i c) =ᶠ[𝓝 0]
      fun e => data i c - (phi time (γ e) * linv (phi time (γ e)) * data) i c := by
    filter_upwards [injective_eventually hcont hinj] with e hi
    simp only [helper]
    rw [(svd_linv hi (lib (γ e)).isSVD).1]
    rfl
  refine HasDerivAt.congr_of_eventuallyEq ?_ he
  have := hp.const_sub (data i c)
  convert this using 1
  congr 1
  obtain ⟨e1, e2⟩ := svd_linv hinj d.isSVD
  have hs := svd_ne_zero hinj d.isSVD
  have hb : h.b = linv (phi time (γ 0)) * data := by
    rw [hh]; simp only [helper]; rw [mul_sPhiInv _ hs, e2]
  have hu : h.u = d.U := rfl
  have hv : h.v = d.V := rfl
  have hsI : h.sInv = fun i => (d.s i)⁻¹ := mul_sPhiInv _ hs
  have hr : h.rho = (1 - phi time (γ 0) * linv (phi time (γ 0))) * data := by
    rw [hh]; simp only [helper]; rw [e1, Matrix.sub_mul, Matrix.one_mul]
  have l1 : (linv (phi time (γ 0)))ᴴ = d.U * rdiag (fun i => (d.s i)⁻¹) * d.Vᴴ := by
    rw [← e2, conjTranspose_mul, conjTranspose_mul, conjTranspose_conjTranspose, rdiag_conjTranspose,
      Matrix.mul_assoc]
  have s1 : ∑ j, δ j • vecMulVec (dPhi time h j) (h.b j) = D * h.b := by
    ext a b
    simp only [Matrix.sum_apply, Matrix.smul_apply, vecMulVec_apply, Matrix.mul_apply, smul_eq_mul]
    refine Finset.sum_congr rfl fun j _ => ?_
    simp only [dPhi, D, Matrix.of_apply]
    have : h.phi a j = Complex.exp (time a * γ 0 j) := rfl
    rw [this]; ring
  have s2 : ∑ j, star (δ j) • vecMulVec (star (h.v j)) (star (dPhi time h j) ᵥ* h.rho) =
      d.Vᴴ * (Dᴴ * h.rho) := by
    ext a b
    simp only [Matrix.sum_apply, Matrix.smul_apply, vecMulVec_apply, Matrix.mul_apply, smul_eq_mul,
      conjTranspose_apply, Pi.star_apply, vecMul, dotProduct]
    refine Finset.sum_congr rfl fun j _ => ?_
    rw [hv, Finset.mul_sum, Finset.mul_sum, Finset.mul_sum]
    refine Finset.sum_congr rfl fun x _ => ?_
    simp only [dPhi, D, Matrix.of_apply, star_mul']
    have : h.phi x j = Complex.exp (time x * γ 0 j) := rfl
    rw [this]; ring
  have t1 : ∑ j, δ j • jacA time h j = (1 - phi time (γ 0) * linv (phi time (γ 0))) * (D * h.b) := by
    simp only [jacA, hu]
    rw [← s1, Matrix.mul_sum]
    refine Finset.sum_congr rfl fun j _ => ?_
    rw [e1, Matrix.mul_smul, Matrix.sub_mul, Matrix.one_mul]
  have t2 : ∑ j, star (δ j) • jacG time h j = (linv (phi time (γ 0)))ᴴ * Dᴴ * h.rho := by
    simp only [jacG, hu]
    rw [l1, hsI, Matrix.mul_assoc (d.U * _ * d.Vᴴ), Matrix.mul_assoc (d.U * _), ← s2, Matrix.mul_sum]
    refine Finset.sum_congr rfl fun j _ => ?_
    rw [Matrix.mul_smul]
  have t3 : (∑ j, (δ j * jacA time h j i c + star (δ j) * jacG time h j i c)) =
      (∑ j, δ j • jacA time h j) i c + (∑ j, star (δ j) • jacG time h j) i c := by
    simp only [Matrix.sum_apply, Matrix.smul_apply, smul_eq_mul, Finset.sum_add_distrib]
  rw [t3, t1, t2, hb, hr, ← Matrix.add_apply, Matrix.add_mul, add_comm]
  simp only [Matrix.mul_assoc]

theorem hasDerivAt_re {f : ℝ → ℂ} {f' : ℂ} (h : HasDerivAt f f' 0) :
    HasDerivAt (fun e => (f e).re) f'.re 0 :=
  (Complex.reCLM.hasFDerivAt (x := f 0)).comp_hasDerivAt 0 h

theorem hasDerivAt_im {f : ℝ → ℂ} {f' : ℂ} (h : HasDerivAt f f' 0) :
    HasDerivAt (fun e => (f e).im) f'.im 0 :=
  (Complex.imCLM.hasFDerivAt (x := f 0)).comp_hasDerivAt 0 h

theorem hasDerivAt_flat {R : ℝ → Matrix (Fin m) (Fin n) ℂ} {R' : Fin m → Fin n → ℂ}
    (h : ∀ i c, HasDerivAt (fun e => R e i c) (R' i c) 0) (p : (Fin m × Fin n) ⊕ (Fin m × Fin n)) :
    HasDerivAt (fun e => flat (R e) p) (flat (Matrix.of fun i c => R' i c) p) 0 := by
  rcases p with p | p
  · exact hasDerivAt_re (h p.1 p.2)
  · exact hasDerivAt_im (h p.1 p.2)

/-- The derivative of the exponents by one real parameter. -/
noncomputable def rate (c : Fin l ⊕ Fin l) (j : Fin l) : ℂ :=
  match c with
  | .inl i => if j = i then 1 else 0
  | .inr i => if j = i then Complex.I else 0

/-- Moving one real parameter moves one exponent, along the real or the imaginary axis. -/
theorem hasDerivAt_alphas (a : Fin l ⊕ Fin l → ℝ) (c : Fin l ⊕ Fin l) (j : Fin l) :
    HasDerivAt (fun e : ℝ => complexAlphas (a + Pi.single c e) j)
      (rate c j) 0 := by
  rcases c with i | i <;> simp only [rate]
  · by_cases hj : j = i
    · subst hj
      have e : (fun e : ℝ => complexAlphas (a + Pi.single (.inl j) e) j) =
          fun e : ℝ => complexAlphas a j + e := by
        funext e; apply Complex.ext <;> simp [complexAlphas]
      rw [e]
      simpa using (Complex.ofRealCLM.hasDerivAt (x := (0 : ℝ))).const_add (complexAlphas a j)
    · have e : (fun e : ℝ => complexAlphas (a + Pi.single (.inl i) e) j) =
          fun _ : ℝ => complexAlphas a j := by
        funext e; apply Complex.ext <;> simp [complexAlphas, hj]
      rw [e]
      simpa [hj] using hasDerivAt_const (0 : ℝ) (complexAlphas a j)
  · by_cases hj : j = i
    · subst hj
      have e : (fun e : ℝ => complexAlphas (a + Pi.single (.inr j) e) j) =
          fun e : ℝ => complexAlphas a j + e * Complex.I := by
        funext e; apply Complex.ext <;> simp [complexAlphas]
      rw [e]
      simpa using ((Complex.ofRealCLM.hasDerivAt (x := (0 : ℝ))).mul_const Complex.I).const_add
        (complexAlphas a j)
    · have e : (fun e : ℝ => complexAlphas (a + Pi.single (.inr i) e) j) =
          fun _ : ℝ => complexAlphas a j := by
        funext e; apply Complex.ext <;> simp [complexAlphas, hj]
      rw [e]
      simpa [hj] using hasDerivAt_const (0 : ℝ) (complexAlphas a j)

section

variable (time : Fin m → ℝ) (data : Matrix (Fin m) (Fin n) ℂ)
  (lib : ∀ α : Fin l → ℂ, Svd (phi time α)) (a : Fin l ⊕ Fin l → ℝ)

theorem hasDerivAt_param (hinj : Injective (phi time (complexAlphas a))) (c : Fin l ⊕ Fin l)
    (H : Helper m l n) (hH : helper time data (complexAlphas a) (lib (complexAlphas a)) = H)
    (p : (Fin m × Fin n) ⊕ (Fin m × Fin n)) :
    HasDerivAt (fun e => residual time data lib (a + Pi.single c e) p)
      (flat (Matrix.of fun i k => -(∑ j, (rate c j * jacA time H j i k + star (rate c j) * jacG time H j i k)))
        p) 0 := by
  have h0 : complexAlphas (a + Pi.single c 0) = complexAlphas a := by simp
  have hH' : helper time data (complexAlphas (a + Pi.single c 0))
      (lib (complexAlphas (a + Pi.single c 0))) = H := by rw [h0]; exact hH
  have key := hasDerivAt_rho time data lib (fun e => complexAlphas (a + Pi.single c e)) (rate c)
    (hasDerivAt_alphas a c) (by rw [h0]; exact hinj)
  beta_reduce at key
  rw [hH'] at key
  have fin := hasDerivAt_flat (R := fun e => (helper time data (complexAlphas (a + Pi.single c e))
    (lib (complexAlphas (a + Pi.single c e)))).rho)
    (R' := fun i k => -(∑ j, (rate c j * jacA time H j i k + star (rate c j) * jacG time H j i k)))
    (by intro i k; have := key i k; convert this) p
  unfold residual
  exact fin

theorem rate_inl (H : Helper m l n) (j : Fin l) :
    (Matrix.of fun i k => -(∑ j', (rate (.inl j) j' * jacA time H j' i k +
      star (rate (.inl j) j') * jacG time H j' i k)) : Matrix (Fin m) (Fin n) ℂ) =
      -jacA time H j - jacG time H j := by
  ext i k
  simp only [Matrix.of_apply, Matrix.sub_apply, Matrix.neg_apply, rate]
  rw [Finset.sum_eq_single j]
  · simp; ring
  · intro b _ hb; simp [hb]
  · simp

theorem rate_inr (H : Helper m l n) (j : Fin l) :
    (Matrix.of fun i k => -(∑ j', (rate (.inr j) j' * jacA time H j' i k +
      star (rate (.inr j) j') * jacG time H j' i k)) : Matrix (Fin m) (Fin n) ℂ) =
      -(Complex.I • jacA time H j) + Complex.I • jacG time H j := by
  ext i k
  simp only [Matrix.of_apply, Matrix.add_apply, Matrix.neg_apply, Matrix.smul_apply, smul_eq_mul, rate]
  rw [Finset.sum_eq_single j]
  · simp; ring
  · intro b _ hb; simp [hb]
  · simp

/-- **C88** (real parts). Where the exponentials are independent, the column of the Jacobian for
the real part of exponent `j` is the derivative of the residual. -/
theorem C88_real (hinj : Injective (phi time (complexAlphas a))) (j : Fin l)
    (p : (Fin m × Fin n) ⊕ (Fin m × Fin n)) :
    HasDerivAt (fun e => residual time data lib (a + Pi.single (.inl j) e) p)
      (jacobian time (helper time data (complexAlphas a) (lib (complexAlphas a))) (.inl j) p) 0 := by
  have := hasDerivAt_param time data lib a hinj (.inl j) _ rfl p
  rw [rate_inl] at this
  rcases p with p | p <;> exact this

/-- **C88** (imaginary parts). The derivative is that of the formula `-i a_j + i g_j`, where the
code uses `-i a_j - i g_j`: the two agree exactly in the entries where `g_j` vanishes. Missing:
equality, see `C88_imag_false`. -/
theorem C88_imag_partial (hinj : Injective (phi time (complexAlphas a))) (j : Fin l)
    (p : Fin m × Fin n)
    (hg : jacG time (helper time data (complexAlphas a) (lib (complexAlphas a))) j p.1 p.2 = 0) :
    HasDerivAt (fun e => residual time data lib (a + Pi.single (.inr j) e) (.inl p))
      (jacobian time (helper time data (complexAlphas a) (lib (complexAlphas a))) (.inr j) (.inl p)) 0 ∧
    HasDerivAt (fun e => residual time data lib (a + Pi.single (.inr j) e) (.inr p))
      (jacobian time (helper time data (complexAlphas a) (lib (complexAlphas a))) (.inr j) (.inr p)) 0 := by
  have h1 := hasDerivAt_param time data lib a hinj (.inr j) _ rfl (.inl p)
  have h2 := hasDerivAt_param time data lib a hinj (.inr j) _ rfl (.inr p)
  rw [rate_inr] at h1 h2
  refine ⟨h1.congr_deriv ?_, h2.congr_deriv ?_⟩ <;>
    simp [flat, jacobian, jacC, hg]

/-- `g_j` is orthogonal to the residual. -/
theorem jacG_orth (α : Fin l → ℂ) (d : Svd (phi time α)) (j : Fin l) :
    (jacG time (helper time data α d) j)ᴴ * (helper time data α d).rho = 0 := by
  have h : d.Uᴴ * (helper time data α d).rho = 0 := by
    simp only [helper]
    rw [Matrix.mul_sub, Matrix.mul_assoc, ← Matrix.mul_assoc d.Uᴴ, d.isSVD.u, Matrix.one_mul, sub_self]
  simp only [jacG]
  rw [conjTranspose_mul, conjTranspose_mul, Matrix.mul_assoc, Matrix.mul_assoc]
  have : (helper time data α d).u = d.U := rfl
  rw [this, h, Matrix.mul_zero, Matrix.mul_zero]

/-- The real inner product of flattened matrices. -/
theorem sum_flat_mul (A R : Matrix (Fin m) (Fin n) ℂ) :
    ∑ p, flat A p * flat R p = (trace (Aᴴ * R)).re := by
  simp only [Fintype.sum_sum_type, flat, Fintype.sum_prod_type, trace, diag, Matrix.mul_apply,
    conjTranspose_apply, Complex.re_sum]
  rw [← Finset.sum_add_distrib, Finset.sum_comm]
  refine Finset.sum_congr rfl fun i _ => ?_
  rw [← Finset.sum_add_distrib]
  refine Finset.sum_congr rfl fun j _ => ?_
  simp

/-- **C88** (gradient). Where the exponentials are independent, `Jᵀ ρ` from the returned Jacobian
and residual is the gradient of the objective `½ ‖ρ‖²` in every real parameter, those of the
imaginary parts included. -/
theorem C88_gradient (hinj : Injective (phi time (complexAlphas a))) (c : Fin l ⊕ Fin l) :
    HasDerivAt (fun e => 1 / 2 * ∑ p, residual time data lib (a + Pi.single c e) p ^ 2)
      (∑ p, jacobian time (helper time data (complexAlphas a) (lib (complexAlphas a))) c p *
        residual time data lib a p) 0 := by
  have ho := jacG_orth time data (complexAlphas a) (lib (complexAlphas a))
  have hres : residual time data lib a =
    flat (helper time data (complexAlphas a) (lib (complexAlphas a))).rho := rfl
  have h := hasDerivAt_param time data lib a hinj c _ rfl
  generalize helper time data (complexAlphas a) (lib (complexAlphas a)) = H at *
  have hsum := (HasDerivAt.fun_sum fun p (_ : p ∈ Finset.univ) => (h p).fun_pow 2).const_mul (1 / 2 : ℝ)
  refine hsum.congr_deriv ?_
  simp only [Pi.single_zero, add_zero]
  rw [Finset.mul_sum, hres]
  rcases c with j | j
  · rw [rate_inl]
    refine Finset.sum_congr rfl fun p _ => ?_
    have e : jacobian time H (.inl j) p = flat (-jacA time H j - jacG time H j) p := by
      rcases p with p | p <;> rfl
    rw [e]
    simp; ring
  · rw [rate_inr]
    have e : ∀ p, jacobian time H (.inr j) p = flat (Complex.I • jacC time H j) p := by
      intro p
      rcases p with p | p <;> simp [jacobian, flat]
    simp only [e]
    trans ∑ p, flat (-(Complex.I • jacA time H j) + Complex.I • jacG time H j) p * flat H.rho p
    · refine Finset.sum_congr rfl fun p _ => ?_
      simp; ring
    rw [sum_flat_mul, sum_flat_mul]
    have hz : trace ((jacG time H j)ᴴ * H.rho) = 0 := by rw [ho j, trace_zero]
    simp only [jacC, conjTranspose_add, conjTranspose_neg, conjTranspose_smul, conjTranspose_sub,
      Matrix.add_mul, Matrix.neg_mul, Matrix.smul_mul, Matrix.sub_mul, trace_add, trace_neg, trace_smul,
      smul_sub, trace_sub, hz]
    simp

end

/-! ### Cases meeting the hypotheses, and counterexamples -/

/-- What is assumed of `np.linalg.svd` can be met for all exponents. -/
theorem exists_lib (time : Fin m → ℝ) : Nonempty (∀ α : Fin l → ℂ, Svd (phi time α)) := by
  refine ⟨fun α => Classical.choice ?_⟩
  obtain ⟨U, s, V, h, -⟩ := exists_svd (phi time α)
  exact ⟨⟨U, s, V, h⟩⟩

/-- The hypothesis of C88 holds for equidistant times, at least as many as exponents, and
exponents that are not aliases of each other at that step. -/
theorem phi_injective (t0 dt : ℝ) (time : Fin m → ℝ) (ht : ∀ i, time i = t0 + i * dt) (α : Fin l → ℂ)
    (hα : Function.Injective fun j => Complex.exp (dt * α j)) (hlm : l ≤ m) : Injective (phi time α) := by
  intro v hv
  -- the first `l` rows form a Vandermonde matrix with scaled columns
  let w : Fin l → ℂ := fun j => Complex.exp (t0 * α j) * v j
  have h : (vandermonde fun j => Complex.exp (dt * α j))ᵀ *ᵥ w = 0 := by
    funext i
    have h1 := congrFun hv (Fin.castLE hlm i)
    simp only [mulVec, dotProduct, phi, Matrix.of_apply, Pi.zero_apply] at h1
    simp only [mulVec, dotProduct, transpose_apply, vandermonde_apply, w, Pi.zero_apply]
    rw [← h1]
    refine Finset.sum_congr rfl fun j _ => ?_
    rw [ht, ← Complex.exp_nat_mul, ← mul_assoc, ← Complex.exp_add]
    congr 2
    simp
    ring
  have hdet : ((vandermonde fun j => Complex.exp (dt * α j))ᵀ).det ≠ 0 := by
    rw [det_transpose]; exact det_vandermonde_ne_zero_iff.mpr hα
  have hw : w = 0 := by
    by_contra hne
    exact hdet (Matrix.exists_mulVec_eq_zero_iff.mp ⟨w, hne, h⟩)
  funext j
  have := congrFun hw j
  simpa [w, Complex.exp_ne_zero] using this

/-- Instance of the hypotheses of C87 and C88: three samples, exponents 0 and 1. -/
example : Injective (phi (![0, 1, 2] : Fin 3 → ℝ) ![0, 1]) := by
  refine phi_injective 0 1 _ (fun i => ?_) _ (fun i j h => ?_) (by norm_num)
  · fin_cases i <;> simp
  · fin_cases i <;> fin_cases j <;> simp at h ⊢
    · exact absurd h.symm (by
        rw [show Complex.exp 1 = ((Real.exp 1 : ℝ) : ℂ) by simp]
        have := Real.add_one_lt_exp (x := 1) (by norm_num)
        intro h; have h' : Real.exp 1 = 1 := by exact_mod_cast h
        linarith)
    · exact absurd h (by
        rw [show Complex.exp 1 = ((Real.exp 1 : ℝ) : ℂ) by simp]
        have := Real.add_one_lt_exp (x := 1) (by norm_num)
        intro h; have h' : Real.exp 1 = 1 := by exact_mod_cast h
        linarith)

/-- One exponential: the residual written out. -/
theorem rho_one (time : Fin m → ℝ) (hm : 0 < m) (data : Matrix (Fin m) (Fin n) ℂ) (α : Fin 1 → ℂ)
    (d : Svd (phi time α)) (i : Fin m) (c : Fin n) :
    (helper time data α d).rho i c = data i c - Complex.exp (time i * α 0) *
      (∑ k, star (Complex.exp (time k * α 0)) * data k c) /
        ((∑ k, Complex.normSq (Complex.exp (time k * α 0)) : ℝ) : ℂ) := by
  have hinj : Injective (phi time α) := by
    intro v hv
    have := congrFun hv ⟨0, hm⟩
    funext j
    obtain rfl : j = 0 := Subsingleton.elim _ _
    simpa [mulVec, dotProduct, phi, Complex.exp_ne_zero] using this
  set N : ℝ := ∑ k, Complex.normSq (Complex.exp (time k * α 0)) with hN
  have hN0 : (N : ℂ) ≠ 0 := by
    have : 0 < N := by
      refine Finset.sum_pos (fun k _ => ?_) ⟨⟨0, hm⟩, Finset.mem_univ _⟩
      exact Complex.normSq_pos.mpr (Complex.exp_ne_zero _)
    exact_mod_cast this.ne'
  have hg : (phi time α)ᴴ * phi time α = (N : ℂ) • 1 := by
    ext a b
    obtain rfl : a = 0 := Subsingleton.elim _ _
    obtain rfl : b = 0 := Subsingleton.elim _ _
    simp only [Matrix.mul_apply, conjTranspose_apply, phi, Matrix.of_apply, Matrix.smul_apply,
      Matrix.one_apply_eq, smul_eq_mul, mul_one, hN]
    push_cast
    refine Finset.sum_congr rfl fun k _ => ?_
    rw [Complex.normSq_eq_conj_mul_self]; rfl
  have hl : linv (phi time α) = (N : ℂ)⁻¹ • (phi time α)ᴴ := by
    have : (phi time α)ᴴ = (N : ℂ) • linv (phi time α) := by
      have hi : ((N : ℂ) • (1 : Matrix (Fin 1) (Fin 1) ℂ))⁻¹ = (N : ℂ)⁻¹ • 1 := by
        refine Matrix.inv_eq_left_inv ?_
        rw [Matrix.smul_mul, Matrix.mul_smul, smul_smul, Matrix.one_mul, inv_mul_cancel₀ hN0, one_smul]
      rw [linv, ← Matrix.smul_mul, hg, hi, smul_smul, mul_inv_cancel₀ hN0, one_smul, Matrix.one_mul]
    rw [this, smul_smul, inv_mul_cancel₀ hN0, one_smul]
  simp only [helper]
  rw [(svd_linv hinj d.isSVD).1, hl, Matrix.mul_smul, Matrix.smul_mul, Matrix.mul_assoc]
  simp only [Matrix.sub_apply, Matrix.smul_apply, Matrix.mul_apply, conjTranspose_apply, phi,
    Matrix.of_apply, smul_eq_mul, Finset.univ_unique, Finset.sum_singleton, Fin.default_eq_zero]
  congr 1
  field_simp

/-- **C88** is false for the imaginary parts: for the samples `1, 0` at times `0, 1` and one
exponent at 0, whatever SVD is used, the residual at time 0 does not depend on the imaginary part
of the exponent, but the Jacobian has the entry 1/2 (disagreement D82). -/
theorem C88_imag_false (lib : ∀ α : Fin 1 → ℂ, Svd (phi ![0, 1] α)) :
    ∃ (data : Matrix (Fin 2) (Fin 1) ℂ) (a : Fin 1 ⊕ Fin 1 → ℝ)
      (p : (Fin 2 × Fin 1) ⊕ (Fin 2 × Fin 1)), Injective (phi ![0, 1] (complexAlphas a)) ∧
      HasDerivAt (fun e => residual ![0, 1] data lib (a + Pi.single (.inr 0) e) p) 0 0 ∧
      jacobian ![0, 1] (helper ![0, 1] data (complexAlphas a) (lib (complexAlphas a))) (.inr 0) p = 1 / 2 := by
  have hinj : Injective (phi ![0, 1] (complexAlphas (0 : Fin 1 ⊕ Fin 1 → ℝ))) := by
    refine phi_injective 0 1 _ (fun i => ?_) _ (fun i j h => Subsingleton.elim _ _) (by norm_num)
    fin_cases i <;> simp
  refine ⟨!![1; 0], 0, .inr (0, 0), hinj, ?_, ?_⟩
  · have : (fun e : ℝ => residual ![0, 1] !![1; 0] lib (0 + Pi.single (.inr 0) e) (.inr (0, 0))) =
        fun _ => 0 := by
      funext e
      simp only [residual, flat]
      rw [rho_one _ (by norm_num)]
      simp [complexAlphas]
    rw [this]
    exact hasDerivAt_const _ _
  · have h1 := C88_real ![0, 1] !![1; 0] lib 0 hinj 0 (.inl (0, 0))
    have h2 : (fun e : ℝ => residual ![0, 1] !![1; 0] lib (0 + Pi.single (.inl 0) e) (.inl (0, 0))) =
        fun e => 1 - 1 / (1 + Real.exp e ^ 2) := by
      funext e
      simp only [residual, flat]
      rw [rho_one _ (by norm_num)]
      have : (⟨e, 0⟩ : ℂ) = (e : ℂ) := rfl
      simp [complexAlphas, this, ← Complex.ofReal_exp, Complex.normSq_ofReal]
      have hh : (1 + (Real.exp e : ℂ) * (Real.exp e : ℂ) : ℂ) = ((1 + Real.exp e * Real.exp e : ℝ) : ℂ) := by
        push_cast; rfl
      rw [hh, Complex.normSq_ofReal, sq]
      have : 0 < 1 + Real.exp e * Real.exp e := by positivity
      field_simp
    have h3 : HasDerivAt (fun e => 1 - 1 / (1 + Real.exp e ^ 2)) (1 / 2) 0 := by
      have hp : (1 + Real.exp 0 ^ 2 : ℝ) ≠ 0 := by positivity
      have := (((Real.hasDerivAt_exp 0).fun_pow 2).const_add 1).fun_inv hp
      have := this.const_sub 1
      simp only [one_div]
      refine this.congr_deriv ?_
      norm_num
    rw [h2] at h1
    have := h1.unique h3
    exact this

/-- **C87** is false if two exponents coincide: for the samples `1, 0` at times `0, 1` with both
exponents 0 the library may return an SVD for which the residual is zero, although no coefficients
come nearer to the samples than `1/2` (squared), because the vectors of the zero singular values
are projected away too (disagreement D81). -/
theorem C87_deficient_false : ∃ (time : Fin 2 → ℝ) (data : Matrix (Fin 2) (Fin 1) ℂ) (α : Fin 2 → ℂ)
    (d : Svd (phi time α)), (helper time data α d).rho = 0 ∧
    ∀ B : Matrix (Fin 2) (Fin 1) ℂ, 1 / 2 ≤ frobSq (data - phi time α * B) := by
  obtain ⟨U, s, V, h, -⟩ := exists_svd (phi (![0, 1] : Fin 2 → ℝ) (0 : Fin 2 → ℂ))
  refine ⟨![0, 1], !![1; 0], 0, ⟨U, s, V, h⟩, ?_, ?_⟩
  · -- `U` is square, so it is unitary
    have hU : (U * Uᴴ : Matrix (Fin 2) (Fin 2) ℂ) = 1 := (mul_eq_one_comm_of_equiv (finCongr (by rfl))).mp h.u
    simp only [helper]
    rw [hU, Matrix.one_mul, sub_self]
  · intro B
    simp only [frobSq, Fin.sum_univ_two, Finset.univ_unique, Finset.sum_singleton, Fin.default_eq_zero,
      Matrix.sub_apply, Matrix.mul_apply, phi, Matrix.of_apply, Complex.normSq_apply]
    simp
    set x := (B 0 0).re + (B 1 0).re
    set y := (B 0 0).im + (B 1 0).im
    nlinarith [sq_nonneg (x - 1 / 2), sq_nonneg y, sq_nonneg (1 - 2 * x)]

end Verif.VarPro
