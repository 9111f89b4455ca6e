import Verif.Model.BopOps
import Verif.Props.BopStep
import Verif.Lemmas.LinAlg
import Verif.Props.Frequencies
import Mathlib.Analysis.SpecialFunctions.ExpDeriv
import Mathlib.Analysis.Calculus.Deriv.Add
import Mathlib.Analysis.Complex.RealDeriv

/-!
# Properties C138, C139: the operators of BOP-DMD, perfect fits
-/

set_option autoImplicit false

namespace Verif.BopOps

open Verif Verif.LinAlg Verif.VarPro Verif.BopStep Matrix

variable {m q r : ℕ}

/-- The columns are linearly independent. -/
def Independent {a b : ℕ} (w : Matrix (Fin a) (Fin b) ℂ) : Prop := ∀ v, w *ᵥ v = 0 → v = 0

theorem pinv_left {a b : ℕ} (w : Matrix (Fin a) (Fin b) ℂ) (hw : Independent w) (P : Matrix (Fin b) (Fin a) ℂ)
    (hP : IsPinv w P) : P * w = 1 := by
  have h : w * (P * w - 1) = 0 := by rw [Matrix.mul_sub, ← Matrix.mul_assoc, hP.apa, Matrix.mul_one, sub_self]
  have h2 : P * w - 1 = 0 := by
    ext i j
    have := hw (fun i => (P * w - 1 : Matrix (Fin b) (Fin b) ℂ) i j) (funext fun k => congrFun (congrFun h k) j)
    exact congrFun this i
  exact sub_eq_zero.mp h2

theorem system_spec (N : Lib) {a b : ℕ} (w : Matrix (Fin a) (Fin b) ℂ) (hP : IsPinv w (N.pinv w)) (hw : Independent w)
    (e : Fin b → ℂ) :
    (∀ j, system N w e *ᵥ w.col j = e j • w.col j) ∧ (∀ v, wᴴ *ᵥ v = 0 → system N w e *ᵥ v = 0) := by
  constructor
  · intro j
    have : system N w e * w = w * diagonal e := by
      rw [system, Matrix.mul_assoc, pinv_left w hw _ hP, Matrix.mul_one]
    funext i
    have h2 := congrFun (congrFun this i) j
    rw [mul_diagonal] at h2
    simp only [Pi.smul_apply, smul_eq_mul, col_apply]
    rw [mul_comm, ← h2]
    rfl
  · intro v hv
    have hpv : N.pinv w *ᵥ v = 0 := by
      have e1 : N.pinv w = N.pinv w * (N.pinv w)ᴴ * wᴴ := by
        rw [Matrix.mul_assoc, ← conjTranspose_mul, hP.ap, ← Matrix.mul_assoc, hP.pap]
      rw [e1, ← mulVec_mulVec, hv, mulVec_zero]
    rw [system, ← mulVec_mulVec, hpv, mulVec_zero]

theorem roots_square (N : Lib) (w : Matrix (Fin r) (Fin r) ℂ) (hP : IsPinv w (N.pinv w)) (hw : Independent w)
    (e : Fin r → ℂ) : (system N w e).charpoly.roots = Finset.univ.val.map e := by
  have h1 := pinv_left w hw _ hP
  rw [system, Matrix.mul_assoc, charpoly_mul_comm, Matrix.mul_assoc, h1, Matrix.mul_one, Frequencies.roots_diagonal]

/-- **C138** (full operator): with `compute_A=True` the property `A` has the fitted modes as eigenvectors for the fitted
eigenvalues, and maps everything orthogonal to the modes to zero. With and without projection, bagging, and `mode_prox`;
for independent modes. -/
theorem C138_full (N : Lib) (hN : ∀ {a b : ℕ} (w : Matrix (Fin a) (Fin b) ℂ), IsPinv w (N.pinv w))
    (basis : Matrix (Fin m) (Fin q) ℂ) (wq : Matrix (Fin q) (Fin r) ℂ) (wm : Matrix (Fin m) (Fin r) ℂ)
    (e : Fin r → ℂ) (o : Ops m q r)
    (ho : o = trialProj N true basis wq e ∨ o = trialFull N true basis wm e ∨ o = averaged N true basis wm e)
    (hi : Independent o.modes) :
    ∃ A, getA true (some o) = .ok (some A) ∧ (∀ j, A *ᵥ o.modes.col j = e j • o.modes.col j) ∧
      ∀ v, (∀ j, star (o.modes.col j) ⬝ᵥ v = 0) → A *ᵥ v = 0 := by
  have hf : o.full = some (system N o.modes e) := by
    rcases ho with rfl | rfl | rfl <;> rfl
  obtain ⟨h1, h2⟩ := system_spec N o.modes (hN _) hi e
  exact ⟨_, by simp [getA, hf], h1, fun v hv => h2 v (funext hv)⟩

/-- **C138** (reduced operator): without `mode_prox` the property `atilde` has the projected modes as eigenvectors for
the fitted eigenvalues; if there are as many modes as vectors in the basis, its eigenvalues are exactly the fitted ones. -/
theorem C138_reduced (N : Lib) (hN : ∀ {a b : ℕ} (w : Matrix (Fin a) (Fin b) ℂ), IsPinv w (N.pinv w))
    (hprox : N.prox = none) (computeA : Bool) (basis : Matrix (Fin m) (Fin q) ℂ) (hb : basisᴴ * basis = 1)
    (wq : Matrix (Fin q) (Fin r) ℂ) (wm : Matrix (Fin m) (Fin r) ℂ) (e : Fin r → ℂ) (o : Ops m q r)
    (ho : o = trialProj N computeA basis wq e ∨ o = trialFull N computeA basis wm e ∨
      o = averaged N computeA basis wm e)
    (hi : Independent (basisᴴ * o.modes)) :
    ∃ T, getAtilde (some o) = .ok T ∧ (∀ j, T *ᵥ (basisᴴ *ᵥ o.modes.col j) = e j • (basisᴴ *ᵥ o.modes.col j)) ∧
      (r = q → T.charpoly.roots = Finset.univ.val.map e) := by
  have ha : o.atilde = system N (basisᴴ * o.modes) e := by
    rcases ho with rfl | rfl | rfl
    · simp only [trialProj, hprox]
      rw [← Matrix.mul_assoc, hb, Matrix.one_mul]
    · rfl
    · rfl
  refine ⟨_, rfl, ?_, ?_⟩
  · rw [ha]
    exact fun j => (system_spec N _ (hN _) hi e).1 j
  · rintro rfl
    rw [ha]
    exact roots_square N _ (hN _) hi e

theorem system_basis (N : Lib) (hN : ∀ {a b : ℕ} (w : Matrix (Fin a) (Fin b) ℂ), IsPinv w (N.pinv w))
    (basis : Matrix (Fin m) (Fin q) ℂ) (hb : basisᴴ * basis = 1) (w : Matrix (Fin q) (Fin r) ℂ) (e : Fin r → ℂ) :
    system N (basis * w) e = basis * system N w e * basisᴴ := by
  have hp : N.pinv (basis * w) = N.pinv w * basisᴴ := by
    refine (hN (basis * w)).unique ?_
    have h1 : N.pinv w * basisᴴ * (basis * w) = N.pinv w * w := by
      rw [Matrix.mul_assoc, ← Matrix.mul_assoc basisᴴ, hb, Matrix.one_mul]
    refine ⟨?_, ?_, ?_, ?_⟩
    · rw [Matrix.mul_assoc, h1, Matrix.mul_assoc, ← Matrix.mul_assoc w, (hN w).apa]
    · rw [h1, ← Matrix.mul_assoc, (hN w).pap]
    · have : basis * w * (N.pinv w * basisᴴ) = basis * (w * N.pinv w) * basisᴴ := by simp only [Matrix.mul_assoc]
      rw [this, conjTranspose_mul, conjTranspose_mul, conjTranspose_conjTranspose, (hN w).ap, Matrix.mul_assoc basis]
    · rw [h1, (hN w).pa]
  rw [system, hp, system]
  simp only [Matrix.mul_assoc]

/-- **C138** (both): without `mode_prox`, if the modes are combinations of the basis, as they are whenever `fit` has
chosen the basis, `atilde` is `A` in the coordinates of the basis, and `A` is `atilde` on the span of the basis and zero
on its complement. -/
theorem C138_agree (N : Lib) (hN : ∀ {a b : ℕ} (w : Matrix (Fin a) (Fin b) ℂ), IsPinv w (N.pinv w))
    (hprox : N.prox = none) (basis : Matrix (Fin m) (Fin q) ℂ) (hb : basisᴴ * basis = 1)
    (wq : Matrix (Fin q) (Fin r) ℂ) (wm : Matrix (Fin m) (Fin r) ℂ) (hm : ∃ c, wm = basis * c) (e : Fin r → ℂ)
    (o : Ops m q r)
    (ho : o = trialProj N true basis wq e ∨ o = trialFull N true basis wm e ∨ o = averaged N true basis wm e) :
    ∃ A, getA true (some o) = .ok (some A) ∧ A = basis * o.atilde * basisᴴ ∧ o.atilde = basisᴴ * A * basis := by
  obtain ⟨c, rfl⟩ := hm
  have hc : basisᴴ * (basis * c) = c := by rw [← Matrix.mul_assoc, hb, Matrix.one_mul]
  have key : ∃ w, o.full = some (system N (basis * w) e) ∧ o.atilde = system N w e := by
    rcases ho with rfl | rfl | rfl
    · refine ⟨wq, ?_, rfl⟩
      simp only [trialProj, hprox, fullOp, if_true]
    · exact ⟨c, rfl, by simp only [trialFull, hc]⟩
    · exact ⟨c, rfl, by simp only [averaged, hc]⟩
  obtain ⟨w, h1, h2⟩ := key
  refine ⟨basis * o.atilde * basisᴴ, ?_, rfl, ?_⟩
  · simp only [getA, if_true, h1, h2, system_basis N hN basis hb]
  · calc o.atilde = basisᴴ * basis * o.atilde * (basisᴴ * basis) := by rw [hb, Matrix.one_mul, Matrix.mul_one]
      _ = _ := by simp only [Matrix.mul_assoc]

/-- **C138** (generator): `A` is the operator of the differential equation that the forecasts solve: for all amplitudes,
`x' = A x` at all times. -/
theorem C138_generator (N : Lib) (hN : ∀ {a b : ℕ} (w : Matrix (Fin a) (Fin b) ℂ), IsPinv w (N.pinv w))
    (modes : Matrix (Fin m) (Fin r) ℂ) (hi : Independent modes) (e : Fin r → ℂ) (b : Fin r → ℝ)
    (t : ℝ) (i : Fin m) :
    HasDerivAt (fun t => Bop.forecast (fun k i => modes i k) b e t i)
      ((system N modes e *ᵥ fun i => Bop.forecast (fun k i => modes i k) b e t i) i) t := by
  have h1 : ∀ k, HasDerivAt (fun t : ℝ => modes i k * b k * Complex.exp (e k * t))
      (modes i k * b k * (Complex.exp (e k * t) * e k)) t := fun k => by
    have h0 : HasDerivAt (fun t : ℝ => e k * (t : ℂ)) (e k) t := by
      simpa using (Complex.ofRealCLM.hasDerivAt (x := t)).const_mul (e k)
    exact (h0.cexp).const_mul _
  have h2 := HasDerivAt.fun_sum (u := Finset.univ) fun k _ => h1 k
  refine h2.congr_deriv ?_
  have h3 : (fun i => Bop.forecast (fun k i => modes i k) b e t i) =
      modes *ᵥ fun k => b k * Complex.exp (e k * t) := by
    funext i
    simp only [Bop.forecast, mulVec, dotProduct]
    exact Finset.sum_congr rfl fun k _ => by ring
  have h4 : system N modes e * modes = modes * diagonal e := by
    rw [system, Matrix.mul_assoc, pinv_left modes hi _ (hN _), Matrix.mul_one]
  rw [h3, mulVec_mulVec, h4, ← mulVec_mulVec]
  simp only [mulVec, dotProduct, diagonal_apply, ite_mul, zero_mul, Finset.sum_ite_eq, Finset.mem_univ, if_true]
  exact Finset.sum_congr rfl fun k _ => by ring

/-- **C138** (errors): both properties raise before a fit; `A` raises unless `compute_A=True`. -/
theorem C138_errors (o : Ops m q r) :
    getA true (none : Option (Ops m q r)) = .error .valueError ∧
    getA false (none : Option (Ops m q r)) = .error .valueError ∧
    getA false (some o) = .error .valueError ∧ getAtilde (none : Option (Ops m q r)) = .error .valueError :=
  ⟨rfl, rfl, rfl, rfl⟩

/-- Entries below 0.7 are set to zero. -/
noncomputable def threshold {a b : ℕ} (M : Matrix (Fin a) (Fin b) ℂ) : Matrix (Fin a) (Fin b) ℂ :=
  of fun i j => if Complex.normSq (M i j) < 49 / 100 then 0 else M i j

theorem pinv_of_inv (N : Lib) (hN : ∀ {a b : ℕ} (w : Matrix (Fin a) (Fin b) ℂ), IsPinv w (N.pinv w))
    (w w' : Matrix (Fin r) (Fin r) ℂ) (h : w * w' = 1) : N.pinv w = w' := by
  have h' : w' * w = 1 := mul_eq_one_comm.mp h
  refine (hN w).unique ⟨by rw [h, Matrix.one_mul], by rw [h', Matrix.one_mul], ?_, ?_⟩
  · rw [h]; simp
  · rw [h']; simp

/-- **C138** is false with `mode_prox`: after a fit with `use_proj=True` and without bagging, `atilde` belongs to the
modes before the function is applied, `A` to the modes after. Here the basis is the identity, and the two operators
differ; with bagging they agree. -/
theorem C138_prox_false (N : Lib) (hN : ∀ {a b : ℕ} (w : Matrix (Fin a) (Fin b) ℂ), IsPinv w (N.pinv w))
    (hprox : N.prox = some fun _ _ => threshold) :
    let o := trialProj N true (1 : Matrix (Fin 2) (Fin 2) ℂ) !![1, 3 / 5; 0, 4 / 5] ![1, 2]
    getAtilde (some o) = .ok !![1, 3 / 4; 0, 2] ∧ getA true (some o) = .ok (some !![1, 0; 0, 2]) ∧
      getAtilde (some (averaged N true (1 : Matrix (Fin 2) (Fin 2) ℂ) o.modes ![1, 2])) = .ok !![1, 0; 0, 2] := by
  intro o
  have hm : o.modes = !![1, 0; 0, 4 / 5] := by
    simp only [o, trialProj, hprox, Matrix.one_mul, threshold]
    ext i j
    fin_cases i <;> fin_cases j <;> simp [Complex.normSq_ofNat] <;> norm_num
  have hd : (diagonal ![1, 2] : Matrix (Fin 2) (Fin 2) ℂ) = !![1, 0; 0, 2] := by
    ext i j; fin_cases i <;> fin_cases j <;> simp
  have h1 : system N !![1, 3 / 5; 0, 4 / 5] ![1, 2] = !![1, 3 / 4; 0, 2] := by
    rw [system, hd, pinv_of_inv N hN _ !![1, -3 / 4; 0, 5 / 4] ?_]
    · ext i j
      fin_cases i <;> fin_cases j <;> simp [Matrix.mul_apply, Fin.sum_univ_two] <;> norm_num
    · ext i j
      fin_cases i <;> fin_cases j <;> simp [Matrix.mul_apply, Fin.sum_univ_two] <;> norm_num
  have h2 : system N !![1, 0; 0, 4 / 5] ![1, 2] = !![1, 0; 0, 2] := by
    rw [system, hd, pinv_of_inv N hN _ !![1, 0; 0, 5 / 4] ?_]
    · ext i j
      fin_cases i <;> fin_cases j <;> simp [Matrix.mul_apply, Fin.sum_univ_two] <;> norm_num
    · ext i j
      fin_cases i <;> fin_cases j <;> simp [Matrix.mul_apply, Fin.sum_univ_two]
  refine ⟨?_, ?_, ?_⟩
  · rw [getAtilde, ← h1]
    rfl
  · have : o.full = some (system N o.modes ![1, 2]) := rfl
    simp only [getA, if_true, this, hm, h2]
  · simp only [getAtilde, averaged, conjTranspose_one, Matrix.one_mul, hm, h2]

/-- Only the first row is kept. -/
def firstRow {a b : ℕ} (M : Matrix (Fin a) (Fin b) ℂ) : Matrix (Fin a) (Fin b) ℂ :=
  of fun i j => if (i : ℕ) = 0 then M i j else 0

/-- **C138** (`mode_prox`): the function is given a matrix with one row for each sensor if `use_proj=True`, and the
transposed matrix, with one row for each mode, otherwise. A function that keeps the first row keeps the first sensor of
all modes in one case, and all sensors of the first mode in the other. -/
theorem C138_prox_transposed_false (N : Lib) (hprox : N.prox = some fun _ _ => firstRow) (computeA : Bool)
    (basis : Matrix (Fin m) (Fin q) ℂ) (Bp : Matrix (Fin r) (Fin q) ℂ) (e : Fin r → ℂ) (B : Matrix (Fin r) (Fin m) ℂ) :
    (∀ i k, (trialProj N computeA basis (proxB N true Bp)ᵀ e).modes i k =
      if (i : ℕ) = 0 then (basis * Bpᵀ) i k else 0) ∧
    ∀ i k, (proxB N false B)ᵀ i k = if (k : ℕ) = 0 then Bᵀ i k else 0 := by
  constructor
  · intro i k
    simp only [trialProj, proxB, hprox]
    rfl
  · intro i k
    simp only [proxB, hprox]
    rfl

/-- Instance of the hypotheses: three sensors, two modes, an orthonormal basis. -/
example : ∃ (basis : Matrix (Fin 3) (Fin 2) ℂ) (w : Matrix (Fin 2) (Fin 2) ℂ), basisᴴ * basis = 1 ∧
    Independent (basisᴴ * (basis * w)) ∧ w ≠ 1 := by
  have hb : (!![1, 0; 0, 0; 0, 1] : Matrix (Fin 3) (Fin 2) ℂ)ᴴ * (!![1, 0; 0, 0; 0, 1] : Matrix (Fin 3) (Fin 2) ℂ) = 1 := by
    ext i j; fin_cases i <;> fin_cases j <;> simp [Matrix.mul_apply, Fin.sum_univ_three]
  refine ⟨!![1, 0; 0, 0; 0, 1], !![1, 1; 0, 1], hb, ?_, ?_⟩
  · rw [← Matrix.mul_assoc, hb, Matrix.one_mul]
    intro v hv
    have h0 := congrFun hv 0
    have h1 := congrFun hv 1
    simp [mulVec, dotProduct, Fin.sum_univ_two] at h0 h1
    funext i
    fin_cases i
    · simpa [h1] using h0
    · exact h1
  · intro h
    have := congrFun (congrFun h 0) 1
    simp at this

/-! ## C139 -/

/-- A combination of powers of different numbers that vanishes often enough has only zero coefficients. -/
theorem coeff_zero {r l n : ℕ} (hn : r + l ≤ n) (a : Fin r → ℂ) (z : Fin r → ℂ) (hz : Function.Injective z)
    (b : Fin l → ℂ) (z' : Fin l → ℂ) (h : ∀ k < n, ∑ j, a j * z j ^ k = ∑ i, b i * z' i ^ k) (j : Fin r)
    (hj : ∀ i, z' i ≠ z j) : a j = 0 := by
  classical
  set S : Finset ℂ := Finset.univ.image z ∪ Finset.univ.image z' with hS
  set c : ℂ → ℂ := fun x => (∑ j, if z j = x then a j else 0) - ∑ i, if z' i = x then b i else 0 with hc
  have hcard : S.card ≤ n := by
    refine (Finset.card_union_le _ _).trans (le_trans (add_le_add Finset.card_image_le Finset.card_image_le) ?_)
    simpa using hn
  have hsum : ∀ k < n, ∑ x ∈ S, c x * x ^ k = 0 := by
    intro k hk
    have e1 : ∀ (p : ℕ) (a : Fin p → ℂ) (z : Fin p → ℂ), (∀ j, z j ∈ S) →
        ∑ x ∈ S, (∑ j, if z j = x then a j else 0) * x ^ k = ∑ j, a j * z j ^ k := by
      intro p a z hmem
      simp only [Finset.sum_mul]
      rw [Finset.sum_comm]
      refine Finset.sum_congr rfl fun j _ => ?_
      rw [Finset.sum_eq_single (z j)]
      · simp
      · intro x _ hx
        rw [if_neg (fun h => hx h.symm), zero_mul]
      · intro hx; exact absurd (hmem j) hx
    simp only [hc, sub_mul, Finset.sum_sub_distrib]
    rw [e1 r a z fun j => by simp [hS], e1 l b z' fun i => by simp [hS], h k hk, sub_self]
  have hv := Frequencies.pow_injective (d := n) hcard (fun i => (S.equivFin.symm i : ℂ))
    (Subtype.val_injective.comp S.equivFin.symm.injective) (fun i => c (S.equivFin.symm i : ℂ)) (by
      intro k hk
      rw [← hsum k hk, ← Finset.sum_coe_sort S fun x => c x * x ^ k]
      exact Equiv.sum_comp S.equivFin.symm fun x : S => c x * (x : ℂ) ^ k)
  have hm : z j ∈ S := by simp [hS]
  have h0 := congrFun hv (S.equivFin ⟨z j, hm⟩)
  simp only [Equiv.symm_apply_apply, Pi.zero_apply, hc] at h0
  rw [Finset.sum_eq_single j (fun i _ hi => if_neg fun h => hi (hz h)) (by simp), if_pos rfl,
    Finset.sum_eq_zero fun i _ => if_neg (hj i), sub_zero] at h0
  exact h0

/-- **C139** (eigenvalues): let the data be sums of `r` exponentials with eigenvalues `α` and nonzero modes `W`, sampled
at equidistant times, such that the sampling distinguishes the eigenvalues, with at least as many samples as there are
eigenvalues in the data and in the fit. If the error of the fit is zero, then all eigenvalues of the data are among the
fitted ones (as far as the sampling shows them). -/
theorem C139_eigenvalues {n r l s : ℕ} (hn : r + l ≤ n) (t0 dt : ℝ) (time : Fin n → ℝ)
    (ht : ∀ k, time k = t0 + dt * (k : ℕ)) (α : Fin r → ℂ) (W : Fin r → Fin s → ℂ) (hW : ∀ j, W j ≠ 0)
    (hα : Function.Injective fun j => Complex.exp (dt * α j)) (H : Matrix (Fin n) (Fin s) ℂ)
    (hH : ∀ k c, H k c = ∑ j, Complex.exp (time k * α j) * W j c)
    (B : (Fin l → ℂ) → Matrix (Fin l) (Fin s) ℂ) (β : Fin l → ℂ) (h0 : BopStep.error time H B β = some 0) (j : Fin r) :
    ∃ i, Complex.exp (dt * β i) = Complex.exp (dt * α j) := by
  have hres : BopStep.residual time H B β = 0 := by
    simp only [BopStep.error, Bop.relError] at h0
    split_ifs at h0 with hz
    have := Option.some.inj h0
    rw [div_eq_zero_iff, or_iff_left hz, Real.sqrt_eq_zero (frobSq_nonneg _), frobSq_eq_zero] at this
    exact this
  by_contra hno
  push Not at hno
  have hpow : ∀ (k : Fin n) (x : ℂ), Complex.exp (time k * x) = Complex.exp (t0 * x) * Complex.exp (dt * x) ^ (k : ℕ) := by
    intro k x
    rw [← Complex.exp_nat_mul, ← Complex.exp_add, ht]
    congr 1
    push_cast
    ring
  refine hW j (funext fun c => ?_)
  have := coeff_zero hn (fun j => Complex.exp (t0 * α j) * W j c) (fun j => Complex.exp (dt * α j)) hα
    (fun i => Complex.exp (t0 * β i) * B β i c) (fun i => Complex.exp (dt * β i)) (by
      intro k hk
      have e := congrFun (congrFun hres ⟨k, hk⟩) c
      simp only [BopStep.residual, Matrix.sub_apply, Matrix.mul_apply, phi, of_apply, Matrix.zero_apply, sub_eq_zero, hH] at e
      simp only [hpow] at e
      calc ∑ j, Complex.exp (t0 * α j) * W j c * Complex.exp (dt * α j) ^ k =
          ∑ j, Complex.exp (t0 * α j) * Complex.exp (dt * α j) ^ k * W j c :=
            Finset.sum_congr rfl fun _ _ => by ring
        _ = _ := e
        _ = _ := Finset.sum_congr rfl fun _ _ => by ring) j hno
  exact (mul_eq_zero.mp this).resolve_left (Complex.exp_ne_zero _)

/-- **C139** (eigenvalues and modes): with as many eigenvalues in the fit as in the data, and imaginary parts below the
Nyquist frequency, a fit with error zero consists of exactly the eigenvalues and modes of the data. -/
theorem C139_perfect {n r s : ℕ} (hn : r + r ≤ n) (t0 dt : ℝ) (hdt : 0 < dt) (time : Fin n → ℝ)
    (ht : ∀ k, time k = t0 + dt * (k : ℕ)) (α : Fin r → ℂ) (hi : Function.Injective α) (W : Fin r → Fin s → ℂ)
    (hW : ∀ j, W j ≠ 0) (hny : ∀ j, |dt * (α j).im| < Real.pi) (H : Matrix (Fin n) (Fin s) ℂ)
    (hH : ∀ k c, H k c = ∑ j, Complex.exp (time k * α j) * W j c)
    (B : (Fin r → ℂ) → Matrix (Fin r) (Fin s) ℂ) (β : Fin r → ℂ) (hnyβ : ∀ j, |dt * (β j).im| < Real.pi)
    (h0 : BopStep.error time H B β = some 0) :
    ∃ π : Equiv.Perm (Fin r), ∀ j, β (π j) = α j ∧ ∀ c, B β (π j) c = W j c := by
  have hexp : ∀ x y : ℂ, |dt * x.im| < Real.pi → |dt * y.im| < Real.pi →
      Complex.exp (dt * x) = Complex.exp (dt * y) → x = y := by
    intro x y hx hy h
    rw [abs_lt] at hx hy
    have im : ∀ z : ℂ, ((dt : ℂ) * z).im = dt * z.im := fun z => by simp
    have := Complex.exp_inj_of_neg_pi_lt_of_le_pi (by rw [im]; exact hx.1) (by rw [im]; exact hx.2.le)
      (by rw [im]; exact hy.1) (by rw [im]; exact hy.2.le) h
    exact mul_left_cancel₀ (by exact_mod_cast hdt.ne') this
  have hα : Function.Injective fun j => Complex.exp (dt * α j) := fun a b h => hi (hexp _ _ (hny a) (hny b) h)
  choose f hf using C139_eigenvalues hn t0 dt time ht α W hW hα H hH B β h0
  have hf' : ∀ j, β (f j) = α j := fun j => hexp _ _ (hnyβ _) (hny _) (hf j)
  have hinj : Function.Injective f := fun a b h => hi (by rw [← hf', ← hf', h])
  have hbij := Finite.injective_iff_bijective.mp hinj
  set π := Equiv.ofBijective f hbij
  refine ⟨π, fun j => ⟨hf' j, fun c => ?_⟩⟩
  have hres : BopStep.residual time H B β = 0 := by
    simp only [BopStep.error, Bop.relError] at h0
    split_ifs at h0 with hz
    have := Option.some.inj h0
    rw [div_eq_zero_iff, or_iff_left hz, Real.sqrt_eq_zero (frobSq_nonneg _), frobSq_eq_zero] at this
    exact this
  have hpow : ∀ (k : Fin n) (x : ℂ), Complex.exp (time k * x) = Complex.exp (t0 * x) * Complex.exp (dt * x) ^ (k : ℕ) := by
    intro k x
    rw [← Complex.exp_nat_mul, ← Complex.exp_add, ht]
    congr 1
    push_cast
    ring
  have key := coeff_zero (r := r) (l := 0) (n := n) (by omega)
    (fun j => Complex.exp (t0 * α j) * (B β (π j) c - W j c)) (fun j => Complex.exp (dt * α j)) hα
    (fun i => i.elim0) (fun i => i.elim0) (by
      intro k hk
      have e := congrFun (congrFun hres ⟨k, hk⟩) c
      simp only [BopStep.residual, Matrix.sub_apply, Matrix.mul_apply, phi, of_apply, Matrix.zero_apply, sub_eq_zero, hH] at e
      rw [← Equiv.sum_comp π fun i => Complex.exp (time ⟨k, hk⟩ * β i) * B β i c] at e
      have hb : ∀ j, β (π j) = α j := hf'
      simp only [hb, hpow] at e
      rw [Finset.univ_eq_empty (α := Fin 0), Finset.sum_empty]
      calc ∑ j, Complex.exp (t0 * α j) * (B β (π j) c - W j c) * Complex.exp (dt * α j) ^ k =
          ∑ j, (Complex.exp (t0 * α j) * Complex.exp (dt * α j) ^ k * B β (π j) c -
            Complex.exp (t0 * α j) * Complex.exp (dt * α j) ^ k * W j c) :=
            Finset.sum_congr rfl fun _ _ => by ring
        _ = 0 := by rw [Finset.sum_sub_distrib, e, sub_self]) j (fun i => i.elim0)
  exact sub_eq_zero.mp ((mul_eq_zero.mp key).resolve_left (Complex.exp_ne_zero _))

/-- **C139** (the truth is a perfect fit): at the eigenvalues of the data the error is zero, and if the sampled
exponentials are independent, the fitted modes are those of the data. For all sampling times. -/
theorem C139_truth {n r s : ℕ} (time : Fin n → ℝ) (α : Fin r → ℂ) (W : Fin r → Fin s → ℂ) (H : Matrix (Fin n) (Fin s) ℂ)
    (hH : ∀ k c, H k c = ∑ j, Complex.exp (time k * α j) * W j c) (hH0 : H ≠ 0)
    (B : (Fin r → ℂ) → Matrix (Fin r) (Fin s) ℂ) (hB : IsComputeB time H B) :
    BopStep.error time H B α = some 0 ∧ ((∀ v, phi time α *ᵥ v = 0 → v = 0) → ∀ j c, B α j c = W j c) := by
  have hc : ∀ c, phi time α *ᵥ (fun j => B α j c) = phi time α *ᵥ fun j => W j c := by
    intro c
    refine lstsq_solves _ _ _ ?_
    have : (fun i => H i c) = phi time α *ᵥ fun j => W j c := by
      funext k
      rw [hH]
      rfl
    rw [← this]
    exact hB α c
  constructor
  · have : BopStep.residual time H B α = 0 := by
      ext k c
      have := congrFun (hc c) k
      simp only [mulVec, dotProduct] at this
      simp only [BopStep.residual, Matrix.sub_apply, Matrix.mul_apply, Matrix.zero_apply, this, sub_eq_zero, hH]
      rfl
    simp only [BopStep.error, this, Bop.relError]
    rw [if_neg, (frobSq_eq_zero _).mpr rfl, Real.sqrt_zero, zero_div]
    rw [Real.sqrt_eq_zero (frobSq_nonneg _), frobSq_eq_zero]
    exact hH0
  · intro hi j c
    have := hi (fun j => B α j c - W j c) (by
      have := hc c
      rw [← sub_eq_zero, ← mulVec_sub] at this
      exact this)
    exact sub_eq_zero.mp (congrFun this j)

/-- **C139** needs the Nyquist condition: for constant data at the times 0, 1, 2, ... the frequencies 0 and `2 π` have
both error zero. -/
theorem C139_alias_false (n : ℕ) (hn : 0 < n) (B : (Fin 1 → ℂ) → Matrix (Fin 1) (Fin 1) ℂ)
    (hB : IsComputeB (fun k : Fin n => ((k : ℕ) : ℝ)) (of fun _ _ => 1) B) :
    BopStep.error (fun k : Fin n => ((k : ℕ) : ℝ)) (of fun _ _ => 1) B ![0] = some 0 ∧
    BopStep.error (fun k : Fin n => ((k : ℕ) : ℝ)) (of fun _ _ => 1) B ![2 * Real.pi * Complex.I] = some 0 := by
  have hne : (of fun _ _ => 1 : Matrix (Fin n) (Fin 1) ℂ) ≠ 0 := fun h => by
    have := congrFun (congrFun h ⟨0, hn⟩) 0
    simp at this
  refine ⟨(C139_truth _ ![0] (fun _ _ => 1) _ ?_ hne B hB).1, (C139_truth _ _ (fun _ _ => 1) _ ?_ hne B hB).1⟩
  · intro k c; simp
  · intro k c
    simp only [of_apply, Finset.univ_unique, Finset.sum_singleton, Fin.default_eq_zero, cons_val_fin_one, mul_one]
    exact (Complex.exp_nat_mul_two_pi_mul_I k).symm

/-- **C139** needs the number of samples: one sample is fitted perfectly by every eigenvalue. -/
theorem C139_few_false (B : (Fin 1 → ℂ) → Matrix (Fin 1) (Fin 1) ℂ)
    (hB : IsComputeB (fun _ : Fin 1 => (0 : ℝ)) (of fun _ _ => 1) B) (β : ℂ) :
    BopStep.error (fun _ : Fin 1 => (0 : ℝ)) (of fun _ _ => 1) B ![β] = some 0 := by
  have hne : (of fun _ _ => 1 : Matrix (Fin 1) (Fin 1) ℂ) ≠ 0 := fun h => by
    have := congrFun (congrFun h 0) 0
    simp at this
  refine (C139_truth _ ![β] (fun _ _ => 1) _ ?_ hne B hB).1
  intro k c; simp

/-- Instance: least-squares solutions exist for all data, so that the hypotheses are met, for example by a decaying
oscillation at four times. -/
example : ∃ B : (Fin 1 → ℂ) → Matrix (Fin 1) (Fin 1) ℂ,
    IsComputeB (fun k : Fin 4 => ((k : ℕ) : ℝ) / 2) (of fun k _ => Complex.exp ((((k : ℕ) : ℝ) / 2 : ℝ) * (-1 + Complex.I))) B ∧
    |(1 / 2 : ℝ) * (-1 + Complex.I).im| < Real.pi := by
  obtain ⟨B, hB⟩ := exists_computeB (l := 1) (fun k : Fin 4 => ((k : ℕ) : ℝ) / 2)
    (of fun k (_ : Fin 1) => Complex.exp ((((k : ℕ) : ℝ) / 2 : ℝ) * (-1 + Complex.I)))
  refine ⟨B, hB, ?_⟩
  have := Real.two_le_pi
  simp [abs_of_pos]
  linarith

end Verif.BopOps
