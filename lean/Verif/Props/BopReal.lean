import Verif.Lemmas.BopReal
import Verif.Lemmas.QrExists
import Verif.Model.BopEigs
import Verif.Props.VarPro
import Verif.Props.Bop

/-!
# Property C154: BOP-DMD of real data
-/

set_option autoImplicit false

namespace Verif.BopRun

open Verif Verif.LinAlg Verif.VarPro Verif.BopStep Verif.RealData Matrix

variable {m l n : ℕ} {fulljac : Bool} {time : Fin m → ℝ} {H : Matrix (Fin m) (Fin n) ℂ}

/-- **C154** (coefficients and forecast). Real data: if the eigenvalues come in conjugate pairs, however they were found, then so
do the coefficients fitted to them, and the forecast is real at all times. -/
theorem C154_forecast (L : Lib l fulljac time H) (hH : IsReal H) (σ : Equiv.Perm (Fin l)) (α : Fin l → ℂ)
    (hal : ∀ j, star (α (σ j)) = α j) (hi' : Injective (phi time α)) :
    (∀ j i, star (L.B α (σ j) i) = L.B α j i) ∧ ∀ ε t i, (forecast ε (L.B α) α t i).im = 0 := by
  have hco : ∀ j i, star (L.B α (σ j) i) = L.B α j i := by
    have e : L.B α = (permM σ)ᴴ * (L.B α).map star := by
      conv_lhs => rw [← funext hal]
      rw [computeB_eq L.isB (injective_phi_conj σ hi'), computeB_eq L.isB hi', phi_conj, linv_mul_right (permM_det σ), permM_inv,
        linv_conj hi', map_star_mul, (isReal_iff H).mp hH, Matrix.mul_assoc]
    intro j i
    conv_rhs => rw [e]
    simp [permM, Matrix.mul_apply, conjTranspose_apply]
  refine ⟨hco, fun ε t i => ?_⟩
  generalize hB : L.B α = B at hco
  have hb : ∀ j, √(∑ i, ‖B (σ j) i‖ ^ 2) = √(∑ i, ‖B j i‖ ^ 2) := by
    intro j
    congr 1
    refine Finset.sum_congr rfl fun i _ => ?_
    rw [← hco j i, norm_star]
  have hterm : ∀ j, star (modes ε B (σ j) i * amps ε B (σ j) * Complex.exp (α (σ j) * t)) =
      modes ε B j i * amps ε B j * Complex.exp (α j * t) := by
    intro j
    have e1 : amps ε B (σ j) = amps ε B j := by
      simp only [amps, Bop.normalise, hb]
      split_ifs <;> rfl
    have e2 : star (modes ε B (σ j) i) = modes ε B j i := by
      simp only [modes, Bop.normalise, hb]
      split_ifs
      · simp
      · simp
      · simp only [Option.getD_some, Complex.star_def, map_div₀, Complex.conj_ofReal]
        congr 1
        exact hco j i
    rw [star_mul', star_mul', e2, e1]
    congr 1
    · rw [Complex.star_def, Complex.conj_ofReal]
    · rw [Complex.star_def, ← Complex.exp_conj, map_mul, Complex.conj_ofReal]
      congr 2
      exact hal j
  have hs : star (forecast ε B α t i) = forecast ε B α t i := by
    unfold forecast Bop.forecast
    rw [star_sum, ← Equiv.sum_comp σ]
    exact Finset.sum_congr rfl fun j _ => hterm j
  exact Complex.conj_eq_iff_im.mp hs

/-- **C154** (one run). Real data, an initial guess in conjugate pairs (`σ` maps every eigenvalue to its partner, possibly itself)
and constraints that respect conjugation: after any number of steps the eigenvalues and the coefficients come in the same
conjugate pairs, and the forecast is real at all times. -/
theorem C154_pairs (L : Lib l fulljac time H) (hH : IsReal H) (levmarq : Bool) (σ : Equiv.Perm (Fin l))
    (push : (Fin l → ℂ) → Fin l → ℂ) (hpush : ∀ α, push (fun j => star (α (σ j))) = fun j => star (push α (σ j)))
    (o : Bop.Opts) (hup : 0 < o.lamup) (hin : 0 < o.initLambda) (init : Fin l → ℂ) (hi : ∀ j, star (init (σ j)) = init j)
    (hinj : ∀ a ∈ (run L levmarq push o init).trace, Injective (phi time a)) :
    (∀ j, star ((run L levmarq push o init).alpha (σ j)) = (run L levmarq push o init).alpha j) ∧
    (∀ j i, star (coeffs L levmarq push o init (σ j) i) = coeffs L levmarq push o init j i) ∧
    ∀ ε t i, (forecast ε (coeffs L levmarq push o init) (run L levmarq push o init).alpha t i).im = 0 := by
  have hrun : run L levmarq push o init = mapRes (fun a j => star (a (σ j))) (run L levmarq push o init) := by
    have := varpro_congr (fun (a : Fin l → ℂ) j => star (a (σ j))) (prob L levmarq push) (prob L levmarq push) o ?_ hup hin
      (fun a => Injective (phi time a)) ?_ ?_ (push init) hinj
    · have e : (fun j => star (push init (σ j))) = push init := by
        rw [← hpush]
        congr 1
        funext j
        exact hi j
      rw [e] at this
      exact this
    · intro a
      simp only [prob, BopStep.error, residual_conj L hH]
      congr 2
      simp only [frobSq, map_apply, Complex.star_def, Complex.normSq_conj]
    · intro a ha lam hlam
      simp only [prob]
      rw [delta_conj L hH levmarq σ ha lam hlam, ← hpush]
      congr 1
      funext j
      simp only [Pi.add_apply, star_add]
    · intro a ha x lam hlam
      refine ⟨?_, mul_pos hlam (max_third_pos _)⟩
      simp only [prob, ratio, residual_conj L hH]
      rw [delta_conj L hH levmarq σ ha lam hlam]
      have hf : ∀ M : Matrix (Fin m) (Fin n) ℂ, frobSq (M.map star) = frobSq M := by
        intro M
        simp only [frobSq, map_apply, Complex.star_def, Complex.normSq_conj]
      rw [hf, hf]
      have e : ((star fun j => star (delta L levmarq a lam (σ j))) ⬝ᵥ ((jac L fun j => star (a (σ j)))ᴴ *ᵥ
          fun p => ((BopStep.residual time H L.B a).map star) p.1 p.2)).re =
          (star (delta L levmarq a lam) ⬝ᵥ ((jac L a)ᴴ *ᵥ fun p => BopStep.residual time H L.B a p.1 p.2)).re := by
        have e1 : ((star fun j => star (delta L levmarq a lam (σ j))) ⬝ᵥ ((jac L fun j => star (a (σ j)))ᴴ *ᵥ
          fun p => ((BopStep.residual time H L.B a).map star) p.1 p.2)) =
          star (star (delta L levmarq a lam) ⬝ᵥ ((jac L a)ᴴ *ᵥ fun p => BopStep.residual time H L.B a p.1 p.2)) := by
          simp only [dotProduct, mulVec, conjTranspose_apply, star_sum, star_mul', Pi.star_apply, star_star,
            jac_conj L hH σ ha, map_apply]
          exact Equiv.sum_comp σ fun j => delta L levmarq a lam j * ∑ x, jac L a x j * star (BopStep.residual time H L.B a x.1 x.2)
        rw [e1, Complex.star_def, Complex.conj_re]
      rw [e]
  have hal : ∀ j, star ((run L levmarq push o init).alpha (σ j)) = (run L levmarq push o init).alpha j := by
    intro j
    exact (congrFun (congrArg Bop.Res.alpha hrun) j).symm
  have hmem : (run L levmarq push o init).alpha ∈ (run L levmarq push o init).trace :=
    alpha_mem _ _ _ _ _ _ _ _ (List.mem_singleton_self _)
  exact ⟨hal, C154_forecast L hH σ _ hal (hinj _ hmem)⟩

/-- **C154** (constraints). `"stable"`, `"imag"` and no constraint respect conjugation, whatever the pairing. -/
theorem C154_constraints (k : BopEigs.Constraints) (σ : Equiv.Perm (Fin l)) (α : Fin l → ℂ) :
    (fun j => BopEigs.pushLast k ((fun j => star (α (σ j))) j)) = fun j => star ((fun j => BopEigs.pushLast k (α j)) (σ j)) := by
  funext j
  simp only [BopEigs.pushLast, BopEigs.pushStable, BopEigs.pushImag, Complex.star_def, Complex.conj_re, Complex.conj_im]
  split_ifs <;> simp

/-- The same numbers with the same multiplicities are a permutation. -/
theorem exists_perm_of_map (f g : Fin l → ℂ) (h : Finset.univ.val.map f = Finset.univ.val.map g) :
    ∃ σ : Equiv.Perm (Fin l), ∀ j, f (σ j) = g j := by
  have hc : ∀ v, Nonempty ({j // g j = v} ≃ {j // f j = v}) := by
    intro v
    refine ⟨Fintype.equivOfCardEq ?_⟩
    have := congrArg (Multiset.count v) h
    rw [Multiset.count_map, Multiset.count_map] at this
    rw [Fintype.card_subtype, Fintype.card_subtype]
    simp only [Finset.card_def, Finset.filter_val]
    simp only [eq_comm (a := v)] at this
    exact this.symm
  have e := fun v => (hc v).some
  refine ⟨(Equiv.sigmaFiberEquiv g).symm.trans ((Equiv.sigmaCongrRight fun v => (e v)).trans (Equiv.sigmaFiberEquiv f)), fun j => ?_⟩
  simp only [Equiv.trans_apply, Equiv.sigmaFiberEquiv, Equiv.coe_fn_mk, Equiv.coe_fn_symm_mk, Equiv.sigmaCongrRight_apply]
  exact (e (g j) ⟨j, rfl⟩).2

/-- **C154** (initial guess). For real snapshots (and real singular vectors, which LAPACK returns for real data) the eigenvalues
of the matrix of `_initialize_alpha`, listed in any order, come in conjugate pairs: there is a pairing `σ` as `C154_pairs` asks. -/
theorem C154_guess {t q r : ℕ} (tm : Fin (t + 1) → ℝ) (D : Matrix (Fin q) (Fin (t + 1)) ℂ) (U : Matrix (Fin q) (Fin r) ℂ)
    (s : Fin r → ℝ) (V : Matrix (Fin t) (Fin r) ℂ) (hD : IsReal D) (hU : IsReal U) (hV : IsReal V) (init : Fin r → ℂ)
    (hi : (initialMatrix tm D U s V).charpoly.roots = Finset.univ.val.map init) :
    ∃ σ : Equiv.Perm (Fin r), ∀ j, star (init (σ j)) = init j := by
  have hS : IsReal (slopes tm D) := by
    intro i j
    have : slopes tm D i j = (((D i j.succ).re - (D i j.castSucc).re) / (tm j.succ - tm j.castSucc) : ℝ) := by
      rw [slopes, Matrix.of_apply]
      have e1 : D i j.succ = ((D i j.succ).re : ℂ) := Complex.ext rfl (hD _ _)
      have e2 : D i j.castSucc = ((D i j.castSucc).re : ℂ) := Complex.ext rfl (hD _ _)
      rw [e1, e2]
      push_cast
      simp
    rw [this, Complex.ofReal_im]
  have hA : IsReal (initialMatrix tm D U s V) :=
    ((hU.conjTranspose.mul hS).mul hV).mul ((isReal_iff _).mpr (rdiag_real _))
  have hm : (initialMatrix tm D U s V).charpoly.map (starRingEnd ℂ) = (initialMatrix tm D U s V).charpoly := by
    have := Matrix.charpoly_map (initialMatrix tm D U s V) (starRingEnd ℂ)
    rw [← this]
    congr 1
    exact (isReal_iff _).mp hA
  have hr : (Finset.univ.val.map fun j => star (init j)) = Finset.univ.val.map init := by
    have h1 := (IsAlgClosed.splits (initialMatrix tm D U s V).charpoly).roots_map (starRingEnd ℂ)
    rw [hm, hi, Multiset.map_map] at h1
    exact h1.symm
  exact exists_perm_of_map _ _ hr

/-- A run that starts at a perfect fit stays there. -/
theorem perfect_trace (L : Lib l fulljac time H) (levmarq : Bool) (push : (Fin l → ℂ) → Fin l → ℂ) (o : Bop.Opts)
    (init : Fin l → ℂ) (hres : BopStep.residual time H L.B (push init) = 0) (hHn : √(frobSq H) ≠ 0) :
    ∀ a ∈ (run L levmarq push o init).trace, a = push init := by
  obtain ⟨older, h1, h2, h3, h4, -⟩ := Bop.C44_descent_partial (prob L levmarq push) o
    (fun a => √(frobSq (BopStep.residual time H L.B a)) / √(frobSq H))
    (fun a => by simp only [prob, BopStep.error, Bop.relError, if_neg hHn]) (push init)
  intro a ha
  change a ∈ (Bop.varpro (prob L levmarq push) o (push init)).trace at ha
  obtain ⟨ys, hys⟩ := List.getLast?_eq_some_iff.mp h2
  rw [hys] at ha h4
  rcases List.mem_append.mp ha with ha | ha
  · have hp : (ys ++ [push init]).Pairwise fun x y => √(frobSq (BopStep.residual time H L.B x)) / √(frobSq H) <
        √(frobSq (BopStep.residual time H L.B y)) / √(frobSq H) := by
      have := h4.imp (S := fun x y => √(frobSq (BopStep.residual time H L.B x)) / √(frobSq H) <
        √(frobSq (BopStep.residual time H L.B y)) / √(frobSq H)) fun _ _ h => h.1
      have ht : IsTrans (Fin l → ℂ) fun x y => √(frobSq (BopStep.residual time H L.B x)) / √(frobSq H) <
        √(frobSq (BopStep.residual time H L.B y)) / √(frobSq H) := ⟨fun _ _ _ => lt_trans⟩
      exact List.isChain_iff_pairwise.mp this
    have := (List.pairwise_append.mp hp).2.2 a ha (push init) (List.mem_singleton_self _)
    rw [hres] at this
    have h0 : √(frobSq (0 : Matrix (Fin m) (Fin n) ℂ)) / √(frobSq H) = 0 := by simp [frobSq]
    rw [h0] at this
    exact absurd this (not_lt.mpr (by positivity))
  · exact List.mem_singleton.mp ha

/-- The hypotheses of `C154_pairs` hold for three samples of the cosine, the guess `i, -i` and the swap of the two. -/
example : ∃ (H : Matrix (Fin 3) (Fin 1) ℂ) (σ : Equiv.Perm (Fin 2)) (init : Fin 2 → ℂ), IsReal H ∧ H ≠ 0 ∧
    (∀ j, star (init (σ j)) = init j) ∧ init 0 = Complex.I ∧ Nonempty (Lib 2 true (fun i : Fin 3 => (i : ℝ)) H) ∧
    ∀ (L : Lib 2 true (fun i : Fin 3 => (i : ℝ)) H) (o : Bop.Opts), ∀ a ∈ (run L true id o init).trace,
      Injective (phi (fun i : Fin 3 => (i : ℝ)) a) := by
  obtain ⟨H, hH⟩ : ∃ H : Matrix (Fin 3) (Fin 1) ℂ, H = Matrix.of fun (i : Fin 3) (_ : Fin 1) => Complex.cos ((i : ℕ) : ℝ) := ⟨_, rfl⟩
  have hHd : H = phi (fun i : Fin 3 => (i : ℝ)) ![Complex.I, -Complex.I] *
      (Matrix.of fun _ _ => 1 / 2 : Matrix (Fin 2) (Fin 1) ℂ) := by
    rw [hH]
    ext i j
    rw [Matrix.mul_apply, Fin.sum_univ_two]
    simp only [phi, Matrix.of_apply, Complex.cos, Matrix.cons_val_zero, Matrix.cons_val_one]
    ring_nf
  have hre : IsReal H := by
    intro i j
    rw [hH, Matrix.of_apply, ← Complex.ofReal_cos, Complex.ofReal_im]
  have h0 : H 0 0 = 1 := by rw [hH]; simp
  have hinj : Injective (phi (fun i : Fin 3 => (i : ℝ)) (![Complex.I, -Complex.I] : Fin 2 → ℂ)) := by
    refine phi_injective 0 1 _ (fun i => by simp) _ ?_ (by norm_num)
    have hne : Complex.exp Complex.I ≠ Complex.exp (-Complex.I) := by
      intro h
      have := congrArg Complex.im h
      rw [show Complex.I = ((1 : ℝ) : ℂ) * Complex.I by simp, Complex.exp_ofReal_mul_I_im, ← neg_mul, ← Complex.ofReal_neg,
        Complex.exp_ofReal_mul_I_im, Real.sin_neg] at this
      have hp : 0 < Real.sin 1 := Real.sin_pos_of_pos_of_lt_pi one_pos (by linarith [Real.two_le_pi])
      linarith
    intro i j h
    fin_cases i <;> fin_cases j <;> simp at h ⊢
    · exact hne h
    · exact hne h.symm
  refine ⟨H, Equiv.swap 0 1, ![Complex.I, -Complex.I], hre, fun h => by rw [h] at h0; simp at h0, fun j => ?_, rfl,
    exists_lib _ (by norm_num) _ _, fun L o a ha => ?_⟩
  · fin_cases j <;> simp
  · have hres : BopStep.residual (fun i : Fin 3 => (i : ℝ)) H L.B ![Complex.I, -Complex.I] = 0 := by
      rw [residual_eq L.isB hinj, hHd, ← Matrix.mul_assoc, Matrix.mul_assoc (phi _ _) (linv _), linv_mul hinj, Matrix.mul_one,
        sub_self]
    have hHn : √(frobSq H) ≠ 0 := by
      intro h
      rw [Real.sqrt_eq_zero (frobSq_nonneg _), frobSq_eq_zero] at h
      rw [h] at h0
      simp at h0
    rw [perfect_trace L true id o _ hres hHn a ha]
    exact hinj

end Verif.BopRun
