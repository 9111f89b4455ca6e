import Verif.Spec.RealData
import Verif.Lemmas.Linear
import Mathlib.LinearAlgebra.Matrix.Charpoly.Basic
import Mathlib.LinearAlgebra.Matrix.Charpoly.Coeff
import Mathlib.Analysis.Complex.Polynomial.Basic

/-!
# Property C133: real data give conjugate spectra and real reconstructions
-/

set_option autoImplicit false

namespace Verif.RealData

open Verif Verif.LinAlg Verif.Time Verif.Bitmask Verif.Operator Matrix

variable {m n r : Type} [Fintype m] [Fintype n] [Fintype r] [DecidableEq r] [DecidableEq n]

omit [Fintype m] [Fintype n] [DecidableEq n] in
theorem isReal_iff (M : Matrix m n ℂ) : IsReal M ↔ M.map star = M := by
  constructor
  · intro h
    ext i j
    exact Complex.conj_eq_iff_im.mpr (h i j)
  · intro h i j
    exact Complex.conj_eq_iff_im.mp (congrFun (congrFun h i) j)

omit [Fintype m] [DecidableEq n] in
theorem map_star_mul {k : Type} (A : Matrix m n ℂ) (B : Matrix n k ℂ) :
    (A * B).map star = A.map star * B.map star := by
  ext i j
  simp [Matrix.mul_apply, map_sum]

omit [Fintype r] in
theorem rdiag_real (s : r → ℝ) : (rdiag s).map star = rdiag s := by
  ext i j
  by_cases h : i = j
  · subst h; simp [rdiag]
  · simp [rdiag, h]

omit [DecidableEq r] [DecidableEq n] [Fintype m] [Fintype r] in
theorem IsReal.mul {k : Type} {A : Matrix m n ℂ} {B : Matrix n k ℂ} (hA : IsReal A) (hB : IsReal B) :
    IsReal (A * B) := by
  rw [isReal_iff] at *
  rw [map_star_mul, hA, hB]

omit [Fintype m] [Fintype n] [DecidableEq n] in
theorem IsReal.conjTranspose {A : Matrix m n ℂ} (hA : IsReal A) : IsReal Aᴴ := by
  intro i j
  simp [conjTranspose_apply, hA j i]

/-- The eigenvalues of a real matrix come in conjugate pairs. -/
theorem real_spectrum {r : Type} [Fintype r] [DecidableEq r] {A : Matrix r r ℂ} (hA : IsReal A) (W : Matrix r r ℂ) (eigs : r → ℂ)
    (hW : IsUnit W.det) (h : A * W = W * diagonal eigs) :
    (Finset.univ.val.map fun i => star (eigs i)) = Finset.univ.val.map eigs := by
  have hc : A.charpoly = (Finset.univ.val.map fun i => Polynomial.X - Polynomial.C (eigs i)).prod := by
    obtain ⟨u, hu⟩ := (Matrix.isUnit_iff_isUnit_det W).mpr hW
    have e : A = u.val * diagonal eigs * u.val⁻¹ := by
      rw [hu, ← h, Matrix.mul_assoc, mul_nonsing_inv _ hW, Matrix.mul_one]
    rw [e, Matrix.charpoly_units_conj, Matrix.charpoly_diagonal]
    rfl
  have hm : A.charpoly.map (starRingEnd ℂ) = A.charpoly := by
    have := Matrix.charpoly_map A (starRingEnd ℂ)
    rw [← this]
    congr 1
    exact (isReal_iff A).mp hA
  rw [hc, Polynomial.map_multiset_prod, Multiset.map_map] at hm
  have e : (Polynomial.map (starRingEnd ℂ) ∘ fun i => Polynomial.X - Polynomial.C (eigs i)) =
      fun i => Polynomial.X - Polynomial.C (star (eigs i)) := by
    funext i
    simp
  rw [e] at hm
  have hroots : ∀ f : r → ℂ, (Finset.univ.val.map fun i => Polynomial.X - Polynomial.C (f i)).prod.roots =
      Finset.univ.val.map f := by
    intro f
    have := Polynomial.roots_multiset_prod_X_sub_C (Finset.univ.val.map f)
    rwa [Multiset.map_map] at this
  have := congrArg Polynomial.roots hm
  rwa [hroots, hroots] at this

/-- **C133** (operator): for real data, the reduced operator is real, so its eigenvalues come in conjugate pairs:
the eigenvalues and their conjugates are the same numbers with the same multiplicities. `U`, `V` are the singular
vectors, real for real data. -/
theorem C133_spectrum (tik : Option (ℝ × ℝ)) (U : Matrix m r ℂ) (s : r → ℝ) (V : Matrix n r ℂ) (Y : Matrix m n ℂ)
    (hU : IsReal U) (hV : IsReal V) (hY : IsReal Y) :
    IsReal (leastSquareOperator tik U s V Y) ∧
    ∀ (W : Matrix r r ℂ) (eigs : r → ℂ), IsUnit W.det →
      leastSquareOperator tik U s V Y * W = W * diagonal eigs →
      (Finset.univ.val.map fun i => star (eigs i)) = Finset.univ.val.map eigs := by
  have hA : IsReal (leastSquareOperator tik U s V Y) :=
    ((hU.conjTranspose.mul hY).mul hV).mul ((isReal_iff _).mpr (rdiag_real _))
  exact ⟨hA, fun W eigs hW h => real_spectrum hA W eigs hW h⟩

/-- **C133** (modes): eigenvectors in conjugate pairs give modes in conjugate pairs, projected and exact, with and
without regularisation. -/
theorem C133_modes (exact : Bool) (tik : Option (ℝ × ℝ)) (U : Matrix m r ℂ) (s : r → ℝ) (V : Matrix n r ℂ)
    (Y : Matrix m n ℂ) (hU : IsReal U) (hV : IsReal V) (hY : IsReal Y) (σ : Equiv.Perm r) (W : Matrix r r ℂ)
    (eigs : r → ℂ) (h : Paired σ W eigs) : Paired σ (computeModes exact tik Y U s V W) eigs := by
  have key : ∀ B : Matrix m r ℂ, IsReal B → Paired σ (B * W) eigs := by
    intro B hB
    refine ⟨fun i j => ?_, h.val⟩
    simp only [Matrix.mul_apply, star_sum, star_mul']
    refine Finset.sum_congr rfl fun k _ => ?_
    rw [h.vec, show star (B i k) = B i k from Complex.conj_eq_iff_im.mpr (hB i k)]
  cases exact
  · exact key U hU
  · exact key _ ((hY.mul hV).mul ((isReal_iff _).mpr (rdiag_real _)))

/-- **C133** (amplitudes): the amplitudes fitted to one real snapshot, by the pseudo-inverse of the modes as
in `lstsq`, come in the same pairs, whatever the rank of the modes. -/
theorem C133_amplitudes [DecidableEq m] (σ : Equiv.Perm r) (modes : Matrix m r ℂ) (eigs : r → ℂ)
    (h : Paired σ modes eigs) (P : Matrix r m ℂ) (hP : IsPinv modes P) (x : m → ℂ) (hx : ∀ i, (x i).im = 0) (j : r) :
    star ((P *ᵥ x) j) = (P *ᵥ x) (σ j) := by
  have hQ : IsPinv modes (of fun k i => star (P (σ.symm k) i)) := by
    have hm : ∀ i k, modes i k = star (modes i (σ.symm k)) := fun i k => by
      rw [h.vec, Equiv.apply_symm_apply]
    have e1 : modes * (of fun k i => star (P (σ.symm k) i)) = (modes * P).map star := by
      ext i j
      simp only [Matrix.mul_apply, of_apply, map_apply, star_sum, star_mul']
      rw [← Equiv.sum_comp σ.symm fun k => star (modes i k) * star (P k j)]
      exact Finset.sum_congr rfl fun k _ => by rw [← hm]
    have e2 : (of fun k i => star (P (σ.symm k) i)) * modes =
        of fun k l => star ((P * modes) (σ.symm k) (σ.symm l)) := by
      ext k l
      simp only [Matrix.mul_apply, of_apply, star_sum, star_mul']
      exact Finset.sum_congr rfl fun i _ => by rw [hm i l]
    refine ⟨?_, ?_, ?_, ?_⟩
    · rw [e1]
      ext i k
      have := congrFun (congrFun hP.apa i) (σ.symm k)
      rw [hm i k, ← this]
      simp only [Matrix.mul_apply, map_apply, star_sum, star_mul']
      exact Finset.sum_congr rfl fun a _ => by rw [hm a k]
    · rw [e2]
      ext k i
      have := congrFun (congrFun hP.pap (σ.symm k)) i
      simp only [of_apply, ← this]
      rw [Matrix.mul_apply, Matrix.mul_apply, star_sum,
        ← Equiv.sum_comp σ.symm fun a => star ((P * modes) (σ.symm k) a * P a i)]
      simp only [of_apply, star_mul']
    · rw [e1]
      ext i j
      have := congrFun (congrFun hP.ap i) j
      simp only [conjTranspose_apply, map_apply, star_star] at this ⊢
      rw [← this, star_star]
    · rw [e2]
      ext k l
      have := congrFun (congrFun hP.pa (σ.symm k)) (σ.symm l)
      simp only [conjTranspose_apply, of_apply, star_star] at this ⊢
      rw [← this, star_star]
  have hu := hP.unique hQ
  have hc : ∀ i, star (P j i) = P (σ j) i := by
    intro i
    have := congrFun (congrFun hu (σ j)) i
    rw [this]
    simp
  simp only [mulVec, dotProduct, star_sum, star_mul']
  refine Finset.sum_congr rfl fun i _ => ?_
  rw [hc, show star (x i) = x i from Complex.conj_eq_iff_im.mpr (hx i)]

/-- **C133** (optimal amplitudes): so do the amplitudes of `opt=True` and `exact=True`, which solve `P b = q`. -/
theorem C133_optimal {N : ℕ} (σ : Equiv.Perm r) (modes : Matrix m r ℂ) (eigs : r → ℂ)
    (h : Paired σ modes eigs) (snaps : Matrix m (Fin N) ℂ) (hs : IsReal snaps) (b : r → ℂ)
    (hu : IsUnit (optP modes (vander eigs N)).det)
    (hb : optP modes (vander eigs N) *ᵥ b = optQExact modes (vander eigs N) snaps) (j : r) :
    star (b j) = b (σ j) := by
  have hv : ∀ i k, star (vander eigs N i k) = vander eigs N (σ i) k := fun i k => by
    simp only [vander, star_pow, h.val]
  have hP : ∀ i k, star (optP modes (vander eigs N) i k) = optP modes (vander eigs N) (σ i) (σ k) := by
    intro i k
    simp only [optP, star_mul', star_star, Matrix.mul_apply, conjTranspose_apply, star_sum, ← h.vec, ← hv]
  have hq : ∀ i, star (optQExact modes (vander eigs N) snaps i) = optQExact modes (vander eigs N) snaps (σ i) := by
    intro i
    simp only [optQExact, star_star, Matrix.mul_apply, conjTranspose_apply, star_sum, star_mul', ← h.vec, ← hv]
    refine Finset.sum_congr rfl fun a _ => ?_
    congr 1
    refine Finset.sum_congr rfl fun c _ => ?_
    rw [show star (snaps a c) = snaps a c from Complex.conj_eq_iff_im.mpr (hs a c)]
  have hc : optP modes (vander eigs N) *ᵥ (fun k => star (b (σ.symm k))) =
      optQExact modes (vander eigs N) snaps := by
    funext i
    have := congrArg star (congrFun hb (σ.symm i))
    rw [hq, Equiv.apply_symm_apply] at this
    rw [← this]
    simp only [mulVec, dotProduct, star_sum, star_mul', hP, Equiv.apply_symm_apply]
    rw [← Equiv.sum_comp σ]
    simp
  have e : ∀ c, optP modes (vander eigs N) *ᵥ c = optQExact modes (vander eigs N) snaps →
      c = (optP modes (vander eigs N))⁻¹ *ᵥ optQExact modes (vander eigs N) snaps := by
    intro c h
    rw [← h, mulVec_mulVec, nonsing_inv_mul _ hu, one_mulVec]
  have := congrFun ((e _ hc).trans (e _ hb).symm) (σ j)
  simpa using this

theorem gather_ofFn_sum {ι : Type} (p : ℚ) : ∀ (q : ℕ) (mask : Fin q → Bool) (Φ : Fin q → ι → ℂ) (eigs b : Fin q → ℂ),
    dotCol (gather (List.ofFn mask) (List.ofFn Φ))
      (dynamicsAt (gather (List.ofFn mask) (List.ofFn eigs)) (gather (List.ofFn mask) (List.ofFn b)) p) =
    fun x => ∑ i, if mask i then Φ i x * (npPow (eigs i) p * b i) else 0
  | 0, _, _, _, _ => by simp [gather, dotCol]; rfl
  | q + 1, mask, Φ, eigs, b => by
    have ih := gather_ofFn_sum p q (fun i => mask i.succ) (fun i => Φ i.succ) (fun i => eigs i.succ)
      (fun i => b i.succ)
    simp only [List.ofFn_succ, gather]
    funext x
    rw [Fin.sum_univ_succ]
    cases hm : mask 0 with
    | false =>
      simp only [Bool.false_eq_true, if_false, zero_add]
      exact congrFun ih x
    | true =>
      simp only [if_true]
      have ih' := congrFun ih x
      simp only [dotCol, dynamicsAt, List.zipWith_cons_cons, List.sum_cons, Pi.add_apply] at ih' ⊢
      rw [ih']

theorem npPow_star (z : ℂ) (p : ℚ) (h : (∃ k : ℤ, p = k) ∨ ¬ (z.re < 0 ∧ z.im = 0)) :
    star (npPow z p) = npPow (star z) p := by
  rcases h with ⟨k, rfl⟩ | h
  · rw [npPow_int, npPow_int, star_zpow₀]
  · have ha : z.arg ≠ Real.pi := by
      intro ha
      rw [Complex.arg_eq_pi_iff] at ha
      exact h ha
    unfold npPow
    have := Complex.cpow_conj z (p : ℂ) ha
    rw [Complex.star_def, Complex.conj_cpow _ _ ha]
    simp

/-- The reconstruction with a selection. -/
theorem reconstructed_mask {ι : Type} {q : ℕ} (Φ : Fin q → ι → ℂ) (eigs b : Fin q → ℂ) (mask : Fin q → Bool)
    (orig w : Window) (hdt : w.dt ≠ 0) (opt : Opt) (nsnap : ℕ) :
    reconstructed ((afterFit (List.ofFn Φ) (List.ofFn eigs) (List.ofFn b)).setMask (.bool1 (List.ofFn mask))).2
      orig w opt nsnap = .ok ((steps w).map fun t => fun x => ∑ i, if mask i then
        Φ i x * (npPow (eigs i) (exponent orig opt nsnap t) * b i) else 0) := by
  have hr := Rel.init (List.ofFn Φ) (List.ofFn eigs) (List.ofFn b) (n := q) (by simp) (by simp) (by simp)
  have hst := (hr.step (.setMask (.bool1 (List.ofFn mask)))).2
  have hsp : ((Spec.afterFit (List.ofFn Φ) (List.ofFn eigs) (List.ofFn b)).step
      (.setMask (.bool1 (List.ofFn mask)))).2 =
      { (Spec.afterFit (List.ofFn Φ) (List.ofFn eigs) (List.ofFn b)) with mask := List.ofFn mask } := by
    simp [Spec.step, Spec.afterFit]
  rw [hsp] at hst
  have := reconstructed_rel hst orig w opt nsnap
  rw [timesteps_ok w hdt] at this
  refine this.trans ?_
  simp only [Except.map, Spec.afterFit, gather_ofFn_sum]

/-- **C133** (reconstruction), in part: if modes, eigenvalues and amplitudes come in conjugate pairs, and the
selection keeps or drops both of each pair, every column of the reconstruction is real, over every window whose times
are whole numbers of time steps away from the reference, or if there is no negative real eigenvalue. Missing: other
times with negative eigenvalues (`C133_fraction_false`). -/
theorem C133_reconstruction_partial {ι : Type} {q : ℕ} (σ : Equiv.Perm (Fin q)) (Φ : Fin q → ι → ℂ)
    (eigs b : Fin q → ℂ) (h : Paired σ (of fun x i => Φ i x) eigs) (hb : ∀ i, star (b i) = b (σ i))
    (mask : Fin q → Bool) (hm : ∀ i, mask (σ i) = mask i) (orig w : Window) (hdt : w.dt ≠ 0) (opt : Opt) (nsnap : ℕ)
    (ht : (∀ ts, w.timesteps = .ok ts → ∀ t ∈ ts, ∃ k : ℤ, exponent orig opt nsnap t = k) ∨
      ∀ i, ¬ ((eigs i).re < 0 ∧ (eigs i).im = 0)) :
    ∃ cols, reconstructed ((afterFit (List.ofFn Φ) (List.ofFn eigs) (List.ofFn b)).setMask
        (.bool1 (List.ofFn mask))).2 orig w opt nsnap = .ok cols ∧ ∀ c ∈ cols, ∀ x, (c x).im = 0 := by
  refine ⟨_, reconstructed_mask Φ eigs b mask orig w hdt opt nsnap, ?_⟩
  intro c hc x
  obtain ⟨t, htm, rfl⟩ := List.mem_map.mp hc
  refine Complex.conj_eq_iff_im.mp ?_
  beta_reduce
  rw [map_sum]
  rw [← Equiv.sum_comp σ fun i => if mask i then Φ i x * (npPow (eigs i) (exponent orig opt nsnap t) * b i) else 0]
  refine Finset.sum_congr rfl fun i _ => ?_
  rw [hm]
  split_ifs
  · have h1 := h.vec x i
    simp only [of_apply] at h1
    have h2 := npPow_star (eigs i) (exponent orig opt nsnap t) (by
      rcases ht with ht | ht
      · exact .inl (ht _ (timesteps_ok w hdt) t htm)
      · exact .inr (ht i))
    rw [← h1, ← h.val, ← hb, ← h2]
    simp
  · simp

/-- **C133** (the whole fit), in part: real snapshots, real singular vectors and eigenvectors in conjugate pairs give a
real reconstruction at all whole numbers of time steps, for exact and projected modes, with and without
regularisation, whatever the amplitudes are fitted to (`P` is the pseudo-inverse of the modes). Missing: as in
`C133_reconstruction_partial`. -/
theorem C133_fit_partial [DecidableEq m] {q : ℕ} (exact : Bool) (tik : Option (ℝ × ℝ)) (U : Matrix m (Fin q) ℂ)
    (s : Fin q → ℝ) (V : Matrix n (Fin q) ℂ) (Y : Matrix m n ℂ) (hU : IsReal U) (hV : IsReal V) (hY : IsReal Y)
    (σ : Equiv.Perm (Fin q)) (W : Matrix (Fin q) (Fin q) ℂ) (eigs : Fin q → ℂ) (h : Paired σ W eigs)
    (P : Matrix (Fin q) m ℂ) (hP : IsPinv (computeModes exact tik Y U s V W) P) (x0 : m → ℂ)
    (hx : ∀ i, (x0 i).im = 0) (orig w : Window) (hdt : w.dt ≠ 0) (opt : Opt) (nsnap : ℕ)
    (ht : ∀ ts, w.timesteps = .ok ts → ∀ t ∈ ts, ∃ k : ℤ, exponent orig opt nsnap t = k) :
    ∃ cols, reconstructed ((afterFit (List.ofFn fun j => fun i => computeModes exact tik Y U s V W i j)
        (List.ofFn eigs) (List.ofFn (P *ᵥ x0))).setMask (.bool1 (List.ofFn fun _ : Fin q => true))).2
        orig w opt nsnap = .ok cols ∧ ∀ c ∈ cols, ∀ x, (c x).im = 0 := by
  have hm := C133_modes exact tik U s V Y hU hV hY σ W eigs h
  exact C133_reconstruction_partial σ (fun j i => computeModes exact tik Y U s V W i j) eigs (P *ᵥ x0)
    ⟨hm.vec, hm.val⟩ (fun j => C133_amplitudes σ _ eigs hm P hP x0 hx j) (fun _ => true) (fun _ => rfl) orig w hdt opt
    nsnap (.inl ht)

/-- **C133** is false for fractions of the time step: the real snapshots 1, -1, 1 have the eigenvalue -1; at the
time 1/2 the reconstruction is the imaginary unit. -/
theorem C133_fraction_false :
    let o : Obj (Fin 1 → ℂ) ℂ ℂ := afterFit [fun _ => 1] [-1] [1]
    (∀ k : ℕ, reconstructed o (fitWindow 3) ⟨k, k, 1⟩ (.bool false) 3 = .ok [fun _ => (-1) ^ k]) ∧
    reconstructed o (fitWindow 3) ⟨1 / 2, 1 / 2, 1⟩ (.bool false) 3 = .ok [fun _ => Complex.I] := by
  have key : ∀ t : ℚ, reconstructed (afterFit [fun _ : Fin 1 => (1 : ℂ)] [-1] [1] : Obj (Fin 1 → ℂ) ℂ ℂ) (fitWindow 3)
      ⟨t, t, 1⟩ (.bool false) 3 = .ok [fun _ => npPow (-1) t] := by
    intro t
    have hr := Rel.init [fun _ : Fin 1 => (1 : ℂ)] [(-1 : ℂ)] [(1 : ℂ)] (n := 1) rfl rfl rfl
    rw [reconstructed_rel hr, timesteps_ok _ (by norm_num)]
    have hst : steps ⟨t, t, 1⟩ = [t] := by
      have : (⌈(t + 1 - t) / 1⌉).toNat = 1 := by
        rw [show (t + 1 - t) / 1 = (1 : ℚ) by ring]; simp
      simp only [steps, this]
      simp
    rw [hst]
    simp only [Except.map, List.map_cons, List.map_nil, Spec.afterFit, List.length_cons, List.length_nil,
      List.replicate, gather, if_true, dotCol, dynamicsAt, List.zipWith_cons_cons, List.zipWith_nil_left,
      List.sum_cons, List.sum_nil, exponent, translate, fitWindow]
    congr 2
    funext x
    simp
  refine ⟨fun k => ?_, ?_⟩
  · rw [key]
    congr 2
    funext _
    have := npPow_int (-1) k
    push_cast at this
    rw [this, zpow_natCast]
  · rw [key]
    congr 2
    funext _
    unfold npPow
    rw [Complex.cpow_def_of_ne_zero (by norm_num), Complex.log_neg_one]
    push_cast
    rw [show (Real.pi : ℂ) * Complex.I * (1 / 2) = Real.pi / 2 * Complex.I by ring, Complex.exp_pi_div_two_mul_I]

/-- **C133** is false for `forward_backward=True`: for the real data `X`, `Y` below and rank 1, the forward operator is
`1/2` and the backward one `-1/3`, so that every square root gives a single imaginary eigenvalue. -/
theorem C133_forward_backward_false :
    ∃ (X Y : Matrix (Fin 2) (Fin 2) ℂ) (U bU V bV : Matrix (Fin 2) (Fin 2) ℂ) (s bs : Fin 2 → ℝ),
      IsReal X ∧ IsReal Y ∧ IsSVD X U s V ∧ IsSVD Y bU bs bV ∧ s 1 ≤ s 0 ∧ bs 1 ≤ bs 0 ∧
      ∀ S : Matrix (Fin 1) (Fin 1) ℂ, IsForwardBackward
        (leastSquareOperator none (lead 1 (by norm_num) U) (s ∘ Fin.castLE (by norm_num)) (lead 1 (by norm_num) V) Y)
        (backwardOperator none (lead 1 (by norm_num) bU) (bs ∘ Fin.castLE (by norm_num)) (lead 1 (by norm_num) bV) X)
        S → (S 0 0).re = 0 ∧ (S 0 0).im ≠ 0 := by
  refine ⟨!![2, 0; 0, 1], !![1, 0; 0, -3], 1, !![0, 1; -1, 0], 1, !![0, 1; 1, 0], ![2, 1], ![3, 1],
    ?_, ?_, ?_, ?_, by norm_num, by norm_num, ?_⟩
  · intro i j; fin_cases i <;> fin_cases j <;> simp
  · intro i j; fin_cases i <;> fin_cases j <;> simp
  · refine ⟨?_, by simp, by simp, ?_⟩
    · ext i j; fin_cases i <;> fin_cases j <;> simp [rdiag]
    · intro i; fin_cases i <;> simp
  · refine ⟨?_, ?_, ?_, ?_⟩
    · have hd : rdiag ![3, 1] = (!![3, 0; 0, 1] : Matrix (Fin 2) (Fin 2) ℂ) := by
        ext i j; fin_cases i <;> fin_cases j <;> simp [rdiag]
      rw [hd]
      ext i j; fin_cases i <;> fin_cases j <;> simp [Matrix.mul_apply, Fin.sum_univ_two, conjTranspose_apply]
    · ext i j; fin_cases i <;> fin_cases j <;> simp [Matrix.mul_apply, Fin.sum_univ_two, conjTranspose_apply]
    · ext i j; fin_cases i <;> fin_cases j <;> simp [Matrix.mul_apply, Fin.sum_univ_two, conjTranspose_apply]
    · intro i; fin_cases i <;> simp
  · intro S h
    unfold IsForwardBackward at h
    have h0 := congrFun (congrFun h 0) 0
    have hA : leastSquareOperator none (lead 1 (by norm_num) (1 : Matrix (Fin 2) (Fin 2) ℂ))
        ((![2, 1] : Fin 2 → ℝ) ∘ Fin.castLE (by norm_num)) (lead 1 (by norm_num) (1 : Matrix (Fin 2) (Fin 2) ℂ))
        !![1, 0; 0, -3] = (of fun _ _ => 1 / 2 : Matrix (Fin 1) (Fin 1) ℂ) := by
      ext i j; fin_cases i; fin_cases j
      simp [leastSquareOperator, tikSigma, rdiag, Matrix.mul_apply, Fin.sum_univ_two, lead]
      show (1 : Matrix (Fin 2) (Fin 2) ℂ) 0 0 * (1 : Matrix (Fin 2) (Fin 2) ℂ) 0 0 = 1
      simp
    have hB : backwardOperator none (lead 1 (by norm_num) (!![0, 1; -1, 0] : Matrix (Fin 2) (Fin 2) ℂ))
        ((![3, 1] : Fin 2 → ℝ) ∘ Fin.castLE (by norm_num))
        (lead 1 (by norm_num) (!![0, 1; 1, 0] : Matrix (Fin 2) (Fin 2) ℂ))
        !![2, 0; 0, 1] = (of fun _ _ => -1 / 3 : Matrix (Fin 1) (Fin 1) ℂ) := by
      ext i j; fin_cases i; fin_cases j
      simp [backwardOperator, leastSquareOperator, tikSigma, rdiag, Matrix.mul_apply, Fin.sum_univ_two,
        conjTranspose_apply, lead]
      norm_num
    rw [hA, hB] at h0
    have hI : ((of fun _ _ => -1 / 3 : Matrix (Fin 1) (Fin 1) ℂ))⁻¹ = of fun _ _ => -3 := by
      apply Matrix.inv_eq_right_inv
      ext i j; fin_cases i; fin_cases j
      simp [Matrix.mul_apply]
    rw [hI] at h0
    simp only [Matrix.mul_apply, Finset.univ_unique, Finset.sum_singleton, of_apply, Fin.default_eq_zero] at h0
    generalize S 0 0 = z at h0
    have hr := congrArg Complex.re h0
    have hi := congrArg Complex.im h0
    simp [Complex.mul_re, Complex.mul_im] at hr hi
    have hre : z.re = 0 := by
      by_contra hne
      have : z.im = 0 := by
        have h2 : z.re * z.im = 0 := by linarith
        rcases mul_eq_zero.mp h2 with h | h
        · exact absurd h hne
        · exact h
      rw [this] at hr
      nlinarith [mul_self_nonneg z.re]
    refine ⟨hre, fun him => ?_⟩
    rw [hre, him] at hr
    norm_num at hr

theorem steps_one (t : ℚ) : steps ⟨t, t, 1⟩ = [t] := by
  have : (⌈(t + 1 - t) / 1⌉).toNat = 1 := by
    rw [show (t + 1 - t) / 1 = (1 : ℚ) by ring]; simp
  simp only [steps, this]
  simp

/-- **C133** is false for selections that split a pair (`modes_activation_bitmask`, `dmd[0]`): the quarter turn of the
real vector (1, 0), with one of its two modes, gives an imaginary first entry at time 1. -/
theorem C133_selection_false :
    let Φ : Fin 2 → Fin 2 → ℂ := ![![1, -Complex.I], ![1, Complex.I]]
    let eigs : Fin 2 → ℂ := ![Complex.I, -Complex.I]
    let b : Fin 2 → ℂ := ![1 / 2, 1 / 2]
    Paired (Equiv.swap 0 1) (of fun x i => Φ i x) eigs ∧ (∀ i, star (b i) = b (Equiv.swap 0 1 i)) ∧
    (∃ c, reconstructed ((afterFit (List.ofFn Φ) (List.ofFn eigs) (List.ofFn b)).setMask
      (.bool1 (List.ofFn ![true, true]))).2 (fitWindow 3) ⟨1, 1, 1⟩ (.bool false) 3 = .ok [c] ∧ c 0 = 0 ∧ c 1 = 1) ∧
    ∃ c, reconstructed ((afterFit (List.ofFn Φ) (List.ofFn eigs) (List.ofFn b)).setMask
      (.bool1 (List.ofFn ![true, false]))).2 (fitWindow 3) ⟨1, 1, 1⟩ (.bool false) 3 = .ok [c] ∧
      c 0 = Complex.I / 2 := by
  intro Φ eigs b
  have h1 : ∀ z : ℂ, npPow z (exponent (fitWindow 3) (.bool false) 3 1) = z := by
    intro z
    have : exponent (fitWindow 3) (.bool false) 3 1 = ((1 : ℤ) : ℚ) := by
      norm_num [exponent, translate, fitWindow]
    rw [this, npPow_int, zpow_one]
  have hr : ∀ mask : Fin 2 → Bool, reconstructed ((afterFit (List.ofFn Φ) (List.ofFn eigs) (List.ofFn b)).setMask
      (.bool1 (List.ofFn mask))).2 (fitWindow 3) ⟨1, 1, 1⟩ (.bool false) 3 =
      .ok [fun x => ∑ i, if mask i then Φ i x * (eigs i * b i) else 0] := by
    intro mask
    rw [reconstructed_mask _ _ _ _ _ _ (by norm_num), steps_one]
    simp only [List.map_cons, List.map_nil, h1]
  refine ⟨⟨?_, ?_⟩, ?_, ⟨_, hr _, ?_, ?_⟩, ⟨_, hr _, ?_⟩⟩
  · intro i j; fin_cases i <;> fin_cases j <;> simp [Φ]
  · intro j; fin_cases j <;> simp [eigs]
  · intro j; fin_cases j <;> simp [b]
  · simp [Φ, eigs, b]
  · simp only [Φ, eigs, b, Fin.sum_univ_two]
    simp only [cons_val_zero, cons_val_one, if_true]
    linear_combination -Complex.I_mul_I
  · simp [Φ, eigs, b]; ring

/-- A pair: the rotation by a quarter turn. -/
example : Paired (Equiv.swap 0 1) (!![1, 1; Complex.I, -Complex.I] : Matrix (Fin 2) (Fin 2) ℂ) ![Complex.I, -Complex.I] := by
  refine ⟨?_, ?_⟩
  · intro i j; fin_cases i <;> fin_cases j <;> simp
  · intro j; fin_cases j <;> simp

/-- Real data with a pair of eigenvalues: the quarter turn, as seen by `C133_spectrum`. -/
example : let Y : Matrix (Fin 2) (Fin 2) ℂ := !![0, -1; 1, 0]
    let W : Matrix (Fin 2) (Fin 2) ℂ := !![1, 1; -Complex.I, Complex.I]
    IsReal (1 : Matrix (Fin 2) (Fin 2) ℂ) ∧ IsReal Y ∧ IsUnit W.det ∧
    leastSquareOperator none (1 : Matrix (Fin 2) (Fin 2) ℂ) ![1, 1] (1 : Matrix (Fin 2) (Fin 2) ℂ) Y * W =
      W * diagonal ![Complex.I, -Complex.I] ∧
    Paired (Equiv.swap 0 1) W ![Complex.I, -Complex.I] := by
  refine ⟨?_, ?_, ?_, ?_, ?_, ?_⟩
  · intro i j; fin_cases i <;> fin_cases j <;> simp
  · intro i j; fin_cases i <;> fin_cases j <;> simp
  · simp [Matrix.det_fin_two_of, Complex.ext_iff]
  · have hd : leastSquareOperator none (1 : Matrix (Fin 2) (Fin 2) ℂ) ![1, 1] (1 : Matrix (Fin 2) (Fin 2) ℂ)
        !![0, -1; 1, 0] = !![0, -1; 1, 0] := by
      have : rdiag (fun i : Fin 2 => (tikSigma none (![1, 1] : Fin 2 → ℝ) i)⁻¹) = 1 := by
        ext i j; fin_cases i <;> fin_cases j <;> simp [rdiag, tikSigma]
      simp only [leastSquareOperator, this]
      simp
    rw [hd]
    ext i j; fin_cases i <;> fin_cases j <;> simp [Matrix.mul_apply, Fin.sum_univ_two]
  · intro i j; fin_cases i <;> fin_cases j <;> simp
  · intro j; fin_cases j <;> simp

end Verif.RealData
