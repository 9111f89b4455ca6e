import Verif.Props.Coordinates
import Verif.Props.Pidmd
import Verif.Props.PidmdOps
import Verif.Props.RealData

/-!
# Property C161: eigenvalues and forecasts of PiDMD keep what the manifold promises
-/

set_option autoImplicit false

namespace Verif.Pidmd

open Matrix Verif Verif.LinAlg Verif.Time Verif.Bitmask Verif.Whole Verif.Possible

variable {m n : Type} [Fintype m] [DecidableEq m] [Fintype n]

/-- The inner products of the columns of an eigenvector matrix. -/
theorem gram_entry {q : ℕ} (A W : Matrix (Fin q) (Fin q) ℂ) (eigs : Fin q → ℂ) (h : A * W = W * diagonal eigs)
    (i j : Fin q) : (Wᴴ * (A * W)) i j = (Wᴴ * W) i j * eigs j ∧ ((A * W)ᴴ * W) i j = star (eigs i) * (Wᴴ * W) i j ∧
      ((A * W)ᴴ * (A * W)) i j = star (eigs i) * (Wᴴ * W) i j * eigs j := by
  have hd : (diagonal eigs)ᴴ = diagonal (star eigs) := diagonal_conjTranspose _
  rw [h]
  refine ⟨?_, ?_, ?_⟩
  · rw [← Matrix.mul_assoc, mul_diagonal]
  · rw [conjTranspose_mul, hd, Matrix.mul_assoc, diagonal_mul]; rfl
  · rw [conjTranspose_mul, hd, Matrix.mul_assoc, ← Matrix.mul_assoc Wᴴ, ← Matrix.mul_assoc, mul_diagonal, diagonal_mul]; rfl

theorem gram_diag {q : ℕ} (W : Matrix (Fin q) (Fin q) ℂ) (hW : ∀ j, normSq (fun i => W i j) = 1) (j : Fin q) :
    (Wᴴ * W) j j = 1 := by
  have := hW j
  simp only [Matrix.mul_apply, conjTranspose_apply]
  have e : (∑ x, star (W x j) * W x j) = ((normSq (fun i => W i j) : ℝ) : ℂ) := by
    simp only [normSq, Complex.ofReal_sum, Complex.normSq_eq_conj_mul_self]; rfl
  rw [e, this, Complex.ofReal_one]

/-- Eigenvectors of a unitary matrix. -/
theorem unitary_gram {q : ℕ} (A W : Matrix (Fin q) (Fin q) ℂ) (eigs : Fin q → ℂ) (hA : Aᴴ * A = 1) (h : IsEig A W eigs) :
    (∀ i, ‖eigs i‖ = 1) ∧ ∀ i j, eigs i ≠ eigs j → (Wᴴ * W) i j = 0 := by
  have e : ∀ i j, (Wᴴ * W) i j = star (eigs i) * (Wᴴ * W) i j * eigs j := fun i j => by
    rw [← (gram_entry A W eigs h.1 i j).2.2, conjTranspose_mul, Matrix.mul_assoc, ← Matrix.mul_assoc Aᴴ, hA, Matrix.one_mul]
  have h1 : ∀ i, star (eigs i) * eigs i = 1 := fun i => by
    have := e i i
    rw [gram_diag W h.2.2, mul_one] at this
    exact this.symm
  have hn : ∀ i, ‖eigs i‖ = 1 := fun i => by
    have := congrArg norm (h1 i)
    rw [norm_mul, norm_star, norm_one] at this
    nlinarith [norm_nonneg (eigs i)]
  refine ⟨hn, fun i j hij => ?_⟩
  by_contra hne
  have h2 : star (eigs i) * eigs j = 1 := by
    have := e i j
    have h3 : (Wᴴ * W) i j * (star (eigs i) * eigs j - 1) = 0 := by linear_combination -this
    rcases mul_eq_zero.mp h3 with h | h
    · exact absurd h hne
    · exact sub_eq_zero.mp h
  apply hij
  have h0 : star (eigs i) ≠ 0 := by
    intro h; rw [h, zero_mul] at h2; exact zero_ne_one h2
  exact mul_left_cancel₀ h0 ((h1 i).trans h2.symm)

/-- **C161** (unitary, eigenvalues). For all data and ranks all eigenvalues lie on the unit circle, and modes of different
eigenvalues are orthogonal. -/
theorem C161_unitary {q : ℕ} (X Y : Matrix m n ℂ) (eigs : Fin q → ℂ) (modes : Matrix m (Fin q) ℂ)
    (h : Pidmd.IsUnitary X Y eigs modes) :
    (∀ i, ‖eigs i‖ = 1) ∧ ∀ i j, eigs i ≠ eigs j → star (fun x => modes x i) ⬝ᵥ (fun x => modes x j) = 0 := by
  classical
  obtain ⟨p, hq, U, s, V, hX, -, P, R, t, hP, W, hW, rfl⟩ := h
  have hA : (unitaryAtilde P R)ᴴ * unitaryAtilde P R = 1 := by
    have hQ : R * Rᴴ = 1 := mul_eq_one_comm.mp hP.v
    rw [unitaryAtilde, conjTranspose_mul, conjTranspose_conjTranspose, Matrix.mul_assoc, ← Matrix.mul_assoc Pᴴ, hP.u,
      Matrix.one_mul, hQ]
  obtain ⟨h1, h2⟩ := unitary_gram _ W eigs hA hW
  refine ⟨h1, fun i j hij => ?_⟩
  have hg : (lead q hq U * W)ᴴ * (lead q hq U * W) = Wᴴ * W :=
    iso_mul _ (lead_orthonormal hq U hX.u) W W
  rw [← h2 i j hij, ← hg]
  rfl

/-- **C161** (unitary, energy). For all data, ranks, amplitudes, selections of modes, time windows (also between, before and
after the snapshots) and `opt`, all columns of the reconstruction have the same norm. -/
theorem C161_unitary_energy {q : ℕ} (X Y : Matrix m n ℂ) (eigs : Fin q → ℂ) (modes : Matrix m (Fin q) ℂ)
    (h : Pidmd.IsUnitary X Y eigs modes) (b : Fin q → ℂ) (mask : Fin q → Bool) (orig w : Window) (hdt : w.dt ≠ 0) (opt : Time.Opt)
    (nsnap : ℕ) :
    ∃ cols, reconstructed ((afterFit (List.ofFn fun i x => modes x i) (List.ofFn eigs) (List.ofFn b)).setMask
        (.bool1 (List.ofFn mask))).2 orig w opt nsnap = .ok cols ∧
      ∀ c ∈ cols, normSq c = normSq fun x => ∑ i, if mask i then b i * modes x i else 0 := by
  obtain ⟨h1, h2⟩ := C161_unitary X Y eigs modes h
  refine ⟨_, RealData.reconstructed_mask (fun i x => modes x i) eigs b mask orig w hdt opt nsnap, ?_⟩
  intro c hc
  obtain ⟨t, -, rfl⟩ := List.mem_map.mp hc
  set e := exponent orig opt nsnap t
  have hf : ∀ i, ‖npPow (eigs i) e‖ = 1 := fun i => by
    have h0 : eigs i ≠ 0 := by intro h0; have := h1 i; rw [h0, norm_zero] at this; exact zero_ne_one this
    unfold npPow
    have : ((e : ℚ) : ℂ) = (((e : ℚ) : ℝ) : ℂ) := by push_cast; rfl
    rw [this, Complex.norm_cpow_real, h1, Real.one_rpow]
  set G := modesᴴ * modes with hG
  have expand : ∀ f : Fin q → ℂ, ((normSq (fun x => ∑ i, f i * modes x i) : ℝ) : ℂ) =
      ∑ i, ∑ j, star (f i) * f j * G i j := by
    intro f
    have e1 : (fun x => ∑ i, f i * modes x i) = modes *ᵥ f := by
      funext x
      exact Finset.sum_congr rfl fun i _ => mul_comm _ _
    have e2 : ((normSq (modes *ᵥ f) : ℝ) : ℂ) = star (modes *ᵥ f) ⬝ᵥ (modes *ᵥ f) := by
      simp only [normSq, Complex.ofReal_sum, Complex.normSq_eq_conj_mul_self, dotProduct, Pi.star_apply]; rfl
    rw [e1, e2, star_mulVec, ← dotProduct_mulVec, mulVec_mulVec, ← hG]
    simp only [dotProduct, mulVec, Finset.mul_sum, Pi.star_apply]
    refine Finset.sum_congr rfl fun i _ => Finset.sum_congr rfl fun j _ => ?_
    ring
  have c1 : (fun x => ∑ i, if mask i then modes x i * (npPow (eigs i) e * b i) else 0) =
      fun x => ∑ i, (if mask i then npPow (eigs i) e * b i else 0) * modes x i := by
    funext x
    refine Finset.sum_congr rfl fun i _ => ?_
    split_ifs <;> ring
  have c2 : (fun x => ∑ i, if mask i then b i * modes x i else 0) =
      fun x => ∑ i, (if mask i then b i else 0) * modes x i := by
    funext x
    refine Finset.sum_congr rfl fun i _ => ?_
    split_ifs <;> ring
  beta_reduce
  rw [c1, c2, ← Complex.ofReal_inj, expand, expand]
  refine Finset.sum_congr rfl fun i _ => Finset.sum_congr rfl fun j _ => ?_
  by_cases hij : eigs i = eigs j
  · have : star (npPow (eigs j) e) * npPow (eigs j) e = 1 := by
      rw [Complex.star_def, ← Complex.normSq_eq_conj_mul_self, Complex.normSq_eq_norm_sq, hf]; simp
    rw [hij]
    split_ifs
    · rw [star_mul']
      linear_combination star (b i) * b j * G i j * this
    · simp
    · simp
    · simp
  · have : G i j = 0 := h2 i j hij
    rw [this, mul_zero, mul_zero]

omit [DecidableEq m] in
/-- **C161** (symmetric and skew-symmetric). For all data and ranks the eigenvalues are real, respectively imaginary, and
modes of different eigenvalues are orthogonal. The rank must not exceed that of the data because the code would divide 0 by
0, where the model has 0. -/
theorem C161_symmetric (skew : Bool) {q : ℕ} (X Y : Matrix m n ℂ) (eigs : Fin q → ℂ) (modes : Matrix m (Fin q) ℂ)
    (_hr : q ≤ X.rank) (h : Pidmd.IsSymmetric skew X Y eigs modes) :
    (∀ i, if skew then (eigs i).re = 0 else (eigs i).im = 0) ∧
      ∀ i j, eigs i ≠ eigs j → star (fun x => modes x i) ⬝ᵥ (fun x => modes x j) = 0 := by
  classical
  obtain ⟨p, hq, U, s, V, hX, -, W, hW, rfl⟩ := h
  have hg : (lead q hq U * W)ᴴ * (lead q hq U * W) = Wᴴ * W :=
    iso_mul _ (lead_orthonormal hq U hX.u) W W
  set A := computeSymmetric skew q hq U s V Y with hAdef
  have hA : Aᴴ = if skew then -A else A := by
    cases skew
    · exact symAtilde_hermitian _ _
    · exact skewAtilde_skew _ _
  have key : ∀ i j, star (eigs i) * (Wᴴ * W) i j = (if skew then -eigs j else eigs j) * (Wᴴ * W) i j := by
    intro i j
    obtain ⟨e1, e2, -⟩ := gram_entry A W eigs hW.1 i j
    rw [← e2, conjTranspose_mul, hA]
    cases skew
    · simp only [Bool.false_eq_true, if_false]
      rw [Matrix.mul_assoc, e1, mul_comm]
    · simp only [if_true]
      rw [Matrix.mul_assoc, Matrix.neg_mul, Matrix.mul_neg, Matrix.neg_apply, e1]
      ring
  have hd : ∀ i, star (eigs i) = if skew then -eigs i else eigs i := fun i => by
    have := key i i
    rwa [gram_diag W hW.2.2, mul_one, mul_one] at this
  refine ⟨fun i => ?_, fun i j hij => ?_⟩
  · have := hd i
    cases skew
    · simp only [Bool.false_eq_true, if_false] at this ⊢
      exact Complex.conj_eq_iff_im.mp this
    · simp only [if_true] at this ⊢
      have := congrArg Complex.re this
      simp at this
      linarith
  · have e : star (fun x => (lead q hq U * W) x i) ⬝ᵥ (fun x => (lead q hq U * W) x j) = (Wᴴ * W) i j := by
      rw [← hg]; rfl
    rw [e]
    by_contra hne
    have := mul_right_cancel₀ hne (key i j)
    rw [hd] at this
    apply hij
    cases skew
    · simpa using this
    · simpa using this

/-- **C161** (circulant manifolds without `compute_A`). The eigenvalues lie on the unit circle, the real axis or the imaginary
axis as the manifold says, whichever frequencies are kept. -/
theorem C161_circulant (N : ℕ) [NeZero N] (X Y : Matrix (ZMod N) n ℂ) (o : CircOpt) (E : Finset (ZMod N))
    (hne : ∀ k, k ∉ E → ∃ t, (dft N * X) k t ≠ 0) (k : {k // k ∉ E}) :
    (o = .unitary → ‖(circSpectral (dft N) X Y o E).1 k‖ = 1) ∧
      (o = .symmetric → ((circSpectral (dft N) X Y o E).1 k).im = 0) ∧
      (o = .skewsymmetric → ((circSpectral (dft N) X Y o E).1 k).re = 0) := by
  have hd : circDen (dft N) X k.1 ≠ 0 := by
    obtain ⟨t, ht⟩ := hne k.1 k.2
    intro h0
    exact ht (congrFun ((normSq_eq_zero _).mp h0) t)
  have e : (circSpectral (dft N) X Y o E).1 k = adjust o (circNum (dft N) X Y k / circDen (dft N) X k) := by
    simp [circSpectral, circEigs, k.2, circEig, hd]
  rw [e]
  refine ⟨?_, ?_, ?_⟩
  · rintro rfl
    simp [adjust, phase, Complex.norm_exp]
  · rintro rfl
    simp [adjust]
  · rintro rfl
    simp [adjust]

/-- **C161** (circulant and unitary without `compute_A`, energy). For all amplitudes the norm of the reconstruction is the same
at all time steps. -/
theorem C161_circulant_energy (N : ℕ) [NeZero N] (X Y : Matrix (ZMod N) n ℂ) (E : Finset (ZMod N))
    (hne : ∀ k, k ∉ E → ∃ t, (dft N * X) k t ≠ 0) (b : {k // k ∉ E} → ℂ) (t : ℕ) :
    normSq (reconAt (circSpectral (dft N) X Y .unitary E).2 (circSpectral (dft N) X Y .unitary E).1 b t) =
      normSq (reconAt (circSpectral (dft N) X Y .unitary E).2 (circSpectral (dft N) X Y .unitary E).1 b 0) := by
  have hF := dft_isFourier N
  set M := (circSpectral (dft N) X Y .unitary E).2 with hM
  have hMM : Mᴴ * M = (Fintype.card (ZMod N) : ℂ) • 1 := by
    ext i j
    have := congrFun (congrFun hF.orth i.1) j.1
    have e : (Mᴴ * M) i j = ((dft N)ᴴ * dft N) i.1 j.1 := rfl
    rw [e, this]
    simp only [Matrix.smul_apply, Matrix.one_apply, Subtype.ext_iff]
  have key : ∀ f : {k // k ∉ E} → ℂ, normSq (M *ᵥ f) = Fintype.card (ZMod N) * normSq f := by
    intro f
    have e2 : ∀ {a : Type} [Fintype a] (v : a → ℂ), ((normSq v : ℝ) : ℂ) = star v ⬝ᵥ v := by
      intro a _ v
      simp only [normSq, Complex.ofReal_sum, Complex.normSq_eq_conj_mul_self, dotProduct, Pi.star_apply]; rfl
    rw [← Complex.ofReal_inj, e2, star_mulVec, ← dotProduct_mulVec, mulVec_mulVec, hMM, smul_mulVec, one_mulVec,
      dotProduct_smul, Complex.ofReal_mul, e2]
    simp
  unfold reconAt
  rw [key, key]
  congr 1
  unfold normSq
  refine Finset.sum_congr rfl fun k _ => ?_
  have := (C161_circulant N X Y .unitary E hne k).1 rfl
  simp [Complex.normSq_eq_norm_sq, this]

/-- **C161**, negation for `compute_A`: with `compute_A=True` and fewer frequencies than states (as always with fewer
snapshots than states), the `circulant_unitary` operator maps some state to zero. -/
theorem C161_circulant_compute_A_false (N : ℕ) [NeZero N] (X Y : Matrix (ZMod N) n ℂ) (o : CircOpt) (r : ℕ) (hr : r < N)
    (E : Finset (ZMod N)) (hE : IsExcluded (circRes (dft N) X Y) r E) (A : Matrix (ZMod N) (ZMod N) ℂ)
    (h : computeCirculant (dft N) X Y o E = some A) : ∃ x, x ≠ 0 ∧ A *ᵥ x = 0 := by
  have hF := dft_isFourier N
  obtain ⟨-, rfl⟩ := computeCirculant_some h
  have hc : 0 < E.card := by rw [hE.1, ZMod.card]; omega
  obtain ⟨e, he⟩ := Finset.card_pos.mp hc
  refine ⟨dft N *ᵥ Pi.single e 1, ?_, ?_⟩
  · intro h0
    have := congrArg (invF (dft N) *ᵥ ·) h0
    simp only [mulVec_mulVec, hF.inv_mul, one_mulVec, mulVec_zero] at this
    have := congrFun this e
    simp at this
  · rw [hF.circA_eq, mulVec_mulVec, Matrix.mul_assoc, hF.inv_mul, Matrix.mul_one, ← mulVec_mulVec]
    have : (diagonal fun k => if k ∈ E then (0 : ℂ) else adjust o (circNum (dft N) X Y k / circDen (dft N) X k)) *ᵥ
        Pi.single e 1 = 0 := by
      funext k
      rw [mulVec_diagonal]
      by_cases hk : k = e
      · subst hk; simp [he]
      · simp [hk]
    rw [this, mulVec_zero]

/-- A case for the circulant manifolds: one snapshot `(1, 0)` has both frequencies. -/
example (k : ZMod 2) : (dft 2 * (Matrix.of fun i _ => if i = 0 then 1 else 0 : Matrix (ZMod 2) (Fin 1) ℂ)) k 0 ≠ 0 := by
  simp [Matrix.mul_apply, dft]

/-- Such fits exist for all data and ranks up to the size of the data. -/
example {M N q : ℕ} (hq : q ≤ min M N) (X Y : Matrix (Fin M) (Fin N) ℂ) (skew : Bool) :
    (∃ eigs modes, Pidmd.IsUnitary (q := q) X Y eigs modes) ∧ ∃ eigs modes, Pidmd.IsSymmetric (q := q) skew X Y eigs modes := by
  obtain ⟨U, s, V, h, hs⟩ := exists_svd X
  refine ⟨?_, ?_⟩
  · obtain ⟨P, t, R, hP⟩ := exists_svd_tall le_rfl (Pidmd.crossCov (lead q hq U) X Y)
    obtain ⟨W, eigs, hW⟩ := exists_eig (Pidmd.unitaryAtilde P R)
    exact ⟨eigs, _, _, hq, U, s, V, h, hs, P, R, t, hP, W, hW, rfl⟩
  · obtain ⟨W, eigs, hW⟩ := exists_eig (Pidmd.computeSymmetric skew q hq U s V Y)
    exact ⟨eigs, _, _, hq, U, s, V, h, hs, W, hW, rfl⟩

end Verif.Pidmd
