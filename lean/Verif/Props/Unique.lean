import Verif.Model.Whole
import Verif.Lemmas.SvdUnique
import Verif.Props.Whole
import Verif.Props.Frequencies
import Mathlib.LinearAlgebra.Eigenspace.Matrix

/-!
# Property C137: the result of a fit is determined by the data
-/

set_option autoImplicit false

namespace Verif.Unique

open Verif Verif.LinAlg Verif.Operator Verif.Whole Verif.SvdUnique Matrix

variable {m n : Type} [Fintype m] [Fintype n]

/-- The singular values of `X` jump after the first `q`, which are positive. -/
def Gap (X : Matrix m n ℂ) (q : ℕ) : Prop :=
  ∃ (p : ℕ) (U : Matrix m (Fin p) ℂ) (s : Fin p → ℝ) (V : Matrix n (Fin p) ℂ), IsSVD X U s V ∧ Antitone s ∧ q ≤ p ∧
    (∀ i : Fin p, (i : ℕ) < q → 0 < s i) ∧ ∀ i j : Fin p, (i : ℕ) < q → q ≤ (j : ℕ) → s j < s i

/-- The singular values are determined by the matrix. -/
theorem C137_singular_values [DecidableEq m] {p : ℕ} (X : Matrix m n ℂ) (U U' : Matrix m (Fin p) ℂ) (s s' : Fin p → ℝ)
    (V V' : Matrix n (Fin p) ℂ) (h : IsSVD X U s V) (h' : IsSVD X U' s' V') (hs : Antitone s) (hs' : Antitone s') :
    s = s' := by
  have := values_eq h hs h' hs'
  funext i
  have := congrFun this i
  simpa [SvdUnique.ext] using this

theorem gap_lead [DecidableEq m] {q p p' : ℕ} (X : Matrix m n ℂ) (hg : Gap X q) (hq : q ≤ p) (hq' : q ≤ p')
    {U : Matrix m (Fin p) ℂ} {s : Fin p → ℝ} {V : Matrix n (Fin p) ℂ} (h : IsSVD X U s V) (hs : Antitone s)
    {U' : Matrix m (Fin p') ℂ} {s' : Fin p' → ℝ} {V' : Matrix n (Fin p') ℂ} (h' : IsSVD X U' s' V')
    (hs' : Antitone s') :
    s ∘ Fin.castLE hq = s' ∘ Fin.castLE hq' ∧
    ∃ Q : Matrix (Fin q) (Fin q) ℂ, Qᴴ * Q = 1 ∧ lead q hq' U' = lead q hq U * Q ∧ lead q hq' V' = lead q hq V * Q ∧
      ∀ i j, s (Fin.castLE hq i) ≠ s (Fin.castLE hq j) → Q i j = 0 := by
  obtain ⟨p0, U0, s0, V0, h0, hs0, hq0, hpos, hgap⟩ := hg
  have e := values_eq h hs h' hs'
  have e0 := values_eq h hs h0 hs0
  have he : ∀ i : Fin q, s (Fin.castLE hq i) = s' (Fin.castLE hq' i) := fun i => by
    have := congrFun e i
    simp only [SvdUnique.ext, lt_of_lt_of_le i.2 hq, lt_of_lt_of_le i.2 hq', dite_true] at this
    exact this
  have he0 : ∀ i : Fin q, s (Fin.castLE hq i) = s0 (Fin.castLE hq0 i) := fun i => by
    have := congrFun e0 i
    simp only [SvdUnique.ext, lt_of_lt_of_le i.2 hq, lt_of_lt_of_le i.2 hq0, dite_true] at this
    exact this
  refine ⟨funext he, lead_unique hq hq' h h' he (fun i => ?_) (fun i j hj => ?_)⟩
  · rw [he0]; exact hpos _ i.2
  · rw [he0]
    have := congrFun e0 j
    simp only [SvdUnique.ext, j.2, dite_true] at this
    rw [this]
    split_ifs with hj0
    · exact hgap _ _ i.2 hj
    · exact hpos _ i.2

theorem operator_conj {q : ℕ} (tik : Option (ℝ × ℝ)) (U : Matrix m (Fin q) ℂ) (s : Fin q → ℝ) (V : Matrix n (Fin q) ℂ)
    (Y : Matrix m n ℂ) (Q : Matrix (Fin q) (Fin q) ℂ) (hQ : ∀ i j, s i ≠ s j → Q i j = 0) :
    Q * (rdiag fun i => (tikSigma tik s i)⁻¹) = (rdiag fun i => (tikSigma tik s i)⁻¹) * Q ∧
    leastSquareOperator tik (U * Q) s (V * Q) Y = Qᴴ * leastSquareOperator tik U s V Y * Q := by
  have hc : Q * (rdiag fun i => (tikSigma tik s i)⁻¹) = (rdiag fun i => (tikSigma tik s i)⁻¹) * Q := by
    ext i j
    simp only [rdiag, mul_diagonal, diagonal_mul]
    by_cases h : s i = s j
    · have : tikSigma tik s i = tikSigma tik s j := by
        simp only [tikSigma]; split <;> simp [h]
      rw [this]; ring
    · rw [hQ i j h]; ring
  refine ⟨hc, ?_⟩
  simp only [leastSquareOperator, conjTranspose_mul]
  simp only [Matrix.mul_assoc]
  rw [hc]

/-- What two results for the same data have in common: the operators are unitarily equivalent, in the way in which the
modes are expressed. -/
theorem results_related [DecidableEq m] (o : Options) (ho : o.forwardBackward = false) {q : ℕ} (X Y : Matrix m n ℂ)
    (hg : Gap X q) (W W' : Matrix (Fin q) (Fin q) ℂ) (eigs eigs' : Fin q → ℂ) (modes modes' : Matrix m (Fin q) ℂ)
    (h : IsResult o X Y W eigs modes) (h' : IsResult o X Y W' eigs' modes') :
    ∃ (A Q : Matrix (Fin q) (Fin q) ℂ) (B : Matrix m (Fin q) ℂ), Qᴴ * Q = 1 ∧ Q * Qᴴ = 1 ∧ A * W = W * diagonal eigs ∧
      A * (Q * W') = Q * W' * diagonal eigs' ∧ modes = B * W ∧ modes' = B * (Q * W') ∧
      A.charpoly.roots = Finset.univ.val.map eigs ∧ A.charpoly.roots = Finset.univ.val.map eigs' ∧
      (∀ j, normSq (fun i => W i j) = 1) ∧ ∀ j, normSq (fun i => (Q * W') i j) = 1 := by
  obtain ⟨p, hq, U, s, V, hX, hs, A, hA, he, hr, hn, hm⟩ := h
  obtain ⟨p', hq', U', s', V', hX', hs', A', hA', he', hr', hn', hm'⟩ := h'
  obtain ⟨es, Q, hQ, hU, hV, hQ0⟩ := gap_lead X hg hq hq' hX hs hX' hs'
  have hQ2 : Q * Qᴴ = 1 := mul_eq_one_comm.mp hQ
  have hcc := operator_conj (o.tik X) (lead q hq U) (s ∘ Fin.castLE hq) (lead q hq V) Y Q hQ0
  simp only [IsAtilde, ho, Bool.false_eq_true, if_false] at hA hA'
  rw [hU, hV, ← es, hcc.2, ← hA] at hA'
  have hAQ : A * (Q * W') = Q * W' * diagonal eigs' := by
    calc A * (Q * W') = Q * Qᴴ * A * (Q * W') := by rw [hQ2, Matrix.one_mul]
      _ = Q * (A' * W') := by rw [hA']; simp only [Matrix.mul_assoc]
      _ = _ := by rw [he', Matrix.mul_assoc]
  have hch : A'.charpoly = A.charpoly := by
    rw [hA', Matrix.mul_assoc, charpoly_mul_comm, Matrix.mul_assoc, hQ2, Matrix.mul_one]
  rw [hch] at hr'
  refine ⟨A, Q, if o.exact then Y * lead q hq V * (rdiag fun i => (tikSigma (o.tik X) (s ∘ Fin.castLE hq) i)⁻¹)
    else lead q hq U, hQ, hQ2, he, hAQ, ?_, ?_, hr, hr', hn, fun j => ?_⟩
  · rw [hm, computeModes]; split_ifs <;> rfl
  · rw [hm', computeModes, hU, hV, ← es]
    split_ifs
    · calc Y * (lead q hq V * Q) * (rdiag fun i => (tikSigma (o.tik X) (s ∘ Fin.castLE hq) i)⁻¹) * W' =
          Y * lead q hq V * (Q * (rdiag fun i => (tikSigma (o.tik X) (s ∘ Fin.castLE hq) i)⁻¹)) * W' := by
            simp only [Matrix.mul_assoc]
        _ = _ := by rw [hcc.1]; simp only [Matrix.mul_assoc]
    · simp only [Matrix.mul_assoc]
  · have := normSq_isometry Q hQ fun i => W' i j
    rw [hn'] at this
    exact this

/-- **C137** (eigenvalues): if the singular values jump after the rank of the truncation, all factorizations that
`np.linalg.svd` and `np.linalg.eig` may return lead to the same eigenvalues, up to their order. With or without
regularization, for exact and projected modes; without `forward_backward`. -/
theorem C137_eigenvalues_partial [DecidableEq m] (o : Options) (ho : o.forwardBackward = false) {q : ℕ}
    (X Y : Matrix m n ℂ) (hg : Gap X q) (W W' : Matrix (Fin q) (Fin q) ℂ) (eigs eigs' : Fin q → ℂ)
    (modes modes' : Matrix m (Fin q) ℂ) (h : IsResult o X Y W eigs modes) (h' : IsResult o X Y W' eigs' modes') :
    (List.ofFn eigs).Perm (List.ofFn eigs') := by
  obtain ⟨A, Q, B, -, -, -, -, -, -, hr, hr', -, -⟩ := results_related o ho X Y hg W W' eigs eigs' modes modes' h h'
  rw [hr, Fin.univ_val_map, Fin.univ_val_map] at hr'
  exact Multiset.coe_eq_coe.mp hr'

theorem exists_perm {q : ℕ} (f g : Fin q → ℂ) (h : Finset.univ.val.map f = Finset.univ.val.map g)
    (hf : Function.Injective f) : ∃ π : Equiv.Perm (Fin q), ∀ j, g j = f (π j) := by
  have hg : Function.Injective g := by
    rw [← Fintype.nodup_map_univ_iff_injective, ← h, Fintype.nodup_map_univ_iff_injective]; exact hf
  have hex : ∀ j, ∃ i, f i = g j := fun j => by
    have : g j ∈ Finset.univ.val.map g := Multiset.mem_map_of_mem _ (Finset.mem_univ j)
    rw [← h, Multiset.mem_map] at this
    obtain ⟨i, -, hi⟩ := this
    exact ⟨i, hi⟩
  choose π hπ using hex
  have hinj : Function.Injective π := fun a b hab => hg (by rw [← hπ, ← hπ, hab])
  exact ⟨Equiv.ofBijective π (Finite.injective_iff_bijective.mp hinj), fun j => (hπ j).symm⟩

/-- Eigenvectors of different eigenvalues: another set of eigenvectors is made of multiples. -/
theorem eigvec_unique {q : ℕ} (A W W' : Matrix (Fin q) (Fin q) ℂ) (eigs eigs' : Fin q → ℂ)
    (hinj : Function.Injective eigs) (he : A * W = W * diagonal eigs) (he' : A * W' = W' * diagonal eigs')
    (hn : ∀ j, normSq (fun i => W i j) = 1) (hn' : ∀ j, normSq (fun i => W' i j) = 1) (π : Equiv.Perm (Fin q))
    (hπ : ∀ j, eigs' j = eigs (π j)) : ∃ c : Fin q → ℂ, (∀ j, ‖c j‖ = 1) ∧ ∀ i j, W' i j = W i (π j) * c j := by
  have hv : ∀ j, A *ᵥ (fun i => W i j) = eigs j • fun i => W i j := fun j => by
    have h1 : (fun i => (A * W) i j) = A *ᵥ fun i => W i j := rfl
    rw [← h1, he]
    funext i
    simp [mul_diagonal, mul_comm]
  have hv' : ∀ j, A *ᵥ (fun i => W' i j) = eigs' j • fun i => W' i j := fun j => by
    have h1 : (fun i => (A * W') i j) = A *ᵥ fun i => W' i j := rfl
    rw [← h1, he']
    funext i
    simp [mul_diagonal, mul_comm]
  have hli : LinearIndependent ℂ fun j => (fun i => W i j : Fin q → ℂ) := by
    refine Module.End.eigenvectors_linearIndependent' (Matrix.toLin' A) eigs hinj _ fun j => ?_
    refine ⟨Module.End.mem_eigenspace_iff.mpr ?_, ?_⟩
    · rw [Matrix.toLin'_apply]; exact hv j
    · intro h0
      have := hn j
      rw [h0] at this
      simp [normSq] at this
  have hspan : ∀ v : Fin q → ℂ, ∃ c : Fin q → ℂ, v = W *ᵥ c := fun v => by
    have htop := hli.span_eq_top_of_card_eq_finrank' (by simp)
    have hmem : v ∈ Submodule.span ℂ (Set.range fun j => (fun i => W i j : Fin q → ℂ)) := by rw [htop]; trivial
    obtain ⟨c, hc⟩ := (Submodule.mem_span_range_iff_exists_fun ℂ).mp hmem
    refine ⟨c, ?_⟩
    rw [← hc]
    funext i
    simp [mulVec, dotProduct, Finset.sum_apply, mul_comm]
  have hker : ∀ c : Fin q → ℂ, W *ᵥ c = 0 → c = 0 := fun c hc => by
    rw [Fintype.linearIndependent_iff] at hli
    funext i
    refine hli c ?_ i
    rw [← hc]
    funext i
    simp [mulVec, dotProduct, Finset.sum_apply, mul_comm]
  have key : ∀ j, ∃ c : ℂ, (fun i => W' i j) = c • fun i => W i (π j) := by
    intro j
    obtain ⟨c, hc⟩ := hspan fun i => W' i j
    have h1 : W *ᵥ (diagonal eigs *ᵥ c - eigs' j • c) = 0 := by
      rw [mulVec_sub, mulVec_mulVec, ← he, ← mulVec_mulVec, ← hc, hv', mulVec_smul, ← hc, sub_self]
    have h2 := hker _ h1
    refine ⟨c (π j), ?_⟩
    rw [hc]
    funext i
    simp only [mulVec, dotProduct, Pi.smul_apply, smul_eq_mul]
    rw [Finset.sum_eq_single (π j)]
    · ring
    · intro b _ hb
      have h3 := congrFun h2 b
      simp only [mulVec_diagonal, Pi.sub_apply, Pi.smul_apply, smul_eq_mul, Pi.zero_apply, hπ] at h3
      rw [← sub_mul] at h3
      have : eigs b - eigs (π j) ≠ 0 := sub_ne_zero.mpr fun hh => hb (hinj hh)
      rw [(mul_eq_zero.mp h3).resolve_left this, mul_zero]
    · simp
  choose c hc using key
  refine ⟨c, fun j => ?_, fun i j => ?_⟩
  · have h1 := hn' j
    rw [hc j] at h1
    have h2 : normSq (c j • fun i => W i (π j)) = Complex.normSq (c j) * normSq fun i => W i (π j) := by
      simp [normSq, Finset.mul_sum]
    rw [h2, hn, mul_one, Complex.normSq_eq_norm_sq] at h1
    have h3 := norm_nonneg (c j)
    nlinarith
  · have := congrFun (hc j) i
    simp only [Pi.smul_apply, smul_eq_mul] at this
    rw [this]; ring

/-- **C137** (modes): if in addition the eigenvalues are different, the modes are the same up to order and factors of
modulus one. -/
theorem C137_modes_partial [DecidableEq m] (o : Options) (ho : o.forwardBackward = false) {q : ℕ}
    (X Y : Matrix m n ℂ) (hg : Gap X q) (W W' : Matrix (Fin q) (Fin q) ℂ) (eigs eigs' : Fin q → ℂ)
    (modes modes' : Matrix m (Fin q) ℂ) (h : IsResult o X Y W eigs modes) (h' : IsResult o X Y W' eigs' modes')
    (hinj : Function.Injective eigs) :
    ∃ (π : Equiv.Perm (Fin q)) (c : Fin q → ℂ), (∀ j, ‖c j‖ = 1) ∧ (∀ j, eigs' j = eigs (π j)) ∧
      ∀ i j, modes' i j = modes i (π j) * c j := by
  obtain ⟨A, Q, B, -, -, he, he', hm, hm', hr, hr', hn, hn'⟩ :=
    results_related o ho X Y hg W W' eigs eigs' modes modes' h h'
  obtain ⟨π, hπ⟩ := exists_perm eigs eigs' (by rw [← hr, hr']) hinj
  obtain ⟨c, hc, hW⟩ := eigvec_unique A W (Q * W') eigs eigs' hinj he he' hn hn' π hπ
  refine ⟨π, c, hc, hπ, fun i j => ?_⟩
  rw [hm, hm', Matrix.mul_apply, Matrix.mul_apply, Finset.sum_mul]
  refine Finset.sum_congr rfl fun k _ => ?_
  rw [hW]; ring

/-- Amplitudes from the pseudo-inverse for modes in another order and with other phases. -/
theorem pinv_amplitudes [DecidableEq m] {q : ℕ} (Φ Φ' : Matrix m (Fin q) ℂ) (π : Equiv.Perm (Fin q)) (c : Fin q → ℂ)
    (hc : ∀ j, ‖c j‖ = 1) (h : ∀ i j, Φ' i j = Φ i (π j) * c j) (P P' : Matrix (Fin q) m ℂ) (hP : IsPinv Φ P)
    (hP' : IsPinv Φ' P') (j : Fin q) (i : m) : P' j i = star (c j) * P (π j) i := by
  have hcc : ∀ j, c j * star (c j) = 1 := fun j => by
    rw [Complex.star_def, Complex.mul_conj, Complex.normSq_eq_norm_sq, hc j]; simp
  set P2 : Matrix (Fin q) m ℂ := of fun j i => star (c j) * P (π j) i
  have e1 : Φ' * P2 = Φ * P := by
    ext a b
    simp only [Matrix.mul_apply, P2, of_apply, h]
    rw [← Equiv.sum_comp π fun j => Φ a j * P j b]
    refine Finset.sum_congr rfl fun j _ => ?_
    calc Φ a (π j) * c j * (star (c j) * P (π j) b) = c j * star (c j) * (Φ a (π j) * P (π j) b) := by ring
      _ = _ := by rw [hcc, one_mul]
  have e2 : ∀ a b, (P2 * Φ') a b = star (c a) * (P * Φ) (π a) (π b) * c b := fun a b => by
    simp only [Matrix.mul_apply, P2, of_apply, h, Finset.mul_sum, Finset.sum_mul]
    exact Finset.sum_congr rfl fun k _ => by ring
  have : IsPinv Φ' P2 := by
    refine ⟨?_, ?_, ?_, ?_⟩
    · rw [e1]
      ext a b
      have := congrFun (congrFun hP.apa a) (π b)
      simp only [Matrix.mul_apply, h] at this ⊢
      rw [← this, Finset.sum_mul]
      exact Finset.sum_congr rfl fun k _ => by ring
    · rw [Matrix.mul_assoc, e1]
      ext a b
      have := congrFun (congrFun hP.pap (π a)) b
      rw [Matrix.mul_assoc] at this
      simp only [Matrix.mul_apply (M := P2), Matrix.mul_apply (M := P), P2, of_apply] at this ⊢
      rw [← this, Finset.mul_sum]
      exact Finset.sum_congr rfl fun k _ => by ring
    · rw [e1, hP.ap]
    · ext a b
      have := congrFun (congrFun hP.pa (π a)) (π b)
      rw [conjTranspose_apply] at this
      rw [conjTranspose_apply, e2, e2, ← this]
      simp only [star_mul', star_star]
      ring
  rw [hP'.unique this]
  rfl

open Verif.Time Verif.Bitmask in
/-- **C137** (reconstruction): under the same conditions, with the amplitudes fitted to the first snapshot `x`
(`np.linalg.lstsq`, the solution of least norm), the reconstructions agree at all times, in every window, and for every
selection of modes. -/
theorem C137_reconstruction_partial [DecidableEq m] (o : Options) (ho : o.forwardBackward = false) {q : ℕ}
    (X Y : Matrix m n ℂ) (hg : Gap X q) (W W' : Matrix (Fin q) (Fin q) ℂ) (eigs eigs' : Fin q → ℂ)
    (modes modes' : Matrix m (Fin q) ℂ) (h : IsResult o X Y W eigs modes) (h' : IsResult o X Y W' eigs' modes')
    (hinj : Function.Injective eigs) (P P' : Matrix (Fin q) m ℂ) (hP : IsPinv modes P) (hP' : IsPinv modes' P')
    (x : m → ℂ) (orig w : Window) (hdt : w.dt ≠ 0) (opt : Opt) (nsnap : ℕ) (keep : ℂ → Bool) :
    reconstructed ((afterFit (List.ofFn fun j => fun i => modes' i j) (List.ofFn eigs') (List.ofFn (P' *ᵥ x))).setMask
        (.bool1 (List.ofFn fun j => keep (eigs' j)))).2 orig w opt nsnap =
      reconstructed ((afterFit (List.ofFn fun j => fun i => modes i j) (List.ofFn eigs) (List.ofFn (P *ᵥ x))).setMask
        (.bool1 (List.ofFn fun j => keep (eigs j)))).2 orig w opt nsnap := by
  obtain ⟨π, c, hc, hπ, hm⟩ := C137_modes_partial o ho X Y hg W W' eigs eigs' modes modes' h h' hinj
  have hcc : ∀ j, c j * star (c j) = 1 := fun j => by
    rw [Complex.star_def, Complex.mul_conj, Complex.normSq_eq_norm_sq, hc j]; simp
  have hb : ∀ j, (P' *ᵥ x) j = star (c j) * (P *ᵥ x) (π j) := fun j => by
    simp only [mulVec, dotProduct, Finset.mul_sum]
    refine Finset.sum_congr rfl fun i _ => ?_
    rw [pinv_amplitudes modes modes' π c hc hm P P' hP hP', mul_assoc]
  rw [RealData.reconstructed_mask _ _ _ _ _ _ hdt, RealData.reconstructed_mask _ _ _ _ _ _ hdt]
  congr 1
  refine List.map_congr_left fun t _ => ?_
  funext a
  rw [← Equiv.sum_comp π fun i => if keep (eigs i) then
    modes a i * (npPow (eigs i) (exponent orig opt nsnap t) * (P *ᵥ x) i) else 0]
  refine Finset.sum_congr rfl fun j _ => ?_
  rw [hπ, hm, hb]
  split_ifs
  · calc modes a (π j) * c j * (npPow (eigs (π j)) (exponent orig opt nsnap t) * (star (c j) * (P *ᵥ x) (π j))) =
        c j * star (c j) * (modes a (π j) * (npPow (eigs (π j)) (exponent orig opt nsnap t) * (P *ᵥ x) (π j))) := by
          ring
      _ = _ := by rw [hcc, one_mul]
  · rfl

/-! ## Where the result is not determined -/

theorem roots_of_eig {q : ℕ} (A W W' : Matrix (Fin q) (Fin q) ℂ) (eigs : Fin q → ℂ) (hW : W * W' = 1)
    (h : A * W = W * diagonal eigs) : A.charpoly.roots = Finset.univ.val.map eigs := by
  have : A = W * (diagonal eigs * W') := by rw [← Matrix.mul_assoc, ← h, Matrix.mul_assoc, hW, Matrix.mul_one]
  rw [this, charpoly_mul_comm, Matrix.mul_assoc, mul_eq_one_comm.mp hW, Matrix.mul_one, Frequencies.roots_diagonal]

theorem rdiag2 (a b : ℝ) : rdiag ![a, b] = !![(a : ℂ), 0; 0, b] := by
  ext i j; fin_cases i <;> fin_cases j <;> simp [rdiag]

theorem lead_self {p : ℕ} (U : Matrix m (Fin p) ℂ) : lead p le_rfl U = U := by
  ext i j; simp [lead]

theorem antitone2 (a b : ℝ) (h : b ≤ a) : Antitone ![a, b] := by
  intro i j hij
  fin_cases i <;> fin_cases j <;> simp_all

theorem lead_one : lead 1 (by omega : 1 ≤ 2) (1 : Matrix (Fin 2) (Fin 2) ℂ) = !![1; 0] := by
  ext i j
  obtain rfl : j = 0 := Subsingleton.elim _ _
  fin_cases i
  · show (1 : Matrix (Fin 2) (Fin 2) ℂ) 0 0 = 1
    simp
  · show (1 : Matrix (Fin 2) (Fin 2) ℂ) 1 0 = 0
    simp

/-- **C137** fails without the jump: for snapshots `1, 0` and `0, 1` and rank 1 both unit vectors are leading singular
vectors; with one the eigenvalue is 1, with the other 2. -/
theorem C137_tie_false :
    let X : Matrix (Fin 2) (Fin 2) ℂ := 1
    let Y : Matrix (Fin 2) (Fin 2) ℂ := !![1, 0; 0, 2]
    IsResult ⟨false, false, none⟩ X Y 1 ![1] !![1; 0] ∧ IsResult ⟨false, false, none⟩ X Y 1 ![2] !![0; 1] := by
  intro X Y
  constructor
  · refine ⟨2, by omega, 1, ![1, 1], 1, ⟨?_, by simp, by simp, ?_⟩, antitone2 _ _ le_rfl, 1, ?_, ?_, ?_, ?_, ?_⟩
    · ext i j; fin_cases i <;> fin_cases j <;> simp [X, rdiag2, Matrix.mul_apply]
    · intro i; fin_cases i <;> simp
    · simp only [IsAtilde, Bool.false_eq_true, if_false, Options.tik, Option.map_none, leastSquareOperator, tikSigma]
      rw [lead_one]
      ext i j; fin_cases i; fin_cases j
      simp [Y, Matrix.mul_apply, rdiag, Fin.sum_univ_two]
    · ext i j; fin_cases i; fin_cases j; simp
    · refine roots_of_eig _ 1 1 _ (by simp) ?_
      ext i j; fin_cases i; fin_cases j; simp
    · intro j
      obtain rfl : j = 0 := Subsingleton.elim _ _
      simp [normSq]
    · simp only [computeModes, Bool.false_eq_true, if_false, Matrix.mul_one]
      exact lead_one.symm
  · refine ⟨2, by omega, !![0, 1; 1, 0], ![1, 1], !![0, 1; 1, 0], ⟨?_, ?_, ?_, ?_⟩, antitone2 _ _ le_rfl, !![2], ?_, ?_,
      ?_, ?_, ?_⟩
    · ext i j; fin_cases i <;> fin_cases j <;> simp [X, rdiag2, Matrix.mul_apply]
    · ext i j; fin_cases i <;> fin_cases j <;> simp [Matrix.mul_apply]
    · ext i j; fin_cases i <;> fin_cases j <;> simp [Matrix.mul_apply]
    · intro i; fin_cases i <;> simp
    · simp only [IsAtilde, Bool.false_eq_true, if_false, Options.tik, Option.map_none, leastSquareOperator, tikSigma]
      ext i j; fin_cases i; fin_cases j
      simp [Y, lead, Matrix.mul_apply, rdiag, Fin.sum_univ_two]
    · ext i j; fin_cases i; fin_cases j; simp
    · refine roots_of_eig _ 1 1 _ (by simp) ?_
      ext i j; fin_cases i; fin_cases j; simp
    · intro j
      obtain rfl : j = 0 := Subsingleton.elim _ _
      simp [normSq]
    · ext i j; fin_cases i <;> fin_cases j <;> simp [computeModes, lead]

theorem c3 : (starRingEnd ℂ) 3 = 3 := map_ofNat _ 3
theorem c4 : (starRingEnd ℂ) 4 = 4 := map_ofNat _ 4
theorem c5 : (starRingEnd ℂ) 5 = 5 := map_ofNat _ 5

/-- The rotation with cosine 3/5. -/
noncomputable def R : Matrix (Fin 2) (Fin 2) ℂ := !![3 / 5, -4 / 5; 4 / 5, 3 / 5]

def snapX : Matrix (Fin 2) (Fin 2) ℂ := !![2, 0; 0, 1]

theorem svdX : IsSVD snapX 1 ![2, 1] 1 := by
  refine ⟨?_, by simp, by simp, ?_⟩
  · rw [rdiag2]; simp [snapX]
  · intro i; fin_cases i <;> simp

theorem svdY : IsSVD (R * snapX) R ![2, 1] 1 := by
  refine ⟨?_, ?_, by simp, ?_⟩
  · rw [rdiag2]; simp [snapX]
  · ext i j; fin_cases i <;> fin_cases j <;> simp [R, Matrix.mul_apply, c3, c4, c5] <;> norm_num
  · intro i; fin_cases i <;> simp

/-- The same with the signs of the second singular vectors changed. -/
theorem svdY' : IsSVD (R * snapX) !![3 / 5, 4 / 5; 4 / 5, -3 / 5] ![2, 1] !![1, 0; 0, -1] := by
  refine ⟨?_, ?_, ?_, ?_⟩
  · rw [rdiag2]
    ext i j; fin_cases i <;> fin_cases j <;> simp [R, snapX, Matrix.mul_apply] <;> ring
  · ext i j; fin_cases i <;> fin_cases j <;> simp [Matrix.mul_apply, c3, c4, c5] <;> norm_num
  · ext i j; fin_cases i <;> fin_cases j <;> simp [Matrix.mul_apply]
  · intro i; fin_cases i <;> simp

theorem gap2 {X : Matrix (Fin 2) (Fin 2) ℂ} {U V : Matrix (Fin 2) (Fin 2) ℂ} (h : IsSVD X U ![2, 1] V) : Gap X 2 := by
  refine ⟨2, U, ![2, 1], V, h, antitone2 _ _ (by norm_num), le_rfl, ?_, ?_⟩
  · intro i _; fin_cases i <;> simp
  · intro i j _ hj; omega

theorem inv_R : R * !![3 / 5, 4 / 5; -4 / 5, 3 / 5] = 1 := by
  ext i j; fin_cases i <;> fin_cases j <;> simp [R, Matrix.mul_apply] <;> norm_num

theorem castLE_self {α : Type} {p : ℕ} (s : Fin p → α) : s ∘ Fin.castLE (le_refl p) = s := by
  funext i; simp

theorem forward : leastSquareOperator none 1 ![2, 1] 1 (R * snapX) = R := by
  simp only [leastSquareOperator, tikSigma]
  ext i j; fin_cases i <;> fin_cases j <;> simp [R, snapX, rdiag, Matrix.mul_apply]

/-- Eigenvectors of the rotation. -/
noncomputable def E : Matrix (Fin 2) (Fin 2) ℂ :=
  !![(1 + Complex.I) / 2, (1 + Complex.I) / 2; (1 - Complex.I) / 2, (-1 + Complex.I) / 2]

theorem eig_R : R * E = E * diagonal ![(3 + 4 * Complex.I) / 5, (3 - 4 * Complex.I) / 5] := by
  have hI := Complex.I_mul_I
  ext i j; fin_cases i <;> fin_cases j <;> simp [R, E, Matrix.mul_apply, Fin.sum_univ_two] <;>
    first | linear_combination (2/5) * hI | linear_combination (-2/5) * hI

theorem inv_E : ∃ E', E * E' = 1 := by
  have hI := Complex.I_mul_I
  refine ⟨!![(1 - Complex.I) / 2, (1 + Complex.I) / 2; (1 - Complex.I) / 2, -(1 + Complex.I) / 2], ?_⟩
  ext i j; fin_cases i <;> fin_cases j <;> simp [E, Matrix.mul_apply, Fin.sum_univ_two] <;>
    first | (ring; done) | linear_combination (-1/2) * hI

theorem norm_E (j : Fin 2) : normSq (fun i => E i j) = 1 := by
  fin_cases j <;> simp [E, normSq, Fin.sum_univ_two, Complex.normSq_apply] <;> norm_num

/-- **C137** fails with `forward_backward=True`. The reduced operator of the forward direction is written in the basis
of the singular vectors of `X`, that of the backward direction in those of `Y`, and the signs of both are arbitrary. The
data are three snapshots of a rotation; all singular values are different and all are kept. With one choice of signs the
eigenvalues of the rotation are found, with another choice both eigenvalues are 1. -/
theorem C137_forward_backward_false :
    ∃ X Y : Matrix (Fin 2) (Fin 2) ℂ, Gap X 2 ∧ Gap Y 2 ∧
      (∃ W modes, IsResult ⟨false, true, none⟩ X Y W ![(3 + 4 * Complex.I) / 5, (3 - 4 * Complex.I) / 5] modes) ∧
      ∃ W modes, IsResult ⟨false, true, none⟩ X Y W ![1, 1] modes := by
  refine ⟨snapX, R * snapX, gap2 svdX, gap2 svdY, ⟨E, E, ?_⟩, ⟨1, 1, ?_⟩⟩
  · refine ⟨2, le_rfl, 1, ![2, 1], 1, svdX, antitone2 _ _ (by norm_num), R, ?_, eig_R, ?_, norm_E, ?_⟩
    · have hb : backwardOperator none R ![2, 1] 1 snapX = !![3 / 5, 4 / 5; -4 / 5, 3 / 5] := by
        simp only [backwardOperator, leastSquareOperator, tikSigma]
        ext i j; fin_cases i <;> fin_cases j <;> simp [R, snapX, rdiag, Matrix.mul_apply, c3, c4, c5]
      simp only [IsAtilde, if_true, Options.tik, Option.map_none, lead_self, castLE_self, forward]
      refine ⟨R, ![2, 1], 1, svdY, antitone2 _ _ (by norm_num), ?_⟩
      simp only [hb, IsForwardBackward]
      refine ⟨?_, ?_⟩
      · simp [det_fin_two]; norm_num
      · rw [Matrix.inv_eq_left_inv inv_R]
    · obtain ⟨E', h⟩ := inv_E
      exact roots_of_eig _ E E' _ h eig_R
    · simp [computeModes, lead_self]
  · refine ⟨2, le_rfl, 1, ![2, 1], 1, svdX, antitone2 _ _ (by norm_num), 1, ?_, ?_, ?_, ?_, ?_⟩
    · have hb : backwardOperator none !![3 / 5, 4 / 5; 4 / 5, -3 / 5] ![2, 1] !![1, 0; 0, -1] snapX = R := by
        simp only [backwardOperator, leastSquareOperator, tikSigma]
        ext i j; fin_cases i <;> fin_cases j <;> simp [R, snapX, rdiag, Matrix.mul_apply, c3, c4, c5] <;> ring
      simp only [IsAtilde, if_true, Options.tik, Option.map_none, lead_self, castLE_self, forward]
      refine ⟨_, ![2, 1], _, svdY', antitone2 _ _ (by norm_num), ?_⟩
      have hd : IsUnit R.det := by simp [R, det_fin_two]; norm_num
      simp only [hb, IsForwardBackward]
      exact ⟨hd, by rw [Matrix.mul_nonsing_inv _ hd, Matrix.one_mul]⟩
    · ext i j; fin_cases i <;> fin_cases j <;> simp
    · refine roots_of_eig _ 1 1 _ (by simp) ?_
      ext i j; fin_cases i <;> fin_cases j <;> simp
    · intro j
      have : (fun i => (1 : Matrix (Fin 2) (Fin 2) ℂ) i j) = Pi.single j 1 := by
        funext i; rw [Matrix.one_apply, Pi.single_apply]
      rw [this]
      simp [normSq, Pi.single_apply, apply_ite Complex.normSq]
    · simp [computeModes, lead_self]

/-- Instance: without `forward_backward` the same data meet the hypotheses, and all choices find the rotation. -/
example : Gap snapX 2 ∧
    IsResult ⟨false, false, none⟩ snapX (R * snapX) E ![(3 + 4 * Complex.I) / 5, (3 - 4 * Complex.I) / 5] E ∧
    Function.Injective ![(3 + 4 * Complex.I) / 5, (3 - 4 * Complex.I) / 5] := by
  refine ⟨gap2 svdX, ⟨2, le_rfl, 1, ![2, 1], 1, svdX, antitone2 _ _ (by norm_num), R, ?_, eig_R, ?_, norm_E, ?_⟩, ?_⟩
  · simp only [IsAtilde, Bool.false_eq_true, if_false, Options.tik, Option.map_none, lead_self, castLE_self, forward]
  · obtain ⟨E', h⟩ := inv_E
    exact roots_of_eig _ E E' _ h eig_R
  · simp [computeModes, lead_self]
  · intro i j h
    fin_cases i <;> fin_cases j <;> simp [Complex.ext_iff] at h ⊢ <;> norm_num at h

end Verif.Unique
