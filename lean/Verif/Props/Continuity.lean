import Verif.Lemmas.ResultLimit
import Verif.Lemmas.Linear

/-!
# Property C140: small changes of the data change the result of a fit little
-/

set_option autoImplicit false

namespace Verif.Continuity

open Verif Verif.LinAlg Verif.Operator Verif.Whole Verif.Unique Verif.ResultLimit Matrix Filter Topology

variable {m n : Type} [Fintype m] [Fintype n]

/-- The entries of two matrices differ by less than `δ`. -/
def Near {a b : Type} (δ : ℝ) (X X' : Matrix a b ℂ) : Prop := ∀ i j, ‖X' i j - X i j‖ < δ

theorem tendsto_near {a b : Type} (X : Matrix a b ℂ) (X' : ℕ → Matrix a b ℂ)
    (h : ∀ k : ℕ, Near (1 / ((k : ℝ) + 1)) X (X' k)) : Tendsto X' atTop (𝓝 X) := by
  refine tendsto_of_entries fun i j => ?_
  rw [tendsto_iff_norm_sub_tendsto_zero]
  exact squeeze_zero (fun _ => norm_nonneg _) (fun k => (h k i j).le) tendsto_one_div_add_atTop_nhds_zero_nat

theorem eventually_near {ι : Type} [Finite ι] (f : ℕ → ι → ℂ) (l : ι → ℂ)
    (h : ∀ i, Tendsto (fun k => f k i) atTop (𝓝 (l i))) (ε : ℝ) (hε : 0 < ε) :
    ∀ᶠ k in atTop, ∀ i, ‖f k i - l i‖ < ε := by
  rw [eventually_all]
  intro i
  have := (tendsto_iff_norm_sub_tendsto_zero.mp (h i)).eventually (gt_mem_nhds hε)
  exact this

theorem exists_perm_of_perm {q : ℕ} (f g : Fin q → ℂ) (h : (List.ofFn f).Perm (List.ofFn g)) :
    ∃ π : Equiv.Perm (Fin q), ∀ j, g j = f (π j) := by
  classical
  have hm : Finset.univ.val.map f = Finset.univ.val.map g := by
    rw [Fin.univ_val_map, Fin.univ_val_map]; exact Multiset.coe_eq_coe.mpr h
  have hc : ∀ y, Nonempty ({j // g j = y} ≃ {i // f i = y}) := fun y => by
    refine Fintype.card_eq.mp ?_
    have h1 := congrArg (Multiset.count y) hm
    rw [Multiset.count_map, Multiset.count_map] at h1
    rw [Fintype.card_subtype, Fintype.card_subtype, Finset.card_def, Finset.card_def, Finset.filter_val,
      Finset.filter_val]
    simp only [eq_comm (a := y)] at h1
    exact h1.symm
  have E := fun y => (hc y).some
  refine ⟨(Equiv.sigmaFiberEquiv g).symm.trans ((Equiv.sigmaCongrRight E).trans (Equiv.sigmaFiberEquiv f)), fun j => ?_⟩
  exact (E (g j) ⟨j, rfl⟩).2.symm

/-- **C140** (eigenvalues): let the singular values of `X` jump after the rank `q` of the truncation. Data that differ
little from `X`, `Y` have eigenvalues that differ little. For exact and projected modes, with or without regularization,
without `forward_backward`. -/
theorem C140_eigenvalues_partial [DecidableEq m] (o : Options) (ho : o.forwardBackward = false)
    (ht : ∀ t, o.tikhonov = some t → 0 ≤ t) {q : ℕ} (X Y : Matrix m n ℂ) (hg : Gap X q)
    (W : Matrix (Fin q) (Fin q) ℂ) (eigs : Fin q → ℂ) (modes : Matrix m (Fin q) ℂ) (h : IsResult o X Y W eigs modes)
    (ε : ℝ) (hε : 0 < ε) :
    ∃ δ > 0, ∀ (X' Y' : Matrix m n ℂ) (W' : Matrix (Fin q) (Fin q) ℂ) (eigs' : Fin q → ℂ) (modes' : Matrix m (Fin q) ℂ),
      Near δ X X' → Near δ Y Y' → IsResult o X' Y' W' eigs' modes' →
      ∃ π : Equiv.Perm (Fin q), ∀ j, ‖eigs' j - eigs (π j)‖ < ε := by
  by_contra hcon
  push Not at hcon
  have hk : ∀ k : ℕ, (0 : ℝ) < 1 / ((k : ℝ) + 1) := fun k => Nat.one_div_pos_of_nat
  choose X' Y' W' e' modes' hX hY hr hno using fun k => hcon _ (hk k)
  obtain ⟨φ, W0, e0, modes0, hφ, h0, te, -⟩ := limit_result o ho ht hg (tendsto_near X X' hX) (tendsto_near Y Y' hY)
    W' e' modes' hr
  have hp := C137_eigenvalues_partial o ho X Y hg W W0 eigs e0 modes modes0 h h0
  obtain ⟨π, hπ⟩ := exists_perm_of_perm _ _ hp
  obtain ⟨k, hk⟩ := (eventually_near _ _ te ε hε).exists
  obtain ⟨j, hj⟩ := hno (φ k) π
  have := hk j
  rw [hπ] at this
  linarith

/-- **C140** (modes): if in addition the eigenvalues are different, the modes differ little, up to order and factors of
modulus one. -/
theorem C140_modes_partial [DecidableEq m] (o : Options) (ho : o.forwardBackward = false)
    (ht : ∀ t, o.tikhonov = some t → 0 ≤ t) {q : ℕ} (X Y : Matrix m n ℂ) (hg : Gap X q)
    (W : Matrix (Fin q) (Fin q) ℂ) (eigs : Fin q → ℂ) (modes : Matrix m (Fin q) ℂ) (h : IsResult o X Y W eigs modes)
    (hinj : Function.Injective eigs) (ε : ℝ) (hε : 0 < ε) :
    ∃ δ > 0, ∀ (X' Y' : Matrix m n ℂ) (W' : Matrix (Fin q) (Fin q) ℂ) (eigs' : Fin q → ℂ) (modes' : Matrix m (Fin q) ℂ),
      Near δ X X' → Near δ Y Y' → IsResult o X' Y' W' eigs' modes' →
      ∃ (π : Equiv.Perm (Fin q)) (c : Fin q → ℂ), (∀ j, ‖c j‖ = 1) ∧ (∀ j, ‖eigs' j - eigs (π j)‖ < ε) ∧
        ∀ i j, ‖modes' i j - modes i (π j) * c j‖ < ε := by
  by_contra hcon
  push Not at hcon
  have hk : ∀ k : ℕ, (0 : ℝ) < 1 / ((k : ℝ) + 1) := fun k => Nat.one_div_pos_of_nat
  choose X' Y' W' e' modes' hX hY hr hno using fun k => hcon _ (hk k)
  obtain ⟨φ, W0, e0, modes0, hφ, h0, te, tm⟩ := limit_result o ho ht hg (tendsto_near X X' hX) (tendsto_near Y Y' hY)
    W' e' modes' hr
  obtain ⟨π, c, hc, hπ, hm⟩ := C137_modes_partial o ho X Y hg W W0 eigs e0 modes modes0 h h0 hinj
  obtain ⟨k, hk, hk'⟩ := ((eventually_near _ _ te ε hε).and (eventually_near (ι := m × Fin q)
    (fun k ij => modes' (φ k) ij.1 ij.2) (fun ij => modes0 ij.1 ij.2) (fun ij => tendsto_entry tm ij.1 ij.2) ε hε)).exists
  obtain ⟨i, j, hj⟩ := hno (φ k) π c hc fun j => by rw [← hπ]; exact hk j
  have := hk' (i, j)
  simp only [hm] at this
  linarith

theorem pinv_formula {q : ℕ} [DecidableEq m] (Φ : Matrix m (Fin q) ℂ) (P : Matrix (Fin q) m ℂ) (hP : IsPinv Φ P)
    (hd : (Φᴴ * Φ).det ≠ 0) : P = ((Φᴴ * Φ).det)⁻¹ • ((Φᴴ * Φ).adjugate * Φᴴ) := by
  have h1 : Φᴴ * Φ * P = Φᴴ := by
    rw [Matrix.mul_assoc, ← hP.ap, ← conjTranspose_mul, hP.apa]
  rw [← Matrix.smul_mul]
  have h2 : ((Φᴴ * Φ).det)⁻¹ • (Φᴴ * Φ).adjugate * (Φᴴ * Φ) = 1 := by
    rw [Matrix.smul_mul, adjugate_mul, smul_smul, inv_mul_cancel₀ hd, one_smul]
  rw [← h1, ← Matrix.mul_assoc, h1, h2, Matrix.one_mul]

theorem det_gram {q : ℕ} (Φ : Matrix m (Fin q) ℂ) (h : ∀ v, Φ *ᵥ v = 0 → v = 0) : (Φᴴ * Φ).det ≠ 0 := by
  intro h0
  obtain ⟨v, hv, e⟩ := Matrix.exists_mulVec_eq_zero_iff.mpr h0
  refine hv (h v ?_)
  rw [← normSq_eq_zero, ← Complex.ofReal_eq_zero, normSq_eq_dot]
  have : star (Φ *ᵥ v) ⬝ᵥ (Φ *ᵥ v) = star v ⬝ᵥ ((Φᴴ * Φ) *ᵥ v) := by
    rw [star_mulVec, ← dotProduct_mulVec, mulVec_mulVec]
  rw [this, e, dotProduct_zero]

/-- Pseudo-inverses converge if the columns of the limit are independent. -/
theorem tendsto_pinv {q : ℕ} [DecidableEq m] {Φ : ℕ → Matrix m (Fin q) ℂ} {Φ0 : Matrix m (Fin q) ℂ}
    (h : Tendsto Φ atTop (𝓝 Φ0)) (hi : ∀ v, Φ0 *ᵥ v = 0 → v = 0) {P : ℕ → Matrix (Fin q) m ℂ}
    {P0 : Matrix (Fin q) m ℂ} (hP : ∀ k, IsPinv (Φ k) (P k)) (hP0 : IsPinv Φ0 P0) : Tendsto P atTop (𝓝 P0) := by
  have c1 : Continuous fun M : Matrix m (Fin q) ℂ => Mᴴ := continuous_id.matrix_conjTranspose
  have c2 : Continuous fun M : Matrix m (Fin q) ℂ => Mᴴ * M := c1.matrix_mul continuous_id
  have c3 : ContinuousAt (fun M : Matrix m (Fin q) ℂ => ((Mᴴ * M).det)⁻¹) Φ0 :=
    c2.matrix_det.continuousAt.inv₀ (det_gram Φ0 hi)
  have c4 : Continuous fun M : Matrix m (Fin q) ℂ => (Mᴴ * M).adjugate * Mᴴ := c2.matrix_adjugate.matrix_mul c1
  have hd : ∀ᶠ k in atTop, ((Φ k)ᴴ * Φ k).det ≠ 0 :=
    ((c2.matrix_det.tendsto Φ0).comp h).eventually (isOpen_ne.mem_nhds (det_gram Φ0 hi))
  have : Tendsto (fun k => (((Φ k)ᴴ * Φ k).det)⁻¹ • (((Φ k)ᴴ * Φ k).adjugate * (Φ k)ᴴ)) atTop
      (𝓝 (((Φ0ᴴ * Φ0).det)⁻¹ • ((Φ0ᴴ * Φ0).adjugate * Φ0ᴴ))) := (c3.smul c4.continuousAt).tendsto.comp h
  rw [← pinv_formula Φ0 P0 hP0 (det_gram Φ0 hi)] at this
  refine this.congr' (hd.mono fun k hk => ?_)
  exact (pinv_formula (Φ k) (P k) (hP k) hk).symm

open Verif.Time Verif.Bitmask in
/-- **C140** (reconstruction): if the modes are independent, too, the reconstructions and forecasts for the times
`0, ..., T` differ little, for amplitudes fitted to first snapshots that differ little. -/
theorem C140_reconstruction_partial [DecidableEq m] (o : Options) (ho : o.forwardBackward = false)
    (ht : ∀ t, o.tikhonov = some t → 0 ≤ t) {q : ℕ} (X Y : Matrix m n ℂ) (hg : Gap X q)
    (W : Matrix (Fin q) (Fin q) ℂ) (eigs : Fin q → ℂ) (modes : Matrix m (Fin q) ℂ) (h : IsResult o X Y W eigs modes)
    (hinj : Function.Injective eigs) (hind : ∀ v, modes *ᵥ v = 0 → v = 0) (P : Matrix (Fin q) m ℂ)
    (hP : IsPinv modes P) (x : m → ℂ) (N T : ℕ) (b : Bool) (ε : ℝ) (hε : 0 < ε) :
    ∃ y : ℕ → m → ℂ, reconstructed (afterFit (List.ofFn fun j => fun i => modes i j) (List.ofFn eigs)
        (List.ofFn (P *ᵥ x))) (fitWindow N) ⟨0, T, 1⟩ (.bool b) N = .ok ((List.range (T + 1)).map y) ∧
    ∃ δ > 0, ∀ (X' Y' : Matrix m n ℂ) (W' : Matrix (Fin q) (Fin q) ℂ) (eigs' : Fin q → ℂ) (modes' : Matrix m (Fin q) ℂ)
      (P' : Matrix (Fin q) m ℂ) (x' : m → ℂ), Near δ X X' → Near δ Y Y' → (∀ i, ‖x' i - x i‖ < δ) →
      IsResult o X' Y' W' eigs' modes' → IsPinv modes' P' →
      ∃ y' : ℕ → m → ℂ, reconstructed (afterFit (List.ofFn fun j => fun i => modes' i j) (List.ofFn eigs')
          (List.ofFn (P' *ᵥ x'))) (fitWindow N) ⟨0, T, 1⟩ (.bool b) N = .ok ((List.range (T + 1)).map y') ∧
        ∀ t ≤ T, ∀ i, ‖y' t i - y t i‖ < ε := by
  refine ⟨fun t p => ∑ j, modes p j * (eigs j ^ t * (P *ᵥ x) j), reconstructed_ofFn _ _ _ _ (fun k => rfl) N T b, ?_⟩
  by_contra hcon
  push Not at hcon
  have hk : ∀ k : ℕ, (0 : ℝ) < 1 / ((k : ℝ) + 1) := fun k => Nat.one_div_pos_of_nat
  choose X' Y' W' e' modes' P' x' hX hY hx hr hP' hno using fun k => hcon _ (hk k)
  obtain ⟨φ, W0, e0, modes0, hφ, h0, te, tm⟩ := limit_result o ho ht hg (tendsto_near X X' hX) (tendsto_near Y Y' hY)
    W' e' modes' hr
  obtain ⟨π, c, hc, hπ, hm⟩ := C137_modes_partial o ho X Y hg W W0 eigs e0 modes modes0 h h0 hinj
  have hcc : ∀ j, c j * star (c j) = 1 := fun j => by
    rw [Complex.star_def, Complex.mul_conj, Complex.normSq_eq_norm_sq, hc j]; simp
  have hc0 : ∀ j, c j ≠ 0 := fun j h0 => by have := hc j; rw [h0] at this; simp at this
  have hind0 : ∀ v, modes0 *ᵥ v = 0 → v = 0 := fun v hv => by
    have h1 : modes *ᵥ (fun j => c (π.symm j) * v (π.symm j)) = 0 := by
      rw [← hv]
      funext i
      simp only [mulVec, dotProduct]
      rw [← Equiv.sum_comp π fun j => modes i j * (c (π.symm j) * v (π.symm j))]
      refine Finset.sum_congr rfl fun j _ => ?_
      rw [hm, Equiv.symm_apply_apply]; ring
    funext j
    have h2 := congrFun (hind _ h1) (π j)
    simp only [Equiv.symm_apply_apply, Pi.zero_apply] at h2
    exact (mul_eq_zero.mp h2).resolve_left (hc0 j)
  set P0 : Matrix (Fin q) m ℂ := ((modes0ᴴ * modes0).det)⁻¹ • ((modes0ᴴ * modes0).adjugate * modes0ᴴ) with hP0d
  have hPm : P0 * modes0 = 1 := by
    rw [hP0d, Matrix.smul_mul, Matrix.mul_assoc, adjugate_mul, smul_smul, inv_mul_cancel₀ (det_gram _ hind0), one_smul]
  have hP0 : IsPinv modes0 P0 := by
    refine ⟨?_, ?_, ?_, ?_⟩
    · rw [Matrix.mul_assoc, hPm, Matrix.mul_one]
    · rw [hPm, Matrix.one_mul]
    · have hinv : P0 = (modes0ᴴ * modes0)⁻¹ * modes0ᴴ := by
        rw [hP0d, Matrix.inv_def, Ring.inverse_eq_inv', Matrix.smul_mul]
      rw [hinv, conjTranspose_mul, conjTranspose_mul, conjTranspose_conjTranspose, conjTranspose_nonsing_inv,
        conjTranspose_mul, conjTranspose_conjTranspose, Matrix.mul_assoc]
    · rw [hPm, conjTranspose_one]
  have tP := tendsto_pinv tm hind0 (P := fun k => P' (φ k)) (fun k => hP' (φ k)) hP0
  have tx : ∀ i, Tendsto (fun k => x' (φ k) i) atTop (𝓝 (x i)) := fun i => by
    have : Tendsto (fun k => x' k i) atTop (𝓝 (x i)) := by
      rw [tendsto_iff_norm_sub_tendsto_zero]
      exact squeeze_zero (fun _ => norm_nonneg _) (fun k => (hx k i).le) tendsto_one_div_add_atTop_nhds_zero_nat
    exact this.comp hφ.tendsto_atTop
  have key : ∀ (t : ℕ) (i : m), Tendsto (fun k => ∑ j, modes' (φ k) i j * (e' (φ k) j ^ t * (P' (φ k) *ᵥ x' (φ k)) j)) atTop
      (𝓝 (∑ j, modes i j * (eigs j ^ t * (P *ᵥ x) j))) := fun t i => by
    have e1 : ∑ j, modes i j * (eigs j ^ t * (P *ᵥ x) j) = ∑ j, modes0 i j * (e0 j ^ t * (P0 *ᵥ x) j) := by
      rw [← Equiv.sum_comp π fun j => modes i j * (eigs j ^ t * (P *ᵥ x) j)]
      refine Finset.sum_congr rfl fun j _ => ?_
      have hb : (P0 *ᵥ x) j = star (c j) * (P *ᵥ x) (π j) := by
        simp only [mulVec, dotProduct, Finset.mul_sum]
        refine Finset.sum_congr rfl fun i _ => ?_
        rw [pinv_amplitudes modes modes0 π c hc hm P P0 hP hP0, mul_assoc]
      rw [hm, hπ, hb]
      calc modes i (π j) * (eigs (π j) ^ t * (P *ᵥ x) (π j)) =
          c j * star (c j) * (modes i (π j) * (eigs (π j) ^ t * (P *ᵥ x) (π j))) := by rw [hcc, one_mul]
        _ = _ := by ring
    rw [e1]
    refine tendsto_finsetSum _ fun j _ => (tendsto_entry tm i j).mul (((te j).pow t).mul ?_)
    simp only [mulVec, dotProduct]
    exact tendsto_finsetSum _ fun l _ => (tendsto_entry tP j l).mul (tx l)
  have hev := eventually_near (ι := Fin (T + 1) × m)
    (fun k ti => ∑ j, modes' (φ k) ti.2 j * (e' (φ k) j ^ (ti.1 : ℕ) * (P' (φ k) *ᵥ x' (φ k)) j)) _
    (fun ti => key ti.1 ti.2) ε hε
  obtain ⟨k, hk⟩ := hev.exists
  obtain ⟨t, htT, i, hti⟩ := hno (φ k) (fun t p => ∑ j, modes' (φ k) p j * (e' (φ k) j ^ t * (P' (φ k) *ᵥ x' (φ k)) j))
    (reconstructed_ofFn _ _ _ _ (fun k => rfl) N T b)
  have := hk (⟨t, by omega⟩, i)
  linarith

/-- Eigenvalues come with eigenvectors: for every factorization there is a result. -/
theorem exists_result {q : ℕ} (o : Options) (ho : o.forwardBackward = false) (X Y : Matrix m n ℂ)
    (U : Matrix m (Fin q) ℂ) (s : Fin q → ℝ) (V : Matrix n (Fin q) ℂ) (hS : IsSVD X U s V) (hs : Antitone s)
    (l : Fin q → ℂ) (hl : (leastSquareOperator (o.tik X) U s V Y).charpoly.roots = Finset.univ.val.map l) :
    ∃ W modes, IsResult o X Y W l modes := by
  set A := leastSquareOperator (o.tik X) U s V Y with hA
  have hex : ∀ j, ∃ v : Fin q → ℂ, normSq v = 1 ∧ A *ᵥ v = l j • v := fun j => by
    have h0 : (diagonal (fun _ => l j) - A).det = 0 := by
      rw [(charpoly_iff A l).mp hl]
      exact Finset.prod_eq_zero (Finset.mem_univ j) (sub_self _)
    obtain ⟨v, hv, e⟩ := Matrix.exists_mulVec_eq_zero_iff.mpr h0
    have hn : normSq v ≠ 0 := fun h => hv ((normSq_eq_zero v).mp h)
    have hp : 0 < normSq v := lt_of_le_of_ne (Finset.sum_nonneg fun _ _ => Complex.normSq_nonneg _) (Ne.symm hn)
    refine ⟨((Real.sqrt (normSq v))⁻¹ : ℂ) • v, ?_, ?_⟩
    · have : normSq (((Real.sqrt (normSq v))⁻¹ : ℂ) • v) =
          Complex.normSq ((Real.sqrt (normSq v))⁻¹ : ℂ) * normSq v := by simp [normSq, Finset.mul_sum]
      rw [this, map_inv₀, Complex.normSq_ofReal, Real.mul_self_sqrt hp.le, inv_mul_cancel₀ hn]
    · rw [mulVec_smul]
      rw [sub_mulVec, sub_eq_zero] at e
      rw [← e, smul_comm]
      congr 1
      funext i
      simp [mulVec_diagonal]
  choose w hw hA' using hex
  refine ⟨of fun i j => w j i, _, q, le_rfl, U, s, V, hS, hs, A, ?_, ?_, hl, hw, rfl⟩
  · simp only [IsAtilde, ho, Bool.false_eq_true, if_false, lead_self, castLE_self]; rfl
  · ext i j
    rw [mul_diagonal]
    have := congrFun (hA' j) i
    simp only [mulVec, dotProduct, Pi.smul_apply, smul_eq_mul] at this
    rw [Matrix.mul_apply]
    simp only [of_apply]
    rw [this]; ring

/-- **C140** (vanishing noise): if the snapshots are sums of `q` independent exponentials plus noise, the eigenvalues
found with `svd_rank=q` are as close to the exponents as one wants, provided that the noise is small enough. -/
theorem C140_consistent [DecidableEq m] {q N : ℕ} (hN : q ≤ N) (exact : Bool) (c : Fin q → m → ℂ) (l : Fin q → ℂ)
    (hl : Function.Injective l) (hc : ∀ v : Fin q → ℂ, (∀ p, ∑ a, v a * c a p = 0) → v = 0) (X Y : Matrix m (Fin N) ℂ)
    (hX : ∀ p t, X p t = ∑ a, c a p * l a ^ (t : ℕ)) (hY : ∀ p t, Y p t = ∑ a, c a p * l a ^ ((t : ℕ) + 1))
    (U : Matrix m (Fin q) ℂ) (s : Fin q → ℝ) (V : Matrix (Fin N) (Fin q) ℂ) (hS : IsSVD X U s V) (hs : Antitone s)
    (h0 : ∀ i, s i ≠ 0) (ε : ℝ) (hε : 0 < ε) :
    ∃ δ > 0, ∀ (noise noise' : Matrix m (Fin N) ℂ) (W : Matrix (Fin q) (Fin q) ℂ) (eigs : Fin q → ℂ)
      (modes : Matrix m (Fin q) ℂ), (∀ i j, ‖noise i j‖ < δ) → (∀ i j, ‖noise' i j‖ < δ) →
      IsResult ⟨exact, false, none⟩ (X + noise) (Y + noise') W eigs modes →
      ∃ π : Equiv.Perm (Fin q), ∀ j, ‖eigs j - l (π j)‖ < ε := by
  have hr := (Frequencies.C136_dmd hN c l hl hc X Y hX hY U s V hS h0).2
  obtain ⟨W, modes, h⟩ := exists_result ⟨exact, false, none⟩ rfl X Y U s V hS hs l hr
  have hg : Gap X q := ⟨q, U, s, V, hS, hs, le_rfl, fun i _ => lt_of_le_of_ne (hS.nonneg i) (h0 i).symm,
    fun i j _ hj => absurd j.2 (by omega)⟩
  obtain ⟨δ, hδ, hno⟩ := C140_eigenvalues_partial ⟨exact, false, none⟩ rfl (by simp) X Y hg W l modes h ε hε
  refine ⟨δ, hδ, fun noise noise' W' eigs' modes' h1 h2 hr' => hno _ _ W' eigs' modes' (fun i j => ?_) (fun i j => ?_) hr'⟩
  · simpa using h1 i j
  · simpa using h2 i j

/-- **C140** fails if the rank is larger than that of the data: the snapshots `(1, 0), (1, 0)` of a constant signal, and
noise of any size `a > 0` in the second sensor. With `svd_rank=2` the second eigenvalue is whatever the noise makes it. -/
theorem C140_overrank_false (z : ℂ) (a : ℝ) (ha : 0 < a) (ha1 : a < 1) :
    ∃ X' Y' : Matrix (Fin 2) (Fin 2) ℂ,
      Near a !![1, 0; 0, 0] X' ∧ Near a !![1, 0; 0, 0] Y' ∧
      ∃ W modes, IsResult ⟨true, false, none⟩ X' Y' W ![1, z] modes := by
  have hz : 0 < 2 * (1 + ‖z‖) := by positivity
  set b : ℝ := a / (2 * (1 + ‖z‖)) with hb
  have hb0 : 0 < b := div_pos ha hz
  have hba : b < a := by
    rw [hb, div_lt_iff₀ hz]
    nlinarith [norm_nonneg z]
  have hbz : ‖z‖ * b < a := by
    rw [hb, ← mul_div_assoc, div_lt_iff₀ hz]
    nlinarith [norm_nonneg z]
  have hS : IsSVD (!![1, 0; 0, (b : ℂ)]) 1 ![1, b] (1 : Matrix (Fin 2) (Fin 2) ℂ) := by
    refine ⟨?_, by simp, by simp, ?_⟩
    · rw [rdiag2]; simp
    · intro i; fin_cases i <;> simp [hb0.le]
  refine ⟨!![1, 0; 0, (b : ℂ)], !![1, 0; 0, z * b], ?_, ?_, ?_⟩
  · intro i j; fin_cases i <;> fin_cases j <;> simp [ha, abs_of_pos hb0, hba]
  · intro i j; fin_cases i <;> fin_cases j <;> simp [ha, abs_of_pos hb0, hbz]
  · refine exists_result ⟨true, false, none⟩ rfl _ _ 1 _ 1 hS (antitone2 _ _ (by linarith)) _ ?_
    have : leastSquareOperator (Options.tik ⟨true, false, none⟩ (!![1, 0; 0, (b : ℂ)])) 1 ![1, b] 1 !![1, 0; 0, z * b] =
        diagonal ![1, z] := by
      have hbc : (b : ℂ) ≠ 0 := by exact_mod_cast hb0.ne'
      simp only [Options.tik, Option.map_none, leastSquareOperator, tikSigma]
      ext i j; fin_cases i <;> fin_cases j <;> simp [rdiag, Matrix.mul_apply, Fin.sum_univ_two, hbc]
    rw [this, Frequencies.roots_diagonal]

/-- **C140** fails without the jump: near the snapshots `(1, 0), (0, 1)` with images `(1, 0), (0, 2)` there are, in every
distance, data whose only eigenvalue for `svd_rank=1` is 1, and data for which it is 2. -/
theorem C140_tie_false (a : ℝ) (ha : 0 < a) :
    ∃ X₁ X₂ Y : Matrix (Fin 2) (Fin 2) ℂ, Near a 1 X₁ ∧ Near a 1 X₂ ∧ Gap X₁ 1 ∧ Gap X₂ 1 ∧
      (∃ W modes, IsResult ⟨false, false, none⟩ X₁ (Y * X₁) W ![1] modes) ∧
      ∃ W modes, IsResult ⟨false, false, none⟩ X₂ (Y * X₂) W ![2] modes := by
  set b : ℝ := a / 2 with hb
  have hb0 : 0 < b := by rw [hb]; linarith
  have hba : b < a := by rw [hb]; linarith
  have hbc : ((1 : ℂ) + b) ≠ 0 := by
    have : (1 + b : ℝ) ≠ 0 := by linarith
    exact_mod_cast this
  have hS1 : IsSVD (!![1 + (b : ℂ), 0; 0, 1]) 1 ![1 + b, 1] (1 : Matrix (Fin 2) (Fin 2) ℂ) := by
    refine ⟨?_, by simp, by simp, ?_⟩
    · rw [rdiag2]; simp
    · intro i; fin_cases i
      · show 0 ≤ 1 + b; linarith
      · simp
  have hS2 : IsSVD (!![1, 0; 0, 1 + (b : ℂ)]) !![0, 1; 1, 0] ![1 + b, 1] (!![0, 1; 1, 0] : Matrix (Fin 2) (Fin 2) ℂ) := by
    refine ⟨?_, ?_, ?_, ?_⟩
    · rw [rdiag2]
      ext i j; fin_cases i <;> fin_cases j <;> simp [Matrix.mul_apply]
    · ext i j; fin_cases i <;> fin_cases j <;> simp [Matrix.mul_apply]
    · ext i j; fin_cases i <;> fin_cases j <;> simp [Matrix.mul_apply]
    · intro i; fin_cases i
      · show 0 ≤ 1 + b; linarith
      · simp
  have hanti : Antitone ![1 + b, 1] := antitone2 _ _ (by linarith)
  have hgap : ∀ {X U V : Matrix (Fin 2) (Fin 2) ℂ}, IsSVD X U ![1 + b, 1] V → Gap X 1 := fun h => by
    refine ⟨2, _, _, _, h, hanti, by omega, ?_, ?_⟩
    · intro i hi
      obtain rfl : i = 0 := by omega
      show 0 < 1 + b
      linarith
    · intro i j hi hj
      obtain rfl : i = 0 := by omega
      obtain rfl : j = 1 := by omega
      show 1 < 1 + b
      linarith
  refine ⟨!![1 + (b : ℂ), 0; 0, 1], !![1, 0; 0, 1 + (b : ℂ)], !![1, 0; 0, 2], ?_, ?_, hgap hS1, hgap hS2, ?_, ?_⟩
  · intro i j; fin_cases i <;> fin_cases j <;> simp [ha, abs_of_pos hb0, hba]
  · intro i j; fin_cases i <;> fin_cases j <;> simp [ha, abs_of_pos hb0, hba]
  · refine ⟨1, _, 2, by omega, 1, _, 1, hS1, hanti, 1, ?_, ?_, ?_, ?_, rfl⟩
    · simp only [IsAtilde, Bool.false_eq_true, if_false, Options.tik, Option.map_none, leastSquareOperator, tikSigma]
      rw [lead_one]
      ext i j; fin_cases i; fin_cases j
      simp [Matrix.mul_apply, rdiag, Fin.sum_univ_two, hbc]
    · ext i j; fin_cases i; fin_cases j; simp
    · refine roots_of_eig _ 1 1 _ (by simp) ?_
      ext i j; fin_cases i; fin_cases j; simp
    · intro j
      obtain rfl : j = 0 := Subsingleton.elim _ _
      simp [normSq]
  · refine ⟨1, _, 2, by omega, _, _, _, hS2, hanti, !![2], ?_, ?_, ?_, ?_, rfl⟩
    · simp only [IsAtilde, Bool.false_eq_true, if_false, Options.tik, Option.map_none, leastSquareOperator, tikSigma]
      ext i j; fin_cases i; fin_cases j
      simp [lead, Matrix.mul_apply, rdiag, Fin.sum_univ_two, hbc]
    · ext i j; fin_cases i; fin_cases j; simp
    · refine roots_of_eig _ 1 1 _ (by simp) ?_
      ext i j; fin_cases i; fin_cases j; simp
    · intro j
      obtain rfl : j = 0 := Subsingleton.elim _ _
      simp [normSq]

/-- Instance: the snapshots of a rotation meet the hypotheses of the theorems above. -/
example : Gap snapX 2 ∧
    IsResult ⟨false, false, none⟩ snapX (R * snapX) E ![(3 + 4 * Complex.I) / 5, (3 - 4 * Complex.I) / 5] E ∧
    Function.Injective ![(3 + 4 * Complex.I) / 5, (3 - 4 * Complex.I) / 5] ∧ ∀ v, E *ᵥ v = 0 → v = 0 := by
  refine ⟨gap2 svdX, ⟨2, le_rfl, 1, ![2, 1], 1, svdX, antitone2 _ _ (by norm_num), R, ?_, eig_R, ?_, norm_E, ?_⟩, ?_, ?_⟩
  · simp only [IsAtilde, Bool.false_eq_true, if_false, Options.tik, Option.map_none, lead_self, castLE_self, forward]
  · obtain ⟨E', h⟩ := inv_E
    exact roots_of_eig _ E E' _ h eig_R
  · simp [computeModes, lead_self]
  · intro i j h
    fin_cases i <;> fin_cases j <;> simp [Complex.ext_iff] at h ⊢ <;> norm_num at h
  · intro v hv
    obtain ⟨E', h⟩ := inv_E
    have := mul_eq_one_comm.mp h
    rw [← one_mulVec v, ← this, ← mulVec_mulVec, hv, mulVec_zero]

/-- Instance of the theorem on noise: the signal `3, -4, 16/3` of one sensor. -/
example (ε : ℝ) (hε : 0 < ε) :
    ∃ δ > 0, ∀ (noise noise' : Matrix (Fin 1) (Fin 2) ℂ) (W : Matrix (Fin 1) (Fin 1) ℂ) (eigs : Fin 1 → ℂ)
      (modes : Matrix (Fin 1) (Fin 1) ℂ), (∀ i j, ‖noise i j‖ < δ) → (∀ i j, ‖noise' i j‖ < δ) →
      IsResult ⟨true, false, none⟩ (!![3, -4] + noise) (!![-4, 16 / 3] + noise') W eigs modes →
      ‖eigs 0 - (-4 / 3)‖ < ε := by
  have c3 : (starRingEnd ℂ) 3 = 3 := map_ofNat _ 3
  have c4 : (starRingEnd ℂ) 4 = 4 := map_ofNat _ 4
  have c5 : (starRingEnd ℂ) 5 = 5 := map_ofNat _ 5
  obtain ⟨δ, hδ, h⟩ := C140_consistent (m := Fin 1) (q := 1) (N := 2) (by omega) true (fun _ _ => 3) (fun _ => -4 / 3)
    (fun i j _ => Subsingleton.elim i j) (fun v hv => by
      funext a
      obtain rfl : a = 0 := Subsingleton.elim _ _
      have := hv 0
      simpa using this) !![3, -4] !![-4, 16 / 3]
    (by intro p t; fin_cases p; fin_cases t <;> norm_num) (by intro p t; fin_cases p; fin_cases t <;> norm_num)
    !![1] ![5] !![3 / 5; -4 / 5] (by
      refine ⟨?_, ?_, ?_, ?_⟩
      · ext i j; fin_cases i; fin_cases j <;> simp [Matrix.mul_apply, rdiag] <;> norm_num
      · ext i j; fin_cases i; fin_cases j; simp [Matrix.mul_apply]
      · ext i j; fin_cases i; fin_cases j; simp [Matrix.mul_apply, Fin.sum_univ_two, c3, c4, c5]; norm_num
      · intro i; fin_cases i; simp) (fun i j _ => by rw [Subsingleton.elim i j]) (by intro i; fin_cases i; simp) ε hε
  refine ⟨δ, hδ, fun noise noise' W eigs modes h1 h2 hr => ?_⟩
  obtain ⟨π, hπ⟩ := h noise noise' W eigs modes h1 h2 hr
  exact hπ 0

end Verif.Continuity
