import Verif.Lemmas.LandoTransport

/-!
# Property C168: LANDO does not depend on coordinates, units or order of the snapshots
-/

set_option autoImplicit false

namespace Verif.Lando

open Matrix Verif.LinAlg
open scoped RealInnerProductSpace

variable {n : Type} [Fintype n]

/-- Parameters for which a kernel measures similarity: no negative coefficients. The defaults of sklearn
(`gamma = 1/n_features`, `coef0 = 1`) are among them. -/
def Kernel.Psd : Kernel → Prop
  | .linear => True
  | .poly g c _ => 0 ≤ g ∧ 0 ≤ c
  | .rbf g => 0 ≤ g

/-- Such a kernel is an inner product of features. -/
theorem Kernel.Psd.feature {k : Kernel} (hk : k.Psd) : ∃ (H : Type) (_ : NormedAddCommGroup H) (_ : InnerProductSpace ℝ H)
    (ψ : (n → ℝ) → H), (k.eval : (n → ℝ) → (n → ℝ) → ℝ) = kOf ψ := by
  classical
  cases k with
  | linear => exact ⟨_, _, _, _, linear_eval⟩
  | poly g c d => exact ⟨_, _, _, _, poly_eval hk.1 hk.2 d⟩
  | rbf g =>
    rcases (show 0 ≤ g from hk).eq_or_lt with h | h
    · refine ⟨ℝ, inferInstance, inferInstance, fun _ => 1, ?_⟩
      funext x y
      simp [Kernel.eval, ← h, kOf]
    · obtain ⟨ψ, hψ⟩ := rbf_eval (n := n) h
      exact ⟨_, _, _, ψ, hψ⟩

/-- Two fits with the same kernel values up to a factor and linearly related outputs. -/
theorem transport {k k' : Kernel} (hk' : k'.Psd) {sv : Solver} (hsv : SolverOk sv) {rho rho' : n → ℝ} (φ : (n → ℝ) → n → ℝ)
    (L : Matrix n n ℝ) {s tol : ℝ} (hs : 0 < s)
    (h : ∀ x y, k'.eval (rescale rho' (φ x)) (rescale rho' (φ y)) = s * k.eval (rescale rho x) (rescale rho y))
    {p0 : (n → ℝ) × (n → ℝ)} {ps : List ((n → ℝ) × (n → ℝ))} {m m' : Learnt n} (hm : IsLearnt k sv tol rho p0 ps m)
    (hm' : IsLearnt k' sv (s * tol) rho' (φ p0.1, L *ᵥ p0.2) (ps.map fun p => (φ p.1, L *ᵥ p.2)) m') (x : n → ℝ) :
    m'.f k' rho' (φ x) = L *ᵥ m.f k rho x := by
  set kk : (n → ℝ) → (n → ℝ) → ℝ := fun x y => k.eval (rescale rho x) (rescale rho y) with hkk
  set d := learn kk sv tol p0.1 (ps.map Prod.fst) with hd
  have e1 : learn k.eval sv tol (rescale rho p0.1) (ps.map fun p => rescale rho p.1) = d.map (rescale rho) √1 := by
    have := learn_map (k := kk) (k' := k.eval) (φ := rescale rho) hsv one_pos (fun x y => (one_mul _).symm) tol p0.1
      (ps.map Prod.fst)
    rw [one_mul, List.map_map] at this
    exact this
  have e2 : learn k'.eval sv (s * tol) (rescale rho' (φ p0.1)) ((ps.map fun p => (φ p.1, L *ᵥ p.2)).map
      fun p => rescale rho' p.1) = d.map (rescale rho' ∘ φ) √s := by
    have := learn_map (k := kk) (k' := k'.eval) (φ := rescale rho' ∘ φ) hsv hs (fun x y => h x y) tol p0.1
      (ps.map Prod.fst)
    rw [List.map_map] at this
    rw [List.map_map]
    exact this
  have main : ∀ W W' : Matrix n d.ι ℝ, IsWeights kk d.item (p0 :: ps) W →
      IsWeights k'.eval ((rescale rho' ∘ φ) ∘ d.item) ((p0 :: ps).map fun p => ((rescale rho' ∘ φ) p.1, L *ᵥ p.2)) W' →
      (W' *ᵥ fun a => k'.eval (((rescale rho' ∘ φ) ∘ d.item) a) (rescale rho' (φ x))) =
        L *ᵥ (W *ᵥ fun a => kk (d.item a) x) := by
    intro W W' h1 h3
    have h2 : IsWeights k'.eval ((rescale rho' ∘ φ) ∘ d.item) ((p0 :: ps).map fun p => ((rescale rho' ∘ φ) p.1, L *ᵥ p.2))
        (s⁻¹ • (L * W)) := isWeights_map hs.ne' h L h1
    obtain ⟨H, i1, i2, ψ, hψ⟩ := hk'.feature (n := n)
    rw [hψ] at h2 h3
    have h4 : ∀ a, ∃ p ∈ (p0 :: ps).map (fun p => ((rescale rho' ∘ φ) p.1, L *ᵥ p.2)),
        p.1 = ((rescale rho' ∘ φ) ∘ d.item) a := fun a => by
      have h5 : d.item a ∈ (p0 :: ps).map Prod.fst := C72_subset (sv := sv) (tol := tol) p0.1 (ps.map Prod.fst) kk a
      obtain ⟨p, hp, hpa⟩ := List.mem_map.mp h5
      exact ⟨_, List.mem_map_of_mem (f := fun p : (n → ℝ) × (n → ℝ) => ((rescale rho' ∘ φ) p.1, L *ᵥ p.2)) hp,
        congrArg (rescale rho' ∘ φ) hpa⟩
    funext r
    have h6 := weights_unique h4 h3 h2 (ψ (rescale rho' (φ x))) r
    have h7 : ∀ a, ⟪ψ (((rescale rho' ∘ φ) ∘ d.item) a), ψ (rescale rho' (φ x))⟫ = s * kk (d.item a) x := fun a => by
      rw [← h, hψ]; rfl
    have h8 : ∀ a, k'.eval (((rescale rho' ∘ φ) ∘ d.item) a) (rescale rho' (φ x)) = s * kk (d.item a) x := fun a => h _ _
    simp only [h7] at h6
    rw [mulVec_mulVec]
    simp only [mulVec, dotProduct, h8]
    rw [h6]
    refine Finset.sum_congr rfl fun a _ => ?_
    rw [Matrix.smul_apply, smul_eq_mul]
    have := hs.ne'
    field_simp
  obtain ⟨W, hW, rfl⟩ := hm
  obtain ⟨W', hW', rfl⟩ := hm'
  simp only [IsFit] at hW hW'
  simp only [Learnt.f, f]
  revert W W'
  rw [e1, e2]
  intro W hW W' hW'
  refine main W W' (fun V => ?_) (fun V => ?_)
  · have := hW V
    simp only [sqErr, List.map_map] at this
    exact this
  · have := hW' V
    simp only [List.map_cons, List.map_map] at this ⊢
    exact this

/-- Kernels of the same kind. -/
def Kernel.SameKind : Kernel → Kernel → Prop
  | .linear, .linear => True
  | .poly _ _ _, .poly _ _ _ => True
  | .rbf _, .rbf _ => True
  | _, _ => False

/-- The linear part is the derivative of the model up to a sign that depends on the kernel only (D58). -/
theorem lin_deriv [DecidableEq n] (k k' : Kernel) (h : k.SameKind k') : ∃ e : ℝ, e ≠ 0 ∧
    (∀ (rho : n → ℝ) (m : Learnt n) (x : n → ℝ), HasFDerivAt (m.f k rho) (clm (e • m.lin k rho x)) x) ∧
    ∀ (rho : n → ℝ) (m : Learnt n) (x : n → ℝ), HasFDerivAt (m.f k' rho) (clm (e • m.lin k' rho x)) x := by
  have hex : ∀ k : Kernel, k.exact → ∀ (rho : n → ℝ) (m : Learnt n) (x : n → ℝ),
      HasFDerivAt (m.f k rho) (clm ((1 : ℝ) • m.lin k rho x)) x := fun k hk rho m x => by
    rw [one_smul]; exact C49_derivative_partial k hk _ _ _ _
  have hrbf : ∀ g (rho : n → ℝ) (m : Learnt n) (x : n → ℝ),
      HasFDerivAt (m.f (.rbf g) rho) (clm ((-1 : ℝ) • m.lin (.rbf g) rho x)) x := fun g rho m x => by
    rw [neg_one_smul]; exact C49_rbf_negated_partial g _ _ _ _
  cases k <;> cases k' <;> first
    | exact absurd h id
    | exact ⟨1, one_ne_zero, hex _ trivial, hex _ trivial⟩
    | exact ⟨-1, by norm_num, hrbf _, hrbf _⟩

theorem lin_transport [DecidableEq n] {k k' : Kernel} (h : k.SameKind k') {rho rho' : n → ℝ} {m m' : Learnt n}
    (M L : Matrix n n ℝ) (hf : ∀ x, m'.f k' rho' (M *ᵥ x) = L *ᵥ m.f k rho x) (x : n → ℝ) :
    m'.lin k' rho' (M *ᵥ x) * M = L * m.lin k rho x := by
  obtain ⟨e, he, h1, h2⟩ := lin_deriv (n := n) k k' h
  have h3 : HasFDerivAt (fun x => m'.f k' rho' (M *ᵥ x)) ((clm (e • m'.lin k' rho' (M *ᵥ x))).comp (clm M)) x :=
    HasFDerivAt.comp x (h2 rho' m' (M *ᵥ x)) (clm M).hasFDerivAt
  have h4 : HasFDerivAt (fun x => L *ᵥ m.f k rho x) ((clm L).comp (clm (e • m.lin k rho x))) x :=
    HasFDerivAt.comp x (clm L).hasFDerivAt (h1 rho m x)
  have h5 := (h3.congr_of_eventuallyEq (Filter.Eventually.of_forall fun x => (hf x).symm)).unique h4
  have h6 : (e • m'.lin k' rho' (M *ᵥ x)) * M = L * (e • m.lin k rho x) := by
    refine ext_iff_mulVec.mpr fun v => ?_
    have := congrArg (fun T => T v) h5
    simp only [ContinuousLinearMap.comp_apply, clm_apply] at this
    rw [← mulVec_mulVec, ← mulVec_mulVec, this]
  rw [Matrix.smul_mul, Matrix.mul_smul] at h6
  exact smul_right_injective _ he h6

theorem sameKind_refl (k : Kernel) : k.SameKind k := by cases k <;> trivial

/-! ### Coordinates -/

/-- **C168** (coordinates). Let the coordinates of the snapshots be rotated or reflected (`K` orthogonal), with the same
number as `x_rescale`. Then the learnt model and its linear part about any point are the ones of the old coordinates,
written in the new coordinates, for every kernel and every `dict_tol`. -/
theorem C168_coordinates [DecidableEq n] {k : Kernel} (hk : k.Psd) {sv : Solver} (hsv : SolverOk sv) (c tol : ℝ)
    (K : Matrix n n ℝ) (hK : Kᵀ * K = 1) (p0 : (n → ℝ) × (n → ℝ)) (ps : List ((n → ℝ) × (n → ℝ))) (m m' : Learnt n)
    (hm : IsLearnt k sv tol (fun _ => c) p0 ps m)
    (hm' : IsLearnt k sv tol (fun _ => c) (K *ᵥ p0.1, K *ᵥ p0.2) (ps.map fun p => (K *ᵥ p.1, K *ᵥ p.2)) m') (x : n → ℝ) :
    m'.f k (fun _ => c) (K *ᵥ x) = K *ᵥ m.f k (fun _ => c) x ∧
    m'.lin k (fun _ => c) (K *ᵥ x) = K * m.lin k (fun _ => c) x * Kᵀ := by
  have hdot : ∀ x y : n → ℝ, (K *ᵥ x) ⬝ᵥ (K *ᵥ y) = x ⬝ᵥ y := fun x y => by
    rw [dotProduct_mulVec, ← mulVec_transpose, mulVec_mulVec, hK, one_mulVec]
  have hr : ∀ x : n → ℝ, rescale (fun _ => c) (K *ᵥ x) = K *ᵥ rescale (fun _ => c) x := fun x => by
    have : ∀ x : n → ℝ, rescale (fun _ => c) x = c • x := fun x => by
      funext i; simp [rescale, mul_comm]
    rw [this, this, mulVec_smul]
  have hsq : ∀ x y : n → ℝ, ∑ i, ((K *ᵥ x) i - (K *ᵥ y) i) ^ 2 = ∑ i, (x i - y i) ^ 2 := fun x y => by
    have := hdot (x - y) (x - y)
    rw [mulVec_sub] at this
    simpa only [dotProduct, Pi.sub_apply, ← sq] using this
  have he : ∀ x y, k.eval (rescale (fun _ => c) (K *ᵥ x)) (rescale (fun _ => c) (K *ᵥ y)) =
      1 * k.eval (rescale (fun _ => c) x) (rescale (fun _ => c) y) := fun x y => by
    rw [hr, hr, one_mul]
    cases k <;> simp only [Kernel.eval, hdot, hsq]
  have hf : ∀ x, m'.f k (fun _ => c) (K *ᵥ x) = K *ᵥ m.f k (fun _ => c) x :=
    transport hk hsv (fun x => K *ᵥ x) K one_pos he hm (by rw [one_mul]; exact hm')
  refine ⟨hf x, ?_⟩
  have h1 := lin_transport (sameKind_refl k) K K hf x
  rw [← h1, Matrix.mul_assoc, mul_eq_one_comm.mp hK, Matrix.mul_one]

/-- **C168** (order of the components). If the components of the snapshots are listed in another order, and so are the
entries of `x_rescale`, the learnt model is the same up to that order. -/
theorem C168_components {k : Kernel} (hk : k.Psd) {sv : Solver} (hsv : SolverOk sv) (rho : n → ℝ) (tol : ℝ)
    (σ : n ≃ n) (p0 : (n → ℝ) × (n → ℝ)) (ps : List ((n → ℝ) × (n → ℝ))) (m m' : Learnt n)
    (hm : IsLearnt k sv tol rho p0 ps m)
    (hm' : IsLearnt k sv tol (rho ∘ σ) (p0.1 ∘ σ, p0.2 ∘ σ) (ps.map fun p => (p.1 ∘ σ, p.2 ∘ σ)) m') (x : n → ℝ) :
    m'.f k (rho ∘ σ) (x ∘ σ) = m.f k rho x ∘ σ := by
  classical
  have hσ : ∀ x : n → ℝ, x ∘ σ = (of fun i j => if σ i = j then 1 else 0 : Matrix n n ℝ) *ᵥ x := fun x => by
    funext i
    simp [mulVec, dotProduct]
  have he : ∀ x y, k.eval (rescale (rho ∘ σ) (x ∘ σ)) (rescale (rho ∘ σ) (y ∘ σ)) =
      1 * k.eval (rescale rho x) (rescale rho y) := fun x y => by
    have hdot : ∀ x y : n → ℝ, (x ∘ σ) ⬝ᵥ (y ∘ σ) = x ⬝ᵥ y := fun x y => Equiv.sum_comp σ fun i => x i * y i
    have hr : ∀ x : n → ℝ, rescale (rho ∘ σ) (x ∘ σ) = rescale rho x ∘ σ := fun x => rfl
    have hsq : ∀ x y : n → ℝ, ∑ i, ((x ∘ σ) i - (y ∘ σ) i) ^ 2 = ∑ i, (x i - y i) ^ 2 := fun x y =>
      Equiv.sum_comp σ fun i => (x i - y i) ^ 2
    rw [hr, hr, one_mul]
    cases k <;> simp only [Kernel.eval, hdot, hsq]
  have := transport hk hsv (fun x => x ∘ σ) (of fun i j => if σ i = j then 1 else 0 : Matrix n n ℝ) one_pos he hm (m' := m')
    (by rw [one_mul]; simp only [← hσ]; exact hm') x
  rw [this, ← hσ]

/-! ### Units -/

/-- **C168** (units with `x_rescale`). Let every component of the snapshots be measured in another unit (`c i ≠ 0`), with
`x_rescale` divided by the same numbers, and the outputs be changed by any matrix `L`, such as the units of `Y`. Then the
learnt model and its linear part are the old ones in the new units, for every kernel and every `dict_tol`. -/
theorem C168_rescale [DecidableEq n] {k : Kernel} (hk : k.Psd) {sv : Solver} (hsv : SolverOk sv) (rho : n → ℝ) (tol : ℝ)
    (c : n → ℝ) (hc : ∀ i, c i ≠ 0) (L : Matrix n n ℝ) (p0 : (n → ℝ) × (n → ℝ)) (ps : List ((n → ℝ) × (n → ℝ)))
    (m m' : Learnt n) (hm : IsLearnt k sv tol rho p0 ps m)
    (hm' : IsLearnt k sv tol (fun i => rho i / c i) (c * p0.1, L *ᵥ p0.2) (ps.map fun p => (c * p.1, L *ᵥ p.2)) m')
    (x : n → ℝ) :
    m'.f k (fun i => rho i / c i) (c * x) = L *ᵥ m.f k rho x ∧
    m'.lin k (fun i => rho i / c i) (c * x) = L * m.lin k rho x * diagonal fun i => (c i)⁻¹ := by
  have hr : ∀ x : n → ℝ, rescale (fun i => rho i / c i) (c * x) = rescale rho x := fun x => by
    funext i
    have := hc i
    simp only [rescale, Pi.mul_apply]
    field_simp
  have hf : ∀ x, m'.f k (fun i => rho i / c i) (c * x) = L *ᵥ m.f k rho x :=
    transport hk hsv (fun x => c * x) L one_pos (fun x y => by rw [hr, hr, one_mul]) hm (by rw [one_mul]; exact hm')
  have hd : ∀ x : n → ℝ, c * x = diagonal c *ᵥ x := fun x => by
    funext i; rw [mulVec_diagonal, Pi.mul_apply]
  refine ⟨hf x, ?_⟩
  have h1 := lin_transport (sameKind_refl k) (diagonal c) L (fun x => by rw [← hd]; exact hf x) x
  rw [← h1, Matrix.mul_assoc, diagonal_mul_diagonal]
  have : (fun i => c i * (c i)⁻¹) = fun _ => 1 := funext fun i => mul_inv_cancel₀ (hc i)
  rw [this, diagonal_one, Matrix.mul_one, hd]

/-- The kernel for snapshots in units in which all numbers are multiplied by `c`. -/
noncomputable def Kernel.inUnit (c : ℝ) : Kernel → Kernel
  | .linear => .linear
  | .poly g c0 d => .poly (g / c ^ 2) c0 d
  | .rbf g => .rbf (g / c ^ 2)

/-- The tolerance for these units. -/
noncomputable def Kernel.tolUnit (c tol : ℝ) : Kernel → ℝ
  | .linear => c ^ 2 * tol
  | _ => tol

/-- **C168** (units). Without touching `x_rescale` the same holds if `gamma` of the kernels `poly` and `rbf` is divided by
the square of the factor, respectively `dict_tol` is multiplied by it for the linear kernel. -/
theorem C168_units_partial [DecidableEq n] {k : Kernel} (hk : k.Psd) {sv : Solver} (hsv : SolverOk sv) (rho : n → ℝ) (tol : ℝ)
    (c : ℝ) (hc : c ≠ 0) (L : Matrix n n ℝ) (p0 : (n → ℝ) × (n → ℝ)) (ps : List ((n → ℝ) × (n → ℝ)))
    (m m' : Learnt n) (hm : IsLearnt k sv tol rho p0 ps m)
    (hm' : IsLearnt (k.inUnit c) sv (k.tolUnit c tol) rho (c • p0.1, L *ᵥ p0.2) (ps.map fun p => (c • p.1, L *ᵥ p.2)) m')
    (x : n → ℝ) :
    m'.f (k.inUnit c) rho (c • x) = L *ᵥ m.f k rho x ∧ m'.lin (k.inUnit c) rho (c • x) = c⁻¹ • (L * m.lin k rho x) := by
  have hr : ∀ x : n → ℝ, rescale rho (c • x) = c • rescale rho x := fun x => by
    funext i; simp [rescale, mul_assoc]
  have hc2 : 0 < c ^ 2 := by positivity
  have hf : ∀ x, m'.f (k.inUnit c) rho (c • x) = L *ᵥ m.f k rho x := by
    cases k with
    | linear =>
      refine transport (k' := .linear) trivial hsv (fun x => c • x) L hc2 (fun x y => ?_) hm hm'
      rw [hr, hr]
      simp only [Kernel.eval, dotProduct_smul, smul_dotProduct, smul_eq_mul]
      ring
    | poly g c0 d =>
      refine transport (k' := .poly (g / c ^ 2) c0 d) ⟨div_nonneg hk.1 hc2.le, hk.2⟩ hsv (fun x => c • x) L one_pos
        (fun x y => ?_) hm (by rw [one_mul]; exact hm')
      rw [hr, hr]
      simp only [Kernel.eval, dotProduct_smul, smul_dotProduct, smul_eq_mul, one_mul]
      congr 2
      field_simp
    | rbf g =>
      refine transport (k' := .rbf (g / c ^ 2)) (div_nonneg hk hc2.le) hsv (fun x => c • x) L one_pos
        (fun x y => ?_) hm (by rw [one_mul]; exact hm')
      rw [hr, hr]
      simp only [Kernel.eval, Pi.smul_apply, smul_eq_mul, one_mul, ← mul_sub, mul_pow, ← Finset.mul_sum]
      congr 1
      field_simp
  have hd : ∀ x : n → ℝ, c • x = (c • (1 : Matrix n n ℝ)) *ᵥ x := fun x => by rw [smul_mulVec, one_mulVec]
  refine ⟨hf x, ?_⟩
  have h1 := lin_transport (k := k) (k' := k.inUnit c) (by cases k <;> trivial) (c • (1 : Matrix n n ℝ)) L
    (fun x => by rw [← hd]; exact hf x) x
  rw [← h1, Matrix.mul_smul, Matrix.mul_one, smul_smul, inv_mul_cancel₀ hc, one_smul, hd]

/-! ### Order of the snapshots -/

/-- **C168** (order). With `dict_tol = 0`, the learnt model does not depend on the order in which the snapshot pairs are
parsed, which `permute=True` draws at random. -/
theorem C168_order_partial [DecidableEq n] {k : Kernel} (hk : k.Psd) {sv : Solver} (hsv : SolverOk sv) (rho : n → ℝ)
    (p0 q0 : (n → ℝ) × (n → ℝ)) (ps qs : List ((n → ℝ) × (n → ℝ))) (hp : (p0 :: ps).Perm (q0 :: qs)) (m m' : Learnt n)
    (hm : IsLearnt k sv 0 rho p0 ps m) (hm' : IsLearnt k sv 0 rho q0 qs m') (x : n → ℝ) :
    m.f k rho x = m'.f k rho x ∧ m.lin k rho x = m'.lin k rho x := by
  have hf : ∀ x, m.f k rho x = m'.f k rho x := fun x => by
    obtain ⟨W, hW, rfl⟩ := hm
    obtain ⟨W', hW', rfl⟩ := hm'
    simp only [IsFit] at hW hW'
    simp only [Learnt.f, f]
    obtain ⟨H, i1, i2, ψ, hψ⟩ := hk.feature (n := n)
    revert W W'
    rw [hψ]
    intro W hW W' hW'
    have h1 : ∀ (p0 : (n → ℝ) × (n → ℝ)) (ps : List ((n → ℝ) × (n → ℝ))) (a : _), ∃ p ∈ (p0 :: ps).map
        fun p => (rescale rho p.1, p.2), p.1 = (learn (kOf ψ) sv 0 (rescale rho p0.1)
          (ps.map fun p => rescale rho p.1)).item a := fun p0 ps a => by
      have h2 := C72_subset (sv := sv) (tol := 0) (rescale rho p0.1) (ps.map fun p => rescale rho p.1) (kOf ψ) a
      rw [← List.map_cons (f := fun p : (n → ℝ) × (n → ℝ) => rescale rho p.1)] at h2
      obtain ⟨p, hp, hpa⟩ := List.mem_map.mp h2
      exact ⟨_, List.mem_map_of_mem (f := fun p : (n → ℝ) × (n → ℝ) => (rescale rho p.1, p.2)) hp, hpa⟩
    have h3 : ∀ (p0 q0 : (n → ℝ) × (n → ℝ)) (ps qs : List ((n → ℝ) × (n → ℝ))), (p0 :: ps).Perm (q0 :: qs) → ∀ a,
        ψ ((learn (kOf ψ) sv 0 (rescale rho q0.1) (qs.map fun p => rescale rho p.1)).item a) ∈ Submodule.span ℝ
          (Set.range fun a => ψ ((learn (kOf ψ) sv 0 (rescale rho p0.1) (ps.map fun p => rescale rho p.1)).item a)) :=
      fun p0 q0 ps qs hp a => by
        refine mem_dict hsv _ _ _ ?_
        have h2 := C72_subset (sv := sv) (tol := 0) (rescale rho q0.1) (qs.map fun p => rescale rho p.1) (kOf ψ) a
        rw [← List.map_cons (f := fun p : (n → ℝ) × (n → ℝ) => rescale rho p.1)] at h2 ⊢
        exact (hp.map _).mem_iff.mpr h2
    funext r
    exact order (hp.map _) (h1 p0 ps) (h3 p0 q0 ps qs hp) (h3 q0 p0 qs ps hp.symm) hW hW' _ r
  refine ⟨hf x, ?_⟩
  have := lin_transport (sameKind_refl k) (m := m') (m' := m) (rho := rho) (rho' := rho) 1 1
    (fun x => by rw [one_mulVec, one_mulVec]; exact hf x) x
  simpa only [Matrix.mul_one, Matrix.one_mul, one_mulVec] using this

/-- **C168** (online). With `dict_tol = 0`, online learning from the same pairs in any order, split into `fit` and any
number of `update`s, gives the model learnt in one go, provided that the first snapshot is not degenerate. -/
theorem C168_online_partial [DecidableEq n] {k : Kernel} (hk : k.Psd) {sv : Solver} (hsv : SolverOk sv) (rho : n → ℝ)
    (p0 q0 : (n → ℝ) × (n → ℝ)) (ps qs : List ((n → ℝ) × (n → ℝ))) (hp : (p0 :: ps).Perm (q0 :: qs))
    (h0 : k.eval (rescale rho p0.1) (rescale rho p0.1) ≠ 0) (m : Learnt n) (hm : IsLearnt k sv 0 rho q0 qs m) (x : n → ℝ) :
    (learntOnline k sv 0 rho p0 ps).f k rho x = m.f k rho x ∧
    (learntOnline k sv 0 rho p0 ps).lin k rho x = m.lin k rho x := by
  refine C168_order_partial hk hsv rho p0 q0 ps qs hp _ m ?_ hm x
  obtain ⟨H, i1, i2, ψ, hψ⟩ := hk.feature (n := n)
  have hψ0 : ψ (rescale rho p0.1) ≠ 0 := fun h => h0 (by rw [hψ, kOf, h, inner_zero_left])
  have hb := C73_online_batch hsv (φ := ψ) (rescale rho p0.1, p0.2) hψ0 (ps.map fun p => (rescale rho p.1, p.2))
  have hd := C73_dictionary (sv := sv) (tol := 0) (kOf ψ) (rescale rho p0.1, p0.2) (ps.map fun p => (rescale rho p.1, p.2))
  have hd' : (oLearn (kOf ψ) sv 0 (rescale rho p0.1, p0.2) (ps.map fun p => (rescale rho p.1, p.2))).d =
      learn (kOf ψ) sv 0 (rescale rho p0.1) (ps.map fun p => rescale rho p.1) := by
    rw [hd, List.map_map]; rfl
  have main : ∀ d : Dict (n → ℝ), (oLearn (kOf ψ) sv 0 (rescale rho p0.1, p0.2) (ps.map fun p => (rescale rho p.1, p.2))).d = d →
      ∃ W : Matrix n d.ι ℝ, IsWeights (kOf ψ) d.item ((p0 :: ps).map fun p => (rescale rho p.1, p.2)) W ∧
        (⟨_, (oLearn (kOf ψ) sv 0 (rescale rho p0.1, p0.2) (ps.map fun p => (rescale rho p.1, p.2))).d.fin,
          (oLearn (kOf ψ) sv 0 (rescale rho p0.1, p0.2) (ps.map fun p => (rescale rho p.1, p.2))).d.item,
          (oLearn (kOf ψ) sv 0 (rescale rho p0.1, p0.2) (ps.map fun p => (rescale rho p.1, p.2))).W⟩ : Learnt n) =
        ⟨d.ι, d.fin, d.item, W⟩ := by
    rintro _ rfl
    refine ⟨_, fun W' => ?_, rfl⟩
    have := hb W'
    simp only [featureErr, List.map_map, List.map_cons] at this
    simp only [sqErr, kOf, List.map_map, List.map_cons]
    exact this
  simp only [IsLearnt, IsFit, learntOnline]
  rw [hψ]
  exact main _ hd'

/-! ### A positive tolerance -/

/-- The dictionary keeps only the first of two snapshots if the second is within the tolerance. -/
theorem learn_two {X H : Type} [NormedAddCommGroup H] [InnerProductSpace ℝ H] {φ : X → H} {sv : Solver} (hsv : SolverOk sv)
    {tol : ℝ} (x y : X) (c : ℝ) (h : ‖φ y - c • φ x‖ ^ 2 ≤ tol) : learn (kOf φ) sv tol x [y] = init (kOf φ) x := by
  have h1 := (C72_growth hsv (tol := tol) (φ := φ) x [] y).2 ⟨fun _ => c, ?_⟩
  · exact h1
  · change ‖φ y - ∑ a : Unit, c • φ x‖ ^ 2 ≤ tol
    simpa using h

/-- A model with one item. -/
noncomputable def single (D w : n → ℝ) : Learnt n := ⟨Unit, inferInstance, fun _ => D, of fun r _ => w r⟩

theorem single_f (D w x : n → ℝ) : (single D w).f .linear (fun _ => 1) x = fun r => w r * (D ⬝ᵥ x) := by
  have hr : rescale (fun _ => 1) x = x := by funext i; simp [rescale]
  funext r
  change ∑ _a : Unit, w r * (D ⬝ᵥ rescale (fun _ => 1) x) = _
  rw [hr]
  simp

/-- The model learnt from two pairs if the second snapshot is within the tolerance of the first. -/
theorem single_learnt {sv : Solver} (hsv : SolverOk sv) {tol : ℝ} (p q : (n → ℝ) × (n → ℝ)) (c : ℝ)
    (h : ∑ i, (q.1 i - c * p.1 i) ^ 2 ≤ tol) (w : n → ℝ)
    (hw : ∀ r, (p.2 r - w r * (p.1 ⬝ᵥ p.1)) * (p.1 ⬝ᵥ p.1) + (q.2 r - w r * (p.1 ⬝ᵥ q.1)) * (p.1 ⬝ᵥ q.1) = 0) :
    IsLearnt .linear sv tol (fun _ => 1) p [q] (single p.1 w) := by
  have hr : ∀ x : n → ℝ, rescale (fun _ => 1) x = x := fun x => by funext i; simp [rescale]
  have e : learn Kernel.linear.eval sv tol p.1 [q.1] = init Kernel.linear.eval p.1 := by
    rw [linear_eval]
    refine learn_two hsv p.1 q.1 c ?_
    rw [EuclideanSpace.norm_sq_eq]
    simpa [linFeat] using h
  have e' : learn Kernel.linear.eval sv tol (rescale (fun _ => 1) p.1) ([q].map fun p => rescale (fun _ => 1) p.1) =
      init Kernel.linear.eval p.1 := by
    simp only [List.map_cons, List.map_nil, hr]
    exact e
  simp only [IsLearnt, IsFit]
  rw [e']
  simp only [List.map_cons, List.map_nil, hr]
  refine ⟨of fun r _ => w r, (isWeights_iff _ _ _ _).mpr fun V => ?_, rfl⟩
  change (∑ r, (p.2 r - ∑ a : Unit, w r * (p.1 ⬝ᵥ p.1)) * ∑ a : Unit, V r a * (p.1 ⬝ᵥ p.1)) +
    ((∑ r, (q.2 r - ∑ a : Unit, w r * (p.1 ⬝ᵥ q.1)) * ∑ a : Unit, V r a * (p.1 ⬝ᵥ q.1)) + 0) = 0
  simp only [Finset.univ_unique, Finset.sum_singleton, add_zero]
  rw [← Finset.sum_add_distrib]
  refine Finset.sum_eq_zero fun r _ => ?_
  linear_combination (V r (default : Unit)) * hw r

/-- **C168**, negation for a positive tolerance (order): for every `dict_tol = s ^ 2 > 0` there are two snapshots for which
the model depends on the order in which they are parsed, so that with `permute=True`, the default, two fits of the same
data can give different models. -/
theorem C168_order_false {s : ℝ} (hs : 0 < s) {sv : Solver} (hsv : SolverOk sv) :
    ∃ (p q : (Fin 2 → ℝ) × (Fin 2 → ℝ)) (m m' : Learnt (Fin 2)), IsLearnt .linear sv (s ^ 2) (fun _ => 1) p [q] m ∧
      IsLearnt .linear sv (s ^ 2) (fun _ => 1) q [p] m' ∧
      ∃ x, m.f .linear (fun _ => 1) x ≠ m'.f .linear (fun _ => 1) x := by
  refine ⟨(![s, 0], ![s, 0]), (![s, s], ![s, s]), single ![s, 0] ![1 / s, 1 / (2 * s)], single ![s, s] ![3 / (5 * s), 2 / (5 * s)],
    single_learnt hsv _ _ 1 ?_ _ ?_, single_learnt hsv _ _ (1 / 2) ?_ _ ?_, ![0, 1], ?_⟩
  · simp [Fin.sum_univ_two]
  · intro r
    fin_cases r <;> simp [dotProduct, Fin.sum_univ_two, hs.ne']
    field_simp
    ring
  · simp [Fin.sum_univ_two]; nlinarith
  · intro r
    fin_cases r <;> simp [dotProduct, Fin.sum_univ_two] <;> field_simp <;> ring
  · rw [single_f, single_f]
    intro h
    have := congrFun h 1
    simp [dotProduct, Fin.sum_univ_two] at this
    exact hs.ne' this

/-- **C168**, negation for a positive tolerance (units): for every `0 < dict_tol < 1` there are snapshots from which the
model with the linear kernel is learnt exactly, and units in which the same snapshots give a model that is wrong. -/
theorem C168_units_false {tol : ℝ} (h0 : 0 < tol) (h1 : tol < 1) {sv : Solver} (hsv : SolverOk sv) :
    ∃ (c : ℝ) (p q : (Fin 2 → ℝ) × (Fin 2 → ℝ)) (m m' : Learnt (Fin 2)), 0 < c ∧
      IsLearnt .linear sv tol (fun _ => 1) p [q] m ∧ (∀ x, m.f .linear (fun _ => 1) x = x) ∧
      IsLearnt .linear sv tol (fun _ => 1) (c • p.1, c • p.2) [(c • q.1, c • q.2)] m' ∧
      ∃ x, m'.f .linear (fun _ => 1) (c • x) ≠ c • m.f .linear (fun _ => 1) x := by
  have hpos : 0 < √tol := Real.sqrt_pos.mpr h0
  have hsq : √tol * √tol = tol := Real.mul_self_sqrt h0.le
  have hr : ∀ x : Fin 2 → ℝ, rescale (fun _ => 1) x = x := fun x => by funext i; simp [rescale]
  have e : learn Kernel.linear.eval sv tol ![1, 0] [![0, 1]] =
      push Kernel.linear.eval sv (init Kernel.linear.eval ![1, 0]) (![0, 1] : Fin 2 → ℝ) := by
    rw [linear_eval]
    change step _ _ _ _ _ = _
    refine if_pos ?_
    have hF := fac_init (φ := (linFeat : (Fin 2 → ℝ) → _)) ![1, 0]
    rw [abs_of_nonneg (delta_nonneg hsv hF _), delta_eq hsv hF]
    refine lt_of_lt_of_le h1 ?_
    generalize piVec _ _ _ _ = v
    have : comb linFeat (init (kOf linFeat) ![1, 0]) v = v () • linFeat ![1, 0] := by
      change ∑ a : Unit, v a • linFeat ![1, 0] = _
      simp
    rw [this, EuclideanSpace.norm_sq_eq]
    simp [linFeat, Fin.sum_univ_two]
    positivity
  have e' : learn Kernel.linear.eval sv tol (rescale (fun _ => 1) ![1, 0]) ([((![0, 1] : Fin 2 → ℝ), (![0, 1] : Fin 2 → ℝ))].map
      fun p => rescale (fun _ => 1) p.1) =
      push Kernel.linear.eval sv (init Kernel.linear.eval ![1, 0]) (![0, 1] : Fin 2 → ℝ) := by
    simp only [List.map_cons, List.map_nil, hr]
    exact e
  let W : Matrix (Fin 2) (Unit ⊕ Unit) ℝ := of fun r a => Sum.elim (fun _ => (![1, 0] : Fin 2 → ℝ) r) (fun _ => (![0, 1] : Fin 2 → ℝ) r) a
  let D : Unit ⊕ Unit → Fin 2 → ℝ := Sum.elim (fun _ => ![1, 0]) fun _ => ![0, 1]
  have hf : ∀ x : Fin 2 → ℝ, ∀ r, ∑ a, W r a * (D a ⬝ᵥ x) = x r := fun x r => by
    fin_cases r <;> simp [W, D, dotProduct, Fin.sum_univ_two]
  refine ⟨√tol, (![1, 0], ![1, 0]), (![0, 1], ![0, 1]), ⟨Unit ⊕ Unit, inferInstance, D, W⟩, single (√tol • ![1, 0]) ![1 / √tol, 0],
    hpos, ?_, fun x => ?_, single_learnt hsv _ _ 0 ?_ _ ?_, ![0, 1], ?_⟩
  · simp only [IsLearnt, IsFit]
    rw [e']
    refine ⟨W, fun W' => ?_, rfl⟩
    refine le_of_eq_of_le (b := 0) ?_ ?_
    · refine List.sum_eq_zero fun v hv => ?_
      obtain ⟨p, hp, rfl⟩ := List.mem_map.mp hv
      obtain ⟨q, hq, rfl⟩ := List.mem_map.mp hp
      refine Finset.sum_eq_zero fun r _ => ?_
      have h2 : q.2 = q.1 := by
        simp only [List.mem_cons, List.not_mem_nil, or_false] at hq
        rcases hq with rfl | rfl <;> rfl
      have h3 := hf q.1 r
      change (q.2 r - ∑ a, W r a * (D a ⬝ᵥ rescale (fun _ => 1) q.1)) ^ 2 = 0
      rw [hr, h3, h2, sub_self]
      ring
    · refine List.sum_nonneg fun v hv => ?_
      obtain ⟨p, -, rfl⟩ := List.mem_map.mp hv
      exact Finset.sum_nonneg fun _ _ => sq_nonneg _
  · funext r
    change ∑ a, W r a * (D a ⬝ᵥ rescale (fun _ => 1) x) = x r
    rw [hr, hf]
  · simp [Fin.sum_univ_two, sq, hsq]
  · intro r
    have := hpos.ne'
    fin_cases r <;> simp [dotProduct, Fin.sum_univ_two]
    left
    field_simp
    ring
  · have h2 : ∀ x : Fin 2 → ℝ, Learnt.f .linear (fun _ => 1) ⟨Unit ⊕ Unit, inferInstance, D, W⟩ x = x := fun x => by
      funext r
      change ∑ a, W r a * (D a ⬝ᵥ rescale (fun _ => 1) x) = x r
      rw [hr, hf]
    rw [single_f, h2]
    intro h
    have := congrFun h 1
    simp [dotProduct, Fin.sum_univ_two] at this
    exact hpos.ne this

/-- Learnt models as in the theorems exist for all snapshots of every linear system, whatever the solver. -/
example {sv : Solver} (hsv : SolverOk sv) (rho : n → ℝ) (hr : ∀ i, rho i ≠ 0) (A : Matrix n n ℝ) (x0 : n → ℝ)
    (xs : List (n → ℝ)) : ∃ m, IsLearnt .linear sv 0 rho (x0, A *ᵥ x0) (xs.map fun x => (x, A *ᵥ x)) m := by
  classical
  obtain ⟨W, hW⟩ := exists_fit (ψ := linFeat) _ linear_eval hsv rho (fun x => A *ᵥ x)
    ((toLin' (A * diagonal fun i => (rho i)⁻¹)).comp (WithLp.linearEquiv 2 ℝ (n → ℝ)).toLinearMap) (fun y => by
      have : (diagonal fun i => (rho i)⁻¹) *ᵥ (rescale rho y) = y := by
        funext i
        rw [mulVec_diagonal, rescale, mul_comm (y i), inv_mul_cancel_left₀ (hr i)]
      change A *ᵥ y = (A * diagonal fun i => (rho i)⁻¹) *ᵥ (rescale rho y)
      rw [← mulVec_mulVec, this]) x0 xs
  exact ⟨_, W, hW, rfl⟩

end Verif.Lando
