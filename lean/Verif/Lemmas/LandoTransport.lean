import Verif.Model.LandoModel
import Verif.Lemmas.LandoRbf
import Verif.Props.LandoFit
import Mathlib.Tactic

/-! Helper lemmas: how the model learnt by LANDO depends on coordinates, units and order of the data. -/

set_option autoImplicit false

namespace Verif.Lando

open Matrix Verif.LinAlg
open scoped RealInnerProductSpace

/-! ### Weights of least error -/

section Weights

variable {X o J : Type} [Fintype o] [Fintype J]

/-- Inner product of the residuals with the change `V` of the weights. -/
def cross (k : X → X → ℝ) (D : J → X) (W V : Matrix o J ℝ) (pairs : List (X × (o → ℝ))) : ℝ :=
  (pairs.map fun p => ∑ r, (p.2 r - ∑ a, W r a * k (D a) p.1) * ∑ a, V r a * k (D a) p.1).sum

/-- Squared size of the change `V` of the weights at the data. -/
def sizeSq (k : X → X → ℝ) (D : J → X) (V : Matrix o J ℝ) (pairs : List (X × (o → ℝ))) : ℝ :=
  (pairs.map fun p => ∑ r, (∑ a, V r a * k (D a) p.1) ^ 2).sum

theorem sqErr_add (k : X → X → ℝ) (D : J → X) (W V : Matrix o J ℝ) (pairs : List (X × (o → ℝ))) :
    sqErr k D (W + V) pairs = sqErr k D W pairs - 2 * cross k D W V pairs + sizeSq k D V pairs := by
  induction pairs with
  | nil => simp [sqErr, cross, sizeSq]
  | cons p ps ih =>
    simp only [sqErr, cross, sizeSq, List.map_cons, List.sum_cons] at ih ⊢
    rw [ih]
    have : ∑ r, (p.2 r - ∑ a, (W + V) r a * k (D a) p.1) ^ 2 = ∑ r, (p.2 r - ∑ a, W r a * k (D a) p.1) ^ 2
        - 2 * (∑ r, (p.2 r - ∑ a, W r a * k (D a) p.1) * ∑ a, V r a * k (D a) p.1)
        + ∑ r, (∑ a, V r a * k (D a) p.1) ^ 2 := by
      rw [Finset.mul_sum, ← Finset.sum_sub_distrib, ← Finset.sum_add_distrib]
      refine Finset.sum_congr rfl fun r _ => ?_
      have h : ∑ a, (W + V) r a * k (D a) p.1 = ∑ a, W r a * k (D a) p.1 + ∑ a, V r a * k (D a) p.1 := by
        rw [← Finset.sum_add_distrib]
        exact Finset.sum_congr rfl fun a _ => by rw [Matrix.add_apply]; ring
      rw [h]; ring
    rw [this]; ring

theorem cross_smul (k : X → X → ℝ) (D : J → X) (W V : Matrix o J ℝ) (t : ℝ) (pairs : List (X × (o → ℝ))) :
    cross k D W (t • V) pairs = t * cross k D W V pairs := by
  induction pairs with
  | nil => simp [cross]
  | cons p ps ih =>
    simp only [cross, List.map_cons, List.sum_cons] at ih ⊢
    rw [ih, mul_add, Finset.mul_sum]
    congr 1
    refine Finset.sum_congr rfl fun r _ => ?_
    have : ∑ a, (t • V) r a * k (D a) p.1 = t * ∑ a, V r a * k (D a) p.1 := by
      rw [Finset.mul_sum]
      exact Finset.sum_congr rfl fun a _ => by rw [Matrix.smul_apply, smul_eq_mul]; ring
    rw [this]; ring

theorem sizeSq_smul (k : X → X → ℝ) (D : J → X) (V : Matrix o J ℝ) (t : ℝ) (pairs : List (X × (o → ℝ))) :
    sizeSq k D (t • V) pairs = t ^ 2 * sizeSq k D V pairs := by
  induction pairs with
  | nil => simp [sizeSq]
  | cons p ps ih =>
    simp only [sizeSq, List.map_cons, List.sum_cons] at ih ⊢
    rw [ih, mul_add, Finset.mul_sum]
    congr 1
    refine Finset.sum_congr rfl fun r _ => ?_
    have : ∑ a, (t • V) r a * k (D a) p.1 = t * ∑ a, V r a * k (D a) p.1 := by
      rw [Finset.mul_sum]
      exact Finset.sum_congr rfl fun a _ => by rw [Matrix.smul_apply, smul_eq_mul]; ring
    rw [this]; ring

theorem sizeSq_nonneg (k : X → X → ℝ) (D : J → X) (V : Matrix o J ℝ) (pairs : List (X × (o → ℝ))) :
    0 ≤ sizeSq k D V pairs := by
  refine List.sum_nonneg fun x hx => ?_
  obtain ⟨p, -, rfl⟩ := List.mem_map.mp hx
  exact Finset.sum_nonneg fun _ _ => sq_nonneg _

/-- Weights have least error exactly if the residuals are orthogonal to all changes. -/
theorem isWeights_iff (k : X → X → ℝ) (D : J → X) (pairs : List (X × (o → ℝ))) (W : Matrix o J ℝ) :
    IsWeights k D pairs W ↔ ∀ V, cross k D W V pairs = 0 := by
  constructor
  · intro h V
    have h1 : ∀ t : ℝ, 0 ≤ -2 * t * cross k D W V pairs + t ^ 2 * sizeSq k D V pairs := fun t => by
      have := h (W + t • V)
      rw [sqErr_add, cross_smul, sizeSq_smul] at this
      linarith
    have h2 := sizeSq_nonneg k D V pairs
    set c := cross k D W V pairs
    set z := sizeSq k D V pairs
    have h3 := h1 (c / (z + 1))
    have hz : 0 < z + 1 := by linarith
    have h4 : -2 * (c / (z + 1)) * c + (c / (z + 1)) ^ 2 * z = -(c ^ 2 * (z + 2)) / (z + 1) ^ 2 := by
      field_simp; ring
    rw [h4, neg_div, Left.nonneg_neg_iff] at h3
    have h5 : c ^ 2 * (z + 2) ≤ 0 := by
      by_contra hc
      exact absurd h3 (not_le.mpr (div_pos (not_le.mp hc) (by positivity)))
    have : c ^ 2 ≤ 0 := by nlinarith [sq_nonneg c]
    exact pow_eq_zero_iff (two_ne_zero) |>.mp (le_antisymm this (sq_nonneg c))
  · intro h W'
    have : W' = W + (W' - W) := by abel
    rw [this, sqErr_add, h]
    linarith [sizeSq_nonneg k D (W' - W) pairs]

/-- Weights of least error after a change of the inputs that multiplies the kernel by `s` and a linear change of the
outputs. -/
theorem isWeights_map {X' o' : Type} [Fintype o'] {k : X → X → ℝ} {k' : X' → X' → ℝ} {φ : X → X'} {s : ℝ} (hs : s ≠ 0)
    (hk : ∀ x y, k' (φ x) (φ y) = s * k x y) (L : Matrix o' o ℝ) {D : J → X} {pairs : List (X × (o → ℝ))}
    {W : Matrix o J ℝ} (hW : IsWeights k D pairs W) :
    IsWeights k' (φ ∘ D) (pairs.map fun p => (φ p.1, L *ᵥ p.2)) (s⁻¹ • (L * W)) := by
  rw [isWeights_iff] at hW ⊢
  intro V
  rw [← hW (s • (Lᵀ * V))]
  simp only [cross, List.map_map]
  congr 1
  refine List.map_congr_left fun p _ => ?_
  simp only [Function.comp_apply, hk]
  have h1 : ∀ r, (L *ᵥ p.2) r - ∑ a, (s⁻¹ • (L * W)) r a * (s * k (D a) p.1)
      = ∑ q, L r q * (fun q => p.2 q - ∑ a, W q a * k (D a) p.1) q := fun r => by
    have : ∑ a, (s⁻¹ • (L * W)) r a * (s * k (D a) p.1) = ∑ q, L r q * ∑ a, W q a * k (D a) p.1 := by
      simp only [Finset.mul_sum]
      rw [Finset.sum_comm]
      refine Finset.sum_congr rfl fun a _ => ?_
      rw [Matrix.smul_apply, smul_eq_mul, Matrix.mul_apply]
      rw [show s⁻¹ * (∑ q, L r q * W q a) * (s * k (D a) p.1) = (∑ q, L r q * W q a) * k (D a) p.1 by field_simp,
        Finset.sum_mul]
      exact Finset.sum_congr rfl fun q _ => by ring
    rw [this, mulVec, dotProduct, ← Finset.sum_sub_distrib]
    exact Finset.sum_congr rfl fun q _ => by ring
  have h2 : ∀ q, ∑ a, (s • (Lᵀ * V)) q a * k (D a) p.1 = ∑ r, L r q * (fun r => ∑ a, V r a * (s * k (D a) p.1)) r :=
    fun q => by
    simp only [Finset.mul_sum]
    rw [Finset.sum_comm]
    refine Finset.sum_congr rfl fun a _ => ?_
    rw [Matrix.smul_apply, smul_eq_mul, Matrix.mul_apply, Finset.mul_sum, Finset.sum_mul]
    exact Finset.sum_congr rfl fun r _ => by rw [transpose_apply]; ring
  rw [Finset.sum_congr rfl fun r _ => by rw [h1 r], Finset.sum_congr (s₁ := Finset.univ) (f := fun q => (p.2 q - ∑ a, W q a * k (D a) p.1) * ∑ a, (s • (Lᵀ * V)) q a * k (D a) p.1) rfl fun q _ => by rw [h2 q]]
  change ∑ r, _ * (fun r => ∑ a, V r a * (s * k (D a) p.1)) r = ∑ q, (fun q => p.2 q - ∑ a, W q a * k (D a) p.1) q * _
  generalize (fun q => p.2 q - ∑ a, W q a * k (D a) p.1) = u
  generalize (fun r => ∑ a, V r a * (s * k (D a) p.1)) = v
  simp only [Finset.sum_mul, Finset.mul_sum]
  rw [Finset.sum_comm]
  exact Finset.sum_congr rfl fun q _ => Finset.sum_congr rfl fun r _ => by ring

variable {H : Type} [NormedAddCommGroup H] [InnerProductSpace ℝ H] {φ : X → H}

/-- All weights of least error give the same model, everywhere, if the dictionary consists of data. -/
theorem weights_unique {D : J → X} {pairs : List (X × (o → ℝ))} (hD : ∀ a, ∃ p ∈ pairs, p.1 = D a)
    {W W' : Matrix o J ℝ} (hW : IsWeights (kOf φ) D pairs W) (hW' : IsWeights (kOf φ) D pairs W') (h : H) (r : o) :
    ∑ a, W r a * ⟪φ (D a), h⟫ = ∑ a, W' r a * ⟪φ (D a), h⟫ := by
  have h1 : sizeSq (kOf φ) D (W' - W) pairs ≤ 0 := by
    have h2 := hW' W
    rw [show W' = W + (W' - W) by abel, sqErr_add, (isWeights_iff _ _ _ _).mp hW] at h2
    linarith
  set g : H := ∑ a, (W' r a - W r a) • φ (D a) with hg
  have h3 : ∀ b, ⟪g, φ (D b)⟫ = 0 := fun b => by
    obtain ⟨p, hp, hb⟩ := hD b
    have h4 := sum_eq_zero_of (fun x hx => by
      obtain ⟨p, -, rfl⟩ := List.mem_map.mp hx
      exact Finset.sum_nonneg fun _ _ => sq_nonneg _) h1 _ (List.mem_map_of_mem (f := fun p : X × (o → ℝ) =>
        ∑ r, (∑ a, (W' - W) r a * kOf φ (D a) p.1) ^ 2) hp)
    have h5 := (Finset.sum_eq_zero_iff_of_nonneg fun _ _ => sq_nonneg _).mp h4 r (Finset.mem_univ r)
    have h6 := pow_eq_zero_iff (two_ne_zero) |>.mp h5
    rw [hg, sum_inner, ← h6]
    refine Finset.sum_congr rfl fun a _ => ?_
    rw [real_inner_smul_left, Matrix.sub_apply, hb, kOf]
  have h7 : g = 0 := by
    refine inner_self_eq_zero (𝕜 := ℝ) |>.mp ?_
    conv_lhs => rw [hg, inner_sum]
    exact Finset.sum_eq_zero fun a _ => by rw [real_inner_smul_right, h3, mul_zero]
  have h8 : ⟪g, h⟫ = 0 := by rw [h7, inner_zero_left]
  rw [hg, sum_inner] at h8
  rw [← sub_eq_zero, ← Finset.sum_sub_distrib, ← neg_eq_zero, ← Finset.sum_neg_distrib, ← h8]
  exact Finset.sum_congr rfl fun a _ => by rw [real_inner_smul_left]; ring

omit [Fintype o] in
/-- Weights for another dictionary with the same span. -/
theorem exists_weights {J' : Type} [Fintype J'] {D : J → X} {D' : J' → X}
    (hs : ∀ a, φ (D' a) ∈ Submodule.span ℝ (Set.range fun a => φ (D a))) (W' : Matrix o J' ℝ) :
    ∃ W : Matrix o J ℝ, ∀ r h, ∑ a, W r a * ⟪φ (D a), h⟫ = ∑ a, W' r a * ⟪φ (D' a), h⟫ := by
  have h1 : ∀ r, ∃ c : J → ℝ, ∑ a, c a • φ (D a) = ∑ a, W' r a • φ (D' a) := fun r =>
    (Submodule.mem_span_range_iff_exists_fun ℝ).mp
      (Submodule.sum_mem _ fun a _ => Submodule.smul_mem _ _ (hs a))
  choose c hc using h1
  refine ⟨of c, fun r h => ?_⟩
  have := congrArg (fun v => ⟪v, h⟫) (hc r)
  simpa only [sum_inner, real_inner_smul_left, of_apply] using this

/-- Two dictionaries of data with the same span and the same data in another order give the same model. -/
theorem order {J' : Type} [Fintype J'] {D : J → X} {D' : J' → X} {pairs pairs' : List (X × (o → ℝ))}
    (hp : pairs.Perm pairs') (hD : ∀ a, ∃ p ∈ pairs, p.1 = D a)
    (hs : ∀ a, φ (D' a) ∈ Submodule.span ℝ (Set.range fun a => φ (D a)))
    (hs' : ∀ a, φ (D a) ∈ Submodule.span ℝ (Set.range fun a => φ (D' a)))
    {W : Matrix o J ℝ} {W' : Matrix o J' ℝ} (hW : IsWeights (kOf φ) D pairs W) (hW' : IsWeights (kOf φ) D' pairs' W')
    (h : H) (r : o) : ∑ a, W r a * ⟪φ (D a), h⟫ = ∑ a, W' r a * ⟪φ (D' a), h⟫ := by
  obtain ⟨V, hV⟩ := exists_weights hs W'
  obtain ⟨V', hV'⟩ := exists_weights (φ := φ) hs' W
  have e : sqErr (kOf φ) D V pairs = sqErr (kOf φ) D' W' pairs' := by
    simp only [sqErr, kOf, hV]
    exact (hp.map _).sum_eq
  have e' : sqErr (kOf φ) D' V' pairs' = sqErr (kOf φ) D W pairs := by
    simp only [sqErr, kOf, hV']
    exact (hp.symm.map _).sum_eq
  have hVm : IsWeights (kOf φ) D pairs V := fun U => by
    rw [e]
    exact ((hW' V').trans_eq e').trans (hW U)
  rw [weights_unique hD hW hVm h r, hV]

end Weights

/-! ### The dictionary -/

section Dictionary

theorem MinNorm.unique {ι : Type} [Fintype ι] {A : Matrix ι ι ℝ} {b x y : ι → ℝ} (hx : MinNorm A b x)
    (hy : MinNorm A b y) : x = y := by
  obtain ⟨u, hu⟩ := hx.2
  obtain ⟨v, hv⟩ := hy.2
  have h1 : Aᵀ *ᵥ (A *ᵥ (x - y)) = 0 := by
    have := hx.1.normal
    have h2 := hy.1.normal
    rw [mulVec_sub, mulVec_sub]
    rw [mulVec_sub, sub_eq_zero] at this h2
    rw [this, h2, sub_self]
  have h2 : A *ᵥ (x - y) = 0 := by
    rw [← dotProduct_self_eq_zero, dotProduct_mulVec, ← mulVec_transpose, h1, zero_dotProduct]
  have h3 : (x - y) ⬝ᵥ (x - y) = 0 := by
    have h4 : x - y = Aᵀ *ᵥ (u - v) := by rw [mulVec_sub, ← hu, ← hv]
    conv_lhs => lhs; rw [h4]
    rw [mulVec_transpose, ← dotProduct_mulVec, h2, dotProduct_zero]
  exact sub_eq_zero.mp (dotProduct_self_eq_zero.mp h3)

theorem solver_scale {sv : Solver} (hsv : SolverOk sv) {ι : Type} [Fintype ι] [DecidableEq ι] (A : Matrix ι ι ℝ) (v : ι → ℝ)
    {a : ℝ} (ha : a ≠ 0) (b : ℝ) : sv ι (a • A) (b • v) = (b / a) • sv ι A v := by
  refine (hsv ι (a • A) (b • v)).unique ⟨isLstsqR_of_normal _ _ _ ?_, ?_⟩
  · have h := (hsv ι A v).1.normal
    rw [mulVec_sub, sub_eq_zero] at h
    rw [transpose_smul, mulVec_sub, smul_mulVec, smul_mulVec, smul_mulVec, mulVec_smul, mulVec_smul, mulVec_smul, h,
      mulVec_smul, smul_smul, smul_smul, smul_smul, ← sub_smul, show a * a * (b / a) - a * b = 0 by field_simp; ring,
      zero_smul]
  · obtain ⟨w, hw⟩ := (hsv ι A v).2
    refine ⟨(b / a / a) • w, ?_⟩
    rw [transpose_smul, smul_mulVec, mulVec_smul, ← hw, smul_smul, show a * (b / a / a) = b / a by field_simp]

/-- The dictionary with its items mapped by `φ` and its factor multiplied by `c`. -/
def Dict.map {X X' : Type} (φ : X → X') (c : ℝ) (d : Dict X) : Dict X' := ⟨d.ι, d.fin, d.dec, φ ∘ d.item, c • d.chol⟩

variable {X X' : Type} {k : X → X → ℝ} {k' : X' → X' → ℝ} {φ : X → X'} {s : ℝ} {sv : Solver}

theorem learn_map (hsv : SolverOk sv) (hs : 0 < s) (hk : ∀ x y, k' (φ x) (φ y) = s * k x y) (tol : ℝ) (x0 : X) (xs : List X) :
    learn k' sv (s * tol) (φ x0) (xs.map φ) = (learn k sv tol x0 xs).map φ (√s) := by
  have hr : 0 < √s := Real.sqrt_pos.mpr hs
  have hrr : √s * √s = s := Real.mul_self_sqrt hs.le
  have hS : ∀ (st : Dict X) (x : X), sVec k' sv (st.map φ √s) (φ x) = √s • sVec k sv st x := fun st x => by
    have : kTilde k' (st.map φ √s) (φ x) = s • kTilde k st x := by
      funext a
      exact hk _ _
    rw [sVec, this]
    have := solver_scale hsv st.chol (kTilde k st x) hr.ne' s
    rw [show s / √s = √s by rw [div_eq_iff hr.ne', hrr]] at this
    exact this
  have hP : ∀ (st : Dict X) (x : X), piVec k' sv (st.map φ √s) (φ x) = piVec k sv st x := fun st x => by
    rw [piVec, hS]
    have := solver_scale hsv st.cholᵀ (sVec k sv st x) hr.ne' (√s)
    rw [div_self hr.ne', one_smul, ← transpose_smul] at this
    exact this
  have hd : ∀ (st : Dict X) (x : X), delta k' sv (st.map φ √s) (φ x) = s * delta k sv st x := fun st x => by
    have : kTilde k' (st.map φ √s) (φ x) = s • kTilde k st x := by
      funext a
      exact hk _ _
    rw [delta, hP, this, hk, delta, mul_sub]
    congr 1
    exact smul_dotProduct s (kTilde k st x) (piVec k sv st x)
  have hpush : ∀ (st : Dict X) (x : X), push k' sv (st.map φ √s) (φ x) = (push k sv st x).map φ √s := fun st x => by
    have e : push k' sv (st.map φ √s) (φ x) = (⟨st.ι ⊕ Unit, inferInstance, inferInstance, Sum.elim (φ ∘ st.item) fun _ => φ x,
        fromBlocks (√s • st.chol) 0 (of fun _ a => (√s • sVec k sv st x) a)
          (of fun _ _ => max 0 |Real.sqrt (k' (φ x) (φ x) - ∑ a, (√s • sVec k sv st x) a ^ 2)|)⟩ : Dict X') := by
      rw [← hS]
      rfl
    rw [e]
    have e2 : fromBlocks (√s • st.chol) 0 (of fun (_ : Unit) a => (√s • sVec k sv st x) a)
          (of fun _ _ => max 0 |Real.sqrt (k' (φ x) (φ x) - ∑ a, (√s • sVec k sv st x) a ^ 2)|) =
        √s • fromBlocks st.chol (0 : Matrix st.ι Unit ℝ) (of fun _ a => sVec k sv st x a)
          (of fun _ _ => max 0 |Real.sqrt (k x x - ∑ a, sVec k sv st x a ^ 2)|) := by
      rw [fromBlocks_smul, smul_zero]
      congr 1
      ext i j
      simp only [of_apply, Matrix.smul_apply, smul_eq_mul, Pi.smul_apply, hk]
      have : s * k x x - ∑ a, (√s * sVec k sv st x a) ^ 2 = s * (k x x - ∑ a, sVec k sv st x a ^ 2) := by
        rw [mul_sub, Finset.mul_sum]
        congr 1
        refine Finset.sum_congr rfl fun a _ => ?_
        rw [mul_pow, sq, hrr]
      rw [this, Real.sqrt_mul hs.le, abs_mul, abs_of_pos hr, max_eq_right (by positivity), max_eq_right (by positivity)]
    have e3 : (Sum.elim (φ ∘ st.item) fun _ => φ x) = φ ∘ (Sum.elim st.item fun _ : Unit => x) := by
      funext a
      rcases a with a | a <;> rfl
    rw [e2, e3]
    rfl
  have hstep : ∀ (st : Dict X) (x : X), step k' sv (s * tol) (st.map φ √s) (φ x) = (step k sv tol st x).map φ √s :=
    fun st x => by
      have h : s * tol < |delta k' sv (st.map φ √s) (φ x)| ↔ tol < |delta k sv st x| := by
        rw [hd, abs_mul, abs_of_pos hs, mul_lt_mul_iff_right₀ hs]
      rw [step, step]
      by_cases ht : tol < |delta k sv st x|
      · rw [if_pos ht, if_pos (h.mpr ht), hpush]
      · rw [if_neg ht, if_neg fun h' => ht (h.mp h')]
  have hinit : init k' (φ x0) = (init k x0).map φ √s := by
    simp only [init, Dict.map, hk, Real.sqrt_mul hs.le]
    rfl
  rw [learn, learn, hinit]
  generalize init k x0 = st
  induction xs generalizing st with
  | nil => rfl
  | cons x xs ih => rw [List.map_cons, List.foldl_cons, List.foldl_cons, hstep, ih]

end Dictionary

end Verif.Lando
