import Verif.Model.LandoFit
import Verif.Props.LandoDict
import Verif.Props.LandoOnline
import Verif.Props.LandoState
import Verif.Props.Lando
import Mathlib.Analysis.InnerProductSpace.Dual
import Mathlib.Analysis.InnerProductSpace.PiL2
import Mathlib.Algebra.MvPolynomial.Funext
import Mathlib.LinearAlgebra.Basis.VectorSpace

/-!
# Property C141: LANDO learns every system that its kernel can represent
-/

set_option autoImplicit false

namespace Verif.Lando

open Matrix Verif.LinAlg
open scoped RealInnerProductSpace

section Abstract

variable {X H o : Type} [Fintype o] [NormedAddCommGroup H] [InnerProductSpace ℝ H] {φ : X → H}

/-- A linear functional on the span of finitely many vectors is an inner product with a combination of them. -/
theorem riesz {J : Type} [Fintype J] (D : J → H) (L : H →ₗ[ℝ] ℝ) :
    ∃ c : J → ℝ, ∀ h ∈ Submodule.span ℝ (Set.range D), L h = ∑ a, c a * ⟪D a, h⟫ := by
  set S := Submodule.span ℝ (Set.range D) with hS
  haveI : FiniteDimensional ℝ S := FiniteDimensional.span_of_finite ℝ (Set.finite_range D)
  haveI : CompleteSpace S := FiniteDimensional.complete ℝ S
  set l : S →L[ℝ] ℝ := LinearMap.toContinuousLinearMap (L.comp S.subtype) with hl
  set v : S := (InnerProductSpace.toDual ℝ S).symm l with hv
  obtain ⟨c, hc⟩ := (Submodule.mem_span_range_iff_exists_fun ℝ).mp v.2
  refine ⟨c, fun h hh => ?_⟩
  have h1 : ⟪v, (⟨h, hh⟩ : S)⟫ = l ⟨h, hh⟩ := InnerProductSpace.toDual_symm_apply
  have h2 : ⟪(v : H), h⟫ = L h := (Submodule.coe_inner S v ⟨h, hh⟩).symm.trans h1
  rw [← h2, ← hc, sum_inner]
  exact Finset.sum_congr rfl fun a _ => real_inner_smul_left _ _ _

theorem sum_eq_zero_of {l : List ℝ} (h : ∀ x ∈ l, 0 ≤ x) (hs : l.sum ≤ 0) : ∀ x ∈ l, x = 0 := by
  induction l with
  | nil => simp
  | cons a l ih =>
    have ha := h a (by simp)
    have hl : 0 ≤ l.sum := List.sum_nonneg fun x hx => h x (by simp [hx])
    rw [List.sum_cons] at hs
    intro x hx
    rcases List.mem_cons.mp hx with rfl | hx
    · linarith
    · exact ih (fun y hy => h y (by simp [hy])) (by linarith) x hx

/-- Weights of least error reproduce a linear function of the features wherever the data determine it. -/
theorem exact_on_span {J : Type} [Fintype J] (D : J → X) (C : H →ₗ[ℝ] (o → ℝ)) (pairs : List (X × (o → ℝ)))
    (hy : ∀ p ∈ pairs, p.2 = C (φ p.1)) (hD : ∀ p ∈ pairs, φ p.1 ∈ Submodule.span ℝ (Set.range fun a => φ (D a)))
    (W : Matrix o J ℝ) (hW : IsWeights (kOf φ) D pairs W) (h : H)
    (hh : h ∈ Submodule.span ℝ {z | ∃ p ∈ pairs, z = φ p.1}) (r : o) : ∑ a, W r a * ⟪φ (D a), h⟫ = C h r := by
  choose c hc using fun r => riesz (fun a => φ (D a)) ((LinearMap.proj r).comp C)
  have h0 : sqErr (kOf φ) D (of fun r a => c r a) pairs = 0 := by
    rw [sqErr]
    refine List.sum_eq_zero fun x hx => ?_
    obtain ⟨p, hp, rfl⟩ := List.mem_map.mp hx
    refine Finset.sum_eq_zero fun r _ => ?_
    have := hc r _ (hD p hp)
    simp only [LinearMap.comp_apply, LinearMap.proj_apply] at this
    simp only [of_apply, kOf]
    rw [← this, hy p hp, sub_self]; ring
  have h1 : ∀ p ∈ pairs, ∀ r, ∑ a, W r a * ⟪φ (D a), φ p.1⟫ = C (φ p.1) r := fun p hp r => by
    have hle := hW (of fun r a => c r a)
    rw [h0, sqErr] at hle
    have := sum_eq_zero_of (fun x hx => by
      obtain ⟨p, -, rfl⟩ := List.mem_map.mp hx
      exact Finset.sum_nonneg fun _ _ => sq_nonneg _) hle _ (List.mem_map_of_mem (f := fun p : X × (o → ℝ) =>
        ∑ r, (p.2 r - ∑ a, W r a * kOf φ (D a) p.1) ^ 2) hp)
    have := (Finset.sum_eq_zero_iff_of_nonneg fun _ _ => sq_nonneg _).mp this r (Finset.mem_univ r)
    have := pow_eq_zero_iff (two_ne_zero) |>.mp this
    rw [← hy p hp]
    simp only [kOf] at this
    linarith
  refine Submodule.span_induction (p := fun h _ => ∑ a, W r a * ⟪φ (D a), h⟫ = C h r) ?_ ?_ ?_ ?_ hh
  · rintro _ ⟨p, hp, rfl⟩
    exact h1 p hp r
  · simp
  · intro x y _ _ hx hy
    rw [map_add, Pi.add_apply, ← hx, ← hy, ← Finset.sum_add_distrib]
    exact Finset.sum_congr rfl fun a _ => by rw [inner_add_right]; ring
  · intro t x _ hx
    rw [map_smul, Pi.smul_apply, ← hx, smul_eq_mul, Finset.mul_sum]
    exact Finset.sum_congr rfl fun a _ => by rw [real_inner_smul_right]; ring

variable {sv : Solver}

theorem mem_dict (hsv : SolverOk sv) (x0 : X) (xs : List X) (y : X) (hy : y ∈ x0 :: xs) :
    φ y ∈ Submodule.span ℝ (Set.range fun a => φ ((learn (kOf φ) sv 0 x0 xs).item a)) := by
  obtain ⟨c, hc⟩ := C72_cover hsv (φ := φ) (le_refl 0) x0 xs y hy
  have h1 : ‖φ y - ∑ a, c a • φ ((learn (kOf φ) sv 0 x0 xs).item a)‖ ^ 2 = 0 := le_antisymm hc (by positivity)
  have h2 := sub_eq_zero.mp (norm_eq_zero.mp (pow_eq_zero_iff (two_ne_zero) |>.mp h1))
  rw [h2]
  exact Submodule.sum_mem _ fun a _ => Submodule.smul_mem _ _ (Submodule.subset_span ⟨a, rfl⟩)

/-- **C141** (any kernel): let the data be pairs `(x, F x)` with a function `F` that is linear in the features of the
kernel. With `dict_tol = 0`, the model learnt in one go equals `F` at every point whose feature is a combination of
features of the data. -/
theorem C141_kernel (hsv : SolverOk sv) (F : X → o → ℝ) (C : H →ₗ[ℝ] (o → ℝ)) (hF : ∀ x, F x = C (φ x)) (x0 : X)
    (xs : List X) (W : Matrix o (learn (kOf φ) sv 0 x0 xs).ι ℝ)
    (hW : IsWeights (kOf φ) (learn (kOf φ) sv 0 x0 xs).item ((x0 :: xs).map fun x => (x, F x)) W) (x : X)
    (hx : φ x ∈ Submodule.span ℝ (φ '' {y | y ∈ x0 :: xs})) (r : o) :
    ∑ a, W r a * kOf φ ((learn (kOf φ) sv 0 x0 xs).item a) x = F x r := by
  rw [hF]
  refine exact_on_span _ C ((x0 :: xs).map fun x => (x, F x)) ?_ ?_ W hW _ ?_ r
  · intro p hp
    obtain ⟨y, -, rfl⟩ := List.mem_map.mp hp
    exact hF y
  · intro p hp
    obtain ⟨y, hy, rfl⟩ := List.mem_map.mp hp
    exact mem_dict hsv x0 xs y hy
  · refine Submodule.span_mono ?_ hx
    rintro _ ⟨y, hy, rfl⟩
    exact ⟨(y, F y), List.mem_map_of_mem (f := fun x => (x, F x)) hy, rfl⟩

/-- **C141** (online): the same for online learning with any number of updates. -/
theorem C141_online (hsv : SolverOk sv) (F : X → o → ℝ) (C : H →ₗ[ℝ] (o → ℝ)) (hF : ∀ x, F x = C (φ x)) (x0 : X)
    (h0 : φ x0 ≠ 0) (xs : List X) (x : X) (hx : φ x ∈ Submodule.span ℝ (φ '' {y | y ∈ x0 :: xs})) (r : o) :
    ∑ a, (oLearn (kOf φ) sv 0 (x0, F x0) (xs.map fun x => (x, F x))).W r a *
      kOf φ ((oLearn (kOf φ) sv 0 (x0, F x0) (xs.map fun x => (x, F x))).d.item a) x = F x r := by
  have hb := C73_online_batch hsv (φ := φ) (x0, F x0) h0 (xs.map fun x => (x, F x))
  have hd := C73_dictionary (sv := sv) (tol := 0) (kOf φ) (x0, F x0) (xs.map fun x => (x, F x))
  have hm : (xs.map fun x => (x, F x)).map Prod.fst = xs := by
    rw [List.map_map]
    exact List.map_id xs
  rw [hm] at hd
  refine Eq.trans ?_ (congrFun (hF x) r).symm
  refine exact_on_span (φ := φ) _ C ((x0, F x0) :: xs.map fun x => (x, F x)) ?_ ?_ _ ?_ _ ?_ r
  · intro p hp
    rcases List.mem_cons.mp hp with rfl | hp
    · exact hF x0
    · obtain ⟨y, -, rfl⟩ := List.mem_map.mp hp
      exact hF y
  · intro p hp
    rw [hd]
    refine mem_dict hsv x0 xs _ ?_
    rcases List.mem_cons.mp hp with rfl | hp
    · simp
    · obtain ⟨y, hy, rfl⟩ := List.mem_map.mp hp
      simp [hy]
  · intro W'
    have := hb W'
    simp only [featureErr, List.map_map, List.map_cons] at this
    simp only [sqErr, kOf, List.map_map, List.map_cons]
    exact this
  · refine Submodule.span_mono ?_ hx
    rintro _ ⟨y, hy, rfl⟩
    rcases List.mem_cons.mp hy with rfl | hy
    · exact ⟨_, List.mem_cons_self, rfl⟩
    · exact ⟨(y, F y), List.mem_cons_of_mem _ (List.mem_map_of_mem (f := fun x => (x, F x)) hy), rfl⟩

/-- The model learnt by `fit` is exact, for any way to write the kernel as an inner product of features. -/
theorem fit_exact {n : Type} [Fintype n] {ψ : (n → ℝ) → H} (k : Kernel) (hk : (k.eval : (n → ℝ) → (n → ℝ) → ℝ) = kOf ψ)
    (hsv : SolverOk sv) (rho : n → ℝ) (F : (n → ℝ) → o → ℝ) (C : H →ₗ[ℝ] (o → ℝ))
    (hF : ∀ x, F x = C (ψ (rescale rho x))) (x0 : n → ℝ) (xs : List (n → ℝ))
    (W : Matrix o (learn k.eval sv 0 (rescale rho x0) ((xs.map fun x => (x, F x)).map fun p => rescale rho p.1)).ι ℝ)
    (hW : IsFit k sv 0 rho (x0, F x0) (xs.map fun x => (x, F x)) W) (x : n → ℝ)
    (hx : ψ (rescale rho x) ∈ Submodule.span ℝ ((fun y => ψ (rescale rho y)) '' {y | y ∈ x0 :: xs})) (r : o) :
    ∑ a, W r a * k.eval ((learn k.eval sv 0 (rescale rho x0)
      ((xs.map fun x => (x, F x)).map fun p => rescale rho p.1)).item a) (rescale rho x) = F x r := by
  rw [IsFit] at hW
  revert W
  rw [hk]
  intro W hW
  refine Eq.trans ?_ (congrFun (hF x) r).symm
  refine exact_on_span (φ := ψ) _ C _ ?_ ?_ W hW _ ?_ r
  · intro p hp
    obtain ⟨q, hq, rfl⟩ := List.mem_map.mp hp
    rcases List.mem_cons.mp hq with rfl | hq
    · exact hF x0
    · obtain ⟨y, -, rfl⟩ := List.mem_map.mp hq
      exact hF y
  · intro p hp
    obtain ⟨q, hq, rfl⟩ := List.mem_map.mp hp
    refine mem_dict hsv _ _ _ ?_
    rcases List.mem_cons.mp hq with rfl | hq
    · simp
    · exact List.mem_cons_of_mem _ (List.mem_map_of_mem (f := fun p : (n → ℝ) × (o → ℝ) => rescale rho p.1) hq)
  · refine Submodule.span_mono ?_ hx
    rintro _ ⟨y, hy, rfl⟩
    refine ⟨(rescale rho y, F y), List.mem_map.mpr ⟨(y, F y), ?_, rfl⟩, rfl⟩
    rcases List.mem_cons.mp hy with rfl | hy
    · exact List.mem_cons_self
    · exact List.mem_cons_of_mem _ (List.mem_map_of_mem (f := fun x => (x, F x)) hy)

/-- Weights of least error exist for such data. -/
theorem exists_fit {n : Type} [Fintype n] {ψ : (n → ℝ) → H} (k : Kernel) (hk : (k.eval : (n → ℝ) → (n → ℝ) → ℝ) = kOf ψ)
    (hsv : SolverOk sv) (rho : n → ℝ) (F : (n → ℝ) → o → ℝ) (C : H →ₗ[ℝ] (o → ℝ))
    (hF : ∀ x, F x = C (ψ (rescale rho x))) (x0 : n → ℝ) (xs : List (n → ℝ)) :
    ∃ W, IsFit k sv 0 rho (x0, F x0) (xs.map fun x => (x, F x)) W := by
  simp only [IsFit]
  rw [hk]
  choose c hc using fun r => riesz (fun a => ψ ((learn (kOf ψ) sv 0 (rescale rho x0)
    ((xs.map fun x => (x, F x)).map fun p => rescale rho p.1)).item a)) ((LinearMap.proj r).comp C)
  refine ⟨of fun r a => c r a, fun W' => ?_⟩
  refine le_of_eq_of_le (b := 0) ?_ ?_
  · rw [sqErr]
    refine List.sum_eq_zero fun v hv => ?_
    obtain ⟨p, hp, rfl⟩ := List.mem_map.mp hv
    obtain ⟨q, hq, rfl⟩ := List.mem_map.mp hp
    have h1 : ψ (rescale rho q.1) ∈ Submodule.span ℝ (Set.range fun a => ψ ((learn (kOf ψ) sv 0 (rescale rho x0)
        ((xs.map fun x => (x, F x)).map fun p => rescale rho p.1)).item a)) := by
      refine mem_dict hsv _ _ _ ?_
      rcases List.mem_cons.mp hq with rfl | hq
      · simp
      · exact List.mem_cons_of_mem _ (List.mem_map_of_mem (f := fun p : (n → ℝ) × (o → ℝ) => rescale rho p.1) hq)
    have h2 : q.2 = C (ψ (rescale rho q.1)) := by
      rcases List.mem_cons.mp hq with rfl | hq
      · exact hF x0
      · obtain ⟨y, -, rfl⟩ := List.mem_map.mp hq
        exact hF y
    refine Finset.sum_eq_zero fun r _ => ?_
    have := hc r _ h1
    simp only [LinearMap.comp_apply, LinearMap.proj_apply] at this
    simp only [of_apply, kOf]
    rw [← this, h2, sub_self]; ring
  · refine List.sum_nonneg fun v hv => ?_
    obtain ⟨p, -, rfl⟩ := List.mem_map.mp hv
    exact Finset.sum_nonneg fun _ _ => sq_nonneg _

end Abstract

section Poly

variable {n : Type} [Fintype n] [DecidableEq n]

/-- Coordinates of the features of the polynomial kernel. -/
noncomputable def ext1 (g c : ℝ) (z : n → ℝ) : Option n → ℝ
  | none => Real.sqrt c
  | some i => Real.sqrt g * z i

/-- Features of the polynomial kernel: all products of `d` coordinates. -/
noncomputable def polyFeat (g c : ℝ) (d : ℕ) (z : n → ℝ) : EuclideanSpace ℝ (Fin d → Option n) :=
  WithLp.toLp 2 fun ι => ∏ k, ext1 g c z (ι k)

theorem poly_eval {g c : ℝ} (hg : 0 ≤ g) (hc : 0 ≤ c) (d : ℕ) :
    ((Kernel.poly g c d).eval : (n → ℝ) → (n → ℝ) → ℝ) = kOf (polyFeat g c d) := by
  funext x y
  have h1 : g * (x ⬝ᵥ y) + c = ∑ o, ext1 g c y o * ext1 g c x o := by
    rw [Fintype.sum_option]
    simp only [ext1]
    rw [Real.mul_self_sqrt hc, add_comm, dotProduct, Finset.mul_sum]
    congr 1
    refine Finset.sum_congr rfl fun i _ => ?_
    have := Real.mul_self_sqrt hg
    linear_combination -(x i * y i) * this
  simp only [Kernel.eval, kOf, h1]
  rw [PiLp.inner_apply]
  have h2 := Finset.prod_univ_sum (fun _ : Fin d => (Finset.univ : Finset (Option n)))
    (fun _ o => ext1 g c y o * ext1 g c x o)
  simp only [Finset.prod_const, Finset.card_univ, Fintype.card_fin, Fintype.piFinset_univ] at h2
  rw [h2]
  refine Finset.sum_congr rfl fun ι _ => ?_
  simp only [polyFeat, Finset.prod_mul_distrib]
  rfl

theorem exists_index' {O : Type} (d : ℕ) (l : List O) (hl : l.length = d) : ∃ ι : Fin d → O, ∀ e : O → ℝ,
    ∏ k, e (ι k) = (l.map e).prod := by
  subst hl
  exact ⟨fun k => l[k], fun e => Fin.prod_univ_fun_getElem l e⟩

omit [Fintype n] [DecidableEq n] in
/-- Every list of at most `d` coordinates occurs among the features. -/
theorem exists_index (d : ℕ) (l : List n) (hl : l.length ≤ d) : ∃ ι : Fin d → Option n, ∀ e : Option n → ℝ,
    ∏ k, e (ι k) = (l.map fun i => e (some i)).prod * e none ^ (d - l.length) := by
  obtain ⟨ι, hι⟩ := exists_index' d (l.map some ++ List.replicate (d - l.length) none) (by simp; omega)
  refine ⟨ι, fun e => ?_⟩
  rw [hι, List.map_append, List.prod_append, List.map_map, List.map_replicate, List.prod_replicate]
  rfl

/-- A polynomial of degree at most `d` is linear in the features. -/
theorem poly_linear {g c : ℝ} (hg : 0 < g) (hc : 0 < c) (d : ℕ) (rho : n → ℝ) (hr : ∀ i, rho i ≠ 0)
    (P : MvPolynomial n ℝ) (hP : P.totalDegree ≤ d) : ∃ L : EuclideanSpace ℝ (Fin d → Option n) →ₗ[ℝ] ℝ,
    ∀ x, MvPolynomial.eval x P = L (polyFeat g c d (rescale rho x)) := by
  have hm : ∀ m ∈ P.support, ∃ L : EuclideanSpace ℝ (Fin d → Option n) →ₗ[ℝ] ℝ,
      ∀ x : n → ℝ, ∏ i, x i ^ m i = L (polyFeat g c d (rescale rho x)) := fun m hm => by
    have hlen : (Finsupp.toMultiset m).toList.length ≤ d := by
      rw [Multiset.length_toList, Finsupp.card_toMultiset]
      exact (MvPolynomial.le_totalDegree hm).trans hP
    obtain ⟨ι, hι⟩ := exists_index d (Finsupp.toMultiset m).toList hlen
    have hprod : ∀ e : n → ℝ, ((Finsupp.toMultiset m).toList.map e).prod = ∏ i, e i ^ m i := fun e => by
      rw [← Multiset.prod_coe, ← Multiset.map_coe, Multiset.coe_toList, Finsupp.toMultiset_map,
        Finsupp.prod_toMultiset, Finsupp.prod_mapDomain_index (fun _ => pow_zero _) (fun _ _ _ => pow_add _ _ _),
        Finsupp.prod_fintype _ _ fun _ => pow_zero _]
    set s : ℝ := (∏ i, (Real.sqrt g * rho i) ^ m i) * Real.sqrt c ^ (d - (Finsupp.toMultiset m).toList.length) with hs
    have hs0 : s ≠ 0 := mul_ne_zero (Finset.prod_ne_zero_iff.mpr fun i _ =>
      pow_ne_zero _ (mul_ne_zero (Real.sqrt_pos.mpr hg).ne' (hr i))) (pow_ne_zero _ (Real.sqrt_pos.mpr hc).ne')
    refine ⟨s⁻¹ • (EuclideanSpace.proj ι : EuclideanSpace ℝ (Fin d → Option n) →L[ℝ] ℝ).toLinearMap, fun x => ?_⟩
    have h1 : (EuclideanSpace.proj ι : EuclideanSpace ℝ (Fin d → Option n) →L[ℝ] ℝ) (polyFeat g c d (rescale rho x)) =
        ∏ k, ext1 g c (rescale rho x) (ι k) := rfl
    rw [LinearMap.smul_apply, ContinuousLinearMap.coe_coe, h1, hι, hprod, smul_eq_mul, eq_inv_mul_iff_mul_eq₀ hs0, hs]
    simp only [ext1, rescale]
    rw [mul_right_comm, ← Finset.prod_mul_distrib]
    congr 1
    exact Finset.prod_congr rfl fun i _ => by rw [← mul_pow]; ring
  choose L hL using hm
  refine ⟨∑ m ∈ P.support.attach, P.coeff m.1 • L m.1 m.2, fun x => ?_⟩
  rw [MvPolynomial.eval_eq', LinearMap.sum_apply, ← Finset.sum_attach]
  refine Finset.sum_congr rfl fun m _ => ?_
  rw [LinearMap.smul_apply, ← hL m.1 m.2, smul_eq_mul]

/-- A linear function of the features is a polynomial of degree at most `d`. -/
theorem linear_poly (g c : ℝ) (d : ℕ) (rho : n → ℝ) (L : EuclideanSpace ℝ (Fin d → Option n) →ₗ[ℝ] ℝ) :
    ∃ P : MvPolynomial n ℝ, P.totalDegree ≤ d ∧ ∀ x, MvPolynomial.eval x P = L (polyFeat g c d (rescale rho x)) := by
  set e : Option n → MvPolynomial n ℝ := fun o => match o with
    | none => MvPolynomial.C (Real.sqrt c)
    | some i => MvPolynomial.C (Real.sqrt g * rho i) * MvPolynomial.X i with he
  have h1 : ∀ o, (e o).totalDegree ≤ 1 := by
    rintro (_ | i)
    · simp [he]
    · refine (MvPolynomial.totalDegree_mul _ _).trans ?_
      rw [MvPolynomial.totalDegree_C, MvPolynomial.totalDegree_X]
  have h2 : ∀ x o, MvPolynomial.eval x (e o) = ext1 g c (rescale rho x) o := by
    rintro x (_ | i)
    · simp [he, ext1]
    · simp [he, ext1, rescale]; ring
  refine ⟨∑ ι : Fin d → Option n, MvPolynomial.C (L (EuclideanSpace.single ι 1)) * ∏ k, e (ι k), ?_, fun x => ?_⟩
  · refine MvPolynomial.totalDegree_finsetSum_le fun ι _ => (MvPolynomial.totalDegree_mul _ _).trans ?_
    rw [MvPolynomial.totalDegree_C, zero_add]
    refine (MvPolynomial.totalDegree_finsetProd _ _).trans ((Finset.sum_le_sum fun k _ => h1 (ι k)).trans ?_)
    simp
  · rw [map_sum]
    have h3 : polyFeat g c d (rescale rho x) =
        ∑ ι, (∏ k, ext1 g c (rescale rho x) (ι k)) • EuclideanSpace.single ι (1 : ℝ) := by
      ext ι
      simp [polyFeat, Finset.sum_apply, Pi.single_apply]
    rw [h3, map_sum]
    refine Finset.sum_congr rfl fun ι _ => ?_
    rw [map_mul, MvPolynomial.eval_C, map_prod, map_smul, smul_eq_mul, mul_comm]
    exact congrArg (· * _) (Finset.prod_congr rfl fun k _ => h2 x (ι k))

variable {o : Type} [Fintype o] {sv : Solver}

/-- **C141** (polynomial kernel): let the data be pairs `(x, F x)`, where the components of `F` are polynomials of degree
at most that of the kernel. With `dict_tol = 0`, the learnt model equals `F` at every point `x` that the data determine:
a polynomial of this degree that vanishes at all snapshots vanishes at `x`. -/
theorem C141_poly {g c : ℝ} (hg : 0 < g) (hc : 0 < c) (d : ℕ) (rho : n → ℝ) (hr : ∀ i, rho i ≠ 0) (hsv : SolverOk sv)
    (P : n → MvPolynomial n ℝ) (hP : ∀ r, (P r).totalDegree ≤ d) (F : (n → ℝ) → n → ℝ)
    (hF : ∀ x r, F x r = MvPolynomial.eval x (P r)) (x0 : n → ℝ) (xs : List (n → ℝ))
    (W : Matrix n (learn (Kernel.poly g c d).eval sv 0 (rescale rho x0)
      ((xs.map fun x => (x, F x)).map fun p => rescale rho p.1)).ι ℝ)
    (hW : IsFit (.poly g c d) sv 0 rho (x0, F x0) (xs.map fun x => (x, F x)) W) (x : n → ℝ)
    (hx : ∀ Q : MvPolynomial n ℝ, Q.totalDegree ≤ d → (∀ y ∈ x0 :: xs, MvPolynomial.eval y Q = 0) →
      MvPolynomial.eval x Q = 0) :
    f (.poly g c d) rho (learn (Kernel.poly g c d).eval sv 0 (rescale rho x0)
      ((xs.map fun x => (x, F x)).map fun p => rescale rho p.1)).item W x = F x := by
  choose L hL using fun r => poly_linear hg hc d rho hr (P r) (hP r)
  funext r
  refine fit_exact (ψ := polyFeat g c d) _ (poly_eval hg.le hc.le d) hsv rho F (LinearMap.pi L) ?_ x0 xs W hW x ?_ r
  · intro x
    funext r
    rw [hF, hL]
    rfl
  · by_contra hn
    obtain ⟨l, h1, h2⟩ := Submodule.exists_le_ker_of_notMem hn
    obtain ⟨Q, hQ, hQe⟩ := linear_poly g c d rho l
    refine h1 ?_
    rw [← hQe]
    refine hx Q hQ fun y hy => ?_
    rw [hQe]
    exact h2 (Submodule.subset_span ⟨y, hy, rfl⟩)

/-- **C141** (polynomial kernel, everywhere): if no polynomial of the degree of the kernel vanishes at all snapshots, the
learnt model is `F`, its predictions are the orbits of `F`, and its linear part is the Jacobian of `F` at every base
point. -/
theorem C141_everywhere {g c : ℝ} (hg : 0 < g) (hc : 0 < c) (d : ℕ) (rho : n → ℝ) (hr : ∀ i, rho i ≠ 0)
    (hsv : SolverOk sv) (P : n → MvPolynomial n ℝ) (hP : ∀ r, (P r).totalDegree ≤ d) (F : (n → ℝ) → n → ℝ)
    (hF : ∀ x r, F x r = MvPolynomial.eval x (P r)) (x0 : n → ℝ) (xs : List (n → ℝ))
    (W : Matrix n (learn (Kernel.poly g c d).eval sv 0 (rescale rho x0)
      ((xs.map fun x => (x, F x)).map fun p => rescale rho p.1)).ι ℝ)
    (hW : IsFit (.poly g c d) sv 0 rho (x0, F x0) (xs.map fun x => (x, F x)) W)
    (hx : ∀ Q : MvPolynomial n ℝ, Q.totalDegree ≤ d → (∀ y ∈ x0 :: xs, MvPolynomial.eval y Q = 0) → Q = 0) :
    let D := (learn (Kernel.poly g c d).eval sv 0 (rescale rho x0)
      ((xs.map fun x => (x, F x)).map fun p => rescale rho p.1)).item
    f (.poly g c d) rho D W = F ∧
      (∀ (p tend : ℕ) (x : n → ℝ), 1 ≤ tend → ∃ Y, predict (f (.poly g c d) rho D W) [p] [p] x tend = .ok Y ∧
        Y.length = tend ∧ ∀ i : ℕ, i < tend → Y[i]? = some (F^[i] x)) ∧
      ∀ xbar, HasFDerivAt F (clm (linear (.poly g c d) rho D W xbar)) xbar := by
  intro D
  have h1 : f (.poly g c d) rho D W = F := funext fun x =>
    C141_poly hg hc d rho hr hsv P hP F hF x0 xs W hW x fun Q hQ hy => by rw [hx Q hQ hy, map_zero]
  refine ⟨h1, fun p tend x ht => ?_, fun xbar => ?_⟩
  · rw [h1]
    exact C76_orbit_partial F p x tend ht
  · have := C49_derivative_partial (.poly g c d) trivial rho D W xbar
    rwa [h1] at this

/-- Data on which no polynomial of degree `d` vanishes exist, for every number of coordinates and every degree. -/
theorem exists_unisolvent (d : ℕ) : ∃ (x0 : n → ℝ) (xs : List (n → ℝ)), ∀ Q : MvPolynomial n ℝ, Q.totalDegree ≤ d →
    (∀ y ∈ x0 :: xs, MvPolynomial.eval y Q = 0) → Q = 0 := by
  classical
  have hfg : (Submodule.span ℝ (Set.range fun x : n → ℝ => polyFeat 1 1 d (rescale (fun _ => 1) x))).FG :=
    Submodule.FG.of_finite
  obtain ⟨t, ht, hs⟩ := (Submodule.fg_span_iff_fg_span_finset_subset _).mp hfg
  have hz : ∀ z : t, ∃ x : n → ℝ, polyFeat 1 1 d (rescale (fun _ => 1) x) = z.1 := fun z => ht z.2
  choose X hX using hz
  refine ⟨0, t.attach.toList.map X, fun Q hQ hy => MvPolynomial.funext fun x => ?_⟩
  obtain ⟨L, hL⟩ := poly_linear one_pos one_pos d (fun _ => 1) (fun _ => one_ne_zero) Q hQ
  rw [map_zero, hL]
  have h1 : polyFeat 1 1 d (rescale (fun _ => 1) x) ∈ Submodule.span ℝ (t : Set (EuclideanSpace ℝ (Fin d → Option n))) := by
    rw [← hs]
    exact Submodule.subset_span ⟨x, rfl⟩
  have h2 : Submodule.span ℝ (t : Set (EuclideanSpace ℝ (Fin d → Option n))) ≤ LinearMap.ker L := by
    rw [Submodule.span_le]
    intro z hz
    have e : polyFeat 1 1 d (rescale (fun _ => 1) (X ⟨z, hz⟩)) = z := hX ⟨z, hz⟩
    rw [SetLike.mem_coe, LinearMap.mem_ker, ← e, ← hL]
    exact hy _ (List.mem_cons_of_mem _ (List.mem_map_of_mem (by simp)))
  exact h2 h1

/-- The hypotheses of `C141_everywhere` are met for every system of polynomials: data that determine it exist, and so do
weights of least error. -/
example {g c : ℝ} (hg : 0 < g) (hc : 0 < c) (d : ℕ) (rho : n → ℝ) (hr : ∀ i, rho i ≠ 0)
    (P : n → MvPolynomial n ℝ) (hP : ∀ r, (P r).totalDegree ≤ d) :
    ∃ (sv : Solver) (x0 : n → ℝ) (xs : List (n → ℝ)) (W : Matrix n (learn (Kernel.poly g c d).eval sv 0 (rescale rho x0)
      ((xs.map fun x => (x, fun r => MvPolynomial.eval x (P r))).map fun p => rescale rho p.1)).ι ℝ),
      SolverOk sv ∧ (∀ Q : MvPolynomial n ℝ, Q.totalDegree ≤ d → (∀ y ∈ x0 :: xs, MvPolynomial.eval y Q = 0) → Q = 0) ∧
      IsFit (.poly g c d) sv 0 rho (x0, fun r => MvPolynomial.eval x0 (P r))
        (xs.map fun x => (x, fun r => MvPolynomial.eval x (P r))) W := by
  obtain ⟨sv, hsv⟩ := exists_solver
  obtain ⟨x0, xs, hx⟩ := exists_unisolvent (n := n) d
  choose L hL using fun r => poly_linear hg hc d rho hr (P r) (hP r)
  obtain ⟨W, hW⟩ := exists_fit (ψ := polyFeat g c d) _ (poly_eval hg.le hc.le d) hsv rho
    (fun x r => MvPolynomial.eval x (P r)) (LinearMap.pi L) (fun x => funext fun r => hL r x) x0 xs
  exact ⟨sv, x0, xs, W, hsv, hx, hW⟩

/-- Features of the linear kernel. -/
noncomputable def linFeat (z : n → ℝ) : EuclideanSpace ℝ n := WithLp.toLp 2 z

omit [DecidableEq n] in
theorem linear_eval : (Kernel.linear.eval : (n → ℝ) → (n → ℝ) → ℝ) = kOf linFeat := by
  funext x y
  rw [kOf, PiLp.inner_apply]
  simp only [Kernel.eval, dotProduct]
  exact Finset.sum_congr rfl fun i _ => mul_comm _ _

/-- **C141** (linear kernel): from snapshots of a linear system LANDO with `dict_tol = 0` learns its matrix on the span
of the snapshots. -/
theorem C141_linear (rho : n → ℝ) (hr : ∀ i, rho i ≠ 0) (hsv : SolverOk sv) (A : Matrix n n ℝ) (x0 : n → ℝ)
    (xs : List (n → ℝ)) (W : Matrix n (learn Kernel.linear.eval sv 0 (rescale rho x0)
      ((xs.map fun x => (x, A *ᵥ x)).map fun p => rescale rho p.1)).ι ℝ)
    (hW : IsFit .linear sv 0 rho (x0, A *ᵥ x0) (xs.map fun x => (x, A *ᵥ x)) W) (x : n → ℝ)
    (hx : x ∈ Submodule.span ℝ {y | y ∈ x0 :: xs}) :
    f .linear rho (learn Kernel.linear.eval sv 0 (rescale rho x0)
      ((xs.map fun x => (x, A *ᵥ x)).map fun p => rescale rho p.1)).item W x = A *ᵥ x := by
  let C : EuclideanSpace ℝ n →ₗ[ℝ] (n → ℝ) := (toLin' (A * diagonal fun i => (rho i)⁻¹)).comp
    (WithLp.linearEquiv 2 ℝ (n → ℝ)).toLinearMap
  let S : (n → ℝ) →ₗ[ℝ] EuclideanSpace ℝ n := (WithLp.linearEquiv 2 ℝ (n → ℝ)).symm.toLinearMap.comp
    (toLin' (diagonal rho))
  have hS : ∀ y, linFeat (rescale rho y) = S y := fun y => by
    ext i
    simp [S, linFeat, rescale, mulVec_diagonal, mul_comm]
  funext r
  refine fit_exact (ψ := linFeat) _ linear_eval hsv rho (fun x => A *ᵥ x) C ?_ x0 xs W hW x ?_ r
  · intro y
    have : (diagonal fun i => (rho i)⁻¹) *ᵥ (rescale rho y) = y := by
      funext i
      rw [mulVec_diagonal, rescale, mul_comm (y i), inv_mul_cancel_left₀ (hr i)]
    change A *ᵥ y = (A * diagonal fun i => (rho i)⁻¹) *ᵥ (rescale rho y)
    rw [← mulVec_mulVec, this]
  · simp only [hS]
    rw [← Submodule.map_span]
    exact Submodule.mem_map_of_mem hx

/-- **C141**, negation for other kernels: with the linear kernel, or the polynomial kernel with `coef0 = 0`, every learnt
model vanishes at 0, so that no system that moves the origin is learnt, whatever the data. -/
theorem C141_constant_false {j : Type} [Fintype j] (rho : n → ℝ) (D : j → n → ℝ) (W : Matrix n j ℝ) (g : ℝ) (d : ℕ)
    (hd : 1 ≤ d) (F : (n → ℝ) → n → ℝ) (hF : F 0 ≠ 0) : f .linear rho D W ≠ F ∧ f (.poly g 0 d) rho D W ≠ F := by
  have h0 : rescale rho 0 = 0 := by funext i; simp [rescale]
  have hd' : d ≠ 0 := by omega
  refine ⟨fun h => hF ?_, fun h => hF ?_⟩ <;> rw [← h] <;> funext r <;>
    simp [f, h0, Kernel.eval, mulVec, dotProduct, hd']

end Poly

end Verif.Lando
