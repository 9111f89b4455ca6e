import Verif.Props.Unique
import Mathlib.LinearAlgebra.Matrix.Rank

/-!
# Property C169: units of single channels, redundant channels
-/

set_option autoImplicit false

namespace Verif.Variables

open Verif Verif.LinAlg Verif.Operator Verif.Whole Verif.Unique Matrix

variable {m m' n : Type} [Fintype m] [Fintype m'] [Fintype n]

theorem rank_svd [DecidableEq m] {p : ℕ} {X : Matrix m n ℂ} {U : Matrix m (Fin p) ℂ} {s : Fin p → ℝ} {V : Matrix n (Fin p) ℂ}
    (h : IsSVD X U s V) : X.rank = Fintype.card {i // s i ≠ 0} := by
  have e : rdiag s = Uᴴ * X * V := by
    rw [h.eq, Matrix.mul_assoc, Matrix.mul_assoc, h.v, Matrix.mul_one, ← Matrix.mul_assoc, h.u, Matrix.one_mul]
  have h1 : X.rank ≤ (rdiag s).rank := by
    conv_lhs => rw [h.eq]
    exact (rank_mul_le_left _ _).trans (rank_mul_le_right _ _)
  have h2 : (rdiag s).rank ≤ X.rank := by
    rw [e]; exact (rank_mul_le_left _ _).trans (rank_mul_le_right _ _)
  rw [le_antisymm h1 h2, rdiag, rank_diagonal]
  exact Fintype.card_congr (Equiv.subtypeEquivRight fun i => by simp)

/-- Cut at the rank, the factorization has positive singular values and is still one of the data. -/
theorem cut [DecidableEq m] {p q : ℕ} (hq : q ≤ p) {X : Matrix m n ℂ} {U : Matrix m (Fin p) ℂ} {s : Fin p → ℝ}
    {V : Matrix n (Fin p) ℂ} (h : IsSVD X U s V) (hs : Antitone s) (hr : X.rank = q) :
    IsSVD X (lead q hq U) (s ∘ Fin.castLE hq) (lead q hq V) ∧ ∀ i, (s ∘ Fin.castLE hq) i ≠ 0 := by
  classical
  have hc : (Finset.univ.filter fun i => s i ≠ 0).card = q := by
    rw [← hr, rank_svd h, Fintype.card_subtype]
  have hlow : ∀ i j : Fin p, i ≤ j → s i = 0 → s j = 0 := fun i j hij h0 =>
    le_antisymm (h0 ▸ hs hij) (h.nonneg j)
  have key : ∀ i : Fin p, s i ≠ 0 ↔ (i : ℕ) < q := by
    have hA : ∀ i : Fin p, s i ≠ 0 → (i : ℕ) < q := by
      intro i hi
      by_contra hc'
      have hsub : Finset.univ.filter (fun j : Fin p => j ≤ i) ⊆ Finset.univ.filter fun i => s i ≠ 0 := by
        intro j hj
        simp only [Finset.mem_filter, Finset.mem_univ, true_and] at hj ⊢
        exact fun h0 => hi (hlow j i hj h0)
      have h1 := Finset.card_le_card hsub
      have h2 : (Finset.univ.filter fun j : Fin p => j ≤ i).card = i + 1 := by
        have : Finset.univ.filter (fun j : Fin p => j ≤ i) = Finset.Iic i := by ext; simp
        rw [this, Fin.card_Iic]
      omega
    intro i
    refine ⟨hA i, fun hi h0 => ?_⟩
    have hsub : Finset.univ.filter (fun i => s i ≠ 0) ⊆ Finset.univ.filter fun j : Fin p => j < i := by
      intro j hj
      simp only [Finset.mem_filter, Finset.mem_univ, true_and] at hj ⊢
      by_contra hji
      exact hj (hlow i j (not_lt.1 hji) h0)
    have h1 := Finset.card_le_card hsub
    have h2 : (Finset.univ.filter fun j : Fin p => j < i).card = i := by
      have : Finset.univ.filter (fun j : Fin p => j < i) = Finset.Iio i := by ext; simp
      rw [this, Fin.card_Iio]
    omega
  refine ⟨⟨?_, lead_orthonormal hq U h.u, lead_orthonormal hq V h.v, fun i => h.nonneg _⟩,
    fun i => (key _).2 i.2⟩
  ext a b
  conv_lhs => rw [h.eq]
  have hx : ∀ {t : ℕ} (P : Matrix m (Fin t) ℂ) (d : Fin t → ℝ) (Q : Matrix n (Fin t) ℂ),
      (P * rdiag d * Qᴴ) a b = ∑ i, P a i * (d i : ℂ) * star (Q b i) := by
    intro t P d Q
    rw [Matrix.mul_apply]
    refine Finset.sum_congr rfl fun i _ => ?_
    rw [rdiag, mul_diagonal, conjTranspose_apply]
  rw [hx, hx]
  let f : Fin p → ℂ := fun i => U a i * (s i : ℂ) * star (V b i)
  show ∑ i, f i = ∑ i : Fin q, f (Fin.castLE hq i)
  have hmap : ∑ i : Fin q, f (Fin.castLE hq i) = ∑ i ∈ Finset.univ.map (Fin.castLEEmb hq), f i := by
    rw [Finset.sum_map]; rfl
  rw [hmap]
  symm
  refine Finset.sum_subset (Finset.subset_univ _) fun i _ hi => ?_
  have : s i = 0 := by
    by_contra h0
    exact hi (Finset.mem_map.2 ⟨⟨i, (key i).1 h0⟩, Finset.mem_univ _, by ext; rfl⟩)
  simp [f, this]

/-- The reduced operators of `X, Y` and `B X, B Y` are similar. -/
theorem similar_ops {k : Type} [Fintype k] [DecidableEq k] {X Y : Matrix m n ℂ} {C : Matrix n n ℂ} (hY : Y = X * C)
    {B : Matrix m' m ℂ} {B' : Matrix m m' ℂ} (hB : B' * (B * X) = X)
    {U : Matrix m k ℂ} {s : k → ℝ} {V : Matrix n k ℂ} (h : IsSVD X U s V) (hs : ∀ i, s i ≠ 0)
    {U' : Matrix m' k ℂ} {s' : k → ℝ} {V' : Matrix n k ℂ} (h' : IsSVD (B * X) U' s' V') (hs' : ∀ i, s' i ≠ 0) :
    ∃ M M' : Matrix k k ℂ, M * M' = 1 ∧ M' * M = 1 ∧
      leastSquareOperator none U' s' V' (B * Y) = M * leastSquareOperator none U s V Y * M' ∧
      U' = B * U * M' ∧ Y * V * (rdiag fun i => (s i)⁻¹) = U * leastSquareOperator none U s V Y ∧
      B * Y * V' * (rdiag fun i => (s' i)⁻¹) = U' * leastSquareOperator none U' s' V' (B * Y) := by
  set S := rdiag fun i => (s i)⁻¹ with hS
  set S' := rdiag fun i => (s' i)⁻¹ with hS'
  have i1 : rdiag s * S = 1 := rdiag_mul_inv s hs
  have i2 : rdiag s' * S' = 1 := rdiag_mul_inv s' hs'
  have hUX : U * (Uᴴ * X) = X := by
    have : Uᴴ * X = rdiag s * Vᴴ := by
      rw [h.eq, ← Matrix.mul_assoc, ← Matrix.mul_assoc, h.u, Matrix.one_mul]
    rw [this, ← Matrix.mul_assoc, ← h.eq]
  have hUX' : U' * (U'ᴴ * (B * X)) = B * X := by
    have : U'ᴴ * (B * X) = rdiag s' * V'ᴴ := by
      rw [h'.eq, ← Matrix.mul_assoc, ← Matrix.mul_assoc, h'.u, Matrix.one_mul]
    rw [this, ← Matrix.mul_assoc, ← h'.eq]
  have eU : U = X * (V * S) := by
    rw [h.eq, Matrix.mul_assoc, ← Matrix.mul_assoc Vᴴ, h.v, Matrix.one_mul, Matrix.mul_assoc, i1, Matrix.mul_one]
  have eU' : U' = B * X * (V' * S') := by
    rw [h'.eq, Matrix.mul_assoc, ← Matrix.mul_assoc V'ᴴ, h'.v, Matrix.one_mul, Matrix.mul_assoc, i2, Matrix.mul_one]
  have hXV : X * (V * Vᴴ) = X := by
    conv_lhs => rw [h.eq]
    rw [Matrix.mul_assoc, ← Matrix.mul_assoc Vᴴ, h.v, Matrix.one_mul, ← h.eq]
  have hV : V * (Vᴴ * V') = V' := by
    have e : V' * rdiag s' = Xᴴ * (Bᴴ * U') := by
      have := congrArg conjTranspose h'.eq
      rw [conjTranspose_mul, conjTranspose_mul, conjTranspose_mul, conjTranspose_conjTranspose,
        rdiag_conjTranspose] at this
      rw [← Matrix.mul_assoc, this, Matrix.mul_assoc, Matrix.mul_assoc, h'.u, Matrix.mul_one]
    have e2 : V' = Xᴴ * (Bᴴ * U' * S') := by
      calc V' = V' * (rdiag s' * S') := by rw [i2, Matrix.mul_one]
        _ = _ := by rw [← Matrix.mul_assoc, e]; simp only [Matrix.mul_assoc]
    have e3 : V * Vᴴ * Xᴴ = Xᴴ := by
      have := congrArg conjTranspose hXV
      rwa [conjTranspose_mul, conjTranspose_mul, conjTranspose_conjTranspose] at this
    rw [← Matrix.mul_assoc]
    conv_lhs => rw [e2]
    rw [← Matrix.mul_assoc, e3, ← e2]
  have hBU : U' * (U'ᴴ * (B * U)) = B * U := by
    rw [eU, ← Matrix.mul_assoc B, ← Matrix.mul_assoc U'ᴴ, ← Matrix.mul_assoc U', hUX']
  have hBU' : B' * (B * U) = U := by
    rw [eU, ← Matrix.mul_assoc B, ← Matrix.mul_assoc B', hB]
  have hB'U' : B' * U' = X * (V' * S') := by
    conv_lhs => rw [eU']
    rw [← Matrix.mul_assoc, hB]
  have hUB' : U * (Uᴴ * (B' * U')) = X * (V' * S') := by
    rw [hB'U', ← Matrix.mul_assoc Uᴴ, ← Matrix.mul_assoc U, hUX]
  have hUY : U * (Uᴴ * Y) = Y := by
    rw [hY, ← Matrix.mul_assoc Uᴴ, ← Matrix.mul_assoc U, hUX]
  have hUY' : U' * (U'ᴴ * (B * Y)) = B * Y := by
    rw [hY, ← Matrix.mul_assoc B, ← Matrix.mul_assoc U'ᴴ, ← Matrix.mul_assoc U', hUX']
  refine ⟨U'ᴴ * (B * U), Uᴴ * (B' * U'), ?_, ?_, ?_, ?_, ?_, ?_⟩
  · have : U'ᴴ * (B * U) * (Uᴴ * (B' * U')) = U'ᴴ * (B * (U * (Uᴴ * (B' * U')))) := by
      simp only [Matrix.mul_assoc]
    rw [this, hUB', ← Matrix.mul_assoc B, ← eU', h'.u]
  · have : Uᴴ * (B' * U') * (U'ᴴ * (B * U)) = Uᴴ * (B' * (U' * (U'ᴴ * (B * U)))) := by
      simp only [Matrix.mul_assoc]
    rw [this, hBU, hBU', h.u]
  · simp only [leastSquareOperator, tikSigma]
    rw [← hS, ← hS', hB'U']
    have e1 : S * (Uᴴ * (X * (V' * S'))) = Vᴴ * V' * S' := by
      have e2 : S * rdiag s = 1 := rdiag_inv_mul s hs
      have e3 : Uᴴ * (X * (V' * S')) = rdiag s * (Vᴴ * V' * S') := by
        conv_lhs => rw [h.eq]
        have : Uᴴ * (U * rdiag s * Vᴴ * (V' * S')) = Uᴴ * U * (rdiag s * (Vᴴ * V' * S')) := by
          simp only [Matrix.mul_assoc]
        rw [this, h.u, Matrix.one_mul]
      rw [e3, ← Matrix.mul_assoc, e2, Matrix.one_mul]
    calc U'ᴴ * (B * Y) * V' * S' = U'ᴴ * (B * (U * (Uᴴ * Y) * (V * (Vᴴ * V') * S'))) := by
          rw [hUY, hV]; simp only [Matrix.mul_assoc]
      _ = U'ᴴ * (B * (U * (Uᴴ * Y) * (V * (Vᴴ * V' * S')))) := by simp only [Matrix.mul_assoc]
      _ = U'ᴴ * (B * (U * (Uᴴ * Y) * (V * (S * (Uᴴ * (X * (V' * S'))))))) := by rw [e1]
      _ = _ := by simp only [Matrix.mul_assoc]
  · rw [Matrix.mul_assoc, hUB', ← Matrix.mul_assoc]; exact eU'
  · simp only [leastSquareOperator, tikSigma]
    calc Y * V * S = U * (Uᴴ * Y) * V * S := by rw [hUY]
      _ = _ := by simp only [Matrix.mul_assoc, hS]
  · simp only [leastSquareOperator, tikSigma]
    calc B * Y * V' * S' = U' * (U'ᴴ * (B * Y)) * V' * S' := by rw [hUY']
      _ = _ := by simp only [Matrix.mul_assoc, hS']

theorem rank_eq {X : Matrix m n ℂ} {B : Matrix m' m ℂ} {B' : Matrix m m' ℂ} (hB : B' * (B * X) = X) :
    (B * X).rank = X.rank := by
  refine le_antisymm (rank_mul_le_right _ _) ?_
  conv_lhs => rw [← hB]
  exact rank_mul_le_right _ _

/-- What the results of both fits have in common. -/
theorem results [DecidableEq m] [DecidableEq m'] (exact : Bool) {X Y : Matrix m n ℂ} {C : Matrix n n ℂ} (hY : Y = X * C)
    {B : Matrix m' m ℂ} {B' : Matrix m m' ℂ} (hB : B' * (B * X) = X) {q : ℕ} (hr : X.rank = q)
    {W W' : Matrix (Fin q) (Fin q) ℂ} {eigs eigs' : Fin q → ℂ} {modes : Matrix m (Fin q) ℂ} {modes' : Matrix m' (Fin q) ℂ}
    (h : IsResult ⟨exact, false, none⟩ X Y W eigs modes)
    (h' : IsResult ⟨exact, false, none⟩ (B * X) (B * Y) W' eigs' modes') :
    ∃ (A M M' : Matrix (Fin q) (Fin q) ℂ) (U : Matrix m (Fin q) ℂ), M * M' = 1 ∧ M' * M = 1 ∧
      A.charpoly.roots = Finset.univ.val.map eigs ∧ A.charpoly.roots = Finset.univ.val.map eigs' ∧
      A * W = W * diagonal eigs ∧ A * (M' * W') = M' * W' * diagonal eigs' ∧
      (∀ j, normSq (fun i => W i j) = 1) ∧ (∀ j, normSq (fun i => W' i j) = 1) ∧
      modes = (if exact then U * W * diagonal eigs else U * W) ∧
      modes' = (if exact then B * (U * (M' * W')) * diagonal eigs' else B * (U * (M' * W'))) ∧
      Uᴴ * U = 1 ∧ U * (Uᴴ * X) = X ∧ ∃ R, U = X * R := by
  obtain ⟨p, hq, U, s, V, hX, hs, A, hA, he, hroots, hn, hm⟩ := h
  obtain ⟨p', hq', U', s', V', hX', hs', A', hA', he', hroots', hn', hm'⟩ := h'
  obtain ⟨c1, c2⟩ := cut hq hX hs hr
  obtain ⟨c1', c2'⟩ := cut hq' hX' hs' ((rank_eq hB).trans hr)
  simp only [IsAtilde, Bool.false_eq_true, if_false, Options.tik, Option.map_none] at hA hA'
  simp only [Options.tik, Option.map_none, computeModes] at hm hm'
  obtain ⟨M, M', h1, h2, h3, h4, h5, h6⟩ := similar_ops hY hB c1 c2 c1' c2'
  rw [← hA, ← hA'] at h3
  have hsim := (Frequencies.charpoly_similar M M' h1 h2 A).1
  rw [← h3] at hsim
  have heM : A * (M' * W') = M' * W' * diagonal eigs' := by
    have : A * M' = M' * A' := by
      rw [h3, ← Matrix.mul_assoc, ← Matrix.mul_assoc, h2, Matrix.one_mul]
    rw [← Matrix.mul_assoc, this, Matrix.mul_assoc, he', Matrix.mul_assoc]
  have hUX : lead q hq U * ((lead q hq U)ᴴ * X) = X := by
    have : (lead q hq U)ᴴ * X = rdiag (s ∘ Fin.castLE hq) * (lead q hq V)ᴴ := by
      conv_lhs => rw [c1.eq]
      rw [← Matrix.mul_assoc, ← Matrix.mul_assoc, c1.u, Matrix.one_mul]
    rw [this, ← Matrix.mul_assoc, ← c1.eq]
  refine ⟨A, M, M', lead q hq U, h1, h2, hroots, by rw [← hsim, hroots'], he, heM, hn, hn', ?_, ?_, c1.u, hUX,
    lead q hq V * rdiag fun i => ((s ∘ Fin.castLE hq) i)⁻¹, ?_⟩
  · rw [hm]
    cases exact
    · rfl
    · simp only [if_true, tikSigma]
      rw [h5, ← hA, Matrix.mul_assoc, he, Matrix.mul_assoc]
  · rw [hm']
    cases exact
    · simp only [Bool.false_eq_true, if_false]
      rw [h4]; simp only [Matrix.mul_assoc]
    · simp only [if_true, tikSigma]
      rw [h6, ← hA', Matrix.mul_assoc, he', h4]; simp only [Matrix.mul_assoc]
  · conv_rhs => rw [c1.eq]
    rw [Matrix.mul_assoc, ← Matrix.mul_assoc (lead q hq V)ᴴ, c1.v, Matrix.one_mul, Matrix.mul_assoc, rdiag_mul_inv _ c2,
      Matrix.mul_one]

/-- **C169** (eigenvalues). Let the snapshots be measured in other variables: `B x` instead of `x`, where `x` can be
recovered from `B x` for the data at hand (`B' B X = X`): units of single channels, sums and differences of channels, added
or removed redundant channels. If the snapshots `Y` are combinations of the snapshots `X` (always the case if there are as
many independent snapshots as channels) and the rank of the truncation is that of the data, the eigenvalues are the same. -/
theorem C169_eigenvalues_partial [DecidableEq m] [DecidableEq m'] (exact : Bool) (X Y : Matrix m n ℂ) (C : Matrix n n ℂ)
    (hY : Y = X * C) (B : Matrix m' m ℂ) (B' : Matrix m m' ℂ) (hB : B' * (B * X) = X) {q : ℕ} (hr : X.rank = q)
    (W W' : Matrix (Fin q) (Fin q) ℂ) (eigs eigs' : Fin q → ℂ) (modes : Matrix m (Fin q) ℂ) (modes' : Matrix m' (Fin q) ℂ)
    (h : IsResult ⟨exact, false, none⟩ X Y W eigs modes)
    (h' : IsResult ⟨exact, false, none⟩ (B * X) (B * Y) W' eigs' modes') :
    (List.ofFn eigs).Perm (List.ofFn eigs') := by
  obtain ⟨A, M, M', U, -, -, hr1, hr2, -⟩ := results exact hY hB hr h h'
  rw [hr1, Fin.univ_val_map, Fin.univ_val_map] at hr2
  exact Multiset.coe_eq_coe.mp hr2

/-- **C169** (modes). If in addition the eigenvalues are different, the modes are multiples of `B` times the modes. -/
theorem C169_modes_partial [DecidableEq m] [DecidableEq m'] (exact : Bool) (X Y : Matrix m n ℂ) (C : Matrix n n ℂ)
    (hY : Y = X * C) (B : Matrix m' m ℂ) (B' : Matrix m m' ℂ) (hB : B' * (B * X) = X) {q : ℕ} (hr : X.rank = q)
    (W W' : Matrix (Fin q) (Fin q) ℂ) (eigs eigs' : Fin q → ℂ) (modes : Matrix m (Fin q) ℂ) (modes' : Matrix m' (Fin q) ℂ)
    (h : IsResult ⟨exact, false, none⟩ X Y W eigs modes)
    (h' : IsResult ⟨exact, false, none⟩ (B * X) (B * Y) W' eigs' modes') (hinj : Function.Injective eigs) :
    ∃ (π : Equiv.Perm (Fin q)) (c : Fin q → ℂ), (∀ j, c j ≠ 0) ∧ (∀ j, eigs' j = eigs (π j)) ∧
      ∀ i j, modes' i j = (B * modes) i (π j) * c j := by
  obtain ⟨A, M, M', U, h1, h2, hr1, hr2, he, he', hn, hn', hm, hm', -⟩ := results exact hY hB hr h h'
  obtain ⟨π, hπ⟩ := exists_perm eigs eigs' (by rw [← hr1, hr2]) hinj
  set Z := M' * W' with hZ
  have hpos : ∀ j, 0 < normSq fun i => Z i j := by
    intro j
    refine lt_of_le_of_ne (normSq_nonneg _) fun h0 => ?_
    have hz : (fun i => Z i j) = 0 := (normSq_eq_zero _).1 h0.symm
    have : (fun i => W' i j) = 0 := by
      have e : W' = M * Z := by rw [hZ, ← Matrix.mul_assoc, h1, Matrix.one_mul]
      have : (fun i => W' i j) = M *ᵥ fun i => Z i j := by
        conv_lhs => rw [e]
        rfl
      rw [this, hz, mulVec_zero]
    have h3 := hn' j
    rw [this] at h3
    simp [normSq] at h3
  set d : Fin q → ℂ := fun j => ((Real.sqrt (normSq fun i => Z i j))⁻¹ : ℝ) with hd
  have hd0 : ∀ j, d j ≠ 0 := fun j => by
    simp only [hd, ne_eq, Complex.ofReal_eq_zero, inv_eq_zero]
    exact (Real.sqrt_pos.2 (hpos j)).ne'
  obtain ⟨c, hc, hW⟩ := eigvec_unique A W (Z * diagonal d) eigs eigs' hinj he
    (by rw [← Matrix.mul_assoc, he', Matrix.mul_assoc Z, Matrix.mul_assoc Z, diagonal_mul_diagonal,
          diagonal_mul_diagonal]
        simp only [mul_comm]) hn
    (fun j => by
      have e : (fun i => (Z * diagonal d) i j) = d j • fun i => Z i j := by
        funext i; simp [mul_diagonal, mul_comm]
      have e2 : normSq (d j • fun i => Z i j) = Complex.normSq (d j) * normSq fun i => Z i j := by
        simp [normSq, Finset.mul_sum]
      rw [e, e2]
      simp only [hd, Complex.normSq_ofReal]
      rw [← mul_inv, Real.mul_self_sqrt (hpos j).le, inv_mul_cancel₀ (hpos j).ne']) π hπ
  have hZW : ∀ i j, Z i j = W i (π j) * (c j * (d j)⁻¹) := fun i j => by
    have := hW i j
    rw [mul_diagonal] at this
    rw [← mul_assoc, ← this, mul_assoc, mul_inv_cancel₀ (hd0 j), mul_one]
  refine ⟨π, fun j => c j * (d j)⁻¹, fun j => mul_ne_zero ?_ (inv_ne_zero (hd0 j)), hπ, fun i j => ?_⟩
  · intro h0; have := hc j; rw [h0] at this; simp at this
  · have key : (B * (U * Z)) i j = (B * (U * W)) i (π j) * (c j * (d j)⁻¹) := by
      have e1 : (B * (U * Z)) i j = ∑ k, (B * U) i k * Z k j := by rw [← Matrix.mul_assoc]; rfl
      have e2 : (B * (U * W)) i (π j) = ∑ k, (B * U) i k * W k (π j) := by rw [← Matrix.mul_assoc]; rfl
      rw [e1, e2, Finset.sum_mul]
      refine Finset.sum_congr rfl fun k _ => ?_
      rw [hZW]; ring
    rw [hm, hm']
    cases exact
    · simpa using key
    · simp only [if_true]
      rw [← Matrix.mul_assoc B (U * W), mul_diagonal, mul_diagonal, key, hπ]; ring

open Verif.Time Verif.Bitmask in
/-- **C169** (reconstruction). Under the same conditions (for exact modes: no eigenvalue is zero), with the amplitudes fitted
to a snapshot `x`, every selection of modes and every window: the reconstruction in the other variables is `B` times the
reconstruction. -/
theorem C169_reconstruction_partial [DecidableEq m] [DecidableEq m'] (exact : Bool) (X Y : Matrix m n ℂ) (C : Matrix n n ℂ)
    (hY : Y = X * C) (B : Matrix m' m ℂ) (B' : Matrix m m' ℂ) (hB : B' * (B * X) = X) {q : ℕ} (hr : X.rank = q)
    (W W' : Matrix (Fin q) (Fin q) ℂ) (eigs eigs' : Fin q → ℂ) (modes : Matrix m (Fin q) ℂ) (modes' : Matrix m' (Fin q) ℂ)
    (h : IsResult ⟨exact, false, none⟩ X Y W eigs modes)
    (h' : IsResult ⟨exact, false, none⟩ (B * X) (B * Y) W' eigs' modes') (hinj : Function.Injective eigs)
    (hex : exact = true → ∀ j, eigs j ≠ 0) (t₀ : n) (P : Matrix (Fin q) m ℂ) (P' : Matrix (Fin q) m' ℂ)
    (hP : IsPinv modes P) (hP' : IsPinv modes' P')
    (orig w : Window) (hdt : w.dt ≠ 0) (opt : Opt) (nsnap : ℕ) (keep : ℂ → Bool) :
    reconstructed ((afterFit (List.ofFn fun j => fun i => modes' i j) (List.ofFn eigs')
        (List.ofFn (P' *ᵥ fun i => (B * X) i t₀))).setMask (.bool1 (List.ofFn fun j => keep (eigs' j)))).2
        orig w opt nsnap =
      (reconstructed ((afterFit (List.ofFn fun j => fun i => modes i j) (List.ofFn eigs)
        (List.ofFn (P *ᵥ fun i => X i t₀))).setMask (.bool1 (List.ofFn fun j => keep (eigs j)))).2
        orig w opt nsnap).map fun cols => cols.map fun c => B *ᵥ c := by
  obtain ⟨π, c, hc, hπ, hmm⟩ := C169_modes_partial exact X Y C hY B B' hB hr W W' eigs eigs' modes modes' h h' hinj
  obtain ⟨A, M, M', U, h1, h2, -, -, he, he', hn, hn', hm, hm', hU, hUX, R, hR⟩ := results exact hY hB hr h h'
  -- the matrix of eigenvectors is invertible
  have hWinv : ∃ Wi, W * Wi = 1 := by
    have hv : ∀ j, A *ᵥ (fun i => W i j) = eigs j • fun i => W i j := fun j => by
      have h1 : (fun i => (A * W) i j) = A *ᵥ fun i => W i j := rfl
      rw [← h1, he]
      funext i
      simp [mul_diagonal, mul_comm]
    have hli : LinearIndependent ℂ fun j => (fun i => W i j : Fin q → ℂ) := by
      refine Module.End.eigenvectors_linearIndependent' (Matrix.toLin' A) eigs hinj _ fun j => ?_
      refine ⟨Module.End.mem_eigenspace_iff.mpr ?_, ?_⟩
      · rw [Matrix.toLin'_apply]; exact hv j
      · intro h0
        have := hn j
        rw [h0] at this
        simp [normSq] at this
    have hu : IsUnit W := Matrix.linearIndependent_cols_iff_isUnit.1 hli
    exact ⟨W⁻¹, Matrix.mul_nonsing_inv W ((Matrix.isUnit_iff_isUnit_det W).1 hu)⟩
  obtain ⟨Wi, hWi⟩ := hWinv
  have hWi' : Wi * W = 1 := mul_eq_one_comm.1 hWi
  -- left inverses
  have hleft : ∃ L : Matrix (Fin q) m ℂ, L * modes = 1 ∧ modes * (L * X) = X := by
    cases exact
    · simp only [Bool.false_eq_true, if_false] at hm
      refine ⟨Wi * Uᴴ, ?_, ?_⟩
      · rw [hm, Matrix.mul_assoc, ← Matrix.mul_assoc Uᴴ, hU, Matrix.one_mul, hWi']
      · rw [hm, Matrix.mul_assoc, Matrix.mul_assoc, ← Matrix.mul_assoc W, hWi, Matrix.one_mul, hUX]
    · simp only [if_true] at hm
      have hD : diagonal eigs * diagonal (fun j => (eigs j)⁻¹) = 1 := by
        rw [diagonal_mul_diagonal, ← diagonal_one]
        congr 1; funext j; exact mul_inv_cancel₀ (hex rfl j)
      have hD' := mul_eq_one_comm.1 hD
      refine ⟨diagonal (fun j => (eigs j)⁻¹) * (Wi * Uᴴ), ?_, ?_⟩
      · have : diagonal (fun j => (eigs j)⁻¹) * (Wi * Uᴴ) * (U * W * diagonal eigs) =
            diagonal (fun j => (eigs j)⁻¹) * (Wi * (Uᴴ * U) * W) * diagonal eigs := by
          simp only [Matrix.mul_assoc]
        rw [hm, this, hU, Matrix.mul_one, hWi', Matrix.mul_one, hD']
      · have : U * W * diagonal eigs * (diagonal (fun j => (eigs j)⁻¹) * (Wi * Uᴴ) * X) =
            U * (W * (diagonal eigs * diagonal (fun j => (eigs j)⁻¹)) * Wi) * (Uᴴ * X) := by
          simp only [Matrix.mul_assoc]
        rw [hm, this, hD, Matrix.mul_one, hWi, Matrix.mul_one, hUX]
  obtain ⟨L, hL, hLX⟩ := hleft
  have hPm : P * modes = 1 := by
    have : modes * (P * modes) = modes := by rw [← Matrix.mul_assoc, hP.apa]
    calc P * modes = L * modes * (P * modes) := by rw [hL, Matrix.one_mul]
      _ = 1 := by rw [Matrix.mul_assoc, this, hL]
  set b : Fin q → ℂ := fun j => (L * X) j t₀ with hbdef
  have hcol : (fun i => X i t₀) = modes *ᵥ b := by
    funext i
    conv_lhs => rw [← hLX]
    rfl
  have hb : (P *ᵥ fun i => X i t₀) = b := by
    rw [hcol, mulVec_mulVec, hPm, one_mulVec]
  set b' : Fin q → ℂ := fun j => (c j)⁻¹ * b (π j) with hb'def
  have hcol' : (fun i => (B * X) i t₀) = modes' *ᵥ b' := by
    have : (fun i => (B * X) i t₀) = (B * modes) *ᵥ b := by
      rw [← mulVec_mulVec, ← hcol]; rfl
    rw [this]
    funext i
    simp only [mulVec, dotProduct]
    rw [← Equiv.sum_comp π fun j => (B * modes) i j * b j]
    refine Finset.sum_congr rfl fun j _ => ?_
    rw [hmm, hb'def]
    have := hc j
    field_simp
  have hP'm : P' * modes' = 1 := by
    -- `modes'` has independent columns
    have hBm : B' * (B * modes) = modes := by
      have hBU : B' * (B * U) = U := by rw [hR, ← Matrix.mul_assoc B, ← Matrix.mul_assoc B', hB]
      cases exact
      · simp only [Bool.false_eq_true, if_false] at hm
        rw [hm, ← Matrix.mul_assoc B, ← Matrix.mul_assoc B', hBU]
      · simp only [if_true] at hm
        rw [hm, Matrix.mul_assoc U, ← Matrix.mul_assoc B, ← Matrix.mul_assoc B', hBU]
    have hin : ∃ L' : Matrix (Fin q) m' ℂ, L' * modes' = 1 := by
      refine ⟨of fun j i => (c j)⁻¹ * (L * B') (π j) i, ?_⟩
      ext j k
      have e : L * B' * (B * modes) = 1 := by rw [Matrix.mul_assoc, hBm, hL]
      have e2 := congrFun (congrFun e (π j)) (π k)
      rw [Matrix.mul_apply] at e2 ⊢
      simp only [of_apply, hmm]
      have e3 : ∀ i, (c j)⁻¹ * (L * B') (π j) i * ((B * modes) i (π k) * c k) =
          (c j)⁻¹ * c k * ((L * B') (π j) i * (B * modes) i (π k)) := fun i => by ring
      simp only [e3]
      rw [← Finset.mul_sum, e2]
      by_cases hjk : j = k
      · subst hjk; simp [hc j]
      · simp [hjk, one_apply]
    obtain ⟨L', hL'⟩ := hin
    have : modes' * (P' * modes') = modes' := by rw [← Matrix.mul_assoc, hP'.apa]
    calc P' * modes' = L' * modes' * (P' * modes') := by rw [hL', Matrix.one_mul]
      _ = 1 := by rw [Matrix.mul_assoc, this, hL']
  have hb' : (P' *ᵥ fun i => (B * X) i t₀) = b' := by
    rw [hcol', mulVec_mulVec, hP'm, one_mulVec]
  rw [RealData.reconstructed_mask _ _ _ _ _ _ hdt, RealData.reconstructed_mask _ _ _ _ _ _ hdt, hb, hb']
  simp only [Except.map, List.map_map]
  congr 1
  refine List.map_congr_left fun t _ => ?_
  funext a
  rw [← Equiv.sum_comp π.symm]
  simp only [Function.comp, mulVec, dotProduct, Finset.mul_sum]
  rw [Finset.sum_comm]
  refine Finset.sum_congr rfl fun j _ => ?_
  rw [hπ, hmm, hb'def]
  simp only [Equiv.apply_symm_apply]
  split_ifs
  · rw [Matrix.mul_apply, Finset.sum_mul, Finset.sum_mul]
    refine Finset.sum_congr rfl fun k _ => ?_
    have := hc (π.symm j)
    field_simp
  · simp

/-- As many independent snapshots as channels: whatever the snapshots `Y` are, they are combinations of those in `X`. -/
theorem spans {X : Matrix m n ℂ} (hr : X.rank = Fintype.card m) (Y : Matrix m n ℂ) : ∃ C : Matrix n n ℂ, Y = X * C := by
  have htop : LinearMap.range X.mulVecLin = ⊤ := by
    apply Submodule.eq_top_of_finrank_eq
    rw [Module.finrank_fintype_fun_eq_card, ← hr]
    rfl
  have hex : ∀ j, ∃ v, X *ᵥ v = fun i => Y i j := fun j => by
    have : (fun i => Y i j) ∈ LinearMap.range X.mulVecLin := by rw [htop]; trivial
    obtain ⟨v, hv⟩ := this
    exact ⟨v, hv⟩
  choose v hv using hex
  refine ⟨of fun a j => v j a, ?_⟩
  ext i j
  exact (congrFun (hv j) i).symm

/-! ## Where the variables matter -/

/-- With one mode and a largest singular value, the eigenvalue can be computed. -/
theorem one_mode [DecidableEq m] {p : ℕ} (hp : 1 ≤ p) {X : Matrix m n ℂ} (Y : Matrix m n ℂ) {U : Matrix m (Fin p) ℂ}
    {s : Fin p → ℝ} {V : Matrix n (Fin p) ℂ} (h : IsSVD X U s V) (hs : Antitone s) (h0 : ∀ i : Fin p, (i : ℕ) < 1 → 0 < s i)
    (h1 : ∀ i j : Fin p, (i : ℕ) < 1 → 1 ≤ (j : ℕ) → s j < s i) (exact : Bool) (W : Matrix (Fin 1) (Fin 1) ℂ) (eigs : Fin 1 → ℂ)
    (modes : Matrix m (Fin 1) ℂ) (hres : IsResult ⟨exact, false, none⟩ X Y W eigs modes) :
    eigs 0 = leastSquareOperator none (lead 1 hp U) (s ∘ Fin.castLE hp) (lead 1 hp V) Y 0 0 := by
  set A := leastSquareOperator none (lead 1 hp U) (s ∘ Fin.castLE hp) (lead 1 hp V) Y with hA
  have hg : Gap X 1 := ⟨p, U, s, V, h, hs, hp, h0, h1⟩
  have e1 : A * 1 = 1 * diagonal fun _ => A 0 0 := by
    ext i j; fin_cases i; fin_cases j; simp
  have hmine : IsResult ⟨exact, false, none⟩ X Y 1 (fun _ => A 0 0)
      (computeModes exact none Y (lead 1 hp U) (s ∘ Fin.castLE hp) (lead 1 hp V) 1) :=
    ⟨p, hp, U, s, V, h, hs, A, by simp [IsAtilde, Options.tik, hA], e1, roots_of_eig A 1 1 _ (by simp) e1,
      fun j => by obtain rfl : j = 0 := Subsingleton.elim _ _
                  simp [normSq], rfl⟩
  have := C137_eigenvalues_partial ⟨exact, false, none⟩ rfl X Y hg _ _ _ _ _ _ hres hmine
  simpa using this

/-- **C169** is false for a smaller rank: for two channels that do not influence each other, with the factors 1 and 3, one
mode has the eigenvalue 1; with the unit of the second channel four times smaller it has the eigenvalue 3. -/
theorem C169_truncated_false :
    let X : Matrix (Fin 2) (Fin 2) ℂ := !![2, 0; 0, 1]
    let Y : Matrix (Fin 2) (Fin 2) ℂ := !![2, 0; 0, 3]
    let B : Matrix (Fin 2) (Fin 2) ℂ := !![1, 0; 0, 4]
    (∀ exact W eigs modes, IsResult (q := 1) ⟨exact, false, none⟩ X Y W eigs modes → eigs 0 = 1) ∧
    ∀ exact W eigs modes, IsResult (q := 1) ⟨exact, false, none⟩ (B * X) (B * Y) W eigs modes → eigs 0 = 3 := by
  intro X Y B
  constructor
  · intro exact W eigs modes h
    have hsvd : IsSVD X 1 ![2, 1] 1 := by
      refine ⟨?_, by simp, by simp, fun i => by fin_cases i <;> simp⟩
      rw [rdiag2]; simp [X]
    rw [one_mode (by omega) Y hsvd (antitone2 _ _ (by norm_num)) (by intro i hi; fin_cases i <;> simp at hi ⊢)
      (by intro i j hi hj; fin_cases i <;> fin_cases j <;> simp at hi hj ⊢) exact W eigs modes h, lead_one]
    simp [leastSquareOperator, tikSigma, Y, Matrix.mul_apply, rdiag, Fin.sum_univ_two]
  · intro exact W eigs modes h
    have hsvd : IsSVD (B * X) !![0, 1; 1, 0] ![4, 2] !![0, 1; 1, 0] := by
      refine ⟨?_, ?_, ?_, fun i => by fin_cases i <;> simp⟩
      · rw [rdiag2]
        ext i j; fin_cases i <;> fin_cases j <;> simp [X, B, Matrix.mul_apply]
      · ext i j; fin_cases i <;> fin_cases j <;> simp [Matrix.mul_apply]
      · ext i j; fin_cases i <;> fin_cases j <;> simp [Matrix.mul_apply]
    rw [one_mode (by omega) (B * Y) hsvd (antitone2 _ _ (by norm_num)) (by intro i hi; fin_cases i <;> simp at hi ⊢)
      (by intro i j hi hj; fin_cases i <;> fin_cases j <;> simp at hi hj ⊢; norm_num) exact W eigs modes h]
    simp [leastSquareOperator, tikSigma, B, Y, lead, Matrix.mul_apply, rdiag, Fin.sum_univ_two]
    norm_num

/-- **C169** is false for fewer snapshots than channels: two channels and one pair of snapshots, at full rank. The eigenvalue
is 3, in other units of the channels 1200/169. -/
theorem C169_few_false :
    let X : Matrix (Fin 2) (Fin 1) ℂ := !![3; 4]
    let Y : Matrix (Fin 2) (Fin 1) ℂ := !![25; 0]
    let B : Matrix (Fin 2) (Fin 2) ℂ := !![4, 0; 0, 5 / 4]
    (∀ exact W eigs modes, IsResult (q := 1) ⟨exact, false, none⟩ X Y W eigs modes → eigs 0 = 3) ∧
    ∀ exact W eigs modes, IsResult (q := 1) ⟨exact, false, none⟩ (B * X) (B * Y) W eigs modes → eigs 0 = 1200 / 169 := by
  intro X Y B
  have c12 : (starRingEnd ℂ) 12 = 12 := map_ofNat _ 12
  have c13 : (starRingEnd ℂ) 13 = 13 := map_ofNat _ 13
  constructor
  · intro exact W eigs modes h
    have hsvd : IsSVD X !![3 / 5; 4 / 5] (fun _ : Fin 1 => 5) 1 := by
      refine ⟨?_, ?_, by simp, fun i => by norm_num⟩
      · ext i j; fin_cases i <;> fin_cases j <;> simp [X, rdiag, Matrix.mul_apply]
      · ext i j; fin_cases i; fin_cases j; simp [Matrix.mul_apply, Fin.sum_univ_two, c3, c4, c5]; norm_num
    rw [one_mode (by omega) Y hsvd (fun _ _ _ => le_rfl) (by intro i hi; norm_num)
      (by intro i j hi hj; omega) exact W eigs modes h]
    simp [leastSquareOperator, tikSigma, Y, lead, Matrix.mul_apply, rdiag, Fin.sum_univ_two, c3, c4, c5]
    norm_num
  · intro exact W eigs modes h
    have hsvd : IsSVD (B * X) !![12 / 13; 5 / 13] (fun _ : Fin 1 => 13) 1 := by
      refine ⟨?_, ?_, by simp, fun i => by norm_num⟩
      · ext i j; fin_cases i <;> fin_cases j <;> simp [X, B, rdiag, Matrix.mul_apply]; norm_num
      · ext i j; fin_cases i; fin_cases j; simp [Matrix.mul_apply, Fin.sum_univ_two, c12, c13, c5]; norm_num
    rw [one_mode (by omega) (B * Y) hsvd (fun _ _ _ => le_rfl) (by intro i hi; norm_num)
      (by intro i j hi hj; omega) exact W eigs modes h]
    simp [leastSquareOperator, tikSigma, B, Y, lead, Matrix.mul_apply, rdiag, Fin.sum_univ_two, c12, c13, c5]
    norm_num

/-- The hypotheses are met: two channels, of which the second is then given in another unit, and their sum as third
channel; as many independent snapshots as channels, followed by anything. -/
example (X Y : Matrix (Fin 2) (Fin 2) ℂ) (hX : X = !![2, 0; 0, 1]) : ∃ (C : Matrix (Fin 2) (Fin 2) ℂ)
    (B : Matrix (Fin 3) (Fin 2) ℂ) (B' : Matrix (Fin 2) (Fin 3) ℂ),
      Y = X * C ∧ B = !![1, 0; 0, 1000; 1, 1] ∧ B' * (B * X) = X ∧ X.rank = 2 := by
  have hr : X.rank = 2 := by
    have := rank_of_isUnit X ((Matrix.isUnit_iff_isUnit_det _).2 (by simp [hX, det_fin_two]))
    simpa using this
  obtain ⟨C, hC⟩ := spans (by simpa using hr) Y
  refine ⟨C, _, !![1, 0, 0; 0, 1 / 1000, 0], hC, rfl, ?_, hr⟩
  rw [hX]
  ext i j; fin_cases i <;> fin_cases j <;> simp [Matrix.mul_apply, Fin.sum_univ_three]

end Verif.Variables
