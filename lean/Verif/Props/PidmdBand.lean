import Verif.Props.Pidmd
import Verif.Lemmas.Lstsq
import Mathlib.LinearAlgebra.Matrix.Block
import Mathlib.Tactic.FinCases

/-!
# Property C50 (second part): triangular, banded and symmetric tridiagonal manifolds
-/

set_option autoImplicit false

namespace Verif.Pidmd

open Matrix LinAlg Verif

/-! ### triangular -/

section Triangular

variable {m : Type} [Fintype m]

/-- What is assumed of `scipy.linalg.rq(X, mode="economic")` (`q` is the smaller dimension):
`R` is upper triangular, aligned at the lower right corner. -/
structure IsRQ {p q : ℕ} (X : Matrix (Fin p) m ℂ) (R : Matrix (Fin p) (Fin q) ℂ)
    (Q : Matrix (Fin q) m ℂ) : Prop where
  eq : X = R * Q
  orth : Q * Qᴴ = 1
  tri : ∀ (i : Fin p) (j : Fin q), (j : ℕ) + p < (i : ℕ) + q → R i j = 0

/-- Upper triangular matrices. -/
def IsUpper {p : ℕ} (A : Matrix (Fin p) (Fin p) ℂ) : Prop := ∀ i j : Fin p, j < i → A i j = 0

/-- Lower triangular matrices. -/
def IsLower {p : ℕ} (A : Matrix (Fin p) (Fin p) ℂ) : Prop := ∀ i j : Fin p, i < j → A i j = 0

theorem isUpper_iff {p : ℕ} (A : Matrix (Fin p) (Fin p) ℂ) : IsUpper A ↔ A.BlockTriangular id :=
  ⟨fun h i j hij => h i j hij, fun h i j hij => h hij⟩

/-- Splitting the error by the rows of `Q`. -/
theorem rq_error {p q : ℕ} (Y : Matrix (Fin p) m ℂ) (Q : Matrix (Fin q) m ℂ) (hQ : Q * Qᴴ = 1)
    (M : Matrix (Fin p) (Fin q) ℂ) :
    frobSq (Y - M * Q) = frobSq (Y - Y * Qᴴ * Q) + frobSq (Y * Qᴴ - M) := by
  have e : Y - M * Q = (Y - Y * Qᴴ * Q) + (Y * Qᴴ - M) * Q := by
    rw [Matrix.sub_mul]; abel
  have hV : (Qᴴ)ᴴ * Qᴴ = 1 := by rw [conjTranspose_conjTranspose, hQ]
  have hn : frobSq ((Y * Qᴴ - M) * Q) = frobSq (Y * Qᴴ - M) := by
    have := frobSq_coisometry Qᴴ hV (Y * Qᴴ - M)
    rwa [conjTranspose_conjTranspose] at this
  rw [e, frobSq_add, hn]
  have h0 : trace ((Y - Y * Qᴴ * Q)ᴴ * ((Y * Qᴴ - M) * Q)) = 0 := by
    have h1 : (Y - Y * Qᴴ * Q) * Qᴴ = 0 := by
      rw [Matrix.sub_mul, Matrix.mul_assoc (Y * Qᴴ), hQ, Matrix.mul_one, sub_self]
    have h2 := congrArg conjTranspose h1
    rw [conjTranspose_mul, conjTranspose_conjTranspose, conjTranspose_zero] at h2
    rw [← Matrix.mul_assoc, trace_mul_comm, ← Matrix.mul_assoc, h2, Matrix.zero_mul, trace_zero]
  rw [h0]
  simp

theorem triu_best {p : ℕ} (M T : Matrix (Fin p) (Fin p) ℂ) (hT : IsUpper T) :
    frobSq (M - triu M) ≤ frobSq (M - T) := by
  unfold frobSq
  refine Finset.sum_le_sum fun i _ => Finset.sum_le_sum fun j _ => ?_
  simp only [Matrix.sub_apply, triu, Matrix.of_apply]
  split_ifs with h
  · rw [sub_self, map_zero]; exact Complex.normSq_nonneg _
  · rw [hT i j (by exact_mod_cast not_le.mp h)]

/-- **C50** (upper triangular; partial: data of full row rank, so that `R` is square and
invertible). The operator is upper triangular and the closest fit among upper triangular
matrices. -/
theorem C50_upper_partial {p : ℕ} (X Y : Matrix (Fin p) m ℂ) (R : Matrix (Fin p) (Fin p) ℂ)
    (Q : Matrix (Fin p) m ℂ) (h : IsRQ X R Q) (hR : IsUnit R.det) (Rinv : Matrix (Fin p) (Fin p) ℂ)
    (hP : IsPinv R Rinv) :
    IsUpper (upperTriangular Y Q Rinv) ∧ ∀ B, IsUpper B →
      frobSq (Y - upperTriangular Y Q Rinv * X) ≤ frobSq (Y - B * X) := by
  have hRt : R.BlockTriangular id := fun i j hij => h.tri i j (by
    have : (j : ℕ) < i := hij
    omega)
  have hinv : Rinv = R⁻¹ := by
    refine hP.unique ⟨?_, ?_, ?_, ?_⟩
    · rw [Matrix.mul_nonsing_inv R hR, Matrix.one_mul]
    · rw [Matrix.nonsing_inv_mul R hR, Matrix.one_mul]
    · rw [Matrix.mul_nonsing_inv R hR, conjTranspose_one]
    · rw [Matrix.nonsing_inv_mul R hR, conjTranspose_one]
  have hinvt : (R⁻¹).BlockTriangular id := by
    have := Matrix.invertibleOfIsUnitDet R hR
    exact blockTriangular_inv_of_blockTriangular hRt
  have htri : (triu (Y * Qᴴ)).BlockTriangular id := fun i j hij => by
    have : ¬ (i : ℕ) ≤ j := not_le.mpr hij
    simp only [triu, Matrix.of_apply, if_neg this]
  refine ⟨(isUpper_iff _).mpr ?_, fun B hB => ?_⟩
  · rw [upperTriangular, hinv]
    exact htri.mul hinvt
  · have eA : upperTriangular Y Q Rinv * X = triu (Y * Qᴴ) * Q := by
      rw [upperTriangular, hinv]
      nth_rewrite 1 [h.eq]
      rw [← Matrix.mul_assoc, Matrix.mul_assoc (triu (Y * Qᴴ)), Matrix.nonsing_inv_mul R hR,
        Matrix.mul_one]
    have eB : B * X = B * R * Q := by rw [Matrix.mul_assoc, ← h.eq]
    rw [eA, eB, rq_error Y Q h.orth (triu (Y * Qᴴ)), rq_error Y Q h.orth (B * R)]
    refine add_le_add_right (triu_best _ _ ?_) _
    exact (isUpper_iff _).mpr (((isUpper_iff B).mp hB).mul hRt)

theorem frobSq_flipud {p : ℕ} (M : Matrix (Fin p) m ℂ) : frobSq (flipud M) = frobSq M := by
  unfold frobSq flipud
  simp only [Matrix.of_apply]
  exact Equiv.sum_comp Fin.revPerm fun i => ∑ j, Complex.normSq (M i j)

theorem flipud_mul {p : ℕ} (A : Matrix (Fin p) (Fin p) ℂ) (X : Matrix (Fin p) m ℂ) :
    flipud (A * X) = rot180 A * flipud X := by
  ext i j
  simp only [flipud, rot180, Matrix.of_apply, Matrix.mul_apply]
  exact (Equiv.sum_comp Fin.revPerm fun k => A (Fin.rev i) k * X k j).symm

theorem rot180_rot180 {p : ℕ} (A : Matrix (Fin p) (Fin p) ℂ) : rot180 (rot180 A) = A := by
  ext i j; simp [rot180]

/-- **C50** (lower triangular; partial as above, for the flipped data). -/
theorem C50_lower_partial {p : ℕ} (X Y : Matrix (Fin p) m ℂ) (R : Matrix (Fin p) (Fin p) ℂ)
    (Q : Matrix (Fin p) m ℂ) (h : IsRQ (flipud X) R Q) (hR : IsUnit R.det)
    (Rinv : Matrix (Fin p) (Fin p) ℂ) (hP : IsPinv R Rinv) :
    IsLower (rot180 (upperTriangular (flipud Y) Q Rinv)) ∧ ∀ B, IsLower B →
      frobSq (Y - rot180 (upperTriangular (flipud Y) Q Rinv) * X) ≤ frobSq (Y - B * X) := by
  obtain ⟨h1, h2⟩ := C50_upper_partial (flipud X) (flipud Y) R Q h hR Rinv hP
  have key : ∀ A : Matrix (Fin p) (Fin p) ℂ,
      frobSq (Y - A * X) = frobSq (flipud Y - rot180 A * flipud X) := by
    intro A
    rw [← frobSq_flipud (Y - A * X), ← flipud_mul]
    rfl
  refine ⟨fun i j hij => ?_, fun B hB => ?_⟩
  · exact h1 _ _ (Fin.rev_lt_rev.mpr hij)
  · rw [key, key, rot180_rot180]
    exact h2 _ fun i j hij => hB _ _ (Fin.rev_lt_rev.mpr hij)

/-- An admissible factorisation with more snapshots than states. -/
example : IsRQ (!![1, 2, 0; 0, 3, 0] : Matrix (Fin 2) (Fin 3) ℂ) !![1, 2; 0, 3]
    (!![1, 0, 0; 0, 1, 0] : Matrix (Fin 2) (Fin 3) ℂ) ∧
    IsUnit (!![1, 2; 0, 3] : Matrix (Fin 2) (Fin 2) ℂ).det := by
  refine ⟨⟨?_, ?_, ?_⟩, ?_⟩
  · ext i j; fin_cases i <;> fin_cases j <;> simp [Matrix.mul_apply, Fin.sum_univ_succ]
  · ext i j; fin_cases i <;> fin_cases j <;> simp [Matrix.mul_apply, Fin.sum_univ_succ]
  · intro i j hij
    fin_cases i <;> fin_cases j <;> simp at hij ⊢
  · simp [Matrix.det_fin_two]

/-- **C50** is false for rank-deficient data: for `X = (0, 1; 0, 1)` and `Y = 1` the "upper
triangular" operator is `(0, 0; 1/2, 1/2)`. -/
theorem C50_upper_deficient_false : ∃ (X Y R Q Rinv : Matrix (Fin 2) (Fin 2) ℂ), IsRQ X R Q ∧
    IsPinv R Rinv ∧ ¬ IsUpper (upperTriangular Y Q Rinv) := by
  refine ⟨!![0, 1; 0, 1], 1, !![0, 1; 0, 1], 1, !![0, 0; 1 / 2, 1 / 2], ⟨by simp, by simp, ?_⟩,
    ⟨?_, ?_, ?_, ?_⟩, ?_⟩
  · intro i j hij
    fin_cases i <;> fin_cases j <;> simp at hij ⊢
  · ext i j; fin_cases i <;> fin_cases j <;> simp <;> norm_num
  · ext i j; fin_cases i <;> fin_cases j <;> simp <;> norm_num
  · ext i j; fin_cases i <;> fin_cases j <;> simp
  · ext i j; fin_cases i <;> fin_cases j <;> simp
  · intro h
    have := h 1 0 (by decide)
    simp [upperTriangular, triu, Matrix.mul_apply, Fin.sum_univ_two] at this

/-- **C50** is false with fewer snapshots than states: for `X = Y = (1, 1)` (one snapshot) the
identity fits exactly, but the operator returned maps `X` to `(1, 0)`. -/
theorem C50_upper_thin_false : ∃ (X : Matrix (Fin 2) (Fin 1) ℂ) (R : Matrix (Fin 2) (Fin 1) ℂ)
    (Q : Matrix (Fin 1) (Fin 1) ℂ) (Rinv : Matrix (Fin 1) (Fin 2) ℂ), IsRQ X R Q ∧
    IsPinv R Rinv ∧ IsUpper (1 : Matrix (Fin 2) (Fin 2) ℂ) ∧
    (1 : Matrix (Fin 2) (Fin 2) ℂ) * X = X ∧
    upperTriangular X Q Rinv * X ≠ X := by
  refine ⟨!![1; 1], !![1; 1], 1, !![1 / 2, 1 / 2], ⟨by simp, by simp, ?_⟩, ⟨?_, ?_, ?_, ?_⟩, ?_,
    by simp, ?_⟩
  · intro i j hij
    fin_cases i <;> fin_cases j <;> simp at hij ⊢
  · ext i j; fin_cases i <;> fin_cases j <;> simp [Matrix.mul_apply, Fin.sum_univ_succ] <;> norm_num
  · ext i j; fin_cases i; fin_cases j <;> simp [Matrix.mul_apply, Fin.sum_univ_succ] <;> norm_num
  · ext i j; fin_cases i <;> fin_cases j <;> simp [Matrix.mul_apply]
  · ext i j; fin_cases i; fin_cases j; simp [Matrix.mul_apply, Fin.sum_univ_succ]
  · intro i j hij
    exact Matrix.one_apply_ne hij.ne'
  · intro h
    have := congrFun (congrFun h 1) 0
    simp [upperTriangular, triu, Matrix.mul_apply, Fin.sum_univ_succ] at this

end Triangular

/-! ### banded -/

section Banded

variable {m : Type} [Fintype m]

/-- The entries that may be non-zero, as documented: lower and upper bandwidth `k - 1`. -/
def InBand {p : ℕ} (o : Opt p) (i j : Fin p) : Prop :=
  match o with
  | .none => i = j
  | .int k => (i : ℤ) - j ≤ k - 1 ∧ (j : ℤ) - i ≤ k - 1
  | .pair a b => (i : ℤ) - j ≤ a - 1 ∧ (j : ℤ) - i ≤ b - 1
  | .arr f => (i : ℤ) - j ≤ (f i).1 - 1 ∧ (j : ℤ) - i ≤ (f i).2 - 1
  | .other => False

/-- Allowed options: positive widths. -/
def Allowed {p : ℕ} (o : Opt p) : Prop :=
  match o with
  | .none => True
  | .int k => 0 < k
  | .pair a b => 0 < a ∧ 0 < b
  | .arr f => ∀ i, 0 < (f i).1 ∧ 0 < (f i).2
  | .other => False

/-- **C50** (options of the banded manifold). Exactly the documented options are accepted; the
others raise `ValueError`; and the fitted columns are the documented band. -/
theorem C50_widths {p : ℕ} (o : Opt p) :
    (Allowed o → ∃ w, widths o = .ok w ∧
      ∀ i j : Fin p, (l1 w i ≤ (j : ℤ) ∧ (j : ℤ) < l2 w i) ↔ InBand o i j) ∧
    (¬ Allowed o → widths o = .error .valueError) := by
  constructor
  · intro ha
    cases o with
    | none =>
      refine ⟨_, rfl, fun i j => ?_⟩
      simp only [l1, l2, InBand, Fin.ext_iff]
      omega
    | int k =>
      refine ⟨_, if_pos ha, fun i j => ?_⟩
      simp only [l1, l2, InBand]
      omega
    | pair a b =>
      refine ⟨_, if_pos ha, fun i j => ?_⟩
      simp only [l1, l2, InBand]
      omega
    | arr f =>
      refine ⟨_, if_pos ha, fun i j => ?_⟩
      simp only [l1, l2, InBand]
      omega
    | other => exact ha.elim
  · intro ha
    cases o with
    | none => exact absurd trivial ha
    | int k => exact if_neg ha
    | pair a b => exact if_neg ha
    | arr f => exact if_neg ha
    | other => rfl

theorem banded_row {p : ℕ} (w : Fin p → ℤ × ℤ) (X : Matrix (Fin p) m ℂ)
    (A : Matrix (Fin p) (Fin p) ℂ) (i : Fin p)
    (hA : ∀ j : Fin p, ¬ (l1 w i ≤ (j : ℤ) ∧ (j : ℤ) < l2 w i) → A i j = 0) :
    (A * X) i = bandData w X i *ᵥ fun j => A i j.1 := by
  funext t
  rw [Matrix.mul_apply, mulVec, dotProduct]
  symm
  refine Fintype.sum_of_injective (fun j : Cols w i => j.1) Subtype.val_injective _ _ ?_ ?_
  · intro j hj
    rw [hA j fun h => hj ⟨⟨j, h⟩, rfl⟩, zero_mul]
  · intro j
    simp only [bandData, Matrix.of_apply]
    ring

theorem frobSq_rows {p : ℕ} (M : Matrix (Fin p) m ℂ) : frobSq M = ∑ i, normSq (M i) := rfl

theorem normSq_sub_comm (v w : m → ℂ) : normSq (v - w) = normSq (w - v) := by
  unfold normSq
  refine Finset.sum_congr rfl fun i _ => ?_
  rw [Pi.sub_apply, Pi.sub_apply, ← Complex.normSq_neg, neg_sub]

/-- **C50** (banded). The operator has the documented band and is the closest fit among all
matrices with that band: for all data and every accepted option. -/
theorem C50_banded {p : ℕ} (o : Opt p) (w : Fin p → ℤ × ℤ) (hw : widths o = .ok w)
    (X Y : Matrix (Fin p) m ℂ) (R : (i : Fin p) → Cols w i → ℂ)
    (hR : ∀ i, IsLstsq (bandData w X i) (Y i) (R i)) :
    (∀ i j, banded w R i j ≠ 0 → InBand o i j) ∧
    ∀ B : Matrix (Fin p) (Fin p) ℂ, (∀ i j, B i j ≠ 0 → InBand o i j) →
      frobSq (Y - banded w R * X) ≤ frobSq (Y - B * X) := by
  have hb : ∀ i j : Fin p, (l1 w i ≤ (j : ℤ) ∧ (j : ℤ) < l2 w i) ↔ InBand o i j := by
    by_cases ha : Allowed o
    · obtain ⟨w', hw', h⟩ := (C50_widths o).1 ha
      rw [hw, Except.ok.injEq] at hw'
      subst hw'
      exact h
    · rw [(C50_widths o).2 ha] at hw
      simp at hw
  refine ⟨fun i j h => ?_, fun B hB => ?_⟩
  · by_contra hn
    exact h (by simp [banded, mt (hb i j).mp hn])
  · rw [frobSq_rows, frobSq_rows]
    refine Finset.sum_le_sum fun i _ => ?_
    have e1 : (Y - banded w R * X) i = Y i - bandData w X i *ᵥ R i := by
      have := banded_row w X (banded w R) i fun j hj => by simp [banded, hj]
      rw [show (Y - banded w R * X) i = Y i - (banded w R * X) i from rfl, this]
      congr 2
      funext j
      simp only [banded, Matrix.of_apply]
      rw [dif_pos j.2]
      rfl
    have e2 : (Y - B * X) i = Y i - bandData w X i *ᵥ fun j => B i j.1 := by
      have := banded_row w X B i fun j hj => by
        by_contra hne
        exact hj ((hb i j).mpr (hB i j hne))
      rw [show (Y - B * X) i = Y i - (B * X) i from rfl, this]
    rw [e1, e2, normSq_sub_comm, normSq_sub_comm (Y i)]
    exact hR i _

/-- **C50** is false for the options' default `compute_A=False` together with the default
`svd_rank=-1` (rank `min(p, m)`): with at least `p - 1` snapshot pairs `TypeError` is raised, for
the manifolds "diagonal" and "symmetric_tridiagonal". -/
theorem C50_default_rank_false (p m : ℕ) (h : p ≤ m + 1) :
    sparseEigs false p (min p m) = .error .typeError := by
  simp only [sparseEigs, Bool.false_eq_true, if_false]
  rw [if_pos (by omega)]

/-- **C50** (invalid requests). An unknown manifold, a manifold that needs `compute_A` without it,
and a block manifold without a pair of block dimensions raise `ValueError`; everything else is
computed. -/
theorem C50_check (manifold : String) (computeA : Bool) (opt : Fin 3) :
    (procrustesCheck manifold computeA opt = .ok () ∨
      procrustesCheck manifold computeA opt = .error .valueError) ∧
    (manifold ∉ others → needsA manifold = false →
      procrustesCheck manifold computeA opt = .error .valueError) ∧
    (needsA manifold = true → procrustesCheck manifold false opt = .error .valueError) ∧
    (manifold ∈ ["BC", "BCTB", "BCCB", "BCCBunitary", "BCCBsymmetric", "BCCBskewsymmetric"] →
      opt ≠ 1 →
      procrustesCheck manifold computeA opt = .error .valueError) ∧
    (manifold ∈ others → procrustesCheck manifold computeA opt = .ok ()) := by
  refine ⟨?_, ?_, ?_, ?_, ?_⟩
  · unfold procrustesCheck; split_ifs <;> simp
  · intro h1 h2
    simp [procrustesCheck, h1, h2]
  · intro h
    have : manifold ∉ others := by
      intro ho
      simp only [others, List.mem_cons, List.not_mem_nil, or_false] at ho
      rcases ho with rfl | rfl | rfl | rfl | rfl | rfl | rfl | rfl | rfl <;>
        revert h <;> decide
    simp [procrustesCheck, h, this]
  · intro h ho
    simp only [List.mem_cons, List.not_mem_nil, or_false] at h
    rcases h with rfl | rfl | rfl | rfl | rfl | rfl <;>
      simp [procrustesCheck, others, needsA, ho]
  · intro h; simp [procrustesCheck, h]

end Banded

/-! ### symmetric tridiagonal -/

section Tridiagonal

variable {m : Type} [Fintype m] {p : ℕ}

/-- The map from the unknowns to `A X`, row by row. -/
def tridG (X : Fin p → m → ℝ) : Matrix (Fin p × m) (Unk p) ℝ :=
  Matrix.of fun a u =>
    match u with
    | .inl j => if a.1 = j then X j a.2 else 0
    | .inr j => (if a.1 = lo j then X (hi j) a.2 else 0) + if a.1 = hi j then X (lo j) a.2 else 0

omit [Fintype m] in
theorem tridG_mulVec (X : Fin p → m → ℝ) (c : Unk p → ℝ) (a : Fin p × m) :
    (tridG X *ᵥ c) a = (tridA c * Matrix.of X) a.1 a.2 := by
  obtain ⟨i, t⟩ := a
  rw [mulVec, dotProduct, Fintype.sum_sum_type, Matrix.mul_apply]
  have e1 : ∑ j, tridG X (i, t) (.inl j) * c (.inl j) = X i t * c (.inl i) := by
    simp [tridG]
  have e2 : ∑ j, tridG X (i, t) (.inr j) * c (.inr j) =
      (∑ j : Fin (p - 1), if i = lo j then X (hi j) t * c (.inr j) else 0) +
        ∑ j : Fin (p - 1), if i = hi j then X (lo j) t * c (.inr j) else 0 := by
    rw [← Finset.sum_add_distrib]
    refine Finset.sum_congr rfl fun j _ => ?_
    simp only [tridG, Matrix.of_apply, add_mul, ite_mul, zero_mul]
  have e3 : ∀ j : Fin p, tridA c i j * X j t = (if i = j then c (.inl i) * X i t else 0) +
      (if h : (i : ℕ) + 1 = j then c (.inr ⟨i, by omega⟩) * X j t else 0) +
      (if h : (j : ℕ) + 1 = i then c (.inr ⟨j, by omega⟩) * X j t else 0) := by
    intro j
    simp only [tridA, Matrix.of_apply]
    by_cases h1 : i = j
    · subst h1; simp
    · by_cases h2 : (i : ℕ) + 1 = j
      · have h3 : ¬ (j : ℕ) + 1 = i := by omega
        simp [h1, h2, h3]
      · by_cases h3 : (j : ℕ) + 1 = i <;> simp [h1, h2, h3]
  simp only [Matrix.of_apply, e3]
  rw [Finset.sum_add_distrib, Finset.sum_add_distrib, e1, e2, add_assoc]
  congr 1
  · simp [mul_comm]
  congr 1
  · by_cases hi' : (i : ℕ) + 1 < p
    · rw [Finset.sum_eq_single (⟨i, by omega⟩ : Fin (p - 1)),
        Finset.sum_eq_single (⟨i + 1, hi'⟩ : Fin p)]
      · rw [if_pos (by simp [lo]), dif_pos rfl, mul_comm]
        rfl
      · intro b _ hb
        rw [dif_neg]
        intro h
        exact hb (Fin.ext h.symm)
      · simp
      · intro b _ hb
        rw [if_neg]
        intro h
        exact hb (Fin.ext (by have := congrArg Fin.val h; simpa [lo] using this.symm))
      · simp
    · rw [Finset.sum_eq_zero, Finset.sum_eq_zero]
      · intro j _
        rw [dif_neg]
        intro h
        omega
      · intro j _
        rw [if_neg]
        intro h
        have := congrArg Fin.val h
        simp only [lo] at this
        omega
  · by_cases hi' : 1 ≤ (i : ℕ)
    · rw [Finset.sum_eq_single (⟨i - 1, by omega⟩ : Fin (p - 1)),
        Finset.sum_eq_single (⟨i - 1, by omega⟩ : Fin p)]
      · have h1 : i = hi (⟨i - 1, by omega⟩ : Fin (p - 1)) := by
          apply Fin.ext; simp only [hi]; omega
        rw [if_pos h1, dif_pos (by simp only; omega), mul_comm]
        rfl
      · intro b _ hb
        rw [dif_neg]
        intro h
        exact hb (Fin.ext (by simp only; omega))
      · simp
      · intro b _ hb
        rw [if_neg]
        intro h
        exact hb (Fin.ext (by have := congrArg Fin.val h; simp only [hi] at this ⊢; omega))
      · simp
    · rw [Finset.sum_eq_zero, Finset.sum_eq_zero]
      · intro j _
        rw [dif_neg]
        intro h
        omega
      · intro j _
        rw [if_neg]
        intro h
        have := congrArg Fin.val h
        simp only [hi] at this
        omega

theorem sum_ite_mul (a b c d : Fin p) (u v w z : ℝ) :
    ∑ i : Fin p, ((if i = a then u else 0) + if i = b then v else 0) *
      ((if i = c then w else 0) + if i = d then z else 0) =
    (if a = c then u * w else 0) + (if a = d then u * z else 0) + (if b = c then v * w else 0) +
      if b = d then v * z else 0 := by
  simp only [add_mul, mul_add, ite_mul, zero_mul, mul_ite, mul_zero, Finset.sum_add_distrib,
    Finset.sum_ite_eq', Finset.mem_univ, if_true]
  have e : ∀ x y : Fin p, ∀ w : ℝ, (if x = y then w else 0) = if y = x then w else 0 := by
    intro x y w
    by_cases h : x = y
    · rw [if_pos h, if_pos h.symm]
    · rw [if_neg h, if_neg (Ne.symm h)]
  rw [e c a, e c b, e d a, e d b]
  ring

/-- The assembled matrix is the Gram matrix of the problem. -/
theorem tridT_gram (X : Fin p → m → ℝ) : tridT X = (tridG X)ᵀ * tridG X := by
  ext a b
  rw [Matrix.mul_apply, Fintype.sum_prod_type, Finset.sum_comm]
  simp only [transpose_apply]
  cases a with
  | inl i =>
    cases b with
    | inl j =>
      simp only [tridT, tridG, Matrix.of_apply, ite_mul, zero_mul, Finset.sum_ite_eq',
        Finset.mem_univ, if_true, mul_ite, mul_zero]
      by_cases h : i = j
      · subst h; simp [ip]
      · simp [h, Ne.symm h]
    | inr j =>
      simp only [tridT, tridG, Matrix.of_apply, ite_mul, zero_mul, Finset.sum_ite_eq',
        Finset.mem_univ, if_true, mul_add, mul_ite, mul_zero, Finset.sum_add_distrib]
      by_cases h1 : i = lo j
      · have h2 : ¬ lo j = hi j := by
          intro h; have := congrArg Fin.val h; simp [lo, hi] at this
        subst h1
        simp [h2, Ne.symm h2, T2e, ip, mul_comm]
      · by_cases h2 : i = hi j
        · subst h2
          simp [h1, Ne.symm h1, T2e, ip]
        · simp [h1, h2, Ne.symm h1, Ne.symm h2]
  | inr i =>
    cases b with
    | inl j =>
      simp only [tridT, tridG, Matrix.of_apply, mul_ite, mul_zero, Finset.sum_ite_eq',
        Finset.mem_univ, if_true, add_mul, ite_mul, zero_mul, Finset.sum_add_distrib]
      by_cases h1 : j = lo i
      · have h2 : ¬ lo i = hi i := by
          intro h; have := congrArg Fin.val h; simp [lo, hi] at this
        subst h1
        simp [h2, T2e, ip]
      · by_cases h2 : j = hi i
        · subst h2
          simp [h1, T2e, ip, mul_comm]
        · simp [h1, h2]
    | inr j =>
      simp only [tridT, tridG, Matrix.of_apply, sum_ite_mul]
      have hlo : lo i = lo j ↔ i = j := by simp [lo, Fin.ext_iff]
      have hhi : hi i = hi j ↔ i = j := by simp [hi, Fin.ext_iff]
      have hlh : lo i = hi j ↔ (j : ℕ) + 1 = i := by
        simp only [lo, hi, Fin.ext_iff]; omega
      have hhl : hi i = lo j ↔ (i : ℕ) + 1 = j := by simp [lo, hi, Fin.ext_iff]
      simp only [hlo, hhi, hlh, hhl]
      by_cases h1 : i = j
      · subst h1
        simp [ip, Finset.sum_add_distrib, add_comm]
      · by_cases h2 : (i : ℕ) + 1 = j
        · have h3 : ¬ (j : ℕ) + 1 = i := by omega
          simp [h1, h2, h3, ip, mul_comm]
        · by_cases h3 : (j : ℕ) + 1 = i
          · simp [h1, h2, h3, ip]
          · simp [h1, h2, h3]

theorem tridD_gram (X Y : Fin p → m → ℝ) :
    tridD X Y = (tridG X)ᵀ *ᵥ fun a : Fin p × m => Y a.1 a.2 := by
  funext a
  rw [mulVec, dotProduct, Fintype.sum_prod_type, Finset.sum_comm]
  simp only [transpose_apply]
  cases a with
  | inl i => simp [tridD, tridG, ip]
  | inr j =>
    simp only [tridD, tridG, Matrix.of_apply, add_mul, ite_mul, zero_mul, Finset.sum_add_distrib,
      Finset.sum_ite_eq', Finset.mem_univ, if_true, ip]
    ring

/-- Squared Frobenius norm of a real matrix. -/
def frobR (M : Matrix (Fin p) m ℝ) : ℝ := ∑ i, ∑ t, M i t ^ 2

/-- Symmetric tridiagonal matrices. -/
structure IsSymTrid (A : Matrix (Fin p) (Fin p) ℝ) : Prop where
  symm : ∀ i j, A i j = A j i
  trid : ∀ i j : Fin p, (i : ℕ) + 1 < j → A i j = 0

/-- **C50** (symmetric tridiagonal, real data). The operator built from a least-squares solution of
the assembled system is symmetric tridiagonal and the closest fit among all real symmetric
tridiagonal matrices: for all data (also rank-deficient). -/
theorem C50_symtridiagonal (X Y : Fin p → m → ℝ) (c : Unk p → ℝ)
    (hc : IsLstsqR (tridT X) (tridD X Y) c) :
    IsSymTrid (tridA c) ∧ ∀ B : Matrix (Fin p) (Fin p) ℝ, IsSymTrid B →
      frobR (Matrix.of Y - tridA c * Matrix.of X) ≤ frobR (Matrix.of Y - B * Matrix.of X) := by
  have hl : IsLstsqR (tridG X) (fun a : Fin p × m => Y a.1 a.2) c := by
    apply IsLstsqR.of_gram
    rw [← tridT_gram, ← tridD_gram]
    exact hc
  refine ⟨⟨fun i j => ?_, fun i j hij => ?_⟩, fun B hB => ?_⟩
  · simp only [tridA, Matrix.of_apply]
    by_cases h1 : i = j
    · subst h1; rfl
    · have h1' : ¬ j = i := fun h => h1 h.symm
      by_cases h2 : (i : ℕ) + 1 = j
      · have h3 : ¬ (j : ℕ) + 1 = i := by omega
        simp [h1, h1', h2, h3]
      · simp [h1, h1', h2]
  · have h1 : ¬ i = j := by intro h; subst h; omega
    simp only [tridA, Matrix.of_apply]
    rw [if_neg h1, dif_neg (by omega), dif_neg (by omega)]
  · set d : Unk p → ℝ := fun u => match u with
      | .inl i => B i i
      | .inr j => B (lo j) (hi j) with hd
    have hBd : tridA d = B := by
      ext i j
      simp only [tridA, Matrix.of_apply]
      by_cases h1 : i = j
      · subst h1; simp [hd]
      · by_cases h2 : (i : ℕ) + 1 = j
        · rw [if_neg h1, dif_pos h2]
          simp only [hd]
          congr 1
          exact Fin.ext h2
        · by_cases h3 : (j : ℕ) + 1 = i
          · rw [if_neg h1, dif_neg h2, dif_pos h3]
            simp only [hd]
            rw [hB.symm i j]
            congr 1
            exact Fin.ext h3
          · rw [if_neg h1, dif_neg h2, dif_neg h3]
            rcases Nat.lt_or_ge i j with h | h
            · exact (hB.trid i j (by omega)).symm
            · have hne : (i : ℕ) ≠ j := fun h => h1 (Fin.ext h)
              rw [hB.symm]
              exact (hB.trid j i (by omega)).symm
    have e : ∀ c' : Unk p → ℝ, frobR (Matrix.of Y - tridA c' * Matrix.of X) =
        rnormSq (tridG X *ᵥ c' - fun a : Fin p × m => Y a.1 a.2) := by
      intro c'
      simp only [frobR, rnormSq, Fintype.sum_prod_type, Pi.sub_apply, tridG_mulVec,
        Matrix.sub_apply, Matrix.of_apply]
      refine Finset.sum_congr rfl fun i _ => Finset.sum_congr rfl fun t _ => by ring
    rw [← hBd, e, e]
    exact hl d

/-- Two states, two snapshots: with `X = 1` and `Y = (1, 3; 1, 2)` the system is solved by the
diagonal 1, 2 and the off-diagonal entry 2 (the mean of 3 and 1). -/
example : IsLstsqR (tridT (p := 2) fun i t => (if i = t then (1 : ℝ) else 0))
    (tridD (fun i t => if i = t then 1 else 0) fun i t => !![(1 : ℝ), 3; 1, 2] i t)
    (fun u => match u with
      | .inl i => if i = 0 then 1 else 2
      | .inr _ => 2) := by
  intro c
  have h : (tridT (p := 2) fun i t => (if i = t then (1 : ℝ) else 0)) *ᵥ (fun u => match u with
      | .inl i => if i = 0 then 1 else 2
      | .inr _ => 2) - tridD (fun i t => if i = t then 1 else 0)
        (fun i t => !![(1 : ℝ), 3; 1, 2] i t) = 0 := by
    funext u
    rcases u with i | j
    · fin_cases i <;>
        simp [mulVec, dotProduct, tridT, tridD, T2e, ip, lo, hi, Fin.sum_univ_succ]
    · fin_cases j
      simp [mulVec, dotProduct, tridT, tridD, T2e, ip, lo, hi, Fin.sum_univ_succ]
      norm_num
  rw [h, (rnormSq_eq_zero _).mpr rfl]
  exact rnormSq_nonneg _

end Tridiagonal

end Verif.Pidmd
