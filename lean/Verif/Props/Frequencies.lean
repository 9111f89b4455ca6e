import Verif.Model.Hankel
import Verif.Model.Operator
import Verif.Props.Hankel
import Verif.Lemmas.LinAlg
import Mathlib.LinearAlgebra.Vandermonde
import Mathlib.LinearAlgebra.Matrix.Charpoly.Basic
import Mathlib.Algebra.Polynomial.Roots
import Mathlib.Analysis.Complex.Polynomial.Basic

/-!
# Property C136: DMD finds exactly the eigenvalues in the data
-/

set_option autoImplicit false

namespace Verif.Frequencies

open Verif Verif.LinAlg Verif.Operator Matrix

variable {m n k r : Type} [Fintype m] [Fintype n] [Fintype k] [Fintype r] [DecidableEq k] [DecidableEq r]

/-- Data `X = F G`, `Y = F L G`: the reduced operator is similar to `L`. -/
theorem similar (F : Matrix m r ℂ) (L : Matrix r r ℂ) (G : Matrix r n ℂ) (hF : ∀ v, F *ᵥ v = 0 → v = 0)
    (hG : ∀ v, v ᵥ* G = 0 → v = 0) (U : Matrix m k ℂ) (s : k → ℝ) (V : Matrix n k ℂ) (h : IsSVD (F * G) U s V)
    (hs : ∀ i, s i ≠ 0) :
    ∃ (T : Matrix k r ℂ) (T' : Matrix r k ℂ), T * T' = 1 ∧ T' * T = 1 ∧
      leastSquareOperator none U s V (F * L * G) = T * L * T' := by
  set S := rdiag fun i => (s i)⁻¹ with hS
  refine ⟨Uᴴ * F, G * V * S, ?_, ?_, ?_⟩
  · calc Uᴴ * F * (G * V * S) = Uᴴ * (F * G) * V * S := by simp only [Matrix.mul_assoc]
      _ = (Uᴴ * U) * rdiag s * (Vᴴ * V) * S := by rw [h.eq]; simp only [Matrix.mul_assoc]
      _ = 1 := by rw [h.u, h.v, Matrix.one_mul, Matrix.mul_one, hS, rdiag_mul_inv s hs]
  · have e : F * (G * V * S * (Uᴴ * F)) * G = F * G := by
      calc F * (G * V * S * (Uᴴ * F)) * G = (F * G) * V * S * Uᴴ * (F * G) := by simp only [Matrix.mul_assoc]
        _ = U * rdiag s * (Vᴴ * V) * S * (Uᴴ * U) * rdiag s * Vᴴ := by rw [h.eq]; simp only [Matrix.mul_assoc]
        _ = U * (rdiag s * S) * rdiag s * Vᴴ := by
          rw [h.u, h.v, Matrix.mul_one, Matrix.mul_one]; simp only [Matrix.mul_assoc]
        _ = F * G := by rw [hS, rdiag_mul_inv s hs, Matrix.mul_one, ← h.eq]
    set M := G * V * S * (Uᴴ * F)
    have e2 : F * ((M - 1) * G) = 0 := by
      rw [Matrix.sub_mul, Matrix.mul_sub, ← Matrix.mul_assoc, e, Matrix.one_mul, sub_self]
    have e3 : (M - 1) * G = 0 := by
      ext i j
      have : F *ᵥ (fun a => ((M - 1) * G : Matrix r n ℂ) a j) = 0 := by
        funext a
        exact congrFun (congrFun e2 a) j
      exact congrFun (hF _ this) i
    have e4 : M - 1 = 0 := by
      ext i j
      have : (fun a => (M - 1) i a) ᵥ* G = 0 := by
        funext a
        exact congrFun (congrFun e3 i) a
      exact congrFun (hG _ this) j
    exact sub_eq_zero.mp e4
  · simp only [leastSquareOperator, tikSigma, hS, Matrix.mul_assoc]

/-- Similar matrices have the same characteristic polynomial, also if the index types differ. -/
theorem charpoly_similar (T : Matrix k r ℂ) (T' : Matrix r k ℂ) (h1 : T * T' = 1) (h2 : T' * T = 1)
    (L : Matrix r r ℂ) : (T * L * T').charpoly = L.charpoly ∧ Fintype.card k = Fintype.card r := by
  have hc : Fintype.card k = Fintype.card r := by
    have e1 : (T * T').trace = (T' * T).trace := Matrix.trace_mul_comm _ _
    rw [h1, h2, trace_one, trace_one] at e1
    exact_mod_cast e1
  refine ⟨?_, hc⟩
  have := Matrix.charpoly_mul_comm_of_le (T * L) T' hc.ge
  rw [← Matrix.mul_assoc T', h2, Matrix.one_mul] at this
  simpa [hc] using this

/-- **C136** (linear systems): let the snapshots be combinations `X = F G` of independent vectors (columns of `F`) with
independent coefficients (rows of `G`) that the matrix `L` advances by one step, `Y = F L G`. Then DMD with all nonzero
singular values has as many modes as there are vectors, and its eigenvalues are exactly those of `L`, with
multiplicities. -/
theorem C136_linear (F : Matrix m r ℂ) (L : Matrix r r ℂ) (G : Matrix r n ℂ) (hF : ∀ v, F *ᵥ v = 0 → v = 0)
    (hG : ∀ v, v ᵥ* G = 0 → v = 0) (U : Matrix m k ℂ) (s : k → ℝ) (V : Matrix n k ℂ) (h : IsSVD (F * G) U s V)
    (hs : ∀ i, s i ≠ 0) :
    Fintype.card k = Fintype.card r ∧
    (leastSquareOperator none U s V (F * L * G)).charpoly.roots = L.charpoly.roots := by
  obtain ⟨T, T', h1, h2, e⟩ := similar F L G hF hG U s V h hs
  have := charpoly_similar T T' h1 h2 L
  rw [e, this.1]
  exact ⟨this.2, rfl⟩

theorem pow_injective {q d : ℕ} (hd : q ≤ d) (l : Fin q → ℂ) (hl : Function.Injective l) (v : Fin q → ℂ)
    (h : ∀ j < d, ∑ a, v a * l a ^ j = 0) : v = 0 := by
  have hdet : (vandermonde l).det ≠ 0 := det_vandermonde_ne_zero_iff.mpr hl
  refine Matrix.eq_zero_of_vecMul_eq_zero hdet ?_
  funext j
  simp only [vecMul, dotProduct, vandermonde_apply, Pi.zero_apply]
  exact h j (by omega)

theorem roots_diagonal {q : ℕ} (l : Fin q → ℂ) :
    (diagonal l : Matrix (Fin q) (Fin q) ℂ).charpoly.roots = Finset.univ.val.map l := by
  rw [charpoly_diagonal]
  have := Polynomial.roots_multiset_prod_X_sub_C (Finset.univ.val.map l)
  rw [Multiset.map_map] at this
  exact this

/-- **C136** (DMD): for snapshots `x t = ∑ a, c a * l a ^ t` with independent modes `c a` and different eigenvalues `l a`,
at least as many pairs as modes, DMD with all nonzero singular values returns exactly the eigenvalues `l a`. -/
theorem C136_dmd {q N : ℕ} (hN : q ≤ N) (c : Fin q → m → ℂ) (l : Fin q → ℂ) (hl : Function.Injective l)
    (hc : ∀ v : Fin q → ℂ, (∀ p, ∑ a, v a * c a p = 0) → v = 0) (X Y : Matrix m (Fin N) ℂ)
    (hX : ∀ p t, X p t = ∑ a, c a p * l a ^ (t : ℕ)) (hY : ∀ p t, Y p t = ∑ a, c a p * l a ^ ((t : ℕ) + 1))
    (U : Matrix m k ℂ) (s : k → ℝ) (V : Matrix (Fin N) k ℂ) (h : IsSVD X U s V) (hs : ∀ i, s i ≠ 0) :
    Fintype.card k = q ∧ (leastSquareOperator none U s V Y).charpoly.roots = Finset.univ.val.map l := by
  set F : Matrix m (Fin q) ℂ := of fun p a => c a p
  set G : Matrix (Fin q) (Fin N) ℂ := of fun a t => l a ^ (t : ℕ)
  have eX : X = F * G := by
    ext p t
    rw [hX, Matrix.mul_apply]
    rfl
  have eY : Y = F * diagonal l * G := by
    ext p t
    rw [hY, Matrix.mul_apply]
    refine Finset.sum_congr rfl fun a _ => ?_
    rw [mul_diagonal]
    simp only [F, G, of_apply]
    ring
  have hF : ∀ v, F *ᵥ v = 0 → v = 0 := by
    intro v hv
    refine hc v fun p => ?_
    have := congrFun hv p
    simp only [mulVec, dotProduct, F, of_apply, Pi.zero_apply] at this
    rw [← this]
    exact Finset.sum_congr rfl fun a _ => mul_comm _ _
  have hG : ∀ v, v ᵥ* G = 0 → v = 0 := by
    intro v hv
    refine pow_injective hN l hl v fun j hj => ?_
    have := congrFun hv ⟨j, hj⟩
    simpa only [vecMul, dotProduct, G, of_apply, Pi.zero_apply] using this
  rw [eX] at h
  rw [eY, ← roots_diagonal]
  have := C136_linear F (diagonal l) G hF hG U s V h hs
  rwa [Fintype.card_fin] at this

/-- The matrix with given columns. -/
def toMatrix (p N : ℕ) (cols : List (List ℂ)) (shift : ℕ) : Matrix (Fin p) (Fin N) ℂ :=
  of fun i t => (cols.getD (t + shift) []).getD i 0

/-- **C136** (HankelDMD): let the data be any sum of `q` exponentials with different eigenvalues and nonzero coefficient
vectors, in one or more sensors, independent or not. With `d ≥ q` delays and at least `q` pairs of columns, DMD of the delay
matrix with all nonzero singular values returns exactly the `q` eigenvalues. -/
theorem C136_hankel {q n d N : ℕ} (hd : q ≤ d) (hN : q ≤ N) (c : Fin q → Fin n → ℂ) (hc : ∀ a, c a ≠ 0)
    (l : Fin q → ℂ) (hl : Function.Injective l) (cols : List (List ℂ))
    (hcols : Hankel.pseudoHankel ((List.range (N + d)).map fun t => List.ofFn fun i => ∑ a, c a i * l a ^ t) d =
      .ok cols)
    (U : Matrix (Fin (d * n)) k ℂ) (s : k → ℝ) (V : Matrix (Fin N) k ℂ)
    (h : IsSVD (toMatrix (d * n) N cols 0) U s V) (hs : ∀ i, s i ≠ 0) :
    Fintype.card k = q ∧
    (leastSquareOperator none U s V (toMatrix (d * n) N cols 1)).charpoly.roots = Finset.univ.val.map l := by
  set sig : ℕ → List ℂ := fun t => List.ofFn fun i => ∑ a, c a i * l a ^ t with hsig
  obtain ⟨H, hH, hlen, -, hent⟩ := (Hankel.C21_entries n d ((List.range (N + d)).map sig) (by
    intro x hx
    obtain ⟨t, -, rfl⟩ := List.mem_map.mp hx
    simp [hsig])).1 (by simp)
  rw [hH, Except.ok.injEq] at hcols
  subst hcols
  have hlenX : ((List.range (N + d)).map sig).length = N + d := by simp
  rw [hlenX] at hlen hent
  have hdiv : ∀ p : Fin (d * n), (p : ℕ) / n < d ∧ (p : ℕ) % n < n ∧ (p : ℕ) / n * n + (p : ℕ) % n = p := by
    intro p
    have hn : 0 < n := by
      rcases Nat.eq_zero_or_pos n with rfl | h
      · exact absurd p.2 (by simp)
      · exact h
    refine ⟨Nat.div_lt_of_lt_mul (lt_of_lt_of_eq p.2 (Nat.mul_comm d n)), Nat.mod_lt _ hn, ?_⟩
    rw [Nat.mul_comm]
    exact Nat.div_add_mod p n
  have hentry : ∀ (σ : ℕ), σ ≤ 1 → ∀ (p : Fin (d * n)) (t : Fin N), toMatrix (d * n) N H σ p t =
      ∑ a, (c a ⟨(p : ℕ) % n, (hdiv p).2.1⟩ * l a ^ ((p : ℕ) / n)) * l a ^ ((t : ℕ) + σ) := by
    intro σ hσ p t
    obtain ⟨h1, h2, h3⟩ := hdiv p
    have ht := t.2
    obtain ⟨col, x, v, e1, e2, e3, e4⟩ := hent (t + σ) ((p : ℕ) / n) ((p : ℕ) % n) (by omega) h1 h2
    rw [h3] at e4
    rw [List.getElem?_map, List.getElem?_range (by omega), Option.map_some, Option.some.injEq] at e2
    subst e2
    simp only [hsig, List.getElem?_ofFn, h2, dif_pos, Option.some.injEq] at e3
    simp only [toMatrix, of_apply, List.getD_eq_getElem?_getD, e1, Option.getD_some, e4]
    rw [← e3]
    refine Finset.sum_congr rfl fun a _ => ?_
    rw [mul_assoc, ← pow_add]
    congr 2
    omega
  refine C136_dmd hN (fun a (p : Fin (d * n)) => c a ⟨(p : ℕ) % n, (hdiv p).2.1⟩ * l a ^ ((p : ℕ) / n)) l hl ?_ _ _
    (fun p t => by simpa using hentry 0 (by norm_num) p t) (hentry 1 le_rfl) U s V h hs
  intro v hv
  have hz : ∀ i : Fin n, (fun a => v a * c a i) = 0 := by
    intro i
    refine pow_injective hd l hl _ fun j hj => ?_
    have hlt : j * n + i < d * n := by
      calc j * n + i < j * n + n := by omega
        _ = (j + 1) * n := by ring
        _ ≤ d * n := Nat.mul_le_mul_right n hj
    have := hv ⟨j * n + i, hlt⟩
    have hn : 0 < n := lt_of_le_of_lt (Nat.zero_le _) i.2
    have e1 : (j * n + i) / n = j := by
      rw [Nat.add_comm, Nat.add_mul_div_right _ _ hn, Nat.div_eq_of_lt i.2, Nat.zero_add]
    have e2 : (j * n + i) % n = i := by
      rw [Nat.add_comm, Nat.add_mul_mod_self_right, Nat.mod_eq_of_lt i.2]
    simp only [e1, e2] at this
    rw [← this]
    exact Finset.sum_congr rfl fun a _ => by ring
  funext a
  obtain ⟨i, hi⟩ := Function.ne_iff.mp (hc a)
  have := congrFun (hz i) a
  exact (mul_eq_zero.mp this).resolve_right hi

/-- **C136** needs the delays: the values 1, 0, -1, 0 of a cosine are the sum of two exponentials with eigenvalues `i` and
`-i`; without delays DMD returns the single eigenvalue 0. -/
theorem C136_no_delays_false :
    let X : Matrix (Fin 1) (Fin 3) ℂ := !![1, 0, -1]
    let Y : Matrix (Fin 1) (Fin 3) ℂ := !![0, -1, 0]
    (∀ t : Fin 3, X 0 t = Complex.I ^ (t : ℕ) / 2 + (-Complex.I) ^ (t : ℕ) / 2) ∧
    (∀ t : Fin 3, Y 0 t = Complex.I ^ ((t : ℕ) + 1) / 2 + (-Complex.I) ^ ((t : ℕ) + 1) / 2) ∧
    ∀ (U : Matrix (Fin 1) (Fin 1) ℂ) (s : Fin 1 → ℝ) (V : Matrix (Fin 3) (Fin 1) ℂ), IsSVD X U s V →
      leastSquareOperator none U s V Y = 0 := by
  intro X Y
  refine ⟨?_, ?_, ?_⟩
  · intro t; fin_cases t <;> simp [X] <;> ring
  · intro t; fin_cases t <;> simp [Y, pow_succ] <;> ring
  · intro U s V h
    have hv : V * rdiag s = Xᴴ * U := by
      rw [h.eq, conjTranspose_mul, conjTranspose_mul, conjTranspose_conjTranspose, rdiag_conjTranspose,
        Matrix.mul_assoc, Matrix.mul_assoc, h.u, Matrix.mul_one]
    have hYX : Y * Xᴴ = 0 := by
      ext i j; fin_cases i; fin_cases j
      simp [X, Y, Matrix.mul_apply, Fin.sum_univ_three]
    have hY : Y * V * rdiag s = 0 := by rw [Matrix.mul_assoc, hv, ← Matrix.mul_assoc, hYX, Matrix.zero_mul]
    have hYV : Y * V * (rdiag fun i => (s i)⁻¹) = 0 := by
      ext i j
      have := congrFun (congrFun hY i) j
      simp only [rdiag, mul_diagonal, Matrix.zero_apply] at this ⊢
      rcases mul_eq_zero.mp this with h0 | h0
      · rw [h0, zero_mul]
      · rw [Complex.ofReal_eq_zero.mp h0]; simp
    simp only [leastSquareOperator, tikSigma]
    rw [Matrix.mul_assoc, Matrix.mul_assoc, ← Matrix.mul_assoc Y, hYV, Matrix.mul_zero]

/-- Instance: the same cosine with two delays; all hypotheses of `C136_hankel` hold, so the eigenvalues are `i` and `-i`. -/
example : ∃ (U : Matrix (Fin (2 * 1)) (Fin 2) ℂ) (s : Fin 2 → ℝ) (V : Matrix (Fin 2) (Fin 2) ℂ) (cols : List (List ℂ)),
    Hankel.pseudoHankel ((List.range (2 + 2)).map fun t => List.ofFn fun _ : Fin 1 =>
      ∑ a, (1 / 2 : ℂ) * (![Complex.I, -Complex.I] : Fin 2 → ℂ) a ^ t) 2 = .ok cols ∧
    IsSVD (toMatrix (2 * 1) 2 cols 0) U s V ∧ (∀ i, s i ≠ 0) ∧
    (leastSquareOperator none U s V (toMatrix (2 * 1) 2 cols 1)).charpoly.roots = {Complex.I, -Complex.I} := by
  have hcols : Hankel.pseudoHankel ((List.range (2 + 2)).map fun t => List.ofFn fun _ : Fin 1 =>
      ∑ a, (1 / 2 : ℂ) * (![Complex.I, -Complex.I] : Fin 2 → ℂ) a ^ t) 2 = .ok [[1, 0], [0, -1], [-1, 0]] := by
    simp [Hankel.pseudoHankel, List.range_succ, pow_succ]
    norm_num
  have hsvd : IsSVD (toMatrix (2 * 1) 2 [[1, 0], [0, -1], [-1, 0]] 0) !![1, 0; 0, -1] ![1, 1] (1 : Matrix (Fin 2) (Fin 2) ℂ) := by
    refine ⟨?_, ?_, by simp, ?_⟩
    · have hr : rdiag (![1, 1] : Fin 2 → ℝ) = 1 := by
        ext i j; fin_cases i <;> fin_cases j <;> simp [rdiag]
      rw [hr]
      ext i j; fin_cases i <;> fin_cases j <;> simp [toMatrix]
    · ext i j; fin_cases i <;> fin_cases j <;> simp [Matrix.mul_apply, Fin.sum_univ_two]
    · intro i; fin_cases i <;> simp
  have hs : ∀ i, (![1, 1] : Fin 2 → ℝ) i ≠ 0 := by intro i; fin_cases i <;> simp
  refine ⟨!![1, 0; 0, -1], ![1, 1], 1, [[1, 0], [0, -1], [-1, 0]], hcols, hsvd, hs, ?_⟩
  have hinj : Function.Injective (![Complex.I, -Complex.I] : Fin 2 → ℂ) := by
    intro a b hab
    have hI : Complex.I ≠ -Complex.I := by
      intro h
      have := congrArg Complex.im h
      norm_num at this
    fin_cases a <;> fin_cases b <;> simp_all
  have := (C136_hankel (n := 1) le_rfl le_rfl (fun _ _ => 1 / 2) (fun a => by simp [Function.ne_iff]) _ hinj _ hcols _ _ _
    hsvd hs).2
  rw [this]
  rfl

end Verif.Frequencies
