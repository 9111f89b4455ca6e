import Verif.Model.MrFit
import Verif.Props.Frequencies
import Verif.Props.Unique
import Verif.Props.MrDMD
import Verif.Props.BopStep
import Verif.Lemmas.SvdExists

/-!
# Property C146: MrDMD separates the time scales of the data
-/

set_option autoImplicit false

namespace Verif.MrDMD

open Verif Verif.LinAlg Verif.Operator Matrix

variable {m : Type} [Fintype m]

/-- The columns at the times `s, …, s + n - 1` of the sum of the components `c a * l a ^ t`, `a ∈ S`. -/
def columns {q : ℕ} (c : Fin q → m → ℂ) (l : Fin q → ℂ) (S : Finset (Fin q)) (s n : ℕ) : List (m → ℂ) :=
  (List.range' s n).map fun t p => ∑ a ∈ S, c a p * l a ^ t

/-- Invertible eigenvector matrix, in the form of a trivial kernel. -/
theorem eigvec_kernel {q : ℕ} (A W : Matrix (Fin q) (Fin q) ℂ) (eigs : Fin q → ℂ) (hinj : Function.Injective eigs)
    (he : A * W = W * diagonal eigs) (hn : ∀ j, normSq (fun i => W i j) = 1) : IsUnit W.det := by
  have hv : ∀ j, A *ᵥ (fun i => W i j) = eigs j • fun i => W i j := fun j => by
    have h1 : (fun i => (A * W) i j) = A *ᵥ fun i => W i j := rfl
    rw [← h1, he]
    funext i
    simp [mul_diagonal, mul_comm]
  have hli : LinearIndependent ℂ fun j => (fun i => W i j : Fin q → ℂ) := by
    refine Module.End.eigenvectors_linearIndependent' (Matrix.toLin' A) eigs hinj _ fun j => ?_
    refine ⟨Module.End.mem_eigenspace_iff.mpr ?_, ?_⟩
    · rw [Matrix.toLin'_apply]; exact hv j
    · intro h0
      have := hn j
      rw [h0] at this
      simp [normSq] at this
  by_contra hW
  have h0 : W.det = 0 := by
    by_contra h; exact hW (isUnit_iff_ne_zero.mpr h)
  obtain ⟨v, hv0, hv⟩ := Matrix.exists_mulVec_eq_zero_iff.mpr h0
  refine hv0 ?_
  rw [Fintype.linearIndependent_iff] at hli
  funext i
  refine hli v ?_ i
  rw [← hv]
  funext i
  simp [mulVec, dotProduct, Finset.sum_apply, mul_comm]

/-- A DMD with all nonzero singular values, of data made of `q` independent components with different nonzero
eigenvalues: mode times amplitude of each eigenvalue is the component. -/
theorem dmd_components {q N : ℕ} (hN : q ≤ N) (c : Fin q → m → ℂ) (l : Fin q → ℂ) (hl : Function.Injective l)
    (hl0 : ∀ a, l a ≠ 0) (hc : ∀ v : Fin q → ℂ, (∀ p, ∑ a, v a * c a p = 0) → v = 0) (X Y : Matrix m (Fin N) ℂ)
    (hX : ∀ p t, X p t = ∑ a, c a p * l a ^ (t : ℕ)) (hY : ∀ p t, Y p t = ∑ a, c a p * l a ^ ((t : ℕ) + 1))
    {k : ℕ} (U : Matrix m (Fin k) ℂ) (s : Fin k → ℝ) (V : Matrix (Fin N) (Fin k) ℂ) (h : IsSVD X U s V)
    (hs : ∀ i, s i ≠ 0) (W : Matrix (Fin k) (Fin k) ℂ) (eigs b : Fin k → ℂ)
    (hW : leastSquareOperator none U s V Y * W = W * diagonal eigs)
    (hr : (leastSquareOperator none U s V Y).charpoly.roots = Finset.univ.val.map eigs)
    (hn : ∀ j, normSq (fun i => W i j) = 1) (exact : Bool)
    (hb : IsLstsq (computeModes exact none Y U s V W) (fun p => ∑ a, c a p) b) :
    ∃ π : Fin q ≃ Fin k, ∀ a, eigs (π a) = l a ∧
      ∀ p, computeModes exact none Y U s V W p (π a) * b (π a) = c a p := by
  obtain ⟨hk, hroots⟩ := Frequencies.C136_dmd hN c l hl hc X Y hX hY U s V h hs
  rw [Fintype.card_fin] at hk
  subst hk
  obtain ⟨π, hπ⟩ := Unique.exists_perm l eigs (hroots.symm.trans hr) hl
  have heinj : Function.Injective eigs := fun i j hij => by
    rw [hπ, hπ] at hij; exact π.injective (hl hij)
  have he0 : ∀ j, eigs j ≠ 0 := fun j => by rw [hπ]; exact hl0 _
  have hWu := eigvec_kernel _ W eigs heinj hW hn
  set F : Matrix m (Fin k) ℂ := of fun p a => c a p with hF
  set G : Matrix (Fin k) (Fin N) ℂ := of fun a t => l a ^ (t : ℕ) with hG
  have eX : X = F * G := by
    ext p t
    rw [hX, Matrix.mul_apply]
    rfl
  have eY : Y = F * diagonal l * G := by
    ext p t
    rw [hY, Matrix.mul_apply]
    refine Finset.sum_congr rfl fun a _ => ?_
    rw [mul_diagonal]
    simp only [F, G, of_apply]
    ring
  have hFi : ∀ v, F *ᵥ v = 0 → v = 0 := by
    intro v hv
    refine hc v fun p => ?_
    have := congrFun hv p
    simp only [mulVec, dotProduct, F, of_apply, Pi.zero_apply] at this
    rw [← this]
    exact Finset.sum_congr rfl fun a _ => mul_comm _ _
  have hGi : ∀ v, v ᵥ* G = 0 → v = 0 := by
    intro v hv
    refine Frequencies.pow_injective hN l hl v fun j hj => ?_
    have := congrFun hv ⟨j, hj⟩
    simpa only [vecMul, dotProduct, G, of_apply, Pi.zero_apply] using this
  have hUF : U * (Uᴴ * F) = F := by
    have e1 : (U * (Uᴴ * F) - F) * G = 0 := by
      rw [Matrix.sub_mul, Matrix.mul_assoc, Matrix.mul_assoc, ← eX, h.eq, ← Matrix.mul_assoc Uᴴ, ← Matrix.mul_assoc Uᴴ,
        h.u, Matrix.one_mul, ← Matrix.mul_assoc, sub_self]
    have : U * (Uᴴ * F) - F = 0 := by
      ext i j
      have h2 : (fun a => (U * (Uᴴ * F) - F) i a) ᵥ* G = 0 := by
        funext a
        exact congrFun (congrFun e1 i) a
      exact congrFun (hGi _ h2) j
    exact sub_eq_zero.mp this
  -- the reduced operator on the coordinates of the components
  have hA : leastSquareOperator none U s V Y * (Uᴴ * F) = Uᴴ * F * diagonal l := by
    obtain ⟨T, T', h1, h2, h3⟩ : ∃ (T : Matrix (Fin k) (Fin k) ℂ) (T' : Matrix (Fin k) (Fin k) ℂ),
        T * T' = 1 ∧ T = Uᴴ * F ∧ leastSquareOperator none U s V Y = T * diagonal l * T' := by
      refine ⟨Uᴴ * F, G * V * rdiag fun i => (s i)⁻¹, ?_, rfl, ?_⟩
      · calc Uᴴ * F * (G * V * rdiag fun i => (s i)⁻¹) = Uᴴ * (F * G) * V * rdiag fun i => (s i)⁻¹ := by
              simp only [Matrix.mul_assoc]
          _ = (Uᴴ * U) * rdiag s * (Vᴴ * V) * rdiag fun i => (s i)⁻¹ := by
              rw [← eX, h.eq]; simp only [Matrix.mul_assoc]
          _ = 1 := by rw [h.u, h.v, Matrix.one_mul, Matrix.mul_one, rdiag_mul_inv s hs]
      · rw [eY]
        simp only [leastSquareOperator, tikSigma, Matrix.mul_assoc]
    have h4 : T' * T = 1 := mul_eq_one_comm.mp h1
    rw [h3, ← h2, Matrix.mul_assoc, h4, Matrix.mul_one]
  -- the amplitudes, whichever modes
  obtain ⟨b', hb', hmode⟩ : ∃ b' : Fin k → ℂ, U *ᵥ (W *ᵥ b') = (fun p => ∑ a, c a p) ∧
      ∀ p j, computeModes exact none Y U s V W p j * b j = (U * W) p j * b' j := by
    have hx0 : (fun p => ∑ a, c a p) = (U * W) *ᵥ (W⁻¹ *ᵥ ((Uᴴ * F) *ᵥ fun _ => 1)) := by
      rw [mulVec_mulVec, Matrix.mul_assoc, mul_nonsing_inv W hWu, Matrix.mul_one, mulVec_mulVec, hUF]
      funext p
      simp [mulVec, dotProduct, F]
    cases exact
    · have hm : computeModes false none Y U s V W = U * W := by simp [computeModes]
      rw [hm] at hb ⊢
      refine ⟨b, ?_, fun _ _ => rfl⟩
      rw [hx0] at hb
      rw [mulVec_mulVec, lstsq_solves _ _ _ hb, ← hx0]
    · have hUY : U * (Uᴴ * Y) = Y := by
        rw [eY, Matrix.mul_assoc F, ← Matrix.mul_assoc Uᴴ, ← Matrix.mul_assoc U, hUF]
      have hm : computeModes true none Y U s V W = U * W * diagonal eigs := by
        have h0 : computeModes true none Y U s V W = Y * V * rdiag (fun i => (s i)⁻¹) * W := by
          simp [computeModes, tikSigma]
        have h1 : leastSquareOperator none U s V Y = Uᴴ * Y * V * rdiag (fun i => (s i)⁻¹) := by
          simp [leastSquareOperator, tikSigma]
        rw [h0, Matrix.mul_assoc U, ← hW, h1]
        conv_lhs => rw [← hUY]
        simp only [Matrix.mul_assoc]
      have hDu : diagonal eigs * diagonal (fun i => (eigs i)⁻¹) = 1 := by
        rw [diagonal_mul_diagonal, ← diagonal_one]
        congr 1; funext i; exact mul_inv_cancel₀ (he0 i)
      rw [hm] at hb ⊢
      refine ⟨diagonal eigs *ᵥ b, ?_, fun p j => ?_⟩
      · have hx1 : (fun p => ∑ a, c a p) = (U * W * diagonal eigs) *ᵥ
            (diagonal (fun i => (eigs i)⁻¹) *ᵥ (W⁻¹ *ᵥ ((Uᴴ * F) *ᵥ fun _ => 1))) := by
          rw [mulVec_mulVec, Matrix.mul_assoc (U * W), hDu, Matrix.mul_one]
          exact hx0
        rw [hx1] at hb
        rw [mulVec_mulVec, mulVec_mulVec, lstsq_solves _ _ _ hb, ← hx1]
      · rw [mul_diagonal, mulVec_diagonal]; ring
  -- trajectories
  have hpow : ∀ t : ℕ, W *ᵥ (fun j => eigs j ^ t * b' j) = (Uᴴ * F) *ᵥ fun a => l a ^ t := by
    intro t
    induction t with
    | zero =>
      simp only [pow_zero, one_mul]
      have : Uᴴ *ᵥ (U *ᵥ (W *ᵥ b')) = (Uᴴ * F) *ᵥ fun _ => 1 := by
        rw [hb', ← mulVec_mulVec]
        congr 1
        funext p
        simp [mulVec, dotProduct, F]
      rwa [mulVec_mulVec, h.u, one_mulVec] at this
    | succ t ih =>
      have e1 : (fun j => eigs j ^ (t + 1) * b' j) = diagonal eigs *ᵥ fun j => eigs j ^ t * b' j := by
        funext j; rw [mulVec_diagonal]; ring
      have e2 : (fun a => l a ^ (t + 1)) = diagonal l *ᵥ fun a => l a ^ t := by
        funext j; rw [mulVec_diagonal]; ring
      rw [e1, mulVec_mulVec, ← hW, ← mulVec_mulVec, ih, mulVec_mulVec, hA, ← mulVec_mulVec, ← e2]
  refine ⟨π.symm, fun a => ⟨by rw [hπ, Equiv.apply_symm_apply], fun p => ?_⟩⟩
  rw [hmode]
  have hz : (fun a => (U * W) p (π.symm a) * b' (π.symm a) - c a p) = 0 := by
    refine Frequencies.pow_injective le_rfl l hl _ fun t _ => ?_
    simp only [sub_mul, Finset.sum_sub_distrib]
    rw [sub_eq_zero]
    have h1 : ∑ j, (U * W) p j * (eigs j ^ t * b' j) = ∑ a, c a p * l a ^ t := by
      have := congrFun (congrArg (U *ᵥ ·) (hpow t)) p
      simp only [mulVec_mulVec] at this
      rw [hUF] at this
      simpa only [mulVec, dotProduct, F, of_apply] using this
    rw [← h1, ← Equiv.sum_comp π.symm fun j => (U * W) p j * (eigs j ^ t * b' j)]
    refine Finset.sum_congr rfl fun a _ => ?_
    rw [hπ (π.symm a), Equiv.apply_symm_apply]; ring
  exact sub_eq_zero.mp (congrFun hz a)

theorem length_columns {q : ℕ} (c : Fin q → m → ℂ) (l : Fin q → ℂ) (S : Finset (Fin q)) (s n : ℕ) :
    (columns c l S s n).length = n := by simp [columns]

theorem getD_columns {q : ℕ} (c : Fin q → m → ℂ) (l : Fin q → ℂ) (S : Finset (Fin q)) (s n t : ℕ) (ht : t < n) (p : m) :
    (columns c l S s n).getD t 0 p = ∑ a ∈ S, c a p * l a ^ (s + t) := by
  simp [columns, List.getD_eq_getElem?_getD, ht]

theorem getElem_columns {q : ℕ} (c : Fin q → m → ℂ) (l : Fin q → ℂ) (S : Finset (Fin q)) (s n t : ℕ)
    (ht : t < (columns c l S s n).length) :
    (columns c l S s n)[t] = fun p => ∑ a ∈ S, c a p * l a ^ (s + t) := by
  simp [columns]

/-- The components of a window, indexed by `Fin`. -/
theorem independent_reindex {q : ℕ} (c : Fin q → m → ℂ) (l : Fin q → ℂ) (hl0 : ∀ a, l a ≠ 0)
    (hc : ∀ v : Fin q → ℂ, (∀ p, ∑ a, v a * c a p = 0) → v = 0) (S : Finset (Fin q)) (s : ℕ) (v : Fin S.card → ℂ)
    (hv : ∀ p, ∑ i, v i * (c (S.equivFin.symm i) p * l (S.equivFin.symm i) ^ s) = 0) : v = 0 := by
  let e : Fin S.card ≃ S := S.equivFin.symm
  have hsum : ∀ (f : Fin q → ℂ), ∑ a ∈ S, f a = ∑ i, f (e i) := fun f => by
    rw [← Finset.sum_coe_sort, ← Equiv.sum_comp e]
  have hz := hc (fun a => if ha : a ∈ S then v (e.symm ⟨a, ha⟩) * l a ^ s else 0) fun p => by
    refine Eq.trans ?_ (hv p)
    have h1 : ∑ a, (if ha : a ∈ S then v (e.symm ⟨a, ha⟩) * l a ^ s else 0) * c a p =
        ∑ a ∈ S, (if ha : a ∈ S then v (e.symm ⟨a, ha⟩) * l a ^ s else 0) * c a p := by
      symm
      refine Finset.sum_subset (Finset.subset_univ S) fun a _ ha => ?_
      rw [dif_neg ha, zero_mul]
    rw [h1, hsum]
    refine Finset.sum_congr rfl fun i _ => ?_
    rw [dif_pos (e i).2]
    simp only [Subtype.coe_eta, Equiv.symm_apply_apply]
    ring
  funext i
  have h2 := congrFun hz (e i)
  rw [dif_pos (e i).2] at h2
  simp only [Subtype.coe_eta, Equiv.symm_apply_apply, Pi.zero_apply] at h2
  exact (mul_eq_zero.mp h2).resolve_right (pow_ne_zero _ (hl0 _))

/-- The reconstruction of a leaf consists of the slow components of its data. -/
theorem leaf_exact {q : ℕ} (c : Fin q → m → ℂ) (l : Fin q → ℂ) (hl : Function.Injective l) (hl0 : ∀ a, l a ≠ 0)
    (hc : ∀ v : Fin q → ℂ, (∀ p, ∑ a, v a * c a p = 0) → v = 0) (S : Finset (Fin q)) (s n : ℕ) (hn : S.card + 1 ≤ n)
    (exact : Bool) (maxCycles : ℕ) (y : List (m → ℂ)) (h : IsLeafRec exact maxCycles (columns c l S s n) y) :
    y = columns c l (S.filter fun a => slow ((maxCycles : ℝ) / n) (l a)) s n := by
  obtain ⟨k, U, sv, V, W, eigs, b, -, hsvd, hs, hW, hr, hnorm, hb, rfl⟩ := h
  have hlen := length_columns c l S s n
  let e : Fin S.card ≃ S := S.equivFin.symm
  have hsum : ∀ (f : Fin q → ℂ), ∑ a ∈ S, f a = ∑ i, f (e i) := fun f => by
    rw [← Finset.sum_coe_sort, ← Equiv.sum_comp e]
  obtain ⟨π, hπ⟩ := dmd_components (q := S.card) (by rw [hlen]; omega) (fun i p => c (e i) p * l (e i) ^ s)
    (fun i => l (e i)) (fun i j hij => e.injective (Subtype.ext (hl hij))) (fun i => hl0 _)
    (independent_reindex c l hl0 hc S s)
    (shifted (columns c l S s n) 0) (shifted (columns c l S s n) 1)
    (fun p t => by
      have ht := t.isLt
      rw [shifted, of_apply, getD_columns _ _ _ _ _ _ (by omega), hsum]
      refine Finset.sum_congr rfl fun i _ => ?_
      rw [add_zero, pow_add]; ring)
    (fun p t => by
      have ht := t.isLt
      rw [shifted, of_apply, getD_columns _ _ _ _ _ _ (by omega), hsum]
      refine Finset.sum_congr rfl fun i _ => ?_
      rw [pow_add]; ring)
    U sv V hsvd hs W eigs b hW hr hnorm exact (by
      convert hb using 1
      funext p
      rw [getD_columns _ _ _ _ _ _ (by omega), hsum]
      rfl)
  have hlen' : ((columns c l S s n).length : ℝ) = n := by rw [hlen]
  apply List.ext_getElem
  · simp [columns]
  intro t h1 h2
  rw [getElem_columns]
  simp only [List.getElem_map, List.getElem_range]
  funext p
  rw [hlen', ← Equiv.sum_comp π, Finset.sum_filter, hsum]
  refine Finset.sum_congr rfl fun i _ => ?_
  rw [(hπ i).1]
  split
  · have h3 := (hπ i).2 p
    calc _ = computeModes exact none (shifted (columns c l S s n) 1) U sv V W p (π i) * b (π i) * l (e i) ^ t := by ring
      _ = _ := by rw [h3, pow_add]; ring
  · rfl

/-- Splitting and gluing: if `rec` maps each piece of `f` to the piece of `g`, the level maps `f` to `g`. -/
theorem flatten_pieces {A B : Type} (f : ℕ → A) (g : ℕ → B) (ss : List ℕ) (s : ℕ) (rec : ℕ → List A → List B)
    (h : ∀ i s' n, n ∈ ss → rec i ((List.range' s' n).map f) = (List.range' s' n).map g) :
    ((pieces ss ((List.range' s ss.sum).map f)).mapIdx rec).flatten = (List.range' s ss.sum).map g := by
  induction ss generalizing s rec with
  | nil => simp [pieces]
  | cons n ss ih =>
    have e : List.range' s (n :: ss).sum = List.range' s n ++ List.range' (s + n) ss.sum := by
      rw [List.sum_cons, List.range'_append_1]
    rw [e, List.map_append, List.map_append, pieces, List.mapIdx_cons, List.flatten_cons]
    congr 1
    · rw [List.take_left' (by simp)]
      exact h 0 s n (by simp)
    · rw [List.drop_left' (by simp)]
      exact ih (s + n) _ fun i s' k hk => h (i + 1) s' k (by simp [hk])

theorem levelRec_columns {q : ℕ} (c : Fin q → m → ℂ) (l : Fin q → ℂ) (hl : Function.Injective l) (hl0 : ∀ a, l a ≠ 0)
    (hc : ∀ v : Fin q → ℂ, (∀ p, ∑ a, v a * c a p = 0) → v = 0) (S D : Finset (Fin q)) (N level : ℕ)
    (hN : S.card + 1 ≤ N / 2 ^ level) (exact : Bool) (maxCycles : ℕ) (rec : ℕ → ℕ → List (m → ℂ) → List (m → ℂ))
    (hD : ∀ n ∈ sizes N (2 ^ level), D = S.filter fun a => slow ((maxCycles : ℝ) / n) (l a))
    (hrec : ∀ leaf s n, n ∈ sizes N (2 ^ level) →
      IsLeafRec exact maxCycles (columns c l S s n) (rec level leaf (columns c l S s n))) :
    levelRec rec level (columns c l S 0 N) = columns c l D 0 N := by
  have h1 : levelRec rec level (columns c l S 0 N) =
      ((pieces (sizes N (2 ^ level)) (columns c l S 0 N)).mapIdx (rec level)).flatten := by
    rw [levelRec, arraySplit, length_columns]
  have h2 := sum_sizes N (2 ^ level) (by positivity)
  rw [h1]
  have key := flatten_pieces (fun t (p : m) => ∑ a ∈ S, c a p * l a ^ t) (fun t (p : m) => ∑ a ∈ D, c a p * l a ^ t)
    (sizes N (2 ^ level)) 0 (rec level) (fun i s' n hn => by
      have h3 : S.card + 1 ≤ n := by
        rw [sizes, List.mem_append, List.mem_replicate, List.mem_replicate] at hn
        omega
      rw [hD n hn]
      exact leaf_exact c l hl hl0 hc S s' n h3 exact maxCycles _ (hrec i s' n hn))
  rw [h2] at key
  exact key

/-- The rate below which `max_cycles` cycles fit in a leaf of `⌊N / 2^level⌋` snapshots. -/
noncomputable def cut (maxCycles N level : ℕ) : ℝ := 2 * Real.pi * maxCycles / (N / 2 ^ level : ℕ)

/-- The components faster than the leaves of all levels before `level`. -/
noncomputable def faster {q : ℕ} (maxCycles N : ℕ) (l : Fin q → ℂ) (level : ℕ) : Finset (Fin q) :=
  open Classical in Finset.univ.filter fun a => ∀ k < level, cut maxCycles N k ≤ ‖Complex.log (l a)‖

/-- The components that are slow in the leaves of `level` and in no earlier level. -/
noncomputable def band {q : ℕ} (maxCycles N : ℕ) (l : Fin q → ℂ) (level : ℕ) : Finset (Fin q) :=
  open Classical in Finset.univ.filter fun a =>
    ‖Complex.log (l a)‖ < cut maxCycles N level ∧ ∀ k < level, cut maxCycles N k ≤ ‖Complex.log (l a)‖

theorem columns_sub {q : ℕ} (c : Fin q → m → ℂ) (l : Fin q → ℂ) (S D R : Finset (Fin q)) (N : ℕ)
    (h : ∀ f : Fin q → ℂ, ∑ a ∈ S, f a = ∑ a ∈ D, f a + ∑ a ∈ R, f a) (cast : (m → ℂ) → m → ℂ)
    (hcast : ∀ v ∈ columns c l D 0 N, cast v = v) :
    List.zipWith (fun x y => x - cast y) (columns c l S 0 N) (columns c l D 0 N) = columns c l R 0 N := by
  apply List.ext_getElem
  · simp [length_columns]
  intro t h1 h2
  rw [List.getElem_zipWith, hcast _ (List.getElem_mem _), getElem_columns, getElem_columns, getElem_columns]
  funext p
  rw [Pi.sub_apply, h]
  ring

theorem faster_split {q : ℕ} (maxCycles N : ℕ) (l : Fin q → ℂ) (level : ℕ) (f : Fin q → ℂ) :
    ∑ a ∈ faster maxCycles N l level, f a =
      ∑ a ∈ band maxCycles N l level, f a + ∑ a ∈ faster maxCycles N l (level + 1), f a := by
  classical
  have hb : band maxCycles N l level = (faster maxCycles N l level).filter fun a =>
      ‖Complex.log (l a)‖ < cut maxCycles N level := by
    ext a; simp [band, faster, and_comm]
  have hf : faster maxCycles N l (level + 1) = (faster maxCycles N l level).filter fun a =>
      ¬ ‖Complex.log (l a)‖ < cut maxCycles N level := by
    ext a
    simp only [faster, Finset.mem_filter, Finset.mem_univ, true_and, not_lt]
    refine ⟨fun h => ⟨fun k hk => h k (by omega), h level (by omega)⟩, fun h k hk => ?_⟩
    rcases Nat.lt_succ_iff_lt_or_eq.mp hk with h1 | rfl
    · exact h.1 k h1
    · exact h.2
  rw [hb, hf, Finset.sum_filter_add_sum_filter_not]

theorem getElem_reconstructed (cs : List (List (m → ℂ))) (n t : ℕ) (h : t < (reconstructed cs n).length) :
    (reconstructed cs n)[t] = (cs.map fun c => c.getD t 0).sum := by
  simp [reconstructed]

/-- **C146** (time scales). Let the data be `N` snapshots of a sum of `q` independent components `c a * l a ^ t` with
different nonzero eigenvalues, let every node be a DMD that keeps the nonzero singular values of its data, let the
smallest leaf have more than `q` snapshots, and let no component lie between the thresholds of leaves of the same level
(no condition if `2 ^ level` divides `N`). If some component is left for the last level, then `MrDMD.fit` separates the
components exactly: the contribution of each level consists, over all the leaves and all snapshots, of the components that
make less than `max_cycles` cycles in a leaf of this level but not in the leaves of the earlier levels; the residual is made
of the components faster than all levels, and `reconstructed_data` of all the others. -/
theorem C146_separates {q : ℕ} (c : Fin q → m → ℂ) (l : Fin q → ℂ) (hl : Function.Injective l) (hl0 : ∀ a, l a ≠ 0)
    (hc : ∀ v : Fin q → ℂ, (∀ p, ∑ a, v a * c a p = 0) → v = 0) (N L : ℕ) (hN : q + 1 ≤ N / 2 ^ L) (maxCycles : ℕ)
    (hgap : ∀ level ≤ L, 2 ^ level ∣ N ∨ ∀ a, ‖Complex.log (l a)‖ < 2 * Real.pi * maxCycles / (N / 2 ^ level + 1 : ℕ) ∨
      cut maxCycles N level ≤ ‖Complex.log (l a)‖)
    (hleft : ∃ a, ∀ level < L, cut maxCycles N level ≤ ‖Complex.log (l a)‖)
    (exact : Bool) (rec : ℕ → ℕ → List (m → ℂ) → List (m → ℂ))
    (hrec : ∀ level leaf (S : Finset (Fin q)) s n, S.Nonempty → S.card + 1 ≤ n →
      IsLeafRec exact maxCycles (columns c l S s n) (rec level leaf (columns c l S s n)))
    (cast : (m → ℂ) → m → ℂ)
    (hcast : ∀ level ≤ L, ∀ v ∈ columns c l (band maxCycles N l level) 0 N, cast v = v) :
    fitLevels rec cast (List.range (L + 1)) (columns c l Finset.univ 0 N) =
      .ok ((List.range (L + 1)).map fun level => columns c l (band maxCycles N l level) 0 N,
        columns c l (faster maxCycles N l (L + 1)) 0 N) ∧
    reconstructed ((List.range (L + 1)).map fun level => columns c l (band maxCycles N l level) 0 N) N =
      columns c l (Finset.univ \ faster maxCycles N l (L + 1)) 0 N := by
  classical
  constructor
  · have key : ∀ d k, k + d = L + 1 → fitLevels rec cast (List.range' k d) (columns c l (faster maxCycles N l k) 0 N) =
        .ok ((List.range' k d).map fun level => columns c l (band maxCycles N l level) 0 N,
          columns c l (faster maxCycles N l (L + 1)) 0 N) := by
      intro d
      induction d with
      | zero =>
        intro k hk
        obtain rfl : k = L + 1 := by omega
        simp [fitLevels]
      | succ d ih =>
        intro k hk
        have hkL : k ≤ L := by omega
        have hNk : N / 2 ^ L ≤ N / 2 ^ k := Nat.div_le_div_left (Nat.pow_le_pow_right (by norm_num) hkL) (by positivity)
        have hcard : (faster maxCycles N l k).card ≤ q := by
          simpa using Finset.card_le_univ (faster maxCycles N l k)
        have hne : (faster maxCycles N l k).Nonempty := by
          obtain ⟨a, ha⟩ := hleft
          exact ⟨a, by simpa [faster] using fun j hj => ha j (by omega)⟩
        have hmem : ∀ n ∈ sizes N (2 ^ k), n = N / 2 ^ k ∨ (n = N / 2 ^ k + 1 ∧ ¬ 2 ^ k ∣ N) := by
          intro n hn
          rw [sizes, List.mem_append, List.mem_replicate, List.mem_replicate] at hn
          rcases hn with ⟨h1, h2⟩ | ⟨h1, h2⟩
          · exact Or.inr ⟨h2, fun h3 => h1 (Nat.mod_eq_zero_of_dvd h3)⟩
          · exact Or.inl h2
        have hlev := levelRec_columns c l hl hl0 hc (faster maxCycles N l k) (band maxCycles N l k) N k (by omega) exact
          maxCycles rec (by
            intro n hn
            ext a
            have hslow : ∀ x : ℕ, slow ((maxCycles : ℝ) / x) (l a) = true ↔
                ‖Complex.log (l a)‖ < 2 * Real.pi * maxCycles / x := by
              intro x
              rw [slow, if_neg (hl0 a), decide_eq_true_iff]
              have : (maxCycles : ℝ) / x * 2 * Real.pi = 2 * Real.pi * maxCycles / x := by ring
              rw [this]
            have hcut : ‖Complex.log (l a)‖ < 2 * Real.pi * maxCycles / n ↔
                ‖Complex.log (l a)‖ < cut maxCycles N k := by
              rcases hmem n hn with rfl | ⟨rfl, hnd⟩
              · rfl
              · have hpos : (0 : ℝ) < (N / 2 ^ k : ℕ) := by
                  have : 0 < N / 2 ^ k := by omega
                  exact_mod_cast this
                have hle : 2 * Real.pi * maxCycles / (N / 2 ^ k + 1 : ℕ) ≤ cut maxCycles N k := by
                  refine div_le_div_of_nonneg_left (by positivity) hpos ?_
                  push_cast; linarith
                rcases (hgap k hkL).resolve_left hnd a with h1 | h1
                · exact ⟨fun _ => lt_of_lt_of_le h1 hle, fun _ => h1⟩
                · exact ⟨fun h2 => lt_of_lt_of_le h2 hle, fun h2 => absurd h2 (not_lt.mpr h1)⟩
            simp only [band, faster, Finset.mem_filter, Finset.mem_univ, true_and]
            rw [hslow, hcut, and_comm])
          (fun leaf s n hn => hrec k leaf _ s n hne (by
            rcases hmem n hn with rfl | ⟨rfl, -⟩ <;> omega))
        rw [List.range'_succ, fitLevels, hlev]
        simp only [length_columns, ne_eq, not_true_eq_false, if_false]
        rw [columns_sub c l _ _ (faster maxCycles N l (k + 1)) N (faster_split maxCycles N l k) cast (hcast k hkL),
          ih (k + 1) (by omega)]
        rfl
    have h0 : faster maxCycles N l 0 = Finset.univ := by ext a; simp [faster]
    have := key (L + 1) 0 (by omega)
    rwa [h0, ← List.range_eq_range'] at this
  · have key : ∀ (f : Fin q → ℂ) (n : ℕ), ((List.range n).map fun level => ∑ a ∈ band maxCycles N l level, f a).sum =
        ∑ a ∈ Finset.univ \ faster maxCycles N l n, f a := by
      intro f n
      have h1 : ∀ n, ((List.range n).map fun level => ∑ a ∈ band maxCycles N l level, f a).sum +
          ∑ a ∈ faster maxCycles N l n, f a = ∑ a, f a := by
        intro n
        induction n with
        | zero =>
          have h0 : faster maxCycles N l 0 = Finset.univ := by ext a; simp [faster]
          simp [h0]
        | succ n ih =>
          rw [List.range_succ, List.map_append, List.sum_append, ← ih, faster_split maxCycles N l n]
          simp [add_assoc]
      have h2 := Finset.sum_sdiff (f := f) (Finset.subset_univ (faster maxCycles N l n))
      linear_combination h1 n - h2
    apply List.ext_getElem
    · simp [reconstructed, length_columns]
    intro t h1 h2
    rw [getElem_columns]
    rw [length_columns] at h2
    funext p
    rw [← key (fun a => c a p * l a ^ (0 + t)) (L + 1)]
    rw [getElem_reconstructed, List.map_map]
    have hsum : ∀ (xs : List ℕ) (F : ℕ → m → ℂ), (xs.map F).sum p = (xs.map fun k => F k p).sum := by
      intro xs F
      induction xs with
      | nil => rfl
      | cons x xs ih => simp [ih]
    rw [hsum]
    congr 1
    refine List.map_congr_left fun k _ => ?_
    exact getD_columns _ _ _ _ _ _ h2 p

/-- **C146** (complex data): `astype(X.dtype)` changes nothing. -/
theorem C146_complex {q : ℕ} (c : Fin q → m → ℂ) (l : Fin q → ℂ) (hl : Function.Injective l) (hl0 : ∀ a, l a ≠ 0)
    (hc : ∀ v : Fin q → ℂ, (∀ p, ∑ a, v a * c a p = 0) → v = 0) (N L : ℕ) (hN : q + 1 ≤ N / 2 ^ L) (maxCycles : ℕ)
    (hgap : ∀ level ≤ L, 2 ^ level ∣ N ∨ ∀ a, ‖Complex.log (l a)‖ < 2 * Real.pi * maxCycles / (N / 2 ^ level + 1 : ℕ) ∨
      cut maxCycles N level ≤ ‖Complex.log (l a)‖)
    (hleft : ∃ a, ∀ level < L, cut maxCycles N level ≤ ‖Complex.log (l a)‖)
    (exact : Bool) (rec : ℕ → ℕ → List (m → ℂ) → List (m → ℂ))
    (hrec : ∀ level leaf (S : Finset (Fin q)) s n, S.Nonempty → S.card + 1 ≤ n →
      IsLeafRec exact maxCycles (columns c l S s n) (rec level leaf (columns c l S s n))) :
    fitLevels rec id (List.range (L + 1)) (columns c l Finset.univ 0 N) =
      .ok ((List.range (L + 1)).map fun level => columns c l (band maxCycles N l level) 0 N,
        columns c l (faster maxCycles N l (L + 1)) 0 N) :=
  (C146_separates c l hl hl0 hc N L hN maxCycles hgap hleft exact rec hrec id fun _ _ _ _ => rfl).1

/-- Conjugate eigenvalues have the same rate. -/
theorem norm_log_conj (z : ℂ) : ‖Complex.log ((starRingEnd ℂ) z)‖ = ‖Complex.log z‖ := by
  by_cases h : z.arg = Real.pi
  · have : (starRingEnd ℂ) z = z := by
      rw [Complex.arg_eq_pi_iff] at h
      exact Complex.conj_eq_iff_im.mpr h.2
    rw [this]
  · rw [Complex.log_conj z h, Complex.norm_conj]

/-- **C146** (real data): if the components come in conjugate pairs, so that the data are real, the contributions of the
levels are real, and the cast to the type of the data (`astype(float)` drops imaginary parts) loses nothing. -/
theorem C146_real {q : ℕ} (c : Fin q → m → ℂ) (l : Fin q → ℂ) (hl : Function.Injective l) (hl0 : ∀ a, l a ≠ 0)
    (hc : ∀ v : Fin q → ℂ, (∀ p, ∑ a, v a * c a p = 0) → v = 0) (σ : Equiv.Perm (Fin q))
    (hσl : ∀ a, l (σ a) = (starRingEnd ℂ) (l a)) (hσc : ∀ a p, c (σ a) p = (starRingEnd ℂ) (c a p))
    (N L : ℕ) (hN : q + 1 ≤ N / 2 ^ L) (maxCycles : ℕ)
    (hgap : ∀ level ≤ L, 2 ^ level ∣ N ∨ ∀ a, ‖Complex.log (l a)‖ < 2 * Real.pi * maxCycles / (N / 2 ^ level + 1 : ℕ) ∨
      cut maxCycles N level ≤ ‖Complex.log (l a)‖)
    (hleft : ∃ a, ∀ level < L, cut maxCycles N level ≤ ‖Complex.log (l a)‖)
    (exact : Bool) (rec : ℕ → ℕ → List (m → ℂ) → List (m → ℂ))
    (hrec : ∀ level leaf (S : Finset (Fin q)) s n, S.Nonempty → S.card + 1 ≤ n →
      IsLeafRec exact maxCycles (columns c l S s n) (rec level leaf (columns c l S s n))) :
    fitLevels rec (fun v p => ((v p).re : ℂ)) (List.range (L + 1)) (columns c l Finset.univ 0 N) =
      .ok ((List.range (L + 1)).map fun level => columns c l (band maxCycles N l level) 0 N,
        columns c l (faster maxCycles N l (L + 1)) 0 N) ∧
    ∀ v ∈ columns c l Finset.univ 0 N, ∀ p, (v p).im = 0 := by
  classical
  have hreal : ∀ (S : Finset (Fin q)), (∀ a, σ a ∈ S ↔ a ∈ S) → ∀ v ∈ columns c l S 0 N, ∀ p, (v p).im = 0 := by
    intro S hS v hv p
    obtain ⟨t, -, rfl⟩ := List.mem_map.mp hv
    beta_reduce
    rw [← Complex.conj_eq_iff_im, map_sum]
    have h1 : ∀ f : Fin q → ℂ, ∑ a ∈ S, f (σ a) = ∑ a ∈ S, f a := by
      intro f
      refine Finset.sum_bij (fun a _ => σ a) (fun a ha => (hS a).mpr ha) (fun a _ b _ h => σ.injective h) ?_
        (fun _ _ => rfl)
      intro b hb
      exact ⟨σ.symm b, (hS _).mp (by rwa [Equiv.apply_symm_apply]), σ.apply_symm_apply b⟩
    rw [← h1 fun a => c a p * l a ^ t]
    refine Finset.sum_congr rfl fun a _ => ?_
    rw [map_mul, map_pow, hσl, hσc]
  refine ⟨(C146_separates c l hl hl0 hc N L hN maxCycles hgap hleft exact rec hrec _ ?_).1,
    hreal _ fun a => by simp⟩
  intro level _ v hv
  funext p
  refine Complex.ext ?_ ?_
  · simp
  · rw [Complex.ofReal_im]
    exact (hreal _ (fun a => by simp [band, hσl, norm_log_conj]) v hv p).symm

/-- The nonzero singular values of a matrix and their vectors. -/
theorem exists_compact_svd {M N : ℕ} (X : Matrix (Fin M) (Fin N) ℂ) :
    ∃ (k : ℕ) (U : Matrix (Fin M) (Fin k) ℂ) (s : Fin k → ℝ) (V : Matrix (Fin N) (Fin k) ℂ),
      IsSVD X U s V ∧ ∀ i, s i ≠ 0 := by
  classical
  obtain ⟨U, s, V, h, -⟩ := exists_svd X
  let T := Finset.univ.filter fun i => s i ≠ 0
  let e : Fin T.card ≃ T := T.equivFin.symm
  have he : Function.Injective fun i => (e i : Fin (min M N)) := fun i j hij => e.injective (Subtype.ext hij)
  refine ⟨T.card, U.submatrix id fun i => (e i : Fin (min M N)), fun i => s (e i),
    V.submatrix id fun i => (e i : Fin (min M N)), ⟨?_, ?_, ?_, fun i => h.nonneg _⟩, fun i => ?_⟩
  · have hX := h.eq
    ext a b
    have h1 := congrFun (congrFun hX a) b
    rw [h1]
    rw [Matrix.mul_apply, Matrix.mul_apply]
    simp only [rdiag, mul_diagonal, conjTranspose_apply, submatrix_apply, id_eq]
    have h2 : ∑ j, U a j * ((s j : ℝ) : ℂ) * star (V b j) = ∑ j ∈ T, U a j * ((s j : ℝ) : ℂ) * star (V b j) := by
      symm
      refine Finset.sum_subset (Finset.subset_univ T) fun j _ hj => ?_
      have : s j = 0 := by
        by_contra h0
        exact hj (Finset.mem_filter.mpr ⟨Finset.mem_univ _, h0⟩)
      rw [this]; simp
    rw [h2, ← Finset.sum_coe_sort, ← Equiv.sum_comp e]
  · have := congrArg (fun A => A.submatrix (fun i => (e i : Fin (min M N))) fun i => (e i : Fin (min M N))) h.u
    simp only [submatrix_one _ he] at this
    rw [← this]
    rfl
  · have := congrArg (fun A => A.submatrix (fun i => (e i : Fin (min M N))) fun i => (e i : Fin (min M N))) h.v
    simp only [submatrix_one _ he] at this
    rw [← this]
    rfl
  · exact (Finset.mem_filter.mp (e i).2).2

/-- **C146**, the hypothesis on the nodes: on every sum of some of the components such a DMD result exists, so that there
is a `rec` as required in the theorems. -/
theorem C146_nodes {q M : ℕ} (c : Fin q → Fin M → ℂ) (l : Fin q → ℂ) (hl : Function.Injective l) (hl0 : ∀ a, l a ≠ 0)
    (hc : ∀ v : Fin q → ℂ, (∀ p, ∑ a, v a * c a p = 0) → v = 0) (exact : Bool) (maxCycles : ℕ) :
    ∃ rec : ℕ → ℕ → List (Fin M → ℂ) → List (Fin M → ℂ), ∀ level leaf (S : Finset (Fin q)) s n, S.Nonempty →
      S.card + 1 ≤ n → IsLeafRec exact maxCycles (columns c l S s n) (rec level leaf (columns c l S s n)) := by
  classical
  refine ⟨fun _ _ x => if h : ∃ y, IsLeafRec exact maxCycles x y then h.choose else [], fun _ _ S s n hS hn => ?_⟩
  have hex : ∃ y, IsLeafRec exact maxCycles (columns c l S s n) y := by
    let e : Fin S.card ≃ S := S.equivFin.symm
    have hsum : ∀ (f : Fin q → ℂ), ∑ a ∈ S, f a = ∑ i, f (e i) := fun f => by
      rw [← Finset.sum_coe_sort, ← Equiv.sum_comp e]
    have hlen := length_columns c l S s n
    have hl' : Function.Injective fun i => l (e i) := fun i j hij => e.injective (Subtype.ext (hl hij))
    obtain ⟨k, U, sv, V, hsvd, hs⟩ := exists_compact_svd (shifted (columns c l S s n) 0)
    obtain ⟨hk, hroots⟩ := Frequencies.C136_dmd (q := S.card) (by rw [hlen]; omega)
      (fun i p => c (e i) p * l (e i) ^ s) (fun i => l (e i)) hl' (independent_reindex c l hl0 hc S s)
      (shifted (columns c l S s n) 0) (shifted (columns c l S s n) 1)
      (fun p t => by
        have ht := t.isLt
        rw [shifted, of_apply, getD_columns _ _ _ _ _ _ (by omega), hsum]
        refine Finset.sum_congr rfl fun i _ => ?_
        rw [add_zero, pow_add]; ring)
      (fun p t => by
        have ht := t.isLt
        rw [shifted, of_apply, getD_columns _ _ _ _ _ _ (by omega), hsum]
        refine Finset.sum_congr rfl fun i _ => ?_
        rw [pow_add]; ring) U sv V hsvd hs
    rw [Fintype.card_fin] at hk
    set A := leastSquareOperator none U sv V (shifted (columns c l S s n) 1) with hA
    let f : Fin k → Fin S.card := Fin.cast hk
    have hf : Finset.univ.val.map (fun i => l (e i)) = Finset.univ.val.map fun j => l (e (f j)) := by
      have h1 := Multiset.map_univ_val_equiv (finCongr hk)
      rw [← h1, Multiset.map_map]
      rfl
    rw [hf] at hroots
    have heig : ∀ j, ∃ v : Fin k → ℂ, normSq v = 1 ∧ A *ᵥ v = l (e (f j)) • v := by
      intro j
      have hmem : l (e (f j)) ∈ A.charpoly.roots := by
        rw [hroots]
        exact Multiset.mem_map_of_mem (fun j => l (e (f j))) (Finset.mem_univ_val j)
      have hroot := (Polynomial.mem_roots'.mp hmem).2
      rw [Polynomial.IsRoot, Matrix.eval_charpoly] at hroot
      obtain ⟨v, hv0, hv⟩ := Matrix.exists_mulVec_eq_zero_iff.mpr hroot
      have hv1 : A *ᵥ v = l (e (f j)) • v := by
        rw [sub_mulVec, sub_eq_zero] at hv
        rw [← hv]
        funext i
        simp [Matrix.scalar_apply, mulVec_diagonal]
      have hpos : 0 < normSq v := lt_of_le_of_ne (normSq_nonneg v) fun h => hv0 ((normSq_eq_zero v).mp h.symm)
      refine ⟨((Real.sqrt (normSq v))⁻¹ : ℂ) • v, ?_, ?_⟩
      · have h2 : normSq (((Real.sqrt (normSq v))⁻¹ : ℂ) • v) = (normSq v)⁻¹ * normSq v := by
          have h3 : Complex.normSq ((Real.sqrt (normSq v))⁻¹ : ℂ) = (normSq v)⁻¹ := by
            rw [Complex.normSq_inv, Complex.normSq_ofReal, Real.mul_self_sqrt hpos.le]
          rw [← h3]
          simp [normSq, Finset.mul_sum]
        rw [h2, inv_mul_cancel₀ hpos.ne']
      · rw [mulVec_smul, hv1, smul_comm]
    choose w hw1 hw2 using heig
    obtain ⟨b, hb⟩ := BopStep.exists_lstsq
      (computeModes exact none (shifted (columns c l S s n) 1) U sv V (of fun i j => w j i))
      ((columns c l S s n).getD 0 0)
    refine ⟨_, k, U, sv, V, of fun i j => w j i, fun j => l (e (f j)), b, ?_, hsvd, hs, ?_, hroots, hw1, hb, rfl⟩
    · rw [hk]; exact Finset.card_pos.mpr hS
    · ext i j
      have h1 := congrFun (hw2 j) i
      rw [mul_diagonal, of_apply, mul_comm]
      exact h1
  beta_reduce
  rw [dif_pos hex]
  exact hex.choose_spec

/-- The theorems apply: six snapshots of a constant and of an oscillation with period 4 in two sensors; with
`max_cycles=1` the constant is found at level 0 (six snapshots are more than one period) and the oscillation at level 1. -/
example : ∃ rec : ℕ → ℕ → List (Fin 2 → ℂ) → List (Fin 2 → ℂ),
    fitLevels rec id (List.range 2)
      (columns ![![1, 0], ![0, 1]] ![1, Complex.I] Finset.univ 0 6) =
      .ok ([columns ![![1, 0], ![0, 1]] ![1, Complex.I] {0} 0 6, columns ![![1, 0], ![0, 1]] ![1, Complex.I] {1} 0 6],
        columns ![![1, 0], ![0, 1]] ![1, Complex.I] ∅ 0 6) := by
  have hl : Function.Injective (![1, Complex.I] : Fin 2 → ℂ) := by
    intro i j hij
    fin_cases i <;> fin_cases j <;> simp_all [Complex.ext_iff]
  have hl0 : ∀ a, (![1, Complex.I] : Fin 2 → ℂ) a ≠ 0 := by
    intro a; fin_cases a <;> simp
  have hc : ∀ v : Fin 2 → ℂ, (∀ p, ∑ a, v a * (![![1, 0], ![0, 1]] : Fin 2 → Fin 2 → ℂ) a p = 0) → v = 0 := by
    intro v hv
    funext i
    have := hv i
    fin_cases i <;> simpa [Fin.sum_univ_two] using this
  have hpi := Real.pi_pos
  have r0 : ‖Complex.log ((![1, Complex.I] : Fin 2 → ℂ) 0)‖ = 0 := by simp
  have r1 : ‖Complex.log ((![1, Complex.I] : Fin 2 → ℂ) 1)‖ = Real.pi / 2 := by
    simp [Complex.log_I, abs_of_pos hpi]
  have c0 : cut 1 6 0 = Real.pi / 3 := by norm_num [cut]; ring
  have c1 : cut 1 6 1 = 2 * Real.pi / 3 := by norm_num [cut]
  obtain ⟨rec, hrec⟩ := C146_nodes _ _ hl hl0 hc true 1
  refine ⟨rec, ?_⟩
  have key := C146_complex _ _ hl hl0 hc 6 1 (by norm_num) 1 (fun level hlev => Or.inl (by
      interval_cases level <;> norm_num))
    ⟨1, fun level hlev => by
      obtain rfl : level = 0 := by omega
      rw [c0, r1]; linarith⟩ true rec hrec
  have h01 : ∀ a : Fin 2, a = 0 ∨ a = 1 := by decide
  have b0 : band 1 6 (![1, Complex.I] : Fin 2 → ℂ) 0 = {0} := by
    ext a
    rcases h01 a with rfl | rfl
    · simp only [band, Finset.mem_filter, Finset.mem_univ, true_and, c0, Finset.mem_singleton]
      rw [r0]
      simpa using hpi
    · simp only [band, Finset.mem_filter, Finset.mem_univ, true_and, c0, Finset.mem_singleton]
      rw [r1]
      constructor
      · intro h; linarith [h.1]
      · intro h; exact absurd h (by decide)
  have b1 : band 1 6 (![1, Complex.I] : Fin 2 → ℂ) 1 = {1} := by
    ext a
    rcases h01 a with rfl | rfl
    · simp only [band, Finset.mem_filter, Finset.mem_univ, true_and, c1, Finset.mem_singleton]
      rw [r0]
      constructor
      · intro h
        have := h.2 0 (by norm_num)
        rw [c0] at this; linarith
      · intro h; exact absurd h (by decide)
    · simp only [band, Finset.mem_filter, Finset.mem_univ, true_and, c1, Finset.mem_singleton]
      rw [r1]
      refine ⟨fun _ => trivial, fun _ => ⟨by linarith, fun k hk => ?_⟩⟩
      obtain rfl : k = 0 := by omega
      rw [c0]; linarith
  have f2 : faster 1 6 (![1, Complex.I] : Fin 2 → ℂ) 2 = ∅ := by
    ext a
    simp only [faster, Finset.mem_filter, Finset.mem_univ, true_and, Finset.notMem_empty, iff_false]
    intro h
    have h0 := h 0 (by norm_num)
    have h1 := h 1 (by norm_num)
    rw [c0] at h0
    rw [c1] at h1
    rcases h01 a with rfl | rfl
    · rw [r0] at h0; linarith
    · rw [r1] at h1; linarith
  rw [key]
  simp only [List.range_succ, List.range_zero, List.nil_append, List.map_cons, List.map_nil,
    List.singleton_append, b0, b1, f2]

/-- **C146**, refuted without the condition on the thresholds: with seven snapshots the two leaves of level 1 have four
and three columns, and an oscillation of period 4 is slow in the second only. Half of it is assigned to level 1, the other
half stays in the residual. -/
theorem C146_unequal_false (c : Fin 2 → m → ℂ) (hc : ∀ v : Fin 2 → ℂ, (∀ p, ∑ a, v a * c a p = 0) → v = 0)
    (exact : Bool) (rec : ℕ → ℕ → List (m → ℂ) → List (m → ℂ))
    (hrec : ∀ level leaf (S : Finset (Fin 2)) s n, S.Nonempty → S.card + 1 ≤ n →
      IsLeafRec exact 1 (columns c ![1, Complex.I] S s n) (rec level leaf (columns c ![1, Complex.I] S s n))) :
    fitLevels rec id (List.range 2) (columns c ![1, Complex.I] Finset.univ 0 7) =
      .ok ([columns c ![1, Complex.I] {0} 0 7, List.replicate 4 0 ++ columns c ![1, Complex.I] {1} 4 3],
        columns c ![1, Complex.I] {1} 0 4 ++ List.replicate 3 0) := by
  have hl : Function.Injective (![1, Complex.I] : Fin 2 → ℂ) := by
    intro i j hij
    fin_cases i <;> fin_cases j <;> simp_all [Complex.ext_iff]
  have hl0 : ∀ a, (![1, Complex.I] : Fin 2 → ℂ) a ≠ 0 := by
    intro a; fin_cases a <;> simp
  have hpi := Real.pi_pos
  have h01 : ∀ a : Fin 2, a = 0 ∨ a = 1 := by decide
  have s0 : ∀ n : ℕ, 0 < n → slow (((1 : ℕ) : ℝ) / n) ((![1, Complex.I] : Fin 2 → ℂ) 0) = true := by
    intro n hn
    have : (0 : ℝ) < n := by exact_mod_cast hn
    simp only [slow, Matrix.cons_val_zero, one_ne_zero, if_false, Complex.log_one, norm_zero, decide_eq_true_iff]
    positivity
  have s1 : ∀ n : ℕ, 0 < n → (slow (((1 : ℕ) : ℝ) / n) ((![1, Complex.I] : Fin 2 → ℂ) 1) = true ↔ n < 4) := by
    intro n hn
    have hn' : (0 : ℝ) < n := by exact_mod_cast hn
    have h2 : ‖Complex.log Complex.I‖ = Real.pi / 2 := by simp [Complex.log_I, abs_of_pos hpi]
    simp only [slow, Matrix.cons_val_one, Matrix.cons_val_fin_one, Complex.I_ne_zero, if_false, h2, decide_eq_true_iff]
    rw [Nat.cast_one, one_div, mul_assoc, inv_mul_eq_div, lt_div_iff₀ hn']
    constructor
    · intro h
      by_contra h4
      have : (4 : ℝ) ≤ n := by exact_mod_cast not_lt.mp h4
      nlinarith
    · intro h
      have : (n : ℝ) ≤ 3 := by exact_mod_cast (by omega : n ≤ 3)
      nlinarith
  have z0 : sizes 7 (2 ^ 0) = [7] := by decide
  have l0 : levelRec rec 0 (columns c ![1, Complex.I] Finset.univ 0 7) = columns c ![1, Complex.I] {0} 0 7 := by
    refine levelRec_columns c _ hl hl0 hc Finset.univ {0} 7 0 (by simp) exact 1 rec ?_ ?_
    · intro n hn
      rw [z0, List.mem_singleton] at hn
      subst hn
      ext a
      rw [Finset.mem_filter]
      rcases h01 a with rfl | rfl
      · simpa using s0 7 (by norm_num)
      · rw [s1 7 (by norm_num)]; simp
    · intro leaf s n hn
      rw [z0, List.mem_singleton] at hn
      subst hn
      exact hrec 0 leaf _ s 7 Finset.univ_nonempty (by simp)
  have e0 : columns c ![1, Complex.I] ∅ 0 4 = List.replicate 4 0 := by
    simp [columns, List.range']
    rfl
  have e3 : columns c ![1, Complex.I] ∅ 4 3 = List.replicate 3 0 := by
    simp [columns, List.range']
    rfl
  have hsplit : ∀ S, columns c ![1, Complex.I] S 0 7 = columns c ![1, Complex.I] S 0 4 ++ columns c ![1, Complex.I] S 4 3 := by
    intro S
    simp [columns, List.range']
  have z1 : sizes 7 (2 ^ 1) = [4, 3] := by decide
  have l1 : levelRec rec 1 (columns c ![1, Complex.I] {1} 0 7) =
      List.replicate 4 0 ++ columns c ![1, Complex.I] {1} 4 3 := by
    rw [levelRec, arraySplit, length_columns, z1, hsplit]
    have p1 : pieces [4, 3] (columns c ![1, Complex.I] {1} 0 4 ++ columns c ![1, Complex.I] {1} 4 3) =
        [columns c ![1, Complex.I] {1} 0 4, columns c ![1, Complex.I] {1} 4 3] := by
      rw [pieces, pieces, pieces, List.take_left' (length_columns _ _ _ _ _), List.drop_left' (length_columns _ _ _ _ _),
        List.take_of_length_le (length_columns _ _ _ _ _).le]
    rw [p1]
    have q0 := leaf_exact c _ hl hl0 hc {1} 0 4 (by simp) exact 1 _
      (hrec 1 0 {1} 0 4 (Finset.singleton_nonempty 1) (by simp))
    have q1 := leaf_exact c _ hl hl0 hc {1} 4 3 (by simp) exact 1 _
      (hrec 1 1 {1} 4 3 (Finset.singleton_nonempty 1) (by simp))
    have f0 : (({1} : Finset (Fin 2)).filter fun a => slow (((1 : ℕ) : ℝ) / (4 : ℕ)) ((![1, Complex.I] : Fin 2 → ℂ) a) = true) = ∅ := by
      rw [Finset.filter_singleton, if_neg]
      rw [s1 4 (by norm_num)]; norm_num
    have f1 : (({1} : Finset (Fin 2)).filter fun a => slow (((1 : ℕ) : ℝ) / (3 : ℕ)) ((![1, Complex.I] : Fin 2 → ℂ) a) = true) = {1} := by
      rw [Finset.filter_singleton, if_pos]
      rw [s1 3 (by norm_num)]; norm_num
    rw [f0, e0] at q0
    rw [f1] at q1
    simp only [List.mapIdx_cons, List.mapIdx_nil, List.flatten_cons, List.flatten_nil, List.append_nil, zero_add, q0, q1]
  have d0 := columns_sub c ![1, Complex.I] Finset.univ {0} {1} 7 (fun f => by simp [Fin.sum_univ_two]) id fun _ _ => rfl
  have d1 : List.zipWith (fun x y : m → ℂ => x - id y) (columns c ![1, Complex.I] {1} 0 7)
      (List.replicate 4 0 ++ columns c ![1, Complex.I] {1} 4 3) =
      columns c ![1, Complex.I] {1} 0 4 ++ List.replicate 3 0 := by
    rw [hsplit]
    simp [columns, List.range', List.replicate]
  rw [show List.range 2 = [0, 1] from rfl, fitLevels, l0]
  simp only [length_columns, ne_eq, not_true_eq_false, if_false]
  rw [d0, fitLevels, l1]
  simp only [length_columns, List.length_append, List.length_replicate, Nat.reduceAdd, ne_eq, not_true_eq_false, if_false]
  rw [d1, fitLevels]
  rfl

end Verif.MrDMD
