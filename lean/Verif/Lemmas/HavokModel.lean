import Verif.Model.HavokModel
import Verif.Spec.Distinct
import Verif.Lemmas.HavokGains
import Verif.Lemmas.SvdUnique
import Verif.Lemmas.ResultLimit
import Verif.Props.Havok
import Verif.Props.Unique
import Mathlib.LinearAlgebra.Matrix.Charpoly.Coeff

/-! Helper lemmas for C167. -/

set_option autoImplicit false

namespace Verif.HavokModel

open Verif Verif.LinAlg Verif.Havok Matrix Verif.HavokSim

variable {m : Type} [Fintype m] {k p q r : ℕ}

theorem isOperator_eq {V Vdot : Matrix (Fin k) (Fin (p + q)) ℂ} {op : Matrix (Fin (p + q)) (Fin (p + q)) ℂ}
    (h : IsOperator V Vdot op) (hV : Vᴴ * V = 1) : op = (Vᴴ * Vdot)ᵀ := by
  rcases h with ⟨W, hW, rfl⟩ | ⟨P, hP, rfl⟩
  · ext j a
    have h1 := congrFun (lstsq_orthonormal V hV _ _ (hW j)) a
    simp only [operatorLstsq, Matrix.transpose_apply, Matrix.mul_apply] at h1 ⊢
    rw [h1]
    simp [Matrix.mulVec, dotProduct]
  · ext j a
    have h1 := congrFun (lstsq_orthonormal V hV _ _ (pinv_isLstsq V P hP (Vdotᵀ j))) a
    simp only [operatorPinv, Matrix.transpose_apply, Matrix.mul_apply, Matrix.mulVec, dotProduct] at h1 ⊢
    exact h1

theorem IsTruncated.orthonormal {H : Matrix m (Fin k) ℂ} {U : Matrix m (Fin r) ℂ} {s : Fin r → ℝ}
    {V : Matrix (Fin k) (Fin r) ℂ} (h : IsTruncated H U s V) : Vᴴ * V = 1 := by
  obtain ⟨N, hr, U', s', V', h1, -, -, -, -, -, rfl⟩ := h
  exact lead_orthonormal hr V' h1.v

/-! ## A change of coordinates of the simulated system -/

section Change

variable (A A' : Matrix (Fin p) (Fin p) ℂ) (B B' : Matrix (Fin p) (Fin q) ℂ) (P : Matrix (Fin p) (Fin p) ℂ)
  (Q : Matrix (Fin q) (Fin q) ℂ)

theorem flow_change (hA : A' * P = P * A) (t : ℝ) : flow A' t * P = P * flow A t := by
  unfold flow
  apply exp_intertwine
  rw [Matrix.smul_mul, hA, Matrix.mul_smul]

theorem exp_change (hA : A' * P = P * A) (hB : B' * Q = P * B) (dt : ℝ) :
    NormedSpace.exp (stepMatrix A' B' dt) * fromBlocks P 0 0 (fromBlocks Q 0 0 Q) =
      fromBlocks P 0 0 (fromBlocks Q 0 0 Q) * NormedSpace.exp (stepMatrix A B dt) := by
  apply exp_intertwine
  rw [stepMatrix, stepMatrix, fromBlocks_multiply, fromBlocks_multiply, fromCols_mul_fromBlocks,
    fromBlocks_multiply, fromBlocks_multiply, mul_fromCols]
  simp [hA, hB]

theorem gains_change (hA : A' * P = P * A) (hB : B' * Q = P * B) (dt : ℝ) :
    (scipyGains A' B').in0 dt * Q = P * (scipyGains A B).in0 dt ∧
      (scipyGains A' B').in1 dt * Q = P * (scipyGains A B).in1 dt := by
  have h := exp_change A A' B B' P Q hA hB dt
  have key : ∀ f : Fin q → Fin q ⊕ Fin q, (f = Sum.inl ∨ f = Sum.inr) →
      (NormedSpace.exp (stepMatrix A' B' dt)).submatrix Sum.inl (Sum.inr ∘ f) * Q =
        P * (NormedSpace.exp (stepMatrix A B dt)).submatrix Sum.inl (Sum.inr ∘ f) := by
    intro f hf
    ext i j
    have h' := congrFun (congrFun h (Sum.inl i)) (Sum.inr (f j))
    rw [Matrix.mul_apply, Matrix.mul_apply, Fintype.sum_sum_type, Fintype.sum_sum_type, Fintype.sum_sum_type] at h'
    rcases hf with rfl | rfl
    · simpa [Matrix.mul_apply, Fintype.sum_sum_type] using h'
    · simpa [Matrix.mul_apply, Fintype.sum_sum_type] using h'
  have k1 := key Sum.inl (Or.inl rfl)
  have k2 := key Sum.inr (Or.inr rfl)
  exact ⟨by simp only [scipyGains, Matrix.sub_mul, Matrix.mul_sub, k1, k2], k2⟩

theorem steps_change (hA : A' * P = P * A) (hB : B' * Q = P * B) (dt : ℝ) (us : List (Fin q → ℂ)) :
    ∀ (x : Fin p → ℂ) (u : Fin q → ℂ),
      steps A' (scipyGains A' B') dt (P *ᵥ x) (Q *ᵥ u) (us.map (Q *ᵥ ·)) =
        (steps A (scipyGains A B) dt x u us).map (P *ᵥ ·) := by
  obtain ⟨g0, g1⟩ := gains_change A A' B B' P Q hA hB dt
  have gf := flow_change A A' P hA dt
  induction us with
  | nil => intros; rfl
  | cons u' us ih =>
    intro x u
    have e : flow A' dt *ᵥ P *ᵥ x + (scipyGains A' B').in0 dt *ᵥ Q *ᵥ u + (scipyGains A' B').in1 dt *ᵥ Q *ᵥ u' =
        P *ᵥ (flow A dt *ᵥ x + (scipyGains A B).in0 dt *ᵥ u + (scipyGains A B).in1 dt *ᵥ u') := by
      simp only [mulVec_mulVec, mulVec_add, gf, g0, g1]
    simp only [List.map_cons, steps, e, ih]

theorem lsim_change (hA : A' * P = P * A) (hB : B' * Q = P * B) (hQ : ∀ u, Q *ᵥ u = 0 → u = 0)
    (U : List (Fin q → ℂ)) (T : List ℝ) (x : Fin p → ℂ) :
    lsim A' (scipyGains A' B') (U.map (Q *ᵥ ·)) T (P *ᵥ x) =
      (lsim A (scipyGains A B) U T x).map (List.map (P *ᵥ ·)) := by
  have gf := flow_change A A' P hA
  have hz : (∀ u ∈ U.map (Q *ᵥ ·), u = 0) ↔ ∀ u ∈ U, u = 0 := by
    constructor
    · intro h u hu
      exact hQ u (h _ (List.mem_map_of_mem hu))
    · intro h u hu
      obtain ⟨v, hv, rfl⟩ := List.mem_map.mp hu
      rw [h v hv, mulVec_zero]
  have hx : ∀ t0 : ℝ, (if t0 = 0 then P *ᵥ x else flow A' t0 *ᵥ P *ᵥ x) =
      P *ᵥ (if t0 = 0 then x else flow A t0 *ᵥ x) := by
    intro t0
    split_ifs
    · rfl
    · rw [mulVec_mulVec, gf, ← mulVec_mulVec]
  have hs := steps_change A A' B B' P Q hA hB
  have hz0 : Q *ᵥ (0 : Fin q → ℂ) = 0 := mulVec_zero Q
  match T with
  | [] => rfl
  | [t0] =>
    by_cases h1 : t0 < 0
    · simp only [lsim, if_pos h1]; rfl
    · simp only [lsim, if_neg h1, hx]; rfl
  | t0 :: t1 :: ts =>
    by_cases h1 : t0 < 0
    · simp only [lsim, if_pos h1]; rfl
    by_cases h2 : ∀ pr ∈ (t0 :: t1 :: ts).zip (t1 :: ts), pr.2 - pr.1 = t1 - t0
    swap
    · simp only [lsim, if_neg h1, if_pos h2]; rfl
    by_cases h3 : ∀ u ∈ U, u = 0
    · have e : ((t1 :: ts).map fun _ => (0 : Fin q → ℂ)) = ((t1 :: ts).map fun _ => (0 : Fin q → ℂ)).map (Q *ᵥ ·) := by
        simp [hz0]
      simp only [lsim, if_neg h1, if_neg (not_not.mpr h2), if_pos h3, if_pos (hz.mpr h3), hx]
      rw [e]
      conv_lhs => rw [← hz0]
      rw [hs]
      simp [Except.map]
    · by_cases h4 : U.length ≠ (t1 :: ts).length + 1
      · have h4' : (U.map (Q *ᵥ ·)).length ≠ (t1 :: ts).length + 1 := by simpa using h4
        simp only [lsim, if_neg h1, if_neg (not_not.mpr h2), if_neg h3, if_neg (mt hz.mp h3), if_pos h4, if_pos h4']
        rfl
      · have h4' : ¬ (U.map (Q *ᵥ ·)).length ≠ (t1 :: ts).length + 1 := by simpa using h4
        simp only [lsim, if_neg h1, if_neg (not_not.mpr h2), if_neg h3, if_neg (mt hz.mp h3), if_neg h4, if_neg h4', hx]
        have e : (U.map (Q *ᵥ ·)).headD 0 = Q *ᵥ U.headD 0 := by
          cases U with
          | nil => simp [hz0]
          | cons => rfl
        rw [e, ← List.map_tail, hs]
        rfl

end Change

/-! ## Signs -/

theorem charpoly_smul {n : ℕ} (A : Matrix (Fin n) (Fin n) ℂ) (e : Fin n → ℂ) (c : ℂ) (hc : c ≠ 0)
    (h : A.charpoly.roots = Finset.univ.val.map e) :
    (c • A).charpoly.roots = Finset.univ.val.map fun j => c * e j := by
  rw [ResultLimit.charpoly_iff] at h ⊢
  intro z
  have e1 : diagonal (fun _ => z) - c • A = c • (diagonal (fun _ => z / c) - A) := by
    rw [smul_sub, ← diagonal_smul]
    congr 2
    funext i
    simp [mul_div_cancel₀ z hc]
  rw [e1, det_smul, h, Fintype.card, ← Finset.prod_const, ← Finset.prod_mul_distrib]
  refine Finset.prod_congr rfl fun j _ => ?_
  field_simp

theorem formula_mul (dt : ℝ) (k : ℕ) (x : ℕ → ℂ) (e : ℂ) (j : ℕ) :
    Differentiate.formula dt k (fun i => x i * e) j = Differentiate.formula dt k x j * e := by
  unfold Differentiate.formula
  split_ifs <;> ring

theorem standardDot_sign (dt : ℝ) (V : Matrix (Fin k) (Fin r) ℂ) (ε : Fin r → ℝ) :
    standardDot dt (of fun t i => V t i * (ε i : ℂ)) = of fun t i => standardDot dt V t i * (ε i : ℂ) := by
  ext t i
  simp only [standardDot, of_apply]
  have e : (fun j => if h : j < k then V ⟨j, h⟩ i * (ε i : ℂ) else 0) =
      fun j => (if h : j < k then V ⟨j, h⟩ i else 0) * (ε i : ℂ) := by
    funext j
    split_ifs <;> simp
  rw [e, formula_mul, Complex.re_mul_ofReal, Complex.ofReal_mul]

theorem structuredDot_sign (dt : ℝ) (V V2 : Matrix (Fin k) (Fin r) ℂ) (ε : Fin r → ℝ) :
    structuredDot dt (of fun t i => V t i * (ε i : ℂ)) (of fun t i => V2 t i * (ε i : ℂ)) =
      of fun t i => structuredDot dt V V2 t i * (ε i : ℂ) := by
  ext t i
  simp only [structuredDot, of_apply]
  ring

theorem op_sign (V Vdot : Matrix (Fin k) (Fin r) ℂ) (ε : Fin r → ℝ) (i j : Fin r) :
    (((of fun t i => V t i * (ε i : ℂ))ᴴ * of fun t i => Vdot t i * (ε i : ℂ))ᵀ : Matrix _ _ ℂ) i j =
      ε i * (Vᴴ * Vdot)ᵀ i j * ε j := by
  simp only [transpose_apply, Matrix.mul_apply, conjTranspose_apply, of_apply, star_mul', Complex.star_def,
    Complex.conj_ofReal, Finset.mul_sum, Finset.sum_mul]
  exact Finset.sum_congr rfl fun _ _ => by ring

theorem Distinct.gap {H : Matrix m (Fin k) ℂ} (h : Distinct H r) : Unique.Gap H r := by
  obtain ⟨N, U, s, V, h1, h2, h3, h4, h5⟩ := h
  exact ⟨N, U, s, V, h1, h2, h3, h4, fun i j hi hj => h5 i j hi (Fin.lt_def.mpr (by omega))⟩

theorem truncated_signs [DecidableEq m] {H : Matrix m (Fin k) ℂ} (hd : Distinct H r) {U U' : Matrix m (Fin r) ℂ}
    {s s' : Fin r → ℝ} {V V' : Matrix (Fin k) (Fin r) ℂ} (h : IsTruncated H U s V) (h' : IsTruncated H U' s' V') :
    s' = s ∧ ∃ ε : Fin r → ℝ, (∀ i, ε i = 1 ∨ ε i = -1) ∧ (U' = of fun a i => U a i * (ε i : ℂ)) ∧
      V' = of fun t i => V t i * (ε i : ℂ) := by
  have hg := hd.gap
  obtain ⟨N0, U0, s0, V0, h01, h02, h03, -, h05⟩ := hd
  have hV := h.orthonormal
  obtain ⟨N, hr, W, σ, Z, a1, a2, -, a4, rfl, rfl, rfl⟩ := h
  obtain ⟨N', hr', W', σ', Z', b1, b2, -, b4, rfl, rfl, rfl⟩ := h'
  obtain ⟨hs, Q, hQ, hU', hV', hz⟩ := Unique.gap_lead H hg hr hr' a1 a2 b1 b2
  refine ⟨hs.symm, ?_⟩
  have hinj : ∀ i j : Fin r, i ≠ j → σ (Fin.castLE hr i) ≠ σ (Fin.castLE hr j) := by
    have e := SvdUnique.values_eq h01 h02 a1 a2
    have ev : ∀ i : Fin r, σ (Fin.castLE hr i) = s0 (Fin.castLE h03 i) := by
      intro i
      have := congrFun e i
      simp only [SvdUnique.ext, i.2.trans_le h03, i.2.trans_le hr, dite_true] at this
      exact this.symm
    have hlt : ∀ i j : Fin r, i < j → σ (Fin.castLE hr j) < σ (Fin.castLE hr i) := by
      intro i j hij
      rw [ev, ev]
      exact h05 _ _ i.2 (hij)
    intro i j hij
    rcases lt_or_gt_of_ne hij with hlt' | hlt'
    · exact (hlt i j hlt').ne'
    · exact (hlt j i hlt').ne
  have hdiag : ∀ i j, i ≠ j → Q i j = 0 := fun i j hij => hz i j (hinj i j hij)
  have hcol : ∀ {n : Type} (M : Matrix n (Fin r) ℂ) (a : n) (j : Fin r), (M * Q) a j = M a j * Q j j := by
    intro n M a j
    rw [Matrix.mul_apply, Finset.sum_eq_single j]
    · intro i _ hij; rw [hdiag i j hij, mul_zero]
    · simp
  have hreal : ∀ j, (Q j j).im = 0 := by
    intro j
    have e : Q = (lead r hr Z)ᴴ * lead r hr' Z' := by rw [hV', ← Matrix.mul_assoc, hV, Matrix.one_mul]
    rw [e, Matrix.mul_apply, Complex.im_sum]
    refine Finset.sum_eq_zero fun t _ => ?_
    simp [lead, Complex.mul_im, a4, b4]
  have hone : ∀ j, (Q j j).re = 1 ∨ (Q j j).re = -1 := by
    intro j
    have e := congrFun (congrFun hQ j) j
    rw [hcol, conjTranspose_apply, one_apply_eq, Complex.star_def, Complex.ext_iff] at e
    have e1 := e.1
    simp only [Complex.mul_re, Complex.conj_re, Complex.conj_im, hreal, Complex.one_re] at e1
    exact mul_self_eq_one_iff.mp (by linarith)
  have hQe : ∀ j, Q j j = (((Q j j).re : ℝ) : ℂ) := fun j => Complex.ext rfl (by simp [hreal])
  refine ⟨fun j => (Q j j).re, hone, ?_, ?_⟩
  · rw [hU']
    ext a j
    rw [hcol, of_apply, ← hQe]
  · rw [hV']
    ext a j
    rw [hcol, of_apply, ← hQe]

/-! ## Simulations -/

theorem squeeze_map_eq {α : Type} (rows rows' : List (Fin p → ℂ)) (hl : rows'.length = rows.length)
    (f : List (Fin p → ℂ) → α) (a b : α) (hf : f rows' = f rows) :
    (match squeeze rows' with | .zeroDim => a | .oneDim => b | .twoDim V => f V) =
      match squeeze rows with | .zeroDim => a | .oneDim => b | .twoDim V => f V := by
  unfold squeeze
  rw [hl]
  split_ifs
  · rfl
  · rfl
  · exact hf

/-- Two fitted objects that differ by signs. -/
structure SignRel (ε : Fin (p + q) → ℝ) (M M' : Fitted p q) : Prop where
  sq : ∀ i, ε i * ε i = 1
  delays : M'.delays = M.delays
  lag : M'.lag = M.lag
  rows : M'.rows = M.rows
  time : M'.time = M.time
  U : ∀ a i, M'.U a i = M.U a i * (ε i : ℂ)
  s : M'.s = M.s
  embed : M'.embed = M.embed.map fun v i => v i * (ε i : ℂ)
  A : ∀ i j, M'.A i j = ε (Fin.castAdd q i) * M.A i j * ε (Fin.castAdd q j)
  B : ∀ i j, M'.B i j = ε (Fin.castAdd q i) * M.B i j * ε (Fin.natAdd p j)

namespace SignRel

variable {ε : Fin (p + q) → ℝ} {M M' : Fitted p q} (h : SignRel ε M M')

include h

theorem csq (i : Fin (p + q)) : (ε i : ℂ) * ε i = 1 := by exact_mod_cast h.sq i

theorem lsim (U : List (Fin q → ℂ)) (T : List ℝ) (x : Fin p → ℂ) :
    HavokSim.lsim M'.A (scipyGains M'.A M'.B) (U.map fun u i => u i * (ε (Fin.natAdd p i) : ℂ)) T
        (fun i => x i * (ε (Fin.castAdd q i) : ℂ)) =
      (HavokSim.lsim M.A (scipyGains M.A M.B) U T x).map (List.map fun x i => x i * (ε (Fin.castAdd q i) : ℂ)) := by
  have eP : ∀ x : Fin p → ℂ, (fun i => x i * (ε (Fin.castAdd q i) : ℂ)) =
      diagonal (fun i => (ε (Fin.castAdd q i) : ℂ)) *ᵥ x := by
    intro x; funext i; rw [mulVec_diagonal, mul_comm]
  have eQ : ∀ x : Fin q → ℂ, (fun i => x i * (ε (Fin.natAdd p i) : ℂ)) =
      diagonal (fun i => (ε (Fin.natAdd p i) : ℂ)) *ᵥ x := by
    intro x; funext i; rw [mulVec_diagonal, mul_comm]
  rw [show (fun (x : Fin p → ℂ) i => x i * (ε (Fin.castAdd q i) : ℂ)) = fun x =>
      diagonal (fun i => (ε (Fin.castAdd q i) : ℂ)) *ᵥ x from funext eP,
    show (fun (x : Fin q → ℂ) i => x i * (ε (Fin.natAdd p i) : ℂ)) = fun x =>
      diagonal (fun i => (ε (Fin.natAdd p i) : ℂ)) *ᵥ x from funext eQ, eP x]
  apply lsim_change
  · ext i j
    rw [mul_diagonal, diagonal_mul, h.A, mul_assoc, h.csq, mul_one]
  · ext i j
    rw [mul_diagonal, diagonal_mul, h.B, mul_assoc, h.csq, mul_one]
  · intro u hu
    funext i
    have := congrFun hu i
    rw [mulVec_diagonal] at this
    have h2 := h.csq (Fin.natAdd p i)
    calc u i = (ε (Fin.natAdd p i) : ℂ) * ((ε (Fin.natAdd p i) : ℂ) * u i) := by rw [← mul_assoc, h2, one_mul]
      _ = 0 := by rw [this]; simp

theorem hankelOf (V : List (Fin p → ℂ)) :
    M'.hankelOf (V.map fun x i => x i * (ε (Fin.castAdd q i) : ℂ)) = M.hankelOf V := by
  unfold Fitted.hankelOf
  rw [h.rows, h.s, List.length_map]
  congr 1
  funext a c
  congr 2
  refine Finset.sum_congr rfl fun j _ => ?_
  have e : (V.map fun x i => x i * (ε (Fin.castAdd q i) : ℂ)).getD c 0 j =
      V.getD c 0 j * (ε (Fin.castAdd q j) : ℂ) := by
    by_cases hc : c < V.length
    · simp [List.getD_eq_getElem?_getD, hc]
    · simp [List.getD_eq_getElem?_getD, hc]
  have h2 := h.csq (Fin.castAdd q j)
  rw [e, h.U, star_mul', Complex.star_def, Complex.conj_ofReal]
  linear_combination (M.U a (Fin.castAdd q j) * (M.s (Fin.castAdd q j) : ℂ) *
    (starRingEnd ℂ) (V.getD c 0 j)) * h2

theorem toOriginal (V : List (Fin p → ℂ)) :
    M'.toOriginal (squeeze (V.map fun x i => x i * (ε (Fin.castAdd q i) : ℂ))) = M.toOriginal (squeeze V) := by
  unfold squeeze
  rw [List.length_map]
  split_ifs
  · rfl
  · rfl
  · simp only [Fitted.toOriginal, h.hankelOf, h.delays, h.lag]

theorem simulate (U : List (Fin q → ℂ)) (T : List ℝ) (x : Fin p → ℂ) :
    (M'.computeEmbeddings (scipyGains M'.A M'.B) (U.map fun u i => u i * (ε (Fin.natAdd p i) : ℂ)) T
        (fun i => x i * (ε (Fin.castAdd q i) : ℂ)) >>= M'.toOriginal) =
      (M.computeEmbeddings (scipyGains M.A M.B) U T x >>= M.toOriginal) := by
  unfold Fitted.computeEmbeddings
  rw [h.lsim]
  cases HavokSim.lsim M.A (scipyGains M.A M.B) U T x with
  | error e => rfl
  | ok V => exact h.toOriginal V

theorem predict (U : List (Fin q → ℂ)) (T : List ℝ) (i : ℤ) :
    M'.predict (scipyGains M'.A M'.B) (U.map fun u i => u i * (ε (Fin.natAdd p i) : ℂ)) T (.index i) =
      M.predict (scipyGains M.A M.B) U T (.index i) := by
  have hl : M'.linear = M.linear.map fun x i => x i * (ε (Fin.castAdd q i) : ℂ) := by
    simp [Fitted.linear, h.embed, Function.comp_def]
  have hi : M'.initial (.index i) = (M.initial (.index i)).map fun x i => x i * (ε (Fin.castAdd q i) : ℂ) := by
    simp only [Fitted.initial, hl, List.length_map]
    cases hk : MrDMD.pyIndex M.linear.length i with
    | none => rfl
    | some k =>
      simp only [Option.bind_some, List.getElem?_map]
      cases M.linear[k]? <;> rfl
  unfold Fitted.predict
  rw [hi]
  cases M.initial (.index i) with
  | error e => rfl
  | ok x => exact h.simulate U T x

theorem reconstructedData :
    M'.reconstructedData (scipyGains M'.A M'.B) = M.reconstructedData (scipyGains M.A M.B) := by
  have hl : M'.linear = M.linear.map fun x i => x i * (ε (Fin.castAdd q i) : ℂ) := by
    simp [Fitted.linear, h.embed, Function.comp_def]
  have hf : M'.forcing = M.forcing.map fun x i => x i * (ε (Fin.natAdd p i) : ℂ) := by
    simp [Fitted.forcing, h.embed, Function.comp_def]
  unfold Fitted.reconstructedData Fitted.reconstructedEmbeddings
  rw [hl, hf, h.time, List.length_map]
  cases M.linear with
  | nil => rfl
  | cons x l => exact h.simulate _ _ x

end SignRel

/-! ## Units -/

theorem stepMatrix_time (A : Matrix (Fin p) (Fin p) ℂ) (B : Matrix (Fin p) (Fin q) ℂ) (c : ℝ) (hc : c ≠ 0) (dt : ℝ) :
    stepMatrix ((c⁻¹ : ℂ) • A) ((c⁻¹ : ℂ) • B) (c * dt) = stepMatrix A B dt := by
  have hc' : (c : ℂ) ≠ 0 := by exact_mod_cast hc
  have e : ((c * dt : ℝ) : ℂ) * (c⁻¹ : ℂ) = dt := by push_cast; field_simp
  simp only [stepMatrix, smul_smul, e]

theorem flow_time (A : Matrix (Fin p) (Fin p) ℂ) (c : ℝ) (hc : c ≠ 0) (t : ℝ) :
    flow ((c⁻¹ : ℂ) • A) (c * t) = flow A t := by
  have hc' : (c : ℂ) ≠ 0 := by exact_mod_cast hc
  have e : ((c * t : ℝ) : ℂ) * (c⁻¹ : ℂ) = t := by push_cast; field_simp
  simp only [flow, smul_smul, e]

theorem steps_time (A : Matrix (Fin p) (Fin p) ℂ) (B : Matrix (Fin p) (Fin q) ℂ) (c : ℝ) (hc : c ≠ 0) (dt : ℝ)
    (us : List (Fin q → ℂ)) : ∀ (x : Fin p → ℂ) (u : Fin q → ℂ),
    steps ((c⁻¹ : ℂ) • A) (scipyGains ((c⁻¹ : ℂ) • A) ((c⁻¹ : ℂ) • B)) (c * dt) x u us =
      steps A (scipyGains A B) dt x u us := by
  induction us with
  | nil => intros; rfl
  | cons u' us ih =>
    intro x u
    simp only [steps, ih, flow_time A c hc]
    simp only [scipyGains, stepMatrix_time A B c hc]

theorem lsim_time (A : Matrix (Fin p) (Fin p) ℂ) (B : Matrix (Fin p) (Fin q) ℂ) (c : ℝ) (hc : 0 < c)
    (U : List (Fin q → ℂ)) (T : List ℝ) (x : Fin p → ℂ) :
    lsim ((c⁻¹ : ℂ) • A) (scipyGains ((c⁻¹ : ℂ) • A) ((c⁻¹ : ℂ) • B)) U (T.map (c * ·)) x =
      lsim A (scipyGains A B) U T x := by
  have h0 := hc.ne'
  have hneg : ∀ t : ℝ, c * t < 0 ↔ t < 0 := fun t => by
    rw [← mul_lt_mul_iff_right₀ hc (b := t) (c := 0), mul_zero]
  match T with
  | [] => rfl
  | [t0] =>
    simp only [lsim, List.map_cons, List.map_nil, hneg, mul_eq_zero, h0, false_or, flow_time A c h0]
  | t0 :: t1 :: ts =>
    have hz : (∀ pr ∈ ((t0 :: t1 :: ts).map (c * ·)).zip ((t1 :: ts).map (c * ·)), pr.2 - pr.1 = c * t1 - c * t0) ↔
        ∀ pr ∈ (t0 :: t1 :: ts).zip (t1 :: ts), pr.2 - pr.1 = t1 - t0 := by
      rw [List.zip_map]
      simp only [List.forall_mem_map, Prod.map, ← mul_sub]
      exact forall₂_congr fun pr _ => mul_right_inj' h0
    have e : c * t1 - c * t0 = c * (t1 - t0) := by ring
    simp only [List.map_cons, e] at hz
    simp only [lsim, List.map_cons, hneg, mul_eq_zero, h0, false_or, flow_time A c h0, hz, e,
      steps_time A B c h0, List.length_map, List.length_cons, List.map_map, Function.comp_def]

end Verif.HavokModel
