import Verif.Model.LandoState
import Verif.Props.Lando
import Mathlib.Data.List.Sort
import Mathlib.Tactic.FieldSimp

/-!
# C74, C75, C76: linear operator, life of an instance, prediction and rescaling of LANDO
-/

set_option autoImplicit false

namespace Verif.Lando

open Matrix

/-! ### C74 -/

section Eig

variable {n j r : Type} [Fintype n] [Fintype j] [Fintype r] [DecidableEq n] [DecidableEq r]

/-- Complexification of a real matrix. -/
noncomputable abbrev cx {a b : Type} (M : Matrix a b ℝ) : Matrix a b ℂ := M.map Complex.ofReal

theorem cx_mul {a b c : Type} [Fintype b] (M : Matrix a b ℝ) (N : Matrix b c ℝ) :
    cx (M * N) = cx M * cx N := by
  ext i k
  simp [cx, Matrix.mul_apply]

/-- `U, s, V` as returned by `compute_svd` for the transposed gradient `Gᵀ`, possibly truncated. -/
structure GradSvd (G : Matrix j n ℝ) (U : Matrix n r ℝ) (s : r → ℝ) (V : Matrix j r ℝ) : Prop where
  orth : Uᵀ * U = 1
  sing : G * U = V * diagonal s

omit [DecidableEq n] in
theorem modeOf_eq {W : Matrix n j ℝ} {G : Matrix j n ℝ} {U : Matrix n r ℝ} {s : r → ℝ}
    {V : Matrix j r ℝ} (h : GradSvd G U s V) (p : ℂ × (r → ℂ)) :
    modeOf W V s p = (1 / p.1) • (cx (W * G) *ᵥ (cx U *ᵥ p.2)) := by
  unfold modeOf
  rw [Matrix.mul_assoc, ← h.sing, mulVec_smul, mulVec_mulVec, ← cx_mul, Matrix.mul_assoc]

/-- **C74 (modes).** Every eigenvalue kept by the analysis of a fixed point comes with a mode that is
a nonzero eigenvector of the linear operator `W G` restricted to the retained singular directions
(`W G U Uᵀ`), hence of `W G` itself when nothing of the gradient was truncated. Eigenvalues come in
order of descending modulus. -/
theorem C74_modes (W : Matrix n j ℝ) (G : Matrix j n ℝ) (U : Matrix n r ℝ) (s : r → ℝ)
    (V : Matrix j r ℝ) (h : GradSvd G U s V) (pairs : List (ℂ × (r → ℂ)))
    (heig : ∀ p ∈ pairs, p.2 ≠ 0 ∧ cx (atilde W G U) *ᵥ p.2 = p.1 • p.2) :
    (∀ p ∈ keepEigs pairs,
      modeOf W V s p ≠ 0 ∧
      cx (W * G * (U * Uᵀ)) *ᵥ modeOf W V s p = p.1 • modeOf W V s p ∧
      (G * (U * Uᵀ) = G → cx (W * G) *ᵥ modeOf W V s p = p.1 • modeOf W V s p)) ∧
    (keepEigs pairs).Pairwise (fun p q => ‖q.1‖ ≤ ‖p.1‖) ∧
    (∀ p, p ∈ keepEigs pairs ↔ p ∈ pairs ∧ (1e-16 : ℝ) < ‖p.1‖) := by
  have hmem : ∀ p, p ∈ keepEigs pairs ↔ p ∈ pairs ∧ (1e-16 : ℝ) < ‖p.1‖ := by
    intro p
    unfold keepEigs
    rw [List.mem_mergeSort, List.mem_filter, decide_eq_true_iff]
  refine ⟨fun p hp => ?_, ?_, hmem⟩
  · obtain ⟨hp1, hp2⟩ := (hmem p).mp hp
    obtain ⟨hw, he⟩ := heig p hp1
    have hl : p.1 ≠ 0 := by
      intro h0
      rw [h0, norm_zero] at hp2
      norm_num at hp2
    have hU : cx Uᵀ *ᵥ modeOf W V s p = p.2 := by
      rw [modeOf_eq h, mulVec_smul, mulVec_mulVec, mulVec_mulVec, ← cx_mul, ← cx_mul]
      rw [show Uᵀ * (W * G) * U = atilde W G U from rfl, he, smul_smul,
        one_div, inv_mul_cancel₀ hl, one_smul]
    have h1 : cx (W * G * (U * Uᵀ)) *ᵥ modeOf W V s p = p.1 • modeOf W V s p := by
      rw [← Matrix.mul_assoc, cx_mul, cx_mul, ← mulVec_mulVec, hU, modeOf_eq h, smul_smul,
        mul_one_div, div_self hl, one_smul, mulVec_mulVec]
    refine ⟨fun h0 => hw ?_, h1, fun hG => ?_⟩
    · rw [← hU, h0, mulVec_zero]
    · rw [Matrix.mul_assoc, hG] at h1
      exact h1
  · unfold keepEigs
    have := List.pairwise_mergeSort (le := fun p q : ℂ × (r → ℂ) => decide (‖q.1‖ ≤ ‖p.1‖))
      (fun a b c hab hbc => by
        simp only [decide_eq_true_eq] at *; exact le_trans hbc hab)
      (fun a b => by simp only [Bool.or_eq_true, decide_eq_true_eq]; exact le_total _ _)
      (pairs.filter fun p => decide ((1e-16 : ℝ) < ‖p.1‖))
    exact this.imp fun h => by simpa using h

omit [DecidableEq n] in
/-- **C74 (spectrum).** If nothing of the gradient was truncated, every eigenvalue of the linear
operator `W G` with modulus above `1e-16` is among those reported. -/
theorem C74_spectrum (W : Matrix n j ℝ) (G : Matrix j n ℝ) (U : Matrix n r ℝ) (s : r → ℝ)
    (V : Matrix j r ℝ) (h : GradSvd G U s V) (hG : G * (U * Uᵀ) = G)
    (pairs : List (ℂ × (r → ℂ)))
    (hall : ∀ (mu : ℂ) (w : r → ℂ), w ≠ 0 → cx (atilde W G U) *ᵥ w = mu • w →
      ∃ p ∈ pairs, p.1 = mu)
    (mu : ℂ) (hmu : (1e-16 : ℝ) < ‖mu‖) (psi : n → ℂ) (hpsi : psi ≠ 0)
    (he : cx (W * G) *ᵥ psi = mu • psi) :
    ∃ p ∈ keepEigs pairs, p.1 = mu := by
  have hl : mu ≠ 0 := by
    intro h0
    rw [h0, norm_zero] at hmu
    norm_num at hmu
  have hAU : cx (W * G) *ᵥ (cx U *ᵥ (cx Uᵀ *ᵥ psi)) = mu • psi := by
    rw [mulVec_mulVec, mulVec_mulVec, ← cx_mul, ← cx_mul, Matrix.mul_assoc, Matrix.mul_assoc,
      hG, he]
  obtain ⟨p, hp, rfl⟩ := hall mu (cx Uᵀ *ᵥ psi) (by
    intro h0
    rw [h0, mulVec_zero, mulVec_zero] at hAU
    exact (smul_ne_zero hl hpsi) hAU.symm) (by
    rw [atilde, cx_mul, cx_mul, ← mulVec_mulVec, ← mulVec_mulVec, hAU, mulVec_smul])
  exact ⟨p, by
    unfold keepEigs
    rw [List.mem_mergeSort, List.mem_filter, decide_eq_true_iff]
    exact ⟨hp, hmu⟩, rfl⟩

/-- A case: one feature, one item, gradient 3, weight 2, eigenvalue 6. -/
example : GradSvd (Matrix.of fun _ _ => 3 : Matrix Unit Unit ℝ) (1 : Matrix Unit Unit ℝ)
    (fun _ => 3) 1 := by
  constructor
  · simp
  · ext a b; simp

example : ∀ p ∈ [((6 : ℂ), (fun _ => 1 : Unit → ℂ))], p.2 ≠ 0 ∧
    cx (atilde (Matrix.of fun _ _ => 2 : Matrix Unit Unit ℝ)
      (Matrix.of fun _ _ => 3 : Matrix Unit Unit ℝ) (1 : Matrix Unit Unit ℝ)) *ᵥ p.2
      = p.1 • p.2 := by
  intro p hp
  rw [List.mem_singleton] at hp
  subst hp
  refine ⟨fun h => one_ne_zero (congrFun h ()), ?_⟩
  ext a
  simp [atilde, cx, mulVec, dotProduct, Matrix.mul_apply]
  norm_num

end Eig

/-! ### C75 -/

section Life

variable {n : Type} [Fintype n] [DecidableEq n]

/-- What a user reads off an instance splits the current model about `x`: the three parts exist and
sum to `f`. -/
def Splits (k : Kernel) (rho : n → ℝ) (st : Inst n) (x : n → ℝ) : Prop :=
  ∃ b A, st.getBias = .ok (some b) ∧ st.getLinear = .ok (some A) ∧
    ∀ v, ∃ y N, st.evalF k rho (x + v) = .ok y ∧ st.getNonlinear k rho v = .ok N ∧
      y = b + A *ᵥ v + N

/-- The state after an analysis with `compute_A`, in terms of the current model. -/
def Analysed (k : Kernel) (rho : n → ℝ) (x : n → ℝ) (st : Inst n) : Prop :=
  ∃ m, st.model = some m ∧ st.modes = true ∧ st.A = some (m.lin k rho x) ∧ st.computeA = true ∧
    st.fixedPoint = some x ∧ st.bias = some (m.f k rho x)

omit [DecidableEq n] in
theorem Analysed.splits {k : Kernel} {rho x : n → ℝ} {st : Inst n} (h : Analysed k rho x st) :
    Splits k rho st x := by
  obtain ⟨m, hm, hmo, hA, _, hfp, hb⟩ := h
  refine ⟨m.f k rho x, m.lin k rho x, ?_, ?_, fun v => ?_⟩
  · rw [Inst.getBias, if_pos hmo, hb]
  · rw [Inst.getLinear, if_pos hmo, hA]
  · refine ⟨m.f k rho (x + v), m.f k rho (v + x) - m.f k rho x - m.lin k rho x *ᵥ v, ?_, ?_, ?_⟩
    · rw [Inst.evalF, hm]
    · rw [Inst.getNonlinear, if_pos hmo, hm, hfp, hb]
    · rw [add_comm v x]; abel

omit [DecidableEq n] in
theorem model_call {k : Kernel} {rho : n → ℝ} (online : Bool) (st : Inst n) (c : Call n)
    (h : st.model ≠ none) : (Inst.call k rho online st c).model ≠ none := by
  obtain ⟨m, hm⟩ := Option.ne_none_iff_exists'.mp h
  cases c with
  | fit m' => simp [Inst.call, Inst.fit]
  | analyze x c => simp [Inst.call, Inst.analyze, hm, Inst.linOp]
  | update m' =>
    simp only [Inst.call, Inst.update, hm]
    cases online
    · simp [hm]
    · simp only [if_true]
      split <;> simp [Inst.linOp]

omit [DecidableEq n] in
theorem model_foldl {k : Kernel} {rho : n → ℝ} (online : Bool) (cs : List (Call n)) (st : Inst n)
    (h : st.model ≠ none ∨ ∃ m, Call.fit m ∈ cs) :
    (cs.foldl (Inst.call k rho online) st).model ≠ none := by
  induction cs generalizing st with
  | nil =>
    rcases h with h | ⟨m, hm⟩
    · exact h
    · exact absurd hm List.not_mem_nil
  | cons c cs ih =>
    refine ih _ ?_
    rcases h with h | ⟨m, hm⟩
    · exact Or.inl (model_call online st c h)
    · rcases List.mem_cons.mp hm with rfl | hm
      · exact Or.inl (by simp [Inst.call, Inst.fit])
      · exact Or.inr ⟨m, hm⟩

omit [DecidableEq n] in
theorem analysed_after {k : Kernel} {rho : n → ℝ} (online : Bool) (cs : List (Call n))
    (hfit : ∃ m, Call.fit m ∈ cs) (x : n → ℝ) (ms : List (Learnt n)) :
    Analysed k rho x
      (Inst.after k rho online (cs ++ [Call.analyze x true] ++ ms.map Call.update)) := by
  unfold Inst.after
  rw [List.foldl_append, List.foldl_append]
  obtain ⟨m, hm⟩ := Option.ne_none_iff_exists'.mp
    (model_foldl (k := k) (rho := rho) online cs {} (Or.inr hfit))
  set st := cs.foldl (Inst.call k rho online) {} with hst
  have h0 : Analysed k rho x (Inst.call k rho online st (.analyze x true)) := by
    refine ⟨m, ?_⟩
    simp [Inst.call, Inst.analyze, hm, Inst.linOp]
  have : ∀ (st : Inst n), Analysed k rho x st →
      Analysed k rho x ((ms.map Call.update).foldl (Inst.call k rho online) st) := by
    clear h0 hst hm m
    induction ms with
    | nil => exact fun st h => h
    | cons m' ms ih =>
      intro st h
      refine ih _ ?_
      obtain ⟨m, hm, hmo, hA, hc, hfp, hb⟩ := h
      cases online
      · refine ⟨m, ?_⟩
        simp [Inst.call, Inst.update, hm, hmo, hA, hc, hfp, hb]
      · refine ⟨m', ?_⟩
        simp [Inst.call, Inst.update, hm, hmo, hc, hfp, Inst.linOp]
  exact this _ h0

/-- **C75, part.** After any history in which the model was fitted, an analysis of `x` with
`compute_A=True`, and any number of updates (with or without online learning, in which case they
raise), `bias`, `linear` and `nonlinear` split the current `f` about `x`. What is missing: histories
in which the last analysis had `compute_A=False`, or which end with another `fit`, see
`C75_refit_false` and `C75_stale_linear_false`. -/
theorem C75_parts_partial (k : Kernel) (rho : n → ℝ) (online : Bool) (cs : List (Call n))
    (hfit : ∃ m, Call.fit m ∈ cs) (x : n → ℝ) (ms : List (Learnt n)) :
    Splits k rho (Inst.after k rho online (cs ++ [Call.analyze x true] ++ ms.map Call.update)) x :=
  (analysed_after online cs hfit x ms).splits

/-- **C75 (derivative), part.** In the same histories, for the linear and polynomial kernels, the
operator returned by `linear` is the derivative at `x` of the current `f`. -/
theorem C75_derivative_partial (k : Kernel) (hk : k.exact) (rho : n → ℝ) (online : Bool)
    (cs : List (Call n)) (hfit : ∃ m, Call.fit m ∈ cs) (x : n → ℝ) (ms : List (Learnt n)) :
    ∃ (A : Matrix n n ℝ) (g : (n → ℝ) → n → ℝ),
      (Inst.after k rho online (cs ++ [Call.analyze x true] ++ ms.map Call.update)).getLinear
        = .ok (some A) ∧
      (∀ z, (Inst.after k rho online (cs ++ [Call.analyze x true] ++ ms.map Call.update)).evalF
        k rho z = .ok (g z)) ∧
      HasFDerivAt g (clm A) x := by
  obtain ⟨m, hm, hmo, hA, _, _, _⟩ := analysed_after (k := k) (rho := rho) online cs hfit x ms
  refine ⟨m.lin k rho x, m.f k rho, ?_, fun z => ?_, ?_⟩
  · rw [Inst.getLinear, if_pos hmo, hA]
  · rw [Inst.evalF, hm]
  · exact C49_derivative_partial k hk rho m.D m.W x

/-- One feature, one dictionary item 1, weight `w`. -/
def one (w : ℝ) : Learnt Unit :=
  ⟨Unit, inferInstance, fun _ _ => 1, Matrix.of fun _ _ => w⟩

theorem one_f (k : Kernel) (w : ℝ) (x : Unit → ℝ) :
    (one w).f k (fun _ => 1) x = fun _ => w * k.eval (fun _ => 1) x := by
  have e : (one w).f k (fun _ => 1) x
      = f (j := Unit) k (fun _ => 1) (fun _ _ => 1) (Matrix.of fun _ _ => w) x := rfl
  rw [e]
  have hr : rescale (fun _ => 1) x = x := by funext i; simp [rescale]
  funext i
  simp [f, mulVec, dotProduct, hr]

theorem one_lin (k : Kernel) (w : ℝ) (x : Unit → ℝ) :
    (one w).lin k (fun _ => 1) x = Matrix.of fun _ i => w * k.grad (fun _ => 1) x i := by
  have e : (one w).lin k (fun _ => 1) x
      = linear (j := Unit) k (fun _ => 1) (fun _ _ => 1) (Matrix.of fun _ _ => w) x := rfl
  rw [e]
  have hr : rescale (fun _ => 1) x = x := by funext i; simp [rescale]
  ext i l
  simp [linear, kernelGrad, Matrix.mul_apply, hr]

/-- **C75, negation (refit).** After a second `fit`, the accessors of the fixed point analysis still
answer, but with the bias and linear part of the old model: they no longer split `f`. -/
theorem C75_refit_false :
    ∃ (m1 m2 : Learnt Unit) (x : Unit → ℝ),
      (Inst.after .linear (fun _ => 1) false [.fit m1, .analyze x true, .fit m2]).getBias
        = .ok (some (m1.f .linear (fun _ => 1) x)) ∧
      ¬ Splits .linear (fun _ => 1)
        (Inst.after .linear (fun _ => 1) false [.fit m1, .analyze x true, .fit m2]) x := by
  refine ⟨one 1, one 2, fun _ => 1, ?_, ?_⟩
  · simp [Inst.after, Inst.call, Inst.fit, Inst.analyze, Inst.linOp, Inst.getBias]
  · rintro ⟨b, A, hb, hA, h⟩
    obtain ⟨y, N, hy, hN, he⟩ := h fun _ => 1
    simp [Inst.after, Inst.call, Inst.fit, Inst.analyze, Inst.linOp, Inst.getBias,
      Inst.getLinear, Inst.evalF, Inst.getNonlinear, one_f, one_lin] at hb hA hy hN
    have := congrFun he ()
    rw [← hb, ← hA, ← hy, ← hN] at this
    simp [mulVec, dotProduct, Kernel.eval, Kernel.grad] at this
    norm_num at this

/-- **C75, negation (stale linear part).** After an analysis with `compute_A=True`, an analysis of
another point with `compute_A=False` leaves the old operator in place: `linear` belongs to the old
point, `bias` and `nonlinear` to the new one. -/
theorem C75_stale_linear_false :
    ∃ (m : Learnt Unit) (x1 x2 : Unit → ℝ),
      (Inst.after (.poly 1 0 2) (fun _ => 1) false
        [.fit m, .analyze x1 true, .analyze x2 false]).getLinear
        = .ok (some (m.lin (.poly 1 0 2) (fun _ => 1) x1)) ∧
      ¬ Splits (.poly 1 0 2) (fun _ => 1)
        (Inst.after (.poly 1 0 2) (fun _ => 1) false
          [.fit m, .analyze x1 true, .analyze x2 false]) x2 := by
  refine ⟨one 1, fun _ => 1, fun _ => 2, ?_, ?_⟩
  · simp [Inst.after, Inst.call, Inst.fit, Inst.analyze, Inst.linOp, Inst.getLinear]
  · rintro ⟨b, A, hb, hA, h⟩
    obtain ⟨y, N, hy, hN, he⟩ := h fun _ => 1
    simp [Inst.after, Inst.call, Inst.fit, Inst.analyze, Inst.linOp, Inst.getBias,
      Inst.getLinear, Inst.evalF, Inst.getNonlinear] at hb hA hy hN
    have := congrFun he ()
    rw [← hb, ← hA, ← hy, ← hN] at this
    simp [one_f, one_lin, Kernel.eval, Kernel.grad, mulVec, dotProduct] at this
    norm_num at this

/-- The hypotheses of the partial theorems are met, with updates, by a genuinely nonlinear model. -/
example : Splits (.poly 1 0 2) (fun _ => 1) (Inst.after (.poly 1 0 2) (fun _ => 1) true
    ([Call.fit (one 1)] ++ [Call.analyze (fun _ => 3) true] ++ [one 2].map Call.update))
    fun _ => 3 :=
  C75_parts_partial _ _ _ _ ⟨one 1, List.mem_singleton.mpr rfl⟩ _ _

end Life

/-! ### C76 -/

theorem orbit_ok {S : Type} (g : S → S) (h : S → Except PyErr S) (hg : ∀ x, h x = .ok (g x))
    (t : ℕ) (x : S) : orbit h t x = .ok ((List.range (t + 1)).map fun i => g^[i] x) := by
  induction t generalizing x with
  | zero => rfl
  | succ t ih =>
    rw [orbit, hg]
    simp only [ih]
    rw [List.range_succ_eq_map (n := t + 1), List.map_cons, List.map_map]
    rfl

/-- **C76 (prediction), part.** For one-dimensional snapshots, `predict(x0, tend, continuous=False)`
with `tend ≥ 1` returns the first `tend` points of the orbit of `x0` under the learnt model. What is
missing: multi-dimensional snapshots, see `C76_multidim_false`. -/
theorem C76_orbit_partial {S : Type} (g : S → S) (p : ℕ) (x0 : S) (tend : ℕ) (ht : 1 ≤ tend) :
    ∃ Y, predict g [p] [p] x0 tend = .ok Y ∧ Y.length = tend ∧
      ∀ i : ℕ, i < tend → Y[i]? = some (g^[i] x0) := by
  obtain ⟨t, rfl⟩ := Nat.exists_eq_add_of_le' ht
  refine ⟨(List.range (t + 1)).map fun i => g^[i] x0, ?_, by simp, fun i hi => ?_⟩
  · have : ∀ x, fChecked g [p] [p].prod x = .ok (g x) := by
      intro x; simp [fChecked]
    rw [predict, if_neg (not_not.mpr rfl)]
    exact orbit_ok g _ this t x0
  · rw [List.getElem?_map, List.getElem?_range hi, Option.map_some]

/-- **C76 (prediction), negation.** For snapshots with two or more axes, every prediction of at least
two points raises `ValueError`, whatever the model and the (correctly shaped) initial condition. -/
theorem C76_multidim_false {S : Type} (g : S → S) (a b : ℕ) (rest : List ℕ) (x0 : S) (t : ℕ) :
    predict g (a :: b :: rest) (a :: b :: rest) x0 (t + 2) = .error .valueError := by
  simp [predict, orbit, fChecked]

/-- **C76 (rescaling), part.** A rescaling array is accepted exactly if it has the shape of the
snapshots, and for one-dimensional snapshots it is accepted again by every later `fit`. -/
theorem C76_rescale_partial (s shape : List ℕ) :
    (checkXRescale (.array s) shape = .ok (.array [shape.prod]) ↔ s = shape) ∧
    (s ≠ shape → checkXRescale (.array s) shape = .error .valueError) ∧
    ∀ p : ℕ, checkXRescale (.array [p]) [p] = .ok (.array [p]) := by
  refine ⟨⟨fun h => ?_, ?_⟩, fun h => ?_, fun p => ?_⟩
  · by_contra hne
    simp [checkXRescale, hne] at h
  · rintro rfl; simp [checkXRescale]
  · simp [checkXRescale, h]
  · simp [checkXRescale]

/-- **C76 (rescaling), negation.** With multi-dimensional snapshots a rescaling array is accepted by
the first `fit` and rejected by every later `fit` of data of the same shape. -/
theorem C76_rescale_refit_false (a b : ℕ) (rest : List ℕ) :
    ∃ attr, checkXRescale (.array (a :: b :: rest)) (a :: b :: rest) = .ok attr ∧
      checkXRescale attr (a :: b :: rest) = .error .valueError := by
  exact ⟨.array [(a :: b :: rest).prod], by simp [checkXRescale], by simp [checkXRescale]⟩

example : predict (fun x : ℕ => 2 * x) [1] [1] 3 3 = .ok [3, 6, 12] := rfl

end Verif.Lando
