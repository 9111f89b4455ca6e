import Verif.Model.SpDmd
import Verif.Props.Linear
import Mathlib.Data.Matrix.ColumnRowPartitioned
import Mathlib.Tactic.Linarith

/-!
# Properties C51, C52, C64: sparsity-promoting DMD
-/

set_option autoImplicit false

namespace Verif.SpDmd

open Verif Verif.LinAlg Verif.Operator Matrix

/-! ## C52: soft thresholding -/

/-- **C52** is false. Soft thresholding of `4` by `2` is `2`; the code returns `-1`. -/
theorem C52_soft_threshold_false : softThreshold 4 2 = some (-1) ∧
    ¬ ∃ z, softThreshold 4 2 = some z ∧ ‖z‖ = ‖(4 : ℂ)‖ - 2 := by
  have h : softThreshold 4 2 = some (-1) := by
    simp [softThreshold]; norm_num
  refine ⟨h, ?_⟩
  rw [h]
  rintro ⟨z, hz, hn⟩
  obtain rfl := Option.some.inj hz
  norm_num at hn

/-- **C52** is false at 0: the result is `NaN` instead of 0. -/
theorem C52_zero_false (k : ℝ) : softThreshold 0 k = none := by simp [softThreshold]

/-- What the code does instead, for a non-zero entry `v` and a threshold `k`: entries not above the
threshold become 0 (as claimed); every entry above it becomes an entry of modulus `|1 - k|`,
whatever its own modulus, with the phase kept for `k < 1` and reversed for `k > 1`. It agrees with
soft thresholding (entry `(1 - k / |v|) v`) exactly if `|v| ≤ k` or `|v| = 1`. Missing from C52:
the modulus, the phase for `k > 1`, and the entry 0. -/
theorem C52_threshold_partial (v : ℂ) (hv : v ≠ 0) (k : ℝ) (hk : 0 ≤ k) :
    ∃ z, softThreshold v k = some z ∧ (‖v‖ ≤ k → z = 0) ∧
      (k < ‖v‖ → ‖z‖ = |1 - k| ∧ (k < 1 → ∃ c : ℝ, 0 < c ∧ z = c * v) ∧
        (1 < k → ∃ c : ℝ, c < 0 ∧ z = c * v) ∧
        (z = ((1 - k / ‖v‖ : ℝ) : ℂ) * v ↔ ‖v‖ = 1)) := by
  have hn : 0 < ‖v‖ := norm_pos_iff.mpr hv
  refine ⟨_, by rw [softThreshold, if_neg hv], ?_, ?_⟩
  · intro h; rw [if_neg (not_lt.mpr h), mul_zero]
  · intro h
    rw [if_pos h, mul_one]
    refine ⟨?_, ?_, ?_, ?_⟩
    · rw [norm_mul, Complex.norm_real, Real.norm_eq_abs, abs_div, abs_of_pos hn,
        div_mul_cancel₀ _ hn.ne']
    · intro h1; exact ⟨_, div_pos (by linarith) hn, rfl⟩
    · intro h1; exact ⟨_, div_neg_of_neg_of_pos (by linarith) hn, rfl⟩
    · rw [mul_left_inj' hv, Complex.ofReal_inj]
      constructor
      · intro he
        have : 1 - k = ‖v‖ - k := by
          have := congrArg (· * ‖v‖) he
          simp only [div_mul_cancel₀ _ hn.ne', sub_mul, one_mul] at this
          exact this
        linarith
      · intro he; rw [he]; ring

/-- A case above and a case below the threshold. -/
example : (∃ z, softThreshold 3 (1 / 2) = some z ∧ ‖z‖ = 1 / 2) ∧ softThreshold 3 5 = some 0 := by
  constructor
  · obtain ⟨z, h1, -, h2⟩ := C52_threshold_partial 3 (by norm_num) (1 / 2) (by norm_num)
    refine ⟨z, h1, ?_⟩
    rw [(h2 (by norm_num)).1, abs_of_pos (by norm_num)]
    norm_num
  · obtain ⟨z, h1, h2, -⟩ := C52_threshold_partial 3 (by norm_num) 5 (by norm_num)
    rw [h1, h2 (by norm_num)]

/-! ## C51: the amplitudes -/

variable {m r : Type} [Fintype m] [DecidableEq m] [Fintype r] [DecidableEq r]

/-- **C51** (amplitudes). If `spsolve` solves the KKT system, then for any set of discarded modes
the amplitudes vanish on it, whether or not zeros are enforced, and among all amplitude vectors
vanishing there they minimise the Frobenius distance between the snapshots and
`modes * diag(a) * V` (`exact=True`, the default of `SpDMD`; `V` is the Vandermonde matrix of the
eigenvalues). -/
theorem C51_constrained_optimum {N : ℕ} (modes : Matrix m r ℂ) (eigs : r → ℂ)
    (snaps : Matrix m (Fin N) ℂ) (zero : r → Prop) [Fintype {i // zero i}] (enforce : Bool)
    (sol : r ⊕ {i // zero i} → ℂ)
    (hsol : kkt (optP modes (vander eigs N)) zero *ᵥ sol =
      kktRhs (optQExact modes (vander eigs N) snaps) zero) :
    (∀ i, zero i → optimalAmplitudes enforce zero sol i = 0) ∧
    ∀ c : r → ℂ, (∀ i, zero i → c i = 0) →
      frobSq (modes * diagonal (optimalAmplitudes enforce zero sol) *
          (of fun i (j : Fin N) => eigs i ^ (j : ℕ)) - snaps) ≤
        frobSq (modes * diagonal c * (of fun i (j : Fin N) => eigs i ^ (j : ℕ)) - snaps) := by
  classical
  have hv : (of fun i (j : Fin N) => eigs i ^ (j : ℕ)) = vander eigs N := rfl
  rw [hv]
  set V := vander eigs N
  set a : r → ℂ := fun i => sol (Sum.inl i) with ha
  have hz : ∀ i, zero i → a i = 0 := by
    intro i hi
    have := congrFun hsol (Sum.inr ⟨i, hi⟩)
    simpa [kkt, kktRhs, mulVec, dotProduct, Fintype.sum_sum_type, unitCols] using this
  have hopt : optimalAmplitudes enforce zero sol = a := by
    funext i
    unfold optimalAmplitudes
    split_ifs with h
    · exact (hz i h.2).symm
    · rfl
  have hnz : ∀ i, ¬ zero i → (optP modes V *ᵥ a) i = optQExact modes V snaps i := by
    intro i hi
    have := congrFun hsol (Sum.inl i)
    simp only [kkt, kktRhs, mulVec, dotProduct, Fintype.sum_sum_type, fromBlocks_apply₁₁,
      fromBlocks_apply₁₂, Sum.elim_inl] at this
    rw [← this]
    have h0 : ∑ k : {i // zero i}, unitCols zero i k * sol (Sum.inr k) = 0 :=
      Finset.sum_eq_zero fun k _ => by
        have : i ≠ k.1 := fun h => hi (h ▸ k.2)
        simp [unitCols, this]
    rw [h0, add_zero]
    rfl
  rw [hopt]
  refine ⟨hz, fun c hc => ?_⟩
  set D : Matrix r r ℂ := diagonal fun i => if zero i then 0 else 1 with hD
  have hDv : ∀ c : r → ℂ, (∀ i, zero i → c i = 0) → D *ᵥ c = c := by
    intro c hc
    funext i
    rw [hD, mulVec_diagonal]
    split_ifs with h
    · rw [hc i h, mul_zero]
    · rw [one_mul]
  have hDh : Dᴴ = D := by
    rw [hD, diagonal_conjTranspose]
    congr 1; funext i
    simp only [Pi.star_apply]
    split_ifs <;> simp
  have hn : (stack modes V * D)ᴴ *ᵥ ((stack modes V * D) *ᵥ a - flat snaps) = 0 := by
    rw [← mulVec_mulVec, hDv a hz, conjTranspose_mul, hDh, ← mulVec_mulVec, mulVec_sub,
      mulVec_mulVec, stack_gram, stack_rhs]
    funext i
    rw [hD, mulVec_diagonal]
    by_cases h : zero i
    · simp [h]
    · simp [h, hnz i h]
  have gap := lstsq_gap _ _ _ hn c
  rw [← mulVec_mulVec, ← mulVec_mulVec, hDv a hz, hDv c hc, stack_mulVec, stack_mulVec] at gap
  rw [frobSq_flat, frobSq_flat]
  have e : ∀ b : r → ℂ, flat (modes * diagonal b * V - snaps) =
      flat (modes * diagonal b * V) - flat snaps := fun _ => rfl
  rw [e, e, gap]
  have := normSq_nonneg ((stack modes V * D) *ᵥ (c - a))
  linarith

omit [DecidableEq r] [Fintype r] in
/-- The loop: what it returns comes from a chain of updates. -/
theorem admm_spec (upd : NVec r → NVec r → Iter r) (stop : Iter r → NVec r → Bool) :
    ∀ (k : ℕ) (it : Iter r) (old : NVec r),
      (admm upd stop k it old).2.2 ≤ k ∧
      ((admm upd stop k it old).2.2 < k →
        stop (admm upd stop k it old).1 (admm upd stop k it old).2.1 = true) ∧
      ∃ seq : ℕ → Iter r, seq 0 = it ∧ (∀ i, seq (i + 1) = upd (seq i).beta (seq i).lmbd) ∧
        (admm upd stop k it old).1 = seq (admm upd stop k it old).2.2 ∧
        (admm upd stop k it old).2.1 =
          (match (admm upd stop k it old).2.2 with | 0 => old | j + 1 => (seq j).beta) ∧
        ∀ j < (admm upd stop k it old).2.2,
          stop (seq j) (match j with | 0 => old | j + 1 => (seq j).beta) = false := by
  intro k
  induction k with
  | zero =>
    intro it old
    refine ⟨le_rfl, fun h => absurd h (by simp [admm]), ?_⟩
    refine ⟨fun i => Nat.rec it (fun _ s => upd s.beta s.lmbd) i, rfl, fun _ => rfl, rfl, rfl, ?_⟩
    intro j hj; simp [admm] at hj
  | succ k ih =>
    intro it old
    by_cases hs : stop it old = true
    · have e : admm upd stop (k + 1) it old = (it, old, 0) := by simp [admm, hs]
      rw [e]
      refine ⟨Nat.zero_le _, fun _ => hs, ?_⟩
      exact ⟨fun i => Nat.rec it (fun _ s => upd s.beta s.lmbd) i, rfl, fun _ => rfl, rfl, rfl,
        fun j hj => absurd hj (Nat.not_lt_zero j)⟩
    · obtain ⟨h1, h2, seq, s0, s1, s2, s3, s4⟩ := ih (upd it.beta it.lmbd) it.beta
      set res := admm upd stop k (upd it.beta it.lmbd) it.beta with hres
      have e : admm upd stop (k + 1) it old = (res.1, res.2.1, res.2.2 + 1) := by
        simp [admm, hs, ← hres]
      rw [e]
      refine ⟨by simpa using h1, fun h => h2 (by simpa using h), ?_⟩
      refine ⟨fun i => Nat.casesOn i it seq, rfl, ?_, s2, ?_, ?_⟩
      · intro i
        cases i with
        | zero => exact s0
        | succ i => exact s1 i
      · show res.2.1 = _
        rw [s3]
        cases hc : res.2.2 with
        | zero => rfl
        | succ j => rfl
      · intro j hj
        cases j with
        | zero => simpa using hs
        | succ j =>
          have := s4 j (by simpa using hj)
          cases j with
          | zero => exact this
          | succ j => exact this

/-- Spec: the stopping test of ADMM, for the last iterate and the `beta` before it: primal and dual
residual are below their tolerances. -/
def Stops (p : Params) (it : Iter r) (oldBeta : NVec r) : Prop :=
  ∃ a b l ob : r → ℂ, it.alpha = .ofVec a ∧ it.beta = .ofVec b ∧ it.lmbd = .ofVec l ∧
    oldBeta = .ofVec ob ∧
    Real.sqrt (∑ i, ‖a i - b i‖ ^ 2) < Real.sqrt (Fintype.card r) * p.absTol +
      p.relTol * max (Real.sqrt (∑ i, ‖a i‖ ^ 2)) (Real.sqrt (∑ i, ‖b i‖ ^ 2)) ∧
    p.rho * Real.sqrt (∑ i, ‖b i - ob i‖ ^ 2) < Real.sqrt (Fintype.card r) * p.absTol +
      p.relTol * Real.sqrt (∑ i, ‖l i‖ ^ 2)

theorem loopCondition_iff (p : Params) (it : Iter r) (oldBeta : NVec r) :
    loopCondition p it oldBeta = true ↔ Stops p it oldBeta := by
  have hn : ∀ v : r → ℂ, norm2 v = Real.sqrt (∑ i, ‖v i‖ ^ 2) := by
    intro v; simp [norm2, normSq, Complex.normSq_eq_norm_sq]
  have ht : ∀ v : NVec r, ∀ w, v.toVec? = some w ↔ v = .ofVec w := by
    intro v w
    constructor
    · intro h
      rw [NVec.toVec?] at h
      split_ifs at h with hv
      rw [Option.some.injEq] at h
      funext i
      rw [← h]
      obtain ⟨z, hz⟩ := Option.isSome_iff_exists.mp (hv i)
      simp [NVec.ofVec, hz]
    · rintro rfl; simp [NVec.toVec?, NVec.ofVec]
  constructor
  · intro h
    rw [loopCondition] at h
    split at h
    · next a b l ob ha hb hl ho =>
      rw [ht] at ha hb hl ho
      refine ⟨a, b, l, ob, ha, hb, hl, ho, ?_⟩
      simpa [hn] using h
    · simp at h
  · rintro ⟨a, b, l, ob, ha, hb, hl, ho, h1, h2⟩
    rw [← ht] at ha hb hl ho
    rw [loopCondition, ha, hb, hl, ho]
    simpa [hn] using ⟨h1, h2⟩

/-- **C51** (the loop). Starting from `beta = lmbd = 0`, the loop performs one step and then at most
`max_iterations` more; unless the maximum is reached it stops at the first iterate for which the stopping
test holds. The discarded modes are those where the *last but one* `beta` is below the
tolerance. Missing for the claim about the discarded modes: they should be read off the final
iterate (see `C51_final_iterate_false`). -/
theorem C51_loop_partial (p : Params) (L : Matrix r r ℂ) (q : r → ℂ) :
    ∃ (seq : ℕ → Iter r) (n : ℕ), n ≤ p.maxIterations.toNat ∧
      seq 0 = update p L q (fun _ => some 0) (fun _ => some 0) ∧
      (∀ i, seq (i + 1) = update p L q (seq i).beta (seq i).lmbd) ∧
      (run p L q).1 = seq n ∧
      (n < p.maxIterations.toNat → Stops p (seq n) (run p L q).2.1) ∧
      (∀ i < n, ¬ Stops p (seq i) (match i with | 0 => fun _ => some 0 | k + 1 => (seq k).beta)) ∧
      (n = 0 → ∀ i, zeroAmplitudes p L q i ↔ 0 < p.zeroTol) ∧
      (∀ k, n = k + 1 → ∀ i, zeroAmplitudes p L q i ↔
        ∃ z, (seq k).beta i = some z ∧ ‖z‖ < p.zeroTol) := by
  obtain ⟨h1, h2, seq, s0, s1, s2, s3, s4⟩ := admm_spec (update p L q) (loopCondition p)
    p.maxIterations.toNat (update p L q (fun _ => some 0) (fun _ => some 0)) (fun _ => some 0)
  refine ⟨seq, (run p L q).2.2, h1, s0, s1, s2, ?_, ?_, ?_, ?_⟩
  · intro h
    have e : (run p L q).1 = seq (run p L q).2.2 := s2
    rw [← e, ← loopCondition_iff]; exact h2 h
  · intro i hi
    have := s4 i hi
    cases i <;> rw [← loopCondition_iff] <;> simp_all
  · intro hn i
    have : (run p L q).2.1 = fun _ => some 0 := by
      have := s3
      simp only [run] at hn
      rw [hn] at this
      exact this
    simp [zeroAmplitudes, below, this]
  · intro k hk i
    have : (run p L q).2.1 = (seq k).beta := by
      have := s3
      simp only [run] at hk
      rw [hk] at this
      exact this
    simp [zeroAmplitudes, below, this]

/-- **C51** is false about the discarded modes: with `max_iterations = 0` (or whenever the test
holds at once) every mode is discarded, whatever the iterate. Here the only iterate has
`beta = 1/2`, above the tolerance, and its mode is discarded. (`P = 1`, `q = 8`, `rho = 6`,
`gamma = 3`.) -/
theorem C51_final_iterate_false : ∃ (p : Params) (L : Matrix (Fin 1) (Fin 1) ℂ) (q : Fin 1 → ℂ),
    L * Lᴴ = prho p 1 ∧ 0 < p.rho ∧ 0 < p.gamma ∧ 0 < p.zeroTol ∧
    (run p L q).1.beta 0 = some (1 / 2) ∧ p.zeroTol < 1 / 2 ∧ zeroAmplitudes p L q 0 := by
  have hu : update ⟨6, 3, 1, 1, 0, 1 / 4, true⟩ (diagonal fun _ => 2 : Matrix (Fin 1) (Fin 1) ℂ)
      (fun _ => 8) (fun _ => some 0) (fun _ => some 0) =
      ⟨fun _ => some 2, fun _ => some (1 / 2), fun _ => some 9⟩ := by
    have ha : updateAlphaN ⟨6, 3, 1, 1, 0, 1 / 4, true⟩
        (diagonal fun _ => 2 : Matrix (Fin 1) (Fin 1) ℂ)
        (fun _ => 8) (fun _ => some 0) (fun _ => some 0) = fun _ => some 2 := by
      funext i
      fin_cases i
      simp [updateAlphaN, NVec.toVec?, updateAlpha, NVec.ofVec, mulVec_diagonal]
      norm_num
    have hb : updateBeta ⟨6, 3, 1, 1, 0, 1 / 4, true⟩ (fun _ : Fin 1 => some 2)
        (fun _ => some 0) = fun _ => some (1 / 2) := by
      funext i
      simp [updateBeta, softThreshold]
      norm_num
    simp only [update, ha, hb]
    congr 1
    funext i
    simp [updateLagrangian, NVec.zip]
    norm_num
  refine ⟨⟨6, 3, 1, 1, 0, 1 / 4, true⟩, diagonal fun _ => 2, fun _ => 8, ?_, by norm_num,
    by norm_num, by norm_num, ?_, by norm_num, ?_⟩
  · ext i j
    fin_cases i; fin_cases j
    simp [prho]; norm_num
  · simp only [run, admm, Int.toNat_zero, hu]
  · simp [zeroAmplitudes, below, run, admm]

/-! ## C64: the step for `alpha` -/

/-- **C64**. Let `L` be the Cholesky factor of `P + rho/2` (`rho > 0`). Then `_update_alpha`
minimises the augmented Lagrangian
`‖snapshots - modes diag(a) V‖² + Re ⟨lmbd, a - beta⟩ + rho/2 ‖a - beta‖²` over all amplitudes. -/
theorem C64_alpha_step {N : ℕ} (p : Params) (hrho : 0 < p.rho) (modes : Matrix m r ℂ) (eigs : r → ℂ)
    (snaps : Matrix m (Fin N) ℂ) (L : Matrix r r ℂ) (hL : IsUnit L.det)
    (hP : L * Lᴴ = prho p (optP modes (vander eigs N))) (beta lmbd : r → ℂ) (c : r → ℂ) :
    let V : Matrix r (Fin N) ℂ := of fun i j => eigs i ^ (j : ℕ)
    let J : (r → ℂ) → ℝ := fun a => frobSq (modes * diagonal a * V - snaps) +
      (∑ i, star (lmbd i) * (a i - beta i)).re + p.rho / 2 * normSq (a - beta)
    J (updateAlpha p L (optQExact modes (vander eigs N) snaps) beta lmbd) ≤ J c := by
  intro V J
  set S := stack modes V with hS
  set q := optQExact modes (vander eigs N) snaps with hq
  set a := updateAlpha p L q beta lmbd with ha
  have hV : V = vander eigs N := rfl
  have hr : (p.rho : ℂ) ≠ 0 := by exact_mod_cast hrho.ne'
  set t : ℝ := Real.sqrt (p.rho / 2) with ht
  have htt : (t : ℂ) * t = (p.rho / 2 : ℝ) := by
    rw [← Complex.ofReal_mul, ht, Real.mul_self_sqrt (by linarith)]
  set uk : r → ℂ := fun i => beta i - lmbd i / p.rho with huk
  -- the normal equations of the step
  have hnorm : prho p (optP modes V) *ᵥ a = fun i => q i + uk i * p.rho / 2 := by
    rw [hV, ← hP, ha, updateAlpha, ← mulVec_mulVec, mulVec_mulVec _ Lᴴ, mul_nonsing_inv, one_mulVec,
      mulVec_mulVec, mul_nonsing_inv _ hL, one_mulVec]
    rw [det_conjTranspose]; exact hL.star
  set A : Matrix ((m × Fin N) ⊕ r) r ℂ := fromRows S ((t : ℂ) • (1 : Matrix r r ℂ)) with hA
  set y : (m × Fin N) ⊕ r → ℂ := Sum.elim (flat snaps) ((t : ℂ) • uk) with hy
  have hAc : ∀ c : r → ℂ, A *ᵥ c - y = Sum.elim (S *ᵥ c - flat snaps) ((t : ℂ) • (c - uk)) := by
    intro c
    rw [hA, fromRows_mulVec, hy]
    funext i
    rcases i with i | i
    · rfl
    · simp [smul_mulVec, mul_sub]
  have hn : Aᴴ *ᵥ (A *ᵥ a - y) = 0 := by
    have hAH : Aᴴ = fromCols Sᴴ ((t : ℂ) • (1 : Matrix r r ℂ)) := by
      rw [hA, conjTranspose_fromRows_eq_fromCols_conjTranspose]
      congr 1
      rw [conjTranspose_smul, conjTranspose_one, Complex.star_def, Complex.conj_ofReal]
    rw [hAc, hAH, fromCols_mulVec]
    simp only [Sum.elim_comp_inl, Sum.elim_comp_inr]
    rw [mulVec_sub, mulVec_mulVec, hS, stack_gram, stack_rhs, smul_mulVec, one_mulVec, smul_smul,
      htt]
    funext i
    have := congrFun hnorm i
    simp only [prho, add_mulVec, smul_mulVec, one_mulVec, Pi.add_apply, Pi.smul_apply,
      smul_eq_mul] at this
    simp only [Pi.add_apply, Pi.sub_apply, Pi.smul_apply, smul_eq_mul, Pi.zero_apply]
    rw [show optQExact modes V snaps i = q i from rfl]
    push_cast at this ⊢
    linear_combination this
  have hsplit : ∀ c : r → ℂ, normSq (A *ᵥ c - y) =
      normSq (S *ᵥ c - flat snaps) + p.rho / 2 * normSq (c - uk) := by
    intro c
    rw [hAc]
    simp only [normSq, Fintype.sum_sum_type, Sum.elim_inl, Sum.elim_inr, Finset.mul_sum]
    congr 1
    refine Finset.sum_congr rfl fun i _ => ?_
    rw [Pi.smul_apply, smul_eq_mul, Complex.normSq_mul, Complex.normSq_ofReal, ht,
      Real.mul_self_sqrt (by linarith)]
  have hJ : ∀ c : r → ℂ, J c = normSq (A *ᵥ c - y) - p.rho / 2 * normSq (fun i => lmbd i / p.rho) :=
    by
    intro c
    have e1 : c - uk = (fun i => lmbd i / p.rho) + (c - beta) := by
      funext i; simp [huk]; ring
    have e2 : p.rho / 2 * (2 * (star (fun i => lmbd i / (p.rho : ℂ)) ⬝ᵥ (c - beta)).re) =
        (∑ i, star (lmbd i) * (c i - beta i)).re := by
      have : star (fun i => lmbd i / (p.rho : ℂ)) ⬝ᵥ (c - beta) =
          ((1 / p.rho : ℝ) : ℂ) * ∑ i, star (lmbd i) * (c i - beta i) := by
        rw [dotProduct, Finset.mul_sum]
        refine Finset.sum_congr rfl fun i _ => ?_
        simp only [Pi.star_apply, Pi.sub_apply, Complex.star_def, map_div₀, Complex.conj_ofReal]
        push_cast
        field_simp
      rw [this, Complex.re_ofReal_mul]
      field_simp
    rw [hsplit, e1, normSq_add]
    have e3 : frobSq (modes * diagonal c * V - snaps) = normSq (S *ᵥ c - flat snaps) := by
      rw [frobSq_flat, hS, stack_mulVec]; rfl
    show frobSq (modes * diagonal c * V - snaps) + (∑ i, star (lmbd i) * (c i - beta i)).re +
      p.rho / 2 * normSq (c - beta) = _
    rw [e3, ← e2]
    ring
  rw [hJ, hJ, lstsq_gap A y a hn c]
  have := normSq_nonneg (A *ᵥ (c - a))
  linarith


/-- The hypotheses of `C64_alpha_step` are met: one mode 1 with eigenvalue 1, three snapshots, so
`P = 3`, `rho = 2`, `L = 2`. -/
example : ∃ (p : Params) (L : Matrix (Fin 1) (Fin 1) ℂ), 0 < p.rho ∧ IsUnit L.det ∧
    L * Lᴴ = prho p (optP (1 : Matrix (Fin 1) (Fin 1) ℂ) (vander (fun _ => 1) 3)) := by
  refine ⟨⟨2, 1, 0, 0, 10, 0, true⟩, diagonal fun _ => 2, by norm_num, by simp, ?_⟩
  ext i j
  fin_cases i; fin_cases j
  simp [prho, optP, vander, Matrix.mul_apply]; norm_num

/-- The KKT system of `C51_constrained_optimum` has solutions: two orthogonal modes with eigenvalue
1, one snapshot `(3, 5)`, the second mode discarded. -/
example : ∃ sol, kkt (optP (1 : Matrix (Fin 2) (Fin 2) ℂ) (vander (fun _ => 1) 1))
      (fun i : Fin 2 => i = 1) *ᵥ sol =
    kktRhs (optQExact (1 : Matrix (Fin 2) (Fin 2) ℂ) (vander (fun _ => 1) 1) !![3; 5])
      (fun i : Fin 2 => i = 1) ∧
    optimalAmplitudes false (fun i : Fin 2 => i = 1) sol 0 = 3 := by
  refine ⟨Sum.elim ![3, 0] fun _ => 5, ?_, by simp [optimalAmplitudes]⟩
  funext i
  rcases i with i | ⟨i, hi⟩
  · fin_cases i <;>
      simp [kkt, kktRhs, mulVec, dotProduct, unitCols, optP, optQExact, vander, Matrix.mul_apply,
        Matrix.one_apply]
    · intro h
      have := Subtype.prop (default : {i : Fin 2 // i = 1})
      rw [← h] at this
      exact absurd this (by decide)
    · exact (Subtype.prop (default : {i : Fin 2 // i = 1})).symm
  · subst hi
    simp [kkt, kktRhs, mulVec, dotProduct, unitCols]

end Verif.SpDmd
