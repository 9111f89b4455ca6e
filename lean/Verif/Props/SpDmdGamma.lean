import Verif.Props.SpDmdAdmm

/-!
# Property C142: larger `gamma`, more zero amplitudes
-/

set_option autoImplicit false

namespace Verif.SpDmd

open Matrix Verif Verif.LinAlg Verif.Operator

variable {m r : Type} [Fintype m] [DecidableEq m] [Fintype r] [DecidableEq r]

/-- **C142** (`gamma = 0`; missing: a loop that stops at once, see `C51_loop_partial`). With `gamma = 0` no amplitude is
set to zero, so that `SpDMD` returns the optimal amplitudes (`C51_constrained_optimum` without constraints). -/
theorem C142_gamma_zero_partial (p : Params) (hg : p.gamma = 0) (ht : p.zeroTol ≤ 1) (L : Matrix r r ℂ) (q : r → ℂ)
    (hn : (run p L q).2.2 ≠ 0) (i : r) : ¬ zeroAmplitudes p L q i := by
  obtain ⟨h1, h2, seq, s0, s1, s2, s3, s4⟩ := admm_spec (update p L q) (loopCondition p)
    p.maxIterations.toNat (update p L q (fun _ => some 0) (fun _ => some 0)) (fun _ => some 0)
  have hst : ∀ (b l : NVec r) (j : r) (z : ℂ), (update p L q b l).beta j = some z → ‖z‖ = 1 := by
    intro b l j z hz
    simp only [update, updateBeta, hg, zero_div, bind] at hz
    obtain ⟨x, -, hz⟩ := Option.bind_eq_some_iff.mp hz
    obtain ⟨y, -, hz⟩ := Option.bind_eq_some_iff.mp hz
    rw [softThreshold] at hz
    split_ifs at hz with h0 hp
    · rw [← Option.some.inj hz, mul_one, norm_mul, Complex.norm_real, norm_div, norm_norm, sub_zero, norm_one,
        one_div, inv_mul_cancel₀ (norm_ne_zero_iff.mpr h0)]
    · exact absurd (norm_pos_iff.mpr h0) hp
  rintro ⟨z, hz, hlt⟩
  have e : (run p L q).2.1 = _ := s3
  obtain ⟨k, hk⟩ := Nat.exists_eq_succ_of_ne_zero hn
  have hk' : (admm (update p L q) (loopCondition p) p.maxIterations.toNat
    (update p L q (fun _ => some 0) (fun _ => some 0)) (fun _ => some 0)).2.2 = k + 1 := hk
  rw [hk'] at e
  rw [e] at hz
  cases k with
  | zero =>
    have : ‖z‖ = 1 := hst _ _ i z (by simpa [s0] using hz)
    linarith
  | succ k =>
    have : ‖z‖ = 1 := hst _ _ i z (by simpa [s1] using hz)
    linarith

/-- What holds after the first step and is kept by every step holds for the last but one `beta`. -/
theorem run_cases (p : Params) (L : Matrix r r ℂ) (q : r → ℂ) (Inv : Iter r → Prop)
    (h0 : Inv (update p L q (fun _ => some 0) (fun _ => some 0)))
    (h1 : ∀ it, Inv it → Inv (update p L q it.beta it.lmbd)) :
    ((run p L q).2.2 = 0 ∧ (run p L q).2.1 = fun _ => some 0) ∨
      ((run p L q).2.2 ≠ 0 ∧ ∃ it, Inv it ∧ (run p L q).2.1 = it.beta) := by
  obtain ⟨-, -, seq, s0, s1, -, s3, -⟩ := admm_spec (update p L q) (loopCondition p)
    p.maxIterations.toNat (update p L q (fun _ => some 0) (fun _ => some 0)) (fun _ => some 0)
  have hs : ∀ k, Inv (seq k) := fun k => by
    induction k with
    | zero => rw [s0]; exact h0
    | succ k ih => rw [s1]; exact h1 _ ih
  have e : (run p L q).2.1 = match (run p L q).2.2 with | 0 => fun _ => some 0 | j + 1 => (seq j).beta := s3
  cases hk : (run p L q).2.2 with
  | zero => left; rw [hk] at e; exact ⟨rfl, e⟩
  | succ k => right; rw [hk] at e; exact ⟨by simp, seq k, hs k, e⟩

theorem toVec_ofVec (v : r → ℂ) : (NVec.ofVec v).toVec? = some v := by simp [NVec.toVec?, NVec.ofVec]

omit [DecidableEq r] in
theorem toVec_none {v : NVec r} {j : r} (h : v j = none) : v.toVec? = none := by
  rw [NVec.toVec?, if_neg]
  intro hv
  have := hv j
  rw [h] at this
  simp at this

omit [DecidableEq r] in
theorem abs_le_norm (v : r → ℂ) (i : r) : ‖v i‖ ≤ Real.sqrt (normSq v) := by
  refine Real.le_sqrt_of_sq_le ?_
  rw [← Complex.normSq_eq_norm_sq]
  exact Finset.single_le_sum (f := fun i => Complex.normSq (v i)) (fun _ _ => Complex.normSq_nonneg _) (Finset.mem_univ i)

/-- One step from `beta = 0` contracts the distance of the multipliers from `2 q`. -/
theorem zero_step {N : ℕ} (p : Params) (hrho : 0 < p.rho) (modes : Matrix m r ℂ) (eigs : r → ℂ) (L : Matrix r r ℂ)
    (hL : IsUnit L.det) (hP : L * Lᴴ = prho p (optP modes (vander eigs N))) (q l : r → ℂ) :
    normSq (fun i => 2 * q i - (l i + updateAlpha p L q 0 l i * p.rho)) ≤ normSq fun i => 2 * q i - l i := by
  set a := updateAlpha p L q 0 l with ha
  have hr : (p.rho : ℂ) ≠ 0 := by exact_mod_cast hrho.ne'
  have hnorm : prho p (optP modes (vander eigs N)) *ᵥ a = fun i => q i + (0 - l i / p.rho) * p.rho / 2 := by
    rw [← hP, ha, updateAlpha, ← mulVec_mulVec, mulVec_mulVec _ Lᴴ, mul_nonsing_inv, one_mulVec,
      mulVec_mulVec, mul_nonsing_inv _ hL, one_mulVec]
    · rfl
    · rw [det_conjTranspose]; exact hL.star
  set S := stack modes (vander eigs N) with hS
  set Pa := optP modes (vander eigs N) *ᵥ a with hPa
  have h1 : ∀ i, 2 * q i - l i = 2 * Pa i + p.rho * a i := fun i => by
    have := congrFun hnorm i
    simp only [prho, add_mulVec, smul_mulVec, one_mulVec, Pi.add_apply, Pi.smul_apply, smul_eq_mul] at this
    rw [← hPa] at this
    push_cast at this
    have e : (0 - l i / (p.rho : ℂ)) * p.rho = - l i := by field_simp; ring
    rw [e] at this
    linear_combination -2 * this
  have h2 : (fun i => 2 * q i - l i) = (fun i => 2 * q i - (l i + a i * p.rho)) + fun i => a i * p.rho := by
    funext i; simp only [Pi.add_apply]; ring
  have h3 : (fun i => 2 * q i - (l i + a i * p.rho)) = fun i => 2 * Pa i := by
    funext i; linear_combination h1 i
  have h4 : (star (fun i => 2 * Pa i) ⬝ᵥ fun i => a i * p.rho) = ((2 * p.rho * normSq (S *ᵥ a) : ℝ) : ℂ) := by
    have e1 : star Pa ⬝ᵥ a = ((normSq (S *ᵥ a) : ℝ) : ℂ) := by
      rw [hPa, ← stack_gram, ← hS, ← mulVec_mulVec, star_mulVec, conjTranspose_conjTranspose, ← dotProduct_mulVec]
      simp only [dotProduct, normSq, Pi.star_apply, Complex.ofReal_sum, Complex.normSq_eq_conj_mul_self]
      rfl
    have e2 : (star (fun i => 2 * Pa i) ⬝ᵥ fun i => a i * p.rho) = 2 * p.rho * (star Pa ⬝ᵥ a) := by
      simp only [dotProduct, Finset.mul_sum, Pi.star_apply, star_mul']
      refine Finset.sum_congr rfl fun i _ => ?_
      have : star (2 : ℂ) = 2 := map_ofNat (starRingEnd ℂ) 2
      rw [this]; ring
    rw [e2, e1]
    push_cast
    ring
  rw [h2, normSq_add, h3, h4, Complex.ofReal_re]
  have := normSq_nonneg fun i => a i * (p.rho : ℂ)
  have := normSq_nonneg (S *ᵥ a)
  nlinarith [mul_nonneg hrho.le this]

/-- **C142** (large `gamma`; missing: `NaN`, see `C142_nan_false`). If `gamma` is at least four times the norm of
`q = conj(diag(V snapshots^H modes))`, all amplitudes are set to zero (unless the iteration produces `NaN`), whatever the
other parameters. -/
theorem C142_gamma_large_partial {N : ℕ} (p : Params) (hrho : 0 < p.rho) (ht : 0 < p.zeroTol) (modes : Matrix m r ℂ)
    (eigs : r → ℂ) (snaps : Matrix m (Fin N) ℂ) (L : Matrix r r ℂ) (hL : IsUnit L.det)
    (hP : L * Lᴴ = prho p (optP modes (vander eigs N)))
    (hg : 4 * Real.sqrt (∑ i, ‖optQExact modes (vander eigs N) snaps i‖ ^ 2) ≤ p.gamma) :
    (∃ i, (run p L (optQExact modes (vander eigs N) snaps)).2.1 i = none) ∨
      ∀ i, zeroAmplitudes p L (optQExact modes (vander eigs N) snaps) i := by
  set q := optQExact modes (vander eigs N) snaps with hq
  have hnq : ∑ i, ‖q i‖ ^ 2 = normSq q := by simp [normSq, Complex.normSq_eq_norm_sq]
  rw [hnq] at hg
  have hr : (p.rho : ℂ) ≠ 0 := by exact_mod_cast hrho.ne'
  have h2q : normSq (fun i => 2 * q i) = 4 * normSq q := by
    simp only [normSq, Finset.mul_sum, Complex.normSq_mul]
    refine Finset.sum_congr rfl fun i _ => ?_
    norm_num [Complex.normSq_ofNat]
  let Inv : Iter r → Prop := fun it => (∃ j, it.beta j = none) ∨
    ∃ l : r → ℂ, it.beta = NVec.ofVec 0 ∧ it.lmbd = NVec.ofVec l ∧ normSq (fun i => 2 * q i - l i) ≤ 4 * normSq q
  have key : ∀ l : r → ℂ, normSq (fun i => 2 * q i - l i) ≤ 4 * normSq q →
      Inv (update p L q (NVec.ofVec 0) (NVec.ofVec l)) := by
    intro l hl
    have hs := (zero_step p hrho modes eigs L hL hP q l).trans hl
    set a := updateAlpha p L q 0 l with ha
    have hv : ∀ i, ‖a i + l i / p.rho‖ ≤ p.gamma / p.rho := fun i => by
      have e : a i + l i / p.rho = (2 * q i - (2 * q i - (l i + a i * p.rho))) / p.rho := by field_simp; ring
      rw [e, norm_div, Complex.norm_real, Real.norm_of_nonneg hrho.le]
      refine div_le_div_of_nonneg_right ?_ hrho.le
      refine (norm_sub_le _ _).trans ?_
      have b1 := abs_le_norm (fun i => 2 * q i) i
      have b2 := abs_le_norm (fun i => 2 * q i - (l i + a i * p.rho)) i
      have b3 := Real.sqrt_le_sqrt hs
      rw [h2q] at b1
      have b4 : Real.sqrt (4 * normSq q) = 2 * Real.sqrt (normSq q) := by
        rw [Real.sqrt_mul (by norm_num), show (4 : ℝ) = 2 ^ 2 by norm_num, Real.sqrt_sq (by norm_num)]
      rw [b4] at b1 b3
      beta_reduce at b1 b2
      linarith
    by_cases hz : ∃ j, a j + l j / p.rho = 0
    · left
      obtain ⟨j, hj⟩ := hz
      refine ⟨j, ?_⟩
      simp only [update, updateAlphaN, toVec_ofVec]
      change softThreshold (a j + l j / p.rho) _ = none
      rw [hj]
      simp [softThreshold]
    · right
      refine ⟨fun i => l i + a i * p.rho, ?_, ?_, hs⟩
      · funext i
        simp only [update, updateAlphaN, toVec_ofVec]
        change softThreshold (a i + l i / p.rho) _ = some 0
        rw [softThreshold, if_neg fun h => hz ⟨i, h⟩, if_neg (not_lt.mpr (hv i)), mul_zero]
      · funext i
        have hb : (update p L q (NVec.ofVec 0) (NVec.ofVec l)).beta i = some 0 := by
          simp only [update, updateAlphaN, toVec_ofVec]
          change softThreshold (a i + l i / p.rho) _ = some 0
          rw [softThreshold, if_neg fun h => hz ⟨i, h⟩, if_neg (not_lt.mpr (hv i)), mul_zero]
        change (some (l i)).bind (fun x => ((updateAlphaN p L q (NVec.ofVec 0) (NVec.ofVec l) i).bind fun y =>
          ((update p L q (NVec.ofVec 0) (NVec.ofVec l)).beta i).bind fun z => some ((y - z) * p.rho)).bind
            fun y => some (x + y)) = _
        rw [hb]
        simp only [updateAlphaN, toVec_ofVec]
        change some (l i + (a i - 0) * p.rho) = some (l i + a i * p.rho)
        rw [sub_zero]
  have hrc := run_cases p L q Inv (by
        have := key 0 (by simp only [Pi.zero_apply, sub_zero]; exact h2q.le)
        exact this) (by
        rintro it (⟨j, hj⟩ | ⟨l, hb, hl, hn⟩)
        · left
          refine ⟨j, ?_⟩
          simp only [update, updateAlphaN, toVec_none hj]
          rfl
        · rw [hb, hl]
          exact key l hn)
  rcases hrc with ⟨-, h⟩ | ⟨-, it, hi, h⟩
  · right
    intro i
    exact ⟨0, by rw [h], by simpa using ht⟩
  · rcases hi with ⟨j, hj⟩ | ⟨l, hb, -, -⟩
    · left
      exact ⟨j, by rw [h, hj]⟩
    · right
      intro i
      exact ⟨0, by rw [h, hb]; rfl, by simpa using ht⟩

/-- **C142**, negation: if one entry of the first `alpha` is exactly 0 (for instance one mode is orthogonal to the other
modes and to the data), then no amplitude at all is set to zero, whatever `gamma`: the entry becomes `NaN`, in the next
step all entries do, and the loop runs until `max_iterations`. -/
theorem C142_nan_false (p : Params) (L : Matrix r r ℂ) (q : r → ℂ) (j : r) (hj : ((Lᴴ)⁻¹ *ᵥ (L⁻¹ *ᵥ q)) j = 0)
    (hmax : 2 ≤ p.maxIterations) (i : r) :
    (run p L q).2.2 = p.maxIterations.toNat ∧ ¬ zeroAmplitudes p L q i := by
  have h1 : (update p L q (fun _ => some 0) (fun _ => some 0)).beta j = none := by
    have e : updateAlpha p L q 0 0 = (Lᴴ)⁻¹ *ᵥ (L⁻¹ *ᵥ q) := by simp [updateAlpha]
    change (update p L q (NVec.ofVec 0) (NVec.ofVec 0)).beta j = none
    simp only [update, updateAlphaN, toVec_ofVec]
    change softThreshold (updateAlpha p L q 0 0 j + 0 / p.rho) _ = none
    rw [e, hj]
    simp [softThreshold]
  have h2 : ∀ it : Iter r, (∃ j, it.beta j = none) → ∀ i, (update p L q it.beta it.lmbd).beta i = none := by
    rintro it ⟨j, hj⟩ i
    simp only [update, updateAlphaN, toVec_none hj]
    rfl
  obtain ⟨a1, a2, seq, s0, s1, s2, s3, s4⟩ := admm_spec (update p L q) (loopCondition p)
    p.maxIterations.toNat (update p L q (fun _ => some 0) (fun _ => some 0)) (fun _ => some 0)
  have hs : ∀ k, ∃ j, (seq k).beta j = none := fun k => by
    induction k with
    | zero => rw [s0]; exact ⟨j, h1⟩
    | succ k ih => rw [s1]; exact ⟨j, h2 _ ih j⟩
  have hc : (run p L q).2.2 = p.maxIterations.toNat := by
    refine le_antisymm a1 (not_lt.mp fun hlt => ?_)
    have := a2 hlt
    rw [loopCondition_iff] at this
    obtain ⟨a, b, l, ob, -, hb, -⟩ := this
    rw [s2] at hb
    obtain ⟨j, hj⟩ := hs ((run p L q).2.2)
    have e : (seq (run p L q).2.2).beta = NVec.ofVec b := hb
    rw [e] at hj
    simp [NVec.ofVec] at hj
  refine ⟨hc, ?_⟩
  rintro ⟨z, hz, -⟩
  have e : (run p L q).2.1 = match (run p L q).2.2 with | 0 => fun _ => some 0 | j + 1 => (seq j).beta := s3
  obtain ⟨k, hk⟩ : ∃ k, (run p L q).2.2 = k + 2 := ⟨p.maxIterations.toNat - 2, by omega⟩
  rw [hk] at e
  have e2 : (run p L q).2.1 i = none := by
    rw [e]
    change (seq (k + 1)).beta i = none
    rw [s1]
    exact h2 _ (hs k) i
  rw [e2] at hz
  exact absurd hz (by simp)

/-- The step for one mode with `P = 1` and `rho = 6`. -/
theorem one_step (p : Params) (hrho : p.rho = 6) (s b l : ℝ) :
    updateAlpha p (diagonal fun _ => 2 : Matrix (Fin 1) (Fin 1) ℂ) (fun _ => (s : ℂ)) (fun _ => (b : ℂ))
      (fun _ => (l : ℂ)) = fun _ => (((s + (b - l / 6) * 3) / 4 : ℝ) : ℂ) := by
  funext i
  fin_cases i
  simp [updateAlpha, mulVec_diagonal, hrho]
  ring

theorem one_update (p : Params) (hrho : p.rho = 6) (s b l : ℝ) (hv : p.gamma / 6 < s / 4 + b * 3 / 4 + l / 24)
    (hg : 0 ≤ p.gamma) :
    update p (diagonal fun _ => 2 : Matrix (Fin 1) (Fin 1) ℂ) (fun _ => (s : ℂ)) (fun _ => some (b : ℂ))
      (fun _ => some (l : ℂ)) = ⟨fun _ => some (((s + (b - l / 6) * 3) / 4 : ℝ) : ℂ),
        fun _ => some ((1 - p.gamma / 6 : ℝ) : ℂ),
        fun _ => some ((l + ((s + (b - l / 6) * 3) / 4 - (1 - p.gamma / 6)) * 6 : ℝ) : ℂ)⟩ := by
  have ha : updateAlphaN p (diagonal fun _ => 2 : Matrix (Fin 1) (Fin 1) ℂ) (fun _ => (s : ℂ))
      (fun _ => some (b : ℂ)) (fun _ => some (l : ℂ)) = fun _ => some (((s + (b - l / 6) * 3) / 4 : ℝ) : ℂ) := by
    change updateAlphaN p _ _ (NVec.ofVec fun _ => (b : ℂ)) (NVec.ofVec fun _ => (l : ℂ)) = _
    rw [updateAlphaN, toVec_ofVec, toVec_ofVec]
    simp only
    rw [one_step p hrho]
    rfl
  have hb : updateBeta p (fun _ : Fin 1 => some (((s + (b - l / 6) * 3) / 4 : ℝ) : ℂ)) (fun _ => some (l : ℂ)) =
      fun _ => some ((1 - p.gamma / 6 : ℝ) : ℂ) := by
    funext i
    have e : (((s + (b - l / 6) * 3) / 4 : ℝ) : ℂ) + (l : ℂ) / p.rho = ((s / 4 + b * 3 / 4 + l / 24 : ℝ) : ℂ) := by
      rw [hrho]; push_cast; ring
    have hpos : 0 < s / 4 + b * 3 / 4 + l / 24 := lt_of_le_of_lt (by positivity) hv
    change softThreshold ((((s + (b - l / 6) * 3) / 4 : ℝ) : ℂ) + (l : ℂ) / p.rho) (p.gamma / p.rho) = _
    rw [e, softThreshold, if_neg (by exact_mod_cast hpos.ne'), Complex.norm_real, Real.norm_of_nonneg hpos.le, hrho,
      if_pos hv, mul_one, ← Complex.ofReal_mul, div_mul_cancel₀ _ hpos.ne']
  simp only [update, ha, hb]
  congr 1
  funext i
  change some ((l : ℂ) + ((((s + (b - l / 6) * 3) / 4 : ℝ) : ℂ) - ((1 - p.gamma / 6 : ℝ) : ℂ)) * p.rho) = _
  rw [hrho]
  push_cast
  rfl

/-- **C142**, negation: increasing `gamma` can turn a zero amplitude into a non-zero one. One mode 1 with eigenvalue 1, one
snapshot `s > 8`, `rho = 6`, any number of iterations (at least one) and any tolerances up to 1: the amplitude is set to
zero for `gamma = 6`, but not for `gamma = 12`. -/
theorem C142_sparser_false (p : Params) (hrho : p.rho = 6) (hmax : 1 ≤ p.maxIterations) (ha : p.absTol ≤ 1)
    (hr : 0 ≤ p.relTol ∧ p.relTol ≤ 1) (ht : 0 < p.zeroTol ∧ p.zeroTol ≤ 1) (s : ℝ) (hs : 8 < s) :
    let modes : Matrix (Fin 1) (Fin 1) ℂ := 1
    let eigs : Fin 1 → ℂ := fun _ => 1
    let L : Matrix (Fin 1) (Fin 1) ℂ := diagonal fun _ => 2
    let q := optQExact modes (vander eigs 1) (of fun _ _ => (s : ℂ))
    L * Lᴴ = prho p (optP modes (vander eigs 1)) ∧ zeroAmplitudes { p with gamma := 6 } L q 0 ∧
      ¬ zeroAmplitudes { p with gamma := 12 } L q 0 := by
  intro modes eigs L q
  have hq : q = fun _ => (s : ℂ) := by
    funext i
    fin_cases i
    simp [q, optQExact, modes, eigs, vander, Matrix.mul_apply]
  refine ⟨?_, ?_, ?_⟩
  · ext i j
    fin_cases i; fin_cases j
    simp [L, modes, eigs, prho, optP, vander, Matrix.mul_apply, hrho]
    norm_num
  · rw [hq]
    set p6 : Params := { p with gamma := 6 } with hp6
    have st := one_update p6 hrho s
    have hrc := run_cases p6 L (fun _ => (s : ℂ)) (fun it => ∃ l : ℝ, 0 ≤ l ∧ l ≤ 2 * s ∧ it.beta = (fun _ => some ((0 : ℝ) : ℂ)) ∧
        it.lmbd = fun _ => some (l : ℂ)) (by
          have := st 0 0 (by simp only [hp6]; linarith) (by simp only [hp6]; norm_num)
          simp only [Complex.ofReal_zero] at this
          rw [this]
          exact ⟨0 + ((s + (0 - 0 / 6) * 3) / 4 - (1 - 6 / 6)) * 6, by linarith, by linarith, by simp [hp6], by simp [hp6]⟩) (by
          rintro it ⟨l, h0, h1, hb, hl⟩
          rw [hb, hl, st 0 l (by simp only [hp6]; linarith) (by simp only [hp6]; norm_num)]
          exact ⟨l + ((s + (0 - l / 6) * 3) / 4 - (1 - 6 / 6)) * 6, by linarith, by linarith, by simp [hp6], by simp [hp6]⟩)
    rcases hrc with ⟨-, h⟩ | ⟨-, it, ⟨l, -, -, hb, -⟩, h⟩
    · exact ⟨0, by rw [h], by simpa using ht.1⟩
    · exact ⟨0, by rw [h, hb]; simp, by simpa using ht.1⟩
  · rw [hq]
    set p6 : Params := { p with gamma := 12 } with hp6
    have st := one_update p6 hrho s
    have first := st 0 0 (by simp only [hp6]; linarith) (by simp only [hp6]; norm_num)
    simp only [Complex.ofReal_zero] at first
    have hne : (run p6 L (fun _ => (s : ℂ))).2.2 ≠ 0 := by
      intro h0
      obtain ⟨-, a2, seq, s0, -, s2, -⟩ := admm_spec (update p6 L fun _ => (s : ℂ)) (loopCondition p6)
        p6.maxIterations.toNat (update p6 L (fun _ => (s : ℂ)) (fun _ => some 0) (fun _ => some 0)) (fun _ => some 0)
      have hlt : (run p6 L (fun _ => (s : ℂ))).2.2 < p6.maxIterations.toNat := by
        rw [h0]
        change 0 < p.maxIterations.toNat
        omega
      have hst := (loopCondition_iff _ _ _).mp (a2 hlt)
      have hrun : (run p6 L (fun _ => (s : ℂ))).1 = seq (run p6 L (fun _ => (s : ℂ))).2.2 := s2
      rw [h0, s0, first] at hrun
      obtain ⟨a, b, l, ob, e1, e2, -, -, hlt, -⟩ := hst
      have f1 := congrArg Iter.alpha hrun
      have f2 := congrArg Iter.beta hrun
      have g1 : a 0 = ((s / 4 : ℝ) : ℂ) := by
        have := congrFun (e1.symm.trans f1) 0
        have := Option.some.inj this
        rw [this]
        congr 1
        ring
      have g2 : b 0 = ((-1 : ℝ) : ℂ) := by
        have := congrFun (e2.symm.trans f2) 0
        have := Option.some.inj this
        rw [this]
        congr 1
        simp only [hp6]
        norm_num
      simp only [Finset.univ_unique, Finset.sum_singleton, Fin.default_eq_zero, Fintype.card_fin, g1, g2, ← Complex.ofReal_sub,
        Complex.norm_real, Real.norm_eq_abs, sq_abs, Nat.cast_one, Real.sqrt_one, one_mul] at hlt
      rw [Real.sqrt_sq (by linarith), Real.sqrt_sq (by linarith), show ((-1 : ℝ)) ^ 2 = 1 by norm_num, Real.sqrt_one,
        max_eq_left (by linarith)] at hlt
      have b1 : p6.absTol ≤ 1 := ha
      have b2 : p6.relTol * (s / 4) ≤ 1 * (s / 4) := mul_le_mul_of_nonneg_right hr.2 (by linarith)
      linarith
    have hrc := run_cases p6 L (fun _ => (s : ℂ)) (fun it => ∃ l : ℝ, 18 ≤ l ∧ it.beta = (fun _ => some ((-1 : ℝ) : ℂ)) ∧
        it.lmbd = fun _ => some (l : ℂ)) (by
          rw [first]
          exact ⟨0 + ((s + (0 - 0 / 6) * 3) / 4 - (1 - 12 / 6)) * 6, by linarith, by norm_num [hp6], by simp [hp6]⟩) (by
          rintro it ⟨l, h0, hb, hl⟩
          rw [hb, hl, st (-1) l (by simp only [hp6]; linarith) (by simp only [hp6]; norm_num)]
          exact ⟨l + ((s + (-1 - l / 6) * 3) / 4 - (1 - 12 / 6)) * 6, by linarith, by norm_num [hp6], by simp [hp6]⟩)
    rcases hrc with ⟨h, -⟩ | ⟨-, it, ⟨l, -, hb, -⟩, h⟩
    · exact absurd h hne
    · rintro ⟨z, hz, hlt⟩
      rw [h, hb] at hz
      have : z = ((-1 : ℝ) : ℂ) := (Option.some.inj hz).symm
      rw [this, Complex.norm_real] at hlt
      norm_num at hlt
      linarith [ht.2]

/-- The hypotheses of `C142_gamma_zero_partial` are met: tolerances 0, one iteration. -/
example (L : Matrix r r ℂ) (q : r → ℂ) :
    ∃ p : Params, p.gamma = 0 ∧ p.zeroTol ≤ 1 ∧ 0 < p.rho ∧ (run p L q).2.2 ≠ 0 := by
  refine ⟨⟨1, 0, 0, 0, 1, 1 / 2, true⟩, rfl, by norm_num, by norm_num, fun h0 => ?_⟩
  obtain ⟨-, a2, -⟩ := admm_spec (update ⟨1, 0, 0, 0, 1, 1 / 2, true⟩ L q) (loopCondition ⟨1, 0, 0, 0, 1, 1 / 2, true⟩)
    1 (update ⟨1, 0, 0, 0, 1, 1 / 2, true⟩ L q (fun _ => some 0) (fun _ => some 0)) (fun _ => some 0)
  have hlt : (run ⟨1, 0, 0, 0, 1, 1 / 2, true⟩ L q).2.2 < 1 := by rw [h0]; norm_num
  obtain ⟨a, b, l, ob, -, -, -, -, h, -⟩ := (loopCondition_iff _ _ _).mp (a2 hlt)
  simp only [mul_zero, zero_mul, add_zero] at h
  exact absurd h (not_lt.mpr (Real.sqrt_nonneg _))

/-- The hypotheses of `C142_gamma_large_partial` are met: one mode 1 with eigenvalue 1, one snapshot 1, `gamma = 4`. -/
example : ∃ p : Params, p.gamma = 4 ∧ 0 < p.rho ∧ 0 < p.zeroTol ∧
    (diagonal fun _ => 2 : Matrix (Fin 1) (Fin 1) ℂ) * (diagonal fun _ => 2 : Matrix (Fin 1) (Fin 1) ℂ)ᴴ =
      prho p (optP (1 : Matrix (Fin 1) (Fin 1) ℂ) (vander (fun _ => 1) 1)) ∧
    4 * Real.sqrt (∑ i, ‖optQExact (1 : Matrix (Fin 1) (Fin 1) ℂ) (vander (fun _ => 1) 1) 1 i‖ ^ 2) ≤ p.gamma := by
  refine ⟨⟨6, 4, 0, 0, 10, 1 / 2, true⟩, rfl, by norm_num, by norm_num, ?_, ?_⟩
  · ext i j
    fin_cases i; fin_cases j
    simp [prho, optP, vander, Matrix.mul_apply]
    norm_num
  · simp [optQExact, vander, Matrix.mul_apply]

/-- The hypothesis of `C142_nan_false` is met: two orthonormal modes with eigenvalue 1, one snapshot `(s, 0)`, `rho = 6`. -/
example (s : ℂ) (p : Params) (hrho : p.rho = 6) :
    let L : Matrix (Fin 2) (Fin 2) ℂ := diagonal fun _ => 2
    let modes : Matrix (Fin 2) (Fin 2) ℂ := 1
    let V : Matrix (Fin 2) (Fin 1) ℂ := !![1; 0]
    L * Lᴴ = prho p (optP modes (vander (fun _ => 1) 1)) ∧
      ((Lᴴ)⁻¹ *ᵥ (L⁻¹ *ᵥ optQExact modes (vander (fun _ => 1) 1) (of fun i _ => s * V i 0))) 1 = 0 := by
  intro L modes V
  refine ⟨?_, ?_⟩
  · ext i j
    fin_cases i <;> fin_cases j <;> simp [L, prho, hrho, optP, modes, vander, Matrix.mul_apply] <;> norm_num
  · have : (L⁻¹ : Matrix (Fin 2) (Fin 2) ℂ) = diagonal fun _ => (1 / 2 : ℂ) := by
      refine inv_eq_left_inv ?_
      ext i j
      fin_cases i <;> fin_cases j <;> simp [L]
    rw [← conjTranspose_nonsing_inv, this]
    simp [diagonal_conjTranspose, mulVec_diagonal, optQExact, modes, V, Matrix.mul_apply, Fin.sum_univ_two]

end Verif.SpDmd
