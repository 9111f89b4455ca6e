import Verif.Props.SpDmd
import Mathlib.Tactic

/-!
# C114: the iteration of sparsity-promoting DMD
-/

set_option autoImplicit false

namespace Verif.SpDmd

open Verif Verif.LinAlg Verif.Operator Matrix

variable {m r : Type} [Fintype m] [DecidableEq m] [Fintype r] [DecidableEq r]

/-- The objective of sparsity-promoting DMD: the error of the reconstruction with amplitudes `a` plus
`gamma` times the sum of their moduli. -/
noncomputable def objective {N : ℕ} (modes : Matrix m r ℂ) (eigs : r → ℂ) (snaps : Matrix m (Fin N) ℂ)
    (gamma : ℝ) (a : r → ℂ) : ℝ :=
  frobSq (modes * diagonal a * (of fun i (j : Fin N) => eigs i ^ (j : ℕ)) - snaps) +
    gamma * ∑ i, ‖a i‖

/-- One step of the iteration from `(b, l)` ends at `(b, l)` again, with `alpha = beta` and without
`NaN`. -/
def FixedPoint (p : Params) (L : Matrix r r ℂ) (q b l : r → ℂ) : Prop :=
  update p L q (.ofVec b) (.ofVec l) = ⟨.ofVec b, .ofVec b, .ofVec l⟩

theorem fixed_iff (p : Params) (L : Matrix r r ℂ) (q b l : r → ℂ) :
    FixedPoint p L q b l ↔ updateAlpha p L q b l = b ∧
      ∀ i, softThreshold (b i + l i / p.rho) (p.gamma / p.rho) = some (b i) := by
  have ht : ∀ v : r → ℂ, (NVec.ofVec v).toVec? = some v := by
    intro v; simp [NVec.toVec?, NVec.ofVec]
  have hinj : ∀ v w : r → ℂ, NVec.ofVec v = NVec.ofVec w → v = w := by
    intro v w h; funext i; exact Option.some.inj (congrFun h i)
  simp only [FixedPoint, update, updateAlphaN, ht, Iter.mk.injEq]
  constructor
  · rintro ⟨h1, h2, -⟩
    have h1 := hinj _ _ h1
    refine ⟨h1, fun i => ?_⟩
    rw [h1] at h2
    simpa [updateBeta, NVec.ofVec] using congrFun h2 i
  · rintro ⟨h1, h2⟩
    have hb : updateBeta p (.ofVec b) (.ofVec l) = .ofVec b := by
      funext i
      simpa [updateBeta, NVec.ofVec] using h2 i
    rw [h1, hb]
    refine ⟨rfl, rfl, ?_⟩
    funext i
    simp [updateLagrangian, NVec.zip, NVec.ofVec]

theorem frobSq_convex {n : Type} [Fintype n] (X Y : Matrix m n ℂ) (ε : ℝ) (h0 : 0 ≤ ε) (h1 : ε ≤ 1) :
    frobSq (((1 - ε : ℝ) : ℂ) • X + (ε : ℂ) • Y) ≤ (1 - ε) * frobSq X + ε * frobSq Y := by
  simp only [frobSq, Finset.mul_sum, ← Finset.sum_add_distrib]
  apply Finset.sum_le_sum
  intro i _
  apply Finset.sum_le_sum
  intro j _
  simp only [Matrix.add_apply, Matrix.smul_apply, smul_eq_mul, Complex.normSq_apply, Complex.add_re,
    Complex.add_im, Complex.mul_re, Complex.mul_im, Complex.ofReal_re, Complex.ofReal_im]
  nlinarith [mul_nonneg (mul_nonneg h0 (sub_nonneg.mpr h1)) (add_nonneg
    (sq_nonneg ((X i j).re - (Y i j).re)) (sq_nonneg ((X i j).im - (Y i j).im)))]

/-- **C114** (missing: amplitudes that are not 0, see `C114_fixed_point_false`). A fixed point of the
iteration minimises the objective, provided that soft thresholding as written in the code is soft
thresholding on its entries (C52): an entry is 0 or `|beta + lmbd/rho| = 1`. In particular if the
iteration settles at `beta = 0`, then no amplitudes do better than none at all. -/
theorem C114_fixed_point_partial {N : ℕ} (p : Params) (hrho : 0 < p.rho) (hgamma : 0 ≤ p.gamma)
    (modes : Matrix m r ℂ) (eigs : r → ℂ) (snaps : Matrix m (Fin N) ℂ) (L : Matrix r r ℂ)
    (hL : IsUnit L.det) (hP : L * Lᴴ = prho p (optP modes (vander eigs N))) (b l : r → ℂ)
    (hfix : FixedPoint p L (optQExact modes (vander eigs N) snaps) b l)
    (hone : ∀ i, b i = 0 ∧ ‖l i‖ ≤ p.gamma ∨ ‖b i + l i / p.rho‖ = 1) (c : r → ℂ) :
    objective modes eigs snaps p.gamma b ≤ objective modes eigs snaps p.gamma c := by
  rw [fixed_iff] at hfix
  obtain ⟨ha, hb⟩ := hfix
  have hstep := C64_alpha_step p hrho modes eigs snaps L hL hP b l
  rw [ha] at hstep
  simp only [sub_self, mul_zero, Finset.sum_const_zero, Complex.zero_re, add_zero] at hstep
  set V : Matrix r (Fin N) ℂ := of fun i j => eigs i ^ (j : ℕ) with hV
  set J : (r → ℂ) → ℝ := fun a => frobSq (modes * diagonal a * V - snaps) with hJ
  have hz : normSq (0 : r → ℂ) = 0 := by simp [normSq]
  -- the step towards `c`
  have hlin : J b ≤ J c + (∑ i, star (l i) * (c i - b i)).re := by
    apply le_of_forall_pos_le_add
    intro δ hδ
    have hn : 0 ≤ normSq (c - b) := by
      simp only [normSq]; exact Finset.sum_nonneg fun i _ => Complex.normSq_nonneg _
    obtain ⟨ε, hε0, hε1, hε⟩ : ∃ ε : ℝ, 0 < ε ∧ ε ≤ 1 ∧ p.rho / 2 * ε * normSq (c - b) ≤ δ := by
      refine ⟨min 1 (δ / (p.rho / 2 * normSq (c - b) + 1)), by positivity, min_le_left _ _, ?_⟩
      have hpos : 0 < p.rho / 2 * normSq (c - b) + 1 := by positivity
      have : min 1 (δ / (p.rho / 2 * normSq (c - b) + 1)) * (p.rho / 2 * normSq (c - b)) ≤
          δ / (p.rho / 2 * normSq (c - b) + 1) * (p.rho / 2 * normSq (c - b) + 1) := by
        apply mul_le_mul (min_le_right _ _) (by linarith) (by positivity) (by positivity)
      rw [div_mul_cancel₀ _ hpos.ne'] at this
      linarith
    have h := hstep (fun i => b i + ε * (c i - b i))
    have e1 : modes * diagonal (fun i => b i + ε * (c i - b i)) * V - snaps =
        ((1 - ε : ℝ) : ℂ) • (modes * diagonal b * V - snaps) +
          (ε : ℂ) • (modes * diagonal c * V - snaps) := by
      have hent : ∀ (a : r → ℂ) i j, (modes * diagonal a * V) i j = ∑ k, modes i k * a k * V k j := by
        intro a i j
        rw [Matrix.mul_apply]
        simp only [Matrix.mul_diagonal]
      ext i j
      simp only [Matrix.sub_apply, Matrix.add_apply, Matrix.smul_apply, hent, smul_eq_mul]
      have : ∑ k, modes i k * (b k + ε * (c k - b k)) * V k j =
          ((1 - ε : ℝ) : ℂ) * ∑ k, modes i k * b k * V k j + ε * ∑ k, modes i k * c k * V k j := by
        rw [Finset.mul_sum, Finset.mul_sum, ← Finset.sum_add_distrib]
        apply Finset.sum_congr rfl
        intro k _
        push_cast
        ring
      rw [this]
      push_cast
      ring
    have e2 : (∑ i, star (l i) * (b i + ε * (c i - b i) - b i)).re =
        ε * (∑ i, star (l i) * (c i - b i)).re := by
      rw [← Complex.re_ofReal_mul, Finset.mul_sum]
      congr 1
      apply Finset.sum_congr rfl
      intro i _
      ring
    have e3 : normSq ((fun i => b i + (ε : ℂ) * (c i - b i)) - b) = ε ^ 2 * normSq (c - b) := by
      simp only [normSq, Finset.mul_sum]
      apply Finset.sum_congr rfl
      intro i _
      simp only [Pi.sub_apply, add_sub_cancel_left, Complex.normSq_mul, Complex.normSq_ofReal]
      ring
    simp only [hz, mul_zero, add_zero, e1, e2, e3] at h
    have hc := frobSq_convex (modes * diagonal b * V - snaps) (modes * diagonal c * V - snaps) ε
      hε0.le hε1
    have h5 : J b ≤ (1 - ε) * J b + ε * J c + ε * (∑ i, star (l i) * (c i - b i)).re +
        p.rho / 2 * (ε ^ 2 * normSq (c - b)) := by
      simp only [hJ]; linarith
    have h6 : ε * J b ≤ ε * (J c + (∑ i, star (l i) * (c i - b i)).re +
        p.rho / 2 * ε * normSq (c - b)) := by nlinarith
    have h7 := le_of_mul_le_mul_left h6 hε0
    linarith
  -- the multipliers are subgradients
  have hsub : (∑ i, star (l i) * (c i - b i)).re ≤ p.gamma * ∑ i, ‖c i‖ - p.gamma * ∑ i, ‖b i‖ := by
    rw [Complex.re_sum, Finset.mul_sum, Finset.mul_sum, ← Finset.sum_sub_distrib]
    apply Finset.sum_le_sum
    intro i _
    have hle : ‖l i‖ ≤ p.gamma → (star (l i) * c i).re ≤ p.gamma * ‖c i‖ := by
      intro h
      calc (star (l i) * c i).re ≤ ‖star (l i) * c i‖ := Complex.re_le_norm _
        _ = ‖l i‖ * ‖c i‖ := by rw [norm_mul]; simp
        _ ≤ _ := mul_le_mul_of_nonneg_right h (norm_nonneg _)
    have hrne : (p.rho : ℂ) ≠ 0 := by exact_mod_cast hrho.ne'
    have key : ‖l i‖ ≤ p.gamma ∧ (star (l i) * b i).re = p.gamma * ‖b i‖ := by
      rcases hone i with ⟨h0, h1⟩ | h1
      · exact ⟨h1, by simp [h0]⟩
      · have hv := hb i
        have hv0 : b i + l i / p.rho ≠ 0 := by
          intro h; rw [h] at h1; simp at h1
        rw [softThreshold, if_neg hv0, h1] at hv
        simp only [div_one, Option.some.injEq] at hv
        set v := b i + l i / p.rho with hvdef
        have hlv : l i = p.rho * (v - b i) := by rw [hvdef]; field_simp; ring
        by_cases hk : (1 : ℝ) > p.gamma / p.rho
        · rw [if_pos hk, mul_one] at hv
          have hl : l i = (p.gamma : ℂ) * v := by
            rw [hlv, ← hv]
            push_cast
            field_simp
            ring
          constructor
          · rw [hl, norm_mul, h1, Complex.norm_real, Real.norm_of_nonneg hgamma, mul_one]
          · have hn : ‖b i‖ = 1 - p.gamma / p.rho := by
              rw [← hv, norm_mul, h1, Complex.norm_real, mul_one, Real.norm_of_nonneg]
              linarith
            rw [hn, hl, ← hv]
            have hvv : star v * v = 1 := by
              rw [Complex.star_def, ← Complex.normSq_eq_conj_mul_self, Complex.normSq_eq_norm_sq, h1]
              simp
            have : star ((p.gamma : ℂ) * v) * (((1 - p.gamma / p.rho : ℝ) : ℂ) * v) =
                ((p.gamma * (1 - p.gamma / p.rho) : ℝ) : ℂ) * (star v * v) := by
              simp only [star_mul', Complex.star_def, Complex.conj_ofReal]
              push_cast
              ring
            rw [this, hvv, mul_one, Complex.ofReal_re]
        · rw [if_neg hk, mul_zero] at hv
          have hl : l i = (p.rho : ℂ) * v := by rw [hlv, ← hv]; ring
          constructor
          · rw [hl, norm_mul, h1, Complex.norm_real, Real.norm_of_nonneg hrho.le, mul_one]
            rw [gt_iff_lt, not_lt, le_div_iff₀ hrho, one_mul] at hk
            exact hk
          · simp [← hv]
    rw [mul_sub, Complex.sub_re, key.2]
    linarith [hle key.1]
  simp only [objective]
  have : J b = frobSq (modes * diagonal b * (of fun i (j : Fin N) => eigs i ^ (j : ℕ)) - snaps) := rfl
  rw [← this]
  have : J c = frobSq (modes * diagonal c * (of fun i (j : Fin N) => eigs i ^ (j : ℕ)) - snaps) := rfl
  rw [← this]
  linarith

/-- At `beta = 0` the multipliers need no separate hypothesis: every fixed point at 0 is a minimiser. -/
theorem C114_zero {N : ℕ} (p : Params) (hrho : 0 < p.rho) (hgamma : 0 ≤ p.gamma)
    (hne : p.gamma ≠ p.rho)
    (modes : Matrix m r ℂ) (eigs : r → ℂ) (snaps : Matrix m (Fin N) ℂ) (L : Matrix r r ℂ)
    (hL : IsUnit L.det) (hP : L * Lᴴ = prho p (optP modes (vander eigs N))) (l : r → ℂ)
    (hfix : FixedPoint p L (optQExact modes (vander eigs N) snaps) 0 l) (c : r → ℂ) :
    objective modes eigs snaps p.gamma 0 ≤ objective modes eigs snaps p.gamma c := by
  refine C114_fixed_point_partial p hrho hgamma modes eigs snaps L hL hP 0 l hfix (fun i => ?_) c
  left
  refine ⟨rfl, ?_⟩
  have h := ((fixed_iff _ _ _ _ _).mp hfix).2 i
  simp only [Pi.zero_apply, zero_add] at h
  by_contra hlt
  rw [not_le] at hlt
  have hrne : (p.rho : ℂ) ≠ 0 := by exact_mod_cast hrho.ne'
  have hl0 : l i ≠ 0 := by
    intro h0; rw [h0, norm_zero] at hlt; linarith
  have hq : l i / p.rho ≠ 0 := div_ne_zero hl0 hrne
  have hn : ‖l i / p.rho‖ = ‖l i‖ / p.rho := by
    rw [norm_div, Complex.norm_real, Real.norm_of_nonneg hrho.le]
  have hgt : ‖l i / p.rho‖ > p.gamma / p.rho := by
    rw [hn]; exact (div_lt_div_iff_of_pos_right hrho).mpr hlt
  rw [softThreshold, if_neg hq, if_pos hgt, mul_one] at h
  have h := Option.some.inj h
  rcases mul_eq_zero.mp h with h | h
  · rw [Complex.ofReal_eq_zero, div_eq_zero_iff] at h
    rcases h with h | h
    · apply hne
      rw [sub_eq_zero, eq_div_iff hrho.ne'] at h
      linarith
    · exact hq (norm_eq_zero.mp h)
  · exact hq h

/-- **C114** is false: at every fixed point every amplitude that is not 0 has the modulus
`|1 - gamma/rho|`, whatever the data. -/
theorem C114_modulus_false (p : Params) (L : Matrix r r ℂ) (q b l : r → ℂ)
    (hfix : FixedPoint p L q b l) (i : r) (hi : b i ≠ 0) : ‖b i‖ = |1 - p.gamma / p.rho| := by
  have h := ((fixed_iff _ _ _ _ _).mp hfix).2 i
  rw [softThreshold] at h
  split_ifs at h with h0 h1
  · have h := Option.some.inj h
    rw [← h, mul_one, norm_mul, Complex.norm_real, norm_div, norm_norm,
      div_mul_cancel₀ _ (norm_ne_zero_iff.mpr h0), Real.norm_eq_abs]
  · exact absurd (by simpa using (Option.some.inj h).symm) hi

/-- **C114** is false for `gamma = rho`: after every step each entry of `beta` is 0 or `NaN`,
whatever the data, so no non-zero amplitude is ever found. -/
theorem C114_equal_false (p : Params) (hrho : p.rho ≠ 0) (h : p.gamma = p.rho) (L : Matrix r r ℂ)
    (q : r → ℂ) (b l : NVec r) (i : r) :
    (update p L q b l).beta i = none ∨ (update p L q b l).beta i = some 0 := by
  simp only [update, updateBeta, h, div_self hrho]
  cases updateAlphaN p L q b l i with
  | none => left; rfl
  | some x =>
    cases hl : l i with
    | none => left; rfl
    | some y =>
      simp only [bind, Option.bind, softThreshold]
      split_ifs <;> simp

/-- **C114** is false: for one mode that is constant in time and one snapshot `s > 2`, with `rho = 6` and
`gamma = 3`, the amplitude `1/2` is a fixed point whatever `s`, though it is not a minimiser:
`s - 3/2` is better. -/
theorem C114_fixed_point_false (p : Params) (hrho : p.rho = 6) (hgamma : p.gamma = 3) (s : ℝ)
    (hs : 2 < s) :
    FixedPoint p (diagonal fun _ => 2 : Matrix (Fin 1) (Fin 1) ℂ)
      (optQExact (1 : Matrix (Fin 1) (Fin 1) ℂ) (vander (fun _ : Fin 1 => 1) 1) (of fun _ _ => (s : ℂ)))
      (fun _ => 1 / 2) (fun _ => 2 * s - 1) ∧
    (diagonal fun _ => 2 : Matrix (Fin 1) (Fin 1) ℂ) * (diagonal fun _ => 2)ᴴ =
      prho p (optP (1 : Matrix (Fin 1) (Fin 1) ℂ) (vander (fun _ : Fin 1 => 1) 1)) ∧
    objective (N := 1) (1 : Matrix (Fin 1) (Fin 1) ℂ) (fun _ : Fin 1 => 1) (of fun _ _ => (s : ℂ))
        p.gamma (fun _ => ((s - 3 / 2 : ℝ) : ℂ)) <
      objective (N := 1) (1 : Matrix (Fin 1) (Fin 1) ℂ) (fun _ : Fin 1 => 1) (of fun _ _ => (s : ℂ))
        p.gamma (fun _ => 1 / 2) := by
  refine ⟨?_, ?_, ?_⟩
  · rw [fixed_iff]
    constructor
    · funext i
      fin_cases i
      simp [updateAlpha, mulVec_diagonal, optQExact, vander, hrho, Matrix.mul_apply]
      ring
    · intro i
      have hv : ((1 / 2 : ℂ) + (2 * s - 1) / (p.rho : ℂ)) = (((s + 1) / 3 : ℝ) : ℂ) := by
        rw [hrho]; push_cast; ring
      have hpos : 0 < (s + 1) / 3 := by linarith
      rw [hv, softThreshold, if_neg (by exact_mod_cast hpos.ne'), Complex.norm_real,
        Real.norm_of_nonneg hpos.le, hrho, hgamma, if_pos (by norm_num; linarith), mul_one,
        ← Complex.ofReal_mul]
      congr 1
      rw [div_mul_cancel₀ _ hpos.ne']
      norm_num
  · ext i j
    fin_cases i; fin_cases j
    simp [prho, optP, vander, hrho, Matrix.mul_apply]; norm_num
  · have h1 : ‖((s - 3 / 2 : ℝ) : ℂ)‖ = s - 3 / 2 := by
      rw [Complex.norm_real, Real.norm_of_nonneg (by linarith)]
    have h2 : ‖(1 / 2 : ℂ)‖ = 1 / 2 := by norm_num
    simp only [objective, Finset.univ_unique, Finset.sum_singleton, h1, h2, hgamma]
    simp [frobSq, Matrix.mul_apply, Complex.normSq_apply]
    nlinarith

/-- The hypotheses of `C114_zero` are met: one constant mode, the snapshot 1, `rho = 6`, `gamma = 3`;
the iteration rests at `beta = 0`. -/
example : FixedPoint ⟨6, 3, 1, 1, 0, 1 / 4, true⟩ (diagonal fun _ => 2 : Matrix (Fin 1) (Fin 1) ℂ)
    (optQExact (1 : Matrix (Fin 1) (Fin 1) ℂ) (vander (fun _ : Fin 1 => 1) 1) (of fun _ _ => 1))
    0 (fun _ => 2) := by
  rw [fixed_iff]
  constructor
  · funext i
    fin_cases i
    simp [updateAlpha, mulVec_diagonal, optQExact, vander, Matrix.mul_apply]
  · intro i
    simp [softThreshold]
    norm_num

/-- The hypotheses of `C114_fixed_point_partial` are met with a non-zero amplitude: the same with the
snapshot 2; the iteration rests at `1/2`. -/
example : FixedPoint ⟨6, 3, 1, 1, 0, 1 / 4, true⟩ (diagonal fun _ => 2 : Matrix (Fin 1) (Fin 1) ℂ)
    (optQExact (1 : Matrix (Fin 1) (Fin 1) ℂ) (vander (fun _ : Fin 1 => 1) 1) (of fun _ _ => 2))
    (fun _ => 1 / 2) (fun _ => 3) ∧ ‖(1 / 2 : ℂ) + 3 / ((6 : ℝ) : ℂ)‖ = 1 := by
  rw [fixed_iff]
  refine ⟨⟨?_, ?_⟩, by norm_num⟩
  · funext i
    fin_cases i
    simp [updateAlpha, mulVec_diagonal, optQExact, vander, Matrix.mul_apply]
    norm_num
  · intro i
    norm_num [softThreshold]

end Verif.SpDmd
