import Verif.Props.SpDmdGamma
import Verif.Props.RealData

/-!
# Properties C159 and C160: `SpDMD` of real snapshots, and of the same data in other units, coordinates and orders
-/

set_option autoImplicit false

namespace Verif.SpDmd

open Matrix Verif Verif.LinAlg Verif.Operator Verif.RealData Verif.Time Verif.Bitmask

variable {m r : Type} [Fintype m] [DecidableEq m] [Fintype r] [DecidableEq r]

/-! ## The iteration commutes with isometries -/

/-- Reorder the entries and apply `g i` to entry `i`. -/
noncomputable def act (σ : Equiv.Perm r) (g : r → ℂ →ₗᵢ[ℝ] ℂ) (v : NVec r) : NVec r := fun i => (v (σ i)).map (g i)

theorem softThreshold_act (g : ℂ →ₗᵢ[ℝ] ℂ) (v : ℂ) (k : ℝ) : softThreshold (g v) k = (softThreshold v k).map g := by
  unfold softThreshold
  have h0 : g v = 0 ↔ v = 0 := by rw [← norm_eq_zero, g.norm_map, norm_eq_zero]
  by_cases hv : v = 0
  · simp [hv]
  · rw [if_neg hv, if_neg (fun h => hv (h0.mp h)), g.norm_map, Option.map_some]
    split_ifs
    · have := g.map_smul ((1 - k) / ‖v‖) v
      rw [mul_one, mul_one]
      simpa [Complex.real_smul] using this.symm
    · simp

omit [DecidableEq r] in
theorem toVec_act (σ : Equiv.Perm r) (g : r → ℂ →ₗᵢ[ℝ] ℂ) (v : NVec r) :
    (act σ g v).toVec? = v.toVec?.map fun w i => g i (w (σ i)) := by
  unfold NVec.toVec?
  have : (∀ i, (act σ g v i).isSome) ↔ ∀ i, (v i).isSome := by
    simp only [act, Option.isSome_map]
    exact ⟨fun h i => by simpa using h (σ.symm i), fun h i => h _⟩
  by_cases h : ∀ i, (v i).isSome
  · rw [if_pos h, if_pos (this.mpr h), Option.map_some]
    congr 1
    funext i
    obtain ⟨z, hz⟩ := Option.isSome_iff_exists.mp (h (σ i))
    simp [act, hz]
  · rw [if_neg h, if_neg (fun h' => h (this.mp h'))]
    rfl

omit [DecidableEq r] in
theorem norm2_act (σ : Equiv.Perm r) (g : r → ℂ →ₗᵢ[ℝ] ℂ) (w : r → ℂ) : norm2 (fun i => g i (w (σ i))) = norm2 w := by
  unfold norm2 normSq
  congr 1
  simp only [Complex.normSq_eq_norm_sq, (g _).norm_map]
  exact Equiv.sum_comp σ fun i => ‖w i‖ ^ 2

theorem iso_div (g : ℂ →ₗᵢ[ℝ] ℂ) (z : ℂ) (x : ℝ) : g (z / x) = g z / x := by
  have := g.map_smul x⁻¹ z
  simpa [Complex.real_smul, div_eq_inv_mul] using this

theorem iso_mul (g : ℂ →ₗᵢ[ℝ] ℂ) (z : ℂ) (x : ℝ) : g (z * x) = g z * x := by
  have := g.map_smul x z
  simpa [Complex.real_smul, mul_comm] using this

/-- What relates the two linear systems. -/
def Related (σ : Equiv.Perm r) (g : r → ℂ →ₗᵢ[ℝ] ℂ) (L L' : Matrix r r ℂ) : Prop :=
  ∀ w : r → ℂ, (L' * L'ᴴ)⁻¹ *ᵥ (fun i => g i (w (σ i))) = fun i => g i (((L * Lᴴ)⁻¹ *ᵥ w) (σ i))

theorem update_act (p : Params) (σ : Equiv.Perm r) (g : r → ℂ →ₗᵢ[ℝ] ℂ) (L L' : Matrix r r ℂ) (h : Related σ g L L')
    (q : r → ℂ) (b l : NVec r) :
    update p L' (fun i => g i (q (σ i))) (act σ g b) (act σ g l) =
      ⟨act σ g (update p L q b l).alpha, act σ g (update p L q b l).beta, act σ g (update p L q b l).lmbd⟩ := by
  have ha : updateAlphaN p L' (fun i => g i (q (σ i))) (act σ g b) (act σ g l) = act σ g (updateAlphaN p L q b l) := by
    unfold updateAlphaN
    rw [toVec_act, toVec_act]
    cases b.toVec? with
    | none => rfl
    | some b =>
      cases l.toVec? with
      | none => rfl
      | some l =>
        simp only [Option.map_some]
        have e : ∀ (L : Matrix r r ℂ) (w : r → ℂ), (Lᴴ)⁻¹ *ᵥ (L⁻¹ *ᵥ w) = (L * Lᴴ)⁻¹ *ᵥ w := fun L w => by
          rw [Matrix.mul_inv_rev, mulVec_mulVec]
        have h2 : ∀ (g' : ℂ →ₗᵢ[ℝ] ℂ) (z : ℂ), g' (z / 2) = g' z / 2 := fun g' z => by
          have := iso_div g' z 2
          simpa using this
        have := h fun i => q i + (b i - l i / p.rho) * p.rho / 2
        simp only [map_add, map_sub, h2, iso_mul, iso_div] at this
        funext i
        simp only [updateAlpha, e, NVec.ofVec, act, Option.map_some]
        rw [← congrFun this i]
  have hb : ∀ a l : NVec r, updateBeta p (act σ g a) (act σ g l) = act σ g (updateBeta p a l) := by
    intro a l
    funext i
    simp only [updateBeta, act]
    cases a (σ i) with
    | none => rfl
    | some a =>
      cases l (σ i) with
      | none => rfl
      | some l =>
        change softThreshold (g i a + g i l / p.rho) _ = (softThreshold (a + l / p.rho) _).map (g i)
        rw [← softThreshold_act, map_add, iso_div]
  have hl : ∀ a b l : NVec r, updateLagrangian p (act σ g a) (act σ g b) (act σ g l) =
      act σ g (updateLagrangian p a b l) := by
    intro a b l
    funext i
    simp only [updateLagrangian, NVec.zip, act]
    cases a (σ i) <;> cases b (σ i) <;> cases l (σ i) <;> try rfl
    simp [iso_mul]
  simp only [update, ha, hb, hl]

theorem loopCondition_act (p : Params) (σ : Equiv.Perm r) (g : r → ℂ →ₗᵢ[ℝ] ℂ) (it : Iter r) (old : NVec r) :
    loopCondition p ⟨act σ g it.alpha, act σ g it.beta, act σ g it.lmbd⟩ (act σ g old) = loopCondition p it old := by
  unfold loopCondition
  simp only [toVec_act]
  cases it.alpha.toVec? with
  | none => rfl
  | some a =>
    cases it.beta.toVec? with
    | none => rfl
    | some b =>
      cases it.lmbd.toVec? with
      | none => rfl
      | some l =>
        cases old.toVec? with
        | none => rfl
        | some ob =>
          have hs : ∀ x y : r → ℂ, ((fun i => g i (x (σ i))) - fun i => g i (y (σ i))) = fun i => g i ((x - y) (σ i)) := by
            intro x y; funext i; simp
          simp only [Option.map_some, hs, norm2_act]

theorem run_act (p : Params) (σ : Equiv.Perm r) (g : r → ℂ →ₗᵢ[ℝ] ℂ) (L L' : Matrix r r ℂ) (h : Related σ g L L')
    (q : r → ℂ) :
    (run p L' (fun i => g i (q (σ i)))).2.1 = act σ g (run p L q).2.1 := by
  have key : ∀ (k : ℕ) (it : Iter r) (old : NVec r),
      (admm (update p L' fun i => g i (q (σ i))) (loopCondition p) k
        ⟨act σ g it.alpha, act σ g it.beta, act σ g it.lmbd⟩ (act σ g old)).2.1 =
      act σ g (admm (update p L q) (loopCondition p) k it old).2.1 := by
    intro k
    induction k with
    | zero => intro it old; rfl
    | succ k ih =>
      intro it old
      unfold admm
      rw [loopCondition_act]
      split_ifs
      · rfl
      · simp only [update_act p σ g L L' h q]
        exact ih _ _
  have h0 : (fun _ => some 0 : NVec r) = act σ g fun _ => some 0 := by
    funext i; simp [act]
  unfold run
  simp only
  rw [h0, update_act p σ g L L' h q, key, ← h0]

theorem zero_act (p : Params) (σ : Equiv.Perm r) (g : r → ℂ →ₗᵢ[ℝ] ℂ) (L L' : Matrix r r ℂ) (h : Related σ g L L')
    (q : r → ℂ) (i : r) :
    zeroAmplitudes p L' (fun i => g i (q (σ i))) i ↔ zeroAmplitudes p L q (σ i) := by
  unfold zeroAmplitudes below
  rw [run_act p σ g L L' h]
  simp only [act]
  cases (run p L q).2.1 (σ i) <;> simp

/-- Two quadratic forms related by the isometries. -/
def PRel (σ : Equiv.Perm r) (g : r → ℂ →ₗᵢ[ℝ] ℂ) (P P' : Matrix r r ℂ) : Prop :=
  ∀ w : r → ℂ, P' *ᵥ (fun i => g i (w (σ i))) = fun i => g i ((P *ᵥ w) (σ i))

theorem related_of_prel (p : Params) (σ : Equiv.Perm r) (g : r → ℂ →ₗᵢ[ℝ] ℂ) (P P' L L' : Matrix r r ℂ)
    (h : PRel σ g P P') (hL : IsUnit L.det) (hL' : IsUnit L'.det) (hP : L * Lᴴ = prho p P) (hP' : L' * L'ᴴ = prho p P') :
    Related σ g L L' := by
  have hu : ∀ L : Matrix r r ℂ, IsUnit L.det → IsUnit (L * Lᴴ).det := fun L h => by
    rw [det_mul, det_conjTranspose]; exact h.mul h.star
  intro w
  set u := (L * Lᴴ)⁻¹ *ᵥ w with hu'
  have hw : w = (L * Lᴴ) *ᵥ u := by rw [hu', mulVec_mulVec, mul_nonsing_inv _ (hu L hL), one_mulVec]
  have e : (L' * L'ᴴ) *ᵥ (fun i => g i (u (σ i))) = fun i => g i (w (σ i)) := by
    rw [hP', prho, add_mulVec, h, hw, hP, prho]
    funext i
    have := iso_mul (g i) (u (σ i)) (p.rho / 2)
    simp only [add_mulVec, Pi.add_apply, smul_mulVec, one_mulVec, Pi.smul_apply, smul_eq_mul, map_add]
    rw [mul_comm _ (u (σ i)), this, mul_comm]
  rw [← e, mulVec_mulVec, nonsing_inv_mul _ (hu L' hL'), one_mulVec]

/-- The solutions of the two KKT systems. -/
theorem kkt_act (σ : Equiv.Perm r) (g : r → ℂ →ₗᵢ[ℝ] ℂ) (P P' : Matrix r r ℂ) (h : PRel σ g P P') (q : r → ℂ)
    (zero zero' : r → Prop) [Fintype {i // zero i}] [Fintype {i // zero' i}] [DecidableEq {i // zero' i}]
    (hz : ∀ i, zero' i ↔ zero (σ i))
    (sol : r ⊕ {i // zero i} → ℂ) (sol' : r ⊕ {i // zero' i} → ℂ) (hs : kkt P zero *ᵥ sol = kktRhs q zero)
    (hs' : kkt P' zero' *ᵥ sol' = kktRhs (fun i => g i (q (σ i))) zero') (hu : IsUnit (kkt P' zero').det) (i : r) :
    sol' (Sum.inl i) = g i (sol (Sum.inl (σ i))) := by
  classical
  have hsum : ∀ (zero : r → Prop) [Fintype {i // zero i}] (s : {i // zero i} → ℂ) (i : r),
      (unitCols zero *ᵥ s) i = if h : zero i then s ⟨i, h⟩ else 0 := by
    intro zero _ s i
    simp only [mulVec, dotProduct, unitCols, of_apply, ite_mul, one_mul, zero_mul]
    split_ifs with h
    · rw [Finset.sum_eq_single ⟨i, h⟩]
      · simp
      · rintro ⟨k, hk⟩ _ hne
        rw [if_neg]
        rintro rfl
        exact hne rfl
      · simp
    · refine Finset.sum_eq_zero fun k _ => ?_
      rw [if_neg]
      rintro rfl
      exact h k.2
  have hsumH : ∀ (zero : r → Prop) (a : r → ℂ) (k : {i // zero i}), ((unitCols zero)ᴴ *ᵥ a) k = a k.1 := by
    intro zero a k
    simp [mulVec, dotProduct, unitCols, conjTranspose_apply]
  set s' : r ⊕ {i // zero' i} → ℂ := Sum.elim (fun i => g i (sol (Sum.inl (σ i))))
    (fun k => g k.1 (sol (Sum.inr ⟨σ k.1, (hz _).mp k.2⟩))) with hs'def
  have hsol : kkt P zero *ᵥ sol = Sum.elim (P *ᵥ (sol ∘ Sum.inl) + unitCols zero *ᵥ (sol ∘ Sum.inr))
      ((unitCols zero)ᴴ *ᵥ (sol ∘ Sum.inl)) := by
    rw [kkt, fromBlocks_mulVec]; simp
  have key : kkt P' zero' *ᵥ s' = kktRhs (fun i => g i (q (σ i))) zero' := by
    rw [kkt, fromBlocks_mulVec, kktRhs]
    rw [hsol, kktRhs] at hs
    have h1 : ∀ i, (P *ᵥ (sol ∘ Sum.inl)) i + (unitCols zero *ᵥ (sol ∘ Sum.inr)) i = q i := fun i =>
      congrFun hs (Sum.inl i)
    have h2 : ∀ k, ((unitCols zero)ᴴ *ᵥ (sol ∘ Sum.inl)) k = 0 := fun k => congrFun hs (Sum.inr k)
    funext k
    rcases k with i | k
    · simp only [Sum.elim_inl, Pi.add_apply]
      have e := congrFun (h (sol ∘ Sum.inl)) i
      have e0 : s' ∘ Sum.inl = fun i => g i ((sol ∘ Sum.inl) (σ i)) := rfl
      rw [e0, e, ← h1, map_add, hsum, hsum]
      congr 1
      by_cases hzi : zero' i
      · rw [dif_pos hzi, dif_pos ((hz i).mp hzi)]; rfl
      · rw [dif_neg hzi, dif_neg (fun h => hzi ((hz i).mpr h)), map_zero]
    · simp only [Sum.elim_inr, Pi.add_apply, zero_mulVec, Pi.zero_apply, add_zero]
      rw [hsumH]
      have := h2 ⟨σ k.1, (hz _).mp k.2⟩
      rw [hsumH] at this
      change g k.1 (sol (Sum.inl (σ k.1))) = 0
      simp only [Function.comp] at this
      rw [this, map_zero]
  have : sol' = s' := by
    have inj : ∀ a b : r ⊕ {i // zero' i} → ℂ, kkt P' zero' *ᵥ a = kkt P' zero' *ᵥ b → a = b := by
      intro a b hab
      have := congrArg ((kkt P' zero')⁻¹ *ᵥ ·) hab
      simpa only [mulVec_mulVec, nonsing_inv_mul _ hu, one_mulVec] using this
    exact inj _ _ (hs'.trans key.symm)
  rw [this]
  rfl

/-- The KKT system has a unique solution if the modes are distinguishable. -/
theorem kkt_unit {N : ℕ} (modes : Matrix m r ℂ) (eigs : r → ℂ) (hu : IsUnit (optP modes (vander eigs N)).det)
    (zero : r → Prop) [Fintype {i // zero i}] [DecidableEq {i // zero i}] :
    IsUnit (kkt (optP modes (vander eigs N)) zero).det := by
  classical
  rw [← isUnit_iff_isUnit_det]
  refine mulVec_injective_iff_isUnit.mp ?_
  have h0 : ∀ v, kkt (optP modes (vander eigs N)) zero *ᵥ v = 0 → v = 0 := by
    intro v hv
    set a := v ∘ Sum.inl with ha
    set l := v ∘ Sum.inr with hl
    set P := optP modes (vander eigs N) with hP
    have e : kkt P zero *ᵥ v = Sum.elim (P *ᵥ a + unitCols zero *ᵥ l) ((unitCols zero)ᴴ *ᵥ a) := by
      rw [kkt, fromBlocks_mulVec]; simp [ha, hl]
    rw [e] at hv
    have h1 : P *ᵥ a + unitCols zero *ᵥ l = 0 := funext fun i => congrFun hv (Sum.inl i)
    have h2 : (unitCols zero)ᴴ *ᵥ a = 0 := funext fun i => congrFun hv (Sum.inr i)
    have h3 : star a ⬝ᵥ (P *ᵥ a) = 0 := by
      have := congrArg (star a ⬝ᵥ ·) h1
      simp only [dotProduct_add, dotProduct_zero] at this
      have e2 : star a ⬝ᵥ (unitCols zero *ᵥ l) = 0 := by
        rw [dotProduct_mulVec, ← conjTranspose_conjTranspose (unitCols zero), ← star_mulVec, h2]
        simp
      rwa [e2, add_zero] at this
    have h4 : star a ⬝ᵥ (P *ᵥ a) = ((normSq (stack modes (vander eigs N) *ᵥ a) : ℝ) : ℂ) := by
      rw [hP, ← stack_gram, ← mulVec_mulVec, dotProduct_mulVec, ← star_mulVec]
      simp only [dotProduct, normSq, Pi.star_apply, Complex.ofReal_sum, Complex.normSq_eq_conj_mul_self]
      rfl
    rw [h4] at h3
    have h5 : stack modes (vander eigs N) *ᵥ a = 0 := (normSq_eq_zero _).mp (by exact_mod_cast h3)
    have h6 : P *ᵥ a = 0 := by rw [hP, ← stack_gram, ← mulVec_mulVec, h5, mulVec_zero]
    have h7 : a = 0 := by
      have := congrArg (P⁻¹ *ᵥ ·) h6
      simpa only [mulVec_mulVec, nonsing_inv_mul _ hu, one_mulVec, mulVec_zero] using this
    have h8 : l = 0 := by
      rw [h6, zero_add] at h1
      funext k
      have := congrFun h1 k.1
      simp only [mulVec, dotProduct, unitCols, of_apply, ite_mul, one_mul, zero_mul, Pi.zero_apply] at this
      rw [Finset.sum_eq_single k] at this
      · simpa using this
      · intro j _ hj
        rw [if_neg]
        intro h
        exact hj (Subtype.ext h.symm)
      · simp
    funext k
    rcases k with i | k
    · exact congrFun h7 i
    · exact congrFun h8 k
  intro v w hvw
  have := h0 (v - w) (by rw [mulVec_sub]; exact sub_eq_zero.mpr hvw)
  exact sub_eq_zero.mp this

/-! ## C159: real snapshots -/

omit [Fintype r] [DecidableEq r] in
theorem vander_conj {N : ℕ} (σ : Equiv.Perm r) (eigs : r → ℂ) (h : ∀ j, star (eigs j) = eigs (σ j)) (i : r) (k : Fin N) :
    star (vander eigs N i k) = vander eigs N (σ i) k := by
  simp only [vander, star_pow, h]

/-- Complex conjugation. -/
noncomputable def conjIso : ℂ →ₗᵢ[ℝ] ℂ := Complex.conjLIE.toLinearIsometry

theorem conjIso_apply (z : ℂ) : conjIso z = star z := rfl

omit [DecidableEq m] in
theorem prel_real {N : ℕ} (σ : Equiv.Perm r) (modes : Matrix m r ℂ) (eigs : r → ℂ) (h : Paired σ modes eigs) :
    PRel σ (fun _ => conjIso) (optP modes (vander eigs N)) (optP modes (vander eigs N)) := by
  have hv := vander_conj (N := N) σ eigs h.val
  have hP : ∀ i k, star (optP modes (vander eigs N) i k) = optP modes (vander eigs N) (σ i) (σ k) := by
    intro i k
    simp only [optP, star_mul', star_star, Matrix.mul_apply, conjTranspose_apply, star_sum, ← h.vec, ← hv]
  intro w
  funext i
  simp only [conjIso_apply, mulVec, dotProduct, star_sum, star_mul']
  refine (Finset.sum_congr rfl fun k _ => ?_).trans
    (Equiv.sum_comp σ fun k => star (optP modes (vander eigs N) (σ i) k) * star (w k))
  have := congrArg star (hP i k)
  rw [star_star] at this
  rw [← this]

omit [DecidableEq m] in
theorem q_real {N : ℕ} (σ : Equiv.Perm r) (modes : Matrix m r ℂ) (eigs : r → ℂ) (h : Paired σ modes eigs)
    (snaps : Matrix m (Fin N) ℂ) (hs : IsReal snaps) (i : r) :
    star (optQExact modes (vander eigs N) snaps (σ i)) = optQExact modes (vander eigs N) snaps i := by
  have hv := vander_conj (N := N) σ eigs h.val
  have : star (optQExact modes (vander eigs N) snaps i) = optQExact modes (vander eigs N) snaps (σ i) := by
    simp only [optQExact, star_star, Matrix.mul_apply, conjTranspose_apply, star_sum, star_mul', ← h.vec, ← hv]
    refine Finset.sum_congr rfl fun a _ => ?_
    congr 1
    refine Finset.sum_congr rfl fun c _ => ?_
    rw [show star (snaps a c) = snaps a c from Complex.conj_eq_iff_im.mpr (hs a c)]
  rw [← this, star_star]

/-- **C159** (selection). For real snapshots, with modes and eigenvalues in conjugate pairs (as `C133_spectrum` gives), the
iteration of `SpDMD` sets an amplitude to zero if and only if it does so for the conjugate mode, for any parameters and any
number of iterations. -/
theorem C159_selection {N : ℕ} (p : Params) (σ : Equiv.Perm r) (modes : Matrix m r ℂ) (eigs : r → ℂ)
    (h : Paired σ modes eigs) (snaps : Matrix m (Fin N) ℂ) (hs : IsReal snaps) (L : Matrix r r ℂ) (hL : IsUnit L.det)
    (hP : L * Lᴴ = prho p (optP modes (vander eigs N))) (i : r) :
    zeroAmplitudes p L (optQExact modes (vander eigs N) snaps) (σ i) ↔
      zeroAmplitudes p L (optQExact modes (vander eigs N) snaps) i := by
  have := zero_act p σ (fun _ => conjIso) L L (related_of_prel p σ _ _ _ L L (prel_real σ modes eigs h) hL hL hP hP)
    (optQExact modes (vander eigs N) snaps) i
  simp only [conjIso_apply, q_real σ modes eigs h snaps hs] at this
  exact this.symm

/-- **C159** (amplitudes). The amplitudes of conjugate modes are conjugate. -/
theorem C159_amplitudes {N : ℕ} (p : Params) (σ : Equiv.Perm r) (modes : Matrix m r ℂ) (eigs : r → ℂ)
    (h : Paired σ modes eigs) (snaps : Matrix m (Fin N) ℂ) (hs : IsReal snaps) (L : Matrix r r ℂ) (hL : IsUnit L.det)
    (hP : L * Lᴴ = prho p (optP modes (vander eigs N)))
    [Fintype {i // zeroAmplitudes p L (optQExact modes (vander eigs N) snaps) i}]
    (sol : r ⊕ {i // zeroAmplitudes p L (optQExact modes (vander eigs N) snaps) i} → ℂ)
    (hu : IsUnit (optP modes (vander eigs N)).det)
    (hsol : kkt (optP modes (vander eigs N)) (zeroAmplitudes p L (optQExact modes (vander eigs N) snaps)) *ᵥ sol =
      kktRhs (optQExact modes (vander eigs N) snaps) (zeroAmplitudes p L (optQExact modes (vander eigs N) snaps))) (i : r) :
    star (optimalAmplitudes p.enforceZero (zeroAmplitudes p L (optQExact modes (vander eigs N) snaps)) sol i) =
      optimalAmplitudes p.enforceZero (zeroAmplitudes p L (optQExact modes (vander eigs N) snaps)) sol (σ i) := by
  classical
  have hz := C159_selection p σ modes eigs h snaps hs L hL hP
  have e := kkt_act σ (fun _ => conjIso) _ _ (prel_real (N := N) σ modes eigs h) (optQExact modes (vander eigs N) snaps)
    _ _ (fun i => (hz i).symm) sol sol hsol (by simpa only [conjIso_apply, q_real σ modes eigs h snaps hs] using hsol)
    (kkt_unit modes eigs hu _) i
  simp only [optimalAmplitudes]
  by_cases hc : p.enforceZero = true ∧ zeroAmplitudes p L (optQExact modes (vander eigs N) snaps) i
  · rw [if_pos hc, if_pos ⟨hc.1, (hz i).mpr hc.2⟩, star_zero]
  · rw [if_neg hc, if_neg (fun h => hc ⟨h.1, (hz i).mp h.2⟩), e, conjIso_apply, star_star]

/-- **C159** (reconstruction; missing: times that are no whole numbers of time steps together with negative eigenvalues, see
`C133_fraction_false`). With the amplitudes of `SpDMD`, and any selection of modes that keeps or drops both of each pair,
the reconstruction of real snapshots is real. -/
theorem C159_reconstruction_partial {k N : ℕ} (p : Params) (σ : Equiv.Perm (Fin k)) (modes : Matrix m (Fin k) ℂ)
    (eigs : Fin k → ℂ) (h : Paired σ modes eigs) (snaps : Matrix m (Fin N) ℂ) (hs : IsReal snaps)
    (L : Matrix (Fin k) (Fin k) ℂ) (hL : IsUnit L.det) (hP : L * Lᴴ = prho p (optP modes (vander eigs N)))
    [Fintype {i // zeroAmplitudes p L (optQExact modes (vander eigs N) snaps) i}]
    (sol : Fin k ⊕ {i // zeroAmplitudes p L (optQExact modes (vander eigs N) snaps) i} → ℂ)
    (hu : IsUnit (optP modes (vander eigs N)).det)
    (hsol : kkt (optP modes (vander eigs N)) (zeroAmplitudes p L (optQExact modes (vander eigs N) snaps)) *ᵥ sol =
      kktRhs (optQExact modes (vander eigs N) snaps) (zeroAmplitudes p L (optQExact modes (vander eigs N) snaps)))
    (mask : Fin k → Bool) (hm : ∀ i, mask (σ i) = mask i) (orig w : Window) (hdt : w.dt ≠ 0) (opt : Opt) (nsnap : ℕ)
    (ht : (∀ ts, w.timesteps = .ok ts → ∀ t ∈ ts, ∃ k : ℤ, exponent orig opt nsnap t = k) ∨
      ∀ i, ¬ ((eigs i).re < 0 ∧ (eigs i).im = 0)) :
    ∃ cols, reconstructed ((afterFit (List.ofFn fun i x => modes x i) (List.ofFn eigs) (List.ofFn
        (optimalAmplitudes p.enforceZero (zeroAmplitudes p L (optQExact modes (vander eigs N) snaps)) sol))).setMask
        (.bool1 (List.ofFn mask))).2 orig w opt nsnap = .ok cols ∧ ∀ c ∈ cols, ∀ x, (c x).im = 0 :=
  C133_reconstruction_partial σ (fun i x => modes x i) eigs _ h
    (C159_amplitudes p σ modes eigs h snaps hs L hL hP sol hu hsol) mask hm orig w hdt opt nsnap ht

/-! ## C160: the same data in other coordinates, orders and units -/

/-- Multiplication by a complex number of modulus 1. -/
noncomputable def phaseIso (c : ℂ) (hc : ‖c‖ = 1) : ℂ →ₗᵢ[ℝ] ℂ where
  toFun z := c * z
  map_add' := mul_add c
  map_smul' x z := by simp [Complex.real_smul]; ring
  norm_map' z := by simp [hc]

/-- **C160** (coordinates, order, normalization). Let the data be given in other coordinates (`O` with orthonormal columns)
and times a number of modulus 1, and the modes in another order and each times a number of modulus 1 (which `np.linalg.eig`
leaves open). Then `SpDMD` selects the same modes for all parameters, and the amplitudes are the same up to the inverse
factors, so that each product of mode and amplitude is the same. -/
theorem C160_invariant {m' : Type} [Fintype m'] {N : ℕ} (p : Params) (O : Matrix m' m ℂ) (hO : Oᴴ * O = 1)
    (c : ℂ) (hc : ‖c‖ = 1) (σ : Equiv.Perm r) (d : r → ℂ) (hd : ∀ i, ‖d i‖ = 1) (modes : Matrix m r ℂ) (eigs : r → ℂ)
    (snaps : Matrix m (Fin N) ℂ) (L L' : Matrix r r ℂ) (hL : IsUnit L.det) (hL' : IsUnit L'.det) :
    let modes' : Matrix m' r ℂ := of fun x i => d i * (O * modes) x (σ i)
    let eigs' := fun i => eigs (σ i)
    let snaps' : Matrix m' (Fin N) ℂ := c • (O * snaps)
    let P := optP modes (vander eigs N)
    let P' := optP modes' (vander eigs' N)
    let q := optQExact modes (vander eigs N) snaps
    let q' := optQExact modes' (vander eigs' N) snaps'
    L * Lᴴ = prho p P → L' * L'ᴴ = prho p P' →
    (∀ i, zeroAmplitudes p L' q' i ↔ zeroAmplitudes p L q (σ i)) ∧
    ∀ [Fintype {i // zeroAmplitudes p L q i}] [Fintype {i // zeroAmplitudes p L' q' i}]
      (sol : r ⊕ {i // zeroAmplitudes p L q i} → ℂ) (sol' : r ⊕ {i // zeroAmplitudes p L' q' i} → ℂ),
      kkt P (zeroAmplitudes p L q) *ᵥ sol = kktRhs q (zeroAmplitudes p L q) →
      kkt P' (zeroAmplitudes p L' q') *ᵥ sol' = kktRhs q' (zeroAmplitudes p L' q') →
      IsUnit P'.det → ∀ i,
        (fun x => optimalAmplitudes p.enforceZero (zeroAmplitudes p L' q') sol' i * modes' x i) =
          c • O *ᵥ fun x => optimalAmplitudes p.enforceZero (zeroAmplitudes p L q) sol (σ i) * modes x (σ i) := by
  intro modes' eigs' snaps' P P' q q' hP hP'
  have hdd : ∀ i, star (d i) * d i = 1 := fun i => by
    rw [Complex.star_def, ← Complex.normSq_eq_conj_mul_self, Complex.normSq_eq_norm_sq, hd]; simp
  have hgn : ∀ i, ‖star (d i) * c‖ = 1 := fun i => by rw [norm_mul, norm_star, hd, hc, one_mul]
  set g : r → ℂ →ₗᵢ[ℝ] ℂ := fun i => phaseIso (star (d i) * c) (hgn i) with hg
  have hga : ∀ i z, g i z = star (d i) * c * z := fun _ _ => rfl
  have hV : ∀ i k, vander eigs' N i k = vander eigs N (σ i) k := fun _ _ => rfl
  have hMM : ∀ i j, (modes'ᴴ * modes') i j = star (d i) * d j * (modesᴴ * modes) (σ i) (σ j) := by
    intro i j
    have e : modesᴴ * modes = (O * modes)ᴴ * (O * modes) := by
      rw [conjTranspose_mul, Matrix.mul_assoc, ← Matrix.mul_assoc Oᴴ, hO, Matrix.one_mul]
    rw [e]
    simp only [Matrix.mul_apply (M := modes'ᴴ), Matrix.mul_apply (M := (O * modes)ᴴ), conjTranspose_apply, modes', of_apply,
      star_mul', Finset.mul_sum]
    refine Finset.sum_congr rfl fun x _ => ?_
    ring
  have hPP : ∀ i j, P' i j = star (d i) * d j * P (σ i) (σ j) := by
    intro i j
    simp only [P', P, optP, hMM]
    have : (vander eigs' N * (vander eigs' N)ᴴ) i j = (vander eigs N * (vander eigs N)ᴴ) (σ i) (σ j) := rfl
    rw [this]
    ring
  have hq : ∀ i, q' i = g i (q (σ i)) := by
    intro i
    rw [hga]
    have e : ∀ k, (snaps'ᴴ * modes') k i = star c * d i * (snapsᴴ * modes) k (σ i) := by
      intro k
      have e : snapsᴴ * modes = (O * snaps)ᴴ * (O * modes) := by
        rw [conjTranspose_mul, Matrix.mul_assoc, ← Matrix.mul_assoc Oᴴ, hO, Matrix.one_mul]
      rw [e]
      simp only [Matrix.mul_apply (M := snaps'ᴴ), Matrix.mul_apply (M := (O * snaps)ᴴ), conjTranspose_apply, modes', snaps',
        of_apply, Matrix.smul_apply, smul_eq_mul, star_mul', Finset.mul_sum]
      refine Finset.sum_congr rfl fun x _ => ?_
      ring
    simp only [q', q, optQExact, Matrix.mul_assoc, Matrix.mul_apply (M := vander eigs' N),
      Matrix.mul_apply (M := vander eigs N), e, hV, star_sum, star_mul', star_star, Finset.mul_sum]
    refine Finset.sum_congr rfl fun k _ => ?_
    ring
  have hq' : q' = fun i => g i (q (σ i)) := funext hq
  have hrel : PRel σ g P P' := by
    intro w
    funext i
    simp only [hga, mulVec, dotProduct, Finset.mul_sum]
    refine (Finset.sum_congr rfl fun k _ => ?_).trans
      (Equiv.sum_comp σ fun k => star (d i) * c * (P (σ i) k * w k))
    rw [hPP]
    linear_combination star (d i) * P (σ i) (σ k) * c * w (σ k) * hdd k
  have hz : ∀ i, zeroAmplitudes p L' q' i ↔ zeroAmplitudes p L q (σ i) := by
    rw [hq']
    exact zero_act p σ g L L' (related_of_prel p σ g P P' L L' hrel hL hL' hP hP') q
  refine ⟨hz, ?_⟩
  classical
  intro _ _ sol sol' hs hs' hu i
  have e := kkt_act σ g P P' hrel q _ _ hz sol sol' hs (by rw [← hq']; exact hs') (kkt_unit modes' eigs' hu _) i
  have ea : optimalAmplitudes p.enforceZero (zeroAmplitudes p L' q') sol' i =
      g i (optimalAmplitudes p.enforceZero (zeroAmplitudes p L q) sol (σ i)) := by
    simp only [optimalAmplitudes]
    by_cases hcc : p.enforceZero = true ∧ zeroAmplitudes p L q (σ i)
    · rw [if_pos hcc, if_pos ⟨hcc.1, (hz i).mpr hcc.2⟩, map_zero]
    · rw [if_neg hcc, if_neg (fun h => hcc ⟨h.1, (hz i).mp h.2⟩), e]
  funext x
  rw [ea, hga]
  simp only [modes', of_apply, Pi.smul_apply, smul_eq_mul, mulVec, dotProduct, Matrix.mul_apply, Finset.mul_sum]
  refine Finset.sum_congr rfl fun y _ => ?_
  linear_combination c * optimalAmplitudes p.enforceZero (zeroAmplitudes p L q) sol (σ i) * O x y * modes y (σ i) * hdd i

/-- **C160** (units, for a given selection of modes). The amplitudes of the data times a number are the amplitudes times that
number. Missing: the selection, see `C160_units_false`. -/
theorem C160_units_partial {N : ℕ} (c : ℂ) (modes : Matrix m r ℂ) (eigs : r → ℂ) (snaps : Matrix m (Fin N) ℂ)
    (enforce : Bool) (zero : r → Prop) [Fintype {i // zero i}]
    (sol sol' : r ⊕ {i // zero i} → ℂ) (hu : IsUnit (optP modes (vander eigs N)).det)
    (hs : kkt (optP modes (vander eigs N)) zero *ᵥ sol = kktRhs (optQExact modes (vander eigs N) snaps) zero)
    (hs' : kkt (optP modes (vander eigs N)) zero *ᵥ sol' = kktRhs (optQExact modes (vander eigs N) (c • snaps)) zero)
    (i : r) : optimalAmplitudes enforce zero sol' i = c * optimalAmplitudes enforce zero sol i := by
  classical
  have hq : kktRhs (optQExact modes (vander eigs N) (c • snaps)) zero =
      c • kktRhs (optQExact modes (vander eigs N) snaps) zero := by
    funext k
    rcases k with k | k
    · simp [kktRhs, optQExact]
    · simp [kktRhs]
  have e : sol' = c • sol := by
    rw [hq, ← hs, ← mulVec_smul] at hs'
    have := congrArg ((kkt (optP modes (vander eigs N)) zero)⁻¹ *ᵥ ·) hs'
    simpa only [mulVec_mulVec, nonsing_inv_mul _ (kkt_unit modes eigs hu zero), one_mulVec] using this
  rw [e]
  unfold optimalAmplitudes
  split_ifs <;> simp

/-- **C160**, negation for the selection: the data in a unit half as large, that is all numbers twice as large, and `gamma`
twice as large, which multiplies the objective `‖snapshots - modes diag(a) V‖² + gamma Σ|a_i|` at twice the amplitudes by 4
and so does not change which amplitudes vanish at its minimum. Yet `SpDMD` discards the only mode in one unit and keeps it in
the other. -/
theorem C160_units_false (p : Params) (hrho : p.rho = 6) (hmax : 1 ≤ p.maxIterations) (ha : p.absTol ≤ 1)
    (hr : 0 ≤ p.relTol ∧ p.relTol ≤ 1) (ht : 0 < p.zeroTol ∧ p.zeroTol ≤ 1) (s : ℝ) (hs : 8 < s) :
    let modes : Matrix (Fin 1) (Fin 1) ℂ := 1
    let eigs : Fin 1 → ℂ := fun _ => 1
    let L : Matrix (Fin 1) (Fin 1) ℂ := diagonal fun _ => 2
    let snaps : Matrix (Fin 1) (Fin 1) ℂ := of fun _ _ => (s : ℂ)
    L * Lᴴ = prho p (optP modes (vander eigs 1)) ∧
      zeroAmplitudes { p with gamma := 6 } L (optQExact modes (vander eigs 1) snaps) 0 ∧
      ¬ zeroAmplitudes { p with gamma := 2 * 6 } L (optQExact modes (vander eigs 1) ((2 : ℂ) • snaps)) 0 ∧
      ∀ a : ℂ, frobSq ((modes * diagonal fun _ => 2 * a) * vander eigs 1 - (2 : ℂ) • snaps) + 2 * 6 * ‖2 * a‖ =
        4 * (frobSq ((modes * diagonal fun _ => a) * vander eigs 1 - snaps) + 6 * ‖a‖) := by
  intro modes eigs L snaps
  obtain ⟨h1, h2, -⟩ := C142_sparser_false p hrho hmax ha hr ht s hs
  obtain ⟨-, -, h3⟩ := C142_sparser_false p hrho hmax ha hr ht (2 * s) (by linarith)
  refine ⟨h1, h2, ?_, ?_⟩
  · have e : ((2 : ℂ) • snaps) = of fun _ _ => ((2 * s : ℝ) : ℂ) := by
      ext i j; simp [snaps]
    rw [e, show (2 * 6 : ℝ) = 12 by norm_num]
    exact h3
  · intro a
    have e : ((modes * diagonal fun _ => 2 * a) * vander eigs 1 - (2 : ℂ) • snaps) =
        (2 : ℂ) • ((modes * diagonal fun _ => a) * vander eigs 1 - snaps) := by
      ext i j
      fin_cases i; fin_cases j
      simp [modes, snaps, eigs, vander, Matrix.mul_apply]
      ring
    rw [e, norm_mul]
    simp [frobSq, Complex.normSq_mul]
    ring

/-- A case for C159 and C160: the quarter turn with two snapshots, `rho = 10`. -/
example (p : Params) (hrho : p.rho = 10) :
    let modes : Matrix (Fin 2) (Fin 2) ℂ := !![1, 1; Complex.I, -Complex.I]
    let eigs : Fin 2 → ℂ := ![Complex.I, -Complex.I]
    let snaps : Matrix (Fin 2) (Fin 2) ℂ := !![1, 0; 0, -1]
    let L : Matrix (Fin 2) (Fin 2) ℂ := diagonal fun _ => 3
    let O : Matrix (Fin 2) (Fin 2) ℂ := !![0, 1; -1, 0]
    Paired (Equiv.swap 0 1) modes eigs ∧ IsReal snaps ∧ IsUnit L.det ∧ L * Lᴴ = prho p (optP modes (vander eigs 2)) ∧
      IsUnit (optP modes (vander eigs 2)).det ∧ Oᴴ * O = 1 := by
  intro modes eigs snaps L O
  have hP : optP modes (vander eigs 2) = diagonal fun _ => 4 := by
    ext i j
    fin_cases i <;> fin_cases j <;>
      simp [optP, modes, eigs, vander, Matrix.mul_apply, Fin.sum_univ_two, conjTranspose_apply] <;> norm_num
  refine ⟨⟨?_, ?_⟩, ?_, ?_, ?_, ?_, ?_⟩
  · intro i j; fin_cases i <;> fin_cases j <;> simp [modes]
  · intro j; fin_cases j <;> simp [eigs]
  · intro i j; fin_cases i <;> fin_cases j <;> simp [snaps]
  · simp [L]
  · rw [hP]
    ext i j
    fin_cases i <;> fin_cases j <;> simp [L, prho, hrho, Matrix.mul_apply, diagonal_apply] <;> norm_num
  · rw [hP]; simp
  · ext i j; fin_cases i <;> fin_cases j <;> simp [O, Matrix.mul_apply, Fin.sum_univ_two, conjTranspose_apply]

end Verif.SpDmd
