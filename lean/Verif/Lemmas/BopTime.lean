import Verif.Model.BopRun
import Verif.Props.BopStep

/-!
# Helpers of property C152: origin and unit of time in BOP-DMD
-/

set_option autoImplicit false

namespace Verif.BopRun

open Verif Verif.LinAlg Verif.VarPro Verif.BopStep Matrix
open scoped ComplexOrder

variable {m l n k : ℕ}

/-! ### Helpers -/

/-- The loops of two problems that correspond at the accepted points. -/
theorem search_congr {A A' : Type} (f : A → A') (p : Bop.Prob A) (p' : Bop.Prob A') (o : Bop.Opts)
    (herr : ∀ a, p'.err (f a) = p.err a) (a : A) (hup : 0 < o.lamup)
    (hs : ∀ lam, 0 < lam → p'.step (f a) lam = f (p.step a lam)) (k : ℕ) : ∀ (lam : ℝ) (c : A), 0 < lam →
      Bop.search p' o (f a) k lam (f c) = ((Bop.search p o a k lam c).1, f (Bop.search p o a k lam c).2) ∧
        0 < (Bop.search p o a k lam c).1 := by
  induction k with
  | zero => intro lam c h; exact ⟨rfl, h⟩
  | succ k ih =>
    intro lam c h
    have h1 : 0 < lam * o.lamup := mul_pos h hup
    rw [Bop.search, Bop.search]
    simp only [herr, hs _ h1]
    split_ifs
    · exact ⟨rfl, h1⟩
    · exact ih _ _ h1

/-- A result in other coordinates. -/
def mapRes {A A' : Type} (f : A → A') (r : Bop.Res A) : Bop.Res A' := ⟨f r.alpha, r.converged, r.trace.map f⟩

theorem trace_sub {A : Type} (p : Bop.Prob A) (o : Bop.Opts) : ∀ k last lam a conv tr, ∀ x ∈ tr,
    x ∈ (Bop.iterate p o k last lam a conv tr).trace := by
  intro k
  induction k with
  | zero => intro last lam a conv tr x hx; exact hx
  | succ k ih =>
    intro last lam a conv tr x hx
    rw [Bop.iterate]
    dsimp only
    split
    · exact hx
    · split_ifs
      · exact List.mem_cons_of_mem _ hx
      · exact List.mem_cons_of_mem _ hx
      · exact ih _ _ _ _ _ _ (List.mem_cons_of_mem _ hx)

theorem alpha_mem {A : Type} (p : Bop.Prob A) (o : Bop.Opts) : ∀ k last lam a conv tr, a ∈ tr →
    (Bop.iterate p o k last lam a conv tr).alpha ∈ (Bop.iterate p o k last lam a conv tr).trace := by
  intro k
  induction k with
  | zero => intro last lam a conv tr hx; exact hx
  | succ k ih =>
    intro last lam a conv tr hx
    rw [Bop.iterate]
    dsimp only
    split
    · exact hx
    · split_ifs
      · exact List.mem_cons_self ..
      · exact List.mem_cons_self ..
      · exact ih _ _ _ _ _ (List.mem_cons_self ..)

theorem iterate_congr {A A' : Type} (f : A → A') (p : Bop.Prob A) (p' : Bop.Prob A') (o : Bop.Opts)
    (herr : ∀ a, p'.err (f a) = p.err a) (hup : 0 < o.lamup)
    (Good : A → Prop) (hs : ∀ a, Good a → ∀ lam, 0 < lam → p'.step (f a) lam = f (p.step a lam))
    (hr : ∀ a, Good a → ∀ c lam, 0 < lam → p'.rescale (f a) (f c) lam = p.rescale a c lam ∧ 0 < p.rescale a c lam) (k : ℕ) :
    ∀ last lam a conv tr, 0 < lam → a ∈ tr → (∀ x ∈ (Bop.iterate p o k last lam a conv tr).trace, Good x) →
      Bop.iterate p' o k last lam (f a) conv (tr.map f) = mapRes f (Bop.iterate p o k last lam a conv tr) := by
  induction k with
  | zero => intro last lam a conv tr _ _ _; rfl
  | succ k ih =>
    intro last lam a conv tr hlam ha hg
    have hga : Good a := hg a (trace_sub _ _ _ _ _ _ _ _ a ha)
    obtain ⟨hse, hsp⟩ := search_congr f p p' o herr a hup (hs a hga) o.maxlam lam (p.step a lam) hlam
    obtain ⟨cand, hcand⟩ : ∃ cand : Option (ℝ × A), cand = (if Bop.flt (p.err (p.step a lam)) (p.err a) then
          some (p.rescale a (p.step a lam) lam, p.step a lam)
        else if Bop.fge (p.err (Bop.search p o a o.maxlam lam (p.step a lam)).2) (p.err a) then none
          else some (Bop.search p o a o.maxlam lam (p.step a lam))) := ⟨_, rfl⟩
    have hcand' : (if Bop.flt (p.err (p.step a lam)) (p.err a) then
          some (p.rescale a (p.step a lam) lam, f (p.step a lam))
        else if Bop.fge (p.err (Bop.search p o a o.maxlam lam (p.step a lam)).2) (p.err a) then none
          else some ((Bop.search p o a o.maxlam lam (p.step a lam)).1, f (Bop.search p o a o.maxlam lam (p.step a lam)).2)) =
        cand.map fun x => (x.1, f x.2) := by
      rw [hcand]
      split_ifs <;> rfl
    have hlp : ∀ lam' c, cand = some (lam', c) → 0 < lam' := by
      intro lam' c h
      rw [hcand] at h
      split_ifs at h
      · injection h with h; injection h with h _; rw [← h]; exact (hr a hga _ _ hlam).2
      · injection h with h; rw [h] at hsp; exact hsp
    rw [Bop.iterate] at hg ⊢
    rw [Bop.iterate]
    dsimp only at hg ⊢
    simp only [herr, hs a hga lam hlam, (hr a hga _ lam hlam).1, hse]
    rw [hcand']
    rw [← hcand] at hg ⊢
    cases cand with
    | none => rfl
    | some x =>
      obtain ⟨lam', c⟩ := x
      dsimp only [Option.map] at hg ⊢
      rw [herr]
      split_ifs at hg ⊢
      · rfl
      · rfl
      · exact ih _ _ _ _ _ (hlp _ _ rfl) (List.mem_cons_self ..) hg

theorem varpro_congr {A A' : Type} (f : A → A') (p : Bop.Prob A) (p' : Bop.Prob A') (o : Bop.Opts)
    (herr : ∀ a, p'.err (f a) = p.err a) (hup : 0 < o.lamup) (hin : 0 < o.initLambda)
    (Good : A → Prop) (hs : ∀ a, Good a → ∀ lam, 0 < lam → p'.step (f a) lam = f (p.step a lam))
    (hr : ∀ a, Good a → ∀ c lam, 0 < lam → p'.rescale (f a) (f c) lam = p.rescale a c lam ∧ 0 < p.rescale a c lam) (init : A)
    (hg : ∀ x ∈ (Bop.varpro p o init).trace, Good x) : Bop.varpro p' o (f init) = mapRes f (Bop.varpro p o init) :=
  iterate_congr f p p' o herr hup Good hs hr _ _ _ _ _ _ hin (List.mem_singleton_self _) hg

/-- The penalised normal equations have one solution. -/
theorem normal_unique {P : Type} [Fintype P] (J : Matrix P (Fin l) ℂ) (sc : Fin l → ℝ) (hs : ∀ i, 0 < sc i) (lam : ℝ)
    (hlam : 0 < lam) (x y : Fin l → ℂ)
    (h : (Jᴴ * J) *ᵥ x + (fun i => ((lam * sc i) ^ 2 : ℝ) * x i) = (Jᴴ * J) *ᵥ y + (fun i => ((lam * sc i) ^ 2 : ℝ) * y i)) :
    x = y := by
  have hne : ((lam ^ 2 : ℝ) : ℂ) ≠ 0 := by exact_mod_cast (pow_pos hlam 2).ne'
  have e : ∀ z : Fin l → ℂ, ((lam ^ 2 : ℝ) : ℂ) • (pen J sc (lam ^ 2)⁻¹ *ᵥ z) =
      (Jᴴ * J) *ᵥ z + (fun i => ((lam * sc i) ^ 2 : ℝ) * z i) := by
    intro z
    rw [pen, add_mulVec, smul_mulVec, smul_add, smul_smul]
    congr 1
    · rw [← Complex.ofReal_mul, mul_inv_cancel₀ (pow_pos hlam 2).ne', Complex.ofReal_one, one_smul]
    · funext i
      simp only [rdiag, mulVec_diagonal, Pi.smul_apply, smul_eq_mul]
      push_cast
      ring
  have h1 : pen J sc (lam ^ 2)⁻¹ *ᵥ x = pen J sc (lam ^ 2)⁻¹ *ᵥ y := by
    have := (e x).trans (h.trans (e y).symm)
    exact smul_right_injective _ hne this
  have hd := pen_det J sc hs (lam ^ 2)⁻¹ (by positivity)
  have h2 := congrArg (fun v => (pen J sc (lam ^ 2)⁻¹)⁻¹ *ᵥ v) h1
  simpa only [mulVec_mulVec, nonsing_inv_mul _ hd, one_mulVec] using h2

section

variable {fulljac : Bool} {time : Fin m → ℝ} {H : Matrix (Fin m) (Fin n) ℂ}

/-- Column `j` of the Jacobian, as a matrix. -/
noncomputable def jacM (fulljac : Bool) (time : Fin m → ℝ) (H R : Matrix (Fin m) (Fin n) ℂ) (α : Fin l → ℂ) (j : Fin l) :
    Matrix (Fin m) (Fin n) ℂ :=
  (1 - phi time α * linv (phi time α)) * dphi time α j * (linv (phi time α) * H) +
    if fulljac then (linv (phi time α))ᴴ * ((dphi time α j)ᴴ * R) else 0

/-- The Jacobian does not depend on the factors the library returns. -/
theorem jac_eq (L : Lib l fulljac time H) {α : Fin l → ℂ} (hinj : Injective (phi time α)) (p : Fin m × Fin n) (j : Fin l) :
    jac L α p j = jacM fulljac time H (BopStep.residual time H L.B α) α j p.1 p.2 := by
  obtain ⟨e1, e2⟩ := svd_linv hinj (L.fact α).isSVD
  have e3 : (L.fact α).U * (rdiag fun i => ((L.fact α).s i)⁻¹) * ((L.fact α).V)ᴴ = (linv (phi time α))ᴴ := by
    rw [← e2, conjTranspose_mul, conjTranspose_mul, conjTranspose_conjTranspose, rdiag_conjTranspose, Matrix.mul_assoc]
  have e4 : bopJac fulljac time α (L.fact α).U (L.fact α).s (L.fact α).V (L.B α) (BopStep.residual time H L.B α) j =
      jacM fulljac time H (BopStep.residual time H L.B α) α j := by
    rw [jacM, bopJac]
    rw [e3, ← Matrix.mul_assoc, e1, computeB_eq L.isB hinj]
    have e5 : (Matrix.of fun (i : Fin m) (j' : Fin l) => if j' = j then (time i : ℂ) * Complex.exp (α j * time i) else 0) =
        dphi time α j := rfl
    rw [e5]
    split_ifs
    · rw [Matrix.sub_mul 1, Matrix.one_mul]
    · rw [Matrix.sub_mul 1, Matrix.one_mul, add_zero]
  exact congrFun (congrFun e4 p.1) p.2

/-- The residual does not depend on the least-squares solution. -/
theorem residual_proj (B B' : (Fin l → ℂ) → Matrix (Fin l) (Fin n) ℂ) {time' : Fin m → ℝ} {α α' : Fin l → ℂ}
    (hB : IsComputeB time H B) (hB' : IsComputeB time' H B') {D : Matrix (Fin l) (Fin l) ℂ} (hD : IsUnit D.det)
    (h : phi time' α' = phi time α * D) : residual time' H B' α' = residual time H B α := by
  have h1 : (phi time α)ᴴ * (phi time α * B α - H) = 0 := by
    ext j c
    exact congrFun (hB α c).normal j
  have h2 : (phi time' α')ᴴ * (phi time' α' * B' α' - H) = 0 := by
    ext j c
    exact congrFun (hB' α' c).normal j
  have h3 : (phi time α)ᴴ * (phi time' α' * B' α' - H) = 0 := by
    rw [h] at h2 ⊢
    rw [conjTranspose_mul, Matrix.mul_assoc] at h2
    have hDH : IsUnit (Dᴴ).det := by rw [det_conjTranspose]; exact hD.star
    have := congrArg (fun M => (Dᴴ)⁻¹ * M) h2
    simpa only [← Matrix.mul_assoc, nonsing_inv_mul _ hDH, Matrix.one_mul, Matrix.mul_zero] using this
  set Z := phi time' α' * B' α' - phi time α * B α with hZ
  have h4 : (phi time α)ᴴ * Z = 0 := by
    have : Z = (phi time' α' * B' α' - H) - (phi time α * B α - H) := by rw [hZ]; abel
    rw [this, Matrix.mul_sub, h1, h3, sub_zero]
  have h5 : Zᴴ * Z = 0 := by
    have e : Z = phi time α * (D * B' α' - B α) := by rw [hZ, h, Matrix.mul_sub, Matrix.mul_assoc]
    conv_lhs => rw [e, conjTranspose_mul, Matrix.mul_assoc, ← e, h4, Matrix.mul_zero]
  have h6 : Z = 0 := Matrix.conjTranspose_mul_self_eq_zero.mp h5
  rw [hZ, sub_eq_zero] at h6
  rw [BopStep.residual, BopStep.residual, h6]

theorem delta_eqn (L : Lib l fulljac time H) (levmarq : Bool) (α : Fin l → ℂ) (lam : ℝ) :
    ((jac L α)ᴴ * jac L α) *ᵥ delta L levmarq α lam +
      (fun i => ((lam * scales levmarq (jac L α) i) ^ 2 : ℝ) * delta L levmarq α lam i) =
      (jac L α)ᴴ *ᵥ fun p => BopStep.residual time H L.B α p.1 p.2 :=
  delta_normal L.lstsq L.isLstsq (L.fact α).qr (scales levmarq (jac L α)) (fun p => BopStep.residual time H L.B α p.1 p.2) lam

/-- Two runs with the same residual and Jacobian make the same step. -/
theorem delta_eq {time' : Fin m → ℝ} (L : Lib l fulljac time H) (L' : Lib l fulljac time' H) (levmarq : Bool)
    {α : Fin l → ℂ} (hres : BopStep.residual time' H L'.B α = BopStep.residual time H L.B α) (hjac : jac L' α = jac L α)
    (lam : ℝ) (hlam : 0 < lam) : delta L' levmarq α lam = delta L levmarq α lam := by
  have h1 := delta_eqn L levmarq α lam
  have h2 := delta_eqn L' levmarq α lam
  rw [hjac, hres] at h2
  exact normal_unique (jac L α) (scales levmarq (jac L α)) (scales_pos levmarq _) lam hlam _ _ (h2.trans h1.symm)

/-! ### Origin of time -/

theorem phi_shift (τ : ℝ) (α : Fin l → ℂ) :
    phi (fun i => time i + τ) α = phi time α * diagonal fun j => Complex.exp (τ * α j) := by
  ext i j
  rw [mul_diagonal, phi, phi, Matrix.of_apply, Matrix.of_apply, ← Complex.exp_add]
  congr 1
  push_cast
  ring

theorem expd_det (τ : ℝ) (α : Fin l → ℂ) : IsUnit (diagonal fun j => Complex.exp (τ * α j)).det := by
  rw [det_diagonal, isUnit_iff_ne_zero, Finset.prod_ne_zero_iff]
  exact fun j _ => Complex.exp_ne_zero _

theorem injective_mul {Φ : Matrix (Fin m) (Fin l) ℂ} (h : Injective Φ) {D : Matrix (Fin l) (Fin l) ℂ} (hD : IsUnit D.det) :
    Injective (Φ * D) := by
  intro v hv
  rw [← mulVec_mulVec] at hv
  have := congrArg (fun w => D⁻¹ *ᵥ w) (h _ hv)
  simpa only [mulVec_mulVec, nonsing_inv_mul _ hD, one_mulVec, mulVec_zero] using this

theorem linv_mul_right {Φ : Matrix (Fin m) (Fin l) ℂ} {D : Matrix (Fin l) (Fin l) ℂ} (hD : IsUnit D.det) :
    linv (Φ * D) = D⁻¹ * linv Φ := by
  have hDH : IsUnit (Dᴴ).det := by rw [det_conjTranspose]; exact hD.star
  rw [linv, linv, conjTranspose_mul]
  have e : Dᴴ * Φᴴ * (Φ * D) = Dᴴ * ((Φᴴ * Φ) * D) := by simp only [Matrix.mul_assoc]
  rw [e, Matrix.mul_inv_rev, Matrix.mul_inv_rev]
  simp only [Matrix.mul_assoc]
  rw [← Matrix.mul_assoc (Dᴴ)⁻¹, nonsing_inv_mul _ hDH, Matrix.one_mul]

theorem dphi_shift (τ : ℝ) (α : Fin l → ℂ) (j : Fin l) :
    dphi (fun i => time i + τ) α j = dphi time α j * (diagonal fun j => Complex.exp (τ * α j)) +
      phi time α * diagonal (Pi.single j (τ * Complex.exp (τ * α j))) := by
  ext i k
  rw [Matrix.add_apply, mul_diagonal, mul_diagonal]
  simp only [dphi, phi, Matrix.of_apply]
  by_cases h : k = j
  · subst h
    rw [if_pos rfl, if_pos rfl, Pi.single_eq_same]
    have : Complex.exp (α k * ((time i + τ : ℝ) : ℂ)) = Complex.exp (time i * α k) * Complex.exp (τ * α k) := by
      rw [← Complex.exp_add]; congr 1; push_cast; ring
    rw [this, mul_comm (α k)]
    push_cast
    ring
  · rw [if_neg h, if_neg h, Pi.single_eq_of_ne h]
    simp

/-- Residual and Jacobian do not depend on the origin of time. -/
theorem jac_shift {τ : ℝ} (L : Lib l fulljac time H) (L' : Lib l fulljac (fun i => time i + τ) H) {α : Fin l → ℂ}
    (hinj : Injective (phi time α)) : jac L' α = jac L α := by
  have hD := expd_det τ α
  have hres := residual_proj (H := H) L.B L'.B L.isB L'.isB hD (phi_shift τ α)
  have hinj' : Injective (phi (fun i => time i + τ) α) := by rw [phi_shift]; exact injective_mul hinj hD
  have hP : phi (fun i => time i + τ) α * linv (phi (fun i => time i + τ) α) = phi time α * linv (phi time α) := by
    rw [phi_shift, linv_mul_right hD, Matrix.mul_assoc, ← Matrix.mul_assoc _ (_⁻¹), mul_nonsing_inv _ hD, Matrix.one_mul]
  have h0 : (1 - phi time α * linv (phi time α)) * phi time α = 0 := by
    rw [Matrix.sub_mul, Matrix.one_mul, Matrix.mul_assoc, linv_mul hinj, Matrix.mul_one, sub_self]
  have h1 : (phi time α)ᴴ * BopStep.residual time H L.B α = 0 := by
    have : (phi time α)ᴴ * (phi time α * L.B α - H) = 0 := by
      ext j c
      exact congrFun (L.isB α c).normal j
    rw [BopStep.residual, ← neg_sub, Matrix.mul_neg, this, neg_zero]
  have hDH : IsUnit ((diagonal fun j => Complex.exp (τ * α j))ᴴ).det := by rw [det_conjTranspose]; exact hD.star
  ext p j
  rw [jac_eq L' hinj', jac_eq L hinj]
  refine congrFun (congrFun ?_ p.1) p.2
  rw [jacM, jacM, hP, hres, dphi_shift, phi_shift, linv_mul_right hD]
  refine congrArg₂ _ ?_ ?_
  · rw [Matrix.mul_add, ← Matrix.mul_assoc _ (phi time α), h0, Matrix.zero_mul, add_zero]
    simp only [Matrix.mul_assoc]
    rw [← Matrix.mul_assoc (diagonal _) (_⁻¹), mul_nonsing_inv _ hD, Matrix.one_mul]
  · split_ifs
    · rw [conjTranspose_add, Matrix.add_mul, conjTranspose_mul, conjTranspose_mul,
        conjTranspose_mul, Matrix.mul_assoc _ ((phi time α)ᴴ), h1, Matrix.mul_zero, add_zero, conjTranspose_nonsing_inv]
      simp only [Matrix.mul_assoc]
      rw [← Matrix.mul_assoc (_⁻¹), nonsing_inv_mul _ hDH, Matrix.one_mul]
    · rfl

theorem max_third_pos (x : ℝ) : 0 < max (1 / 3) x := lt_of_lt_of_le (by norm_num) (le_max_left _ _)

theorem run_shift {τ : ℝ} (L : Lib l fulljac time H) (L' : Lib l fulljac (fun i => time i + τ) H) (levmarq : Bool)
    (push : (Fin l → ℂ) → Fin l → ℂ) (o : Bop.Opts) (hup : 0 < o.lamup) (hin : 0 < o.initLambda) (init : Fin l → ℂ)
    (hinj : ∀ a ∈ (run L levmarq push o init).trace, Injective (phi time a)) :
    run L' levmarq push o init = run L levmarq push o init := by
  have hres : ∀ α, BopStep.residual (fun i => time i + τ) H L'.B α = BopStep.residual time H L.B α := fun α =>
    residual_proj (H := H) L.B L'.B L.isB L'.isB (expd_det τ α) (phi_shift τ α)
  have hd : ∀ a, Injective (phi time a) → ∀ lam, 0 < lam → delta L' levmarq a lam = delta L levmarq a lam :=
    fun a ha lam hlam => delta_eq L L' levmarq (hres a) (jac_shift L L' ha) lam hlam
  have := varpro_congr id (prob L levmarq push) (prob L' levmarq push) o ?_ hup hin (fun a => Injective (phi time a)) ?_ ?_ _
    hinj
  · rw [mapRes, List.map_id] at this
    exact this
  · intro a
    simp only [prob, BopStep.error, hres, id]
  · intro a ha lam hlam
    simp only [prob, id, hd a ha lam hlam]
  · intro a ha c lam hlam
    refine ⟨?_, mul_pos hlam (max_third_pos _)⟩
    simp only [prob, id, ratio, hres, hd a ha lam hlam, jac_shift L L' ha]

/-! ### Unit of time -/

theorem phi_unit {c : ℝ} (hc : c ≠ 0) (α : Fin l → ℂ) :
    phi (fun i => c * time i) (fun j => α j / c) = phi time α := by
  ext i j
  rw [phi, phi, Matrix.of_apply, Matrix.of_apply]
  congr 1
  have : (c : ℂ) ≠ 0 := by exact_mod_cast hc
  push_cast
  field_simp

theorem dphi_unit {c : ℝ} (hc : c ≠ 0) (α : Fin l → ℂ) (j : Fin l) :
    dphi (fun i => c * time i) (fun j => α j / c) j = (c : ℂ) • dphi time α j := by
  ext i k
  simp only [dphi, Matrix.of_apply, Matrix.smul_apply, smul_eq_mul]
  split_ifs
  · have h : (c : ℂ) ≠ 0 := by exact_mod_cast hc
    have : α j / (c : ℂ) * ((c * time i : ℝ) : ℂ) = α j * time i := by push_cast; field_simp
    rw [this]
    push_cast
    ring
  · simp

theorem jac_unit {c : ℝ} (hc : c ≠ 0) (L : Lib l fulljac time H) (L' : Lib l fulljac (fun i => c * time i) H)
    {α : Fin l → ℂ} (hinj : Injective (phi time α)) : jac L' (fun j => α j / c) = (c : ℂ) • jac L α := by
  have hres := residual_proj (time' := fun i => c * time i) (α' := fun j => α j / c) (α := α) (H := H) L.B L'.B L.isB L'.isB
    (D := 1) (by simp) (by rw [phi_unit hc, Matrix.mul_one])
  have hinj' : Injective (phi (fun i => c * time i) fun j => α j / c) := by rw [phi_unit hc]; exact hinj
  ext p j
  rw [Matrix.smul_apply, jac_eq L' hinj', jac_eq L hinj, hres]
  have : jacM fulljac (fun i => c * time i) H (BopStep.residual time H L.B α) (fun j => α j / c) j =
      (c : ℂ) • jacM fulljac time H (BopStep.residual time H L.B α) α j := by
    rw [jacM, jacM, phi_unit hc, dphi_unit hc, smul_add]
    refine congrArg₂ _ ?_ ?_
    · rw [Matrix.mul_smul, Matrix.smul_mul]
    · split_ifs
      · rw [conjTranspose_smul, Matrix.smul_mul, Matrix.mul_smul]
        simp
      · rw [smul_zero]
  rw [this, Matrix.smul_apply]

end

end Verif.BopRun
