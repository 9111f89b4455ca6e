import Verif.Model.OptAmps
import Verif.Props.Dmdc
import Verif.Props.Linear
import Verif.Props.Operator
import Verif.Props.Spectrum

/-!
# Properties C143, C144: options of DMDc, optimal amplitudes in the subclasses
-/

set_option autoImplicit false

namespace Verif.DmdcOptions

open Matrix Verif Verif.LinAlg Verif.Operator Verif.Dmdc Verif.OptAmps Verif.Spectrum


variable {m n : Type} [Fintype m] [DecidableEq m] [Fintype n] [DecidableEq n]

theorem mul_lead {p : ℕ} {X : Matrix m n ℂ} {U : Matrix m (Fin p) ℂ} {s : Fin p → ℝ}
    {V : Matrix n (Fin p) ℂ} (h : IsSVD X U s V) (q : ℕ) (hq : q ≤ p) :
    X * lead q hq V = lead q hq U * rdiag (s ∘ Fin.castLE hq) := by
  have e : X * V = U * rdiag s := by rw [h.eq, Matrix.mul_assoc, h.v, Matrix.mul_one]
  ext i j
  have := congrFun (congrFun e i) (Fin.castLE hq j)
  rw [rdiag, mul_diagonal] at this ⊢
  simpa [lead, Matrix.mul_apply] using this

/-! ## C143 -/

/-- **C143** (`tlsq_rank`, known `B`). Without noise (`Y = A X + B I`) the reduced operator is the compression of `A`,
for every `tlsq_rank`, although the de-noising is applied to `Y` before the control is subtracted and not to the
control. `Vt` are the right singular vectors of the stacked data, `U, s, V` is the SVD of the de-noised `X`, of which `r`
nonzero singular values are kept. -/
theorem C143_tlsq {k p q : ℕ} (A : Matrix m m ℂ) (B : Matrix m (Fin q) ℂ) (I : Matrix (Fin q) n ℂ)
    (X Y : Matrix m n ℂ) (hY : Y = A * X + B * I) (Vt : Matrix n (Fin k) ℂ) (hVt : Vtᴴ * Vt = 1) (tlsqRank : ℕ)
    (U : Matrix m (Fin p) ℂ) (s : Fin p → ℝ) (V : Matrix n (Fin p) ℂ)
    (h : IsSVD (computeTlsq Vt X Y tlsqRank).1 U s V) (r : ℕ) (hr : r ≤ p) (hs : ∀ i : Fin r, 0 < s (Fin.castLE hr i)) :
    knownOperator (lead r hr U) (s ∘ Fin.castLE hr) (lead r hr V) (computeTlsq Vt X Y tlsqRank).2 B I =
      (lead r hr U)ᴴ * A * lead r hr U := by
  obtain ⟨P, hP, hPP, h1, h2⟩ : ∃ P : Matrix n n ℂ, Pᴴ = P ∧ P * P = P ∧ (computeTlsq Vt X Y tlsqRank).1 = X * P ∧
      (computeTlsq Vt X Y tlsqRank).2 = Y * P := by
    obtain ⟨h0, h1⟩ := C14_projection Vt hVt X Y
    by_cases hk : tlsqRank = 0
    · subst hk
      exact ⟨1, by simp, by simp, by rw [h0, Matrix.mul_one], by rw [h0, Matrix.mul_one]⟩
    · obtain ⟨P, hP, hPP, -, e, -⟩ := h1 tlsqRank hk
      exact ⟨P, hP, hPP, by rw [e], by rw [e]⟩
  set S := rdiag (s ∘ Fin.castLE hr) with hS
  set Si := rdiag (fun i : Fin r => ((s ∘ Fin.castLE hr) i)⁻¹) with hSi
  have hss : S * Si = 1 := rdiag_mul_inv _ fun i => (hs i).ne'
  rw [h1] at h
  have hc := h.conj_mul_lead r hr
  rw [← hS] at hc
  -- the right singular vectors are fixed by the projection
  have hPV : P * lead r hr V = lead r hr V := by
    have e : P * (lead r hr V * S) = lead r hr V * S := by
      rw [← hc, conjTranspose_mul, hP, ← Matrix.mul_assoc, ← Matrix.mul_assoc, hPP]
    calc P * lead r hr V = P * (lead r hr V * S) * Si := by
          rw [Matrix.mul_assoc, Matrix.mul_assoc, hss, Matrix.mul_one]
      _ = _ := by rw [e, Matrix.mul_assoc, hss, Matrix.mul_one]
  have hXV : X * lead r hr V * Si = lead r hr U := by
    have e : X * P * lead r hr V = lead r hr U * S := by
      have := mul_lead h r hr
      rwa [← hS] at this
    rw [Matrix.mul_assoc, hPV] at e
    rw [e, Matrix.mul_assoc, hss, Matrix.mul_one]
  simp only [knownOperator, leastSquareOperator, tikSigma]
  rw [h2, hY]
  calc (lead r hr U)ᴴ * ((A * X + B * I) * P - B * I) * lead r hr V * Si
      = (lead r hr U)ᴴ * (((A * X + B * I) * (P * lead r hr V) - B * I * lead r hr V) * Si) := by
        simp only [Matrix.mul_assoc, Matrix.sub_mul]
    _ = (lead r hr U)ᴴ * (A * (X * lead r hr V * Si)) := by
        rw [hPV]
        simp only [Matrix.add_mul, Matrix.mul_assoc, add_sub_cancel_right]
    _ = _ := by rw [hXV, Matrix.mul_assoc]

/-- The hypotheses are met with a `tlsq_rank` that changes the data: `A = 2`, `B = 1`, states 3 and 4, controls 1 and 2, of
which only the first column is kept. The operator is 2. -/
example (X Y : Matrix (Fin 1) (Fin 2) ℂ) (A B : Matrix (Fin 1) (Fin 1) ℂ) (I : Matrix (Fin 1) (Fin 2) ℂ) (hX : X = !![3, 4])
    (hA : A = !![2]) (hB : B = !![1]) (hI : I = !![1, 2]) (hY : Y = A * X + B * I) :
    knownOperator (lead 1 le_rfl (1 : Matrix (Fin 1) (Fin 1) ℂ)) ((fun _ => (3 : ℝ)) ∘ Fin.castLE le_rfl)
      (lead 1 le_rfl (of ![![1], ![0]] : Matrix (Fin 2) (Fin 1) ℂ))
      (computeTlsq (1 : Matrix (Fin 2) (Fin 2) ℂ) X Y 1).2 B I = !![2] := by
  rw [C143_tlsq A B I X Y hY 1 (by simp) 1 1 (fun _ => 3) _ ?_ 1 le_rfl (by simp)]
  · ext i j
    fin_cases i; fin_cases j
    simp [lead, Matrix.mul_apply, hA]
  refine ⟨?_, by simp, ?_, by simp⟩
  · have e : tlsqProj (1 : Matrix (Fin 2) (Fin 2) ℂ) (min_le_right 1 2) = !![1, 0; 0, 0] := by
      have h1 : min 1 2 = 1 := rfl
      ext i j
      fin_cases i <;> fin_cases j <;> simp [tlsqProj, Matrix.mul_apply, Matrix.one_apply, Fin.ext_iff] <;>
        exact Finset.sum_eq_zero fun x _ => by omega
    simp only [computeTlsq, one_ne_zero, if_false, e, hX]
    ext i j
    fin_cases i
    fin_cases j <;> simp [rdiag, Matrix.mul_apply]
  · ext i j
    fin_cases i; fin_cases j
    simp [Matrix.mul_apply, Fin.sum_univ_two]

/-- **C143** (`lag`), negation. A component `c exp ((σ + 2 π i f) t)` sampled at `t = 0, 1, …` without control. With
`lag = ℓ` the operator is the ℓ-th power of the eigenvalue for one step, but `frequency` divides by the step of
the snapshots: it returns `ℓ f`. -/
theorem C143_lag_false (σ f : ℝ) (c : ℂ) (l : ℕ) (hf : |l * f| < 1 / 2) {N : ℕ}
    (X Y : Matrix (Fin 1) (Fin N) ℂ) (hX : ∀ j, X 0 j = c * sampled σ f 1 ^ (j : ℕ))
    (hY : ∀ j, Y 0 j = c * sampled σ f 1 ^ (j + l : ℕ))
    (U : Matrix (Fin 1) (Fin 1) ℂ) (s : Fin 1 → ℝ) (V : Matrix (Fin N) (Fin 1) ℂ) (h : IsSVD X U s V) (hs : 0 < s 0)
    (w : Time.Window) (hw : w.dt = 1) (B : Matrix (Fin 1) (Fin 1) ℂ) :
    knownOperator U s V Y B 0 = (fun _ _ => sampled σ f 1 ^ l) ∧
      frequency (.cplx [sampled σ f 1 ^ l]) (some w) = .ok [l * f] := by
  constructor
  · have e : Y = (of fun _ _ => sampled σ f 1 ^ l : Matrix (Fin 1) (Fin 1) ℂ) * X := by
      ext i j
      fin_cases i
      simp [Matrix.mul_apply, hX, hY, pow_add]
      ring
    have hU := h.u
    have hXV : X * V = U * rdiag s := by
      rw [h.eq, Matrix.mul_assoc, h.v, Matrix.mul_one]
    have hss : rdiag s * rdiag (fun i => (s i)⁻¹) = 1 := rdiag_mul_inv _ fun i => by
      fin_cases i; exact hs.ne'
    simp only [knownOperator, leastSquareOperator, tikSigma, Matrix.mul_zero, sub_zero]
    rw [e]
    calc _ = Uᴴ * ((of fun _ _ => sampled σ f 1 ^ l : Matrix (Fin 1) (Fin 1) ℂ) * (X * V * rdiag (fun i => (s i)⁻¹))) := by
          simp only [Matrix.mul_assoc]
      _ = Uᴴ * ((of fun _ _ => sampled σ f 1 ^ l : Matrix (Fin 1) (Fin 1) ℂ) * U) := by
          rw [hXV, Matrix.mul_assoc, hss, Matrix.mul_one]
      _ = _ := by
          have h1 := congrFun (congrFun hU 0) 0
          ext i j
          fin_cases i; fin_cases j
          simp [Matrix.mul_apply] at h1 ⊢
          linear_combination sampled σ f 1 ^ l * h1
  · have e : sampled σ f 1 ^ l = sampled (l * σ) (l * f) (w.dt : ℚ) := by
      rw [hw, sampled, sampled, ← Complex.exp_nat_mul]
      push_cast
      ring_nf
    obtain ⟨fs, h1, h2, h3⟩ := C113_frequency_partial [(l * σ, l * f)] w (by rw [hw]; norm_num)
    rw [e]
    simp only [List.map_cons, List.map_nil] at h1
    rw [h1]
    match fs, h2 with
    | [φ], _ =>
      rw [(h3 0 (l * σ) (l * f) φ rfl rfl).2.2.2 (by rw [hw]; simpa using hf)]

/-- The hypotheses are met: frequency 1/8, `lag = 2`, one pair of snapshots. The frequency returned is 1/4. -/
example : frequency (.cplx [sampled 0 (1 / 8) 1 ^ 2]) (some (Time.fitWindow 3)) = .ok [1 / 4] := by
  have := (C143_lag_false 0 (1 / 8) 1 2 (by norm_num [abs_lt]) (N := 1) 1 (fun _ _ => sampled 0 (1 / 8) 1 ^ 2)
    (by intro j; fin_cases j; exact (mul_one _).symm) (by intro j; fin_cases j; simp) 1 (fun _ => 1) 1
    ⟨by simp [rdiag], by simp, by simp, by simp⟩ one_pos (Time.fitWindow 3) rfl 1).2
  rw [this]
  norm_num

/-- **C143** (`dmd_time["dt"]`), negation. With a doubled step the reconstruction of `x' = a x + b u` takes one step with
`a ^ 2` but adds `b u` only once. If the control is held during the step, the state is `a (a x + b u) + b u`; the two
agree only if `a b u = 0`. -/
theorem C143_dt_false (a b x u : ℂ) (snaps : List (Fin 1 → ℂ)) (ctl : Control) :
    ∃ y : ℂ, reconstructedData (1 : Matrix (Fin 1) (Fin 1) ℂ) (fun _ => a) 1 (of fun _ _ : Fin 1 => b)
        ((fun _ => x) :: snaps) 1 (Time.fitWindow 3) ⟨0, 2, 2⟩ ctl (some (.two [[u]])) =
        .ok [fun _ => x, fun _ => y] ∧ (y = a * (a * x + b * u) + b * u ↔ a * b * u = 0) := by
  refine ⟨a ^ 2 * x + b * u, ?_, ?_⟩
  · have ht : (⟨0, 2, 2⟩ : Time.Window).timesteps = .ok [0, 2] := by decide +kernel
    have hd : ⌊(2 : ℚ) / (Time.fitWindow 3).dt⌋ = 2 := by decide +kernel
    simp only [reconstructedData, ht, hd, Option.getD_some, Control.len, List.length_cons, List.length_nil]
    simp [controlLoop]
    funext i
    fin_cases i
    simp [mulVec, dotProduct]
  · constructor
    · intro h; linear_combination -h
    · intro h; linear_combination -h

/-! ## C144 -/

omit [DecidableEq m] in
/-- **C144** (classes with `_exact = True`: `DMD(exact=True)`, `CDMD`, `RDMD`, `EDMD`). With `opt=True` the fit does not
raise, and its amplitudes minimise the distance of the reconstruction to all snapshots. -/
theorem C144_exact_partial (cls : OptAmps.Cls) (hc : cls = .dmd true ∨ cls = .cdmd ∨ cls = .edmd) {N c q : ℕ} (modes : Matrix m (Fin q) ℂ)
    (eigs : Fin q → ℂ) (snaps : Matrix m (Fin N) ℂ) (VX : Matrix (Fin c) (Fin q) ℂ) (s : Fin q → ℝ)
    (E : Matrix (Fin q) (Fin q) ℂ) (res : Except PyErr (Fin q → ℂ)) (h : IsOptimal cls modes eigs snaps VX s E res) :
    ∃ b, res = .ok b ∧ ∀ b', frobSq (modes * diagonal b * (of fun i (j : Fin N) => eigs i ^ (j : ℕ)) - snaps) ≤
      frobSq (modes * diagonal b' * (of fun i (j : Fin N) => eigs i ^ (j : ℕ)) - snaps) := by
  have hc : cls.exactAttr = some true := by rcases hc with rfl | rfl | rfl <;> rfl
  simp only [IsOptimal, hc] at h
  obtain ⟨b, hb, e⟩ := h
  exact ⟨b, hb, (C19_exact modes eigs snaps b e).1⟩

omit [DecidableEq m] in
/-- **C144** (classes with `_exact = False` and projected modes: `DMD()`, `PiDMD`), if the modes are the projected ones and `X` and `Y` are given
separately, so that the equations contain all columns of `X`. -/
theorem C144_projected_partial (cls : OptAmps.Cls) (hc : cls = .dmd false ∨ cls = .pidmd) {N p q : ℕ} (hq : q ≤ p)
    (snaps : Matrix m (Fin N) ℂ) (U : Matrix m (Fin p) ℂ) (s : Fin p → ℝ) (VX : Matrix (Fin N) (Fin p) ℂ)
    (h : IsSVD snaps U s VX) (E : Matrix (Fin q) (Fin q) ℂ) (eigs : Fin q → ℂ) (res : Except PyErr (Fin q → ℂ))
    (hres : IsOptimal cls (lead q hq U * E) eigs snaps (lead q hq VX) (s ∘ Fin.castLE hq) E res) :
    ∃ b, res = .ok b ∧
      ∀ b', frobSq (lead q hq U * E * diagonal b * (of fun i (j : Fin N) => eigs i ^ (j : ℕ)) - snaps) ≤
        frobSq (lead q hq U * E * diagonal b' * (of fun i (j : Fin N) => eigs i ^ (j : ℕ)) - snaps) := by
  have hc : cls.exactAttr = some false := by rcases hc with rfl | rfl <;> rfl
  simp only [IsOptimal, hc] at hres
  obtain ⟨b, hb, e⟩ := hres
  exact ⟨b, hb, C19_projected_partial hq snaps U s VX h E eigs b e⟩

/-- **C144**, negation for `DMD()` and `PiDMD` with one matrix of snapshots: the equations do not contain the last one, and
another amplitude is better (snapshots 1, 1, 1). -/
theorem C144_projected_false (cls : OptAmps.Cls) (hc : cls = .dmd false ∨ cls = .pidmd) :
    ∃ (snaps : Matrix (Fin 1) (Fin 3) ℂ) (X Y : Matrix (Fin 1) (Fin 2) ℂ) (U : Matrix (Fin 1) (Fin 1) ℂ)
      (s : Fin 1 → ℝ) (VX : Matrix (Fin 2) (Fin 1) ℂ) (E : Matrix (Fin 1) (Fin 1) ℂ) (eigs : Fin 1 → ℂ),
      X = snaps.submatrix id Fin.castSucc ∧ Y = snaps.submatrix id Fin.succ ∧ IsSVD X U s VX ∧
      leastSquareOperator none U s VX Y * E = E * diagonal eigs ∧ Eᴴ * E = 1 ∧
      ∀ res, IsOptimal cls (U * E) eigs snaps VX s E res → ∃ b b', res = .ok b ∧
        frobSq (U * E * diagonal b' * vander eigs 3 - snaps) < frobSq (U * E * diagonal b * vander eigs 3 - snaps) := by
  obtain ⟨snaps, X, Y, U, s, VX, E, eigs, h1, h2, h3, h4, h5, h6, h7⟩ := C19_projected_false
  have hc : cls.exactAttr = some false := by rcases hc with rfl | rfl <;> rfl
  refine ⟨snaps, X, Y, U, s, VX, E, eigs, h1, h2, h3, h4, h5, fun res h => ?_⟩
  simp only [IsOptimal, hc] at h
  obtain ⟨b, hb, e⟩ := h
  refine ⟨b, fun _ => 1, hb, ?_⟩
  rw [h6 b e]
  exact h7

omit [DecidableEq m] in
/-- **C144**, negation for `SubspaceDMD`: `fit` with `opt=True` always raises `AttributeError`. -/
theorem C144_subspace_false {N c q : ℕ} (modes : Matrix m (Fin q) ℂ)
    (eigs : Fin q → ℂ) (snaps : Matrix m (Fin N) ℂ) (VX : Matrix (Fin c) (Fin q) ℂ) (s : Fin q → ℝ)
    (E : Matrix (Fin q) (Fin q) ℂ) (res : Except PyErr (Fin q → ℂ)) :
    IsOptimal .subspace modes eigs snaps VX s E res ↔ res = .error .attributeError := Iff.rfl

/-- **C144**, negation for `DMDc`: the modes are the exact ones, the equations those for projected modes. For the
snapshots 9, 12, 16 without control (eigenvalue 4/3) the amplitude returned is wrong although amplitude 27/4 reproduces
the snapshots. -/
theorem C144_dmdc_false : ∃ (snaps : Matrix (Fin 1) (Fin 3) ℂ) (X Y : Matrix (Fin 1) (Fin 2) ℂ)
    (U : Matrix (Fin 1) (Fin 1) ℂ) (s : Fin 1 → ℝ) (V : Matrix (Fin 2) (Fin 1) ℂ) (E B : Matrix (Fin 1) (Fin 1) ℂ)
    (eigs : Fin 1 → ℂ),
    X = snaps.submatrix id Fin.castSucc ∧ Y = snaps.submatrix id Fin.succ ∧ IsSVD X U s V ∧
    knownOperator U s V Y B 0 * E = E * diagonal eigs ∧ Eᴴ * E = 1 ∧
    frobSq (knownModes U s V Y B 0 E * diagonal (fun _ => 27 / 4) * vander eigs 3 - snaps) = 0 ∧
    ∀ res, IsOptimal .dmdc (knownModes U s V Y B 0 E) eigs snaps V s E res →
      ∃ b, res = .ok b ∧ 0 < frobSq (knownModes U s V Y B 0 E * diagonal b * vander eigs 3 - snaps) := by
  have hm : knownModes (1 : Matrix (Fin 1) (Fin 1) ℂ) (fun _ => (15 : ℝ)) (of ![![3 / 5], ![4 / 5]] : Matrix (Fin 2) (Fin 1) ℂ)
      !![12, 16] (0 : Matrix (Fin 1) (Fin 1) ℂ) 0 1 = of fun _ _ => (4 / 3 : ℂ) := by
    ext i j
    fin_cases i; fin_cases j
    simp [knownModes, computeModes, tikSigma, rdiag, Matrix.mul_apply]
    norm_num
  refine ⟨!![9, 12, 16], !![9, 12], !![12, 16], 1, fun _ => 15, of ![![3 / 5], ![4 / 5]], 1, 0, fun _ => 4 / 3, ?_, ?_, ?_,
    ?_, by simp, ?_, ?_⟩
  · ext i j; fin_cases i; fin_cases j <;> rfl
  · ext i j; fin_cases i; fin_cases j <;> rfl
  · refine ⟨?_, by simp, ?_, by intro; norm_num⟩
    · ext p j
      fin_cases p; fin_cases j <;>
        simp [rdiag, Matrix.mul_apply, diagonal] <;> norm_num
    · ext p j
      fin_cases p; fin_cases j
      simp [Matrix.mul_apply, Fin.sum_univ_two, map_ofNat]; norm_num
  · ext i j
    fin_cases i; fin_cases j
    simp [knownOperator, leastSquareOperator, tikSigma, rdiag, Matrix.mul_apply]
    norm_num
  · rw [hm]
    simp [frobSq, Matrix.mul_apply, vander, Fin.sum_univ_three]
    norm_num
  · rintro res ⟨b, hb, e⟩
    refine ⟨b, hb, ?_⟩
    rw [hm] at e ⊢
    have e0 := congrFun e 0
    simp [optP, optQProjected, vander, mulVec, dotProduct, Matrix.mul_apply, rdiag, Fin.sum_univ_two,
      Fin.sum_univ_three] at e0
    have hb0 : b 0 = 18225 / 7696 := by linear_combination (729 / 7696) * e0
    simp [frobSq, Matrix.mul_apply, vander, Fin.sum_univ_three, hb0]
    norm_num [Complex.normSq_apply]

end Verif.DmdcOptions
