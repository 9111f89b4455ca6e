import Verif.Model.Dmdc
import Verif.Model.Hankel
import Verif.Props.Dmdc
import Verif.Props.RealData
import Verif.Lemmas.LinAlg

/-!
# Property C135: special cases of the methods are plain DMD
-/

set_option autoImplicit false

namespace Verif.Special

open Verif Verif.LinAlg Verif.Operator Matrix

section options

variable {m n r : Type} [Fintype m] [Fintype n] [Fintype r] [DecidableEq r]

/-- **C135** (`tikhonov_regularization=0`): the operator and the modes are those without regularization, as long as the
singular values kept are not zero. -/
theorem C135_tikhonov_zero (nX : ℝ) (U : Matrix m r ℂ) (s : r → ℝ) (hs : ∀ i, s i ≠ 0) (V : Matrix n r ℂ)
    (Y : Matrix m n ℂ) (exact : Bool) (W : Matrix r r ℂ) :
    leastSquareOperator (some (0, nX)) U s V Y = Uᴴ * Y * V * rdiag (fun i => (s i)⁻¹) ∧
    leastSquareOperator none U s V Y = Uᴴ * Y * V * rdiag (fun i => (s i)⁻¹) ∧
    computeModes exact (some (0, nX)) Y U s V W = computeModes exact none Y U s V W := by
  have h : tikSigma (some (0, nX)) s = s := by
    funext i
    simp only [tikSigma]
    have := hs i
    field_simp
    ring
  refine ⟨?_, rfl, ?_⟩
  · simp only [leastSquareOperator, h]
  · simp only [computeModes, h]
    rfl

/-- **C135** (`rescale_mode` with equal factors): the matrix given to `eig` is the operator itself, and the
coefficients of the modes are only multiplied by the root of the factor. -/
theorem C135_rescale_equal {q : ℕ} (c : ℝ) (hc : 0 < c) (A E : Matrix (Fin q) (Fin q) ℂ) :
    scaledOperator (.array (List.replicate q c)) A = .ok A ∧ scaledOperator .none A = .ok A ∧
    modeCoefficients (.array (List.replicate q c)) E = (Real.sqrt c : ℂ) • E := by
  have hg : ∀ i : Fin q, (List.replicate q c).getD i 0 = c := fun i => by
    simp [List.getD_eq_getElem?_getD]
  have h1 : factorsSqrt q (List.replicate q c) = (Real.sqrt c : ℂ) • 1 := by
    ext i j
    by_cases h : i = j
    · subst h; simp [factorsSqrt, rdiag]
    · simp [factorsSqrt, rdiag, h]
  have h2 : factorsInvSqrt q (List.replicate q c) = ((Real.sqrt c)⁻¹ : ℂ) • 1 := by
    ext i j
    by_cases h : i = j
    · subst h; simp [factorsInvSqrt, rdiag, hc.ne']
    · simp [factorsInvSqrt, rdiag, h]
  have h0 : (Real.sqrt c : ℂ) ≠ 0 := by
    exact_mod_cast (Real.sqrt_pos.mpr hc).ne'
  refine ⟨?_, rfl, ?_⟩
  · simp only [scaledOperator, List.length_replicate, ne_eq, not_true_eq_false, if_false, h1, h2]
    rw [Matrix.smul_mul, Matrix.one_mul, Matrix.smul_mul, Matrix.mul_smul, Matrix.mul_one, smul_smul, inv_mul_cancel₀ h0,
      one_smul]
  · simp only [modeCoefficients, h1]
    simp

end options

section dmdc

open Verif.Dmdc

variable {m n k r : Type} [Fintype m] [Fintype n] [Fintype k] [Fintype r] [DecidableEq r] [DecidableEq k]
  [DecidableEq n]

/-- **C135** (DMDc, `B` known): if the control never acts (`B I = 0`), operator and modes are those of exact DMD. -/
theorem C135_dmdc_known {q : ℕ} (U : Matrix m r ℂ) (s : r → ℝ) (V : Matrix n r ℂ) (Y : Matrix m n ℂ)
    (B : Matrix m (Fin q) ℂ) (I : Matrix (Fin q) n ℂ) (h : B * I = 0) (W : Matrix r r ℂ) :
    knownOperator U s V Y B I = Uᴴ * Y * V * rdiag (fun i => (s i)⁻¹) ∧
    knownModes U s V Y B I W = computeModes true none Y U s V W := by
  simp only [knownOperator, knownModes, h, sub_zero]
  exact ⟨rfl, trivial⟩

omit [DecidableEq r] [DecidableEq n] in
/-- **C135** (DMDc, `B` unknown): if the control is zero, the singular vectors of `[X; 0]` with positive singular values
are those of `X` with zeros below, the matrix `B` found is zero, and without truncation of `Y` the nonzero eigenvalues are
exactly those of DMD; eigenvectors of DMD give eigenvectors here. -/
theorem C135_dmdc_unknown {q : ℕ} (X Y : Matrix m n ℂ) (Up : Matrix (m ⊕ Fin q) k ℂ) (sp : k → ℝ)
    (Vp : Matrix n k ℂ) (hO : IsSVD (omega X (0 : Matrix (Fin q) n ℂ)) Up sp Vp) (hpos : ∀ i, 0 < sp i)
    (Ur : Matrix m r ℂ) (hUr : Ur * Urᴴ * Y = Y) :
    IsSVD X (upper Up) sp Vp ∧ unknownB Y Up sp Vp Ur = 0 ∧
    ∀ l : ℂ, l ≠ 0 →
      ((∃ w, w ≠ 0 ∧ Eig (leastSquareOperator none (upper Up) sp Vp Y) l w) ↔
        ∃ z, z ≠ 0 ∧ Eig (unknownOperator Y Up sp Vp Ur) l z) := by
  have hlow : lower Up = 0 := by
    have e : omega X (0 : Matrix (Fin q) n ℂ) * Vp = Up * rdiag sp := by
      rw [hO.eq, Matrix.mul_assoc, hO.v, Matrix.mul_one]
    ext i j
    have := congrFun (congrFun e (Sum.inr i)) j
    simp only [Matrix.mul_apply, omega, of_apply, Sum.elim_inr, Matrix.zero_apply, zero_mul, Finset.sum_const_zero,
      rdiag, diagonal_apply, mul_ite, mul_zero, Finset.sum_ite_eq', Finset.mem_univ, if_true] at this
    have hs : (sp j : ℂ) ≠ 0 := by exact_mod_cast (hpos j).ne'
    rcases mul_eq_zero.mp this.symm with h | h
    · simpa [lower] using h
    · exact absurd h hs
  have hX : IsSVD X (upper Up) sp Vp := by
    refine ⟨?_, ?_, hO.v, hO.nonneg⟩
    · ext i j
      have := congrFun (congrFun hO.eq (Sum.inl i)) j
      simp only [omega, of_apply, Sum.elim_inl] at this
      rw [this]
      simp [Matrix.mul_apply, upper]
    · rw [← hO.u]
      ext i j
      simp only [Matrix.mul_apply, conjTranspose_apply, Fintype.sum_sum_type, upper, submatrix_apply, id_eq]
      have h0 : ∀ a b, Up (Sum.inr a) b = 0 := fun a b => congrFun (congrFun hlow a) b
      simp [h0]
  refine ⟨hX, ?_, fun l hl => ?_⟩
  · simp [unknownB, hlow]
  · set S := rdiag (fun i => (sp i)⁻¹) with hS
    have hA : leastSquareOperator none (upper Up) sp Vp Y = (upper Up)ᴴ * Ur * (Urᴴ * Y * Vp * S) := by
      have : (upper Up)ᴴ * Ur * (Urᴴ * Y * Vp * S) = (upper Up)ᴴ * (Ur * Urᴴ * Y) * Vp * S := by
        simp only [Matrix.mul_assoc]
      rw [this, hUr]
      rfl
    have hB : unknownOperator Y Up sp Vp Ur = Urᴴ * Y * Vp * S * ((upper Up)ᴴ * Ur) := by
      simp only [unknownOperator, hS, Matrix.mul_assoc]
    rw [hA, hB]
    generalize (upper Up)ᴴ * Ur = F
    generalize Urᴴ * Y * Vp * S = G
    constructor
    · rintro ⟨w, hw, h⟩
      refine ⟨G *ᵥ w, fun h0 => ?_, ?_⟩
      · unfold Eig at h
        rw [← mulVec_mulVec, h0, mulVec_zero] at h
        exact hw ((smul_eq_zero.mp h.symm).resolve_left hl)
      · unfold Eig at h ⊢
        rw [mulVec_mulVec, Matrix.mul_assoc, ← mulVec_mulVec, h, mulVec_smul]
    · rintro ⟨w, hw, h⟩
      refine ⟨F *ᵥ w, fun h0 => ?_, ?_⟩
      · unfold Eig at h
        rw [← mulVec_mulVec, h0, mulVec_zero] at h
        exact hw ((smul_eq_zero.mp h.symm).resolve_left hl)
      · unfold Eig at h ⊢
        rw [mulVec_mulVec, Matrix.mul_assoc, ← mulVec_mulVec, h, mulVec_smul]

open Verif.Time in
/-- **C135** (reconstruction of DMDc), in part: with a control that is zero and lag 1, the reconstruction over the window
of the fit is that of DMD with independent modes and the amplitudes of the first snapshot, if the first snapshot is a
combination of the modes. Missing: time steps that are not multiples of the original one
(`C135_dmdc_step_false`). -/
theorem C135_dmdc_reconstruction_partial [DecidableEq m] {q : ℕ} (modes : Matrix m r ℂ) (eigs : r → ℂ)
    (P : Matrix r m ℂ) (hP : P * modes = 1) (B : Matrix m (Fin q) ℂ) (b : r → ℂ) (rest : List (m → ℂ))
    (other : Control) :
    reconstructedData modes eigs P B (modes *ᵥ b :: rest) 1 (fitWindow (rest.length + 1)) (fitWindow (rest.length + 1))
      other (some (.two (List.replicate rest.length (List.replicate q 0)))) =
    .ok ((List.range (rest.length + 1)).map fun t => fun x => ∑ i, modes x i * (eigs i ^ t * b i)) := by
  obtain ⟨data, h1, -, h3, h4, h5⟩ := C39_recurrence modes eigs P B (modes *ᵥ b :: rest) 1 le_rfl (by simp)
    (fitWindow (rest.length + 1)) (fitWindow (rest.length + 1)) 1 (by simp) (by simp [fitWindow]) _
    (timesteps_ok _ (by simp [fitWindow])) (List.replicate rest.length (List.replicate q 0))
    (fun u hu => by rw [List.eq_of_mem_replicate hu]; simp) (by rw [length_steps]; simp [fitWindow]) other
  rw [h1]
  congr 1
  have hg : ∀ t ≤ rest.length, data[t]? = some (modes *ᵥ fun i => eigs i ^ t * b i) := by
    intro t
    induction t with
    | zero =>
      intro _
      have : data[0]? = (data.take 1)[0]? := by rw [List.getElem?_take_of_lt (by norm_num)]
      rw [this, h4]
      simp
    | succ t ih =>
      intro ht
      obtain ⟨x, hx, hy⟩ := h5 t (List.replicate q 0) (by
        rw [List.getElem?_replicate, if_pos (by omega)])
      rw [ih (by omega)] at hx
      rw [hy]
      have h0 : (B *ᵥ fun j : Fin q => (List.replicate q (0 : ℂ)).getD j 0) = 0 := by
        have : (fun j : Fin q => (List.replicate q (0 : ℂ)).getD j 0) = 0 := by
          funext j
          simp [List.getD_eq_getElem?_getD]
        rw [this, mulVec_zero]
      rw [h0, add_zero, ← Option.some.inj hx, mulVec_mulVec, Matrix.mul_assoc, hP, Matrix.mul_one, ← mulVec_mulVec]
      congr 2
      funext i
      rw [mulVec_diagonal]
      simp only [zpow_one]
      ring
  refine List.ext_getElem? fun t => ?_
  by_cases ht : t ≤ rest.length
  · rw [hg t ht, List.getElem?_map, List.getElem?_range (by omega)]
    simp only [Option.map_some]
    congr 1
  · have hl : data.length = rest.length + 1 := by rw [h3]; simp; omega
    rw [List.getElem?_eq_none (by omega), List.getElem?_eq_none (by simp; omega)]

/-- **C135** is false for DMDc and half a time step: `dt // original dt` is 0, so that the state 1 of a system that
doubles at each step never moves, while DMD reaches `2 ^ (1/2)` at the time 1/2. -/
theorem C135_dmdc_step_false :
    let w : Time.Window := ⟨0, 1, 1 / 2⟩
    reconstructedData (1 : Matrix (Fin 1) (Fin 1) ℂ) (fun _ => 2) 1 (0 : Matrix (Fin 1) (Fin 1) ℂ) [fun _ => 1, fun _ => 2]
      1 (Time.fitWindow 2) w (.two [[0]]) (some (.two [[0], [0]])) = .ok [fun _ => 1, fun _ => 1, fun _ => 1] ∧
    Time.reconstructed (Bitmask.afterFit [fun _ : Fin 1 => (1 : ℂ)] [(2 : ℂ)] [(1 : ℂ)]) (Time.fitWindow 2) w (.bool false) 2 =
      .ok [fun _ => 1, fun _ => Time.npPow 2 (1 / 2), fun _ => 2] ∧ Time.npPow 2 (1 / 2) ^ 2 = 2 := by
  intro w
  have hst : Time.steps w = [0, 1 / 2, 1] := by
    have : (⌈(w.tend + w.dt - w.t0) / w.dt⌉).toNat = 3 := by
      norm_num [w]
      rfl
    simp only [Time.steps, this]
    norm_num [w, List.range_succ]
  have hts := Time.timesteps_ok w (by norm_num [w])
  rw [hst] at hts
  have hfl : ⌊w.dt / (Time.fitWindow 2).dt⌋ = 0 := by norm_num [w, Time.fitWindow]
  refine ⟨?_, ?_, ?_⟩
  · simp only [reconstructedData, Option.getD_some, hts, Control.len, hfl]
    simp [controlLoop]
  · have hr := Bitmask.Rel.init [fun _ : Fin 1 => (1 : ℂ)] [(2 : ℂ)] [(1 : ℂ)] (n := 1) rfl rfl rfl
    rw [Time.reconstructed_rel hr, Time.timesteps_ok w (by norm_num [w]), hst]
    have h0 : Time.npPow 2 0 = 1 := by simpa using Time.npPow_int 2 0
    have h1 : Time.npPow 2 1 = 2 := by simpa using Time.npPow_int 2 1
    simp only [Except.map, List.map_cons, List.map_nil, Bitmask.Spec.afterFit, List.length_cons, List.length_nil,
      List.replicate, Bitmask.gather, if_true, Time.dotCol, Time.dynamicsAt, List.zipWith_cons_cons,
      List.zipWith_nil_left, List.sum_cons, List.sum_nil, Time.exponent, Time.translate, Time.fitWindow]
    norm_num [h0, h1]
  · unfold Time.npPow
    rw [← Complex.cpow_nat_mul]
    norm_num

end dmdc

section hankel

open Verif.Hankel

variable {K : Type}

/-- **C135** (HankelDMD with `d=1`): the matrix given to the inner DMD is the data, and the inner reconstruction is
returned unchanged for `"first"`, `"mean"` and every nonzero weight. -/
theorem C135_hankel [Field K] [DecidableEq K] (X : List (List K)) (n : ℕ) (hn : ∀ x ∈ X, x.length = n)
    (hX : X ≠ []) (w : K) (hw : w ≠ 0) :
    pseudoHankel X 1 = .ok X ∧ post .first 1 X = .ok X ∧ post .mean 1 X = .ok X ∧ post (.weights [w]) 1 X = .ok X := by
  have h1 : pseudoHankel X 1 = .ok X := by
    have hl : ¬ X.length < 1 := by
      have := List.length_pos_iff.mpr hX
      omega
    simp only [pseudoHankel, if_neg hl]
    congr 1
    refine List.ext_getElem? fun i => ?_
    have hp := List.length_pos_iff.mpr hX
    by_cases hi : i < X.length
    · rw [List.getElem?_map, List.getElem?_range (by omega), List.getElem?_eq_getElem hi]
      simp only [Option.map_some, Option.some.injEq]
      rw [List.drop_eq_getElem_cons hi, List.take_succ_cons]
      simp
    · rw [List.getElem?_eq_none (by simp; omega), List.getElem?_eq_none (by omega)]
  have hv : versions X 1 = X.map fun x => [some x] := by
    have hp := List.length_pos_iff.mpr hX
    have hhead : (X.headD []).length = n := by
      obtain ⟨x, xs, rfl⟩ := List.exists_cons_of_ne_nil hX
      exact hn x (by simp)
    simp only [versions, Nat.div_one, hhead]
    refine List.ext_getElem? fun i => ?_
    by_cases hi : i < X.length
    · rw [List.getElem?_map, List.getElem?_range (by omega), List.getElem?_map, List.getElem?_eq_getElem hi]
      have hlen := hn X[i] (List.getElem_mem hi)
      simp only [List.range_one, List.map_cons, List.map_nil, Nat.zero_le, if_true, Nat.sub_zero,
        List.getElem?_eq_getElem hi, Option.map_some, block, Nat.zero_mul, List.drop_zero, ← hlen, List.take_length]
    · rw [List.getElem?_eq_none (by simp; omega), List.getElem?_eq_none (by simp; omega)]
  have hhead : (X.headD []).length = n := by
    obtain ⟨x, xs, rfl⟩ := List.exists_cons_of_ne_nil hX
    exact hn x (by simp)
  have hav : ∀ a : K, a ≠ 0 → ∀ x ∈ X, average n [a] [some x] = x := by
    intro a ha x hx
    have hxn := hn x hx
    have ht : wtotal [a] [some x] = a := by simp [wtotal]
    simp only [average, ht, if_neg ha, wsum, List.map_map]
    refine List.ext_getElem? fun i => ?_
    by_cases hi : i < n
    · rw [List.getElem?_map, List.getElem?_range hi]
      simp [hxn, hi, ha]
    · rw [List.getElem?_eq_none (by simp; omega), List.getElem?_eq_none (by omega)]
  refine ⟨h1, ?_, ?_, ?_⟩
  · simp only [post, hv]
    congr 1
    refine List.ext_getElem? fun i => ?_
    simp only [List.getElem?_mapIdx, List.getElem?_map, firstVersion, Option.map_map]
    cases X[i]? <;> simp
  · simp only [post, hv, hhead, Nat.div_one, List.map_map]
    congr 1
    conv_rhs => rw [← List.map_id X]
    exact List.map_congr_left fun x hx => hav 1 one_ne_zero x hx
  · simp only [post, hv, hhead, Nat.div_one, List.map_map, List.length_singleton, ne_eq, not_true_eq_false, if_false]
    congr 1
    conv_rhs => rw [← List.map_id X]
    exact List.map_congr_left fun x hx => hav w hw x hx

/-- **C135** (HankelDMD with `d=1`, windows): over every window from `a` to `b` time steps after the start, the
reconstruction is that of the inner DMD over the same steps. -/
theorem C135_hankel_window [Field K] [DecidableEq K] (m : Method K)
    (hm : m = .first ∨ m = .mean ∨ ∃ w, w ≠ 0 ∧ m = .weights [w])
    (inner : Time.Window → Except PyErr (List (List K))) (dt : ℚ) (hdt : 0 < dt) (tend : ℚ) (a b : ℕ) (hab : a ≤ b)
    (X : List (List K)) (n : ℕ) (hn : ∀ x ∈ X, x.length = n) (hX : X.length = b - a + 1)
    (hin : inner ⟨a, b, 1⟩ = .ok X) :
    reconstructedData m 1 ⟨0, tend, dt⟩ ⟨a * dt, b * dt, dt⟩ inner = .ok X := by
  have hne : dt ≠ 0 := hdt.ne'
  have hfl : ∀ k : ℕ, ⌊((k : ℚ) * dt - 0) / dt⌋ = (k : ℤ) := by
    intro k
    rw [sub_zero, mul_div_cancel_right₀ _ hne]
    exact Int.floor_natCast k
  have hsub : subWindow ⟨0, tend, dt⟩ ⟨a * dt, b * dt, dt⟩ 1 = ⟨a, b, 1⟩ := by
    simp only [subWindow, firstOccurrence, hfl]
    congr 1 <;> simp
  have hX0 : X ≠ [] := by
    intro h
    rw [h] at hX
    simp at hX
  have hpost : post m 1 X = .ok X := by
    rcases hm with rfl | rfl | ⟨w, hw, rfl⟩
    · exact (C135_hankel X n hn hX0 1 one_ne_zero).2.1
    · exact (C135_hankel X n hn hX0 1 one_ne_zero).2.2.1
    · exact (C135_hankel X n hn hX0 w hw).2.2.2
  have hl : (Time.steps ⟨a * dt, b * dt, dt⟩).length = b - a + 1 := by
    rw [Time.length_steps]
    have : ((b : ℚ) * dt + dt - a * dt) / dt = ((b - a + 1 : ℕ) : ℤ) := by
      field_simp
      push_cast [Nat.cast_sub hab]
      ring
    simp only [this, Int.ceil_intCast]
    simp
  simp only [reconstructedData, bind, Except.bind, Time.timesteps_ok _ (show (⟨a * dt, b * dt, dt⟩ : Time.Window).dt ≠ 0 from hne),
    hsub, hin, hpost, hfl, hl, pure, Except.pure]
  have hmin : min (((1 : ℕ) : ℤ) - 1) (a : ℤ) = 0 := by simp
  rw [hmin, ← hX]
  have h0 : ¬ ((X.length : ℤ) < 0) := by omega
  simp [pySlice, h0]

/-- **C135** is false for a weight that is zero: `reconstruction_method=[0]` is accepted, and every reconstruction is
zero. -/
theorem C135_hankel_weight_false [Field K] [DecidableEq K] (x : K) :
    initCheck (.weights [0] : Method K) 1 = .ok () ∧ post (.weights [0]) 1 [[x]] = .ok [[0]] := by
  refine ⟨by simp [initCheck], ?_⟩
  simp [post, versions, average, wtotal, List.range_succ]

/-! ### The hypotheses are met -/

/-- `C135_tikhonov_zero` and `C135_rescale_equal` with two singular values, and with the factor 4. -/
example (V W : Matrix (Fin 2) (Fin 2) ℂ) (Y : Matrix (Fin 2) (Fin 2) ℂ) :
    leastSquareOperator (some (0, 3)) (1 : Matrix (Fin 2) (Fin 2) ℂ) ![3, 1] V Y =
      leastSquareOperator none (1 : Matrix (Fin 2) (Fin 2) ℂ) ![3, 1] V Y ∧
    modeCoefficients (.array (List.replicate 2 4)) W = (Real.sqrt 4 : ℂ) • W :=
  have h := C135_tikhonov_zero 3 (1 : Matrix (Fin 2) (Fin 2) ℂ) ![3, 1] (by intro i; fin_cases i <;> simp) V Y true W
  ⟨h.1.trans h.2.1.symm, (C135_rescale_equal 4 (by norm_num) W W).2.2⟩

/-- `C135_dmdc_known` with two inputs that cancel each other. -/
example : (!![1, 1] : Matrix (Fin 1) (Fin 2) ℂ) * (!![2, 3; -2, -3] : Matrix (Fin 2) (Fin 2) ℂ) = 0 := by
  ext i j; fin_cases i; fin_cases j <;> simp [Matrix.mul_apply, Fin.sum_univ_two]

/-- `C135_dmdc_unknown` with one sensor that shows 2 and then 6, and an input that is zero: the eigenvalue 3 of DMD is found. -/
example : ∃ (Up : Matrix (Fin 1 ⊕ Fin 1) (Fin 1) ℂ) (sp : Fin 1 → ℝ) (Vp Ur : Matrix (Fin 1) (Fin 1) ℂ),
    IsSVD (Dmdc.omega (!![2] : Matrix (Fin 1) (Fin 1) ℂ) (0 : Matrix (Fin 1) (Fin 1) ℂ)) Up sp Vp ∧ (∀ i, 0 < sp i) ∧
    Ur * Urᴴ * !![6] = !![6] ∧ leastSquareOperator none (Dmdc.upper Up) sp Vp !![6] = !![3] := by
  refine ⟨of (Sum.elim (fun _ _ => 1) fun _ _ => 0), fun _ => 2, 1, 1, ⟨?_, ?_, by simp, fun _ => by norm_num⟩, fun _ => by norm_num,
    by simp, ?_⟩
  · ext i j
    fin_cases j
    rcases i with i | i <;> fin_cases i <;> simp [Dmdc.omega, rdiag]
  · ext i j; fin_cases i; fin_cases j; simp [Matrix.mul_apply]
  · ext i j
    fin_cases i; fin_cases j
    simp [leastSquareOperator, tikSigma, Dmdc.upper, rdiag, Matrix.mul_apply]
    norm_num

/-- `C135_dmdc_reconstruction_partial` with one mode in two sensors. -/
example : (!![1 / 2, 1 / 2] : Matrix (Fin 1) (Fin 2) ℂ) * (!![1; 1] : Matrix (Fin 2) (Fin 1) ℂ) = 1 := by
  ext i j; fin_cases i; fin_cases j; simp [Matrix.mul_apply, Fin.sum_univ_two]; norm_num

/-- `C135_hankel` and `C135_hankel_window` with two snapshots of two values, one step after the start, with the weight 3. -/
example : pseudoHankel ([[1, 2], [3, 4]] : List (List ℚ)) 1 = .ok [[1, 2], [3, 4]] ∧
    reconstructedData (.weights [3] : Method ℚ) 1 ⟨0, 5, 1 / 2⟩ ⟨1 / 2, 1, 1 / 2⟩
      (fun w => if w = ⟨1, 2, 1⟩ then .ok [[1, 2], [3, 4]] else .error .valueError) = .ok [[1, 2], [3, 4]] := by
  have hn : ∀ x ∈ ([[1, 2], [3, 4]] : List (List ℚ)), x.length = 2 := by simp
  refine ⟨(C135_hankel _ 2 hn (by simp) 3 (by norm_num)).1, ?_⟩
  have := C135_hankel_window (.weights [3] : Method ℚ) (.inr (.inr ⟨3, by norm_num, rfl⟩))
    (fun w => if w = ⟨1, 2, 1⟩ then .ok [[1, 2], [3, 4]] else .error .valueError) (1 / 2) (by norm_num) 5 1 2 (by norm_num)
    [[1, 2], [3, 4]] 2 hn rfl (by simp)
  simpa using this

end hankel

end Verif.Special
