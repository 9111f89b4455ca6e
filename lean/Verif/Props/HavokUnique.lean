import Verif.Lemmas.HavokModel

/-!
# Property C167: HAVOK is determined by the data; signs and units
-/

set_option autoImplicit false

namespace Verif.HavokModel

open Verif Verif.LinAlg Verif.Havok Matrix Verif.HavokSim

variable {rows k p q : ℕ}

theorem signs_of_op {R R' : Result (Fin rows) k p q} {ε : Fin (p + q) → ℝ} (hε : ∀ i, ε i = 1 ∨ ε i = -1)
    (hs : R'.s = R.s) (hU : R'.U = of fun a i => R.U a i * (ε i : ℂ)) (hV : R'.V = of fun t i => R.V t i * (ε i : ℂ))
    (hop : ∀ i j, R'.op i j = ε i * R.op i j * ε j) (delays lag : ℕ) (time : List ℝ) :
    SignRel ε (R.fitted delays lag time) (R'.fitted delays lag time) where
  sq i := by rcases hε i with h | h <;> simp [h]
  delays := rfl
  lag := rfl
  rows := rfl
  time := rfl
  U a i := by
    simp only [Result.fitted, hU, of_apply]
    split_ifs <;> simp
  s := hs
  embed := by
    change List.ofFn (fun t => R'.V t) = (List.ofFn fun t => R.V t).map _
    rw [List.map_ofFn, hV]
    rfl
  A i j := by simp [Result.fitted, blockA, hop]
  B i j := by simp [Result.fitted, blockB, hop]

theorem eigs_of_op {R R' : Result (Fin rows) k p q} {ε : Fin (p + q) → ℝ} (hε : ∀ i, ε i = 1 ∨ ε i = -1)
    (hop : ∀ i j, R'.op i j = ε i * R.op i j * ε j) (h : (blockA R.op).charpoly.roots = Finset.univ.val.map R.eigs)
    (h' : (blockA R'.op).charpoly.roots = Finset.univ.val.map R'.eigs) :
    (List.ofFn R'.eigs).Perm (List.ofFn R.eigs) := by
  have e : blockA R'.op = diagonal (fun i => (ε (Fin.castAdd q i) : ℂ)) *
      (blockA R.op * diagonal (fun i => (ε (Fin.castAdd q i) : ℂ))) := by
    ext i j
    rw [diagonal_mul, mul_diagonal, blockA, submatrix_apply, hop, blockA, submatrix_apply]
    ring
  have d : diagonal (fun i => (ε (Fin.castAdd q i) : ℂ)) * diagonal (fun i => (ε (Fin.castAdd q i) : ℂ)) =
      (1 : Matrix (Fin p) (Fin p) ℂ) := by
    rw [diagonal_mul_diagonal, ← diagonal_one]
    congr 1
    funext i
    rcases hε (Fin.castAdd q i) with h | h <;> simp [h]
  rw [e, charpoly_mul_comm, Matrix.mul_assoc, d, Matrix.mul_one, h, Fin.univ_val_map, Fin.univ_val_map] at h'
  exact (Multiset.coe_eq_coe.mp h').symm

theorem fit_signs {dt : ℝ} {H : Matrix (Fin rows) (Fin k) ℂ} (hd : Distinct H (p + q)) {R R' : Result (Fin rows) k p q}
    (h : IsFit dt H R) (h' : IsFit dt H R') :
    R'.s = R.s ∧ ∃ ε : Fin (p + q) → ℝ, (∀ i, ε i = 1 ∨ ε i = -1) ∧ (R'.U = of fun a i => R.U a i * (ε i : ℂ)) ∧
      (R'.V = of fun t i => R.V t i * (ε i : ℂ)) ∧ ∀ i j, R'.op i j = ε i * R.op i j * ε j := by
  obtain ⟨-, ht, ho, -⟩ := h
  obtain ⟨-, ht', ho', -⟩ := h'
  obtain ⟨hs, ε, hε, hU, hV⟩ := truncated_signs hd ht ht'
  refine ⟨hs, ε, hε, hU, hV, fun i j => ?_⟩
  rw [isOperator_eq ho' ht'.orthonormal, isOperator_eq ho ht.orthonormal, hV, standardDot_sign, op_sign]

/-- **C167** (signs): if the retained singular values of the Hankel matrix are distinct, two fits of the same data with
`structured=False`, whatever decomposition `compute_svd` finds and whichever of `lstsq=True` and `lstsq=False` is used,
have the same singular values, and delay embeddings, singular vectors and operators that differ by the signs of the
coordinates only. The eigenvalues are the same up to order, and so are the reconstructed data, errors included. -/
theorem C167_signs_partial (dt : ℝ) (H : Matrix (Fin rows) (Fin k) ℂ) (hd : Distinct H (p + q))
    (R R' : Result (Fin rows) k p q) (h : IsFit dt H R) (h' : IsFit dt H R') :
    R'.s = R.s ∧ (List.ofFn R'.eigs).Perm (List.ofFn R.eigs) ∧
    (∀ delays lag time, R'.reconstructedData delays lag time = R.reconstructedData delays lag time) ∧
    ∃ ε : Fin (p + q) → ℝ, (∀ i, ε i = 1 ∨ ε i = -1) ∧ (∀ a i, R'.U a i = R.U a i * (ε i : ℂ)) ∧
      (∀ t i, R'.V t i = R.V t i * (ε i : ℂ)) ∧ ∀ i j, R'.op i j = ε i * R.op i j * ε j := by
  obtain ⟨hs, ε, hε, hU, hV, hop⟩ := fit_signs hd h h'
  refine ⟨hs, eigs_of_op hε hop h.2.2.2 h'.2.2.2, fun delays lag time => ?_, ε, hε, fun a i => by rw [hU, of_apply],
    fun t i => by rw [hV, of_apply], hop⟩
  exact (signs_of_op hε hs hU hV hop delays lag time).reconstructedData

/-- **C167** (predictions): a prediction from an index, with a forcing in the coordinates of the fit, is the same for
the two fits: what the forcing is in the first, with the signs of the second. -/
theorem C167_predict_partial (dt : ℝ) (H : Matrix (Fin rows) (Fin k) ℂ) (hd : Distinct H (p + q))
    (R R' : Result (Fin rows) k p q) (h : IsFit dt H R) (h' : IsFit dt H R') :
    ∃ ε : Fin (p + q) → ℝ, (∀ i, ε i = 1 ∨ ε i = -1) ∧ (∀ t i, R'.V t i = R.V t i * (ε i : ℂ)) ∧
      ∀ (delays lag : ℕ) (time T : List ℝ) (U : List (Fin q → ℂ)) (i : ℤ),
        (R'.fitted delays lag time).predict (scipyGains (blockA R'.op) (blockB R'.op))
            (U.map fun u j => u j * (ε (Fin.natAdd p j) : ℂ)) T (.index i) =
          (R.fitted delays lag time).predict (scipyGains (blockA R.op) (blockB R.op)) U T (.index i) := by
  obtain ⟨hs, ε, hε, hU, hV, hop⟩ := fit_signs hd h h'
  exact ⟨ε, hε, fun t i => by rw [hV, of_apply], fun delays lag time T U i =>
    (signs_of_op hε hs hU hV hop delays lag time).predict U T i⟩

/-- **C167** (structured fits): with `structured=True` the same holds between fits whose two decompositions have
matching signs: each column of the second set of embeddings has a positive product with the column of the first. -/
theorem C167_structured_partial (dt : ℝ) (H : Matrix (Fin rows) (Fin (k + 1)) ℂ)
    (hd : Distinct (H.submatrix id Fin.castSucc) (p + q)) (hd2 : Distinct (H.submatrix id Fin.succ) (p + q))
    (V2 V2' : Matrix (Fin k) (Fin (p + q)) ℂ) (R R' : Result (Fin rows) k p q) (h : IsStructured dt H V2 R)
    (h' : IsStructured dt H V2' R') (hp : ∀ i, 0 < ((R.Vᴴ * V2) i i).re) (hp' : ∀ i, 0 < ((R'.Vᴴ * V2') i i).re) :
    R'.s = R.s ∧ (List.ofFn R'.eigs).Perm (List.ofFn R.eigs) ∧
    (∀ delays lag time, R'.reconstructedData delays lag time = R.reconstructedData delays lag time) ∧
    ∃ ε : Fin (p + q) → ℝ, (∀ i, ε i = 1 ∨ ε i = -1) ∧ (∀ a i, R'.U a i = R.U a i * (ε i : ℂ)) ∧
      (∀ t i, R'.V t i = R.V t i * (ε i : ℂ)) ∧ ∀ i j, R'.op i j = ε i * R.op i j * ε j := by
  obtain ⟨ht, ⟨U2, s2, ht2⟩, ho, hr⟩ := h
  obtain ⟨ht', ⟨U2', s2', ht2'⟩, ho', hr'⟩ := h'
  obtain ⟨hs, ε, hε, hU, hV⟩ := truncated_signs hd ht ht'
  obtain ⟨-, δ, hδ, -, hV2⟩ := truncated_signs hd2 ht2 ht2'
  have hsame : δ = ε := by
    funext i
    have e : ((R'.Vᴴ * V2') i i).re = ε i * δ i * ((R.Vᴴ * V2) i i).re := by
      rw [hV, hV2]
      simp only [Matrix.mul_apply, conjTranspose_apply, of_apply, star_mul', Complex.star_def, Complex.conj_ofReal,
        Complex.re_sum, Finset.mul_sum]
      refine Finset.sum_congr rfl fun t _ => ?_
      rw [← Complex.re_ofReal_mul]
      congr 1
      push_cast
      ring
    have h1 := hp i
    have h2 := hp' i
    rw [e] at h2
    rcases hε i with he | he <;> rcases hδ i with hd' | hd' <;> rw [he, hd'] at h2 <;>
      first | (exfalso; linarith) | rw [he, hd']
  subst hsame
  have hop : ∀ i j, R'.op i j = δ i * R.op i j * δ j := fun i j => by
    rw [isOperator_eq ho' ht'.orthonormal, isOperator_eq ho ht.orthonormal, hV, hV2, structuredDot_sign, op_sign]
  refine ⟨hs, eigs_of_op hε hop hr hr', fun delays lag time => ?_, δ, hε, fun a i => by rw [hU, of_apply],
    fun t i => by rw [hV, of_apply], hop⟩
  exact (signs_of_op hε hs hU hV hop delays lag time).reconstructedData

/-! ## The structured variant in general -/

/-- Snapshots `(4, 0)`, `(0, 2)`, `(1, 0)`, one delay. -/
def turn : Matrix (Fin 2) (Fin (2 + 1)) ℂ := !![4, 0, 1; 0, 2, 0]

theorem turn_first : turn.submatrix id Fin.castSucc = !![4, 0; 0, 2] := by
  ext i j; fin_cases i <;> fin_cases j <;> rfl

theorem turn_second : turn.submatrix id Fin.succ = !![0, 1; 2, 0] := by
  ext i j; fin_cases i <;> fin_cases j <;> rfl

theorem turn_svd1 : IsSVD (!![4, 0; 0, 2] : Matrix (Fin 2) (Fin 2) ℂ) (1 : Matrix (Fin 2) (Fin 2) ℂ) ![4, 2] 1 := by
  refine ⟨?_, by simp, by simp, ?_⟩
  · ext i j; fin_cases i <;> fin_cases j <;> simp [rdiag]
  · intro i; fin_cases i <;> simp

theorem turn_svd2 (e : ℝ) (he : e * e = 1) : IsSVD (!![0, 1; 2, 0] : Matrix (Fin 2) (Fin 2) ℂ)
    (!![0, 1; (e : ℂ), 0] : Matrix (Fin 2) (Fin 2) ℂ) ![2, 1] !![(e : ℂ), 0; 0, 1] := by
  have he' : (e : ℂ) * e = 1 := by exact_mod_cast he
  refine ⟨?_, ?_, ?_, ?_⟩
  · ext i j
    rw [Matrix.mul_apply, Fin.sum_univ_two, rdiag, mul_diagonal, mul_diagonal]
    fin_cases i <;> fin_cases j <;> simp
    linear_combination (-2) * he'
  · ext i j; fin_cases i <;> fin_cases j <;> simp [Matrix.mul_apply, Fin.sum_univ_two, he']
  · ext i j; fin_cases i <;> fin_cases j <;> simp [Matrix.mul_apply, Fin.sum_univ_two, he']
  · intro i; fin_cases i <;> simp

theorem anti2 (a b : ℝ) (h : b ≤ a) : Antitone ![a, b] := by
  intro i j hij
  fin_cases i <;> fin_cases j <;> simp_all

theorem distinct2 {X U V : Matrix (Fin 2) (Fin 2) ℂ} {a b : ℝ} (h : IsSVD X U ![a, b] V) (hab : b < a) (hb : 0 < b) :
    Distinct X 2 := by
  refine ⟨2, U, _, V, h, anti2 a b hab.le, le_refl _, ?_, ?_⟩
  · intro i _; fin_cases i
    · exact hb.trans hab
    · exact hb
  · intro i j _ hij
    fin_cases i <;> fin_cases j <;> simp_all

theorem trunc2 {X U V : Matrix (Fin 2) (Fin 2) ℂ} {s : Fin 2 → ℝ} (h : IsSVD X U s V) (hs : Antitone s)
    (hU : ∀ i j, (U i j).im = 0) (hV : ∀ i j, (V i j).im = 0) : IsTruncated X U s V :=
  ⟨2, le_refl _, U, s, V, h, hs, hU, hV, rfl, rfl, rfl⟩

/-- A fit of `turn` with `structured=True`, `dt = 1`, one linear and one forcing coordinate; `e` is the sign of the first
column in the second decomposition. -/
noncomputable def turnFit (e : ℝ) : Result (Fin 2) 2 1 1 where
  U := 1
  s := ![4, 2]
  V := 1
  op := !![(e : ℂ) - 1, 0; 0, 0]
  eigs := fun _ => (e : ℂ) - 1

theorem turnFit_structured (e : ℝ) (he : e * e = 1) :
    IsStructured 1 turn (!![(e : ℂ), 0; 0, 1] : Matrix (Fin 2) (Fin (1 + 1)) ℂ) (turnFit e) := by
  refine ⟨?_, ⟨!![0, 1; (e : ℂ), 0], ![2, 1], ?_⟩, ?_, ?_⟩
  · rw [turn_first]
    refine trunc2 turn_svd1 (anti2 _ _ (by norm_num)) ?_ ?_ <;>
      · intro i j; fin_cases i <;> fin_cases j <;> simp [turnFit]
  · rw [turn_second]
    refine trunc2 (turn_svd2 e he) (anti2 _ _ (by norm_num)) ?_ ?_ <;>
      · intro i j; fin_cases i <;> fin_cases j <;> simp
  · refine Or.inr ⟨1, ⟨by simp [turnFit], by simp [turnFit], by simp [turnFit], by simp [turnFit]⟩, ?_⟩
    ext i j
    fin_cases i <;> fin_cases j <;> simp [turnFit, operatorPinv, structuredDot]
  · rw [ResultLimit.charpoly_iff]
    intro z
    rw [det_fin_one, Fin.prod_univ_one]
    simp [turnFit, blockA]

/-- **C167, refuted for `structured=True`**: `fit` takes the derivative of the embeddings from two decompositions that
are computed separately, and the signs of the second are not matched to those of the first. For the same data, with
distinct singular values throughout, the same first decomposition and the same options, one choice of a sign in the
second decomposition gives the eigenvalue 0 and the other the eigenvalue -2. -/
theorem C167_structured_false :
    ∃ (H : Matrix (Fin 2) (Fin (2 + 1)) ℂ) (V2 V2' : Matrix (Fin 2) (Fin (1 + 1)) ℂ) (R R' : Result (Fin 2) 2 1 1),
      Distinct (H.submatrix id Fin.castSucc) 2 ∧ Distinct (H.submatrix id Fin.succ) 2 ∧
      IsStructured 1 H V2 R ∧ IsStructured 1 H V2' R' ∧ R'.U = R.U ∧ R'.s = R.s ∧ R'.V = R.V ∧
      R.eigs 0 = 0 ∧ R'.eigs 0 = -2 := by
  refine ⟨turn, _, _, turnFit 1, turnFit (-1), ?_, ?_, turnFit_structured 1 (by norm_num),
    turnFit_structured (-1) (by norm_num), rfl, rfl, rfl, by simp [turnFit], by simp [turnFit]; norm_num⟩
  · rw [turn_first]; exact distinct2 turn_svd1 (by norm_num) (by norm_num)
  · rw [turn_second]; exact distinct2 (turn_svd2 1 (by norm_num)) (by norm_num) (by norm_num)

/-! ## Units -/

/-- **C167** (unit of time): if the times are given in another unit, `c` times the numbers, the operator and the
eigenvalues are divided by `c`, everything else is the same, and the data are reconstructed equally. -/
theorem C167_time_unit (dt c : ℝ) (hc : 0 < c) (H : Matrix (Fin rows) (Fin k) ℂ) (R : Result (Fin rows) k p q)
    (h : IsFit dt H R) :
    ∃ R' : Result (Fin rows) k p q, IsFit (c * dt) H R' ∧ R'.U = R.U ∧ R'.s = R.s ∧ R'.V = R.V ∧
      (∀ i j, R'.op i j = R.op i j / c) ∧ (∀ i, R'.eigs i = R.eigs i / c) ∧
      ∀ delays lag time, R'.reconstructedData delays lag (time.map (c * ·)) = R.reconstructedData delays lag time := by
  have hc' : (c : ℂ) ≠ 0 := by exact_mod_cast hc.ne'
  obtain ⟨h3, ht, ho, hr⟩ := h
  have hdot : standardDot (c * dt) R.V = (c⁻¹ : ℂ) • standardDot dt R.V := by
    ext t i
    simp only [standardDot, of_apply, Matrix.smul_apply, smul_eq_mul]
    have e : ∀ x : ℕ → ℂ, Differentiate.formula (c * dt) k x t = ((c⁻¹ : ℝ) : ℂ) * Differentiate.formula dt k x t := by
      intro x
      unfold Differentiate.formula
      split_ifs <;> (push_cast; rw [show (2 : ℂ) * (c * dt) = c * (2 * dt) by ring, div_mul_eq_div_div_swap]; field_simp)
    rw [e, Complex.re_ofReal_mul]
    push_cast
    rfl
  refine ⟨⟨R.U, R.s, R.V, (c⁻¹ : ℂ) • R.op, fun j => (c⁻¹ : ℂ) * R.eigs j⟩, ⟨h3, ht, ?_, ?_⟩, rfl, rfl, rfl, ?_, ?_, ?_⟩
  · have e := isOperator_eq ho ht.orthonormal
    refine Or.inr ⟨R.Vᴴ, ?_, ?_⟩
    · have hV := ht.orthonormal
      exact ⟨by rw [Matrix.mul_assoc, hV, Matrix.mul_one], by rw [hV, Matrix.one_mul],
        by rw [conjTranspose_mul, conjTranspose_conjTranspose], by rw [hV, conjTranspose_one]⟩
    · simp only [operatorPinv, hdot, Matrix.mul_smul, transpose_smul, e]
  · exact charpoly_smul (blockA R.op) R.eigs _ (inv_ne_zero hc') hr
  · intro i j
    exact inv_mul_eq_div _ _
  · intro i
    exact inv_mul_eq_div _ _
  · intro delays lag time
    unfold Result.reconstructedData Fitted.reconstructedData Fitted.reconstructedEmbeddings
    simp only [Result.fitted, Fitted.linear, Fitted.forcing, ← List.map_take]
    cases (List.ofFn R.V).map fun v i => v (Fin.castAdd q i) with
    | nil => rfl
    | cons x l =>
      simp only [Fitted.computeEmbeddings]
      have e := lsim_time (blockA R.op) (blockB R.op) c hc
        ((List.ofFn R.V).map fun v i => v (Fin.natAdd p i))
        (time.take ((List.ofFn R.V).map fun v i => v (Fin.natAdd p i)).length) x
      have e1 : blockA ((c⁻¹ : ℂ) • R.op) = (c⁻¹ : ℂ) • blockA R.op := rfl
      have e2 : blockB ((c⁻¹ : ℂ) • R.op) = (c⁻¹ : ℂ) • blockB R.op := rfl
      rw [e1, e2, e]
      rfl

theorem dehankelLoop_map (n lag Hm : ℕ) (H : ℕ → ℕ → Option ℝ) (f : ℝ → ℝ) (delays : ℕ) :
    dehankelLoop n lag Hm (fun a c => (H a c).map f) delays = fun a t => (dehankelLoop n lag Hm H delays a t).map f := by
  unfold dehankelLoop
  induction delays with
  | zero => rfl
  | succ d ih =>
    rw [List.range_succ, List.foldl_append, List.foldl_append, ih]
    funext a t
    simp only [List.foldl_cons, List.foldl_nil]
    split_ifs <;> rfl

theorem truncated_smul {c : ℝ} (hc : c ≠ 0) {r : ℕ} {H : Matrix (Fin rows) (Fin k) ℂ} {U : Matrix (Fin rows) (Fin r) ℂ}
    {s : Fin r → ℝ} {V : Matrix (Fin k) (Fin r) ℂ} (h : IsTruncated H U s V) :
    IsTruncated ((c : ℂ) • H) (((c / |c| : ℝ) : ℂ) • U) (fun i => |c| * s i) V := by
  obtain ⟨N, hr, U', s', V', h1, h2, h3, h4, rfl, rfl, rfl⟩ := h
  have ha : (0 : ℝ) < |c| := abs_pos.mpr hc
  have hsq : c / |c| * (c / |c|) = 1 := by rw [div_mul_div_comm, abs_mul_abs_self, div_self (mul_ne_zero hc hc)]
  refine ⟨N, hr, ((c / |c| : ℝ) : ℂ) • U', fun i => |c| * s' i, V', ⟨?_, ?_, h1.v, ?_⟩, ?_, ?_, h4, rfl, rfl, rfl⟩
  · have e : rdiag (fun i => |c| * s' i) = ((|c| : ℝ) : ℂ) • rdiag s' := by
      ext i j
      simp [rdiag, diagonal_apply]
    rw [e, Matrix.smul_mul, Matrix.mul_smul, Matrix.smul_mul, Matrix.smul_mul, smul_smul, ← h1.eq, ← Complex.ofReal_mul,
      div_mul_cancel₀ _ ha.ne']
  · rw [conjTranspose_smul, Matrix.smul_mul, Matrix.mul_smul, smul_smul, h1.u, Complex.star_def, Complex.conj_ofReal,
      ← Complex.ofReal_mul, hsq, Complex.ofReal_one, one_smul]
  · exact fun i => mul_nonneg ha.le (h1.nonneg i)
  · exact fun i j hij => mul_le_mul_of_nonneg_left (h2 hij) ha.le
  · intro i j
    rw [Matrix.smul_apply, smul_eq_mul, Complex.im_ofReal_mul, h3, mul_zero]

/-- **C167** (unit of the data): if the data are multiplied by `c`, the operator, the eigenvalues and the embeddings are
the same, the singular values are multiplied by `|c|`, and the reconstructed data are multiplied by `c`. -/
theorem C167_data_unit (dt c : ℝ) (hc : c ≠ 0) (H : Matrix (Fin rows) (Fin k) ℂ) (R : Result (Fin rows) k p q)
    (h : IsFit dt H R) :
    ∃ R' : Result (Fin rows) k p q, IsFit dt ((c : ℂ) • H) R' ∧ R'.op = R.op ∧ R'.eigs = R.eigs ∧ R'.V = R.V ∧
      (∀ i, R'.s i = |c| * R.s i) ∧
      ∀ delays lag time, R'.reconstructedData delays lag time =
        (R.reconstructedData delays lag time).map fun o =>
          (o.1, ⟨o.2.rows, o.2.cols, fun a t => (o.2.get a t).map (c * ·)⟩) := by
  refine ⟨⟨((c / |c| : ℝ) : ℂ) • R.U, fun i => |c| * R.s i, R.V, R.op, R.eigs⟩,
    ⟨h.1, truncated_smul hc h.2.1, h.2.2.1, h.2.2.2⟩, rfl, rfl, rfl, fun _ => rfl, fun delays lag time => ?_⟩
  have ha : |c| ≠ 0 := abs_ne_zero.mpr hc
  have key : ∀ V : List (Fin p → ℂ),
      ((⟨((c / |c| : ℝ) : ℂ) • R.U, fun i => |c| * R.s i, R.V, R.op, R.eigs⟩ : Result (Fin rows) k p q).fitted delays lag
        time).hankelOf V = ⟨rows, V.length, fun a t => ((((R.fitted delays lag time).hankelOf V).get a t).map (c * ·))⟩ := by
    intro V
    unfold Fitted.hankelOf
    simp only [Result.fitted, Mat.mk.injEq, true_and]
    funext a t
    rw [Option.map_some, ← Complex.re_ofReal_mul, Finset.mul_sum]
    congr 2
    refine Finset.sum_congr rfl fun j _ => ?_
    split_ifs
    · have e : (((c / |c| : ℝ) : ℂ) * ((|c| : ℝ) : ℂ)) = c := by rw [← Complex.ofReal_mul, div_mul_cancel₀ _ ha]
      rw [Matrix.smul_apply, smul_eq_mul, Complex.ofReal_mul]
      linear_combination (R.U ⟨a, by assumption⟩ (Fin.castAdd q j) * (R.s (Fin.castAdd q j) : ℂ) * star (V.getD t 0 j)) * e
    · simp
  unfold Result.reconstructedData Fitted.reconstructedData Fitted.reconstructedEmbeddings
  simp only [Result.fitted, Fitted.linear, Fitted.forcing]
  cases (List.ofFn R.V).map fun v i => v (Fin.castAdd q i) with
  | nil => rfl
  | cons x l =>
    simp only [Fitted.computeEmbeddings]
    cases HavokSim.lsim (blockA R.op) (scipyGains (blockA R.op) (blockB R.op))
        ((List.ofFn R.V).map fun v i => v (Fin.natAdd p i))
        (time.take ((List.ofFn R.V).map fun v i => v (Fin.natAdd p i)).length) x with
    | error e => rfl
    | ok V =>
      change Fitted.toOriginal _ (squeeze V) = Except.map _ (Fitted.toOriginal _ (squeeze V))
      cases squeeze V with
      | zeroDim => rfl
      | oneDim => rfl
      | twoDim V =>
        simp only [Fitted.toOriginal, Except.map]
        congr 1
        have e := key V
        simp only [Result.fitted] at e
        rw [e]
        simp only [dehankel, dehankelLoop_map]
        rfl

/-! ## The hypotheses are met -/

/-- Two channels, three snapshots. -/
def hill : Matrix (Fin 2) (Fin 3) ℂ := !![2, 0, 0; 0, 1, 0]

theorem hill_svd : IsSVD hill (1 : Matrix (Fin 2) (Fin 2) ℂ) ![2, 1] (!![1, 0; 0, 1; 0, 0] : Matrix (Fin 3) (Fin 2) ℂ) := by
  refine ⟨?_, by simp, ?_, ?_⟩
  · ext i j; rw [Matrix.one_mul, rdiag, diagonal_mul]; fin_cases i <;> fin_cases j <;> simp [hill]
  · ext i j; fin_cases i <;> fin_cases j <;> simp [Matrix.mul_apply, Fin.sum_univ_succ]
  · intro i; fin_cases i <;> simp

/-- Fits of `hill` exist, and its singular values are distinct. -/
example : Distinct hill (1 + 1) ∧ ∃ R : Result (Fin 2) 3 1 1, IsFit (1 / 2) hill R := by
  refine ⟨⟨2, _, _, _, hill_svd, anti2 2 1 (by norm_num), le_refl _, ?_, ?_⟩, ?_⟩
  · intro i _; fin_cases i <;> simp
  · intro i j _ hij
    fin_cases i <;> fin_cases j <;> simp_all
  · let V : Matrix (Fin 3) (Fin (1 + 1)) ℂ := !![1, 0; 0, 1; 0, 0]
    have hV : Vᴴ * V = 1 := hill_svd.v
    refine ⟨⟨1, ![2, 1], V, (Vᴴ * standardDot (1 / 2) V)ᵀ, fun _ => (Vᴴ * standardDot (1 / 2) V)ᵀ 0 0⟩, le_refl _,
      ⟨2, le_refl _, 1, _, V, hill_svd, anti2 2 1 (by norm_num), ?_, ?_, rfl, rfl, rfl⟩, Or.inr ⟨Vᴴ, ?_, rfl⟩, ?_⟩
    · intro i j; fin_cases i <;> fin_cases j <;> simp
    · intro i j; fin_cases i <;> fin_cases j <;> simp [V]
    · exact ⟨by rw [Matrix.mul_assoc, hV, Matrix.mul_one], by rw [hV, Matrix.one_mul],
        by rw [conjTranspose_mul, conjTranspose_conjTranspose], by rw [hV, conjTranspose_one]⟩
    · rw [ResultLimit.charpoly_iff]
      intro z
      rw [det_fin_one, Fin.prod_univ_one, Matrix.sub_apply, diagonal_apply_eq]
      rfl

/-- A structured fit with matching signs exists. -/
example : ∃ V2 : Matrix (Fin 2) (Fin (1 + 1)) ℂ, IsStructured 1 turn V2 (turnFit 1) ∧
    ∀ i, 0 < (((turnFit 1).Vᴴ * V2) i i).re := by
  refine ⟨_, turnFit_structured 1 (by norm_num), fun i => ?_⟩
  fin_cases i <;> simp [turnFit]

end Verif.HavokModel
