import Verif.Model.Havok
import Verif.Lemmas.LinAlg
import Verif.Props.Predict
import Mathlib.Tactic.Linarith

/-!
# Properties C48, C66, C67: HAVOK
-/

set_option autoImplicit false

namespace Verif.Havok

open Verif Matrix LinAlg

/-! ## C48: delay embedding -/

theorem hankelLoop_get (n lag : ℕ) (x : ℕ → ℕ → ℂ) (delays : ℕ) (i a c : ℕ) (hi : i < delays)
    (ha : a < n) : hankelLoop n lag x delays (i * n + a) c = some (x a (i * lag + c)).re := by
  unfold hankelLoop
  induction delays with
  | zero => omega
  | succ d ih =>
    rw [List.range_succ, List.foldl_append, List.foldl_cons, List.foldl_nil]
    by_cases h : i = d
    · subst h
      have h2 : i * n + a < (i + 1) * n := by rw [Nat.succ_mul]; omega
      rw [if_pos ⟨by omega, h2⟩, Nat.add_sub_cancel_left]
    · rw [if_neg, ih (by omega)]
      intro hc
      have : (i + 1) * n ≤ d * n := Nat.mul_le_mul_right n (by omega)
      rw [Nat.succ_mul] at this
      omega

theorem dehankelLoop_some (n lag Hm : ℕ) (H : ℕ → ℕ → Option ℝ) (delays a t : ℕ) (v : ℝ)
    (hH : ∀ i < delays, ∀ c < Hm, i * lag + c = t → H (i * n + a) c = some v)
    (hc : ∃ i < delays, i * lag ≤ t ∧ t < i * lag + Hm) :
    dehankelLoop n lag Hm H delays a t = some v := by
  unfold dehankelLoop
  induction delays with
  | zero => obtain ⟨i, hi, -⟩ := hc; omega
  | succ d ih =>
    rw [List.range_succ, List.foldl_append, List.foldl_cons, List.foldl_nil]
    split_ifs with h
    · exact hH d (by omega) (t - d * lag) (by omega) (by omega)
    · refine ih (fun i hi => hH i (by omega)) ?_
      obtain ⟨i, hi, h1⟩ := hc
      have : i ≠ d := fun e => h (e ▸ h1)
      exact ⟨i, by omega, h1⟩

theorem dehankelLoop_none (n lag Hm : ℕ) (H : ℕ → ℕ → Option ℝ) (delays a t : ℕ)
    (hc : ∀ i < delays, ¬(i * lag ≤ t ∧ t < i * lag + Hm)) :
    dehankelLoop n lag Hm H delays a t = none := by
  unfold dehankelLoop
  induction delays with
  | zero => rfl
  | succ d ih =>
    rw [List.range_succ, List.foldl_append, List.foldl_cons, List.foldl_nil,
      if_neg (hc d (by omega))]
    exact ih fun i hi => hc i (by omega)

/-- Every time step is in some window exactly if the windows do not leave gaps. -/
theorem covered_iff (delays lag Hm : ℕ) (hd : 1 ≤ delays) (hH : 1 ≤ Hm) :
    (∀ t < Hm + (delays - 1) * lag, ∃ i < delays, i * lag ≤ t ∧ t < i * lag + Hm) ↔
      delays = 1 ∨ lag ≤ Hm := by
  constructor
  · intro h
    by_contra hne
    rw [not_or] at hne
    have h1 : 1 * lag ≤ (delays - 1) * lag := Nat.mul_le_mul_right lag (by omega)
    obtain ⟨i, hi, h2, h3⟩ := h Hm (by omega)
    rcases Nat.eq_zero_or_pos i with rfl | hp
    · omega
    · have : 1 * lag ≤ i * lag := Nat.mul_le_mul_right lag hp
      omega
  · intro h t ht
    obtain ⟨e, rfl⟩ : ∃ e, delays = e + 1 := ⟨delays - 1, by omega⟩
    rw [Nat.add_sub_cancel] at ht
    induction e with
    | zero => exact ⟨0, by omega, by omega, by omega⟩
    | succ e ih =>
      by_cases hb : t < Hm + e * lag
      · obtain ⟨i, hi, h2⟩ := ih (by omega) (by omega) hb
        exact ⟨i, by omega, h2⟩
      · rw [Nat.succ_mul] at ht
        refine ⟨e + 1, by omega, ?_, ?_⟩
        · rw [Nat.succ_mul]; omega
        · rw [Nat.succ_mul]; omega

/-- `hankel` succeeds with enough snapshots; row `i * n + a` holds row `a` of the data, shifted by
`i` lags. -/
theorem hankel2_ok (delays lag n m : ℕ) (x : ℕ → ℕ → ℂ) (hm : lag * (delays - 1) + 1 ≤ m) :
    hankel2 delays lag n m x =
      .ok ⟨n * delays, m - (delays - 1) * lag, hankelLoop n lag x delays⟩ := by
  rw [hankel2, if_neg (by omega)]

/-- **C48** (partial: only data without gaps and without imaginary parts). For all sizes, delays
and lags with enough snapshots, and windows that leave no gap (`delays = 1` or
`lag ≤ m - (delays - 1) * lag`), `hankel` succeeds, has the delayed data as rows, and `dehankel`
returns the data, with dimensions of size 1 removed. -/
theorem C48_roundtrip_partial (delays lag n m : ℕ) (hd : 1 ≤ delays)
    (hm : lag * (delays - 1) + 1 ≤ m) (hgap : delays = 1 ∨ lag ≤ m - (delays - 1) * lag)
    (x : ℕ → ℕ → ℝ) :
    ∃ H, hankel delays lag (.twoDim n m fun a t => (x a t : ℂ)) = .ok H ∧
      H.rows = n * delays ∧ H.cols + lag * (delays - 1) = m ∧
      (∀ i < delays, ∀ a < n, ∀ c < H.cols, H.get (i * n + a) c = some (x a (i * lag + c))) ∧
      (dehankel delays lag H).1 = [n, m].filter (· ≠ 1) ∧
      (dehankel delays lag H).2.rows = n ∧ (dehankel delays lag H).2.cols = m ∧
      ∀ a < n, ∀ t < m, (dehankel delays lag H).2.get a t = some (x a t) := by
  rw [Nat.mul_comm] at hm
  have e := hankel2_ok delays lag n m (fun a t => (x a t : ℂ)) (by rw [Nat.mul_comm]; exact hm)
  refine ⟨_, e, rfl, by simp only; rw [Nat.mul_comm lag]; omega, ?_, ?_, ?_, ?_, ?_⟩
  · intro i hi a ha c _
    simpa using hankelLoop_get n lag (fun a t => (x a t : ℂ)) delays i a c hi ha
  · have h1 : n * delays / delays = n := Nat.mul_div_cancel n (by omega)
    have h2 : m - (delays - 1) * lag + (delays - 1) * lag = m := by omega
    simp only [dehankel, h1, h2]
  · exact Nat.mul_div_cancel n (by omega)
  · simp only [dehankel]; omega
  · intro a ha t ht
    have h1 : n * delays / delays = n := Nat.mul_div_cancel n (by omega)
    simp only [dehankel, h1]
    refine dehankelLoop_some _ _ _ _ _ _ _ _ ?_ ?_
    · intro i hi c _ hc
      rw [hankelLoop_get n lag _ delays i a c hi ha, hc]
      simp
    · exact (covered_iff delays lag _ hd (by omega)).mpr hgap t (by omega)

/-- **C48** for a one-dimensional array. -/
theorem C48_one_dim_partial (delays lag m : ℕ) (hd : 1 ≤ delays)
    (hm : lag * (delays - 1) + 1 ≤ m) (hgap : delays = 1 ∨ lag ≤ m - (delays - 1) * lag)
    (x : ℕ → ℝ) :
    ∃ H, hankel delays lag (.oneDim m fun t => (x t : ℂ)) = .ok H ∧
      (dehankel delays lag H).1 = [m].filter (· ≠ 1) ∧
      ∀ t < m, (dehankel delays lag H).2.get 0 t = some (x t) := by
  obtain ⟨H, h1, -, -, -, h2, -, -, h3⟩ :=
    C48_roundtrip_partial delays lag 1 m hd hm hgap fun _ t => x t
  exact ⟨H, h1, by rw [h2]; rfl, h3 0 (by omega)⟩

/-- **C48**: too few columns are rejected, for every input. -/
theorem C48_too_few (delays lag n m : ℕ) (x : ℕ → ℕ → ℂ) (y : ℕ → ℂ)
    (hm : m < lag * (delays - 1) + 1) :
    hankel delays lag (.twoDim n m x) = .error .valueError ∧
      hankel delays lag (.oneDim m y) = .error .valueError := by
  constructor <;> simp only [hankel, hankel2, if_pos hm]

/-- **C48** (errors): `hankel` accepts exactly the one- and two-dimensional arrays with enough columns, and the only error it raises is
`ValueError`. -/
theorem C48_rejects (delays lag : ℕ) (X : In) :
    (∃ H, hankel delays lag X = .ok H) ∧
        ((∃ m x, X = .oneDim m x ∧ lag * (delays - 1) + 1 ≤ m) ∨ ∃ n m x, X = .twoDim n m x ∧ lag * (delays - 1) + 1 ≤ m) ∨
      hankel delays lag X = .error .valueError ∧
        ((X = .notArray ∨ X = .zeroDim ∨ X = .more) ∨ (∃ m x, X = .oneDim m x ∧ m < lag * (delays - 1) + 1) ∨
          ∃ n m x, X = .twoDim n m x ∧ m < lag * (delays - 1) + 1) := by
  rcases X with _ | _ | ⟨m, x⟩ | ⟨n, m, x⟩ | _
  · exact Or.inr ⟨rfl, Or.inl (Or.inl rfl)⟩
  · exact Or.inr ⟨rfl, Or.inl (Or.inr (Or.inl rfl))⟩
  · by_cases h : m < lag * (delays - 1) + 1
    · exact Or.inr ⟨(C48_too_few delays lag 0 m (fun _ _ => 0) x h).2, Or.inr (Or.inl ⟨m, x, rfl, h⟩)⟩
    · exact Or.inl ⟨⟨_, by simp only [hankel, hankel2, if_neg h]; rfl⟩, Or.inl ⟨m, x, rfl, not_lt.mp h⟩⟩
  · by_cases h : m < lag * (delays - 1) + 1
    · exact Or.inr ⟨(C48_too_few delays lag n m x (fun _ => 0) h).1, Or.inr (Or.inr ⟨n, m, x, rfl, h⟩)⟩
    · exact Or.inl ⟨⟨_, by simp only [hankel, hankel2, if_neg h]; rfl⟩, Or.inr ⟨n, m, x, rfl, not_lt.mp h⟩⟩
  · exact Or.inr ⟨rfl, Or.inl (Or.inr (Or.inr rfl))⟩

/-- **C48** is false with gaps: for *every* number of delays above 1, every lag larger than the
number of columns of the Hankel matrix and all data, the call succeeds, but `dehankel` leaves some
column of the result unassigned. -/
theorem C48_gap_false (delays lag n m : ℕ) (hd : 2 ≤ delays) (hm : lag * (delays - 1) + 1 ≤ m)
    (hgap : m - (delays - 1) * lag < lag) (x : ℕ → ℕ → ℂ) :
    ∃ H, hankel delays lag (.twoDim n m x) = .ok H ∧
      ∃ t < m, ∀ a, (dehankel delays lag H).2.get a t = none := by
  rw [Nat.mul_comm] at hm
  refine ⟨_, hankel2_ok delays lag n m x (by rw [Nat.mul_comm]; exact hm), ?_⟩
  have h := (covered_iff delays lag (m - (delays - 1) * lag) (by omega) (by omega)).not.mpr
    (by omega)
  push Not at h
  obtain ⟨t, ht, hc⟩ := h
  refine ⟨t, by omega, fun a => ?_⟩
  simp only [dehankel]
  exact dehankelLoop_none _ _ _ _ _ _ _ fun i hi hh => absurd hh.2 (by have := hc i hi hh.1; omega)

/-- Five snapshots, two delays and lag 4 are admissible and leave gaps. -/
example : 4 * (2 - 1) + 1 ≤ 5 ∧ 5 - (2 - 1) * 4 < 4 := by decide

/-- Ten snapshots of two rows, three delays and lag 2 meet the hypotheses of the round trip. -/
example : 2 * (3 - 1) + 1 ≤ 10 ∧ 2 ≤ 10 - (3 - 1) * 2 := by decide

/-- **C48** is false for complex data: imaginary parts are dropped. -/
theorem C48_complex_false : ∃ H, hankel 1 1 (.twoDim 1 1 fun _ _ => Complex.I) = .ok H ∧
    (dehankel 1 1 H).2.get 0 0 = some 0 := by
  refine ⟨_, hankel2_ok 1 1 1 1 (fun _ _ => Complex.I) (by omega), ?_⟩
  simp [dehankel, dehankelLoop, hankelLoop]

/-! ## C66: the regression -/

section Regression

variable {p q : ℕ} {k : Type} [Fintype k] [DecidableEq k]

theorem mulVec_split (V : Matrix k (Fin (p + q)) ℂ) (c : Fin (p + q) → ℂ) :
    V *ᵥ c = linearDynamics V *ᵥ (fun i => c (Fin.castAdd q i)) +
      forcing V *ᵥ (fun i => c (Fin.natAdd p i)) := by
  ext t
  simp [Matrix.mulVec, dotProduct, linearDynamics, forcing, Fin.sum_univ_add]

theorem normSq_neg' {m : Type} [Fintype m] (v w : m → ℂ) : normSq (v - w) = normSq (w - v) := by
  unfold normSq
  refine Finset.sum_congr rfl fun i _ => ?_
  rw [Pi.sub_apply, Pi.sub_apply, ← Complex.normSq_neg, neg_sub]

/-- The value at the times of `V` of a model row `α v + β u`. -/
def modelRow (V : Matrix k (Fin (p + q)) ℂ) (α : Fin p → ℂ) (β : Fin q → ℂ) (t : k) : ℂ :=
  ∑ j, α j * linearDynamics V t j + ∑ j, β j * forcing V t j

theorem modelRow_eq (V : Matrix k (Fin (p + q)) ℂ) (α : Fin p → ℂ) (β : Fin q → ℂ) :
    modelRow V α β = V *ᵥ Fin.append α β := by
  ext t
  rw [mulVec_split]
  simp only [modelRow, Pi.add_apply, Matrix.mulVec, dotProduct, Fin.append_left,
    Fin.append_right]
  congr 1 <;> exact Finset.sum_congr rfl fun j _ => mul_comm _ _

theorem append_rows (op : Matrix (Fin (p + q)) (Fin (p + q)) ℂ) (i : Fin p) :
    Fin.append (blockA op i) (blockB op i) = op (Fin.castAdd q i) := by
  ext j
  refine Fin.addCases (fun a => ?_) (fun b => ?_) j
  · rw [Fin.append_left]; rfl
  · rw [Fin.append_right]; rfl

/-- **C66** (least squares). For each linear coordinate `i`, the rows `A i`, `B i` of the model
`dv/dt = A v + B u` minimise the sum of squares of `v̇ᵢ(t) - α·v(t) - β·u(t)` over all rows
`α`, `β`. -/
theorem C66_least_squares (V Vdot : Matrix k (Fin (p + q)) ℂ)
    (W : Matrix (Fin (p + q)) (Fin (p + q)) ℂ) (hW : ∀ i, IsLstsq V (Vdotᵀ i) (Wᵀ i))
    (i : Fin p) (α : Fin p → ℂ) (β : Fin q → ℂ) :
    ∑ t, Complex.normSq (Vdot t (Fin.castAdd q i) -
        modelRow V (blockA (operatorLstsq W) i) (blockB (operatorLstsq W) i) t) ≤
      ∑ t, Complex.normSq (Vdot t (Fin.castAdd q i) - modelRow V α β t) := by
  have h := hW (Fin.castAdd q i) (Fin.append α β)
  rw [normSq_neg', normSq_neg' (V *ᵥ Fin.append α β), ← modelRow_eq] at h
  have e : V *ᵥ (Wᵀ (Fin.castAdd q i)) =
      modelRow V (blockA (operatorLstsq W) i) (blockB (operatorLstsq W) i) := by
    rw [modelRow_eq, append_rows]; rfl
  rw [e] at h
  exact h

theorem pinv_isLstsq {a b : Type} [Fintype a] [Fintype b] [DecidableEq a] [DecidableEq b]
    (M : Matrix a b ℂ) (P : Matrix b a ℂ) (hP : IsPinv M P) (y : a → ℂ) :
    IsLstsq M y (P *ᵥ y) := by
  refine isLstsq_of_normal M y _ ?_
  have h : Mᴴ * (M * P) = Mᴴ := by
    rw [← hP.ap, ← Matrix.conjTranspose_mul, hP.apa]
  rw [Matrix.mulVec_sub, Matrix.mulVec_mulVec, Matrix.mulVec_mulVec, Matrix.mul_assoc, h,
    sub_self]

/-- **C66** with `lstsq=False`. -/
theorem C66_least_squares_pinv (V Vdot : Matrix k (Fin (p + q)) ℂ)
    (P : Matrix (Fin (p + q)) k ℂ) (hP : IsPinv V P)
    (i : Fin p) (α : Fin p → ℂ) (β : Fin q → ℂ) :
    ∑ t, Complex.normSq (Vdot t (Fin.castAdd q i) -
        modelRow V (blockA (operatorPinv P Vdot) i) (blockB (operatorPinv P Vdot) i) t) ≤
      ∑ t, Complex.normSq (Vdot t (Fin.castAdd q i) - modelRow V α β t) := by
  refine C66_least_squares V Vdot (P * Vdot) (fun j => ?_) i α β
  have := pinv_isLstsq V P hP (Vdotᵀ j)
  have e : P *ᵥ (Vdotᵀ j) = (P * Vdot)ᵀ j := by
    ext a; simp [Matrix.mul_apply, Matrix.mulVec, dotProduct]
  rwa [e] at this

/-- With orthonormal embeddings a least-squares solution is `V^H y`. -/
theorem lstsq_orthonormal (V : Matrix k (Fin (p + q)) ℂ) (hV : Vᴴ * V = 1) (y : k → ℂ)
    (b : Fin (p + q) → ℂ) (hb : IsLstsq V y b) : b = Vᴴ *ᵥ y := by
  have hn : Vᴴ *ᵥ (V *ᵥ (Vᴴ *ᵥ y) - y) = 0 := by
    rw [Matrix.mulVec_sub, Matrix.mulVec_mulVec, hV, Matrix.one_mulVec, sub_self]
  have hg := lstsq_gap V y (Vᴴ *ᵥ y) hn b
  have hle := hb (Vᴴ *ᵥ y)
  have h0 : normSq (V *ᵥ (b - Vᴴ *ᵥ y)) = 0 :=
    le_antisymm (by linarith) (normSq_nonneg _)
  rw [normSq_eq_zero] at h0
  have : Vᴴ *ᵥ (V *ᵥ (b - Vᴴ *ᵥ y)) = 0 := by rw [h0, Matrix.mulVec_zero]
  rw [Matrix.mulVec_mulVec, hV, Matrix.one_mulVec] at this
  exact sub_eq_zero.mp this

/-- **C66** (the option `lstsq`). The embeddings are the right singular vectors, hence orthonormal;
then `lstsq=True` and `lstsq=False` give the same operator, whatever solution and pseudo-inverse
NumPy returns. -/
theorem C66_lstsq_option (V Vdot : Matrix k (Fin (p + q)) ℂ) (hV : Vᴴ * V = 1)
    (W : Matrix (Fin (p + q)) (Fin (p + q)) ℂ) (hW : ∀ i, IsLstsq V (Vdotᵀ i) (Wᵀ i))
    (P : Matrix (Fin (p + q)) k ℂ) (hP : IsPinv V P) :
    operatorLstsq W = operatorPinv P Vdot := by
  unfold operatorLstsq operatorPinv
  ext j a
  have h1 := lstsq_orthonormal V hV _ _ (hW j)
  have h2 := lstsq_orthonormal V hV _ _ (pinv_isLstsq V P hP (Vdotᵀ j))
  have h3 := congrFun (h1.trans h2.symm) a
  rw [h3]
  simp [Matrix.mul_apply, Matrix.mulVec, dotProduct]

/-- **C66** (recovery). If the linear embeddings obey `dv/dt = A v + B u` exactly, with `u` the
forcing, then these `A` and `B` are returned. -/
theorem C66_recovery (V Vdot : Matrix k (Fin (p + q)) ℂ) (hV : Vᴴ * V = 1)
    (W : Matrix (Fin (p + q)) (Fin (p + q)) ℂ) (hW : ∀ i, IsLstsq V (Vdotᵀ i) (Wᵀ i))
    (A : Matrix (Fin p) (Fin p) ℂ) (B : Matrix (Fin p) (Fin q) ℂ)
    (hdyn : ∀ t i, Vdot t (Fin.castAdd q i) =
      ∑ j, A i j * linearDynamics V t j + ∑ j, B i j * forcing V t j) :
    blockA (operatorLstsq W) = A ∧ blockB (operatorLstsq W) = B := by
  have key : ∀ i : Fin p, Wᵀ (Fin.castAdd q i) = Fin.append (A i) (B i) := by
    intro i
    have e : Vdotᵀ (Fin.castAdd q i) = V *ᵥ Fin.append (A i) (B i) := by
      rw [← modelRow_eq]
      ext t
      exact hdyn t i
    rw [lstsq_orthonormal V hV _ _ (hW _), e, Matrix.mulVec_mulVec, hV, Matrix.one_mulVec]
  constructor
  · ext i j
    have := congrFun (key i) (Fin.castAdd q j)
    rw [Fin.append_left] at this
    exact this
  · ext i j
    have := congrFun (key i) (Fin.natAdd p j)
    rw [Fin.append_right] at this
    exact this

/-- **C66** (back to the data). The linear embeddings, mapped back, give the Hankel matrix up to the
part carried by the forcing: exactly if the singular values of the forcing vanish. -/
theorem C66_back {m n : Type} [Fintype m] [Fintype n] [DecidableEq m] [DecidableEq n]
    (H : Matrix m n ℂ) (U : Matrix m (Fin (p + q)) ℂ) (s : Fin (p + q) → ℝ)
    (V : Matrix n (Fin (p + q)) ℂ) (h : IsSVD H U s V) :
    H - embeddingsToHankel U s (linearDynamics V) =
      U.submatrix id (Fin.natAdd p) * rdiag (fun i => s (Fin.natAdd p i)) * (forcing V)ᴴ ∧
    (embeddingsToHankel U s (linearDynamics V) = H ↔ ∀ i : Fin q, s (Fin.natAdd p i) = 0) := by
  have e : H - embeddingsToHankel U s (linearDynamics V) =
      U.submatrix id (Fin.natAdd p) * rdiag (fun i => s (Fin.natAdd p i)) * (forcing V)ᴴ := by
    rw [h.eq]
    ext a b
    rw [Matrix.sub_apply, embeddingsToHankel, rdiag, rdiag, rdiag, Matrix.mul_apply,
      Matrix.mul_apply, Matrix.mul_apply, Fin.sum_univ_add]
    simp only [Matrix.mul_diagonal, Matrix.submatrix_apply, id, linearDynamics, forcing,
      Matrix.conjTranspose_apply]
    ring
  refine ⟨e, ?_⟩
  constructor
  · intro hH i
    rw [hH, sub_self] at e
    have hU : (U.submatrix id (Fin.natAdd p) : Matrix m (Fin q) ℂ)ᴴ * U.submatrix id (Fin.natAdd p)
        = 1 := by
      ext a b
      have := congrFun (congrFun h.u (Fin.natAdd p a)) (Fin.natAdd p b)
      simp only [Matrix.mul_apply, Matrix.conjTranspose_apply, Matrix.one_apply] at this
      simp only [Matrix.mul_apply, Matrix.conjTranspose_apply, Matrix.one_apply,
        Matrix.submatrix_apply, id]
      rw [this]
      simp
    have hF : (forcing V)ᴴ * forcing V = 1 := by
      ext a b
      have := congrFun (congrFun h.v (Fin.natAdd p a)) (Fin.natAdd p b)
      simp only [Matrix.mul_apply, Matrix.conjTranspose_apply, Matrix.one_apply] at this
      simp only [Matrix.mul_apply, Matrix.conjTranspose_apply, Matrix.one_apply, forcing,
        Matrix.submatrix_apply, id]
      rw [this]
      simp
    have h0 : rdiag (fun i : Fin q => s (Fin.natAdd p i)) = 0 := by
      calc rdiag (fun i : Fin q => s (Fin.natAdd p i))
          = ((U.submatrix id (Fin.natAdd p) : Matrix m (Fin q) ℂ)ᴴ *
              U.submatrix id (Fin.natAdd p)) * rdiag (fun i => s (Fin.natAdd p i)) *
              ((forcing V)ᴴ * forcing V) := by rw [hU, hF, Matrix.one_mul, Matrix.mul_one]
        _ = (U.submatrix id (Fin.natAdd p) : Matrix m (Fin q) ℂ)ᴴ *
              (U.submatrix id (Fin.natAdd p) * rdiag (fun i => s (Fin.natAdd p i)) *
                (forcing V)ᴴ) * forcing V := by simp only [Matrix.mul_assoc]
        _ = 0 := by rw [← e, Matrix.mul_zero, Matrix.zero_mul]
    have := congrFun (congrFun h0 i) i
    simpa [rdiag] using this
  · intro hs
    have : rdiag (fun i : Fin q => s (Fin.natAdd p i)) = 0 := by
      ext a b; simp [rdiag, hs]
    rw [this, Matrix.mul_zero, Matrix.zero_mul] at e
    exact (sub_eq_zero.mp e).symm

end Regression

/-- Two orthonormal embeddings of two samples, one of them forcing; the dynamics `v' = 2 v + 3 u`. -/
example : ∃ (V Vdot W : Matrix (Fin 2) (Fin (1 + 1)) ℂ), Vᴴ * V = 1 ∧
    (∀ i, IsLstsq V (Vdotᵀ i) (Wᵀ i)) ∧
    ∀ t i, Vdot t (Fin.castAdd 1 i) =
      ∑ j, (2 : Matrix (Fin 1) (Fin 1) ℂ) i j * linearDynamics V t j +
        ∑ j, (3 : Matrix (Fin 1) (Fin 1) ℂ) i j * forcing V t j := by
  refine ⟨(1 : Matrix (Fin 2) (Fin 2) ℂ), !![2, 0; 3, 0], !![2, 0; 3, 0], ?_, ?_, ?_⟩
  · simp
  · intro i c
    have : (1 : Matrix (Fin 2) (Fin 2) ℂ) *ᵥ ((!![2, 0; 3, 0] : Matrix (Fin 2) (Fin 2) ℂ)ᵀ i) -
      (!![2, 0; 3, 0] : Matrix (Fin 2) (Fin 2) ℂ)ᵀ i = 0 := by simp
    rw [show normSq _ = 0 from (normSq_eq_zero _).mpr this]
    exact normSq_nonneg _
  · intro t i
    fin_cases i
    fin_cases t <;>
      simp [linearDynamics, forcing, Matrix.one_apply] <;> rfl

/-- **C66** (checks). If `fit` passes its checks, delays, lag and `num_chaos` are positive and the
embeddings split into at least one linear coordinate and at least one forcing coordinate, as
assumed above; in all other cases it raises `ValueError`. -/
theorem C66_checks (delays lag numChaos : ℤ) (r q : ℕ) :
    (fitCheck delays lag numChaos = .ok () ↔ 1 ≤ delays ∧ 1 ≤ lag ∧ 1 ≤ numChaos) ∧
    (fitCheck delays lag numChaos = .ok () ∨ fitCheck delays lag numChaos = .error .valueError) ∧
    (rankCheck r q = .ok () ↔ ∃ p, 1 ≤ p ∧ r = p + q) ∧
    (rankCheck r q = .ok () ∨ rankCheck r q = .error .valueError) := by
  refine ⟨?_, ?_, ?_, ?_⟩
  · rw [fitCheck]; split_ifs with h
    · simp; omega
    · simp; omega
  · rw [fitCheck]; split_ifs <;> simp
  · rw [rankCheck]; split_ifs with h
    · simp; omega
    · simp; exact ⟨r - q, by omega, by omega⟩
  · rw [rankCheck]; split_ifs <;> simp

/-! ## C67: active intervals -/

/-- **C67**. For every non-empty index list and jump distance, the slices of `_get_index_slices`
are the first and last elements of a partition of the list into non-empty consecutive groups, such
that steps inside a group are at most `d` and steps between groups larger. -/
theorem C67_slices (x : List ℤ) (hx : x ≠ []) (d : ℤ) :
    ∃ groups : List (List ℤ), groups.flatten = x ∧ (∀ g ∈ groups, g ≠ []) ∧
      (∀ g ∈ groups, g.IsChain fun a b => b - a ≤ d) ∧
      (groups.IsChain fun g h => ∀ a b, g.getLast? = some a → h.head? = some b → b - a > d) ∧
      indexSlices x d = .ok (groups.map fun g => (g.headD 0, g.getLastD 0)) := by
  obtain ⟨a, l, rfl⟩ := List.exists_cons_of_ne_nil hx
  clear hx
  induction l generalizing a with
  | nil => exact ⟨[[a]], by simp, by simp, by simp, by simp, by simp [indexSlices]⟩
  | cons b l ih =>
    obtain ⟨gs, hf, hne, hin, hbt, hs⟩ := ih b
    obtain ⟨g, gs, rfl⟩ : ∃ g gs', gs = g :: gs' := by
      cases gs with
      | nil => simp at hf
      | cons g gs' => exact ⟨g, gs', rfl⟩
    obtain ⟨c, g, rfl⟩ := List.exists_cons_of_ne_nil (hne g List.mem_cons_self)
    obtain rfl : c = b := by simpa using congrArg List.head? hf
    simp only [indexSlices, Except.ok.injEq, List.map_cons, List.headD_cons] at hs
    by_cases h : c - a > d
    · refine ⟨[a] :: (c :: g) :: gs, by simpa using hf, ?_, ?_, ?_, ?_⟩
      · intro k hk
        rcases List.mem_cons.mp hk with rfl | hk
        · simp
        · exact hne k hk
      · intro k hk
        rcases List.mem_cons.mp hk with rfl | hk
        · simp
        · exact hin k hk
      · refine List.isChain_cons_cons.mpr ⟨?_, hbt⟩
        intro u v hu hv
        simp only [List.getLast?_singleton, Option.some.injEq] at hu
        simp only [List.head?_cons, Option.some.injEq] at hv
        subst hu hv
        exact h
      · simp only [indexSlices, Except.ok.injEq, List.dropLast_cons₂, List.zip_cons_cons,
          List.filter_cons, decide_eq_true h, if_true, List.map_cons, List.cons_append]
        rw [List.getLast_cons (List.cons_ne_nil c l), hs]
        simp
    · refine ⟨(a :: c :: g) :: gs, by simpa using hf, ?_, ?_, ?_, ?_⟩
      · intro k hk
        rcases List.mem_cons.mp hk with rfl | hk
        · simp
        · exact hne k (List.mem_cons_of_mem _ hk)
      · intro k hk
        rcases List.mem_cons.mp hk with rfl | hk
        · exact List.isChain_cons_cons.mpr ⟨by omega, hin _ List.mem_cons_self⟩
        · exact hin k (List.mem_cons_of_mem _ hk)
      · cases gs with
        | nil => simp
        | cons k gs =>
          obtain ⟨h1, h2⟩ := List.isChain_cons_cons.mp hbt
          refine List.isChain_cons_cons.mpr ⟨?_, h2⟩
          intro u v hu hv
          exact h1 u v (by rw [List.getLast?_cons_cons] at hu; exact hu) hv
      · simp only [indexSlices, Except.ok.injEq, List.dropLast_cons₂, List.zip_cons_cons,
          List.filter_cons, decide_eq_false h, List.map_cons]
        rw [List.getLast_cons (List.cons_ne_nil c l)]
        revert hs
        generalize (List.filter (fun p => decide (p.2 - p.1 > d)) ((c :: l).dropLast.zip l)) = ps
        generalize (c :: l).getLast _ = z
        intro hs
        cases ps with
        | nil =>
          simp only [List.map_nil, List.nil_append, List.zip_cons_cons, List.cons.injEq,
            Prod.mk.injEq, true_and] at hs
          rw [← hs.2]
          simp [hs.1]
        | cons y ys =>
          simp only [List.map_cons, List.cons_append, List.zip_cons_cons, List.cons.injEq,
            Prod.mk.injEq, true_and] at hs
          rw [← hs.2]
          simp [hs.1]

/-- The example of the docstring. -/
example : indexSlices [2, 3, 4, 5, 10, 11, 12, 25, 26, 28] 2 =
    .ok [(2, 5), (10, 12), (25, 28)] := by decide

end Verif.Havok
