import Verif.Model.Dmdc
import Verif.Props.Predict
import Verif.Lemmas.Time

/-!
# Properties C39, C63: DMD with control
-/

set_option autoImplicit false

namespace Verif.Dmdc

open Verif Verif.LinAlg Matrix

variable {m n k r : Type} [Fintype m] [Fintype n] [Fintype k] [Fintype r] [DecidableEq r]
  [DecidableEq k] [DecidableEq n] [DecidableEq m]

omit [DecidableEq m] in
/-- The loop, from any point: it appends one state per control. -/
theorem controlLoop_spec {q : ℕ} (A : Matrix m m ℂ) (B : Matrix m (Fin q) ℂ) :
    ∀ (us : List (List ℂ)) (i : ℕ) (data : List (m → ℂ)), (∀ u ∈ us, u.length = q) →
      i < data.length →
      ∃ out, controlLoop A B i data us = .ok (data ++ out) ∧ out.length = us.length ∧
        ∀ j < us.length, ∃ x u, (data ++ out)[i + j]? = some x ∧ us[j]? = some u ∧
          (data ++ out)[data.length + j]? = some (A *ᵥ x + B *ᵥ fun l => u.getD l 0) := by
  intro us
  induction us with
  | nil => intro i data _ _; exact ⟨[], by simp [controlLoop], rfl, by simp⟩
  | cons u us ih =>
    intro i data hu hi
    have hx : data[i]? = some data[i] := List.getElem?_eq_getElem hi
    set y := A *ᵥ data[i] + B *ᵥ fun j => u.getD j 0 with hy
    obtain ⟨out, h1, h2, h3⟩ := ih (i + 1) (data ++ [y]) (fun v hv => hu v (by simp [hv]))
      (by simp; omega)
    refine ⟨y :: out, ?_, by simp [h2], ?_⟩
    · rw [controlLoop, if_neg (by simp [hu u (by simp)]), hx]
      simp only
      rw [← hy, h1]
      simp
    · intro j hj
      have e : data ++ y :: out = data ++ [y] ++ out := by simp
      cases j with
      | zero =>
        refine ⟨data[i], u, ?_, rfl, ?_⟩
        · rw [Nat.add_zero, List.getElem?_append_left hi, hx]
        · simp [hy]
      | succ j =>
        obtain ⟨x, u', a, b, c⟩ := h3 j (by simpa using hj)
        rw [e]
        refine ⟨x, u', ?_, by simpa using b, ?_⟩
        · rw [← a]; congr 1; omega
        · rw [← c]; congr 1; simp; omega

/-- **C39** (the controlled recurrence). Let the time step be `k` times the original one, the control be
two-dimensional with one entry per input, and its number of columns be that of the window minus
the lag. Then `reconstructed_data(control)` has `lag + number of controls` columns, starts with
the first `lag` snapshots and satisfies `x_{i+lag} = A x_i + B u_i` for every control column,
`A = modes diag(eigs ^ k) pinv(modes)`. Without argument the control given to `fit` is used. -/
theorem C39_recurrence {q : ℕ} (modes : Matrix m r ℂ) (eigs : r → ℂ) (P : Matrix r m ℂ)
    (B : Matrix m (Fin q) ℂ) (snapshots : List (m → ℂ)) (lag : ℕ) (hlag : 1 ≤ lag)
    (hs : lag ≤ snapshots.length) (orig dmd : Time.Window) (k : ℤ) (hdt : dmd.dt = k * orig.dt)
    (hdt0 : orig.dt ≠ 0) (ts : List ℚ) (hts : dmd.timesteps = .ok ts) (cols : List (List ℂ))
    (hcol : ∀ u ∈ cols, u.length = q) (hlen : cols.length + lag = ts.length) (other : Control) :
    ∃ data, reconstructedData modes eigs P B snapshots lag orig dmd other (some (.two cols)) =
        .ok data ∧
      reconstructedData modes eigs P B snapshots lag orig dmd (.two cols) none = .ok data ∧
      data.length = lag + cols.length ∧ data.take lag = snapshots.take lag ∧
      ∀ (i : ℕ) u, cols[i]? = some u → ∃ x, data[i]? = some x ∧
        data[i + lag]? = some ((modes * diagonal (fun i => eigs i ^ k) * P) *ᵥ x + B *ᵥ fun j => u.getD j 0) := by
  have hratio : ⌊dmd.dt / orig.dt⌋ = k := by
    rw [hdt, mul_div_assoc, div_self hdt0, mul_one]; exact Int.floor_intCast k
  have htake : (snapshots.take lag).length = lag := by simp [hs]
  obtain ⟨out, h1, h2, h3⟩ := controlLoop_spec (modes * diagonal (fun i => eigs i ^ k) * P) B cols 0
    (snapshots.take lag) hcol (by omega)
  have e : reconstructedData modes eigs P B snapshots lag orig dmd other (some (.two cols)) =
      .ok (snapshots.take lag ++ out) := by
    simp only [reconstructedData, Option.getD_some, hts, Control.len, hratio]
    rw [if_neg (by simp; omega), if_neg (by omega), h1]
  refine ⟨snapshots.take lag ++ out, e, e, by simp [h2, hs], ?_, ?_⟩
  · exact List.take_left' htake
  · intro i u hu
    obtain ⟨x, u', a, b, c⟩ := h3 i (List.getElem?_eq_some_iff.mp hu).1
    rw [hu, Option.some.injEq] at b
    subst b
    rw [Nat.zero_add] at a
    refine ⟨x, a, ?_⟩
    rw [← c, htake, Nat.add_comm]

/-- **C39** (length). After `fit` on `N` snapshots the window has `N` instants, so a control must
have `N - lag` columns; any other number raises `RuntimeError`. A non-positive lag makes `fit`
raise `ValueError`; otherwise `X` and `Y` hold the snapshots `0, …, N-1-lag` and
`lag, …, N-1`. -/
theorem C39_lengths {q : ℕ} (modes : Matrix m r ℂ) (eigs : r → ℂ) (P : Matrix r m ℂ)
    (B : Matrix m (Fin q) ℂ) (snapshots : List (m → ℂ)) (hN : 1 ≤ snapshots.length) (lag : ℕ)
    (c : Control) (other : Control) :
    (c.len + lag ≠ snapshots.length →
      reconstructedData modes eigs P B snapshots lag (Time.fitWindow snapshots.length)
        (Time.fitWindow snapshots.length) other (some c) = .error .runtimeError) ∧
    (∀ l : ℤ, l < 1 → splitLag l snapshots = .error .valueError) ∧
    (1 ≤ lag → lag ≤ snapshots.length → ∃ X Y, splitLag lag snapshots = .ok (X, Y) ∧
      X.length = snapshots.length - lag ∧ Y.length = snapshots.length - lag ∧
      ∀ i < snapshots.length - lag, X[i]? = snapshots[i]? ∧ Y[i]? = snapshots[i + lag]?) := by
  refine ⟨?_, ?_, ?_⟩
  · intro hne
    have hts := Time.timesteps_ok (Time.fitWindow snapshots.length) (by simp [Time.fitWindow])
    have hl : (Time.steps (Time.fitWindow snapshots.length)).length = snapshots.length := by
      rw [Time.length_steps]
      simp [Time.fitWindow]
    simp only [reconstructedData, Option.getD_some, hts]
    rw [if_pos (by rw [hl]; omega)]
  · intro l hl; simp [splitLag, hl]
  · intro h1 h2
    refine ⟨_, _, by rw [splitLag, if_neg (by omega)], by simp, by simp, ?_⟩
    intro i hi
    simp only [Int.toNat_natCast]
    refine ⟨List.getElem?_take_of_lt hi, ?_⟩
    rw [List.getElem?_drop, Nat.add_comm]

/-- **C39** fails for one-dimensional controls: `fit` accepts a one-dimensional control (one
input), but `reconstructed_data` raises `ValueError` for the same array of the right length. -/
theorem C39_one_dimensional_false {q : ℕ} (modes : Matrix m r ℂ) (eigs : r → ℂ) (P : Matrix r m ℂ)
    (B : Matrix m (Fin q) ℂ) (snapshots : List (m → ℂ)) (lag : ℕ) (hlag : lag < snapshots.length)
    (l : List ℂ) (hl : l.length + lag = snapshots.length) :
    (Control.one l).atleast2d = .two (l.map fun x => [x]) ∧
    ∀ other, reconstructedData modes eigs P B snapshots lag (Time.fitWindow snapshots.length)
      (Time.fitWindow snapshots.length) other (some (.one l)) = .error .valueError := by
  refine ⟨rfl, fun other => ?_⟩
  have hts := Time.timesteps_ok (Time.fitWindow snapshots.length) (by simp [Time.fitWindow])
  have hlen : (Time.steps (Time.fitWindow snapshots.length)).length = snapshots.length := by
    rw [Time.length_steps]
    simp [Time.fitWindow]
  simp only [reconstructedData, Option.getD_some, hts, Control.len]
  rw [if_neg (by rw [hlen]; omega), if_neg (by omega)]
  cases l with
  | nil => simp at hl; omega
  | cons a l => rfl

/-! ## C63 -/

/-- The operator rebuilt from exact modes acts as `A` on the range of `U`, if that range is
invariant. -/
theorem rebuilt_operator (A : Matrix m m ℂ) (U : Matrix m r ℂ) (hU : Uᴴ * U = 1)
    (hinv : U * (Uᴴ * (A * U)) = A * U) (W : Matrix r r ℂ) (hWu : IsUnit W.det) (eigs : r → ℂ)
    (he : ∀ i, eigs i ≠ 0) (hW : Uᴴ * A * U * W = W * diagonal eigs) (P : Matrix r m ℂ)
    (hP : IsPinv (A * U * W) P) (x : m → ℂ) (hx : U *ᵥ (Uᴴ *ᵥ x) = x) :
    (A * U * W * diagonal eigs * P) *ᵥ x = A *ᵥ x ∧ U *ᵥ (Uᴴ *ᵥ (A *ᵥ x)) = A *ᵥ x := by
  have hm : A * U * W = U * W * diagonal eigs := by
    calc A * U * W = U * (Uᴴ * A * U * W) := by
          rw [← hinv]; simp only [Matrix.mul_assoc]
      _ = _ := by rw [hW]; simp only [Matrix.mul_assoc]
  have hDu : diagonal eigs * diagonal (fun i => (eigs i)⁻¹) = 1 := by
    rw [diagonal_mul_diagonal, ← diagonal_one]
    congr 1; funext i; exact mul_inv_cancel₀ (he i)
  have hDu' : diagonal (fun i => (eigs i)⁻¹) * diagonal eigs = 1 := mul_eq_one_comm.mp hDu
  have hind : ∀ c, (A * U * W) *ᵥ c = 0 → c = 0 := by
    intro c hc
    rw [hm] at hc
    have h1 : diagonal (fun i => (eigs i)⁻¹) *ᵥ (W⁻¹ *ᵥ (Uᴴ *ᵥ ((U * W * diagonal eigs) *ᵥ c))) =
        c := by
      rw [mulVec_mulVec, mulVec_mulVec, mulVec_mulVec]
      have : diagonal (fun i => (eigs i)⁻¹) * W⁻¹ * Uᴴ * (U * W * diagonal eigs) = 1 := by
        calc _ = diagonal (fun i => (eigs i)⁻¹) * (W⁻¹ * ((Uᴴ * U) * W)) * diagonal eigs := by
              simp only [Matrix.mul_assoc]
          _ = 1 := by
              rw [hU, Matrix.one_mul, nonsing_inv_mul _ hWu, Matrix.mul_one, hDu']
      rw [this, one_mulVec]
    rw [← h1, hc]; simp
  have hPA := Operator.pinv_left hP hind
  -- x = modes c
  have hxc : x = (A * U * W) *ᵥ (diagonal (fun i => (eigs i)⁻¹) *ᵥ (W⁻¹ *ᵥ (Uᴴ *ᵥ x))) := by
    rw [hm, mulVec_mulVec, Matrix.mul_assoc, hDu, Matrix.mul_one, mulVec_mulVec, Matrix.mul_assoc,
      mul_nonsing_inv _ hWu, Matrix.mul_one, hx]
  have hAx : A *ᵥ x = (A * U) *ᵥ (Uᴴ *ᵥ x) := by rw [← mulVec_mulVec, hx]
  constructor
  · set c := diagonal (fun i => (eigs i)⁻¹) *ᵥ (W⁻¹ *ᵥ (Uᴴ *ᵥ x)) with hc
    have : (A * U * W * diagonal eigs * P) *ᵥ x = (A * U * W) *ᵥ (diagonal eigs *ᵥ c) := by
      conv_lhs => rw [hxc]
      rw [mulVec_mulVec, Matrix.mul_assoc _ P, hPA, Matrix.mul_one, ← mulVec_mulVec]
    rw [this, hc, mulVec_mulVec _ (diagonal eigs), hDu, one_mulVec, mulVec_mulVec,
      Matrix.mul_assoc _ W, mul_nonsing_inv _ hWu, Matrix.mul_one, hAx]
  · rw [hAx, mulVec_mulVec, mulVec_mulVec, Matrix.mul_assoc U, hinv]

omit [DecidableEq r] [DecidableEq m] in
/-- From an operator that acts as `A` on an invariant range to the true controlled response. -/
theorem true_response {q : ℕ} (A A' : Matrix m m ℂ) (B B' : Matrix m (Fin q) ℂ) (U : Matrix m r ℂ)
    (hA : ∀ x, U *ᵥ (Uᴴ *ᵥ x) = x → A' *ᵥ x = A *ᵥ x ∧ U *ᵥ (Uᴴ *ᵥ (A *ᵥ x)) = A *ᵥ x)
    (hB : U * (Uᴴ * B) = B) (hB' : B' = B) (y : ℕ → m → ℂ) (u : ℕ → Fin q → ℂ) (lag : ℕ)
    (hlag : 1 ≤ lag) (hy : ∀ i, y (i + lag) = A *ᵥ y i + B *ᵥ u i)
    (h0 : ∀ i < lag, U *ᵥ (Uᴴ *ᵥ y i) = y i) (n : ℕ) (data : List (m → ℂ))
    (hlen : data.length = lag + n) (hstart : data.take lag = (List.range lag).map y)
    (hrec : ∀ (i : ℕ) v, ((List.range n).map fun i => List.ofFn (u i))[i]? = some v →
      ∃ x, data[i]? = some x ∧ data[i + lag]? = some (A' *ᵥ x + B' *ᵥ fun j => v.getD j 0)) :
    data = (List.range (lag + n)).map y := by
  subst hB'
  have hrange : ∀ i, U *ᵥ (Uᴴ *ᵥ y i) = y i := by
    intro i
    induction i using Nat.strong_induction_on with
    | _ i ih =>
      by_cases hi : i < lag
      · exact h0 i hi
      · obtain ⟨j, rfl⟩ : ∃ j, i = j + lag := ⟨i - lag, by omega⟩
        rw [hy, mulVec_add, mulVec_add, (hA _ (ih j (by omega))).2]
        congr 1
        rw [mulVec_mulVec, mulVec_mulVec, Matrix.mul_assoc, hB]
  apply List.ext_getElem?
  intro i
  induction i using Nat.strong_induction_on with
  | _ i ih =>
    by_cases hi : i < lag
    · rw [← List.getElem?_take_of_lt hi, hstart]
      simp [hi, show i < lag + n by omega]
    · by_cases hin : i < lag + n
      · obtain ⟨j, rfl⟩ : ∃ j, i = j + lag := ⟨i - lag, by omega⟩
        have hjn : j < n := by omega
        obtain ⟨x, hx, hxl⟩ := hrec j (List.ofFn (u j)) (by simp [hjn])
        have hxj : x = y j := by
          have := ih j (by omega)
          rw [hx] at this
          simpa [show j < lag + n by omega] using this
        rw [hxl, hxj, (hA _ (hrange j)).1]
        simp only [List.getElem?_map, List.getElem?_range hin, Option.map_some, hy,
          Option.some.injEq]
        congr 2
        funext l
        simp [List.getD]
      · rw [List.getElem?_eq_none (by omega), List.getElem?_eq_none (by simp; omega)]

/-- The common part of C63. -/
theorem controlled_exact {q N : ℕ} (A : Matrix m m ℂ) (B : Matrix m (Fin q) ℂ) (x : ℕ → m → ℂ)
    (lag : ℕ) (hlag : 1 ≤ lag) (U : Matrix m r ℂ) (hU : Uᴴ * U = 1)
    (hinv : U * (Uᴴ * (A * U)) = A * U) (hB : U * (Uᴴ * B) = B) (W : Matrix r r ℂ)
    (hWu : IsUnit W.det) (eigs : r → ℂ) (he : ∀ i, eigs i ≠ 0)
    (hW : Uᴴ * A * U * W = W * diagonal eigs) (P : Matrix r m ℂ) (hP : IsPinv (A * U * W) P)
    (u' : ℕ → Fin q → ℂ) (y : ℕ → m → ℂ) (hy0 : ∀ i < lag, y i = x i)
    (hx0 : ∀ i < lag, U *ᵥ (Uᴴ *ᵥ y i) = y i)
    (hy : ∀ i, y (i + lag) = A *ᵥ y i + B *ᵥ u' i) (other : Control) :
    reconstructedData (A * U * W) eigs P B ((List.range (N + lag)).map x) lag
      (Time.fitWindow (N + lag)) (Time.fitWindow (N + lag)) other
      (some (.two ((List.range N).map fun i => List.ofFn (u' i)))) =
      .ok ((List.range (lag + N)).map y) := by
  obtain ⟨data, d1, -, d2, d3, d4⟩ := C39_recurrence (A * U * W) eigs P B
    ((List.range (N + lag)).map x) lag hlag (by simp) (Time.fitWindow (N + lag))
    (Time.fitWindow (N + lag)) 1 (by simp) (by simp [Time.fitWindow]) _
    (Time.timesteps_ok _ (by simp [Time.fitWindow]))
    ((List.range N).map fun i => List.ofFn (u' i))
    (by intro v hv; obtain ⟨i, -, rfl⟩ := List.mem_map.mp hv; simp)
    (by rw [Time.length_steps]; simp [Time.fitWindow]; norm_cast) other
  simp only [zpow_one] at d4
  rw [d1]
  congr 1
  refine true_response A _ B B U
    (fun z hz => rebuilt_operator A U hU hinv W hWu eigs he hW P hP z hz) hB rfl y u' lag hlag hy
    hx0 N data (by simpa using d2) ?_ d4
  rw [d3]
  apply List.ext_getElem?
  intro i
  by_cases hi : i < lag
  · rw [List.getElem?_take_of_lt hi]
    simp [hi, hy0 i hi, show i < N + lag by omega]
  · rw [List.getElem?_eq_none (by simp; omega), List.getElem?_eq_none (by simp; omega)]

/-- **C63** (known `B`). Let the `n + lag` snapshots satisfy `x_{i+lag} = A x_i + B u_i` without
noise, let the range of the snapshots `X` contain the range of `B` and be invariant under `A`
(e.g. `X` has full row rank), keep the full rank, and let the reduced operator be diagonalisable
with nonzero eigenvalues. Then `reconstructed_data(control)` is, for *every* control of the right
size, the true response of the system starting from the first `lag` snapshots; with the control of
`fit` it is the training data. -/
theorem C63_known_B {q N : ℕ} (A : Matrix m m ℂ) (B : Matrix m (Fin q) ℂ) (x : ℕ → m → ℂ)
    (u : ℕ → Fin q → ℂ) (lag : ℕ) (hlag : 1 ≤ lag) (hx : ∀ i, x (i + lag) = A *ᵥ x i + B *ᵥ u i)
    (hN : lag ≤ N) (X Y : Matrix m (Fin N) ℂ) (I : Matrix (Fin q) (Fin N) ℂ)
    (hX : ∀ p (j : Fin N), X p j = x j p) (hY : ∀ p (j : Fin N), Y p j = x (j + lag) p)
    (hI : ∀ l (j : Fin N), I l j = u j l) (U : Matrix m r ℂ) (s : r → ℝ) (V : Matrix (Fin N) r ℂ)
    (h : IsSVD X U s V) (hs : ∀ i, s i ≠ 0) (hinv : U * (Uᴴ * (A * U)) = A * U)
    (hB : U * (Uᴴ * B) = B) (W : Matrix r r ℂ) (hWu : IsUnit W.det) (eigs : r → ℂ)
    (he : ∀ i, eigs i ≠ 0) (hW : knownOperator U s V Y B I * W = W * diagonal eigs)
    (P : Matrix r m ℂ) (hP : IsPinv (knownModes U s V Y B I W) P)
    (u' : ℕ → Fin q → ℂ) (y : ℕ → m → ℂ) (hy0 : ∀ i < lag, y i = x i)
    (hy : ∀ i, y (i + lag) = A *ᵥ y i + B *ᵥ u' i) (other : Control) :
    reconstructedData (knownModes U s V Y B I W) eigs P B ((List.range (N + lag)).map x) lag
      (Time.fitWindow (N + lag)) (Time.fitWindow (N + lag)) other
      (some (.two ((List.range N).map fun i => List.ofFn (u' i)))) =
      .ok ((List.range (lag + N)).map y) := by
  have hYX : Y - B * I = A * X := by
    ext p j
    have := congrFun (hx j) p
    simp only [Matrix.sub_apply, hY, this, Pi.add_apply, Matrix.mul_apply, mulVec, dotProduct,
      hX, hI]
    ring
  -- A X V S^{-1} = A U
  have hXV : X * V * rdiag (fun i => (s i)⁻¹) = U := by
    rw [h.eq]
    calc U * rdiag s * Vᴴ * V * rdiag (fun i => (s i)⁻¹)
        = U * rdiag s * (Vᴴ * V) * rdiag (fun i => (s i)⁻¹) := by simp only [Matrix.mul_assoc]
      _ = U * (rdiag s * rdiag (fun i => (s i)⁻¹)) := by
          rw [h.v, Matrix.mul_one, Matrix.mul_assoc]
      _ = U := by rw [rdiag_mul_inv s hs, Matrix.mul_one]
  have hAU : A * X * V * rdiag (fun i => (s i)⁻¹) = A * U := by
    rw [Matrix.mul_assoc A, Matrix.mul_assoc A, hXV]
  have hmodes : knownModes U s V Y B I W = A * U * W := by
    simp only [knownModes, Operator.computeModes, Operator.tikSigma, if_true]
    rw [hYX, hAU]
  have hop : knownOperator U s V Y B I = Uᴴ * A * U := by
    simp only [knownOperator, Operator.leastSquareOperator, Operator.tikSigma]
    rw [hYX]
    calc Uᴴ * (A * X) * V * rdiag (fun i => (s i)⁻¹)
        = Uᴴ * (A * X * V * rdiag (fun i => (s i)⁻¹)) := by simp only [Matrix.mul_assoc]
      _ = _ := by rw [hAU, Matrix.mul_assoc]
  rw [hmodes] at hP ⊢
  rw [hop] at hW
  have hUX : U * (Uᴴ * X) = X := by
    rw [h.eq]
    calc U * (Uᴴ * (U * rdiag s * Vᴴ)) = U * ((Uᴴ * U) * (rdiag s * Vᴴ)) := by
          simp only [Matrix.mul_assoc]
      _ = _ := by rw [h.u, Matrix.one_mul, Matrix.mul_assoc]
  have hx0 : ∀ i < lag, U *ᵥ (Uᴴ *ᵥ y i) = y i := by
    intro i hi
    rw [hy0 i hi]
    have hiN : i < N := by omega
    have hcol : x i = X *ᵥ Pi.single ⟨i, hiN⟩ 1 := by
      funext p; rw [mulVec_single_one]; exact (hX p ⟨i, hiN⟩).symm
    rw [hcol, mulVec_mulVec, mulVec_mulVec, Matrix.mul_assoc, hUX]
  exact controlled_exact A B x lag hlag U h.u hinv hB W hWu eigs he hW P hP u' y hy0 hx0 hy other

/-- **C63** (unknown `B`). Let the snapshots satisfy `x_{i+lag} = A x_i + B u_i` without noise, let
the stacked matrix of states and controls have full row rank, let `Ur` be an orthonormal basis of a
space containing the columns of `Y` (the untruncated left singular vectors) and the first `lag`
snapshots, and let the reduced operator be diagonalisable with nonzero eigenvalues. Then DMDc finds
`B`, and `reconstructed_data(control)` is the true response to every control of the right size. -/
theorem C63_unknown_B {q N : ℕ} (A : Matrix m m ℂ) (B : Matrix m (Fin q) ℂ) (x : ℕ → m → ℂ)
    (u : ℕ → Fin q → ℂ) (lag : ℕ) (hlag : 1 ≤ lag) (hx : ∀ i, x (i + lag) = A *ᵥ x i + B *ᵥ u i)
    (X Y : Matrix m (Fin N) ℂ) (I : Matrix (Fin q) (Fin N) ℂ)
    (hX : ∀ p (j : Fin N), X p j = x j p) (hY : ∀ p (j : Fin N), Y p j = x (j + lag) p)
    (hI : ∀ l (j : Fin N), I l j = u j l) (Up : Matrix (m ⊕ Fin q) k ℂ) (sp : k → ℝ)
    (Vp : Matrix (Fin N) k ℂ) (h : IsSVD (omega X I) Up sp Vp) (hs : ∀ i, sp i ≠ 0)
    (hfull : Up * Upᴴ = 1) (Ur : Matrix m r ℂ) (hUr : Urᴴ * Ur = 1) (hUrY : Ur * (Urᴴ * Y) = Y)
    (hstart : ∀ i < lag, Ur *ᵥ (Urᴴ *ᵥ x i) = x i) (W : Matrix r r ℂ) (hWu : IsUnit W.det)
    (eigs : r → ℂ) (he : ∀ i, eigs i ≠ 0)
    (hW : unknownOperator Y Up sp Vp Ur * W = W * diagonal eigs) (P : Matrix r m ℂ)
    (hP : IsPinv (unknownModes Y Up sp Vp Ur W) P) (u' : ℕ → Fin q → ℂ) (y : ℕ → m → ℂ)
    (hy0 : ∀ i < lag, y i = x i) (hy : ∀ i, y (i + lag) = A *ᵥ y i + B *ᵥ u' i)
    (other : Control) :
    unknownB Y Up sp Vp Ur = B ∧
    reconstructedData (unknownModes Y Up sp Vp Ur W) eigs P (unknownB Y Up sp Vp Ur)
      ((List.range (N + lag)).map x) lag (Time.fitWindow (N + lag)) (Time.fitWindow (N + lag))
      other (some (.two ((List.range N).map fun i => List.ofFn (u' i)))) =
      .ok ((List.range (lag + N)).map y) := by
  set G : Matrix m (m ⊕ Fin q) ℂ := of fun p => Sum.elim (A p) (B p) with hG
  have hYO : Y = G * omega X I := by
    ext p j
    have := congrFun (hx j) p
    simp only [hY, this, Pi.add_apply, Matrix.mul_apply, mulVec, dotProduct, Fintype.sum_sum_type,
      hG, omega, of_apply, Sum.elim_inl, Sum.elim_inr, hX, hI]
  have hOV : omega X I * Vp * rdiag (fun i => (sp i)⁻¹) = Up := by
    rw [h.eq]
    calc Up * rdiag sp * Vpᴴ * Vp * rdiag (fun i => (sp i)⁻¹)
        = Up * rdiag sp * (Vpᴴ * Vp) * rdiag (fun i => (sp i)⁻¹) := by simp only [Matrix.mul_assoc]
      _ = Up * (rdiag sp * rdiag (fun i => (sp i)⁻¹)) := by
          rw [h.v, Matrix.mul_one, Matrix.mul_assoc]
      _ = Up := by rw [rdiag_mul_inv sp hs, Matrix.mul_one]
  have hGU : Y * Vp * rdiag (fun i => (sp i)⁻¹) = G * Up := by
    rw [hYO, Matrix.mul_assoc G, Matrix.mul_assoc G, hOV]
  have hup : G * Up * (upper Up)ᴴ = A := by
    have e : G * Up * (upper Up)ᴴ = (G * (Up * Upᴴ)).submatrix id Sum.inl := by
      rw [← Matrix.mul_assoc]; ext p j; rfl
    rw [e, hfull, Matrix.mul_one]; ext p j; rfl
  have hlo : G * Up * (lower Up)ᴴ = B := by
    have e : G * Up * (lower Up)ᴴ = (G * (Up * Upᴴ)).submatrix id Sum.inr := by
      rw [← Matrix.mul_assoc]; ext p j; rfl
    rw [e, hfull, Matrix.mul_one]; ext p j; rfl
  -- the range of `Ur` contains those of `A` and `B`
  have hUG : Ur * (Urᴴ * (G * Up)) = G * Up := by
    rw [← hGU]
    calc Ur * (Urᴴ * (Y * Vp * rdiag fun i => (sp i)⁻¹))
        = (Ur * (Urᴴ * Y)) * Vp * rdiag (fun i => (sp i)⁻¹) := by simp only [Matrix.mul_assoc]
      _ = _ := by rw [hUrY]
  have hUA : Ur * (Urᴴ * A) = A := by
    calc Ur * (Urᴴ * A) = Ur * (Urᴴ * (G * Up)) * (upper Up)ᴴ := by
          conv_lhs => rw [← hup]
          simp only [Matrix.mul_assoc]
      _ = A := by rw [hUG, hup]
  have hUB : Ur * (Urᴴ * B) = B := by
    calc Ur * (Urᴴ * B) = Ur * (Urᴴ * (G * Up)) * (lower Up)ᴴ := by
          conv_lhs => rw [← hlo]
          simp only [Matrix.mul_assoc]
      _ = B := by rw [hUG, hlo]
  have hBeq : unknownB Y Up sp Vp Ur = B := by
    rw [unknownB]
    calc Ur * (Urᴴ * Y * Vp * rdiag (fun i => (sp i)⁻¹) * (lower Up)ᴴ)
        = Ur * (Urᴴ * (Y * Vp * rdiag (fun i => (sp i)⁻¹) * (lower Up)ᴴ)) := by
          simp only [Matrix.mul_assoc]
      _ = B := by rw [hGU, hlo, hUB]
  have hop : unknownOperator Y Up sp Vp Ur = Urᴴ * A * Ur := by
    rw [unknownOperator]
    calc Urᴴ * Y * Vp * rdiag (fun i => (sp i)⁻¹) * (upper Up)ᴴ * Ur
        = Urᴴ * (Y * Vp * rdiag (fun i => (sp i)⁻¹) * (upper Up)ᴴ) * Ur := by
          simp only [Matrix.mul_assoc]
      _ = _ := by rw [hGU, hup]
  have hmodes : unknownModes Y Up sp Vp Ur W = A * Ur * W := by
    rw [unknownModes, hGU, hup]
  rw [hmodes] at hP ⊢
  rw [hop] at hW
  rw [hBeq]
  refine ⟨rfl, controlled_exact A B x lag hlag Ur hUr ?_ hUB W hWu eigs he hW P hP u' y hy0 ?_ hy
    other⟩
  · rw [← Matrix.mul_assoc Urᴴ, ← Matrix.mul_assoc, hUA]
  · intro i hi; rw [hy0 i hi]; exact hstart i hi

/-! ## The hypotheses are met -/

/-- `x_{i+1} = 8/3 x_i + u_i` from `x_0 = 3` with controls `-4, 3`: the states are `3, 4, …`, and
the stacked matrix is `[[3, 4], [-4, 3]]`. -/
noncomputable def exU (i : ℕ) : Fin 1 → ℂ := fun _ => if i = 0 then -4 else 3

/-- The states. -/
noncomputable def exX : ℕ → Fin 1 → ℂ
  | 0 => fun _ => 3
  | i + 1 => fun _ => 8 / 3 * exX i 0 + exU i 0

theorem exX_rec (i : ℕ) :
    exX (i + 1) = (of ![![(8 / 3 : ℂ)]]) *ᵥ exX i + (of ![![(1 : ℂ)]]) *ᵥ exU i := by
  funext p
  fin_cases p
  simp [exX, mulVec, dotProduct]

theorem exX_X : ∀ p (j : Fin 2), (!![3, 4] : Matrix (Fin 1) (Fin 2) ℂ) p j = exX j p := by
  intro p j
  fin_cases p; fin_cases j <;> simp [exX, exU]
  norm_num

theorem exX_Y : ∀ p (j : Fin 2), (!![4, 41 / 3] : Matrix (Fin 1) (Fin 2) ℂ) p j =
    exX (j + 1) p := by
  intro p j
  fin_cases p; fin_cases j <;> simp [exX, exU] <;> norm_num

theorem exU_I : ∀ p (j : Fin 2), (!![-4, 3] : Matrix (Fin 1) (Fin 2) ℂ) p j = exU j p := by
  intro p j
  fin_cases p; fin_cases j <;> simp [exU]

/-- The known-`B` theorem applies to the example, for every new control. -/
example (u' : ℕ → Fin 1 → ℂ) (y : ℕ → Fin 1 → ℂ) (hy0 : y 0 = exX 0)
    (hy : ∀ i, y (i + 1) = (of ![![(8 / 3 : ℂ)]]) *ᵥ y i + (of ![![(1 : ℂ)]]) *ᵥ u' i) :
    ∃ (modes : Matrix (Fin 1) (Fin 1) ℂ) (P : Matrix (Fin 1) (Fin 1) ℂ) (eigs : Fin 1 → ℂ),
    reconstructedData modes eigs P (of ![![(1 : ℂ)]]) ((List.range (2 + 1)).map exX) 1
      (Time.fitWindow (2 + 1)) (Time.fitWindow (2 + 1)) (.one [])
      (some (.two ((List.range 2).map fun i => List.ofFn (u' i)))) =
      .ok ((List.range (1 + 2)).map y) := by
  set X : Matrix (Fin 1) (Fin 2) ℂ := !![3, 4] with hX
  set Y : Matrix (Fin 1) (Fin 2) ℂ := !![4, 41 / 3] with hY
  set I : Matrix (Fin 1) (Fin 2) ℂ := !![-4, 3] with hI
  set V : Matrix (Fin 2) (Fin 1) ℂ := of ![![3 / 5], ![4 / 5]] with hV
  have hsvd : IsSVD X (1 : Matrix (Fin 1) (Fin 1) ℂ) (fun _ => (5 : ℝ)) V := by
    refine ⟨?_, by simp, ?_, by intro; norm_num⟩
    · ext p j
      fin_cases p; fin_cases j <;>
        simp [hX, hV, rdiag, Matrix.mul_apply, diagonal, map_ofNat] <;> norm_num
    · ext p j
      fin_cases p; fin_cases j
      simp [hV, Matrix.mul_apply, Fin.sum_univ_two, map_ofNat]; norm_num
  have hop : knownOperator 1 (fun _ => (5 : ℝ)) V Y (of ![![(1 : ℂ)]]) I =
      of ![![(8 / 3 : ℂ)]] := by
    ext p j
    fin_cases p; fin_cases j
    simp [knownOperator, Operator.leastSquareOperator, Operator.tikSigma, hY, hI, hV,
      rdiag, Matrix.mul_apply, Fin.sum_univ_two, diagonal]
    norm_num
  have hmodes : knownModes 1 (fun _ => (5 : ℝ)) V Y (of ![![(1 : ℂ)]]) I 1 =
      of ![![(8 / 3 : ℂ)]] := by
    rw [← hop]
    simp [knownModes, Operator.computeModes, knownOperator, Operator.leastSquareOperator]
  refine ⟨knownModes 1 (fun _ => (5 : ℝ)) V Y (of ![![(1 : ℂ)]]) I 1, of ![![(3 / 8 : ℂ)]],
    fun _ => 8 / 3, ?_⟩
  refine C63_known_B (of ![![(8 / 3 : ℂ)]]) (of ![![(1 : ℂ)]]) exX exU 1 le_rfl exX_rec
    (by norm_num) X Y I exX_X exX_Y exU_I 1 (fun _ => (5 : ℝ)) V
    hsvd (by intro; norm_num) (by simp) (by simp) 1 (by simp) (fun _ => 8 / 3)
    (by intro; norm_num) ?_ _ ?_ u' y ?_ hy _
  · rw [hop]; ext p j; fin_cases p; fin_cases j; simp
  · rw [hmodes]
    constructor <;> ext p j <;> fin_cases p <;> fin_cases j <;>
      simp [Matrix.mul_apply]
  · intro i hi; obtain rfl : i = 0 := by omega
    exact hy0

/-- The unknown-`B` theorem applies to the same data. -/
example (u' : ℕ → Fin 1 → ℂ) (y : ℕ → Fin 1 → ℂ) (hy0 : y 0 = exX 0)
    (hy : ∀ i, y (i + 1) = (of ![![(8 / 3 : ℂ)]]) *ᵥ y i + (of ![![(1 : ℂ)]]) *ᵥ u' i) :
    ∃ (modes : Matrix (Fin 1) (Fin 1) ℂ) (P : Matrix (Fin 1) (Fin 1) ℂ) (eigs : Fin 1 → ℂ)
      (B : Matrix (Fin 1) (Fin 1) ℂ), B = of ![![(1 : ℂ)]] ∧
    reconstructedData modes eigs P B ((List.range (2 + 1)).map exX) 1
      (Time.fitWindow (2 + 1)) (Time.fitWindow (2 + 1)) (.one [])
      (some (.two ((List.range 2).map fun i => List.ofFn (u' i)))) =
      .ok ((List.range (1 + 2)).map y) := by
  set X : Matrix (Fin 1) (Fin 2) ℂ := !![3, 4] with hX
  set Y : Matrix (Fin 1) (Fin 2) ℂ := !![4, 41 / 3] with hY
  set I : Matrix (Fin 1) (Fin 2) ℂ := !![-4, 3] with hI
  set Vp : Matrix (Fin 2) (Fin 1 ⊕ Fin 1) ℂ :=
    of ![Sum.elim ![3 / 5] ![-4 / 5], Sum.elim ![4 / 5] ![3 / 5]] with hV
  have hsvd : IsSVD (omega X I) (1 : Matrix (Fin 1 ⊕ Fin 1) (Fin 1 ⊕ Fin 1) ℂ)
      (fun _ => (5 : ℝ)) Vp := by
    refine ⟨?_, by simp, ?_, by intro; norm_num⟩
    · ext p j
      rcases p with p | p <;> fin_cases p <;> fin_cases j <;>
        simp [omega, Sum.elim_inl, hX, hI, hV, rdiag, Matrix.mul_apply, diagonal, map_ofNat] <;>
        norm_num
    · ext p j
      rcases p with p | p <;> rcases j with j | j <;> fin_cases p <;> fin_cases j <;>
        simp [hV, Matrix.mul_apply, Fin.sum_univ_two, map_ofNat] <;> norm_num
  have hop : unknownOperator Y (1 : Matrix (Fin 1 ⊕ Fin 1) (Fin 1 ⊕ Fin 1) ℂ) (fun _ => (5 : ℝ)) Vp
      (1 : Matrix (Fin 1) (Fin 1) ℂ) = of ![![(8 / 3 : ℂ)]] := by
    ext p j
    fin_cases p; fin_cases j
    simp only [unknownOperator, conjTranspose_one, Matrix.one_mul,
      Matrix.mul_apply, Fintype.sum_sum_type, Fin.sum_univ_two]
    simp [hY, hV, upper, rdiag, diagonal, Matrix.one_apply]
    norm_num
  have hmodes : unknownModes Y (1 : Matrix (Fin 1 ⊕ Fin 1) (Fin 1 ⊕ Fin 1) ℂ) (fun _ => (5 : ℝ)) Vp
      (1 : Matrix (Fin 1) (Fin 1) ℂ) 1 = of ![![(8 / 3 : ℂ)]] := by
    rw [← hop]
    simp [unknownModes, unknownOperator]
  refine ⟨unknownModes Y (1 : Matrix (Fin 1 ⊕ Fin 1) (Fin 1 ⊕ Fin 1) ℂ) (fun _ => (5 : ℝ)) Vp 1 1,
    of ![![(3 / 8 : ℂ)]], fun _ => 8 / 3,
    unknownB Y (1 : Matrix (Fin 1 ⊕ Fin 1) (Fin 1 ⊕ Fin 1) ℂ) (fun _ => (5 : ℝ)) Vp (1 : Matrix (Fin 1) (Fin 1) ℂ), ?_⟩
  refine C63_unknown_B (of ![![(8 / 3 : ℂ)]]) (of ![![(1 : ℂ)]]) exX exU 1 le_rfl exX_rec
    X Y I exX_X exX_Y exU_I 1 (fun _ => (5 : ℝ)) Vp
    hsvd (by intro; norm_num) (by simp) (1 : Matrix (Fin 1) (Fin 1) ℂ) (by simp) (by simp)
    (by simp) 1 (by simp) (fun _ => 8 / 3)
    (by intro; norm_num) ?_ _ ?_ u' y ?_ hy _
  · rw [hop]; ext p j; fin_cases p; fin_cases j; simp
  · rw [hmodes]
    constructor <;> ext p j <;> fin_cases p <;> fin_cases j <;>
      simp [Matrix.mul_apply]
  · intro i hi; obtain rfl : i = 0 := by omega
    exact hy0

end Verif.Dmdc
