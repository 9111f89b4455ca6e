import Verif.Model.HavokFit
import Mathlib.Tactic

/-!
# C111: `HAVOK.fit` and the state it leaves
-/

set_option autoImplicit false

namespace Verif.HavokFit

open Verif

variable {D : Type}

/-- What `fit` needs: positive integer parameters, data that have at most two dimensions other than 1
and at least one, and enough snapshots for the delays. `(n, m)` is the shape of the data as rows of
features and columns of snapshots. -/
def Valid (P : Params) (shape : List ℕ) (n m : ℕ) : Prop :=
  (∃ d l c : ℤ, P.delays = some d ∧ P.lag = some l ∧ P.numChaos = some c ∧ 1 ≤ d ∧ 1 ≤ l ∧ 1 ≤ c ∧
    l * (d - 1) + 1 ≤ m) ∧
  (shape.filter (· ≠ 1) = [n, m] ∨ n = 1 ∧ shape.filter (· ≠ 1) = [m])

theorem fit_valid {P : Params} {shape : List ℕ} {n m : ℕ} (h : Valid P shape n m) (st : State D)
    (t : TimeArg) (rank : ℕ × ℕ → ℕ) (regress : ℕ × ℕ → List ℝ → Except PyErr D) :
    fit P st shape t rank regress =
      match timeVector m t with
      | .error e => (st, .error e)
      | .ok time =>
        if (rank (n, m) : ℤ) < P.numChaos.getD 0 + 1 then
          ({ st with r := some (rank (n, m)) }, .error .valueError)
        else
          match regress (n, m) time with
          | .error e => ({ st with r := some (rank (n, m)) }, .error e)
          | .ok d => ({ r := some (rank (n, m)), data := some d }, .ok ()) := by
  obtain ⟨⟨d, l, c, h1, h2, h3, h4, h5, h6, h7⟩, hs⟩ := h
  have hd : dataShape shape = .ok (n, m) := by
    unfold dataShape
    rcases hs with h | ⟨rfl, h⟩ <;> rw [h]
  have hh : hankelCheck d l m = .ok () := by
    unfold hankelCheck
    rw [if_neg (by omega)]
  unfold fit
  rw [if_neg (by simp [posInt, h1, h2, h3, h4, h5, h6]), hd]
  simp only [h1, h2, Option.getD_some, hh]
  cases timeVector m t with
  | error e => rfl
  | ok time =>
    simp only
    split_ifs
    · rfl
    · cases regress (n, m) time <;> rfl

/-- **C111** (success). `fit` succeeds exactly when parameters, data and times are valid, the rank is
above `num_chaos` and the regression succeeds; then `r` is the rank of this fit and everything else
is the result of this fit. -/
theorem C111_success {P : Params} {shape : List ℕ} {n m : ℕ} (h : Valid P shape n m) (c : ℕ)
    (hc : P.numChaos = some (c : ℤ)) (st : State D)
    (t : TimeArg) (rank : ℕ × ℕ → ℕ) (regress : ℕ × ℕ → List ℝ → Except PyErr D) :
    (fit P st shape t rank regress).2 = .ok () ↔
      ∃ time d, timeVector m t = .ok time ∧ c + 1 ≤ rank (n, m) ∧ regress (n, m) time = .ok d ∧
        (fit P st shape t rank regress).1 = ⟨some (rank (n, m)), some d⟩ := by
  rw [fit_valid h, hc]
  cases timeVector m t with
  | error e => simp
  | ok time =>
    simp only [Option.getD_some]
    split_ifs with hr
    · simp only [reduceCtorEq, false_iff]
      rintro ⟨_, _, _, h2, _⟩
      omega
    · cases hg : regress (n, m) time with
      | error e => simp [hg]
      | ok d =>
        simp only [true_iff]
        exact ⟨time, d, rfl, by omega, hg, rfl⟩

/-- **C111** (times). A number `t` is the time vector `0, t, 2t, ...`; an array is used as it is if,
without dimensions of size 1, it is a vector of the number of snapshots, and is rejected otherwise. -/
theorem C111_times (m : ℕ) (hm : 2 ≤ m) :
    (∀ t : ℝ, ∃ l, timeVector m (.number t) = .ok l ∧ l.length = m ∧
      ∀ i < m, l.getD i 0 = i * t) ∧
    (∀ shape vals, vals.length = shape.prod →
      (shape.filter (· ≠ 1) = [m] → timeVector m (.array shape vals) = .ok vals) ∧
      (shape.filter (· ≠ 1) ≠ [m] → timeVector m (.array shape vals) = .error .valueError)) := by
  refine ⟨fun t => ⟨(List.range m).map fun (i : ℕ) => (i : ℝ) * t, ?_, by simp, fun i hi => ?_⟩,
    fun shape vals hv => ⟨fun h => ?_, fun h => ?_⟩⟩
  · simp only [timeVector, List.length_map, List.length_range]
    rw [if_neg (by omega)]
  · simp [List.getElem?_range hi]
  · have hp : ∀ l : List ℕ, (l.filter (· ≠ 1)).prod = l.prod := by
      intro l
      induction l with
      | nil => rfl
      | cons a l ih =>
        by_cases ha : a = 1
        · subst ha; simpa using ih
        · rw [List.filter_cons_of_pos (by simpa using ha), List.prod_cons, List.prod_cons, ih]
    have hl : vals.length = m := by rw [hv, ← hp, h]; simp
    simp only [timeVector, h]
    rw [if_neg (by simp)]
    simp only
    rw [if_neg (by omega)]
  · simp only [timeVector, if_pos h]

/-- **C111** is false for NumPy integers: a time step that is not a Python `int` or `float` is an
array without dimensions and is rejected, for every number of snapshots. -/
theorem C111_numpy_step_false (m : ℕ) (t : ℝ) : timeVector m (.array [] [t]) = .error .valueError := by
  simp [timeVector]

/-- **C111** (parameters): `delays`, `lag` and `num_chaos` that are not integers, or not positive, are
rejected with ValueError before anything is changed. -/
theorem C111_parameters (P : Params) (st : State D) (shape : List ℕ) (t : TimeArg)
    (rank : ℕ × ℕ → ℕ) (regress : ℕ × ℕ → List ℝ → Except PyErr D)
    (h : ¬ ∃ d l c : ℤ, P.delays = some d ∧ P.lag = some l ∧ P.numChaos = some c ∧
      1 ≤ d ∧ 1 ≤ l ∧ 1 ≤ c) :
    fit P st shape t rank regress = (st, .error .valueError) := by
  unfold fit
  rw [if_pos]
  intro hc
  apply h
  cases hd : P.delays <;> cases hl : P.lag <;> cases hn : P.numChaos <;> simp [hd, hl, hn, posInt] at hc
  exact ⟨_, _, _, rfl, rfl, rfl, hc.1.1, hc.1.2, hc.2⟩

/-- **C111** (failure; partial). A call that raises leaves everything but `r` as it was. -/
theorem C111_failure_partial (P : Params) (st : State D) (shape : List ℕ) (t : TimeArg)
    (rank : ℕ × ℕ → ℕ) (regress : ℕ × ℕ → List ℝ → Except PyErr D) (e : PyErr)
    (h : (fit P st shape t rank regress).2 = .error e) :
    (fit P st shape t rank regress).1.data = st.data := by
  unfold fit at h ⊢
  by_cases h1 : ¬(posInt P.delays && posInt P.lag && posInt P.numChaos)
  · rw [if_pos h1]
  · rw [if_neg h1] at h ⊢
    cases hd : dataShape shape with
    | error e => simp
    | ok nm =>
      rw [hd] at h
      simp only at h ⊢
      cases hh : hankelCheck (P.delays.getD 0) (P.lag.getD 0) nm.2 with
      | error e => simp
      | ok _ =>
        rw [hh] at h
        simp only at h ⊢
        cases ht : timeVector nm.2 t with
        | error e => simp
        | ok time =>
          rw [ht] at h
          simp only at h ⊢
          split_ifs at h ⊢
          · rfl
          · cases hg : regress nm time with
            | error e => rfl
            | ok d => rw [hg] at h; simp at h

/-- **C111** is false for `r`: on valid data of too small a rank the call raises `ValueError`, the
former model stays, and `r` is the rank of the rejected data. -/
theorem C111_rank_false {P : Params} {shape : List ℕ} {n m : ℕ} (h : Valid P shape n m) (c : ℕ)
    (hc : P.numChaos = some (c : ℤ)) (st : State D) (t : TimeArg) (time : List ℝ)
    (ht : timeVector m t = .ok time) (rank : ℕ × ℕ → ℕ) (hr : rank (n, m) ≤ c)
    (regress : ℕ × ℕ → List ℝ → Except PyErr D) :
    (fit P st shape t rank regress).2 = .error .valueError ∧
      (fit P st shape t rank regress).1.read = st.read ∧
      (fit P st shape t rank regress).1.rank = .ok (rank (n, m)) := by
  rw [fit_valid h, hc, ht]
  simp only [Option.getD_some]
  rw [if_pos (by omega)]
  exact ⟨rfl, rfl, rfl⟩

/-- **C111**: before the first successful fit the accessors raise `ValueError`, except that `r`
answers after a fit that was rejected for its rank. -/
theorem C111_unfitted : (State.new D).read = .error .valueError ∧
    (State.new D).rank = .error .valueError := ⟨rfl, rfl⟩

/-- A fit of 3 delays on ten snapshots of two features, stored with a dimension of size 1. -/
example : Valid ⟨some 3, some 2, some 1, false⟩ [1, 2, 10] 2 10 :=
  ⟨⟨3, 2, 1, rfl, rfl, rfl, by norm_num, by norm_num, by norm_num, by norm_num⟩, Or.inl (by decide)⟩

end Verif.HavokFit
