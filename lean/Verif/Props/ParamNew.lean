import Verif.Props.Param
import Mathlib.Algebra.BigOperators.Ring.Finset
import Mathlib.Algebra.BigOperators.Group.List.Basic
import Mathlib.Algebra.Order.Field.Rat
import Mathlib.Tactic

/-!
# C112: parametric DMD at new parameters
-/

set_option autoImplicit false

namespace Verif.Param

open Verif

variable {K D W V : Type}

/-- The interpolator treats every new parameter by itself: row `i` of the prediction is `f` of the
training set, the coefficients of the instant and the `i`-th parameter. -/
def PointwiseInterp (interp : List (List V) → T2 K → List (List V) → Except PyErr (T2 K))
    (f : List (List V) → T2 K → List V → ℕ → K) : Prop :=
  ∀ train S qs, ∃ R, interp train S qs = .ok R ∧ R.rows = qs.length ∧ R.cols = S.cols ∧
    ∀ (i s : ℕ) q, qs[i]? = some q → s < S.cols → R.get i s = f train S q s

/-- A state in which the forecast coefficients of `k` training parameters `train`, `r` for each, are
known at `T` instants: `c p s t`. -/
structure Forecasts (cls : DmdClass D W K) (o : PDmd D V K) (train : List (List V)) (pod : Pod K)
    (k r T : ℕ) (c : ℕ → ℕ → ℕ → K) : Prop where
  pos : 0 < k
  instants : 0 < T
  forecast : ∃ M o', o.predictCoefficients cls = (.ok M, o') ∧ M.rows = k * r ∧ M.cols = T ∧
    (∀ p s t : ℕ, p < k → s < r → t < T → M.get (p * r + s) t = c p s t)
  ntrain : o.ntrain = some k
  training : o.trainingParameters = some train
  pod : o.pod = some pod

theorem predict_keeps (cls : DmdClass D W K) (o o' : PDmd D V K) (x : Except PyErr (T2 K))
    (h : o.predictCoefficients cls = (x, o')) :
    o'.ntrain = o.ntrain ∧ o'.trainingParameters = o.trainingParameters ∧
      o'.parameters = o.parameters ∧ o'.pod = o.pod := by
  obtain ⟨dmd, light, tp, pr, nt, pod, co⟩ := o
  cases dmd with
  | mono d => simp only [PDmd.predictCoefficients, Prod.mk.injEq] at h; rw [← h.2]; simp
  | part ds =>
    cases ds with
    | nil => simp only [PDmd.predictCoefficients, Prod.mk.injEq] at h; rw [← h.2]; simp
    | cons d ds =>
      simp only [PDmd.predictCoefficients] at h
      cases hg : cls.getTime d with
      | error e => simp only [hg, Prod.mk.injEq] at h; rw [← h.2]; simp
      | ok w => simp only [hg, Prod.mk.injEq] at h; rw [← h.2]; simp

/-- **C112** (one parameter at a time). With an interpolator that treats parameters one by one, the
prediction has one block per parameter asked for, and each block is the expansion of the interpolated
coefficients of that parameter: it depends on no other parameter asked for. `f` is applied to the
matrix whose row `p` holds the forecast coefficients of training parameter `p` at the instant. -/
theorem C112_pointwise [Inhabited K] (cls : DmdClass D W K)
    (interp : List (List V) → T2 K → List (List V) → Except PyErr (T2 K))
    (f : List (List V) → T2 K → List V → ℕ → K) (hi : PointwiseInterp interp f)
    (hext : ∀ train (S S' : T2 K) q s, S.Same S' → s < S.cols → f train S q s = f train S' q s)
    (o : PDmd D V K) (train : List (List V)) (pod : Pod K) (k r T : ℕ) (c : ℕ → ℕ → ℕ → K)
    (H : Forecasts cls o train pod k r T c) (qs : List (List V)) (hq : o.parameters = some qs)
    (hne : qs ≠ []) :
    ∃ R, (o.reconstructedData cls interp).1 = .ok R ∧ R.d0 = qs.length ∧ R.d2 = T ∧
      (∀ q, qs[0]? = some q →
        R.d1 = (pod.expand ((List.range r).map (f train ⟨k, r, fun p s => c p s 0⟩ q))).length) ∧
      ∀ (i s t : ℕ) q, qs[i]? = some q → t < T → R.get i s t =
        (pod.expand ((List.range r).map (f train ⟨k, r, fun p s => c p s t⟩ q))).getD s default := by
  obtain ⟨M, o', hM, hr, hc, hget⟩ := H.forecast
  obtain ⟨k1, k2, k3, k4⟩ := predict_keeps cls o o' _ hM
  obtain ⟨q0, qt, hqq⟩ := List.exists_cons_of_ne_nil hne
  have hdiv : k * r / k = r := Nat.mul_div_cancel_left _ H.pos
  have hI : ∀ t : ℕ, ∃ R, interp train ⟨k, r, fun p s => M.get (p * r + s) t⟩ qs = .ok R ∧
      R.rows = qs.length ∧ R.cols = r ∧ ∀ (i s : ℕ) q, qs[i]? = some q → s < r →
        R.get i s = f train ⟨k, r, fun p s => M.get (p * r + s) t⟩ q s := fun t => hi train _ qs
  choose I hI1 hI2 hI3 hI4 using hI
  have hmap : ((List.range T).map fun t => (⟨k, r, fun p s => M.get (p * r + s) t⟩ : T2 K)).mapM
      (fun s => interp train s qs) = .ok ((List.range T).map I) := by
    apply mapM_ok
    · simp
    · intro t a b ha hb
      simp only [List.getElem?_map, Option.map_eq_some_iff] at ha hb
      obtain ⟨x, hx, rfl⟩ := ha
      obtain ⟨y, hy, rfl⟩ := hb
      rw [hx] at hy
      cases hy
      exact hI1 x
  have hcons : (List.range T).map I = I 0 :: (List.range (T - 1)).map (fun t => I (t + 1)) := by
    obtain ⟨n, hn⟩ : ∃ n, T = n + 1 := ⟨T - 1, by have := H.instants; omega⟩
    rw [hn, List.range_succ_eq_map]
    simp [Function.comp_def]
  have hint : o'.interpolate interp M = dstack ((List.range T).map I) := by
    unfold PDmd.interpolate
    rw [k3, hq, hqq]
    simp only [k1, k2, H.ntrain, H.training, Option.getD_some]
    rw [T2.reshape3, if_neg (by
      have h1 := H.pos; have h2 := H.instants
      rw [hr, hc]; simp; omega)]
    simp only [bind, Except.bind, rollShape, T3.swap02, T3.swap12, hr, hc, hdiv]
    rw [← hqq]
    rw [hmap]
  rw [hcons] at hint
  have hIget : ∀ t : ℕ, t < T → (I 0 :: (List.range (T - 1)).map (fun t => I (t + 1))).getD t
      (I 0) = I t := by
    intro t ht
    rw [← hcons]
    simp [List.getD, ht]
  unfold PDmd.reconstructedData
  rw [hM]
  simp only [hint, dstack, k4, H.pod]
  refine ⟨_, rfl, hI2 0, ?_, ?_, ?_⟩
  · have := H.instants; simp; omega
  · intro q hqi
    simp only [T3.along1]
    rw [hIget 0 H.instants, hI3 0]
    congr 2
    apply List.map_congr_left
    intro j hj
    rw [List.mem_range] at hj
    rw [hI4 0 0 j q hqi hj]
    exact hext train _ _ q j ⟨rfl, rfl, fun p s hp hs => hget p s 0 hp hs H.instants⟩ hj
  · intro i s t q hqi ht
    simp only [T3.along1]
    rw [hIget t ht, hI3 0]
    congr 2
    apply List.map_congr_left
    intro j hj
    rw [List.mem_range] at hj
    rw [hI4 t i j q hqi hj]
    exact hext train _ _ q j ⟨rfl, rfl, fun p s hp hs => hget p s t hp hs ht⟩ hj

/-- **C112**: the prediction for a parameter is the same whatever else is asked for, and in whatever
order. -/
theorem C112_independent [Inhabited K] (cls : DmdClass D W K)
    (interp : List (List V) → T2 K → List (List V) → Except PyErr (T2 K))
    (f : List (List V) → T2 K → List V → ℕ → K) (hi : PointwiseInterp interp f)
    (hext : ∀ train (S S' : T2 K) q s, S.Same S' → s < S.cols → f train S q s = f train S' q s)
    (o : PDmd D V K) (train : List (List V)) (pod : Pod K) (k r T : ℕ) (c : ℕ → ℕ → ℕ → K)
    (H : Forecasts cls o train pod k r T c) (qs qs' : List (List V)) (i i' : ℕ) (q : List V)
    (h1 : qs[i]? = some q) (h2 : qs'[i']? = some q) :
    ∃ R R', (({ o with parameters := some qs } : PDmd D V K).reconstructedData cls interp).1 = .ok R ∧
      (({ o with parameters := some qs' } : PDmd D V K).reconstructedData cls interp).1 = .ok R' ∧
      ∀ s t : ℕ, t < T → R.get i s t = R'.get i' s t := by
  have key : ∀ qs : List (List V), Forecasts cls { o with parameters := some qs } train pod k r T c := by
    intro qs
    refine ⟨H.pos, H.instants, ?_, H.ntrain, H.training, H.pod⟩
    obtain ⟨M, o', hM, hr⟩ := H.forecast
    refine ⟨M, { o' with parameters := some qs }, ?_, hr⟩
    obtain ⟨dmd, light, tp, pr, nt, pod, co⟩ := o
    cases dmd with
    | mono d =>
      simp only [PDmd.predictCoefficients, Prod.mk.injEq] at hM ⊢
      exact ⟨hM.1, by rw [← hM.2]⟩
    | part ds =>
      cases ds with
      | nil => simp [PDmd.predictCoefficients] at hM
      | cons d ds =>
        simp only [PDmd.predictCoefficients] at hM ⊢
        cases hg : cls.getTime d with
        | error e => simp [hg] at hM
        | ok w =>
          simp only [hg, Prod.mk.injEq] at hM ⊢
          exact ⟨hM.1, by rw [← hM.2]⟩
  obtain ⟨R, a1, -, -, -, a2⟩ := C112_pointwise cls interp f hi hext _ train pod k r T c (key qs) qs rfl
    (by rintro rfl; simp at h1)
  obtain ⟨R', b1, -, -, -, b2⟩ := C112_pointwise cls interp f hi hext _ train pod k r T c (key qs') qs' rfl
    (by rintro rfl; simp at h2)
  exact ⟨R, R', a1, b1, fun s t ht => by rw [a2 i s t q h1 ht, b2 i' s t q h2 ht]⟩

/-- **C112** (linear interpolators). If the interpolated value is a combination of the training values
with weights `w p q` that depend on the parameters only (as for linear, spline or radial basis
interpolation), if expanding is linear, `Φ`, and if the forecasts of the training parameters expand to
`Y p s t`, then the prediction for `q` is the same combination `∑ p, w p q * Y p s t` of the training
forecasts: interpolating the coefficients is interpolating the states. -/
theorem C112_linear [Field K] [Inhabited K] (cls : DmdClass D W K)
    (interp : List (List V) → T2 K → List (List V) → Except PyErr (T2 K))
    (w : List (List V) → ℕ → List V → K)
    (hi : PointwiseInterp interp fun train S q s =>
      ∑ p ∈ Finset.range S.rows, w train p q * S.get p s)
    (o : PDmd D V K) (train : List (List V)) (pod : Pod K) (k r m T : ℕ) (c : ℕ → ℕ → ℕ → K)
    (H : Forecasts cls o train pod k r T c) (qs : List (List V)) (hq : o.parameters = some qs)
    (hne : qs ≠ []) (Φ : ℕ → ℕ → K)
    (hΦ : ∀ v : ℕ → K, pod.expand ((List.range r).map v) =
      (List.range m).map fun s => ∑ j ∈ Finset.range r, Φ s j * v j)
    (Y : ℕ → ℕ → ℕ → K) (hY : ∀ p s t : ℕ, p < k → s < m → t < T →
      Y p s t = ∑ j ∈ Finset.range r, Φ s j * c p j t) :
    ∃ R, (o.reconstructedData cls interp).1 = .ok R ∧ R.d0 = qs.length ∧ R.d2 = T ∧
      ∀ (i s t : ℕ) q, qs[i]? = some q → s < m → t < T →
        R.get i s t = ∑ p ∈ Finset.range k, w train p q * Y p s t := by
  obtain ⟨R, h1, h2, h3, -, h4⟩ := C112_pointwise cls interp _ hi
    (fun train S S' q s hS hs => by
      simp only [hS.1]
      apply Finset.sum_congr rfl
      intro p hp
      rw [Finset.mem_range] at hp
      rw [hS.2.2 p s (by rw [hS.1]; exact hp) hs]) o train pod k r T c H qs hq hne
  refine ⟨R, h1, h2, h3, fun i s t q hqi hs ht => ?_⟩
  rw [h4 i s t q hqi ht, hΦ]
  simp only [List.getD_eq_getElem?_getD, List.getElem?_map, List.getElem?_range hs, Option.map_some,
    Option.getD_some]
  simp only [Finset.mul_sum]
  rw [Finset.sum_comm]
  apply Finset.sum_congr rfl
  intro p hp
  rw [Finset.mem_range] at hp
  rw [hY p s t hp hs ht, Finset.mul_sum]
  apply Finset.sum_congr rfl
  intro j _
  ring

/-- **C112** is false for one parameter with several components given as a flat list: it is taken as
several parameters with one component each, whatever the training parameters look like. -/
theorem C112_flat_false (o : PDmd D V K) (q : List V) (h : 2 ≤ q.length) :
    ∃ o', o.setParameters (.one q) = (.ok (), o') ∧
      (∃ ps, o'.parameters = some ps ∧ ps.length = q.length ∧ ∀ p ∈ ps, p.length = 1) ∧
      o'.parameters ≠ some [q] := by
  refine ⟨_, rfl, ⟨_, rfl, by simp, ?_⟩, ?_⟩
  · intro p hp
    rw [List.mem_map] at hp
    obtain ⟨x, -, rfl⟩ := hp
    rfl
  · intro hc
    simp only [Option.some.injEq] at hc
    have := congrArg List.length hc
    simp at this
    omega

/-- Linear interpolation between two training parameters `0` and `1`, on rationals. -/
def lin2 : List (List ℚ) → T2 ℚ → List (List ℚ) → Except PyErr (T2 ℚ) := fun _ S qs =>
  .ok ⟨qs.length, S.cols, fun i s =>
    ∑ p ∈ Finset.range S.rows, (if p = 0 then 1 - (qs.getD i []).getD 0 0
      else if p = 1 then (qs.getD i []).getD 0 0 else 0) * S.get p s⟩

/-- It is an interpolator of the kind `C112_linear` is about. -/
example : PointwiseInterp lin2 fun _ S q s =>
    ∑ p ∈ Finset.range S.rows, (if p = 0 then 1 - q.getD 0 0
      else if p = 1 then q.getD 0 0 else 0) * S.get p s := by
  intro train S qs
  refine ⟨_, rfl, rfl, rfl, fun i s q hq _ => ?_⟩
  simp only [List.getD_eq_getElem?_getD, hq, Option.getD_some]

/-- A DMD that returns its data. -/
def echo : DmdClass (T2 ℚ) Unit ℚ := ⟨fun M _ => .ok M, fun _ => .ok (), fun _ d => d, fun d => .ok d⟩

/-- After a fit on two parameters, one space point and three instants, the state is one of those the
theorems speak of. -/
example : ∃ o : PDmd (T2 ℚ) ℚ ℚ,
    PDmd.fit echo (fun _ => ⟨id, id⟩) ⟨.mono ⟨0, 0, fun _ _ => 0⟩, false, none, none, none, none, none⟩
      ⟨2, 1, 3, fun p _ t => 10 * p + t⟩ (.one [0, 1]) 0 = (.ok (), o) ∧
    Forecasts echo o [[0], [1]] ⟨id, id⟩ 2 1 3 (fun p _ t => 10 * p + t) := by
  refine ⟨_, rfl, by norm_num, by norm_num, ⟨_, _, rfl, rfl, rfl, ?_⟩, rfl, rfl, rfl⟩
  intro p s t hp hs ht
  interval_cases p <;> interval_cases s <;> interval_cases t <;> decide +kernel

end Verif.Param
