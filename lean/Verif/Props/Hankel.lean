import Verif.Lemmas.Hankel
import Mathlib.Tactic.IntervalCases

/-!
# Properties C21, C22, C23, C56: delay embedding
-/

set_option autoImplicit false

namespace Verif.Hankel

open Verif

variable {K : Type}

/-- **C21.** For a matrix with `n` rows, `T` columns and `1 ≤ d ≤ T`, the Hankel matrix has
`T - d + 1` columns of `d * n` entries, and the entry in block row `j`, row `i`, column `c` is
`X[i, c + j]`. A larger `d` raises `ValueError`. -/
theorem C21_entries (n d : ℕ) (X : List (List K)) (h : ∀ x ∈ X, x.length = n) :
    (d ≤ X.length → ∃ H, pseudoHankel X d = .ok H ∧ H.length = X.length - d + 1 ∧
      (∀ col ∈ H, col.length = d * n) ∧
      ∀ (c j i : ℕ), c < X.length - d + 1 → j < d → i < n →
        ∃ col x v, H[c]? = some col ∧ X[c + j]? = some x ∧ x[i]? = some v ∧
          col[j * n + i]? = some v) ∧
    (X.length < d → pseudoHankel X d = .error .valueError) := by
  refine ⟨fun hT => ?_, fun hT => by simp [pseudoHankel, hT]⟩
  have hsub : ∀ c, ∀ x ∈ (X.drop c).take d, x.length = n := fun c x hx =>
    h x (List.mem_of_mem_drop (List.mem_of_mem_take hx))
  have hlen : ∀ c, c < X.length - d + 1 → ((X.drop c).take d).length = d := by
    intro c hc
    rw [List.length_take, List.length_drop]
    omega
  refine ⟨(List.range (X.length - d + 1)).map fun c => ((X.drop c).take d).flatten,
    by rw [pseudoHankel, if_neg (by omega)], by simp, ?_, ?_⟩
  · intro col hcol
    obtain ⟨c, hc, rfl⟩ := List.mem_map.mp hcol
    rw [List.mem_range] at hc
    rw [flatten_uniform_length n _ (hsub c), hlen c hc]
  · intro c j i hc hj hi
    have hcj : c + j < X.length := by omega
    have hx : (X[c + j]).length = n := h _ (List.getElem_mem _)
    refine ⟨((X.drop c).take d).flatten, X[c + j], (X[c + j])[i]'(by rw [hx]; exact hi), ?_,
      List.getElem?_eq_getElem hcj, List.getElem?_eq_getElem _, ?_⟩
    · rw [List.getElem?_map, List.getElem?_range hc, Option.map_some]
    · rw [getElem?_flatten_uniform n _ (hsub c) j i (by rw [hlen c hc]; exact hj) hi,
        List.getElem_take, List.getElem_drop, List.getElem?_eq_getElem]

example : pseudoHankel [[1, 4], [2, 5], [3, 6]] 2 = .ok [[1, 4, 2, 5], [2, 5, 3, 6]] := by decide

/-- The reconstruction methods of C22: `'first'`, `'mean'`, or `d` weights for which the weights
of the versions available at every time instant `t < T` (blocks `j` of existing columns
`t - j`) do not add up to zero. -/
def Admissible [Field K] (m : Method K) (d T : ℕ) : Prop :=
  match m with
  | .first => True
  | .mean => True
  | .weights w => w.length = d ∧ ∀ t < T,
      (((List.range d).filter fun j => j ≤ t ∧ t - j < T - d + 1).map fun j => w.getD j 0).sum ≠ 0
  | _ => False

/-- **C22.** Post-processing the Hankel matrix of `X` returns `X`, for `'first'`, `'mean'` and
admissible weights, all `1 ≤ d ≤ T` and all `X`. -/
theorem C22_post_pre [Field K] [CharZero K] [DecidableEq K] (m : Method K) (n d : ℕ)
    (X : List (List K)) (h : ∀ x ∈ X, x.length = n) (hd : 0 < d) (hT : d ≤ X.length)
    (hm : Admissible m d X.length) : (pseudoHankel X d).bind (post m d) = .ok X := by
  have hH : pseudoHankel X d =
      .ok ((List.range (X.length - d + 1)).map fun c => ((X.drop c).take d).flatten) := by
    rw [pseudoHankel, if_neg (by omega)]
  rw [hH]
  have hspace : ((((List.range (X.length - d + 1)).map fun c =>
      ((X.drop c).take d).flatten).headD []).length / d) = n := by
    have e : ((List.range (X.length - d + 1)).map fun c => ((X.drop c).take d).flatten).headD [] =
        ((X.drop 0).take d).flatten := by
      rw [List.range_succ_eq_map]; rfl
    have hl : ((X.drop 0).take d).length = d := by
      rw [List.length_take, List.length_drop]; omega
    rw [e, flatten_uniform_length n _ (fun x hx =>
      h x (List.mem_of_mem_drop (List.mem_of_mem_take hx))), hl, Nat.mul_div_cancel_left _ hd]
  have havg : ∀ w : List K, w.length = d → (∀ t < X.length,
      (((List.range d).filter fun j => j ≤ t ∧ t - j < X.length - d + 1).map
        fun j => w.getD j 0).sum ≠ 0) →
      ((List.range X.length).map fun t => (List.range d).map fun j =>
        if j ≤ t ∧ t - j < X.length - d + 1 then X[t]? else none).map
        (fun v => average n w v) = X := by
    intro w hwl hw
    apply List.ext_getElem?
    intro t
    rw [List.map_map, List.getElem?_map]
    by_cases ht : t < X.length
    · have hx : (X[t]).length = n := h _ (List.getElem_mem _)
      rw [List.getElem?_range ht, Option.map_some, List.getElem?_eq_getElem ht, Function.comp,
        ← hx]
      congr 1
      apply average_const
      · intro v hv
        obtain ⟨j, -, rfl⟩ := List.mem_map.mp hv
        by_cases hp : j ≤ t ∧ t - j < X.length - d + 1
        · rw [if_pos hp]; exact Or.inl (List.getElem?_eq_getElem ht)
        · rw [if_neg hp]; exact Or.inr rfl
      · rw [List.getElem?_eq_getElem ht,
          wtotal_eq w d hwl (fun j => j ≤ t ∧ t - j < X.length - d + 1)]
        exact hw t ht
    · rw [List.getElem?_eq_none (by simpa using ht), List.getElem?_eq_none (by omega)]
      rfl
  simp only [Except.bind, post, versions_hankel n d X h hd hT, hspace]
  match m, hm with
  | .first, _ =>
    simp only []
    congr 1
    apply List.ext_getElem?
    intro t
    rw [List.getElem?_mapIdx, List.getElem?_map]
    by_cases ht : t < X.length
    · rw [List.getElem?_range ht, Option.map_some, Option.map_some, List.getElem?_eq_getElem ht]
      have hj : min t (d - 1) < d := by omega
      rw [firstVersion, List.getElem?_map, List.getElem?_range hj, Option.map_some,
        if_pos (by omega)]
      rfl
    · rw [List.getElem?_eq_none (by simpa using ht), List.getElem?_eq_none (by omega)]
      rfl
  | .mean, _ =>
    simp only []
    congr 1
    refine havg _ (by simp) fun t ht => ?_
    have e : (((List.range d).filter fun j => j ≤ t ∧ t - j < X.length - d + 1).map
        fun j => (List.replicate d (1 : K)).getD j 0) =
        ((List.range d).filter fun j => j ≤ t ∧ t - j < X.length - d + 1).map fun _ => 1 := by
      apply List.map_congr_left
      intro j hj
      have := List.mem_range.mp (List.mem_of_mem_filter hj)
      simp [List.getD, List.getElem?_replicate, this]
    rw [e]
    simp only [List.map_const', List.sum_replicate, nsmul_eq_mul, mul_one]
    have hpos : 0 < ((List.range d).filter fun j => j ≤ t ∧ t - j < X.length - d + 1).length := by
      apply List.length_pos_of_mem (a := min t (d - 1))
      rw [List.mem_filter, List.mem_range, decide_eq_true_iff]
      omega
    exact Nat.cast_ne_zero.mpr (by omega)
  | .weights w, hm =>
    simp only []
    rw [if_neg (by simp [hm.1])]
    congr 1
    exact havg w hm.1 hm.2

/-- **C22**, the condition on the weights is needed: where the available weights add up to zero
the code returns 0. Unknown methods raise. -/
theorem C22_rejections [Field K] [DecidableEq K] (d : ℕ) (Y : List (List K)) (w : List K) :
    (w.length ≠ d → post (.weights w) d Y = .error .valueError ∧
      initCheck (.weights w) d = .error .valueError) ∧
    post .other d Y = .error .valueError ∧ post .otherStr d Y = .error .unboundLocalError := by
  refine ⟨fun h => ⟨by simp [post, h], by simp [initCheck, h]⟩, rfl, rfl⟩

example : (pseudoHankel [[5], [6], [7]] 2).bind (post (.weights [0, (1 : ℚ)]) 2) =
    .ok [[0], [6], [7]] := by decide +kernel

example : Admissible (.weights [1 / 2, (1 : ℚ) / 2]) 2 3 := by
  refine ⟨rfl, fun t ht => ?_⟩
  interval_cases t <;> decide +kernel

/-- What C23 asks of the reconstruction method: it is admissible for every window. -/
def AlwaysAdmissible [Field K] (m : Method K) (d : ℕ) : Prop := ∀ T, d ≤ T → Admissible m d T

/-- **C23** (partial). Let the wrapped DMD reconstruct, over any window `a, …, b` of indices, delay
vectors of a signal `y`. With `original_time` starting at 0 with step `dt`, and `dmd_time` running
from `a * dt` to `b * dt` (`0 ≤ a ≤ b`) with the same step, `HankelDMD.reconstructed_data` has
exactly one column per timestep and column `i` is `y` at that timestep. Windows may reach any
distance beyond the training window. Missing: windows before the training window, steps
other than the original one, and `original_time["t0"] ≠ 0`, refuted below. -/
theorem C23_window_partial [Field K] [CharZero K] [DecidableEq K] (m : Method K) (n d : ℕ)
    (hd : 0 < d) (hm : AlwaysAdmissible m d) (y : ℕ → List K) (hy : ∀ t, (y t).length = n)
    (inner : Time.Window → Except PyErr (List (List K)))
    (hin : ∀ a b : ℕ, a ≤ b → inner ⟨a, b, 1⟩ = .ok ((List.range (b - a + 1)).map fun i =>
      ((List.range d).map fun j => y (a + i + j)).flatten))
    (dt : ℚ) (hdt : 0 < dt) (tend : ℚ) (a b : ℕ) (hab : a ≤ b) :
    reconstructedData m d ⟨0, tend, dt⟩ ⟨a * dt, b * dt, dt⟩ inner =
      .ok ((List.range (b - a + 1)).map fun i => y (a + i)) := by
  have hne : dt ≠ 0 := ne_of_gt hdt
  have hfl : ∀ k : ℕ, ⌊((k : ℚ) * dt - 0) / dt⌋ = (k : ℤ) := by
    intro k
    rw [sub_zero, mul_div_cancel_right₀ _ hne]
    exact Int.floor_natCast k
  have hocc : ∀ k : ℕ, firstOccurrence ⟨0, tend, dt⟩ ⟨a * dt, b * dt, dt⟩ d (k * dt) =
      ((k - (d - 1) : ℕ) : ℚ) := by
    intro k
    simp only [firstOccurrence, hfl k]
    rcases Nat.le_total (d - 1) k with h | h
    · rw [max_eq_right]
      · rw [Nat.cast_sub h, Nat.cast_sub hd]; push_cast; ring
      · have : ((d - 1 : ℕ) : ℚ) ≤ k := by exact_mod_cast h
        rw [Nat.cast_sub hd] at this
        push_cast at this ⊢
        linarith
    · rw [max_eq_left, Nat.sub_eq_zero_of_le h]
      · simp
      · have : (k : ℚ) ≤ ((d - 1 : ℕ) : ℚ) := by exact_mod_cast h
        rw [Nat.cast_sub hd] at this
        push_cast at this ⊢
        linarith
  have hsub : subWindow ⟨0, tend, dt⟩ ⟨a * dt, b * dt, dt⟩ d =
      ⟨((a - (d - 1) : ℕ) : ℚ), ((b - (d - 1) : ℕ) : ℚ), 1⟩ := by
    simp only [subWindow, hocc]
  have hts : ∃ ts, Time.Window.timesteps ⟨a * dt, b * dt, dt⟩ = .ok ts ∧
      ts.length = b - a + 1 := by
    simp only [Time.Window.timesteps, Time.arange, if_neg hne]
    refine ⟨_, rfl, ?_⟩
    rw [List.length_map, List.length_range]
    have : ((b : ℚ) * dt + dt - a * dt) / dt = ((b - a + 1 : ℕ) : ℚ) := by
      rw [Nat.cast_add, Nat.cast_sub hab]
      field_simp
      push_cast
      ring
    rw [this, Int.ceil_natCast, Int.toNat_natCast]
  obtain ⟨ts, hts, htl⟩ := hts
  -- the post-processed wrapped reconstruction is `y` from `A = a - (d - 1)` on
  set A := a - (d - 1) with hA
  set B := b - (d - 1) with hB
  have hAB : A ≤ B := by omega
  have hpost : post m d ((List.range (B - A + 1)).map fun i =>
      ((List.range d).map fun j => y (A + i + j)).flatten) =
      .ok ((List.range (B - A + d)).map fun i => y (A + i)) := by
    have hX := C22_post_pre m n d ((List.range (B - A + d)).map fun i => y (A + i))
      (by
        intro x hx
        obtain ⟨i, -, rfl⟩ := List.mem_map.mp hx
        exact hy _) hd (by simp) (hm _ (by simp))
    rw [← hX, pseudoHankel, if_neg (by simp)]
    simp only [Except.bind]
    congr 1
    rw [List.length_map, List.length_range, Nat.add_sub_cancel]
    apply List.map_congr_left
    intro c hc
    rw [List.mem_range] at hc
    congr 1
    apply List.ext_getElem?
    intro j
    by_cases hj : j < d
    · rw [List.getElem?_map, List.getElem?_range hj, List.getElem?_take, if_pos hj,
        List.getElem?_drop, List.getElem?_map, List.getElem?_range (by omega)]
      simp [Nat.add_assoc]
    · rw [List.getElem?_eq_none (by simpa using hj),
        List.getElem?_eq_none (by simp; omega)]
  have hti : min ((d : ℤ) - 1) ⌊(((a : ℚ) * dt) - 0) / dt⌋ = ((min (d - 1) a : ℕ) : ℤ) := by
    rw [hfl]
    omega
  simp only [reconstructedData, hts, hsub, hin A B hAB, hpost, bind, Except.bind, pure,
    Except.pure, hti, htl]
  congr 1
  unfold pySlice
  simp only []
  rw [if_neg (by omega), if_neg (by omega)]
  apply List.ext_getElem?
  intro i
  rw [List.getElem?_drop, List.getElem?_take]
  by_cases hi : i < b - a + 1
  · rw [if_pos (by omega), List.getElem?_map, List.getElem?_map, List.getElem?_range hi,
      List.getElem?_range (by omega)]
    simp only [Option.map_some]
    congr 2
    omega
  · rw [if_neg (by omega), List.getElem?_eq_none (by simp; omega)]

/-- A wrapped DMD that is exact for every window: the delay vectors (`d = 1`) of the signal
`y(t) = t`. -/
def exactInner : Time.Window → Except PyErr (List (List ℚ)) :=
  fun w => w.timesteps.map fun ts => ts.map fun t => [t]

/-- The hypotheses of `C23_window_partial` are met by this DMD. -/
example (a b : ℕ) (hab : a ≤ b) : exactInner ⟨a, b, 1⟩ = .ok ((List.range (b - a + 1)).map fun i =>
    ((List.range 1).map fun j => [((a + i + j : ℕ) : ℚ)]).flatten) := by
  have : ((b : ℚ) + 1 - a) / 1 = ((b - a + 1 : ℕ) : ℚ) := by
    rw [Nat.cast_add, Nat.cast_sub hab]; push_cast; ring
  simp [exactInner, Time.Window.timesteps, Time.arange, Except.map, -div_one, this, Function.comp_def]

/-- **C23** fails for a window before the training window: `dmd_time` from -2 to 0 has three
timesteps, but one column is returned. -/
theorem C23_before_training_false :
    (Time.Window.timesteps ⟨-2, 0, 1⟩).map List.length = .ok 3 ∧
    reconstructedData .first 1 ⟨0, 4, 1⟩ ⟨-2, 0, 1⟩ exactInner = .ok [[0]] := by
  constructor <;> decide +kernel

/-- **C23** fails for a coarser step: with `dmd_time["dt"] = 2` the columns are the states at
`0, 1, 2, …` instead of `0, 2, 4, …`. -/
theorem C23_coarser_step_false :
    Time.Window.timesteps ⟨0, 8, 2⟩ = .ok [0, 2, 4, 6, 8] ∧
    reconstructedData .first 1 ⟨0, 8, 1⟩ ⟨0, 8, 2⟩ exactInner = .ok [[0], [1], [2], [3], [4]] := by
  constructor <;> decide +kernel

/-- **C23** fails when the training window does not start at 0: `original_time` and `dmd_time`
both from 10 to 13 give one column instead of four (the wrapped DMD counts from 0). -/
theorem C23_shifted_origin_false :
    (Time.Window.timesteps ⟨10, 13, 1⟩).map List.length = .ok 4 ∧
    reconstructedData .first 1 ⟨10, 13, 1⟩ ⟨10, 13, 1⟩ exactInner = .ok [[0]] := by
  constructor <;> decide +kernel

/-- **C56** (partial). `HankelDMD.fit` passes its argument unflattened to the Hankel
pre-processing, so among the arguments accepted by `Snapshots` (C20) exactly the two-dimensional
arrays get through. -/
theorem C56_hankel_input_partial (x : Snap.Input K) :
    acceptsInput x = .ok () ↔ ∃ n T data, x = .array ⟨[n, T], data⟩ := by
  constructor
  · intro h
    match x with
    | .list l => simp [acceptsInput] at h
    | .array ⟨shape, data⟩ =>
      have hl : shape.length = 2 := by
        by_contra hne
        simp [acceptsInput, hne] at h
      match shape, hl with
      | [n, T], _ => exact ⟨n, T, data, rfl⟩
  · rintro ⟨n, T, data, rfl⟩
    rfl

/-- **C56** fails: two 2x2 snapshots, as a three-dimensional array or as a list, are accepted by
`Snapshots` and hence by `DMD.fit`, but not by `HankelDMD.fit`. -/
theorem C56_hankel_input_false :
    ∃ a l : Snap.Input ℤ, (Snap.init a).isOk = true ∧ (Snap.init l).isOk = true ∧
      acceptsInput a = .error .valueError ∧ acceptsInput l = .error .attributeError :=
  ⟨.array ⟨[2, 2, 2], [1, 2, 3, 4, 5, 6, 7, 8]⟩,
    .list [⟨[2, 2], [1, 3, 5, 7]⟩, ⟨[2, 2], [2, 4, 6, 8]⟩], by decide, by decide, rfl, rfl⟩

end Verif.Hankel
