import Verif.Lemmas.MrLeaves
import Mathlib.Analysis.SpecialFunctions.Complex.Arg
import Mathlib.Analysis.SpecialFunctions.Complex.LogBounds
import Mathlib.Analysis.Real.Pi.Bounds
import Batteries.Lean.Except

/-!
# C94-C96: windows of the leaves, slow modes and accessors of `MrDMD`
-/

set_option autoImplicit false

namespace Verif.MrDMD

open Verif

/-! ### C94: the time interval of a leaf and the snapshots it is fitted on -/

theorem pieces_range_mem (ss : List ℕ) (s0 n j k : ℕ) (hn : s0 + ss.sum = n) (hj : j < ss.length) :
    k ∈ (pieces ss ((List.range n).drop s0)).getD j [] ↔
      s0 + (ss.take j).sum ≤ k ∧ k < s0 + (ss.take (j + 1)).sum := by
  induction ss generalizing s0 j with
  | nil => simp at hj
  | cons s ss ih =>
    rw [pieces]
    cases j with
    | zero =>
      simp only [List.sum_cons] at hn
      simp only [List.getD_cons_zero, List.take_zero, List.sum_nil, List.take_succ_cons,
        List.sum_cons, add_zero]
      rw [List.mem_iff_getElem?]
      constructor
      · rintro ⟨i, hi⟩
        rw [List.getElem?_take] at hi
        split at hi
        · rw [List.getElem?_drop] at hi
          obtain ⟨h1, h2⟩ := List.getElem?_eq_some_iff.1 hi
          simp at h2
          omega
        · simp at hi
      · rintro ⟨h1, h2⟩
        refine ⟨k - s0, ?_⟩
        rw [List.getElem?_take, if_pos (by omega), List.getElem?_drop,
          List.getElem?_range (by omega)]
        congr 1
        omega
    | succ j =>
      simp only [List.getD_cons_succ, List.drop_drop]
      rw [ih (s0 + s) j (by simp at hn; omega) (by simpa using hj)]
      simp only [List.take_succ_cons, List.sum_cons]
      omega

theorem sum_take_sizes (n k j : ℕ) (hk : 0 < k) (hj : j ≤ k) :
    ((sizes n k).take j).sum = n / k * j + min j (n % k) := by
  have hr := Nat.mod_lt n hk
  rw [sizes, List.take_append, List.sum_append, List.take_replicate, List.take_replicate,
    List.sum_replicate, List.sum_replicate, List.length_replicate]
  simp only [smul_eq_mul]
  rcases Nat.le_total j (n % k) with h | h
  · rw [min_eq_left h, Nat.sub_eq_zero_of_le h]
    simp
    ring
  · rw [min_eq_right h, min_eq_left (by omega)]
    have : n / k * j = n / k * (n % k) + n / k * (j - n % k) := by
      rw [← Nat.mul_add, Nat.add_sub_cancel' h]
    rw [this]
    ring

theorem mem_leaf (n level leaf k : ℕ) (hb : leaf < 2 ^ level) :
    k ∈ (arraySplit (List.range n) (2 ^ level)).getD leaf [] ↔
      n / 2 ^ level * leaf + min leaf (n % 2 ^ level) ≤ k ∧
        k < n / 2 ^ level * (leaf + 1) + min (leaf + 1) (n % 2 ^ level) := by
  have hk : 0 < 2 ^ level := by positivity
  have hr := Nat.mod_lt n hk
  have := pieces_range_mem (sizes n (2 ^ level)) 0 n leaf k (by rw [sum_sizes _ _ hk]; simp)
    (by simp [sizes]; omega)
  rw [List.drop_zero] at this
  rw [arraySplit, List.length_range, this, sum_take_sizes _ _ _ hk hb.le,
    sum_take_sizes _ _ _ hk (by omega)]
  simp

theorem interval_ok (n maxLevel level leaf : ℕ) (hl : level ≤ maxLevel) (hb : leaf < 2 ^ level) :
    interval (fitWindow n) maxLevel level leaf
      = .ok ((n : ℚ) / 2 ^ level * leaf, (n : ℚ) / 2 ^ level * leaf + (n : ℚ) / 2 ^ level) := by
  have hb' : ¬ (2 ^ level : ℤ) ≤ (leaf : ℤ) := by
    have : (leaf : ℤ) < ((2 ^ level : ℕ) : ℤ) := by exact_mod_cast hb
    push_cast at this
    omega
  rw [interval, if_neg (by omega), if_neg hb']
  simp [fitWindow]

/-- C94 (partial): when the number of snapshots is a multiple of `2 ** level`, the snapshots a leaf
is fitted on are exactly those in the time interval reported for the leaf. For other numbers the
snapshots of the leaf do not begin before the interval and end at most `2 ** level / 4` after it.
Missing: that they are the snapshots of the interval for all numbers, see `C94_window_false`. -/
theorem C94_window_partial (n maxLevel level leaf : ℕ) (hl : level ≤ maxLevel)
    (hb : leaf < 2 ^ level) :
    ∃ a b, interval (fitWindow n) maxLevel level leaf = .ok (a, b) ∧
      (2 ^ level ∣ n → ∀ k : ℕ, k ∈ (arraySplit (List.range n) (2 ^ level)).getD leaf [] ↔
        k < n ∧ a ≤ (k : ℚ) ∧ (k : ℚ) < b) ∧
      ∀ k : ℕ, k ∈ (arraySplit (List.range n) (2 ^ level)).getD leaf [] →
        a ≤ (k : ℚ) ∧ (k : ℚ) < b + 2 ^ level / 4 := by
  refine ⟨_, _, interval_ok n maxLevel level leaf hl hb, ?_, ?_⟩
  · rintro ⟨q, rfl⟩ k
    have hk : 0 < 2 ^ level := by positivity
    rw [mem_leaf _ _ _ _ hb, Nat.mul_div_cancel_left _ hk, Nat.mul_mod_right]
    have e : ((2 ^ level * q : ℕ) : ℚ) / 2 ^ level = q := by
      push_cast
      field_simp
    rw [e]
    simp only [Nat.min_zero, add_zero]
    have h1 : ((q : ℚ) * leaf ≤ k) ↔ q * leaf ≤ k := by exact_mod_cast Iff.rfl
    have h2 : ((k : ℚ) < q * leaf + q) ↔ k < q * (leaf + 1) := by
      rw [Nat.mul_add, Nat.mul_one]
      exact_mod_cast Iff.rfl
    rw [h1, h2]
    constructor
    · rintro ⟨a, b⟩
      refine ⟨?_, a, b⟩
      calc k < q * (leaf + 1) := b
        _ ≤ q * 2 ^ level := Nat.mul_le_mul_left _ hb
        _ = 2 ^ level * q := Nat.mul_comm _ _
    · rintro ⟨-, a, b⟩
      exact ⟨a, b⟩
  · intro k hmem
    rw [mem_leaf _ _ _ _ hb] at hmem
    obtain ⟨h1, h2⟩ := hmem
    generalize hK : 2 ^ level = K at *
    have hK0 : 0 < K := by rw [← hK]; positivity
    have hKq : (2 ^ level : ℚ) = K := by rw [← hK]; push_cast; rfl
    rw [hKq]
    have hr := Nat.mod_lt n hK0
    have hn : n = K * (n / K) + n % K := (Nat.div_add_mod n K).symm
    generalize n / K = q at *
    generalize n % K = r at *
    have hKp : (0 : ℚ) < K := by exact_mod_cast hK0
    have hnq : (n : ℚ) / K = q + r / K := by
      rw [hn]
      push_cast
      field_simp
    rw [hnq]
    have hrK : (r : ℚ) ≤ K := by exact_mod_cast hr.le
    have hx : (r : ℚ) / K ≤ 1 := by rw [div_le_one hKp]; exact hrK
    have hx0 : (0 : ℚ) ≤ r / K := by positivity
    have h1q : (q : ℚ) * leaf + ((min leaf r : ℕ) : ℚ) ≤ k := by exact_mod_cast h1
    have h2q : (k : ℚ) < q * (leaf + 1) + ((min (leaf + 1) r : ℕ) : ℚ) := by exact_mod_cast h2
    have hrx : (r : ℚ) = r / K * K := by field_simp
    have hbq : (leaf : ℚ) + 1 ≤ K := by exact_mod_cast hb
    have hl0 : (0 : ℚ) ≤ leaf := by positivity
    constructor
    · have : (leaf : ℚ) * (r / K) ≤ ((min leaf r : ℕ) : ℚ) := by
        rcases Nat.le_total leaf r with h | h
        · rw [min_eq_left h]
          nlinarith
        · rw [min_eq_right h]
          nlinarith
      nlinarith
    · have : ((min (leaf + 1) r : ℕ) : ℚ) ≤ ((leaf : ℚ) + 1) * (r / K) + K / 4 := by
        have hsq : (r : ℚ) * (1 - r / K) ≤ K / 4 := by
          have := mul_nonneg hKp.le (sq_nonneg ((r : ℚ) / K - 1 / 2))
          nlinarith
        rcases Nat.le_total (leaf + 1) r with h | h
        · rw [min_eq_left h]
          have : ((leaf : ℚ) + 1) ≤ r := by exact_mod_cast h
          push_cast
          nlinarith
        · rw [min_eq_right h]
          have : (r : ℚ) ≤ (leaf : ℚ) + 1 := by exact_mod_cast h
          nlinarith
      nlinarith

/-- The hypotheses of `C94_window_partial` hold for 24 snapshots, level 3. -/
example : (3 : ℕ) ≤ 3 ∧ 5 < 2 ^ 3 ∧ 2 ^ 3 ∣ 24 ∧
    (arraySplit (List.range 24) (2 ^ 3)).getD 5 [] = [15, 16, 17] := by decide

/-- C94 fails for other numbers: of 20 snapshots with 3 levels (which `fit` accepts) leaf 3 of
level 3 is fitted on the snapshots 9, 10 and 11, but its interval is reported as [7.5, 10]; the
window from 11 to 11.5 is reported to be seen by leaf 4 alone in that level. -/
theorem C94_window_false :
    clampLevel .function 3 20 = (.ok (), 3) ∧
    (arraySplit (List.range 20) (2 ^ 3)).getD 3 [] = [9, 10, 11] ∧
    interval (fitWindow 20) 3 3 3 = .ok (15 / 2, 10) ∧
    (timeWindowBins (fitWindow 20) 3 11 (23 / 2)).filter (fun p => p.1 = 3) = [(3, 4)] := by
  refine ⟨?_, by decide +kernel, by decide +kernel, by decide +kernel⟩
  have h : levelThreshold 20 = 3 := by
    rw [levelThreshold_eq 20 (by norm_num), if_pos (by norm_num)]
    have : Nat.log 2 20 = 4 := by
      rw [Nat.log_eq_iff (by norm_num)]; norm_num
    rw [this]
  simp [clampLevel, h]

/-! ### C95: the modes kept in a leaf -/

/-- C95: the modes kept in a leaf with `n` snapshots are those with a nonzero eigenvalue whose
logarithm is below `2 * pi * max_cycles / n` in absolute value. Over the leaf's window each of them
makes fewer than `max_cycles` cycles, and it grows or decays by less than the factor
`exp (2 * pi * max_cycles)`. -/
theorem C95_slow (maxCycles n : ℕ) (hn : 0 < n) (eigs : List ℂ) :
    (slowMask maxCycles n eigs).length = eigs.length ∧
    ∀ (k : ℕ) (lam : ℂ), eigs[k]? = some lam → (slowMask maxCycles n eigs)[k]? = some true →
      lam ≠ 0 ∧
      (n : ℝ) * |lam.arg| / (2 * Real.pi) < maxCycles ∧
      ‖lam‖ ^ n < Real.exp (2 * Real.pi * maxCycles) ∧
      Real.exp (-(2 * Real.pi * maxCycles)) < ‖lam‖ ^ n := by
  refine ⟨by simp [slowMask], fun k lam hk hm => ?_⟩
  have hnp : (0 : ℝ) < n := by exact_mod_cast hn
  rw [slowMask, List.getElem?_map, hk, Option.map_some, Option.some.injEq, slow] at hm
  split at hm
  · simp at hm
  · rename_i h0
    rw [decide_eq_true_iff] at hm
    have hb : (n : ℝ) * ‖Complex.log lam‖ < 2 * Real.pi * maxCycles := by
      have := mul_lt_mul_of_pos_left hm hnp
      calc (n : ℝ) * ‖Complex.log lam‖ < _ := this
        _ = _ := by field_simp
    have hpos : 0 < ‖lam‖ := norm_pos_iff.2 h0
    have him : |lam.arg| ≤ ‖Complex.log lam‖ := by
      rw [← Complex.log_im]; exact Complex.abs_im_le_norm _
    have hre : |Real.log ‖lam‖| ≤ ‖Complex.log lam‖ := by
      rw [← Complex.log_re]; exact Complex.abs_re_le_norm _
    have hpw : ‖lam‖ ^ n = Real.exp (n * Real.log ‖lam‖) := by
      rw [← Real.log_pow, Real.exp_log (by positivity)]
    refine ⟨h0, ?_, ?_, ?_⟩
    · rw [div_lt_iff₀ (by positivity)]
      have := mul_le_mul_of_nonneg_left him hnp.le
      linarith
    · rw [hpw, Real.exp_lt_exp]
      have := mul_le_mul_of_nonneg_left ((le_abs_self _).trans hre) hnp.le
      linarith
    · rw [hpw, Real.exp_lt_exp]
      have := mul_le_mul_of_nonneg_left (neg_abs_le (Real.log ‖lam‖)) hnp.le
      have := mul_le_mul_of_nonneg_left hre hnp.le
      linarith

/-- C95: an undamped mode is kept exactly if it makes fewer than `max_cycles` cycles over the
leaf's window. -/
theorem C95_oscillation (maxCycles n : ℕ) (hn : 0 < n) (eigs : List ℂ) (k : ℕ) (lam : ℂ)
    (hk : eigs[k]? = some lam) (h1 : ‖lam‖ = 1) :
    (slowMask maxCycles n eigs)[k]? = some true ↔
      (n : ℝ) * |lam.arg| / (2 * Real.pi) < maxCycles := by
  have hnp : (0 : ℝ) < n := by exact_mod_cast hn
  have h0 : lam ≠ 0 := by
    rintro rfl
    simp at h1
  have hl : ‖Complex.log lam‖ = |lam.arg| := by
    have : Complex.log lam = (lam.arg : ℂ) * Complex.I := by
      rw [Complex.log, h1, Real.log_one]
      simp
    rw [this, norm_mul, Complex.norm_I, mul_one, Complex.norm_real, Real.norm_eq_abs]
  rw [slowMask, List.getElem?_map, hk, Option.map_some, Option.some.injEq, slow, if_neg h0,
    decide_eq_true_iff, hl, div_lt_iff₀ (by positivity)]
  have e : (maxCycles : ℝ) / n * 2 * Real.pi = maxCycles * (2 * Real.pi) / n := by ring
  rw [e, lt_div_iff₀ hnp, mul_comm]

/-- C95: a mode with the eigenvalue 0 is never kept. -/
theorem C95_zero (maxCycles n : ℕ) (eigs : List ℂ) (k : ℕ) (hk : eigs[k]? = some 0) :
    (slowMask maxCycles n eigs)[k]? = some false := by
  rw [slowMask, List.getElem?_map, hk, Option.map_some, slow, if_pos rfl]

/-- With one cycle and 4 snapshots, the eigenvalue 1 is kept, the eigenvalue -1 (two cycles) is
not. -/
theorem C95_instance :
    (slowMask 1 4 [1, -1, 0])[0]? = some true ∧ (slowMask 1 4 [1, -1, 0])[1]? = some false ∧
      (slowMask 1 4 [1, -1, 0])[2]? = some false := by
  have hp := Real.pi_pos
  refine ⟨?_, ?_, C95_zero _ _ _ 2 rfl⟩
  · rw [C95_oscillation 1 4 (by norm_num) _ 0 1 rfl (by simp)]
    simp
  · have := C95_oscillation 1 4 (by norm_num) [1, -1, 0] 1 (-1) rfl (by simp)
    rw [Complex.arg_neg_one, abs_of_pos hp] at this
    have h : ¬ (((4 : ℕ) : ℝ) * Real.pi / (2 * Real.pi) < (1 : ℕ)) := by
      rw [div_lt_iff₀ (by positivity)]
      push_cast
      linarith
    rw [← this] at h
    have hx : (slowMask 1 4 [1, -1, 0])[1]? = some (slow ((1 : ℕ) / (4 : ℕ)) (-1)) := by
      simp [slowMask]
    rw [hx] at h ⊢
    simpa using h

/-- C95 fails for damped modes if `max_cycles` is read as "the maximum number of mode oscillations":
with one cycle and 4 snapshots a mode that does not oscillate at all is dropped, because it decays
by the factor `exp (-2)` per step. -/
theorem C95_damped_false :
    (slowMask 1 4 [(Real.exp (-2) : ℂ)])[0]? = some false ∧ ((Real.exp (-2) : ℂ)).arg = 0 := by
  have harg : ((Real.exp (-2) : ℂ)).arg = 0 := by
    exact Complex.arg_ofReal_of_nonneg (Real.exp_pos _).le
  refine ⟨?_, harg⟩
  have hne : (Real.exp (-2) : ℂ) ≠ 0 := by exact_mod_cast (Real.exp_pos _).ne'
  have hl : Complex.log (Real.exp (-2) : ℂ) = ((-2 : ℝ) : ℂ) := by
    rw [← Complex.ofReal_log (Real.exp_pos _).le, Real.log_exp]
  have hn : ‖Complex.log (Real.exp (-2) : ℂ)‖ = 2 := by
    rw [hl, Complex.norm_real]
    norm_num
  have : slow ((1 : ℕ) / (4 : ℕ)) (Real.exp (-2) : ℂ) = false := by
    rw [slow, if_neg hne, hn, decide_eq_false_iff_not]
    have := Real.pi_lt_four
    push_cast
    linarith
  simpa [slowMask] using this

/-! ### C96: the accessors and the reconstruction -/

section

variable {K ι : Type} [CommRing K]

/-- What `fit` on `n` snapshots leaves in the tree: every node holds a DMD (`L level leaf`) whose
modes, eigenvalues and dynamics are equally many, each row of the dynamics is as long as the leaf's
window, and the windows of a level cover the `n` snapshots. -/
structure Fitted (t : Tree (Leaf K ι)) (L : ℕ → ℕ → Leaf K ι) (n : ℕ) : Prop where
  size : t.tree.length = 2 ^ (t.depth + 1) - 1
  get : ∀ l b : ℕ, l ≤ t.depth → b < 2 ^ l → t.get l b = .ok (some (L l b))
  eigs : ∀ l b : ℕ, l ≤ t.depth → b < 2 ^ l → (L l b).eigs.length = (L l b).modes.length
  rows : ∀ l b : ℕ, l ≤ t.depth → b < 2 ^ l → (L l b).dynamics.length = (L l b).modes.length
  cols : ∀ l b : ℕ, l ≤ t.depth → b < 2 ^ l → ∀ r ∈ (L l b).dynamics, r.length = (L l b).width
  windows : ∀ l, l ≤ t.depth → ((List.range (2 ^ l)).map fun b => (L l b).width).sum = n

theorem partialModes_none (t : Tree (Leaf K ι)) (L : ℕ → ℕ → Leaf K ι) (n : ℕ) (h : Fitted t L n)
    (l : ℕ) (hl : l ≤ t.depth) :
    partialModes t l none = .ok (((List.range (2 ^ l)).map (L l)).flatMap Leaf.modes) := by
  rw [partialModes, leaves_none t l (L l) fun b hb => h.get l b hl hb]
  rfl

theorem partialDynamics_none (t : Tree (Leaf K ι)) (L : ℕ → ℕ → Leaf K ι) (n : ℕ)
    (h : Fitted t L n) (l : ℕ) (hl : l ≤ t.depth) :
    partialDynamics t l none = .ok (blockDiag ((List.range (2 ^ l)).map (L l))) := by
  rw [partialDynamics, leaves_none t l (L l) fun b hb => h.get l b hl hb]
  rfl

theorem widths (t : Tree (Leaf K ι)) (L : ℕ → ℕ → Leaf K ι) (n : ℕ)
    (h : Fitted t L n) (l : ℕ) (hl : l ≤ t.depth) :
    (((List.range (2 ^ l)).map (L l)).map Leaf.width).sum = n := by
  rw [List.map_map]
  exact h.windows l hl

theorem leaf_shapes (t : Tree (Leaf K ι)) (L : ℕ → ℕ → Leaf K ι) (n : ℕ)
    (h : Fitted t L n) (l : ℕ) (hl : l ≤ t.depth) :
    ∀ a ∈ (List.range (2 ^ l)).map (L l),
      a.dynamics.length = a.modes.length ∧ ∀ r ∈ a.dynamics, r.length = a.width := by
  intro a ha
  obtain ⟨b, hb, rfl⟩ := List.mem_map.1 ha
  exact ⟨h.rows l b hl (List.mem_range.1 hb), h.cols l b hl (List.mem_range.1 hb)⟩

theorem modes_ok (t : Tree (Leaf K ι)) (L : ℕ → ℕ → Leaf K ι) (n : ℕ) (h : Fitted t L n) :
    modes t = .ok ((List.range (t.depth + 1)).map fun l =>
      ((List.range (2 ^ l)).map (L l)).flatMap Leaf.modes).flatten := by
  rw [modes, mapM_ok' _ _ _ fun l hl =>
    partialModes_none t L n h l (by have := List.mem_range.1 hl; omega)]
  rfl

theorem dynamics_ok (t : Tree (Leaf K ι)) (L : ℕ → ℕ → Leaf K ι) (n : ℕ) (h : Fitted t L n) :
    dynamics t = .ok ((List.range (t.depth + 1)).map fun l =>
      blockDiag ((List.range (2 ^ l)).map (L l))).flatten := by
  rw [dynamics, mapM_ok' _ _ _ fun l hl =>
    partialDynamics_none t L n h l (by have := List.mem_range.1 hl; omega)]
  rfl

theorem reconstructedData_ok (t : Tree (Leaf K ι)) (L : ℕ → ℕ → Leaf K ι) (n : ℕ)
    (h : Fitted t L n) :
    reconstructedData t n = .ok (reconstructed ((List.range (t.depth + 1)).map fun l =>
      ((List.range (2 ^ l)).map (L l)).flatMap Leaf.reconstructed) n) := by
  rw [reconstructedData, mapM_ok' _ (fun l =>
      ((List.range (2 ^ l)).map (L l)).flatMap Leaf.reconstructed)]
  · rfl
  · intro l hl
    rw [leaves_none t l (L l) fun b hb => h.get l b (by have := List.mem_range.1 hl; omega) hb]
    rfl

theorem zipWith_sum_range {A B : Type} (f : A → B → K) (a0 : A) (b0 : B) (as : List A)
    (bs : List B) (h : as.length = bs.length) :
    (List.zipWith f as bs).sum
      = ((List.range as.length).map fun k => f (as.getD k a0) (bs.getD k b0)).sum := by
  induction as generalizing bs with
  | nil => simp
  | cons a as ih =>
    cases bs with
    | nil => simp at h
    | cons b bs =>
      rw [List.zipWith_cons_cons, List.sum_cons, ih bs (by simpa using h), List.length_cons,
        List.range_succ_eq_map, List.map_cons, List.sum_cons, List.map_map]
      rfl

theorem sum_apply {A : Type} (l : List A) (f : A → ι → K) (x : ι) :
    (l.map f).sum x = (l.map fun a => f a x).sum := by
  induction l with
  | nil => rfl
  | cons a l ih => simp [ih]

/-- C96: after `fit`, `modes` and `dynamics` have as many columns and rows, each row of `dynamics`
covers all the `n` snapshots, and `reconstructed_data` is their product. -/
theorem C96_product (t : Tree (Leaf K ι)) (L : ℕ → ℕ → Leaf K ι) (n : ℕ) (h : Fitted t L n) :
    ∃ M D R, modes t = .ok M ∧ dynamics t = .ok D ∧ reconstructedData t n = .ok R ∧
      M.length = D.length ∧ (∀ r ∈ D, r.length = n) ∧ R.length = n ∧
      ∀ (i : ℕ) (x : ι), i < n →
        R.getD i 0 x = ((List.range M.length).map fun k =>
          M.getD k 0 x * (D.getD k []).getD i 0).sum := by
  refine ⟨_, _, _, modes_ok t L n h, dynamics_ok t L n h, reconstructedData_ok t L n h, ?_, ?_, ?_, ?_⟩
  · rw [List.length_flatten, List.length_flatten, List.map_map, List.map_map]
    congr 1
    refine List.map_congr_left fun l hl => ?_
    have hl : l ≤ t.depth := by have := List.mem_range.1 hl; omega
    simp only [Function.comp]
    rw [length_blockDiag, List.length_flatMap]
    congr 1
    exact List.map_congr_left fun a ha => ((leaf_shapes t L n h l hl a ha).1).symm
  · intro r hr
    obtain ⟨b, hb, hr⟩ := List.mem_flatten.1 hr
    obtain ⟨l, hl, rfl⟩ := List.mem_map.1 hb
    have hl : l ≤ t.depth := by have := List.mem_range.1 hl; omega
    rw [blockDiag_row_length _ (fun a ha => (leaf_shapes t L n h l hl a ha).2) r hr]
    exact widths t L n h l hl
  · simp [reconstructed]
  · intro i x hi
    have hlen : ∀ l ∈ List.range (t.depth + 1),
        (((List.range (2 ^ l)).map (L l)).flatMap Leaf.modes).length
          = (blockDiag ((List.range (2 ^ l)).map (L l))).length := by
      intro l hl
      have hl : l ≤ t.depth := by have := List.mem_range.1 hl; omega
      rw [length_blockDiag, List.length_flatMap]
      congr 1
      exact List.map_congr_left fun a ha => ((leaf_shapes t L n h l hl a ha).1).symm
    have hz := zipWith_sum_flatten (fun (m : ι → K) (row : List K) => m x * row.getD i 0)
      ((List.range (t.depth + 1)).map fun l =>
        (((List.range (2 ^ l)).map (L l)).flatMap Leaf.modes,
          blockDiag ((List.range (2 ^ l)).map (L l)))) (by
        intro p hp
        obtain ⟨l, hl, rfl⟩ := List.mem_map.1 hp
        exact hlen l hl)
    simp only [List.map_map, Function.comp_def] at hz
    rw [← zipWith_sum_range (fun (m : ι → K) (row : List K) => m x * row.getD i 0) 0 [], hz]
    · rw [reconstructed, List.getD_eq_getElem?_getD, List.getElem?_map, List.getElem?_range hi,
        Option.map_some, Option.getD_some, List.map_map, sum_apply]
      congr 1
      refine List.map_congr_left fun l hl => ?_
      have hl : l ≤ t.depth := by have := List.mem_range.1 hl; omega
      simp only [Function.comp]
      rw [← product_blockDiag _ (leaf_shapes t L n h l hl), widths t L n h l hl,
        product_getD _ _ _ _ hi]
    · rw [List.length_flatten, List.length_flatten, List.map_map, List.map_map]
      congr 1
      exact List.map_congr_left fun l hl => hlen l hl

/-- C96: `partial_reconstructed_data` of a node is the reconstruction of its DMD, that of a level
the reconstructions of its leaves one after the other; `reconstructed_data` is the sum of the
levels. -/
theorem C96_partial_reconstruction (t : Tree (Leaf K ι)) (L : ℕ → ℕ → Leaf K ι) (n : ℕ)
    (h : Fitted t L n) :
    (∀ l b : ℕ, l ≤ t.depth → b < 2 ^ l →
      partialReconstructed t l (some (b : ℤ)) = .ok (L l b).reconstructed) ∧
    (∀ l : ℕ, l ≤ t.depth →
      partialReconstructed t l none
        = .ok ((List.range (2 ^ l)).flatMap fun b => (L l b).reconstructed)) ∧
    ∃ R, reconstructedData t n = .ok R ∧ R.length = n ∧ ∀ (i : ℕ) (x : ι), i < n →
      R.getD i 0 x = ((List.range (t.depth + 1)).map fun l =>
        ((List.range (2 ^ l)).flatMap fun b => (L l b).reconstructed).getD i 0 x).sum := by
  refine ⟨fun l b hl hb => ?_, fun l hl => ?_, _, reconstructedData_ok t L n h,
    by simp [reconstructed], fun i x hi => ?_⟩
  · have hlv := leaves_some t l b _ (h.get l b hl hb)
    have := product_blockDiag [L l b] (by
      intro a ha
      obtain rfl := List.mem_singleton.1 ha
      exact ⟨h.rows l b hl hb, h.cols l b hl hb⟩)
    rw [partialReconstructed, partialModes, partialDynamics, hlv]
    change Except.ok _ = _
    rw [this]
    simp
  · have := product_blockDiag _ (leaf_shapes t L n h l hl)
    rw [partialReconstructed, partialModes, partialDynamics,
      leaves_none t l (L l) fun b hb => h.get l b hl hb]
    change Except.ok _ = _
    rw [this, List.flatMap_map]
  · rw [reconstructed, List.getD_eq_getElem?_getD, List.getElem?_map, List.getElem?_range hi,
      Option.map_some, Option.getD_some, List.map_map, sum_apply]
    congr 1
    refine List.map_congr_left fun l hl => ?_
    simp only [Function.comp, List.flatMap_map]

theorem flatMap_flatMap_levels {A : Type} (d : ℕ) (L : ℕ → ℕ → Leaf K ι) (f : Leaf K ι → List A) :
    (levelOrder d L).flatMap f
      = (List.range (d + 1)).flatMap fun l => (List.range (2 ^ l)).flatMap fun b => f (L l b) := by
  rw [levelOrder, List.flatMap_assoc]
  simp only [List.flatMap_map]

theorem zip_flatMap {A B C : Type} (l : List A) (f : A → List B) (g : A → List C)
    (h : ∀ a ∈ l, (f a).length = (g a).length) :
    List.zip (l.flatMap f) (l.flatMap g) = l.flatMap fun a => List.zip (f a) (g a) := by
  induction l with
  | nil => rfl
  | cons a l ih =>
    rw [List.flatMap_cons, List.flatMap_cons, List.flatMap_cons, ← ih fun b hb => h b (by simp [hb]),
      List.zip_append (h a (by simp))]

theorem mem_levelOrder {A : Type} (d : ℕ) (L : ℕ → ℕ → A) (a : A) (h : a ∈ levelOrder d L) :
    ∃ l b, l ≤ d ∧ b < 2 ^ l ∧ a = L l b := by
  rw [levelOrder, List.mem_flatMap] at h
  obtain ⟨l, hl, h⟩ := h
  obtain ⟨b, hb, rfl⟩ := List.mem_map.1 h
  exact ⟨l, b, by have := List.mem_range.1 hl; omega, List.mem_range.1 hb, rfl⟩

theorem blockDiag_level (t : Tree (Leaf K ι)) (L : ℕ → ℕ → Leaf K ι) (n : ℕ) (h : Fitted t L n)
    (l : ℕ) (hl : l ≤ t.depth) :
    blockDiag ((List.range (2 ^ l)).map (L l)) = (List.range (2 ^ l)).flatMap fun b =>
      (L l b).dynamics.map fun row =>
        List.replicate ((List.range b).map fun c => (L l c).width).sum 0 ++ row ++
        List.replicate (n - (((List.range b).map fun c => (L l c).width).sum + (L l b).width)) 0 := by
  rw [blockDiag_rows, List.length_map, List.length_range]
  refine List.flatMap_congr fun b hb => ?_
  have hb := List.mem_range.1 hb
  have e1 : (List.map Leaf.dynamics ((List.range (2 ^ l)).map (L l))).getD b [] = (L l b).dynamics := by
    rw [List.getD_eq_getElem?_getD]
    simp [hb]
  have e2 : ((List.range (2 ^ l)).map (L l)).take b = (List.range b).map (L l) := by
    rw [← List.map_take, List.take_range, min_eq_left hb.le]
  have e3 : ((List.range (2 ^ l)).map (L l)).take (b + 1) = (List.range (b + 1)).map (L l) := by
    rw [← List.map_take, List.take_range, min_eq_left hb]
  have e4 : ((((List.range (2 ^ l)).map (L l)).take (b + 1)).map Leaf.width).sum
      + ((((List.range (2 ^ l)).map (L l)).drop (b + 1)).map Leaf.width).sum = n := by
    rw [← List.sum_append, ← List.map_append, List.take_append_drop]
    exact widths t L n h l hl
  rw [e3, List.range_succ, List.map_append, List.map_append, List.sum_append] at e4
  simp only [List.map_cons, List.map_nil, List.sum_cons, List.sum_nil, add_zero, List.map_map] at e4
  rw [e1, e2]
  refine List.map_congr_left fun r _ => ?_
  rw [List.map_map]
  have e5 : (Leaf.width ∘ L l) = fun c => (L l c).width := rfl
  rw [e5] at e4 ⊢
  congr 2
  omega

theorem eigs_ok (t : Tree (Leaf K ι)) (L : ℕ → ℕ → Leaf K ι) (n : ℕ) (h : Fitted t L n) :
    eigs t = .ok ((List.range (t.depth + 1)).flatMap fun l =>
      (List.range (2 ^ l)).flatMap fun b => (L l b).eigs) := by
  rw [eigs, tree_eq t L h.size h.get, ← flatMap_flatMap_levels, List.mapM_map,
    mapM_ok' _ Leaf.eigs]
  · change Except.ok _ = _
    rw [List.flatMap_def]
  · exact fun a _ => rfl

/-- C96: the eigenvalues in `eigs`, the columns of `modes` and the rows of `dynamics` correspond to
each other: the three run through the leaves level by level, and each row is the leaf's dynamics
in its own window, 0 in the windows of the other leaves of the level. -/
theorem C96_aligned (t : Tree (Leaf K ι)) (L : ℕ → ℕ → Leaf K ι) (n : ℕ) (h : Fitted t L n) :
    ∃ E M D, eigs t = .ok E ∧ modes t = .ok M ∧ dynamics t = .ok D ∧
      E.length = M.length ∧ D.length = M.length ∧
      List.zip E (List.zip M D) = (List.range (t.depth + 1)).flatMap fun l =>
        (List.range (2 ^ l)).flatMap fun b =>
          List.zip (L l b).eigs (List.zip (L l b).modes ((L l b).dynamics.map fun row =>
            List.replicate ((List.range b).map fun c => (L l c).width).sum 0 ++ row ++
            List.replicate (n - (((List.range b).map fun c => (L l c).width).sum + (L l b).width))
              0)) := by
  have hM : ∀ l, (((List.range (2 ^ l)).map (L l)).flatMap Leaf.modes)
      = (List.range (2 ^ l)).flatMap fun b => (L l b).modes := fun l => by rw [List.flatMap_map]
  have hMt := modes_ok t L n h
  simp only [hM, ← List.flatMap_def] at hMt
  have hD := dynamics_ok t L n h
  rw [← List.flatMap_def, List.flatMap_congr fun l hl =>
    blockDiag_level t L n h l (by have := List.mem_range.1 hl; omega)] at hD
  have hle : ∀ l ∈ List.range (t.depth + 1), l ≤ t.depth := fun l hl => by
    have := List.mem_range.1 hl
    omega
  refine ⟨_, _, _, eigs_ok t L n h, hMt, hD, ?_, ?_, ?_⟩
  · rw [List.length_flatMap, List.length_flatMap]
    congr 1
    refine List.map_congr_left fun l hl => ?_
    rw [List.length_flatMap, List.length_flatMap]
    congr 1
    exact List.map_congr_left fun b hb => h.eigs l b (hle l hl) (List.mem_range.1 hb)
  · rw [List.length_flatMap, List.length_flatMap]
    congr 1
    refine List.map_congr_left fun l hl => ?_
    rw [List.length_flatMap, List.length_flatMap]
    congr 1
    refine List.map_congr_left fun b hb => ?_
    rw [List.length_map, h.rows l b (hle l hl) (List.mem_range.1 hb)]
  · rw [zip_flatMap, zip_flatMap]
    · refine List.flatMap_congr fun l hl => ?_
      rw [zip_flatMap, zip_flatMap]
      · intro b hb
        simp [h.rows l b (hle l hl) (List.mem_range.1 hb),
          h.eigs l b (hle l hl) (List.mem_range.1 hb)]
      · intro b hb
        simp [h.rows l b (hle l hl) (List.mem_range.1 hb)]
    · intro l hl
      rw [zip_flatMap]
      · rw [List.length_flatMap, List.length_flatMap]
        congr 1
        refine List.map_congr_left fun b hb => ?_
        simp [h.rows l b (hle l hl) (List.mem_range.1 hb),
          h.eigs l b (hle l hl) (List.mem_range.1 hb)]
      · intro b hb
        simp [h.rows l b (hle l hl) (List.mem_range.1 hb)]
    · intro l hl
      rw [List.length_flatMap, List.length_flatMap]
      congr 1
      refine List.map_congr_left fun b hb => ?_
      rw [List.length_map, h.rows l b (hle l hl) (List.mem_range.1 hb)]

/-- C96: the eigenvalues of a level are those of its leaves. -/
theorem C96_partial (t : Tree (Leaf K ι)) (L : ℕ → ℕ → Leaf K ι) (n : ℕ) (h : Fitted t L n)
    (l : ℕ) (hl : l ≤ t.depth) :
    partialEigs t l none = .ok ((List.range (2 ^ l)).flatMap fun b => (L l b).eigs) ∧
    partialAmplitudes t l none = .ok ((List.range (2 ^ l)).flatMap fun b => (L l b).amplitudes) ∧
    partialModes t l none = .ok ((List.range (2 ^ l)).flatMap fun b => (L l b).modes) ∧
    ∀ b : ℕ, b < 2 ^ l →
      partialEigs t l (some (b : ℤ)) = .ok (L l b).eigs ∧
      partialAmplitudes t l (some (b : ℤ)) = .ok (L l b).amplitudes ∧
      partialModes t l (some (b : ℤ)) = .ok (L l b).modes ∧
      partialDynamics t l (some (b : ℤ)) = .ok (L l b).dynamics := by
  have hn := leaves_none t l (L l) fun b hb => h.get l b hl hb
  refine ⟨?_, ?_, ?_, fun b hb => ?_⟩
  · rw [partialEigs, hn]
    change Except.ok _ = _
    rw [List.flatMap_map]
  · rw [partialAmplitudes, hn]
    change Except.ok _ = _
    rw [List.flatMap_map]
  · rw [partialModes, hn]
    change Except.ok _ = _
    rw [List.flatMap_map]
  · have hs := leaves_some t l b _ (h.get l b hl hb)
    rw [partialEigs, partialAmplitudes, partialModes, partialDynamics, hs]
    refine ⟨?_, ?_, ?_, ?_⟩
    · change Except.ok _ = _
      simp
    · change Except.ok _ = _
      simp
    · change Except.ok _ = _
      simp
    · change Except.ok _ = _
      simp [blockDiag]

/-- C96: a level the tree does not have, or a leaf the level does not have, raises `ValueError` in
every accessor. -/
theorem C96_invalid (t : Tree (Leaf K ι)) (l : ℕ) (b : ℤ) (h : t.depth < l ∨ 2 ^ l ≤ b) :
    partialModes t l (some b) = .error .valueError ∧
    partialDynamics t l (some b) = .error .valueError ∧
    partialEigs t l (some b) = .error .valueError ∧
    partialAmplitudes t l (some b) = .error .valueError ∧
    partialReconstructed t l (some b) = .error .valueError ∧
    (t.depth < l → partialModes t l none = .error .valueError) := by
  have hg : t.get l b = .error .valueError := by
    rw [Tree.get]
    split
    · rfl
    · rename_i h'
      rw [if_pos (h.resolve_left h')]
  have hs : leaves t l (some b) = .error .valueError := by
    simp only [leaves, List.mapM_cons, node, hg]
    rfl
  refine ⟨?_, ?_, ?_, ?_, ?_, ?_⟩
  · rw [partialModes, hs]; rfl
  · rw [partialDynamics, hs]; rfl
  · rw [partialEigs, hs]; rfl
  · rw [partialAmplitudes, hs]; rfl
  · rw [partialReconstructed, hs]; rfl
  · intro hd
    have : leaves t l none = .error .valueError := by
      rw [leaves]
      have hp : 2 ^ l = (2 ^ l - 1) + 1 := (Nat.sub_add_cancel Nat.one_le_two_pow).symm
      rw [hp, List.range_succ_eq_map, List.mapM_cons]
      simp only [node, Tree.get, if_pos hd]
      rfl
    rw [partialModes, this]
    rfl

theorem mem_bins (orig : Time.Window) (d : ℕ) (t0 tend : ℚ) (p : ℕ × ℕ)
    (hp : p ∈ timeWindowBins orig d t0 tend) : p.1 ≤ d ∧ p.2 < 2 ^ p.1 := by
  rw [timeWindowBins, List.mem_flatMap] at hp
  obtain ⟨l, hl, hp⟩ := hp
  obtain ⟨b, hb, rfl⟩ := List.mem_map.1 hp
  have := (List.mem_filter.1 hb).1
  have hl := List.mem_range.1 hl
  exact ⟨by dsimp only; omega, List.mem_range.1 this⟩

omit [CommRing K] in
/-- C96: `time_window_eigs` gives the eigenvalues of the bins `time_window_bins` reports, in that
order; if there are none (a window outside of the fitted one, C30) it raises `ValueError`. -/
theorem C96_window (t : Tree (Leaf K ι)) (L : ℕ → ℕ → Leaf K ι) (n : ℕ) (h : Fitted t L n)
    (orig : Time.Window) (t0 tend : ℚ) :
    timeWindowEigs t orig t0 tend = if timeWindowBins orig t.depth t0 tend = []
      then .error .valueError
      else .ok ((timeWindowBins orig t.depth t0 tend).flatMap fun p => (L p.1 p.2).eigs) := by
  rw [timeWindowEigs, mapM_ok' _ (fun p : ℕ × ℕ => L p.1 p.2)]
  · change (if _ then _ else _) = _
    cases hb : timeWindowBins orig t.depth t0 tend with
    | nil => rfl
    | cons p ps =>
      simp only [List.map_cons, List.isEmpty_cons, Bool.false_eq_true, if_false, reduceCtorEq]
      rw [← List.map_cons (f := fun p : ℕ × ℕ => L p.1 p.2), List.flatMap_map]
      rfl
  · intro p hp
    obtain ⟨h1, h2⟩ := mem_bins orig t.depth t0 tend p hp
    simp only [node, h.get p.1 p.2 h1 h2]

end

/-- A tree with two levels over three snapshots: the node of level 0 without modes, the left leaf
with one mode and two snapshots, the right leaf with two modes and one snapshot. -/
def exampleTree : Tree (Leaf ℚ (Fin 2)) :=
  ⟨1, [some ⟨[], [], [], [], 3⟩, some ⟨[2], [1], [![1, 3]], [[1, 2]], 2⟩,
    some ⟨[5, 7], [4, 6], [![1, 0], ![1, 1]], [[4], [6]], 1⟩]⟩

/-- The hypotheses of the theorems of C96 hold for `exampleTree`. -/
theorem C96_instance : ∃ L, Fitted exampleTree L 3 := by
  refine ⟨fun l b => match l, b with
    | 0, _ => ⟨[], [], [], [], 3⟩
    | _ + 1, 0 => ⟨[2], [1], [![1, 3]], [[1, 2]], 2⟩
    | _ + 1, _ + 1 => ⟨[5, 7], [4, 6], [![1, 0], ![1, 1]], [[4], [6]], 1⟩, rfl, ?_, ?_, ?_, ?_, ?_⟩
  · intro l b hl hb
    have hl : l ≤ 1 := hl
    interval_cases l
    · obtain rfl : b = 0 := by simpa using hb
      rfl
    · interval_cases b <;> rfl
  · intro l b hl hb
    have hl : l ≤ 1 := hl
    interval_cases l
    · rfl
    · interval_cases b <;> rfl
  · intro l b hl hb
    have hl : l ≤ 1 := hl
    interval_cases l
    · rfl
    · interval_cases b <;> rfl
  · intro l b hl hb
    have hl : l ≤ 1 := hl
    interval_cases l
    · simp
    · interval_cases b <;> simp
  · intro l hl
    have hl : l ≤ 1 := hl
    interval_cases l <;> rfl

/-- Its three dynamics in the original window. -/
example : dynamics exampleTree = .ok [[1, 2, 0], [0, 0, 4], [0, 0, 6]] := by decide +kernel

end Verif.MrDMD
