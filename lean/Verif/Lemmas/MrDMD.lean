import Verif.Model.MrDMD
import Mathlib.Tactic.IntervalCases
import Mathlib.Algebra.Order.Ring.Pow

/-!
# Lemmas about multi-resolution DMD
-/

set_option autoImplicit false

namespace Verif.MrDMD

open Verif

/-- The level limit in closed form. -/
theorem levelThreshold_eq (n : ℕ) (hn : 2 ≤ n) :
    levelThreshold n = if 4 ≤ n then Nat.log 2 n - 1 else if n = 3 then 1 else 0 := by
  have h2 : 0 < Real.log 2 := Real.log_pos (by norm_num)
  have hn0 : (n : ℝ) ≠ 0 := Nat.cast_ne_zero.mpr (by omega)
  have h4 : Real.log 4 = 2 * Real.log 2 := by
    rw [show (4 : ℝ) = 2 ^ 2 by norm_num, Real.log_pow]; norm_num
  have e : Real.log ((n : ℝ) / 4) / Real.log 2 = Real.logb 2 n - 2 := by
    rw [Real.log_div hn0 (by norm_num), h4, Real.logb, sub_div, mul_div_cancel_right₀ _ h2.ne']
  unfold levelThreshold pyInt
  rw [e]
  by_cases h : 4 ≤ n
  · have hb : (2 : ℝ) ≤ Real.logb 2 n := by
      rw [Real.le_logb_iff_rpow_le (by norm_num) (by positivity)]
      norm_num
      exact h
    have hl : 2 ≤ Nat.log 2 n := Nat.le_log_of_pow_le (by norm_num) (by simpa using h)
    rw [if_pos (by linarith), if_pos h, show Real.logb 2 (n : ℝ) - 2 = Real.logb 2 n - (2 : ℤ) by
      norm_num, Int.floor_sub_intCast]
    have := Real.floor_logb_natCast (b := 2) (r := n) (Nat.cast_nonneg n)
    rw [Int.log_natCast] at this
    rw [Nat.cast_ofNat] at this
    rw [this]
    omega
  · rw [if_neg h]
    have hlt : Real.logb 2 n < 2 := by
      rw [Real.logb_lt_iff_lt_rpow (by norm_num) (by positivity)]
      norm_num
      omega
    rw [if_neg (by linarith)]
    have hn' : n = 2 ∨ n = 3 := by omega
    rcases hn' with rfl | rfl
    · have : Real.logb 2 ((2 : ℕ) : ℝ) - 2 = ((-1 : ℤ) : ℝ) := by
        rw [Nat.cast_ofNat, Real.logb_self_eq_one (by norm_num)]; norm_num
      rw [this, Int.ceil_intCast]
      simp
    · have h1 : (1 : ℝ) < Real.logb 2 ((3 : ℕ) : ℝ) := by
        rw [Real.lt_logb_iff_rpow_lt (by norm_num) (by norm_num)]
        norm_num
      have : ⌈Real.logb 2 ((3 : ℕ) : ℝ) - 2⌉ = 0 := by
        rw [Int.ceil_eq_iff]
        constructor
        · push_cast at h1 ⊢; linarith
        · push_cast at hlt ⊢; linarith
      rw [this]
      simp

theorem sum_sizes (n k : ℕ) (hk : 0 < k) : (sizes n k).sum = n := by
  simp only [sizes, List.sum_append, List.sum_replicate, smul_eq_mul]
  have h1 := Nat.mod_lt n hk
  have h2 := Nat.mod_add_div n k
  generalize n / k = q at *
  generalize n % k = r at *
  obtain ⟨c, rfl⟩ := Nat.exists_eq_add_of_lt h1
  rw [show r + c + 1 - r = c + 1 by omega, ← h2]
  ring

theorem pieces_flatten {V : Type} (ss : List ℕ) (X : List V) (h : ss.sum = X.length) :
    (pieces ss X).flatten = X := by
  induction ss generalizing X with
  | nil =>
    have : X = [] := List.eq_nil_of_length_eq_zero (by simpa using h.symm)
    simp [pieces, this]
  | cons s ss ih =>
    rw [List.sum_cons] at h
    rw [pieces, List.flatten_cons, ih _ (by rw [List.length_drop]; omega), List.take_append_drop]

theorem pieces_map_length {V : Type} (ss : List ℕ) (X : List V) (h : ss.sum = X.length) :
    (pieces ss X).map List.length = ss := by
  induction ss generalizing X with
  | nil => rfl
  | cons s ss ih =>
    rw [List.sum_cons] at h
    rw [pieces, List.map_cons, ih _ (by rw [List.length_drop]; omega), List.length_take]
    congr 1
    omega

theorem length_levelRec {V : Type} (rec : ℕ → ℕ → List V → List V)
    (hrec : ∀ l i x, (rec l i x).length = x.length) (level : ℕ) (X : List V) :
    (levelRec rec level X).length = X.length := by
  have hk : 0 < 2 ^ level := Nat.pos_of_ne_zero (by simp)
  have h := pieces_map_length (sizes X.length (2 ^ level)) X (sum_sizes _ _ hk)
  unfold levelRec
  rw [List.length_flatten]
  have e : ((arraySplit X (2 ^ level)).mapIdx fun leaf x => rec level leaf x).map List.length =
      (arraySplit X (2 ^ level)).map List.length := by
    apply List.ext_getElem?
    intro i
    rw [List.getElem?_map, List.getElem?_mapIdx, List.getElem?_map, Option.map_map]
    congr 1
    funext x
    exact hrec level i x
  rw [e, arraySplit, h, sum_sizes _ _ hk]

theorem reconstructed_cons {V : Type} [AddCommGroup V] (c : List V) (cs : List (List V)) (n : ℕ)
    (h : c.length = n) :
    reconstructed (c :: cs) n = List.zipWith (· + ·) c (reconstructed cs n) := by
  subst h
  apply List.ext_getElem?
  intro i
  unfold reconstructed
  by_cases hi : i < c.length
  · rw [List.getElem?_map, List.getElem?_range hi, List.getElem?_zipWith, List.getElem?_map,
      List.getElem?_range hi, List.getElem?_eq_getElem hi]
    simp [List.getD, List.getElem?_eq_getElem hi]
  · rw [List.getElem?_eq_none (by simpa using hi),
      List.getElem?_eq_none (by simp; omega)]

theorem pyIndex_node (depth level b : ℕ) (hl : level ≤ depth) (hb : b < 2 ^ level) :
    pyIndex (2 ^ (depth + 1) - 1) (nodeIndex level b) = some (2 ^ level + b - 1) := by
  have h1 : 2 ^ level ≤ 2 ^ depth := Nat.pow_le_pow_right (by norm_num) hl
  have h2 : 2 ^ (depth + 1) = 2 * 2 ^ depth := by ring
  have h3 : 0 < 2 ^ level := Nat.pos_of_ne_zero (by simp)
  unfold pyIndex nodeIndex
  have e : ((2 : ℤ) ^ level + b - 1) = ((2 ^ level + b - 1 : ℕ) : ℤ) := by
    rw [Nat.cast_sub (by omega)]; push_cast; ring
  rw [e, if_pos (by omega), if_pos (by omega), Int.toNat_natCast]

/-- Nodes have different positions. -/
theorem node_inj (l b l' b' : ℕ) (hb : b < 2 ^ l) (hb' : b' < 2 ^ l')
    (h : 2 ^ l + b - 1 = 2 ^ l' + b' - 1) : l = l' ∧ b = b' := by
  have p : 0 < 2 ^ l := Nat.pos_of_ne_zero (by simp)
  have p' : 0 < 2 ^ l' := Nat.pos_of_ne_zero (by simp)
  have e : l = l' := by
    rcases Nat.lt_trichotomy l l' with hl | hl | hl
    · have : 2 ^ (l + 1) ≤ 2 ^ l' := Nat.pow_le_pow_right (by norm_num) hl
      rw [pow_succ] at this; omega
    · exact hl
    · have : 2 ^ (l' + 1) ≤ 2 ^ l := Nat.pow_le_pow_right (by norm_num) hl
      rw [pow_succ] at this; omega
  subst e
  exact ⟨rfl, by omega⟩

end Verif.MrDMD
