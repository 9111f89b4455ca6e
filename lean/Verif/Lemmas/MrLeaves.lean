import Verif.Model.MrLeaves
import Verif.Lemmas.MrDMD
import Verif.Lemmas.Param
import Mathlib.Algebra.BigOperators.Group.List.Basic
import Mathlib.Tactic.Ring

/-!
# Lemmas on the accessors of `MrDMD`
-/

set_option autoImplicit false

namespace Verif.MrDMD

open Verif

variable {K ι : Type}

theorem mapM_ok' {α β : Type} (f : α → Except PyErr β) (g : α → β) (l : List α)
    (h : ∀ a ∈ l, f a = .ok (g a)) : l.mapM f = .ok (l.map g) := by
  induction l with
  | nil => rfl
  | cons a l ih =>
    rw [List.mapM_cons, h a (by simp), ih (fun b hb => h b (by simp [hb]))]
    rfl

theorem leaves_none (t : Tree (Leaf K ι)) (level : ℕ) (L : ℕ → Leaf K ι)
    (h : ∀ b : ℕ, b < 2 ^ level → t.get level b = .ok (some (L b))) :
    leaves t level none = .ok ((List.range (2 ^ level)).map L) := by
  refine mapM_ok' _ _ _ fun b hb => ?_
  simp only [node, h b (List.mem_range.1 hb)]

theorem leaves_some (t : Tree (Leaf K ι)) (level : ℕ) (b : ℕ) (a : Leaf K ι)
    (h : t.get level b = .ok (some a)) : leaves t level (some (b : ℤ)) = .ok [a] := by
  simp only [leaves, List.mapM_cons, node, h, List.mapM_nil]
  rfl

/-- The list of all the nodes level by level. -/
def levelOrder {α : Type} (d : ℕ) (L : ℕ → ℕ → α) : List α :=
  (List.range (d + 1)).flatMap fun l => (List.range (2 ^ l)).map (L l)

theorem levelOrder_succ {α : Type} (d : ℕ) (L : ℕ → ℕ → α) :
    levelOrder (d + 1) L = levelOrder d L ++ (List.range (2 ^ (d + 1))).map (L (d + 1)) := by
  rw [levelOrder, List.range_succ, List.flatMap_append]
  simp [levelOrder]

theorem length_levelOrder {α : Type} (d : ℕ) (L : ℕ → ℕ → α) :
    (levelOrder d L).length = 2 ^ (d + 1) - 1 := by
  induction d with
  | zero => simp [levelOrder]
  | succ d ih =>
    rw [levelOrder_succ, List.length_append, ih, List.length_map, List.length_range]
    have := Nat.one_le_two_pow (n := d + 1)
    rw [pow_succ 2 (d + 1)]
    omega

theorem levelOrder_getElem {α : Type} (d : ℕ) (L : ℕ → ℕ → α) (l b : ℕ) (hl : l ≤ d)
    (hb : b < 2 ^ l) : (levelOrder d L)[2 ^ l + b - 1]? = some (L l b) := by
  induction d with
  | zero =>
    obtain rfl : l = 0 := by omega
    obtain rfl : b = 0 := by simpa using hb
    simp [levelOrder]
  | succ d ih =>
    rw [levelOrder_succ]
    have h1 := Nat.one_le_two_pow (n := l)
    rcases Nat.lt_or_ge d l with h | h
    · obtain rfl : l = d + 1 := by omega
      rw [List.getElem?_append_right (by rw [length_levelOrder]; omega), length_levelOrder]
      have : 2 ^ (d + 1) + b - 1 - (2 ^ (d + 1) - 1) = b := by omega
      rw [this]
      simp [hb]
    · rw [List.getElem?_append_left, ih h]
      rw [length_levelOrder]
      have : 2 ^ (l + 1) ≤ 2 ^ (d + 1) := Nat.pow_le_pow_right (by norm_num) (by omega)
      rw [pow_succ] at this
      omega

theorem exists_level (d i : ℕ) (hi : i < 2 ^ (d + 1) - 1) :
    ∃ l b, l ≤ d ∧ b < 2 ^ l ∧ i = 2 ^ l + b - 1 := by
  induction d with
  | zero => exact ⟨0, 0, le_rfl, by norm_num, by simp at hi ⊢; omega⟩
  | succ d ih =>
    have h1 := Nat.one_le_two_pow (n := d + 1)
    rcases Nat.lt_or_ge i (2 ^ (d + 1) - 1) with h | h
    · obtain ⟨l, b, hl, hb, e⟩ := ih h
      exact ⟨l, b, by omega, hb, e⟩
    · refine ⟨d + 1, i - (2 ^ (d + 1) - 1), le_rfl, ?_, ?_⟩
      · rw [pow_succ 2 (d + 1)] at hi
        omega
      · omega

theorem tree_eq {α : Type} (t : Tree α) (L : ℕ → ℕ → α) (hlen : t.tree.length = 2 ^ (t.depth + 1) - 1)
    (h : ∀ l b : ℕ, l ≤ t.depth → b < 2 ^ l → t.get l b = .ok (some (L l b))) :
    t.tree = (levelOrder t.depth L).map some := by
  apply List.ext_getElem?
  intro i
  rcases Nat.lt_or_ge i (2 ^ (t.depth + 1) - 1) with hi | hi
  · obtain ⟨l, b, hl, hb, rfl⟩ := exists_level _ _ hi
    have := h l b hl hb
    have hb' : ¬ (2 ^ l : ℤ) ≤ (b : ℤ) := by
      have : (b : ℤ) < ((2 ^ l : ℕ) : ℤ) := by exact_mod_cast hb
      push_cast at this
      omega
    rw [Tree.get, if_neg (by omega), if_neg hb', hlen, pyIndex_node t.depth l b hl hb] at this
    rw [List.getElem?_map, levelOrder_getElem _ _ _ _ hl hb, Option.map_some]
    simp only [Except.ok.injEq] at this
    rw [List.getD_eq_getElem?_getD] at this
    rw [List.getElem?_eq_getElem (by omega)] at this ⊢
    simpa using this
  · rw [List.getElem?_eq_none (by omega), List.getElem?_eq_none]
    rw [List.length_map, length_levelOrder]
    exact hi

section

variable [CommRing K]

theorem length_blockDiag (ls : List (Leaf K ι)) :
    (blockDiag ls).length = (ls.map fun a => a.dynamics.length).sum := by
  induction ls with
  | nil => rfl
  | cons a ls ih => simp [blockDiag, ih]

theorem blockDiag_row_length (ls : List (Leaf K ι))
    (h : ∀ a ∈ ls, ∀ r ∈ a.dynamics, r.length = a.width) (r : List K) (hr : r ∈ blockDiag ls) :
    r.length = (ls.map Leaf.width).sum := by
  induction ls generalizing r with
  | nil => simp [blockDiag] at hr
  | cons a ls ih =>
    rw [blockDiag, List.mem_append, List.mem_map, List.mem_map] at hr
    rcases hr with ⟨q, hq, rfl⟩ | ⟨q, hq, rfl⟩
    · simp [h a (by simp) q hq]
    · have := ih (fun b hb => h b (by simp [hb])) q hq
      simp [this]

theorem product_length (ms : List (ι → K)) (ds : List (List K)) (n : ℕ) :
    (product ms ds n).length = n := by
  simp [product]

theorem product_getD (ms : List (ι → K)) (ds : List (List K)) (n i : ℕ) (hi : i < n) (x : ι) :
    (product ms ds n).getD i 0 x
      = (List.zipWith (fun m row => m x * row.getD i 0) ms ds).sum := by
  rw [List.getD_eq_getElem?_getD]
  simp [product, hi]

theorem getD_pad_left (r : List K) (n m i : ℕ) (hr : r.length = n) (hi : i < n) :
    (r ++ List.replicate m 0).getD i 0 = r.getD i 0 := by
  simp only [List.getD_eq_getElem?_getD]
  rw [List.getElem?_append_left (by omega)]

theorem getD_pad_zero (r : List K) (n m i : ℕ) (hr : r.length = n) (hi : n ≤ i) :
    (r ++ List.replicate m (0 : K)).getD i 0 = 0 := by
  rw [List.getD_eq_getElem?_getD, List.getElem?_append_right (by omega), List.getElem?_replicate]
  split <;> rfl

theorem getD_shift_zero (r : List K) (n i : ℕ) (hi : i < n) :
    (List.replicate n (0 : K) ++ r).getD i 0 = 0 := by
  rw [List.getD_eq_getElem?_getD, List.getElem?_append_left (by simpa using hi),
    List.getElem?_replicate]
  split <;> rfl

theorem getD_shift (r : List K) (n i : ℕ) (hi : n ≤ i) :
    (List.replicate n (0 : K) ++ r).getD i 0 = r.getD (i - n) 0 := by
  simp only [List.getD_eq_getElem?_getD]
  rw [List.getElem?_append_right (by simpa using hi)]
  simp

theorem zipWith_sum_zero {A B : Type} (f : A → B → K) (as : List A) (bs : List B)
    (h : ∀ a, ∀ b ∈ bs, f a b = 0) : (List.zipWith f as bs).sum = 0 := by
  induction bs generalizing as with
  | nil => simp
  | cons b bs ih =>
    cases as with
    | nil => simp
    | cons a as =>
      simp [h a b (by simp), ih as fun a b hb => h a b (by simp [hb])]

theorem zipWith_sum_congr {A B C : Type} (f : A → B → K) (g : A → C → K) (e : C → B)
    (as : List A) (bs : List C) (h : ∀ a, ∀ b ∈ bs, f a (e b) = g a b) :
    (List.zipWith f as (bs.map e)).sum = (List.zipWith g as bs).sum := by
  induction bs generalizing as with
  | nil => simp
  | cons b bs ih =>
    cases as with
    | nil => simp
    | cons a as => simp [h a b (by simp), ih as fun a b hb => h a b (by simp [hb])]

/-- The product of the stacked modes with the block diagonal is the stacked products. -/
theorem product_blockDiag (ls : List (Leaf K ι))
    (h : ∀ a ∈ ls, a.dynamics.length = a.modes.length ∧ ∀ r ∈ a.dynamics, r.length = a.width) :
    product (ls.flatMap Leaf.modes) (blockDiag ls) (ls.map Leaf.width).sum
      = ls.flatMap Leaf.reconstructed := by
  induction ls with
  | nil => rfl
  | cons a ls ih =>
    have ih := ih fun b hb => h b (by simp [hb])
    obtain ⟨ha, hr⟩ := h a (by simp)
    rw [List.flatMap_cons, List.flatMap_cons, ← ih, blockDiag]
    simp only [List.map_cons, List.sum_cons]
    rw [product, List.range_add, List.map_append]
    congr 1
    · rw [Leaf.reconstructed, product]
      refine List.map_congr_left fun i hi => ?_
      have hi := List.mem_range.1 hi
      funext x
      rw [List.zipWith_append (by simp [ha]), List.sum_append]
      rw [zipWith_sum_congr _ (fun (m : ι → K) row => m x * row.getD i 0)]
      · rw [zipWith_sum_zero (as := ls.flatMap Leaf.modes), add_zero]
        intro m b hb
        obtain ⟨q, -, rfl⟩ := List.mem_map.1 hb
        rw [getD_shift_zero _ _ _ hi, mul_zero]
      · intro m q hq
        rw [getD_pad_left _ _ _ _ (hr q hq) hi]
    · rw [List.map_map, product]
      refine List.map_congr_left fun i hi => ?_
      funext x
      simp only [Function.comp]
      rw [List.zipWith_append (by simp [ha]), List.sum_append]
      rw [zipWith_sum_zero (as := a.modes), zero_add]
      · rw [zipWith_sum_congr _ (fun (m : ι → K) row => m x * row.getD i 0)]
        intro m q hq
        rw [getD_shift _ _ _ (by omega), Nat.add_sub_cancel_left]
      · intro m b hb
        obtain ⟨q, hq, rfl⟩ := List.mem_map.1 hb
        rw [getD_pad_zero _ _ _ _ (hr q hq) (by omega), mul_zero]

/-- The rows of the block diagonal, one leaf after the other. -/
theorem blockDiag_rows (ls : List (Leaf K ι)) :
    blockDiag ls = (List.range ls.length).flatMap fun b =>
      ((ls.map Leaf.dynamics).getD b []).map fun row =>
        List.replicate ((ls.take b).map Leaf.width).sum 0 ++ row
          ++ List.replicate ((ls.drop (b + 1)).map Leaf.width).sum 0 := by
  induction ls with
  | nil => rfl
  | cons a ls ih =>
    rw [blockDiag, ih, List.length_cons, List.range_succ_eq_map, List.flatMap_cons]
    refine congrArg₂ (· ++ ·) ?_ ?_
    · simp
    · rw [List.map_flatMap, List.flatMap_map]
      refine List.flatMap_congr fun b hb => ?_
      rw [List.map_map]
      simp only [List.map_cons, Nat.succ_eq_add_one, List.getD_cons_succ, List.take_succ_cons,
        List.sum_cons, List.drop_succ_cons]
      refine List.map_congr_left fun r _ => ?_
      simp only [Function.comp]
      rw [List.replicate_add, List.append_assoc, List.append_assoc, List.append_assoc]

/-- Products add up over stacked blocks of equally many modes and rows. -/
theorem zipWith_sum_flatten {A B : Type} (f : A → B → K) (l : List (List A × List B))
    (h : ∀ p ∈ l, p.1.length = p.2.length) :
    (List.zipWith f (l.map Prod.fst).flatten (l.map Prod.snd).flatten).sum
      = (l.map fun p => (List.zipWith f p.1 p.2).sum).sum := by
  induction l with
  | nil => rfl
  | cons p l ih =>
    simp only [List.map_cons, List.flatten_cons, List.sum_cons]
    rw [List.zipWith_append (h p (by simp)), List.sum_append, ih fun q hq => h q (by simp [hq])]

end

end Verif.MrDMD
