import Verif.Model.Hankel
import Mathlib.Tactic.Ring
import Mathlib.Tactic.Linarith
import Mathlib.Tactic.FieldSimp
import Mathlib.Algebra.CharZero.Defs

/-!
# Lemmas about delay embedding
-/

set_option autoImplicit false

namespace Verif.Hankel

open Verif

variable {K : Type}

theorem flatten_uniform_length (n : ℕ) (L : List (List K)) (h : ∀ x ∈ L, x.length = n) :
    L.flatten.length = L.length * n := by
  induction L with
  | nil => simp
  | cons a L ih =>
    rw [List.flatten_cons, List.length_append, ih fun x hx => h x (List.mem_cons_of_mem _ hx),
      h a List.mem_cons_self, List.length_cons]
    ring

/-- Block `j` of a concatenation of lists of length `n` is the `j`-th of them. -/
theorem block_flatten (n : ℕ) (L : List (List K)) (h : ∀ x ∈ L, x.length = n) (j : ℕ)
    (hj : j < L.length) : block n L.flatten j = L[j] := by
  induction L generalizing j with
  | nil => simp at hj
  | cons a L ih =>
    have ha := h a List.mem_cons_self
    cases j with
    | zero =>
      simp [block, List.take_append, ha, List.take_of_length_le (Nat.le_of_eq ha)]
    | succ j =>
      have := ih (fun x hx => h x (List.mem_cons_of_mem _ hx)) j (by simpa using hj)
      rw [List.getElem_cons_succ, ← this]
      unfold block
      rw [List.flatten_cons, List.drop_append, List.drop_of_length_le (by rw [ha]; nlinarith), ha,
        List.nil_append]
      congr 2
      rw [Nat.succ_mul]; omega

theorem getElem?_flatten_uniform (n : ℕ) (L : List (List K)) (h : ∀ x ∈ L, x.length = n) (j i : ℕ)
    (hj : j < L.length) (hi : i < n) : L.flatten[j * n + i]? = (L[j])[i]? := by
  rw [← block_flatten n L h j hj, block, List.getElem?_take, if_pos hi, List.getElem?_drop]

/-- The versions collected from the Hankel matrix of `X`. -/
theorem versions_hankel (n d : ℕ) (X : List (List K)) (h : ∀ x ∈ X, x.length = n) (hd : 0 < d)
    (hT : d ≤ X.length) :
    versions ((List.range (X.length - d + 1)).map fun c => ((X.drop c).take d).flatten) d =
      (List.range X.length).map fun t => (List.range d).map fun j =>
        if j ≤ t ∧ t - j < X.length - d + 1 then X[t]? else none := by
  have hsub : ∀ c, ∀ x ∈ (X.drop c).take d, x.length = n := fun c x hx =>
    h x (List.mem_of_mem_drop (List.mem_of_mem_take hx))
  have hlen : ∀ c, c < X.length - d + 1 → ((X.drop c).take d).length = d := by
    intro c hc
    rw [List.length_take, List.length_drop]
    omega
  have hspace : ((((List.range (X.length - d + 1)).map fun c =>
      ((X.drop c).take d).flatten).headD []).length / d) = n := by
    have e : ((List.range (X.length - d + 1)).map fun c => ((X.drop c).take d).flatten).headD [] =
        ((X.drop 0).take d).flatten := by
      rw [List.range_succ_eq_map]; rfl
    rw [e, flatten_uniform_length n _ (hsub 0), hlen 0 (by omega), Nat.mul_div_cancel_left _ hd]
  unfold versions
  simp only [hspace]
  rw [List.length_map, List.length_range, show X.length - d + 1 + d - 1 = X.length by omega]
  apply List.map_congr_left
  intro t ht
  apply List.map_congr_left
  intro j hj
  rw [List.mem_range] at ht hj
  by_cases h1 : j ≤ t
  · by_cases h2 : t - j < X.length - d + 1
    · rw [if_pos h1, if_pos ⟨h1, h2⟩, List.getElem?_map, List.getElem?_range h2, Option.map_some,
        Option.map_some, block_flatten n _ (hsub _) j (by rw [hlen _ h2]; exact hj),
        List.getElem_take, List.getElem_drop, List.getElem?_eq_getElem ht]
      congr 2
      omega
    · rw [if_pos h1, if_neg (fun h => h2 h.2), List.getElem?_eq_none (by simp; omega)]
      rfl
  · rw [if_neg h1, if_neg (fun h => h1 h.1)]

/-- Weighted average of versions that all equal `x`. -/
theorem average_const [Field K] [DecidableEq K] (w : List K) (x : List K)
    (vs : List (Option (List K))) (h : ∀ v ∈ vs, v = some x ∨ v = none) (hw : wtotal w vs ≠ 0) :
    average x.length w vs = x := by
  have key : ∀ i, (List.zipWith (fun a (v : Option (List K)) => v.elim 0 fun x => a * x.getD i 0)
      w vs).sum = wtotal w vs * x.getD i 0 := by
    intro i
    clear hw
    induction vs generalizing w with
    | nil => simp [wtotal]
    | cons v vs ih =>
      cases w with
      | nil => simp [wtotal]
      | cons a w =>
        have := ih w fun v hv => h v (List.mem_cons_of_mem _ hv)
        simp only [List.zipWith_cons_cons, List.sum_cons, wtotal] at this ⊢
        rw [this]
        rcases h v List.mem_cons_self with rfl | rfl
        · simp only [Option.elim_some]; ring
        · simp only [Option.elim_none]; ring
  rw [average, if_neg hw, wsum, List.map_map]
  apply List.ext_getElem?
  intro i
  rw [List.getElem?_map]
  by_cases hi : i < x.length
  · rw [List.getElem?_range hi, Option.map_some, Function.comp, key, mul_div_cancel_left₀ _ hw]
    simp [List.getD, hi]
  · simp [List.getElem?_eq_none (Nat.le_of_not_lt hi)]
    omega

/-- The total weight of the available versions as a filtered sum. -/
theorem wtotal_eq [Field K] (w : List K) (d : ℕ) (hw : w.length = d) (p : ℕ → Prop)
    [DecidablePred p] (x : List K) :
    wtotal w ((List.range d).map fun j => if p j then some x else none) =
      (((List.range d).filter fun j => p j).map fun j => w.getD j 0).sum := by
  subst hw
  have key : ∀ (w : List K) (f : ℕ → ℕ), wtotal w ((List.range w.length).map fun j =>
      if p (f j) then some x else none) =
      (((List.range w.length).filter fun j => p (f j)).map fun j => w.getD j 0).sum := by
    intro w
    induction w with
    | nil => intro f; simp [wtotal]
    | cons a w ih =>
      intro f
      have := ih (fun j => f (j + 1))
      rw [List.length_cons, List.range_succ_eq_map, List.map_cons, List.map_map,
        List.filter_cons, List.filter_map]
      by_cases h : p (f 0)
      · simp only [h, wtotal, List.zipWith_cons_cons, List.sum_cons, if_true, decide_true,
          List.map_cons, List.map_map] at this ⊢
        rw [show (List.getD (a :: w) 0 0) = a from rfl]
        congr 1
      · simp only [h, wtotal, List.zipWith_cons_cons, List.sum_cons, if_false, decide_false,
          List.map_map, zero_add, Bool.false_eq_true, Option.elim_none] at this ⊢
        exact this
  exact key w id

end Verif.Hankel
