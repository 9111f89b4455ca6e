import Verif.Spec.Snapshots
import Mathlib.Tactic.Ring
import Mathlib.Tactic.Linarith

/-!
# Lemmas about multi-indices and flattening
-/

set_option autoImplicit false

namespace Verif.Snap

variable {α : Type}

theorem ravel_lt : ∀ {s idx : List ℕ}, Valid s idx → ravel s idx < s.prod
  | _, _, .nil => by simp [ravel]
  | n :: s, i :: idx, .cons h hs => by
      have ih := ravel_lt hs
      rw [ravel, List.prod_cons]
      calc i * s.prod + ravel s idx < i * s.prod + s.prod := by omega
        _ = (i + 1) * s.prod := by ring
        _ ≤ n * s.prod := Nat.mul_le_mul_right _ h

theorem ravel_inj : ∀ {s idx idx' : List ℕ}, Valid s idx → Valid s idx' →
    ravel s idx = ravel s idx' → idx = idx'
  | _, _, _, .nil, .nil, _ => rfl
  | n :: s, i :: idx, i' :: idx', .cons h hs, .cons h' hs', e => by
      have a := ravel_lt hs
      have b := ravel_lt hs'
      rw [ravel, ravel] at e
      have hp : 0 < s.prod := by omega
      have e1 : i = i' := by
        have := congrArg (· / s.prod) e
        simp only [Nat.add_comm (_ * _), Nat.add_mul_div_right _ _ hp,
          Nat.div_eq_of_lt a, Nat.div_eq_of_lt b, Nat.zero_add] at this
        exact this
      subst e1
      rw [ravel_inj hs hs' (by omega)]

theorem ravel_snoc : ∀ {s idx : List ℕ} (T t : ℕ), Valid s idx →
    ravel (s ++ [T]) (idx ++ [t]) = ravel s idx * T + t
  | _, _, T, t, .nil => by simp [ravel]
  | n :: s, i :: idx, T, t, .cons h hs => by
      simp only [List.cons_append, ravel, List.prod_append, List.prod_cons, List.prod_nil,
        ravel_snoc T t hs]
      ring

theorem length_flatMap_range (f : ℕ → List α) (L n : ℕ) (hf : ∀ i, i < n → (f i).length = L) :
    ((List.range n).flatMap f).length = n * L := by
  induction n with
  | zero => simp
  | succ n ih =>
    rw [List.range_succ, List.flatMap_append, List.length_append, ih fun i h => hf i (by omega)]
    simp [hf n (by omega)]
    ring

/-- Entries of a concatenation of `n` lists of length `L`. -/
theorem getElem?_flatMap_range (f : ℕ → List α) (L n : ℕ) (hf : ∀ i, i < n → (f i).length = L)
    (i t : ℕ) (hi : i < n) (ht : t < L) :
    ((List.range n).flatMap f)[i * L + t]? = (f i)[t]? := by
  induction n with
  | zero => omega
  | succ n ih =>
    have hl := length_flatMap_range f L n fun i h => hf i (by omega)
    rw [List.range_succ, List.flatMap_append]
    rcases Nat.lt_succ_iff_lt_or_eq.mp hi with h | rfl
    · rw [List.getElem?_append_left, ih (fun i h => hf i (by omega)) h]
      rw [hl]
      calc i * L + t < i * L + L := by omega
        _ = (i + 1) * L := by ring
        _ ≤ n * L := Nat.mul_le_mul_right _ h
    · rw [List.getElem?_append_right (by rw [hl]; omega), hl, Nat.add_sub_cancel_left]
      simp

theorem filterMap_getElem? (l : List (List α)) (n i : ℕ) (h : ∀ a ∈ l, a.length = n) (hi : i < n) :
    (l.filterMap fun a => a[i]?).length = l.length ∧
    ∀ t : ℕ, (l.filterMap fun a => a[i]?)[t]? = l[t]?.bind (·[i]?) := by
  induction l with
  | nil => simp
  | cons a l ih =>
    obtain ⟨ih1, ih2⟩ := ih fun b hb => h b (List.mem_cons_of_mem _ hb)
    have ha : i < a.length := by rw [h a List.mem_cons_self]; exact hi
    have e : ((a :: l).filterMap fun a => a[i]?) = a[i] :: (l.filterMap fun a => a[i]?) := by
      rw [List.filterMap_cons, List.getElem?_eq_getElem ha]
    rw [e]
    refine ⟨by simp [ih1], fun t => ?_⟩
    cases t with
    | zero => simp [ha]
    | succ t => simpa using ih2 t

/-- Entries of the transposed stack. -/
theorem stackLast_get (n : ℕ) (arrays : List (List α)) (h : ∀ a ∈ arrays, a.length = n) (i t : ℕ)
    (hi : i < n) (ht : t < arrays.length) :
    (stackLast n arrays)[i * arrays.length + t]? = arrays[t]?.bind (·[i]?) := by
  unfold stackLast
  rw [getElem?_flatMap_range _ arrays.length n
    (fun i hi => (filterMap_getElem? arrays n i h hi).1) i t hi ht]
  exact (filterMap_getElem? arrays n i h hi).2 t

theorem stackLast_length (n : ℕ) (arrays : List (List α)) (h : ∀ a ∈ arrays, a.length = n) :
    (stackLast n arrays).length = n * arrays.length :=
  length_flatMap_range _ arrays.length n fun i hi => (filterMap_getElem? arrays n i h hi).1

end Verif.Snap
