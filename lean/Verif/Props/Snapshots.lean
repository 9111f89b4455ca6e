import Verif.Lemmas.Snapshots

/-!
# Property C20: snapshots are flattened losslessly
-/

set_option autoImplicit false

namespace Verif.Snap

open Verif

variable {α : Type}

private theorem prod_pos : ∀ {s : List ℕ}, (∀ n ∈ s, 0 < n) → 0 < s.prod
  | [], _ => by simp
  | n :: s, h => by
      rw [List.prod_cons]
      exact Nat.mul_pos (h n List.mem_cons_self) (prod_pos fun k hk => h k (List.mem_cons_of_mem _ hk))

private theorem isSome_get (l : List α) (i : ℕ) : (l[i]?.isSome) = decide (i < l.length) := by
  by_cases h : i < l.length
  · simp [h]
  · simp [h, List.getElem?_eq_none (Nat.le_of_not_lt h)]

/-- **C20** (array argument). An array of shape `s + (T,)` with at least one space axis, `T ≥ 2`
and no empty axis is accepted; the snapshot shape is `s`, there is one column per time instant,
and the entry of column `t` at the C-order position of the multi-index `idx` is
`X[idx + (t,)]`. -/
theorem C20_array (s : List ℕ) (T : ℕ) (data : List α) (h : data.length = s.prod * T)
    (hs : s ≠ []) (hp : ∀ n ∈ s, 0 < n) (hT : 2 ≤ T) :
    ∃ S, init (.array ⟨s ++ [T], data⟩) = .ok S ∧ S.shape = s ∧ S.cols = T ∧ S.rows = s.prod ∧
      ∀ idx t, Valid s idx → t < T →
        S.get (ravel s idx) t = Arr.at ⟨s ++ [T], data⟩ (idx ++ [t]) ∧
        (S.get (ravel s idx) t).isSome := by
  have hp' : 0 < s.prod := prod_pos hp
  have hd : data.length / T = s.prod := by
    rw [h, Nat.mul_div_cancel _ (by omega)]
  have h1 : (s ++ [T]).length ≠ 1 := by
    simpa using hs
  refine ⟨⟨s.prod, T, data, s⟩, ?_, rfl, rfl, rfl, fun idx t hv ht => ?_⟩
  · have hu : unroll (.array ⟨s ++ [T], data⟩) = .ok ⟨s.prod, T, data, s⟩ := by
      simp only [unroll, h1, if_false, List.getLast?_append, List.getLast?_singleton,
        Option.some_or, hd, List.dropLast_concat]
      rw [if_neg (by omega)]
    simp only [init, hu, bind, Except.bind, pure, Except.pure]
    rw [if_neg (by omega), if_neg (by omega)]
  · have hr := ravel_lt hv
    have hg : Snapshots.get ⟨s.prod, T, data, s⟩ (ravel s idx) t = data[ravel s idx * T + t]? := by
      rw [Snapshots.get, if_pos ⟨hr, ht⟩]
    refine ⟨by rw [hg, Arr.at, ravel_snoc T t hv], ?_⟩
    rw [hg, isSome_get, decide_eq_true_iff, h]
    calc ravel s idx * T + t < ravel s idx * T + T := by omega
      _ = (ravel s idx + 1) * T := by ring
      _ ≤ s.prod * T := Nat.mul_le_mul_right _ hr

/-- **C20** (list argument). A list of at least two arrays of the same nonempty shape `s` is
accepted; column `t` is the C-order flattening of element `t`. -/
theorem C20_list (s : List ℕ) (l : List (Arr α)) (hl : ∀ a ∈ l, a.shape = s ∧ a.WF)
    (hs : s ≠ []) (hp : ∀ n ∈ s, 0 < n) (hT : 2 ≤ l.length) :
    ∃ S, init (.list l) = .ok S ∧ S.shape = s ∧ S.cols = l.length ∧ S.rows = s.prod ∧
      ∀ idx t a, Valid s idx → l[t]? = some a →
        S.get (ravel s idx) t = a.at idx ∧ (S.get (ravel s idx) t).isSome := by
  obtain ⟨a, l, rfl⟩ : ∃ a l', l = a :: l' := by
    cases l with
    | nil => simp at hT
    | cons a l => exact ⟨a, l, rfl⟩
  have hp' : 0 < s.prod := prod_pos hp
  have ha := hl a List.mem_cons_self
  have hn : a.data.length = s.prod := by rw [ha.2, ha.1]
  have hlen : ∀ x ∈ (a :: l).map (·.data), x.length = s.prod := by
    intro x hx
    obtain ⟨b, hb, rfl⟩ := List.mem_map.mp hx
    rw [(hl b hb).2, (hl b hb).1]
  refine ⟨⟨s.prod, l.length + 1, stackLast s.prod ((a :: l).map (·.data)), s⟩, ?_, rfl, rfl, rfl,
    fun idx t b hv ht => ?_⟩
  · have hany : l.any (fun b => b.shape != a.shape) = false := by
      rw [List.any_eq_false]
      intro b hb
      simp [ha.1, (hl b (List.mem_cons_of_mem _ hb)).1]
    have h0 : a.shape.length ≠ 0 := by
      rw [ha.1]; simpa using hs
    have hu : unroll (.list (a :: l)) =
        .ok ⟨s.prod, l.length + 1, stackLast s.prod ((a :: l).map (·.data)), s⟩ := by
      rw [unroll, hany, if_neg (by simp), if_neg h0, hn, ha.1]
    simp only [List.length_cons] at hT
    simp only [init, hu, bind, Except.bind, pure, Except.pure]
    rw [if_neg (by omega), if_neg (by omega)]
  · have hr := ravel_lt hv
    obtain ⟨htl, -⟩ := List.getElem?_eq_some_iff.mp ht
    have hb := List.mem_of_getElem? ht
    have hg : Snapshots.get ⟨s.prod, l.length + 1, stackLast s.prod ((a :: l).map (·.data)), s⟩
        (ravel s idx) t = b.data[ravel s idx]? := by
      rw [Snapshots.get, if_pos ⟨hr, by simpa using htl⟩]
      have := stackLast_get s.prod ((a :: l).map (·.data)) hlen (ravel s idx) t hr
        (by simpa using htl)
      rw [List.length_map, List.length_cons] at this
      rw [this, List.getElem?_map, ht]
      rfl
    refine ⟨by rw [hg, Arr.at, (hl b hb).1], ?_⟩
    rw [hg, isSome_get, decide_eq_true_iff, (hl b hb).2, (hl b hb).1]
    exact hr

/-- **C20** (lossless). The C-order position determines the multi-index, and every row is the
position of some multi-index counted by `s.prod`: distinct entries of a snapshot go to distinct
rows. -/
theorem C20_injective (s idx idx' : List ℕ) (h : Valid s idx) (h' : Valid s idx') :
    ravel s idx < s.prod ∧ (ravel s idx = ravel s idx' → idx = idx') :=
  ⟨ravel_lt h, ravel_inj h h'⟩

/-- **C20** (rejected inputs). One-dimensional arrays, arrays with one or no time instant, empty
lists, lists of one snapshot, lists with snapshots of different shapes and lists of scalars
raise `ValueError`. -/
theorem C20_errors :
    (∀ (n : ℕ) (data : List α), init (.array ⟨[n], data⟩) = .error .valueError) ∧
    (∀ (s : List ℕ) (data : List α), init (.array ⟨s ++ [0], data⟩) = .error .valueError) ∧
    (∀ (s : List ℕ) (data : List α), init (.array ⟨s ++ [1], data⟩) = .error .valueError) ∧
    init (.list ([] : List (Arr α))) = .error .valueError ∧
    (∀ a : Arr α, init (.list [a]) = .error .valueError) ∧
    (∀ l : List (Arr α), (∃ a ∈ l, ∃ b ∈ l, a.shape ≠ b.shape) →
      init (.list l) = .error .valueError) ∧
    (∀ l : List (Arr α), (∃ a ∈ l, a.shape = []) → init (.list l) = .error .valueError) := by
  have hbad : ∀ (a : Arr α) (l : List (Arr α)),
      (∃ b ∈ l, b.shape ≠ a.shape) → init (.list (a :: l)) = .error .valueError := by
    rintro a l ⟨b, hb, hne⟩
    have : l.any (fun b => b.shape != a.shape) = true :=
      List.any_eq_true.mpr ⟨b, hb, by simpa using hne⟩
    simp [init, unroll, this, bind, Except.bind]
  refine ⟨fun n data => by simp [init, unroll, bind, Except.bind], fun s data => ?_,
    fun s data => ?_, by simp [init, unroll, bind, Except.bind], fun a => ?_, fun l => ?_,
    fun l => ?_⟩
  · by_cases h : s = [] <;> simp [init, unroll, h, bind, Except.bind]
  · by_cases h : s = [] <;> simp [init, unroll, h, bind, Except.bind]
  · by_cases h : a.shape = [] <;> simp [init, unroll, h, bind, Except.bind]
  · rintro ⟨a, ha, b, hb, hne⟩
    cases l with
    | nil => simp at ha
    | cons c l =>
      apply hbad
      by_cases h : a.shape = c.shape
      · have hbc : b.shape ≠ c.shape := fun e => hne (h.trans e.symm)
        refine ⟨b, (List.mem_cons.mp hb).resolve_left ?_, hbc⟩
        rintro rfl; exact hbc rfl
      · refine ⟨a, (List.mem_cons.mp ha).resolve_left ?_, h⟩
        rintro rfl; exact h rfl
  · rintro ⟨a, ha, hne⟩
    cases l with
    | nil => simp at ha
    | cons c l =>
      by_cases h : c.shape = []
      · by_cases hany : l.any (fun b => b.shape != c.shape) = true
        · simp [init, unroll, hany, bind, Except.bind]
        · simp [init, unroll, bind, Except.bind, h]
      · apply hbad
        refine ⟨a, (List.mem_cons.mp ha).resolve_left ?_, by rw [hne]; exact fun e => h e.symm⟩
        rintro rfl; exact h hne

/-- Two 2x3 snapshots in an array of shape `(2, 3, 2)` and as a list. -/
example : init (.array ⟨[2, 3, 2], [0, 10, 1, 11, 2, 12, 3, 13, 4, 14, 5, 15]⟩) =
    init (.list [⟨[2, 3], [0, 1, 2, 3, 4, 5]⟩, ⟨[2, 3], [10, 11, 12, 13, 14, 15]⟩]) := by
  decide

example : Valid [2, 3] [1, 2] := by simp [Valid]

end Verif.Snap
