import Verif.Model.MrCosts
import Mathlib.Tactic.Linarith
import Mathlib.Tactic.Ring
import Mathlib.Algebra.Order.AbsoluteValue.Basic

/-!
# Lemmas on nearest-neighbour interpolation and selection
-/

set_option autoImplicit false

namespace Verif.MrCosts

open Verif Verif.Costs

variable {α : Type}

/-- Strictly increasing points, by index. -/
def Increasing (xs : List ℚ) : Prop := ∀ i j, i < j → j < xs.length → xs.getD i 0 < xs.getD j 0

theorem Increasing.tail {a : ℚ} {xs : List ℚ} (h : Increasing (a :: xs)) : Increasing xs := by
  intro i j hij hj
  have := h (i + 1) (j + 1) (by omega) (by simpa using hj)
  simpa using this

theorem Increasing.le {xs : List ℚ} (h : Increasing xs) {i j : ℕ} (hij : i ≤ j)
    (hj : j < xs.length) : xs.getD i 0 ≤ xs.getD j 0 := by
  rcases Nat.lt_or_eq_of_le hij with h1 | h1
  · exact (h i j h1 hj).le
  · rw [h1]

/-- Between the midpoints to its neighbours the nearest point is `k`. -/
theorem midCount_eq (xs : List ℚ) (h : Increasing xs) (x : ℚ) (k : ℕ) (hk : k < xs.length)
    (hl : ∀ j, j + 1 = k → (xs.getD j 0 + xs.getD k 0) / 2 < x)
    (hr : k + 1 < xs.length → x ≤ (xs.getD k 0 + xs.getD (k + 1) 0) / 2) :
    midCount xs x = k := by
  induction xs generalizing k with
  | nil => simp at hk
  | cons a xs ih =>
    cases xs with
    | nil =>
      have : k = 0 := by simpa using hk
      subst this
      rfl
    | cons b rest =>
      rw [midCount]
      cases k with
      | zero =>
        have h1 : x ≤ (a + b) / 2 := by simpa using hr (by simp)
        rw [if_neg (not_lt.2 h1), Nat.zero_add]
        refine ih h.tail 0 (by simp) (by intro j hj; omega) ?_
        intro hlen
        have h2 := h 0 1 (by omega) (by simp)
        have h3 := h 1 2 (by omega) (by simpa using hlen)
        simp only [List.getD_cons_zero, List.getD_cons_succ] at h2 h3 ⊢
        linarith
      | succ k =>
        have h1 : (a + b) / 2 < x := by
          cases k with
          | zero => simpa using hl 0 rfl
          | succ k =>
            have h2 := hl (k + 1) rfl
            have h3 := h.le (i := 0) (j := k + 1) (by omega) (by omega)
            have h4 := h.le (i := 1) (j := k + 2) (by omega) hk
            simp only [List.getD_cons_zero, List.getD_cons_succ] at h2 h3 h4
            linarith
        rw [if_pos h1, ih h.tail k (by simpa using hk) ?_ ?_]
        · omega
        · intro j hj
          have := hl (j + 1) (by omega)
          simpa using this
        · intro hlen
          have := hr (by simpa using hlen)
          simpa using this

/-- The points up to `x`. -/
theorem filter_le_length (g : List ℚ) (h : Increasing g) (x : ℚ) :
    (∀ j, j < (g.filter fun y => y ≤ x).length → g.getD j 0 ≤ x) ∧
      ∀ j, (g.filter fun y => y ≤ x).length ≤ j → j < g.length → x < g.getD j 0 := by
  induction g with
  | nil => simp
  | cons a g ih =>
    obtain ⟨h1, h2⟩ := ih h.tail
    by_cases ha : a ≤ x
    · rw [List.filter_cons_of_pos (by simpa using ha), List.length_cons]
      constructor
      · intro j hj
        cases j with
        | zero => simpa using ha
        | succ j => simpa using h1 j (by omega)
      · intro j hj hj'
        cases j with
        | zero => omega
        | succ j => simpa using h2 j (by omega) (by simpa using hj')
    · have hall : ∀ y ∈ g, ¬ y ≤ x := by
        intro y hy
        obtain ⟨i, hi, rfl⟩ := List.mem_iff_getElem.1 hy
        have := h 0 (i + 1) (by omega) (by simpa using hi)
        rw [List.getD_cons_zero, List.getD_cons_succ, List.getD_eq_getElem?_getD,
          List.getElem?_eq_getElem hi, Option.getD_some] at this
        rw [not_le] at ha ⊢
        exact ha.trans this
      have he : (a :: g).filter (fun y => decide (y ≤ x)) = [] := by
        rw [List.filter_eq_nil_iff]
        intro y hy
        rcases List.mem_cons.1 hy with rfl | hy
        · simpa using ha
        · simpa using hall y hy
      rw [he]
      constructor
      · intro j hj; simp at hj
      · intro j _ hj
        rw [not_le] at ha
        refine ha.trans_le ?_
        exact h.le (i := 0) (Nat.zero_le j) hj

/-- The selected grid point is a grid point at distance at most half the largest gap. -/
theorem selNearest_near (g : List ℚ) (h : Increasing g) (s x : ℚ) (hs : 0 ≤ s)
    (hgap : ∀ i, i + 1 < g.length → g.getD (i + 1) 0 - g.getD i 0 ≤ s) (hn : 0 < g.length)
    (hlo : g.getD 0 0 ≤ x) (hhi : x ≤ g.getD (g.length - 1) 0) :
    selNearest g x < g.length ∧ g.getD (selNearest g x) 0 - x ≤ s / 2 ∧
      x - g.getD (selNearest g x) 0 ≤ s / 2 := by
  obtain ⟨h1, h2⟩ := filter_le_length g h x
  have hlen : (g.filter fun y => y ≤ x).length ≤ g.length := List.length_filter_le _ _
  unfold selNearest
  generalize (g.filter fun y => decide (y ≤ x)).length = left at h1 h2 hlen
  simp only
  have hleft : left ≠ 0 := by
    intro h0
    have := h2 0 (by omega) hn
    linarith
  have hprev := h1 (left - 1) (by omega)
  by_cases hany : (g.any fun y => y == x) = true
  · rw [if_pos hany]
    obtain ⟨y, hy, he⟩ := List.any_eq_true.1 hany
    rw [beq_iff_eq] at he
    subst he
    obtain ⟨i, hi, rfl⟩ := List.mem_iff_getElem.1 hy
    have hgi : g.getD i 0 = g[i] := by
      rw [List.getD_eq_getElem?_getD, List.getElem?_eq_getElem hi, Option.getD_some]
    have hil : i < left := by
      by_contra hc
      have := h2 i (by omega) hi
      rw [hgi] at this
      exact lt_irrefl _ this
    have := h.le (i := i) (j := left - 1) (by omega) (by omega)
    rw [hgi] at this
    refine ⟨by omega, by linarith, by linarith⟩
  · rw [if_neg hany, if_neg hleft]
    by_cases hfull : left = g.length
    · rw [if_pos hfull]
      subst hfull
      exact ⟨by omega, by linarith, by linarith⟩
    · rw [if_neg hfull]
      have hnext := h2 left (by omega) (by omega)
      have hg := hgap (left - 1) (by omega)
      rw [show left - 1 + 1 = left by omega] at hg
      split
      next hc => exact ⟨by omega, by linarith, by linarith⟩
      next hc =>
        rw [not_lt] at hc
        exact ⟨by omega, by linarith, by linarith⟩

/-- A grid point selects itself. -/
theorem selNearest_self (g : List ℚ) (h : Increasing g) (k : ℕ) (hk : k < g.length) :
    selNearest g (g.getD k 0) = k := by
  obtain ⟨h1, h2⟩ := filter_le_length g h (g.getD k 0)
  have hlen : (g.filter fun y => y ≤ g.getD k 0).length ≤ g.length := List.length_filter_le _ _
  have hgk : g.getD k 0 = g[k] := by
    rw [List.getD_eq_getElem?_getD, List.getElem?_eq_getElem hk, Option.getD_some]
  unfold selNearest
  generalize (g.filter fun y => decide (y ≤ g.getD k 0)).length = left at h1 h2 hlen
  simp only
  have hany : (g.any fun y => y == g.getD k 0) = true :=
    List.any_eq_true.2 ⟨g[k], List.getElem_mem hk, by rw [hgk]; simp⟩
  rw [if_pos hany]
  have a : k < left := by
    by_contra hc
    exact lt_irrefl _ (h2 k (by omega) hk)
  by_contra hne
  have := h k (left - 1) (by omega) (by omega)
  have := h1 (left - 1) (by omega)
  linarith

/-- First element with a property, by index. -/
theorem find?_index {β : Type} (p : β → Bool) (l : List β) (i : ℕ) (hi : i < l.length)
    (hp : p l[i] = true) (hn : ∀ (j : ℕ) (hj : j < i), p l[j] = false) : l.find? p = some l[i] := by
  rw [List.find?_eq_some_iff_getElem]
  refine ⟨hp, i, hi, rfl, fun j hj => ?_⟩
  rw [hn j hj]
  rfl

/-- Last element with a property, by index. -/
theorem find?_reverse_index {β : Type} (p : β → Bool) (l : List β) (i : ℕ) (hi : i < l.length)
    (hp : p l[i] = true) (hn : ∀ (j : ℕ) (_ : i < j) (hj : j < l.length), p l[j] = false) :
    l.reverse.find? p = some l[i] := by
  have hr : l.length - 1 - i < l.reverse.length := by rw [List.length_reverse]; omega
  have e : l.reverse[l.length - 1 - i] = l[i] := by
    rw [List.getElem_reverse]
    congr 1
    omega
  rw [← e]
  refine find?_index p l.reverse _ hr (by rw [e]; exact hp) fun j hj => ?_
  rw [List.getElem_reverse]
  exact hn _ (by omega) (by omega)

/-- The first index at which a grid reaching `a` is not below `a`. -/
theorem exists_first (g : List ℚ) (s a : ℚ)
    (hgap : ∀ i, i + 1 < g.length → g.getD (i + 1) 0 - g.getD i 0 ≤ s)
    (hn : 0 < g.length) (hlo : g.getD 0 0 ≤ a) (hhi : a ≤ g.getD (g.length - 1) 0) (hs : 0 < s) :
    ∃ i, i < g.length ∧ a ≤ g.getD i 0 ∧ g.getD i 0 < a + s ∧ ∀ j < i, g.getD j 0 < a := by
  have hex : ∃ i, i < g.length ∧ a ≤ g.getD i 0 := ⟨g.length - 1, by omega, hhi⟩
  refine ⟨Nat.find hex, (Nat.find_spec hex).1, (Nat.find_spec hex).2, ?_, ?_⟩
  · obtain ⟨hi, ha⟩ := Nat.find_spec hex
    cases hf : Nat.find hex with
    | zero => linarith
    | succ m =>
      have hm := Nat.find_min hex (m := m) (by omega)
      rw [hf] at hi
      have : g.getD m 0 < a := by
        by_contra hc
        exact hm ⟨by omega, not_lt.1 hc⟩
      have := hgap m hi
      linarith
  · intro j hj
    by_contra hc
    exact Nat.find_min hex hj ⟨by have := (Nat.find_spec hex).1; omega, not_lt.1 hc⟩

/-- The last index at which a grid starting before `a` is not above `a`. -/
theorem exists_last (g : List ℚ) (h : Increasing g) (s a : ℚ)
    (hgap : ∀ i, i + 1 < g.length → g.getD (i + 1) 0 - g.getD i 0 ≤ s)
    (hn : 0 < g.length) (hlo : g.getD 0 0 ≤ a) (hhi : a ≤ g.getD (g.length - 1) 0) (hs : 0 < s) :
    ∃ i, i < g.length ∧ g.getD i 0 ≤ a ∧ a - s < g.getD i 0 ∧
      ∀ j, i < j → j < g.length → a < g.getD j 0 := by
  obtain ⟨h1, h2⟩ := filter_le_length g h a
  have hlen : (g.filter fun y => y ≤ a).length ≤ g.length := List.length_filter_le _ _
  generalize (g.filter fun y => decide (y ≤ a)).length = left at h1 h2 hlen
  have hleft : left ≠ 0 := by
    intro h0
    have := h2 0 (by omega) hn
    linarith
  refine ⟨left - 1, by omega, h1 _ (by omega), ?_, fun j hj hj' => h2 j (by omega) hj'⟩
  by_cases hfull : left = g.length
  · rw [hfull]; linarith
  · have hnext := h2 left (by omega) (by omega)
    have hg := hgap (left - 1) (by omega)
    rw [show left - 1 + 1 = left by omega] at hg
    linarith

/-! ## Levels in which every window keeps a mode -/

theorem keptWindows_all (L : Level α)
    (h : ∀ k < L.centers.length, ∃ l < L.rank, L.high k l = true) :
    L.keptWindows = List.range L.centers.length := by
  unfold Level.keptWindows
  rw [List.filter_eq_self]
  intro k hk
  obtain ⟨l, hl, hh⟩ := h k (List.mem_range.1 hk)
  exact List.any_eq_true.2 ⟨l, List.mem_range.2 hl, hh⟩

theorem map_getD_range (xs : List ℚ) : (List.range xs.length).map (fun k => xs.getD k 0) = xs := by
  refine List.ext_getElem (by simp) fun i h1 h2 => ?_
  simp [List.getD_eq_getElem?_getD, List.getElem?_eq_getElem h2]

theorem keptCenters_all (L : Level α)
    (h : ∀ k < L.centers.length, ∃ l < L.rank, L.high k l = true) :
    L.keptCenters = L.centers := by
  unfold Level.keptCenters
  rw [keptWindows_all L h, map_getD_range]

theorem mem_keptRanks (L : Level α) (l : ℕ) :
    l ∈ L.keptRanks ↔ l < L.rank ∧ ∃ k < L.centers.length, L.high k l = true := by
  unfold Level.keptRanks
  rw [List.mem_filter, List.mem_range, List.any_eq_true]
  constructor
  · rintro ⟨h1, k, hk, h2⟩
    exact ⟨h1, k, List.mem_range.1 hk, h2⟩
  · rintro ⟨h1, k, hk, h2⟩
    exact ⟨h1, k, List.mem_range.2 hk, h2⟩

theorem row_eq (L : Level α) (k l : ℕ) (hk : k < L.centers.length) (hl : l < L.rank) :
    L.row k l = if L.high k l = true then some (L.omega k l) else none := by
  unfold Level.row
  by_cases hh : L.high k l = true
  · rw [if_pos hh, if_pos ⟨(mem_keptRanks L l).2 ⟨hl, k, hk, hh⟩, hh⟩]
  · rw [if_neg hh, if_neg fun h => hh h.2]

theorem row_present (L : Level α) (k : ℕ) (hk : k < L.centers.length)
    (h : ∃ l < L.rank, L.high k l = true) : allMissing L.keptRanks (L.row k) = false := by
  obtain ⟨l, hl, hh⟩ := h
  rw [Bool.eq_false_iff]
  intro hc
  have hm := (mem_keptRanks L l).2 ⟨hl, k, hk, hh⟩
  have := List.all_eq_true.1 hc l hm
  rw [row_eq L k l hk hl, if_pos hh] at this
  simp at this

theorem missing_row (ranks : List ℕ) : allMissing ranks (fun _ => (none : Option α)) = true := by
  simp [allMissing]

theorem getD_zero_eq (xs : List ℚ) (k : ℕ) (hk : k < xs.length) : xs.getD k 0 = xs[k] := by
  rw [List.getD_eq_getElem?_getD, List.getElem?_eq_getElem hk, Option.getD_some]

/-- What one grid row becomes by interpolation. -/
theorem interp_row (L : Level α) (h : ∀ k < L.centers.length, ∃ l < L.rank, L.high k l = true)
    (y : ℚ) (k : ℕ) (hk : k < L.centers.length) (hy : nearestIdx L.centers y = some k) :
    (fun l => (nearestIdx L.keptCenters y).bind fun i => L.row (L.keptWindows.getD i 0) l) =
      L.row k := by
  funext l
  rw [keptCenters_all L h, hy, keptWindows_all L h]
  simp [List.getD_eq_getElem?_getD, hk]

/-- The rows of an interpolated level at the grid point selected for window `k` are those of window
`k`, if the windows of the level are at least twice as far apart as the grid points. -/
theorem gridRows_spec (L : Level α) (g : List ℚ) (s : ℚ) (hs : 0 < s)
    (hL : ∀ k < L.centers.length, ∃ l < L.rank, L.high k l = true)
    (h2 : 2 ≤ L.centers.length) (hinc : Increasing L.centers)
    (hfar : ∀ i, i + 1 < L.centers.length → 2 * s ≤ L.centers.getD (i + 1) 0 - L.centers.getD i 0)
    (hg : Increasing g) (hgap : ∀ i, i + 1 < g.length → g.getD (i + 1) 0 - g.getD i 0 ≤ s)
    (hn : 0 < g.length) (hlo : g.getD 0 0 ≤ L.centers.getD 0 0)
    (hhi : L.centers.getD (L.centers.length - 1) 0 ≤ g.getD (g.length - 1) 0) :
    ∃ rows, L.gridRows g = .ok rows ∧ rows.length = g.length ∧
      ∀ k < L.centers.length,
        (rows.getD (selNearest g (L.centers.getD k 0)) (0, fun _ => none)).2 = L.row k := by
  obtain ⟨n, hlen⟩ : ∃ n, L.centers.length = n + 2 := ⟨L.centers.length - 2, by omega⟩
  obtain ⟨xs, hxs⟩ : ∃ xs, xs = L.centers := ⟨_, rfl⟩
  obtain ⟨a, b, rest, hcons⟩ : ∃ a b rest, L.centers = a :: b :: rest := by
    match hc : L.centers with
    | [] => rw [hc] at hlen; simp at hlen
    | [_] => rw [hc] at hlen; simp at hlen
    | a :: b :: rest => exact ⟨a, b, rest, rfl⟩
  have ha : L.centers.getD 0 0 = a := by rw [hcons]; rfl
  have hb : L.centers.getD 1 0 = b := by rw [hcons]; rfl
  obtain ⟨c, hc⟩ : ∃ c, c = L.centers.getD (L.centers.length - 1) 0 := ⟨_, rfl⟩
  have hab : 2 * s ≤ b - a := by
    have := hfar 0 (by omega)
    rwa [ha, Nat.zero_add, hb] at this
  have hac : a + 2 * s ≤ c := by
    have := hinc.le (i := 1) (j := L.centers.length - 1) (by omega) (by omega)
    rw [hb, ← hc] at this
    linarith
  have hlo' : g.getD 0 0 ≤ a := by rw [← ha]; exact hlo
  have hhi' : c ≤ g.getD (g.length - 1) 0 := by rw [hc]; exact hhi
  -- nearest point to a grid value
  have hnear : ∀ (y : ℚ) (k : ℕ), k < L.centers.length → a ≤ y → y ≤ c →
      L.centers.getD k 0 - s < y → y ≤ L.centers.getD k 0 + s →
      nearestIdx L.centers y = some k := by
    intro y k hk h1 h3 h4 h5
    unfold nearestIdx
    rw [if_pos ⟨by rw [ha]; exact h1, by rw [← hc]; exact h3⟩]
    congr 1
    refine midCount_eq _ hinc y k hk ?_ ?_
    · intro j hj
      have := hfar j (by omega)
      rw [hj] at this
      linarith
    · intro hk'
      have := hfar k hk'
      linarith
  have hout : ∀ y : ℚ, (y < a ∨ c < y) → nearestIdx L.centers y = none := by
    intro y hy
    unfold nearestIdx
    rw [if_neg]
    rintro ⟨h1, h3⟩
    rw [ha] at h1
    rw [← hc] at h3
    rcases hy with hy | hy <;> linarith
  -- the interpolated rows
  obtain ⟨rows, hrows⟩ : ∃ rows, rows = L.interp g := ⟨_, rfl⟩
  have hrl : rows.length = g.length := by rw [hrows]; simp [Level.interp]
  have hr1 : ∀ (i : ℕ) (hi : i < rows.length), (rows[i]).1 = g.getD i 0 := by
    intro i hi
    subst hrows
    rw [getD_zero_eq g i (by omega)]
    simp [Level.interp]
  have hr2 : ∀ (i : ℕ) (hi : i < rows.length) (k : ℕ), k < L.centers.length →
      nearestIdx L.centers (g.getD i 0) = some k → (rows[i]).2 = L.row k := by
    intro i hi k hk he
    subst hrows
    rw [getD_zero_eq g i (by omega)] at he
    have := interp_row L hL _ k hk he
    simpa only [Level.interp, List.getElem_map] using this
  have hr3 : ∀ (i : ℕ) (hi : i < rows.length), nearestIdx L.centers (g.getD i 0) = none →
      (rows[i]).2 = fun _ => none := by
    intro i hi he
    subst hrows
    rw [getD_zero_eq g i (by omega)] at he
    simp only [Level.interp, List.getElem_map, keptCenters_all L hL, he,
      Option.bind_none]
  -- first row with a value
  obtain ⟨i0, hi0, hf1, hf2, hf3⟩ := exists_first g s a hgap hn hlo' (by linarith) hs
  have hi0' : i0 < rows.length := by omega
  have hrow0 : (rows[i0]).2 = L.row 0 :=
    hr2 i0 hi0' 0 (by omega) (hnear _ 0 (by omega) hf1 (by linarith) (by rw [ha]; linarith)
      (by rw [ha]; linarith))
  have hfirst : rows.find? (fun r => !allMissing L.keptRanks r.2) = some rows[i0] := by
    refine find?_index _ _ i0 hi0' ?_ ?_
    · rw [hrow0, row_present L 0 (by omega) (hL 0 (by omega))]
      rfl
    · intro j hj
      rw [hr3 j (by omega) (hout _ (Or.inl (hf3 j hj))), missing_row]
      rfl
  obtain ⟨rows1, hrows1⟩ : ∃ rows1, rows1 = rows.map fun r =>
      if r.1 > a - (b - a) / 2 ∧ r.1 < a then (r.1, (rows[i0]).2) else r := ⟨_, rfl⟩
  have hrl1 : rows1.length = g.length := by rw [hrows1, List.length_map, hrl]
  have hq1 : ∀ (i : ℕ) (hi : i < rows1.length), (rows1[i]).1 = g.getD i 0 := by
    intro i hi
    subst hrows1
    simp only [List.getElem_map]
    split
    · exact hr1 i (by omega)
    · exact hr1 i (by omega)
  have hq2 : ∀ (i : ℕ) (hi : i < rows1.length), a ≤ g.getD i 0 →
      (rows1[i]).2 = (rows[i]'(by omega)).2 := by
    intro i hi hge
    subst hrows1
    simp only [List.getElem_map]
    rw [if_neg]
    rintro ⟨-, h3⟩
    rw [hr1 i (by omega)] at h3
    linarith
  have hq3 : ∀ (i : ℕ) (hi : i < rows1.length), a - (b - a) / 2 < g.getD i 0 → g.getD i 0 < a →
      (rows1[i]).2 = L.row 0 := by
    intro i hi h3 h4
    subst hrows1
    simp only [List.getElem_map]
    rw [if_pos (by rw [hr1 i (by omega)]; exact ⟨h3, h4⟩), hrow0]
  -- last row with a value
  obtain ⟨i1, hi1, hl1, hl2, hl3⟩ := exists_last g hg s c hgap hn (by linarith) hhi' hs
  have hi1' : i1 < rows1.length := by omega
  have hcl : L.centers.getD (L.centers.length - 1) 0 = c := hc.symm
  have hrowc : (rows1[i1]).2 = L.row (L.centers.length - 1) := by
    rw [hq2 i1 hi1' (by linarith)]
    exact hr2 i1 (by omega) _ (by omega) (hnear _ _ (by omega) (by linarith) hl1
      (by rw [hcl]; linarith) (by rw [hcl]; linarith))
  have hlast : rows1.reverse.find? (fun r => !allMissing L.keptRanks r.2) = some rows1[i1] := by
    refine find?_reverse_index _ _ i1 hi1' ?_ ?_
    · rw [hrowc, row_present L _ (by omega) (hL _ (by omega))]
      rfl
    · intro j hj hj'
      have hgt := hl3 j hj (by omega)
      rw [hq2 j hj' (by linarith), hr3 j (by omega) (hout _ (Or.inr hgt)), missing_row]
      rfl
  -- the filled rows
  have hfill : L.gridRows g = .ok (rows1.map fun r =>
      if r.1 < c + (b - a) / 2 ∧ r.1 > c then (r.1, (rows1[i1]).2) else r) := by
    unfold Level.gridRows
    rw [keptCenters_all L hL, ← hrows]
    have hc' : (a :: b :: rest).getD ((a :: b :: rest).length - 1) 0 = c := by
      rw [← hcons]; exact hcl
    rw [hcons]
    simp only [interpFill]
    rw [hfirst]
    simp only [← hrows1]
    rw [hlast]
    simp only [hc']
  refine ⟨_, hfill, by rw [List.length_map, hrl1], ?_⟩
  intro k hk
  have hxk1 : g.getD 0 0 ≤ L.centers.getD k 0 := hlo.trans (hinc.le (Nat.zero_le k) hk)
  have hxk2 : L.centers.getD k 0 ≤ g.getD (g.length - 1) 0 :=
    (hinc.le (j := L.centers.length - 1) (by omega) (by omega)).trans hhi
  obtain ⟨hsel, hd1, hd2⟩ := selNearest_near g hg s (L.centers.getD k 0) hs.le hgap hn hxk1 hxk2
  generalize selNearest g (L.centers.getD k 0) = i at hsel hd1 hd2
  have hi : i < rows1.length := by omega
  rw [List.getD_eq_getElem?_getD, List.getElem?_map, List.getElem?_eq_getElem hi]
  simp only [Option.map_some, Option.getD_some]
  have hak : a ≤ L.centers.getD k 0 := by rw [← ha]; exact hinc.le (Nat.zero_le k) hk
  have hkc : L.centers.getD k 0 ≤ c := by
    rw [hc]; exact hinc.le (by omega) (by omega)
  have hpos : ∀ k' < L.centers.length, 0 < k' → b ≤ L.centers.getD k' 0 := by
    intro k' hk' h0
    rw [← hb]; exact hinc.le (by omega) hk'
  rcases lt_or_ge (g.getD i 0) a with hlt | hge
  · -- before the first window
    have hk0 : k = 0 := by
      by_contra h0
      have := hpos k hk (by omega)
      linarith
    subst hk0
    rw [if_neg (by rintro ⟨-, h4⟩; rw [hq1 i hi] at h4; linarith)]
    exact hq3 i hi (by rw [ha] at hd2; linarith) hlt
  · rcases le_or_gt (g.getD i 0) c with hle | hgt
    · rw [if_neg (by rintro ⟨-, h4⟩; rw [hq1 i hi] at h4; linarith), hq2 i hi hge]
      exact hr2 i (by omega) k hk (hnear _ k hk hge hle (by linarith) (by linarith))
    · -- after the last window
      have hkl : k = L.centers.length - 1 := by
        by_contra hne
        have h6 := hfar k (by omega)
        have h7 := hinc.le (i := k + 1) (j := L.centers.length - 1) (by omega) (by omega)
        rw [hcl] at h7
        linarith
      rw [if_pos (by
        rw [hq1 i hi]
        refine ⟨?_, hgt⟩
        rw [hkl, hcl] at hd1
        linarith)]
      rw [hrowc, hkl]

end Verif.MrCosts
