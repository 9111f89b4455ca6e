import Verif.Model.Plotter
import Verif.Lemmas.Param
import Mathlib.Algebra.BigOperators.Group.List.Basic
import Mathlib.Algebra.Order.BigOperators.Group.List
import Mathlib.Data.Rat.Floor
import Mathlib.Tactic

/-!
# C115-C117: what the plotting functions draw
-/

set_option autoImplicit false

namespace Verif.Plot

open Verif

variable {K P : Type}

/-! ## C115 -/

/-- A snapshot of shape `(n0, n1)` as PyDMD stores it: row by row. -/
def stored (n0 n1 : ℕ) (A : ℕ → ℕ → K) : List K :=
  (List.range (n0 * n1)).map fun k => A (k / n1) (k % n1)

theorem stored_get (n0 n1 : ℕ) (A : ℕ → ℕ → K) (i j : ℕ) (hi : i < n0) (hj : j < n1) :
    (stored n0 n1 A)[i * n1 + j]? = some (A i j) := by
  have hlt : i * n1 + j < n0 * n1 := by
    calc i * n1 + j < i * n1 + n1 := by omega
      _ = (i + 1) * n1 := by ring
      _ ≤ n0 * n1 := Nat.mul_le_mul_right _ hi
  have h0 : 0 < n1 := by omega
  simp only [stored, List.getElem?_map, List.getElem?_range hlt, Option.map_some, Option.some.injEq]
  rw [Nat.add_comm, Nat.add_mul_div_right _ _ h0, Nat.div_eq_of_lt hj, Nat.zero_add,
    Nat.add_mul_mod_self_right, Nat.mod_eq_of_lt hj]

theorem mem_grid2D (x y : List P) (order : Order) (v : List K) (hv : v.length = y.length * x.length) :
    ∃ pts, grid2D x y order v = .ok pts ∧ ∀ q, q ∈ pts ↔ ∃ (a b : ℕ) (px py : P),
      x[b]? = some px ∧ y[a]? = some py ∧ q = (px, py, reshaped order y.length x.length v a b) := by
  refine ⟨_, by rw [grid2D, if_neg (by simp [hv])], ?_⟩
  intro q
  simp only [List.mem_flatMap, List.mem_range, List.mem_filterMap]
  constructor
  · rintro ⟨a, ha, b, hb, h⟩
    rw [List.getElem?_eq_getElem hb, List.getElem?_eq_getElem ha] at h
    refine ⟨a, b, x[b], y[a], List.getElem?_eq_getElem hb, List.getElem?_eq_getElem ha, ?_⟩
    simpa using h.symm
  · rintro ⟨a, b, px, py, hx, hy, rfl⟩
    have ha : a < y.length := (List.getElem?_eq_some_iff.mp hy).1
    have hb : b < x.length := (List.getElem?_eq_some_iff.mp hx).1
    exact ⟨a, ha, b, hb, by rw [hx, hy]; rfl⟩

/-- **C115** (missing: `order='C'`, the default). With `order='F'` and the coordinates of the two
dimensions, the plot of a snapshot of any shape `(n0, n1)` consists of the values `A i j` at
`(x[i], y[j])`. -/
theorem C115_F_partial (n0 n1 : ℕ) (A : ℕ → ℕ → K) (x y : List ℚ) (hx : x.length = n0)
    (hy : y.length = n1) (arg own : Option (List ℕ)) :
    ∃ pts, plot2D arg own (some (x, y)) .f (stored n0 n1 A) = .ok pts ∧
      ∀ q, q ∈ pts ↔ ∃ (i j : ℕ) (px py : ℚ), x[i]? = some px ∧ y[j]? = some py ∧
        q = (px, py, some (A i j)) := by
  obtain ⟨pts, h1, h2⟩ := mem_grid2D x y .f (stored n0 n1 A) (by simp [stored, hx, hy, Nat.mul_comm])
  refine ⟨pts, h1, fun q => ?_⟩
  rw [h2]
  have key : ∀ (a b : ℕ), a < n1 → b < n0 →
      reshaped .f y.length x.length (stored n0 n1 A) a b = some (A b a) := by
    intro a b ha hb
    rw [reshaped, hy, Nat.add_comm, stored_get n0 n1 A b a hb ha]
  constructor
  · rintro ⟨a, b, px, py, e1, e2, rfl⟩
    refine ⟨b, a, px, py, e1, e2, ?_⟩
    rw [key a b (by rw [← hy]; exact (List.getElem?_eq_some_iff.mp e2).1)
      (by rw [← hx]; exact (List.getElem?_eq_some_iff.mp e1).1)]
  · rintro ⟨i, j, px, py, e1, e2, rfl⟩
    refine ⟨j, i, px, py, e1, e2, ?_⟩
    rw [key j i (by rw [← hy]; exact (List.getElem?_eq_some_iff.mp e2).1)
      (by rw [← hx]; exact (List.getElem?_eq_some_iff.mp e1).1)]

/-- **C115** (missing: the shape the DMD itself reports). With `order='C'` and the coordinates given the
other way round (`x` along the second dimension, "width, height"), the plot consists of the values
`A i j` at `(x[j], y[i])`. -/
theorem C115_width_height_partial (n0 n1 : ℕ) (A : ℕ → ℕ → K) (x y : List ℚ) (hx : x.length = n1)
    (hy : y.length = n0) (arg own : Option (List ℕ)) :
    ∃ pts, plot2D arg own (some (x, y)) .c (stored n0 n1 A) = .ok pts ∧
      ∀ q, q ∈ pts ↔ ∃ (i j : ℕ) (px py : ℚ), x[j]? = some px ∧ y[i]? = some py ∧
        q = (px, py, some (A i j)) := by
  obtain ⟨pts, h1, h2⟩ := mem_grid2D x y .c (stored n0 n1 A) (by simp [stored, hx, hy])
  refine ⟨pts, h1, fun q => ?_⟩
  rw [h2]
  have key : ∀ (a b : ℕ), a < n0 → b < n1 →
      reshaped .c y.length x.length (stored n0 n1 A) a b = some (A a b) := by
    intro a b ha hb
    rw [reshaped, hx, stored_get n0 n1 A a b ha hb]
  constructor
  · rintro ⟨a, b, px, py, e1, e2, rfl⟩
    refine ⟨a, b, px, py, e1, e2, ?_⟩
    rw [key a b (by rw [← hy]; exact (List.getElem?_eq_some_iff.mp e2).1)
      (by rw [← hx]; exact (List.getElem?_eq_some_iff.mp e1).1)]
  · rintro ⟨i, j, px, py, e1, e2, rfl⟩
    refine ⟨i, j, px, py, e1, e2, ?_⟩
    rw [key i j (by rw [← hy]; exact (List.getElem?_eq_some_iff.mp e2).1)
      (by rw [← hx]; exact (List.getElem?_eq_some_iff.mp e1).1)]

theorem plot_default (n0 n1 : ℕ) (A : ℕ → ℕ → K) (order : Order) :
    ∃ pts, plot2D none (some [n0, n1]) none order (stored n0 n1 A) = .ok pts ∧
      ∀ q, q ∈ pts ↔ ∃ (a b : ℕ), b < n0 ∧ a < n1 ∧
        q = ((b : ℚ), (a : ℚ), reshaped order n1 n0 (stored n0 n1 A) a b) := by
  obtain ⟨pts, h1, h2⟩ := mem_grid2D ((List.range n0).map fun i : ℕ => (i : ℚ))
    ((List.range n1).map fun j : ℕ => (j : ℚ)) order (stored n0 n1 A)
    (by simp [stored, Nat.mul_comm])
  refine ⟨pts, h1, fun q => ?_⟩
  rw [h2]
  simp only [List.length_map, List.length_range]
  constructor
  · rintro ⟨a, b, px, py, e1, e2, rfl⟩
    have hb : b < n0 := by simpa using (List.getElem?_eq_some_iff.mp e1).1
    have ha : a < n1 := by simpa using (List.getElem?_eq_some_iff.mp e2).1
    simp only [List.getElem?_map, List.getElem?_range hb, List.getElem?_range ha, Option.map_some,
      Option.some.injEq] at e1 e2
    exact ⟨a, b, hb, ha, by rw [e1, e2]⟩
  · rintro ⟨a, b, hb, ha, rfl⟩
    exact ⟨a, b, _, _, by simp [hb], by simp [ha], rfl⟩

/-- **C115** is false for the defaults: in the plot of a snapshot of shape `(n0, n1)`, both at least 2,
the point `(1, 0)` shows the value of the point `(0, 1)`. -/
theorem C115_default_false (n0 n1 : ℕ) (h0 : 2 ≤ n0) (h1 : 2 ≤ n1) (A : ℕ → ℕ → K)
    (hA : A 0 1 ≠ A 1 0) :
    ∃ pts, plot2D none (some [n0, n1]) none .c (stored n0 n1 A) = .ok pts ∧
      ((1 : ℚ), (0 : ℚ), some (A 0 1)) ∈ pts ∧ ((1 : ℚ), (0 : ℚ), some (A 1 0)) ∉ pts := by
  obtain ⟨pts, e, hm⟩ := plot_default n0 n1 A .c
  have key : reshaped .c n1 n0 (stored n0 n1 A) 0 1 = some (A 0 1) := by
    have := stored_get n0 n1 A 0 1 (by omega) (by omega)
    simpa [reshaped] using this
  refine ⟨pts, e, (hm _).mpr ⟨0, 1, by omega, by omega, by rw [key]; norm_num⟩, fun hc => ?_⟩
  obtain ⟨a, b, -, -, h⟩ := (hm _).mp hc
  simp only [Prod.mk.injEq] at h
  have hb : b = 1 := by exact_mod_cast h.1.symm
  have ha : a = 0 := by exact_mod_cast h.2.1.symm
  rw [ha, hb, key] at h
  exact hA (Option.some.inj h.2.2).symm

/-- For square snapshots the default plot is the transposed one. -/
theorem C115_square (n : ℕ) (A : ℕ → ℕ → K) :
    ∃ pts, plot2D none (some [n, n]) none .c (stored n n A) = .ok pts ∧
      ∀ q, q ∈ pts ↔ ∃ (i j : ℕ), i < n ∧ j < n ∧ q = ((i : ℚ), (j : ℚ), some (A j i)) := by
  obtain ⟨pts, e, hm⟩ := plot_default n n A .c
  refine ⟨pts, e, fun q => ?_⟩
  rw [hm]
  constructor
  · rintro ⟨a, b, hb, ha, rfl⟩
    exact ⟨b, a, hb, ha, by rw [reshaped, stored_get n n A a b ha hb]⟩
  · rintro ⟨i, j, hi, hj, rfl⟩
    exact ⟨j, i, hi, hj, by rw [reshaped, stored_get n n A j i hj hi]⟩

/-- **C115** is false for the defaults and all other shapes, whichever way round the axes are read: for
`n0 ≠ n1` (both at least 2) and a snapshot with distinct values, the point `(0, 1)` shows neither the
value of `(0, 1)` nor that of `(1, 0)`, but the value stored at position `n0`. -/
theorem C115_scrambled_false (n0 n1 : ℕ) (h0 : 2 ≤ n0) (h1 : 2 ≤ n1) (hne : n0 ≠ n1)
    (A : ℕ → ℕ → K) (hA : ∀ i j i' j', A i j = A i' j' → i = i' ∧ j = j') :
    ∃ pts w, plot2D none (some [n0, n1]) none .c (stored n0 n1 A) = .ok pts ∧
      ((0 : ℚ), (1 : ℚ), some w) ∈ pts ∧ w = A (n0 / n1) (n0 % n1) ∧ w ≠ A 0 1 ∧ w ≠ A 1 0 := by
  obtain ⟨pts, e, hm⟩ := plot_default n0 n1 A .c
  have hmod := Nat.div_add_mod n0 n1
  have hmlt : n0 % n1 < n1 := Nat.mod_lt _ (by omega)
  have hdlt : n0 / n1 < n0 := Nat.div_lt_self (by omega) (by omega)
  have key : reshaped .c n1 n0 (stored n0 n1 A) 1 0 = some (A (n0 / n1) (n0 % n1)) := by
    have := stored_get n0 n1 A (n0 / n1) (n0 % n1) hdlt hmlt
    rw [Nat.mul_comm, hmod] at this
    simpa [reshaped] using this
  refine ⟨pts, _, e, (hm _).mpr ⟨1, 0, by omega, by omega, by rw [key]; norm_num⟩, rfl, ?_, ?_⟩
  · intro hc
    obtain ⟨a, b⟩ := hA _ _ _ _ hc
    rw [a, b] at hmod
    omega
  · intro hc
    obtain ⟨a, b⟩ := hA _ _ _ _ hc
    rw [a, b] at hmod
    omega

/-- **C115** (errors): without coordinates the snapshots must be two-dimensional. -/
theorem C115_shape (arg own : Option (List ℕ)) (order : Order) (v : List K)
    (h : ∀ n0 n1, arg.or own ≠ some [n0, n1]) : plot2D arg own none order v = .error .valueError := by
  unfold plot2D
  split
  · rename_i heq; simp at heq
  · split
    · rename_i n0 n1 heq; exact absurd heq (h n0 n1)
    · rfl

/-- **C115** (errors): values that do not fill the grid raise ValueError, whether too few or too many, and
all others are drawn. -/
theorem C115_size (arg own : Option (List ℕ)) (x y : List ℚ) (order : Order) (v : List K) :
    (v.length ≠ x.length * y.length → plot2D arg own (some (x, y)) order v = .error .valueError) ∧
    (v.length = x.length * y.length → ∃ pts, plot2D arg own (some (x, y)) order v = .ok pts) := by
  constructor <;> intro h <;> simp only [plot2D, grid2D]
  · rw [if_pos (by rw [Nat.mul_comm]; exact h)]
  · exact ⟨_, if_neg (by rw [Nat.mul_comm]; exact not_not.2 h)⟩

/-- A snapshot of shape (2, 3) with distinct values. -/
example : ∃ A : ℕ → ℕ → ℕ × ℕ, ∀ i j i' j', A i j = A i' j' → i = i' ∧ j = j' :=
  ⟨fun i j => (i, j), fun _ _ _ _ h => by simpa using h⟩

/-! ## C116 -/

/-- Index `i` is drawn in the colour of pair `p`. -/
def InPair (i : ℕ) (p : ℕ × ℕ) : Prop := i = p.1 ∨ i = p.2

/-- **C116** (indexes): if the checks pass, at most three modes are plotted, all of them exist, and they
are the ones asked for if there are three or more modes. -/
theorem C116_indexes (rank maxSval : ℕ) (indexes is : List ℕ)
    (h : summaryIndexes rank maxSval indexes = .ok is) :
    is.length ≤ 3 ∧ (∀ i ∈ is, i < rank) ∧ (3 ≤ rank → is = indexes) ∧ rank ≤ maxSval := by
  unfold summaryIndexes at h
  by_cases h1 : indexes.length > 3
  · rw [if_pos h1] at h; cases h
  rw [if_neg h1] at h
  by_cases h2 : rank > maxSval
  · rw [if_pos h2] at h; cases h
  rw [if_neg h2] at h
  simp only at h
  generalize hl : (if rank < 3 then List.range rank else indexes) = l at h
  by_cases h3 : (l.any fun i => decide (rank ≤ i)) = true
  · rw [if_pos h3] at h; cases h
  rw [if_neg h3, Except.ok.injEq] at h
  subst h
  rw [List.any_eq_true] at h3
  refine ⟨?_, ?_, ?_, by omega⟩
  · rw [← hl]; split_ifs
    · rw [List.length_range]; omega
    · omega
  · intro i hi
    by_contra hc
    exact h3 ⟨i, hi, by simpa using hc⟩
  · intro hr; rw [← hl, if_neg (by omega)]

theorem ccPairs_spec [DecidableEq K] [Inhabited K] (conj : K → K) (hinv : ∀ k, conj (conj k) = k)
    (eigs : List K) (hnd : eigs.Nodup) :
    ∀ (idxs : List ℕ) (acc : List (ℕ × ℕ)), idxs.Nodup → (∀ i ∈ idxs, i < eigs.length) →
      (∀ p ∈ acc, p.1 < eigs.length ∧ p.2 < eigs.length ∧
        ((p.2 = p.1 ∧ conj (eigs.getD p.1 default) ∉ eigs) ∨
          eigs.getD p.2 default = conj (eigs.getD p.1 default))) →
      acc.Pairwise (fun p q => ∀ i, ¬ (InPair i p ∧ InPair i q)) →
      (∀ i ∈ idxs, ∀ p ∈ acc, p.2 = p.1 → conj (eigs.getD p.1 default) ∉ eigs → i ≠ p.1) →
      (∀ p ∈ ccPairs conj eigs idxs acc, p.1 < eigs.length ∧ p.2 < eigs.length ∧
        ((p.2 = p.1 ∧ conj (eigs.getD p.1 default) ∉ eigs) ∨
          eigs.getD p.2 default = conj (eigs.getD p.1 default))) ∧
      (ccPairs conj eigs idxs acc).Pairwise (fun p q => ∀ i, ¬ (InPair i p ∧ InPair i q)) ∧
      (∀ i ∈ idxs, ∃ p ∈ ccPairs conj eigs idxs acc, InPair i p) ∧
      (∀ p ∈ acc, p ∈ ccPairs conj eigs idxs acc) ∧
      (ccPairs conj eigs idxs acc).length ≤ acc.length + idxs.length := by
  have hinj : ∀ i j, i < eigs.length → j < eigs.length →
      eigs.getD i default = eigs.getD j default → i = j := by
    intro i j hi hj h
    rw [List.getD_eq_getElem?_getD, List.getD_eq_getElem?_getD, List.getElem?_eq_getElem hi,
      List.getElem?_eq_getElem hj, Option.getD_some, Option.getD_some] at h
    exact (hnd.getElem_inj_iff).mp h
  have hmem : ∀ i, i < eigs.length → eigs.getD i default ∈ eigs := by
    intro i hi
    rw [List.getD_eq_getElem?_getD, List.getElem?_eq_getElem hi, Option.getD_some]
    exact List.getElem_mem hi
  intro idxs
  induction idxs with
  | nil =>
    intro acc _ _ h1 h2 _
    simp only [ccPairs]
    exact ⟨h1, h2, by simp, fun p hp => hp, by simp⟩
  | cons idx rest ih =>
    intro acc hn hlt h1 h2 h3
    rw [List.nodup_cons] at hn
    have hidx : idx < eigs.length := hlt idx (by simp)
    have hrest : ∀ i ∈ rest, i < eigs.length := fun i hi => hlt i (by simp [hi])
    simp only [ccPairs]
    by_cases hc : conj (eigs.getD idx default) ∉ eigs
    · rw [if_pos hc]
      obtain ⟨r1, r2, r3, r4, r5⟩ := ih (acc ++ [(idx, idx)]) hn.2 hrest
        (by
          intro p hp
          rw [List.mem_append, List.mem_singleton] at hp
          rcases hp with hp | rfl
          · exact h1 p hp
          · exact ⟨hidx, hidx, Or.inl ⟨rfl, hc⟩⟩)
        (by
          rw [List.pairwise_append]
          refine ⟨h2, by simp, ?_⟩
          intro p hp q hq i hi
          rw [List.mem_singleton] at hq
          subst hq
          have hi2 : i = idx := by rcases hi.2 with h | h <;> exact h
          subst hi2
          obtain ⟨b1, b2, b3⟩ := h1 p hp
          rcases b3 with ⟨b3, b4⟩ | b3
          · rcases hi.1 with h | h
            · exact h3 i (by simp) p hp b3 b4 h
            · exact h3 i (by simp) p hp b3 b4 (h.trans b3)
          · rcases hi.1 with h | h
            · apply hc; rw [h, ← b3]; exact hmem _ b2
            · apply hc; rw [h, b3, hinv]; exact hmem _ b1)
        (by
          intro i hi p hp b3 b4
          rw [List.mem_append, List.mem_singleton] at hp
          rcases hp with hp | rfl
          · exact h3 i (by simp [hi]) p hp b3 b4
          · rintro rfl; exact hn.1 hi)
      refine ⟨r1, r2, ?_, fun p hp => r4 p (by simp [hp]), by simp at r5 ⊢; omega⟩
      intro i hi
      rw [List.mem_cons] at hi
      rcases hi with rfl | hi
      · exact ⟨(i, i), r4 _ (by simp), Or.inl rfl⟩
      · exact r3 i hi
    · rw [if_neg hc]
      rw [not_not] at hc
      have hjl : eigs.idxOf (conj (eigs.getD idx default)) < eigs.length := List.idxOf_lt_length_of_mem hc
      have hj : eigs.getD (eigs.idxOf (conj (eigs.getD idx default))) default =
          conj (eigs.getD idx default) := by
        rw [List.getD_eq_getElem?_getD, List.getElem?_eq_getElem hjl, Option.getD_some,
          List.getElem_idxOf]
      by_cases hnew : ∀ p ∈ acc, idx ≠ p.1 ∧ idx ≠ p.2
      · rw [if_pos hnew]
        obtain ⟨r1, r2, r3, r4, r5⟩ := ih
          (acc ++ [(idx, eigs.idxOf (conj (eigs.getD idx default)))]) hn.2 hrest
          (by
            intro p hp
            rw [List.mem_append, List.mem_singleton] at hp
            rcases hp with hp | rfl
            · exact h1 p hp
            · exact ⟨hidx, hjl, Or.inr hj⟩)
          (by
            rw [List.pairwise_append]
            refine ⟨h2, by simp, ?_⟩
            intro p hp q hq i hi
            rw [List.mem_singleton] at hq
            subst hq
            obtain ⟨b1, b2, b3⟩ := h1 p hp
            have hne := hnew p hp
            rcases hi.2 with h | h
            · simp only at h
              subst h
              rcases hi.1 with h' | h'
              · exact hne.1 h'
              · exact hne.2 h'
            · simp only at h
              rw [h] at hi
              rcases b3 with ⟨b3, b4⟩ | b3
              · have : eigs.idxOf (conj (eigs.getD idx default)) = p.1 := by
                  rcases hi.1 with h' | h'
                  · exact h'
                  · exact h'.trans b3
                apply b4
                rw [← this, hj, hinv]
                exact hmem _ hidx
              · rcases hi.1 with h' | h'
                · apply hne.2
                  apply hinj _ _ hidx b2
                  rw [b3, ← h', hj, hinv]
                · apply hne.1
                  apply hinj _ _ hidx b1
                  rw [← hinv (eigs.getD p.1 default), ← b3, ← h', hj, hinv])
          (by
            intro i hi p hp b3 b4
            rw [List.mem_append, List.mem_singleton] at hp
            rcases hp with hp | rfl
            · exact h3 i (by simp [hi]) p hp b3 b4
            · exact absurd hc b4)
        refine ⟨r1, r2, ?_, fun p hp => r4 p (by simp [hp]), by simp at r5 ⊢; omega⟩
        intro i hi
        rw [List.mem_cons] at hi
        rcases hi with rfl | hi
        · exact ⟨(i, eigs.idxOf (conj (eigs.getD i default))), r4 _ (by simp), Or.inl rfl⟩
        · exact r3 i hi
      · rw [if_neg hnew]
        obtain ⟨r1, r2, r3, r4, r5⟩ := ih acc hn.2 hrest h1 h2
          (fun i hi p hp b3 b4 => h3 i (by simp [hi]) p hp b3 b4)
        refine ⟨r1, r2, ?_, r4, by simp; omega⟩
        intro i hi
        rw [List.mem_cons] at hi
        rcases hi with rfl | hi
        · push Not at hnew
          obtain ⟨p, hp, hpi⟩ := hnew
          refine ⟨p, r4 p hp, ?_⟩
          by_cases hq : i = p.1
          · exact Or.inl hq
          · exact Or.inr (hpi hq)
        · exact r3 i hi

/-- **C116** (missing: equal eigenvalues, `C116_equal_false`). For distinct eigenvalues, every mode asked
for is highlighted, in exactly one colour; modes that share a colour are complex conjugates; a mode alone
in its colour has no other conjugate; all eigenvalues that are not highlighted are drawn in the common
colour, and no others; no more colours are used than modes asked for. -/
theorem C116_pairs_partial [DecidableEq K] [Inhabited K] (conj : K → K)
    (hinv : ∀ k, conj (conj k) = k) (eigs : List K) (hnd : eigs.Nodup) (idxs : List ℕ)
    (hi : idxs.Nodup) (hlt : ∀ i ∈ idxs, i < eigs.length) :
    let pairs := ccPairs conj eigs idxs []
    (∀ i ∈ idxs, ∃ p ∈ pairs, InPair i p) ∧
    pairs.Pairwise (fun p q => ∀ i, ¬ (InPair i p ∧ InPair i q)) ∧
    (∀ p ∈ pairs, p.1 < eigs.length ∧ p.2 < eigs.length ∧
      ((p.2 = p.1 ∧ conj (eigs.getD p.1 default) ∉ eigs) ∨
        eigs.getD p.2 default = conj (eigs.getD p.1 default))) ∧
    (∀ i, i ∈ otherEigs eigs.length pairs ↔ i < eigs.length ∧ ∀ p ∈ pairs, ¬ InPair i p) ∧
    pairs.length ≤ idxs.length := by
  obtain ⟨r1, r2, r3, -, r5⟩ := ccPairs_spec conj hinv eigs hnd idxs [] hi hlt (by simp) (by simp)
    (by simp)
  refine ⟨r3, r2, r1, ?_, by simpa using r5⟩
  intro i
  simp [otherEigs, InPair, not_or]

/-- **C116** is false for equal eigenvalues: of two modes with the same real eigenvalue the first gets two
colours, of which the second, that of the other mode, is used. -/
theorem C116_equal_false (e : ℚ) : ccPairs id [e, e] [0, 1] [] = [(0, 0), (1, 0)] := by
  simp [ccPairs]

/-- Distinct eigenvalues: one real and a conjugate pair. -/
example : ccPairs (fun z : ℤ × ℤ => (z.1, -z.2)) [(1, 0), (0, 1), (0, -1)] [0, 1, 2] [] =
    [(0, 0), (1, 2)] := by decide

/-- **C116** (variance): the shares drawn are not negative, and add up to 100 per cent. -/
theorem C116_total (s : List ℝ) (hs : ∀ x ∈ s, 0 ≤ x) (hp : 0 < s.sum) (n : ℕ) (hn : s.length ≤ n) :
    (∀ x ∈ sVar n s, 0 ≤ x) ∧ (sVar n s).sum = 100 := by
  have e : sVar n s = s.map fun x => x * (100 / s.sum) := by
    rw [sVar, List.take_of_length_le (by simpa using hn)]
  rw [e]
  constructor
  · intro x hx
    rw [List.mem_map] at hx
    obtain ⟨y, hy, rfl⟩ := hx
    exact mul_nonneg (hs y hy) (by positivity)
  · rw [List.sum_map_mul_right]
    simp only [List.map_id']
    field_simp

theorem sum_sq_lt (x : ℝ) : ∀ (l : List ℝ), (∀ y ∈ l, 0 ≤ y ∧ y ≤ x) → (∃ y ∈ l, 0 < y ∧ y < x) →
    (l.map fun y => y ^ 2).sum < x * l.sum := by
  have hle : ∀ (l : List ℝ), (∀ y ∈ l, 0 ≤ y ∧ y ≤ x) → (l.map fun y => y ^ 2).sum ≤ x * l.sum := by
    intro l
    induction l with
    | nil => simp
    | cons y ys ih =>
      intro h
      have := ih fun z hz => h z (by simp [hz])
      have hy := h y (by simp)
      simp only [List.map_cons, List.sum_cons]
      nlinarith [mul_le_mul_of_nonneg_left hy.2 hy.1]
  intro l
  induction l with
  | nil => simp
  | cons y ys ih =>
    intro h hex
    have hy := h y (by simp)
    have hr : ∀ z ∈ ys, 0 ≤ z ∧ z ≤ x := fun z hz => h z (by simp [hz])
    simp only [List.map_cons, List.sum_cons]
    obtain ⟨z, hz, hz2⟩ := hex
    rw [List.mem_cons] at hz
    rcases hz with rfl | hz
    · have := hle ys hr
      nlinarith [mul_pos hz2.1 (sub_pos.mpr hz2.2)]
    · have := ih hr ⟨z, hz, hz2⟩
      nlinarith [mul_le_mul_of_nonneg_left hy.2 hy.1]

/-- **C116** is false for the "% variance": whenever some singular value lies strictly between 0 and the
leading one `x`, the share drawn for the leading one is less than its share `100 x² / ∑ s²` of the
variance. -/
theorem C116_variance_false (x : ℝ) (l : List ℝ) (n : ℕ) (h : ∀ y ∈ l, 0 ≤ y ∧ y ≤ x)
    (hex : ∃ y ∈ l, 0 < y ∧ y < x) :
    ∃ v, (sVar (n + 1) (x :: l)).head? = some v ∧
      v < 100 * x ^ 2 / ((x :: l).map fun y => y ^ 2).sum := by
  obtain ⟨y, hy, hy0, hyx⟩ := hex
  have hx : 0 < x := by linarith
  refine ⟨x * (100 / (x :: l).sum), by simp [sVar], ?_⟩
  have hlt := sum_sq_lt x l h ⟨y, hy, hy0, hyx⟩
  have hsum : 0 ≤ l.sum := List.sum_nonneg fun z hz => (h z hz).1
  have hsq : 0 ≤ (l.map fun y => y ^ 2).sum := List.sum_nonneg fun z hz => by
    rw [List.mem_map] at hz
    obtain ⟨w, -, rfl⟩ := hz
    positivity
  simp only [List.sum_cons, List.map_cons]
  rw [← mul_div_assoc, div_lt_div_iff₀ (by positivity) (by positivity)]
  nlinarith [mul_lt_mul_of_pos_left hlt hx]

/-- Singular values 2 and 1: 66 per cent are drawn instead of 80. -/
example : (∀ y ∈ [(1 : ℝ)], 0 ≤ y ∧ y ≤ 2) ∧ ∃ y ∈ [(1 : ℝ)], 0 < y ∧ y < 2 := by norm_num

/-- **C116** (dynamics; missing: other reconstruction windows). Right after a fit every value of the
dynamics is drawn at the time it belongs to. -/
theorem C116_times_partial (w : Time.Window) (nsnap : ℕ) (hdt : w.dt ≠ 0) :
    ∃ pts, summaryDynamics (.dict w) nsnap w none = .ok pts ∧ (∀ p ∈ pts, p.1 = p.2) ∧
      w.timesteps = .ok (pts.map Prod.fst) := by
  have : w.timesteps = .ok ((List.range ⌈(w.tend + w.dt - w.t0) / w.dt⌉.toNat).map fun i : ℕ =>
      w.t0 + i * w.dt) := by rw [Time.Window.timesteps, Time.arange, if_neg hdt]
  simp only [summaryDynamics, summaryTimes, this, bind, Except.bind]
  refine ⟨_, by rw [if_neg (by simp)], ?_, ?_⟩
  · intro p hp
    obtain ⟨k, hk⟩ := List.getElem?_of_mem hp
    rw [List.getElem?_zip_eq_some] at hk
    exact Option.some.inj (hk.1.symm.trans hk.2)
  · rw [List.map_fst_zip (by simp)]

/-- **C116** (dynamics, time step given). With the time step of the fit as argument `t`, a window that starts
at 0 and covers the snapshots is drawn at its times. -/
theorem C116_step (attr : TimeAttr) (n : ℕ) (t : ℚ) (ht : t ≠ 0) :
    ∃ pts, summaryDynamics attr (n + 1) ⟨0, n * t, t⟩ (some t) = .ok pts ∧ (∀ p ∈ pts, p.1 = p.2) ∧
      pts.map Prod.fst = (List.range (n + 1)).map fun i : ℕ => (i : ℚ) * t := by
  have h1 : (⟨0, n * t, t⟩ : Time.Window).timesteps =
      .ok ((List.range (n + 1)).map fun i : ℕ => (i : ℚ) * t) := by
    have : ((n : ℚ) * t + t - 0) / t = ((n + 1 : ℕ) : ℚ) := by field_simp; push_cast; ring
    rw [Time.Window.timesteps, Time.arange, if_neg ht]
    simp only [this, Int.ceil_natCast, Int.toNat_natCast, zero_add]
  simp only [summaryDynamics, summaryTimes, h1, bind, Except.bind]
  refine ⟨_, by rw [if_neg (by simp)], ?_, ?_⟩
  · intro p hp
    obtain ⟨k, hk⟩ := List.getElem?_of_mem hp
    rw [List.getElem?_zip_eq_some] at hk
    exact Option.some.inj (hk.1.symm.trans hk.2)
  · rw [List.map_fst_zip (by simp)]

/-- **C116** is false for a shifted window: if `dmd_time` is the window of the snapshots moved by `c`,
every value is drawn `c` too early. -/
theorem C116_shifted_false (w : Time.Window) (nsnap : ℕ) (hdt : w.dt ≠ 0) (c : ℚ) :
    ∃ pts, summaryDynamics (.dict w) nsnap ⟨w.t0 + c, w.tend + c, w.dt⟩ none = .ok pts ∧
      ∀ p ∈ pts, p.2 = p.1 + c := by
  have h1 : w.timesteps = .ok ((List.range ⌈(w.tend + w.dt - w.t0) / w.dt⌉.toNat).map fun i : ℕ =>
      w.t0 + i * w.dt) := by rw [Time.Window.timesteps, Time.arange, if_neg hdt]
  have h2 : (⟨w.t0 + c, w.tend + c, w.dt⟩ : Time.Window).timesteps =
      .ok ((List.range ⌈(w.tend + w.dt - w.t0) / w.dt⌉.toNat).map fun i : ℕ =>
        w.t0 + c + i * w.dt) := by
    rw [Time.Window.timesteps, Time.arange, if_neg hdt]
    have : w.tend + c + w.dt - (w.t0 + c) = w.tend + w.dt - w.t0 := by ring
    simp only [this]
  simp only [summaryDynamics, summaryTimes, h1, h2, bind, Except.bind]
  refine ⟨_, by rw [if_neg (by simp)], ?_⟩
  intro p hp
  obtain ⟨k, hk⟩ := List.getElem?_of_mem hp
  rw [List.getElem?_zip_eq_some] at hk
  simp only [List.getElem?_map, Option.map_eq_some_iff] at hk
  obtain ⟨⟨i, hi, h1⟩, ⟨j, hj, h2⟩⟩ := hk
  rw [hi] at hj
  cases hj
  rw [← h1, ← h2]
  ring

/-- **C116** is false for forecasts: if `dmd_time` ends one or more steps later than the snapshots (and
starts with them), `plot_summary` raises ValueError. -/
theorem C116_forecast_false (w : Time.Window) (nsnap : ℕ) (hdt : 0 < w.dt) (hw : w.t0 ≤ w.tend)
    (k : ℕ) (hk : 0 < k) :
    summaryDynamics (.dict w) nsnap ⟨w.t0, w.tend + k * w.dt, w.dt⟩ none = .error .valueError := by
  have h1 : w.timesteps = .ok ((List.range ⌈(w.tend + w.dt - w.t0) / w.dt⌉.toNat).map fun i : ℕ =>
      w.t0 + i * w.dt) := by rw [Time.Window.timesteps, Time.arange, if_neg hdt.ne']
  have h2 : (⟨w.t0, w.tend + k * w.dt, w.dt⟩ : Time.Window).timesteps =
      .ok ((List.range (⌈(w.tend + w.dt - w.t0) / w.dt⌉ + k).toNat).map fun i : ℕ =>
        w.t0 + i * w.dt) := by
    rw [Time.Window.timesteps, Time.arange, if_neg hdt.ne']
    have : (w.tend + k * w.dt + w.dt - w.t0) / w.dt = (w.tend + w.dt - w.t0) / w.dt + (k : ℕ) := by
      field_simp; ring
    simp only [this, Int.ceil_add_natCast]
  have hpos : 0 < ⌈(w.tend + w.dt - w.t0) / w.dt⌉ := by
    rw [Int.ceil_pos]
    apply div_pos _ hdt
    linarith
  simp only [summaryDynamics, summaryTimes, h1, h2, bind, Except.bind]
  rw [if_pos (by simp; omega)]

/-- **C116** is false for VarPro-DMD, whose times are an array: unless `t` is given, `plot_summary` raises
IndexError, for all data and windows (with a time dictionary it does not). -/
theorem C116_varpro_false (nsnap : ℕ) (dmdTime : Time.Window) :
    summaryDynamics .array nsnap dmdTime none = .error .indexError ∧
      ∀ w, summaryDynamics (.dict w) nsnap dmdTime none ≠ .error .indexError := by
  refine ⟨rfl, fun w h => ?_⟩
  simp only [summaryDynamics, summaryTimes, Time.Window.timesteps, Time.arange, bind, Except.bind] at h
  split_ifs at h <;> simp at h
  split_ifs at h
  cases h

/-! ## C117 -/

theorem le_maxOf (l : List ℝ) : ∀ x : ℝ, x ≤ maxOf x l ∧ ∀ y ∈ l, y ≤ maxOf x l := by
  induction l with
  | nil => intro x; simp [maxOf]
  | cons a l ih =>
    intro x
    have := ih (max x a)
    simp only [maxOf, List.foldl_cons] at this ⊢
    refine ⟨(le_max_left x a).trans this.1, ?_⟩
    intro y hy
    rw [List.mem_cons] at hy
    rcases hy with rfl | hy
    · exact (le_max_right _ _).trans this.1
    · exact this.2 y hy

theorem minOf_le (l : List ℝ) : ∀ x : ℝ, minOf x l ≤ x ∧ ∀ y ∈ l, minOf x l ≤ y := by
  induction l with
  | nil => intro x; simp [minOf]
  | cons a l ih =>
    intro x
    have := ih (min x a)
    simp only [minOf, List.foldl_cons] at this ⊢
    refine ⟨this.1.trans (min_le_left x a), ?_⟩
    intro y hy
    rw [List.mem_cons] at hy
    rcases hy with rfl | hy
    · exact this.1.trans (min_le_right _ _)
    · exact this.2 y hy

theorem maxOf_mem (l : List ℝ) : ∀ x : ℝ, maxOf x l = x ∨ maxOf x l ∈ l := by
  induction l with
  | nil => intro x; simp [maxOf]
  | cons a l ih =>
    intro x
    have := ih (max x a)
    simp only [maxOf, List.foldl_cons, List.mem_cons] at this ⊢
    rcases this with h | h
    · rcases max_choice x a with h' | h' <;> rw [h'] at h <;> simp [h, h']
    · exact Or.inr (Or.inr h)

/-- `_enforce_ratio` only ever enlarges the area, and the sides of the result are in a ratio of at most
`goal`. -/
theorem enforce_spec (goal : ℝ) (hg : 1 ≤ goal) (l : Limits) (hx : l.infx < l.supx)
    (hy : l.infy < l.supy) :
    let e := enforceRatio goal l
    l.supx ≤ e.supx ∧ e.infx ≤ l.infx ∧ l.supy ≤ e.supy ∧ e.infy ≤ l.infy ∧
      e.supx - e.infx ≤ goal * (e.supy - e.infy) ∧ e.supy - e.infy ≤ goal * (e.supx - e.infx) := by
  obtain ⟨sx, ix, sy, iy⟩ := l
  simp only at hx hy
  have hdx : 0 < sx - ix := by linarith
  have hdy : 0 < sy - iy := by linarith
  have hg0 : 0 < goal := by linarith
  simp only [enforceRatio, if_neg hdx.ne', if_neg hdy.ne']
  generalize hdxe : sx - ix = dx at *
  generalize hdye : sy - iy = dy at *
  by_cases h : goal ≤ max dx dy / min dx dy
  · rw [if_pos h]
    rw [le_div_iff₀ (by positivity)] at h
    by_cases h1 : dx < dy
    · rw [if_pos h1]
      rw [max_eq_right h1.le, min_eq_left h1.le] at h
      have hq : dx ≤ dy / goal := by rw [le_div_iff₀ hg0]; linarith
      have hq2 : goal * (dy / goal) = dy := by field_simp
      have hq3 : dy / goal ≤ dy := by rw [div_le_iff₀ hg0]; nlinarith
      refine ⟨by simp only; linarith, by simp only; linarith, le_rfl, le_rfl, ?_, ?_⟩
      · simp only
        nlinarith
      · simp only
        have : sx + (dy / goal - dx) / 2 - (ix - (dy / goal - dx) / 2) = dy / goal := by linarith
        rw [this, hq2]; linarith
    · rw [if_neg h1]
      by_cases h2 : dy < dx
      · rw [if_pos h2]
        rw [max_eq_left h2.le, min_eq_right h2.le] at h
        have hq : dy ≤ dx / goal := by rw [le_div_iff₀ hg0]; linarith
        have hq2 : goal * (dx / goal) = dx := by field_simp
        have hq3 : dx / goal ≤ dx := by rw [div_le_iff₀ hg0]; nlinarith
        refine ⟨le_rfl, le_rfl, by simp only; linarith, by simp only; linarith, ?_, ?_⟩
        · simp only
          have : sy + (dx / goal - dy) / 2 - (iy - (dx / goal - dy) / 2) = dx / goal := by linarith
          rw [this, hq2]; linarith
        · simp only
          nlinarith
      · rw [if_neg h2]
        have : dx = dy := le_antisymm (not_lt.mp h2) (not_lt.mp h1)
        refine ⟨le_rfl, le_rfl, le_rfl, le_rfl, ?_, ?_⟩ <;> simp only [hdxe, hdye] <;> nlinarith
  · rw [if_neg h]
    rw [not_le, div_lt_iff₀ (by positivity)] at h
    refine ⟨le_rfl, le_rfl, le_rfl, le_rfl, ?_, ?_⟩
    · simp only [hdxe, hdye]
      have := mul_le_mul_of_nonneg_left (min_le_right dx dy) hg0.le
      linarith [le_max_left dx dy]
    · simp only [hdxe, hdye]
      have := mul_le_mul_of_nonneg_left (min_le_left dx dy) hg0.le
      linarith [le_max_right dx dy]

/-- **C117** (narrow view). All eigenvalues are inside the limits, at least 0.05 from each side, and
neither side is more than 8 times the other. -/
theorem C117_narrow (l : List ℂ) (hl : l ≠ []) :
    ∃ e, narrowLimits l = .ok e ∧
      (∀ z ∈ l, e.infx + 1 / 20 ≤ z.re ∧ z.re ≤ e.supx - 1 / 20 ∧ e.infy + 1 / 20 ≤ z.im ∧
        z.im ≤ e.supy - 1 / 20) ∧
      e.supx - e.infx ≤ 8 * (e.supy - e.infy) ∧ e.supy - e.infy ≤ 8 * (e.supx - e.infx) := by
  cases l with
  | nil => exact absurd rfl hl
  | cons z zs =>
    refine ⟨_, rfl, ?_⟩
    have a1 := le_maxOf (zs.map Complex.re) z.re
    have a2 := minOf_le (zs.map Complex.re) z.re
    have a3 := le_maxOf (zs.map Complex.im) z.im
    have a4 := minOf_le (zs.map Complex.im) z.im
    obtain ⟨e1, e2, e3, e4, e5, e6⟩ := enforce_spec 8 (by norm_num)
      ⟨maxOf z.re (zs.map Complex.re) + 1 / 20, minOf z.re (zs.map Complex.re) - 1 / 20,
        maxOf z.im (zs.map Complex.im) + 1 / 20, minOf z.im (zs.map Complex.im) - 1 / 20⟩
      (by simp only; linarith [a1.1, a2.1]) (by simp only; linarith [a3.1, a4.1])
    refine ⟨?_, e5, e6⟩
    simp only at e1 e2 e3 e4
    intro w hw
    rw [List.mem_cons] at hw
    rcases hw with rfl | hw
    · exact ⟨by linarith [a2.1], by linarith [a1.1], by linarith [a4.1], by linarith [a3.1]⟩
    · have b1 := a1.2 w.re (List.mem_map_of_mem hw)
      have b2 := a2.2 w.re (List.mem_map_of_mem hw)
      have b3 := a3.2 w.im (List.mem_map_of_mem hw)
      have b4 := a4.2 w.im (List.mem_map_of_mem hw)
      exact ⟨by linarith, by linarith, by linarith, by linarith⟩

/-- **C117** (full view). All eigenvalues are inside the square with the limits `±limit`; the limit is a
whole number, and the unit circle is inside unless all eigenvalues are 0. -/
theorem C117_wide (l : List ℂ) (hl : l ≠ []) :
    ∃ m, wideLimit l = .ok m ∧ (∃ n : ℤ, m = n) ∧
      (∀ z ∈ l, |z.re| ≤ m ∧ |z.im| ≤ m) ∧ ((∃ z ∈ l, z ≠ 0) → 1 ≤ m) := by
  cases l with
  | nil => exact absurd rfl hl
  | cons z zs =>
    have a1 := le_maxOf (zs.map fun w => (⌈‖w‖⌉ : ℝ)) ⌈‖z‖⌉
    have hall : ∀ w ∈ z :: zs, (⌈‖w‖⌉ : ℝ) ≤ maxOf ⌈‖z‖⌉ (zs.map fun w => (⌈‖w‖⌉ : ℝ)) := by
      intro w hw
      rw [List.mem_cons] at hw
      rcases hw with rfl | hw
      · exact a1.1
      · exact a1.2 _ (List.mem_map_of_mem hw)
    refine ⟨_, rfl, ?_, ?_, ?_⟩
    · rcases maxOf_mem (zs.map fun w => (⌈‖w‖⌉ : ℝ)) ⌈‖z‖⌉ with h | h
      · exact ⟨_, h⟩
      · rw [List.mem_map] at h
        obtain ⟨w, -, hw⟩ := h
        exact ⟨_, hw.symm⟩
    · intro w hw
      have := (Int.le_ceil ‖w‖).trans (hall w hw)
      exact ⟨(Complex.abs_re_le_norm w).trans this, (Complex.abs_im_le_norm w).trans this⟩
    · rintro ⟨w, hw, hw0⟩
      have hc : 1 ≤ ⌈‖w‖⌉ := by
        have : 0 < ⌈‖w‖⌉ := Int.ceil_pos.mpr (norm_pos_iff.mpr hw0)
        omega
      have : (1 : ℝ) ≤ (⌈‖w‖⌉ : ℝ) := by exact_mod_cast hc
      exact this.trans (hall w hw)

/-- **C117**: without eigenvalues (an empty selection of modes) both raise ValueError. -/
theorem C117_empty : narrowLimits [] = .error .valueError ∧ wideLimit [] = .error .valueError :=
  ⟨rfl, rfl⟩

/-- **C117** (missing: level 0). `plot_eigs_mrdmd(level=l, node=n)` draws the eigenvalues of that level or
node. -/
theorem C117_level_partial (levels : ℕ) (pe : ℕ → Option ℕ → Except PyErr (List K)) (l : ℕ)
    (hl : 0 < l) (node : Option ℕ) : mrdmdEigs levels pe (some l) node = pe l node := by
  obtain ⟨k, rfl⟩ : ∃ k, l = k + 1 := ⟨l - 1, by omega⟩
  rfl

/-- **C117** is false for level 0: whatever the node, all eigenvalues of all levels are drawn, of which
those of level 0 are only the first. -/
theorem C117_level_false (levels : ℕ) (hl : 2 ≤ levels) (eigs : ℕ → List K)
    (node : Option ℕ) :
    mrdmdEigs levels (fun l _ => .ok (eigs l)) (some 0) node =
      .ok ((List.range levels).flatMap eigs) ∧
    (eigs 1 ≠ [] → (List.range levels).flatMap eigs ≠ eigs 0) := by
  constructor
  · simp only [mrdmdEigs]
    have : (List.range levels).mapM (fun l => (Except.ok (eigs l) : Except PyErr (List K))) =
        .ok ((List.range levels).map eigs) := by
      apply Param.mapM_ok
      · simp
      · intro i a b ha hb
        simp only [List.getElem?_map, ha, Option.map_some, Option.some.injEq] at hb
        rw [hb]
    rw [this]
    simp [Except.map, List.flatMap]
  · intro h1 hc
    obtain ⟨n, rfl⟩ : ∃ n, levels = n + 2 := ⟨levels - 2, by omega⟩
    have := congrArg List.length hc
    rw [List.range_succ_eq_map, List.flatMap_cons, List.length_append] at this
    have h0 : ((List.map Nat.succ (List.range (n + 1))).flatMap eigs).length = 0 := by omega
    rw [List.range_succ_eq_map, List.map_cons, List.flatMap_cons, List.length_append] at h0
    have : (eigs 1).length = 0 := by simp only [Nat.succ_eq_add_one, Nat.zero_add] at h0; omega
    exact h1 (List.length_eq_zero_iff.mp this)

/-- Two levels with one eigenvalue each. -/
example : (2 : ℕ) ≤ 2 ∧ (fun _ : ℕ => [(1 : ℕ)]) 1 ≠ [] := by simp

end Verif.Plot
