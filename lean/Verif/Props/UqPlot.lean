import Verif.Model.UqPlot

/-!
# C124, C125: what `plot_mode_uq` and `HAVOK.plot_summary` draw
-/

set_option autoImplicit false

namespace Verif.UqPlot

open Verif

/-! ## C124 -/

theorem everyOther_map {α β : Type} (f : α → β) : ∀ l : List α, everyOther (l.map f) = (everyOther l).map f
  | [] => rfl
  | [_] => rfl
  | _ :: _ :: l => by simp [everyOther, everyOther_map f l]

theorem everyOther_range' : ∀ (n s : ℕ), everyOther (List.range' s (2 * n)) =
    (List.range n).map fun j => s + 2 * j
  | 0, _ => rfl
  | n + 1, s => by
    rw [show 2 * (n + 1) = (2 * n + 1) + 1 by ring, List.range'_succ, List.range'_succ, everyOther,
      everyOther_range' n, List.range_succ_eq_map, List.map_cons, List.map_map]
    simp only [Nat.mul_zero, Nat.add_zero, List.cons.injEq, true_and]
    exact List.map_congr_left fun j _ => by simp; ring

theorem base_even (n : ℕ) : modeIndices (2 * n) .all false =
    (List.range n).map fun j : ℕ => ((2 * j : ℕ) : ℤ) := by
  simp only [modeIndices, Bool.false_eq_true, if_false, show 2 * n % 2 = 0 by omega, if_true]
  rw [everyOther_map, List.range_eq_range', everyOther_range', List.map_map, List.range_eq_range']
  exact List.map_congr_left fun j _ => by simp

theorem base_odd (n : ℕ) : modeIndices (2 * n + 1) .all false =
    0 :: (List.range n).map fun j : ℕ => ((2 * j + 1 : ℕ) : ℤ) := by
  simp only [modeIndices, Bool.false_eq_true, if_false, show ¬ (2 * n + 1) % 2 = 0 by omega]
  rw [← List.map_drop, List.range_eq_range', List.range'_succ, List.drop_succ_cons, List.drop_zero,
    everyOther_map, everyOther_range', List.map_map]
  congr 1
  exact List.map_congr_left fun j _ => by simp; ring

/-- **C124** (titles). With `plot_conjugate_pairs=False` the titles name every mode exactly once and in
order. -/
theorem C124_titles (r : ℕ) :
    ((modeIndices r .all false).zipIdx.map fun p => title r .all false p.2 p.1).flatten =
      (List.range r).map fun i : ℕ => (i : ℤ) := by
  have key : ∀ (n s k : ℕ), 0 < k ∨ s % 2 = 0 → (((List.range n).map fun j : ℕ => ((s + 2 * j : ℕ) : ℤ)).zipIdx k).map
      (fun p => title (2 * n + s) .all false p.2 p.1) = (List.range n).map fun j : ℕ =>
        [((s + 2 * j : ℕ) : ℤ), ((s + 2 * j + 1 : ℕ) : ℤ)] := by
    intro n s k hk
    apply List.ext_getElem
    · simp
    · intro i h1 h2
      simp only [List.getElem_map, List.getElem_zipIdx, List.getElem_range, title, Bool.false_or]
      rw [if_neg (by simp; omega)]
      push_cast
      rfl
  have flat : ∀ (n s : ℕ), ((List.range n).map fun j : ℕ =>
      [((s + 2 * j : ℕ) : ℤ), ((s + 2 * j + 1 : ℕ) : ℤ)]).flatten =
        (List.range' s (2 * n)).map fun i : ℕ => (i : ℤ) := by
    intro n
    induction n with
    | zero => intro s; rfl
    | succ n ih =>
      intro s
      rw [List.range_succ, List.map_append, List.flatten_append, ih,
        show 2 * (n + 1) = 2 * n + 2 by ring, ← List.range'_append]
      simp [List.range'_succ]
  rcases Nat.even_or_odd' r with ⟨n, rfl | rfl⟩
  · rw [base_even]
    have := key n 0 0 (.inr rfl)
    simp only [Nat.zero_add, Nat.add_zero] at this
    rw [this]
    have := flat n 0
    simp only [Nat.zero_add] at this
    rw [this, List.range_eq_range']
  · rw [base_odd, List.zipIdx_cons, List.map_cons, List.flatten_cons]
    have h1 := key n 1 1 (.inl (by norm_num))
    simp only [show ∀ j, 1 + 2 * j = 2 * j + 1 from fun j => by ring] at h1
    rw [Nat.zero_add, h1]
    have h2 := flat n 1
    simp only [show ∀ j, 1 + 2 * j = 2 * j + 1 from fun j => by ring] at h2
    rw [h2]
    simp [title, List.range_eq_range', List.range'_succ]

/-- **C124** (numbers): a number `k` selects the first `k` of the pictures, a negative one all but the last
`-k`. -/
theorem C124_number (r k : ℕ) (pairs : Bool) :
    modeIndices r (.num k) pairs = (modeIndices r .all pairs).take k ∧
    (1 ≤ k → modeIndices r (.num (-k)) pairs <+: modeIndices r .all pairs ∧
      (modeIndices r (.num (-k)) pairs).length = (modeIndices r .all pairs).length - k) := by
  constructor
  · simp [modeIndices, upTo]
  · intro hk
    have : ¬ (0 : ℤ) ≤ -(k : ℤ) := by omega
    simp only [modeIndices, upTo, if_neg this, neg_neg, Int.toNat_natCast]
    exact ⟨List.take_prefix _ _, by rw [List.length_take]; omega⟩

/-- **C124** (indices): with a list of indices exactly these modes are drawn, and each title names the mode drawn
and no other, whatever `plot_conjugate_pairs` is. -/
theorem C124_indices (r : ℕ) (l : List ℤ) (pairs : Bool) :
    modeIndices r (.indices l) pairs = l ∧ ∀ i idx, title r (.indices l) pairs i idx = [idx] := by
  refine ⟨rfl, fun i idx => ?_⟩
  simp [title]

/-- **C124** (conjugate pairs, even number). If the modes come in conjugate pairs next to each other in the
order of amplitudes, exactly one mode of each pair is drawn. -/
theorem C124_pairs_partial (n : ℕ) (eigs : ℕ → ℂ)
    (h : ∀ j < n, eigs (2 * j + 1) = starRingEnd ℂ (eigs (2 * j))) :
    ∀ i < 2 * n, (((i : ℤ) ∈ modeIndices (2 * n) .all false ∧
        ∃ k < 2 * n, eigs k = starRingEnd ℂ (eigs i) ∧ (k : ℤ) ∉ modeIndices (2 * n) .all false) ∨
      ((i : ℤ) ∉ modeIndices (2 * n) .all false ∧
        ∃ k < 2 * n, eigs k = starRingEnd ℂ (eigs i) ∧ (k : ℤ) ∈ modeIndices (2 * n) .all false)) := by
  have hm : ∀ i : ℕ, (i : ℤ) ∈ modeIndices (2 * n) .all false ↔ i % 2 = 0 ∧ i < 2 * n := by
    intro i
    rw [base_even, List.mem_map]
    constructor
    · rintro ⟨j, hj, h⟩
      rw [List.mem_range] at hj
      have : 2 * j = i := by exact_mod_cast h
      omega
    · rintro ⟨h1, h2⟩
      exact ⟨i / 2, List.mem_range.2 (by omega), by congr 1; omega⟩
  intro i hi
  rcases Nat.even_or_odd' i with ⟨j, rfl | rfl⟩
  · exact .inl ⟨(hm _).2 ⟨by omega, hi⟩, 2 * j + 1, by omega, h j (by omega), fun hc => by
      have := ((hm _).1 hc).1; omega⟩
  · exact .inr ⟨fun hc => by have := ((hm _).1 hc).1; omega, 2 * j, by omega, by
      rw [h j (by omega), Complex.conj_conj], (hm _).2 ⟨by omega, by omega⟩⟩

/-- **C124** is false for a conjugate pair with larger amplitudes than a real mode: both modes of the pair
are drawn, the real one is not, and the title takes it for the conjugate of the second mode. -/
theorem C124_odd_false : ∃ (eigs : ℕ → ℂ) (amps : ℕ → ℝ), amps 0 = amps 1 ∧ amps 2 < amps 1 ∧
    eigs 1 = starRingEnd ℂ (eigs 0) ∧ (eigs 2).im = 0 ∧ (eigs 0).im ≠ 0 ∧
    modeIndices 3 .all false = [0, 1] ∧ title 3 .all false 1 1 = [1, 2] :=
  ⟨fun k => if k = 0 then Complex.I else if k = 1 then -Complex.I else 0, fun k => if k = 2 then 1 else 2,
    rfl, by norm_num, by simp, by simp, by simp, by decide, by decide⟩

/-- **C124** is false for real eigenvalues in even number: modes without a conjugate are left out. -/
theorem C124_real_false (n : ℕ) (j : ℕ) (hj : j < n) :
    ((2 * j + 1 : ℕ) : ℤ) ∉ modeIndices (2 * n) .all false := by
  rw [base_even, List.mem_map]
  rintro ⟨i, -, h⟩
  have : 2 * i = 2 * j + 1 := by exact_mod_cast h
  omega

theorem flatten_grid (cols : ℕ) (hc : 0 < cols) (f : ℕ → ℕ) (q i : ℕ) (h : i < q * cols) :
    (((List.range q).map fun a => (List.range cols).map fun b => f a * cols + b).flatten)[i]? =
      some (f (i / cols) * cols + i % cols) := by
  induction q with
  | zero => omega
  | succ q ih =>
    rw [List.range_succ, List.map_append, List.flatten_append]
    have hl : (((List.range q).map fun a => (List.range cols).map fun b => f a * cols + b).flatten).length =
        q * cols := by
      simp [List.length_flatten, Function.comp_def]
    by_cases hi : i < q * cols
    · rw [List.getElem?_append_left (by omega), ih hi]
    · rw [List.getElem?_append_right (by omega), hl]
      have h1 : i / cols = q := by
        rw [Nat.div_eq_iff hc]
        constructor <;> [omega; (rw [Nat.succ_mul] at h; omega)]
      have h2 : i % cols = i - q * cols := by
        have := Nat.div_add_mod i cols
        rw [h1] at this
        have e : cols * q = q * cols := Nat.mul_comm _ _
        omega
      rw [h1, h2]
      simp only [List.map_cons, List.map_nil, List.flatten_cons, List.flatten_nil, List.append_nil]
      rw [List.getElem?_map, List.getElem?_range (by rw [Nat.succ_mul] at h; omega)]
      rfl

theorem rows_enough (n cols i : ℕ) (hc : 0 < cols) (hi : i < n) : i < (n + cols - 1) / cols * cols := by
  have h := Nat.div_add_mod (n + cols - 1) cols
  have hm := Nat.mod_lt (n + cols - 1) hc
  rw [Nat.mul_comm] at h
  omega

/-- **C124** (places). The `i`-th of the modes is drawn in row `2 (i / cols)` and column `i % cols` of the
grid, its standard deviation directly below; both fit into the grid, and no place is used twice. -/
theorem C124_places (n cols : ℕ) (hc : 0 < cols) :
    (∀ i < n, ∃ a s, places n cols i = .ok (a, s) ∧ a / cols = 2 * (i / cols) ∧ a % cols = i % cols ∧
      s = a + cols ∧ s < rows n cols * cols) ∧
    ∀ i j a s b t, i < n → j < n → places n cols i = .ok (a, s) → places n cols j = .ok (b, t) →
      a ≠ t ∧ (a = b → i = j) := by
  have hp : ∀ i < n, places n cols i = .ok (2 * (i / cols) * cols + i % cols,
      (2 * (i / cols) + 1) * cols + i % cols) := by
    intro i hi
    have h0 := rows_enough n cols i hc hi
    have e1 : everyOther (allInds n cols) = (List.range ((n + cols - 1) / cols)).map fun a =>
        (List.range cols).map fun b => 2 * a * cols + b := by
      unfold allInds rows
      rw [everyOther_map, List.range_eq_range' (n := 2 * _), everyOther_range', List.map_map]
      exact List.map_congr_left fun a _ => by simp
    have e2 : everyOther ((allInds n cols).drop 1) = (List.range ((n + cols - 1) / cols)).map fun a =>
        (List.range cols).map fun b => (2 * a + 1) * cols + b := by
      unfold allInds rows
      rw [← List.map_drop, everyOther_map]
      obtain ⟨q, hq⟩ : ∃ q, (n + cols - 1) / cols = q + 1 := by
        refine ⟨(n + cols - 1) / cols - 1, ?_⟩
        have : 0 < (n + cols - 1) / cols := by
          by_contra hz
          rw [Nat.eq_zero_of_not_pos hz] at h0
          omega
        omega
      have hlast : everyOther (List.range' 1 (2 * q + 1)) = (List.range (q + 1)).map fun j => 1 + 2 * j := by
        have aux : ∀ (q s : ℕ), everyOther (List.range' s (2 * q + 1)) =
            (List.range (q + 1)).map fun j => s + 2 * j := by
          intro q
          induction q with
          | zero => intro s; rfl
          | succ q ih =>
            intro s
            rw [show 2 * (q + 1) + 1 = (2 * q + 1 + 1) + 1 by ring, List.range'_succ, List.range'_succ,
              everyOther, ih, List.range_succ_eq_map (n := q + 1), List.map_cons, List.map_map]
            simp only [Nat.mul_zero, Nat.add_zero, List.cons.injEq, true_and]
            exact List.map_congr_left fun j _ => by simp; ring
        exact aux q 1
      rw [hq, List.range_eq_range' (n := 2 * (q + 1)), show 2 * (q + 1) = (2 * q + 1) + 1 by ring, List.range'_succ,
        List.drop_succ_cons, List.drop_zero, hlast, List.map_map]
      exact List.map_congr_left fun a _ => by
        simp only [Function.comp_apply]
        rw [show 1 + 2 * a = 2 * a + 1 by ring]
    unfold places avgInds stdInds
    rw [e1, e2, flatten_grid cols hc (fun a => 2 * a) _ i h0, flatten_grid cols hc (fun a => 2 * a + 1) _ i h0]
  have hd : ∀ q i, (q * cols + i % cols) / cols = q ∧ (q * cols + i % cols) % cols = i % cols := by
    intro q i
    have hm := Nat.mod_lt i hc
    constructor
    · rw [Nat.mul_comm, Nat.mul_add_div hc, Nat.div_eq_of_lt hm, Nat.add_zero]
    · rw [Nat.mul_comm, Nat.mul_add_mod, Nat.mod_mod]
  refine ⟨fun i hi => ⟨_, _, hp i hi, (hd _ i).1, (hd _ i).2, by ring, ?_⟩, ?_⟩
  · have h0 := rows_enough n cols i hc hi
    have hq : i / cols < (n + cols - 1) / cols := (Nat.div_lt_iff_lt_mul hc).2 h0
    have hm := Nat.mod_lt i hc
    unfold rows
    calc (2 * (i / cols) + 1) * cols + i % cols < (2 * (i / cols) + 1) * cols + cols := by omega
      _ = (2 * (i / cols) + 2) * cols := by ring
      _ ≤ _ := Nat.mul_le_mul_right _ (by omega)
  · intro i j a s b t hi hj h1 h2
    rw [hp i hi] at h1
    rw [hp j hj] at h2
    cases h1
    cases h2
    constructor
    · intro h
      have := congrArg (· / cols) h
      simp only [(hd _ i).1, (hd _ j).1] at this
      omega
    · intro h
      have e1 := congrArg (· / cols) h
      have e2 := congrArg (· % cols) h
      simp only [(hd _ i).1, (hd _ j).1] at e1
      simp only [(hd _ i).2, (hd _ j).2] at e2
      rw [← Nat.div_add_mod i cols, ← Nat.div_add_mod j cols, e2, show i / cols = j / cols by omega]

/-- **C124** (delays). A mode of delayed data, whose `j`-th block is `z ^ j` times `v`, is drawn as `v` times
the average of the `z ^ j`. -/
theorem C124_delays (d n : ℕ) (hd : 1 < d) (z : ℂ) (v w : ℕ → ℂ)
    (hw : ∀ j < d, ∀ k < n, w (j * n + k) = z ^ j * v k) :
    ∃ u, collapse d (d * n) w = .ok u ∧
      ∀ k < n, u k = (∑ j ∈ Finset.range d, z ^ j) / d * v k := by
  have hn : d * n / d = n := Nat.mul_div_cancel_left n (by omega)
  refine ⟨fun k => (∑ j ∈ Finset.range d, w (j * n + k)) / d, ?_, ?_⟩
  · unfold collapse
    rw [if_neg (by omega), if_neg (by rw [hn]; simp), hn]
  · intro k hk
    simp only
    rw [Finset.sum_congr rfl fun j hj => hw j (Finset.mem_range.1 hj) k hk, ← Finset.sum_mul]
    ring

/-- **C124** (delays): a number of delays that does not divide the number of rows raises ValueError. -/
theorem C124_delays_error (d nd : ℕ) (hd : 1 < d) (h : ¬ d ∣ nd) (w : ℕ → ℂ) :
    collapse d nd w = .error .valueError := by
  unfold collapse
  rw [if_neg (by omega), if_pos]
  intro he
  exact h ⟨_, he.symm⟩

/-- **C124** (delays): for a rotation by a root of unity nothing is left of the mode. -/
theorem C124_vanishing_false (n : ℕ) (v w : ℕ → ℂ)
    (hw : ∀ j < 2, ∀ k < n, w (j * n + k) = (-1) ^ j * v k) :
    ∃ u, collapse 2 (2 * n) w = .ok u ∧ ∀ k < n, u k = 0 := by
  obtain ⟨u, h1, h2⟩ := C124_delays 2 n (by norm_num) (-1) v w hw
  exact ⟨u, h1, fun k hk => by rw [h2 k hk]; simp [Finset.sum_range_succ]⟩

example : modeIndices 5 .all false = [0, 1, 3] ∧ modeIndices 4 (.num 1) false = [0] ∧
    modeIndices 4 (.num (-1)) true = [0, 1, 2] ∧ places 5 4 4 = .ok (8, 12) := by decide

end Verif.UqPlot

namespace Verif.HavokPlot

open Verif Verif.Havok

/-! ## C125 -/

theorem slices_cons (a c : ℤ) (l : List ℤ) (d : ℤ) : ∃ e rest, indexSlices (c :: l) d = .ok ((c, e) :: rest) ∧
    indexSlices (a :: c :: l) d =
      .ok (if c - a > d then (a, a) :: (c, e) :: rest else (a, e) :: rest) := by
  generalize hp : ((c :: l).dropLast.zip l).filter (fun p => decide (p.2 - p.1 > d)) = ps
  have h1 : indexSlices (c :: l) d = .ok ((c :: ps.map (·.2)).zip
      (ps.map (·.1) ++ [(c :: l).getLast (List.cons_ne_nil c l)])) := by
    simp only [indexSlices, hp]
  have h2 : indexSlices (a :: c :: l) d = .ok ((a :: (if c - a > d then (a, c) :: ps else ps).map (·.2)).zip
      ((if c - a > d then (a, c) :: ps else ps).map (·.1) ++
        [(c :: l).getLast (List.cons_ne_nil c l)])) := by
    simp only [indexSlices, List.dropLast_cons_cons, List.zip_cons_cons, List.filter_cons, hp,
      List.getLast_cons (List.cons_ne_nil c l), decide_eq_true_eq]
  rw [h1, h2]
  cases ps with
  | nil =>
    refine ⟨_, [], rfl, ?_⟩
    split_ifs <;> rfl
  | cons p ps =>
    refine ⟨p.1, _, rfl, ?_⟩
    split_ifs <;> rfl

/-- **C125** (active times). For increasing active indexes, the indexes drawn in red are exactly those from an
active index up to, but without, the next one, if the two are at most `min_jump_dist` apart. -/
theorem C125_red (x : List ℤ) (hx : x ≠ []) (hs : x.Pairwise (· < ·)) (d : ℤ) :
    ∃ s, indexSlices x d = .ok s ∧ ∀ i, red s i ↔
      ∃ p ∈ x.zip x.tail, p.2 - p.1 ≤ d ∧ p.1 ≤ i ∧ i < p.2 := by
  have main : ∀ (l : List ℤ) (a : ℤ), (a :: l).Pairwise (· < ·) → ∃ e rest,
      indexSlices (a :: l) d = .ok ((a, e) :: rest) ∧ a ≤ e ∧ ∀ i, red ((a, e) :: rest) i ↔
        ∃ p ∈ (a :: l).zip l, p.2 - p.1 ≤ d ∧ p.1 ≤ i ∧ i < p.2 := by
    intro l
    induction l with
    | nil =>
      intro a _
      refine ⟨a, [], rfl, le_refl _, fun i => ?_⟩
      constructor
      · rintro ⟨s, hs, h1, h2⟩
        rw [List.mem_singleton] at hs
        subst hs
        simp only at h1 h2
        omega
      · rintro ⟨p, hp, -⟩
        simp at hp
    | cons c l ih =>
      intro a hp
      rw [List.pairwise_cons] at hp
      obtain ⟨e, rest, h1, h2, h3⟩ := ih c hp.2
      have hac : a < c := hp.1 c (by simp)
      obtain ⟨e', rest', h1', h4⟩ := slices_cons a c l d
      rw [h1] at h1'
      cases h1'
      have hz : ∀ i, (∃ p ∈ (a :: c :: l).zip (c :: l), p.2 - p.1 ≤ d ∧ p.1 ≤ i ∧ i < p.2) ↔
          ((c - a ≤ d ∧ a ≤ i ∧ i < c) ∨ red ((c, e) :: rest) i) := by
        intro i
        rw [h3, List.zip_cons_cons]
        simp only [List.mem_cons, exists_eq_or_imp]
      by_cases hj : c - a > d
      · rw [if_pos hj] at h4
        refine ⟨a, _, h4, le_refl _, fun i => ?_⟩
        rw [hz]
        constructor
        · rintro ⟨s, hs, hb⟩
          rcases List.mem_cons.1 hs with rfl | hs
          · simp only at hb; omega
          · exact .inr ⟨s, hs, hb⟩
        · rintro (h | ⟨s, hs, hb⟩)
          · omega
          · exact ⟨s, List.mem_cons_of_mem _ hs, hb⟩
      · rw [if_neg hj] at h4
        refine ⟨e, rest, h4, by omega, fun i => ?_⟩
        rw [hz]
        constructor
        · rintro ⟨s, hs, hb⟩
          rcases List.mem_cons.1 hs with rfl | hs
          · simp only at hb
            by_cases hi : i < c
            · exact .inl ⟨by omega, hb.1, hi⟩
            · exact .inr ⟨(c, e), by simp, by simp only; omega⟩
          · exact .inr ⟨s, List.mem_cons_of_mem _ hs, hb⟩
        · rintro (h | ⟨s, hs, hb⟩)
          · exact ⟨(a, e), by simp, by simp only; omega⟩
          · rcases List.mem_cons.1 hs with rfl | hs
            · simp only at hb
              exact ⟨(a, e), by simp, by simp only; omega⟩
            · exact ⟨s, List.mem_cons_of_mem _ hs, hb⟩
  obtain ⟨a, l, rfl⟩ := List.exists_cons_of_ne_nil hx
  obtain ⟨e, rest, h1, -, h2⟩ := main l a hs
  exact ⟨_, h1, h2⟩

theorem active_mem (forcing : List ℝ) (thr : ℝ) :
    ∃ x, active forcing thr forcing.length = .ok x ∧ x.Pairwise (· < ·) ∧
      ∀ i : ℕ, (i : ℤ) ∈ x ↔ ∃ f, forcing[i]? = some f ∧ thr < |f| := by
  refine ⟨_, by unfold active; rw [if_neg (by simp)], ?_, ?_⟩
  · rw [List.pairwise_map]
    refine (List.Pairwise.filter _ List.pairwise_lt_range).imp ?_
    intro a b h
    exact_mod_cast h
  · intro i
    rw [List.mem_map]
    constructor
    · rintro ⟨j, hj, hji⟩
      rw [List.mem_filter, List.mem_range] at hj
      obtain rfl : j = i := by exact_mod_cast hji
      refine ⟨forcing[j], List.getElem?_eq_getElem hj.1, ?_⟩
      have := hj.2
      rw [decide_eq_true_eq, List.getD_eq_getElem?_getD, List.getElem?_eq_getElem hj.1] at this
      exact this
    · rintro ⟨f, hf, ht⟩
      refine ⟨i, ?_, rfl⟩
      rw [List.mem_filter, List.mem_range, decide_eq_true_eq, List.getD_eq_getElem?_getD, hf]
      exact ⟨(List.getElem?_eq_some_iff.1 hf).1, ht⟩

/-- **C125** is false at the end of each burst: an active time that is not followed by another one within
`min_jump_dist` is not drawn in red; a burst of one time is not drawn at all. -/
theorem C125_end_false (forcing : List ℝ) (thr : ℝ) (d : ℤ) (i : ℕ) (f : ℝ) (hf : forcing[i]? = some f)
    (ht : thr < |f|)
    (hlast : ∀ (j : ℕ) g, i < j → (j : ℤ) ≤ i + d → forcing[j]? = some g → |g| ≤ thr) :
    ∃ x s, active forcing thr forcing.length = .ok x ∧ (i : ℤ) ∈ x ∧ indexSlices x d = .ok s ∧ ¬ red s i := by
  obtain ⟨x, h1, h2, h3⟩ := active_mem forcing thr
  have hi := (h3 i).2 ⟨f, hf, ht⟩
  obtain ⟨s, h4, h5⟩ := C125_red x (List.ne_nil_of_mem hi) h2 d
  refine ⟨x, s, h1, hi, h4, ?_⟩
  rw [h5]
  rintro ⟨p, hp, hd, ha, hb⟩
  have hp1 := List.of_mem_zip hp
  have hx2 : p.2 ∈ x := List.mem_of_mem_tail hp1.2
  have h0 : 0 ≤ p.2 := by omega
  obtain ⟨j, hj⟩ := Int.eq_ofNat_of_zero_le h0
  rw [hj] at hx2 hd hb
  obtain ⟨g, hg, hgt⟩ := (h3 j).1 hx2
  have hia : p.1 = i := by
    by_contra hne
    -- `i` would be an active index strictly between two consecutive ones
    obtain ⟨k, hk, hkp⟩ := List.mem_iff_getElem.1 hp
    rw [List.length_zip, List.length_tail] at hk
    obtain ⟨m, hm, hmi⟩ := List.mem_iff_getElem.1 hi
    have e1 : x[k]'(by omega) = p.1 := by rw [← hkp]; simp
    have e2 : x[k + 1]'(by omega) = p.2 := by rw [← hkp]; simp
    have hmono := List.pairwise_iff_getElem.1 h2
    rcases lt_trichotomy m k with h | h | h
    · have := hmono m k hm (by omega) h
      omega
    · subst h; exact hne (e1.symm.trans hmi)
    · rcases Nat.lt_or_ge (k + 1) m with h' | h'
      · have := hmono (k + 1) m (by omega) hm h'
        omega
      · obtain rfl : m = k + 1 := by omega
        omega
  exact absurd hgt (not_lt.2 (hlast j g (by omega) (by omega) hg))

/-- **C125** is false for a forcing that is never active: the plot raises IndexError. -/
theorem C125_quiet_false (forcing : List ℝ) (thr : ℝ) (d : ℤ) (h : ∀ f ∈ forcing, |f| ≤ thr) :
    ∃ x, active forcing thr forcing.length = .ok x ∧ indexSlices x d = .error .indexError := by
  obtain ⟨x, h1, -, -⟩ := active_mem forcing thr
  refine ⟨x, h1, ?_⟩
  have : x = [] := by
    unfold active at h1
    rw [if_neg (by simp)] at h1
    cases h1
    rw [List.map_eq_nil_iff, List.filter_eq_nil_iff]
    intro i hi
    rw [List.mem_range] at hi
    rw [decide_eq_true_eq, List.getD_eq_getElem?_getD, List.getElem?_eq_getElem hi, not_lt]
    exact h _ (List.getElem_mem hi)
  subst this
  rfl

/-- **C125** (true switches). Sorted indexes are cut to those inside the plot. -/
theorem C125_switches_partial (l : List ℤ) (h : l.Pairwise (· ≤ ·)) (n : ℤ) :
    switches (some l) n = .ok (l.filter fun k => decide (k < n)) := by
  unfold switches
  simp only [Except.ok.injEq]
  induction l with
  | nil => rfl
  | cons a l ih =>
    rw [List.pairwise_cons] at h
    have ih := ih h.2
    rw [List.findIdx?_cons]
    by_cases ha : n ≤ a
    · simp only [decide_eq_true ha, if_true, List.take_zero]
      rw [List.filter_eq_nil_iff.2]
      intro k hk
      rw [decide_eq_true_eq]
      rcases List.mem_cons.1 hk with rfl | hk
      · omega
      · have := h.1 k hk; omega
    · simp only [decide_eq_false ha]
      have e : List.filter (fun k => decide (k < n)) (a :: l) =
          a :: List.filter (fun k => decide (k < n)) l := by
        rw [List.filter_cons, if_pos (by simpa using ha)]
      rw [e, ← ih]
      cases l.findIdx? fun k => decide (n ≤ k) <;> simp

/-- **C125** is false for switches that are not sorted (indexes after the first one outside are lost) and for
lists, which the documentation allows (TypeError). -/
theorem C125_switches_false :
    switches (some [1, 20, 3]) 10 = .ok [1] ∧ ∀ n, switches none n = .error .typeError :=
  ⟨by decide, fun _ => rfl⟩

/-- **C125** (errors): more points than the embeddings have raise IndexError. -/
theorem C125_num_plot (forcing : List ℝ) (thr : ℝ) (n : ℕ) (h : forcing.length < n) :
    active forcing thr n = .error .indexError := by
  unfold active
  rw [if_pos (by simp; omega)]

/-- Five times, the forcing active at 1, 2, 4 and distances up to 1 in one burst: only 1 is drawn in red. -/
example : ∃ x s, active [0, 2, -2, 0, 2] 1 5 = .ok x ∧ x = [1, 2, 4] ∧ indexSlices x 1 = .ok s ∧
    s = [(1, 2), (4, 4)] := by
  refine ⟨[1, 2, 4], _, ?_, rfl, by decide, rfl⟩
  norm_num [active, List.range_succ]

end Verif.HavokPlot
