import Verif.Lemmas.MrCosts
import Verif.Lemmas.MrLeaves
import Verif.Props.Costs

/-!
# C102, C103: global frequency bands and reconstruction of mrCOSTS
-/

set_option autoImplicit false

namespace Verif.MrCosts

open Verif Verif.Costs

variable {α : Type}

/-! ## C102: every mode gets the band of its own eigenvalue -/

theorem le_foldl_max (l : List ℤ) (a : ℤ) : a ≤ l.foldl max a ∧ ∀ r ∈ l, r ≤ l.foldl max a := by
  induction l generalizing a with
  | nil => simp
  | cons b l ih =>
    obtain ⟨h1, h2⟩ := ih (max a b)
    refine ⟨(le_max_left _ _).trans h1, ?_⟩
    intro r hr
    rcases List.mem_cons.1 hr with rfl | hr
    · exact (le_max_right _ _).trans h1
    · exact h2 r hr

theorem foldl_rank (levels : List (Level α)) (m : ℕ) :
    m ≤ levels.foldl (fun m L => max m L.rank) m ∧
      (∀ L ∈ levels, L.rank ≤ levels.foldl (fun m L => max m L.rank) m) ∧
      (levels.foldl (fun m L => max m L.rank) m = m ∨
        ∃ L ∈ levels, levels.foldl (fun m L => max m L.rank) m = L.rank) := by
  induction levels generalizing m with
  | nil => simp
  | cons M levels ih =>
    obtain ⟨h1, h2, h3⟩ := ih (max m M.rank)
    rw [List.foldl_cons]
    refine ⟨(le_max_left _ _).trans h1, ?_, ?_⟩
    · intro L hL
      rcases List.mem_cons.1 hL with rfl | hL
      · exact (le_max_right _ _).trans h1
      · exact h2 L hL
    · rcases h3 with h3 | ⟨L, hL, h3⟩
      · rcases Nat.le_total m M.rank with hc | hc
        · right
          exact ⟨M, by simp, by rw [h3]; omega⟩
        · left
          rw [h3]; omega
      · right
        exact ⟨L, List.mem_cons_of_mem _ hL, h3⟩

/-- The rank of the largest level. -/
def topRank (levels : List (Level α)) : ℕ := levels.foldl (fun m L => max m L.rank) 0

theorem ranksUnion_complete (levels : List (Level α))
    (h : ∀ l, (∃ L ∈ levels, l < L.rank) →
      ∃ L ∈ levels, l < L.rank ∧ ∃ k < L.centers.length, L.high k l = true) :
    ranksUnion levels = List.range (topRank levels) := by
  unfold ranksUnion
  rw [List.filter_eq_self.2]
  · rfl
  · intro l hl
    rw [List.mem_range] at hl
    obtain ⟨-, -, h3⟩ := foldl_rank levels 0
    have hex : ∃ L ∈ levels, l < L.rank := by
      rcases h3 with h3 | ⟨L, hL, h3⟩
      · omega
      · exact ⟨L, hL, by omega⟩
    obtain ⟨L, hL, hl', k, hk, hh⟩ := h l hex
    rw [List.any_eq_true]
    exact ⟨L, hL, by simpa using (mem_keptRanks L l).2 ⟨hl', k, hk, hh⟩⟩

/-- Classes of one level, if the rows selected for its windows are its own. -/
theorem levelClasses_spec (label : α → ℕ) (maxRank : ℤ) (top : ℕ) (g : List ℚ) (L : Level α)
    (rows : List (ℚ × (ℕ → Option α))) (htop : L.rank ≤ top) (hmax : (top : ℤ) ≤ maxRank)
    (hrow : ∀ k < L.centers.length,
      (rows.getD (selNearest g (L.centers.getD k 0)) (0, fun _ => none)).2 = L.row k) :
    levelClasses label maxRank (List.range top) g L rows =
      .ok ((List.range L.centers.length).map fun k => (List.range L.rank).map fun l =>
        if L.high k l = true then some (label (L.omega k l)) else none) := by
  unfold levelClasses
  conv_lhs => rw [← map_getD_range L.centers]
  rw [List.mapM_map]
  refine MrDMD.mapM_ok' _ _ _ ?_
  intro k hk
  rw [List.mem_range] at hk
  have hd : deterpWindow label (List.range top) g rows (L.centers.getD k 0) =
      (List.range top).map fun l => (L.row k l).map label := by
    unfold deterpWindow
    rw [hrow k hk]
  have htake : ((List.range top).map fun l => (L.row k l).map label).take L.rank =
      (List.range L.rank).map fun l => (L.row k l).map label := by
    rw [← List.map_take, List.take_range, Nat.min_eq_left htop]
  have hfin : ((List.range L.rank).map fun l => (L.row k l).map label) =
      (List.range L.rank).map fun l =>
        if L.high k l = true then some (label (L.omega k l)) else none := by
    refine List.map_congr_left fun l hl => ?_
    rw [row_eq L k l hk (List.mem_range.1 hl)]
    split <;> rfl
  have hcut : (if (L.rank : ℤ) < maxRank then
        (deterpWindow label (List.range top) g rows (L.centers.getD k 0)).take L.rank
      else deterpWindow label (List.range top) g rows (L.centers.getD k 0)) =
      (List.range L.rank).map fun l =>
        if L.high k l = true then some (label (L.omega k l)) else none := by
    rw [hd, htake]
    split
    · exact hfin
    · have : top = L.rank := by omega
      rw [this, hfin]
  simp only [Function.comp]
  rw [hcut, if_pos (by simp)]

/-- **C102** (bands follow the eigenvalues). Suppose the windows of the first level are at most `s`
apart and span those of the other levels, whose windows are at least `2 s` apart; every window of
every level has a mode outside its lowest local band, every mode number occurs outside the lowest
band somewhere, and no level has more modes than `svd_rank_array` allows. Then interpolating to the
first level, clustering and returning to the levels gives every mode outside the lowest local band
the global band of its own eigenvalue, and the others none. -/
theorem C102_labels_partial (label : α → ℕ) (arr : List ℤ) (first : Level α)
    (rest : List (Level α)) (s : ℚ) (hs : 0 < s)
    (hkeep : ∀ L ∈ first :: rest, ∀ k < L.centers.length, ∃ l < L.rank, L.high k l = true)
    (hn : 0 < first.centers.length) (hinc : Increasing first.centers)
    (hgap : ∀ i, i + 1 < first.centers.length →
      first.centers.getD (i + 1) 0 - first.centers.getD i 0 ≤ s)
    (hrest : ∀ L ∈ rest, 2 ≤ L.centers.length ∧ Increasing L.centers ∧
      (∀ i, i + 1 < L.centers.length → 2 * s ≤ L.centers.getD (i + 1) 0 - L.centers.getD i 0) ∧
      first.centers.getD 0 0 ≤ L.centers.getD 0 0 ∧
      L.centers.getD (L.centers.length - 1) 0 ≤ first.centers.getD (first.centers.length - 1) 0)
    (hranks : ∀ l, (∃ L ∈ first :: rest, l < L.rank) →
      ∃ L ∈ first :: rest, l < L.rank ∧ ∃ k < L.centers.length, L.high k l = true)
    (harr : ∀ L ∈ first :: rest, ∃ r ∈ arr, (L.rank : ℤ) ≤ r) :
    globalClasses label arr first rest =
      .ok ((first :: rest).map fun L => (List.range L.centers.length).map fun k =>
        (List.range L.rank).map fun l =>
          if L.high k l = true then some (label (L.omega k l)) else none) := by
  have hgrid : grid first rest = first.centers := by
    unfold grid
    split
    · exact keptCenters_all first (hkeep first (by simp))
    · rfl
  have hfr : firstRows first rest =
      (List.range first.centers.length).map fun k => (first.centers.getD k 0, first.row k) := by
    unfold firstRows
    rw [keptWindows_all first (hkeep first (by simp))]
    split <;> rfl
  have htop : ∀ L ∈ first :: rest, L.rank ≤ topRank (first :: rest) :=
    (foldl_rank (first :: rest) 0).2.1
  have hmax : ((topRank (first :: rest) : ℕ) : ℤ) ≤ arr.foldl max (arr.headD 0) := by
    obtain ⟨-, -, h3⟩ := foldl_rank (first :: rest) 0
    rcases h3 with h3 | ⟨L, hL, h3⟩
    · obtain ⟨r, hr, hle⟩ := harr first (by simp)
      have := (le_foldl_max arr (arr.headD 0)).2 r hr
      unfold topRank
      rw [h3]
      push_cast
      omega
    · obtain ⟨r, hr, hle⟩ := harr L hL
      have := (le_foldl_max arr (arr.headD 0)).2 r hr
      unfold topRank
      rw [h3]
      omega
  choose! R hR1 hR2 hR3 using fun (L : Level α) (hL : L ∈ rest) =>
    gridRows_spec L first.centers s hs (hkeep L (List.mem_cons_of_mem _ hL)) (hrest L hL).1
      (hrest L hL).2.1 (hrest L hL).2.2.1 hinc hgap hn (hrest L hL).2.2.2.1 (hrest L hL).2.2.2.2
  have hmr : multiResInterp first rest = .ok (firstRows first rest :: rest.map R) := by
    unfold multiResInterp
    rw [hgrid, MrDMD.mapM_ok' _ R rest hR1]
    rfl
  unfold globalClasses
  rw [hmr, hgrid, ranksUnion_complete _ hranks]
  simp only [bind, Except.bind]
  have hzip : (first :: rest).zip (firstRows first rest :: rest.map R) =
      (first, firstRows first rest) :: rest.map fun L => (L, R L) := by
    have : ∀ l : List (Level α), l.zip (l.map R) = l.map fun L => (L, R L) := by
      intro l
      induction l with
      | nil => rfl
      | cons a l ih => rw [List.map_cons, List.zip_cons_cons, ih, List.map_cons]
    rw [List.zip_cons_cons, this]
  rw [hzip, MrDMD.mapM_ok' _ (fun p : Level α × List (ℚ × (ℕ → Option α)) =>
    (List.range p.1.centers.length).map fun k => (List.range p.1.rank).map fun l =>
      if p.1.high k l = true then some (label (p.1.omega k l)) else none) _ ?_]
  · rw [List.map_cons, List.map_cons, List.map_map]
    rfl
  · intro p hp
    rcases List.mem_cons.1 hp with rfl | hp
    · refine levelClasses_spec label _ _ _ _ _ (htop first (by simp)) hmax ?_
      intro k hk
      rw [selNearest_self _ hinc k hk, hfr]
      simp [List.getD_eq_getElem?_getD, hk]
    · obtain ⟨L, hL, rfl⟩ := List.mem_map.1 hp
      exact levelClasses_spec label _ _ _ _ _ (htop L (List.mem_cons_of_mem _ hL)) hmax (hR3 L hL)

/-- Five windows of the first level, 4 time steps apart. Eigenvalues are numbers. -/
def exFirst : Level ℕ where
  centers := [3 / 2, 11 / 2, 19 / 2, 27 / 2, 35 / 2]
  rank := 3
  omega := fun k l => 10 * k + l
  high := fun k l => l ≠ 1 || k == 2

/-- Three windows, 8 steps apart. -/
def exSecond : Level ℕ where
  centers := [3 / 2, 19 / 2, 35 / 2]
  rank := 2
  omega := fun k l => 100 + 10 * k + l
  high := fun _ l => l == 0

/-- The hypotheses of `C102_labels_partial` are met, with its conclusion. -/
theorem C102_instance :
    globalClasses id [3, 2] exFirst [exSecond] =
      .ok [[[some 0, none, some 2], [some 10, none, some 12], [some 20, some 21, some 22],
          [some 30, none, some 32], [some 40, none, some 42]],
        [[some 100, none], [some 110, none], [some 120, none]]] := by
  have := C102_labels_partial (α := ℕ) id [3, 2] exFirst [exSecond] 4 (by norm_num)
    (by
      intro L hL k hk
      simp only [List.mem_cons, List.not_mem_nil, or_false] at hL
      rcases hL with rfl | rfl
      · exact ⟨0, by decide, by simp [exFirst]⟩
      · exact ⟨0, by decide, by simp [exSecond]⟩)
    (by decide)
    (by
      intro i j hij hj
      have hj' : j < 5 := hj
      have hi' : i < 5 := by omega
      interval_cases j <;> interval_cases i <;> simp_all [exFirst] <;> norm_num)
    (by
      intro i hi
      have hi' : i < 4 := by have : i + 1 < 5 := hi; omega
      interval_cases i <;> norm_num [exFirst])
    (by
      intro L hL
      simp only [List.mem_cons, List.not_mem_nil, or_false] at hL
      subst hL
      refine ⟨by decide, ?_, ?_, ?_, ?_⟩
      · intro i j hij hj
        have hj' : j < 3 := hj
        have hi' : i < 3 := by omega
        interval_cases j <;> interval_cases i <;> simp_all [exSecond] <;> norm_num
      · intro i hi
        have hi' : i < 2 := by have : i + 1 < 3 := hi; omega
        interval_cases i <;> norm_num [exSecond]
      · norm_num [exFirst, exSecond]
      · norm_num [exFirst, exSecond])
    (by
      rintro l ⟨L, hL, hl⟩
      refine ⟨exFirst, by simp, ?_, 2, by decide, by simp [exFirst]⟩
      simp only [List.mem_cons, List.not_mem_nil, or_false] at hL
      rcases hL with rfl | rfl
      · exact hl
      · exact lt_of_lt_of_le hl (by decide))
    (by
      intro L hL
      simp only [List.mem_cons, List.not_mem_nil, or_false] at hL
      rcases hL with rfl | rfl
      · exact ⟨3, by simp, by decide⟩
      · exact ⟨3, by simp, by decide⟩)
  rw [this]
  decide

/-- **C102** fails at a shortened last window. 20 samples; first level with windows of 4 samples and
step 4, second with windows of 8 samples and step 10: its windows start at 0, 10 and, because 18 < 20,
at 12, so their centres are 3.5, 13.5 and 15.5. The modes of the last window get the bands of the
window before it: the eigenvalues of the last window are not clustered at all. -/
theorem C102_last_window_false :
    ∃ (first second : Level ℕ), first.centers = [3 / 2, 11 / 2, 19 / 2, 27 / 2, 35 / 2] ∧
      second.centers = [7 / 2, 27 / 2, 31 / 2] ∧ first.rank = 2 ∧ second.rank = 2 ∧
      (∀ k l, first.high k l = true) ∧ (∀ k l, second.high k l = true) ∧
      (∀ k l, second.omega k l = k) ∧
      (globalClasses id [2, 2] first [second]).toOption.map (fun c => c.getD 1 []) =
        some [[some 0, some 0], [some 1, some 1], [some 1, some 1]] := by
  refine ⟨⟨[3 / 2, 11 / 2, 19 / 2, 27 / 2, 35 / 2], 2, fun _ _ => 7, fun _ _ => true⟩,
    ⟨[7 / 2, 27 / 2, 31 / 2], 2, fun k _ => k, fun _ _ => true⟩,
    rfl, rfl, rfl, rfl, fun _ _ => rfl, fun _ _ => rfl, fun _ _ => rfl, ?_⟩
  decide +kernel

/-- **C102** fails at a window whose modes are all in the lowest local band: it is dropped, and its
modes, which belong to the background, get the bands of the neighbouring window and are
reconstructed a second time. -/
theorem C102_quiet_window_false :
    ∃ (first second : Level ℕ), first.centers = [0, 1, 2, 3, 4, 5, 6] ∧
      second.centers = [1, 3, 5] ∧ first.rank = 1 ∧ second.rank = 1 ∧
      (∀ k l, first.high k l = true) ∧ (∀ k l, second.high k l = (k != 1)) ∧
      (∀ k l, second.omega k l = k) ∧
      (globalClasses id [1, 1] first [second]).toOption.map (fun c => c.getD 1 []) =
        some [[some 0], [some 0], [some 2]] := by
  refine ⟨⟨[0, 1, 2, 3, 4, 5, 6], 1, fun _ _ => 7, fun _ _ => true⟩,
    ⟨[1, 3, 5], 1, fun k _ => k, fun k _ => k != 1⟩,
    rfl, rfl, rfl, rfl, fun _ _ => rfl, fun _ _ => rfl, fun _ _ => rfl, ?_⟩
  decide +kernel

/-- **C102** (modes that are always slow). Take one level, or several with the same rank `R` as in
`svd_rank_array`. If one mode number is in the lowest local band in every window of every level, as
happens for a stationary signal whose windows all return their modes in the same order, the
reconstruction cannot be computed: whenever the interpolation succeeds, `IndexError`. -/
theorem C102_stationary_false (label : α → ℕ) (arr : List ℤ) (first : Level α)
    (rest : List (Level α)) (R l₀ : ℕ) (hl : l₀ < R) (hR : ∀ L ∈ first :: rest, L.rank = R)
    (harr : arr ≠ []) (harr' : ∀ r ∈ arr, r = R) (hn : 0 < first.centers.length)
    (hlow : ∀ L ∈ first :: rest, ∀ k < L.centers.length, L.high k l₀ = false)
    (hok : ∃ rows, multiResInterp first rest = .ok rows) :
    globalClasses label arr first rest = .error .indexError := by
  obtain ⟨rows, hrows⟩ := hok
  have htop : topRank (first :: rest) = R := by
    obtain ⟨-, h2, h3⟩ := foldl_rank (first :: rest) 0
    have h4 := h2 first (by simp)
    rw [hR first (by simp)] at h4
    unfold topRank
    rcases h3 with h3 | ⟨L, hL, h3⟩
    · omega
    · rw [h3, hR L hL]
  have hlen : (ranksUnion (first :: rest)).length < R := by
    have hsub : ranksUnion (first :: rest) ⊆ (List.range R).filter (fun l => l ≠ l₀) := by
      intro l hl'
      unfold ranksUnion at hl'
      rw [List.mem_filter, List.mem_range] at hl'
      rw [List.mem_filter, List.mem_range]
      refine ⟨by have := hl'.1; unfold topRank at htop; omega, ?_⟩
      obtain ⟨L, hL, hmem⟩ := List.any_eq_true.1 hl'.2
      have hmem' : l ∈ L.keptRanks := by simpa using hmem
      obtain ⟨-, k, hk, hh⟩ := (mem_keptRanks L l).1 hmem'
      simp only [decide_eq_true_eq, ne_eq]
      rintro rfl
      rw [hlow L hL k hk] at hh
      simp at hh
    have hnd : (ranksUnion (first :: rest)).Nodup := List.Nodup.filter _ List.nodup_range
    have h1 : (ranksUnion (first :: rest)).length ≤ ((List.range R).filter fun l => l ≠ l₀).length :=
      (hnd.subperm hsub).length_le
    have h2 : ((List.range R).filter fun l => l ≠ l₀).length < (List.range R).length := by
      refine List.length_filter_lt_length_iff_exists.2 ⟨l₀, List.mem_range.2 hl, by simp⟩
    rw [List.length_range] at h2
    omega
  have hmax : arr.foldl max (arr.headD 0) = R := by
    have hall : ∀ (l : List ℤ) (a : ℤ), a = R → (∀ r ∈ l, r = R) → l.foldl max a = R := by
      intro l
      induction l with
      | nil => intro a ha _; exact ha
      | cons b l ih =>
        intro a ha hb
        rw [List.foldl_cons]
        refine ih _ ?_ fun r hr => hb r (List.mem_cons_of_mem _ hr)
        rw [ha, hb b (by simp), max_self]
    obtain ⟨a, l, rfl⟩ := List.exists_cons_of_ne_nil harr
    exact hall _ _ (harr' a (by simp)) harr'
  obtain ⟨r0, more, hr0⟩ : ∃ r0 more, rows = r0 :: more := by
    unfold multiResInterp at hrows
    cases hm : rest.mapM (fun L => L.gridRows (grid first rest)) with
    | error e => rw [hm] at hrows; simp [bind, Except.bind] at hrows
    | ok v =>
      rw [hm] at hrows
      simp only [bind, Except.bind, Except.ok.injEq] at hrows
      exact ⟨_, _, hrows.symm⟩
  have hfirst : levelClasses label (R : ℤ) (ranksUnion (first :: rest)) (grid first rest) first r0 =
      .error .indexError := by
    unfold levelClasses
    obtain ⟨x, xs, hx⟩ := List.exists_cons_of_ne_nil (List.ne_nil_of_length_pos hn)
    rw [hx, List.mapM_cons]
    have hr : first.rank = R := hR first (by simp)
    have hne : (deterpWindow label (ranksUnion (first :: rest)) (grid first rest) r0 x).length ≠
        first.rank := by
      unfold deterpWindow
      rw [List.length_map, hr]
      omega
    simp only [hr, lt_irrefl, if_false]
    rw [hr] at hne
    rw [if_neg hne]
    rfl
  unfold globalClasses
  rw [hrows, hmax, hr0]
  simp only [bind, Except.bind, List.zip_cons_cons]
  rw [List.mapM_cons, hfirst]
  rfl

/-- Its hypotheses are met: one level of rank 4 whose two middle modes are always slow. -/
example : globalClasses id [4]
    (⟨[1, 2, 3], 4, fun k l => 10 * k + l, fun _ l => l == 0 || l == 3⟩ : Level ℕ) [] =
      .error .indexError := by
  refine C102_stationary_false _ _ _ _ 4 1 (by norm_num) (by simp) (by simp) (by simp) (by decide)
    (by simp) ⟨_, rfl⟩

/-! ## C103: the reconstruction error is the sum of the local errors -/

theorem fold_sep_gen {β : Type} (length : ℕ) (start : β → ℕ) (band : β → ℕ → ℕ → ℕ → ℝ)
    (j s t : ℕ) : ∀ (wins : List β) (a : Acc),
      (wins.foldl (fun a w => addWindow length (band w) (start w) a) a).sep j s t =
        a.sep j s t + (wins.map fun w => weight length (start w) t *
          band w j s (t - start w)).sum ∧
      (wins.foldl (fun a w => addWindow length (band w) (start w) a) a).xn t =
        a.xn t + (wins.map fun w => weight length (start w) t).sum := by
  intro wins
  induction wins with
  | nil => intro a; simp
  | cons w wins ih =>
    intro a
    obtain ⟨h1, h2⟩ := ih (addWindow length (band w) (start w) a)
    rw [List.foldl_cons, h1, h2]
    simp only [List.map_cons, List.sum_cons, addWindow, weight]
    constructor
    · split_ifs <;> ring
    · split_ifs <;> ring

theorem globalBand_eq (F : Fitted) (cls : ℕ → ℕ → Option ℕ) (j s t : ℕ) :
    F.globalBand cls j s t =
      (F.wins.zipIdx.map fun w => weight F.length w.1.1 t *
        (w.1.2.sumOver F.rank (fun l => cls w.2 l == some j) s (t - w.1.1)).re).sum /
      (F.wins.map fun w => weight F.length w.1 t).sum := by
  unfold Fitted.globalBand
  obtain ⟨h1, h2⟩ := fold_sep_gen F.length (fun w : (ℕ × WindowFit) × ℕ => w.1.1)
    (fun w j s i => (w.1.2.sumOver F.rank (fun l => cls w.2 l == some j) s i).re) j s t
    F.wins.zipIdx ⟨fun _ _ _ => 0, fun _ => 0⟩
  simp only [h1, h2, zero_add]
  congr 2
  conv_rhs => rw [← List.zipIdx_map_fst 0 F.wins, List.map_map]
  rfl

/-- The contribution of mode `l` of a window at window index `i`. -/
noncomputable def modeTerm (f : WindowFit) (s i l : ℕ) : ℂ :=
  f.modes s l * f.amplitudes l * Complex.exp (f.omega l * f.time i)

theorem sum_global (f : WindowFit) (rank nG : ℕ) (c : ℕ → Option ℕ)
    (hc : ∀ l < rank, ∀ j, c l = some j → j < nG) (s i : ℕ) :
    ((List.range nG).map fun j => (f.sumOver rank (fun l => c l == some j) s i).re).sum =
      (∑ l ∈ (Finset.range rank).filter (fun l => (c l).isSome = true), modeTerm f s i l).re := by
  have e2 : ((List.range nG).map fun j => (f.sumOver rank (fun l => c l == some j) s i).re).sum =
      ∑ j ∈ Finset.range nG, (f.sumOver rank (fun l => c l == some j) s i).re := by
    rw [← List.sum_toFinset _ List.nodup_range, List.toFinset_range]
  rw [e2, ← Complex.re_sum]
  congr 1
  rw [← Finset.sum_fiberwise_of_maps_to (s := (Finset.range rank).filter
    (fun l => (c l).isSome = true)) (t := Finset.range nG) (g := fun l => (c l).getD 0)]
  · refine Finset.sum_congr rfl fun j _ => ?_
    rw [sumOver_eq]
    refine Finset.sum_congr ?_ fun l _ => rfl
    ext l
    simp only [Finset.mem_filter, Finset.mem_range, beq_iff_eq]
    constructor
    · rintro ⟨h1, h2⟩
      exact ⟨⟨h1, by rw [h2]; rfl⟩, by rw [h2]; rfl⟩
    · rintro ⟨⟨h1, h2⟩, h3⟩
      refine ⟨h1, ?_⟩
      obtain ⟨v, hv⟩ := Option.isSome_iff_exists.1 h2
      rw [hv] at h3 ⊢
      rw [← h3]
      rfl
  · intro l hl
    simp only [Finset.mem_filter, Finset.mem_range] at hl
    obtain ⟨v, hv⟩ := Option.isSome_iff_exists.1 hl.2
    simp only [hv, Option.getD_some, Finset.mem_range]
    exact hc l hl.1 v hv

theorem sum_high (fits : List WindowFit) (rank nC : ℕ) (centroids : List ℝ) (im : Bool)
    (f : WindowFit) (hf : f ∈ fits) (h0 : argmin centroids = 0)
    (hcl : ∀ l < rank, f.classes l < nC) (s i : ℕ) :
    (((List.range nC).drop 1).map fun j => windowBand fits rank centroids im f j s i).sum =
      (∑ l ∈ (Finset.range rank).filter (fun l => f.classes l ≠ 0), modeTerm f s i l).re := by
  have hb : ∀ j, j ≠ 0 → windowBand fits rank centroids im f j s i =
      (∑ l ∈ (Finset.range rank).filter (fun l => f.classes l = j), modeTerm f s i l).re := by
    intro j hj
    unfold windowBand
    by_cases ho : occurs fits rank j = true
    · rw [if_pos ho, sumOver_eq, if_neg (by rw [h0]; exact fun h => hj h.2), add_zero]
      simp [modeTerm]
    · rw [if_neg ho]
      have hem : (Finset.range rank).filter (fun l => f.classes l = j) = ∅ := by
        rw [Finset.filter_eq_empty_iff]
        intro l hl h
        refine ho ?_
        simp only [occurs, List.any_eq_true, List.mem_range, beq_iff_eq]
        exact ⟨f, hf, l, Finset.mem_range.1 hl, h⟩
      rw [hem]
      simp
  have hdrop : (List.range nC).drop 1 = (List.range nC).filter (fun j => j ≠ 0) := by
    cases nC with
    | zero => rfl
    | succ n =>
      rw [List.range_succ_eq_map, List.drop_succ_cons, List.drop_zero, List.filter_cons_of_neg (by simp),
        List.filter_eq_self.2]
      intro j hj
      obtain ⟨i, -, rfl⟩ := List.mem_map.1 hj
      simp
  have e2 : (((List.range nC).drop 1).map fun j => windowBand fits rank centroids im f j s i).sum =
      ∑ j ∈ (Finset.range nC).filter (fun j => j ≠ 0), windowBand fits rank centroids im f j s i := by
    rw [hdrop, ← List.sum_toFinset _ (List.Nodup.filter _ List.nodup_range)]
    congr 1
    ext j
    simp
  rw [e2, Finset.sum_congr rfl fun j hj => hb j (Finset.mem_filter.1 hj).2, ← Complex.re_sum]
  congr 1
  rw [← Finset.sum_fiberwise_of_maps_to (s := (Finset.range rank).filter (fun l => f.classes l ≠ 0))
    (t := (Finset.range nC).filter (fun j => j ≠ 0)) (g := f.classes)]
  · refine Finset.sum_congr rfl fun j hj => Finset.sum_congr ?_ fun l _ => rfl
    have hj0 := (Finset.mem_filter.1 hj).2
    ext l
    simp only [Finset.mem_filter, Finset.mem_range]
    constructor
    · rintro ⟨h1, h2⟩
      exact ⟨⟨h1, by rw [h2]; exact hj0⟩, h2⟩
    · rintro ⟨⟨h1, -⟩, h2⟩
      exact ⟨h1, h2⟩
  · intro l hl
    simp only [Finset.mem_filter, Finset.mem_range] at hl ⊢
    exact ⟨hcl l hl.1, hl.2⟩

/-- What the reconstruction of a level needs: the lowest local band is band 0 (C47: centroids are
sorted), local classes are bands, and the global classes mark exactly the modes outside the lowest
local band, with bands below `nG` (C102). -/
def Consistent (nG : ℕ) (F : Fitted) (cls : ℕ → ℕ → Option ℕ) : Prop :=
  argmin F.centroids = 0 ∧
    ∀ (k : ℕ) (w : ℕ × WindowFit), F.wins[k]? = some w → ∀ l < F.rank,
      w.2.classes l < F.nComponents ∧ ((cls k l).isSome = true ↔ w.2.classes l ≠ 0) ∧
        ∀ j, cls k l = some j → j < nG

/-- **C103** (bands of a level). The global bands of a level add up to its high frequency
component, at every place and time. -/
theorem C103_bands (nG : ℕ) (F : Fitted) (cls : ℕ → ℕ → Option ℕ) (h : Consistent nG F cls)
    (im : Bool) (s t : ℕ) :
    ((List.range nG).map fun j => F.globalBand cls j s t).sum =
      (scaleSeparation F.length F.rank F.nComponents F.centroids im F.wins).2 s t := by
  obtain ⟨h0, hw⟩ := h
  simp only [globalBand_eq, scaleSeparation, scaleReconstruction_eq, div_eq_mul_inv,
    List.sum_map_mul_right]
  congr 1
  rw [sum_comm_lists (List.range nG), sum_comm_lists ((List.range F.nComponents).drop 1)]
  conv_rhs => rw [← List.zipIdx_map_fst 0 F.wins, List.map_map]
  congr 1
  refine List.map_congr_left fun w hmem => ?_
  simp only [Function.comp, List.sum_map_mul_left]
  congr 1
  have hk : F.wins[w.2]? = some w.1 := List.mem_zipIdx_iff_getElem?.1 hmem
  have hmem' : w.1 ∈ F.wins := List.mem_of_getElem? hk
  rw [sum_global w.1.2 F.rank nG (cls w.2) fun l hl j hj => (hw _ _ hk l hl).2.2 j hj,
    List.zipIdx_map_fst, sum_high (F.wins.map (·.2)) F.rank F.nComponents F.centroids im w.1.2
      (List.mem_map.2 ⟨w.1, hmem', rfl⟩) h0 fun l hl => (hw _ _ hk l hl).1]
  congr 1
  refine Finset.sum_congr ?_ fun l _ => rfl
  refine Finset.filter_congr fun l hl => ?_
  exact (hw _ _ hk l (Finset.mem_range.1 hl)).2.1

theorem telescope (nG : ℕ) (im : Bool) (levels : List Fitted) (cls : ℕ → ℕ → ℕ → Option ℕ)
    (s t : ℕ) : ∀ (x : ℕ → ℕ → ℝ) (d : ℕ), (∀ (k : ℕ) F, levels[k]? = some F →
      Consistent nG F (cls (d + k))) → ∀ last, levels.getLast? = some last →
    x s t - (((levels.zipIdx d).map fun F => ((List.range nG).map fun j =>
        F.1.globalBand (cls F.2) j s t).sum).sum + last.low true s t) =
      (((inputs im x levels).zip levels).map fun p =>
        p.1 s t - (p.2.low im s t + p.2.high im s t)).sum +
      (last.low im s t - last.low true s t) := by
  induction levels with
  | nil => intro x d _ last hl; simp at hl
  | cons F rest ih =>
    intro x d hcons last hlast
    have hF := C103_bands nG F (cls d) (by simpa using hcons 0 F rfl) im s t
    simp only [List.zipIdx_cons, List.map_cons, List.sum_cons, inputs, List.zip_cons_cons, hF]
    cases rest with
    | nil =>
      simp only [List.getLast?_singleton, Option.some.injEq] at hlast
      subst hlast
      simp only [List.zipIdx_nil, List.map_nil, List.sum_nil, List.zip_nil_right, Fitted.low,
        Fitted.high]
      ring
    | cons G more =>
      have := ih (F.low im) (d + 1) (fun k F' hk => by
        have := hcons (k + 1) F' (by simpa using hk)
        rwa [show d + (k + 1) = d + 1 + k by omega] at this) last (by simpa using hlast)
      simp only [Fitted.high] at this ⊢
      linarith

/-- **C103** (error of the global reconstruction). If the global classes are consistent with the
local ones (C102), then at every place and time the data minus `global_reconstruction()` is the sum
over the levels of (input of the level minus its local reconstruction), where the input of a level
is the low frequency component of the level before. The last summand is 0 with the default
`costs_recon_kwargs`: `get_background` always includes the means, the levels only if told so. -/
theorem C103_error (nG : ℕ) (im : Bool) (levels : List Fitted) (cls : ℕ → ℕ → ℕ → Option ℕ)
    (hcons : ∀ (k : ℕ) F, levels[k]? = some F → Consistent nG F (cls k)) (last : Fitted)
    (hlast : levels.getLast? = some last) (data : ℕ → ℕ → ℝ) (s t : ℕ) :
    data s t - globalReconstruction nG levels cls s t =
      (((inputs im data levels).zip levels).map fun p =>
        p.1 s t - (p.2.low im s t + p.2.high im s t)).sum +
      (last.low im s t - last.low true s t) := by
  have := telescope nG im levels cls s t data 0 (fun k F hk => by simpa using hcons k F hk) last hlast
  rw [← this]
  unfold globalReconstruction background
  rw [hlast]
  rfl

/-- **C103** (exactness). If every level reproduces its input at a place and time, the global
reconstruction is the data there. -/
theorem C103_exact (nG : ℕ) (levels : List Fitted) (cls : ℕ → ℕ → ℕ → Option ℕ)
    (hcons : ∀ (k : ℕ) F, levels[k]? = some F → Consistent nG F (cls k)) (hne : levels ≠ [])
    (data : ℕ → ℕ → ℝ) (s t : ℕ)
    (hfit : ∀ p ∈ (inputs true data levels).zip levels,
      Costs.globalReconstruction p.2.length p.2.rank p.2.nComponents p.2.centroids true p.2.wins s t =
        p.1 s t) (hc : ∀ F ∈ levels, 1 ≤ F.nComponents) :
    globalReconstruction nG levels cls s t = data s t := by
  obtain ⟨last, hlast⟩ : ∃ last, levels.getLast? = some last :=
    ⟨_, List.getLast?_eq_getLast_of_ne_nil hne⟩
  have h := C103_error nG true levels cls hcons last hlast data s t
  have hz : (((inputs true data levels).zip levels).map fun p =>
      p.1 s t - (p.2.low true s t + p.2.high true s t)).sum = 0 := by
    refine List.sum_eq_zero fun v hv => ?_
    obtain ⟨p, hp, rfl⟩ := List.mem_map.1 hv
    have h1 := hfit p hp
    have h2 := C46_separation p.2.length p.2.rank p.2.nComponents
      (hc p.2 (List.of_mem_zip hp).2) p.2.centroids true p.2.wins s t
    simp only [Fitted.low, Fitted.high]
    rw [h2, h1, sub_self]
  rw [hz, sub_self, add_zero] at h
  linarith

/-- The hypotheses of C103 are met: two levels with one window of one sample, each with a slow and a
fast mode; the global bands 1 and 0 hold the fast ones. -/
example : ∃ (levels : List Fitted) (cls : ℕ → ℕ → ℕ → Option ℕ), levels.length = 2 ∧
    (∀ (k : ℕ) F, levels[k]? = some F → Consistent 2 F (cls k)) ∧
    cls 0 0 1 = some 1 ∧ cls 1 0 1 = some 0 ∧ cls 0 0 0 = none := by
  refine ⟨[⟨1, 2, 2, [0, 1], [(0, ⟨fun _ _ => 1, fun l => l + 1, fun _ => Complex.I, id, fun _ => 5,
      fun _ => 0⟩)]⟩, ⟨1, 2, 2, [0, 3], [(0, ⟨fun _ _ => 2, fun l => l + 1, fun _ => Complex.I, id,
      fun _ => 4, fun _ => 0⟩)]⟩], fun d _ l => if l = 1 then some (1 - d) else none, rfl, ?_,
    rfl, rfl, rfl⟩
  intro k F hF
  have hmin : ∀ b : ℝ, 0 ≤ b → argmin [0, b] = 0 := by
    intro b hb
    simp [argmin, hb]
  match k, hF with
  | 0, hF =>
    simp only [List.getElem?_cons_zero, Option.some.injEq] at hF
    subst hF
    refine ⟨hmin 1 (by norm_num), ?_⟩
    intro k w hw l hl
    match k, hw with
    | 0, hw =>
      simp only [List.getElem?_cons_zero, Option.some.injEq] at hw
      subst hw
      have hl' : l < 2 := hl
      interval_cases l <;> simp
    | k + 1, hw => simp at hw
  | 1, hF =>
    simp only [List.getElem?_cons_succ, List.getElem?_cons_zero, Option.some.injEq] at hF
    subst hF
    refine ⟨hmin 3 (by norm_num), ?_⟩
    intro k w hw l hl
    match k, hw with
    | 0, hw =>
      simp only [List.getElem?_cons_zero, Option.some.injEq] at hw
      subst hw
      have hl' : l < 2 := hl
      interval_cases l <;> simp
    | k + 1, hw => simp at hw
  | k + 2, hF => simp at hF

end Verif.MrCosts
