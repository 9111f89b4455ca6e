import Verif.Model.CostsRank
import Mathlib.Algebra.Order.Ring.Cast
import Mathlib.Data.Rat.Cast.Order
import Mathlib.Algebra.Order.Field.Rat
import Mathlib.Tactic.Linarith
import Mathlib.Tactic.NormNum

/-!
# C100: the rank the windows of COSTS are fitted with
-/

set_option autoImplicit false

namespace Verif.CostsRank

open Verif Verif.Rank

variable {K : Type} [Field K] [LinearOrder K] [IsStrictOrderedRing K]

theorem computeRank_int (sigma : List K) (rows cols : ℕ) (k : ℤ) (hk : 1 ≤ k) :
    computeRank sigma rows cols (.int k) = min k.toNat sigma.length := by
  have h0 : ((k : ℤ) : K) ≠ 0 := by exact_mod_cast (by omega : k ≠ 0)
  have h1 : ¬ ((k : ℤ) : K) < 1 := by
    rw [not_lt]; exact_mod_cast hk
  simp [computeRank, SvdRank.val, h0, h1, hk]

theorem computeRank_npInt (sigma : List K) (rows cols : ℕ) (k : ℤ) (hk : 1 ≤ k) :
    computeRank sigma rows cols (.npInt k) = min rows cols := by
  have h0 : ((k : ℤ) : K) ≠ 0 := by exact_mod_cast (by omega : k ≠ 0)
  have h1 : ¬ ((k : ℤ) : K) < 1 := by
    rw [not_lt]; exact_mod_cast hk
  simp [computeRank, SvdRank.val, h0, h1]

theorem typed_int (m : Mat K) (k : ℤ) (hk : 1 ≤ k) :
    computeRankTyped m (.int k) = .int (min k.toNat m.sigma.length : ℕ) := by
  have h0 : ((k : ℤ) : K) ≠ 0 := by exact_mod_cast (by omega : k ≠ 0)
  have h1 : ¬ ((k : ℤ) : K) < 1 := by
    rw [not_lt]; exact_mod_cast hk
  rw [computeRankTyped, if_neg (by simpa [SvdRank.val] using h0),
    if_neg (by simp [SvdRank.val, h1]), computeRank_int _ _ _ _ hk]

theorem typed_npInt (m : Mat K) (k : ℤ) (hk : 1 ≤ k) :
    computeRankTyped m (.npInt k) = .int (min m.rows m.cols : ℕ) := by
  have h0 : ((k : ℤ) : K) ≠ 0 := by exact_mod_cast (by omega : k ≠ 0)
  have h1 : ¬ ((k : ℤ) : K) < 1 := by
    rw [not_lt]; exact_mod_cast hk
  rw [computeRankTyped, if_neg (by simpa [SvdRank.val] using h0),
    if_neg (by simp [SvdRank.val, h1]), computeRank_npInt _ _ _ _ hk]

/-- The number of singular values above the optimal threshold `median * ω(β)`. -/
def aboveThreshold (m : Mat K) : ℕ :=
  m.sigma.countP fun s => median m.sigma * omega (beta m.rows m.cols) < s

omit [IsStrictOrderedRing K] in
theorem typed_zero (m : Mat K) (h : 1 ≤ aboveThreshold m) :
    computeRankTyped m (.int 0) = .npInt (aboveThreshold m) := by
  have h' : ¬ aboveThreshold m = 0 := by omega
  unfold aboveThreshold at h' ⊢
  simp only [computeRankTyped, SvdRank.val, Int.cast_zero, if_true, h', if_false]

omit [IsStrictOrderedRing K] in
theorem computeRank_zero (m : Mat K) (h : 1 ≤ aboveThreshold m) :
    computeRank m.sigma m.rows m.cols (.int 0) = aboveThreshold m := by
  have h' : ¬ aboveThreshold m = 0 := by omega
  unfold aboveThreshold at h' ⊢
  simp only [computeRank, svht, SvdRank.val, Int.cast_zero, if_true, h', if_false]

/-! ## A positive integer rank -/

theorem globalLoop_fixed (R pre : ℕ) (hR : 1 ≤ R) (hp : R ≤ pre) (ws : List (Mat K))
    (hw : ∀ w ∈ ws, R ≤ w.sigma.length) (b : Bop K) (hr : b.svdRank = .int R)
    (hb : b.basis = some R) (hi : b.initAlpha = none ∨ b.initAlpha = some R) :
    globalLoop pre b ws = .ok (ws.map fun _ => R) := by
  induction ws generalizing b with
  | nil => rfl
  | cons w ws ih =>
    have hwl := hw w (by simp)
    have hc : computeRank w.sigma w.rows w.cols b.svdRank = R := by
      rw [hr, computeRank_int _ _ _ _ (by exact_mod_cast hR)]
      simp [hwl]
    have hf : ∃ b', b.fit w = .ok (b', R) ∧ b'.svdRank = .int R ∧ b'.basis = some R ∧
        b'.initAlpha = some R := by
      unfold Bop.fit
      rw [hc, hb]
      rcases hi with h | h <;> rw [h] <;> simp
    obtain ⟨b', hf, h1, h2, h3⟩ := hf
    have ha : assign pre R = .ok () := by simp [assign, hp]
    have hrest := ih (fun w' hw' => hw w' (List.mem_cons_of_mem _ hw')) b' h1 h2 (Or.inr h3)
    simp only [globalLoop, hf, ha, hrest, bind, Except.bind, List.map_cons]

/-- **C100** (integer rank, global SVD). With `svd_rank = r ≥ 1` and `global_svd=True` every window
is fitted with `min(r, number of singular values of the data)` modes, provided the windows are not
too short for that rank. -/
theorem C100_fixed_global (o : Opts K) (data : Mat K) (ws : List (Mat K)) (r : ℕ) (hr : 1 ≤ r)
    (ho : o.svdRank = .int r) (hg : o.globalSvd = true) (hi : o.initAlpha = none)
    (hd : data.sigma ≠ []) (hw : ∀ w ∈ ws, min r data.sigma.length ≤ w.sigma.length) :
    fitRanks o data ws = .ok (ws.map fun _ => min r data.sigma.length) := by
  have hl : 1 ≤ data.sigma.length := List.length_pos_iff.2 hd
  have hr' : (1 : ℤ) ≤ r := by exact_mod_cast hr
  have hm : 1 ≤ min r data.sigma.length := by omega
  have hm' : (1 : ℤ) ≤ (min r data.sigma.length : ℕ) := by exact_mod_cast hm
  have h1 : computeRankTyped data o.svdRank = .int (min r data.sigma.length : ℕ) := by
    rw [ho, typed_int _ _ hr']
    rfl
  have hmm : min (min r data.sigma.length) data.sigma.length = min r data.sigma.length := by omega
  have h2 : computeRankTyped data (.int (min r data.sigma.length : ℕ)) =
      .int (min r data.sigma.length : ℕ) := by
    rw [typed_int _ _ hm', Int.toNat_natCast, hmm]
  have h3 : computeRank data.sigma data.rows data.cols (.int (min r data.sigma.length : ℕ)) =
      min r data.sigma.length := by
    rw [computeRank_int _ _ _ _ hm', Int.toNat_natCast, hmm]
  have h4 : computeRank data.sigma data.rows data.cols o.svdRank = min r data.sigma.length := by
    rw [ho, computeRank_int _ _ _ _ hr']
    rfl
  rw [fitRanks, if_pos hg]
  simp only [h1, h2, h3, h4, hmm]
  exact globalLoop_fixed _ _ hm le_rfl ws hw _ rfl rfl (Or.inl hi)

/-- **C100** (windows that are too short). In the same setting a first window with fewer singular
values than the rank makes `fit` raise `ValueError`. -/
theorem C100_short_window (o : Opts K) (data w : Mat K) (ws : List (Mat K)) (r : ℕ) (hr : 1 ≤ r)
    (ho : o.svdRank = .int r) (hg : o.globalSvd = true)
    (hw : w.sigma.length < min r data.sigma.length) :
    fitRanks o data (w :: ws) = .error .valueError := by
  have hr' : (1 : ℤ) ≤ r := by exact_mod_cast hr
  have hm : 1 ≤ min r data.sigma.length := by omega
  have hm' : (1 : ℤ) ≤ (min r data.sigma.length : ℕ) := by exact_mod_cast hm
  have h1 : computeRankTyped data o.svdRank = .int (min r data.sigma.length : ℕ) := by
    rw [ho, typed_int _ _ hr']
    rfl
  have hmm : min (min r data.sigma.length) data.sigma.length = min r data.sigma.length := by omega
  have h2 : computeRankTyped data (.int (min r data.sigma.length : ℕ)) =
      .int (min r data.sigma.length : ℕ) := by
    rw [typed_int _ _ hm', Int.toNat_natCast, hmm]
  have h4 : computeRank data.sigma data.rows data.cols o.svdRank = min r data.sigma.length := by
    rw [ho, computeRank_int _ _ _ _ hr']
    rfl
  have h5 : computeRank w.sigma w.rows w.cols (.int (min r data.sigma.length : ℕ)) =
      w.sigma.length := by
    rw [computeRank_int _ _ _ _ hm', Int.toNat_natCast]
    omega
  have hne : min r data.sigma.length ≠ w.sigma.length := by omega
  rw [fitRanks, if_pos hg]
  simp only [h1, h2, h4, hmm, globalLoop, Bop.fit, h5, ne_eq, hne, not_false_eq_true, if_true]
  rfl

/-! ## The automatic rank -/

/-- **C100** (automatic rank, global SVD). `svd_rank=0` asks for the optimal rank. With the default
`global_svd=True` the rank is computed twice; the first result is a numpy integer, for which the
second call returns the full rank, and the basis keeps the columns of the first. So `fit` raises
`ValueError` for all data whose optimal rank is not the full rank of the first window. -/
theorem C100_auto_global_false (o : Opts K) (data w : Mat K) (ws : List (Mat K))
    (ho : o.svdRank = .int 0) (hg : o.globalSvd = true) (hd : data.sigma.length = min data.rows data.cols)
    (hc : 1 ≤ aboveThreshold data)
    (hws : w.sigma.length = min w.rows w.cols) (hrow : w.rows = data.rows) (hcol : w.cols ≤ data.cols)
    (hne : aboveThreshold data ≠ min w.rows w.cols) :
    fitRanks o data (w :: ws) = .error .valueError := by
  have hle : aboveThreshold data ≤ data.sigma.length := List.countP_le_length
  have hc' : (1 : ℤ) ≤ (aboveThreshold data : ℕ) := by exact_mod_cast hc
  have hm : (1 : ℤ) ≤ (min data.rows data.cols : ℕ) := by
    have : 1 ≤ min data.rows data.cols := by omega
    exact_mod_cast this
  have h5 : computeRank w.sigma w.rows w.cols (.int (min data.rows data.cols : ℕ)) =
      min w.rows w.cols := by
    rw [computeRank_int _ _ _ _ hm, Int.toNat_natCast, hws]
    omega
  have hb : min (aboveThreshold data) data.sigma.length = aboveThreshold data := by omega
  rw [fitRanks, if_pos hg]
  simp only [ho, typed_zero data hc, typed_npInt data _ hc', computeRank_zero data hc, hb,
    globalLoop, Bop.fit, h5, ne_eq, hne, not_false_eq_true, if_true]
  rfl

theorem npInt_forceEven (f : Bool) (c : ℕ) (hc : 1 ≤ c) :
    ∃ c' : ℕ, c ≤ c' ∧ c' ≤ c + 1 ∧
      forceEven f (.npInt c : SvdRank K) = .npInt c' ∧ (f = true → c' = c + c % 2) ∧
      (f = false → c' = c) := by
  unfold forceEven
  by_cases hf : f = true ∧ IsOdd (.npInt c : SvdRank K)
  · rw [if_pos hf]
    have hodd : c % 2 = 1 := by
      by_contra h
      refine hf.2 ⟨(c / 2 : ℕ), ?_⟩
      have : c = 2 * (c / 2) := by omega
      simp only [SvdRank.val]
      exact_mod_cast congrArg (Nat.cast (R := K)) this
    refine ⟨c + 1, by omega, le_rfl, by simp, fun _ => by omega, ?_⟩
    intro h
    simp [h] at hf
  · rw [if_neg hf]
    refine ⟨c, le_rfl, by omega, rfl, fun h => ?_, fun _ => rfl⟩
    have he : ¬ IsOdd (.npInt c : SvdRank K) := fun h' => hf ⟨h, h'⟩
    unfold IsOdd at he
    rw [not_not] at he
    obtain ⟨n, hn⟩ := he
    simp only [SvdRank.val] at hn
    have : (c : ℤ) = 2 * n := by exact_mod_cast hn
    omega

/-- **C100** (automatic rank, local SVD). With `global_svd=False` and `svd_rank=0` (and no
`max_rank`) the optimal rank of each window is computed, but again as a numpy integer, for which
BOPDMD takes the full rank: every window is fitted with `min(rows, cols)` modes, whatever its
singular values. -/
theorem C100_auto_local_false (o : Opts K) (data : Mat K) (ws : List (Mat K))
    (ho : o.svdRank = .int 0) (hg : o.globalSvd = false) (hm : o.maxRank = none)
    (hbase : o.basis = none) (hi : o.initAlpha = none) (hl : o.useLastFreq = false)
    (hw : ∀ w ∈ ws, w.rows = data.rows ∧ 1 ≤ aboveThreshold w) :
    fitRanks o data ws = .ok (ws.map fun w => min w.rows w.cols) := by
  rw [fitRanks, if_neg (by simp [hg]), if_neg (by simp [ho, SvdRank.val])]
  rw [hm, Option.getD_none]
  have key : ∀ (ws : List (Mat K)) (b : Bop K), b.initAlpha = none →
      (∀ w ∈ ws, w.rows = data.rows ∧ 1 ≤ aboveThreshold w) →
      localLoop o data.rows b ws = .ok (ws.map fun w => min w.rows w.cols) := by
    intro ws
    induction ws with
    | nil => intro b _ _; rfl
    | cons w ws ih =>
      intro b hb hw
      obtain ⟨hrow, hc⟩ := hw w (by simp)
      obtain ⟨c', hc1, -, hfe, -, -⟩ := npInt_forceEven (K := K) o.forceEven _ hc
      have hrank : capRank o.maxRank (forceEven o.forceEven (computeRankTyped w o.svdRank)) =
          (.npInt c' : SvdRank K) := by
        rw [ho, typed_zero w hc, hfe, hm]
        rfl
      have hcr : computeRank w.sigma w.rows w.cols (.npInt c' : SvdRank K) = min w.rows w.cols :=
        computeRank_npInt _ _ _ _ (by exact_mod_cast hc.trans hc1)
      have hf : ∃ b', ({ b with svdRank := .npInt c', basis := o.basis } : Bop K).fit w =
          .ok (b', min w.rows w.cols) := by
        unfold Bop.fit
        simp only [hcr, hbase, hb]
        cases b.useProj <;> exact ⟨_, rfl⟩
      obtain ⟨b', hf⟩ := hf
      have ha : assign data.rows (min w.rows w.cols) = .ok () := by
        simp only [assign]
        rw [if_pos (Or.inl (by omega))]
      simp only [localLoop, hrank, hf, ha, bind, Except.bind, List.map_cons]
      rw [ih _ _ fun w' hw' => hw w' (List.mem_cons_of_mem _ hw')]
      split
      · exact hi
      · rw [if_neg (by simp [hl])]
  exact key ws _ hi hw

/-- **C100** (`max_rank`). It should cap the automatic rank. If it lies at or above the optimal rank
(made even) of the first window but below its full rank, `fit` raises `ValueError`: the full-rank
result does not fit into the `max_rank` allocated columns. -/
theorem C100_max_rank_false (o : Opts K) (data w : Mat K) (ws : List (Mat K)) (m : ℕ)
    (ho : o.svdRank = .int 0) (hg : o.globalSvd = false) (hm : o.maxRank = some m)
    (hbase : o.basis = none) (hi : o.initAlpha = none) (hc : 1 ≤ aboveThreshold w)
    (hcap : aboveThreshold w + 1 ≤ m) (hfull : m < min w.rows w.cols) :
    fitRanks o data (w :: ws) = .error .valueError := by
  rw [fitRanks, if_neg (by simp [hg]), if_neg (by simp [ho, SvdRank.val])]
  rw [hm, Option.getD_some]
  obtain ⟨c', hc1, hc2, hfe, -, -⟩ := npInt_forceEven (K := K) o.forceEven _ hc
  have hrank : capRank o.maxRank (forceEven o.forceEven (computeRankTyped w o.svdRank)) =
      (.npInt c' : SvdRank K) := by
    rw [ho, typed_zero w hc, hfe, hm]
    have : ¬ (m : K) < ((c' : ℤ) : K) := by
      rw [not_lt]
      exact_mod_cast (by omega : c' ≤ m)
    exact if_neg this
  have hcr : computeRank w.sigma w.rows w.cols (.npInt c' : SvdRank K) = min w.rows w.cols :=
    computeRank_npInt _ _ _ _ (by exact_mod_cast hc.trans hc1)
  have hf : ∃ b', ({ svdRank := .npInt c', basis := o.basis, useProj := o.useProj
                     initAlpha := o.initAlpha } : Bop K).fit w = .ok (b', min w.rows w.cols) := by
    unfold Bop.fit
    simp only [hcr, hbase, hi]
    cases o.useProj <;> exact ⟨_, rfl⟩
  obtain ⟨b', hf⟩ := hf
  have ha : assign m (min w.rows w.cols) = .error .valueError := by
    simp only [assign]
    rw [if_neg (by omega)]
  simp only [localLoop, hrank, hf, ha, bind, Except.bind]

/-- **C100** (`max_rank` below the optimal rank is a Python integer and works): every window gets
exactly `max_rank` modes. -/
theorem C100_max_rank (o : Opts K) (data : Mat K) (ws : List (Mat K)) (m : ℕ) (hm1 : 1 ≤ m)
    (ho : o.svdRank = .int 0) (hg : o.globalSvd = false) (hm : o.maxRank = some m)
    (hbase : o.basis = none) (hi : o.initAlpha = none) (hl : o.useLastFreq = false)
    (hw : ∀ w ∈ ws, m < aboveThreshold w) :
    fitRanks o data ws = .ok (ws.map fun _ => m) := by
  rw [fitRanks, if_neg (by simp [hg]), if_neg (by simp [ho, SvdRank.val])]
  rw [hm, Option.getD_some]
  have key : ∀ (ws : List (Mat K)) (b : Bop K), b.initAlpha = none →
      (∀ w ∈ ws, m < aboveThreshold w) →
      localLoop o m b ws = .ok (ws.map fun _ => m) := by
    intro ws
    induction ws with
    | nil => intro b _ _; rfl
    | cons w ws ih =>
      intro b hb hw
      have hc := hw w (by simp)
      have hle : aboveThreshold w ≤ w.sigma.length := List.countP_le_length
      obtain ⟨c', hc1, -, hfe, -, -⟩ := npInt_forceEven (K := K) o.forceEven (aboveThreshold w)
        (by omega)
      have hrank : capRank o.maxRank (forceEven o.forceEven (computeRankTyped w o.svdRank)) =
          (.int m : SvdRank K) := by
        rw [ho, typed_zero w (by omega), hfe, hm]
        have : (m : K) < ((c' : ℤ) : K) := by exact_mod_cast (by omega : m < c')
        exact if_pos this
      have hcr : computeRank w.sigma w.rows w.cols (.int m : SvdRank K) = m := by
        rw [computeRank_int _ _ _ _ (by exact_mod_cast hm1), Int.toNat_natCast]
        omega
      have hf : ∃ b', ({ b with svdRank := .int m, basis := o.basis } : Bop K).fit w =
          .ok (b', m) := by
        unfold Bop.fit
        simp only [hcr, hbase, hb]
        cases b.useProj <;> exact ⟨_, rfl⟩
      obtain ⟨b', hf⟩ := hf
      have ha : assign m m = .ok () := by simp [assign]
      simp only [localLoop, hrank, hf, ha, bind, Except.bind, List.map_cons]
      rw [ih _ _ fun w' hw' => hw w' (List.mem_cons_of_mem _ hw')]
      split
      · exact hi
      · rw [if_neg (by simp [hl])]
  exact key ws _ hi hw

/-- **C100** (fractions, global SVD). A fraction `0 < svd_rank < 1` asks for the least rank with that
energy. As with 0, the rank is computed twice and `fit` raises `ValueError` unless that rank
happens to be the full rank of the first window. -/
theorem C100_fraction_global_false (o : Opts K) (data w : Mat K) (ws : List (Mat K)) (q : K)
    (h0 : 0 < q) (h1 : q < 1) (ho : o.svdRank = .float q) (hg : o.globalSvd = true)
    (hd : data.sigma.length = min data.rows data.cols)
    (hws : w.sigma.length = min w.rows w.cols) (hrow : w.rows = data.rows) (hcol : w.cols ≤ data.cols)
    (hc : computeRank data.sigma data.rows data.cols (.float q) ≤ data.sigma.length)
    (hne : computeRank data.sigma data.rows data.cols (.float q) ≠ min w.rows w.cols) :
    fitRanks o data (w :: ws) = .error .valueError := by
  obtain ⟨c, hcdef⟩ : ∃ c, c = computeRank data.sigma data.rows data.cols (.float q) := ⟨_, rfl⟩
  rw [← hcdef] at hc hne
  have hc1 : 1 ≤ c := by
    rw [hcdef]
    unfold computeRank
    rw [if_neg (by simpa [SvdRank.val] using h0.ne'),
      if_pos (by simpa [SvdRank.val] using ⟨h0, h1⟩)]
    omega
  have hc' : (1 : ℤ) ≤ (c : ℕ) := by exact_mod_cast hc1
  have ht : computeRankTyped data (.float q) = .npInt c := by
    rw [computeRankTyped, if_neg (by simpa [SvdRank.val] using h0.ne'),
      if_pos (by simpa [SvdRank.val] using ⟨h0, h1⟩), hcdef]
  have hm : (1 : ℤ) ≤ (min data.rows data.cols : ℕ) := by
    have : 1 ≤ min data.rows data.cols := by omega
    exact_mod_cast this
  have h5 : computeRank w.sigma w.rows w.cols (.int (min data.rows data.cols : ℕ)) =
      min w.rows w.cols := by
    rw [computeRank_int _ _ _ _ hm, Int.toNat_natCast, hws]
    omega
  have hb : min c data.sigma.length = c := by omega
  rw [fitRanks, if_pos hg]
  simp only [ho, ht, typed_npInt data _ hc', ← hcdef, hb,
    globalLoop, Bop.fit, h5, ne_eq, hne, not_false_eq_true, if_true]
  rfl

/-- **C100** (fractions). A fraction `0 < svd_rank < 1` with `global_svd=False` is refused by the
default `force_even_eigs=True`, as an odd rank. -/
theorem C100_fraction_local_false (o : Opts K) (data : Mat K) (ws : List (Mat K)) (q : K)
    (h0 : 0 < q) (h1 : q < 1) (ho : o.svdRank = .float q) (hg : o.globalSvd = false)
    (he : o.forceEven = true) :
    fitRanks o data ws = .error .valueError := by
  have hodd : IsOdd o.svdRank := by
    rw [ho]
    rintro ⟨n, hn⟩
    simp only [SvdRank.val] at hn
    rw [hn] at h0 h1
    have a : (0 : ℤ) < 2 * n := by exact_mod_cast h0
    have b : 2 * n < (1 : ℤ) := by exact_mod_cast h1
    omega
  rw [fitRanks, if_neg (by simp [hg]), if_pos (by simpa [ho, SvdRank.val] using h0),
    if_pos ⟨he, hodd⟩]

/-- **C100** (starting values of the wrong length). A guess whose length is not the rank of the first
window makes `fit` raise `ValueError`; shown for a given rank and `global_svd=True`. -/
theorem C100_alpha_length (o : Opts K) (data w : Mat K) (ws : List (Mat K)) (r n : ℕ) (hr : 1 ≤ r)
    (ho : o.svdRank = .int r) (hg : o.globalSvd = true) (hi : o.initAlpha = some n)
    (hd : data.sigma ≠ []) (hn : n ≠ min r data.sigma.length)
    (hw : min r data.sigma.length ≤ w.sigma.length) :
    fitRanks o data (w :: ws) = .error .valueError := by
  have hl : 1 ≤ data.sigma.length := List.length_pos_iff.2 hd
  have hr' : (1 : ℤ) ≤ r := by exact_mod_cast hr
  have hm : 1 ≤ min r data.sigma.length := by omega
  have hm' : (1 : ℤ) ≤ (min r data.sigma.length : ℕ) := by exact_mod_cast hm
  have h1 : computeRankTyped data o.svdRank = .int (min r data.sigma.length : ℕ) := by
    rw [ho, typed_int _ _ hr']
    rfl
  have hmm : min (min r data.sigma.length) data.sigma.length = min r data.sigma.length := by omega
  have h2 : computeRankTyped data (.int (min r data.sigma.length : ℕ)) =
      .int (min r data.sigma.length : ℕ) := by
    rw [typed_int _ _ hm', Int.toNat_natCast, hmm]
  have h4 : computeRank data.sigma data.rows data.cols o.svdRank = min r data.sigma.length := by
    rw [ho, computeRank_int _ _ _ _ hr']
    rfl
  have h5 : computeRank w.sigma w.rows w.cols (.int (min r data.sigma.length : ℕ)) =
      min r data.sigma.length := by
    rw [computeRank_int _ _ _ _ hm', Int.toNat_natCast]
    omega
  rw [fitRanks, if_pos hg]
  simp only [h1, h2, h4, hmm, globalLoop, Bop.fit, h5, hi, ne_eq, not_true_eq_false, if_false, hn,
    not_false_eq_true, if_true]
  rfl

theorem int_forceEven (c : ℕ) :
    forceEven true (.int c : SvdRank K) = .int ((c + c % 2 : ℕ) : ℤ) := by
  unfold forceEven
  by_cases hc : c % 2 = 0
  · rw [if_neg, hc, add_zero]
    rintro ⟨-, h⟩
    refine h ⟨(c / 2 : ℕ), ?_⟩
    have : c = 2 * (c / 2) := by omega
    simp only [SvdRank.val]
    exact_mod_cast congrArg (Nat.cast (R := K)) this
  · rw [if_pos]
    · have : c % 2 = 1 := by omega
      simp [this]
    · refine ⟨rfl, ?_⟩
      rintro ⟨n, hn⟩
      simp only [SvdRank.val] at hn
      have : (c : ℤ) = 2 * n := by exact_mod_cast hn
      omega

/-- **C100** (integer rank, local SVD). With an even `svd_rank = r`, `global_svd=False` and
`force_even_eigs` (the default) a window with `s` singular values is fitted with `min(r, s)`
modes. -/
theorem C100_fixed_local (o : Opts K) (data : Mat K) (ws : List (Mat K)) (r : ℕ) (hr : 1 ≤ r)
    (he : r % 2 = 0) (ho : o.svdRank = .int r) (hg : o.globalSvd = false)
    (hf : o.forceEven = true) (hm : o.maxRank = none) (hbase : o.basis = none)
    (hi : o.initAlpha = none) (hl : o.useLastFreq = false) (hrow : r ≤ data.rows)
    (hw : ∀ w ∈ ws, 1 ≤ w.sigma.length ∧ w.sigma.length ≤ data.sigma.length) :
    fitRanks o data ws = .ok (ws.map fun w => min r w.sigma.length) := by
  have hr' : (1 : ℤ) ≤ r := by exact_mod_cast hr
  have hpos : 0 < o.svdRank.val := by
    rw [ho]; simp only [SvdRank.val]; exact_mod_cast hr
  have hodd : ¬ IsOdd o.svdRank := by
    rw [ho, IsOdd, not_not]
    refine ⟨(r / 2 : ℕ), ?_⟩
    have : r = 2 * (r / 2) := by omega
    simp only [SvdRank.val]
    exact_mod_cast congrArg (Nat.cast (R := K)) this
  have hle : ¬ (data.rows : K) < o.svdRank.val := by
    rw [ho, not_lt]; simp only [SvdRank.val]; exact_mod_cast hrow
  have hpre : computeRank data.sigma data.rows data.cols o.svdRank = min r data.sigma.length := by
    rw [ho, computeRank_int _ _ _ _ hr']; rfl
  rw [fitRanks, if_neg (by simp [hg]), if_pos hpos, if_neg (fun h => hodd h.2), if_neg hle, hpre]
  have key : ∀ (ws : List (Mat K)) (b : Bop K), b.initAlpha = none →
      (∀ w ∈ ws, 1 ≤ w.sigma.length ∧ w.sigma.length ≤ data.sigma.length) →
      localLoop o (min r data.sigma.length) b ws =
        .ok (ws.map fun w => min r w.sigma.length) := by
    intro ws
    induction ws with
    | nil => intro b _ _; rfl
    | cons w ws ih =>
      intro b hb hw
      obtain ⟨hw1, hwd⟩ := hw w (by simp)
      obtain ⟨c, hc⟩ : ∃ c, c = min r w.sigma.length := ⟨_, rfl⟩
      have h1 : computeRankTyped w o.svdRank = .int (c : ℕ) := by
        rw [ho, typed_int _ _ hr', hc]; rfl
      have hc1 : (1 : ℤ) ≤ ((c + c % 2 : ℕ) : ℤ) := by
        have : 1 ≤ c := by omega
        exact_mod_cast (by omega : 1 ≤ c + c % 2)
      have hcr : computeRank w.sigma w.rows w.cols (.int ((c + c % 2 : ℕ) : ℤ) : SvdRank K) =
          c := by
        rw [computeRank_int _ _ _ _ hc1, Int.toNat_natCast]
        omega
      have ha : assign (min r data.sigma.length) c = .ok () := by
        rw [assign, if_pos (Or.inl (by omega))]
      have hfit : ∃ b', (⟨.int ((c + c % 2 : ℕ) : ℤ), none, b.useProj, none⟩ : Bop K).fit w =
          .ok (b', c) := by
        unfold Bop.fit
        simp only [hcr]
        cases b.useProj <;> simp
      obtain ⟨b', hfit⟩ := hfit
      simp only [localLoop, h1, hf, int_forceEven, hm, capRank, hbase, hb, hfit, ha, bind,
        Except.bind, List.map_cons, ← hc]
      rw [ih _ ?_ fun w' hw' => hw w' (List.mem_cons_of_mem _ hw')]
      split_ifs <;> simp_all
  exact key ws _ hi hw

/-- **C100** is false for `force_even_eigs` and a window with an odd number of singular values below
the rank: the rank is made even by adding 1, but BOPDMD reduces it again to the number of singular
values, and the window has an odd number of modes. -/
theorem C100_even_false (o : Opts K) (data w : Mat K) (r : ℕ) (hr : 1 ≤ r) (he : r % 2 = 0)
    (ho : o.svdRank = .int r) (hg : o.globalSvd = false) (hf : o.forceEven = true)
    (hm : o.maxRank = none) (hbase : o.basis = none) (hi : o.initAlpha = none)
    (hl : o.useLastFreq = false) (hrow : r ≤ data.rows)
    (hwd : w.sigma.length ≤ data.sigma.length)
    (hodd : w.sigma.length % 2 = 1) (hlt : w.sigma.length < r) :
    ∃ m, m % 2 = 1 ∧ fitRanks o data [w] = .ok [m] := by
  refine ⟨w.sigma.length, hodd, ?_⟩
  rw [C100_fixed_local o data [w] r hr he ho hg hf hm hbase hi hl hrow
    (by intro w' hw'; simp at hw'; subst hw'; exact ⟨by omega, hwd⟩)]
  simp [hlt.le]

/-- **C100** (no singular value above the threshold). The automatic rank of such a window is 1, which
`force_even_eigs` makes 2: the only case in which the automatic rank of a window is used as it is. -/
theorem C100_noise_local (o : Opts K) (data w : Mat K)
    (ho : o.svdRank = .int 0) (hg : o.globalSvd = false) (hm : o.maxRank = none)
    (hf : o.forceEven = true) (hbase : o.basis = none) (hi : o.initAlpha = none)
    (hw : aboveThreshold w = 0) (h2 : 2 ≤ w.sigma.length) (hrow : 2 ≤ data.rows) :
    fitRanks o data [w] = .ok [2] := by
  have h1 : computeRankTyped w o.svdRank = .int ((1 : ℕ) : ℤ) := by
    unfold aboveThreshold at hw
    simp only [ho, computeRankTyped, SvdRank.val, Int.cast_zero, if_true, hw]
    rfl
  have hcr : computeRank w.sigma w.rows w.cols (.int ((1 + 1 % 2 : ℕ) : ℤ) : SvdRank K) = 2 := by
    rw [computeRank_int _ _ _ _ (by norm_num), Int.toNat_natCast]
    omega
  have ha : assign data.rows 2 = .ok () := by rw [assign, if_pos (Or.inl hrow)]
  have hfit : ∃ b', (⟨.int ((1 + 1 % 2 : ℕ) : ℤ), none, o.useProj, none⟩ : Bop K).fit w = .ok (b', 2) := by
    unfold Bop.fit
    simp only [hcr]
    cases o.useProj <;> simp
  obtain ⟨b', hfit⟩ := hfit
  rw [fitRanks, if_neg (by simp [hg]), if_neg (by simp [ho, SvdRank.val])]
  simp only [localLoop, h1, hf, int_forceEven, hm, capRank, hbase, hi, hfit, Option.getD_none, ha,
    bind, Except.bind]

/-- A 4 × 10 data set with one dominant singular value and its 4 × 5 windows. -/
def exData : Mat ℚ := ⟨[10, 1, 1, 1], 4, 10⟩

/-- A window of it. -/
def exWindow : Mat ℚ := ⟨[8, 1, 1, 1], 4, 5⟩

/-- The hypotheses of the C100 theorems are met: the optimal rank of the data and of the window is 1,
the full rank of the window 4. -/
theorem C100_instance : aboveThreshold exData = 1 ∧ aboveThreshold exWindow = 1 ∧
    exData.sigma.length = min exData.rows exData.cols ∧
    exWindow.sigma.length = min exWindow.rows exWindow.cols ∧ exWindow.rows = exData.rows ∧
    aboveThreshold exData ≠ min exWindow.rows exWindow.cols := by
  decide +kernel

/-- With rank 2 given, both windows get two modes; with rank 0, `ValueError`; with `global_svd=False`
and rank 0, four modes each although the optimal rank is 1; with `max_rank=2`, `ValueError`. -/
example :
    fitRanks ⟨.int 2, true, true, none, false, false, false, none, none⟩ exData
      [exWindow, exWindow] = .ok [2, 2] ∧
    fitRanks ⟨.int 0, true, true, none, false, false, false, none, none⟩ exData
      [exWindow, exWindow] = .error .valueError ∧
    fitRanks ⟨.int 0, false, true, none, false, false, false, none, none⟩ exData
      [exWindow, exWindow] = .ok [4, 4] ∧
    fitRanks ⟨.int 0, false, true, some 2, false, false, false, none, none⟩ exData
      [exWindow, exWindow] = .error .valueError := by
  obtain ⟨h1, h2, h3, h4, h5, h6⟩ := C100_instance
  refine ⟨?_, ?_, ?_, ?_⟩
  · exact C100_fixed_global _ _ _ 2 (by omega) rfl rfl rfl (by decide)
      (by intro w hw; simp at hw; subst hw; decide)
  · exact C100_auto_global_false _ _ _ _ rfl rfl h3 (by omega) h4 h5 (by decide) h6
  · exact C100_auto_local_false _ _ _ rfl rfl rfl rfl rfl rfl
      (by intro w hw; simp at hw; subst hw; exact ⟨h5, by omega⟩)
  · exact C100_max_rank_false _ _ _ _ 2 rfl rfl rfl rfl rfl (by omega) (by omega) (by decide)

/-- `C100_fixed_local`, `C100_even_false`, `C100_noise_local` and `C100_alpha_length` on windows of
the data: five columns, three columns, and one without a dominant value. -/
example :
    fitRanks ⟨.int 4, false, true, none, false, false, false, none, none⟩ exData
      [exWindow, ⟨[3, 2, 1], 4, 3⟩] = .ok [4, 3] ∧
    (∃ m, m % 2 = 1 ∧ fitRanks ⟨.int 4, false, true, none, false, false, false, none, none⟩ exData
      [⟨[8, 1, 1], 4, 3⟩] = .ok [m]) ∧
    fitRanks ⟨.int 0, false, true, none, false, false, false, none, none⟩ exData
      [⟨[1, 1, 1, 1], 4, 5⟩] = .ok [2] ∧
    fitRanks ⟨.int 2, true, true, none, false, false, false, none, some 3⟩ exData [exWindow] =
      .error .valueError :=
  ⟨C100_fixed_local _ _ _ 4 (by omega) rfl rfl rfl rfl rfl rfl rfl rfl (by decide)
      (by intro w hw; simp at hw; rcases hw with rfl | rfl <;> decide),
    C100_even_false _ _ _ 4 (by omega) rfl rfl rfl rfl rfl rfl rfl rfl (by decide) (by decide)
      (by decide) (by decide),
    C100_noise_local _ _ _ rfl rfl rfl rfl rfl rfl (by decide +kernel) (by decide) (by decide),
    C100_alpha_length _ _ _ _ 2 3 (by omega) rfl rfl rfl (by decide) (by decide) (by decide)⟩

end Verif.CostsRank
