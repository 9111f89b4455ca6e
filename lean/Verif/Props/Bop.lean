import Verif.Model.Bop
import Mathlib.Tactic.Linarith
import Mathlib.Tactic.Ring
import Mathlib.Tactic.FieldSimp
import Mathlib.Algebra.BigOperators.Field

/-!
# Properties C42, C43, C44, C68: BOP-DMD
-/

set_option autoImplicit false

namespace Verif.Bop

open Verif

/-! ## C42: bags -/

/-- What is assumed of `np.random.choice(..., replace=False)`: `b` distinct elements. -/
def IsChoice (choice : List ℕ → ℕ → List ℕ) : Prop :=
  ∀ (l : List ℕ) (b : ℕ), l.Nodup → b ≤ l.length →
    (choice l b).length = b ∧ (choice l b).Nodup ∧ ∀ i ∈ choice l b, i ∈ l

/-- The number of snapshots asked for, as documented: the integer, or the integer part of the
fraction of the `m` snapshots; `none` if the argument is not admissible. -/
def Wanted (m : ℕ) (size : Size) (b : ℕ) : Prop :=
  match size with
  | .int n => (b : ℤ) = n ∧ 1 ≤ n
  | .float x => 0 < x ∧ x < 1 ∧ (b : ℚ) ≤ x * m ∧ x * m < b + 1
  | .other x => 0 < x ∧ x < 1 ∧ (b : ℚ) ≤ x * m ∧ x * m < b + 1

theorem floor_spec (y : ℚ) (hy : 0 ≤ y) : ((⌊y⌋.toNat : ℕ) : ℚ) ≤ y ∧ y < (⌊y⌋.toNat : ℕ) + 1 := by
  have h0 : 0 ≤ ⌊y⌋ := Int.floor_nonneg.mpr hy
  have e : ((⌊y⌋.toNat : ℕ) : ℚ) = (⌊y⌋ : ℚ) := by
    have : ((⌊y⌋.toNat : ℕ) : ℤ) = ⌊y⌋ := Int.toNat_of_nonneg h0
    exact_mod_cast this
  rw [e]
  exact ⟨Int.floor_le y, Int.lt_floor_add_one y⟩

theorem batchSize_spec (m : ℕ) (size : Size) :
    (∃ b, batchSize m size = .ok b ∧ Wanted m size b) ∨
      (batchSize m size = .error .valueError ∧ ∀ b, ¬ Wanted m size b) := by
  cases size with
  | int n =>
    by_cases h : 1 ≤ n
    · exact Or.inl ⟨n.toNat, by simp [batchSize, h], by simp only [Wanted]; omega⟩
    · refine Or.inr ⟨by simp [batchSize, h], fun b hb => h hb.2⟩
  | float x =>
    by_cases h : 0 < x ∧ x < 1
    · refine Or.inl ⟨⌊x * m⌋.toNat, by simp [batchSize, h], h.1, h.2, ?_⟩
      exact floor_spec _ (mul_nonneg h.1.le (Nat.cast_nonneg m))
    · exact Or.inr ⟨by simp only [batchSize, if_neg h], fun b hb => h ⟨hb.1, hb.2.1⟩⟩
  | other x =>
    by_cases h : 0 < x ∧ x < 1
    · refine Or.inl ⟨⌊x * m⌋.toNat, by simp [batchSize, h], h.1, h.2, ?_⟩
      exact floor_spec _ (mul_nonneg h.1.le (Nat.cast_nonneg m))
    · exact Or.inr ⟨by simp only [batchSize, if_neg h], fun b hb => h ⟨hb.1, hb.2.1⟩⟩

theorem wanted_unique (m : ℕ) (size : Size) (b c : ℕ) (hb : Wanted m size b)
    (hc : Wanted m size c) : b = c := by
  have aux : ∀ y : ℚ, (b : ℚ) ≤ y → y < b + 1 → (c : ℚ) ≤ y → y < c + 1 → b = c := by
    intro y h1 h2 h3 h4
    have a1 : (b : ℚ) < c + 1 := lt_of_le_of_lt h1 h4
    have a2 : (c : ℚ) < b + 1 := lt_of_le_of_lt h3 h2
    have b1 : b < c + 1 := by exact_mod_cast a1
    have b2 : c < b + 1 := by exact_mod_cast a2
    omega
  cases size with
  | int n => simp only [Wanted] at hb hc; omega
  | float x => exact aux _ hb.2.2.1 hb.2.2.2 hc.2.2.1 hc.2.2.2
  | other x => exact aux _ hb.2.2.1 hb.2.2.2 hc.2.2.1 hc.2.2.2

theorem filterMap_getElem {R : Type} (H : List R) (l : List ℕ) (h : ∀ i ∈ l, i < H.length) :
    (l.filterMap fun i => H[i]?).length = l.length ∧
      ∀ j i : ℕ, l[j]? = some i → (l.filterMap fun i => H[i]?)[j]? = H[i]? := by
  induction l with
  | nil => simp
  | cons a l ih =>
    obtain ⟨h1, h2⟩ := ih fun i hi => h i (List.mem_cons_of_mem _ hi)
    have hlt := h a List.mem_cons_self
    have ha : H[a]? = some H[a] := List.getElem?_eq_getElem hlt
    rw [List.filterMap_cons_some ha]
    refine ⟨by simp [h1], fun j i hj => ?_⟩
    cases j with
    | zero =>
      simp only [List.getElem?_cons_zero, Option.some.injEq] at hj ⊢
      rw [← hj, ha]
    | succ j =>
      simp only [List.getElem?_cons_succ] at hj ⊢
      exact h2 j i hj

/-- **C42**. For all data, sizes and random draws: if the requested number of snapshots is between
1 and the number available, the bag has exactly that many, with strictly increasing row indexes
(so distinct and in time order), each row being the row of the data at its index (and so `t` at
the same indexes is its own time). In every other case `ValueError`. -/
theorem C42_bag {R : Type} (H : List R) (size : Size) (choice : List ℕ → ℕ → List ℕ)
    (hch : IsChoice choice) :
    (∀ b, Wanted H.length size b → 1 ≤ b → b ≤ H.length →
      ∃ rows inds, bag H size choice = .ok (rows, inds) ∧ inds.length = b ∧ rows.length = b ∧
        inds.Pairwise (· < ·) ∧ (∀ i ∈ inds, i < H.length) ∧
        ∀ j i : ℕ, inds[j]? = some i → rows[j]? = H[i]?) ∧
    ((∀ b, Wanted H.length size b → b = 0 ∨ H.length < b) →
      bag H size choice = .error .valueError) := by
  constructor
  · intro b hb h1 h2
    rcases batchSize_spec H.length size with ⟨b', hok, hw⟩ | ⟨-, hn⟩
    · obtain rfl := wanted_unique _ _ _ _ hb hw
      obtain ⟨c1, c2, c3⟩ := hch (List.range H.length) b List.nodup_range (by simpa using h2)
      set c := choice (List.range H.length) b with hc
      have hp : (c.insertionSort (· ≤ ·)).Perm c := List.perm_insertionSort _ _
      have hlt : ∀ i ∈ c.insertionSort (· ≤ ·), i < H.length := fun i hi =>
        List.mem_range.mp (c3 i (hp.mem_iff.mp hi))
      refine ⟨_, c.insertionSort (· ≤ ·), ?_, by rw [hp.length_eq, c1], ?_, ?_, hlt,
        (filterMap_getElem H _ hlt).2⟩
      · simp only [bag, hok, bind, Except.bind, pure, Except.pure]
        rw [if_neg (by omega), if_neg (by omega)]
      · rw [(filterMap_getElem H _ hlt).1, hp.length_eq, c1]
      · have hs : (c.insertionSort (· ≤ ·)).Pairwise (· ≤ ·) := List.pairwise_insertionSort _ _
        have hnd : (c.insertionSort (· ≤ ·)).Nodup := hp.nodup_iff.mpr c2
        exact (hs.and hnd).imp fun h => lt_of_le_of_ne h.1 h.2
    · exact absurd hb (hn b)
  · intro hall
    rcases batchSize_spec H.length size with ⟨b', hok, hw⟩ | ⟨he, -⟩
    · simp only [bag, hok, bind, Except.bind, pure, Except.pure]
      rcases hall b' hw with h | h
      · subst h
        rw [if_neg (by omega)]
        rfl
      · rw [if_pos h]
        rfl
    · simp only [bag, he, bind, Except.bind]

/-- Six tenths of ten snapshots are six. -/
example : Wanted 10 (.float (6 / 10)) 6 := by
  simp only [Wanted]; norm_num

/-- Taking the first elements is an admissible choice. -/
example : IsChoice fun l b => l.take b := by
  intro l b hl hb
  exact ⟨by simp [hb], hl.sublist (List.take_sublist b l), fun i hi => List.mem_of_mem_take hi⟩

/-! ## C43: the bagging loop -/

section Loop

variable {ι : Type}

/-- A trial whose result is used. -/
def accepted (c : Cfg) (o : ℕ → Trial ι) (i : ℕ) : Prop :=
  (o i).converged = true ∨ c.removeBadBags = false

instance (c : Cfg) (o : ℕ → Trial ι) : DecidablePred (accepted c o) :=
  fun _ => inferInstanceAs (Decidable (_ ∨ _))

/-- Trials among the first `k` whose result is used. -/
def used (c : Cfg) (o : ℕ → Trial ι) (k : ℕ) : Finset ℕ :=
  (Finset.range k).filter (accepted c o)

/-- Trials `j - n, ..., j - 1` all failed. -/
def FailedRun (c : Cfg) (o : ℕ → Trial ι) (n j : ℕ) : Prop :=
  n ≤ j ∧ ∀ i, j - n ≤ i → i < j → ¬ accepted c o i

theorem used_succ (c : Cfg) (o : ℕ → Trial ι) (k : ℕ) :
    used c o (k + 1) = if accepted c o k then insert k (used c o k) else used c o k := by
  unfold used
  rw [Finset.range_add_one, Finset.filter_insert]

theorem used_notMem (c : Cfg) (o : ℕ → Trial ι) (k : ℕ) : k ∉ used c o k := by
  simp [used]

theorem card_used_mono (c : Cfg) (o : ℕ → Trial ι) {j k : ℕ} (h : j ≤ k) :
    (used c o j).card ≤ (used c o k).card := by
  refine Finset.card_le_card fun i hi => ?_
  simp only [used, Finset.mem_filter, Finset.mem_range] at hi ⊢
  exact ⟨by omega, hi.2⟩

/-- Length of the run of failures before `k`. -/
def TailFails (c : Cfg) (o : ℕ → Trial ι) (k n : ℕ) : Prop :=
  FailedRun c o n k ∧ (n < k → accepted c o (k - n - 1))

/-- The invariant of the loop. -/
def Inv (c : Cfg) (o : ℕ → Trial ι) (k : ℕ) : Status ι → Prop
  | .running s => s.succ = (used c o k).card ∧ s.succ < c.numTrials ∧ TailFails c o k s.fails ∧
      s.sum = (fun i => ∑ j ∈ used c o k, (o j).val i) ∧
      s.sum2 = (fun i => ∑ j ∈ used c o k, ((‖(o j).val i‖ ^ 2 : ℝ) : ℂ)) ∧
      ∀ j ≤ k, (used c o j).card < c.numTrials ∧ ¬ FailedRun c o c.bagMaxfail.toNat j
  | .done s => ∃ k' ≤ k, (used c o k').card = c.numTrials ∧ s.succ = c.numTrials ∧
      (∀ j < k', (used c o j).card < c.numTrials) ∧
      s.sum = (fun i => ∑ j ∈ used c o k', (o j).val i) ∧
      s.sum2 = (fun i => ∑ j ∈ used c o k', ((‖(o j).val i‖ ^ 2 : ℝ) : ℂ)) ∧
      ∀ j ≤ k', (used c o j).card < c.numTrials → ¬ FailedRun c o c.bagMaxfail.toNat j
  | .raised => ∃ j ≤ k, (used c o j).card < c.numTrials ∧ FailedRun c o c.bagMaxfail.toNat j

theorem failedRun_shorter (c : Cfg) (o : ℕ → Trial ι) {n m k : ℕ} (h : FailedRun c o n k)
    (hm : m ≤ n) : FailedRun c o m k :=
  ⟨by have := h.1; omega, fun i h1 h2 => h.2 i (by omega) h2⟩

theorem tailFails_max (c : Cfg) (o : ℕ → Trial ι) {n m k : ℕ} (h : TailFails c o k n)
    (hm : FailedRun c o m k) : m ≤ n := by
  by_contra hlt
  have hmk := hm.1
  exact hm.2 (k - n - 1) (by omega) (by omega) (h.2 (by omega))

theorem loop_inv (c : Cfg) (hf : 1 ≤ c.bagMaxfail) (o : ℕ → Trial ι) (k : ℕ) :
    Inv c o k (loop c o k) := by
  have hfz : (c.bagMaxfail.toNat : ℤ) = c.bagMaxfail := Int.toNat_of_nonneg (by omega)
  induction k with
  | zero =>
    have hu : used c o 0 = ∅ := by simp [used]
    unfold loop
    split_ifs with h
    · refine ⟨by simp [hu], h, ⟨⟨le_rfl, fun i _ hi => by omega⟩, by omega⟩, by simp [hu],
        by simp [hu], fun j hj => ?_⟩
      obtain rfl : j = 0 := by omega
      exact ⟨by simpa [hu] using h, fun hr => by have := hr.1; omega⟩
    · exact ⟨0, le_rfl, by simp [hu]; omega, by simp only; omega, fun j hj => by omega,
        by simp [hu], by simp [hu], fun j hj h2 => by omega⟩
  | succ k ih =>
    rw [loop]
    cases hl : loop c o k with
    | running s =>
      rw [hl] at ih
      obtain ⟨h1, h2, h3, h4, h5, h6⟩ := ih
      simp only [advance]
      by_cases ha : accepted c o k
      · have hb : ((o k).converged || !c.removeBadBags) = true := by
          rcases ha with h | h <;> simp [h]
        have hcard : (used c o (k + 1)).card = (used c o k).card + 1 := by
          rw [used_succ, if_pos ha, Finset.card_insert_of_notMem (used_notMem c o k)]
        have hsum : (fun i => s.sum i + (o k).val i) =
            fun i => ∑ j ∈ used c o (k + 1), (o j).val i := by
          ext i
          rw [used_succ, if_pos ha, Finset.sum_insert (used_notMem c o k), h4, add_comm]
        have hsum2 : (fun i => s.sum2 i + ((‖(o k).val i‖ ^ 2 : ℝ) : ℂ)) =
            fun i => ∑ j ∈ used c o (k + 1), ((‖(o j).val i‖ ^ 2 : ℝ) : ℂ) := by
          ext i
          rw [used_succ, if_pos ha, Finset.sum_insert (used_notMem c o k), h5, add_comm]
        have hnf : ¬ FailedRun c o c.bagMaxfail.toNat (k + 1) := fun hr =>
          hr.2 k (by omega) (by omega) ha
        rw [if_pos hb]
        rw [if_neg (by simp only [Nat.cast_zero]; omega)]
        split_ifs with hn
        · refine ⟨by rw [hcard, h1], hn, ⟨⟨by simp, fun i hi1 hi2 => by simp at hi1; omega⟩,
            fun _ => by simpa using ha⟩, hsum, hsum2, fun j hj => ?_⟩
          rcases Nat.lt_or_ge j (k + 1) with hlt | hge
          · exact h6 j (by omega)
          · obtain rfl : j = k + 1 := by omega
            exact ⟨by rw [hcard, ← h1]; exact hn, hnf⟩
        · refine ⟨k + 1, le_rfl, by simp only at hn; omega, by simp only at hn ⊢; omega,
            fun j hj => (h6 j (by omega)).1, hsum, hsum2, fun j hj _ => ?_⟩
          rcases Nat.lt_or_ge j (k + 1) with hlt | hge
          · exact (h6 j (by omega)).2
          · obtain rfl : j = k + 1 := by omega
            exact hnf
      · have hb : ((o k).converged || !c.removeBadBags) = false := by
          simp only [accepted, not_or, Bool.not_eq_true, Bool.not_eq_false] at ha
          simp [ha]
        have hu : used c o (k + 1) = used c o k := by rw [used_succ, if_neg ha]
        have hrun : FailedRun c o (s.fails + 1) (k + 1) := by
          refine ⟨by have := h3.1.1; omega, fun i hi1 hi2 => ?_⟩
          rcases Nat.lt_or_ge i k with hlt | hge
          · exact h3.1.2 i (by omega) hlt
          · obtain rfl : i = k := by omega
            exact ha
        have htail : TailFails c o (k + 1) (s.fails + 1) := by
          refine ⟨hrun, fun hlt => ?_⟩
          have := h3.2 (by omega)
          rwa [show k + 1 - (s.fails + 1) - 1 = k - s.fails - 1 by omega]
        simp only [hb, Bool.false_eq_true, if_false]
        split_ifs with hm
        · refine ⟨k + 1, le_rfl, by rw [hu, ← h1]; exact h2, ?_⟩
          have : c.bagMaxfail.toNat = s.fails + 1 := by omega
          rw [this]
          exact hrun
        · refine ⟨by rw [hu]; exact h1, h2, htail, by rw [hu]; exact h4, by rw [hu]; exact h5,
            fun j hj => ?_⟩
          rcases Nat.lt_or_ge j (k + 1) with hlt | hge
          · exact h6 j (by omega)
          · obtain rfl : j = k + 1 := by omega
            refine ⟨by rw [hu, ← h1]; exact h2, fun hr => ?_⟩
            have hle := tailFails_max c o htail hr
            have hne : c.bagMaxfail.toNat ≠ s.fails + 1 := by omega
            exact (h6 k (by omega)).2 ⟨by have := hr.1; have := h3.1.1; omega, fun i hi1 hi2 =>
              h3.1.2 i (by omega) hi2⟩
    | done s =>
      rw [hl] at ih
      obtain ⟨k', hk, h⟩ := ih
      exact ⟨k', by omega, h⟩
    | raised =>
      rw [hl] at ih
      obtain ⟨j, hj, h⟩ := ih
      exact ⟨j, by omega, h⟩

/-- **C43** (outcome). For every sequence of trial outcomes and `bag_maxfail ≥ 1`:
after `k` trials `RuntimeError` has been raised exactly if `bag_maxfail` consecutive trials failed
before `num_trials` were accepted; and the loop has ended normally exactly if `num_trials` were
accepted and no such run of failures came before. -/
theorem C43_outcome (c : Cfg) (hf : 1 ≤ c.bagMaxfail) (o : ℕ → Trial ι) (k : ℕ) :
    (loop c o k = .raised ↔
      ∃ j ≤ k, FailedRun c o c.bagMaxfail.toNat j ∧ (used c o j).card < c.numTrials) ∧
    ((∃ s, loop c o k = .done s) ↔
      c.numTrials ≤ (used c o k).card ∧
        ¬ ∃ j ≤ k, FailedRun c o c.bagMaxfail.toNat j ∧ (used c o j).card < c.numTrials) := by
  have h := loop_inv c hf o k
  cases hl : loop c o k with
  | running s =>
    rw [hl] at h
    obtain ⟨h1, h2, h3, h4, h5, h6⟩ := h
    refine ⟨⟨fun h => by simp at h, fun ⟨j, hj, hr, _⟩ => absurd hr (h6 j hj).2⟩, ?_⟩
    constructor
    · rintro ⟨s, hs⟩; simp at hs
    · rintro ⟨hle, -⟩
      have := (h6 k le_rfl).1
      omega
  | done s =>
    rw [hl] at h
    obtain ⟨k', hk, h1, h2, h3, h4, h5, h6⟩ := h
    have hno : ¬ ∃ j ≤ k, FailedRun c o c.bagMaxfail.toNat j ∧
        (used c o j).card < c.numTrials := by
      rintro ⟨j, hj, hr, hc⟩
      rcases Nat.lt_or_ge k' j with hlt | hge
      · have := card_used_mono c o hlt.le
        omega
      · exact h6 j hge hc hr
    refine ⟨⟨fun h => by simp at h, fun h => absurd h hno⟩, ⟨fun _ => ⟨?_, hno⟩,
      fun _ => ⟨s, rfl⟩⟩⟩
    have := card_used_mono c o hk
    omega
  | raised =>
    rw [hl] at h
    obtain ⟨j, hj, h1, h2⟩ := h
    refine ⟨⟨fun _ => ⟨j, hj, h2, h1⟩, fun _ => rfl⟩, ⟨fun ⟨s, hs⟩ => by simp at hs, ?_⟩⟩
    rintro ⟨-, hno⟩
    exact absurd ⟨j, hj, h2, h1⟩ hno

/-- **C43** (statistics). When the loop ends, exactly `num_trials` trials were used: the accepted
ones among the first `k'`, where `k'` is the trial that completed them. The reported value is their
mean and the reported deviation the root of the mean squared distance from it. -/
theorem C43_statistics (c : Cfg) (hf : 1 ≤ c.bagMaxfail) (hn : 1 ≤ c.numTrials)
    (o : ℕ → Trial ι) (k : ℕ) (s : St ι) (h : loop c o k = .done s) :
    ∃ k' ≤ k, (used c o k').card = c.numTrials ∧ (∀ j < k', (used c o j).card < c.numTrials) ∧
      ∀ i, mean c s i = (∑ j ∈ used c o k', (o j).val i) / c.numTrials ∧
        std c s i =
          Real.sqrt ((∑ j ∈ used c o k', ‖(o j).val i - mean c s i‖ ^ 2) / c.numTrials) := by
  have hi := loop_inv c hf o k
  rw [h] at hi
  obtain ⟨k', hk, h1, h2, h3, h4, h5, h6⟩ := hi
  refine ⟨k', hk, h1, h3, fun i => ?_⟩
  have hm : mean c s i = (∑ j ∈ used c o k', (o j).val i) / c.numTrials := by
    rw [mean, h4]
  refine ⟨hm, ?_⟩
  have hN : (c.numTrials : ℝ) ≠ 0 := by
    have : c.numTrials ≠ 0 := by omega
    exact_mod_cast this
  have hNc : (c.numTrials : ℂ) ≠ 0 := by
    have : c.numTrials ≠ 0 := by omega
    exact_mod_cast this
  have hkey : (∑ j ∈ used c o k', ‖(o j).val i - mean c s i‖ ^ 2) / c.numTrials =
      (∑ j ∈ used c o k', ‖(o j).val i‖ ^ 2) / c.numTrials - ‖mean c s i‖ ^ 2 := by
    have hexp : ∀ z w : ℂ, ‖z - w‖ ^ 2 = ‖z‖ ^ 2 - 2 * (z * (starRingEnd ℂ) w).re + ‖w‖ ^ 2 := by
      intro z w
      rw [← Complex.normSq_eq_norm_sq, ← Complex.normSq_eq_norm_sq, ← Complex.normSq_eq_norm_sq,
        Complex.normSq_sub]
      ring
    have hs : ∑ j ∈ used c o k', (o j).val i = c.numTrials * mean c s i := by
      rw [hm]; field_simp
    have hre : ∑ j ∈ used c o k', ((o j).val i * (starRingEnd ℂ) (mean c s i)).re =
        c.numTrials * ‖mean c s i‖ ^ 2 := by
      rw [← Complex.re_sum, ← Finset.sum_mul, hs, mul_assoc, Complex.mul_conj,
        ← Complex.normSq_eq_norm_sq]
      rw [← Complex.ofReal_natCast, ← Complex.ofReal_mul, Complex.ofReal_re]
    simp only [hexp]
    rw [Finset.sum_add_distrib, Finset.sum_sub_distrib, ← Finset.mul_sum, hre, Finset.sum_const,
      h1, nsmul_eq_mul]
    field_simp
    ring
  rw [hkey, std, h5]
  congr 1
  have e : (∑ j ∈ used c o k', ((‖(o j).val i‖ ^ 2 : ℝ) : ℂ)) / c.numTrials -
      ((‖mean c s i‖ ^ 2 : ℝ) : ℂ) =
      (((∑ j ∈ used c o k', ‖(o j).val i‖ ^ 2) / c.numTrials - ‖mean c s i‖ ^ 2 : ℝ) : ℂ) := by
    push_cast
    rfl
  rw [e, Complex.norm_real, Real.norm_eq_abs, abs_of_nonneg]
  rw [← hkey]
  exact div_nonneg (Finset.sum_nonneg fun j _ => sq_nonneg _) (Nat.cast_nonneg _)

/-- **C43** (termination). With `bag_maxfail ≥ 1` the loop ends after at most
`num_trials * bag_maxfail` trials, whatever their outcomes. -/
theorem C43_terminates (c : Cfg) (hf : 1 ≤ c.bagMaxfail) (o : ℕ → Trial ι) :
    ∀ s, loop c o (c.numTrials * c.bagMaxfail.toNat) ≠ .running s := by
  intro s hs
  have h := loop_inv c hf o (c.numTrials * c.bagMaxfail.toNat)
  rw [hs] at h
  obtain ⟨h1, h2, h3, h4, h5, h6⟩ := h
  set F := c.bagMaxfail.toNat with hF
  have hF1 : 1 ≤ F := by omega
  have key : ∀ q, q ≤ c.numTrials → q ≤ (used c o (q * F)).card := by
    intro q
    induction q with
    | zero => intro _; omega
    | succ q ih =>
      intro hq
      have hle : (q + 1) * F ≤ c.numTrials * F := Nat.mul_le_mul_right F hq
      have hnr := (h6 ((q + 1) * F) hle).2
      have hex : ∃ i, q * F ≤ i ∧ i < (q + 1) * F ∧ accepted c o i := by
        by_contra hno
        push Not at hno
        refine hnr ⟨by rw [Nat.succ_mul]; omega, fun i hi1 hi2 => hno i ?_ hi2⟩
        rw [Nat.succ_mul] at hi1
        omega
      obtain ⟨i, hi1, hi2, hi3⟩ := hex
      have hlt : (used c o (q * F)).card < (used c o ((q + 1) * F)).card := by
        refine Finset.card_lt_card ⟨fun j hj => ?_, fun hsub => ?_⟩
        · simp only [used, Finset.mem_filter, Finset.mem_range] at hj ⊢
          exact ⟨by omega, hj.2⟩
        · have : i ∈ used c o ((q + 1) * F) := by
            simp only [used, Finset.mem_filter, Finset.mem_range]; exact ⟨hi2, hi3⟩
          have := hsub this
          simp only [used, Finset.mem_filter, Finset.mem_range] at this
          omega
      have := ih (by omega)
      omega
  have := key c.numTrials le_rfl
  have := (h6 _ le_rfl).1
  omega

/-- **C43** (keeping bad bags). With `remove_bad_bags=False` exactly `num_trials` trials are made
and all used. -/
theorem C43_keep (c : Cfg) (hf : 1 ≤ c.bagMaxfail) (hk : c.removeBadBags = false)
    (o : ℕ → Trial ι) : ∃ s, loop c o c.numTrials = .done s ∧
      used c o c.numTrials = Finset.range c.numTrials := by
  have hall : ∀ i, accepted c o i := fun i => Or.inr hk
  have hu : ∀ k, used c o k = Finset.range k := fun k =>
    Finset.filter_true_of_mem fun i _ => hall i
  have := (C43_outcome c hf o c.numTrials).2.mpr ⟨by rw [hu, Finset.card_range], ?_⟩
  · obtain ⟨s, hs⟩ := this
    exact ⟨s, hs, hu _⟩
  · rintro ⟨j, hj, hr, hc⟩
    exact hr.2 (j - 1) (by omega) (by have := hr.1; omega) (hall _)

/-- **C43** is false for `bag_maxfail = 0`: the first *successful* trial raises `RuntimeError`,
also when bad bags are kept (where the documentation says the parameter is not active). -/
theorem C43_zero_false (n : ℕ) (hn : 1 ≤ n) (rem : Bool) (o : ℕ → Trial ι)
    (h : ∀ i, (o i).converged = true) : loop ⟨n, rem, 0⟩ o 1 = .raised := by
  have h0 : loop ⟨n, rem, 0⟩ o 0 = .running ⟨0, 0, fun _ => 0, fun _ => 0⟩ := by
    rw [loop, if_pos (show 0 < n from hn)]
  rw [loop, h0]
  simp [advance, h 0]

/-- **C43** (a negative `bag_maxfail`, documented as no stopping condition): if no trial is
accepted the loop never ends. -/
theorem C43_never (c : Cfg) (hf : c.bagMaxfail < 0) (hn : 1 ≤ c.numTrials) (o : ℕ → Trial ι)
    (h : ∀ i, ¬ accepted c o i) (k : ℕ) :
    ∃ s, loop c o k = .running s ∧ s.succ = 0 := by
  induction k with
  | zero => exact ⟨_, by rw [loop, if_pos (by omega)], rfl⟩
  | succ k ih =>
    obtain ⟨s, hs, h0⟩ := ih
    have hb : ((o k).converged || !c.removeBadBags) = false := by
      have := h k
      simp only [accepted, not_or, Bool.not_eq_true, Bool.not_eq_false] at this
      simp [this]
    refine ⟨{ s with fails := s.fails + 1 }, ?_, h0⟩
    rw [loop, hs]
    simp only [advance, hb, if_false, Bool.false_eq_true]
    rw [if_neg (by omega), if_pos (by omega)]

/-- One failure, then two successes: two trials are used. -/
example : ∃ s, loop ⟨2, true, 2⟩ (fun i => (⟨decide (i ≠ 0), fun _ => i⟩ : Trial Unit)) 3 =
    .done s := by
  rw [(C43_outcome _ (by norm_num) _ _).2]
  constructor
  · decide
  · rintro ⟨j, hj, hr, -⟩
    have h2 : 2 ≤ j := hr.1
    have hc : accepted (⟨2, true, 2⟩ : Cfg)
        (fun i => (⟨decide (i ≠ 0), fun _ => i⟩ : Trial Unit)) (j - 1) := by
      left
      simp only [ne_eq, decide_not, Bool.not_eq_eq_eq_not, Bool.not_true, decide_eq_false_iff_not]
      omega
    exact hr.2 (j - 1) (by simp; omega) (by omega) hc

end Loop

/-! ## C44: variable projection -/

section VarPro

variable {α : Type}

theorem search_mem (p : Prob α) (o : Opts) (a : α) (k : ℕ) (lam : ℝ) (c : α)
    (hc : ∃ l, c = p.step a l) : ∃ l, (search p o a k lam c).2 = p.step a l := by
  induction k generalizing lam c with
  | zero => exact hc
  | succ k ih =>
    rw [search]
    split_ifs
    · exact ⟨_, rfl⟩
    · exact ih _ _ ⟨_, rfl⟩

/-- `iterate` extends the trace by accepted vectors with decreasing errors. -/
theorem iterate_spec (p : Prob α) (o : Opts) (E : α → ℝ) (hE : ∀ a, p.err a = some (E a)) (k : ℕ) :
    ∀ (last : Option Flt) (lam : ℝ) (a : α) (tr : List α),
      ∃ new, (iterate p o k last lam a false (a :: tr)).trace = new ++ a :: tr ∧
        new.length ≤ k ∧
        (new ++ [a]).head? = some (iterate p o k last lam a false (a :: tr)).alpha ∧
        (new ++ [a]).IsChain (fun x y => E x < E y ∧ ∃ l, x = p.step y l) ∧
        ((iterate p o k last lam a false (a :: tr)).converged = true ↔
          new ≠ [] ∧ E (iterate p o k last lam a false (a :: tr)).alpha < o.tol) := by
  induction k with
  | zero =>
    intro last lam a tr
    exact ⟨[], rfl, le_rfl, rfl, by simp, by simp [iterate]⟩
  | succ k ih =>
    intro last lam a tr
    -- the candidate, if any, is a step with smaller error
    set cand : Option (ℝ × α) :=
      if flt (p.err (p.step a lam)) (p.err a) then
        some (p.rescale a (p.step a lam) lam, p.step a lam)
      else if fge (p.err (search p o a o.maxlam lam (p.step a lam)).2) (p.err a) then none
      else some (search p o a o.maxlam lam (p.step a lam)) with hcand
    have hgood : ∀ l c, cand = some (l, c) → E c < E a ∧ ∃ l, c = p.step a l := by
      intro l c h
      rw [hcand] at h
      split_ifs at h with h1 h2
      · simp only [Option.some.injEq, Prod.mk.injEq] at h
        obtain ⟨-, rfl⟩ := h
        refine ⟨?_, _, rfl⟩
        simpa [flt, hE] using h1
      · simp only [Option.some.injEq] at h
        have hc : (search p o a o.maxlam lam (p.step a lam)).2 = c := by rw [h]
        rw [hc] at h2
        refine ⟨?_, ?_⟩
        · simpa [fge, hE] using h2
        · obtain ⟨l', hl'⟩ := search_mem p o a o.maxlam lam (p.step a lam) ⟨lam, rfl⟩
          exact ⟨l', hc ▸ hl'⟩
    cases hc : cand with
    | none =>
      have e : iterate p o (k + 1) last lam a false (a :: tr) = ⟨a, false, a :: tr⟩ := by
        rw [iterate]
        simp only [← hcand, hc]
      rw [e]
      exact ⟨[], rfl, by simp, rfl, by simp, by simp⟩
    | some lc =>
      obtain ⟨l, c⟩ := lc
      obtain ⟨hlt, hst⟩ := hgood l c hc
      have hconv : flt (p.err c) (some o.tol) = decide (E c < o.tol) := by
        simp [flt, hE]
      have e : iterate p o (k + 1) last lam a false (a :: tr) =
          if flt (p.err c) (some o.tol) then ⟨c, flt (p.err c) (some o.tol), c :: a :: tr⟩
          else if stalledNow o last (p.err c) then
            ⟨c, flt (p.err c) (some o.tol), c :: a :: tr⟩
          else iterate p o k (some (p.err c)) l c (flt (p.err c) (some o.tol)) (c :: a :: tr) := by
        rw [iterate]
        simp only [← hcand, hc]
      rw [e]
      split_ifs with h1 h2
      · refine ⟨[c], rfl, by simp, rfl, by simpa using ⟨hlt, hst⟩, ?_⟩
        rw [hconv]; simp
      · refine ⟨[c], rfl, by simp, rfl, by simpa using ⟨hlt, hst⟩, ?_⟩
        rw [hconv]; simp
      · rw [Bool.not_eq_true] at h1
        rw [h1]
        obtain ⟨new, n1, n2, n3, n4, n5⟩ := ih (some (p.err c)) l c (a :: tr)
        refine ⟨new ++ [c], by rw [n1]; simp, by simp; omega, ?_, ?_, ?_⟩
        · rw [← n3]
          cases new <;> simp
        · rw [List.append_assoc]
          have : new ++ ([c] ++ [a]) = (new ++ [c]) ++ [a] := by simp
          rw [this]
          refine List.isChain_append.mpr ⟨n4, by simp, ?_⟩
          intro x hx y hy
          simp only [List.getLast?_append, List.getLast?_singleton, Option.some_or,
            Option.mem_def, Option.some.injEq] at hx
          simp only [List.head?_cons, Option.mem_def, Option.some.injEq] at hy
          subst hx hy
          exact ⟨hlt, hst⟩
        · rw [n5]
          constructor
          · rintro ⟨-, h⟩
            exact ⟨by simp, h⟩
          · rintro ⟨-, h⟩
            refine ⟨?_, h⟩
            rintro rfl
            simp only [List.nil_append, List.head?_cons, Option.some.injEq] at n3
            rw [← n3] at h
            rw [hconv] at h1
            simp at h1
            linarith

/-- **C44** (partial: no `NaN`). For every problem, options and initial guess: the routine makes at
most `maxiter` accepted steps; the accepted vectors start at the initial guess and end at the
result, each is a (constrained) step from the one before, and the error decreases strictly, so it
never exceeds that of the initial guess; convergence is reported exactly if at least one step was
accepted and the error is below the tolerance. -/
theorem C44_descent_partial (p : Prob α) (o : Opts) (E : α → ℝ) (hE : ∀ a, p.err a = some (E a))
    (init : α) :
    ∃ older, (varpro p o init).trace = (varpro p o init).alpha :: older ∧
      (varpro p o init).trace.getLast? = some init ∧
      (varpro p o init).trace.length ≤ o.maxiter + 1 ∧
      (varpro p o init).trace.IsChain (fun x y => E x < E y ∧ ∃ l, x = p.step y l) ∧
      E (varpro p o init).alpha ≤ E init ∧
      ((varpro p o init).converged = true ↔
        older ≠ [] ∧ E (varpro p o init).alpha < o.tol) := by
  obtain ⟨new, h1, h2, h3, h4, h5⟩ := iterate_spec p o E hE o.maxiter none o.initLambda init []
  change (varpro p o init).trace = _ at h1
  change _ = some (varpro p o init).alpha at h3
  change (varpro p o init).converged = true ↔ _ ∧ E (varpro p o init).alpha < _ at h5
  obtain ⟨older, ho⟩ : ∃ older, new ++ [init] = (varpro p o init).alpha :: older := by
    cases hn : new ++ [init] with
    | nil => simp at hn
    | cons x l =>
      rw [hn] at h3
      simp only [List.head?_cons, Option.some.injEq] at h3
      exact ⟨l, by rw [h3]⟩
  have hne : new ≠ [] ↔ older ≠ [] := by
    have : new.length + 1 = older.length + 1 := by
      have := congrArg List.length ho
      simpa using this
    rw [← List.length_pos_iff, ← List.length_pos_iff]
    omega
  refine ⟨older, by rw [h1, ho], by rw [h1]; simp, by rw [h1]; simp; omega, by rw [h1]; exact h4,
    ?_, by rw [h5, hne]⟩
  have hp : (new ++ [init]).Pairwise fun x y => E x < E y := by
    have := h4.imp (S := fun x y => E x < E y) fun _ _ h => h.1
    have ht : IsTrans α fun x y => E x < E y := ⟨fun _ _ _ => lt_trans⟩
    exact List.isChain_iff_pairwise.mp this
  rw [ho] at hp
  cases older with
  | nil =>
    have : new = [] := by
      by_contra hc
      exact (hne.mp hc) rfl
    subst this
    simp only [List.nil_append, List.cons.injEq, and_true] at ho
    rw [← ho]
  | cons y l =>
    have hm : init ∈ y :: l := by
      have : init ∈ new ++ [init] := by simp
      have hl := congrArg List.getLast? ho
      simp only [List.getLast?_append, List.getLast?_singleton, Option.some_or,
        List.getLast?_cons_cons] at hl
      exact List.mem_of_getLast? hl.symm
    exact ((List.pairwise_cons.mp hp).1 init hm).le

/-- If the search ends without a smaller error, none of the steps it tried has one. -/
theorem search_fail (p : Prob α) (o : Opts) (E : α → ℝ) (hE : ∀ a, p.err a = some (E a)) (a : α)
    (k : ℕ) : ∀ lam : ℝ, E a ≤ E (p.step a lam) →
      E a ≤ E (search p o a k lam (p.step a lam)).2 →
      ∀ j ≤ k, E a ≤ E (p.step a (lam * o.lamup ^ j)) := by
  induction k with
  | zero =>
    intro lam h _ j hj
    obtain rfl : j = 0 := by omega
    simpa using h
  | succ k ih =>
    intro lam h h2 j hj
    rw [search] at h2
    simp only [flt, hE, decide_eq_true_eq] at h2
    split_ifs at h2 with h3
    · exact absurd h3 (not_lt.mpr h2)
    · cases j with
      | zero => simpa using h
      | succ j =>
        have := ih (lam * o.lamup) (not_lt.mp h3) h2 j (by omega)
        rwa [mul_assoc, ← pow_succ'] at this

/-- Why `iterate` stops. -/
theorem iterate_stops (p : Prob α) (o : Opts) (E : α → ℝ) (hE : ∀ a, p.err a = some (E a)) (k : ℕ) :
    ∀ (last : Option Flt) (lam : ℝ) (a : α) (tr : List α),
      (last = none ∨ (last = some (p.err a) ∧ tr ≠ [])) →
      (iterate p o k last lam a false (a :: tr)).trace.length = tr.length + 1 + k ∨
      E (iterate p o k last lam a false (a :: tr)).alpha < o.tol ∨
      (∃ x y l, (iterate p o k last lam a false (a :: tr)).trace = x :: y :: l ∧ l ≠ [] ∧
        E y - E x < o.epsStall * E y) ∨
      ∃ lam', ∀ j ≤ o.maxlam, E (iterate p o k last lam a false (a :: tr)).alpha ≤
        E (p.step (iterate p o k last lam a false (a :: tr)).alpha (lam' * o.lamup ^ j)) := by
  induction k with
  | zero => intro last lam a tr _; left; simp [iterate]
  | succ k ih =>
    intro last lam a tr hlast
    set cand : Option (ℝ × α) :=
      if flt (p.err (p.step a lam)) (p.err a) then
        some (p.rescale a (p.step a lam) lam, p.step a lam)
      else if fge (p.err (search p o a o.maxlam lam (p.step a lam)).2) (p.err a) then none
      else some (search p o a o.maxlam lam (p.step a lam)) with hcand
    cases hc : cand with
    | none =>
      have e : iterate p o (k + 1) last lam a false (a :: tr) = ⟨a, false, a :: tr⟩ := by
        rw [iterate]
        simp only [← hcand, hc]
      rw [e]
      right; right; right
      rw [hcand] at hc
      split_ifs at hc with h1 h2
      refine ⟨lam, search_fail p o E hE a o.maxlam lam ?_ ?_⟩
      · simpa [flt, hE] using h1
      · simpa [fge, hE] using h2
    | some lc =>
      obtain ⟨l, c⟩ := lc
      have e : iterate p o (k + 1) last lam a false (a :: tr) =
          if flt (p.err c) (some o.tol) then ⟨c, flt (p.err c) (some o.tol), c :: a :: tr⟩
          else if stalledNow o last (p.err c) then
            ⟨c, flt (p.err c) (some o.tol), c :: a :: tr⟩
          else iterate p o k (some (p.err c)) l c (flt (p.err c) (some o.tol)) (c :: a :: tr) := by
        rw [iterate]
        simp only [← hcand, hc]
      rw [e]
      split_ifs with h1 h2
      · right; left
        simpa [flt, hE] using h1
      · right; right; left
        rcases hlast with rfl | ⟨rfl, ht⟩
        · simp [stalledNow] at h2
        · refine ⟨c, a, tr, rfl, ht, ?_⟩
          simpa [stalledNow, stall, hE] using h2
      · rw [Bool.not_eq_true] at h1
        rw [h1]
        have := ih (some (p.err c)) l c (a :: tr) (Or.inr ⟨rfl, by simp⟩)
        rcases this with h | h | h | h
        · left; rw [h]; simp; omega
        · exact Or.inr (Or.inl h)
        · exact Or.inr (Or.inr (Or.inl h))
        · exact Or.inr (Or.inr (Or.inr h))

/-- **C44** (when it stops). The routine goes on until `maxiter` steps have been accepted, the error
is below the tolerance, the last step (not the first) reduced the error by less than `eps_stall`
times the error before it, or none of the `maxlam + 1` step sizes `lam, lam * lamup, ...` from the
current vector reduces the error. -/
theorem C44_stops_partial (p : Prob α) (o : Opts) (E : α → ℝ) (hE : ∀ a, p.err a = some (E a))
    (init : α) :
    (varpro p o init).trace.length = o.maxiter + 1 ∨ E (varpro p o init).alpha < o.tol ∨
      (∃ x y l, (varpro p o init).trace = x :: y :: l ∧ l ≠ [] ∧ E y - E x < o.epsStall * E y) ∨
      ∃ lam, ∀ j ≤ o.maxlam, E (varpro p o init).alpha ≤
        E (p.step (varpro p o init).alpha (lam * o.lamup ^ j)) := by
  have := iterate_stops p o E hE o.maxiter none o.initLambda init [] (Or.inl rfl)
  rcases this with h | h
  · left; rw [varpro, h]; simp; omega
  · exact Or.inr h

/-- **C44** (constraints). Whatever holds of the constrained initial guess and of all constrained
steps holds of the returned vector; in particular the eigenvalue constraints. -/
theorem C44_constraints_partial (p : Prob α) (o : Opts) (E : α → ℝ)
    (hE : ∀ a, p.err a = some (E a)) (init : α) (P : α → Prop) (h0 : P init)
    (hs : ∀ a l, P (p.step a l)) : P (varpro p o init).alpha := by
  obtain ⟨older, h1, h2, -, h4, -, -⟩ := C44_descent_partial p o E hE init
  rw [h1] at h2 h4
  cases older with
  | nil => simp only [List.getLast?_singleton, Option.some.injEq] at h2; rwa [h2]
  | cons y l =>
    obtain ⟨l', hl⟩ := (List.isChain_cons_cons.mp h4).1.2
    rw [hl]
    exact hs y l'

/-- **C44**: convergence is *not* reported for a perfect initial guess: no step can improve on the
error 0, so the routine returns "not converged", for all options. (Each such trial then counts
as a failed one with `remove_bad_bags=True`.) -/
theorem C44_perfect_guess_false (p : Prob α) (o : Opts) (init : α) (E : α → ℝ)
    (hE : ∀ a, p.err a = some (E a)) (hpos : ∀ a, 0 ≤ E a) (h0 : E init = 0) :
    (varpro p o init).alpha = init ∧ (varpro p o init).converged = false := by
  obtain ⟨older, h1, h2, -, h4, -, h6⟩ := C44_descent_partial p o E hE init
  have : older = [] := by
    by_contra hne
    obtain ⟨y, l, rfl⟩ := List.exists_cons_of_ne_nil hne
    rw [h1] at h2 h4
    have hp : ((varpro p o init).alpha :: y :: l).Pairwise fun x y => E x < E y := by
      have := h4.imp (S := fun x y => E x < E y) fun _ _ h => h.1
      have ht : IsTrans α fun x y => E x < E y := ⟨fun _ _ _ => lt_trans⟩
      exact List.isChain_iff_pairwise.mp this
    have hm : init ∈ y :: l := by
      rw [List.getLast?_cons_cons] at h2
      exact List.mem_of_getLast? h2
    have := (List.pairwise_cons.mp hp).1 init hm
    have := hpos (varpro p o init).alpha
    linarith
  subst this
  constructor
  · rw [h1] at h2
    simpa using h2
  · rw [Bool.eq_false_iff]
    intro h
    exact (h6.mp h).1 rfl

/-- With `NaN` errors every step is accepted. -/
theorem iterate_nan (p : Prob α) (o : Opts) (hE : ∀ a, p.err a = none) (k : ℕ) :
    ∀ (last : Option Flt) (lam : ℝ) (a : α) (tr : List α),
      (iterate p o k last lam a false tr).converged = false ∧
        (iterate p o k last lam a false tr).trace.length = tr.length + k := by
  induction k with
  | zero => intro last lam a tr; exact ⟨rfl, rfl⟩
  | succ k ih =>
    intro last lam a tr
    have hst : stalledNow o last none = false := by
      cases last with
      | none => rfl
      | some e => cases e <;> rfl
    have e : iterate p o (k + 1) last lam a false tr =
        iterate p o k (some none) (search p o a o.maxlam lam (p.step a lam)).1
          (search p o a o.maxlam lam (p.step a lam)).2 false
          ((search p o a o.maxlam lam (p.step a lam)).2 :: tr) := by
      rw [iterate]
      simp only [hE, flt, fge, Bool.false_eq_true, if_false, hst]
    rw [e]
    obtain ⟨i1, i2⟩ := ih (some none) (search p o a o.maxlam lam (p.step a lam)).1
      (search p o a o.maxlam lam (p.step a lam)).2
      ((search p o a o.maxlam lam (p.step a lam)).2 :: tr)
    exact ⟨i1, by rw [i2]; simp; omega⟩

/-- **C44** is false for zero data: the relative error is `0 / 0 = NaN` for every vector, all
`maxiter` steps are accepted (no comparison ever holds) and convergence is not reported,
although every vector fits exactly. -/
theorem C44_zero_data_false (p : Prob α) (o : Opts) (init : α) (res : α → ℝ)
    (hE : ∀ a, p.err a = relError (res a) 0) :
    (varpro p o init).converged = false ∧ (varpro p o init).trace.length = o.maxiter + 1 := by
  have h := iterate_nan p o (fun a => by rw [hE, relError, if_pos rfl]) o.maxiter none
    o.initLambda init [init]
  exact ⟨h.1, by have := h.2; simp at this; rw [varpro, this]; omega⟩

/-- **C44** is false when a step overflows to `NaN`: the search for a smaller error ends with a
`NaN`, which is not `>=` the current error, so it is accepted; the result is `NaN` although the
initial guess was not. -/
theorem C44_nan_step_false (o : Opts) (hm : 1 ≤ o.maxiter) :
    ∃ (p : Prob Bool), p.err false = some 1 ∧ p.err (varpro p o false).alpha = none := by
  refine ⟨⟨fun b => if b then none else some 1, fun _ _ => true, fun _ _ l => l⟩, rfl, ?_⟩
  set p : Prob Bool := ⟨fun b => if b then none else some 1, fun _ _ => true, fun _ _ l => l⟩
    with hp
  have hall : ∀ (k : ℕ) (last : Option Flt) (lam : ℝ) (a : Bool) (c : Bool) (tr : List Bool),
      1 ≤ k ∨ a = true → (iterate p o k last lam a c tr).alpha = true := by
    intro k
    induction k with
    | zero => intro last lam a c tr h; rcases h with h | h; · omega
              exact h
    | succ k ih =>
      intro last lam a c tr _
      obtain ⟨l, hl⟩ := search_mem p o a o.maxlam lam (p.step a lam) ⟨lam, rfl⟩
      have h1 : (search p o a o.maxlam lam (p.step a lam)).2 = true := hl
      have e1 : flt (p.err (p.step a lam)) (p.err a) = false := by
        cases a <;> simp [hp, flt]
      have e2 : fge (p.err (search p o a o.maxlam lam (p.step a lam)).2) (p.err a) = false := by
        rw [h1]; cases a <;> simp [hp, fge]
      rw [iterate]
      simp only [e1, e2, Bool.false_eq_true, if_false]
      split_ifs
      · exact h1
      · exact h1
      · exact ih _ _ _ _ _ (Or.inr h1)
  have : (varpro p o false).alpha = true := hall o.maxiter none o.initLambda false false [false]
    (Or.inl hm)
  rw [this]
  simp [hp]

/-- A problem on the reals with error `|a|`, each step halving: with tolerance 1/3 and three
iterations the routine converges from 1 to 1/4. -/
example : (varpro (⟨fun a => some |a|, fun a _ => a / 2, fun _ _ l => l⟩ : Prob ℝ)
    ⟨1, 0, 2, 3, 1 / 3, 0⟩ 1).converged = true := by
  simp [varpro, iterate, flt, stalledNow]
  norm_num [abs_of_pos]

end VarPro

/-! ## C68: normalised modes and amplitudes -/

section Normalise

variable {r ι : Type} [Fintype r] [Fintype ι]

theorem normalise_spec (c mx : ℝ) (w : ι → ℂ) (hs : small c mx (Real.sqrt (∑ i, ‖w i‖ ^ 2)) = false)
    (hw : ∃ i, w i ≠ 0) :
    ∃ mode : ι → ℂ, normalise c mx w = (Real.sqrt (∑ i, ‖w i‖ ^ 2), fun i => some (mode i)) ∧
      (∀ i, mode i * (normalise c mx w).1 = w i) ∧ ∑ i, ‖mode i‖ ^ 2 = 1 ∧
      0 < (normalise c mx w).1 := by
  set b := Real.sqrt (∑ i, ‖w i‖ ^ 2) with hb
  have hpos : 0 < ∑ i, ‖w i‖ ^ 2 := by
    obtain ⟨i, hi⟩ := hw
    refine Finset.sum_pos' (fun j _ => sq_nonneg _) ⟨i, Finset.mem_univ i, ?_⟩
    have := norm_pos_iff.mpr hi
    positivity
  have hb0 : 0 < b := Real.sqrt_pos.mpr hpos
  have hbc : (b : ℂ) ≠ 0 := by exact_mod_cast hb0.ne'
  have e : normalise c mx w = (b, fun i => some (w i / b)) := by
    simp only [normalise, ← hb, hs, Bool.false_eq_true, if_false, hb0.ne']
  refine ⟨fun i => w i / b, e, fun i => ?_, ?_, by rw [e]; exact hb0⟩
  · rw [e]
    simp only
    field_simp
  · simp only [norm_div, div_pow, Complex.norm_real, Real.norm_eq_abs, abs_of_pos hb0]
    rw [← Finset.sum_div, hb, Real.sq_sqrt hpos.le]
    exact div_self hpos.ne'

/-- **C68** (partial: no negligible and no zero row). The modes have norm 1, the amplitudes are
positive, and `forecast` at any time is the sum of exponentials fitted by the variable projection:
normalising changes nothing. -/
theorem C68_forecast_partial (c mx : ℝ) (w : r → ι → ℂ) (eigs : r → ℂ)
    (hs : ∀ k, small c mx (Real.sqrt (∑ i, ‖w k i‖ ^ 2)) = false) (hw : ∀ k, ∃ i, w k i ≠ 0) :
    ∃ modes : r → ι → ℂ, (∀ k i, (normalise c mx (w k)).2 i = some (modes k i)) ∧
      (∀ k, ∑ i, ‖modes k i‖ ^ 2 = 1) ∧ (∀ k, 0 < (normalise c mx (w k)).1) ∧
      ∀ t i, forecast modes (fun k => (normalise c mx (w k)).1) eigs t i = fitted w eigs t i := by
  choose modes h1 h2 h3 h4 using fun k => normalise_spec c mx (w k) (hs k) (hw k)
  refine ⟨modes, fun k i => by rw [h1], h3, h4, fun t i => ?_⟩
  refine Finset.sum_congr rfl fun k _ => ?_
  rw [h2, mul_comm (eigs k), mul_comm]

/-- **C68**: the amplitude and the mode of a nonzero row are set to zero exactly if its norm is below
`10 * eps` times the largest. -/
theorem C68_dropped (c mx : ℝ) (w : ι → ℂ) (hw : ∃ i, w i ≠ 0) :
    (normalise c mx w = (0, fun _ => some 0) ↔ Real.sqrt (∑ i, ‖w i‖ ^ 2) < c * mx) ∧
    ((normalise c mx w).1 = 0 ↔ Real.sqrt (∑ i, ‖w i‖ ^ 2) < c * mx) := by
  by_cases hs : small c mx (Real.sqrt (∑ i, ‖w i‖ ^ 2))
  · have := of_decide_eq_true hs
    rw [abs_of_nonneg (Real.sqrt_nonneg _)] at this
    have e : normalise c mx w = (0, fun _ => some 0) := by simp only [normalise, hs, if_true]
    exact ⟨⟨fun _ => this, fun _ => e⟩, ⟨fun _ => this, fun _ => by rw [e]⟩⟩
  · have hn : ¬ Real.sqrt (∑ i, ‖w i‖ ^ 2) < c * mx := by
      intro h
      exact hs (by simpa [small, abs_of_nonneg (Real.sqrt_nonneg _)] using h)
    obtain ⟨mode, -, -, -, hpos⟩ := normalise_spec c mx w (by simpa using hs) hw
    refine ⟨⟨fun h => ?_, fun h => absurd h hn⟩, ⟨fun h => ?_, fun h => absurd h hn⟩⟩
    · rw [h] at hpos; simp at hpos
    · exact absurd h hpos.ne'

omit [Fintype r] in
/-- **C68** is false for zero data: all the rows of `B` vanish, none is below
`10 * eps * max = 0`, and the modes are `0 / 0 = NaN`. -/
theorem C68_zero_false (c : ℝ) (w : r → ι → ℂ) (hw : ∀ k i, w k i = 0) (k : r) (i : ι) :
    (normalise c 0 (w k)).1 = 0 ∧ (normalise c 0 (w k)).2 i = none := by
  have : Real.sqrt (∑ i, ‖w k i‖ ^ 2) = 0 := by simp [hw]
  constructor
  · simp [normalise, this, small]
  · simp [normalise, this, small]

/-- Two rows of norms 5 and 1. -/
example : ∀ k : Fin 2, small (1 / 100) 5
    (Real.sqrt (∑ i, ‖(!![3, 4; 0, 1] : Matrix (Fin 2) (Fin 2) ℂ) k i‖ ^ 2)) = false := by
  intro k
  fin_cases k
  · have : Real.sqrt (3 ^ 2 + 4 ^ 2) = 5 := by
      rw [show (3 : ℝ) ^ 2 + 4 ^ 2 = 5 ^ 2 by norm_num]
      exact Real.sqrt_sq (by norm_num)
    simp [small, this]
    norm_num
  · simp [small]
    norm_num

end Normalise

end Verif.Bop
