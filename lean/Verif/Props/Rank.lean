import Verif.Lemmas.Rank
import Mathlib.Tactic.NormNum

/-!
# Properties C12, C13, C53: truncation rank
-/

namespace Verif.Rank

variable {K : Type} [Field K] [LinearOrder K] [IsStrictOrderedRing K]

/-- **C12** (admissible rank). For a matrix with at least one singular value: a positive int `k`
gives `min(k, number of singular values)`, `-1` gives all of them, and 0 or a float in `(0, 1)`
gives between one and all of them. -/
theorem C12_rank (sigma : List K) (rows cols : ℕ) (hs : sigma.length = min rows cols)
    (hne : 1 ≤ sigma.length) :
    (∀ k : ℤ, 1 ≤ k → (computeRank sigma rows cols (.int k) : ℤ) = min k sigma.length) ∧
    computeRank sigma rows cols (.int (-1)) = sigma.length ∧
    (1 ≤ computeRank sigma rows cols (.int 0) ∧
      computeRank sigma rows cols (.int 0) ≤ sigma.length) ∧
    (∀ e : K, 0 < e → e < 1 → 1 ≤ computeRank sigma rows cols (.float e) ∧
      computeRank sigma rows cols (.float e) ≤ sigma.length) := by
  refine ⟨?_, ?_, ?_, ?_⟩
  · intro k hk
    have h1 : ((k : ℤ) : K) ≠ 0 := by exact_mod_cast (by omega : k ≠ 0)
    have h2 : ¬ ((k : ℤ) : K) < 1 := by
      rw [not_lt]; exact_mod_cast hk
    simp only [computeRank, SvdRank.val, h1, h2, hk, if_true, if_false, and_false]
    omega
  · have h2 : ¬ (0 : K) < ((-1 : ℤ) : K) := by simp
    simp [computeRank, SvdRank.val, hs]
  · have : computeRank sigma rows cols (.int 0) = svht sigma rows cols := by
      simp [computeRank, SvdRank.val]
    rw [this]
    unfold svht
    simp only
    split
    · omega
    · have := List.countP_le_length
        (p := fun s => decide (median sigma * omega (beta rows cols) < s)) (l := sigma)
      omega
  · intro e h0 h1
    have : computeRank sigma rows cols (.float e) =
        searchsorted (cumulativeEnergy sigma) e + 1 := by
      simp [computeRank, SvdRank.val, h0, h1, h0.ne']
    rw [this]
    by_cases h : (sq sigma).sum = 0
    · rw [search_zero sigma h]; omega
    · have := (search_spec sigma h e h1.le).1
      omega

/-- **C12** (truncation). `compute_svd` returns exactly the first `r` left vectors, singular
values and right vectors, `r` being the selected rank. -/
theorem C12_compute_svd {C D : Type} (svd : SVD C D K) (rows cols : ℕ)
    (hs : svd.s.length = min rows cols) (hU : svd.U.length = svd.s.length)
    (hV : svd.V.length = svd.s.length) (hne : 1 ≤ svd.s.length) (r : SvdRank K)
    (hr : computeRankOf svd rows cols r ≤ svd.s.length) :
    let out := computeSvd svd rows cols r
    let k := computeRankOf svd rows cols r
    out.U.length = k ∧ out.s.length = k ∧ out.V.length = k ∧
    ∀ i < k, out.U[i]? = svd.U[i]? ∧ out.s[i]? = svd.s[i]? ∧ out.V[i]? = svd.V[i]? := by
  intro out k
  have hk : k = computeRank svd.s rows cols r := rfl
  simp only [out, computeSvd]
  rw [hk] at *
  unfold computeRankOf at hr
  refine ⟨by simp; omega, by simp; omega, by simp; omega, ?_⟩
  intro i hi
  simp [hi]

/-- The bound on the rank needed by `C12_compute_svd` holds for every `svd_rank`: whatever the
argument is (numpy integers and other floats included), between one and all the singular values
are kept. -/
theorem C12_rank_any (sigma : List K) (rows cols : ℕ) (hs : sigma.length = min rows cols)
    (hne : 1 ≤ sigma.length) (r : SvdRank K) :
    1 ≤ computeRank sigma rows cols r ∧ computeRank sigma rows cols r ≤ sigma.length := by
  obtain ⟨h1, -, h3, h4⟩ := C12_rank sigma rows cols hs hne
  by_cases h0 : r.val = 0
  · have : computeRank sigma rows cols r = computeRank sigma rows cols (.int 0) := by
      have hv : (SvdRank.int 0 : SvdRank K).val = 0 := by simp [SvdRank.val]
      simp [computeRank, h0, hv]
    rw [this]; exact h3
  by_cases hc : 0 < r.val ∧ r.val < 1
  · have : computeRank sigma rows cols r = computeRank sigma rows cols (.float r.val) := by
      have hv : (SvdRank.float r.val : SvdRank K).val = r.val := rfl
      simp [computeRank, h0, hv, hc]
    rw [this]; exact h4 _ hc.1 hc.2
  · simp only [computeRank, h0, hc, if_false]
    cases r with
    | int k =>
      simp only
      split
      · omega
      · omega
    | npInt k => simp only; omega
    | float q => simp only; omega

/-- **C12** disagreement D05: a numpy integer (e.g. `np.int64(2)`, as returned by most numpy
computations) is not recognised as a rank; no truncation is made. -/
theorem C12_numpy_integer_false :
    ∃ (sigma : List ℚ) (rows cols : ℕ), sigma.length = min rows cols ∧
      computeRank sigma rows cols (.npInt 2) ≠ min 2 sigma.length :=
  ⟨[4, 3, 2], 3, 5, by decide, by decide +kernel⟩

example := C12_rank ([5, 3, 1] : List ℚ) 3 7 rfl (by decide)

/-- **C12** (automatic rank). `svd_rank=0` keeps the singular values above
`(0.56 β³ - 0.95 β² + 1.82 β + 1.43)` times their median, at least one; `β ≤ 1` is the aspect
ratio of the data, `s` the singular values in ascending order. -/
theorem C12_automatic (sigma s : List K) (hperm : s.Perm sigma) (hsort : s.Pairwise (· ≤ ·))
    (rows cols : ℕ) (b med : K) (hb : b = (min rows cols : ℕ) / (max rows cols : ℕ))
    (hmed : med = if s.length % 2 = 1 then s.getD (s.length / 2) 0
      else (s.getD (s.length / 2 - 1) 0 + s.getD (s.length / 2) 0) / 2) :
    computeRank sigma rows cols (.int 0) = max 1 (sigma.countP fun x =>
      (14 / 25 * b ^ 3 - 19 / 20 * b ^ 2 + 91 / 50 * b + 143 / 100) * med < x) := by
  have h0 : computeRank sigma rows cols (.int 0) = svht sigma rows cols := by
    simp [computeRank, SvdRank.val]
  have hs : sigma.insertionSort (· ≤ ·) = s :=
    ((List.perm_insertionSort _ _).trans hperm.symm).eq_of_pairwise
      (fun a b _ _ h1 h2 => le_antisymm h1 h2) (List.pairwise_insertionSort _ _) hsort
  have hm : median sigma = med := by
    unfold median
    rw [hs, hmed, hperm.length_eq]
  have ho : median sigma * omega (beta rows cols) =
      (14 / 25 * b ^ 3 - 19 / 20 * b ^ 2 + 91 / 50 * b + 143 / 100) * med := by
    rw [hm, hb]; unfold omega beta; ring
  rw [h0]
  unfold svht
  simp only [ho]
  split_ifs with hc
  · rw [hc]; rfl
  · omega

example : computeRank ([9, 2, 1, 1] : List ℚ) 4 8 (.int 0) = 1 ∧
    computeRank ([9, 8, 1, 1, 1] : List ℚ) 5 5 (.int 0) = 2 := by decide +kernel

/-- **C13** (least energy rank). For `0 < e < 1` and singular values not all zero, the selected
rank `r` is the least number of leading singular values whose squares add up to at least the
fraction `e` of the total. -/
theorem C13_least_rank (sigma : List K) (rows cols : ℕ) (hnz : ∃ s ∈ sigma, s ≠ 0)
    (e : K) (h0 : 0 < e) (h1 : e < 1) :
    IsLeast {r : ℕ | r ≤ sigma.length ∧
        e * (sigma.map (· ^ 2)).sum ≤ ((sigma.take r).map (· ^ 2)).sum}
      (computeRank sigma rows cols (.float e)) := by
  have hr : computeRank sigma rows cols (.float e) =
      searchsorted (cumulativeEnergy sigma) e + 1 := by
    simp [computeRank, SvdRank.val, h0, h1, h0.ne']
  have hpos : 0 < (sq sigma).sum := by
    obtain ⟨s, hs, hs0⟩ := hnz
    have : 0 < s ^ 2 := by positivity
    refine lt_of_lt_of_le this ?_
    exact List.single_le_sum (sq_nonneg' sigma) _ (List.mem_map.mpr ⟨s, hs, rfl⟩)
  obtain ⟨a, b, c⟩ := search_spec sigma hpos.ne' e h1.le
  rw [hr]
  constructor
  · refine ⟨a, ?_⟩
    rw [List.map_take]; exact b
  · rintro r ⟨hr1, hr2⟩
    by_contra hlt
    cases r with
    | zero =>
      have : e * (sq sigma).sum ≤ 0 := by simpa [sq] using hr2
      nlinarith
    | succ j =>
      have := c j (by omega)
      rw [List.map_take] at hr2
      exact absurd hr2 (not_le.mpr this)

/-- **C13** (monotone): asking for more energy never gives a smaller rank. -/
theorem C13_monotone (sigma : List K) (rows cols : ℕ) (hnz : ∃ s ∈ sigma, s ≠ 0)
    (e e' : K) (h0 : 0 < e) (hle : e ≤ e') (h1 : e' < 1) :
    computeRank sigma rows cols (.float e) ≤ computeRank sigma rows cols (.float e') := by
  have h := C13_least_rank sigma rows cols hnz e h0 (lt_of_le_of_lt hle h1)
  have h' := C13_least_rank sigma rows cols hnz e' (lt_of_lt_of_le h0 hle) h1
  refine h.2 ⟨h'.1.1, le_trans ?_ h'.1.2⟩
  exact mul_le_mul_of_nonneg_right hle (sum_sq_nonneg sigma)

example : computeRank ([3, 2, 1] : List ℚ) 3 3 (.float (9/10)) = 2 ∧
    computeRank ([3, 2, 1] : List ℚ) 3 3 (.float (95/100)) = 3 := by decide +kernel

/-- **C53** (units do not matter). Multiplying the data, hence all singular values, by a
positive constant changes the selected rank for no value of `svd_rank`. -/
theorem C53_scale_invariant (sigma : List K) (rows cols : ℕ) (r : SvdRank K) (c : K) (hc : 0 < c) :
    computeRank (sigma.map (c * ·)) rows cols r = computeRank sigma rows cols r := by
  have h1 : svht (sigma.map (c * ·)) rows cols = svht sigma rows cols := by
    unfold svht
    simp only [median_scale sigma c hc, List.countP_map]
    have : ((fun s => decide (c * median sigma * omega (beta rows cols) < s)) ∘ fun x => c * x) =
        fun s => decide (median sigma * omega (beta rows cols) < s) := by
      funext s
      simp only [Function.comp, mul_assoc, decide_eq_decide]
      exact mul_lt_mul_iff_right₀ hc
    rw [this]
  have hsq : (sigma.map (c * ·)).map (· ^ 2) = (sq sigma).map (c ^ 2 * ·) := by
    simp [sq, mul_pow, Function.comp_def]
  have hsum : ∀ l : List K, (l.map (c ^ 2 * ·)).sum = c ^ 2 * l.sum := by
    intro l; induction l with
    | nil => simp
    | cons x l ih => simp [ih, mul_add]
  have h2 : cumulativeEnergy (sigma.map (c * ·)) = cumulativeEnergy sigma := by
    simp only [cumulativeEnergy, hsq]
    have hc2 : c ^ 2 ≠ 0 := by positivity
    simp only [hsum]
    have hz : c ^ 2 * (sq sigma).sum = 0 ↔ (sigma.map (· ^ 2)).sum = 0 := by
      rw [mul_eq_zero]; simp [hc2, sq]
    by_cases hs : (sigma.map (· ^ 2)).sum = 0
    · rw [if_pos (hz.mpr hs), if_pos hs]; simp [Function.comp_def]
    · rw [if_neg (mt hz.mp hs), if_neg hs]
      congr 2
      rw [List.map_map]
      refine List.map_congr_left ?_
      intro x _
      simp only [Function.comp]
      exact mul_div_mul_left _ _ hc2
  simp only [computeRank, h1, h2, List.length_map]

/-- **C53** (the automatic rank keeps at most half). With `svd_rank = 0` and non-negative
singular values, at most half of them (but at least one) are kept. -/
theorem C53_auto_at_most_half (sigma : List K) (rows cols : ℕ)
    (hpos : ∀ s ∈ sigma, 0 ≤ s) :
    computeRank sigma rows cols (.int 0) ≤ max 1 (sigma.length / 2) := by
  have h0 : computeRank sigma rows cols (.int 0) = svht sigma rows cols := by
    simp [computeRank, SvdRank.val]
  rw [h0]
  set s := sigma.insertionSort (· ≤ ·) with hs
  have hperm : s.Perm sigma := List.perm_insertionSort _ _
  have hlen : s.length = sigma.length := hperm.length_eq
  have hsort : s.Pairwise (· ≤ ·) := List.pairwise_insertionSort _ _
  have hsp : ∀ x ∈ s, 0 ≤ x := fun x hx => hpos x (hperm.mem_iff.mp hx)
  have hgetD : ∀ i, 0 ≤ s.getD i 0 := by
    intro i
    by_cases hi : i < s.length
    · simp only [List.getD_eq_getElem?_getD, List.getElem?_eq_getElem hi, Option.getD_some]
      exact hsp _ (List.getElem_mem hi)
    · simp [List.getD_eq_getElem?_getD, List.getElem?_eq_none (not_lt.mp hi)]
  -- a prefix of length `k` with all elements at most the median
  obtain ⟨k, hk, hmed0, hmed⟩ : ∃ k, sigma.length ≤ k + sigma.length / 2 ∧ 0 ≤ median sigma ∧
      ∀ i < k, s.getD i 0 ≤ median sigma := by
    have mono : ∀ i j, i ≤ j → j < s.length → s.getD i 0 ≤ s.getD j 0 := by
      intro i j hij hj
      simp only [List.getD_eq_getElem?_getD, List.getElem?_eq_getElem hj,
        List.getElem?_eq_getElem (lt_of_le_of_lt hij hj), Option.getD_some]
      rcases hij.eq_or_lt with rfl | hlt
      · exact le_rfl
      · exact List.pairwise_iff_getElem.mp hsort i j _ _ hlt
    by_cases hodd : sigma.length % 2 = 1
    · refine ⟨sigma.length / 2 + 1, by omega, ?_, ?_⟩
      · simp only [median, hodd, if_true]; exact hgetD _
      · intro i hi
        simp only [median, hodd, if_true]
        exact mono _ _ (by omega) (by omega)
    · refine ⟨sigma.length / 2, by omega, ?_, ?_⟩
      · simp only [median, hodd, if_false]
        have a := hgetD (sigma.length / 2 - 1)
        have b := hgetD (sigma.length / 2)
        rw [← hs]
        positivity
      · intro i hi
        simp only [median, hodd, if_false]
        have a := mono i (sigma.length / 2 - 1) (by omega) (by omega)
        have b := mono (sigma.length / 2 - 1) (sigma.length / 2) (by omega) (by omega)
        rw [← hs]
        linarith
  -- the factor is at least one
  have hom : 1 ≤ omega (beta (K := K) rows cols) := by
    have hb0 : 0 ≤ beta (K := K) rows cols := by unfold beta; positivity
    have hb1 : beta (K := K) rows cols ≤ 1 := by
      unfold beta
      by_cases hm : max rows cols = 0
      · rw [hm]; simp
      · have hm' : (0 : K) < ((max rows cols : ℕ) : K) := by exact_mod_cast Nat.pos_of_ne_zero hm
        rw [div_le_one hm']
        exact_mod_cast (by omega : min rows cols ≤ max rows cols)
    unfold omega
    have h3 : 0 ≤ beta (K := K) rows cols ^ 3 := by positivity
    nlinarith
  have htau : ∀ i < k, ¬ (median sigma * omega (beta rows cols) < s.getD i 0) := by
    intro i hi hlt
    have := hmed i hi
    nlinarith
  unfold svht
  simp only
  split
  · omega
  · rw [← hperm.countP_eq]
    have hsplit : s.countP (fun x => decide (median sigma * omega (beta rows cols) < x)) =
        (s.drop k).countP (fun x => decide (median sigma * omega (beta rows cols) < x)) := by
      conv_lhs => rw [← List.take_append_drop k s]
      rw [List.countP_append]
      have : (s.take k).countP
          (fun x => decide (median sigma * omega (beta rows cols) < x)) = 0 := by
        rw [List.countP_eq_zero]
        intro x hx
        obtain ⟨i, hi⟩ := List.mem_iff_getElem?.mp hx
        have hik : i < k := by
          have := (List.getElem?_eq_some_iff.mp hi).1
          simp at this; omega
        rw [List.getElem?_take_of_lt hik] at hi
        have := htau i hik
        simpa [List.getD_eq_getElem?_getD, hi] using this
      omega
    rw [hsplit]
    have := List.countP_le_length
      (p := fun x => decide (median sigma * omega (beta rows cols) < x)) (l := s.drop k)
    rw [List.length_drop] at this
    omega

/-- The bound is reached. -/
example : computeRank ([100, 90, 1, 1] : List ℚ) 4 4 (.int 0) = 1 ∧
    computeRank ([1000, 90, 10, 1] : List ℚ) 4 4 (.int 0) = 1 ∧
    computeRank ([1000, 900, 1, 1, 1] : List ℚ) 5 5 (.int 0) = 2 := by decide +kernel

end Verif.Rank
