import Verif.Model.Rank
import Mathlib.Algebra.Order.BigOperators.Group.List
import Mathlib.Tactic.Linarith
import Mathlib.Tactic.Ring
import Mathlib.Tactic.FieldSimp
import Mathlib.Tactic.Positivity
import Mathlib.Algebra.BigOperators.Ring.List

/-! Helper lemmas on rank selection. -/

namespace Verif.Rank

variable {K : Type} [Field K] [LinearOrder K] [IsStrictOrderedRing K]

omit [LinearOrder K] [IsStrictOrderedRing K] in
theorem length_cumsum (l : List K) : (cumsum l).length = l.length := by
  simp [cumsum]

omit [LinearOrder K] [IsStrictOrderedRing K] in
theorem scanl_getElem? (l : List K) (a : K) (i : ℕ) (h : i ≤ l.length) :
    (l.scanl (· + ·) a)[i]? = some (a + (l.take i).sum) := by
  induction l generalizing a i with
  | nil =>
    obtain rfl : i = 0 := by simpa using h
    simp
  | cons x l ih =>
    cases i with
    | zero => simp
    | succ i =>
      have := ih (a + x) i (by simpa using h)
      simp [List.scanl_cons, this, add_assoc]

omit [LinearOrder K] [IsStrictOrderedRing K] in
theorem cumsum_getElem? (l : List K) (i : ℕ) (h : i < l.length) :
    (cumsum l)[i]? = some (l.take (i + 1)).sum := by
  have := scanl_getElem? l 0 (i + 1) h
  simp only [zero_add] at this
  rw [← this, cumsum, List.getElem?_tail]

/-- Squares of the singular values. -/
def sq (l : List K) : List K := l.map (· ^ 2)

omit [LinearOrder K] [IsStrictOrderedRing K] in
theorem sum_map_div (l : List K) (t : K) : (l.map (· / t)).sum = l.sum / t := by
  simp only [div_eq_mul_inv]
  induction l with
  | nil => simp
  | cons x l ih => simp [ih, add_mul]

omit [IsStrictOrderedRing K] in
theorem cumulativeEnergy_getElem? (sigma : List K) (h : (sq sigma).sum ≠ 0) (i : ℕ)
    (hi : i < sigma.length) :
    (cumulativeEnergy sigma)[i]? =
      some (some (((sq sigma).take (i + 1)).sum / (sq sigma).sum)) := by
  simp only [cumulativeEnergy]
  rw [if_neg (by exact h), List.getElem?_map, cumsum_getElem? _ _ (by simpa using hi),
    ← List.map_take, sum_map_div]
  rfl

omit [IsStrictOrderedRing K] in
theorem length_cumulativeEnergy (sigma : List K) :
    (cumulativeEnergy sigma).length = sigma.length := by
  simp only [cumulativeEnergy]
  split <;> simp [length_cumsum]

theorem sq_nonneg' (sigma : List K) : ∀ x ∈ sq sigma, 0 ≤ x := by
  intro x hx
  obtain ⟨y, -, rfl⟩ := List.mem_map.mp hx
  positivity

theorem sum_sq_nonneg (sigma : List K) : 0 ≤ (sq sigma).sum :=
  List.sum_nonneg (sq_nonneg' sigma)

/-- `searchsorted` on the cumulative energy, with nonzero total: everything before falls short
of the energy, and (if not past the end) the position reaches it. -/
theorem search_spec (sigma : List K) (h : (sq sigma).sum ≠ 0) (e : K) (he : e ≤ 1) :
    let r := searchsorted (cumulativeEnergy sigma) e
    r < sigma.length ∧ e * (sq sigma).sum ≤ ((sq sigma).take (r + 1)).sum ∧
      ∀ j < r, ((sq sigma).take (j + 1)).sum < e * (sq sigma).sum := by
  intro r
  have hpos : 0 < (sq sigma).sum := lt_of_le_of_ne (sum_sq_nonneg sigma) (Ne.symm h)
  have hne : sigma ≠ [] := by rintro rfl; simp [sq] at h
  have hl : 0 < sigma.length := List.length_pos_iff.mpr hne
  have hr : r < sigma.length := by
    rw [← length_cumulativeEnergy sigma]
    refine List.findIdx_lt_length_of_exists ⟨some (((sq sigma).take (sigma.length - 1 + 1)).sum /
      (sq sigma).sum), ?_, ?_⟩
    · exact List.mem_of_getElem? (cumulativeEnergy_getElem? sigma h (sigma.length - 1) (by omega))
    · have : sigma.length - 1 + 1 = (sq sigma).length := by simp [sq]; omega
      simp only [this, List.take_length]
      rw [div_self h]
      simpa [reaches] using he
  refine ⟨hr, ?_, ?_⟩
  · have hlt : r < (cumulativeEnergy sigma).length := by rwa [length_cumulativeEnergy]
    have : reaches e (cumulativeEnergy sigma)[r] = true := List.findIdx_getElem (w := hlt)
    have hg := cumulativeEnergy_getElem? sigma h r hr
    rw [List.getElem?_eq_getElem hlt] at hg
    rw [Option.some.inj hg] at this
    simp only [reaches, decide_eq_true_eq] at this
    rwa [le_div_iff₀ hpos] at this
  · intro j hj
    have hlt : j < (cumulativeEnergy sigma).length := by rw [length_cumulativeEnergy]; omega
    have : reaches e (cumulativeEnergy sigma)[j] = false := List.not_of_lt_findIdx hj
    have hg := cumulativeEnergy_getElem? sigma h j (by omega)
    rw [List.getElem?_eq_getElem hlt] at hg
    rw [Option.some.inj hg] at this
    simp only [reaches, decide_eq_false_iff_not, not_le] at this
    rwa [div_lt_iff₀ hpos] at this

theorem search_zero (sigma : List K) (h : (sq sigma).sum = 0) (e : K) :
    searchsorted (cumulativeEnergy sigma) e = 0 := by
  have : cumulativeEnergy sigma = sigma.map fun _ => none := by
    simp only [cumulativeEnergy]; rw [if_pos (by exact h)]
  rw [this]
  cases sigma <;> simp [searchsorted, reaches, List.findIdx_cons]

theorem take_sum_mono (l : List K) (h : ∀ x ∈ l, 0 ≤ x) {a b : ℕ} (hab : a ≤ b) :
    (l.take a).sum ≤ (l.take b).sum := by
  obtain ⟨c, rfl⟩ := Nat.exists_eq_add_of_le hab
  rw [List.take_add, List.sum_append]
  have : 0 ≤ ((l.drop a).take c).sum :=
    List.sum_nonneg fun x hx => h x (List.mem_of_mem_drop (List.mem_of_mem_take hx))
  linarith

omit [LinearOrder K] [IsStrictOrderedRing K] in
theorem getD_map_zero (f : K → K) (hf : f 0 = 0) (l : List K) (i : ℕ) :
    (l.map f).getD i 0 = f (l.getD i 0) := by
  simp only [List.getD_eq_getElem?_getD, List.getElem?_map]
  cases l[i]? <;> simp [hf]

theorem median_scale (sigma : List K) (c : K) (hc : 0 < c) :
    median (sigma.map (c * ·)) = c * median sigma := by
  unfold median
  have h : (sigma.map (c * ·)).insertionSort (· ≤ ·) =
      (sigma.insertionSort (· ≤ ·)).map (c * ·) := by
    symm
    apply List.map_insertionSort
    intro a _ b _
    exact (mul_le_mul_iff_right₀ hc).symm
  simp only [h, List.length_map]
  rw [getD_map_zero _ (by simp), getD_map_zero _ (by simp)]
  split
  · rfl
  · ring

end Verif.Rank
