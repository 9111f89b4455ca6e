import Verif.Model.Costs
import Mathlib.Tactic.Linarith
import Mathlib.Tactic.Ring
import Mathlib.Tactic.FieldSimp

/-!
# Properties C45, C46, C47, C65: COSTS
-/

set_option autoImplicit false

namespace Verif.Costs

open Verif

/-! ## C45: windows -/

/-- The windows after `fit`: `S` is the number of the last one. -/
theorem fitWindows_facts (n wl step nSteps : ℤ) (h1 : 1 ≤ wl) (h2 : wl ≤ n) (h3 : 1 ≤ step)
    (hr : nSteps = n ∨ nSteps = n - 1) :
    ∃ w, fitWindows n n wl step nSteps = .ok w ∧ w.nTime = n ∧ w.length = wl ∧ w.step = step ∧
      0 ≤ w.nSlides - 1 ∧ n - wl ≤ step * (w.nSlides - 1) ∧
      step * (w.nSlides - 1) < n - wl + step ∧
      (w.nonInteger = false → step * (w.nSlides - 1) = n - wl) := by
  have hdm : step * ((nSteps - wl) / step) + (nSteps - wl) % step = nSteps - wl :=
    Int.mul_ediv_add_emod ..
  have hm0 : 0 ≤ (nSteps - wl) % step := Int.emod_nonneg _ (by omega)
  have hm1 : (nSteps - wl) % step < step := Int.emod_lt_of_pos _ (by omega)
  set Q := (nSteps - wl) / step with hQ
  set R := (nSteps - wl) % step with hR
  simp only [fitWindows, buildWindows, ne_eq, not_true_eq_false, if_false, ← hQ]
  rw [if_neg (by omega)]
  have e : step * (Q + 1 - 1) = step * Q := by ring
  have e2 : step * (Q + 1 + 1 - 1) = step * Q + step := by ring
  rw [e]
  split_ifs with h
  · refine ⟨_, rfl, rfl, rfl, rfl, ?_, ?_, ?_, by simp⟩
    · show 0 ≤ Q + 1 + 1 - 1
      by_contra hc
      have : Q ≤ -2 := by omega
      have : step * Q ≤ step * (-2) := Int.mul_le_mul_of_nonneg_left this (by omega)
      omega
    · show n - wl ≤ step * (Q + 1 + 1 - 1)
      rw [e2]; omega
    · show step * (Q + 1 + 1 - 1) < _
      rw [e2]; omega
  · refine ⟨_, rfl, rfl, rfl, rfl, ?_, ?_, ?_, ?_⟩
    · show 0 ≤ Q + 1 - 1
      by_contra hc
      have : Q ≤ -1 := by omega
      have : step * Q ≤ step * (-1) := Int.mul_le_mul_of_nonneg_left this (by omega)
      omega
    · show n - wl ≤ step * (Q + 1 - 1)
      rw [e]; omega
    · show step * (Q + 1 - 1) < _
      rw [e]; omega
    · intro _
      show step * (Q + 1 - 1) = _
      rw [e]; omega

/-- **C45**. For a window of `1 ≤ wl ≤ n` samples, a step `≥ 1`, and whichever way the floating
point product rounds, `fit` sets up windows `[a_k, a_k + wl)` inside the data; `a_k = k * step`
except for the last, which ends with the data; and if `step ≤ wl` every time step is in some
window. -/
theorem C45_windows (n wl step nSteps : ℤ) (h1 : 1 ≤ wl) (h2 : wl ≤ n) (h3 : 1 ≤ step)
    (hr : nSteps = n ∨ nSteps = n - 1) :
    ∃ w, fitWindows n n wl step nSteps = .ok w ∧ 1 ≤ w.nSlides ∧
      (∀ k, 0 ≤ k → k < w.nSlides → 0 ≤ (w.indices k).1 ∧ (w.indices k).2 ≤ n ∧
        (w.indices k).2 - (w.indices k).1 = wl ∧
        (k < w.nSlides - 1 → (w.indices k).1 = k * step)) ∧
      (w.indices (w.nSlides - 1)).2 = n ∧
      (step ≤ wl → ∀ t, 0 ≤ t → t < n → ∃ k, 0 ≤ k ∧ k < w.nSlides ∧
        (w.indices k).1 ≤ t ∧ t < (w.indices k).2) := by
  obtain ⟨w, hw, hn, hl, hs, f0, f1, f2, f3⟩ := fitWindows_facts n wl step nSteps h1 h2 h3 hr
  have hlast : w.indices (w.nSlides - 1) = (n - wl, n) := by
    unfold Windows.indices
    rw [hn, hl, hs]
    by_cases hi : w.nonInteger = true
    · simp [hi]
    · have := f3 (by simpa using hi)
      simp only [hi, and_false, if_false]
      ext <;> simp <;> omega
  have hother : ∀ k, k < w.nSlides - 1 → w.indices k = (step * k, step * k + wl) := by
    intro k hk
    unfold Windows.indices
    rw [if_neg (by omega), hl, hs]
  refine ⟨w, hw, by omega, ?_, by rw [hlast], ?_⟩
  · intro k hk0 hk
    by_cases hkl : k < w.nSlides - 1
    · rw [hother k hkl]
      have hk1 : step * k ≤ step * (w.nSlides - 1 - 1) :=
        Int.mul_le_mul_of_nonneg_left (by omega) (by omega)
      have e : step * (w.nSlides - 1 - 1) = step * (w.nSlides - 1) - step := by ring
      have hk2 : 0 ≤ step * k := Int.mul_nonneg (by omega) hk0
      refine ⟨hk2, ?_, ?_, fun _ => Int.mul_comm _ _⟩
      · show step * k + wl ≤ n
        omega
      · show step * k + wl - step * k = wl
        omega
    · obtain rfl : k = w.nSlides - 1 := by omega
      rw [hlast]
      refine ⟨?_, le_rfl, ?_, fun h => absurd h hkl⟩
      · show 0 ≤ n - wl; omega
      · show n - (n - wl) = wl; omega
  · intro hsw t ht0 ht
    by_cases htl : n - wl ≤ t
    · exact ⟨w.nSlides - 1, f0, by omega, by rw [hlast]; exact htl, by rw [hlast]; exact ht⟩
    · have hdm : step * (t / step) + t % step = t := Int.mul_ediv_add_emod ..
      have hm0 : 0 ≤ t % step := Int.emod_nonneg _ (by omega)
      have hm1 : t % step < step := Int.emod_lt_of_pos _ (by omega)
      have hk0 : 0 ≤ t / step := Int.ediv_nonneg ht0 (by omega)
      have hk : t / step < w.nSlides - 1 := by
        by_contra hc
        have : step * (w.nSlides - 1) ≤ step * (t / step) :=
          Int.mul_le_mul_of_nonneg_left (by omega) (by omega)
        omega
      refine ⟨t / step, hk0, by omega, ?_, ?_⟩
      · rw [hother _ hk]; show step * (t / step) ≤ t; omega
      · rw [hother _ hk]; show t < step * (t / step) + wl; omega

/-- **C45** (rounding). If the floating point product is one too small, the number of windows and
every window are the same as without rounding. -/
theorem C45_rounding (n wl step : ℤ) (h1 : 1 ≤ wl) (h2 : wl ≤ n) (h3 : 1 ≤ step) :
    ∃ w w', fitWindows n n wl step n = .ok w ∧ fitWindows n n wl step (n - 1) = .ok w' ∧
      w.nSlides = w'.nSlides ∧ ∀ k, 0 ≤ k → k < w.nSlides → w.indices k = w'.indices k := by
  obtain ⟨w, hw, hn, hl, hs, f0, f1, f2, f3⟩ :=
    fitWindows_facts n wl step n h1 h2 h3 (Or.inl rfl)
  obtain ⟨w', hw', hn', hl', hs', f0', f1', f2', f3'⟩ :=
    fitWindows_facts n wl step (n - 1) h1 h2 h3 (Or.inr rfl)
  have hS : w.nSlides = w'.nSlides := by
    by_contra hne
    rcases lt_or_gt_of_ne hne with h | h
    · have : step * (w.nSlides - 1 + 1) ≤ step * (w'.nSlides - 1) :=
        Int.mul_le_mul_of_nonneg_left (by omega) (by omega)
      rw [mul_add, mul_one] at this
      omega
    · have : step * (w'.nSlides - 1 + 1) ≤ step * (w.nSlides - 1) :=
        Int.mul_le_mul_of_nonneg_left (by omega) (by omega)
      rw [mul_add, mul_one] at this
      omega
  refine ⟨w, w', hw, hw', hS, ?_⟩
  intro k hk0 hk
  unfold Windows.indices
  rw [hn, hn', hl, hl', hs, hs', ← hS]
  by_cases hkl : k = w.nSlides - 1
  · subst hkl
    have a := f3
    have b := f3'
    rw [← hS] at b
    cases hc : w.nonInteger <;> cases hc' : w'.nonInteger
    · simp
    · have := a hc
      simp
      omega
    · have := b hc'
      simp
      omega
    · simp
  · simp [hkl]

/-- **C45** (errors). A window longer than the data and a time array of another size raise
`ValueError`. -/
theorem C45_errors (n m wl step nSteps : ℤ) (h : n < wl ∨ n ≠ m) :
    fitWindows n m wl step nSteps = .error .valueError := by
  unfold fitWindows
  split_ifs with h1 h2 h2
  · rfl
  · rfl
  · rcases h with h | h
    · omega
    · exact absurd h h1

/-- Ten samples, windows of four, step three: windows at 0, 3, 6; with step four: 0, 4, 6. -/
example : (fitWindows 10 10 4 3 10).toOption.map
      (fun w => (w.nSlides, w.indices 0, w.indices 1, w.indices 2)) =
      some (3, (0, 4), (3, 7), (6, 10)) ∧
    (fitWindows 10 10 4 4 9).toOption.map
      (fun w => (w.nSlides, w.indices 0, w.indices 1, w.indices 2)) =
      some (3, (0, 4), (4, 8), (6, 10)) := by decide

/-! ## C46: reconstruction -/

/-- The filter is positive. -/
theorem kern_pos (n i : ℕ) : 0 < kern n i := Real.exp_pos _

/-- Spec: the weight of a window starting at `a` for time `t`. -/
noncomputable def weight (length a t : ℕ) : ℝ :=
  if a ≤ t ∧ t < a + length then kern length (t - a) else 0

theorem fold_sep (length : ℕ) (band : WindowFit → ℕ → ℕ → ℕ → ℝ) (j s t : ℕ) :
    ∀ (wins : List (ℕ × WindowFit)) (a : Acc),
      (wins.foldl (fun a w => addWindow length (band w.2) w.1 a) a).sep j s t =
        a.sep j s t + (wins.map fun w => weight length w.1 t * band w.2 j s (t - w.1)).sum ∧
      (wins.foldl (fun a w => addWindow length (band w.2) w.1 a) a).xn t =
        a.xn t + (wins.map fun w => weight length w.1 t).sum := by
  intro wins
  induction wins with
  | nil => intro a; simp
  | cons w wins ih =>
    intro a
    obtain ⟨h1, h2⟩ := ih (addWindow length (band w.2) w.1 a)
    rw [List.foldl_cons, h1, h2]
    simp only [List.map_cons, List.sum_cons, addWindow, weight]
    constructor
    · split_ifs <;> ring
    · split_ifs <;> ring

theorem scaleReconstruction_eq (length rank : ℕ) (centroids : List ℝ) (im : Bool)
    (wins : List (ℕ × WindowFit)) (j s t : ℕ) :
    scaleReconstruction length rank centroids im wins j s t =
      (wins.map fun w => weight length w.1 t *
        windowBand (wins.map (·.2)) rank centroids im w.2 j s (t - w.1)).sum /
      (wins.map fun w => weight length w.1 t).sum := by
  unfold scaleReconstruction
  obtain ⟨h1, h2⟩ := fold_sep length
    (fun f => windowBand (wins.map (·.2)) rank centroids im f) j s t wins
    ⟨fun _ _ _ => 0, fun _ => 0⟩
  simp only [h1, h2, zero_add]

theorem weight_nonneg (length a t : ℕ) : 0 ≤ weight length a t := by
  unfold weight; split_ifs
  · exact (kern_pos _ _).le
  · exact le_rfl

theorem total_pos (length t : ℕ) (wins : List (ℕ × WindowFit))
    (hc : ∃ w ∈ wins, w.1 ≤ t ∧ t < w.1 + length) :
    0 < (wins.map fun w => weight length w.1 t).sum := by
  obtain ⟨w, hw, h⟩ := hc
  have h1 : weight length w.1 t ≤ (wins.map fun w => weight length w.1 t).sum :=
    List.single_le_sum (by
      intro x hx
      obtain ⟨v, -, rfl⟩ := List.mem_map.mp hx
      exact weight_nonneg _ _ _) _ (List.mem_map.mpr ⟨w, hw, rfl⟩)
  have h2 : 0 < weight length w.1 t := by
    rw [weight, if_pos h]; exact kern_pos _ _
  linarith

/-- The value of band `j` in one window, as the class docstring describes it: the real part of the
sum over the modes of the band, plus the window mean if `lowest`. -/
noncomputable def bandValue (f : WindowFit) (rank j : ℕ) (lowest : Bool) (s i : ℕ) : ℝ :=
  (∑ l ∈ (Finset.range rank).filter (fun l => f.classes l = j),
    f.modes s l * f.amplitudes l * Complex.exp (f.omega l * f.time i)).re +
    if lowest then f.mean s else 0

theorem sumOver_eq (f : WindowFit) (rank : ℕ) (sel : ℕ → Bool) (s i : ℕ) :
    f.sumOver rank sel s i = ∑ l ∈ (Finset.range rank).filter (fun l => sel l = true),
      f.modes s l * f.amplitudes l * Complex.exp (f.omega l * f.time i) := by
  rw [WindowFit.sumOver, ← List.sum_toFinset]
  · congr 1
    ext l
    simp
  · exact List.Nodup.filter _ List.nodup_range

theorem windowBand_eq (fits : List WindowFit) (rank : ℕ) (centroids : List ℝ) (im : Bool)
    (f : WindowFit) (j : ℕ) (hj : ∃ g ∈ fits, ∃ l < rank, g.classes l = j) (s i : ℕ) :
    windowBand fits rank centroids im f j s i =
      bandValue f rank j (im && decide (j = argmin centroids)) s i := by
  have ho : occurs fits rank j = true := by
    obtain ⟨g, hg, l, hl, hj⟩ := hj
    simp only [occurs, List.any_eq_true, List.mem_range, beq_iff_eq]
    exact ⟨g, hg, l, hl, hj⟩
  rw [windowBand, if_pos ho, bandValue, sumOver_eq]
  simp

/-- **C46** (weighted mean). At a time step covered by some window the reconstruction of every
occurring band is a mean of the values of that band in the windows; the weights do not depend on
the band or the place, are positive for the windows covering the time step and there in proportion
to a Gaussian of an eighth of the window length centred in the window, 0 for the others, and sum to
one. -/
theorem C46_weighted_mean (length rank : ℕ) (centroids : List ℝ) (im : Bool)
    (wins : List (ℕ × WindowFit)) (t : ℕ)
    (hc : ∃ w ∈ wins, w.1 ≤ t ∧ t < w.1 + length) :
    ∃ ω : ℕ → ℝ, (∀ a, a ≤ t → t < a + length → 0 < ω a) ∧
      (∀ a b, a ≤ t → t < a + length → b ≤ t → t < b + length →
        ω a * Real.exp (-(((t - b : ℕ) - ((length : ℝ) - 1) / 2) ^ 2) / ((length : ℝ) / 8) ^ 2) =
        ω b * Real.exp (-(((t - a : ℕ) - ((length : ℝ) - 1) / 2) ^ 2) / ((length : ℝ) / 8) ^ 2)) ∧
      (∀ a, (t < a ∨ a + length ≤ t) → ω a = 0) ∧
      (wins.map fun w => ω w.1).sum = 1 ∧
      ∀ j s, (∃ w ∈ wins, ∃ l < rank, w.2.classes l = j) →
        scaleReconstruction length rank centroids im wins j s t =
          (wins.map fun w => ω w.1 *
            bandValue w.2 rank j (im && decide (j = argmin centroids)) s (t - w.1)).sum := by
  set W := (wins.map fun w => weight length w.1 t).sum with hW
  have hWp : 0 < W := total_pos length t wins hc
  refine ⟨fun a => weight length a t / W, ?_, ?_, ?_, ?_, ?_⟩
  · intro a h1 h2
    refine div_pos ?_ hWp
    rw [weight, if_pos ⟨h1, h2⟩]; exact kern_pos _ _
  · intro a b h1 h2 h3 h4
    show weight length a t / W * kern length (t - b) = weight length b t / W * kern length (t - a)
    rw [weight, weight, if_pos ⟨h1, h2⟩, if_pos ⟨h3, h4⟩]
    ring
  · intro a h
    show weight length a t / W = 0
    rw [weight, if_neg (by omega), zero_div]
  · have e : (wins.map fun w => weight length w.1 t / W).sum = W / W := by
      rw [hW]
      simp only [div_eq_mul_inv, List.sum_map_mul_right]
    rw [e, div_self hWp.ne']
  · intro j s hj
    rw [scaleReconstruction_eq, ← hW]
    have e : ∀ w ∈ wins, windowBand (wins.map (·.2)) rank centroids im w.2 j s (t - w.1) =
        bandValue w.2 rank j (im && decide (j = argmin centroids)) s (t - w.1) := by
      intro w _
      refine windowBand_eq _ _ _ _ _ _ ?_ _ _
      obtain ⟨v, hv, l, hl, h⟩ := hj
      exact ⟨v.2, List.mem_map.mpr ⟨v, hv, rfl⟩, l, hl, h⟩
    rw [List.map_congr_left (g := fun w => weight length w.1 t *
      bandValue w.2 rank j (im && decide (j = argmin centroids)) s (t - w.1))
      (fun w hw => by rw [e w hw]), div_eq_mul_inv, ← List.sum_map_mul_right]
    congr 1
    refine List.map_congr_left fun w _ => ?_
    show _ = weight length w.1 t / W * _
    rw [div_eq_mul_inv]; ring

/-- The whole window: real part of the sum over all the modes, plus the mean. -/
noncomputable def windowValue (f : WindowFit) (rank s i : ℕ) : ℝ :=
  (∑ l ∈ Finset.range rank, f.modes s l * f.amplitudes l * Complex.exp (f.omega l * f.time i)).re +
    f.mean s

theorem sum_windowBand (fits : List WindowFit) (rank nC : ℕ) (centroids : List ℝ) (f : WindowFit)
    (hf : f ∈ fits) (hcl : ∀ g ∈ fits, ∀ l < rank, g.classes l < nC)
    (hmin : ∃ g ∈ fits, ∃ l < rank, g.classes l = argmin centroids) (s i : ℕ) :
    ((List.range nC).map fun j => windowBand fits rank centroids true f j s i).sum =
      windowValue f rank s i := by
  have hm : argmin centroids < nC := by
    obtain ⟨g, hg, l, hl, h⟩ := hmin
    rw [← h]; exact hcl g hg l hl
  set g : ℕ → ℂ := fun l => f.modes s l * f.amplitudes l * Complex.exp (f.omega l * f.time i)
    with hg
  have e : ∀ j, windowBand fits rank centroids true f j s i =
      (∑ l ∈ (Finset.range rank).filter (fun l => f.classes l = j), g l).re +
        if j = argmin centroids then f.mean s else 0 := by
    intro j
    by_cases hj : ∃ g ∈ fits, ∃ l < rank, g.classes l = j
    · rw [windowBand_eq fits rank centroids true f j hj, bandValue]
      simp [hg]
    · have ho : occurs fits rank j = false := by
        rw [Bool.eq_false_iff]
        intro h
        simp only [occurs, List.any_eq_true, List.mem_range, beq_iff_eq] at h
        exact hj h
      have hne : j ≠ argmin centroids := fun h => hj (h ▸ hmin)
      have hem : (Finset.range rank).filter (fun l => f.classes l = j) = ∅ := by
        rw [Finset.filter_eq_empty_iff]
        intro l hl h
        exact hj ⟨f, hf, l, Finset.mem_range.mp hl, h⟩
      rw [windowBand, if_neg (by simp [ho]), hem, if_neg hne]
      simp
  have e2 : ((List.range nC).map fun j => windowBand fits rank centroids true f j s i).sum =
      ∑ j ∈ Finset.range nC, windowBand fits rank centroids true f j s i := by
    rw [← List.sum_toFinset _ List.nodup_range, List.toFinset_range]
  rw [e2, Finset.sum_congr rfl fun j _ => e j, Finset.sum_add_distrib, ← Complex.re_sum,
    Finset.sum_fiberwise_of_maps_to (fun l hl => Finset.mem_range.mpr
      (hcl f hf l (Finset.mem_range.mp hl))), Finset.sum_ite_eq' , if_pos (Finset.mem_range.mpr hm)]
  rfl

theorem sum_comm_lists {α β : Type} (l : List α) (k : List β) (f : α → β → ℝ) :
    (l.map fun a => (k.map fun b => f a b).sum).sum =
      (k.map fun b => (l.map fun a => f a b).sum).sum := by
  induction l with
  | nil => simp
  | cons a l ih =>
    simp only [List.map_cons, List.sum_cons, ih, List.sum_map_add]

theorem globalReconstruction_eq (length rank nC : ℕ) (centroids : List ℝ) (im : Bool)
    (wins : List (ℕ × WindowFit)) (s t : ℕ) :
    globalReconstruction length rank nC centroids im wins s t =
      (wins.map fun w => weight length w.1 t * ((List.range nC).map fun j =>
        windowBand (wins.map (·.2)) rank centroids im w.2 j s (t - w.1)).sum).sum /
      (wins.map fun w => weight length w.1 t).sum := by
  unfold globalReconstruction
  simp only [scaleReconstruction_eq, div_eq_mul_inv, List.sum_map_mul_right]
  rw [sum_comm_lists]
  simp only [List.sum_map_mul_left]

/-- **C46** (exactness). Suppose each window's fit reproduces the data in that window
(real part of all its modes plus its mean), every class is one of the bands, and some eigenvalue
is in the band with the smallest centroid. Then the global reconstruction is the data at every
time step covered by a window, and it is the sum of the low and high frequency component at every
time step. -/
theorem C46_exact_partial (length rank nC : ℕ) (centroids : List ℝ) (wins : List (ℕ × WindowFit))
    (data : ℕ → ℕ → ℝ)
    (hfit : ∀ w ∈ wins, ∀ s, ∀ i < length, windowValue w.2 rank s i = data s (w.1 + i))
    (hcl : ∀ w ∈ wins, ∀ l < rank, w.2.classes l < nC)
    (hmin : ∃ w ∈ wins, ∃ l < rank, w.2.classes l = argmin centroids) (s t : ℕ)
    (hc : ∃ w ∈ wins, w.1 ≤ t ∧ t < w.1 + length) :
    globalReconstruction length rank nC centroids true wins s t = data s t := by
  have hW := total_pos length t wins hc
  rw [globalReconstruction_eq, div_eq_iff hW.ne', ← List.sum_map_mul_left]
  congr 1
  refine List.map_congr_left fun w hw => ?_
  rw [sum_windowBand (wins.map (·.2)) rank nC centroids w.2 (List.mem_map.mpr ⟨w, hw, rfl⟩)]
  · unfold weight
    split_ifs with h
    · rw [hfit w hw s (t - w.1) (by omega), show w.1 + (t - w.1) = t by omega, mul_comm]
    · simp
  · intro g hg l hl
    obtain ⟨v, hv, rfl⟩ := List.mem_map.mp hg
    exact hcl v hv l hl
  · obtain ⟨v, hv, h⟩ := hmin
    exact ⟨v.2, List.mem_map.mpr ⟨v, hv, rfl⟩, h⟩

/-- **C46** (separation). The low and high frequency components add up to the global
reconstruction. -/
theorem C46_separation (length rank nC : ℕ) (hn : 1 ≤ nC) (centroids : List ℝ) (im : Bool)
    (wins : List (ℕ × WindowFit)) (s t : ℕ) :
    (scaleSeparation length rank nC centroids im wins).1 s t +
      (scaleSeparation length rank nC centroids im wins).2 s t =
      globalReconstruction length rank nC centroids im wins s t := by
  obtain ⟨k, rfl⟩ : ∃ k, nC = k + 1 := ⟨nC - 1, by omega⟩
  simp only [scaleSeparation, globalReconstruction, List.range_succ_eq_map, List.drop_succ_cons,
    List.drop_zero, List.map_cons, List.sum_cons]

/-- **C46** together with C45: with the windows chosen by `fit`, for `step ≤ window length`, the
global reconstruction is the data at *every* time step. -/
theorem C46_all_times_partial (n wl step : ℕ) (h1 : 1 ≤ wl) (h2 : wl ≤ n) (h3 : 1 ≤ step)
    (hs : step ≤ wl) (nSteps : ℤ) (hr : nSteps = n ∨ nSteps = n - 1) (fits : ℕ → WindowFit)
    (rank nC : ℕ) (centroids : List ℝ) (data : ℕ → ℕ → ℝ) :
    ∃ w, fitWindows n n wl step nSteps = .ok w ∧
      ((∀ k < w.nSlides.toNat, ∀ s, ∀ i < wl,
          windowValue (fits k) rank s i = data s ((w.indices k).1.toNat + i)) →
        (∀ k < w.nSlides.toNat, ∀ l < rank, (fits k).classes l < nC) →
        (∃ k < w.nSlides.toNat, ∃ l < rank, (fits k).classes l = argmin centroids) →
        ∀ s, ∀ t < n, globalReconstruction wl rank nC centroids true
          ((List.range w.nSlides.toNat).map fun k : ℕ => ((w.indices k).1.toNat, fits k)) s t =
            data s t) := by
  obtain ⟨w, hw, hpos, hin, -, hcov⟩ := C45_windows n wl step nSteps (by omega) (by omega)
    (by omega) hr
  refine ⟨w, hw, fun hfit hcl hmin s t ht => ?_⟩
  refine C46_exact_partial wl rank nC centroids _ data ?_ ?_ ?_ s t ?_
  · intro v hv s i hi
    obtain ⟨k, hk, rfl⟩ := List.mem_map.mp hv
    exact hfit k (List.mem_range.mp hk) s i hi
  · intro v hv l hl
    obtain ⟨k, hk, rfl⟩ := List.mem_map.mp hv
    exact hcl k (List.mem_range.mp hk) l hl
  · obtain ⟨k, hk, h⟩ := hmin
    exact ⟨_, List.mem_map.mpr ⟨k, List.mem_range.mpr hk, rfl⟩, h⟩
  · obtain ⟨k, hk0, hk, ha, hb⟩ := hcov (by omega) t (by omega) (by omega)
    obtain ⟨hge, -, hlen, -⟩ := hin k hk0 hk
    refine ⟨_, List.mem_map.mpr ⟨k.toNat, List.mem_range.mpr (by omega), rfl⟩, ?_⟩
    have e : ((k.toNat : ℕ) : ℤ) = k := Int.toNat_of_nonneg hk0
    simp only [e]
    omega

/-- **C46** is false when no eigenvalue is in the band with the smallest centroid: the window means
are then added to no band, so the global reconstruction of the constant 5 is 0. (One window of one
sample, one frequency in band 1 of two, amplitude 0.) -/
theorem C46_means_false :
    ∃ (f : WindowFit), (∀ s i, windowValue f 1 s i = 5) ∧ (∀ l, f.classes l < 2) ∧
      globalReconstruction 1 1 2 [0, 1] true [(0, f)] 0 0 = 0 := by
  refine ⟨⟨fun _ _ => 1, fun _ => 0, fun _ => Complex.I, fun _ => 1, fun _ => 5, fun _ => 0⟩,
    ?_, fun _ => by norm_num, ?_⟩
  · intro s i; simp [windowValue]
  · rw [globalReconstruction_eq]
    simp [windowBand, occurs, argmin, WindowFit.sumOver, List.range_succ]

/-- The hypotheses of C46 are met, non-trivially: two overlapping windows of two samples on three
samples, each with one real mode and a mean. -/
example : ∃ wins : List (ℕ × WindowFit), wins.length = 2 ∧
    (∀ w ∈ wins, ∀ s, ∀ i < 2, windowValue w.2 1 s i = (fun _ t => 5 + 2 ^ t : ℕ → ℕ → ℝ) s (w.1 + i)) ∧
    (∀ w ∈ wins, ∀ l < 1, w.2.classes l < 1) ∧
    (∃ w ∈ wins, ∃ l < 1, w.2.classes l = argmin [0]) ∧
    ∀ t < 3, ∃ w ∈ wins, w.1 ≤ t ∧ t < w.1 + 2 := by
  have hexp : ∀ i : ℕ, Complex.exp ((Real.log 2 : ℂ) * (i : ℝ)) = ((2 ^ i : ℝ) : ℂ) := by
    intro i
    rw [← Complex.ofReal_mul, ← Complex.ofReal_exp, mul_comm, Real.exp_nat_mul,
      Real.exp_log (by norm_num)]
  refine ⟨[(0, ⟨fun _ _ => 1, fun _ => 1, fun _ => Real.log 2, fun _ => 0, fun _ => 5,
    fun i => i⟩), (1, ⟨fun _ _ => 1, fun _ => 2, fun _ => Real.log 2, fun _ => 0, fun _ => 5,
    fun i => i⟩)], rfl, ?_, ?_, ?_, ?_⟩
  · intro w hw s i _
    simp only [List.mem_cons, List.not_mem_nil, or_false] at hw
    rcases hw with rfl | rfl
    · simp only [windowValue, Finset.sum_range_one, hexp]
      simp [add_comm, ← Complex.ofReal_ofNat, ← Complex.ofReal_pow]
    · simp only [windowValue, Finset.sum_range_one, hexp]
      rw [← Complex.ofReal_ofNat, one_mul, ← Complex.ofReal_mul, Complex.ofReal_re]
      ring
  · intro w hw l _
    simp only [List.mem_cons, List.not_mem_nil, or_false] at hw
    rcases hw with rfl | rfl <;> simp
  · exact ⟨_, List.mem_cons_self, 0, by norm_num, by simp [argmin]⟩
  · intro t ht
    by_cases h : t < 2
    · exact ⟨_, List.mem_cons_self, by simp, by simpa using h⟩
    · exact ⟨_, List.mem_cons_of_mem _ List.mem_cons_self, by simp; omega, by simp; omega⟩

/-! ## C47: relabelling -/

theorem foldl_set_length (l : List ℕ) (ps : List (ℕ × ℕ)) :
    (ps.foldl (fun l p => l.set p.1 p.2) l).length = l.length := by
  induction ps generalizing l with
  | nil => rfl
  | cons p ps ih => rw [List.foldl_cons, ih, List.length_set]

theorem foldl_set_get (ps : List (ℕ × ℕ)) :
    ∀ (l : List ℕ), (ps.map (·.1)).Nodup → ∀ p ∈ ps, p.1 < l.length →
      (ps.foldl (fun l p => l.set p.1 p.2) l)[p.1]? = some p.2 := by
  induction ps using List.reverseRecOn with
  | nil => intro l _ p hp; simp at hp
  | append_singleton ps q ih =>
    intro l hnd p hp hlt
    rw [List.foldl_append, List.foldl_cons, List.foldl_nil, List.getElem?_set]
    rw [List.map_append, List.nodup_append] at hnd
    rcases List.mem_append.mp hp with h | h
    · have hne : q.1 ≠ p.1 := by
        intro he
        exact hnd.2.2 p.1 (List.mem_map.mpr ⟨p, h, rfl⟩) q.1 (by simp) he.symm
      rw [if_neg hne]
      exact ih l hnd.1 p h hlt
    · obtain rfl : p = q := by simpa using h
      rw [if_pos rfl, if_pos (by rw [foldl_set_length]; exact hlt)]

/-- `lut[idx[i]] = i`. -/
theorem buildLut_get (idx : List ℕ) (n : ℕ) (hp : idx.Perm (List.range n)) (i c : ℕ)
    (h : idx[i]? = some c) : (buildLut idx)[c]? = some i := by
  have hl : idx.length = n := by rw [hp.length_eq, List.length_range]
  have hc : c < n := by
    have := hp.mem_iff.mp (List.mem_of_getElem? h)
    exact List.mem_range.mp this
  unfold buildLut
  refine foldl_set_get idx.zipIdx _ ?_ (c, i) ?_ ?_
  · rw [show idx.zipIdx.map (·.1) = idx from List.zipIdx_map_fst 0 idx]
    exact hp.nodup_iff.mpr List.nodup_range
  · exact List.mem_zipIdx_iff_getElem?.mpr h
  · simpa [hl] using hc

/-- **C47**. After clustering the centroids are the old ones in increasing order, so band 0 has the
smallest; every eigenvalue keeps the centroid of its cluster; and two eigenvalues share a band
exactly if they shared a cluster. For any ordering `idx` that `argsort` may return and any
labels. -/
theorem C47_relabel (centroids : List ℝ) (idx : List ℕ) (hidx : IsArgsort centroids idx)
    (classes : List ℕ) (hcl : ∀ c ∈ classes, c < centroids.length) :
    (relabel idx centroids classes).1.Perm centroids ∧
    (relabel idx centroids classes).1.Pairwise (· ≤ ·) ∧
    (∀ x, (relabel idx centroids classes).1.head? = some x → ∀ y ∈ centroids, x ≤ y) ∧
    (relabel idx centroids classes).2.length = classes.length ∧
    (∀ (e c : ℕ), classes[e]? = some c → ∃ b, (relabel idx centroids classes).2[e]? = some b ∧
      (relabel idx centroids classes).1[b]? = centroids[c]?) ∧
    (∀ (e e' c c' : ℕ), classes[e]? = some c → classes[e']? = some c' →
      ((relabel idx centroids classes).2[e]? = (relabel idx centroids classes).2[e']? ↔
        c = c')) := by
  obtain ⟨hp, hs⟩ := hidx
  have hperm : (relabel idx centroids classes).1.Perm centroids := by
    have h1 : (idx.map fun i => centroids.getD i 0).Perm
        ((List.range centroids.length).map fun i => centroids.getD i 0) := hp.map _
    have h2 : (List.range centroids.length).map (fun i => centroids.getD i 0) = centroids := by
      apply List.ext_getElem?
      intro i
      by_cases hi : i < centroids.length
      · simp [hi]
      · rw [List.getElem?_eq_none (by simpa using hi), List.getElem?_eq_none (by simpa using hi)]
    rw [h2] at h1
    exact h1
  have key : ∀ c < centroids.length, ∃ b, idx[b]? = some c ∧ (buildLut idx).getD c 0 = b := by
    intro c hc
    obtain ⟨b, hb⟩ := List.mem_iff_getElem?.mp (hp.mem_iff.mpr (List.mem_range.mpr hc))
    exact ⟨b, hb, by rw [List.getD, buildLut_get idx _ hp b c hb]; rfl⟩
  refine ⟨hperm, hs, ?_, by simp [relabel], ?_, ?_⟩
  · intro x hx y hy
    obtain ⟨l, hl⟩ : ∃ l, (relabel idx centroids classes).1 = x :: l := by
      cases hc : (relabel idx centroids classes).1 with
      | nil => rw [hc] at hx; simp at hx
      | cons a l => rw [hc] at hx; simp at hx; exact ⟨l, by rw [hx]⟩
    have hs' : (relabel idx centroids classes).1.Pairwise (· ≤ ·) := hs
    have hy' := hperm.mem_iff.mpr hy
    rw [hl] at hs' hy'
    rcases List.mem_cons.mp hy' with rfl | h
    · exact le_rfl
    · exact (List.pairwise_cons.mp hs').1 y h
  · intro e c he
    obtain ⟨b, hb, hlut⟩ := key c (hcl c (List.mem_of_getElem? he))
    refine ⟨b, by rw [← hlut]; simp [relabel, he], ?_⟩
    have hc := hcl c (List.mem_of_getElem? he)
    simp [relabel, hb, hc]
  · intro e e' c c' he he'
    obtain ⟨b, hb, hlut⟩ := key c (hcl c (List.mem_of_getElem? he))
    obtain ⟨b', hb', hlut'⟩ := key c' (hcl c' (List.mem_of_getElem? he'))
    have e1 : (relabel idx centroids classes).2[e]? = some b := by rw [← hlut]; simp [relabel, he]
    have e2 : (relabel idx centroids classes).2[e']? = some b' := by rw [← hlut']; simp [relabel, he']
    rw [e1, e2, Option.some.injEq]
    constructor
    · rintro rfl
      rw [hb] at hb'
      exact Option.some.inj hb'
    · rintro rfl
      exact (List.getElem?_inj (List.getElem?_eq_some_iff.mp hb).1
        (hp.nodup_iff.mpr List.nodup_range)).mp (by rw [hb, hb'])

/-- Three clusters with centroids 3, 1, 2. -/
example : IsArgsort [3, 1, 2] [1, 2, 0] ∧
    relabel [1, 2, 0] [3, 1, 2] [0, 1, 2, 0] = ([1, 2, 3], [2, 0, 1, 2]) := by
  constructor
  · refine ⟨by decide, ?_⟩
    simp
    norm_num
  · simp [relabel, buildLut, List.zipIdx]

/-! ## C65: the bands are ordered by frequency -/

/-- What is assumed of a clustering method such as k-means: every value has a label, and its
centroid is one of the nearest. -/
def NearestLabels (xs centroids : List ℝ) (classes : List ℕ) : Prop :=
  classes.length = xs.length ∧
  ∀ (e c : ℕ) (x : ℝ), classes[e]? = some c → xs[e]? = some x →
    ∃ y, centroids[c]? = some y ∧ ∀ z ∈ centroids, |x - y| ≤ |x - z|

/-- A transformation under which the smaller value belongs to the smaller frequency. -/
theorem transform_reflects (m : Transform)
    (hm : m = .absolute ∨ m = .squareFrequencies ∨ m = .log10) (w w' x x' : ℝ)
    (hw : w ≠ 0) (hw' : w' ≠ 0)
    (hx : transformOmega m w = .ok x) (hx' : transformOmega m w' = .ok x') (h : x ≤ x') :
    |w| ≤ |w'| := by
  rcases hm with rfl | rfl | rfl
  · simp only [transformOmega, Except.ok.injEq] at hx hx'
    rwa [hx, hx']
  · simp only [transformOmega, Except.ok.injEq] at hx hx'
    subst hx hx'
    exact sq_le_sq.mp h
  · simp only [transformOmega, Except.ok.injEq] at hx hx'
    subst hx hx'
    have h10 : 0 < Real.log 10 := Real.log_pos (by norm_num)
    have := (div_le_div_iff_of_pos_right h10).mp h
    exact (Real.log_le_log_iff (abs_pos.mpr hw) (abs_pos.mpr hw')).mp this

/-- Values in a lower band are not larger. -/
theorem bands_ordered (xs centroids : List ℝ) (hnd : centroids.Nodup) (idx : List ℕ)
    (hidx : IsArgsort centroids idx) (classes : List ℕ)
    (hnear : NearestLabels xs centroids classes) (e e' b b' : ℕ) (x x' : ℝ)
    (hx : xs[e]? = some x) (hx' : xs[e']? = some x')
    (hb : (relabel idx centroids classes).2[e]? = some b)
    (hb' : (relabel idx centroids classes).2[e']? = some b') (hlt : b < b') : x ≤ x' := by
  obtain ⟨hlen, hnear⟩ := hnear
  have hcl : ∀ c ∈ classes, c < centroids.length := by
    intro c hc
    obtain ⟨k, hk⟩ := List.mem_iff_getElem?.mp hc
    have hk' : k < xs.length := hlen ▸ (List.getElem?_eq_some_iff.mp hk).1
    obtain ⟨y, hy, -⟩ := hnear k c xs[k] hk (List.getElem?_eq_getElem hk')
    exact (List.getElem?_eq_some_iff.mp hy).1
  obtain ⟨hperm, hs, -, hl, hkeep, -⟩ := C47_relabel centroids idx hidx classes hcl
  have hget : ∀ k d : ℕ, (relabel idx centroids classes).2[k]? = some d → ∃ c, classes[k]? = some c := by
    intro k d hk
    have := (List.getElem?_eq_some_iff.mp hk).1
    exact ⟨_, List.getElem?_eq_getElem (hl ▸ this)⟩
  obtain ⟨c, hc⟩ := hget e b hb
  obtain ⟨c', hc'⟩ := hget e' b' hb'
  obtain ⟨d, hd, hdc⟩ := hkeep e c hc
  obtain ⟨d', hd', hdc'⟩ := hkeep e' c' hc'
  rw [hb, Option.some.injEq] at hd
  rw [hb', Option.some.injEq] at hd'
  subst hd hd'
  obtain ⟨y, hy, hn⟩ := hnear e c x hc hx
  obtain ⟨y', hy', hn'⟩ := hnear e' c' x' hc' hx'
  rw [hy] at hdc
  rw [hy'] at hdc'
  obtain ⟨hb1, hb2⟩ := List.getElem?_eq_some_iff.mp hdc
  obtain ⟨hb1', hb2'⟩ := List.getElem?_eq_some_iff.mp hdc'
  have hle : y ≤ y' := by
    rw [← hb2, ← hb2']
    exact List.pairwise_iff_getElem.mp hs b b' hb1 hb1' hlt
  have hne : y ≠ y' := by
    intro h
    have := (hperm.nodup_iff.mpr hnd).getElem_inj_iff.mp (hb2.trans (h.trans hb2'.symm))
    omega
  have h1 := hn y' (List.mem_of_getElem? hy')
  have h2 := hn' y (List.mem_of_getElem? hy)
  have hyy : y < y' := lt_of_le_of_ne hle hne
  have a1 : x ≤ (y + y') / 2 := by
    have := sq_le_sq.mpr h1
    nlinarith
  have a2 : (y + y') / 2 ≤ x' := by
    have := sq_le_sq.mpr h2
    nlinarith
  linarith

theorem transformAll_get (m : Transform) :
    ∀ (ws xs : List ℝ), transformAll m ws = .ok xs → ∀ (e : ℕ) (x : ℝ), ws[e]? = some x →
      ∃ y, xs[e]? = some y ∧ transformOmega m x = .ok y := by
  intro ws
  induction ws with
  | nil => intro xs _ e x h; simp at h
  | cons w ws ih =>
    intro xs h e x he
    simp only [transformAll, List.mapM_cons] at h
    cases hw : transformOmega m w with
    | error er => rw [hw] at h; simp [bind, Except.bind] at h
    | ok y =>
      cases hr : ws.mapM (transformOmega m) with
      | error er => rw [hw, hr] at h; simp [bind, Except.bind] at h
      | ok ys =>
        rw [hw, hr] at h
        simp only [bind, Except.bind, pure, Except.pure, Except.ok.injEq] at h
        subst h
        cases e with
        | zero =>
          simp only [List.getElem?_cons_zero, Option.some.injEq] at he
          subst he
          exact ⟨y, by simp, hw⟩
        | succ e =>
          simp only [List.getElem?_cons_succ] at he ⊢
          exact ih ys hr e x he

/-- **C65**. With the transformations `absolute`, `square_frequencies` and `log10`, a clustering
that gives every eigenvalue one of its nearest centroids, and distinct centroids, an eigenvalue in
a lower band never has a higher frequency than one in a higher band. Non-zero frequencies (so
that no value of `log10` is imputed); exact arithmetic. -/
theorem C65_ordered_partial (m : Transform)
    (hm : m = .absolute ∨ m = .squareFrequencies ∨ m = .log10) (ws xs : List ℝ)
    (hw0 : ∀ w ∈ ws, w ≠ 0) (hxs : transformAll m ws = .ok xs)
    (centroids : List ℝ) (hnd : centroids.Nodup) (idx : List ℕ) (hidx : IsArgsort centroids idx)
    (classes : List ℕ) (hnear : NearestLabels xs centroids classes)
    (e e' b b' : ℕ) (w w' : ℝ) (hw : ws[e]? = some w) (hw' : ws[e']? = some w')
    (hb : (relabel idx centroids classes).2[e]? = some b)
    (hb' : (relabel idx centroids classes).2[e']? = some b') (hlt : b < b') : |w| ≤ |w'| := by
  obtain ⟨x, hx, htx⟩ := transformAll_get m ws xs hxs e w hw
  obtain ⟨x', hx', htx'⟩ := transformAll_get m ws xs hxs e' w' hw'
  exact transform_reflects m hm w w' x x' (hw0 w (List.mem_of_getElem? hw))
    (hw0 w' (List.mem_of_getElem? hw')) htx htx'
    (bands_ordered xs centroids hnd idx hidx classes hnear e e' b b' x x' hx hx' hb hb' hlt)

/-- **C65** is false for `period`, also documented: the order is reversed, for every clustering of
non-zero frequencies. Band 0, which `scale_separation` returns as the low-frequency component (and
to which the means are added), holds the highest frequencies. -/
theorem C65_period_reversed (ws xs : List ℝ)
    (hw0 : ∀ w ∈ ws, w ≠ 0) (hxs : transformAll .period ws = .ok xs)
    (centroids : List ℝ) (hnd : centroids.Nodup) (idx : List ℕ) (hidx : IsArgsort centroids idx)
    (classes : List ℕ) (hnear : NearestLabels xs centroids classes)
    (e e' b b' : ℕ) (w w' : ℝ) (hw : ws[e]? = some w) (hw' : ws[e']? = some w')
    (hb : (relabel idx centroids classes).2[e]? = some b)
    (hb' : (relabel idx centroids classes).2[e']? = some b') (hlt : b < b') : |w'| ≤ |w| := by
  obtain ⟨x, hx, htx⟩ := transformAll_get _ ws xs hxs e w hw
  obtain ⟨x', hx', htx'⟩ := transformAll_get _ ws xs hxs e' w' hw'
  have h := bands_ordered xs centroids hnd idx hidx classes hnear e e' b b' x x' hx hx' hb hb' hlt
  simp only [transformOmega, Except.ok.injEq] at htx htx'
  subst htx htx'
  exact (one_div_le_one_div (abs_pos.mpr (hw0 w (List.mem_of_getElem? hw)))
    (abs_pos.mpr (hw0 w' (List.mem_of_getElem? hw')))).mp h

/-- Frequencies 1 and 2 in clusters of their own. -/
example : transformAll .absolute [2, 1] = .ok [2, 1] ∧ IsArgsort [2, 1] [1, 0] ∧
    NearestLabels [2, 1] [2, 1] [0, 1] ∧
    (relabel [1, 0] [2, 1] [0, 1]).2 = [1, 0] := by
  refine ⟨?_, ⟨by decide, by simp⟩, ⟨rfl, ?_⟩, by simp [relabel, buildLut, List.zipIdx]⟩
  · simp [transformAll, transformOmega, bind, Except.bind, pure, Except.pure]
  · intro e c x he hx
    match e, he, hx with
    | 0, he, hx =>
      simp only [List.getElem?_cons_zero, Option.some.injEq] at he hx
      subst he hx
      exact ⟨2, rfl, by simp⟩
    | 1, he, hx =>
      simp only [List.getElem?_cons_succ, List.getElem?_cons_zero, Option.some.injEq] at he hx
      subst he hx
      exact ⟨1, rfl, by simp⟩
    | e + 2, he, hx => simp at he

theorem period_example : transformAll .period [1, 2] = .ok [1, 1 / 2] ∧
    IsArgsort [1, 1 / 2] [1, 0] ∧ NearestLabels [1, 1 / 2] [1, 1 / 2] [0, 1] ∧
    (relabel [1, 0] [1, 1 / 2] [0, 1]).2 = [1, 0] := by
  refine ⟨?_, ⟨by decide, ?_⟩, ⟨rfl, ?_⟩, by simp [relabel, buildLut, List.zipIdx]⟩
  · simp [transformAll, transformOmega, bind, Except.bind, pure, Except.pure]
  · simp; norm_num
  · intro e c x he hx
    match e, he, hx with
    | 0, he, hx =>
      simp only [List.getElem?_cons_zero, Option.some.injEq] at he hx
      subst he hx
      exact ⟨1, rfl, by simp⟩
    | 1, he, hx =>
      simp only [List.getElem?_cons_succ, List.getElem?_cons_zero, Option.some.injEq] at he hx
      subst he hx
      exact ⟨1 / 2, rfl, by simp⟩
    | e + 2, he, hx => simp at he

/-- **C65** is false for `period`, concretely: frequencies 1 and 2 in clusters of their own; the
frequency 2 gets band 0 and the frequency 1 gets band 1. -/
theorem C65_period_false : ∃ (ws xs centroids : List ℝ) (idx classes : List ℕ),
    transformAll .period ws = .ok xs ∧ IsArgsort centroids idx ∧
    NearestLabels xs centroids classes ∧ centroids.Nodup ∧
    ws = [1, 2] ∧ (relabel idx centroids classes).2 = [1, 0] :=
  ⟨[1, 2], [1, 1 / 2], [1, 1 / 2], [1, 0], [0, 1], period_example.1, period_example.2.1,
    period_example.2.2.1, by norm_num, rfl, period_example.2.2.2⟩

/-- **C65**: the default `transform_method=None` is not `"absolute"`: any clustering of a
non-empty array of frequencies with the default arguments raises `ValueError`. -/
theorem C65_default_false (ws : List ℝ) (h : ws ≠ []) :
    transformAll defaultTransform ws = .error .valueError ∧
      ∃ xs, transformAll .absolute ws = .ok xs := by
  constructor
  · obtain ⟨w, l, rfl⟩ := List.exists_cons_of_ne_nil h
    simp [transformAll, defaultTransform, transformOmega, bind, Except.bind]
  · refine ⟨ws.map abs, ?_⟩
    clear h
    induction ws with
    | nil => rfl
    | cons w ws ih =>
      unfold transformAll at ih ⊢
      rw [List.mapM_cons, ih]
      rfl

end Verif.Costs
