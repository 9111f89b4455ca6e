import Verif.Model.CostsPlot
import Verif.Model.Costs

/-!
# Property C132: the plots of COSTS show the decomposition of the data
-/

set_option autoImplicit false

namespace Verif.CostsPlot

open Verif

theorem total_eq (n : ℕ) (hn : 1 ≤ n) (sep : ℕ → Arr) (s t : ℕ) :
    total n sep s t = sep 0 s t + high n sep s t := by
  unfold total high
  rw [Finset.range_eq_Ico, Finset.sum_eq_sum_Ico_succ_bot (by omega)]

theorem max_of_ne (l : List ℝ) (h : l ≠ []) : ∃ x, l.max? = some x ∧ x ∈ l ∧ ∀ y ∈ l, y ≤ x := by
  cases hx : l.max? with
  | none => exact absurd (List.max?_eq_none_iff.mp hx) h
  | some x =>
    have := (List.max?_eq_some_iff).mp hx
    exact ⟨x, rfl, this.1, this.2⟩

theorem absMax_some (p m : ℕ) (hp : 1 ≤ p) (hm : 1 ≤ m) (a : Arr) :
    ∃ x, absMax p m a = some x ∧ 0 ≤ x ∧ ∀ s < p, ∀ t < m, |a s t| ≤ x := by
  obtain ⟨x, hx, hmem, hle⟩ := max_of_ne ((List.range p).flatMap fun s => (List.range m).map fun t => |a s t|) (by
    intro h
    have : |a 0 0| ∈ (List.range p).flatMap fun s => (List.range m).map fun t => |a s t| :=
      List.mem_flatMap.mpr ⟨0, by simp; omega, List.mem_map.mpr ⟨0, by simp; omega, rfl⟩⟩
    rw [h] at this
    simp at this)
  refine ⟨x, hx, ?_, ?_⟩
  · obtain ⟨s, -, h2⟩ := List.mem_flatMap.mp hmem
    obtain ⟨t, -, rfl⟩ := List.mem_map.mp h2
    exact abs_nonneg _
  · intro s hs t ht
    exact hle _ (List.mem_flatMap.mpr ⟨s, by simpa using hs, List.mem_map.mpr ⟨t, by simpa using ht, rfl⟩⟩)

/-- **C132** (scale separation): for data with at least one place and time, without keyword arguments: the panels
are the data, the low frequencies, the high frequencies and, if asked for, a residual, which add up to the
data; the first and second share a colour scale, which contains all data, and so do the third and fourth, which
contains all high frequencies. -/
theorem C132_separation (p m n : ℕ) (hp : 1 ≤ p) (hm : 1 ≤ m) (data : Arr) (sep : ℕ → Arr) (residual : Bool) :
    ∃ (x y : ℝ) (ps : List Panel), scaleSeparation p m n data sep residual none none = .ok (ps, none, none) ∧
      (∀ s < p, ∀ t < m, |data s t| ≤ x) ∧
      (∀ s < p, ∀ t < m, |∑ j ∈ Finset.Ico 1 n, sep j s t| ≤ y) ∧
      ps[0]? = some ⟨data, ⟨some (-x), some x⟩⟩ ∧
      ps[1]? = some ⟨sep 0, ⟨some (-x), some x⟩⟩ ∧
      ps[2]? = some ⟨fun s t => ∑ j ∈ Finset.Ico 1 n, sep j s t, ⟨some (-y), some y⟩⟩ ∧
      (residual = false → ps.length = 3) ∧
      (residual = true → ps.length = 4 ∧ ∃ r : Arr, ps[3]? = some ⟨r, ⟨some (-y), some y⟩⟩ ∧
        ∀ s t, sep 0 s t + ∑ j ∈ Finset.Ico 1 n, sep j s t + r s t = data s t) := by
  obtain ⟨x, hx, -, hxd⟩ := absMax_some p m hp hm data
  obtain ⟨y, hy, -, hyd⟩ := absMax_some p m hp hm (high n sep)
  refine ⟨x, y, [⟨data, ⟨some (-x), some x⟩⟩, ⟨sep 0, ⟨some (-x), some x⟩⟩, ⟨high n sep, ⟨some (-y), some y⟩⟩] ++
    (if residual then [⟨fun s t => data s t - high n sep s t - sep 0 s t, ⟨some (-y), some y⟩⟩] else []),
    ?_, hxd, hyd, ?_⟩
  · simp only [scaleSeparation, bind, Except.bind, hx, hy, Kw.fill, Option.getD_none, Option.map_none]
  · cases residual
    · exact ⟨rfl, rfl, rfl, fun _ => rfl, by simp⟩
    · refine ⟨rfl, rfl, rfl, by simp, fun _ => ⟨rfl, _, rfl, ?_⟩⟩
      intro s t
      unfold high
      ring

/-- **C132** (bands), in part: with at least two bands, `plot_reconstructions` shows the data, every band once, in
their order, and if asked for a residual, which together with the bands adds up to the data. Missing: a single
band (`C132_single_false`). -/
theorem C132_bands_partial (p m n : ℕ) (hp : 1 ≤ p) (hm : 1 ≤ m) (hn : 2 ≤ n) (data : Arr) (sep : ℕ → Arr)
    (residual : Bool) :
    ∃ (ps : List Panel), reconstructions p m n data sep residual none none = .ok (ps, none, none) ∧
      ps.length = n + 1 + (if residual then 1 else 0) ∧
      (ps[0]?.map (·.arr)) = some data ∧ (∀ j < n, ps[j + 1]?.map (·.arr) = some (sep j)) ∧
      (residual = true → ∃ r : Arr, ps[n + 1]?.map (·.arr) = some r ∧
        ∀ s t, (∑ j ∈ Finset.range n, sep j s t) + r s t = data s t) := by
  obtain ⟨x, hx, -, -⟩ := absMax_some p m hp hm data
  obtain ⟨y, hy, -⟩ := max_of_ne (((List.range n).drop 1).flatMap fun j =>
    (List.range p).flatMap fun s => (List.range m).map fun t => |sep j s t|) (by
      intro h
      have : |sep 1 0 0| ∈ ((List.range n).drop 1).flatMap fun j =>
          (List.range p).flatMap fun s => (List.range m).map fun t => |sep j s t| := by
        refine List.mem_flatMap.mpr ⟨1, ?_, List.mem_flatMap.mpr ⟨0, by simp; omega,
          List.mem_map.mpr ⟨0, by simp; omega, rfl⟩⟩⟩
        rw [List.mem_iff_getElem?]
        exact ⟨0, by rw [List.getElem?_drop, List.getElem?_range (by omega)]⟩
      rw [h] at this
      simp at this)
  have hy' : absMaxBands p m n sep = some y := hy
  refine ⟨⟨data, ⟨some (-x), some x⟩⟩ ::
      ((List.range n).map fun j => ⟨sep j, if j = 0 then ⟨some (-x), some x⟩ else ⟨some (-y), some y⟩⟩) ++
      (if residual then [⟨fun s t => data s t - total n sep s t, ⟨some (-y), some y⟩⟩] else []), ?_, ?_, ?_, ?_, ?_⟩
  · simp only [reconstructions, bind, Except.bind, hx, hy', Kw.fill, Option.getD_none, Option.map_none]
  · cases residual <;> simp
  · simp
  · intro j hj
    simp only [List.cons_append, List.getElem?_cons_succ]
    rw [List.getElem?_append_left (by simpa using hj), List.getElem?_map, List.getElem?_range hj]
    simp
  · rintro rfl
    refine ⟨fun s t => data s t - total n sep s t, ?_, ?_⟩
    · simp only [List.cons_append, List.getElem?_cons_succ]
      rw [List.getElem?_append_right (by simp)]
      simp
    · intro s t
      unfold total
      ring

/-- **C132** is false for a single band: `plot_reconstructions` raises `ValueError`, also if the colour scale is
given; `plot_scale_separation` works. -/
theorem C132_single_false (p m : ℕ) (hp : 1 ≤ p) (hm : 1 ≤ m) (data : Arr) (sep : ℕ → Arr) (residual : Bool)
    (kw hf : Option Kw) :
    reconstructions p m 1 data sep residual kw hf = .error .valueError ∧
      ∃ r, scaleSeparation p m 1 data sep residual kw hf = .ok r := by
  obtain ⟨x, hx, -, -⟩ := absMax_some p m hp hm data
  obtain ⟨y, hy, -, -⟩ := absMax_some p m hp hm (high 1 sep)
  have h0 : absMaxBands p m 1 sep = none := by simp [absMaxBands]
  constructor
  · simp only [reconstructions, bind, Except.bind, hx, Kw.fill, h0]
  · exact ⟨_, by simp only [scaleSeparation, bind, Except.bind, hx, hy, Kw.fill]; rfl⟩

/-- **C132** is false for dictionaries used again: one passed as `plot_kwargs` is filled with the colour scale of
the first data, and the next plot with it uses this scale whatever its own data are; the first panel then
has entries outside of its colour scale. -/
theorem C132_kwargs_false (p m n : ℕ) (hp : 1 ≤ p) (hm : 1 ≤ m) (data data' : Arr) (sep sep' : ℕ → Arr)
    (residual : Bool) :
    ∃ (x : ℝ) (ps ps' : List Panel) (k : Kw),
      scaleSeparation p m n data sep residual (some ⟨none, none⟩) none = .ok (ps, some k, none) ∧
      absMax p m data = some x ∧ k = ⟨some (-x), some x⟩ ∧
      scaleSeparation p m n data' sep' residual (some k) none = .ok (ps', some k, none) ∧
      ps'[0]? = some ⟨data', ⟨some (-x), some x⟩⟩ := by
  obtain ⟨x, hx, -, -⟩ := absMax_some p m hp hm data
  obtain ⟨x', hx', -, -⟩ := absMax_some p m hp hm data'
  obtain ⟨y, hy, -, -⟩ := absMax_some p m hp hm (high n sep)
  obtain ⟨y', hy', -, -⟩ := absMax_some p m hp hm (high n sep')
  refine ⟨x, [⟨data, ⟨some (-x), some x⟩⟩, ⟨sep 0, ⟨some (-x), some x⟩⟩, ⟨high n sep, ⟨some (-y), some y⟩⟩] ++
    (if residual then [⟨fun s t => data s t - high n sep s t - sep 0 s t, ⟨some (-y), some y⟩⟩] else []),
    [⟨data', ⟨some (-x), some x⟩⟩, ⟨sep' 0, ⟨some (-x), some x⟩⟩, ⟨high n sep', ⟨some (-y'), some y'⟩⟩] ++
    (if residual then [⟨fun s t => data' s t - high n sep' s t - sep' 0 s t, ⟨some (-y'), some y'⟩⟩] else []),
    ⟨some (-x), some x⟩, ?_, hx, rfl, ?_, ?_⟩
  · simp only [scaleSeparation, bind, Except.bind, hx, hy, Kw.fill, Option.getD_none, Option.getD_some,
      Option.map_none, Option.map_some]
  · simp only [scaleSeparation, bind, Except.bind, hx', hy', Kw.fill, Option.getD_none, Option.getD_some,
      Option.map_none, Option.map_some]
  · rfl

/-- The witness: data of size 1, then of size 5. -/
example : absMax 1 1 (fun _ _ => 1) = some 1 ∧ ¬ (∀ s < 1, ∀ t < 1, |(fun _ _ => 5 : Arr) s t| ≤ 1) := by
  constructor
  · simp [absMax]
  · push Not
    exact ⟨0, by norm_num, 0, by norm_num, by norm_num⟩

/-- **C132** (time series), in part: at a place, the first panel shows the data and their reconstruction, both without
the mean of the data; the second what the high frequencies leave of the data, and the lowest band; then come the
other bands, one panel each; the last shows the data and the two parts of the reconstruction, which add up to the
red curve of the first panel. Missing: the curve called residual (`C132_residual_false`). -/
theorem C132_time_series_partial (m n : ℕ) (hn : 1 ≤ n) (data : Arr) (sep : ℕ → Arr) (s : ℕ) (residual : Bool) :
    ∃ (mean : ℝ) (truth red rest low hi : ℕ → ℝ) (res : List (ℕ → ℝ)),
      mean = (∑ t ∈ Finset.range m, data s t) / m ∧
      (timeSeries m n data sep s residual).length = n + 2 ∧
      (timeSeries m n data sep s residual)[0]? = some [truth, red] ∧
      (timeSeries m n data sep s residual)[1]? = some [rest, low] ∧
      (∀ j, 1 ≤ j → j < n → (timeSeries m n data sep s residual)[j + 1]? = some [sep j s]) ∧
      (timeSeries m n data sep s residual)[n + 1]? = some ([truth, hi, low] ++ res) ∧
      (residual = false → res = []) ∧
      ∀ t, truth t = data s t - mean ∧ red t = (∑ j ∈ Finset.range n, sep j s t) - mean ∧
        hi t + low t = red t ∧ rest t - low t = data s t - ∑ j ∈ Finset.range n, sep j s t ∧
        low t = sep 0 s t - mean := by
  have hlen : ((List.range n).drop 1).length = n - 1 := by simp
  refine ⟨(∑ t ∈ Finset.range m, data s t) / m, fun t => data s t - (∑ t ∈ Finset.range m, data s t) / m,
    fun t => total n sep s t - (∑ t ∈ Finset.range m, data s t) / m,
    fun t => data s t - (∑ t ∈ Finset.range m, data s t) / m - high n sep s t,
    fun t => sep 0 s t - (∑ t ∈ Finset.range m, data s t) / m, high n sep s,
    if residual then [fun t => data s t - (∑ t ∈ Finset.range m, data s t) / m - total n sep s t] else [], rfl,
    ?_, rfl, ?_, ?_, ?_, ?_, ?_⟩
  · simp only [timeSeries, List.length_append, List.length_map, hlen, List.length_cons, List.length_nil]
    omega
  · simp only [timeSeries, if_pos (show 0 < n from hn)]
    rfl
  · intro j h1 h2
    simp only [timeSeries]
    rw [List.getElem?_append_left (by
        simp only [List.length_append, List.length_map, hlen, List.length_cons, List.length_nil]; omega),
      List.getElem?_append_right (by simp only [List.length_cons, List.length_nil]; omega), List.getElem?_map,
      List.getElem?_drop, List.getElem?_range (by simp only [List.length_cons, List.length_nil]; omega)]
    simp only [List.length_cons, List.length_nil, Option.map_some]
    rw [show 1 + (j + 1 - (0 + 1 + 1)) = j by omega]
  · simp only [timeSeries]
    rw [List.getElem?_append_right (by
        simp only [List.length_append, List.length_map, hlen, List.length_cons, List.length_nil]; omega)]
    simp only [List.length_append, List.length_map, hlen, List.length_cons, List.length_nil]
    rw [show n + 1 - (0 + 1 + 1 + (n - 1)) = 0 by omega]
    rfl
  · rintro rfl
    rfl
  · intro t
    have := total_eq n hn sep s t
    refine ⟨rfl, rfl, ?_, ?_, rfl⟩
    · simp only [this]; ring
    · simp only
      rw [show (∑ j ∈ Finset.range n, sep j s t) = total n sep s t from rfl, this]
      ring

/-- **C132** is false for the residual of `plot_time_series`: it is too small by the mean of the data. A perfect
reconstruction of data with mean 1 has the residual -1. -/
theorem C132_residual_false (m n : ℕ) (hn : 1 ≤ n) (data : Arr) (sep : ℕ → Arr) (s : ℕ) :
    (∃ (r : ℕ → ℝ), ((timeSeries m n data sep s true)[n + 1]?.bind (·[3]?)) = some r ∧
      ∀ t, r t = data s t - (∑ j ∈ Finset.range n, sep j s t) - (∑ t ∈ Finset.range m, data s t) / m) ∧
    ∃ (d : Arr) (z : ℕ → Arr), (∀ t, d 0 t = ∑ j ∈ Finset.range 1, z j 0 t) ∧
      ((timeSeries 2 1 d z 0 true)[2]?.bind (·[3]?)).map (fun r => r 0) = some (-1 : ℝ) := by
  constructor
  · have hlen : ((List.range n).drop 1).length = n - 1 := by simp
    refine ⟨fun t => data s t - (∑ t ∈ Finset.range m, data s t) / m - total n sep s t, ?_, ?_⟩
    · simp only [timeSeries]
      rw [List.getElem?_append_right (by
          simp only [List.length_append, List.length_map, hlen, List.length_cons, List.length_nil]; omega)]
      simp only [List.length_append, List.length_map, hlen, List.length_cons, List.length_nil]
      rw [show n + 1 - (0 + 1 + 1 + (n - 1)) = 0 by omega]
      rfl
    · intro t
      unfold total
      ring
  · refine ⟨fun _ _ => 1, fun _ _ _ => 1, by simp, ?_⟩
    simp [timeSeries, total]

/-- **C132** (eigenvalues over time): if all bands are below the number of bands, every eigenvalue of every window
is drawn in the colour of exactly one band, its own. -/
theorem C132_points (slides alloc n : ℕ) (classes : ℕ → ℕ → ℕ) (h : ∀ k < slides, ∀ i < alloc, classes k i < n)
    (k i : ℕ) :
    (k < slides ∧ i < alloc ↔ ∃ c < n, (k, i) ∈ points slides alloc classes c) ∧
    (∀ c, (k, i) ∈ points slides alloc classes c → classes k i = c) ∧
    ∀ c, (points slides alloc classes c).Nodup := by
  have hmem : ∀ c, (k, i) ∈ points slides alloc classes c ↔ (k < slides ∧ i < alloc) ∧ classes k i = c := by
    intro c
    simp only [points, List.mem_filter, List.mem_flatMap, List.mem_map, List.mem_range, Prod.mk.injEq,
      decide_eq_true_eq]
    constructor
    · rintro ⟨⟨a, ha, b, hb, rfl, rfl⟩, hc⟩
      exact ⟨⟨ha, hb⟩, hc⟩
    · rintro ⟨⟨ha, hb⟩, hc⟩
      exact ⟨⟨k, ha, i, hb, rfl, rfl⟩, hc⟩
  refine ⟨?_, fun c hc => ((hmem c).mp hc).2, ?_⟩
  · constructor
    · intro hk
      exact ⟨classes k i, h k hk.1 i hk.2, (hmem _).mpr ⟨hk, rfl⟩⟩
    · rintro ⟨c, -, hc⟩
      exact ((hmem c).mp hc).1
  · intro c
    refine List.Nodup.filter _ ?_
    rw [List.nodup_flatMap]
    refine ⟨fun k _ => List.nodup_range.map fun a b hab => by simpa using hab, ?_⟩
    refine List.nodup_range.imp ?_
    intro a b hab
    simp only [Function.onFun, List.disjoint_left, List.mem_map]
    rintro _ ⟨x, -, rfl⟩ ⟨y, -, hy⟩
    simp only [Prod.mk.injEq] at hy
    exact hab hy.1.symm

/-- **C132** (titles), in part: for frequencies clustered by their modulus, the title of a band with the single
frequency `w` names its period. Missing: the other transformations (`C132_title_false`). -/
theorem C132_title_partial (w : ℝ) (hw : w ≠ 0) (cs : List ℝ) (j : ℕ) (c : ℝ)
    (hc : Costs.transformOmega .absolute w = .ok c) (hj : cs[j]? = some c) :
    titlePeriod cs j = 2 * Real.pi / |w| ∧ ∀ t : ℝ, Complex.exp (w * (t + titlePeriod cs j) * Complex.I) =
      Complex.exp (w * t * Complex.I) := by
  have h1 : titlePeriod cs j = 2 * Real.pi / |w| := by
    simp only [Costs.transformOmega, Except.ok.injEq] at hc
    simp [titlePeriod, hj, hc]
  refine ⟨h1, fun t => ?_⟩
  rw [h1]
  have hw' : (w : ℂ) ≠ 0 := by exact_mod_cast hw
  rcases abs_cases w with ⟨h, -⟩ | ⟨h, -⟩
  · rw [h, show (w : ℂ) * (t + ((2 * Real.pi / w : ℝ) : ℂ)) * Complex.I =
      w * t * Complex.I + 2 * Real.pi * Complex.I by push_cast; field_simp]
    rw [Complex.exp_add, Complex.exp_two_pi_mul_I, mul_one]
  · rw [h, show (w : ℂ) * (t + ((2 * Real.pi / -w : ℝ) : ℂ)) * Complex.I =
      w * t * Complex.I - 2 * Real.pi * Complex.I by push_cast; field_simp; ring]
    rw [Complex.exp_sub, Complex.exp_two_pi_mul_I, div_one]

/-- **C132** is false for the titles with other transformations: with squared frequencies or periods, the title of
a band with the frequency 2, whose period is `π`, says `π / 2` and `4 π`. -/
theorem C132_title_false :
    (∃ c, Costs.transformOmega .squareFrequencies 2 = .ok c ∧ titlePeriod [c] 0 = Real.pi / 2) ∧
    ∃ c, Costs.transformOmega .period 2 = .ok c ∧ titlePeriod [c] 0 = 4 * Real.pi := by
  refine ⟨⟨_, rfl, ?_⟩, ⟨_, rfl, ?_⟩⟩
  · simp only [titlePeriod, List.getD_cons_zero]; ring
  · simp only [titlePeriod, List.getD_cons_zero, Nat.abs_ofNat]; field_simp; norm_num

/-- **C132** is false for `plot_error`: it returns neither figure nor axes, and where the data are 0 nothing finite
is drawn, however good the reconstruction. -/
theorem C132_error_false (data recon : Arr) :
    (errorPlot data recon).2 = none ∧
    (∀ s t, data s t ≠ 0 → (errorPlot data recon).1 s t = some ((recon s t / data s t - 1) * 100)) ∧
    ∀ s t, data s t = 0 → (errorPlot data recon).1 s t = none := by
  refine ⟨rfl, ?_, ?_⟩
  · intro s t h
    simp only [errorPlot, if_neg h, Option.some.injEq]
    field_simp
  · intro s t h
    simp only [errorPlot, if_pos h]

/-- Instances: two bands on one place and two times. -/
example := C132_bands_partial 1 2 2 (by norm_num) (by norm_num) (by norm_num) (fun _ t => t) (fun j _ t => j * t) true
example := C132_points 2 2 2 (fun k i => (k + i) % 2) (fun k _ i _ => Nat.mod_lt _ (by norm_num))

end Verif.CostsPlot
