import Verif.Model.Py
import Mathlib.Tactic
import Mathlib.Analysis.SpecialFunctions.Trigonometric.Basic

/-!
# Model of what the plotting functions of COSTS draw

Source: `/repo/pydmd/costs.py`: `plot_omega_time_series` (L891-927), `plot_scale_separation` (L1047-1153),
`plot_reconstructions` (L1155-1271), `plot_error` (L1273-1322), `plot_time_series` (L1324-1432). `sep` is the result of
`scale_reconstruction` (band, place, time; modelled in `Model/Costs.lean`). A panel is the array or the list of curves
drawn in it. Contours, labels, sizes and colours (but for the ends of the colour scale) are not modelled.
-/

set_option autoImplicit false

namespace Verif.CostsPlot

open Verif

/-- An array over places and times. -/
abbrev Arr := ℕ → ℕ → ℝ

/-- `xr_sep.sum(axis=0)` of `n` bands. -/
noncomputable def total (n : ℕ) (sep : ℕ → Arr) : Arr := fun s t => ∑ j ∈ Finset.range n, sep j s t

/-- `xr_sep[1:].sum(axis=0)`. -/
noncomputable def high (n : ℕ) (sep : ℕ → Arr) : Arr := fun s t => ∑ j ∈ Finset.Ico 1 n, sep j s t

/-- `np.abs(a).max()` of an array of `p` places and `m` times, `none` (`ValueError`) without entries. -/
noncomputable def absMax (p m : ℕ) (a : Arr) : Option ℝ :=
  (((List.range p).flatMap fun s => (List.range m).map fun t => |a s t|).max?)

/-- The entries `vmin` and `vmax` of a dictionary of keyword arguments, if present. -/
structure Kw where
  vmin : Option ℝ
  vmax : Option ℝ

/-- `kw["vmin"] = kw.get("vmin", -x); kw["vmax"] = kw.get("vmax", x)`, L1095-1096, L1101-1106, L1199-1200, L1206-1211:
the dictionary is changed in place. The default is evaluated in any case, without entries it raises
`ValueError`. -/
def Kw.fill (k : Kw) (x : Option ℝ) : Except PyErr Kw :=
  match x with
  | none => .error .valueError
  | some x => .ok ⟨some (k.vmin.getD (-x)), some (k.vmax.getD x)⟩

/-- A panel: the array drawn, with the ends of the colour scale. -/
structure Panel where
  arr : Arr
  scale : Kw

/-- `plot_scale_separation`, L1082-1153: the panels, and the dictionaries of the caller (`none`: not given)
afterwards. -/
noncomputable def scaleSeparation (p m n : ℕ) (data : Arr) (sep : ℕ → Arr) (residual : Bool) (kw hf : Option Kw) :
    Except PyErr (List Panel × Option Kw × Option Kw) := do
  let k ← (kw.getD ⟨none, none⟩).fill (absMax p m data)
  let h ← (hf.getD ⟨none, none⟩).fill (absMax p m (high n sep))
  .ok ([⟨data, k⟩, ⟨sep 0, k⟩, ⟨high n sep, h⟩] ++
      (if residual then [⟨fun s t => data s t - high n sep s t - sep 0 s t, h⟩] else []),
    kw.map fun _ => k, hf.map fun _ => h)

/-- `np.abs(xr_sep[1:, :, :]).max()`, L1207: over all bands but the first. -/
noncomputable def absMaxBands (p m n : ℕ) (sep : ℕ → Arr) : Option ℝ :=
  (((List.range n).drop 1).flatMap fun j =>
    (List.range p).flatMap fun s => (List.range m).map fun t => |sep j s t|).max?

/-- `plot_reconstructions`, L1186-1271, with as many centroids as bands. -/
noncomputable def reconstructions (p m n : ℕ) (data : Arr) (sep : ℕ → Arr) (residual : Bool) (kw hf : Option Kw) :
    Except PyErr (List Panel × Option Kw × Option Kw) := do
  let k ← (kw.getD ⟨none, none⟩).fill (absMax p m data)
  let h ← (hf.getD ⟨none, none⟩).fill (absMaxBands p m n sep)
  .ok (⟨data, k⟩ :: ((List.range n).map fun j => ⟨sep j, if j = 0 then k else h⟩) ++
      (if residual then [⟨fun s t => data s t - total n sep s t, h⟩] else []),
    kw.map fun _ => k, hf.map fun _ => h)

/-- The curves of `plot_time_series` at the place `s`, L1348-1432, panel by panel. `m`: number of times. Panel 1 holds
the black curve of L1380-1383 and the first band (`n = 0` in the loop L1385-1400); with no bands the black curve
only. -/
noncomputable def timeSeries (m n : ℕ) (data : Arr) (sep : ℕ → Arr) (s : ℕ) (residual : Bool) :
    List (List (ℕ → ℝ)) :=
  let mean := (∑ t ∈ Finset.range m, data s t) / m
  let truth := fun t => data s t - mean
  let lowC := fun t => sep 0 s t - mean
  [[truth, fun t => total n sep s t - mean],
   (fun t => truth t - high n sep s t) :: (if 0 < n then [lowC] else [])] ++
  ((List.range n).drop 1).map (fun j => [sep j s]) ++
  [[truth, high n sep s, lowC] ++ (if residual then [fun t => truth t - total n sep s t] else [])]

/-- The period in the title of the panel of band `j ≥ 1`, L1394, and with `plot_period` in
`plot_reconstructions`, L1245. -/
noncomputable def titlePeriod (centroids : List ℝ) (j : ℕ) : ℝ := 2 * Real.pi / centroids.getD j 0

/-- `plot_omega_time_series`, L906-925: the points drawn for band `c`: window and number of the eigenvalue. -/
def points (slides alloc : ℕ) (classes : ℕ → ℕ → ℕ) (c : ℕ) : List (ℕ × ℕ) :=
  ((List.range slides).flatMap fun k => (List.range alloc).map fun i => (k, i)).filter
    fun q => classes q.1 q.2 = c

/-- `plot_error`, L1293-1322: the entries drawn, in percent, and what is returned: nothing (`none`), though
the documentation names figure and axes. A division by 0 gives an infinite value or `NaN`, here `none`. -/
noncomputable def errorPlot (data : Arr) (recon : Arr) : (ℕ → ℕ → Option ℝ) × Option Unit :=
  (fun s t => if data s t = 0 then none else some ((recon s t - data s t) / data s t * 100), none)

end Verif.CostsPlot
