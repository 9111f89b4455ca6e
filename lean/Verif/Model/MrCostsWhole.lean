import Verif.Model.CostsWhole
import Verif.Model.MrCostsState

/-!
# Model of mrCOSTS with COSTS as the decomposition of its levels

Source: `/repo/pydmd/mrcosts.py` L309-358, with `/repo/pydmd/costs.py` L429-613 (`fit`), L632-739 (`cluster_omega`),
L785-855 (`cluster_hyperparameter_sweep`) and L1018-1045 (`scale_separation`). Puts the model of a whole COSTS
decomposition (`Model/CostsWhole.lean`) into the loop over the levels (`Model/MrCostsState.lean`).
-/

set_option autoImplicit false

namespace Verif.MrCostsWhole

open Verif Verif.Costs Verif.CostsWhole Verif.MrCostsState

variable {n nT : ℕ} {B Al Ω C : Type}

/-- What a COSTS object holds: window length and rank it was built with, the arrays of `fit`, and, after `cluster_omega`, the
bands `scale_reconstruction` returns. -/
structure Level where
  length : ℕ
  rank : ℤ
  fitted : Fitted
  bands : Option (ℕ → ℕ → ℕ → ℝ)

/-- The parts left as parameters: options and numerical routines for each window length, k-means, `np.argsort`, the best
number of clusters for transformed frequencies (costs.py L837-855) and the global clustering. `nSteps` as in
`Costs.buildWindows`; `includeMeans` is the entry of `costs_recon_kwargs`. -/
structure Parts (n nT : ℕ) (B Al Ω C : Type) where
  opts : (wl : ℕ) → ℤ → Bool → Opts n wl B Al
  num : (wl : ℕ) → Num n nT wl B Al
  nSteps : ℤ
  kmeans : ℕ → List ℝ → Except PyErr (List ℕ × List ℝ)
  argsort : List ℝ → List ℕ
  best : ℤ → ℕ → List ℝ → Except PyErr ℕ
  includeMeans : Bool
  interp : List Level → Ω
  globalCluster : ℕ → Transform → Ω → Except PyErr C

/-- `COSTS(...).fit(x_iter, time, window, step)`, mrcosts.py L313-322. Simplified: window lengths are natural numbers. -/
noncomputable def fitCosts (P : Parts n nT B Al Ω C) (time : ℕ → ℝ) (x : ℕ → ℕ → ℝ) (w step rank : ℤ) (g : Bool) :
    Except PyErr Level :=
  (CostsWhole.fit (P.opts w.toNat rank g) (P.num w.toNat) step P.nSteps x time).map fun F => ⟨w.toNat, rank, F, none⟩

/-- `cluster_hyperparameter_sweep`, costs.py L826-855. -/
noncomputable def sweepCosts (P : Parts n nT B Al Ω C) (m : Transform) (l : Level) : Except PyErr ℕ := do
  let x ← CostsPad.transform m (l.fitted.omegas.flatten.map Complex.im)
  let x ← CostsPad.finite x
  P.best l.rank l.fitted.alloc x

/-- `cluster_omega(n, transform)`, costs.py L632-670, with the bands `scale_reconstruction` makes of it. -/
noncomputable def clusterCosts (P : Parts n nT B Al Ω C) (nC : ℕ) (m : Transform) (l : Level) : Except PyErr Level :=
  (l.fitted.bands P.kmeans P.argsort l.length nC m P.includeMeans).map fun R => { l with bands := some R }

/-- `scale_separation(...)[0]`, costs.py L1041-1042: the first band. (Called on clustered levels only.) -/
noncomputable def lowCosts (l : Level) : ℕ → ℕ → ℝ := fun s t => match l.bands with
  | none => 0
  | some R => R 0 s t

/-- mrCOSTS with COSTS on its levels, for given times of the snapshots. -/
noncomputable def ops (P : Parts n nT B Al Ω C) (time : ℕ → ℝ) : Ops (ℕ → ℕ → ℝ) Level Ω C :=
  ⟨fitCosts P time, sweepCosts P, clusterCosts P, lowCosts, P.interp, P.globalCluster⟩

end Verif.MrCostsWhole
