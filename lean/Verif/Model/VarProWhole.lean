import Verif.Model.VarProRun

/-!
# Model of `compute_varprodmd_any`

Source: `/repo/pydmd/varprodmd.py` L45-77 and L387-422. `compute_svd` of the data is given by its result `U, s, V`, truncated as the
rank asks; all later library calls are functions of their arguments, in `Libs`.
-/

set_option autoImplicit false

namespace Verif.VarPro

open Verif Verif.LinAlg Matrix

variable {m l n q t : ℕ}

/-- The library calls after preprocessing: `compute_svd` in `_compute_dmd_ev`, L68; `np.linalg.eigvals`, L77; the selection of
the snapshots, L391-398 (the identity without compression); `np.linalg.svd`, L129. -/
structure Libs (t m l q : ℕ) where
  svd : Matrix (Fin q) (Fin t) ℂ → Matrix (Fin q) (Fin l) ℂ × (Fin l → ℝ) × Matrix (Fin t) (Fin l) ℂ
  eig : Matrix (Fin l) (Fin l) ℂ → Fin l → ℂ
  sel : Matrix (Fin q) (Fin (t + 1)) ℂ → Fin m → Fin (t + 1)
  phiSvd : ∀ (time : Fin m → ℝ) (α : Fin l → ℂ), Svd (phi time α)

/-- `np.concatenate([omegas.real, omegas.imag])`, L408. -/
def startPoint (om : Fin l → ℂ) : Point l
  | .inl j => (om j).re
  | .inr j => (om j).im

/-- The starting point of the optimisation for the (projected) data `D`, L388-389 and L408. -/
noncomputable def start (L : Libs t m l q) (time : Fin (t + 1) → ℝ) (D : Matrix (Fin q) (Fin (t + 1)) ℂ) : Point l :=
  let d := L.svd (initialSvdOf time D)
  startPoint (L.eig (initialMatrix time D d.1 d.2.1 d.2.2))

/-- `compute_varprodmd_any` from the (projected) data `D` on, L389-422, if the optimizer has ended after at most `k` steps. `W` is
`u_r` with projection and the identity without. -/
noncomputable def fitAny (opt : Optimizer m l q) (L : Libs t m l q) (time : Fin (t + 1) → ℝ)
    (D : Matrix (Fin q) (Fin (t + 1)) ℂ) (W : Matrix (Fin n) (Fin q) ℂ) (k : ℕ) :
    Option ((Fin n → Fin l → Option ℂ) × (Fin l → ℂ) × (Fin l → ℝ)) :=
  fitRun opt (fun i => time (L.sel D i)) (Matrix.of fun i c => D c (L.sel D i)) (L.phiSvd _) (start L time D) W k

/-- With `use_proj=True`, L258-259. -/
noncomputable def fitProj (opt : Optimizer m l q) (L : Libs t m l q) (time : Fin (t + 1) → ℝ) (U : Matrix (Fin n) (Fin q) ℂ)
    (s : Fin q → ℝ) (V : Matrix (Fin (t + 1)) (Fin q) ℂ) (k : ℕ) :
    Option ((Fin n → Fin l → Option ℂ) × (Fin l → ℂ) × (Fin l → ℝ)) :=
  fitAny opt L time (projected s V) U k

/-- With `use_proj=False`, L259. -/
noncomputable def fitFull (opt : Optimizer m l n) (L : Libs t m l n) (time : Fin (t + 1) → ℝ)
    (X : Matrix (Fin n) (Fin (t + 1)) ℂ) (k : ℕ) : Option ((Fin n → Fin l → Option ℂ) × (Fin l → ℂ) × (Fin l → ℝ)) :=
  fitAny opt L time X 1 k

end Verif.VarPro
