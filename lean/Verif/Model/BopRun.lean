import Verif.Model.BopStep

/-!
# Model of a whole run of `BOPDMD._variable_projection`

Source: `/repo/pydmd/bopdmd.py` L503-742. `Verif.Bop.varpro` is the loop over an abstract problem, `Verif.BopStep` one step;
here the two are put together. Floats are exact. `mode_prox` is not given.
-/

set_option autoImplicit false

namespace Verif.BopRun

open Verif Verif.LinAlg Verif.VarPro Verif.BopStep Matrix

variable {m l n : ℕ}

/-- The results of the library in a run on the data `H` at the times `time`: the least-squares solutions of L566-578, the SVD
and the QR factorisation at every `alpha`, and the least-squares solver of L643. -/
structure Lib (l : ℕ) (fulljac : Bool) (time : Fin m → ℝ) (H : Matrix (Fin m) (Fin n) ℂ) where
  B : (Fin l → ℂ) → Matrix (Fin l) (Fin n) ℂ
  isB : IsComputeB time H B
  fact : ∀ α, Fact fulljac time H B α
  lstsq : Lstsq l
  isLstsq : ∀ A y, IsLstsq A y (lstsq A y)

variable {fulljac : Bool} {time : Fin m → ℝ} {H : Matrix (Fin m) (Fin n) ℂ}

/-- `djac_matrix` at `alpha`, L600-613. -/
noncomputable def jac (L : Lib l fulljac time H) (α : Fin l → ℂ) : Matrix (Fin m × Fin n) (Fin l) ℂ :=
  djac fulljac time α (L.fact α).U (L.fact α).s (L.fact α).V (L.B α) (residual time H L.B α)

/-- `delta_0`, L641-644. -/
noncomputable def delta (L : Lib l fulljac time H) (levmarq : Bool) (α : Fin l → ℂ) (lam : ℝ) : Fin l → ℂ :=
  BopStep.delta L.lstsq (L.fact α).qr (scales levmarq (jac L α)) (fun p => residual time H L.B α p.1 p.2) lam

/-- `improvement_ratio`, L658-666. The denominator is zero only if the step is zero, and then the result is not used. -/
noncomputable def ratio (L : Lib l fulljac time H) (levmarq : Bool) (α c : Fin l → ℂ) (lam : ℝ) : ℝ :=
  (1 / 2 * frobSq (residual time H L.B α) - 1 / 2 * frobSq (residual time H L.B c)) /
    (1 / 2 * (star (delta L levmarq α lam) ⬝ᵥ ((jac L α)ᴴ *ᵥ fun p => residual time H L.B α p.1 p.2)).re)

/-- The numerical part of the routine: `compute_error` (L556-564), `step` with the constraints `push` (L636-650) and the new
`_lambda` after a good step (L669). -/
noncomputable def prob (L : Lib l fulljac time H) (levmarq : Bool) (push : (Fin l → ℂ) → Fin l → ℂ) :
    Bop.Prob (Fin l → ℂ) where
  err := error time H L.B
  step α lam := push (α + delta L levmarq α lam)
  rescale α c lam := lam * max (1 / 3) (1 - (2 * ratio L levmarq α c lam - 1) ^ 3)

/-- `_variable_projection`, L503-742, from `init_alpha`. -/
noncomputable def run (L : Lib l fulljac time H) (levmarq : Bool) (push : (Fin l → ℂ) → Fin l → ℂ) (o : Bop.Opts)
    (init : Fin l → ℂ) : Bop.Res (Fin l → ℂ) :=
  Bop.varpro (prob L levmarq push) o (push init)

/-- The coefficients `B` returned with `alpha`, L742. -/
noncomputable def coeffs (L : Lib l fulljac time H) (levmarq : Bool) (push : (Fin l → ℂ) → Fin l → ℂ) (o : Bop.Opts)
    (init : Fin l → ℂ) : Matrix (Fin l) (Fin n) ℂ :=
  L.B (run L levmarq push o init).alpha

/-- The largest norm of a row of `B`, `np.max(b)` in L760. -/
noncomputable def largest (B : Matrix (Fin l) (Fin n) ℂ) : ℝ := ⨆ j, √(∑ i, ‖B j i‖ ^ 2)

/-- The amplitudes of `_single_trial_compute_operator`, L756-764; `c` is `10 * eps`. -/
noncomputable def amps (c : ℝ) (B : Matrix (Fin l) (Fin n) ℂ) (j : Fin l) : ℝ := (Bop.normalise c (largest B) (B j)).1

/-- The modes of `_single_trial_compute_operator`, L756-763 (a NaN, which comes from data that are all zero, is read as 0). -/
noncomputable def modes (c : ℝ) (B : Matrix (Fin l) (Fin n) ℂ) (j : Fin l) (i : Fin n) : ℂ :=
  ((Bop.normalise c (largest B) (B j)).2 i).getD 0

/-- `forecast` at the time `t` after a single trial, L1622-1629. -/
noncomputable def forecast (c : ℝ) (B : Matrix (Fin l) (Fin n) ℂ) (α : Fin l → ℂ) (t : ℝ) (i : Fin n) : ℂ :=
  Bop.forecast (modes c B) (amps c B) α t i

/-- The matrix whose eigenvalues are the initial guess, `_initialize_alpha` L1372-1392: `D` is the projected data, `U, s, V`
the SVD of the means of neighbouring snapshots. -/
noncomputable def initialMatrix {t q r : ℕ} (time : Fin (t + 1) → ℝ) (D : Matrix (Fin q) (Fin (t + 1)) ℂ)
    (U : Matrix (Fin q) (Fin r) ℂ) (s : Fin r → ℝ) (V : Matrix (Fin t) (Fin r) ℂ) : Matrix (Fin r) (Fin r) ℂ :=
  Uᴴ * slopes time D * V * rdiag fun i => (s i)⁻¹

end Verif.BopRun
