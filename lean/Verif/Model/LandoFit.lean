import Verif.Model.Lando

/-!
# Model of the weights of LANDO without online learning

Source: `/repo/pydmd/lando.py` L245-251, L759-791.
-/

set_option autoImplicit false

namespace Verif.Lando

open Matrix Verif

/-- Sum of squared errors of the model `x ↦ W k(D, x)` on pairs of snapshots. -/
noncomputable def sqErr {X o J : Type} [Fintype o] [Fintype J] (k : X → X → ℝ) (D : J → X) (W : Matrix o J ℝ)
    (pairs : List (X × (o → ℝ))) : ℝ :=
  (pairs.map fun p => ∑ r, (p.2 r - ∑ a, W r a * k (D a) p.1) ^ 2).sum

/-- `_weights` as computed in one go, L245-251: `lstsq(K_mat.T, Y.T).T` and `Y.dot(pinv(K_mat))` are both least-squares
solutions of `W K_mat = Y`. The one of least norm that they return is not distinguished. -/
def IsWeights {X o J : Type} [Fintype o] [Fintype J] (k : X → X → ℝ) (D : J → X) (pairs : List (X × (o → ℝ)))
    (W : Matrix o J ℝ) : Prop := ∀ W', sqErr k D W pairs ≤ sqErr k D W' pairs

/-- `fit` with `online=False`, L759-791 and L178-251: the snapshots are rescaled, the dictionary is learnt from them in
the order in which they are parsed (`x0`, then `xs`), and the weights are computed for all of them. -/
def IsFit {n o : Type} [Fintype n] [Fintype o] (k : Kernel) (sv : Solver) (tol : ℝ) (rho : n → ℝ)
    (p0 : (n → ℝ) × (o → ℝ)) (ps : List ((n → ℝ) × (o → ℝ)))
    (W : Matrix o (learn k.eval sv tol (rescale rho p0.1) (ps.map fun p => rescale rho p.1)).ι ℝ) : Prop :=
  IsWeights k.eval (learn k.eval sv tol (rescale rho p0.1) (ps.map fun p => rescale rho p.1)).item
    ((p0 :: ps).map fun p => (rescale rho p.1, p.2)) W

end Verif.Lando
