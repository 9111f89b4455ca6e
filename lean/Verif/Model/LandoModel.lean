import Verif.Model.LandoFit
import Verif.Model.LandoState

/-!
# Model of a whole fit of LANDO

Source: `/repo/pydmd/lando.py` L178-251, L759-791, L835-884.
-/

set_option autoImplicit false

namespace Verif.Lando

open Matrix Verif

variable {n : Type} [Fintype n]

/-- `m` is a possible outcome of `fit` with `online=False`, L759-791 and L178-251: the dictionary learnt from the
rescaled snapshots, with weights of least error. The snapshot pairs are listed in the order in which they are parsed
(`p0` first), which with `permute=True` is random (L181-183). -/
def IsLearnt (k : Kernel) (sv : Solver) (tol : ℝ) (rho : n → ℝ) (p0 : (n → ℝ) × (n → ℝ)) (ps : List ((n → ℝ) × (n → ℝ)))
    (m : Learnt n) : Prop :=
  ∃ W, IsFit k sv tol rho p0 ps W ∧
    m = ⟨_, (learn k.eval sv tol (rescale rho p0.1) (ps.map fun p => rescale rho p.1)).fin,
      (learn k.eval sv tol (rescale rho p0.1) (ps.map fun p => rescale rho p.1)).item, W⟩

/-- The outcome of `fit` with `online=True`, L759-791 and L178-244, and any number of calls of `update`, L835-884, which
go on with the same loop. The snapshot pairs are listed in the order in which they are parsed. -/
noncomputable def learntOnline (k : Kernel) (sv : Solver) (tol : ℝ) (rho : n → ℝ) (p0 : (n → ℝ) × (n → ℝ))
    (ps : List ((n → ℝ) × (n → ℝ))) : Learnt n :=
  let st := oLearn k.eval sv tol (rescale rho p0.1, p0.2) (ps.map fun p => (rescale rho p.1, p.2))
  ⟨st.d.ι, st.d.fin, st.d.item, st.W⟩

end Verif.Lando
