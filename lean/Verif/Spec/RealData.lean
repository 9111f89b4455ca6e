import Verif.Spec.LinAlg

/-!
# Specification vocabulary for real data
-/

set_option autoImplicit false

namespace Verif.RealData

open Matrix

/-- All entries are real numbers. -/
def IsReal {m n : Type} (M : Matrix m n ℂ) : Prop := ∀ i j, (M i j).im = 0

/-- Columns come in conjugate pairs: `σ` maps each index to that of the conjugate column (a real column is its
own partner). -/
structure Paired {m r : Type} (σ : Equiv.Perm r) (W : Matrix m r ℂ) (eigs : r → ℂ) : Prop where
  vec : ∀ i j, star (W i j) = W i (σ j)
  val : ∀ j, star (eigs j) = eigs (σ j)

end Verif.RealData
