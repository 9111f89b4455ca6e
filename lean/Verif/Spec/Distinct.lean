import Verif.Spec.LinAlg

/-! Distinct singular values. -/

set_option autoImplicit false

namespace Verif.HavokModel

open Verif.LinAlg

variable {m : Type} [Fintype m] {k : ℕ}

/-- The first `r` singular values are positive, and each is larger than all that follow. -/
def Distinct (H : Matrix m (Fin k) ℂ) (r : ℕ) : Prop :=
  ∃ (N : ℕ) (U : Matrix m (Fin N) ℂ) (s : Fin N → ℝ) (V : Matrix (Fin k) (Fin N) ℂ), IsSVD H U s V ∧ Antitone s ∧
    r ≤ N ∧ (∀ i : Fin N, (i : ℕ) < r → 0 < s i) ∧ ∀ i j : Fin N, (i : ℕ) < r → i < j → s j < s i

end Verif.HavokModel
