import Verif.Model.Snapshots

/-!
# Specification vocabulary for arrays: multi-indices in C order
-/

set_option autoImplicit false

namespace Verif.Snap

/-- `idx` is a valid multi-index of an array of shape `s`. -/
def Valid (s idx : List ℕ) : Prop := List.Forall₂ (fun i n => i < n) idx s

/-- The position of a multi-index in C order (last index fastest): every index but the last is
multiplied by the sizes of the following axes. -/
def ravel : List ℕ → List ℕ → ℕ
  | _ :: s, i :: idx => i * s.prod + ravel s idx
  | _, _ => 0

/-- `a[idx]` for a full multi-index. -/
def Arr.at {α : Type} (a : Arr α) (idx : List ℕ) : Option α := a.data[ravel a.shape idx]?

end Verif.Snap
