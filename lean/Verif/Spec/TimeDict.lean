import Verif.Model.TimeDict

/-! Specification vocabulary for time dictionaries. -/

namespace Verif.TimeDict

open Verif

variable {V : Type}

/-- The contents a time dictionary must have: exactly the three keys `t0`, `tend`, `dt`. -/
def Exact (d : Dict V) : Prop :=
  (∀ k, (d.get? k).isSome ↔ k = "t0" ∨ k = "tend" ∨ k = "dt") ∧ d.length = 3

/-- A history of fits (each setting the initial time dictionary) and user actions. -/
inductive Act (V : Type)
  | fit (d : Dict V)
  | user (op : Op V)

/-- Perform one act. -/
def State.act (s : State V) : Act V → State V
  | .fit d => (s.setInitial d).2
  | .user op => (s.step op).2

/-- Perform a history of acts. -/
def State.acts (s : State V) (l : List (Act V)) : State V := l.foldl State.act s

/-- A fresh instance: no dictionaries yet. -/
def State.empty : State V := ⟨[], none, none, []⟩

/-- Python dictionaries have pairwise different keys. -/
def Act.WellFormed : Act V → Prop
  | .fit d => (d.map (·.1)).Nodup
  | .user (.newDict d) => (d.map (·.1)).Nodup
  | .user _ => True

/-- The act does not replace `dmd_time` by a dictionary held in a user variable. -/
def Act.NoUserReplacement : Act V → Prop
  | .user (.assignDmdTime (.user _)) => False
  | _ => True

/-- The action does not write to the object `original_time` itself nor hand it out (it may be
copied into `dmd_time`). -/
def Op.SparesOriginal : Op V → Prop
  | .setItem .originalTime _ _ => False
  | .bind .originalTime => False
  | _ => True

/-- The action only concerns the user's own dictionaries. -/
def Op.OnlyUser : Op V → Prop
  | .newDict _ => True
  | .setItem (.user _) _ _ => True
  | .bind (.user _) => True
  | _ => False

end Verif.TimeDict
