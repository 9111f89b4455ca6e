import Verif.Model.Bitmask

/-!
# Specification of mode selection

An abstract fitted DMD holds the *full* lists of modes, eigenvalues and amplitudes and a
mask; selecting only changes the mask, and an in-place write to the `k`-th visible entry
changes the full entry at the `k`-th active index. Nothing here uses gather/scatter,
write-back or lazily allocated proxies.
-/

namespace Verif.Bitmask

open Verif

/-- The indexes of the `true` entries of a mask, in increasing order. -/
def activeIdx (mask : List Bool) : List Nat :=
  (List.range mask.length).filter fun i => mask[i]? = some true

/-- What is visible of a full list through a mask: the entries at the active indexes. -/
def visible {α : Type} (mask : List Bool) (full : List α) : List α :=
  (activeIdx mask).filterMap fun i => full[i]?

/-- Abstract state of a fitted DMD. -/
structure Spec (M E A : Type) where
  modes : List M
  eigs : List E
  amps : List A
  mask : List Bool

variable {M E A : Type}

/-- Abstract effect of one user action. -/
def Spec.step (s : Spec M E A) : Op M E A → Except PyErr Unit × Spec M E A
  | .setMask .nonBool => (.error .runtimeError, s)
  | .setMask (.boolNd _ _) => (.error .valueError, s)
  | .setMask (.bool1 l) =>
      if l.length = s.mask.length then (.ok (), { s with mask := l }) else (.error .valueError, s)
  | .writeMode k x =>
      match (activeIdx s.mask)[k]? with
      | some i => (.ok (), { s with modes := s.modes.set i x })
      | none => (.error .indexError, s)
  | .writeEig k x =>
      match (activeIdx s.mask)[k]? with
      | some i => (.ok (), { s with eigs := s.eigs.set i x })
      | none => (.error .indexError, s)
  | .writeAmp k x =>
      match (activeIdx s.mask)[k]? with
      | some i => (.ok (), { s with amps := s.amps.set i x })
      | none => (.error .indexError, s)

/-- Abstract effect of a history. -/
def Spec.run (s : Spec M E A) : List (Op M E A) → List (Except PyErr Unit) × Spec M E A
  | [] => ([], s)
  | op :: ops =>
    let r := s.step op
    let rest := Spec.run r.2 ops
    (r.1 :: rest.1, rest.2)

/-- Abstract state right after `fit`: everything is active. -/
def Spec.afterFit (modes : List M) (eigs : List E) (amps : List A) : Spec M E A :=
  ⟨modes, eigs, amps, List.replicate eigs.length true⟩

/-- What a user can read from an instance. -/
structure Obs (M E A : Type) where
  mask : Except PyErr (List Bool)
  modes : Except PyErr (Option (List M))
  eigs : Except PyErr (Option (List E))
  amps : Except PyErr (Option (List A))
  deriving DecidableEq

/-- Read the mask, modes, eigs and amplitudes of an instance. -/
def observe (o : Obj M E A) : Obs M E A :=
  ⟨o.getMask.map (·.1), o.getModes.map (·.1), o.getEigs.map (·.1), o.getAmps.map (·.1)⟩

/-- What the abstract state says a user must read. -/
def Spec.observe (s : Spec M E A) : Obs M E A :=
  ⟨.ok s.mask, .ok (some (visible s.mask s.modes)), .ok (some (visible s.mask s.eigs)),
    .ok (some (visible s.mask s.amps))⟩

end Verif.Bitmask

namespace Verif.Bitmask

/-- Python's meaning of an index on an axis of length `n`: `k` designates position `i` if
`k = i`, or `k = i - n` (counting from the end). -/
def IdxDesignates (n : Nat) (k : Int) (i : Nat) : Prop := k = i ∨ k = (i : Int) - n

/-- A possibly negative slice bound counted from the beginning. -/
def fromStart (n : Nat) (x : Int) : Int := if x < 0 then x + n else x

/-- Where a slice with negative step starts: at the last position if omitted or beyond the
end. -/
def startFromTop (n : Nat) : Option Int → Int
  | none => n - 1
  | some x => min (n - 1) (fromStart n x)

/-- Python's meaning of a key on an axis of length `n`: which positions `i < n` are
designated. For a slice with positive step the positions are those reached from the start
(at least 0) by multiples of the step, strictly before the stop; for a negative step those
reached downwards from the start (at most `n - 1`), strictly after the stop. -/
def Designates (n : Nat) : Key → Nat → Prop
  | .int k, i => IdxDesignates n k i
  | .list ks, i => ∃ k, KeyElem.int k ∈ ks ∧ IdxDesignates n k i
  | .slice start stop step, i =>
      let st := step.getD 1
      if 0 < st then
        let a := max 0 (fromStart n (start.getD 0))
        a ≤ i ∧ st ∣ (i - a) ∧ (∀ e, stop = some e → (i : Int) < fromStart n e)
      else
        let a := startFromTop n start
        (i : Int) ≤ a ∧ st ∣ (a - i) ∧ (∀ e, stop = some e → fromStart n e < (i : Int))
  | .other, _ => False

/-- The index `k` is admissible on an axis of length `n`. -/
def InRange (n : Nat) (k : Int) : Prop := -(n : Int) ≤ k ∧ k < n

/-- Keys that must be accepted: an admissible integer, a slice with nonzero step, a list of
pairwise different admissible integers. -/
def ValidKey (n : Nat) : Key → Prop
  | .int k => InRange n k
  | .slice _ _ step => step ≠ some 0
  | .list ks => ks.Nodup ∧ ∀ e ∈ ks, ∃ k, e = .int k ∧ InRange n k
  | .other => False

end Verif.Bitmask
