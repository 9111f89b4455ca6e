import Verif.Model.Time
import Mathlib.Data.EReal.Operations

/-!
# Model of the modes tuner

Source: `/repo/pydmd/dmd_modes_tuner.py`. A DMD instance is the `Bitmask.Obj` of
`Model/Bitmask.lean`.
-/

set_option autoImplicit false

namespace Verif.Tuner

open Verif Verif.Bitmask

variable {M E A : Type}

/-- `np.where(c)[0]`, L64. -/
def whereTrue (c : List Bool) : List ℕ := (List.range c.length).filter fun i => c[i]? = some true

/-- `select_modes` with `in_place=True`, L12-77: the indexes cut and the instance afterwards.
`criterion` is any function that reads the instance and returns a boolean array or raises. The
iteration order of the set difference L66-67 is not specified by Python; here it is increasing.
The argument `nullify_amplitudes` is not used by the code. -/
def selectModes (o : Obj M E A) (criterion : Obj M E A → Except PyErr (List Bool))
    (_nullifyAmplitudes : Bool := false) : Except PyErr (List ℕ) × Obj M E A :=
  match criterion o with
  | .error e => (.error e, o)
  | .ok c =>
    let selected := whereTrue c
    match o.getEigs with
    | .error e => (.error e, o)
    | .ok (none, o) => (.error .typeError, o)
    | .ok (some es, o) =>
      let cut := (List.range es.length).filter fun i => i ∉ selected
      if cut.length > 0 then
        match o.getMask with
        | .error e => (.error e, o)
        | .ok (mask, o) =>
          let tmp := cut.foldl (fun m i => m.set i false) mask
          match o.setMask (.bool1 tmp) with
          | (.error e, o) => (.error e, o)
          | (.ok (), o) => (.ok cut, o)
      else (.ok cut, o)

variable {ι : Type}

/-- The ring test of `stabilize_modes`, L124-127 (`outer_radius` may be `inf`). -/
noncomputable def fixable (inner outer : EReal) (e : ℂ) : Bool :=
  decide (inner < (‖e‖ : EReal)) && decide ((‖e‖ : EReal) < outer)

/-- `stabilize_modes` with `in_place=True`, L80-140: the stabilized indexes and the instance
afterwards. The in-place operators `*=`, `/=` act on the visible arrays. (`0 / 0`, which numpy
makes `nan`, is 0 here; it can only occur for a negative `inner_radius`.) -/
noncomputable def stabilizeModes (o : Obj M ℂ ℂ) (inner outer : EReal) :
    Except PyErr (List ℕ) × Obj M ℂ ℂ :=
  match o.getEigs with
  | .error e => (.error e, o)
  | .ok (none, o) => (.error .typeError, o)
  | .ok (some es, o) =>
    match o.getAmps with
    | .error e => (.error e, o)
    | .ok (none, o) => (.error .typeError, o)
    | .ok (some as, o) =>
      match o.view with
      | none => (.error .attributeError, o)
      | some v =>
        (.ok (whereTrue (es.map (fixable inner outer))),
          { o with view := some { v with
              amps := List.zipWith (fun a e => if fixable inner outer e then a * (‖e‖ : ℂ) else a)
                as es
              eigs := es.map fun e => if fixable inner outer e then e / (‖e‖ : ℂ) else e } })

/-- `ModesSelectors._threshold`, L167-184. -/
noncomputable def threshold (low up : EReal) (eigs : List ℂ) : List Bool :=
  eigs.map fun e => decide ((‖e‖ : EReal) < up) && decide ((‖e‖ : EReal) > low)

/-- `ModesSelectors._stable_modes`, L206-229. -/
noncomputable def stableModesSel (inside outside : EReal) (eigs : List ℂ) : List Bool :=
  threshold (1 - inside) (1 + outside) eigs

/-- Truth value of an optional number in Python: `None` and `0` are false. -/
noncomputable def truthy : Option EReal → Bool
  | none => false
  | some x => decide (x ≠ 0)

/-- `ModesSelectors.stable_modes`, L231-309: the pair (inside, outside) handed to the selector. -/
noncomputable def stableModesArgs (both inside outside : Option EReal) :
    Except PyErr (EReal × EReal) :=
  if truthy both && truthy inside then .error .valueError
  else if truthy both && truthy outside then .error .valueError
  else
    let outside := if truthy both then both else outside
    let inside := if truthy both then both else inside
    let outside := outside.getD ⊤
    let inside := inside.getD ⊤
    if outside = ⊤ ∧ inside = ⊤ then .error .valueError
    else .ok (inside, outside)

/-- `ModesSelectors._compute_integral_contribution`, L311-324; `dynamic` is one row of
`dynamics`. -/
noncomputable def integralContribution [Fintype ι] (mode : ι → ℂ) (dynamic : List ℂ) : ℝ :=
  Real.sqrt (∑ x, ‖mode x‖ ^ 2) ^ 2 * (dynamic.map fun z => ‖z‖).sum

/-- `xs[-n:]` for an integer `n`. -/
def lastN {α : Type} (xs : List α) (n : ℤ) : List α :=
  if 0 < n then xs.drop (xs.length - n.toNat) else xs.drop (-n).toNat

/-- `ModesSelectors._integral_contribution`, L326-356: the boolean array, and the `dmd_time`
afterwards. `argsort` is numpy's (some permutation sorting its argument). `dynamics` is stored by
columns, so the row of mode `k` consists of the `k`-th entries. -/
noncomputable def integralSel [Fintype ι] (argsort : List ℝ → List ℕ) (modes : List (ι → ℂ))
    (eigs amps : List ℂ) (orig dmd : Time.Window) (opt : Time.Opt) (nsnap : ℕ) (n : ℤ) :
    Except PyErr (List Bool) × Time.Window :=
  let temp := dmd
  let dmdTime := orig
  match Time.dynamics eigs amps orig dmdTime opt nsnap with
  | .error e => (.error e, dmdTime)
  | .ok cols =>
    let dmdTime := temp
    let contributions := modes.mapIdx fun k m =>
      integralContribution m (cols.map fun c => c.getD k 0)
    let first := lastN (argsort contributions) n
    (.ok (first.foldl (fun m i => m.set i true) (List.replicate modes.length false)), dmdTime)

/-! ## `ModesTuner`, L378-538 -/

/-- What `ModesTuner(...)` is given: a list of instances or a single one (references). -/
inductive Arg
  | list (refs : List ℕ)
  | single (ref : ℕ)
  deriving DecidableEq

/-- A `ModesTuner`: references to the instances it works on, and `_init_received_list`. -/
structure Tuner where
  refs : List ℕ
  isList : Bool
  deriving DecidableEq

/-- The heap of DMD instances and the tuners alive. -/
structure TState (D : Type) where
  heap : List D
  tuners : List Tuner

variable {D : Type}

/-- `list(map(deepcopy, dmds))`: fresh instances with the same contents. -/
def deepcopyAll (heap : List D) (refs : List ℕ) : List D × List ℕ :=
  (heap ++ refs.filterMap fun r => heap[r]?,
    (List.range (refs.filterMap fun r => heap[r]?).length).map (· + heap.length))

/-- `ModesTuner.__init__`, L399-404. -/
def TState.newTuner (s : TState D) (arg : Arg) (inPlace : Bool) : TState D :=
  let (refs, isList) := match arg with
    | .list rs => (rs, true)
    | .single r => ([r], false)
  if inPlace then { s with tuners := s.tuners ++ [⟨refs, isList⟩] }
  else
    let (heap, refs) := deepcopyAll s.heap refs
    ⟨heap, s.tuners ++ [⟨refs, isList⟩]⟩

/-- `for dmd in self._dmds: f(dmd)`; an exception ends the loop. -/
def applyAll (f : D → Except PyErr Unit × D) : List D → List ℕ → Except PyErr Unit × List D
  | heap, [] => (.ok (), heap)
  | heap, r :: rs =>
    match heap[r]? with
    | none => (.error .indexError, heap)
    | some d =>
      match f d with
      | (.error e, d') => (.error e, heap.set r d')
      | (.ok (), d') => applyAll f (heap.set r d') rs

/-- The argument `criteria` of `select`, L457: a string with its keyword arguments (giving a
criterion, or raising), a callable, or something else. -/
inductive Criteria (C : Type)
  | name (s : String) (build : Except PyErr C)
  | callable (c : C)
  | other

/-- The keys of `selectors`, L371-375. -/
def selectorNames : List String := ["module_threshold", "stable_modes", "integral_contribution"]

/-- The resolution of `criteria`, L497-507. -/
def Criteria.resolve {C : Type} : Criteria C → Except PyErr C
  | .name s build => if s ∈ selectorNames then build else .error .valueError
  | .callable c => .ok c
  | .other => .error .valueError

/-- Operations on tuners. `tune` is `select` (L457-511) with resolved criterion, or `stabilize`
(L513-538): the effect on one instance. -/
inductive TOp (D : Type)
  | new (arg : Arg) (inPlace : Bool)
  | subset (t : ℕ) (indexes : List ℕ)
  | tune (t : ℕ) (f : D → Except PyErr Unit × D)
  | copy (t : ℕ)

/-- `[self._dmds[i] for i in indexes]`, L421 (non-negative indexes). -/
def pick : List ℕ → List ℕ → Except PyErr (List ℕ)
  | _, [] => .ok []
  | refs, i :: is =>
    match refs[i]? with
    | none => .error .indexError
    | some r => (pick refs is).map (r :: ·)

/-- Perform one operation; a tuner number that does not exist does nothing. -/
def TState.step (s : TState D) : TOp D → Except PyErr Unit × TState D
  | .new arg inPlace => (.ok (), s.newTuner arg inPlace)
  | .subset t indexes =>
    match s.tuners[t]? with
    | none => (.ok (), s)
    | some tn =>
      if tn.isList = false then (.error .valueError, s)
      else match pick tn.refs indexes with
        | .error e => (.error e, s)
        | .ok rs => (.ok (), s.newTuner (.list rs) true)
  | .tune t f =>
    match s.tuners[t]? with
    | none => (.ok (), s)
    | some tn =>
      match applyAll f s.heap tn.refs with
      | (r, heap) => (r, { s with heap := heap })
  | .copy t =>
    match s.tuners[t]? with
    | none => (.ok (), s)
    | some tn => (.ok (), { s with heap := (deepcopyAll s.heap tn.refs).1 })

/-- Perform a sequence of operations, going on after exceptions. -/
def TState.run (s : TState D) (ops : List (TOp D)) : TState D :=
  ops.foldl (fun s op => (s.step op).2) s

/-- `get`, L423-440: the reference or the list of references. -/
def Tuner.get (t : Tuner) : Option Arg :=
  if t.isList then some (.list t.refs) else t.refs.head?.map .single

/-- The contents of the instances a tuner works on. -/
def TState.contents (s : TState D) (t : Tuner) : List (Option D) := t.refs.map fun r => s.heap[r]?

end Verif.Tuner
