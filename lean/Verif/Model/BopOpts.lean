import Verif.Model.Py
import Verif.Model.BopEigs
import Mathlib.Tactic

/-!
# Model of the checks of the arguments of `BOPDMD`

Source: `/repo/pydmd/bopdmd.py`: `BOPDMD.__init__` (L1029-1086), `_check_eig_constraints` (L1302-1352),
`BOPDMDOperator.__init__` (L136-191), `_varpro_opts_warn` (L249-284), `print_varpro_opts` (L1275-1300), and the
uses of `maxiter` and `maxlam` in `_variable_projection` (L585, L593, L671). The texts of the messages are not
modelled.
-/

set_option autoImplicit false

namespace Verif.BopOpts

open Verif

/-- A Python float: a number (exact), `nan`, or an infinity. -/
inductive F
  | fin (q : ℚ)
  | nan
  | posInf
  | negInf
  deriving DecidableEq, Repr

/-- `a < b` of Python floats: false if one is `nan`. -/
def F.lt : F → F → Bool
  | .nan, _ => false
  | _, .nan => false
  | .fin a, .fin b => decide (a < b)
  | .negInf, .negInf => false
  | .negInf, _ => true
  | _, .negInf => false
  | .posInf, _ => false
  | _, .posInf => true

/-- The values a user can give for an option. `npInt`: a numpy integer such as `np.int64(30)`, which is not an
instance of `int` (`np.float64` is one of `float`). `other`: strings, `None`, arrays, ... -/
inductive Val
  | int (z : ℤ)
  | bool (b : Bool)
  | float (x : F)
  | npInt (z : ℤ)
  | other
  deriving DecidableEq, Repr

/-- `isinstance(opt_value, (int, float, bool))`, L269, and if so the number compared in L272-284. -/
def Val.num? : Val → Option F
  | .int z => some (.fin z)
  | .bool b => some (.fin (if b then 1 else 0))
  | .float x => some x
  | .npInt _ => none
  | .other => none

/-- The names of the options, L150-158. -/
inductive Name
  | initLambda | maxlam | lamup | useLevmarq | maxiter | tol | epsStall | useFulljac | verbose
  deriving DecidableEq, Repr

/-- The order of `_varpro_opts`, L173-183, of `rec_ranges`, L257-265 and of `opt_names`, L1283-1293. -/
def names : List Name :=
  [.initLambda, .maxlam, .lamup, .useLevmarq, .maxiter, .tol, .epsStall, .useFulljac, .verbose]

/-- The defaults, L150-158. -/
def default : Name → Val
  | .initLambda => .float (.fin 1)
  | .maxlam => .int 52
  | .lamup => .float (.fin 2)
  | .useLevmarq => .bool true
  | .maxiter => .int 30
  | .tol => .float (.fin (1 / 10 ^ 6))
  | .epsStall => .float (.fin (1 / 10 ^ 12))
  | .useFulljac => .bool true
  | .verbose => .bool false

/-- `rec_ranges`, L256-265. -/
def range : Name → F × F
  | .initLambda => (.fin 0, .fin (10 ^ 16))
  | .maxlam => (.fin 0, .fin 200)
  | .lamup => (.fin 1, .fin (10 ^ 16))
  | .useLevmarq => (.negInf, .posInf)
  | .maxiter => (.fin 0, .fin (10 ^ 12))
  | .tol => (.fin 0, .fin (10 ^ 16))
  | .epsStall => (.negInf, .fin 1)
  | .useFulljac => (.negInf, .posInf)
  | .verbose => (.negInf, .posInf)

/-- A warning: the option, and whether its value is too small. -/
structure Warning where
  name : Name
  small : Bool
  deriving DecidableEq, Repr

/-- One pass of the loop L267-284. -/
def check1 (n : Name) (v : Val) : Except PyErr (List Warning) :=
  match v.num? with
  | none => .error .typeError
  | some x =>
    if x.lt (range n).1 then .ok [⟨n, true⟩]
    else if (range n).2.lt x then .ok [⟨n, false⟩]
    else .ok []

/-- `_varpro_opts_warn`, L249-284: the warnings given (also before an exception) and the outcome. -/
def warn : List (Name × Val) → List Warning × Except PyErr Unit
  | [] => ([], .ok ())
  | (n, v) :: l => match check1 n v with
    | .error e => ([], .error e)
    | .ok w => let r := warn l; (w ++ r.1, r.2)

/-- The keyword arguments `**varpro_opts_dict` (L1461, L1556): keys with values; `none` stands for a
key that is not the name of an option. -/
abbrev Dict := List (Option Name × Val)

/-- The value of an option after the call: that of the dictionary, or the default. A dictionary has at most
one value per key. -/
def lookup (d : Dict) (n : Name) : Val :=
  ((d.find? fun p => p.1 = some n).map (·.2)).getD (default n)

/-- `BOPDMDOperator(..., **varpro_opts_dict)`, L136-191: an unknown keyword raises `TypeError` before
anything else. On success `varpro_opts`. -/
def operator (d : Dict) : List Warning × Except PyErr (List Val) :=
  if d.any (fun p => p.1 = none) then ([], .error .typeError)
  else
    let r := warn (names.map fun n => (n, lookup d n))
    (r.1, r.2.map fun _ => names.map (lookup d))

/-- `np.zeros(maxiter)`, L585: an integer that is not negative. -/
def zeros : Val → Except PyErr ℕ
  | .int z => if 0 ≤ z then .ok z.toNat else .error .valueError
  | .bool b => .ok (if b then 1 else 0)
  | .npInt z => if 0 ≤ z then .ok z.toNat else .error .valueError
  | .float _ => .error .typeError
  | .other => .error .typeError

/-- `range(maxlam)`, L671: the number of passes, none for negative integers. -/
def passes : Val → Except PyErr ℕ
  | .int z => .ok z.toNat
  | .bool b => .ok (if b then 1 else 0)
  | .npInt z => .ok z.toNat
  | .float _ => .error .typeError
  | .other => .error .typeError

/-- A fit up to L585 (and `needLam`: whether the first step does not reduce the error, so that L671 is
reached). -/
def start (d : Dict) (needLam : Bool) : List Warning × Except PyErr Unit :=
  let r := operator d
  (r.1, do
    let _ ← r.2
    let n ← zeros (lookup d .maxiter)
    if needLam && decide (0 < n) then
      let _ ← passes (lookup d .maxlam)
      .ok ()
    else .ok ())

/-! ## The constructor -/

/-- A function given as `eig_constraints`, seen through the shapes: for an array of shape `(n,)` it raises
(`error`), returns something that is not an array (`none`), or an array of some shape. -/
abbrev Fn := ℕ → Except PyErr (Option (List ℕ))

/-- The argument `eig_constraints`, by the tests of L1071-1077: `callable` stands for callables that are not
Python functions (builtins, `functools.partial`, numpy ufuncs, objects with `__call__`). -/
inductive Constr
  | none
  | set (s : List String)
  | function (f : Fn)
  | callable (f : Fn)
  | other

/-- `svd_rank` as given: an `int`, or a `float`. -/
inductive Rank
  | int (z : ℤ)
  | float (q : ℚ)

/-- The length of `x_dummy`, L1312-1318. -/
def dummy : Rank → ℕ
  | .int z => if 1 ≤ z then z.toNat else 10
  | .float _ => 10

/-- `_check_eig_constraints` for a function, L1311-1341. -/
def checkFn (r : ℕ) (f : Fn) : Except PyErr Unit :=
  match f r with
  | .error _ => .error .valueError
  | .ok none => .error .valueError
  | .ok (some shape) => if [r] ≠ shape then .error .valueError else .ok ()

/-- The checks of `eig_constraints`, L1071-1078 and L1302-1352. -/
def checkConstr (rank : Rank) : Constr → Except PyErr Unit
  | .none => BopEigs.check []
  | .set s => BopEigs.check s
  | .function f => checkFn (dummy rank) f
  | .callable _ => .error .typeError
  | .other => .error .typeError

/-- `BOPDMD.__init__`, L1053-1086, on the arguments it checks, in the order of the code. `bagWarning`, `bagMaxfail`:
whether they are `int`s; `opts`: `none` for `None`, else whether it is a dictionary and its entries. -/
def construct (rank : Rank) (bagWarning bagMaxfail : Bool) (opts : Option (Bool × Dict)) (c : Constr) :
    Except PyErr Dict :=
  if !bagWarning || !bagMaxfail then .error .typeError
  else
    let keep (d : Dict) := (checkConstr rank c).map fun _ => d
    match opts with
    | none => keep []
    | some (false, _) => .error .typeError
    | some (true, d) => keep d

/-- The lines of `print_varpro_opts`, L1283-1300, after `fit`: names with values. -/
def printed (opts : List Val) : List (Name × Val) := names.zip opts

end Verif.BopOpts
