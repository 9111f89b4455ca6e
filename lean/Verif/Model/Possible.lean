import Verif.Model.OptDmd
import Verif.Model.Dmdc
import Verif.Model.Edmd
import Verif.Model.Subspace
import Verif.Model.PidmdOps
import Verif.Lemmas.LinAlg

/-!
# Possible results of `fit` in several classes

As `Verif.Whole.IsResult` for `DMD`: the results of the library routines enter by their contracts, and a fit is the relation
between the data and everything it may leave. The steps are those of the models of the classes.
-/

set_option autoImplicit false

namespace Verif.Possible

open Verif Verif.LinAlg Matrix

variable {m n : Type} [Fintype m] [Fintype n]

/-- What `np.linalg.eig(A)` may return: an eigenvector of norm one for each eigenvalue. -/
def IsEig {q : ℕ} (A W : Matrix (Fin q) (Fin q) ℂ) (eigs : Fin q → ℂ) : Prop :=
  A * W = W * diagonal eigs ∧ A.charpoly.roots = Finset.univ.val.map eigs ∧ ∀ j, normSq (fun i => W i j) = 1

/-- `OptDMD.fit`, optdmd.py L77-131 and L195-225, without total least squares: `Uz` and `Q` are the spaces of
`factorization="svd"`, `eigs` and `modes` what is left with `"evd"`. -/
def OptDmd.IsFit (prec : OptDmd.Prec) {q : ℕ} (X Y : Matrix m n ℂ) (Uz Q : Matrix m (Fin q) ℂ) (eigs : Fin q → ℂ)
    (modes : Matrix m (Fin q) ℂ) : Prop :=
  ∃ (p : ℕ) (U : Matrix m (Fin p) ℂ) (s : Fin p → ℝ) (V : Matrix n (Fin p) ℂ), IsSVD X U s V ∧
    ∃ (pz : ℕ) (hq : q ≤ pz) (Uf : Matrix m (Fin pz) ℂ) (sz : Fin pz → ℝ) (Vz : Matrix n (Fin pz) ℂ),
      IsSVD (OptDmd.matZ prec Y s V) Uf sz Vz ∧ Antitone sz ∧ Uz = lead q hq Uf ∧ Q = OptDmd.matQ prec Y U s V Uz ∧
      ∃ W, IsEig (OptDmd.atilde Q Uz) W eigs ∧ modes = OptDmd.rightVecs prec Uz Q eigs W

/-- `DMDc.fit` with a given `B` and no total least squares, dmdc.py L73-92 and L328-333, with a truncation to rank `q`. -/
def Dmdc.IsKnown {c q : ℕ} (X Y : Matrix m n ℂ) (I : Matrix (Fin c) n ℂ) (B : Matrix m (Fin c) ℂ) (eigs : Fin q → ℂ)
    (modes : Matrix m (Fin q) ℂ) : Prop :=
  ∃ (p : ℕ) (hq : q ≤ p) (U : Matrix m (Fin p) ℂ) (s : Fin p → ℝ) (V : Matrix n (Fin p) ℂ), IsSVD X U s V ∧ Antitone s ∧
    ∃ W, IsEig (Dmdc.knownOperator (lead q hq U) (s ∘ Fin.castLE hq) (lead q hq V) Y B I) W eigs ∧
      modes = Dmdc.knownModes (lead q hq U) (s ∘ Fin.castLE hq) (lead q hq V) Y B I W

/-- `DMDc.fit` without `B`, dmdc.py L111-149 and L323-327: `k` singular values of `omega` and `q` left singular vectors of
`Y` are kept. -/
def Dmdc.IsUnknown {c q : ℕ} (k : ℕ) (X Y : Matrix m n ℂ) (I : Matrix (Fin c) n ℂ) (B : Matrix m (Fin c) ℂ)
    (eigs : Fin q → ℂ) (modes : Matrix m (Fin q) ℂ) : Prop :=
  ∃ (p : ℕ) (hk : k ≤ p) (Up : Matrix (m ⊕ Fin c) (Fin p) ℂ) (sp : Fin p → ℝ) (Vp : Matrix n (Fin p) ℂ),
    IsSVD (Dmdc.omega X I) Up sp Vp ∧ Antitone sp ∧ (∀ i, sp (Fin.castLE hk i) ≠ 0) ∧
    ∃ (py : ℕ) (hq : q ≤ py) (Uy : Matrix m (Fin py) ℂ) (sy : Fin py → ℝ) (Vy : Matrix n (Fin py) ℂ),
      IsSVD Y Uy sy Vy ∧ Antitone sy ∧
      ∃ W, IsEig (Dmdc.unknownOperator Y (lead k hk Up) (sp ∘ Fin.castLE hk) (lead k hk Vp) (lead q hq Uy)) W eigs ∧
        modes = Dmdc.unknownModes Y (lead k hk Up) (sp ∘ Fin.castLE hk) (lead k hk Vp) (lead q hq Uy) W ∧
        B = Dmdc.unknownB Y (lead k hk Up) (sp ∘ Fin.castLE hk) (lead k hk Vp) (lead q hq Uy)

/-- `PiDMD.fit` with the unitary manifold, pidmd_utils.py L18-29 with pidmd.py L196-213, truncated to rank `q`. -/
def Pidmd.IsUnitary [DecidableEq m] {q : ℕ} (X Y : Matrix m n ℂ) (eigs : Fin q → ℂ) (modes : Matrix m (Fin q) ℂ) : Prop :=
  ∃ (p : ℕ) (hq : q ≤ p) (U : Matrix m (Fin p) ℂ) (s : Fin p → ℝ) (V : Matrix n (Fin p) ℂ), IsSVD X U s V ∧ Antitone s ∧
    ∃ (P R : Matrix (Fin q) (Fin q) ℂ) (t : Fin q → ℝ), IsSVD (Pidmd.crossCov (lead q hq U) X Y) P t R ∧
      ∃ W, IsEig (Pidmd.unitaryAtilde P R) W eigs ∧ modes = lead q hq U * W

/-- `PiDMD.fit` with the manifolds `symmetric` and `skewsymmetric`, pidmd_utils.py L103-128 with pidmd.py L196-213, truncated
to rank `q`. -/
def Pidmd.IsSymmetric (skew : Bool) {q : ℕ} (X Y : Matrix m n ℂ) (eigs : Fin q → ℂ) (modes : Matrix m (Fin q) ℂ) : Prop :=
  ∃ (p : ℕ) (hq : q ≤ p) (U : Matrix m (Fin p) ℂ) (s : Fin p → ℝ) (V : Matrix n (Fin p) ℂ), IsSVD X U s V ∧ Antitone s ∧
    ∃ W, IsEig (Pidmd.computeSymmetric skew q hq U s V Y) W eigs ∧ modes = lead q hq U * W

end Verif.Possible
