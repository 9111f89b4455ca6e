import Verif.Model.Wrapped
import Verif.Props.Prepost

/-!
# C127: wrapped DMDs in place of DMDs
-/

set_option autoImplicit false

namespace Verif.Wrapped

open Verif Verif.Prepost

variable {D B : Type}

/-- **C127** (files). A DMD without wrapper comes back from a file as it was. -/
theorem C127_save_partial (c : Base D B) (b : B) :
    (saveLoad (.base b : Obj D B)).recon c = Obj.recon c (.base b : Obj D B) := rfl

/-- **C127** is false for every wrapped DMD: the file contains the DMD inside only, so that the
reconstruction comes back without any post-processing. -/
theorem C127_save_false (c : Base D B) (l : Layer D) (b : B) (x : D) :
    let o := (Obj.stack [l] b).fit c x
    o.recon c = .ok (l.post (l.pre x).1 (c.recon (c.fit b (l.pre x).2))) ∧
      (saveLoad o).recon c = .ok (c.recon (c.fit b (l.pre x).2)) := ⟨rfl, rfl⟩

/-- All layers are lost, however many there are. -/
theorem C127_save_layers (ls : List (Layer D)) (b : B) :
    layers (Obj.stack ls b) = ls.length ∧ layers (saveLoad (Obj.stack ls b)) = 0 ∧
      inner (saveLoad (Obj.stack ls b)) = b := by
  have h : layers (Obj.stack ls b) = ls.length ∧ inner (Obj.stack ls b) = b := by
    induction ls with
    | nil => exact ⟨rfl, rfl⟩
    | cons l ls ih => exact ⟨congrArg (· + 1) ih.1, ih.2⟩
  exact ⟨h.1, rfl, h.2⟩

/-- A witness: numbers as data, subtraction of an offset, a DMD that reproduces what it is fitted to. -/
example : ∃ (c : Base ℚ ℚ) (l : Layer ℚ), (∀ x, ((Obj.stack [l] 0).fit c x).recon c = .ok x) ∧
    (saveLoad ((Obj.stack [l] 0).fit c 5)).recon c = .ok 2 := by
  refine ⟨⟨fun _ x => x, fun _ => ⟨0, 0, 1⟩, fun b _ => b, id⟩, ⟨ℚ, fun x => (3, x - 3), fun s y => y + s⟩,
    fun x => ?_, ?_⟩
  · exact (C127_save_false _ _ _ x).1.trans (by simp)
  · exact (C127_save_false _ _ _ 5).2.trans (by norm_num)

/-- **C127** is false for subscripts: `wrapped[key]` raises TypeError for every key, also for those the DMD
accepts. -/
theorem C127_getitem_false {K R : Type} (get : B → K → Except PyErr R) (ls : List (Layer D)) (hl : ls ≠ [])
    (b : B) (k : K) : getItem get (Obj.stack ls b) k = .error .typeError := by
  cases ls with
  | nil => exact absurd rfl hl
  | cons l ls => rfl

/-- **C127** (MrDMD). Wrapped DMDs can be given to MrDMD as a list with one entry for each level, or by a
function ... -/
theorem C127_mr_partial (n : ℕ) (os : List (Obj D B)) (h : os.length = n + 1) (f : ℕ → ℕ → Obj D B) :
    (∃ g, builder n (.list os) = .ok g ∧ ∀ level leaf, g level leaf = os[level]?) ∧
    ∃ g, builder n (.func f) = .ok g ∧ ∀ level leaf, g level leaf = some (f level leaf) :=
  ⟨⟨_, if_neg (not_not.2 h), fun _ _ => rfl⟩, _, rfl, fun _ _ => rfl⟩

/-- ... but **C127** is false for a single one, where a DMD is accepted: UnboundLocalError. -/
theorem C127_mr_false (n : ℕ) (ls : List (Layer D)) (b : B) :
    (ls ≠ [] → builder n (.one (Obj.stack ls b)) = .error .unboundLocalError) ∧
    ∃ g, builder n (.one (.base b : Obj D B)) = .ok g ∧ ∀ level leaf, g level leaf = some (.base b) := by
  refine ⟨fun hl => ?_, _, rfl, fun _ _ => rfl⟩
  cases ls with
  | nil => exact absurd rfl hl
  | cons l ls => rfl

/-- **C127** (MrDMD): a list of another length raises ValueError. -/
theorem C127_mr_length (n : ℕ) (os : List (Obj D B)) (h : os.length ≠ n + 1) :
    builder n (.list os) = .error .valueError := if_pos h

/-- **C127** (`plot_summary`). The continuous-time eigenvalues `ws` of the fit are shown for BOP-DMD with at
most one wrapper, and for the other classes with any number of wrappers as long as the frequencies are below
the Nyquist frequency; and whenever the caller says that the eigenvalues are continuous-time ones. -/
theorem C127_summary_partial (k : ℕ) (dt : ℝ) (hdt : 0 < dt) (ws : List ℂ)
    (hw : ∀ w ∈ ws, -Real.pi < w.im * dt ∧ w.im * dt ≤ Real.pi) :
    (k ≤ 1 → summaryEigs true k false dt ws = (ws.map fun w => Complex.exp (w * dt), ws)) ∧
    summaryEigs false k false dt (ws.map fun w => Complex.exp (w * dt)) =
      (ws.map fun w => Complex.exp (w * dt), ws) ∧
    ∀ isBop, summaryEigs isBop k true dt ws = (ws.map fun w => Complex.exp (w * dt), ws) := by
  refine ⟨?_, ?_, fun isBop => by simp [summaryEigs]⟩
  · intro hk
    simp [summaryEigs, hk]
  · simp only [summaryEigs, Bool.false_and, Bool.or_self, Bool.false_eq_true, if_false, List.map_map]
    congr 1
    conv_rhs => rw [← List.map_id ws]
    refine List.map_congr_left fun w hm => ?_
    have hd : (dt : ℂ) ≠ 0 := by exact_mod_cast hdt.ne'
    simp only [Function.comp_apply, id]
    rw [Complex.log_exp (by simpa using (hw w hm).1) (by simpa using (hw w hm).2)]
    field_simp

/-- **C127** is false for BOP-DMD with two or more wrappers: the logarithm is taken of eigenvalues that are
continuous-time already. A stable eigenvalue -1 is shown as purely oscillating. -/
theorem C127_summary_false (k : ℕ) (hk : 2 ≤ k) :
    summaryEigs true k false 1 [-1] = ([-1], [Real.pi * Complex.I]) := by
  have : ¬ k ≤ 1 := by omega
  simp [summaryEigs, this, Complex.log_neg_one]

example : summaryEigs true 1 false 1 [-1] = ([Complex.exp (-1)], [-1]) := by simp [summaryEigs]

end Verif.Wrapped
