import Verif.Model.LandoKernel

/-!
# C128: kernels accepted by LANDO
-/

set_option autoImplicit false

namespace Verif.LandoKernel

open Verif

/-- The documented form of a kernel function: a matrix of shape `(n_samples_X, n_samples_Y)` for arrays of
any number of features. -/
def IsKernel (k : Fn) : Prop := ∀ n p q, k.shape n p q = some [p, q]

/-- The documented form of a gradient: shape `(n_samples_X, n_features)`. -/
def IsGradient (g : Fn) : Prop := ∀ n p, g.shape n p 1 = some [p, n]

/-- **C128** (accepted). Python functions of the documented form are accepted, with or without gradient, next
to any supported metric with parameters that sklearn accepts; so is no function at all. -/
theorem C128_accepts_partial (m : Metric) (hm : m ≠ .other) (ga : Gamma) (k g : Fn) (hk : IsKernel k)
    (hkf : k.isFunction = true) (hg : IsGradient g) (hgf : g.isFunction = true) :
    construct m (.dict ga true) none none = .ok () ∧
    construct m (.dict ga true) (some k) none = .ok () ∧
    construct m (.dict ga true) (some k) (some g) = .ok () := by
  have h1 := hk 5 10 20
  have h2 := hg 5 10
  refine ⟨?_, ?_, ?_⟩ <;>
    simp [construct, testInputs, testFunctions, hm, hkf, hgf, h1, h2, bind, Except.bind]

/-- **C128** (rejected). Unknown metrics, parameters that are no dictionary or that sklearn rejects, and a
gradient without function are rejected. -/
theorem C128_rejects (m : Metric) (p : Params) (k g : Option Fn) :
    construct .other p k g = .error .valueError ∧
    (m ≠ .other → construct m .notDict k g = .error .typeError) ∧
    (m ≠ .other → ∀ ga, construct m (.dict ga false) k g = .error .valueError) ∧
    (m ≠ .other → ∀ ga f, construct m (.dict ga true) none (some f) = .error .valueError) := by
  refine ⟨?_, fun hm => ?_, fun hm ga => ?_, fun hm ga f => ?_⟩ <;>
    simp [construct, testInputs, testFunctions, bind, Except.bind, *]

/-- **C128** is false for callables that are not Python functions, such as `functools.partial` objects:
TypeError, whatever they compute. -/
theorem C128_callable_false (m : Metric) (hm : m ≠ .other) (ga : Gamma) (k : Fn) (g : Option Fn)
    (h : k.isFunction = false ∨ ∃ f, g = some f ∧ f.isFunction = false) :
    construct m (.dict ga true) (some k) g = .error .typeError := by
  cases hk : k.isFunction with
  | false => simp [construct, testInputs, testFunctions, hm, hk, bind, Except.bind]
  | true =>
    rw [hk] at h
    obtain h | ⟨f, rfl, hf⟩ := h
    · cases h
    · simp [construct, testInputs, testFunctions, hm, hk, hf, bind, Except.bind]

/-- **C128** is false for kernels made for the dimension `n` of the data, unless `n = 5`: for example with a
matrix of weights for 3 features. -/
theorem C128_dimension_false (m : Metric) (hm : m ≠ .other) (ga : Gamma) (n : ℕ) (hn : n ≠ 5) :
    let k : Fn := ⟨true, fun n' p q => if n' = n then some [p, q] else none⟩
    (∀ p q, k.shape n p q = some [p, q]) ∧
      construct m (.dict ga true) (some k) none = .error .valueError := by
  refine ⟨fun p q => if_pos rfl, ?_⟩
  simp [construct, testInputs, testFunctions, hm, Ne.symm hn, bind, Except.bind]

/-- **C128** (analysis). What the constructor accepts can be differentiated, if `gamma` is not `None` and if
functions come with a gradient of the documented form. -/
theorem C128_gradient_partial (m : Metric) (n : ℕ) (ga : Gamma) (k g : Option Fn)
    (h : construct m (.dict ga true) k g = .ok ()) (hga : ga ≠ .none) (hk : k.isSome = g.isSome)
    (hg : ∀ f ∈ g, IsGradient f) : gradient m n ga k g = .ok () := by
  cases k with
  | none =>
    cases g with
    | none =>
      simp only [gradient]
      split_ifs
      · rfl
      · cases ga with
        | absent => rfl
        | none => exact absurd rfl hga
        | value g => rfl
    | some g => simp at hk
  | some k =>
    cases g with
    | none => simp at hk
    | some g => simp [gradient, hg g rfl n n]

/-- **C128** is false for `gamma=None`, sklearn's own default: accepted by the constructor and by `fit`,
TypeError in every analysis of a fixed point. -/
theorem C128_gamma_false (m : Metric) (hm : m = .poly ∨ m = .rbf) (n : ℕ) :
    construct m (.dict .none true) none none = .ok () ∧
      gradient m n .none none none = .error .typeError := by
  rcases hm with rfl | rfl <;> exact ⟨rfl, rfl⟩

/-- **C128** (function without gradient): accepted by the constructor, but no fixed point can be analysed. -/
theorem C128_without_gradient (m : Metric) (hm : m ≠ .other) (n : ℕ) (ga : Gamma) (k : Fn) (hk : IsKernel k)
    (hkf : k.isFunction = true) :
    construct m (.dict ga true) (some k) none = .ok () ∧ gradient m n ga (some k) none = .error .valueError := by
  refine ⟨?_, rfl⟩
  simp [construct, testInputs, testFunctions, hm, hkf, hk 5 10 20, bind, Except.bind]

/-- **C128** (same number): otherwise kernel and gradient use the same `gamma`. -/
theorem C128_same_gamma (n : ℕ) (ga : Gamma) (g : ℚ) (h : gradientGamma n ga = .ok g) :
    g = kernelGamma n ga := by
  cases ga <;> cases h <;> rfl

/-- A kernel and a gradient of the documented form. -/
example : IsKernel ⟨true, fun _ p q => some [p, q]⟩ ∧ IsGradient ⟨true, fun n p _ => some [p, n]⟩ :=
  ⟨fun _ _ _ => rfl, fun _ _ => rfl⟩

end Verif.LandoKernel
