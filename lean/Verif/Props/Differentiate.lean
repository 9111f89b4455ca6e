import Verif.Model.Differentiate
import Mathlib.Tactic.Ring
import Mathlib.Tactic.FieldSimp
import Mathlib.Tactic.NormNum

/-!
# Property C40: finite differences
-/

set_option autoImplicit false

namespace Verif.Differentiate

open Verif

/-- The formulas are exact on complex quadratics, before the result is stored. -/
theorem formula_exact (dt : ℝ) (hdt : dt ≠ 0) (t0 : ℝ) (a b c : ℂ) (n : ℕ) (hn : 3 ≤ n)
    (x : ℕ → ℂ) (hx : ∀ j < n, x j = a + b * (t0 + j * dt : ℝ) + c * (t0 + j * dt : ℝ) ^ 2)
    (j : ℕ) (hj : j < n) :
    formula dt n x j = b + 2 * c * (t0 + j * dt : ℝ) := by
  have hd : (dt : ℂ) ≠ 0 := by exact_mod_cast hdt
  obtain ⟨k, rfl⟩ : ∃ k, n = k + 3 := ⟨n - 3, by omega⟩
  unfold formula
  split_ifs with h0 h1
  · subst h0
    rw [hx 0 (by omega), hx 1 (by omega), hx 2 (by omega)]
    push_cast; field_simp; ring
  · subst h1
    rw [show k + 3 - 1 = k + 2 by omega, show k + 3 - 2 = k + 1 by omega,
      show k + 3 - 3 = k by omega, hx (k + 2) (by omega), hx (k + 1) (by omega), hx k (by omega)]
    push_cast; field_simp; ring
  · obtain ⟨i, rfl⟩ : ∃ i, j = i + 1 := ⟨j - 1, by omega⟩
    rw [hx (i + 1 + 1) (by omega), show i + 1 - 1 = i by omega, hx i (by omega)]
    push_cast; field_simp; ring

/-- **C40** (exactness). If row `i` of a real array with at least three columns samples
`a_i + b_i t + c_i t²` at `t_j = t0 + j dt`, then `differentiate` returns `b_i + 2 c_i t_j`, at
both ends as well as inside; the shape is kept unless there is a single row. For complex data
only the real part of the derivative is returned (see `C40_complex_false`). -/
theorem C40_exact_partial (dt : ℝ) (hdt : dt ≠ 0) (t0 : ℝ) (a b c : ℕ → ℂ) (rows cols : ℕ)
    (hc : 3 ≤ cols) (x : ℕ → ℕ → ℂ)
    (hx : ∀ i < rows, ∀ j < cols,
      x i j = a i + b i * (t0 + j * dt : ℝ) + c i * (t0 + j * dt : ℝ) ^ 2) :
    ∃ out, differentiate (.twoDim rows cols x) dt = .ok out ∧
      (rows ≠ 1 → out.shape = [rows, cols]) ∧
      (∀ i < rows, ∀ j < cols, out.get i j = (b i).re + 2 * (c i).re * (t0 + j * dt)) ∧
      ((∀ i < rows, (a i).im = 0 ∧ (b i).im = 0 ∧ (c i).im = 0) →
        ∀ i < rows, ∀ j < cols, (out.get i j : ℂ) = b i + 2 * c i * (t0 + j * dt : ℝ)) := by
  have hget : ∀ i < rows, ∀ j < cols, (formula dt cols (x i) j).re =
      (b i).re + 2 * (c i).re * (t0 + j * dt) := by
    intro i hi j hj
    rw [formula_exact dt hdt t0 (a i) (b i) (c i) cols hc (x i) (hx i hi) j hj, Complex.add_re,
      Complex.re_mul_ofReal, Complex.mul_re]
    simp
  refine ⟨_, by rw [differentiate, diff2, if_neg (by omega)], ?_, hget, ?_⟩
  · intro hr
    simp [hr, show cols ≠ 1 by omega]
  · intro him i hi j hj
    obtain ⟨-, hb, hc⟩ := him i hi
    have e : ∀ z : ℂ, z.im = 0 → z = (z.re : ℂ) := fun z hz => Complex.ext (by simp) (by simp [hz])
    simp only [hget i hi j hj]
    rw [e (b i) hb, e (c i) hc]
    simp

/-- **C40** (one-dimensional input): treated as one row and returned one-dimensional. -/
theorem C40_one_dimensional (dt : ℝ) (hdt : dt ≠ 0) (t0 a b c : ℝ) (n : ℕ)
    (hn : 3 ≤ n) (x : ℕ → ℂ)
    (hx : ∀ j < n, x j = (a + b * (t0 + j * dt) + c * (t0 + j * dt) ^ 2 : ℝ)) :
    ∃ out, differentiate (.oneDim n x) dt = .ok out ∧ out.shape = [n] ∧
      ∀ j < n, out.get 0 j = b + 2 * c * (t0 + j * dt) := by
  refine ⟨_, by rw [differentiate, diff2, if_neg (by omega)], ?_, ?_⟩
  · simp [show n ≠ 1 by omega]
  · intro j hj
    show (formula dt n x j).re = _
    rw [formula_exact dt hdt t0 a b c n hn x ?_ j hj]
    · rw [Complex.add_re, Complex.re_mul_ofReal, Complex.mul_re]; simp
    · intro j hj; rw [hx j hj]; push_cast; ring

/-- **C40** (errors). Anything that is not an array and arrays with more than two dimensions raise
`ValueError`; arrays with fewer than three samples raise `IndexError`. -/
theorem C40_errors (dt : ℝ) :
    differentiate .notArray dt = .error .valueError ∧
    (∀ k, differentiate (.more k) dt = .error .valueError) ∧
    (∀ rows cols x, cols < 3 → differentiate (.twoDim rows cols x) dt = .error .indexError) ∧
    (∀ n x, n < 3 → differentiate (.oneDim n x) dt = .error .indexError) ∧
    (∀ rows cols x, 3 ≤ cols → ∃ out, differentiate (.twoDim rows cols x) dt = .ok out) := by
  refine ⟨rfl, fun _ => rfl, fun r c x h => ?_, fun n x h => ?_, fun r c x h => ?_⟩
  · simp [differentiate, diff2, h]
  · simp [differentiate, diff2, h]
  · exact ⟨_, by rw [differentiate, diff2, if_neg (by omega)]⟩

/-- **C40** is false for complex data: the imaginary part of the derivative is dropped. For
`x(t) = i t` the result is `0` instead of `i`. -/
theorem C40_complex_false : ∃ out,
    differentiate (.twoDim 2 3 fun _ j => Complex.I * j) 1 = .ok out ∧
      ∀ i j, (out.get i j : ℂ) ≠ Complex.I ∧ (i < 2 → j < 3 → out.get i j = 0) := by
  refine ⟨_, by rw [differentiate, diff2, if_neg (by omega)], ?_⟩
  intro i j
  refine ⟨?_, ?_⟩
  · intro h
    have := congrArg Complex.im h
    simp at this
  · intro _ hj
    show (formula 1 3 (fun j => Complex.I * j) j).re = 0
    rw [formula_exact 1 one_ne_zero 0 0 Complex.I 0 3 le_rfl _ ?_ j hj]
    · simp
    · intro j _; simp

/-- **C40** is false about the shape: an array of shape `(1, n)` comes back with shape `(n,)`. -/
theorem C40_shape_false (dt : ℝ) (n : ℕ) (hn : 3 ≤ n) (x : ℕ → ℕ → ℂ) : ∃ out,
    differentiate (.twoDim 1 n x) dt = .ok out ∧ out.shape = [n] := by
  refine ⟨_, by rw [differentiate, diff2, if_neg (by omega)], ?_⟩
  simp [show n ≠ 1 by omega]

/-- Two rows, `t²` and `1 - t`, sampled five times with step `1/2` from `1`. -/
example : ∃ out, differentiate (.twoDim 2 5 fun i j =>
      if i = 0 then ((1 + j * (1 / 2) : ℝ) : ℂ) ^ 2 else 1 - ((1 + j * (1 / 2) : ℝ) : ℂ))
      (1 / 2) = .ok out ∧ out.shape = [2, 5] ∧ out.get 0 4 = 6 ∧ out.get 1 0 = -1 := by
  obtain ⟨out, h1, h2, h3, -⟩ := C40_exact_partial (1 / 2) (by norm_num) 1
    (fun i => if i = 0 then 0 else 1) (fun i => if i = 0 then 0 else -1)
    (fun i => if i = 0 then 1 else 0) 2 5 (by norm_num)
    (fun i j => if i = 0 then ((1 + j * (1 / 2) : ℝ) : ℂ) ^ 2 else 1 - ((1 + j * (1 / 2) : ℝ) : ℂ))
    (by intro i _ j _; by_cases h : i = 0 <;> simp [h])
  refine ⟨out, h1, h2 (by norm_num), ?_, ?_⟩
  · rw [h3 0 (by norm_num) 4 (by norm_num)]; norm_num
  · rw [h3 1 (by norm_num) 0 (by norm_num)]; norm_num

end Verif.Differentiate
