import Verif.Model.CostsKern

/-!
# C126: the windows of COSTS before the fit
-/

set_option autoImplicit false

namespace Verif.CostsKern

open Verif Real

theorem one_sub_tanh (x : ℝ) : 1 - tanh x = 2 / (exp (2 * x) + 1) := by
  rw [Real.tanh_eq_sinh_div_cosh, Real.sinh_eq, Real.cosh_eq, two_mul, exp_add, exp_neg]
  have := exp_pos x
  field_simp
  ring

theorem tanh_lt_one' (x : ℝ) : tanh x < 1 := by
  have := one_sub_tanh x
  have h : 0 < 2 / (exp (2 * x) + 1) := by positivity
  linarith

theorem lvKern_eq (wl : ℕ) (hw : 0 < wl) (c : Option ℝ) (i : ℕ) :
    lvKern wl c i = 1 - 2 / (exp (2 * (sharpness c * (i / wl))) + 1) -
      2 / (exp (2 * (sharpness c * ((wl + 1 - i : ℝ) / wl))) + 1) := by
  have hw' : (wl : ℝ) ≠ 0 := by positivity
  have h : sharpness c * ((i : ℝ) - wl - 1) / wl = -(sharpness c * ((wl + 1 - i : ℝ) / wl)) := by
    field_simp; ring
  rw [lvKern, h, Real.tanh_neg]
  have h1 := one_sub_tanh (sharpness c * (i / wl))
  have h2 := one_sub_tanh (sharpness c * ((wl + 1 - i : ℝ) / wl))
  linarith

/-- **C126** (bounds). With a sharpness of at least 3/2 (the default is 16) and windows of at most `exp`
of it, all weights but the first are between 0 and 1. -/
theorem C126_bounds_partial (wl i : ℕ) (c : Option ℝ) (hc : 3 / 2 ≤ sharpness c)
    (hw : (wl : ℝ) ≤ exp (sharpness c)) (hi : 0 < i) (hil : i < wl) :
    0 < lvKern wl c i ∧ lvKern wl c i < 1 := by
  have hw0 : 0 < wl := by omega
  rw [lvKern_eq wl hw0]
  generalize sharpness c = s at hc hw ⊢
  have hwr : (2 : ℝ) ≤ wl := by exact_mod_cast (show 2 ≤ wl by omega)
  have hir : (1 : ℝ) ≤ i := by exact_mod_cast hi
  have hilr : (i : ℝ) + 1 ≤ wl := by exact_mod_cast hil
  have hwp : (0 : ℝ) < wl := by linarith
  set δ := s / wl with hδ
  have hδ0 : 0 < δ := by positivity
  have ha : s * ((i : ℝ) / wl) = δ * i := by rw [hδ]; field_simp
  have hb : s * ((wl + 1 - i : ℝ) / wl) = s + δ * (1 - i) := by rw [hδ]; field_simp; ring
  have hs : δ * wl = s := by rw [hδ]; field_simp
  rw [ha, hb]
  set u := exp (2 * (δ * i)) with hu
  set v := exp (2 * (s + δ * (1 - i))) with hv
  have hu0 : 0 < u := exp_pos _
  have hv0 : 0 < v := exp_pos _
  constructor
  · -- `u v > 3 + u + v`
    have huv : u * v = exp (2 * s) * exp (2 * δ) := by
      rw [hu, hv, ← exp_add, ← exp_add]; congr 1; ring
    have hue : exp (2 * δ) ≤ u := exp_le_exp.2 (by nlinarith)
    have hve : exp (2 * δ) ≤ v := exp_le_exp.2 (by nlinarith)
    -- with a fixed product the sum is largest at the ends
    have hsum : u + v ≤ exp (2 * s) + exp (2 * δ) := by
      have h0 : 0 < exp (2 * δ) := exp_pos _
      have : 0 ≤ (u - exp (2 * δ)) * (v - exp (2 * δ)) :=
        mul_nonneg (by linarith) (by linarith)
      have h2 : exp (2 * δ) * (u + v) ≤ exp (2 * δ) * (exp (2 * s) + exp (2 * δ)) := by nlinarith
      exact le_of_mul_le_mul_left h2 h0
    have hkey : 3 + exp (2 * s) + exp (2 * δ) < exp (2 * s) * exp (2 * δ) := by
      have he1 : 1 + 2 * δ ≤ exp (2 * δ) := by linarith [Real.add_one_le_exp (2 * δ)]
      -- `exp (2 δ) ≤ exp s`
      have he2 : exp (2 * δ) ≤ exp s := exp_le_exp.2 (by nlinarith)
      have hss : exp (2 * s) = exp s * exp s := by rw [← exp_add]; congr 1; ring
      have hs1 : 1 + s ≤ exp s := by linarith [Real.add_one_le_exp s]
      have hes : 0 < exp s := exp_pos s
      have hδs : s ≤ δ * exp s := by nlinarith
      have h3 : 3 * exp s ≤ exp (2 * s) * (2 * δ) := by
        rw [hss]
        have : 3 ≤ 2 * (δ * exp s) := by linarith
        nlinarith
      have h4 : exp (2 * s) * (2 * δ) ≤ exp (2 * s) * (exp (2 * δ) - 1) :=
        mul_le_mul_of_nonneg_left (by linarith) (exp_pos _).le
      nlinarith
    have : 2 / (u + 1) + 2 / (v + 1) < 1 := by
      rw [div_add_div _ _ (by positivity) (by positivity), div_lt_one (by positivity)]
      nlinarith
    linarith
  · have h1 : 0 < 2 / (u + 1) := by positivity
    have h2 : 0 < 2 / (v + 1) := by positivity
    linarith

/-- **C126** is false for the first snapshot of every window: its weight is negative. -/
theorem C126_first_false (wl : ℕ) (hw : 0 < wl) (c : Option ℝ) : lvKern wl c 0 < 0 := by
  rw [lvKern_eq wl hw]
  have : 0 < 2 / (exp (2 * (sharpness c * ((wl + 1 - (0 : ℕ) : ℝ) / wl))) + 1) := by positivity
  simp only [Nat.cast_zero, zero_div, mul_zero, exp_zero] at this ⊢
  norm_num at this ⊢
  linarith

/-- **C126** (symmetry): the weights are symmetric about `(wl + 1) / 2`, one step after the middle
`(wl - 1) / 2` of the window ... -/
theorem C126_centre (wl : ℕ) (hw : 0 < wl) (c : Option ℝ) (i : ℕ) (hi : i ≤ wl + 1) :
    lvKern wl c (wl + 1 - i) = lvKern wl c i := by
  rw [lvKern_eq wl hw, lvKern_eq wl hw, Nat.cast_sub hi]
  push_cast
  rw [show ((wl : ℝ) + 1 - (wl + 1 - i)) = i by ring]
  ring

/-- ... so that **C126** is false for the symmetry of a window: first and last snapshot have weights of
different sign. -/
theorem C126_symmetric_false (wl : ℕ) (c : Option ℝ) (hc : 3 / 2 ≤ sharpness c)
    (hw : (wl : ℝ) ≤ exp (sharpness c)) (h2 : 2 ≤ wl) :
    lvKern wl c 0 < 0 ∧ 0 < lvKern wl c (wl - 1) :=
  ⟨C126_first_false wl (by omega) c, (C126_bounds_partial wl (wl - 1) c hc hw (by omega) (by omega)).1⟩

/-- **C126** (middle). In the middle half of a window the weights differ from 1 by at most
`4 exp(-c / 2)`. -/
theorem C126_middle (wl i : ℕ) (c : Option ℝ) (hc : 0 ≤ sharpness c) (hw : 0 < wl)
    (h1 : wl ≤ 4 * i) (h2 : 4 * i ≤ 3 * wl) : |1 - lvKern wl c i| ≤ 4 * exp (-(sharpness c / 2)) := by
  rw [lvKern_eq wl hw]
  generalize sharpness c = s at hc ⊢
  have hwp : (0 : ℝ) < wl := by exact_mod_cast hw
  have h1r : (wl : ℝ) ≤ 4 * i := by exact_mod_cast h1
  have h2r : 4 * (i : ℝ) ≤ 3 * wl := by exact_mod_cast h2
  have key : ∀ x : ℝ, s / 2 ≤ x → 2 / (exp x + 1) ≤ 2 * exp (-(s / 2)) := by
    intro x hx
    rw [exp_neg, ← div_eq_mul_inv]
    exact div_le_div_of_nonneg_left (by norm_num) (exp_pos _) (by linarith [exp_le_exp.2 hx])
  have ha : s / 2 ≤ 2 * (s * ((i : ℝ) / wl)) := by
    have : 1 / 4 ≤ (i : ℝ) / wl := by rw [div_le_div_iff₀ (by norm_num) hwp]; linarith
    nlinarith
  have hb : s / 2 ≤ 2 * (s * ((wl + 1 - i : ℝ) / wl)) := by
    have : 1 / 4 ≤ (wl + 1 - i : ℝ) / wl := by rw [div_le_div_iff₀ (by norm_num) hwp]; linarith
    nlinarith
  have k1 := key _ ha
  have k2 := key _ hb
  have p1 : 0 < 2 / (exp (2 * (s * ((i : ℝ) / wl))) + 1) := by positivity
  have p2 : 0 < 2 / (exp (2 * (s * ((wl + 1 - i : ℝ) / wl))) + 1) := by positivity
  rw [abs_of_nonneg (by linarith)]
  linarith

/-- **C126** (default): for windows of at most `exp 16` (about 8.9 million) steps the weights of the default
rounding are between 0 and 1 but for the first one, and within `4 exp(-8)` of 1 in the middle half. -/
theorem C126_default_partial (wl i : ℕ) (hw : (wl : ℝ) ≤ exp 16) (hi : 0 < i) (hil : i < wl) :
    (0 < lvKern wl none i ∧ lvKern wl none i < 1) ∧
      (wl ≤ 4 * i → 4 * i ≤ 3 * wl → |1 - lvKern wl none i| ≤ 4 * exp (-8)) := by
  refine ⟨C126_bounds_partial wl i none (by norm_num [sharpness]) hw hi hil, fun h1 h2 => ?_⟩
  have := C126_middle wl i none (by norm_num [sharpness]) (by omega) h1 h2
  rwa [show sharpness none / 2 = 8 by norm_num [sharpness]] at this

/-- **C126** is false for sharpness 0, which does not switch the rounding off: the data change their
sign. -/
theorem C126_zero_false (wl : ℕ) (x : ℕ → ℕ → ℝ) (a i : ℕ) :
    prepared wl (some 0) x a i = -(x a i - (∑ j ∈ Finset.range wl, x a j) / wl) := by
  simp [prepared, lvKern, sharpness]

/-- **C126** (constant data). A variable that is constant over a window is zero after the preparation. -/
theorem C126_constant (wl : ℕ) (hw : 0 < wl) (c : Option ℝ) (x : ℕ → ℕ → ℝ) (a : ℕ) (m : ℝ)
    (h : ∀ i < wl, x a i = m) : ∀ i < wl, prepared wl c x a i = 0 := by
  intro i hi
  have : (∑ j ∈ Finset.range wl, x a j) = wl * m := by
    rw [Finset.sum_congr rfl fun j hj => h j (Finset.mem_range.1 hj), Finset.sum_const,
      Finset.card_range, nsmul_eq_mul]
  have hwp : (wl : ℝ) ≠ 0 := by positivity
  rw [prepared, h i hi, this]
  field_simp
  ring

/-- **C126** (times). Times of shape `(1, n)` pass the checks ... -/
theorem C126_time_partial (n : ℕ) : timeCheck n [1, n] = .ok () := by simp [timeCheck]

/-- ... but it is false that a series of `n` times is accepted: one-dimensional arrays pass the test of
their size and raise IndexError afterwards. -/
theorem C126_time_false (n : ℕ) : timeCheck n [n] = .error .indexError := by simp [timeCheck]

theorem C126_time_size (n : ℕ) (shape : List ℕ) (h : shape.prod ≠ n) :
    timeCheck n shape = .error .valueError := by simp [timeCheck, h]

/-- The defaults: windows of 1000 steps. -/
example : 0 < lvKern 1000 none 999 ∧ lvKern 1000 none 0 < 0 := by
  have h : (1000 : ℕ) ≤ exp (sharpness none) := by
    have h1 : exp 16 = exp 1 ^ 16 := by rw [← exp_nat_mul]; norm_num
    have h2 : (2 : ℝ) ≤ exp 1 := by linarith [Real.add_one_le_exp (1 : ℝ)]
    have h3 : (2 : ℝ) ^ 16 ≤ exp 1 ^ 16 := pow_le_pow_left₀ (by norm_num) h2 16
    simp only [sharpness, h1]
    norm_num at h3 ⊢
    linarith
  exact ⟨(C126_symmetric_false 1000 none (by norm_num [sharpness]) h (by norm_num)).2,
    C126_first_false 1000 (by norm_num) none⟩

end Verif.CostsKern
