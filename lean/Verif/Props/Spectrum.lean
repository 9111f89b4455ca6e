import Verif.Model.Spectrum
import Verif.Lemmas.Param
import Mathlib.Analysis.SpecialFunctions.Complex.LogBounds
import Mathlib.Analysis.Real.Pi.Bounds
import Mathlib.Tactic

/-!
# C113: frequencies and growth rates
-/

set_option autoImplicit false

namespace Verif.Spectrum

open Verif

/-- The eigenvalue a DMD finds for a component `exp ((σ + 2 π i f) t)` sampled with step `dt`. -/
noncomputable def sampled (σ f dt : ℝ) : ℂ := Complex.exp ((σ + 2 * Real.pi * f * Complex.I) * dt)

theorem sampled_eq (σ f dt : ℝ) : sampled σ f dt =
    ((Real.exp (σ * dt) : ℝ) : ℂ) * Complex.exp ((2 * Real.pi * f * dt : ℝ) * Complex.I) := by
  rw [sampled, Complex.ofReal_exp, ← Complex.exp_add]
  congr 1
  push_cast
  ring

theorem log_sampled (σ f dt : ℝ) : ∃ n : ℤ, (Complex.log (sampled σ f dt)).im =
    2 * Real.pi * f * dt + n * (2 * Real.pi) := by
  have him : ((σ + 2 * Real.pi * f * Complex.I) * dt : ℂ).im = 2 * Real.pi * f * dt := by simp
  rw [sampled, Complex.log_exp_eq_sub_toIocDiv, Complex.sub_im, him]
  generalize toIocDiv Real.two_pi_pos (-Real.pi) (2 * Real.pi * f * dt) = m
  refine ⟨-m, ?_⟩
  have : ((m : ℂ) * (2 * Real.pi * Complex.I)).im = m * (2 * Real.pi) := by simp
  rw [this]
  push_cast
  ring

/-- **C113** (frequency), for arrays of complex eigenvalues. For components with growth rates `σ` and
frequencies `f` the frequencies returned lie in the half-open interval of length `1/dt` around 0 and
differ from `f` by a multiple of the sampling rate; they are `f` below half of it. -/
theorem C113_frequency_partial (comps : List (ℝ × ℝ)) (w : Time.Window) (hdt : 0 < w.dt) :
    ∃ fs, frequency (.cplx (comps.map fun c => sampled c.1 c.2 w.dt)) (some w) = .ok fs ∧
      fs.length = comps.length ∧ ∀ (k : ℕ) σ f φ, comps[k]? = some (σ, f) → fs[k]? = some φ →
        -(1 / (2 * (w.dt : ℝ))) < φ ∧ φ ≤ 1 / (2 * (w.dt : ℝ)) ∧
        (∃ n : ℤ, φ = f + n / (w.dt : ℝ)) ∧ (|f| < 1 / (2 * (w.dt : ℝ)) → φ = f) := by
  refine ⟨_, rfl, by simp [logImag], ?_⟩
  intro k σ f φ hc hf
  have hd : (0 : ℝ) < w.dt := by exact_mod_cast hdt
  have hpi := Real.pi_pos
  have h2 : (0 : ℝ) < 2 * Real.pi * w.dt := by positivity
  simp only [logImag, List.map_map, List.getElem?_map, hc, Option.map_some, Option.some.injEq,
    Function.comp_apply] at hf
  obtain ⟨n, hn⟩ := log_sampled σ f w.dt
  have hl := Complex.neg_pi_lt_log_im (sampled σ f w.dt)
  have hu := Complex.log_im_le_pi (sampled σ f w.dt)
  have h1 : -(1 / (2 * (w.dt : ℝ))) < φ := by
    rw [← hf, lt_div_iff₀ h2]
    have : -(1 / (2 * (w.dt : ℝ))) * (2 * Real.pi * w.dt) = -Real.pi := by field_simp
    linarith
  have h3 : φ ≤ 1 / (2 * (w.dt : ℝ)) := by
    rw [← hf, div_le_iff₀ h2]
    have : (1 / (2 * (w.dt : ℝ))) * (2 * Real.pi * w.dt) = Real.pi := by field_simp
    linarith
  have h4 : φ = f + n / (w.dt : ℝ) := by
    rw [← hf, hn]
    field_simp
  refine ⟨h1, h3, ⟨n, h4⟩, fun hlt => ?_⟩
  rw [abs_lt] at hlt
  have hb : (n : ℝ) / w.dt = φ - f := by rw [h4]; ring
  have e1 : (n : ℝ) / w.dt < 1 / w.dt := by
    have : (1 : ℝ) / w.dt = 1 / (2 * w.dt) + 1 / (2 * w.dt) := by field_simp; norm_num
    rw [hb, this]; linarith
  have e2 : -(1 / (w.dt : ℝ)) < (n : ℝ) / w.dt := by
    have : (1 : ℝ) / w.dt = 1 / (2 * w.dt) + 1 / (2 * w.dt) := by field_simp; norm_num
    rw [hb, this]; linarith
  rw [div_lt_div_iff_of_pos_right hd] at e1
  rw [← neg_div, div_lt_div_iff_of_pos_right hd] at e2
  have : n = 0 := by
    have a : n < 1 := by exact_mod_cast e1
    have b : -1 < n := by exact_mod_cast e2
    omega
  rw [h4, this]; simp

/-- **C113** (dynamics). The frequency returned is the one the dynamics of the mode oscillate with, at
all times and not at the samples only: the power of the eigenvalue at time `t` is
`exp ((g + 2 π i φ) (t - t0))`, where `g = log |λ| / dt`. -/
theorem C113_dynamics (l : List ℂ) (hl : ∀ z ∈ l, z ≠ 0) (w : Time.Window) (hdt : 0 < w.dt) (t : ℚ) :
    ∃ fs, frequency (.cplx l) (some w) = .ok fs ∧
      ∀ (k : ℕ) z φ, l[k]? = some z → fs[k]? = some φ →
        (powers ((t - w.t0) / w.dt) (.cplx l))[k]? = some (some (Complex.exp
          (((Real.log ‖z‖ / w.dt : ℝ) + 2 * Real.pi * φ * Complex.I) * ((t - w.t0 : ℚ) : ℝ)))) := by
  refine ⟨_, rfl, ?_⟩
  intro k z φ hz hf
  have hd : (w.dt : ℂ) ≠ 0 := by
    have : w.dt ≠ 0 := hdt.ne'
    exact_mod_cast this
  have hpi : (Real.pi : ℂ) ≠ 0 := by exact_mod_cast Real.pi_pos.ne'
  simp only [logImag, List.map_map, List.getElem?_map, hz, Option.map_some, Option.some.injEq,
    Function.comp_apply] at hf
  simp only [powers, List.getElem?_map, hz, Option.map_some, Time.npPow, Option.some.injEq]
  rw [Complex.cpow_def_of_ne_zero (hl z (List.mem_of_getElem? hz))]
  congr 1
  have hlog : Complex.log z = (Real.log ‖z‖ : ℂ) + (Complex.log z).im * Complex.I := by
    rw [← Complex.log_re, Complex.re_add_im]
  rw [hlog, ← hf]
  push_cast
  field_simp

/-- **C113**: if the time step of `original_time` is set to `c` times the old one, the frequencies are
divided by `c`. -/
theorem C113_units (eigs : Eigs) (w w' : Time.Window) (c : ℚ) (hc : w'.dt = c * w.dt)
    (fs fs' : List ℝ) (h : frequency eigs (some w) = .ok fs) (h' : frequency eigs (some w') = .ok fs') :
    fs' = fs.map fun f => f / (c : ℝ) := by
  simp only [frequency, Except.ok.injEq] at h h'
  rw [← h, ← h', List.map_map]
  apply List.map_congr_left
  intro a _
  simp only [Function.comp_apply, hc, div_div]
  congr 1
  push_cast
  ring

/-- **C113** is false for arrays of real eigenvalues: for all of them every frequency is 0, also for a
negative eigenvalue, whose mode changes its sign at every step (frequency `1/(2 dt)`); and its dynamics
between two snapshots are `nan`. As an array of complex numbers the same eigenvalue has the frequency
`1/(2 dt)` and dynamics at all times. -/
theorem C113_real_false (x : ℝ) (hx : x < 0) (w : Time.Window) (hdt : 0 < w.dt) (p : ℚ)
    (hp : p.den ≠ 1) :
    frequency (.real [x]) (some w) = .ok [0] ∧
      frequency (.cplx [(x : ℂ)]) (some w) = .ok [1 / (2 * (w.dt : ℝ))] ∧
      powers p (.real [x]) = [none] ∧ powers p (.cplx [(x : ℂ)]) = [some ((x : ℂ) ^ (p : ℂ))] := by
  have hd : (0 : ℝ) < w.dt := by exact_mod_cast hdt
  refine ⟨by simp [frequency, logImag], ?_, by simp [powers, powReal, hx, hp],
    by simp [powers, Time.npPow]⟩
  have : (Complex.log (x : ℂ)).im = Real.pi := by rw [Complex.log_im, Complex.arg_ofReal_of_neg hx]
  simp only [frequency, logImag, List.map_cons, List.map_nil, this]
  congr 2
  have := Real.pi_pos.ne'
  field_simp

/-- At the snapshots the two types of arrays agree. -/
theorem C113_snapshots (l : List ℝ) (_hl : ∀ x ∈ l, x ≠ 0) (n : ℤ) :
    powers n (.real l) = powers n (.cplx (l.map fun x : ℝ => (x : ℂ))) := by
  simp only [powers, List.map_map]
  apply List.map_congr_left
  intro x hx
  simp only [Function.comp_apply, Time.npPow, powReal]
  split_ifs with h1 h2
  · simp
  · simp at h2
  · simp only [Option.map_some, Option.some.injEq]
    push_cast
    rw [Complex.ofReal_cpow (not_lt.mp h1)]
    simp

/-- **C113** is false for `growth_rate`: a component that decays (`σ < 0`, any frequency below half the
Nyquist frequency) has a positive growth rate, and no growth rate returned is ever below `-1/dt` for a
decaying component, however fast it decays. -/
theorem C113_growth_false (σ f : ℝ) (hσ : σ < 0) (w : Time.Window) (hdt : 0 < w.dt) :
    ∃ g, growthRate (.cplx [sampled σ f w.dt]) (some w) = .ok [g] ∧ -(1 / (w.dt : ℝ)) < g ∧
      (|f| < 1 / (4 * (w.dt : ℝ)) → 0 < g) := by
  have hd : (0 : ℝ) < w.dt := by exact_mod_cast hdt
  have hre : (sampled σ f w.dt).re = Real.exp (σ * w.dt) * Real.cos (2 * Real.pi * f * w.dt) := by
    rw [sampled_eq, Complex.re_ofReal_mul, Complex.exp_ofReal_mul_I_re]
  refine ⟨_, rfl, ?_, fun hf => ?_⟩
  · simp only [hre]
    rw [← neg_div, div_lt_div_iff_of_pos_right hd]
    have h1 : Real.exp (σ * w.dt) < 1 := by
      rw [Real.exp_lt_one_iff]; exact mul_neg_of_neg_of_pos hσ hd
    have h2 := Real.neg_one_le_cos (2 * Real.pi * f * w.dt)
    have h3 := Real.exp_pos (σ * w.dt)
    nlinarith
  · simp only [hre]
    apply div_pos _ hd
    apply mul_pos (Real.exp_pos _)
    apply Real.cos_pos_of_mem_Ioo
    have hpi := Real.pi_pos
    rw [abs_lt] at hf
    have e : 1 / (4 * (w.dt : ℝ)) * (2 * Real.pi * w.dt) = Real.pi / 2 := by field_simp; norm_num
    have h2 : (0 : ℝ) < 2 * Real.pi * w.dt := by positivity
    constructor
    · have := mul_lt_mul_of_pos_right hf.1 h2
      linarith
    · have := mul_lt_mul_of_pos_right hf.2 h2
      linarith

/-- **C113** is false for `growth_rate` of a mode that neither grows nor decays: it is `1/dt`. -/
theorem C113_neutral_false (w : Time.Window) :
    growthRate (.cplx [sampled 0 0 w.dt]) (some w) = .ok [1 / (w.dt : ℝ)] := by
  simp [growthRate, realPart, sampled]

/-- **C113** is false for BOP-DMD: after every fit both accessors raise RuntimeError (saying that
`fit` has not been called). -/
theorem C113_bop_false (eigs : Eigs) (n : ℕ) :
    frequency eigs (Cls.timeAfterFit .bop n) = .error .runtimeError ∧
      growthRate eigs (Cls.timeAfterFit .bop n) = .error .runtimeError ∧
      frequency eigs (Cls.timeAfterFit .dmd n) ≠ .error .runtimeError := by
  refine ⟨rfl, rfl, by simp [Cls.timeAfterFit, frequency]⟩

/-- **C113** for VarPro-DMD, which returns continuous eigenvalues: at all times the dynamics of a mode
are `exp ((g + 2 π i φ) t)` with `g` the growth rate and `φ` the frequency returned. -/
theorem C113_varpro (l : List ℂ) (t : ℝ) (k : ℕ) (g φ : ℝ) (hg : (varproGrowthRate l)[k]? = some g)
    (hφ : (varproFrequency l)[k]? = some φ) :
    (varproPowers l t)[k]? = some (Complex.exp ((g + 2 * Real.pi * φ * Complex.I) * t)) := by
  simp only [varproGrowthRate, varproFrequency, List.getElem?_map, Option.map_eq_some_iff] at hg hφ
  obtain ⟨z, hz, rfl⟩ := hg
  obtain ⟨z', hz', rfl⟩ := hφ
  rw [hz] at hz'
  cases hz'
  simp only [varproPowers, List.getElem?_map, hz, Option.map_some, Option.some.injEq]
  congr 2
  have hpi : (Real.pi : ℂ) ≠ 0 := by exact_mod_cast Real.pi_pos.ne'
  conv_lhs => rw [← Complex.re_add_im z]
  push_cast
  field_simp

/-- **C113** for `time_window_frequency` of MrDMD (`growthRate` alike): the values of the leaves that
the window meets, one after the other; a window that meets none raises ValueError. -/
theorem C113_window (window : Time.Window) (maxLevel : ℕ) (eigs : ℕ × ℕ → Eigs) (n : ℕ × ℕ → ℕ)
    (t0 tend : ℚ) :
    timeWindow frequency window maxLevel (fun b => (eigs b, Cls.timeAfterFit .dmd (n b))) t0 tend =
      if MrDMD.timeWindowBins window maxLevel t0 tend = [] then .error .valueError
      else .ok ((MrDMD.timeWindowBins window maxLevel t0 tend).flatMap fun b =>
        (logImag (eigs b)).map fun a => a / (2 * Real.pi)) := by
  unfold timeWindow
  cases h : MrDMD.timeWindowBins window maxLevel t0 tend with
  | nil => simp
  | cons b bs =>
    rw [if_neg (by simp)]
    simp only [frequency, Cls.timeAfterFit]
    have hm : (b :: bs).mapM (fun b => (Except.ok ((logImag (eigs b)).map fun a =>
        a / (2 * Real.pi * ((Time.fitWindow (n b)).dt : ℝ))) : Except PyErr (List ℝ))) =
        .ok ((b :: bs).map fun b => (logImag (eigs b)).map fun a => a / (2 * Real.pi)) := by
      apply Param.mapM_ok
      · simp
      · intro i x y hx hy
        simp only [List.getElem?_map, hx, Option.map_some, Option.some.injEq] at hy
        rw [← hy]
        simp [Time.fitWindow]
    rw [hm]
    simp [Except.map, List.flatMap]

/-- **C113** is false for `time_window_frequency` once the time step of the MrDMD is set: its leaves
keep the step 1, so a component with frequency `f ≠ 0` (below the Nyquist frequency) in a single leaf
comes back as `f * dt`, while the bins are found with the times set. -/
theorem C113_mrdmd_false (σ f : ℝ) (hf : f ≠ 0) (w : Time.Window) (hdt : 0 < w.dt) (h1 : w.dt ≠ 1)
    (hN : |f| < 1 / (2 * (w.dt : ℝ))) (hw : w.t0 < w.tend) (n : ℕ) :
    timeWindow frequency w 0 (fun _ => (.cplx [sampled σ f w.dt], Cls.timeAfterFit .dmd n))
      w.t0 w.tend = .ok [f * w.dt] ∧ f * w.dt ≠ f := by
  have hd : (0 : ℝ) < w.dt := by exact_mod_cast hdt
  have hbins : MrDMD.timeWindowBins w 0 w.t0 w.tend = [(0, 0)] := by
    simp [MrDMD.timeWindowBins, MrDMD.interval, MrDMD.seen, hw]
  constructor
  · rw [C113_window, hbins, if_neg (by simp)]
    obtain ⟨fs, e1, e2, e3⟩ := C113_frequency_partial [(σ, f)] w hdt
    simp only [frequency, logImag, List.map_cons, List.map_nil, Except.ok.injEq] at e1
    obtain ⟨-, -, -, e4⟩ := e3 0 σ f _ rfl (by rw [← e1]; rfl)
    have := e4 hN
    simp only [List.flatMap_cons, List.flatMap_nil, logImag, List.map_cons, List.map_nil,
      List.append_nil]
    congr 2
    have hpi := Real.pi_pos.ne'
    have hd' := hd.ne'
    rw [div_eq_iff (by positivity)] at this
    rw [this]
    field_simp
  · intro hc
    apply h1
    have : (w.dt : ℝ) = 1 := by
      have := mul_left_cancel₀ hf (hc.trans (mul_one f).symm)
      exact this
    exact_mod_cast this

/-- The hypotheses are met: two components sampled ten times per unit of time, one of frequency 2 that
is found, one of frequency 7 that is seen as -3. -/
example : ∃ fs, frequency (.cplx ([(0, 2), (-1, 7)].map fun c : ℝ × ℝ => sampled c.1 c.2
    ((⟨0, 1, 1 / 10⟩ : Time.Window).dt))) (some ⟨0, 1, 1 / 10⟩) = .ok fs ∧ fs = [2, -3] := by
  obtain ⟨fs, h1, h2, h3⟩ := C113_frequency_partial [(0, 2), (-1, 7)] ⟨0, 1, 1 / 10⟩ (by norm_num)
  refine ⟨fs, h1, ?_⟩
  obtain ⟨a, b, rfl⟩ : ∃ a b, fs = [a, b] := by
    match fs, h2 with
    | [a, b], _ => exact ⟨a, b, rfl⟩
  obtain ⟨-, -, -, ha⟩ := h3 0 0 2 a rfl rfl
  obtain ⟨hl, hu, ⟨n, hn⟩, -⟩ := h3 1 (-1) 7 b rfl rfl
  have e : a = 2 := ha (by norm_num [abs_of_pos])
  norm_num at hl hu hn
  have : n = -1 := by
    have a1 : (n : ℝ) < 0 := by linarith
    have a2 : (-2 : ℝ) < n := by linarith
    have b1 : n < 0 := by exact_mod_cast a1
    have b2 : -2 < n := by exact_mod_cast a2
    omega
  rw [e, hn, this]
  norm_num

/-- A negative real eigenvalue and a half step. -/
example : (-1 : ℝ) < 0 ∧ ((1 : ℚ) / 2).den ≠ 1 := ⟨by norm_num, by norm_num⟩

/-- A window and a component for `C113_mrdmd_false`. -/
example : (2 : ℝ) ≠ 0 ∧ (0 : ℚ) < (⟨0, 1, 1 / 10⟩ : Time.Window).dt ∧
    |(2 : ℝ)| < 1 / (2 * (((⟨0, 1, 1 / 10⟩ : Time.Window).dt : ℚ) : ℝ)) := by
  refine ⟨by norm_num, by norm_num, ?_⟩
  rw [abs_of_pos] <;> norm_num

end Verif.Spectrum
