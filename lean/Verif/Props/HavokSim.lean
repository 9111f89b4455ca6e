import Verif.Model.HavokSim
import Verif.Props.Havok
import Mathlib.Analysis.SpecialFunctions.Exponential
import Mathlib.Analysis.Calculus.Deriv.Comp
import Mathlib.Tactic

/-!
# C109: simulations and predictions of HAVOK
-/

set_option autoImplicit false

namespace Verif.HavokSim

open Verif Matrix Verif.Havok

variable {p q : ℕ}

/-- Evenly spaced times `t0, t0 + dt, ...`. -/
def grid (t0 dt : ℝ) (m : ℕ) : List ℝ := (List.range m).map fun (i : ℕ) => t0 + i * dt

/-- The rows `x` are the states of the forced linear system at successive times: each follows from
the one before and the inputs at both times. -/
def Obeys (A : Matrix (Fin p) (Fin p) ℂ) (G : Gains p q) (dt : ℝ) (x : List (Fin p → ℂ))
    (u : List (Fin q → ℂ)) : Prop :=
  x.length = u.length ∧ ∀ i : ℕ, i + 1 < x.length →
    x.getD (i + 1) 0 = flow A dt *ᵥ x.getD i 0 + G.in0 dt *ᵥ u.getD i 0 + G.in1 dt *ᵥ u.getD (i + 1) 0

theorem steps_length (A : Matrix (Fin p) (Fin p) ℂ) (G : Gains p q) (dt : ℝ) (us : List (Fin q → ℂ)) :
    ∀ (x : Fin p → ℂ) (u : Fin q → ℂ), (steps A G dt x u us).length = us.length := by
  induction us with
  | nil => intros; rfl
  | cons u' us ih => intro x u; simp [steps, ih]

/-- `steps` is the only sequence that obeys the system. -/
theorem obeys_iff (A : Matrix (Fin p) (Fin p) ℂ) (G : Gains p q) (dt : ℝ) (us : List (Fin q → ℂ)) :
    ∀ (x : Fin p → ℂ) (xs : List (Fin p → ℂ)) (u : Fin q → ℂ),
      Obeys A G dt (x :: xs) (u :: us) ↔ xs = steps A G dt x u us := by
  induction us with
  | nil =>
    intro x xs u
    constructor
    · rintro ⟨h, -⟩
      simpa [steps] using h
    · rintro rfl
      exact ⟨rfl, fun i hi => absurd hi (by simp [steps])⟩
  | cons u' us ih =>
    intro x xs u
    cases xs with
    | nil =>
      constructor
      · rintro ⟨h, -⟩; simp at h
      · intro h; simp [steps] at h
    | cons x' xs =>
      have h2 : Obeys A G dt (x :: x' :: xs) (u :: u' :: us) ↔
          x' = flow A dt *ᵥ x + G.in0 dt *ᵥ u + G.in1 dt *ᵥ u' ∧ Obeys A G dt (x' :: xs) (u' :: us) := by
        constructor
        · rintro ⟨hl, h⟩
          refine ⟨h 0 (by simp), by simpa using hl, fun i hi => ?_⟩
          have := h (i + 1) (by simpa using hi)
          simpa using this
        · rintro ⟨h0, hl, h⟩
          refine ⟨by simpa using hl, fun i hi => ?_⟩
          cases i with
          | zero => exact h0
          | succ i => simpa using h i (by simpa using hi)
      rw [h2, ih]
      simp only [steps, List.cons.injEq]
      constructor
      · rintro ⟨rfl, rfl⟩; exact ⟨rfl, rfl⟩
      · rintro ⟨rfl, rfl⟩; exact ⟨rfl, rfl⟩

theorem flow_zero (A : Matrix (Fin p) (Fin p) ℂ) : flow A 0 = 1 := by
  simp [flow, NormedSpace.exp_zero]

theorem grid_succ (t0 dt : ℝ) (m : ℕ) :
    grid t0 dt (m + 1) = t0 :: grid (t0 + dt) dt m := by
  simp only [grid, List.range_succ_eq_map, List.map_cons, List.map_map]
  congr 1
  · simp
  · apply List.map_congr_left
    intro i _
    simp only [Function.comp]
    push_cast
    ring

theorem grid_length (t0 dt : ℝ) (m : ℕ) : (grid t0 dt m).length = m := by simp [grid]

theorem grid_even (dt : ℝ) (m : ℕ) : ∀ (t0 : ℝ),
    ∀ pr ∈ (grid t0 dt (m + 1)).zip (grid (t0 + dt) dt m), pr.2 - pr.1 = dt := by
  induction m with
  | zero => intro t0 pr h; simp [grid] at h
  | succ m ih =>
    intro t0 pr h
    rw [grid_succ t0, grid_succ (t0 + dt) dt m, List.zip_cons_cons, List.mem_cons] at h
    rcases h with rfl | h
    · simp
    · apply ih (t0 + dt) pr
      rwa [grid_succ (t0 + dt) dt m]

/-- `lsim` on evenly spaced times from `t0 ≥ 0`: the states that obey the system, and whose first is
`X0` carried by the homogeneous system over the time `t0`. -/
theorem lsim_grid (A : Matrix (Fin p) (Fin p) ℂ) (G : Gains p q) (t0 dt : ℝ) (h0 : 0 ≤ t0)
    (u : List (Fin q → ℂ)) (hu : u ≠ []) (X0 : Fin p → ℂ) :
    ∃ x, lsim A G u (grid t0 dt u.length) X0 = .ok x ∧ x.length = u.length ∧
      x.getD 0 0 = flow A t0 *ᵥ X0 ∧ Obeys A G dt x u := by
  obtain ⟨u0, us, rfl⟩ := List.exists_cons_of_ne_nil hu
  have hx0 : (if t0 = 0 then X0 else flow A t0 *ᵥ X0) = flow A t0 *ᵥ X0 := by
    split
    · rename_i h; rw [h, flow_zero, Matrix.one_mulVec]
    · rfl
  refine ⟨flow A t0 *ᵥ X0 :: steps A G dt (flow A t0 *ᵥ X0) u0 us, ?_, ?_, rfl, ?_⟩
  · rw [List.length_cons, grid_succ]
    cases us with
    | nil => simp only [lsim, if_neg (not_lt.mpr h0), hx0]; simp [grid, steps]
    | cons u1 us =>
      have he := grid_even dt (us.length + 1) t0
      rw [grid_succ t0, grid_succ (t0 + dt)] at he
      rw [List.length_cons, grid_succ (t0 + dt)]
      simp only [lsim, if_neg (not_lt.mpr h0), hx0, add_sub_cancel_left]
      rw [if_neg (not_not.mpr he)]
      by_cases hz : ∀ u ∈ u0 :: u1 :: us, u = 0
      · rw [if_pos hz]
        have e : u1 :: us = List.map (fun _ => (0 : Fin q → ℂ))
            ((t0 + dt) :: grid (t0 + dt + dt) dt us.length) := by
          apply List.ext_getElem
          · simp [grid]
          · intro i h1 h2
            rw [List.getElem_map]
            exact hz _ (List.mem_cons_of_mem _ (List.getElem_mem h1))
        rw [hz u0 (by simp), ← e]
      · rw [if_neg hz, if_neg (by simp [grid])]
        rfl
  · simp [steps_length]
  · rw [obeys_iff]

theorem dehankelLoop_last (n lag Hm : ℕ) (H : ℕ → ℕ → Option ℝ) (delays a t i : ℕ) (hi : i < delays)
    (h1 : i * lag ≤ t) (h2 : t < i * lag + Hm)
    (hl : ∀ j, i < j → j < delays → ¬(j * lag ≤ t ∧ t < j * lag + Hm)) :
    dehankelLoop n lag Hm H delays a t = H (i * n + a) (t - i * lag) := by
  unfold dehankelLoop
  induction delays with
  | zero => omega
  | succ d ih =>
    rw [List.range_succ, List.foldl_append, List.foldl_cons, List.foldl_nil]
    by_cases h : i = d
    · subst h
      rw [if_pos ⟨h1, h2⟩]
    · rw [if_neg (hl d (by omega) (by omega))]
      exact ih (by omega) fun j hj hd => hl j hj (by omega)

theorem lsim_length (A : Matrix (Fin p) (Fin p) ℂ) (G : Gains p q) (u : List (Fin q → ℂ))
    (T : List ℝ) (X0 : Fin p → ℂ) (x : List (Fin p → ℂ)) (h : lsim A G u T X0 = .ok x) :
    x.length = T.length := by
  cases T with
  | nil => simp [lsim] at h
  | cons t0 ts =>
    simp only [lsim] at h
    split_ifs at h
    all_goals
      cases ts with
      | nil => simp only [Except.ok.injEq] at h; rw [← h]; rfl
      | cons t1 ts =>
        simp only at h
        split_ifs at h with h1
        all_goals
          simp only [Except.ok.injEq] at h
          rw [← h, List.length_cons, steps_length]
          simp
          try (rename_i h3; simp at h3; omega)

namespace Fitted

variable (M : Fitted p q)

/-- **C109** (predictions). With at least two linear coordinates and at least two evenly spaced,
nonnegative times, `predict` succeeds. There are states `x`, one per time, which obey the forced
system with the given forcing and whose first is the given initial condition *carried by the
homogeneous system over the first time*; and each entry of the result is the entry of
`Re(U diag(s) x^H)` that belongs to the last delay whose window has the column. -/
theorem C109_predict (G : Gains p q) (t0 dt : ℝ) (h0 : 0 ≤ t0) (u : List (Fin q → ℂ))
    (hu : 2 ≤ u.length) (hp : 2 ≤ p) (V0 : Fin p → ℂ) :
    ∃ x X, M.predict G u (grid t0 dt u.length) (.array V0) =
        .ok ([M.rows / M.delays, u.length + (M.delays - 1) * M.lag].filter (· ≠ 1), X) ∧
      x.length = u.length ∧ x.getD 0 0 = flow M.A t0 *ᵥ V0 ∧ Obeys M.A G dt x u ∧
      X.rows = M.rows / M.delays ∧ X.cols = u.length + (M.delays - 1) * M.lag ∧
      ∀ a t i : ℕ, i < M.delays → i * M.lag ≤ t → t < i * M.lag + u.length →
        (∀ j, i < j → j < M.delays → ¬(j * M.lag ≤ t ∧ t < j * M.lag + u.length)) →
        X.get a t = some (∑ j : Fin p, M.U (i * (M.rows / M.delays) + a) (Fin.castAdd q j) *
          (M.s (Fin.castAdd q j) : ℂ) * star (x.getD (t - i * M.lag) 0 j)).re := by
  obtain ⟨x, hx, hl, hf, ho⟩ := lsim_grid M.A G t0 dt h0 u (by rintro rfl; simp at hu) V0
  refine ⟨x, (dehankel M.delays M.lag (M.hankelOf x)).2, ?_, hl, hf, ho, rfl, ?_, ?_⟩
  · simp only [predict, initial, computeEmbeddings, hx, bind, Except.bind, Except.map]
    rw [squeeze, if_neg (by omega), if_neg (by omega)]
    simp only [toOriginal, dehankel, hankelOf, hl]
  · simp only [dehankel, hankelOf, hl]
  · intro a t i hi h1 h2 h3
    rw [← hl] at h2 h3
    exact dehankelLoop_last _ _ _ _ _ a t i hi h1 h2 h3

/-- **C109** is partial: for times that start at 0 the first state is the given initial condition,
as documented. -/
theorem C109_start_partial (G : Gains p q) (dt : ℝ) (u : List (Fin q → ℂ)) (hu : u ≠ [])
    (V0 : Fin p → ℂ) :
    ∃ x, lsim M.A G u (grid 0 dt u.length) V0 = .ok x ∧ x.getD 0 0 = V0 ∧ Obeys M.A G dt x u := by
  obtain ⟨x, h1, -, h2, h3⟩ := lsim_grid M.A G 0 dt le_rfl u hu V0
  exact ⟨x, h1, by rw [h2, flow_zero, Matrix.one_mulVec], h3⟩

open scoped Matrix.Norms.Operator in
set_option backward.isDefEq.respectTransparency false in
theorem flow_deriv (A : Matrix (Fin p) (Fin p) ℂ) (x : Fin p → ℂ) (t : ℝ) (i : Fin p) :
    HasDerivAt (fun s => (flow A s *ᵥ x) i) ((A *ᵥ (flow A t *ᵥ x)) i) t := by
  have h : HasDerivAt (fun s : ℝ => NormedSpace.exp (s • A)) (A * NormedSpace.exp (t • A)) t :=
    hasDerivAt_exp_smul_const' A t
  have hs : ∀ s : ℝ, flow A s = NormedSpace.exp (s • A) := by
    intro s
    rw [flow]
    congr 1
  simp only [hs, mulVec_mulVec]
  let L : Matrix (Fin p) (Fin p) ℂ →L[ℝ] ℂ := LinearMap.toContinuousLinearMap
    { toFun := fun M => (M *ᵥ x) i
      map_add' := fun M N => by simp [add_mulVec]
      map_smul' := fun c M => by simp [smul_mulVec] }
  exact (HasFDerivAt.comp_hasDerivAt t (L.hasFDerivAt) h)

theorem flow_add (A : Matrix (Fin p) (Fin p) ℂ) (s t : ℝ) : flow A (s + t) = flow A s * flow A t := by
  rw [flow, flow, flow, ← Matrix.exp_add_of_commute]
  · congr 1
    push_cast
    rw [add_smul]
  · exact (Commute.refl A).smul_left _ |>.smul_right _

/-- **C109** (the equation). Without forcing the simulated states are the values at the times given of a
solution of `dv/dt = A v`, the one that starts in `V0` at time 0. -/
theorem C109_equation (G : Gains p q) (t0 dt : ℝ) (h0 : 0 ≤ t0) (n : ℕ) (hn : 0 < n)
    (V0 : Fin p → ℂ) :
    ∃ (v : ℝ → Fin p → ℂ) (x : List (Fin p → ℂ)), v 0 = V0 ∧
      (∀ t i, HasDerivAt (fun s => v s i) ((M.A *ᵥ v t) i) t) ∧
      lsim M.A G (List.replicate n 0) (grid t0 dt n) V0 = .ok x ∧
      x = (grid t0 dt n).map v := by
  obtain ⟨x, h1, h2, h3, h4⟩ := lsim_grid M.A G t0 dt h0 (List.replicate n 0)
    (by intro h; have := congrArg List.length h; simp at this; omega) V0
  rw [List.length_replicate] at h1 h2
  refine ⟨fun s => flow M.A s *ᵥ V0, x, by show flow M.A 0 *ᵥ V0 = V0; rw [flow_zero, one_mulVec],
    fun t i => flow_deriv M.A V0 t i, h1, ?_⟩
  have key : ∀ k : ℕ, k < n → x.getD k 0 = flow M.A (t0 + k * dt) *ᵥ V0 := by
    intro k
    induction k with
    | zero => intro _; rw [h3]; simp
    | succ k ih =>
      intro hk
      have hz : ∀ j : ℕ, (List.replicate n (0 : Fin q → ℂ)).getD j 0 = 0 := by
        intro j
        rw [List.getD_eq_getElem?_getD, List.getElem?_replicate]
        split_ifs <;> rfl
      rw [h4.2 k (by rw [h2]; exact hk), hz, hz, mulVec_zero, mulVec_zero, add_zero, add_zero,
        ih (by omega), mulVec_mulVec, ← flow_add]
      congr 2
      push_cast
      ring
  apply List.ext_getElem?
  intro k
  by_cases hk : k < n
  · have := key k hk
    rw [List.getD_eq_getElem?_getD, List.getElem?_eq_getElem (by rw [h2]; exact hk),
      Option.getD_some] at this
    rw [List.getElem?_eq_getElem (by rw [h2]; exact hk), this]
    simp [grid, hk]
  · rw [List.getElem?_eq_none (by rw [h2]; omega), List.getElem?_eq_none (by simp [grid]; omega)]

/-- **C109**: the linear dynamics and the forcing are the two parts of the embedding: the first `p`
coordinates and the last `q`. -/
theorem C109_split (k : ℕ) : M.embed[k]? =
    (M.linear[k]?).bind fun v => (M.forcing[k]?).map fun u => Fin.append v u := by
  simp only [linear, forcing, List.getElem?_map]
  cases M.embed[k]? with
  | none => rfl
  | some w =>
    simp only [Option.map_some, Option.bind_some, Option.some.injEq]
    funext i
    refine Fin.addCases (fun j => ?_) (fun j => ?_) i
    · rw [Fin.append_left]
    · rw [Fin.append_right]

/-- **C109** is false for other times: the documented initial condition is "the linear dynamics
evaluated at the first time in the `time` array", but whenever the homogeneous system moves `V0` over
the time `t0`, the simulation at the time `t0` is not `V0`. -/
theorem C109_start_false (G : Gains p q) (t0 dt : ℝ) (h0 : 0 < t0) (u : List (Fin q → ℂ))
    (hu : u ≠ []) (V0 : Fin p → ℂ) (hV : flow M.A t0 *ᵥ V0 ≠ V0) :
    ∃ x, lsim M.A G u (grid t0 dt u.length) V0 = .ok x ∧ x.getD 0 0 ≠ V0 := by
  obtain ⟨x, h1, -, h2, -⟩ := lsim_grid M.A G t0 dt h0.le u hu V0
  exact ⟨x, h1, by rw [h2]; exact hV⟩

/-- The hypothesis of `C109_start_false` is met by `dv/dt = v` from `(1, 1)`, at every time after 0. -/
example (t0 : ℝ) (h0 : 0 < t0) :
    flow (1 : Matrix (Fin 2) (Fin 2) ℂ) t0 *ᵥ (fun _ => 1) ≠ fun _ => 1 := by
  have e : flow (1 : Matrix (Fin 2) (Fin 2) ℂ) t0 = Matrix.diagonal (NormedSpace.exp fun _ => (t0 : ℂ)) := by
    rw [← Matrix.exp_diagonal, flow]
    congr 1
    ext i j
    fin_cases i <;> fin_cases j <;> simp
  intro h
  have h2 := congrFun h 0
  rw [e, Matrix.mulVec_diagonal, mul_one, Pi.coe_exp, ← Complex.exp_eq_exp_ℂ, ← Complex.ofReal_exp] at h2
  have h3 : Real.exp t0 = 1 := by exact_mod_cast h2
  rw [Real.exp_eq_one_iff] at h3
  exact h0.ne' h3

/-- **C109**: a first time before 0 is rejected. -/
theorem C109_negative_time (G : Gains p q) (u : List (Fin q → ℂ)) (t0 : ℝ) (T : List ℝ) (h0 : t0 < 0)
    (V0 : Fin p → ℂ) : M.predict G u (t0 :: T) (.array V0) = .error .valueError := by
  simp only [predict, initial, computeEmbeddings, lsim, if_pos h0, bind, Except.bind, Except.map]

/-- **C109**: times that are not evenly spaced are rejected, whatever the forcing (`fit` accepts them
with a warning). -/
theorem C109_uneven_time (G : Gains p q) (u : List (Fin q → ℂ)) (T : List ℝ) (i j : ℕ)
    (hi : i + 1 < T.length) (hj : j + 1 < T.length)
    (hT : T.getD (i + 1) 0 - T.getD i 0 ≠ T.getD (j + 1) 0 - T.getD j 0) (V0 : Fin p → ℂ) :
    M.predict G u T (.array V0) = .error .valueError := by
  suffices h : lsim M.A G u T V0 = .error .valueError by
    simp only [predict, initial, computeEmbeddings, h, bind, Except.bind, Except.map]
  match T, hi, hj, hT with
  | t0 :: t1 :: ts, hi, hj, hT =>
    simp only [lsim]
    have hn : ¬ ∀ pr ∈ (t0 :: t1 :: ts).zip (t1 :: ts), pr.2 - pr.1 = t1 - t0 := by
      intro h
      have key : ∀ k : ℕ, k + 1 < (t0 :: t1 :: ts).length →
          (t0 :: t1 :: ts).getD (k + 1) 0 - (t0 :: t1 :: ts).getD k 0 = t1 - t0 := by
        intro k hk
        have h2 : k < ((t0 :: t1 :: ts).zip (t1 :: ts)).length := by simp at hk ⊢; omega
        have := h _ (List.getElem_mem h2)
        rw [List.getElem_zip] at this
        rw [List.getD_eq_getElem?_getD, List.getD_eq_getElem?_getD, List.getElem?_eq_getElem hk,
          List.getElem?_eq_getElem (by omega)]
        simpa using this
      exact hT ((key i hi).trans (key j hj).symm)
    split_ifs <;> rfl
  | [], hi, _, _ => simp at hi
  | [_], hi, _, _ => simp at hi

/-- **C109** is false for the number of columns: with more than one delay, a successful prediction
never has one column per time. -/
theorem C109_length_false (G : Gains p q) (u : List (Fin q → ℂ)) (T : List ℝ) (V0 : Init p)
    (hd : 2 ≤ M.delays) (hlag : 1 ≤ M.lag) (r : List ℕ × Mat) (h : M.predict G u T V0 = .ok r) :
    r.2.cols = T.length + (M.delays - 1) * M.lag ∧ r.2.cols ≠ T.length := by
  have key : r.2.cols = T.length + (M.delays - 1) * M.lag := by
    simp only [predict, bind, Except.bind] at h
    cases hi : M.initial V0 with
    | error e => rw [hi] at h; cases h
    | ok x0 =>
      rw [hi] at h
      simp only [computeEmbeddings] at h
      cases hx : lsim M.A G u T x0 with
      | error e => rw [hx] at h; cases h
      | ok x =>
        rw [hx] at h
        simp only [Except.map, squeeze] at h
        split_ifs at h
        · cases h
        · cases h
        · simp only [toOriginal, Except.ok.injEq] at h
          rw [← h, ← lsim_length _ _ _ _ _ _ hx]
          rfl
  refine ⟨key, ?_⟩
  rw [key]
  have : 1 * 1 ≤ (M.delays - 1) * M.lag := Nat.mul_le_mul (by omega) hlag
  omega

/-- **C109** is false with a single linear coordinate (`r = num_chaos + 1`, which `fit` accepts): no
prediction and no reconstruction succeeds. -/
theorem C109_single_coordinate_false (M : Fitted 1 q) (G : Gains 1 q) (u : List (Fin q → ℂ))
    (T : List ℝ) (V0 : Init 1) :
    (∀ r, M.predict G u T V0 ≠ .ok r) ∧ ∀ r, M.reconstructedData G ≠ .ok r := by
  have key : ∀ u T x0 r, (M.computeEmbeddings G u T x0 >>= M.toOriginal) ≠ .ok r := by
    intro u T x0 r
    simp only [computeEmbeddings, bind, Except.bind]
    cases hx : lsim M.A G u T x0 with
    | error e => simp [Except.map]
    | ok x =>
      by_cases hl : x.length = 1 <;> simp [Except.map, squeeze, hl, toOriginal]
  constructor
  · intro r h
    simp only [predict, bind, Except.bind] at h
    cases hi : M.initial V0 with
    | error e => rw [hi] at h; cases h
    | ok x0 => rw [hi] at h; exact key u T x0 r h
  · intro r h
    simp only [reconstructedData, reconstructedEmbeddings] at h
    cases hv : M.linear with
    | nil => rw [hv] at h; cases h
    | cons x0 xs => rw [hv] at h; exact key _ _ x0 r h

/-- **C109** is false for a single time, with any number of coordinates. -/
theorem C109_single_time_false (G : Gains p q) (u : List (Fin q → ℂ)) (t0 : ℝ) (V0 : Init p)
    (r : List ℕ × Mat) : M.predict G u [t0] V0 ≠ .ok r := by
  intro h
  simp only [predict, bind, Except.bind] at h
  cases hi : M.initial V0 with
  | error e => rw [hi] at h; cases h
  | ok x0 =>
    rw [hi] at h
    simp only [computeEmbeddings, lsim] at h
    split_ifs at h
    all_goals
      by_cases hp : p = 1 <;> simp [Except.map, squeeze, hp, toOriginal] at h

/-- **C109** (initial conditions by index). Index `k` from the front, or `k - len` from the back, is
the stored linear dynamics at that row; other indexes raise `IndexError`. -/
theorem C109_index (G : Gains p q) (u : List (Fin q → ℂ)) (T : List ℝ) :
    (∀ (k : ℕ) (x : Fin p → ℂ), M.linear[k]? = some x →
      M.predict G u T (.index k) = M.predict G u T (.array x) ∧
      M.predict G u T (.index ((k : ℤ) - M.embed.length)) = M.predict G u T (.array x)) ∧
    ∀ i : ℤ, i < -(M.embed.length : ℤ) ∨ (M.embed.length : ℤ) ≤ i →
      M.predict G u T (.index i) = .error .indexError := by
  have hlen : M.linear.length = M.embed.length := by simp [linear]
  have red : ∀ i x, M.initial (.index i) = .ok x →
      M.predict G u T (.index i) = M.predict G u T (.array x) := by
    intro i x h
    simp only [predict, h]
    rfl
  refine ⟨fun k x hk => ?_, fun i hi => ?_⟩
  · have hk2 : k < M.linear.length := by
      by_contra hc
      rw [List.getElem?_eq_none (by omega)] at hk
      cases hk
    constructor
    · apply red
      have : MrDMD.pyIndex M.linear.length (k : ℤ) = some k := by
        unfold MrDMD.pyIndex; split_ifs <;> first | (simp; done) | (simp; omega) | omega
      simp only [initial, this, Option.bind_some, hk]
    · apply red
      have : MrDMD.pyIndex M.linear.length ((k : ℤ) - M.embed.length) = some k := by
        rw [hlen] at hk2 ⊢
        unfold MrDMD.pyIndex; split_ifs <;> first | (simp; done) | (simp; omega) | omega
      simp only [initial, this, Option.bind_some, hk]
  · have : MrDMD.pyIndex M.linear.length i = none := by
      rw [hlen]
      unfold MrDMD.pyIndex; split_ifs <;> first | rfl | omega
    simp only [predict, initial, this, Option.bind_none, bind, Except.bind]

theorem take_grid (t0 dt : ℝ) (N m : ℕ) (h : m ≤ N) : (grid t0 dt N).take m = grid t0 dt m := by
  simp only [grid, ← List.map_take, List.take_range, Nat.min_eq_left h]

/-- **C109** (reconstruction). If the stored linear dynamics obey the forced system exactly with the
stored forcing, and the time vector of `fit` starts at 0, the reconstructed embeddings are the stored
linear dynamics. -/
theorem C109_reconstruct_partial (G : Gains p q) (dt : ℝ) (N : ℕ) (ht : M.time = grid 0 dt N)
    (hN : M.embed.length ≤ N) (h2 : 2 ≤ M.embed.length) (hp : 2 ≤ p)
    (ho : Obeys M.A G dt M.linear M.forcing) :
    M.reconstructedEmbeddings G = .ok (.twoDim M.linear) := by
  have hf : M.forcing.length = M.embed.length := by simp [forcing]
  have hl : M.linear.length = M.embed.length := by simp [linear]
  obtain ⟨x, xs, hx⟩ : ∃ x xs, M.linear = x :: xs :=
    List.exists_cons_of_ne_nil (by intro h; rw [h] at hl; simp at hl; omega)
  obtain ⟨u, us, hu⟩ : ∃ u us, M.forcing = u :: us :=
    List.exists_cons_of_ne_nil (by intro h; rw [h] at hf; simp at hf; omega)
  obtain ⟨y, hy, hyl, hy0, hyo⟩ := lsim_grid M.A G 0 dt le_rfl M.forcing (by rw [hu]; simp) x
  rw [flow_zero, Matrix.one_mulVec] at hy0
  have : y = M.linear := by
    cases y with
    | nil => rw [hu] at hyl; simp at hyl
    | cons y0 ys =>
      simp only [List.getD_cons_zero] at hy0
      subst hy0
      rw [hu, obeys_iff] at hyo
      rw [hx, hu, obeys_iff] at ho
      rw [hx, hyo, ho]
  subst this
  simp only [reconstructedEmbeddings]
  rw [hx]
  simp only [computeEmbeddings, ht, take_grid 0 dt N _ (hf ▸ hN), hy, Except.map]
  rw [squeeze, if_neg (by omega), if_neg (by omega), hx]

/-- **C109** is false for time vectors that start later: with exact dynamics, the reconstruction does
not begin with the stored linear dynamics whenever the homogeneous system moves them over the first
time. -/
theorem C109_reconstruct_false (G : Gains p q) (t0 dt : ℝ) (h0 : 0 < t0) (N : ℕ)
    (ht : M.time = grid t0 dt N) (hN : M.embed.length ≤ N) (h2 : 2 ≤ M.embed.length) (hp : 2 ≤ p)
    (hV : flow M.A t0 *ᵥ M.linear.getD 0 0 ≠ M.linear.getD 0 0) :
    ∃ x, M.reconstructedEmbeddings G = .ok (.twoDim x) ∧ x.length = M.linear.length ∧
      x.getD 0 0 ≠ M.linear.getD 0 0 := by
  have hf : M.forcing.length = M.embed.length := by simp [forcing]
  have hl : M.linear.length = M.embed.length := by simp [linear]
  obtain ⟨x, xs, hx⟩ : ∃ x xs, M.linear = x :: xs :=
    List.exists_cons_of_ne_nil (by intro h; rw [h] at hl; simp at hl; omega)
  obtain ⟨y, hy, hyl, hy0, -⟩ := lsim_grid M.A G t0 dt h0.le M.forcing
    (by intro h; rw [h] at hf; simp at hf; omega) x
  rw [hx, List.getD_cons_zero] at hV
  refine ⟨y, ?_, by omega, by rw [hy0, hx]; exact hV⟩
  simp only [reconstructedEmbeddings]
  rw [hx]
  simp only [computeEmbeddings, ht, take_grid t0 dt N _ (hf ▸ hN), hy, Except.map]
  rw [squeeze, if_neg (by omega), if_neg (by omega)]

/-- **C109** (shape). The reconstructed data have `len(embeddings) + (delays - 1) * lag` columns: as
many as the snapshots without `structured`, and one fewer with it. `m` is the number of snapshots. -/
theorem C109_shape (G : Gains p q) (r : List ℕ × Mat) (h : M.reconstructedData G = .ok r) (m : ℕ)
    (hT : M.embed.length ≤ M.time.length) (hm : (M.delays - 1) * M.lag + 2 ≤ m) :
    (M.embed.length = m - (M.delays - 1) * M.lag → r.2.cols = m) ∧
      (M.embed.length = m - (M.delays - 1) * M.lag - 1 → r.2.cols + 1 = m) := by
  have hf : M.forcing.length = M.embed.length := by simp [forcing]
  have key : r.2.cols = M.embed.length + (M.delays - 1) * M.lag := by
    simp only [reconstructedData, reconstructedEmbeddings] at h
    cases hv : M.linear with
    | nil => rw [hv] at h; cases h
    | cons x0 xs =>
      rw [hv] at h
      simp only [computeEmbeddings] at h
      cases hx : lsim M.A G M.forcing (M.time.take M.forcing.length) x0 with
      | error e => rw [hx] at h; cases h
      | ok x =>
        rw [hx] at h
        simp only [Except.map, squeeze, bind, Except.bind] at h
        have hxl := lsim_length _ _ _ _ _ _ hx
        rw [List.length_take, hf, Nat.min_eq_left hT] at hxl
        split_ifs at h
        · cases h
        · cases h
        · simp only [toOriginal, Except.ok.injEq] at h
          rw [← h, ← hxl]
          rfl
  constructor <;> intro h2 <;> omega

/-- **C109**: predicting with the stored forcing and times is the reconstruction. -/
theorem C109_default (G : Gains p q) (hne : M.embed ≠ []) :
    M.predict G M.forcing (M.time.take M.forcing.length) (.index 0) = M.reconstructedData G := by
  obtain ⟨v, vs, hv⟩ := List.exists_cons_of_ne_nil hne
  have hx : M.linear = (fun i => v (Fin.castAdd q i)) :: vs.map fun v i => v (Fin.castAdd q i) := by
    simp [linear, hv]
  have h := ((M.C109_index G M.forcing (M.time.take M.forcing.length)).1 0 _ (by rw [hx]; rfl)).1
  rw [Nat.cast_zero] at h
  rw [h]
  simp only [predict, initial, reconstructedData, reconstructedEmbeddings]
  rw [hx]
  rfl

/-- A model with two linear coordinates, one forcing term, two delays and three rows of embeddings
whose linear part is at rest: it meets the hypotheses of the reconstruction. -/
example : ∃ (M : Fitted 2 1) (G : Gains 2 1), M.time = grid 0 1 4 ∧ M.embed.length = 3 ∧
    M.delays = 2 ∧ Obeys M.A G 1 M.linear M.forcing ∧ M.linear.getD 0 0 ≠ 0 := by
  refine ⟨⟨2, 1, 2, fun _ _ => 1, fun _ => 1, [fun _ => 1, fun _ => 1, fun _ => 1], grid 0 1 4, 0, 0⟩,
    ⟨0, 0⟩, rfl, rfl, rfl, ⟨rfl, ?_⟩, ?_⟩
  · intro i hi
    have hfl : flow (0 : Matrix (Fin 2) (Fin 2) ℂ) 1 = 1 := by simp [flow, NormedSpace.exp_zero]
    simp only [linear, forcing, hfl, Matrix.one_mulVec, Pi.zero_apply, Matrix.zero_mulVec, add_zero]
    simp only [linear, List.map_cons, List.map_nil, List.length_cons, List.length_nil] at hi
    match i, hi with
    | 0, _ => rfl
    | 1, _ => rfl
  · intro h
    exact one_ne_zero (congrFun h 0)

end Fitted

end Verif.HavokSim
