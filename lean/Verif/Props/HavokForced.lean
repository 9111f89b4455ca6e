import Verif.Lemmas.HavokGains

/-!
# C166: simulations of HAVOK solve the forced equation
-/

set_option autoImplicit false

namespace Verif.HavokSim

open Verif Matrix Verif.Havok

variable {p q : ℕ}

/-- The input `f` joins the samples `u`, taken every `dt` from time 0 on, by straight lines. -/
def Joins (f : ℝ → Fin q → ℂ) (dt : ℝ) (u : List (Fin q → ℂ)) : Prop :=
  ∀ i : ℕ, i + 1 < u.length → ∀ τ, 0 ≤ τ → τ ≤ dt →
    f (i * dt + τ) = u.getD i 0 + ((τ / dt : ℝ) : ℂ) • (u.getD (i + 1) 0 - u.getD i 0)

/-- `w` solves `dv/dt = A v + B f` on `[0, T]`. -/
def Solves (A : Matrix (Fin p) (Fin p) ℂ) (B : Matrix (Fin p) (Fin q) ℂ) (f : ℝ → Fin q → ℂ) (T : ℝ)
    (w : ℝ → Fin p → ℂ) : Prop :=
  ∀ t, 0 ≤ t → t ≤ T → ∀ i, HasDerivAt (fun s => w s i) ((A *ᵥ w t + B *ᵥ f t) i) t

/-- The samples of a solution obey the recurrence of `lsim`, and nothing else does. -/
theorem obeys_of_solves (A : Matrix (Fin p) (Fin p) ℂ) (B : Matrix (Fin p) (Fin q) ℂ) (dt : ℝ) (hdt : 0 < dt)
    (u : List (Fin q → ℂ)) (f : ℝ → Fin q → ℂ) (hf : Joins f dt u) (w : ℝ → Fin p → ℂ)
    (hw : Solves A B f ((u.length - 1 : ℕ) * dt) w) :
    Obeys A (scipyGains A B) dt ((grid 0 dt u.length).map w) u := by
  refine ⟨by simp [grid], fun i hi => ?_⟩
  have hi' : i + 1 < u.length := by simpa [grid] using hi
  have e : ∀ j : ℕ, j < u.length → ((grid 0 dt u.length).map w).getD j 0 = w (j * dt) := by
    intro j hj
    simp [grid, List.getD_eq_getElem?_getD, hj]
  rw [e _ hi', e _ (by omega)]
  obtain ⟨v, v0, v1, v2⟩ := step_solution A B dt hdt.ne' (w (i * dt)) (u.getD i 0) (u.getD (i + 1) 0)
  rw [← v1]
  have hT : ((i + 1 : ℕ) : ℝ) * dt ≤ ((u.length - 1 : ℕ) : ℝ) * dt :=
    mul_le_mul_of_nonneg_right (by exact_mod_cast (by omega : i + 1 ≤ u.length - 1)) hdt.le
  have := forced_unique A B (fun τ => u.getD i 0 + ((τ / dt : ℝ) : ℂ) • (u.getD (i + 1) 0 - u.getD i 0)) dt v
    (fun τ => w (i * dt + τ)) (by simp [v0]) (fun τ _ _ j => v2 τ j)
    (fun τ h1 h2 j => by
      have h3 := hw (i * dt + τ) (by positivity) (by push_cast at hT; linarith) j
      rw [hf i hi' τ h1 h2] at h3
      have h4 : HasDerivAt (fun τ : ℝ => (i : ℝ) * dt + τ) 1 τ := by simpa using (hasDerivAt_id τ).const_add _
      exact (HasDerivAt.scomp τ h3 h4).congr_deriv (one_smul ℝ _))
    dt hdt.le le_rfl
  rw [this]
  congr 1
  push_cast
  ring

/-- **C166** (steps). On evenly spaced times, `lsim` returns one state per time, and between two times the
state follows the solution of `dv/dt = A v + B u` in which the forcing is interpolated linearly. -/
theorem C166_steps (A : Matrix (Fin p) (Fin p) ℂ) (B : Matrix (Fin p) (Fin q) ℂ) (t0 dt : ℝ) (h0 : 0 ≤ t0)
    (hdt : 0 < dt) (u : List (Fin q → ℂ)) (hu : u ≠ []) (V0 : Fin p → ℂ) :
    ∃ x, lsim A (scipyGains A B) u (grid t0 dt u.length) V0 = .ok x ∧ x.length = u.length ∧
      ∀ i : ℕ, i + 1 < u.length → ∃ v : ℝ → Fin p → ℂ, v 0 = x.getD i 0 ∧ v dt = x.getD (i + 1) 0 ∧
        ∀ τ j, HasDerivAt (fun τ => v τ j)
          ((A *ᵥ v τ + B *ᵥ (u.getD i 0 + ((τ / dt : ℝ) : ℂ) • (u.getD (i + 1) 0 - u.getD i 0))) j) τ := by
  obtain ⟨x, h1, h2, h3, h4⟩ := lsim_grid A (scipyGains A B) t0 dt h0 u hu V0
  refine ⟨x, h1, h2, fun i hi => ?_⟩
  obtain ⟨v, v0, v1, v2⟩ := step_solution A B dt hdt.ne' (x.getD i 0) (u.getD i 0) (u.getD (i + 1) 0)
  exact ⟨v, v0, by rw [v1, h4.2 i (by omega)], v2⟩

/-- **C166** (trajectories; partial: times from 0 on, see `C109_start_false`). If `w` solves the forced
equation with the given forcing, `lsim` started in `w 0` returns the values of `w` at the times. -/
theorem C166_trajectory_partial (A : Matrix (Fin p) (Fin p) ℂ) (B : Matrix (Fin p) (Fin q) ℂ) (dt : ℝ) (hdt : 0 < dt)
    (u : List (Fin q → ℂ)) (hu : u ≠ []) (f : ℝ → Fin q → ℂ) (hf : Joins f dt u) (w : ℝ → Fin p → ℂ)
    (hw : Solves A B f ((u.length - 1 : ℕ) * dt) w) :
    lsim A (scipyGains A B) u (grid 0 dt u.length) (w 0) = .ok ((grid 0 dt u.length).map w) := by
  obtain ⟨x, h1, h2, h3, h4⟩ := lsim_grid A (scipyGains A B) 0 dt le_rfl u hu (w 0)
  rw [h1]
  congr 1
  have h5 := obeys_of_solves A B dt hdt u f hf w hw
  obtain ⟨u0, us, rfl⟩ := List.exists_cons_of_ne_nil hu
  rw [flow_zero, one_mulVec] at h3
  cases x with
  | nil => simp at h2
  | cons x0 xs =>
    simp only [List.getD_cons_zero] at h3
    subst h3
    rw [List.length_cons, grid_succ, List.map_cons] at h5 ⊢
    rw [(obeys_iff _ _ _ _ _ _ _).mp h4, (obeys_iff _ _ _ _ _ _ _).mp h5]

/-- **C166** (predictions; partial as above). With at least two linear coordinates and two times, `predict`
started in `w 0` returns `Re(U diag(s) w(t)^H)`, read off the last delay whose window has the column. -/
theorem C166_predict_partial (M : Fitted p q) (hp : 2 ≤ p) (dt : ℝ) (hdt : 0 < dt) (u : List (Fin q → ℂ))
    (hu : 2 ≤ u.length) (f : ℝ → Fin q → ℂ) (hf : Joins f dt u) (w : ℝ → Fin p → ℂ)
    (hw : Solves M.A M.B f ((u.length - 1 : ℕ) * dt) w) :
    ∃ X, M.predict (scipyGains M.A M.B) u (grid 0 dt u.length) (.array (w 0)) =
        .ok ([M.rows / M.delays, u.length + (M.delays - 1) * M.lag].filter (· ≠ 1), X) ∧
      ∀ a t i : ℕ, i < M.delays → i * M.lag ≤ t → t < i * M.lag + u.length →
        (∀ j, i < j → j < M.delays → ¬(j * M.lag ≤ t ∧ t < j * M.lag + u.length)) →
        X.get a t = some (∑ j : Fin p, M.U (i * (M.rows / M.delays) + a) (Fin.castAdd q j) *
          (M.s (Fin.castAdd q j) : ℂ) * star (w ((t - i * M.lag : ℕ) * dt) j)).re := by
  obtain ⟨x, X, h1, h2, h3, h4, -, -, h5⟩ := Fitted.C109_predict M (scipyGains M.A M.B) 0 dt le_rfl u hu hp (w 0)
  have h6 := obeys_of_solves M.A M.B dt hdt u f hf w hw
  have hx : x = (grid 0 dt u.length).map w := by
    obtain ⟨u0, us, rfl⟩ := List.exists_cons_of_ne_nil (show u ≠ [] by rintro rfl; simp at hu)
    rw [flow_zero, one_mulVec] at h3
    cases x with
    | nil => simp at h2
    | cons x0 xs =>
      simp only [List.getD_cons_zero] at h3
      subst h3
      rw [List.length_cons, grid_succ, List.map_cons] at h6 ⊢
      rw [(obeys_iff _ _ _ _ _ _ _).mp h4, (obeys_iff _ _ _ _ _ _ _).mp h6]
  refine ⟨X, h1, fun a t i hi h7 h8 h9 => ?_⟩
  rw [h5 a t i hi h7 h8 h9, hx]
  have e : ((grid 0 dt u.length).map w).getD (t - i * M.lag) 0 = w ((t - i * M.lag : ℕ) * dt) := by
    simp [grid, List.getD_eq_getElem?_getD, (by omega : t - i * M.lag < u.length)]
  rw [e]

/-- **C166** (reconstruction; partial as above). If the stored linear dynamics are the values, at the times
given to `fit`, of a solution whose forcing joins the stored forcing, then the reconstructed embeddings are
the stored linear dynamics. -/
theorem C166_reconstruct_partial (M : Fitted p q) (hp : 2 ≤ p) (dt : ℝ) (hdt : 0 < dt) (N : ℕ)
    (ht : M.time = grid 0 dt N) (hN : M.embed.length ≤ N) (h2 : 2 ≤ M.embed.length) (f : ℝ → Fin q → ℂ)
    (hf : Joins f dt M.forcing) (w : ℝ → Fin p → ℂ)
    (hw : Solves M.A M.B f ((M.embed.length - 1 : ℕ) * dt) w)
    (hs : M.linear = (grid 0 dt M.embed.length).map w) :
    M.reconstructedEmbeddings (scipyGains M.A M.B) = .ok (.twoDim M.linear) := by
  have hl : M.forcing.length = M.embed.length := by simp [Fitted.forcing]
  refine Fitted.C109_reconstruct_partial M (scipyGains M.A M.B) dt N ht hN h2 hp ?_
  rw [hs, ← hl]
  exact obeys_of_solves M.A M.B dt hdt M.forcing f hf w (by rw [hl]; exact hw)

/-- The system `dx/dt = y, dy/dt = f` with the forcing `f(t) = t`, sampled at `0, 1, 2`, has the solution
`x = 1 + t³/6, y = t²/2`. -/
example : ∃ (A : Matrix (Fin 2) (Fin 2) ℂ) (B : Matrix (Fin 2) (Fin 1) ℂ) (f : ℝ → Fin 1 → ℂ) (w : ℝ → Fin 2 → ℂ),
    Joins f 1 [![0], ![1], ![2]] ∧ Solves A B f ((3 - 1 : ℕ) * 1) w ∧ w 0 = ![1, 0] ∧ w 2 0 = 7 / 3 := by
  refine ⟨!![0, 1; 0, 0], !![0; 1], fun t => ![(t : ℂ)], fun t => ![((1 + t ^ 3 / 6 : ℝ) : ℂ), ((t ^ 2 / 2 : ℝ) : ℂ)],
    ?_, ?_, ?_, ?_⟩
  · intro i hi τ _ _
    have : i = 0 ∨ i = 1 := by simp at hi; omega
    rcases this with rfl | rfl
    · funext j; fin_cases j; simp
    · funext j; fin_cases j; simp; ring
  · intro t _ _ i
    have h1 : HasDerivAt (fun t : ℝ => ((1 + t ^ 3 / 6 : ℝ) : ℂ)) ((t ^ 2 / 2 : ℝ) : ℂ) t := by
      refine HasDerivAt.ofReal_comp ?_
      have := ((hasDerivAt_pow 3 t).div_const 6).const_add 1
      exact this.congr_deriv (by push_cast; ring)
    have h2 : HasDerivAt (fun t : ℝ => ((t ^ 2 / 2 : ℝ) : ℂ)) (t : ℂ) t := by
      refine HasDerivAt.ofReal_comp ?_
      have := (hasDerivAt_pow 2 t).div_const 2
      exact this.congr_deriv (by push_cast; ring)
    fin_cases i
    · simpa [Matrix.mulVec, dotProduct, Fin.sum_univ_two] using h1
    · simpa [Matrix.mulVec, dotProduct, Fin.sum_univ_two] using h2
  · funext i; fin_cases i <;> simp
  · norm_num

end Verif.HavokSim
