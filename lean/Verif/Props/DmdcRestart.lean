import Verif.Props.DmdcResponse

/-!
# Property C179: responses of DMDc can be restarted
-/

set_option autoImplicit false

namespace Verif.Dmdc

open Matrix

variable {m r : Type} [Fintype m] [Fintype r] [DecidableEq r]

/-! ## Lemmas -/

/-- The loop only appends. -/
theorem loop_prefix {q : ℕ} (A : Matrix m m ℂ) (B : Matrix m (Fin q) ℂ) : ∀ (us : List (List ℂ)) (i : ℕ) (data d : List (m → ℂ)),
    controlLoop A B i data us = .ok d → d.take data.length = data := by
  intro us
  induction us with
  | nil => intro i data d h; simp only [controlLoop, Except.ok.injEq] at h; subst h; simp
  | cons u us ih =>
    intro i data d h
    simp only [controlLoop] at h
    split_ifs at h
    split at h
    · simp at h
    · have := ih _ _ _ h
      have h2 := congrArg (List.take data.length) this
      rw [List.take_take, List.take_left' rfl] at h2
      simpa using h2

/-- The loop goes on from what it has after `k` steps. -/
theorem loop_resume {q : ℕ} (A : Matrix m m ℂ) (B : Matrix m (Fin q) ℂ) : ∀ (us : List (List ℂ)) (k i : ℕ) (data d : List (m → ℂ)),
    controlLoop A B i data us = .ok d → k ≤ us.length →
    controlLoop A B (i + k) (d.take (data.length + k)) (us.drop k) = .ok d ∧ d.length = data.length + us.length := by
  intro us
  induction us with
  | nil =>
    intro k i data d h hk
    obtain rfl : k = 0 := by simpa using hk
    simp only [controlLoop, Except.ok.injEq] at h
    subst h
    simp [controlLoop]
  | cons u us ih =>
    intro k i data d h hk
    have h0 := h
    simp only [controlLoop] at h
    split_ifs at h
    split at h
    · simp at h
    · have hlen := (ih 0 _ _ _ h (Nat.zero_le _)).2
      have hl : d.length = data.length + (u :: us).length := by
        rw [hlen]
        simp only [List.length_append, List.length_cons, List.length_nil]
        omega
      refine ⟨?_, hl⟩
      cases k with
      | zero =>
        simpa [loop_prefix A B (u :: us) i data d h0] using h0
      | succ k =>
        have := (ih k _ _ _ h (by simpa using hk)).1
        simpa [Nat.add_assoc, Nat.add_comm 1 k] using this

/-- Data before the column in use do not matter. -/
theorem loop_drop {q : ℕ} (A : Matrix m m ℂ) (B : Matrix m (Fin q) ℂ) (p : ℕ) : ∀ (us : List (List ℂ)) (i : ℕ) (data d : List (m → ℂ)),
    p ≤ data.length → controlLoop A B (p + i) data us = .ok d → controlLoop A B i (data.drop p) us = .ok (d.drop p) := by
  intro us
  induction us with
  | nil => intro i data d _ h; simp only [controlLoop, Except.ok.injEq] at h ⊢; rw [h]
  | cons u us ih =>
    intro i data d hp h
    simp only [controlLoop] at h ⊢
    split_ifs at h with hu
    rw [if_neg hu, List.getElem?_drop]
    cases hx : data[p + i]? with
    | none => rw [hx] at h; simp at h
    | some x =>
      rw [hx] at h
      have := ih (i + 1) _ d (by simp; omega) h
      rwa [List.drop_append_of_le_length hp] at this

/-! ## Property theorem -/

/-- **C179** (restart). Take a response `d` to the controls `us`, and any `k` of its steps. An instance with the same operator
whose first `lag` snapshots are the columns `k, …, k + lag - 1` of `d`, with the same step and `k` steps fewer, gives for the remaining
controls the remaining columns of `d`. -/
theorem C179_restart {q : ℕ} (modes : Matrix m r ℂ) (eigs : r → ℂ) (P : Matrix r m ℂ) (B : Matrix m (Fin q) ℂ)
    (snapshots snapshots' : List (m → ℂ)) (lag : ℕ) (orig dmd dmd' : Time.Window) (other other' : Control) (us : List (List ℂ))
    (d : List (m → ℂ)) (ts ts' : List ℚ)
    (hd : reconstructedData modes eigs P B snapshots lag orig dmd other (some (.two us)) = .ok d) (k : ℕ) (hk : k ≤ us.length)
    (hdt : dmd'.dt = dmd.dt) (ht : dmd.timesteps = .ok ts) (ht' : dmd'.timesteps = .ok ts') (hts : ts'.length + k = ts.length)
    (hl : lag ≤ snapshots'.length) (hs : snapshots'.take lag = (d.drop k).take lag) :
    reconstructedData modes eigs P B snapshots' lag orig dmd' other' (some (.two (us.drop k))) = .ok (d.drop k) := by
  obtain ⟨ts0, ht0, hlen, hsn, h⟩ := recon_loop _ _ _ _ _ _ _ _ _ _ _ hd
  rw [ht] at ht0
  obtain rfl : ts = ts0 := by simpa using ht0
  obtain ⟨h1, hdl⟩ := loop_resume _ B us k 0 _ d h hk
  rw [List.length_take, min_eq_left hsn] at h1 hdl
  rw [Nat.zero_add] at h1
  have h2 := loop_drop _ B k _ 0 _ d (by rw [List.length_take]; omega) h1
  rw [List.drop_take, Nat.add_sub_cancel, ← hs] at h2
  simp only [reconstructedData, Option.getD_some, ht', Control.len, List.length_drop, hdt]
  rw [if_neg (by omega), if_neg (by omega)]
  exact h2

/-- The hypotheses are met: a response of three columns, restarted at the second one. -/
example : ∃ (d snapshots' : List (Fin 1 → ℂ)) (ts ts' : List ℚ), reconstructedData (m := Fin 1) (r := Fin 1) 1 (fun _ => 2) 1 (1 : Matrix (Fin 1) (Fin 1) ℂ)
      [fun _ => 1, fun _ => 3, fun _ => 7] 1 (Time.fitWindow 3) (Time.fitWindow 3) (.one []) (some (.two [[1], [3]])) = .ok d ∧
    (Time.fitWindow 2).dt = (Time.fitWindow 3).dt ∧ (Time.fitWindow 3).timesteps = .ok ts ∧ (Time.fitWindow 2).timesteps = .ok ts' ∧
    ts'.length + 1 = ts.length ∧ 1 ≤ snapshots'.length ∧ snapshots'.take 1 = (d.drop 1).take 1 := by
  have hts := Time.timesteps_ok (Time.fitWindow 3) (by simp [Time.fitWindow])
  have hts2 := Time.timesteps_ok (Time.fitWindow 2) (by simp [Time.fitWindow])
  have hlen : (Time.steps (Time.fitWindow 3)).length = 3 := by
    rw [Time.length_steps]
    simp [Time.fitWindow]
  have hlen2 : (Time.steps (Time.fitWindow 2)).length = 2 := by
    rw [Time.length_steps]
    simp [Time.fitWindow]
  obtain ⟨out, h, ho, -⟩ := controlLoop_spec (1 * diagonal (fun _ : Fin 1 => (2 : ℂ) ^ ⌊(Time.fitWindow 3).dt / (Time.fitWindow 3).dt⌋) * 1)
    (1 : Matrix (Fin 1) (Fin 1) ℂ) [[1], [3]] 0 [fun _ => 1] (by simp) (by simp)
  refine ⟨[fun _ => 1] ++ out, out, _, _, ?_, rfl, hts, hts2, by rw [hlen, hlen2], by rw [ho]; simp, rfl⟩
  simp only [reconstructedData, Option.getD_some, hts, Control.len, hlen]
  rw [if_neg (by simp), if_neg (by simp)]
  exact h

end Verif.Dmdc
