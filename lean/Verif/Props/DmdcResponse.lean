import Verif.Props.Dmdc

/-!
# Property C179: causality and superposition in DMDc
-/

set_option autoImplicit false

namespace Verif.Dmdc

open Matrix

variable {m r : Type} [Fintype m] [Fintype r] [DecidableEq r]

/-! ## Vocabulary -/

/-- `a x + b y` of two control inputs, column by column. -/
def mixControls (a b : ℂ) (us vs : List (List ℂ)) : List (List ℂ) :=
  List.zipWith (List.zipWith fun x y => a * x + b * y) us vs

/-- `a x + b y` of two responses, column by column. -/
def mixStates (a b : ℂ) (d e : List (m → ℂ)) : List (m → ℂ) := List.zipWith (fun x y => a • x + b • y) d e

/-! ## Lemmas -/

/-- Controls that agree at first give data that agree at first. -/
theorem loop_causal {q : ℕ} (A : Matrix m m ℂ) (B : Matrix m (Fin q) ℂ) : ∀ (k i : ℕ) (data : List (m → ℂ)) (us vs : List (List ℂ))
    (d e : List (m → ℂ)), controlLoop A B i data us = .ok d → controlLoop A B i data vs = .ok e → us.take k = vs.take k →
    d.take (data.length + k) = e.take (data.length + k) := by
  have hpre : ∀ (us : List (List ℂ)) (i : ℕ) (data d : List (m → ℂ)), controlLoop A B i data us = .ok d → d.take data.length = data := by
    intro us
    induction us with
    | nil => intro i data d h; simp only [controlLoop, Except.ok.injEq] at h; subst h; simp
    | cons u us ih =>
      intro i data d h
      simp only [controlLoop] at h
      split_ifs at h
      split at h
      · simp at h
      · have := ih _ _ _ h
        have h2 := congrArg (List.take data.length) this
        rw [List.take_take, List.take_left' rfl] at h2
        simpa using h2
  intro k
  induction k with
  | zero =>
    intro i data us vs d e hd he _
    rw [Nat.add_zero, hpre us i data d hd, hpre vs i data e he]
  | succ k ih =>
    intro i data us vs d e hd he h
    cases us with
    | nil =>
      cases vs with
      | nil => rw [hd] at he; simp only [Except.ok.injEq] at he; rw [he]
      | cons v vs => simp at h
    | cons u us =>
      cases vs with
      | nil => simp at h
      | cons v vs =>
        simp only [List.take_succ_cons, List.cons.injEq] at h
        obtain ⟨rfl, h⟩ := h
        simp only [controlLoop] at hd he
        split_ifs at hd he
        cases hx : data[i]? with
        | none => rw [hx] at hd; simp at hd
        | some x =>
          rw [hx] at hd he
          have := ih (i + 1) _ us vs d e hd he h
          simpa [Nat.add_assoc, Nat.add_comm 1 k] using this

/-- The loop on mixed data and mixed controls. -/
theorem loop_mix {q : ℕ} (A : Matrix m m ℂ) (B : Matrix m (Fin q) ℂ) (a b : ℂ) : ∀ (us vs : List (List ℂ)) (i : ℕ)
    (x y d e : List (m → ℂ)), us.length = vs.length → x.length = y.length → controlLoop A B i x us = .ok d →
    controlLoop A B i y vs = .ok e → controlLoop A B i (mixStates a b x y) (mixControls a b us vs) = .ok (mixStates a b d e) := by
  intro us
  induction us with
  | nil =>
    intro vs i x y d e hl _ hd he
    cases vs with
    | nil =>
      simp only [controlLoop, Except.ok.injEq] at hd he
      subst hd he
      rfl
    | cons v vs => simp at hl
  | cons u us ih =>
    intro vs i x y d e hl hxy hd he
    cases vs with
    | nil => simp at hl
    | cons v vs =>
      simp only [List.length_cons, Nat.add_right_cancel_iff] at hl
      simp only [controlLoop] at hd he
      split_ifs at hd he with hu hv
      cases hx : x[i]? with
      | none => rw [hx] at hd; simp at hd
      | some p =>
        cases hy : y[i]? with
        | none => rw [hy] at he; simp at he
        | some p' =>
          rw [hx] at hd
          rw [hy] at he
          simp only at hd he
          have hm : (mixStates a b x y)[i]? = some (a • p + b • p') := by
            simp [mixStates, List.getElem?_zipWith, hx, hy]
          have hlen : (List.zipWith (fun x y => a * x + b * y) u v).length = q := by
            rw [List.length_zipWith]
            omega
          have := ih vs (i + 1) _ _ d e hl (by simp [hxy]) hd he
          simp only [mixControls, List.zipWith_cons_cons, controlLoop]
          rw [if_neg (by simpa using hlen), hm]
          simp only
          rw [← this]
          congr 1
          unfold mixStates
          rw [List.zipWith_append hxy]
          congr 1
          simp only [List.zipWith_cons_cons, List.zipWith_nil_left, List.cons.injEq, and_true]
          have hB : (fun j : Fin q => (List.zipWith (fun x y => a * x + b * y) u v).getD j 0) =
              a • (fun j : Fin q => u.getD j 0) + b • fun j : Fin q => v.getD j 0 := by
            funext j
            have hj1 : (j : ℕ) < u.length := by omega
            have hj2 : (j : ℕ) < v.length := by omega
            simp [List.getD_eq_getElem?_getD, hj1, hj2]
          rw [hB, mulVec_add, mulVec_add, mulVec_smul, mulVec_smul, mulVec_smul, mulVec_smul, smul_add, smul_add]
          abel

/-- A reconstruction that succeeds is the loop. -/
theorem recon_loop {q : ℕ} (modes : Matrix m r ℂ) (eigs : r → ℂ) (P : Matrix r m ℂ) (B : Matrix m (Fin q) ℂ) (snapshots : List (m → ℂ))
    (lag : ℕ) (orig dmd : Time.Window) (other : Control) (us : List (List ℂ)) (d : List (m → ℂ))
    (h : reconstructedData modes eigs P B snapshots lag orig dmd other (some (.two us)) = .ok d) :
    ∃ ts, dmd.timesteps = .ok ts ∧ (us.length : ℤ) = ts.length - lag ∧ lag ≤ snapshots.length ∧
      controlLoop (modes * diagonal (fun i => eigs i ^ ⌊dmd.dt / orig.dt⌋) * P) B 0 (snapshots.take lag) us = .ok d := by
  simp only [reconstructedData, Option.getD_some] at h
  cases ht : dmd.timesteps with
  | error e => rw [ht] at h; simp at h
  | ok ts =>
    rw [ht] at h
    simp only at h
    split_ifs at h with h1 h2
    exact ⟨ts, rfl, by simpa [Control.len] using h1, by omega, h⟩

/-! ## Property theorems -/

/-- **C179** (causality). Two control inputs that agree in their first `k` columns give responses that agree in the first
`lag + k` columns: the input does not act before its time. -/
theorem C179_causal {q : ℕ} (modes : Matrix m r ℂ) (eigs : r → ℂ) (P : Matrix r m ℂ) (B : Matrix m (Fin q) ℂ)
    (snapshots : List (m → ℂ)) (lag : ℕ) (orig dmd : Time.Window) (other : Control) (us vs : List (List ℂ)) (d e : List (m → ℂ))
    (hd : reconstructedData modes eigs P B snapshots lag orig dmd other (some (.two us)) = .ok d)
    (he : reconstructedData modes eigs P B snapshots lag orig dmd other (some (.two vs)) = .ok e) (k : ℕ)
    (h : us.take k = vs.take k) : d.take (lag + k) = e.take (lag + k) := by
  obtain ⟨-, -, -, hs, h1⟩ := recon_loop _ _ _ _ _ _ _ _ _ _ _ hd
  obtain ⟨-, -, -, -, h2⟩ := recon_loop _ _ _ _ _ _ _ _ _ _ _ he
  have := loop_causal _ B k 0 (snapshots.take lag) us vs d e h1 h2 h
  rwa [List.length_take, min_eq_left hs] at this

/-- **C179** (superposition). The response to `a u + b v` with `a + b = 1` is `a` times the response to `u` plus `b` times the
response to `v`; in particular it does not raise if these do not. -/
theorem C179_superposition {q : ℕ} (modes : Matrix m r ℂ) (eigs : r → ℂ) (P : Matrix r m ℂ) (B : Matrix m (Fin q) ℂ)
    (snapshots : List (m → ℂ)) (lag : ℕ) (orig dmd : Time.Window) (other : Control) (us vs : List (List ℂ)) (d e : List (m → ℂ))
    (hd : reconstructedData modes eigs P B snapshots lag orig dmd other (some (.two us)) = .ok d)
    (he : reconstructedData modes eigs P B snapshots lag orig dmd other (some (.two vs)) = .ok e) (a b : ℂ) (hab : a + b = 1) :
    reconstructedData modes eigs P B snapshots lag orig dmd other (some (.two (mixControls a b us vs))) = .ok (mixStates a b d e) := by
  obtain ⟨ts, ht, hl, hs, h1⟩ := recon_loop _ _ _ _ _ _ _ _ _ _ _ hd
  obtain ⟨ts', ht', hl', -, h2⟩ := recon_loop _ _ _ _ _ _ _ _ _ _ _ he
  rw [ht] at ht'
  obtain rfl : ts = ts' := by simpa using ht'
  have hlen : us.length = vs.length := by omega
  have hmix := loop_mix _ B a b us vs 0 _ _ d e hlen rfl h1 h2
  have hself : mixStates a b (snapshots.take lag) (snapshots.take lag) = snapshots.take lag := by
    unfold mixStates
    rw [List.zipWith_self]
    conv_rhs => rw [← List.map_id (snapshots.take lag)]
    refine List.map_congr_left fun x _ => ?_
    rw [← add_smul, hab, one_smul]
    rfl
  rw [hself] at hmix
  have hml : (mixControls a b us vs).length = us.length := by
    unfold mixControls
    rw [List.length_zipWith]
    omega
  simp only [reconstructedData, Option.getD_some, ht, Control.len, hml]
  rw [if_neg (by omega), if_neg (by omega)]
  exact hmix

/-- The hypotheses are met by the controls `1, 1` and `1, 3` of a system with one state: they agree in the first column, and the
responses to both exist. -/
example : ∃ d e, reconstructedData (m := Fin 1) (r := Fin 1) 1 (fun _ => 2) 1 (1 : Matrix (Fin 1) (Fin 1) ℂ) [fun _ => 1, fun _ => 3, fun _ => 7] 1
      (Time.fitWindow 3) (Time.fitWindow 3) (.one []) (some (.two [[1], [1]])) = .ok d ∧
    reconstructedData (m := Fin 1) (r := Fin 1) 1 (fun _ => 2) 1 (1 : Matrix (Fin 1) (Fin 1) ℂ) [fun _ => 1, fun _ => 3, fun _ => 7] 1
      (Time.fitWindow 3) (Time.fitWindow 3) (.one []) (some (.two [[1], [3]])) = .ok e ∧
    [[1], [1]].take 1 = ([[1], [3]] : List (List ℂ)).take 1 := by
  have hts := Time.timesteps_ok (Time.fitWindow 3) (by simp [Time.fitWindow])
  have hlen : (Time.steps (Time.fitWindow 3)).length = 3 := by
    rw [Time.length_steps]
    simp [Time.fitWindow]
  have key : ∀ v : ℂ, ∃ d, reconstructedData (m := Fin 1) (r := Fin 1) 1 (fun _ => 2) 1 (1 : Matrix (Fin 1) (Fin 1) ℂ)
      [fun _ => 1, fun _ => 3, fun _ => 7] 1 (Time.fitWindow 3) (Time.fitWindow 3) (.one []) (some (.two [[1], [v]])) = .ok d := by
    intro v
    simp only [reconstructedData, Option.getD_some, hts, Control.len, hlen]
    rw [if_neg (by simp), if_neg (by simp)]
    obtain ⟨out, h, -⟩ := controlLoop_spec (1 * diagonal (fun _ : Fin 1 => (2 : ℂ) ^ ⌊(Time.fitWindow 3).dt / (Time.fitWindow 3).dt⌋) * 1)
      (1 : Matrix (Fin 1) (Fin 1) ℂ) [[1], [v]] 0 [fun _ => 1] (by simp) (by simp)
    exact ⟨_, h⟩
  obtain ⟨d, hd⟩ := key 1
  obtain ⟨e, he⟩ := key 3
  exact ⟨d, e, hd, he, rfl⟩

end Verif.Dmdc
