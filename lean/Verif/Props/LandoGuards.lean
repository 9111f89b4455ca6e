import Verif.Props.LandoState

/-!
# Property C75: which calls of a LANDO instance answer
-/

set_option autoImplicit false

namespace Verif.Lando

open Matrix Verif

variable {n : Type} [Fintype n]

/-! ## Vocabulary -/

/-- `fit` was called. -/
def WasFitted (cs : List (Call n)) : Prop := ∃ m, Call.fit m ∈ cs

/-- `analyze_fixed_point` was called after a call of `fit`. -/
def WasAnalysed (cs : List (Call n)) : Prop :=
  ∃ pre x c post, cs = pre ++ Call.analyze x c :: post ∧ WasFitted pre

/-! ## Lemmas -/

omit [Fintype n] in
theorem wasFitted_append (cs : List (Call n)) (c : Call n) : WasFitted (cs ++ [c]) ↔ WasFitted cs ∨ ∃ m, c = .fit m := by
  simp only [WasFitted, List.mem_append, List.mem_singleton]
  constructor
  · rintro ⟨m, h | h⟩
    · exact Or.inl ⟨m, h⟩
    · exact Or.inr ⟨m, h.symm⟩
  · rintro (⟨m, h⟩ | ⟨m, h⟩)
    · exact ⟨m, Or.inl h⟩
    · exact ⟨m, Or.inr h.symm⟩

omit [Fintype n] in
theorem wasAnalysed_append (cs : List (Call n)) (c : Call n) :
    WasAnalysed (cs ++ [c]) ↔ WasAnalysed cs ∨ (WasFitted cs ∧ ∃ x b, c = .analyze x b) := by
  constructor
  · rintro ⟨pre, x, b, post, h, hf⟩
    rcases List.eq_nil_or_concat post with rfl | ⟨post', p, rfl⟩
    · obtain ⟨h1, h2⟩ := List.append_inj' h rfl
      simp only [List.cons.injEq, and_true] at h2
      exact Or.inr ⟨h1 ▸ hf, x, b, h2⟩
    · have h' : cs ++ [c] = (pre ++ Call.analyze x b :: post') ++ [p] := by simpa using h
      obtain ⟨h1, -⟩ := List.append_inj' h' rfl
      exact Or.inl ⟨pre, x, b, post', h1, hf⟩
  · rintro (⟨pre, x, b, post, rfl, hf⟩ | ⟨hf, x, b, rfl⟩)
    · exact ⟨pre, x, b, post ++ [c], by simp, hf⟩
    · exact ⟨cs, x, b, [], rfl, hf⟩

omit [Fintype n] in
theorem WasAnalysed.fitted {cs : List (Call n)} (h : WasAnalysed cs) : WasFitted cs := by
  obtain ⟨pre, x, b, post, rfl, m, hm⟩ := h
  exact ⟨m, List.mem_append_left _ hm⟩

/-- What the history says about the attributes. -/
theorem after_state (k : Kernel) (rho : n → ℝ) (online : Bool) (cs : List (Call n)) :
    ((Inst.after k rho online cs).model ≠ none ↔ WasFitted cs) ∧
    ((Inst.after k rho online cs).modes = true ↔ WasAnalysed cs) ∧
    ((Inst.after k rho online cs).modes = true → (Inst.after k rho online cs).fixedPoint ≠ none ∧ (Inst.after k rho online cs).bias ≠ none) := by
  induction cs using List.reverseRecOn with
  | nil => simp [Inst.after, WasFitted, WasAnalysed]
  | append_singleton cs c ih =>
    have hs : Inst.after k rho online (cs ++ [c]) = Inst.call k rho online (Inst.after k rho online cs) c := by
      simp [Inst.after, List.foldl_append]
    rw [hs, wasFitted_append, wasAnalysed_append]
    generalize Inst.after k rho online cs = st at ih
    obtain ⟨h1, h2, h3⟩ := ih
    have h4 : WasAnalysed cs → WasFitted cs := WasAnalysed.fitted
    cases c with
    | fit m =>
      simp only [Inst.call, Inst.fit]
      refine ⟨by simp, ?_, h3⟩
      rw [h2]
      simp
    | analyze x b =>
      cases hm : st.model with
      | none =>
        have hf : ¬ WasFitted cs := by rw [← h1, hm]; simp
        simp only [Inst.call, Inst.analyze, hm]
        refine ⟨by simp [hf], ?_, h3⟩
        rw [h2]
        simp [hf]
      | some m =>
        have hf : WasFitted cs := by rw [← h1, hm]; simp
        simp only [Inst.call, Inst.analyze, hm, Inst.linOp]
        simp [hf]
    | update m' =>
      cases hm : st.model with
      | none =>
        have hf : ¬ WasFitted cs := by rw [← h1, hm]; simp
        simp only [Inst.call, Inst.update, hm]
        refine ⟨?_, ?_, h3⟩
        · simp [hf]
        · rw [h2]; simp
      | some m =>
        have hf : WasFitted cs := by rw [← h1, hm]; simp
        simp only [Inst.call, Inst.update, hm]
        cases online
        · simp only [Bool.false_eq_true, if_false, hm]
          refine ⟨by simp [hf], ?_, h3⟩
          rw [h2]; simp
        · simp only [if_true]
          split
          · rename_i hmo hfp
            simp only [Inst.linOp]
            refine ⟨by simp [hf], ?_, fun _ => ⟨by simp [hfp], by simp⟩⟩
            rw [← h2, hmo]
            simp
          · refine ⟨by simp [hf], ?_, h3⟩
            rw [h2]; simp

/-! ## Property theorem -/

/-- **C75** (guards). After any history of calls: without a call of `fit` in it `f`, `analyze_fixed_point` and `update` raise
`ValueError`, and with one `f` and `analyze_fixed_point` answer, and `update` does exactly if learning is online. Without an analysis
after a `fit` in the history `bias`, `linear` and `nonlinear` raise `ValueError`; with one they answer, `bias` with a value. -/
theorem C75_guards (k : Kernel) (rho : n → ℝ) (online : Bool) (cs : List (Call n)) (x : n → ℝ) (b : Bool) (m : Learnt n) :
    (¬ WasFitted cs → (Inst.after k rho online cs).evalF k rho x = .error .valueError ∧
      ((Inst.after k rho online cs).analyze k rho x b).1 = .error .valueError ∧
      ((Inst.after k rho online cs).update k rho online m).1 = .error .valueError) ∧
    (WasFitted cs → (∃ y, (Inst.after k rho online cs).evalF k rho x = .ok y) ∧
      ((Inst.after k rho online cs).analyze k rho x b).1 = .ok () ∧
      ((Inst.after k rho online cs).update k rho online m).1 = if online then .ok () else .error .valueError) ∧
    (¬ WasAnalysed cs → (Inst.after k rho online cs).getBias = .error .valueError ∧
      (Inst.after k rho online cs).getLinear = .error .valueError ∧
      (Inst.after k rho online cs).getNonlinear k rho x = .error .valueError) ∧
    (WasAnalysed cs → (∃ c, (Inst.after k rho online cs).getBias = .ok (some c)) ∧
      (∃ A, (Inst.after k rho online cs).getLinear = .ok A) ∧
      ∃ y, (Inst.after k rho online cs).getNonlinear k rho x = .ok y) := by
  obtain ⟨h1, h2, h3⟩ := after_state k rho online cs
  generalize Inst.after k rho online cs = st at *
  refine ⟨fun h => ?_, fun h => ?_, fun h => ?_, fun h => ?_⟩
  · have hm : st.model = none := by
      by_contra hne
      exact h (h1.mp hne)
    simp [Inst.evalF, Inst.analyze, Inst.update, hm]
  · obtain ⟨m', hm⟩ := Option.ne_none_iff_exists'.mp (h1.mpr h)
    refine ⟨⟨m'.f k rho x, by simp [Inst.evalF, hm]⟩, by simp [Inst.analyze, hm], ?_⟩
    simp only [Inst.update, hm]
    cases online
    · simp
    · simp only [if_true]
      split <;> rfl
  · have hmo : st.modes = false := by
      cases hb : st.modes with
      | false => rfl
      | true => exact absurd (h2.mp hb) h
    simp [Inst.getBias, Inst.getLinear, Inst.getNonlinear, hmo]
  · have hmo := h2.mpr h
    obtain ⟨hfp, hbi⟩ := h3 hmo
    obtain ⟨m', hm⟩ := Option.ne_none_iff_exists'.mp (h1.mpr h.fitted)
    obtain ⟨xb, hfp⟩ := Option.ne_none_iff_exists'.mp hfp
    obtain ⟨c, hbi⟩ := Option.ne_none_iff_exists'.mp hbi
    refine ⟨⟨c, by simp [Inst.getBias, hmo, hbi]⟩, ⟨st.A, by simp [Inst.getLinear, hmo]⟩, ?_⟩
    simp [Inst.getNonlinear, hmo, hm, hfp, hbi]

/-- An analysis before the only `fit` does not count; one after it does. -/
example (m : Learnt Unit) (x : Unit → ℝ) :
    (WasFitted [Call.analyze x true, .fit m] ∧ ¬ WasAnalysed [Call.analyze x true, .fit m]) ∧ WasAnalysed [Call.fit m, .analyze x true] := by
  refine ⟨⟨⟨m, by simp⟩, ?_⟩, [.fit m], x, true, [], rfl, m, by simp⟩
  rw [show [Call.analyze x true, .fit m] = ([] ++ [Call.analyze x true]) ++ [Call.fit m] from rfl, wasAnalysed_append, wasAnalysed_append]
  simp [WasFitted, WasAnalysed]

end Verif.Lando
