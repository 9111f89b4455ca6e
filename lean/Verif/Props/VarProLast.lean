import Verif.Props.Refit

/-!
# Property C26: which fit a forecast of VarProDMD uses, over all histories
-/

set_option autoImplicit false

namespace Verif.Refit

open Verif Verif.Bitmask

variable {D I M E A : Type}

/-! ## Vocabulary -/

/-- The results of the fits of a history that did not raise, in order. -/
def fitResults (solve : D → Except PyErr (Arrays M E A × I)) (h : List (VarEvent D)) : List (Arrays M E A) :=
  h.filterMap fun e => match e with
    | .fit x => match solve x with
      | .ok (a, _) => some a
      | .error _ => none
    | _ => none

/-! ## Lemmas -/

theorem read_cur (st : VarPro D I M E A) : st.read.cur = st.cur := by
  unfold VarPro.read
  split
  · split <;> rfl
  · rfl

theorem setMask_cur (l : List Bool) (st : VarPro D I M E A) : (st.setMask l).2.cur = st.cur := by
  unfold VarPro.setMask
  split
  · rfl
  · simp only
    split
    · exact read_cur st
    · split_ifs
      · exact read_cur st
      · split
        · exact read_cur st
        · exact read_cur st

theorem run_cur (solve : D → Except PyErr (Arrays M E A × I)) : ∀ (h : List (VarEvent D)) (st : VarPro D I M E A),
    (st.run solve h).cur = (fitResults solve h).getLast?.or st.cur := by
  intro h
  induction h with
  | nil => intro st; simp [VarPro.run, fitResults]
  | cons e es ih =>
    intro st
    rw [VarPro.run, ih]
    cases e with
    | read => simp [VarPro.step, read_cur, fitResults]
    | mask l => simp [VarPro.step, setMask_cur, fitResults]
    | fit x =>
      simp only [VarPro.step, VarPro.fit, fitResults]
      cases hx : solve x with
      | error e => simp [hx]
      | ok p =>
        obtain ⟨a, i⟩ := p
        simp only [hx, List.filterMap_cons, List.getLast?_cons]
        cases (List.getLast? _) <;> simp

/-! ## Property theorem -/

/-- **C26** for `VarProDMD.forecast` over all histories of fits (also failing ones), reads and masks: it uses the arrays of the last fit
that did not raise, and raises `ValueError` if there is none. -/
theorem C26_varpro_last (solve : D → Except PyErr (Arrays M E A × I)) (h : List (VarEvent D)) :
    (∀ a, (fitResults solve h).getLast? = some a → ((VarPro.new : VarPro D I M E A).run solve h).forecastArgs = .ok a) ∧
    (fitResults solve h = [] → ((VarPro.new : VarPro D I M E A).run solve h).forecastArgs = .error .valueError) := by
  have key := run_cur solve h (VarPro.new : VarPro D I M E A)
  refine ⟨fun a ha => ?_, fun hn => ?_⟩
  · rw [ha] at key
    simp only [VarPro.forecastArgs]
    rw [key]
    rfl
  · rw [hn] at key
    simp only [VarPro.forecastArgs]
    rw [key]
    rfl

/-- Both cases occur: after a fit, a read, a mask and a fit that raises the last result is that of the first fit; a history that only
reads has none. -/
example : (fitResults (fun d : List ℚ => if d = [] then .error .valueError else .ok ((⟨d, d, d⟩ : Arrays ℚ ℚ ℚ), d.length))
      [.fit [1, 2], .read, .mask [true, false], .fit []]).getLast? = some ⟨[1, 2], [1, 2], [1, 2]⟩ ∧
    fitResults (fun d : List ℚ => if d = [] then .error .valueError else .ok ((⟨d, d, d⟩ : Arrays ℚ ℚ ℚ), d.length))
      [.read, .fit []] = [] := by
  simp [fitResults]

end Verif.Refit
