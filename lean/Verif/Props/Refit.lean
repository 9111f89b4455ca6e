import Verif.Model.Refit
import Verif.Props.Rank
import Verif.Props.MrDMD
import Verif.Lemmas.Bitmask

/-!
# C26: does a fit depend only on the data of that fit?

Each class has its own answer; see the comment of each theorem.
-/

set_option autoImplicit false

namespace Verif.Refit

open Verif Verif.Bitmask

/-! ## DMD -/

section dmd

variable {D S U At W T K M E A : Type} (N : DmdNum D S U At W T K M E A)

/-- The operator stage reads only `_rescale_mode` from an earlier fit. -/
theorem computeOperator_indep (X Y : S) (r : Rescale K) (nx nx' : Option K)
    (hn : N.tikhonov = true ∨ nx = nx') (a0 a0' : Option At) (op op' : Option (List M × List E))
    (b : Option (List A)) (v : Option (View M E A)) (s sy : Option D) (t d t' d' : Option T) :
    let r1 := computeOperator N X Y ⟨r, nx, a0, ⟨op, b, v⟩, s, sy, t, d⟩
    let r2 := computeOperator N X Y ⟨r, nx', a0', ⟨op', b, v⟩, s, sy, t', d'⟩
    (∃ e, r1.1 = .error e ∧ r2.1 = .error e) ∨
    ∃ o r' n a p, r1 = (.ok o, ⟨r', n, a, ⟨p, b, v⟩, s, sy, t, d⟩) ∧
      r2 = (.ok o, ⟨r', n, a, ⟨p, b, v⟩, s, sy, t', d'⟩) := by
  intro r1 r2
  have key : ∀ nn : Option K, r1 = computeOperator { N with tikhonov := false } X Y
      ⟨r, nn, a0, ⟨op, b, v⟩, s, sy, t, d⟩ →
      r2 = computeOperator { N with tikhonov := false } X Y
      ⟨r, nn, a0', ⟨op', b, v⟩, s, sy, t', d'⟩ →
      (∃ e, r1.1 = .error e ∧ r2.1 = .error e) ∨
      ∃ o r' n a p, r1 = (.ok o, ⟨r', n, a, ⟨p, b, v⟩, s, sy, t, d⟩) ∧
      r2 = (.ok o, ⟨r', n, a, ⟨p, b, v⟩, s, sy, t', d'⟩) := by
    intro nn h1 h2
    rw [h1, h2]
    clear_value r1 r2
    unfold computeOperator
    simp only [Bool.false_eq_true, if_false]
    cases N.lsq nn (N.svd X) X Y with
    | error e => exact Or.inl ⟨e, rfl, rfl⟩
    | ok a =>
      simp only
      generalize autoScale r (N.sing (N.svd X)) = q
      cases scaling q (N.size a) with
      | error e => exact Or.inl ⟨e, rfl, rfl⟩
      | ok f =>
        simp only
        cases N.eig f a with
        | error e => exact Or.inl ⟨e, rfl, rfl⟩
        | ok es =>
          simp only
          cases N.sort es with
          | error e => exact Or.inl ⟨e, rfl, rfl⟩
          | ok es => exact Or.inr ⟨_, _, _, _, _, rfl, rfl⟩
  by_cases ht : N.tikhonov = true
  · exact key (some (N.norm X)) (by simp [r1, computeOperator, ht]) (by simp [r2, computeOperator, ht])
  · have ht' : N.tikhonov = false := by simpa using ht
    have hnn : nx = nx' := by simpa [ht'] using hn
    exact key nx (by simp [r1, computeOperator, ht']) (by simp [r2, computeOperator, ht', hnn])

/-- `fit` reads only `_rescale_mode` from an earlier fit. -/
theorem fit_indep (x : D) (y : Option D) (st st' : Dmd D T K At M E A)
    (hr : st.rescale = st'.rescale) (hn : N.tikhonov = true ∨ st.normX = st'.normX) :
    (st.fit N x y).1 = (st'.fit N x y).1 ∧
    ((st.fit N x y).1 = .ok () → (st.fit N x y).2 = (st'.fit N x y).2) := by
  obtain ⟨r, nx, a0, ⟨op, b, v⟩, s, sy, t, d⟩ := st
  obtain ⟨r', nx', a0', ⟨op', b', v'⟩, s', sy', t', d'⟩ := st'
  simp only at hr hn
  subst hr
  simp only [Dmd.fit, Dmd.reset]
  cases N.snapshots x with
  | error e => simp
  | ok _ =>
    simp only
    cases checkY N x y with
    | error e => simp
    | ok y' =>
      simp only
      cases N.split x y' with
      | error e => simp
      | ok XY =>
        obtain ⟨X, Y⟩ := XY
        simp only
        rcases computeOperator_indep N X Y r nx nx' hn a0 a0' op op' none none (some x) y' t d t' d'
          with ⟨e, h1, h2⟩ | ⟨o, r', n, a, p, h1, h2⟩
        · generalize computeOperator N X Y ⟨r, nx, a0, ⟨op, none, none⟩, some x, y', t, d⟩ = g1 at *
          generalize computeOperator N X Y ⟨r, nx', a0', ⟨op', none, none⟩, some x, y', t', d'⟩ = g2
            at *
          obtain ⟨g1a, g1b⟩ := g1
          obtain ⟨g2a, g2b⟩ := g2
          simp only at h1 h2
          subst h1 h2
          simp
        · rw [h1, h2]
          obtain ⟨es, ms⟩ := o
          simp only
          cases N.amps ms es x y' (N.time x) with
          | error e => simp
          | ok b => simp

/-- What a fit can do to the attribute `_rescale_mode`. -/
theorem fit_rescale (x : D) (y : Option D) (st : Dmd D T K At M E A) :
    (st.fit N x y).2.rescale = st.rescale ∨ ∃ y' X Y, N.split x y' = .ok (X, Y) ∧
      (st.fit N x y).2.rescale = autoScale st.rescale (N.sing (N.svd X)) := by
  simp only [Dmd.fit, Dmd.reset]
  cases N.snapshots x with
  | error e => exact Or.inl rfl
  | ok _ =>
    simp only
    cases checkY N x y with
    | error e => exact Or.inl rfl
    | ok y' =>
      simp only
      cases hs : N.split x y' with
      | error e => exact Or.inl rfl
      | ok XY =>
        obtain ⟨X, Y⟩ := XY
        simp only
        have key : ∀ s0 : Dmd D T K At M E A, (computeOperator N X Y s0).2.rescale = s0.rescale ∨
            (computeOperator N X Y s0).2.rescale = autoScale s0.rescale (N.sing (N.svd X)) := by
          intro s0
          have h1 : (if N.tikhonov then { s0 with normX := some (N.norm X) } else s0).rescale =
              s0.rescale := by split <;> rfl
          unfold computeOperator
          simp only
          generalize (if N.tikhonov then { s0 with normX := some (N.norm X) } else s0) = s1 at *
          rw [← h1]
          cases N.lsq s1.normX (N.svd X) X Y with
          | error e => exact Or.inl rfl
          | ok a =>
            simp only
            right
            cases scaling (autoScale s1.rescale (N.sing (N.svd X))) (N.size a) with
            | error e => rfl
            | ok f =>
              simp only
              cases N.eig f a with
              | error e => rfl
              | ok es =>
                simp only
                cases N.sort es with
                | error e => rfl
                | ok es => rfl
        have hk := key ⟨st.rescale, st.normX, st.atilde, ⟨st.obj.op, none, none⟩, some x, y',
          st.origTime, st.dmdTime⟩
        simp only at hk
        generalize computeOperator N X Y ⟨st.rescale, st.normX, st.atilde, ⟨st.obj.op, none, none⟩,
          some x, y', st.origTime, st.dmdTime⟩ = g at *
        obtain ⟨g1, g2⟩ := g
        have hend : (match (g1, g2) with
          | (.error e, st) => ((.error e : Except PyErr Unit), st)
          | (.ok (es, ms), st) =>
            match N.amps ms es x y' (N.time x) with
            | .error e => (.error e, { st with origTime := some (N.time x),
                                               dmdTime := some (N.time x) })
            | .ok b => (.ok (), { st with origTime := some (N.time x), dmdTime := some (N.time x),
                                          obj := { st.obj with b := some b } })).2.rescale
            = g2.rescale := by
          cases g1 with
          | error e => rfl
          | ok o =>
            obtain ⟨es, ms⟩ := o
            simp only
            cases N.amps ms es x y' (N.time x) <;> rfl
        rcases hk with hk | hk
        · left; exact hend.trans hk
        · right; exact ⟨y', X, Y, hs, hend.trans hk⟩

/-- Without regularisation `_norm_X` is never written. -/
theorem fit_normX (ht : N.tikhonov = false) (x : D) (y : Option D) (st : Dmd D T K At M E A) :
    (st.fit N x y).2.normX = st.normX := by
  simp only [Dmd.fit, Dmd.reset, computeOperator, ht, Bool.false_eq_true, if_false]
  cases N.snapshots x with
  | error e => rfl
  | ok _ =>
    simp only
    cases checkY N x y with
    | error e => rfl
    | ok y' =>
      simp only
      cases N.split x y' with
      | error e => rfl
      | ok XY =>
        obtain ⟨X, Y⟩ := XY
        simp only
        cases N.lsq st.normX (N.svd X) X Y with
        | error e => rfl
        | ok a =>
          simp only
          cases scaling (autoScale st.rescale (N.sing (N.svd X))) (N.size a) with
          | error e => rfl
          | ok f =>
            simp only
            cases N.eig f a with
            | error e => rfl
            | ok es =>
              simp only
              cases N.sort es with
              | error e => rfl
              | ok es =>
                simp only
                cases N.amps (N.modes f st.normX (N.svd X) Y es) es x y' (N.time x) <;> rfl

/-- The data of the fits of a history. -/
def fits : List (DmdEvent D T M E A) → List (D × Option D)
  | [] => []
  | .fit x y :: h => (x, y) :: fits h
  | .touch _ :: h => fits h
  | .times _ _ :: h => fits h

/-- The state after a history: `_rescale_mode` is what it was, or - only if it was `"auto"` - the
singular values of some data set fitted before; `_norm_X` is untouched without regularisation. -/
theorem run_inv (h : List (DmdEvent D T M E A)) : ∀ st : Dmd D T K At M E A,
    (N.tikhonov = true ∨ (st.run N h).normX = st.normX) ∧
    ((st.run N h).rescale = st.rescale ∨ (st.rescale = .auto ∧ ∃ p ∈ fits h, ∃ y' X Y,
      N.split p.1 y' = .ok (X, Y) ∧ (st.run N h).rescale = .factors (N.sing (N.svd X)))) := by
  induction h with
  | nil => intro st; exact ⟨Or.inr rfl, Or.inl rfl⟩
  | cons e es ih =>
    intro st
    obtain ⟨i1, i2⟩ := ih (st.step N e)
    cases e with
    | touch op => exact ⟨i1, i2⟩
    | times o d => exact ⟨i1, i2⟩
    | fit x y =>
      have hstep : st.step N (.fit x y) = (st.fit N x y).2 := rfl
      constructor
      · cases ht : N.tikhonov with
        | true => exact Or.inl rfl
        | false =>
          right
          simp only [ht, Bool.false_eq_true, false_or] at i1
          change ((st.step N (.fit x y)).run N es).normX = _
          rw [i1, hstep, fit_normX N ht]
      · change ((st.step N (.fit x y)).run N es).rescale = _ ∨ (_ ∧ ∃ p ∈ (x, y) :: fits es,
          ∃ y' X Y, _ ∧ ((st.step N (.fit x y)).run N es).rescale = _)
        rw [hstep] at i2 ⊢
        rcases i2 with h2 | ⟨ha, p, hp, y', X, Y, h3, h4⟩
        · rw [h2]
          rcases fit_rescale N x y st with h5 | ⟨y', X, Y, h5, h6⟩
          · exact Or.inl h5
          · rw [h6]
            cases hr : st.rescale with
            | none => exact Or.inl rfl
            | factors l => exact Or.inl rfl
            | invalid => exact Or.inl rfl
            | auto =>
              right
              exact ⟨rfl, (x, y), by simp, y', X, Y, h5, rfl⟩
        · right
          rcases fit_rescale N x y st with h5 | ⟨y'', X', Y', h5, h6⟩
          · exact ⟨h5 ▸ ha, p, by simp [hp], y', X, Y, h3, h4⟩
          · rw [ha] at h6
            cases hr : st.rescale with
            | none => rw [hr] at h6; simp [autoScale] at h6
            | factors l => rw [hr] at h6; simp [autoScale] at h6
            | invalid => rw [hr] at h6; simp [autoScale] at h6
            | auto => exact ⟨rfl, p, by simp [hp], y', X, Y, h3, h4⟩

/-- **C26** for `DMD` with `rescale_mode` other than `"auto"`: whatever was fitted before (with or
without exceptions), whatever masks were set, arrays written and time windows assigned, the next
`fit` raises the same exception as on a new instance, or succeeds and leaves the instance in
exactly the same state. -/
theorem C26_dmd_partial (r : Rescale K) (hr : r ≠ .auto) (h : List (DmdEvent D T M E A)) (x : D)
    (y : Option D) :
    let old := ((Dmd.new r : Dmd D T K At M E A).run N h).fit N x y
    let fresh := (Dmd.new r : Dmd D T K At M E A).fit N x y
    old.1 = fresh.1 ∧ (fresh.1 = .ok () → old.2 = fresh.2) := by
  intro old fresh
  obtain ⟨h1, h2⟩ := run_inv N h (Dmd.new r)
  have h3 : ((Dmd.new r : Dmd D T K At M E A).run N h).rescale = r := by
    rcases h2 with h2 | ⟨h2, -⟩
    · exact h2
    · exact absurd h2 hr
  obtain ⟨h4, h5⟩ := fit_indep N x y _ (Dmd.new r) h3 h1
  exact ⟨h4, fun h => h5 (h4.trans h)⟩

/-- **C26** for `DMD` with `rescale_mode="auto"`: the next `fit` behaves as the first fit of an
instance whose `rescale_mode` is either still `"auto"` or the array of the singular values of data
fitted earlier. -/
theorem C26_dmd_auto_partial (h : List (DmdEvent D T M E A)) (x : D) (y : Option D) :
    ∃ r : Rescale K, (r = .auto ∨ ∃ p ∈ fits h, ∃ y' X Y, N.split p.1 y' = .ok (X, Y) ∧
      r = .factors (N.sing (N.svd X))) ∧
    let old := ((Dmd.new .auto : Dmd D T K At M E A).run N h).fit N x y
    let fresh := (Dmd.new r : Dmd D T K At M E A).fit N x y
    old.1 = fresh.1 ∧ (fresh.1 = .ok () → old.2 = fresh.2) := by
  obtain ⟨h1, h2⟩ := run_inv N h (Dmd.new .auto)
  refine ⟨((Dmd.new .auto : Dmd D T K At M E A).run N h).rescale, ?_, ?_⟩
  · rcases h2 with h2 | ⟨-, h2⟩
    · exact Or.inl h2
    · exact Or.inr h2
  · obtain ⟨h4, h5⟩ := fit_indep N x y ((Dmd.new .auto : Dmd D T K At M E A).run N h)
      (Dmd.new ((Dmd.new .auto : Dmd D T K At M E A).run N h).rescale) rfl h1
    exact ⟨h4, fun h => h5 (h4.trans h)⟩

/-- **C26** fails for `DMD(rescale_mode="auto")`: after one successful fit, every fit on data whose
reduced operator has another size raises `ValueError`, whatever a new instance would do. -/
theorem C26_dmd_auto_raises (x₁ x₂ : D) (X₁ Y₁ X₂ Y₂ : S) (a₂ : At)
    (hs₁ : N.split x₁ none = .ok (X₁, Y₁)) (hs₂ : N.split x₂ none = .ok (X₂, Y₂))
    (h₁ : ((Dmd.new .auto : Dmd D T K At M E A).fit N x₁ none).1 = .ok ())
    (hx₂ : N.snapshots x₂ = .ok ()) (ht : N.tikhonov = false)
    (ha₂ : N.lsq none (N.svd X₂) X₂ Y₂ = .ok a₂)
    (hne : (N.sing (N.svd X₁)).length ≠ N.size a₂) :
    (((Dmd.new .auto : Dmd D T K At M E A).fit N x₁ none).2.fit N x₂ none).1 =
      .error .valueError := by
  have hn := fit_normX N ht x₁ none (Dmd.new .auto : Dmd D T K At M E A)
  have hr : ((Dmd.new .auto : Dmd D T K At M E A).fit N x₁ none).2.rescale =
      .factors (N.sing (N.svd X₁)) := by
    revert h₁
    simp only [Dmd.fit, Dmd.reset, Dmd.new, checkY, hs₁, computeOperator, ht, Bool.false_eq_true,
      if_false]
    cases N.snapshots x₁ with
    | error e => simp
    | ok _ =>
      simp only
      cases N.lsq none (N.svd X₁) X₁ Y₁ with
      | error e => simp
      | ok a =>
        simp only
        cases scaling (autoScale .auto (N.sing (N.svd X₁))) (N.size a) with
        | error e => simp
        | ok f =>
          simp only
          cases N.eig f a with
          | error e => simp
          | ok es =>
            simp only
            cases N.sort es with
            | error e => simp
            | ok es =>
              simp only
              cases N.amps (N.modes f none (N.svd X₁) Y₁ es) es x₁ none (N.time x₁) with
              | error e => simp
              | ok b => intro _; rfl
  generalize ((Dmd.new .auto : Dmd D T K At M E A).fit N x₁ none).2 = st at *
  simp only [Dmd.fit, Dmd.reset, hx₂, checkY, hs₂, computeOperator, ht, Bool.false_eq_true,
    if_false, hn, Dmd.new, ha₂, hr, autoScale, scaling, ne_eq, hne, not_false_eq_true, if_true]

end dmd

/-- An instance of the numerics for the examples: data are lists of rationals `d`, the reduced
operator is the diagonal matrix of `d`, its "singular values" are the absolute values, eigenvalues
are the entries, modes are the eigenvalues scaled by the factors, amplitudes divide by the first
entry (an exception for empty lists and for a zero first entry). -/
def diagNum : DmdNum (List ℚ) (List ℚ) (List ℚ) (List ℚ) Unit ℕ ℚ ℚ ℚ ℚ where
  snapshots d := if d = [] then .error .valueError else .ok ()
  sameShape a b := a.length == b.length
  split a _ := .ok (a, a)
  svd a := a
  sing a := a.map (|·|)
  tikhonov := false
  norm a := a.sum
  lsq _ _ a _ := .ok a
  size a := a.length
  eig _ a := .ok ⟨a, ()⟩
  sort e := .ok e
  modes f _ _ _ e := match f with
    | none => e.vals
    | some l => (e.vals.zip l).map fun p => p.1 * p.2
  time a := a.length
  amps ms _ _ _ _ := if ms.head? = some 0 then .error .valueError else .ok ms

/-- A history with a successful fit, a mask, a failed fit, and then a fit: same state as fresh. -/
example : (((Dmd.new .none).run diagNum
      [.fit [1, 2] none, .touch (.setMask (.bool1 [true, false])), .fit [] none,
        .times (some 3) none]).fit diagNum [5, -6, 7] none).2.obj =
    ⟨some ([5, -6, 7], [5, -6, 7]), some [5, -6, 7], none⟩ := by decide +kernel

/-- **C26** fails for `DMD(rescale_mode="auto")` even for equal sizes: the second fit is scaled with
the singular values of the first data, so its modes differ from those of a new instance. -/
theorem C26_dmd_auto_false :
    ((((Dmd.new .auto).fit diagNum [1, 2] none).2.fit diagNum [3, 4] none).2.obj.op =
      some ([3, 8], [3, 4])) ∧
    (((Dmd.new .auto).fit diagNum [3, 4] none).2.obj.op = some ([9, 16], [3, 4])) := by
  decide +kernel

/-- The hypotheses of `C26_dmd_auto_raises` for two and then three modes, and what a new instance
does. -/
example : (((Dmd.new .auto).fit diagNum [1, 2] none).2.fit diagNum [3, 4, 5] none).1 =
      .error .valueError ∧ ((Dmd.new .auto).fit diagNum [3, 4, 5] none).1 = .ok () :=
  ⟨C26_dmd_auto_raises diagNum [1, 2] [3, 4, 5] _ _ _ _ _ rfl rfl (by decide +kernel)
    (by decide +kernel) rfl rfl (by decide +kernel), by decide +kernel⟩

/-! ## RDMD -/

section rdmd

variable {D Q B R : Type} (N : RdmdNum D Q B R)

/-- With the same test matrix a fit has the same outcome. -/
theorem rdmd_indep (x : D) (st st' : Rdmd D Q R)
    (h : st.test.getD (N.gen (N.cols x) (N.rank x + N.oversampling)) =
      st'.test.getD (N.gen (N.cols x) (N.rank x + N.oversampling))) :
    (st.fit N x).1 = (st'.fit N x).1 ∧
    ((st'.fit N x).1 = .ok () → (st.fit N x).2 = (st'.fit N x).2) := by
  simp only [Rdmd.fit, compress, h]
  cases N.snapshots x with
  | error e => simp
  | ok _ =>
    simp only
    generalize st'.test.getD (N.gen (N.cols x) (N.rank x + N.oversampling)) = q
    by_cases hq : N.rows q ≠ N.cols x
    · simp [hq]
    · simp only [hq, if_false]
      cases N.qb x q with
      | error e => simp
      | ok b =>
        simp only
        cases N.finish b x with
        | error e => simp
        | ok r => simp

/-- What a fit does to the stored test matrix. -/
theorem rdmd_test (x : D) (st : Rdmd D Q R) : (st.fit N x).2.test = st.test ∨
    (st.fit N x).2.test = some (st.test.getD (N.gen (N.cols x) (N.rank x + N.oversampling))) := by
  simp only [Rdmd.fit]
  cases N.snapshots x with
  | error e => simp
  | ok _ =>
    simp only [compress]
    generalize st.test.getD (N.gen (N.cols x) (N.rank x + N.oversampling)) = q
    by_cases hq : N.rows q ≠ N.cols x
    · simp [hq]
    · simp only [hq, if_false]
      cases N.qb x q with
      | error e => simp
      | ok b =>
        simp only
        cases N.finish b x <;> simp

/-- **C26** for `RDMD` with a test matrix given by the user: the outcome of a fit does not depend
on earlier fits. -/
theorem C26_rdmd_given_partial (q : Q) (h : List D) (x : D) :
    let old := ((⟨some q, none, none⟩ : Rdmd D Q R).run N h).fit N x
    let fresh := (⟨some q, none, none⟩ : Rdmd D Q R).fit N x
    old.1 = fresh.1 ∧ (fresh.1 = .ok () → old.2 = fresh.2) := by
  have key : ∀ (h : List D) (st : Rdmd D Q R), st.test = some q → (st.run N h).test = some q := by
    intro h
    induction h with
    | nil => intro st hs; exact hs
    | cons x xs ih =>
      intro st hs
      apply ih
      rcases rdmd_test N x st with h | h
      · rw [h, hs]
      · rw [h, hs]; rfl
  exact rdmd_indep N x _ _ (by rw [key h _ rfl])

/-- **C26** for `RDMD` with a seed: if all the earlier data have the same number of snapshots and
the same rank as the new data, the outcome is that of a new instance with this seed. -/
theorem C26_rdmd_seed_partial (h : List D) (x : D)
    (hh : ∀ z ∈ h, N.cols z = N.cols x ∧ N.rank z = N.rank x) :
    let old := ((⟨none, none, none⟩ : Rdmd D Q R).run N h).fit N x
    let fresh := (⟨none, none, none⟩ : Rdmd D Q R).fit N x
    old.1 = fresh.1 ∧ (fresh.1 = .ok () → old.2 = fresh.2) := by
  have key : ∀ (h : List D) (st : Rdmd D Q R),
      (∀ z ∈ h, N.cols z = N.cols x ∧ N.rank z = N.rank x) →
      (st.test = none ∨ st.test = some (N.gen (N.cols x) (N.rank x + N.oversampling))) →
      ((st.run N h).test = none ∨
        (st.run N h).test = some (N.gen (N.cols x) (N.rank x + N.oversampling))) := by
    intro h
    induction h with
    | nil => intro st _ hs; exact hs
    | cons z zs ih =>
      intro st hz hs
      apply ih _ (fun w hw => hz w (by simp [hw]))
      obtain ⟨hc, hr⟩ := hz z (by simp)
      rcases rdmd_test N z st with h | h
      · rw [h]; exact hs
      · rw [h]
        rcases hs with hs | hs
        · right; rw [hs, hc, hr]; rfl
        · right; rw [hs]; rfl
  refine rdmd_indep N x _ _ ?_
  rcases key h ⟨none, none, none⟩ hh (Or.inl rfl) with h | h
  · rw [h]
  · rw [h]; rfl

/-- **C26** fails for `RDMD`: after a successful fit every fit on data with another number of
snapshots raises `ValueError`, because the test matrix drawn for the first data is kept. -/
theorem C26_rdmd_raises (hg : ∀ m k, N.rows (N.gen m k) = m) (x₁ x₂ : D)
    (h₁ : ((⟨none, none, none⟩ : Rdmd D Q R).fit N x₁).1 = .ok ())
    (hx₂ : N.snapshots x₂ = .ok ()) (hne : N.cols x₁ ≠ N.cols x₂) :
    (((⟨none, none, none⟩ : Rdmd D Q R).fit N x₁).2.fit N x₂).1 = .error .valueError := by
  have ht : ((⟨none, none, none⟩ : Rdmd D Q R).fit N x₁).2.test =
      some (N.gen (N.cols x₁) (N.rank x₁ + N.oversampling)) := by
    revert h₁
    simp only [Rdmd.fit, compress]
    cases N.snapshots x₁ with
    | error e => simp
    | ok _ =>
      simp only [Option.getD_none]
      by_cases hq : N.rows (N.gen (N.cols x₁) (N.rank x₁ + N.oversampling)) ≠ N.cols x₁
      · simp [hq]
      · simp only [hq, if_false]
        cases N.qb x₁ (N.gen (N.cols x₁) (N.rank x₁ + N.oversampling)) with
        | error e => simp
        | ok b =>
          simp only
          cases N.finish b x₁ <;> simp
  generalize ((⟨none, none, none⟩ : Rdmd D Q R).fit N x₁).2 = st at *
  simp only [Rdmd.fit, hx₂, compress, ht, Option.getD_some, hg, ne_eq, hne, not_false_eq_true,
    if_true]

end rdmd

/-- An instance for the examples: data are lists of rationals (one snapshot per entry), test matrices
are remembered by their shape, the compression keeps the data, the result is the sum. -/
def sumNum : RdmdNum (List ℚ) (ℕ × ℕ) (List ℚ) ℚ where
  snapshots d := if d = [] then .error .valueError else .ok ()
  cols d := d.length
  rank _ := 1
  oversampling := 10
  gen m k := (m, k)
  rows q := q.1
  qb d _ := .ok d
  finish b _ := .ok b.sum

/-- The negation of C26 for `RDMD` on a concrete pair of data sets. -/
theorem C26_rdmd_false :
    (((⟨none, none, none⟩ : Rdmd _ _ _).fit sumNum [1, 2, 3]).2.fit sumNum [1, 2]).1 =
      .error .valueError ∧
    ((⟨none, none, none⟩ : Rdmd _ _ _).fit sumNum [1, 2]).1 = .ok () :=
  ⟨C26_rdmd_raises sumNum (fun _ _ => rfl) _ _ (by decide +kernel) (by decide +kernel)
    (by decide +kernel), by decide +kernel⟩

/-- The hypothesis of `C26_rdmd_seed_partial` for three data sets with four snapshots each. -/
example : ((⟨none, none, none⟩ : Rdmd _ _ _).run sumNum [[1, 2, 3, 4], [5, 6, 7, 8]]).fit sumNum
    [1, 0, 0, 1] = (.ok (), ⟨some (4, 11), some [1, 0, 0, 1], some 2⟩) := by decide +kernel

/-! ## BOP-DMD -/

section bop

variable {D K B Al R : Type} [Field K] [LinearOrder K] [IsStrictOrderedRing K]
  (N : BopNum D K B Al R)

/-- What the external routines are assumed to return: a non-empty list of singular values of the
right length, as many basis vectors as requested, as many guesses as the rank. -/
structure BopOk : Prop where
  sing : ∀ x, (N.sing x).length = min (N.rows x) (N.cols x) ∧ 1 ≤ (N.sing x).length
  basis : ∀ x r, r ≤ (N.sing x).length → N.bcols (N.basis x r) = r
  alpha : ∀ x b r, N.alen (N.alpha x b r) = r

variable {N}

/-- Computing the rank again from the stored rank changes nothing. -/
theorem BopOk.rank_idem (hN : BopOk N) (x : D) (r : Rank.SvdRank K) :
    N.rankOf x (.int (N.rankOf x r)) = N.rankOf x r := by
  obtain ⟨h1, h2⟩ := hN.sing x
  obtain ⟨h3, h4⟩ := Rank.C12_rank_any (N.sing x) (N.rows x) (N.cols x) h1 h2 r
  have h5 := (Rank.C12_rank (N.sing x) (N.rows x) (N.cols x) h1 h2).1 (N.rankOf x r)
    (by unfold BopNum.rankOf; exact_mod_cast h3)
  unfold BopNum.rankOf at *
  have h6 : min ((Rank.computeRank (N.sing x) (N.rows x) (N.cols x) r : ℕ) : ℤ)
      ((N.sing x).length : ℤ) = (Rank.computeRank (N.sing x) (N.rows x) (N.cols x) r : ℕ) :=
    min_eq_left (by exact_mod_cast h4)
  rw [h6] at h5
  exact_mod_cast h5

/-- A fit that reaches the solver on checked data. -/
theorem bop_fit_of (x : D) (st : Bop D K B Al R) (b : B) (a : Al) (hc : N.check x = .ok ())
    (hb : N.pickBasis x (N.rankOf x st.rank) st.basis = .ok b)
    (ha : N.pickAlpha x b (N.rankOf x st.rank) st.alpha = .ok a) :
    st.fit N x = match N.solve x b a with
      | .error e => (.error e, ⟨.int (N.rankOf x st.rank), some b, some a, some x, none⟩)
      | .ok o => (.ok (), ⟨.int (N.rankOf x st.rank), some b, some a, some x, some o⟩) := by
  simp only [Bop.fit, hc, hb, ha]
  cases N.solve x b a <;> rfl

/-- **C26** for `BOPDMD(use_proj=True)` refitted on the same data: any number of repetitions
gives the outcome and the state of the first fit, whatever `svd_rank` is and whether the basis and
the guess are given or computed. -/
theorem C26_bop_same_data_partial (hN : BopOk N) (hp : N.useProj = true) (r : Rank.SvdRank K)
    (b : Option B) (a : Option Al) (x : D) (n : ℕ) :
    ((Bop.new r b a).run N (List.replicate n x)).fit N x = (Bop.new r b a).fit N x := by
  have step : ∀ st : Bop D K B Al R, (st.fit N x).2.fit N x = st.fit N x := by
    intro st
    have hi := hN.rank_idem x st.rank
    obtain ⟨rk, ba, al, sn, ou⟩ := st
    simp only at hi
    cases hc : N.check x with
    | error e => simp [Bop.fit, hc]
    | ok _ =>
      cases hb : N.pickBasis x (N.rankOf x rk) ba with
      | error e => simp only [Bop.fit, hc, hb, hi]
      | ok b =>
        have hb' : N.pickBasis x (N.rankOf x rk) (some b) = .ok b := by
          cases ba with
          | none =>
            simp only [BopNum.pickBasis, hp, if_true, Except.ok.injEq] at hb
            have hl := (Rank.C12_rank_any (N.sing x) (N.rows x) (N.cols x) (hN.sing x).1
              (hN.sing x).2 rk).2
            have := hN.basis x (N.rankOf x rk) hl
            rw [hi] at hb
            simp only [BopNum.pickBasis, ← hb, this, ne_eq, not_true_eq_false, if_false]
          | some b0 =>
            have : b0 = b := by
              simp only [BopNum.pickBasis] at hb
              split at hb
              · simp at hb
              · simpa using hb
            rw [← this]; rw [this]; rwa [this] at hb
        cases ha : N.pickAlpha x b (N.rankOf x rk) al with
        | error e => simp only [Bop.fit, hc, hb, hi, ha, hb']
        | ok a =>
          have ha' : N.pickAlpha x b (N.rankOf x rk) (some a) = .ok a := by
            cases al with
            | none =>
              simp only [BopNum.pickAlpha, Except.ok.injEq] at ha
              simp only [BopNum.pickAlpha, ← ha, hN.alpha, ne_eq, not_true_eq_false, if_false]
            | some a0 =>
              have : a0 = a := by
                simp only [BopNum.pickAlpha] at ha
                split at ha
                · simp at ha
                · simpa using ha
              rwa [this] at ha
          rw [bop_fit_of x ⟨rk, ba, al, sn, ou⟩ b a hc hb ha]
          cases hs : N.solve x b a with
          | error e =>
            simp only
            rw [bop_fit_of x _ b a hc (by simp only [hi]; exact hb') (by simp only [hi]; exact ha'),
              hs]
            simp only [hi]
          | ok o =>
            simp only
            rw [bop_fit_of x _ b a hc (by simp only [hi]; exact hb') (by simp only [hi]; exact ha'),
              hs]
            simp only [hi]
  have key : ∀ (n : ℕ) (st : Bop D K B Al R),
      (st.run N (List.replicate n x)).fit N x = st.fit N x := by
    intro n
    induction n with
    | zero => intro st; rfl
    | succ n ih =>
      intro st
      change ((st.fit N x).2.run N (List.replicate n x)).fit N x = _
      rw [ih, step]
  exact key n _

/-- **C26** fails for `BOPDMD(use_proj=False)` even on the same data: if the rank is smaller than
the number of singular values, the second fit raises `ValueError` (the basis stored by the first
one has too many columns). -/
theorem C26_bop_noproj_raises (hN : BopOk N) (hp : N.useProj = false) (r : Rank.SvdRank K)
    (a : Option Al) (x : D) (h₁ : ((Bop.new r none a).fit N x).1 = .ok ())
    (hr : N.rankOf x r < (N.sing x).length) :
    (((Bop.new r none a).fit N x).2.fit N x).1 = .error .valueError := by
  have hi := hN.rank_idem x r
  have hfull : N.rankOf x (.int (-1)) = (N.sing x).length :=
    (Rank.C12_rank (N.sing x) (N.rows x) (N.cols x) (hN.sing x).1 (hN.sing x).2).2.1
  cases hc : N.check x with
  | error e => simp [Bop.fit, hc] at h₁
  | ok _ =>
    have hb : N.pickBasis x (N.rankOf x r) none = .ok (N.basis x (N.sing x).length) := by
      simp [BopNum.pickBasis, hp, hfull]
    have hbc : N.bcols (N.basis x (N.sing x).length) ≠ N.rankOf x r := by
      rw [hN.basis x _ le_rfl]; omega
    have hst : ((Bop.new r none a).fit N x).2.rank = .int (N.rankOf x r) ∧
        ((Bop.new r none a).fit N x).2.basis = some (N.basis x (N.sing x).length) := by
      simp only [Bop.fit, Bop.new, hc, hb]
      cases N.pickAlpha x (N.basis x (N.sing x).length) (N.rankOf x r) a with
      | error e => simp
      | ok al =>
        simp only
        cases N.solve x (N.basis x (N.sing x).length) al <;> simp
    generalize ((Bop.new r none a).fit N x).2 = st at *
    simp only [Bop.fit, hc, hst.1, hst.2, hi, BopNum.pickBasis, ne_eq, hbc, not_false_eq_true,
      if_true]

/-- **C26** for `BOPDMD` after a successful fit: whatever was fitted before, the next fit is the
first fit of an instance constructed with the rank, basis and guess found at the first fit - not
those of the new data. -/
theorem C26_bop_keeps_first (r : Rank.SvdRank K) (b : Option B) (a : Option Al) (x₁ x : D)
    (h₁ : ((Bop.new r b a).fit N x₁).1 = .ok ()) :
    ∃ b₁ a₁, N.pickBasis x₁ (N.rankOf x₁ r) b = .ok b₁ ∧
      N.pickAlpha x₁ b₁ (N.rankOf x₁ r) a = .ok a₁ ∧
      ((Bop.new r b a).fit N x₁).2.fit N x =
        (Bop.new (.int (N.rankOf x₁ r)) (some b₁) (some a₁)).fit N x := by
  cases hc : N.check x₁ with
  | error e => simp [Bop.fit, hc] at h₁
  | ok _ =>
    cases hb : N.pickBasis x₁ (N.rankOf x₁ r) b with
    | error e => simp [Bop.fit, hc, Bop.new, hb] at h₁
    | ok b₁ =>
      cases ha : N.pickAlpha x₁ b₁ (N.rankOf x₁ r) a with
      | error e => simp [Bop.fit, hc, Bop.new, hb, ha] at h₁
      | ok a₁ =>
        refine ⟨b₁, a₁, rfl, ha, ?_⟩
        rw [bop_fit_of x₁ (Bop.new r b a) b₁ a₁ hc hb ha] at h₁ ⊢
        cases hs : N.solve x₁ b₁ a₁ with
        | error e => rw [hs] at h₁; simp at h₁
        | ok o => simp only [Bop.fit, Bop.new]

/-- **C26** for `BOPDMD` with everything given: if `svd_rank` is a positive integer, the basis and
the guess are given, and no data set fitted before has fewer singular values than `svd_rank`, the
outcome does not depend on what was fitted before. -/
theorem C26_bop_given_partial (hN : BopOk N) (k : ℕ) (hk : 1 ≤ k) (b : B) (a : Al) (h : List D)
    (x : D) (hh : ∀ z ∈ h, k ≤ (N.sing z).length) :
    ((Bop.new (.int k) (some b) (some a)).run N h).fit N x =
      (Bop.new (.int k) (some b) (some a)).fit N x := by
  have hrank : ∀ z, k ≤ (N.sing z).length → N.rankOf z (.int k) = k := by
    intro z hz
    have := (Rank.C12_rank (N.sing z) (N.rows z) (N.cols z) (hN.sing z).1 (hN.sing z).2).1 k
      (by exact_mod_cast hk)
    unfold BopNum.rankOf
    have h6 : min (k : ℤ) ((N.sing z).length : ℤ) = k := min_eq_left (by exact_mod_cast hz)
    rw [h6] at this
    exact_mod_cast this
  have key : ∀ (h : List D) (st : Bop D K B Al R), (∀ z ∈ h, k ≤ (N.sing z).length) →
      st.rank = .int k → st.basis = some b → st.alpha = some a →
      (st.run N h).rank = .int k ∧ (st.run N h).basis = some b ∧ (st.run N h).alpha = some a := by
    intro h
    induction h with
    | nil => intro st _ h1 h2 h3; exact ⟨h1, h2, h3⟩
    | cons z zs ih =>
      intro st hz h1 h2 h3
      have hr : N.rankOf z st.rank = k := by rw [h1]; exact hrank z (hz z (by simp))
      have hst : (st.fit N z).2.rank = .int k ∧ (st.fit N z).2.basis = some b ∧
          (st.fit N z).2.alpha = some a := by
        simp only [Bop.fit]
        cases N.check z with
        | error e => exact ⟨h1, h2, h3⟩
        | ok _ =>
          simp only [hr, h2]
          by_cases hb : N.bcols b = k
          · simp only [BopNum.pickBasis, hb, ne_eq, not_true_eq_false, if_false, h3]
            by_cases ha : N.alen a = k
            · simp only [BopNum.pickAlpha, ha, ne_eq, not_true_eq_false, if_false]
              cases N.solve z b a <;> simp
            · simp [BopNum.pickAlpha, ha]
          · simp [BopNum.pickBasis, hb, h2, h3]
      exact ih _ (fun w hw => hz w (by simp [hw])) hst.1 hst.2.1 hst.2.2
  obtain ⟨e1, e2, e3⟩ := key h (Bop.new (.int k) (some b) (some a)) hh rfl rfl rfl
  generalize (Bop.new (.int k) (some b) (some a) : Bop D K B Al R).run N h = st at *
  simp only [Bop.fit, e1, e2, e3, Bop.new]

end bop

/-- An instance for the examples: data are diagonal matrices (their singular values, descending),
bases are remembered by the data and the number of columns, the guess is a list of zeros, the
"solution" is the number of modes with the basis used. -/
def bopEx (useProj : Bool) : BopNum (List ℚ) ℚ (List ℚ × ℕ) (List ℚ) (ℕ × List ℚ) where
  check d := if d = [] then .error .valueError else .ok ()
  sing d := if d = [] then [1] else d
  rows d := if d = [] then 1 else d.length
  cols d := if d = [] then 1 else d.length
  basis d r := (d, r)
  bcols b := b.2
  alpha _ _ r := List.replicate r 0
  alen a := a.length
  useProj := useProj
  solve _ b a := .ok (a.length, b.1)

theorem bopEx_ok (p : Bool) : BopOk (bopEx p) := by
  refine ⟨?_, ?_, ?_⟩
  · intro x
    by_cases h : x = []
    · simp [bopEx, h]
    · simp [bopEx, h, List.length_pos_iff, Nat.one_le_iff_ne_zero]
  · intro x r _; rfl
  · intro x b r; simp [bopEx]

/-- The negation of C26 for `BOPDMD` with the default `use_proj=True` on concrete data: with
`svd_rank=0.9` the first data have rank 1, and the second data are then fitted with one mode in the
basis of the first data; a new instance uses two modes and the basis of the second data. -/
theorem C26_bop_false :
    ((Bop.new (.float (9 / 10)) none none).run (bopEx true) [[10, 1, 1]] |>.fit (bopEx true)
      [5, 5, 1]).2.out = some (1, [10, 1, 1]) ∧
    ((Bop.new (.float (9 / 10)) none none).fit (bopEx true) [5, 5, 1]).2.out =
      some (2, [5, 5, 1]) := by
  decide +kernel

/-- The negation of C26 for `BOPDMD(use_proj=False)` on the same data. -/
theorem C26_bop_noproj_false :
    (((Bop.new (.int 2) none none).fit (bopEx false) [5, 5, 1]).2.fit (bopEx false) [5, 5, 1]).1 =
      .error .valueError ∧ ((Bop.new (.int 2) none none).fit (bopEx false) [5, 5, 1]).1 = .ok () :=
  ⟨C26_bop_noproj_raises (bopEx_ok false) rfl _ _ _ (by decide +kernel) (by decide +kernel),
    by decide +kernel⟩

/-- The hypothesis on the earlier data in `C26_bop_given_partial` is needed: a fit that raises on
data with too few singular values spoils the instance, the next fit raises although a new
instance succeeds. -/
theorem C26_bop_given_false :
    ((Bop.new (.int 2) (some ([1, 1], 2)) (some [0, 0])).fit (bopEx true) [1]).1 =
      .error .valueError ∧
    ((Bop.new (.int 2) (some ([1, 1], 2)) (some [0, 0])).run (bopEx true) [[1]] |>.fit (bopEx true)
      [5, 4]).1 = .error .valueError ∧
    ((Bop.new (.int 2) (some ([1, 1], 2)) (some [0, 0])).fit (bopEx true) [5, 4]).1 = .ok () := by
  decide +kernel

/-! ## VarProDMD -/

section varpro

variable {D I M E A : Type} (solve : D → Except PyErr (Arrays M E A × I))

/-- **C26** for `VarProDMD.forecast`: after any history and a successful fit the forecast uses the
modes, eigenvalues and amplitudes of that fit. -/
theorem C26_varpro_forecast (h : List (VarEvent D)) (x : D) :
    let old := ((VarPro.new : VarPro D I M E A).run solve h).fit solve x
    let fresh := (VarPro.new : VarPro D I M E A).fit solve x
    old.1 = fresh.1 ∧ (fresh.1 = .ok () → old.2.forecastArgs = fresh.2.forecastArgs ∧
      old.2.idx = fresh.2.idx ∧ ∃ a i, solve x = .ok (a, i) ∧ old.2.forecastArgs = .ok a) := by
  simp only [VarPro.fit]
  cases solve x with
  | error e => simp
  | ok p => obtain ⟨a, i⟩ := p; simp [VarPro.forecastArgs]

/-- Whether a history only fits. -/
def onlyFits : List (VarEvent D) → Bool
  | [] => true
  | .fit _ :: h => onlyFits h
  | _ :: _ => false

/-- **C26** for `VarProDMD` when nothing was read and no mask set between the fits: the getters
and the state are those of a new instance. -/
theorem C26_varpro_unread_partial (h : List (VarEvent D)) (hh : onlyFits h = true) (x : D) :
    let old := ((VarPro.new : VarPro D I M E A).run solve h).fit solve x
    let fresh := (VarPro.new : VarPro D I M E A).fit solve x
    old.1 = fresh.1 ∧ (fresh.1 = .ok () → old.2 = fresh.2 ∧ old.2.getters = fresh.2.getters) := by
  have key : ∀ (h : List (VarEvent D)) (st : VarPro D I M E A), onlyFits h = true →
      st.proxy = none → (st.run solve h).proxy = none := by
    intro h
    induction h with
    | nil => intro st _ hs; exact hs
    | cons e es ih =>
      intro st hf hs
      cases e with
      | fit z =>
        apply ih _ hf
        simp only [VarPro.step, VarPro.fit]
        cases solve z with
        | error e => exact hs
        | ok p => exact hs
      | read => simp [onlyFits] at hf
      | mask l => simp [onlyFits] at hf
  have hp := key h VarPro.new hh rfl
  generalize (VarPro.new : VarPro D I M E A).run solve h = st at *
  intro old fresh
  have : old.1 = fresh.1 ∧ (fresh.1 = .ok () → old.2 = fresh.2) := by
    simp only [old, fresh, VarPro.fit]
    cases solve x with
    | error e => simp
    | ok p => obtain ⟨a, i⟩ := p; simp [hp, VarPro.new]
  exact ⟨this.1, fun h => ⟨this.2 h, by rw [this.2 h]⟩⟩

/-- **C26** fails for `VarProDMD`: once `modes`, `eigs` or `amplitudes` has been read after a fit,
they keep the values of that fit for ever, whatever is fitted afterwards. -/
theorem C26_varpro_stale (x₁ : D) (a₁ : Arrays M E A) (i₁ : I) (h₁ : solve x₁ = .ok (a₁, i₁))
    (hl : a₁.modes.length = a₁.eigs.length ∧ a₁.amps.length = a₁.eigs.length) (xs : List D) :
    ((VarPro.new : VarPro D I M E A).run solve (.fit x₁ :: .read :: xs.map .fit)).getters =
      some (a₁.modes, a₁.eigs, a₁.amps) := by
  have hnp : newProxy a₁ = .ok (a₁, ⟨List.replicate a₁.eigs.length true, a₁.modes, a₁.eigs,
      a₁.amps⟩) := by
    have g1 := gather_true a₁.eigs
    have g2 := gather_true a₁.modes
    have g3 := gather_true a₁.amps
    rw [hl.1] at g2
    rw [hl.2] at g3
    simp [newProxy, changeBitmask, maskRead, hl.1, hl.2, g1, g2, g3, pure, Except.pure, bind,
      Except.bind]
  have key : ∀ (xs : List D) (st : VarPro D I M E A), st.cur ≠ none → ∀ p, st.proxy = some p →
      (st.run solve (xs.map .fit)).getters = some (p.2.modes, p.2.eigs, p.2.amps) := by
    intro xs
    induction xs with
    | nil =>
      intro st hc p hp
      obtain ⟨c, hc⟩ := Option.ne_none_iff_exists'.mp hc
      simp [VarPro.run, VarPro.getters, hc, VarPro.read, hp]
    | cons z zs ih =>
      intro st hc p hp
      apply ih
      · simp only [VarPro.step, VarPro.fit]
        cases solve z with
        | error e => exact hc
        | ok q => simp
      · simp only [VarPro.step, VarPro.fit]
        cases solve z with
        | error e => exact hp
        | ok q => exact hp
  have := key xs (((VarPro.new : VarPro D I M E A).step solve (.fit x₁)).step solve .read)
    (by simp [VarPro.step, VarPro.fit, h₁, VarPro.read, VarPro.new, hnp]) _
    (by simp [VarPro.step, VarPro.fit, h₁, VarPro.read, VarPro.new, hnp]; rfl)
  exact this

end varpro

/-- The negation of C26 for `VarProDMD` on concrete data (the "solver" returns its data): the
getters still show the first data, the forecast uses the second, a new instance shows the second. -/
theorem C26_varpro_false :
    let solve : List ℚ → Except PyErr (Arrays ℚ ℚ ℚ × ℕ) := fun d => .ok (⟨d, d, d⟩, d.length)
    let old := (VarPro.new.run solve [.fit [1, 2], .read, .fit [3, 4, 5]])
    old.getters = some ([1, 2], [1, 2], [1, 2]) ∧
    old.forecastArgs = .ok ⟨[3, 4, 5], [3, 4, 5], [3, 4, 5]⟩ ∧
    (VarPro.new.run solve [.fit [3, 4, 5]]).getters =
      some ([3, 4, 5], [3, 4, 5], [3, 4, 5]) := by
  decide +kernel

/-! ## MrDMD -/

open MrDMD in
/-- **C26** for `MrDMD`: after fits on data with `ns` snapshots, a fit on `n` snapshots uses the
level of a new instance lowered to the smallest limit met before. -/
theorem C26_mrdmd_level (b : Builder) (L : ℕ) (ns : List ℕ) (n : ℕ) :
    levelAfter b L (ns ++ [n]) = ns.foldr (fun m l => min (levelThreshold m) l)
      (levelAfter b L [n]) := by
  have hc : ∀ L m, (clampLevel b L m).2 = min L (levelThreshold m) := by
    intro L m
    unfold clampLevel
    by_cases h : levelThreshold m < L
    · rw [if_pos h, min_eq_right h.le]
    · rw [if_neg h, min_eq_left (not_lt.mp h)]
  induction ns generalizing L with
  | nil => rfl
  | cons m ms ih =>
    simp only [List.cons_append, levelAfter, List.foldr_cons, hc] at ih ⊢
    rw [ih (min L (levelThreshold m))]
    have : ∀ (ms : List ℕ) (z w : ℕ), ms.foldr (fun m l => min (levelThreshold m) l) (min z w) =
        min z (ms.foldr (fun m l => min (levelThreshold m) l) w) := by
      intro ms
      induction ms with
      | nil => intro z w; rfl
      | cons q qs ih =>
        intro z w
        simp only [List.foldr_cons, ih]
        exact min_left_comm _ _ _
    rw [min_comm L, min_assoc, this]

open MrDMD in
/-- **C26** for `MrDMD`: the number of levels is that of a new instance exactly when every earlier
data set allowed at least that many. -/
theorem C26_mrdmd_iff (b : Builder) (L : ℕ) (ns : List ℕ) (n : ℕ) :
    levelAfter b L (ns ++ [n]) = levelAfter b L [n] ↔
      ∀ m ∈ ns, levelAfter b L [n] ≤ levelThreshold m := by
  rw [C26_mrdmd_level]
  generalize levelAfter b L [n] = l
  induction ns with
  | nil => simp
  | cons m ms ih =>
    simp only [List.foldr_cons, List.mem_cons, forall_eq_or_imp]
    have hle : ms.foldr (fun m l => min (levelThreshold m) l) l ≤ l := by
      clear ih
      induction ms with
      | nil => exact le_rfl
      | cons q qs ih => exact le_trans (min_le_right _ _) ih
    constructor
    · intro h
      have h2 : ms.foldr (fun m l => min (levelThreshold m) l) l = l :=
        le_antisymm hle (le_trans h.ge (min_le_right _ _))
      exact ⟨le_trans h.ge (min_le_left _ _), ih.mp h2⟩
    · intro ⟨h1, h2⟩
      rw [ih.mpr h2]
      exact min_eq_right h1

open MrDMD in
/-- The negation of C26 for `MrDMD`: 4 snapshots, then 100, at a requested level 5. -/
theorem C26_mrdmd_false :
    levelAfter .function 5 [4, 100] = 1 ∧ levelAfter .function 5 [100] = 5 := by
  obtain ⟨h1, h2, h3⟩ := C31_refit_false
  simp [levelAfter, h1, h3] at h2 ⊢
  exact h2 ▸ rfl

end Verif.Refit
