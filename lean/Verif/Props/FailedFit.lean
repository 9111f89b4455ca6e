import Verif.Model.FailedFit
import Verif.Props.Refit

/-!
# Property C149: a fit that raises leaves no mixture of old and new results
-/

set_option autoImplicit false

namespace Verif.FailedFit

open Verif Verif.Bitmask Verif.Refit

/-! ## DMD -/

section dmd

variable {D S U At W T K M E A : Type} (N : DmdNum D S U At W T K M E A)

/-- What is left when the operator cannot be computed: the modes and eigenvalues of before. -/
theorem computeOperator_error (hsort : ∀ es, ∃ es', N.sort es = .ok es') (X Y : S) (st : Dmd D T K At M E A) (e : PyErr)
    (h : (computeOperator N X Y st).1 = .error e) :
    (computeOperator N X Y st).2.obj = st.obj ∧ (computeOperator N X Y st).2.origTime = st.origTime ∧
      (computeOperator N X Y st).2.dmdTime = st.dmdTime ∧ (computeOperator N X Y st).2.snaps = st.snaps := by
  revert h
  simp only [computeOperator]
  cases N.tikhonov <;> simp only [if_true, if_false, Bool.false_eq_true]
  all_goals
    split
    · intro; exact ⟨rfl, rfl, rfl, rfl⟩
    · split
      · intro; exact ⟨rfl, rfl, rfl, rfl⟩
      · split
        · intro; exact ⟨rfl, rfl, rfl, rfl⟩
        · rename_i es _
          obtain ⟨es', he⟩ := hsort es
          simp [he]

/-- What is left when the operator is computed. -/
theorem computeOperator_ok (X Y : S) (st : Dmd D T K At M E A) (es : Eigs E W) (ms : List M)
    (h : (computeOperator N X Y st).1 = .ok (es, ms)) :
    (computeOperator N X Y st).2.obj = { st.obj with op := some (ms, es.vals) } ∧
      (computeOperator N X Y st).2.snaps = st.snaps := by
  revert h
  simp only [computeOperator]
  cases N.tikhonov <;> simp only [if_true, if_false, Bool.false_eq_true]
  all_goals
    split
    · simp
    · split
      · simp
      · split
        · simp
        · split
          · simp
          · intro h
            simp only [Except.ok.injEq, Prod.mk.injEq] at h
            obtain ⟨rfl, rfl⟩ := h
            exact ⟨rfl, rfl⟩

theorem computeOperator_fst (X Y : S) (st st' : Dmd D T K At M E A) (hr : st.rescale = st'.rescale)
    (hn : st.normX = st'.normX) : (computeOperator N X Y st).1 = (computeOperator N X Y st').1 := by
  obtain ⟨r, nx, a, o, sn, sy, t, d⟩ := st
  obtain ⟨r', nx', a', o', sn', sy', t', d'⟩ := st'
  obtain rfl : r = r' := hr
  obtain rfl : nx = nx' := hn
  simp only [computeOperator]
  cases N.tikhonov <;> simp only [if_true, if_false, Bool.false_eq_true]
  all_goals
    split
    · rfl
    · split
      · rfl
      · split
        · rfl
        · split <;> rfl

/-- Without amplitudes the getter raises, or returns `None` on an instance without modes. -/
theorem getAmps_none (o : Obj M E A) (hb : o.b = none) (hv : o.view = none) :
    (∃ e', o.getAmps = .error e') ∨ o.getAmps = .ok (none, o) := by
  obtain ⟨op, b, v⟩ := o
  subst hb hv
  cases op with
  | none => exact Or.inr rfl
  | some p => exact Or.inl ⟨_, rfl⟩

/-- Without amplitudes there is no reconstruction. -/
theorem reconstructed_none {ι : Type} (o : Obj (ι → ℂ) ℂ ℂ) (hb : o.b = none) (hv : o.view = none) (orig w : Time.Window)
    (opt : Time.Opt) (n : ℕ) : ∃ e', Time.reconstructed o orig w opt n = .error e' := by
  obtain ⟨op, b, v⟩ := o
  subst hb hv
  cases op with
  | none => exact ⟨_, rfl⟩
  | some p => exact ⟨_, rfl⟩

/-- The state after a call of `DMD.fit` that raises. -/
theorem fit_error (hsort : ∀ es, ∃ es', N.sort es = .ok es') (x : D) (y : Option D) (st : Dmd D T K At M E A)
    (e : PyErr) (h : (st.fit N x y).1 = .error e) :
    ((st.fit N x y).2.obj.b = none ∧ (st.fit N x y).2.obj.view = none) ∧
    (((st.fit N x y).2.obj.op = st.obj.op ∧ (st.fit N x y).2.origTime = st.origTime ∧
        (st.fit N x y).2.dmdTime = st.dmdTime ∧ ((st.fit N x y).2.snaps = none ∨ (st.fit N x y).2.snaps = some x)) ∨
      ∃ y' X Y es ms, N.split x y' = .ok (X, Y) ∧ (computeOperator N X Y st).1 = .ok (es, ms) ∧
        (st.fit N x y).2.obj.op = some (ms, es.vals) ∧ (st.fit N x y).2.origTime = some (N.time x) ∧
        (st.fit N x y).2.dmdTime = some (N.time x) ∧ (st.fit N x y).2.snaps = some x ∧
        N.amps ms es x y' (N.time x) = .error e) := by
  revert h
  simp only [Dmd.fit]
  cases hsn : N.snapshots x with
  | error e1 => intro _; exact ⟨⟨rfl, rfl⟩, Or.inl ⟨rfl, rfl, rfl, Or.inl rfl⟩⟩
  | ok _ =>
    simp only
    cases hcy : checkY N x y with
    | error e1 => intro _; exact ⟨⟨rfl, rfl⟩, Or.inl ⟨rfl, rfl, rfl, Or.inr rfl⟩⟩
    | ok y' =>
      simp only
      cases hsp : N.split x y' with
      | error e1 => intro _; exact ⟨⟨rfl, rfl⟩, Or.inl ⟨rfl, rfl, rfl, Or.inr rfl⟩⟩
      | ok XY =>
        obtain ⟨X, Y⟩ := XY
        simp only
        set st0 : Dmd D T K At M E A := { st.reset with snaps := some x, snapsY := y' } with hst0
        rcases hco : computeOperator N X Y st0 with ⟨r, st1⟩
        cases r with
        | error e1 =>
          obtain ⟨h1, h2, h3, h4⟩ := computeOperator_error N hsort X Y st0 e1 (by rw [hco])
          rw [hco] at h1 h2 h3 h4
          simp only at h1 h2 h3 h4 ⊢
          intro _
          rw [h1, h2, h3, h4]
          exact ⟨⟨rfl, rfl⟩, Or.inl ⟨rfl, rfl, rfl, Or.inr rfl⟩⟩
        | ok p =>
          obtain ⟨es, ms⟩ := p
          obtain ⟨h1, h4⟩ := computeOperator_ok N X Y st0 es ms (by rw [hco])
          rw [hco] at h1 h4
          simp only at h1 h4 ⊢
          cases ham : N.amps ms es x y' (N.time x) with
          | ok b => simp
          | error e1 =>
            simp only
            intro h
            obtain rfl : e1 = e := by simpa using h
            rw [h1, h4]
            refine ⟨⟨rfl, rfl⟩, Or.inr ⟨y', X, Y, es, ms, hsp, ?_, rfl, trivial, trivial, rfl, ham⟩⟩
            rw [computeOperator_fst N X Y st st0 rfl rfl, hco]

/-- **C149** (DMD; partial). After a call of `DMD.fit` that raises, on an instance in whatever state, there are no
amplitudes, and the modes, eigenvalues and time dictionaries are either all those of before the call or all those of the new
data (the amplitudes could not be computed). -/
theorem C149_dmd_partial (hsort : ∀ es, ∃ es', N.sort es = .ok es') (x : D) (y : Option D) (st : Dmd D T K At M E A)
    (e : PyErr) (h : (st.fit N x y).1 = .error e) :
    ((∃ e', (st.fit N x y).2.obj.getAmps = .error e') ∨ (st.fit N x y).2.obj.getAmps = .ok (none, (st.fit N x y).2.obj)) ∧
    (((st.fit N x y).2.obj.op = st.obj.op ∧ (st.fit N x y).2.origTime = st.origTime ∧
        (st.fit N x y).2.dmdTime = st.dmdTime) ∨
      ∃ y' X Y es ms, N.split x y' = .ok (X, Y) ∧ (computeOperator N X Y st).1 = .ok (es, ms) ∧
        (st.fit N x y).2.obj.op = some (ms, es.vals) ∧ (st.fit N x y).2.origTime = some (N.time x) ∧
        (st.fit N x y).2.dmdTime = some (N.time x) ∧ (st.fit N x y).2.snaps = some x ∧
        N.amps ms es x y' (N.time x) = .error e) := by
  obtain ⟨⟨hb, hv⟩, h2⟩ := fit_error N hsort x y st e h
  refine ⟨getAmps_none _ hb hv, ?_⟩
  rcases h2 with ⟨h3, h4, h5, _⟩ | h3
  · exact Or.inl ⟨h3, h4, h5⟩
  · exact Or.inr h3

/-- **C149** (DMD, reconstruction). After a call of `DMD.fit` that raises there is no reconstruction: whatever the time
dictionaries, reading `reconstructed_data` raises. -/
theorem C149_dmd_reconstruction {ι : Type} (N : DmdNum D S U At W T K (ι → ℂ) ℂ ℂ)
    (hsort : ∀ es, ∃ es', N.sort es = .ok es') (x : D) (y : Option D) (st : Dmd D T K At (ι → ℂ) ℂ ℂ)
    (e : PyErr) (h : (st.fit N x y).1 = .error e) (orig w : Time.Window) (opt : Time.Opt) (n : ℕ) :
    ∃ e', Time.reconstructed (st.fit N x y).2.obj orig w opt n = .error e' := by
  obtain ⟨⟨hb, hv⟩, _⟩ := fit_error N hsort x y st e h
  exact reconstructed_none _ hb hv orig w opt n

end dmd

/-- The hypotheses of `C149_dmd_partial`: a fit of three modes after one of two with the factors of two modes. -/
example : (∀ es, ∃ es', diagNum.sort es = .ok es') ∧
    (((Dmd.new .auto).fit diagNum [1, 2] none).2.fit diagNum [3, 4, 5] none).1 = .error .valueError :=
  ⟨fun es => ⟨es, rfl⟩, by decide +kernel⟩

/-- **C149** is false for `DMD`: the first fit succeeds, the second raises; the instance says that it is fitted, its
snapshots and its reduced operator are those of the second data, its modes, eigenvalues and time dictionaries those of the
first. -/
theorem C149_dmd_false :
    let st1 := (Dmd.new .auto).fit diagNum [1, 2] none
    let st2 := st1.2.fit diagNum [3, 4, 5] none
    st1.1 = .ok () ∧ st2.1 = .error .valueError ∧ st2.2.obj.fitted = true ∧ st2.2.snaps = some [3, 4, 5] ∧
      st2.2.atilde = some [3, 4, 5] ∧ st2.2.obj.getModes.map (·.1) = .ok (some [1, 4]) ∧
      st2.2.obj.getEigs.map (·.1) = .ok (some [1, 2]) ∧ st2.2.origTime = some 2 := by
  decide +kernel

/-! ## VarProDMD -/

/-- **C149** (VarProDMD; partial). After a call of `VarProDMD.fit` that raises, modes, eigenvalues, amplitudes and selected
samples are those of before. -/
theorem C149_varpro_partial {D I M E A : Type} (solve : D → Except PyErr (Arrays M E A × I)) (x : D)
    (st : VarPro D I M E A) (e : PyErr) (h : (st.fit solve x).1 = .error e) :
    (st.fit solve x).2.cur = st.cur ∧ (st.fit solve x).2.getters = st.getters ∧ (st.fit solve x).2.idx = st.idx := by
  revert h
  simp only [VarPro.fit]
  cases solve x with
  | ok p => simp
  | error e1 =>
    intro _
    refine ⟨rfl, ?_, rfl⟩
    obtain ⟨cur, proxy, sn, ix⟩ := st
    cases cur with
    | none => rfl
    | some a =>
      cases proxy with
      | some p => rfl
      | none =>
        simp only [VarPro.getters, VarPro.read]
        cases newProxy a <;> rfl

/-- **C149** is false for `VarProDMD`: data on which the solver raises are stored as the snapshots of the instance beside the
results of the previous data, which `forecast` uses as before. -/
theorem C149_varpro_false {D I M E A : Type} (solve : D → Except PyErr (Arrays M E A × I)) (x₁ x₂ : D)
    (a : Arrays M E A) (i : I) (e : PyErr) (h1 : solve x₁ = .ok (a, i)) (h2 : solve x₂ = .error e) :
    let st := ((VarPro.new.fit solve x₁).2.fit solve x₂).2
    st.cur = some a ∧ st.idx = some i ∧ st.snaps = some x₂ := by
  simp [VarPro.fit, h1, h2]

/-- Two data as in `C149_varpro_false`. -/
example : ∃ (solve : ℕ → Except PyErr (Arrays ℕ ℕ ℕ × ℕ)) (a : Arrays ℕ ℕ ℕ), solve 1 = .ok (a, 1) ∧
    solve 0 = .error .valueError :=
  ⟨fun x => if x = 0 then .error .valueError else .ok (⟨[x], [x], [x]⟩, x), ⟨[1], [1], [1]⟩, rfl, rfl⟩

/-! ## HankelDMD -/

/-- **C149** (HankelDMD; partial). After a call of `HankelDMD.fit` that raises, the time dictionaries are those of before,
and the auxiliary instance, from which the results are read, is the one of before, or one whose own `fit` raised. -/
theorem C149_hankel_partial {D T Sub : Type} (snapshots : D → Except PyErr Unit) (cols : D → ℕ) (time : D → T)
    (subFit : D → Sub → Except PyErr Unit × Sub) (d : ℕ) (x : D) (st : Hankel D T Sub) (e : PyErr)
    (h : (st.fit snapshots cols time subFit d x).1 = .error e) :
    (st.fit snapshots cols time subFit d x).2.time = st.time ∧
      ((st.fit snapshots cols time subFit d x).2.sub = st.sub ∨
        (subFit x st.sub).1 = .error e ∧ (st.fit snapshots cols time subFit d x).2.sub = (subFit x st.sub).2) := by
  revert h
  simp only [Hankel.fit]
  cases snapshots x with
  | error e1 => intro _; exact ⟨rfl, Or.inl rfl⟩
  | ok _ =>
    simp only
    split
    · intro _; exact ⟨rfl, Or.inl rfl⟩
    · rcases hs : subFit x st.sub with ⟨r, s⟩
      cases r with
      | error e1 =>
        intro h
        obtain rfl : e1 = e := by simpa using h
        exact ⟨rfl, Or.inr ⟨rfl, rfl⟩⟩
      | ok _ => simp

/-- **C149** is false for `HankelDMD`: data with fewer snapshots than delays are refused after they have been stored. All
results, with the reconstruction, are those of the previous data beside the new snapshots. -/
theorem C149_hankel_false {D T Sub : Type} (snapshots : D → Except PyErr Unit) (cols : D → ℕ) (time : D → T)
    (subFit : D → Sub → Except PyErr Unit × Sub) (d : ℕ) (x : D) (hx : snapshots x = .ok ()) (hd : cols x < d)
    (st : Hankel D T Sub) :
    st.fit snapshots cols time subFit d x = (.error .valueError, { st with snaps := some x }) := by
  simp [Hankel.fit, hx, hd]

/-- A refused refit of `HankelDMD(d=2)`: the result of `[1, 3]` beside the snapshots `[10]`. -/
example :
    let fit := Hankel.fit (D := List ℚ) (T := ℕ) (Sub := Option (List ℚ)) (fun _ => .ok ()) List.length List.length
      (fun x _ => (.ok (), some x)) 2
    (fit [10] (fit [1, 3] ⟨none, none, none⟩).2) = (.error .valueError, ⟨some [10], some 2, some [1, 3]⟩) := by
  decide +kernel

/-! ## Pre- and post-processing -/

/-- **C149** (decorators; partial). If the pre-processing raises, nothing is changed. If the decorated `fit` raises and
leaves no reconstruction, as that of DMD, the decorated instance has none. -/
theorem C149_wrapped_partial {D D' P Sub R R' : Type} (pre : D → Except PyErr (P × D'))
    (post : Option P → R → Except PyErr R') (subFit : D' → Sub → Except PyErr Unit × Sub) (recon : Sub → Except PyErr R)
    (hsub : ∀ x' s e, (subFit x' s).1 = .error e → ∃ e', recon (subFit x' s).2 = .error e')
    (x : D) (st : Wrapped P Sub) (e : PyErr) (h : (st.fit pre subFit x).1 = .error e) :
    (st.fit pre subFit x).2 = st ∨ ∃ e', (st.fit pre subFit x).2.recon post recon = .error e' := by
  revert h
  simp only [Wrapped.fit]
  cases hp : pre x with
  | error e1 => intro _; exact Or.inl rfl
  | ok p =>
    simp only
    intro h
    obtain ⟨e', he⟩ := hsub _ _ _ h
    exact Or.inr ⟨e', by simp [Wrapped.recon, he]⟩

/-- Subtraction of the mean of a list of numbers, as the zero-mean pre-processing. -/
def meanPre (x : List ℚ) : Except PyErr (ℚ × List ℚ) := .ok (x.sum / x.length, x.map (· - x.sum / x.length))

/-- Addition of the mean in the post-processing. -/
def meanPost (m : Option ℚ) (r : List ℚ) : Except PyErr (List ℚ) :=
  match m with
  | none => .error .typeError
  | some m => .ok (r.map (· + m))

/-- A `HankelDMD(d=2)` that reconstructs its data. -/
def hankelFit (x : List ℚ) (st : Hankel (List ℚ) ℕ (Option (List ℚ))) :
    Except PyErr Unit × Hankel (List ℚ) ℕ (Option (List ℚ)) :=
  st.fit (fun _ => .ok ()) List.length List.length (fun x _ => (.ok (), some x)) 2 x

/-- Its reconstruction. -/
def hankelRecon (st : Hankel (List ℚ) ℕ (Option (List ℚ))) : Except PyErr (List ℚ) :=
  match st.sub with
  | none => .error .typeError
  | some r => .ok r

/-- **C149** is false for the decorators: zero-mean pre-processing of a `HankelDMD(d=2)`. After a fit of `1, 3` the
reconstruction is `1, 3`. The fit of the single number `10` raises, and the reconstruction becomes `9, 11`: the dynamics of
the first data around the mean of the second. -/
theorem C149_wrapped_false :
    let st0 : Wrapped ℚ (Hankel (List ℚ) ℕ (Option (List ℚ))) := ⟨none, ⟨none, none, none⟩⟩
    let st1 := st0.fit meanPre hankelFit [1, 3]
    let st2 := st1.2.fit meanPre hankelFit [10]
    st1.1 = .ok () ∧ st1.2.recon meanPost hankelRecon = .ok [1, 3] ∧ st2.1 = .error .valueError ∧
      st2.2.recon meanPost hankelRecon = .ok [9, 11] := by
  decide +kernel

/-! ## DMDc -/

section dmdc

variable {D I T Bm Bs M E A : Type} (snapshots : D → Except PyErr Unit) (time : D → T)
  (unknown : D → I → Except PyErr (List M × List E × Bs × Bm)) (known : D → I → Bm → Except PyErr (List M × List E × Bs))
  (amps : List M → List E → D → Except PyErr (List A))

/-- **C149** (DMDc; partial). After a call of `DMDc.fit` that raises there are no amplitudes. Once the snapshots are
accepted, no modes of the previous data are left. -/
theorem C149_dmdc_partial (x : D) (i : I) (b : Option Bm) (st : Dmdc D I T Bm Bs M E A) (e : PyErr)
    (h : (st.fit snapshots time unknown known amps x i b).1 = .error e) :
    let st' := (st.fit snapshots time unknown known amps x i b).2
    ((∃ e', st'.obj.getAmps = .error e') ∨ st'.obj.getAmps = .ok (none, st'.obj)) ∧
    (snapshots x = .ok () → st'.snaps = some x ∧ st'.time = some (time x) ∧
      (st'.obj.getModes.map (·.1) = .ok none ∨
        ∃ ms es bs bm, Dmdc.operator unknown known x i b = .ok (ms, es, bs, bm) ∧
          st'.obj.op = some (ms, es) ∧ st'.basis = some bs ∧ st'.bm = some bm)) := by
  intro st'
  have key : (st'.obj.b = none ∧ st'.obj.view = none) ∧ (snapshots x = .ok () → st'.snaps = some x ∧
      st'.time = some (time x) ∧ (st'.obj.op = none ∨
        ∃ ms es bs bm, Dmdc.operator unknown known x i b = .ok (ms, es, bs, bm) ∧
          st'.obj.op = some (ms, es) ∧ st'.basis = some bs ∧ st'.bm = some bm)) := by
    have hst : st' = (st.fit snapshots time unknown known amps x i b).2 := rfl
    clear_value st'
    revert h
    simp only [Dmdc.fit] at hst ⊢
    cases hs : snapshots x with
    | error e1 =>
      simp only [hs] at hst
      intro _
      rw [hst]
      exact ⟨⟨rfl, rfl⟩, fun h => by simp at h⟩
    | ok _ =>
      simp only [hs] at hst
      cases ho : Dmdc.operator unknown known x i b with
      | error e1 =>
        simp only [ho] at hst
        intro _
        rw [hst]
        exact ⟨⟨rfl, rfl⟩, fun _ => ⟨rfl, rfl, Or.inl rfl⟩⟩
      | ok p =>
        obtain ⟨ms, es, bs, bm⟩ := p
        simp only [ho] at hst
        cases ha : amps ms es x with
        | ok a => simp [ha]
        | error e1 =>
          simp only [ha] at hst
          intro _
          rw [hst]
          exact ⟨⟨rfl, rfl⟩, fun _ => ⟨rfl, rfl, Or.inr ⟨ms, es, bs, bm, rfl, rfl, rfl, rfl⟩⟩⟩
  obtain ⟨⟨hb, hv⟩, h2⟩ := key
  refine ⟨getAmps_none _ hb hv, fun hs => ?_⟩
  obtain ⟨h3, h4, h5⟩ := h2 hs
  refine ⟨h3, h4, ?_⟩
  rcases h5 with h5 | h5
  · exact Or.inl (by simp [Obj.getModes, h5, Except.map])
  · exact Or.inr h5

/-- **C149** is false for `DMDc`: if the operator of the new data cannot be computed, `B` and `basis` are those of the
previous data, beside the new snapshots and the new control input. -/
theorem C149_dmdc_false (x : D) (i : I) (b : Option Bm) (st : Dmdc D I T Bm Bs M E A) (e : PyErr)
    (hx : snapshots x = .ok ()) (ho : Dmdc.operator unknown known x i b = .error e) :
    let r := st.fit snapshots time unknown known amps x i b
    r.1 = .error e ∧ r.2.bm = st.bm ∧ r.2.basis = st.basis ∧ r.2.snaps = some x ∧ r.2.ctl = some i := by
  simp [Dmdc.fit, hx, ho]

end dmdc

/-- The hypotheses of the two theorems: the control input `0` cannot be used. -/
example :
    let fit := Dmdc.fit (D := ℕ) (I := ℕ) (T := ℕ) (Bm := ℕ) (Bs := ℕ) (M := ℕ) (E := ℕ) (A := ℕ) (fun _ => .ok ()) id
      (fun x i => if i = 0 then .error .valueError else .ok ([x], [x], x, x / i)) (fun x _ _ => .ok ([x], [x], x))
      (fun ms _ _ => .ok ms)
    let st1 := fit 6 2 none Dmdc.new
    let st2 := fit 5 0 none st1.2
    st1.1 = .ok () ∧ st1.2.bm = some 3 ∧ st2.1 = .error .valueError ∧ st2.2.bm = some 3 ∧ st2.2.snaps = some 5 := by
  decide +kernel

end Verif.FailedFit
