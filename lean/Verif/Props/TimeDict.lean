import Verif.Lemmas.TimeDict

/-!
# Properties C06, C07: time dictionaries
-/

namespace Verif.TimeDict

open Verif

variable {V : Type}

/-- **C06** (keys). After any history of fits (successful or not) and user actions starting from
a fresh instance, `original_time` has exactly the keys `t0`, `tend`, `dt`; so has `dmd_time`
unless it was replaced by a dictionary of the user. -/
theorem C06_exact_keys_partial (l : List (Act V)) (hw : ∀ a ∈ l, a.WellFormed) :
    (∀ d, (State.empty.acts l).read .originalTime = some d → Exact d) ∧
    ((∀ a ∈ l, a.NoUserReplacement) →
      ∀ d, (State.empty.acts l).read .dmdTime = some d → Exact d) := by
  obtain ⟨e1, e2, e3, e4⟩ := empty_inv (V := V)
  obtain ⟨h1, h2, h3, h4⟩ := acts_inv l hw State.empty e1 e2 e3
  have fin : ∀ (src : Src), (∀ r c, (State.empty.acts l).ref src = some r →
      (State.empty.acts l).heap[r]? = some c → c.guarded = true) →
      ∀ d, (State.empty.acts l).read src = some d → Exact d := by
    intro src hg d hd
    unfold State.read at hd
    cases hr : (State.empty.acts l).ref src with
    | none => simp [hr] at hd
    | some r =>
      cases hc : (State.empty.acts l).heap[r]? with
      | none => simp [hr, hc] at hd
      | some c =>
        simp [hr, hc] at hd
        exact hd ▸ h2 c (List.mem_of_getElem? hc) (hg r c hr hc)
  exact ⟨fin .originalTime h3, fun hn => fin .dmdTime (h4 hn e4)⟩

/-- **C06** is not true without the last proviso: `dmd.dmd_time = {"foo": 1}` is accepted, after
which `dmd_time` has the key `foo` and no `t0` (disagreement D03). -/
theorem C06_replacement_unchecked_false :
    ∃ (l : List (Act Nat)) (d : Dict Nat), (∀ a ∈ l, a.WellFormed) ∧
      (State.empty.acts l).read .dmdTime = some d ∧ ¬ Exact d := by
  refine ⟨[.fit [("t0", 0), ("tend", 9), ("dt", 1)], .user (.newDict [("foo", 1)]),
    .user (.assignDmdTime (.user 0))], [("foo", 1)], ?_, by decide, ?_⟩
  · intro a ha
    simp only [List.mem_cons, List.not_mem_nil, or_false] at ha
    rcases ha with rfl | rfl | rfl <;> simp [Act.WellFormed]
  · intro h; simp [Exact] at h

/-- **C06** (assignment). On `original_time` (after any history; likewise for `dmd_time` unless
replaced by a user dictionary) assigning another key raises `KeyError` and leaves every
dictionary unchanged; assigning `t0`, `tend` or `dt` succeeds, the new value is read back and
the other two values are unchanged. -/
theorem C06_set_item_partial (l : List (Act V)) (src : Src)
    (hsrc : src = .originalTime ∨ (src = .dmdTime ∧ ∀ a ∈ l, a.NoUserReplacement))
    (hw : ∀ a ∈ l, a.WellFormed) (d : Dict V)
    (hd : (State.empty.acts l).read src = some d) (k : String) (v : V) :
    let s := State.empty.acts l
    (¬ (k = "t0" ∨ k = "tend" ∨ k = "dt") →
      (s.step (.setItem src k v)).1 = .error .keyError ∧
      ∀ src', (s.step (.setItem src k v)).2.read src' = s.read src') ∧
    ((k = "t0" ∨ k = "tend" ∨ k = "dt") →
      (s.step (.setItem src k v)).1 = .ok () ∧
      ∃ d', (s.step (.setItem src k v)).2.read src = some d' ∧ d'.get? k = some v ∧
        ∀ k', k' ≠ k → d'.get? k' = d.get? k') := by
  intro s
  obtain ⟨e1, e2, e3, e4⟩ := empty_inv (V := V)
  obtain ⟨h1, h2, h3, h4⟩ := acts_inv l hw State.empty e1 e2 e3
  obtain ⟨r, hr, c, hc, hcd⟩ : ∃ r, s.ref src = some r ∧ ∃ c, s.heap[r]? = some c ∧ c.dict = d := by
    unfold State.read at hd
    cases hr : s.ref src with
    | none => simp [s, hr] at hd
    | some r =>
      cases hc : s.heap[r]? with
      | none => simp [s, hr, hc] at hd
      | some c => simp [s, hr, hc] at hd; exact ⟨r, rfl, c, hc, hd⟩
  have hg : c.guarded = true := by
    rcases hsrc with rfl | ⟨rfl, hn⟩
    · exact h3 r c hr hc
    · exact h4 hn e4 r c hr hc
  have hlt := (List.getElem?_eq_some_iff.mp hc).1
  constructor
  · intro hk
    have hk' : k ∉ allowed := by rwa [mem_allowed]
    have hci : c.setItem k v = (.error .keyError, c) := by simp [Cell.setItem, hg, hk']
    have hset : s.heap.set r c = s.heap := by
      obtain ⟨_, hx⟩ := List.getElem?_eq_some_iff.mp hc
      rw [← hx, List.set_getElem_self]
    refine ⟨by simp [State.step, hr, hc, hci], fun src' => ?_⟩
    simp only [State.step, hr, hc, hci, hset]
  · intro hk
    have hk' : k ∈ allowed := by rwa [mem_allowed]
    have hci : c.setItem k v = (.ok (), { c with dict := c.dict.put k v }) := by
      simp [Cell.setItem, hg, hk']
    refine ⟨by simp [State.step, hr, hc, hci], c.dict.put k v, ?_, ?_, ?_⟩
    · have hr' : (s.step (.setItem src k v)).2.ref src = some r := by
        simp only [State.step, hr, hc, hci]
        rw [← hr]
        cases src <;> rfl
      have hh : (s.step (.setItem src k v)).2.heap = s.heap.set r { c with dict := c.dict.put k v } := by
        simp [State.step, hr, hc, hci]
      simp [State.read, hr', hh, hlt]
    · rw [Dict.get?_put]; simp
    · intro k' hk''
      rw [Dict.get?_put, ← hcd]; simp [hk'']

/-- **C06** (construction). The initial time dictionary is accepted iff it holds the three keys
and nothing else; otherwise `ValueError` is raised and nothing changes. -/
theorem C06_initial_dictionary (s : State V) (d : Dict V) (hn : (d.map (·.1)).Nodup) :
    (Exact d → (s.setInitial d).1 = .ok () ∧ (s.setInitial d).2.read .originalTime = some d ∧
      (s.setInitial d).2.read .dmdTime = some d) ∧
    (¬ Exact d → s.setInitial d = (.error .valueError, s)) := by
  constructor
  · intro h
    rcases setInitial_cases s d with ⟨e, hx⟩ | ⟨e, -⟩
    · exfalso
      have a := (h.1 "t0").mpr (by simp)
      have b := (h.1 "tend").mpr (by simp)
      have c := (h.1 "dt").mpr (by simp)
      have := h.2
      rcases hx with hx | hx | hx | hx
      · simp [hx] at a
      · simp [hx] at b
      · simp [hx] at c
      · omega
    · simp [e, State.read, State.ref]
  · intro h
    rcases setInitial_cases s d with ⟨e, -⟩ | ⟨-, h0, h1, h2, h3⟩
    · exact e
    · exact absurd (exact_of_three hn h0 h1 h2 h3) h

example : Exact ([("t0", 0), ("tend", 9), ("dt", 1)] : Dict Nat) ∧
    ((State.empty : State Nat).setInitial [("t0", 0), ("tend", 9)]).1 = .error .valueError ∧
    ((State.empty : State Nat).setInitial [("t0", 0), ("tend", 9), ("dt", 1), ("x", 1)]).1 =
      .error .valueError := by
  refine ⟨⟨fun k => ?_, rfl⟩, by decide, by decide⟩
  rw [Dict.mem_keys]; simp

/-- **C07** (independence). Let `fit` have set the time dictionary to `d`, in any previous state.
Whatever is then done to `dmd_time` and to any user dictionary — item assignment, replacement
of `dmd_time` by any dictionary (also by `original_time` itself), edits through variables bound
to the `dmd_time` object — `original_time` still reads `d`. -/
theorem C07_original_time_independent (s : State V) (hs : ∀ r ∈ s.user, r < s.heap.length)
    (d : Dict V) (hfit : (s.setInitial d).1 = .ok ()) (ops : List (Op V))
    (ho : ∀ op ∈ ops, op.SparesOriginal) :
    ((s.setInitial d).2.run ops).read .originalTime = some d := by
  rcases setInitial_cases s d with ⟨e, -⟩ | ⟨e, -⟩
  · rw [e] at hfit; cases hfit
  · have hse : Sealed (s.setInitial d).2 s.heap.length ⟨true, d⟩ := by
      rw [e]
      refine ⟨rfl, by simp, by simp, ?_⟩
      intro hm
      have := hs _ hm
      omega
    obtain ⟨h1, h2, -, -⟩ := hse.run ops ho
    simp [State.read, State.ref, h1, h2]

/-- **C07** (the assigned dictionary is copied). After `dmd.dmd_time = x`, `dmd_time` reads as
`x` did, whatever the user does later with `x` or with other dictionaries of their own. -/
theorem C07_assignment_copies (s : State V) (hv : Valid s) (src : Src) (d : Dict V)
    (hd : s.read src = some d) (ops : List (Op V)) (ho : ∀ op ∈ ops, op.OnlyUser) :
    (s.step (.assignDmdTime src)).1 = .ok () ∧
      ((s.step (.assignDmdTime src)).2.run ops).read .dmdTime = some d := by
  obtain ⟨r, hr, c, hc, hcd⟩ : ∃ r, s.ref src = some r ∧ ∃ c, s.heap[r]? = some c ∧ c.dict = d := by
    unfold State.read at hd
    cases hr : s.ref src with
    | none => simp [hr] at hd
    | some r =>
      cases hc : s.heap[r]? with
      | none => simp [hr, hc] at hd
      | some c => simp [hr, hc] at hd; exact ⟨r, rfl, c, hc, hd⟩
  refine ⟨by simp [State.step, hr, hc], ?_⟩
  have hse : SealedDmd (s.step (.assignDmdTime src)).2 s.heap.length c := by
    simp only [State.step, hr, hc, State.alloc]
    refine ⟨rfl, by simp, ?_⟩
    intro hm
    have := hv.2.2 _ hm
    omega
  obtain ⟨h1, h2, -⟩ := hse.run ops ho
  simp [State.read, State.ref, h1, h2, hcd]

/-- An instance of C07: `dmd.dmd_time = dmd.original_time`, then both `dmd_time` and a variable
bound to it are edited. -/
example :
    let s := ((State.empty : State Nat).setInitial [("t0", 0), ("tend", 9), ("dt", 1)]).2.run
      [.assignDmdTime .originalTime, .setItem .dmdTime "tend" 20, .bind .dmdTime,
        .setItem (.user 0) "t0" 5]
    s.read .originalTime = some [("t0", 0), ("tend", 9), ("dt", 1)] ∧
    s.read .dmdTime = some [("t0", 5), ("tend", 20), ("dt", 1)] := by decide

/-- **C07** (equality). A time dictionary equals another dictionary holding the three keys iff the
values of `t0`, `tend` and `dt` agree, and never equals a non-dictionary. -/
theorem C07_equality [DecidableEq V] (self o : Dict V) (hs : Exact self) (ho : Exact o) :
    (∃ b, eqDict self (some o) = .ok b ∧
      (b = true ↔ self.get? "t0" = o.get? "t0" ∧ self.get? "tend" = o.get? "tend" ∧
        self.get? "dt" = o.get? "dt")) ∧
    eqDict self none = .ok false := by
  refine ⟨?_, rfl⟩
  obtain ⟨a0, ha0⟩ := Option.isSome_iff_exists.mp ((hs.1 "t0").mpr (by simp))
  obtain ⟨a1, ha1⟩ := Option.isSome_iff_exists.mp ((hs.1 "tend").mpr (by simp))
  obtain ⟨a2, ha2⟩ := Option.isSome_iff_exists.mp ((hs.1 "dt").mpr (by simp))
  obtain ⟨b0, hb0⟩ := Option.isSome_iff_exists.mp ((ho.1 "t0").mpr (by simp))
  obtain ⟨b1, hb1⟩ := Option.isSome_iff_exists.mp ((ho.1 "tend").mpr (by simp))
  obtain ⟨b2, hb2⟩ := Option.isSome_iff_exists.mp ((ho.1 "dt").mpr (by simp))
  simp only [eqDict, eqKeys, ha0, ha1, ha2, hb0, hb1, hb2, Option.some.injEq]
  by_cases h0 : b0 = a0
  · by_cases h1 : b1 = a1
    · by_cases h2 : b2 = a2
      · simp [h0, h1, h2]
      · exact ⟨false, by simp [h0, h1, h2], by simp only [eq_comm (a := a2), h2]; simp⟩
    · exact ⟨false, by simp [h0, h1], by simp only [eq_comm (a := a1), h1]; simp⟩
  · exact ⟨false, by simp [h0], by simp only [eq_comm (a := a0), h0]; simp⟩

end Verif.TimeDict
