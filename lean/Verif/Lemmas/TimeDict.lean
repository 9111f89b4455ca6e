import Verif.Spec.TimeDict
import Mathlib.Tactic.Common
import Mathlib.Data.List.Perm.Subperm
import Mathlib.Data.List.Nodup

namespace Verif.TimeDict

open Verif

variable {V : Type}

theorem Dict.get?_cons (d : Dict V) (k k' : String) (v : V) :
    Dict.get? ((k, v) :: d) k' = if k' = k then some v else Dict.get? d k' := by
  unfold Dict.get?
  rw [List.lookup_cons]
  by_cases h : k' = k
  · simp [h]
  · have hb : (k' == k) = false := by simpa using h
    simp [hb, h]

theorem Dict.get?_put (d : Dict V) (k k' : String) (v : V) :
    (d.put k v).get? k' = if k' = k then some v else d.get? k' := by
  induction d with
  | nil => simp [Dict.put, Dict.get?_cons]
  | cons p d ih =>
    obtain ⟨k1, v1⟩ := p
    by_cases h1 : k1 = k
    · subst h1
      rw [Dict.put, if_pos rfl, Dict.get?_cons, Dict.get?_cons]
      split <;> simp_all
    · rw [Dict.put, if_neg h1, Dict.get?_cons, Dict.get?_cons, ih]
      by_cases h : k' = k1
      · subst h; simp [h1]
      · simp [h]

theorem mem_allowed (k : String) : k ∈ allowed ↔ k = "t0" ∨ k = "tend" ∨ k = "dt" := by
  simp [allowed]

theorem Dict.length_put (d : Dict V) (k : String) (v : V) (h : (d.get? k).isSome) :
    (d.put k v).length = d.length := by
  induction d with
  | nil => simp [Dict.get?] at h
  | cons p d ih =>
    obtain ⟨k1, v1⟩ := p
    by_cases h1 : k1 = k
    · simp [Dict.put, h1]
    · have : (Dict.get? d k).isSome := by
        have h2 : ¬ k = k1 := fun e => h1 e.symm
        rw [Dict.get?_cons, if_neg h2] at h
        exact h
      simp [Dict.put, h1, ih this]

theorem Exact.put {d : Dict V} (h : Exact d) {k : String} (hk : k ∈ allowed) (v : V) :
    Exact (d.put k v) := by
  refine ⟨fun k' => ?_, ?_⟩
  · rw [Dict.get?_put]
    by_cases e : k' = k
    · subst e; simpa [mem_allowed] using hk
    · simp only [e, if_false]; exact h.1 k'
  · rw [Dict.length_put _ _ _ ((h.1 k).mpr ((mem_allowed k).mp hk)), h.2]

theorem Cell.setItem_exact {c : Cell V} (hg : c.guarded = true) (h : Exact c.dict) (k : String)
    (v : V) : (c.setItem k v).2.guarded = true ∧ Exact (c.setItem k v).2.dict := by
  unfold Cell.setItem
  rw [if_pos hg]
  split
  · rename_i hk; exact ⟨hg, h.put hk v⟩
  · exact ⟨hg, h⟩

theorem Cell.setItem_guarded (c : Cell V) (k : String) (v : V) :
    (c.setItem k v).2.guarded = c.guarded := by
  unfold Cell.setItem
  split
  · split <;> rfl
  · rfl

/-- Every `DMDTimeDict` object on the heap has exactly the three keys. -/
def GuardedExact (s : State V) : Prop := ∀ c ∈ s.heap, c.guarded = true → Exact c.dict

/-- References are valid. -/
def Valid (s : State V) : Prop :=
  (∀ r, s.orig = some r → r < s.heap.length) ∧ (∀ r, s.dmd = some r → r < s.heap.length) ∧
    ∀ r ∈ s.user, r < s.heap.length

theorem Valid.ref {s : State V} (h : Valid s) {src : Src} {r : Nat} (hr : s.ref src = some r) :
    r < s.heap.length := by
  cases src with
  | user i => exact h.2.2 r (List.mem_of_getElem? hr)
  | originalTime => exact h.1 r hr
  | dmdTime => exact h.2.1 r hr

theorem step_bind (s : State V) (src : Src) : (s.step (.bind src)).2 = s ∨
    ∃ r, s.ref src = some r ∧ (s.step (.bind src)).2 = { s with user := s.user ++ [r] } := by
  cases hr : s.ref src with
  | none => left; simp [State.step, hr]
  | some r => right; exact ⟨r, rfl, by simp [State.step, hr]⟩

theorem step_setItem (s : State V) (src : Src) (k : String) (v : V) :
    (s.step (.setItem src k v)).2 = s ∨
    ∃ r c, s.ref src = some r ∧ s.heap[r]? = some c ∧
      (s.step (.setItem src k v)).2 = { s with heap := s.heap.set r (c.setItem k v).2 } := by
  cases hr : s.ref src with
  | none => left; simp [State.step, hr]
  | some r =>
    cases hc : s.heap[r]? with
    | none => left; simp [State.step, hr, hc]
    | some c => right; exact ⟨r, c, rfl, hc, by simp [State.step, hr, hc]⟩

theorem step_assign (s : State V) (src : Src) : (s.step (.assignDmdTime src)).2 = s ∨
    ∃ r c, s.ref src = some r ∧ s.heap[r]? = some c ∧
      (s.step (.assignDmdTime src)).2 =
        { s with heap := s.heap ++ [c], dmd := some s.heap.length } := by
  cases hr : s.ref src with
  | none => left; simp [State.step, hr]
  | some r =>
    cases hc : s.heap[r]? with
    | none => left; simp [State.step, hr, hc]
    | some c => right; exact ⟨r, c, rfl, hc, by simp [State.step, hr, hc, State.alloc]⟩

theorem step_valid {s : State V} (h : Valid s) (op : Op V) : Valid (s.step op).2 := by
  obtain ⟨h1, h2, h3⟩ := h
  cases op with
  | newDict d =>
    refine ⟨fun r hr => ?_, fun r hr => ?_, fun r hr => ?_⟩
    · have := h1 r hr; simp [State.step, State.alloc]; omega
    · have := h2 r hr; simp [State.step, State.alloc]; omega
    · simp only [State.step, State.alloc, List.mem_append, List.mem_singleton] at hr
      rcases hr with hr | rfl
      · have := h3 r hr; simp [State.step, State.alloc]; omega
      · simp [State.step, State.alloc]
  | bind src =>
    rcases step_bind s src with e | ⟨r, hr, e⟩ <;> rw [e]
    · exact ⟨h1, h2, h3⟩
    · refine ⟨h1, h2, fun r' hr' => ?_⟩
      simp only [List.mem_append, List.mem_singleton] at hr'
      rcases hr' with hr' | rfl
      · exact h3 r' hr'
      · exact Valid.ref ⟨h1, h2, h3⟩ hr
  | setItem src k v =>
    rcases step_setItem s src k v with e | ⟨r, c, hr, hc, e⟩ <;> rw [e]
    · exact ⟨h1, h2, h3⟩
    · simpa [Valid] using ⟨h1, h2, h3⟩
  | assignDmdTime src =>
    rcases step_assign s src with e | ⟨r, c, hr, hc, e⟩ <;> rw [e]
    · exact ⟨h1, h2, h3⟩
    · refine ⟨fun r hr => ?_, fun r hr => ?_, fun r hr => ?_⟩
      · have := h1 r hr; simp; omega
      · simp at hr ⊢; omega
      · have := h3 r hr; simp; omega

theorem run_valid {s : State V} (h : Valid s) (ops : List (Op V)) : Valid (s.run ops) := by
  induction ops generalizing s with
  | nil => exact h
  | cons op ops ih => exact ih (step_valid h op)

theorem step_guardedExact {s : State V} (h : GuardedExact s) (op : Op V) :
    GuardedExact (s.step op).2 := by
  cases op with
  | newDict d =>
    intro c hc hg
    simp only [State.step, State.alloc, List.mem_append, List.mem_singleton] at hc
    rcases hc with hc | rfl
    · exact h c hc hg
    · simp at hg
  | bind src =>
    rcases step_bind s src with e | ⟨r, hr, e⟩ <;> rw [e] <;> exact h
  | setItem src k v =>
    rcases step_setItem s src k v with e | ⟨r, c, hr, hc, e⟩ <;> rw [e]
    · exact h
    · intro c' hc' hg
      rcases List.mem_or_eq_of_mem_set hc' with hm | rfl
      · exact h c' hm hg
      · have hg' : c.guarded = true := by rw [Cell.setItem_guarded] at hg; exact hg
        exact (Cell.setItem_exact hg' (h c (List.mem_of_getElem? hc) hg') k v).2
  | assignDmdTime src =>
    rcases step_assign s src with e | ⟨r, c, hr, hc, e⟩ <;> rw [e]
    · exact h
    · intro c' hc' hg
      simp only [List.mem_append, List.mem_singleton] at hc'
      rcases hc' with hm | rfl
      · exact h c' hm hg
      · exact h c' (List.mem_of_getElem? hc) hg

theorem run_guardedExact {s : State V} (h : GuardedExact s) (ops : List (Op V)) :
    GuardedExact (s.run ops) := by
  induction ops generalizing s with
  | nil => exact h
  | cons op ops ih => exact ih (step_guardedExact h op)


theorem setInitial_cases (s : State V) (d : Dict V) :
    (s.setInitial d = (.error .valueError, s) ∧
      (d.get? "t0" = none ∨ d.get? "tend" = none ∨ d.get? "dt" = none ∨ 3 < d.length)) ∨
    (s.setInitial d = (.ok (), { s with heap := s.heap ++ [⟨true, d⟩] ++ [⟨true, d⟩], orig := some s.heap.length, dmd := some (s.heap.length + 1) }) ∧
      (d.get? "t0").isSome ∧ (d.get? "tend").isSome ∧ (d.get? "dt").isSome ∧ d.length ≤ 3) := by
  unfold State.setInitial
  split
  · rename_i h
    simp only [Bool.and_eq_true] at h
    split
    · rename_i h3; left; exact ⟨rfl, Or.inr (Or.inr (Or.inr h3))⟩
    · rename_i h3; right
      exact ⟨by simp [State.alloc], h.1.1, h.1.2, h.2, by omega⟩
  · rename_i h
    left
    refine ⟨rfl, ?_⟩
    simp only [Bool.and_eq_true, not_and_or, Option.not_isSome_iff_eq_none] at h
    tauto

theorem Dict.mem_keys (d : Dict V) (k : String) : (d.get? k).isSome ↔ k ∈ d.map (·.1) := by
  induction d with
  | nil => simp [Dict.get?]
  | cons p d ih =>
    obtain ⟨k1, v1⟩ := p
    rw [Dict.get?_cons]
    by_cases h : k = k1
    · simp [h]
    · simp only [h, if_false, List.map_cons, List.mem_cons, false_or]; exact ih

theorem exact_of_three {d : Dict V} (hn : (d.map (·.1)).Nodup) (h0 : (d.get? "t0").isSome)
    (h1 : (d.get? "tend").isSome) (h2 : (d.get? "dt").isSome) (hl : d.length ≤ 3) : Exact d := by
  have hsub : allowed ⊆ d.map (·.1) := by
    intro k hk
    rcases (mem_allowed k).mp hk with rfl | rfl | rfl
    · exact (Dict.mem_keys _ _).mp h0
    · exact (Dict.mem_keys _ _).mp h1
    · exact (Dict.mem_keys _ _).mp h2
  have hnd : allowed.Nodup := by decide
  have hsp := (hnd.subperm hsub)
  have hlen : (d.map (·.1)).length ≤ allowed.length := by simpa [allowed] using hl
  have hperm := hsp.perm_of_length_le hlen
  refine ⟨fun k => ?_, ?_⟩
  · rw [Dict.mem_keys, ← hperm.mem_iff, mem_allowed]
  · have := hperm.length_eq
    simpa [allowed] using this.symm

theorem act_valid {s : State V} (h : Valid s) (a : Act V) : Valid (s.act a) := by
  cases a with
  | user op => exact step_valid h op
  | fit d =>
    rcases setInitial_cases s d with ⟨e, -⟩ | ⟨e, -⟩
    · simpa [State.act, e] using h
    · simp only [State.act, e]
      refine ⟨fun r hr => ?_, fun r hr => ?_, fun r hr => ?_⟩
      · simp at hr ⊢; omega
      · simp at hr ⊢; omega
      · have := h.2.2 r hr; simp; omega

theorem act_guardedExact {s : State V} (h : GuardedExact s) (a : Act V) (hw : a.WellFormed) :
    GuardedExact (s.act a) := by
  cases a with
  | user op => exact step_guardedExact h op
  | fit d =>
    rcases setInitial_cases s d with ⟨e, -⟩ | ⟨e, h0, h1, h2, h3⟩
    · simpa [State.act, e] using h
    · simp only [State.act, e]
      intro c hc hg
      simp only [List.mem_append, List.mem_singleton] at hc
      rcases hc with (hc | rfl) | rfl
      · exact h c hc hg
      · exact exact_of_three hw h0 h1 h2 h3
      · exact exact_of_three hw h0 h1 h2 h3

/-- `orig` points to a `DMDTimeDict`. -/
def OrigGuarded (s : State V) : Prop :=
  ∀ r c, s.orig = some r → s.heap[r]? = some c → c.guarded = true

def DmdGuarded (s : State V) : Prop :=
  ∀ r c, s.dmd = some r → s.heap[r]? = some c → c.guarded = true

theorem getElem?_set_guarded {heap : List (Cell V)} {r r' : Nat} {c c' : Cell V} {k : String}
    {v : V} (hc : heap[r]? = some c) (h : (heap.set r (c.setItem k v).2)[r']? = some c') :
    ∃ c0, heap[r']? = some c0 ∧ c0.guarded = c'.guarded := by
  by_cases e : r = r'
  · subst e
    have hlt := (List.getElem?_eq_some_iff.mp hc).1
    rw [List.getElem?_set_self hlt] at h
    cases h
    exact ⟨c, hc, (Cell.setItem_guarded c k v).symm⟩
  · rw [List.getElem?_set_ne e] at h
    exact ⟨c', h, rfl⟩

theorem act_origGuarded {s : State V} (hv : Valid s) (h : OrigGuarded s) (a : Act V) :
    OrigGuarded (s.act a) := by
  cases a with
  | fit d =>
    rcases setInitial_cases s d with ⟨e, -⟩ | ⟨e, -⟩
    · simpa [State.act, e] using h
    · simp only [State.act, e]
      intro r c hr hc
      simp only [Option.some.injEq] at hr
      subst hr
      simp at hc
      rw [← hc]
  | user op =>
    simp only [State.act]
    cases op with
    | newDict d =>
      intro r c hr hc
      have hlt := hv.1 r hr
      simp only [State.step, State.alloc, List.getElem?_append_left hlt] at hc
      exact h r c hr hc
    | bind src =>
      rcases step_bind s src with e | ⟨r, hr, e⟩ <;> rw [e] <;> exact h
    | setItem src k v =>
      rcases step_setItem s src k v with e | ⟨r, c, hr, hc, e⟩ <;> rw [e]
      · exact h
      · intro r' c' hr' hc'
        obtain ⟨c0, h0, hg⟩ := getElem?_set_guarded hc hc'
        exact hg ▸ h r' c0 hr' h0
    | assignDmdTime src =>
      rcases step_assign s src with e | ⟨r, c, hr, hc, e⟩ <;> rw [e]
      · exact h
      · intro r' c' hr' hc'
        have hlt := hv.1 r' hr'
        simp only [List.getElem?_append_left hlt] at hc'
        exact h r' c' hr' hc'

theorem act_dmdGuarded {s : State V} (hv : Valid s) (ho : OrigGuarded s) (h : DmdGuarded s)
    (a : Act V) (hn : a.NoUserReplacement) : DmdGuarded (s.act a) := by
  cases a with
  | fit d =>
    rcases setInitial_cases s d with ⟨e, -⟩ | ⟨e, -⟩
    · simpa [State.act, e] using h
    · simp only [State.act, e]
      intro r c hr hc
      simp only [Option.some.injEq] at hr
      subst hr
      simp at hc
      rw [← hc]
  | user op =>
    simp only [State.act]
    cases op with
    | newDict d =>
      intro r c hr hc
      have hlt := hv.2.1 r hr
      simp only [State.step, State.alloc, List.getElem?_append_left hlt] at hc
      exact h r c hr hc
    | bind src =>
      rcases step_bind s src with e | ⟨r, hr, e⟩ <;> rw [e] <;> exact h
    | setItem src k v =>
      rcases step_setItem s src k v with e | ⟨r, c, hr, hc, e⟩ <;> rw [e]
      · exact h
      · intro r' c' hr' hc'
        obtain ⟨c0, h0, hg⟩ := getElem?_set_guarded hc hc'
        exact hg ▸ h r' c0 hr' h0
    | assignDmdTime src =>
      rcases step_assign s src with e | ⟨r, c, hr, hc, e⟩ <;> rw [e]
      · exact h
      · intro r' c' hr' hc'
        simp only [Option.some.injEq] at hr'
        subst hr'
        simp at hc'
        subst hc'
        cases src with
        | user i => exact hn.elim
        | originalTime => exact ho r c hr hc
        | dmdTime => exact h r c hr hc

theorem acts_inv (l : List (Act V)) (hw : ∀ a ∈ l, a.WellFormed) (s : State V) (hv : Valid s)
    (hg : GuardedExact s) (ho : OrigGuarded s) :
    Valid (s.acts l) ∧ GuardedExact (s.acts l) ∧ OrigGuarded (s.acts l) ∧
      ((∀ a ∈ l, a.NoUserReplacement) → DmdGuarded s → DmdGuarded (s.acts l)) := by
  induction l generalizing s with
  | nil => exact ⟨hv, hg, ho, fun _ h => h⟩
  | cons a l ih =>
    obtain ⟨i1, i2, i3, i4⟩ := ih (fun b hb => hw b (by simp [hb])) (s.act a) (act_valid hv a)
      (act_guardedExact hg a (hw a (by simp))) (act_origGuarded hv ho a)
    exact ⟨i1, i2, i3, fun hn hd => i4 (fun b hb => hn b (by simp [hb]))
      (act_dmdGuarded hv ho hd a (hn a (by simp)))⟩

theorem empty_inv : Valid (State.empty : State V) ∧ GuardedExact (State.empty : State V) ∧
    OrigGuarded (State.empty : State V) ∧ DmdGuarded (State.empty : State V) := by
  simp [Valid, GuardedExact, OrigGuarded, DmdGuarded, State.empty]

/-- The object `original_time` is a cell `r0` with fixed contents that neither `dmd_time` nor a
user variable refers to. -/
def Sealed (s : State V) (r0 : Nat) (c0 : Cell V) : Prop :=
  s.orig = some r0 ∧ s.heap[r0]? = some c0 ∧ s.dmd ≠ some r0 ∧ r0 ∉ s.user

theorem Sealed.step {s : State V} {r0 : Nat} {c0 : Cell V} (h : Sealed s r0 c0) (op : Op V)
    (ho : op.SparesOriginal) : Sealed (s.step op).2 r0 c0 := by
  obtain ⟨h1, h2, h3, h4⟩ := h
  have hlt := (List.getElem?_eq_some_iff.mp h2).1
  have href : ∀ src r, s.ref src = some r → src ≠ .originalTime → r ≠ r0 := by
    rintro src r hr hs rfl
    cases src with
    | user i => exact h4 (List.mem_of_getElem? hr)
    | originalTime => exact hs rfl
    | dmdTime => exact h3 hr
  cases op with
  | newDict d =>
    refine ⟨h1, ?_, h3, ?_⟩
    · simp only [State.step, State.alloc, List.getElem?_append_left hlt]; exact h2
    · simp only [State.step, State.alloc, List.mem_append, List.mem_singleton, not_or]
      exact ⟨h4, by omega⟩
  | bind src =>
    rcases step_bind s src with e | ⟨r, hr, e⟩ <;> rw [e]
    · exact ⟨h1, h2, h3, h4⟩
    · refine ⟨h1, h2, h3, ?_⟩
      have : r ≠ r0 := href src r hr (by rintro rfl; exact ho)
      simp only [List.mem_append, List.mem_singleton, not_or]
      exact ⟨h4, fun e => this e.symm⟩
  | setItem src k v =>
    rcases step_setItem s src k v with e | ⟨r, c, hr, hc, e⟩ <;> rw [e]
    · exact ⟨h1, h2, h3, h4⟩
    · have : r ≠ r0 := href src r hr (by rintro rfl; exact ho)
      refine ⟨h1, ?_, h3, h4⟩
      rw [List.getElem?_set_ne this]; exact h2
  | assignDmdTime src =>
    rcases step_assign s src with e | ⟨r, c, hr, hc, e⟩ <;> rw [e]
    · exact ⟨h1, h2, h3, h4⟩
    · refine ⟨h1, ?_, ?_, h4⟩
      · rw [List.getElem?_append_left hlt]; exact h2
      · simp only [ne_eq, Option.some.injEq]; omega

theorem Sealed.run {s : State V} {r0 : Nat} {c0 : Cell V} (h : Sealed s r0 c0) (ops : List (Op V))
    (ho : ∀ op ∈ ops, op.SparesOriginal) : Sealed (s.run ops) r0 c0 := by
  induction ops generalizing s with
  | nil => exact h
  | cons op ops ih =>
    exact ih (h.step op (ho op (by simp))) fun o hm => ho o (by simp [hm])

/-- The object `dmd_time` is a cell `r0` no user variable refers to. -/
def SealedDmd (s : State V) (r0 : Nat) (c0 : Cell V) : Prop :=
  s.dmd = some r0 ∧ s.heap[r0]? = some c0 ∧ r0 ∉ s.user

theorem SealedDmd.step {s : State V} {r0 : Nat} {c0 : Cell V} (h : SealedDmd s r0 c0) (op : Op V)
    (ho : op.OnlyUser) : SealedDmd (s.step op).2 r0 c0 := by
  obtain ⟨h1, h2, h4⟩ := h
  have hlt := (List.getElem?_eq_some_iff.mp h2).1
  cases op with
  | newDict d =>
    refine ⟨h1, ?_, ?_⟩
    · simp only [State.step, State.alloc, List.getElem?_append_left hlt]; exact h2
    · simp only [State.step, State.alloc, List.mem_append, List.mem_singleton, not_or]
      exact ⟨h4, by omega⟩
  | bind src =>
    rcases step_bind s src with e | ⟨r, hr, e⟩ <;> rw [e]
    · exact ⟨h1, h2, h4⟩
    · refine ⟨h1, h2, ?_⟩
      cases src with
      | user i =>
        have : r ∈ s.user := List.mem_of_getElem? hr
        simp only [List.mem_append, List.mem_singleton, not_or]
        exact ⟨h4, fun e => h4 (e ▸ this)⟩
      | originalTime => exact ho.elim
      | dmdTime => exact ho.elim
  | setItem src k v =>
    rcases step_setItem s src k v with e | ⟨r, c, hr, hc, e⟩ <;> rw [e]
    · exact ⟨h1, h2, h4⟩
    · cases src with
      | user i =>
        have hm : r ∈ s.user := List.mem_of_getElem? hr
        have : r ≠ r0 := fun e => h4 (e ▸ hm)
        refine ⟨h1, ?_, h4⟩
        rw [List.getElem?_set_ne this]; exact h2
      | originalTime => exact ho.elim
      | dmdTime => exact ho.elim
  | assignDmdTime src => exact ho.elim

theorem SealedDmd.run {s : State V} {r0 : Nat} {c0 : Cell V} (h : SealedDmd s r0 c0)
    (ops : List (Op V)) (ho : ∀ op ∈ ops, op.OnlyUser) : SealedDmd (s.run ops) r0 c0 := by
  induction ops generalizing s with
  | nil => exact h
  | cons op ops ih =>
    exact ih (h.step op (ho op (by simp))) fun o hm => ho o (by simp [hm])

end Verif.TimeDict
