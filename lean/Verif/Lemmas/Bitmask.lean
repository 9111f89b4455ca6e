import Verif.Spec.Bitmask

/-! Helper lemmas on boolean-mask reads and writes and on the proxy invariant. -/

namespace Verif.Bitmask

open Verif

theorem activeIdx_cons (b : Bool) (bs : List Bool) :
    activeIdx (b :: bs) = (if b then [0] else []) ++ (activeIdx bs).map (· + 1) := by
  unfold activeIdx
  rw [List.length_cons, List.range_succ_eq_map, List.filter_cons, List.filter_map]
  cases b <;> simp [Function.comp_def]

theorem activeIdx_nil : activeIdx [] = [] := rfl

theorem length_activeIdx (mask : List Bool) : (activeIdx mask).length = mask.count true := by
  induction mask with
  | nil => rfl
  | cons b bs ih =>
    rw [activeIdx_cons]
    cases b <;> simp [ih]

theorem length_gather {α : Type} (m : List Bool) (xs : List α) (h : m.length = xs.length) :
    (gather m xs).length = m.count true := by
  induction m generalizing xs with
  | nil => simp [gather]
  | cons b bs ih =>
    cases xs with
    | nil => simp at h
    | cons x xs =>
      have h' : bs.length = xs.length := by simpa using h
      cases b <;> simp [gather, ih xs h']

theorem length_scatter {α : Type} (m : List Bool) (xs ys : List α) :
    (scatter m xs ys).length = xs.length := by
  induction m generalizing xs ys with
  | nil => simp [scatter]
  | cons b bs ih =>
    cases xs with
    | nil => cases b <;> cases ys <;> simp [scatter]
    | cons x xs =>
      cases b
      · simp [scatter, ih]
      · cases ys <;> simp [scatter, ih]

theorem gather_scatter {α : Type} (m : List Bool) (xs ys : List α) (h : m.length = xs.length)
    (hy : ys.length = m.count true) : gather m (scatter m xs ys) = ys := by
  induction m generalizing xs ys with
  | nil =>
    have : ys = [] := by simpa using hy
    simp [gather, this]
  | cons b bs ih =>
    cases xs with
    | nil => simp at h
    | cons x xs =>
      have h' : bs.length = xs.length := by simpa using h
      cases b
      · simp only [scatter, gather]
        simp at hy
        simpa using ih xs ys h' hy
      · cases ys with
        | nil => simp at hy
        | cons y ys =>
          simp at hy
          simp [scatter, gather, ih xs ys h' hy]

theorem scatter_gather {α : Type} (m : List Bool) (xs : List α) :
    scatter m xs (gather m xs) = xs := by
  induction m generalizing xs with
  | nil => simp [scatter]
  | cons b bs ih =>
    cases xs with
    | nil => cases b <;> simp [scatter]
    | cons x xs => cases b <;> simp [scatter, gather, ih]

theorem gather_true {α : Type} (xs : List α) :
    gather (List.replicate xs.length true) xs = xs := by
  induction xs with
  | nil => rfl
  | cons x xs ih => simp [List.replicate_succ, gather, ih]

theorem gather_eq {α : Type} (m : List Bool) (xs : List α) (h : m.length = xs.length) :
    gather m xs = (activeIdx m).filterMap (fun i => xs[i]?) := by
  induction m generalizing xs with
  | nil => simp [gather, activeIdx]
  | cons b bs ih =>
    cases xs with
    | nil => simp at h
    | cons x xs =>
      have h' : bs.length = xs.length := by simpa using h
      rw [activeIdx_cons]
      cases b <;>
        simp [gather, ih xs h', List.filterMap_map, Function.comp_def]

theorem scatter_set {α : Type} (m : List Bool) (xs ys : List α) (k : Nat) (v : α)
    (h : m.length = xs.length) (hy : ys.length = m.count true) (i : Nat)
    (hi : (activeIdx m)[k]? = some i) :
    scatter m xs (ys.set k v) = (scatter m xs ys).set i v := by
  induction m generalizing xs ys k i with
  | nil => simp [activeIdx] at hi
  | cons b bs ih =>
    cases xs with
    | nil => simp at h
    | cons x xs =>
      have h' : bs.length = xs.length := by simpa using h
      rw [activeIdx_cons] at hi
      cases b
      · simp at hy
        simp at hi
        obtain ⟨j, hj, rfl⟩ := hi
        simp [scatter, ih xs ys k h' hy j hj]
      · cases ys with
        | nil => simp at hy
        | cons y ys =>
          simp at hy
          cases k with
          | zero =>
            simp at hi
            subst hi
            simp [scatter]
          | succ k =>
            simp at hi
            obtain ⟨j, hj, rfl⟩ := hi
            simp [scatter, ih xs ys k h' hy j hj]


theorem gather_eq_visible {α : Type} (m : List Bool) (xs : List α) (h : m.length = xs.length) :
    gather m xs = visible m xs := gather_eq m xs h

theorem activeIdx_getElem?_isSome (m : List Bool) (k : Nat) :
    (∃ i, (activeIdx m)[k]? = some i) ↔ k < m.count true := by
  rw [← length_activeIdx]
  constructor
  · rintro ⟨i, hi⟩
    exact (List.getElem?_eq_some_iff.mp hi).1
  · intro h
    exact ⟨_, List.getElem?_eq_getElem h⟩

variable {M E A : Type}

/-- The state of the instance `o` represents the abstract state `s`. -/
structure Rel (n : Nat) (o : Obj M E A) (s : Spec M E A) : Prop where
  ex : ∃ ms es bs, o.op = some (ms, es) ∧ o.b = some bs ∧ ms.length = n ∧ es.length = n ∧
    bs.length = n ∧
    match o.view with
    | none => s = ⟨ms, es, bs, List.replicate n true⟩
    | some v => v.mask.length = n ∧ v.modes.length = v.mask.count true ∧
        v.eigs.length = v.mask.count true ∧ v.amps.length = v.mask.count true ∧
        s = ⟨scatter v.mask ms v.modes, scatter v.mask es v.eigs, scatter v.mask bs v.amps,
          v.mask⟩

/-- The state with an allocated proxy. -/
theorem Rel.ensure {n : Nat} {o : Obj M E A} {s : Spec M E A} (h : Rel n o s) :
    ∃ ms es bs v, o.ensure = .ok ⟨some (ms, es), some bs, some v⟩ ∧
      Rel n ⟨some (ms, es), some bs, some v⟩ s ∧ ms.length = n ∧ es.length = n ∧
      bs.length = n ∧ v.mask.length = n ∧ v.modes.length = v.mask.count true ∧
        v.eigs.length = v.mask.count true ∧ v.amps.length = v.mask.count true ∧
        s = ⟨scatter v.mask ms v.modes, scatter v.mask es v.eigs, scatter v.mask bs v.amps,
          v.mask⟩ := by
  obtain ⟨ms, es, bs, hop, hb, h1, h2, h3, hv⟩ := h.ex
  rcases o with ⟨op, b, view⟩
  subst hop hb
  cases view with
  | some v =>
    obtain ⟨a1, a2, a3, a4, a5⟩ := hv
    exact ⟨ms, es, bs, v, rfl, h, h1, h2, h3, a1, a2, a3, a4, a5⟩
  | none =>
    simp only at hv
    have e1 : gather (List.replicate es.length true) ms = ms := by
      rw [h2, ← h1]; exact gather_true ms
    have e2 : gather (List.replicate es.length true) es = es := gather_true es
    have e3 : gather (List.replicate es.length true) bs = bs := by
      rw [h2, ← h3]; exact gather_true bs
    have s1 : scatter (List.replicate es.length true) ms ms = ms := by
      have := scatter_gather (List.replicate es.length true) ms
      rwa [e1] at this
    have s2 : scatter (List.replicate es.length true) es es = es := by
      have := scatter_gather (List.replicate es.length true) es
      rwa [e2] at this
    have s3 : scatter (List.replicate es.length true) bs bs = bs := by
      have := scatter_gather (List.replicate es.length true) bs
      rwa [e3] at this
    have hs : s = ⟨scatter (List.replicate es.length true) ms ms,
        scatter (List.replicate es.length true) es es,
        scatter (List.replicate es.length true) bs bs, List.replicate es.length true⟩ := by
      rw [s1, s2, s3, hv, h2]
    refine ⟨ms, es, bs, ⟨List.replicate es.length true, ms, es, bs⟩, ?_, ?_, h1, h2, h3, ?_, ?_,
      ?_, ?_, hs⟩
    · simp [Obj.ensure, Obj.allocate, newProxy, changeBitmask, maskRead, h1, h2, h3,
        bind, Except.bind, pure, Except.pure]
      rw [← h2]
      exact ⟨e1, e2, e3⟩
    · exact ⟨ms, es, bs, rfl, rfl, h1, h2, h3, by simp [h2], by simp [h1, h2], by simp,
        by simp [h3, h2], hs⟩
    all_goals simp [h1, h2, h3]

/-- Reading through a representing instance shows the abstract observation, and
reading does not change what is represented. -/
theorem Rel.observe {n : Nat} {o : Obj M E A} {s : Spec M E A} (h : Rel n o s) :
    Bitmask.observe o = s.observe := by
  obtain ⟨ms, es, bs, v, he, hr, h1, h2, h3, l0, l1, l2, l3, rfl⟩ := h.ensure
  obtain ⟨ms', es', bs', hop, hb, -⟩ := h.ex
  have g1 := gather_scatter v.mask ms v.modes (by omega) l1
  have g2 := gather_scatter v.mask es v.eigs (by omega) l2
  have g3 := gather_scatter v.mask bs v.amps (by omega) l3
  rw [gather_eq_visible _ _ (by rw [length_scatter]; omega)] at g1 g2 g3
  simp [Bitmask.observe, Obj.getMask, Obj.getModes, Obj.getEigs, Obj.getAmps, Spec.observe, hop,
    he, g1, g2, g3, bind, Except.bind, pure, Except.pure, Except.map]

theorem Rel.changeBitmask {n : Nat} {ms : List M} {es : List E} {bs : List A} {v : View M E A}
    (h1 : ms.length = n) (h2 : es.length = n) (h3 : bs.length = n) (l0 : v.mask.length = n)
    (l1 : v.modes.length = v.mask.count true) (l2 : v.eigs.length = v.mask.count true)
    (l3 : v.amps.length = v.mask.count true) (l : List Bool) (hl : l.length = n) :
    Bitmask.changeBitmask ⟨ms, es, bs⟩ (some v) l =
      .ok (⟨scatter v.mask ms v.modes, scatter v.mask es v.eigs, scatter v.mask bs v.amps⟩,
        ⟨l, gather l (scatter v.mask ms v.modes), gather l (scatter v.mask es v.eigs),
          gather l (scatter v.mask bs v.amps)⟩) := by
  simp [Bitmask.changeBitmask, maskWrite, maskRead, length_scatter, h1, h2, h3, l0, l1, l2, l3, hl,
    bind, Except.bind, pure, Except.pure]

/-- One user action on a representing instance has the abstract outcome and again
represents the abstract state. -/
theorem Rel.step {n : Nat} {o : Obj M E A} {s : Spec M E A} (h : Rel n o s) (op : Op M E A) :
    (o.step op).1 = (s.step op).1 ∧ Rel n (o.step op).2 (s.step op).2 := by
  obtain ⟨ms, es, bs, v, he, hr, h1, h2, h3, l0, l1, l2, l3, rfl⟩ := h.ensure
  obtain ⟨ms', es', bs', hop, hb, -⟩ := h.ex
  cases op with
  | setMask value =>
    cases value with
    | nonBool => simpa [Obj.step, Obj.setMask, Obj.fitted, hop, Spec.step] using h
    | boolNd shape hs =>
      have : shape ≠ [v.mask.length] := by
        rintro rfl
        simp at hs
      simpa [Obj.step, Obj.setMask, Obj.fitted, hop, Spec.step, Obj.getMask, he, bind,
        Except.bind, pure, Except.pure, MaskVal.shape, this] using hr
    | bool1 l =>
      by_cases hl : l.length = v.mask.length
      · have hc := Rel.changeBitmask h1 h2 h3 l0 l1 l2 l3 l (by omega)
        simp only [Obj.step, Obj.setMask, Obj.fitted, hop, Spec.step, Obj.getMask, he, bind,
          Except.bind, pure, Except.pure, MaskVal.shape, hl, hc, ne_eq, not_true_eq_false,
          Option.isSome_some, Bool.true_eq_false, if_false, if_true, true_and]
        refine ⟨⟨_, _, _, rfl, rfl, by simp [length_scatter, h1], by simp [length_scatter, h2],
          by simp [length_scatter, h3], ?_⟩⟩
        refine ⟨show l.length = n by omega, ?_, ?_, ?_, ?_⟩
        · exact length_gather _ _ (by rw [length_scatter]; omega)
        · exact length_gather _ _ (by rw [length_scatter]; omega)
        · exact length_gather _ _ (by rw [length_scatter]; omega)
        · simp [scatter_gather]
      · simpa [Obj.step, Obj.setMask, Obj.fitted, hop, Spec.step, Obj.getMask, he, bind,
          Except.bind, pure, Except.pure, MaskVal.shape, hl] using hr
  | writeMode k x =>
    by_cases hk : k < v.modes.length
    · obtain ⟨i, hi⟩ := (activeIdx_getElem?_isSome v.mask k).mpr (by omega)
      simp only [Obj.step, Obj.writeMode, Obj.getModes, hop, he, bind, Except.bind, pure,
        Except.pure, hk, if_true, Spec.step, hi, true_and]
      refine ⟨⟨_, _, _, rfl, rfl, h1, h2, h3, l0, by simpa using l1, l2, l3, ?_⟩⟩
      simp [scatter_set v.mask ms v.modes k x (by omega) l1 i hi]
    · have : (activeIdx v.mask)[k]? = none := by
        rw [List.getElem?_eq_none_iff, length_activeIdx]; omega
      simpa [Obj.step, Obj.writeMode, Obj.getModes, hop, he, bind, Except.bind, pure,
        Except.pure, hk, Spec.step, this] using hr
  | writeEig k x =>
    by_cases hk : k < v.eigs.length
    · obtain ⟨i, hi⟩ := (activeIdx_getElem?_isSome v.mask k).mpr (by omega)
      simp only [Obj.step, Obj.writeEig, Obj.getEigs, hop, he, bind, Except.bind, pure,
        Except.pure, hk, if_true, Spec.step, hi, true_and]
      refine ⟨⟨_, _, _, rfl, rfl, h1, h2, h3, l0, l1, by simpa using l2, l3, ?_⟩⟩
      simp [scatter_set v.mask es v.eigs k x (by omega) l2 i hi]
    · have : (activeIdx v.mask)[k]? = none := by
        rw [List.getElem?_eq_none_iff, length_activeIdx]; omega
      simpa [Obj.step, Obj.writeEig, Obj.getEigs, hop, he, bind, Except.bind, pure,
        Except.pure, hk, Spec.step, this] using hr
  | writeAmp k x =>
    by_cases hk : k < v.amps.length
    · obtain ⟨i, hi⟩ := (activeIdx_getElem?_isSome v.mask k).mpr (by omega)
      simp only [Obj.step, Obj.writeAmp, Obj.getAmps, hop, he, bind, Except.bind, pure,
        Except.pure, hk, if_true, Spec.step, hi, true_and]
      refine ⟨⟨_, _, _, rfl, rfl, h1, h2, h3, l0, l1, l2, by simpa using l3, ?_⟩⟩
      simp [scatter_set v.mask bs v.amps k x (by omega) l3 i hi]
    · have : (activeIdx v.mask)[k]? = none := by
        rw [List.getElem?_eq_none_iff, length_activeIdx]; omega
      simpa [Obj.step, Obj.writeAmp, Obj.getAmps, hop, he, bind, Except.bind, pure,
        Except.pure, hk, Spec.step, this] using hr

theorem Rel.run {n : Nat} {o : Obj M E A} {s : Spec M E A} (h : Rel n o s)
    (ops : List (Op M E A)) :
    (o.run ops).1 = (s.run ops).1 ∧ Rel n (o.run ops).2 (s.run ops).2 := by
  induction ops generalizing o s with
  | nil => exact ⟨rfl, h⟩
  | cons op ops ih =>
    obtain ⟨h1, h2⟩ := h.step op
    obtain ⟨h3, h4⟩ := ih h2
    exact ⟨by simp [Obj.run, Spec.run, h1, h3], by simpa [Obj.run, Spec.run] using h4⟩

theorem Rel.init {n : Nat} (ms : List M) (es : List E) (bs : List A) (h1 : ms.length = n)
    (h2 : es.length = n) (h3 : bs.length = n) :
    Rel n (afterFit ms es bs) (Spec.afterFit ms es bs) :=
  ⟨ms, es, bs, rfl, rfl, h1, h2, h3, by simp [afterFit, Spec.afterFit, h2]⟩

end Verif.Bitmask
