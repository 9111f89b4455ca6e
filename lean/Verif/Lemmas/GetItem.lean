import Verif.Lemmas.Bitmask
import Mathlib.Tactic.Linarith
import Mathlib.Tactic.Ring
import Mathlib.Algebra.Order.Ring.Int

namespace Verif.Bitmask

open Verif

theorem length_setTrue (n : Nat) (idxs : List Nat) : (setTrue n idxs).length = n := by
  unfold setTrue
  suffices ∀ (m : List Bool), (idxs.foldl (fun m i => m.set i true) m).length = m.length by
    simpa using this (List.replicate n false)
  induction idxs with
  | nil => simp
  | cons i is ih => intro m; simp [ih]

theorem setTrue_getElem? (n : Nat) (idxs : List Nat) (i : Nat) (hi : i < n) :
    (setTrue n idxs)[i]? = some (decide (i ∈ idxs)) := by
  unfold setTrue
  suffices ∀ (m : List Bool), m.length = n →
      (idxs.foldl (fun m i => m.set i true) m)[i]? =
        if i ∈ idxs then some true else m[i]? by
    rw [this _ (by simp)]
    by_cases h : i ∈ idxs <;> simp [h, hi]
  induction idxs with
  | nil => simp
  | cons j js ih =>
    intro m hm
    rw [List.foldl_cons, ih _ (by simpa using hm)]
    by_cases h : i ∈ js
    · simp [h]
    · by_cases hj : j = i
      · subst hj; simp [h, hm, hi]
      · have : i ≠ j := fun e => hj e.symm
        simp [h, this, hj]

theorem resolveIdx_ok {n : Nat} {k : Int} (h : InRange n k) :
    ∃ j, resolveIdx n k = .ok j ∧ j < n ∧ ∀ i, i < n → (i = j ↔ IdxDesignates n k i) := by
  obtain ⟨h1, h2⟩ := h
  unfold resolveIdx
  by_cases h0 : 0 ≤ k
  · refine ⟨k.toNat, by simp [h0, h2], by omega, ?_⟩
    intro i hi
    unfold IdxDesignates
    omega
  · refine ⟨(k + n).toNat, ?_, by omega, ?_⟩
    · rw [if_neg (by omega), if_pos (by omega)]
    · intro i hi
      unfold IdxDesignates
      omega

theorem resolveIdx_err {n : Nat} {k : Int} (h : ¬ InRange n k) :
    resolveIdx n k = .error .indexError := by
  unfold InRange at h
  unfold resolveIdx
  rw [if_neg (by omega), if_neg (by omega)]

theorem resolveAll_ok {n : Nat} (ks : List Int) (h : ∀ k ∈ ks, InRange n k) :
    ∃ js, resolveAll n ks = .ok js ∧ ∀ i, i < n → (i ∈ js ↔ ∃ k ∈ ks, IdxDesignates n k i) := by
  induction ks with
  | nil => exact ⟨[], rfl, by simp⟩
  | cons k ks ih =>
    obtain ⟨j, hj, -, hd⟩ := resolveIdx_ok (h k (by simp))
    obtain ⟨js, hjs, hds⟩ := ih fun k hk => h k (by simp [hk])
    refine ⟨j :: js, by simp [resolveAll, hj, hjs], ?_⟩
    intro i hi
    simp [hd i hi, hds i hi]

theorem resolveAll_err {n : Nat} (ks : List Int) (h : ∃ k ∈ ks, ¬ InRange n k) :
    resolveAll n ks = .error .indexError := by
  induction ks with
  | nil => simp at h
  | cons k ks ih =>
    by_cases hk : InRange n k
    · obtain ⟨j, hj, -, -⟩ := resolveIdx_ok hk
      have : ∃ k ∈ ks, ¬ InRange n k := by
        obtain ⟨k', hk', hn⟩ := h
        rcases List.mem_cons.mp hk' with rfl | hm
        · exact absurd hk hn
        · exact ⟨k', hm, hn⟩
      simp [resolveAll, hj, ih this]
    · simp [resolveAll, resolveIdx_err hk]

theorem mem_rangeFrom_pos (stop step : Int) (hs : 0 < step) (fuel : Nat) (a : Int) (i : Nat)
    (ha : 0 ≤ a) :
    i ∈ rangeFrom stop step fuel a ↔
      ∃ j : Nat, j < fuel ∧ (i : Int) = a + j * step ∧ a + j * step < stop := by
  induction fuel generalizing a with
  | zero => simp [rangeFrom]
  | succ fuel ih =>
    unfold rangeFrom
    by_cases h : a < stop
    · rw [if_pos (Or.inl ⟨hs, h⟩), List.mem_cons, ih (a + step) (by omega)]
      constructor
      · rintro (rfl | ⟨j, hj, h1, h2⟩)
        · exact ⟨0, by omega, by simp; omega, by simpa using h⟩
        · refine ⟨j + 1, by omega, ?_, ?_⟩ <;> push_cast <;> linarith
      · rintro ⟨j, hj, h1, h2⟩
        cases j with
        | zero => left; simp at h1; omega
        | succ j =>
          right
          refine ⟨j, by omega, ?_, ?_⟩ <;> push_cast at h1 h2 <;> linarith
    · rw [if_neg (by omega)]
      simp only [List.not_mem_nil, false_iff, not_exists, not_and, not_lt]
      intro j _ _
      have : 0 ≤ (j : Int) * step := by positivity
      omega

theorem mem_rangeFrom_neg (stop step : Int) (hs : step < 0) (hstop : -1 ≤ stop) (fuel : Nat)
    (a : Int) (i : Nat) :
    i ∈ rangeFrom stop step fuel a ↔
      ∃ j : Nat, j < fuel ∧ (i : Int) = a + j * step ∧ stop < a + j * step := by
  induction fuel generalizing a with
  | zero => simp [rangeFrom]
  | succ fuel ih =>
    unfold rangeFrom
    by_cases h : stop < a
    · rw [if_pos (Or.inr ⟨hs, h⟩), List.mem_cons, ih (a + step)]
      constructor
      · rintro (rfl | ⟨j, hj, h1, h2⟩)
        · exact ⟨0, by omega, by simp; omega, by simpa using h⟩
        · refine ⟨j + 1, by omega, ?_, ?_⟩ <;> push_cast <;> linarith
      · rintro ⟨j, hj, h1, h2⟩
        cases j with
        | zero => left; simp at h1; omega
        | succ j =>
          right
          refine ⟨j, by omega, ?_, ?_⟩ <;> push_cast at h1 h2 <;> linarith
    · rw [if_neg (by omega)]
      simp only [List.not_mem_nil, false_iff, not_exists, not_and, not_lt]
      intro j _ _
      have : (j : Int) * step ≤ 0 := mul_nonpos_of_nonneg_of_nonpos (by omega) (by omega)
      omega

theorem mem_slice (n : Nat) (start stop step : Option Int) (hst : step.getD 1 ≠ 0) (i : Nat)
    (hi : i < n) :
    i ∈ rangeFrom (sliceBounds n start stop (step.getD 1)).2 (step.getD 1) n
        (sliceBounds n start stop (step.getD 1)).1 ↔
      Designates n (.slice start stop step) i := by
  generalize hse : step.getD 1 = st at *
  rcases lt_or_gt_of_ne hst with hneg | hpos
  · rw [mem_rangeFrom_neg _ _ hneg]
    · simp only [Designates, hse, if_neg (show ¬ (0 : Int) < st by omega)]
      set a := (sliceBounds n start stop st).1 with ha
      set e := (sliceBounds n start stop st).2 with he
      have hae : a = max (-1) (startFromTop n start) := by
        rw [ha]
        cases start with
        | none => simp [sliceBounds, hneg, startFromTop]
        | some x =>
          simp only [sliceBounds, hneg, if_true, fromStart, startFromTop]
          split <;> omega
      have hee : (∀ x, stop = some x → fromStart n x < (i : Int)) ↔ e < i := by
        rw [he]
        cases stop with
        | none => simp [sliceBounds, hneg]; omega
        | some x =>
          simp only [sliceBounds, hneg, if_true, fromStart, Option.some.injEq, forall_eq']
          split <;> omega
      rw [hee]
      have hatop : startFromTop n start ≤ n - 1 := by
        cases start <;> simp [startFromTop]
      set a' := startFromTop n start with ha'
      constructor
      · rintro ⟨j, hj, h1, h2⟩
        have hle : (j : Int) * st ≤ 0 := mul_nonpos_of_nonneg_of_nonpos (by omega) (by omega)
        have haa : a = a' := by omega
        refine ⟨by omega, ⟨-j, ?_⟩, by omega⟩
        rw [← haa, h1]; ring
      · rintro ⟨h1, ⟨q, hq⟩, h2⟩
        have haa : a = a' := by omega
        have hq0 : q ≤ 0 := by
          by_contra hc
          have : st * q < 0 := mul_neg_of_neg_of_pos hneg (by omega)
          omega
        refine ⟨(-q).toNat, ?_, ?_, ?_⟩
        · have : -q ≤ a' - i := by rw [hq]; nlinarith
          omega
        · have : (((-q).toNat : Nat) : Int) = -q := by omega
          rw [this, haa]; linarith
        · have : (((-q).toNat : Nat) : Int) = -q := by omega
          rw [this, haa]; linarith
    · cases stop with
      | none => simp [sliceBounds, hneg]
      | some x =>
        simp only [sliceBounds, hneg, if_true]
        split <;> omega
  · have hnn : ¬ st < 0 := by omega
    rw [mem_rangeFrom_pos _ _ hpos]
    · simp only [Designates, hse, if_pos (show (0 : Int) < st by omega)]
      set a := (sliceBounds n start stop st).1 with ha
      set e := (sliceBounds n start stop st).2 with he
      have hae : a = min (n : Int) (max 0 (fromStart n (start.getD 0))) := by
        rw [ha]
        cases start with
        | none => simp [sliceBounds, hnn, fromStart]
        | some x =>
          simp only [sliceBounds, hnn, if_false, fromStart, Option.getD_some]
          split <;> omega
      have hee : (∀ x, stop = some x → (i : Int) < fromStart n x) ↔ i < e := by
        rw [he]
        cases stop with
        | none => simp [sliceBounds, hnn]; omega
        | some x =>
          simp only [sliceBounds, hnn, if_false, fromStart, Option.some.injEq, forall_eq']
          split <;> omega
      rw [hee]
      have hen : e ≤ n := by
        rw [he]
        cases stop with
        | none => simp [sliceBounds, hnn]
        | some x =>
          simp only [sliceBounds, hnn, if_false]
          split <;> omega
      set a' := max 0 (fromStart n (start.getD 0)) with ha'
      constructor
      · rintro ⟨j, hj, h1, h2⟩
        have hle : 0 ≤ (j : Int) * st := by positivity
        have haa : a = a' := by omega
        refine ⟨by omega, ⟨j, ?_⟩, by omega⟩
        rw [← haa, h1]; ring
      · rintro ⟨h1, ⟨q, hq⟩, h2⟩
        have haa : a = a' := by omega
        have hq0 : 0 ≤ q := by
          by_contra hc
          have : st * q < 0 := mul_neg_of_pos_of_neg hpos (by omega)
          omega
        refine ⟨q.toNat, ?_, ?_, ?_⟩
        · have : q ≤ i - a' := by rw [hq]; nlinarith
          omega
        · have : ((q.toNat : Nat) : Int) = q := by omega
          rw [this, haa]; linarith
        · have : ((q.toNat : Nat) : Int) = q := by omega
          rw [this, haa]; linarith
    · cases start with
      | none => simp [sliceBounds, hnn]
      | some x =>
        simp only [sliceBounds, hnn, if_false]
        split <;> omega

theorem resolveKey_ok {n : Nat} {key : Key} (h : ValidKey n key) :
    checkKey key = .ok () ∧ ∃ js, resolveKey n key = .ok js ∧
      ∀ i, i < n → (i ∈ js ↔ Designates n key i) := by
  cases key with
  | int k =>
    obtain ⟨j, hj, -, hd⟩ := resolveIdx_ok h
    exact ⟨rfl, [j], by simp [resolveKey, hj], fun i hi => by simpa [Designates] using hd i hi⟩
  | slice start stop step =>
    have hst : step.getD 1 ≠ 0 := by
      cases step with
      | none => simp
      | some x => simpa [ValidKey] using h
    refine ⟨rfl, rangeFrom (sliceBounds n start stop (step.getD 1)).2 (step.getD 1) n
        (sliceBounds n start stop (step.getD 1)).1, by simp only [resolveKey, if_neg hst], ?_⟩
    exact fun i hi => mem_slice n start stop step hst i hi
  | list ks =>
    obtain ⟨hn, hk⟩ := h
    have hno : ∀ e ∈ ks, e ≠ KeyElem.nonInt := by
      rintro e he rfl
      obtain ⟨k, hk', -⟩ := hk _ he
      cases hk'
    refine ⟨?_, ?_⟩
    · have : ks.any (fun k => decide (k = .nonInt)) = false := by
        simpa [List.any_eq_false] using hno
      simp [checkKey, this, hn]
    · have hr : ∀ k ∈ ks.filterMap KeyElem.toInt?, InRange n k := by
        intro k hkm
        rw [List.mem_filterMap] at hkm
        obtain ⟨e, he, hek⟩ := hkm
        obtain ⟨k', rfl, hin⟩ := hk e he
        simp [KeyElem.toInt?] at hek
        exact hek ▸ hin
      obtain ⟨js, hjs, hd⟩ := resolveAll_ok _ hr
      refine ⟨js, hjs, fun i hi => ?_⟩
      rw [hd i hi]
      simp only [Designates, List.mem_filterMap]
      constructor
      · rintro ⟨k, ⟨e, he, hek⟩, hdd⟩
        cases e with
        | int k' => simp [KeyElem.toInt?] at hek; exact ⟨k, hek ▸ he, hdd⟩
        | nonInt => simp [KeyElem.toInt?] at hek
      · rintro ⟨k, hkm, hdd⟩
        exact ⟨k, ⟨_, hkm, rfl⟩, hdd⟩
  | other => exact h.elim

end Verif.Bitmask

namespace Verif.Bitmask

open Verif

variable {M E A : Type}

/-- No unflushed in-place edit: the visible arrays are the originals through the mask. -/
def Clean (ms : List M) (es : List E) (bs : List A) (o : Obj M E A) : Prop :=
  o.op = some (ms, es) ∧ o.b = some bs ∧
    ∀ v, o.view = some v → v.modes = gather v.mask ms ∧ v.eigs = gather v.mask es ∧
      v.amps = gather v.mask bs

theorem Clean.ensure {n : Nat} {ms : List M} {es : List E} {bs : List A} {o o' : Obj M E A}
    {s : Spec M E A} (h : Clean ms es bs o) (hr : Rel n o s) (he : o.ensure = .ok o') :
    Clean ms es bs o' := by
  rcases o with ⟨op, b, view⟩
  obtain ⟨h1, h2, h3⟩ := h
  simp only at h1 h2
  subst h1 h2
  cases view with
  | some v =>
    simp [Obj.ensure] at he
    subst he
    exact ⟨rfl, rfl, h3⟩
  | none =>
    obtain ⟨ms', es', bs', e1, e2, l1, l2, l3, -⟩ := hr.ex
    simp at e1 e2
    obtain ⟨rfl, rfl⟩ := e1
    subst e2
    simp [Obj.ensure, Obj.allocate, newProxy, changeBitmask, maskRead, l1, l2, l3, bind,
      Except.bind, pure, Except.pure] at he
    subst he
    refine ⟨rfl, rfl, ?_⟩
    rintro v ⟨⟩
    exact ⟨rfl, rfl, rfl⟩

theorem Clean.setMask {n : Nat} {ms : List M} {es : List E} {bs : List A} {o : Obj M E A}
    {s : Spec M E A} (h : Clean ms es bs o) (hr : Rel n o s) (value : MaskVal) :
    Clean ms es bs (o.setMask value).2 := by
  obtain ⟨ms', es', bs', v, he, hr', h1, h2, h3, l0, l1, l2, l3, hs⟩ := hr.ensure
  have hc := h.ensure hr he
  obtain ⟨e1, e2, e3⟩ := hc
  simp at e1 e2
  obtain ⟨rfl, rfl⟩ := e1
  subst e2
  obtain ⟨g1, g2, g3⟩ := e3 v rfl
  have hop := h.1
  cases value with
  | nonBool => simpa [Obj.setMask, Obj.fitted, hop] using h
  | boolNd shape hsh =>
    have : shape ≠ [v.mask.length] := by
      rintro rfl
      simp at hsh
    have e : (o.setMask (.boolNd shape hsh)).2 = ⟨some (ms', es'), some bs', some v⟩ := by
      simp [Obj.setMask, Obj.fitted, hop, Obj.getMask, he, bind, Except.bind, pure, Except.pure,
        MaskVal.shape, this]
    rw [e]
    exact ⟨rfl, rfl, e3⟩
  | bool1 l =>
    by_cases hl : l.length = v.mask.length
    · have hcb := Rel.changeBitmask h1 h2 h3 l0 l1 l2 l3 l (by omega)
      simp only [Obj.setMask, Obj.fitted, hop, Obj.getMask, he, bind,
        Except.bind, pure, Except.pure, MaskVal.shape, hl, hcb, ne_eq, not_true_eq_false,
        Option.isSome_some, Bool.true_eq_false, if_false]
      rw [g1, g2, g3]
      simp only [scatter_gather]
      refine ⟨rfl, rfl, ?_⟩
      rintro w ⟨⟩
      exact ⟨rfl, rfl, rfl⟩
    · simp only [Obj.setMask, Obj.fitted, hop, Obj.getMask, he, bind,
        Except.bind, pure, Except.pure, MaskVal.shape]
      simp [hl]
      exact ⟨rfl, rfl, e3⟩

theorem Clean.run {n : Nat} {ms : List M} {es : List E} {bs : List A} {o : Obj M E A}
    {s : Spec M E A} (h : Clean ms es bs o) (hr : Rel n o s) (vs : List MaskVal) :
    Clean ms es bs (o.run (vs.map .setMask)).2 := by
  induction vs generalizing o s with
  | nil => exact h
  | cons v vs ih =>
    exact ih (h.setMask hr v) (hr.step (.setMask v)).2

theorem Rel.getItem_ok {n : Nat} {o : Obj M E A} {s : Spec M E A} (hr : Rel n o s) {key : Key}
    (hk : ValidKey n key) :
    ∃ c ms es bs mask o', o.getItem key = (.ok c, o') ∧
      o.ensure = .ok o' ∧ Rel n o' s ∧ o'.op = some (ms, es) ∧ o'.b = some bs ∧
      c.op = some (ms, es) ∧ c.b = some bs ∧
      Rel n c ⟨ms, es, bs, mask⟩ ∧ mask.length = n ∧
      ∀ i, i < n → (mask[i]? = some true ↔ Designates n key i) := by
  obtain ⟨ms, es, bs, v, he, hr', h1, h2, h3, l0, l1, l2, l3, hs⟩ := hr.ensure
  obtain ⟨hck, js, hjs, hd⟩ := resolveKey_ok hk
  obtain ⟨ms0, es0, bs0, hop, -, -⟩ := hr.ex
  -- the copy before its mask is set: everything active
  have hr2 : Rel n (⟨some (ms, es), some bs, none⟩ : Obj M E A)
      ⟨ms, es, bs, List.replicate n true⟩ := ⟨ms, es, bs, rfl, rfl, h1, h2, h3, rfl⟩
  obtain ⟨ms2, es2, bs2, v2, he2, hr3, -⟩ := hr2.ensure
  have hcl : Clean ms es bs (⟨some (ms, es), some bs, none⟩ : Obj M E A) :=
    ⟨rfl, rfl, by simp⟩
  have hcl2 := hcl.ensure hr2 he2
  have hcl3 := hcl2.setMask hr3 (.bool1 (setTrue n js))
  have hst := hr3.step (.setMask (.bool1 (setTrue n js)))
  simp only [Obj.step, Spec.step, length_setTrue, List.length_replicate, if_true] at hst
  have hall : (⟨some (ms, es), some bs, some v⟩ : Obj M E A).allocate =
      .ok ⟨some (ms2, es2), some bs2, some v2⟩ := he2
  refine ⟨_, ms, es, bs, setTrue n js, ⟨some (ms, es), some bs, some v⟩, ?_, he, hr', rfl, rfl,
    hcl3.1, hcl3.2.1, hst.2, length_setTrue n js, ?_⟩
  · simp only [Obj.getItem, hck, Obj.getMask, hop, he, bind, Except.bind, pure, Except.pure, l0,
      hjs, hall]
    rcases hx : (⟨some (ms2, es2), some bs2, some v2⟩ : Obj M E A).setMask
      (.bool1 (setTrue n js)) with ⟨r, c⟩
    rw [hx] at hst
    have : r = .ok () := hst.1
    subst this
    rfl
  · intro i hi
    rw [setTrue_getElem? n js i hi]
    simpa using hd i hi

theorem Rel.getItem_err {n : Nat} {o : Obj M E A} {s : Spec M E A} (hr : Rel n o s) {key : Key}
    {e : PyErr} (hk : checkKey key = .error e ∨ (checkKey key = .ok () ∧ resolveKey n key = .error e)) :
    (o.getItem key).1 = .error e ∧ Rel n (o.getItem key).2 s := by
  obtain ⟨ms, es, bs, v, he, hr', h1, h2, h3, l0, l1, l2, l3, hs⟩ := hr.ensure
  obtain ⟨ms0, es0, bs0, hop, -, -⟩ := hr.ex
  rcases hk with hk | ⟨hk, hk2⟩
  · simp only [Obj.getItem, hk, true_and]
    exact hr
  · simp only [Obj.getItem, hk, Obj.getMask, hop, he, bind, Except.bind, pure, Except.pure, l0,
      hk2, true_and]
    exact hr'

end Verif.Bitmask
