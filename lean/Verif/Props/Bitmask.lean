import Verif.Lemmas.GetItem

/-!
# Properties C01–C05: mode selection
-/

namespace Verif.Bitmask

open Verif

variable {M E A : Type}

/-- **C02** (in-place edits survive mask changes). Let an instance have just been fitted with
`n` modes. Whatever history of mask assignments (valid or not) and in-place writes follows,
every action has the outcome (success or exception) prescribed by the abstract machine of
`Spec/Bitmask.lean`, in which a write to the `k`-th visible entry changes exactly the full
entry at the `k`-th active index, and afterwards the mask, modes, eigs and amplitudes read
by the user are those of the abstract machine. -/
theorem C02_history_refines_spec (n : Nat) (ms : List M) (es : List E) (bs : List A)
    (hm : ms.length = n) (he : es.length = n) (hb : bs.length = n) (ops : List (Op M E A)) :
    ((afterFit ms es bs).run ops).1 = ((Spec.afterFit ms es bs).run ops).1 ∧
      observe ((afterFit ms es bs).run ops).2 = ((Spec.afterFit ms es bs).run ops).2.observe := by
  have h := (Rel.init ms es bs hm he hb).run ops
  exact ⟨h.1, h.2.observe⟩

/-- Non-trivial instance of C02: mode 0 is edited while mode 1 is inactive, then only mode 1 is
selected, edited, and all are selected again. -/
example :
    observe ((afterFit (E := Nat) (A := Nat) ["a", "b", "c"] [1, 2, 3] [10, 20, 30]).run
      [.setMask (.bool1 [true, false, true]), .writeEig 1 7, .writeEig 5 9,
       .setMask (.bool1 [false, true, false]), .writeAmp 0 21, .setMask .nonBool,
       .setMask (.bool1 [true, true, true])]).2 =
    ⟨.ok [true, true, true], .ok (some ["a", "b", "c"]), .ok (some [1, 2, 7]),
      .ok (some [10, 21, 30])⟩ := by decide

/-- **C01** (mode selection round-trips). After any sequence of mask assignments (valid or
not), assigning the all-`True` mask succeeds and modes, eigs and amplitudes read exactly as
after `fit`. -/
theorem C01_mask_history_roundtrip (n : Nat) (ms : List M) (es : List E) (bs : List A)
    (hm : ms.length = n) (he : es.length = n) (hb : bs.length = n) (vs : List MaskVal) :
    (((afterFit ms es bs).run (vs.map .setMask)).2.setMask
        (.bool1 (List.replicate n true))).1 = .ok () ∧
    observe (((afterFit ms es bs).run (vs.map .setMask)).2.setMask
        (.bool1 (List.replicate n true))).2 =
      ⟨.ok (List.replicate n true), .ok (some ms), .ok (some es), .ok (some bs)⟩ := by
  have hr := (Rel.init ms es bs hm he hb).run (vs.map .setMask)
  have hc : Clean ms es bs (afterFit ms es bs) := ⟨rfl, rfl, by simp [afterFit]⟩
  have hcl := hc.run (Rel.init ms es bs hm he hb) vs
  -- masks of the abstract state keep length n and the full lists never change
  have key : ∀ (vs : List MaskVal) (s : Spec M E A), s.mask.length = n →
      (s.run (vs.map .setMask)).2.mask.length = n ∧
      (s.run (vs.map .setMask)).2.modes = s.modes ∧ (s.run (vs.map .setMask)).2.eigs = s.eigs ∧
      (s.run (vs.map .setMask)).2.amps = s.amps := by
    intro vs
    induction vs with
    | nil => intro s hs; simp [Spec.run, hs]
    | cons v vs ih =>
      intro s hs
      simp only [List.map_cons, Spec.run]
      have h1 : (s.step (.setMask v)).2.mask.length = n ∧ (s.step (.setMask v)).2.modes = s.modes ∧
          (s.step (.setMask v)).2.eigs = s.eigs ∧ (s.step (.setMask v)).2.amps = s.amps := by
        cases v with
        | nonBool => simp [Spec.step, hs]
        | boolNd _ _ => simp [Spec.step, hs]
        | bool1 l =>
          by_cases hl : l.length = s.mask.length
          · simp [Spec.step, hl, hs]
          · have hl' : ¬ l.length = n := hs ▸ hl
            simp [Spec.step, hl', hs]
      obtain ⟨a1, a2, a3, a4⟩ := ih _ h1.1
      exact ⟨a1, a2.trans h1.2.1, a3.trans h1.2.2.1, a4.trans h1.2.2.2⟩
  obtain ⟨k1, k2, k3, k4⟩ := key vs (Spec.afterFit ms es bs) (by simp [Spec.afterFit, he])
  have hs := hr.2.step (.setMask (.bool1 (List.replicate n true)))
  simp only [Obj.step, Spec.step, k1, List.length_replicate, if_true] at hs
  refine ⟨hs.1, ?_⟩
  rw [hs.2.observe]
  have vis : ∀ {α : Type} (xs : List α), xs.length = n → visible (List.replicate n true) xs = xs := by
    intro α xs hx
    rw [← gather_eq_visible _ _ (by simp [hx]), ← hx]
    exact gather_true xs
  simp only [Spec.observe, k2, k3, k4]
  simp only [Spec.afterFit]
  rw [vis ms hm, vis es he, vis bs hb]

example := C01_mask_history_roundtrip 2 ["a", "b"] [1, 2] [3, 4] rfl rfl rfl
  [.bool1 [true, false], .nonBool, .bool1 [false, false], .bool1 [true]]

/-- **C03** (alignment). After any history, the mask has one entry per mode, the three visible
arrays have as many entries as there are `True` entries in it, and the `k`-th mode, eigenvalue
and amplitude visible are those of one and the same full index, the `k`-th active one, where
the full triples only ever change by in-place writes. -/
theorem C03_visible_aligned (n : Nat) (ms : List M) (es : List E) (bs : List A)
    (hm : ms.length = n) (he : es.length = n) (hb : bs.length = n) (ops : List (Op M E A)) :
    ∃ (mask : List Bool) (fm : List M) (fe : List E) (fa : List A) (vm : List M) (ve : List E)
        (va : List A),
      observe ((afterFit ms es bs).run ops).2 =
        ⟨.ok mask, .ok (some vm), .ok (some ve), .ok (some va)⟩ ∧
      mask.length = n ∧ fm.length = n ∧ fe.length = n ∧ fa.length = n ∧
      vm.length = mask.count true ∧ ve.length = mask.count true ∧ va.length = mask.count true ∧
      (∀ k i : Nat, (activeIdx mask)[k]? = some i →
        vm[k]? = fm[i]? ∧ ve[k]? = fe[i]? ∧ va[k]? = fa[i]?) ∧
      ((∀ op ∈ ops, ∃ v, op = .setMask v) → fm = ms ∧ fe = es ∧ fa = bs) := by
  have hr := (Rel.init ms es bs hm he hb).run ops
  obtain ⟨ms', es', bs', v, -, -, h1, h2, h3, l0, l1, l2, l3, hs⟩ := hr.2.ensure
  refine ⟨v.mask, scatter v.mask ms' v.modes, scatter v.mask es' v.eigs,
    scatter v.mask bs' v.amps, v.modes, v.eigs, v.amps, ?_, l0, by rw [length_scatter, h1],
    by rw [length_scatter, h2], by rw [length_scatter, h3], l1, l2, l3, ?_, ?_⟩
  · rw [hr.2.observe, hs]
    simp only [Spec.observe]
    rw [← gather_eq_visible _ _ (by rw [length_scatter]; omega),
      ← gather_eq_visible _ _ (by rw [length_scatter]; omega),
      ← gather_eq_visible _ _ (by rw [length_scatter]; omega),
      gather_scatter _ _ _ (by omega) l1, gather_scatter _ _ _ (by omega) l2,
      gather_scatter _ _ _ (by omega) l3]
  · intro k i hi
    have aux : ∀ {α : Type} (xs ys : List α), v.mask.length = xs.length →
        ys.length = v.mask.count true → ys[k]? = (scatter v.mask xs ys)[i]? := by
      intro α xs ys hx hy
      have hlt : k < ys.length := by
        rw [hy, ← length_activeIdx]; exact (List.getElem?_eq_some_iff.mp hi).1
      have hii : i < (scatter v.mask xs ys).length := by
        have : i ∈ activeIdx v.mask := List.mem_of_getElem? hi
        simp only [activeIdx, List.mem_filter, List.mem_range] at this
        rw [length_scatter]; omega
      have hset := scatter_set v.mask xs ys k (ys[k]'hlt) hx hy i hi
      have hself : ys.set k (ys[k]'hlt) = ys := by simp
      rw [hself] at hset
      rw [hset, List.getElem?_eq_getElem hlt, List.getElem?_set_self]
      exact hii
    exact ⟨aux _ _ (by omega) l1, aux _ _ (by omega) l2, aux _ _ (by omega) l3⟩
  · intro hops
    have key : ∀ (ops : List (Op M E A)) (s : Spec M E A), (∀ op ∈ ops, ∃ v, op = .setMask v) →
        (s.run ops).2.modes = s.modes ∧ (s.run ops).2.eigs = s.eigs ∧
        (s.run ops).2.amps = s.amps := by
      intro ops
      induction ops with
      | nil => intro s _; simp [Spec.run]
      | cons op ops ih =>
        intro s h
        obtain ⟨w, rfl⟩ := h op (by simp)
        simp only [Spec.run]
        have h1 : (s.step (.setMask w)).2.modes = s.modes ∧
            (s.step (.setMask w)).2.eigs = s.eigs ∧ (s.step (.setMask w)).2.amps = s.amps := by
          cases w with
          | nonBool => simp [Spec.step]
          | boolNd _ _ => simp [Spec.step]
          | bool1 l => by_cases hl : l.length = s.mask.length <;> simp [Spec.step, hl]
        obtain ⟨a2, a3, a4⟩ := ih (s.step (.setMask w)).2 fun op ho => h op (by simp [ho])
        exact ⟨a2.trans h1.1, a3.trans h1.2.1, a4.trans h1.2.2⟩
    obtain ⟨k1, k2, k3⟩ := key ops (Spec.afterFit ms es bs) hops
    rw [hs] at k1 k2 k3
    exact ⟨k1, k2, k3⟩

example :
    observe ((afterFit (E := Nat) (A := Nat) ["a", "b", "c"] [1, 2, 3] [10, 20, 30]).run
      [.setMask (.bool1 [true, false, true])]).2 =
    ⟨.ok [true, false, true], .ok (some ["a", "c"]), .ok (some [1, 3]), .ok (some [10, 30])⟩ := by
  decide

/-- **C04** (invalid mask assignments are rejected without effect), for an instance with `n`
modes after any history: non-boolean values raise `RuntimeError`, boolean values of another
shape raise `ValueError`, and in both cases everything the user can read is unchanged;
a boolean vector with one entry per mode is accepted and becomes the mask. -/
theorem C04_setter_guards (n : Nat) (ms : List M) (es : List E) (bs : List A)
    (hm : ms.length = n) (he : es.length = n) (hb : bs.length = n) (ops : List (Op M E A)) :
    let o := ((afterFit ms es bs).run ops).2
    ((o.setMask .nonBool).1 = .error .runtimeError ∧
      observe (o.setMask .nonBool).2 = observe o) ∧
    (∀ shape h, (o.setMask (.boolNd shape h)).1 = .error .valueError ∧
      observe (o.setMask (.boolNd shape h)).2 = observe o) ∧
    (∀ l : List Bool, l.length ≠ n → (o.setMask (.bool1 l)).1 = .error .valueError ∧
      observe (o.setMask (.bool1 l)).2 = observe o) ∧
    (∀ l : List Bool, l.length = n → (o.setMask (.bool1 l)).1 = .ok () ∧
      (observe (o.setMask (.bool1 l)).2).mask = .ok l) := by
  intro o
  have hr := ((Rel.init ms es bs hm he hb).run ops).2
  have hmask : ((Spec.afterFit ms es bs).run ops).2.mask.length = n := by
    obtain ⟨_, _, _, v, -, -, -, -, -, l0, -, -, -, hs⟩ := hr.ensure
    rw [hs]; exact l0
  refine ⟨?_, ?_, ?_, ?_⟩
  · have h := hr.step (.setMask .nonBool)
    exact ⟨h.1, h.2.observe.trans hr.observe.symm⟩
  · intro shape hsh
    have h := hr.step (.setMask (.boolNd shape hsh))
    exact ⟨h.1, h.2.observe.trans hr.observe.symm⟩
  · intro l hl
    have h := hr.step (.setMask (.bool1 l))
    simp only [Spec.step, hmask, if_neg hl] at h
    exact ⟨h.1, h.2.observe.trans hr.observe.symm⟩
  · intro l hl
    have h := hr.step (.setMask (.bool1 l))
    simp only [Spec.step, hmask, if_pos hl] at h
    exact ⟨h.1, by rw [show (o.setMask (.bool1 l)).2 = (o.step (.setMask (.bool1 l))).2 from rfl,
      h.2.observe]; rfl⟩

/-- **C04**, before `fit`: every assignment raises `RuntimeError` and changes nothing, and so
does reading the mask. -/
theorem C04_setter_before_fit (o : Obj M E A) (h : o.op = none) (v : MaskVal) :
    o.setMask v = (.error .runtimeError, o) ∧ o.getMask = .error .runtimeError := by
  simp [Obj.setMask, Obj.fitted, h, Obj.getMask]

example : ((⟨none, none, none⟩ : Obj Nat Nat Nat).setMask (.bool1 [true])).1 =
    .error .runtimeError := by decide

/-- **C05** (`dmd[key]`), accepted keys. For an instance with `n` modes after any history,
a valid key yields an instance with exactly the designated modes active; what can be read
from the original (mask included) is unchanged, and so are the arrays shared by the two. -/
theorem C05_getitem (n : Nat) (ms : List M) (es : List E) (bs : List A)
    (hm : ms.length = n) (he : es.length = n) (hb : bs.length = n) (ops : List (Op M E A))
    (key : Key) (hk : ValidKey n key) :
    let o := ((afterFit ms es bs).run ops).2
    ∃ c o' mask, o.getItem key = (.ok c, o') ∧ observe o' = observe o ∧
      (observe c).mask = .ok mask ∧ mask.length = n ∧
      (∀ i, i < n → (mask[i]? = some true ↔ Designates n key i)) ∧
      c.op = o'.op ∧ c.b = o'.b := by
  intro o
  have hr := ((Rel.init ms es bs hm he hb).run ops).2
  obtain ⟨c, ms', es', bs', mask, o', h1, -, h3, h4, h5, h6, h7, h8, h9, h10⟩ := hr.getItem_ok hk
  refine ⟨c, o', mask, h1, h3.observe.trans hr.observe.symm, ?_, h9, h10, h6.trans h4.symm,
    h7.trans h5.symm⟩
  rw [h8.observe]; rfl

/-- **C05**, values: when the arrays were not edited in place, the modes, eigs and amplitudes
of `dmd[key]` are those of `fit` at the designated indexes, in increasing order, whatever
masks were set on `dmd` before. -/
theorem C05_getitem_values (n : Nat) (ms : List M) (es : List E) (bs : List A)
    (hm : ms.length = n) (he : es.length = n) (hb : bs.length = n) (vs : List MaskVal)
    (key : Key) (hk : ValidKey n key) :
    let o := ((afterFit ms es bs).run (vs.map .setMask)).2
    ∃ c o' mask, o.getItem key = (.ok c, o') ∧ mask.length = n ∧
      (∀ i, i < n → (mask[i]? = some true ↔ Designates n key i)) ∧
      observe c = ⟨.ok mask, .ok (some (visible mask ms)), .ok (some (visible mask es)),
        .ok (some (visible mask bs))⟩ := by
  intro o
  have hr := ((Rel.init ms es bs hm he hb).run (vs.map .setMask)).2
  have hc0 : Clean ms es bs (afterFit ms es bs) := ⟨rfl, rfl, by simp [afterFit]⟩
  have hcl := hc0.run (Rel.init ms es bs hm he hb) vs
  obtain ⟨c, ms', es', bs', mask, o', h1, h2, h3, h4, h5, h6, h7, h8, h9, h10⟩ := hr.getItem_ok hk
  have hcl' := hcl.ensure hr h2
  obtain ⟨e1, e2, -⟩ := hcl'
  rw [h4] at e1
  rw [h5] at e2
  simp only [Option.some.injEq, Prod.mk.injEq] at e1 e2
  obtain ⟨rfl, rfl⟩ := e1
  subst e2
  exact ⟨c, o', mask, h1, h9, h10, h8.observe⟩

/-- **C05**, rejected keys: lists with non-`int` elements or repetitions, keys of other types
and slices of step zero raise `ValueError`; integers (alone or in a list) outside `[-n, n)`
raise `IndexError`. Nothing the user can read from the original changes. -/
theorem C05_getitem_rejects (n : Nat) (ms : List M) (es : List E) (bs : List A)
    (hm : ms.length = n) (he : es.length = n) (hb : bs.length = n) (ops : List (Op M E A)) :
    let o := ((afterFit ms es bs).run ops).2
    ((o.getItem .other).1 = .error .valueError ∧ observe (o.getItem .other).2 = observe o) ∧
    (∀ ks, KeyElem.nonInt ∈ ks → (o.getItem (.list ks)).1 = .error .valueError ∧
      observe (o.getItem (.list ks)).2 = observe o) ∧
    (∀ ks, ¬ ks.Nodup → (o.getItem (.list ks)).1 = .error .valueError ∧
      observe (o.getItem (.list ks)).2 = observe o) ∧
    (∀ a b, (o.getItem (.slice a b (some 0))).1 = .error .valueError ∧
      observe (o.getItem (.slice a b (some 0))).2 = observe o) ∧
    (∀ k, ¬ InRange n k → (o.getItem (.int k)).1 = .error .indexError ∧
      observe (o.getItem (.int k)).2 = observe o) ∧
    (∀ ks : List Int, ks.Nodup → (∃ k ∈ ks, ¬ InRange n k) →
      (o.getItem (.list (ks.map .int))).1 = .error .indexError ∧
      observe (o.getItem (.list (ks.map .int))).2 = observe o) := by
  intro o
  have hr := ((Rel.init ms es bs hm he hb).run ops).2
  have fin : ∀ {key : Key} {e : PyErr},
      (checkKey key = .error e ∨ (checkKey key = .ok () ∧ resolveKey n key = .error e)) →
      (o.getItem key).1 = .error e ∧ observe (o.getItem key).2 = observe o := by
    intro key e h
    have := hr.getItem_err h
    exact ⟨this.1, this.2.observe.trans hr.observe.symm⟩
  refine ⟨fin (Or.inl rfl), ?_, ?_, ?_, ?_, ?_⟩
  · intro ks hks
    refine fin (Or.inl ?_)
    have : ks.any (fun k => decide (k = .nonInt)) = true := by
      rw [List.any_eq_true]; exact ⟨_, hks, by simp⟩
    simp [checkKey, this]
  · intro ks hks
    refine fin (Or.inl ?_)
    simp [checkKey, hks]
  · intro a b
    exact fin (Or.inr ⟨rfl, by simp [resolveKey]⟩)
  · intro k hk
    exact fin (Or.inr ⟨rfl, by simp [resolveKey, resolveIdx_err hk]⟩)
  · intro ks hnd hk
    refine fin (Or.inr ⟨?_, ?_⟩)
    · have h1 : (ks.map KeyElem.int).any (fun k => decide (k = .nonInt)) = false := by
        simp [List.any_eq_false]
      have h2 : (ks.map KeyElem.int).Nodup := by
        rw [List.Nodup, List.pairwise_map]
        exact hnd.imp fun h e => h (KeyElem.int.inj e)
      simp [checkKey, h1, h2]
    · have : (ks.map KeyElem.int).filterMap KeyElem.toInt? = ks := by
        rw [List.filterMap_map]
        exact List.filterMap_some
      simp only [resolveKey, this]
      exact resolveAll_err ks hk

/-- Instances of C05: a negative-step slice, a list with a negative index (on a masked
instance), and the rejected keys. -/
example :
    let o := ((afterFit (E := Nat) (A := Nat) ["a", "b", "c", "d", "e"] [1, 2, 3, 4, 5] [10, 20, 30, 40, 50]).run
      [.setMask (.bool1 [true, false, true, false, false])]).2
    ((o.getItem (.slice (some (-1)) none (some (-2)))).1.map observe =
      .ok ⟨.ok [true, false, true, false, true], .ok (some ["a", "c", "e"]),
        .ok (some [1, 3, 5]), .ok (some [10, 30, 50])⟩) ∧
    ((o.getItem (.list [.int 1, .int (-1)])).1.map observe =
      .ok ⟨.ok [false, true, false, false, true], .ok (some ["b", "e"]),
        .ok (some [2, 5]), .ok (some [20, 50])⟩) ∧
    (o.getItem (.list [.int 1, .int 1])).1 = .error .valueError ∧
    (o.getItem (.int 5)).1 = .error .indexError := by decide

/-- The documented `np.ndarray` keys of numpy integers are rejected: their elements are not
instances of `int` (disagreement D01 in DESIGN.md). -/
theorem C05_ndarray_keys_false :
    ∃ (o : Obj Nat Nat Nat) (ks : List KeyElem), o = afterFit [1, 2] [3, 4] [5, 6] ∧
      ks = [.nonInt, .nonInt] ∧ (o.getItem (.list ks)).1 = .error .valueError :=
  ⟨_, _, rfl, rfl, by decide⟩

/-- An in-place edit that has not yet been written back by a mask change is not seen by
`dmd[key]` (the documentation declares such uses unspecified; D02 in DESIGN.md): after
`dmd.eigs[0] = 9`, `dmd.eigs` starts with 9 but `dmd[0].eigs` is still `[3]`. -/
theorem C05_getitem_sees_edits_false :
    ∃ o : Obj Nat Nat Nat, o = ((afterFit [1, 2] [3, 4] [5, 6]).run [.writeEig 0 9]).2 ∧
      (observe o).eigs = .ok (some [9, 4]) ∧
      (o.getItem (.int 0)).1.map (fun c => (observe c).eigs) = .ok (.ok (some [3])) :=
  ⟨_, rfl, by decide, by decide⟩

end Verif.Bitmask
