import Verif.Model.BopStd
import Verif.Lemmas.GetItem

/-!
# Property C129: the standard deviations of BOP-DMD belong to the modes shown
-/

set_option autoImplicit false

namespace Verif.BopStd

open Verif Bitmask

variable {M E A MS S : Type}

theorem gets {n : ℕ} {o : Obj M E A} {s : Spec M E A} (h : Rel n o s) :
    o.op ≠ none ∧ s.mask.length = n ∧ s.modes.length = n ∧ s.eigs.length = n ∧ s.amps.length = n ∧
    ∃ o', Rel n o' s ∧ o.getModes = .ok (some (visible s.mask s.modes), o') ∧
      o.getEigs = .ok (some (visible s.mask s.eigs), o') ∧
      o.getAmps = .ok (some (visible s.mask s.amps), o') := by
  obtain ⟨ms, es, bs, v, he, hr, h1, h2, h3, l0, l1, l2, l3, rfl⟩ := h.ensure
  obtain ⟨ms', es', bs', hop, hb, -⟩ := h.ex
  have g1 := gather_scatter v.mask ms v.modes (by omega) l1
  have g2 := gather_scatter v.mask es v.eigs (by omega) l2
  have g3 := gather_scatter v.mask bs v.amps (by omega) l3
  rw [gather_eq_visible _ _ (by rw [length_scatter]; omega)] at g1 g2 g3
  refine ⟨by simp [hop], l0, by simp [length_scatter, h1], by simp [length_scatter, h2],
    by simp [length_scatter, h3], _, hr, ?_, ?_, ?_⟩ <;>
  simp [Obj.getModes, Obj.getEigs, Obj.getAmps, hop, he, g1, g2, g3, bind, Except.bind, pure, Except.pure]

theorem visible_get {α : Type} (m : List Bool) (xs : List α) (h : m.length = xs.length) (k i : ℕ)
    (hk : (activeIdx m)[k]? = some i) : (visible m xs)[k]? = xs[i]? := by
  have hall : ∀ j ∈ activeIdx m, ∃ x, xs[j]? = some x := by
    intro j hj
    simp only [activeIdx, List.mem_filter, List.mem_range] at hj
    exact ⟨_, List.getElem?_eq_getElem (by omega)⟩
  unfold visible
  generalize activeIdx m = l at hk hall
  induction l generalizing k with
  | nil => simp at hk
  | cons a l ih =>
    obtain ⟨x, hx⟩ := hall a (by simp)
    rw [List.filterMap_cons_some hx]
    cases k with
    | zero => simp at hk; subst hk; simp [hx]
    | succ k => simpa using ih k (by simpa using hk) fun j hj => hall j (by simp [hj])

theorem visible_length {α : Type} (m : List Bool) (xs : List α) (h : m.length = xs.length) :
    (visible m xs).length = m.count true := by
  rw [← gather_eq_visible m xs h, length_gather m xs h]

theorem visible_all {α : Type} (xs : List α) (n : ℕ) (h : xs.length = n) :
    visible (List.replicate n true) xs = xs := by
  rw [← gather_eq_visible _ _ (by simp [h]), ← h, gather_true]

theorem count_eq (m : List Bool) : m.count true = m.length ↔ m = List.replicate m.length true := by
  rw [List.count_eq_length]
  constructor
  · intro h
    exact List.eq_replicate_iff.mpr ⟨rfl, fun b hb => (h b hb).symm⟩
  · intro h b hb
    rw [h] at hb
    exact (List.eq_of_mem_replicate hb).symm

section
variable (n : ℕ) (ms : List M) (es : List E) (bs : List A)

/-- **C129**, in part: as long as all modes are active, whatever was selected or edited before, the
circle around the eigenvalue `i` has the deviation of the eigenvalue `i` as its radius, the deviation
drawn below the mode `i` is that of the mode `i`, the modes come in the order of `argsort`, and `forecast`
has fitting shapes. Missing: any other selection (`C129_circles_false`, `C129_modes_false`,
`C129_getitem_false`, `C129_forecast_false`). -/
theorem C129_all_active_partial (hm : ms.length = n) (he : es.length = n) (hb : bs.length = n)
    (ops : List (Op M E A)) (sd : Std MS S) (h1 : sd.modes.length = n) (h2 : sd.eigs.length = n)
    (h3 : sd.amps.length = n) (argsort : List A → List ℕ)
    (hs : ∀ l, (argsort l).Perm (List.range l.length)) :
    let o : Bop M E A MS S := ⟨((afterFit ms es bs).run ops).2, some sd⟩
    (observe o.obj).mask = .ok (List.replicate n true) →
    ∃ fm fe fa, observe o.obj = ⟨.ok (List.replicate n true), .ok (some fm), .ok (some fe), .ok (some fa)⟩ ∧
      (∃ c, o.circles = .ok c ∧ c.length = n ∧ ∀ i < n, ∃ e d, fe[i]? = some e ∧ sd.eigs[i]? = some d ∧
        c[i]? = some (e, d)) ∧
      (∃ p, o.pairs argsort = .ok p ∧ p.length = n ∧ ∀ (k i : ℕ), (argsort fa)[k]? = some i →
        ∃ m d, fm[i]? = some m ∧ sd.modes[i]? = some d ∧ p[k]? = some (m, d)) ∧
      o.forecastShapes = .ok () := by
  intro o hmask
  have hr := ((Rel.init ms es bs hm he hb).run ops).2
  obtain ⟨hop, k0, k1, k2, k3, o', hr', g1, g2, g3⟩ := gets hr
  obtain ⟨-, -, -, -, -, o'', hr'', -, g2', g3'⟩ := gets hr'
  obtain ⟨-, -, -, -, -, o3, -, -, -, g3''⟩ := gets hr''
  have hobs := hr.observe
  rw [show observe o.obj = _ from hobs] at hmask
  simp only [Spec.observe, Except.ok.injEq] at hmask
  generalize ((Spec.afterFit ms es bs).run ops).2 = s at *
  obtain ⟨opv, hopv⟩ := Option.ne_none_iff_exists'.mp hop
  rw [hmask] at g1 g2 g3 g2' g3' g3''
  rw [visible_all _ _ k1] at g1
  rw [visible_all _ _ k2] at g2 g2'
  rw [visible_all _ _ k3] at g3 g3' g3''
  have hget : o.getStd = .ok (some sd) := by
    simp only [Bop.getStd, o, hopv]
  refine ⟨s.modes, s.eigs, s.amps, ?_, ⟨s.eigs.zip sd.eigs, ?_, ?_, ?_⟩, ?_, ?_⟩
  · rw [show observe o.obj = _ from hobs, Spec.observe, hmask, visible_all _ _ k1, visible_all _ _ k2,
      visible_all _ _ k3]
  · simp only [Bop.circles, hget, bind, Except.bind]
    rw [show o.obj.getEigs = _ from g2]
  · simp [k2, h2]
  · intro i hi
    refine ⟨s.eigs[i]'(by omega), sd.eigs[i]'(by omega), by simp, by simp, ?_⟩
    rw [List.getElem?_eq_getElem (by simp; omega)]
    simp
  · have hlt : ∀ i ∈ argsort s.amps, i < n := fun i hi => by
      have := (hs s.amps).mem_iff.mp hi
      simp only [List.mem_range] at this
      omega
    have hpick : ∀ i (hi : i < n), pick s.modes sd.modes i =
        .ok (s.modes[i]'(by omega), sd.modes[i]'(by omega)) := fun i hi => by
      simp only [pick, List.getElem?_eq_getElem (show i < s.modes.length by omega),
        List.getElem?_eq_getElem (show i < sd.modes.length by omega)]
    have hmap : ∀ l : List ℕ, (∀ i ∈ l, i < n) → ∃ p, l.mapM (pick s.modes sd.modes) = .ok p ∧
        p.length = l.length ∧ ∀ (k i : ℕ), l[k]? = some i →
          ∃ m d, s.modes[i]? = some m ∧ sd.modes[i]? = some d ∧ p[k]? = some (m, d) := by
      intro l
      induction l with
      | nil => exact fun _ => ⟨[], rfl, rfl, by simp⟩
      | cons a l ih =>
        intro hl
        have ha : a < n := hl a (by simp)
        obtain ⟨p, hp, hpl, hpk⟩ := ih fun i hi => hl i (by simp [hi])
        refine ⟨_ :: p, by rw [List.mapM_cons, hpick a ha, hp]; rfl, by simp [hpl], ?_⟩
        intro k i hk
        cases k with
        | zero =>
          simp only [List.getElem?_cons_zero, Option.some.injEq] at hk
          subst hk
          exact ⟨_, _, List.getElem?_eq_getElem (by omega), List.getElem?_eq_getElem (by omega), by simp⟩
        | succ k => simpa using hpk k i (by simpa using hk)
    obtain ⟨p, hp, hpl, hpk⟩ := hmap (argsort s.amps) hlt
    refine ⟨p, ?_, by rw [hpl, (hs s.amps).length_eq, List.length_range, k3], hpk⟩
    simp only [Bop.pairs, hget, bind, Except.bind]
    rw [show o.obj.getModes = _ from g1]
    simp only [g3']
    exact hp
  · simp only [Bop.forecastShapes, bind, Except.bind]
    rw [show o.obj.getModes = _ from g1]
    simp only [g2', g3'', o]
    simp [bcast, k1, k2, k3, h2, h3]

/-- **C129** is false with a selection: whatever happened before, the circle around the `k`-th active
eigenvalue, of index `i`, has the deviation number `k` as its radius, not number `i`. -/
theorem C129_circles_false (hm : ms.length = n) (he : es.length = n) (hb : bs.length = n)
    (ops : List (Op M E A)) (sd : Std MS S) (h2 : sd.eigs.length = n) :
    let o : Bop M E A MS S := ⟨((afterFit ms es bs).run ops).2, some sd⟩
    ∃ mask fm fe fa c, observe o.obj = ⟨.ok mask, .ok (some (visible mask fm)),
        .ok (some (visible mask fe)), .ok (some (visible mask fa))⟩ ∧
      mask.length = n ∧ fe.length = n ∧ o.circles = .ok c ∧ c.length = mask.count true ∧
      (∀ (k i : ℕ), (activeIdx mask)[k]? = some i → ∃ e d, fe[i]? = some e ∧ sd.eigs[k]? = some d ∧
        c[k]? = some (e, d)) := by
  intro o
  have hr := ((Rel.init ms es bs hm he hb).run ops).2
  obtain ⟨hop, k0, k1, k2, k3, o', hr', g1, g2, g3⟩ := gets hr
  have hobs := hr.observe
  generalize ((Spec.afterFit ms es bs).run ops).2 = s at *
  obtain ⟨opv, hopv⟩ := Option.ne_none_iff_exists'.mp hop
  have hget : o.getStd = .ok (some sd) := by
    simp only [Bop.getStd, o, hopv]
  have hcnt : s.mask.count true ≤ n := k0 ▸ List.count_le_length
  refine ⟨s.mask, s.modes, s.eigs, s.amps, (visible s.mask s.eigs).zip sd.eigs, hobs, k0, k2, ?_, ?_, ?_⟩
  · simp only [Bop.circles, hget, bind, Except.bind]
    rw [show o.obj.getEigs = _ from g2]
  · rw [List.length_zip, visible_length _ _ (by omega)]
    omega
  · intro k i hk
    have hlt : k < s.mask.count true := (activeIdx_getElem?_isSome _ _).mp ⟨i, hk⟩
    have hi : i < n := by
      have := List.mem_of_getElem? hk
      simp only [activeIdx, List.mem_filter, List.mem_range] at this
      omega
    have hv := visible_get s.mask s.eigs (by omega) k i hk
    have hl := visible_length s.mask s.eigs (by omega)
    refine ⟨s.eigs[i]'(by omega), sd.eigs[k]'(by omega), by simp, by simp, ?_⟩
    rw [List.getElem?_eq_getElem (by simp [hl]; omega)]
    have : (visible s.mask s.eigs)[k]'(by omega) = s.eigs[i]'(by omega) := by
      rw [List.getElem?_eq_getElem (by omega), List.getElem?_eq_getElem (by omega)] at hv
      simpa using hv
    simp [this]

/-- **C129** is false for `forecast`: with bagging and at least two modes fitted, it raises `ValueError`
as soon as one of the modes is not active. -/
theorem C129_forecast_false (hn : 2 ≤ n) (hm : ms.length = n) (he : es.length = n) (hb : bs.length = n)
    (ops : List (Op M E A)) (sd : Std MS S) (h2 : sd.eigs.length = n) (h3 : sd.amps.length = n) :
    let o : Bop M E A MS S := ⟨((afterFit ms es bs).run ops).2, some sd⟩
    (observe o.obj).mask ≠ .ok (List.replicate n true) → o.forecastShapes = .error .valueError := by
  intro o hmask
  have hr := ((Rel.init ms es bs hm he hb).run ops).2
  obtain ⟨hop, k0, k1, k2, k3, o', hr', g1, g2, g3⟩ := gets hr
  obtain ⟨-, -, -, -, -, o'', hr'', -, g2', g3'⟩ := gets hr'
  obtain ⟨-, -, -, -, -, o3, -, -, -, g3''⟩ := gets hr''
  have hobs := hr.observe
  rw [show observe o.obj = _ from hobs] at hmask
  simp only [Spec.observe, ne_eq, Except.ok.injEq] at hmask
  generalize ((Spec.afterFit ms es bs).run ops).2 = s at *
  have hne : s.mask.count true ≠ n := by
    intro h
    apply hmask
    have := (count_eq s.mask).mp (by omega)
    rwa [k0] at this
  have v1 := visible_length s.mask s.modes (by omega)
  have v2 := visible_length s.mask s.eigs (by omega)
  have v3 := visible_length s.mask s.amps (by omega)
  have hle : s.mask.count true ≤ n := k0 ▸ List.count_le_length
  simp only [Bop.forecastShapes, bind, Except.bind]
  rw [show o.obj.getModes = _ from g1]
  simp only [g2', g3'', o, v1, v2, v3, h2, h3]
  by_cases h1 : s.mask.count true = 1
  · simp [bcast, h1, show ¬ (1 = n) by omega]
  · simp [bcast, hne, h1, show ¬ (n = 1) by omega]

/-- **C129**, errors: without bagging there is nothing to plot, before `fit` neither; both raise
`ValueError`. Without bagging `forecast` works for every selection. -/
theorem C129_without (hm : ms.length = n) (he : es.length = n) (hb : bs.length = n)
    (ops : List (Op M E A)) (argsort : List A → List ℕ) :
    let o : Bop M E A MS S := ⟨((afterFit ms es bs).run ops).2, none⟩
    o.getStd = .ok none ∧ o.circles = .error .valueError ∧ o.pairs argsort = .error .valueError ∧
      o.forecastShapes = .ok () ∧
    ∀ (v : Option (View M E A)) (b : Option (List A)) (sd : Option (Std MS S)),
      let u : Bop M E A MS S := ⟨⟨none, b, v⟩, sd⟩
      u.getStd.toOption = none ∧ u.circles = .error .valueError ∧ u.pairs argsort = .error .valueError := by
  intro o
  have hr := ((Rel.init ms es bs hm he hb).run ops).2
  obtain ⟨hop, k0, k1, k2, k3, o', hr', g1, g2, g3⟩ := gets hr
  obtain ⟨-, -, -, -, -, o'', hr'', -, g2', g3'⟩ := gets hr'
  obtain ⟨-, -, -, -, -, o3, -, -, -, g3''⟩ := gets hr''
  generalize ((Spec.afterFit ms es bs).run ops).2 = s at *
  obtain ⟨opv, hopv⟩ := Option.ne_none_iff_exists'.mp hop
  have hget : o.getStd = .ok none := by
    simp only [Bop.getStd, o, hopv]
  refine ⟨hget, ?_, ?_, ?_, ?_⟩
  · simp only [Bop.circles, hget, bind, Except.bind]
  · simp only [Bop.pairs, hget, bind, Except.bind]
  · simp only [Bop.forecastShapes, bind, Except.bind]
    rw [show o.obj.getModes = _ from g1]
    simp only [g2', g3'', o]
    simp [visible_length s.mask s.modes (by omega), visible_length s.mask s.eigs (by omega),
      visible_length s.mask s.amps (by omega)]
  · intro v b sd u
    exact ⟨rfl, rfl, rfl⟩

end

/-- Three modes with different deviations. -/
def sdEx : Std String ℕ := ⟨["sa", "sb", "sc"], [1, 2, 3], [4, 5, 6]⟩

/-- Descending insertion sort of the positions by amplitude. -/
def sortEx (l : List ℕ) : List ℕ :=
  (List.range l.length).insertionSort fun i j => l.getD j 0 ≤ l.getD i 0

/-- **C129** is false for `plot_mode_uq`: with only the modes `b` and `c` active, the deviations drawn below
them are those of `a` and `b`. -/
theorem C129_modes_false :
    let o : Bop String ℕ ℕ String ℕ :=
      ⟨((afterFit ["a", "b", "c"] [10, 20, 30] [7, 8, 9]).run
        [.setMask (.bool1 [false, true, true])]).2, some sdEx⟩
    o.pairs sortEx = .ok [("c", "sb"), ("b", "sa")] ∧ o.circles = .ok [(20, 1), (30, 2)] := by
  decide +kernel

/-- **C129** is false for `dmd[key]`: `dmd[2]` shows the last mode and eigenvalue with the deviations of the
first. -/
theorem C129_getitem_false :
    let o : Obj String ℕ ℕ := afterFit ["a", "b", "c"] [10, 20, 30] [7, 8, 9]
    ∃ c, (o.getItem (.int 2)).1 = .ok c ∧
      let b : Bop String ℕ ℕ String ℕ := ⟨c, some sdEx⟩
      b.pairs sortEx = .ok [("c", "sa")] ∧ b.circles = .ok [(30, 1)] ∧
        b.forecastShapes = .error .valueError := by
  refine ⟨_, rfl, ?_⟩
  decide +kernel

/-- Instance of `C129_all_active_partial`, after a selection that was undone and an edit. -/
example :
    let o : Bop String ℕ ℕ String ℕ :=
      ⟨((afterFit ["a", "b", "c"] [10, 20, 30] [7, 8, 9]).run
        [.setMask (.bool1 [false, true, true]), .writeEig 0 21, .setMask (.bool1 [true, true, true])]).2,
        some sdEx⟩
    (observe o.obj).mask = .ok (List.replicate 3 true) ∧
    o.circles = .ok [(10, 1), (21, 2), (30, 3)] ∧
      o.pairs sortEx = .ok [("c", "sc"), ("b", "sb"), ("a", "sa")] := by
  decide +kernel

example := C129_all_active_partial 3 ["a", "b", "c"] [10, 20, 30] [7, 8, 9] rfl rfl rfl
  [.setMask (.bool1 [false, true, true]), .writeEig 0 21, .setMask (.bool1 [true, true, true])] sdEx rfl rfl rfl
  sortEx (fun _ => List.perm_insertionSort _ _) (by decide +kernel)

example := C129_forecast_false 3 ["a", "b", "c"] [10, 20, 30] [7, 8, 9] (by decide) rfl rfl rfl
  [.setMask (.bool1 [false, true, true])] sdEx rfl rfl

end Verif.BopStd
