import Verif.Lemmas.GetItem
import Verif.Model.Tuner

/-!
# Helper lemmas for the modes tuner
-/

set_option autoImplicit false

namespace Verif.Bitmask

open Verif

variable {M E A : Type}

theorem Rel.getEigs {n : Nat} {o : Obj M E A} {s : Spec M E A} (h : Rel n o s) :
    ∃ o', o.getEigs = .ok (some (visible s.mask s.eigs), o') ∧ Rel n o' s := by
  obtain ⟨ms, es, bs, v, he, hr, h1, h2, h3, l0, l1, l2, l3, rfl⟩ := h.ensure
  obtain ⟨ms', es', bs', hop, hb, -⟩ := h.ex
  have g2 := gather_scatter v.mask es v.eigs (by omega) l2
  rw [gather_eq_visible _ _ (by rw [length_scatter]; omega)] at g2
  refine ⟨_, ?_, hr⟩
  simp [Obj.getEigs, hop, he, bind, Except.bind, pure, Except.pure, g2]

theorem Rel.getMask {n : Nat} {o : Obj M E A} {s : Spec M E A} (h : Rel n o s) :
    ∃ o', o.getMask = .ok (s.mask, o') ∧ Rel n o' s := by
  obtain ⟨ms, es, bs, v, he, hr, h1, h2, h3, l0, l1, l2, l3, rfl⟩ := h.ensure
  obtain ⟨ms', es', bs', hop, hb, -⟩ := h.ex
  refine ⟨_, ?_, hr⟩
  simp [Obj.getMask, hop, he, bind, Except.bind, pure, Except.pure]

theorem Rel.lengths {n : Nat} {o : Obj M E A} {s : Spec M E A} (h : Rel n o s) :
    s.mask.length = n ∧ s.modes.length = n ∧ s.eigs.length = n ∧ s.amps.length = n := by
  obtain ⟨ms, es, bs, v, he, hr, h1, h2, h3, l0, l1, l2, l3, rfl⟩ := h.ensure
  exact ⟨l0, by simp [length_scatter, h1], by simp [length_scatter, h2],
    by simp [length_scatter, h3]⟩

theorem Rel.setMask {n : Nat} {o : Obj M E A} {s : Spec M E A} (h : Rel n o s) (l : List Bool)
    (hl : l.length = n) : ∃ o', o.setMask (.bool1 l) = (.ok (), o') ∧ Rel n o' { s with mask := l } := by
  obtain ⟨a, b⟩ := h.step (.setMask (.bool1 l))
  have hs : s.step (.setMask (.bool1 l)) = (.ok (), { s with mask := l }) := by
    simp [Spec.step, hl, h.lengths.1]
  rw [hs] at a b
  exact ⟨(o.step (.setMask (.bool1 l))).2, Prod.ext a rfl, b⟩

theorem length_visible {α : Type} (m : List Bool) (xs : List α) (h : m.length = xs.length) :
    (visible m xs).length = m.count true := by
  rw [← gather_eq_visible _ _ h, length_gather _ _ h]

theorem visible_getElem? {α : Type} (m : List Bool) (xs : List α) (h : m.length = xs.length)
    (k : ℕ) : (visible m xs)[k]? = ((activeIdx m)[k]?).bind fun i => xs[i]? := by
  have aux : ∀ l : List ℕ, (∀ i ∈ l, i < xs.length) →
      (l.filterMap fun i => xs[i]?)[k]? = (l[k]?).bind fun i => xs[i]? := by
    intro l
    induction l generalizing k with
    | nil => simp
    | cons a as ih =>
      intro hl
      have ha : xs[a]? = some (xs[a]'(hl a (by simp))) := List.getElem?_eq_getElem _
      rw [List.filterMap_cons, ha]
      cases k with
      | zero => simp [ha]
      | succ k => simpa using ih k fun i hi => hl i (by simp [hi])
  refine aux _ fun i hi => ?_
  simp only [activeIdx, List.mem_filter, List.mem_range] at hi
  omega

theorem visible_all {α : Type} (n : ℕ) (xs : List α) (h : xs.length = n) :
    visible (List.replicate n true) xs = xs := by
  rw [← gather_eq_visible _ _ (by simp [h]), ← h]
  exact gather_true xs

theorem scatter_map {α : Type} (f : α → α) (m : List Bool) (xs ys : List α)
    (h : m.length = xs.length) (hy : ys.length = m.count true) :
    scatter m xs (ys.map f) =
      List.zipWith (fun b x => if b then f x else x) m (scatter m xs ys) := by
  induction m generalizing xs ys with
  | nil =>
    have : xs = [] := by simpa using h.symm
    subst this
    simp [scatter]
  | cons b bs ih =>
    cases xs with
    | nil => simp at h
    | cons x xs =>
      cases b with
      | false =>
        simp only [scatter, List.zipWith_cons_cons]
        rw [ih xs ys (by simpa using h) (by simpa using hy)]
        simp
      | true =>
        cases ys with
        | nil => simp at hy
        | cons y ys =>
          simp only [List.map_cons, scatter, List.zipWith_cons_cons]
          rw [ih xs ys (by simpa using h) (by simpa using hy)]
          simp

theorem scatter_zipWith {α β : Type} (g : α → β → α) (m : List Bool) (xs ys : List α)
    (us vs : List β) (h : m.length = xs.length) (hy : ys.length = m.count true)
    (hu : m.length = us.length) (hv : vs.length = m.count true) :
    scatter m xs (List.zipWith g ys vs) =
      List.zipWith (fun b p => if b then g p.1 p.2 else p.1) m
        (List.zip (scatter m xs ys) (scatter m us vs)) := by
  induction m generalizing xs ys us vs with
  | nil =>
    have : xs = [] := by simpa using h.symm
    subst this
    simp [scatter]
  | cons b bs ih =>
    cases xs with
    | nil => simp at h
    | cons x xs =>
      cases us with
      | nil => simp at hu
      | cons u us =>
        cases b with
        | false =>
          simp only [scatter, List.zipWith_cons_cons, List.zip_cons_cons]
          rw [ih xs ys us vs (by simpa using h) (by simpa using hy) (by simpa using hu)
            (by simpa using hv)]
          simp
        | true =>
          cases ys with
          | nil => simp at hy
          | cons y ys =>
            cases vs with
            | nil => simp at hv
            | cons v vs =>
              simp only [scatter, List.zipWith_cons_cons, List.zip_cons_cons]
              rw [ih xs ys us vs (by simpa using h) (by simpa using hy) (by simpa using hu)
                (by simpa using hv)]
              simp

end Verif.Bitmask

namespace Verif.Tuner

open Verif Verif.Bitmask

variable {M E A : Type}

theorem mem_whereTrue (c : List Bool) (i : ℕ) : i ∈ whereTrue c ↔ c[i]? = some true := by
  simp only [whereTrue, List.mem_filter, List.mem_range, decide_eq_true_iff]
  constructor
  · exact fun h => h.2
  · exact fun h => ⟨(List.getElem?_eq_some_iff.mp h).1, h⟩

theorem getElem?_foldl_set {α : Type} (v : α) (idx : List ℕ) (m : List α) (i : ℕ) :
    (idx.foldl (fun m i => m.set i v) m)[i]? =
      if i ∈ idx ∧ i < m.length then some v else m[i]? := by
  induction idx generalizing m with
  | nil => simp
  | cons j js ih =>
    rw [List.foldl_cons, ih, List.length_set]
    by_cases hj : i = j
    · subst hj
      by_cases hl : i < m.length
      · simp [hl]
      · simp [hl]
    · have hj' : j ≠ i := fun h => hj h.symm
      simp [hj, hj', List.getElem?_set_ne]

theorem length_foldl_set {α : Type} (v : α) (idx : List ℕ) (m : List α) :
    (idx.foldl (fun m i => m.set i v) m).length = m.length := by
  induction idx generalizing m with
  | nil => rfl
  | cons j js ih => rw [List.foldl_cons, ih, List.length_set]

/-- The step of `selectModes`: which mask results. -/
theorem rel_selectModes {n : ℕ} {o : Obj M E A} {s : Spec M E A} (h : Rel n o s)
    (criterion : Obj M E A → Except PyErr (List Bool)) (c : List Bool) (nul : Bool)
    (hc : criterion o = .ok c) :
    ∃ o' cut mask, selectModes o criterion nul = (.ok cut, o') ∧ Rel n o' { s with mask := mask } ∧
      mask.length = n ∧ (∀ i, i ∈ cut ↔ i < s.mask.count true ∧ c[i]? ≠ some true) ∧
      cut.Pairwise (· < ·) ∧
      ∀ i < n, mask[i]? = if i ∈ cut then some false else s.mask[i]? := by
  obtain ⟨o1, e1, r1⟩ := h.getEigs
  obtain ⟨m1, m2, m3, m4⟩ := h.lengths
  have hlen : (visible s.mask s.eigs).length = s.mask.count true :=
    length_visible _ _ (by omega)
  have hmem : ∀ i, i ∈ (List.range (visible s.mask s.eigs).length).filter
      (fun i => i ∉ whereTrue c) ↔ i < s.mask.count true ∧ c[i]? ≠ some true := by
    intro i
    simp only [List.mem_filter, List.mem_range, hlen, decide_eq_true_iff, mem_whereTrue, ne_eq]
  have hsorted : ((List.range (visible s.mask s.eigs).length).filter
      (fun i => i ∉ whereTrue c)).Pairwise (· < ·) :=
    List.Pairwise.filter _ List.pairwise_lt_range
  simp only [selectModes, hc, e1]
  generalize (List.range (visible s.mask s.eigs).length).filter
      (fun i => i ∉ whereTrue c) = cut at hmem hsorted ⊢
  by_cases hcut : cut.length > 0
  · obtain ⟨o2, e2, r2⟩ := r1.getMask
    obtain ⟨o3, e3, r3⟩ := r2.setMask (cut.foldl (fun m i => m.set i false) s.mask)
      (by rw [length_foldl_set, m1])
    refine ⟨o3, cut, _, ?_, r3, by rw [length_foldl_set, m1], hmem, hsorted, ?_⟩
    · simp only [if_pos hcut, e2, e3]
    · intro i hi
      rw [getElem?_foldl_set]
      simp [m1, hi]
  · have : cut = [] := by simpa using hcut
    subst this
    refine ⟨o1, [], s.mask, ?_, r1, m1, hmem, hsorted, by simp⟩
    simp

/-- The step of `stabilizeModes`. -/
theorem rel_stabilizeModes {n : ℕ} {o : Obj M ℂ ℂ} {s : Spec M ℂ ℂ} (h : Rel n o s)
    (inner outer : EReal) :
    ∃ o', stabilizeModes o inner outer =
        (.ok (whereTrue ((visible s.mask s.eigs).map (fixable inner outer))), o') ∧
      Rel n o' { s with
        eigs := List.zipWith (fun b e => if b then
          (if fixable inner outer e then e / (‖e‖ : ℂ) else e) else e) s.mask s.eigs
        amps := List.zipWith (fun b p => if b then
          (if fixable inner outer p.2 then p.1 * (‖p.2‖ : ℂ) else p.1) else p.1) s.mask
            (List.zip s.amps s.eigs) } := by
  obtain ⟨ms, es, bs, v, he, hr, h1, h2, h3, l0, l1, l2, l3, rfl⟩ := h.ensure
  obtain ⟨ms', es', bs', hop, hb, -⟩ := h.ex
  have g2 := gather_scatter v.mask es v.eigs (by omega) l2
  rw [gather_eq_visible _ _ (by rw [length_scatter]; omega)] at g2
  refine ⟨⟨some (ms, es), some bs, some { v with
      amps := List.zipWith (fun a e => if fixable inner outer e then a * (‖e‖ : ℂ) else a)
        v.amps v.eigs
      eigs := v.eigs.map fun e => if fixable inner outer e then e / (‖e‖ : ℂ) else e }⟩, ?_, ?_⟩
  · have e1 : o.getEigs = .ok (some v.eigs, ⟨some (ms, es), some bs, some v⟩) := by
      simp only [Obj.getEigs, hop, he, bind, Except.bind, pure, Except.pure]
    have e2 : (⟨some (ms, es), some bs, some v⟩ : Obj M ℂ ℂ).getAmps =
        .ok (some v.amps, ⟨some (ms, es), some bs, some v⟩) := rfl
    simp only [stabilizeModes, e1, e2, g2]
  · refine ⟨ms, es, bs, rfl, rfl, h1, h2, h3, l0, l1, by simpa using l2, by simp [l2, l3], ?_⟩
    simp only
    rw [scatter_map _ _ _ _ (by omega) l2,
      scatter_zipWith (fun a e => if fixable inner outer e then a * (‖e‖ : ℂ) else a) v.mask bs
        v.amps es v.eigs (by omega) l3 (by omega) l2]

/-! ## Tuners -/

variable {D : Type}

theorem applyAll_frame (f : D → Except PyErr Unit × D) (heap : List D) (refs : List ℕ) (r : ℕ)
    (hr : r ∉ refs) : (applyAll f heap refs).2[r]? = heap[r]? := by
  induction refs generalizing heap with
  | nil => rfl
  | cons a as ih =>
    have hra : r ≠ a := fun h => hr (by simp [h])
    have hras : r ∉ as := fun h => hr (by simp [h])
    rw [applyAll]
    cases hd : heap[a]? with
    | none => rfl
    | some d =>
      simp only
      rcases hf : f d with ⟨res, d'⟩
      cases res with
      | error e => simp [List.getElem?_set_ne hra.symm]
      | ok u => simp only; rw [ih _ hras, List.getElem?_set_ne hra.symm]

theorem applyAll_length (f : D → Except PyErr Unit × D) (heap : List D) (refs : List ℕ) :
    (applyAll f heap refs).2.length = heap.length := by
  induction refs generalizing heap with
  | nil => rfl
  | cons a as ih =>
    rw [applyAll]
    cases hd : heap[a]? with
    | none => rfl
    | some d =>
      simp only
      rcases hf : f d with ⟨res, d'⟩
      cases res with
      | error e => simp
      | ok u => simp only; rw [ih, List.length_set]

/-- With distinct valid references and no exception, every cell referred to is updated once. -/
theorem applyAll_ok (f : D → Except PyErr Unit × D) (hf : ∀ d, (f d).1 = .ok ()) (heap : List D)
    (refs : List ℕ) (hn : refs.Nodup) (hv : ∀ r ∈ refs, r < heap.length) :
    (applyAll f heap refs).1 = .ok () ∧
    ∀ r : ℕ, (applyAll f heap refs).2[r]? =
      if r ∈ refs then (heap[r]?).map fun d => (f d).2 else heap[r]? := by
  induction refs generalizing heap with
  | nil => simp [applyAll]
  | cons a as ih =>
    obtain ⟨hna, hnas⟩ := List.nodup_cons.mp hn
    have ha : a < heap.length := hv a (by simp)
    have hd : heap[a]? = some heap[a] := List.getElem?_eq_getElem ha
    rcases hfd : f heap[a] with ⟨res, d'⟩
    have hres : res = .ok () := by have := hf heap[a]; rw [hfd] at this; exact this
    subst hres
    have step : applyAll f heap (a :: as) = applyAll f (heap.set a d') as := by
      rw [applyAll, hd]; simp only [hfd]
    obtain ⟨i1, i2⟩ := ih (heap.set a d') hnas (by
      intro r hr; rw [List.length_set]; exact hv r (by simp [hr]))
    rw [step]
    refine ⟨i1, fun r => ?_⟩
    rw [i2]
    by_cases hra : r = a
    · subst hra
      rw [if_neg hna, if_pos (by simp), List.getElem?_set_self ha, hd]
      simp [hfd]
    · rw [List.getElem?_set_ne (Ne.symm hra)]
      simp [hra]

theorem pick_spec (refs idx rs : List ℕ) (h : pick refs idx = .ok rs) :
    rs.length = idx.length ∧ ∀ k : ℕ, rs[k]? = (idx[k]?).bind fun i => refs[i]? := by
  induction idx generalizing rs with
  | nil =>
    simp only [pick, Except.ok.injEq] at h
    subst h; simp
  | cons i is ih =>
    rw [pick] at h
    cases hr : refs[i]? with
    | none => rw [hr] at h; simp at h
    | some r =>
      rw [hr] at h
      simp only at h
      cases hp : pick refs is with
      | error e => rw [hp] at h; simp [Except.map] at h
      | ok l =>
        rw [hp] at h
        simp only [Except.map, Except.ok.injEq] at h
        subst h
        obtain ⟨h1, h2⟩ := ih l hp
        refine ⟨by simp [h1], fun k => ?_⟩
        cases k with
        | zero => simp [hr]
        | succ k => simpa using h2 k

theorem mem_pick (refs idx rs : List ℕ) (h : pick refs idx = .ok rs) : ∀ r ∈ rs, r ∈ refs := by
  intro r hr
  obtain ⟨k, hk⟩ := List.mem_iff_getElem?.mp hr
  rw [(pick_spec refs idx rs h).2] at hk
  cases hi : idx[k]? with
  | none => rw [hi] at hk; simp at hk
  | some i => rw [hi] at hk; exact List.mem_of_getElem? hk

end Verif.Tuner
