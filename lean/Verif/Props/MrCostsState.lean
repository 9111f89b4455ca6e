import Verif.Model.MrCostsState
import Mathlib.Tactic

/-!
# C118-C122: the mrCOSTS object
-/

set_option autoImplicit false

namespace Verif.MrCostsState

open Verif
open Verif.Costs (Transform)

variable {X L Ω C : Type}

/-! ## C118: fit -/

theorem components_ok (ops : Ops X L Ω C) (st : State L Ω C) (k : ℕ) (l : L) (n : ℕ)
    (arr : Option (List (Option ℕ))) (h : components ops st k l = .ok (n, arr)) :
    ((st.clusterSweep = true ∨ st.nComponents.bind (·[k]?) = some none) →
      ops.sweep st.transform l = .ok n ∧ arr = st.nComponents.map fun a => a.set k (some n)) ∧
    (∀ m, st.clusterSweep = false → st.nComponents.bind (·[k]?) = some (some m) →
      n = m ∧ arr = st.nComponents) ∧
    (st.clusterSweep = false → ∃ a o, st.nComponents = some a ∧ a[k]? = some o) := by
  have key : ∀ r : ℕ × Option (List (Option ℕ)),
      (ops.clusterSweep st.transform l).map
        (fun n => (n, st.nComponents.map fun a => a.set k (some n))) = .ok r →
      ops.sweep st.transform l = .ok r.1 ∧ r.2 = st.nComponents.map fun a => a.set k (some r.1) := by
    intro r hr
    unfold Ops.clusterSweep at hr
    split_ifs at hr with ha
    · cases hs : ops.sweep st.transform l with
      | error e => rw [hs] at hr; cases hr
      | ok m => rw [hs] at hr; cases hr; exact ⟨rfl, rfl⟩
    · cases hr
  unfold components at h
  by_cases hc : st.clusterSweep = true
  · simp only [hc, if_true] at h
    refine ⟨fun _ => key (n, arr) h, fun m h0 => ?_, fun h0 => ?_⟩ <;> simp [hc] at h0
  · have hc' : st.clusterSweep = false := by simpa using hc
    simp only [hc', Bool.false_eq_true, if_false] at h
    cases hn : st.nComponents with
    | none => rw [hn] at h; cases h
    | some a =>
      rw [hn] at h
      simp only at h
      cases hk : a[k]? with
      | none => rw [hk] at h; cases h
      | some o =>
        rw [hk] at h
        cases o with
        | none =>
          simp only at h
          rw [← hn] at h
          have := key (n, arr) h
          rw [hn] at this
          refine ⟨fun _ => this, fun m _ hm => ?_, fun _ => ⟨a, none, rfl, hk⟩⟩
          rw [Option.bind_some, hk] at hm
          cases hm
        | some m =>
          simp only at h
          cases h
          refine ⟨fun h0 => ?_, fun m' _ hm => ?_, fun _ => ⟨a, some n, rfl, hk⟩⟩
          · rw [hc', Option.bind_some, hk] at h0
            rcases h0 with h0 | h0 <;> cases h0
          · rw [Option.bind_some, hk] at hm
            cases hm
            exact ⟨rfl, rfl⟩

/-- Level `i` as it should be: fitted to `x` with the given window, step, rank and flag, and clustered
into `n` bands, the number given or the best one of the sweep. -/
def LevelIs (ops : Ops X L Ω C) (t : Transform) (sweep : Bool) (given : Option (Option ℕ)) (x : X)
    (a : ℤ × ℤ × ℤ) (g : Bool) (n : ℕ) (l : L) : Prop :=
  ∃ l₀, ops.fit x a.1 a.2.1 a.2.2 g = .ok l₀ ∧ ops.cluster n t l₀ = .ok l ∧
    (sweep = true ∨ given = some none → ops.sweep t l₀ = .ok n) ∧
    (∀ m, sweep = false → given = some (some m) → n = m)

theorem fitLevel_ok (ops : Ops X L Ω C) (st : State L Ω C) (k : ℕ) (x : X) (a : ℤ × ℤ × ℤ)
    (arr : Option (List (Option ℕ))) (l : L) (h : fitLevel ops st k x a = (arr, .ok l))
    (hlen : st.clusterSweep = true → ∃ b, st.nComponents = some b ∧ k < b.length) :
    ∃ g n, (st.globalSvd.getD [])[k]? = some g ∧
      LevelIs ops st.transform st.clusterSweep (st.nComponents.bind (·[k]?)) x a g n l ∧
      arr.bind (·[k]?) = some (some n) ∧
      (∀ j : ℕ, j ≠ k → arr.bind (·[j]?) = st.nComponents.bind (·[j]?)) ∧
      (∀ b, st.nComponents = some b → ∃ b', arr = some b' ∧ b'.length = b.length) := by
  unfold fitLevel at h
  cases hg : (st.globalSvd.getD [])[k]? with
  | none => rw [hg] at h; cases h
  | some g =>
    rw [hg] at h
    simp only at h
    cases hf : ops.fit x a.1 a.2.1 a.2.2 g with
    | error e => rw [hf] at h; cases h
    | ok l₀ =>
      rw [hf] at h
      simp only at h
      cases hc : components ops st k l₀ with
      | error e => rw [hc] at h; cases h
      | ok p =>
        obtain ⟨n, arr'⟩ := p
        rw [hc] at h
        simp only [Prod.mk.injEq] at h
        obtain ⟨rfl, h⟩ := h
        obtain ⟨c1, c2, c3⟩ := components_ok ops st k l₀ n arr' hc
        have hcl : ops.cluster n st.transform l₀ = .ok l := by
          unfold Ops.clusterOmega at h
          split_ifs at h with ha
          exact h
        refine ⟨g, n, rfl, ⟨l₀, hf, hcl, fun h0 => (c1 h0).1, fun m h0 h1 => (c2 m h0 h1).1⟩, ?_⟩
        by_cases hs : st.clusterSweep = true ∨ st.nComponents.bind (·[k]?) = some none
        · obtain ⟨-, rfl⟩ := c1 hs
          have hb : ∃ b, st.nComponents = some b ∧ k < b.length := by
            rcases hs with hs | hs
            · exact hlen hs
            · cases hn : st.nComponents with
              | none => rw [hn] at hs; cases hs
              | some b =>
                rw [hn, Option.bind_some] at hs
                exact ⟨b, rfl, (List.getElem?_eq_some_iff.1 hs).1⟩
          obtain ⟨b, hb, hk⟩ := hb
          rw [hb]
          simp only [Option.map_some, Option.bind_some]
          refine ⟨by rw [List.getElem?_set_self hk], fun j hj => ?_, fun b' hb' => ⟨_, rfl, ?_⟩⟩
          · rw [List.getElem?_set_ne (Ne.symm hj)]
          · cases hb'; simp
        · push Not at hs
          have hs0 : st.clusterSweep = false := by simpa using hs.1
          obtain ⟨b, o, hb, hk⟩ := c3 hs0
          have ho : st.nComponents.bind (·[k]?) = some o := by rw [hb]; exact hk
          cases o with
          | none => exact absurd ho hs.2
          | some m =>
            obtain ⟨rfl, rfl⟩ := c2 m hs0 ho
            exact ⟨ho, fun _ _ => rfl, fun b hb => ⟨b, hb, rfl⟩⟩

theorem fitLoop_ok (ops : Ops X L Ω C) (as : List (ℤ × ℤ × ℤ)) : ∀ (k : ℕ) (x : X) (st st' : State L Ω C)
    (pre : List L), fitLoop ops k x as st = (st', .ok ()) → st.levels = some pre →
    (st.clusterSweep = true → ∃ b, st.nComponents = some b ∧ k + as.length ≤ b.length) →
    ∃ ls, st'.levels = some (pre ++ ls) ∧ ls.length = as.length ∧
      st' = { st with levels := st'.levels, nComponents := st'.nComponents } ∧
      (∀ j : ℕ, j < k ∨ k + as.length ≤ j →
        st'.nComponents.bind (·[j]?) = st.nComponents.bind (·[j]?)) ∧
      (∀ (i : ℕ) l, ls[i]? = some l → ∃ xi a g n,
        (i = 0 → xi = x) ∧ (∀ (j : ℕ) l', i = j + 1 → ls[j]? = some l' → xi = ops.low l') ∧
        as[i]? = some a ∧ (st.globalSvd.getD [])[k + i]? = some g ∧
        LevelIs ops st.transform st.clusterSweep (st.nComponents.bind (·[k + i]?)) xi a g n l ∧
        st'.nComponents.bind (·[k + i]?) = some (some n)) := by
  induction as with
  | nil =>
    intro k x st st' pre h hp hl
    cases h
    exact ⟨[], by simp [hp], rfl, rfl, fun _ _ => rfl, fun i l h => by simp at h⟩
  | cons a as ih =>
    intro k x st st' pre h hp hl
    unfold fitLoop at h
    cases hr : fitLevel ops st k x a with
    | mk arr r =>
      rw [hr] at h
      cases r with
      | error e => cases h
      | ok l =>
        simp only at h
        obtain ⟨g, n, hg, hlev, harr, hother, hlenb⟩ := fitLevel_ok ops st k x a arr l hr (by
          intro hs
          obtain ⟨b, hb, hk⟩ := hl hs
          exact ⟨b, hb, by simp at hk; omega⟩)
        obtain ⟨ls, h1, h2, h3, h4, h5⟩ := ih (k + 1) (ops.low l) _ st' (pre ++ [l]) h
          (by simp [hp]) (by
            intro hs
            obtain ⟨b, hb, hk⟩ := hl hs
            obtain ⟨b', hb', hl'⟩ := hlenb b hb
            exact ⟨b', hb', by simp at hk; omega⟩)
        simp only at h3 h4 h5
        refine ⟨l :: ls, by rw [h1]; simp, by simp [h2], ?_, ?_, ?_⟩
        · rw [h3]
        · intro j hj
          rw [h4 j (by simp at hj; omega), hother j (by simp at hj; omega)]
        · intro i l' hi
          cases i with
          | zero =>
            simp only [List.getElem?_cons_zero, Option.some.injEq] at hi
            subst hi
            refine ⟨x, a, g, n, fun _ => rfl, fun j _ hj => by omega, rfl, hg, hlev, ?_⟩
            rw [h4 (k + 0) (by omega)]
            exact harr
          | succ i =>
            rw [List.getElem?_cons_succ] at hi
            obtain ⟨xi, a', g', n', e1, e2, e3, e4, e5, e6⟩ := h5 i l' hi
            refine ⟨xi, a', g', n', fun h0 => by omega, ?_, by simpa using e3, ?_, ?_, ?_⟩
            · intro j l'' hj hj'
              obtain rfl : j = i := by omega
              cases j with
              | zero =>
                simp only [List.getElem?_cons_zero, Option.some.injEq] at hj'
                subst hj'
                exact e1 rfl
              | succ j =>
                rw [List.getElem?_cons_succ] at hj'
                exact e2 j l'' rfl hj'
            · rw [show k + (i + 1) = k + 1 + i by omega]; exact e4
            · rw [show k + (i + 1) = k + 1 + i by omega]
              rw [hother (k + 1 + i) (by omega)] at e5
              exact e5
            · rw [show k + (i + 1) = k + 1 + i by omega]; exact e6

/-- The flags of the levels: the given ones or `True` throughout. -/
def flags (st : State L Ω C) : List Bool := st.globalSvd.getD (List.replicate st.windows.length true)

/-- **C118** (a successful fit). There are as many levels as the shortest of the three lists says; each
is fitted with its own window, step, rank and flag to the data (level 0) or to the low frequency
component of the level before, and clustered into the given number of bands, or into the best number of
the sweep if `cluster_sweep` is set or the number is `NaN`. The numbers used are recorded. -/
theorem C118_fit_partial (ops : Ops X L Ω C) (st st' : State L Ω C) (x : X)
    (h : fit ops st x = (st', .ok ())) :
    ∃ ls, st'.levels = some ls ∧
      ls.length = min st.windows.length (min st.steps.length st.ranks.length) ∧
      ∀ (i : ℕ) l, ls[i]? = some l → ∃ xi w s r g n,
        (i = 0 → xi = x) ∧ (∀ (j : ℕ) l', i = j + 1 → ls[j]? = some l' → xi = ops.low l') ∧
        st.windows[i]? = some w ∧ st.steps[i]? = some s ∧ st.ranks[i]? = some r ∧
        (flags st)[i]? = some g ∧
        LevelIs ops st.transform st.clusterSweep (st.nComponents.bind (·[i]?)) xi (w, s, r) g n l ∧
        st'.nComponents.bind (·[i]?) = some (some n) := by
  unfold fit at h
  by_cases h0 : st.clusterSweep ∧ st.nComponents.isSome
  · rw [if_pos h0] at h; cases h
  · rw [if_neg h0] at h
    simp only at h
    cases hs : st.clusterSweep with
    | false =>
      simp only [hs, Bool.false_eq_true, if_false] at h
      obtain ⟨ls, h1, h2, -, -, h5⟩ := fitLoop_ok ops _ 0 x _ st' [] h rfl (by simp)
      refine ⟨ls, by simpa using h1, by rw [h2]; simp, ?_⟩
      intro i l hi
      obtain ⟨xi, a, g, n, e1, e2, e3, e4, e5, e6⟩ := h5 i l hi
      obtain ⟨w, s, r⟩ := a
      rw [List.getElem?_zip_eq_some, List.getElem?_zip_eq_some] at e3
      simp only [Nat.zero_add] at e4 e5 e6
      exact ⟨xi, w, s, r, g, n, e1, e2, e3.1, e3.2.1, e3.2.2, e4, e5, e6⟩
    | true =>
      have hnone : st.nComponents = none := by
        cases hn : st.nComponents with
        | none => rfl
        | some b => exact absurd ⟨hs, by simp [hn]⟩ h0
      simp only [hs, if_true] at h
      obtain ⟨ls, h1, h2, -, -, h5⟩ := fitLoop_ok ops _ 0 x _ st' [] h rfl (by
        intro _
        exact ⟨_, rfl, by simp⟩)
      refine ⟨ls, by simpa using h1, by rw [h2]; simp, ?_⟩
      intro i l hi
      obtain ⟨xi, a, g, n, e1, e2, e3, e4, ⟨l₀, f1, f2, f3, f4⟩, e6⟩ := h5 i l hi
      obtain ⟨w, s, r⟩ := a
      rw [List.getElem?_zip_eq_some, List.getElem?_zip_eq_some] at e3
      simp only [Nat.zero_add] at e4 e6
      exact ⟨xi, w, s, r, g, n, e1, e2, e3.1, e3.2.1, e3.2.2, e4,
        ⟨l₀, f1, f2, fun _ => f3 (Or.inl rfl), fun m h => by cases h⟩, e6⟩

theorem fitLevel_isSome (ops : Ops X L Ω C) (st : State L Ω C) (k : ℕ) (x : X) (a : ℤ × ℤ × ℤ) :
    (fitLevel ops st k x a).1.isSome = st.nComponents.isSome := by
  unfold fitLevel
  cases hg : (st.globalSvd.getD [])[k]? with
  | none => rfl
  | some g =>
    simp only
    cases hf : ops.fit x a.1 a.2.1 a.2.2 g with
    | error e => rfl
    | ok l =>
      simp only
      cases hc : components ops st k l with
      | error e => rfl
      | ok p =>
        simp only
        obtain ⟨n, arr⟩ := p
        obtain ⟨c1, c2, c3⟩ := components_ok ops st k l n arr hc
        by_cases hs : st.clusterSweep = true ∨ st.nComponents.bind (·[k]?) = some none
        · rw [(c1 hs).2]; simp
        · push Not at hs
          have hs0 : st.clusterSweep = false := by simpa using hs.1
          obtain ⟨b, o, hb, hk⟩ := c3 hs0
          have ho : st.nComponents.bind (·[k]?) = some o := by rw [hb]; exact hk
          cases o with
          | none => exact absurd ho hs.2
          | some m => rw [(c2 m hs0 ho).2]

theorem fitLoop_frame (ops : Ops X L Ω C) (as : List (ℤ × ℤ × ℤ)) : ∀ (k : ℕ) (x : X) (st : State L Ω C),
    (fitLoop ops k x as st).1 = { st with
      levels := (fitLoop ops k x as st).1.levels
      nComponents := (fitLoop ops k x as st).1.nComponents } ∧
    (fitLoop ops k x as st).1.nComponents.isSome = st.nComponents.isSome ∧
    (fitLoop ops k x as st).1.levels.isSome = st.levels.isSome := by
  induction as with
  | nil => intro k x st; exact ⟨rfl, rfl, rfl⟩
  | cons a as ih =>
    intro k x st
    unfold fitLoop
    have hsome := fitLevel_isSome ops st k x a
    cases hr : fitLevel ops st k x a with
    | mk arr r =>
      rw [hr] at hsome
      cases r with
      | error e => exact ⟨rfl, hsome, rfl⟩
      | ok l =>
        simp only
        obtain ⟨h1, h2, h3⟩ := ih (k + 1) (ops.low l) { st with
          nComponents := arr, levels := st.levels.map (· ++ [l]) }
        refine ⟨?_, by rw [h2]; exact hsome, by rw [h3]; simp⟩
        conv_lhs => rw [h1]

theorem fit_frame (ops : Ops X L Ω C) (st : State L Ω C) (x : X) :
    (fit ops st x).1.windows = st.windows ∧ (fit ops st x).1.daOmega = st.daOmega ∧
    (fit ops st x).1.classes = st.classes ∧ (fit ops st x).1.nGlobal = st.nGlobal ∧
    (fit ops st x).1.transform = st.transform ∧ (fit ops st x).1.clusterSweep = st.clusterSweep ∧
    (st.clusterSweep = true → (fit ops st x).1.nComponents.isSome = true) ∧
    (st.nComponents.isSome = true → (fit ops st x).1.nComponents.isSome = true) ∧
    (fit ops st x).1.steps = st.steps ∧ (fit ops st x).1.ranks = st.ranks := by
  obtain ⟨windows, steps, ranks, gs, nc, cs, t, lv, d, c, ng⟩ := st
  have key := fun (nc' : Option (List (Option ℕ))) =>
    fitLoop_frame ops (windows.zip (steps.zip ranks)) 0 x
    (⟨windows, steps, ranks, some (gs.getD (List.replicate windows.length true)), nc', cs, t,
      some [], d, c, ng⟩ : State L Ω C)
  cases cs with
  | false =>
    obtain ⟨h1, h2, -⟩ := key nc
    have hfit : fit ops (⟨windows, steps, ranks, gs, nc, false, t, lv, d, c, ng⟩ : State L Ω C) x =
      fitLoop ops 0 x (windows.zip (steps.zip ranks))
        ⟨windows, steps, ranks, some (gs.getD (List.replicate windows.length true)), nc, false, t,
          some [], d, c, ng⟩ := by simp [fit]
    rw [hfit]
    refine ⟨by rw [h1], by rw [h1], by rw [h1], by rw [h1], by rw [h1], by rw [h1], fun h => ?_,
      fun h => h2.trans h, by rw [h1], by rw [h1]⟩
    cases h
  | true =>
    cases nc with
    | some b => simp [fit]
    | none =>
      obtain ⟨h1, h2, -⟩ := key (some (List.replicate windows.length none))
      have hfit : fit ops (⟨windows, steps, ranks, gs, none, true, t, lv, d, c, ng⟩ : State L Ω C) x =
        fitLoop ops 0 x (windows.zip (steps.zip ranks))
          ⟨windows, steps, ranks, some (gs.getD (List.replicate windows.length true)),
            some (List.replicate windows.length none), true, t, some [], d, c, ng⟩ := by simp [fit]
      rw [hfit]
      exact ⟨by rw [h1], by rw [h1], by rw [h1], by rw [h1], by rw [h1], by rw [h1], fun _ => h2,
        fun _ => h2, by rw [h1], by rw [h1]⟩

theorem fitLoop_error (ops : Ops X L Ω C) (st : State L Ω C) (k : ℕ) (x : X) (a : ℤ × ℤ × ℤ)
    (as : List (ℤ × ℤ × ℤ)) (e : PyErr) (h : (fitLevel ops st k x a).2 = .error e) :
    (fitLoop ops k x (a :: as) st).2 = .error e := by
  unfold fitLoop
  simp only [h]

/-- The fit of a first level that exists, up to the state it starts from. -/
theorem fit_first (ops : Ops X L Ω C) (st : State L Ω C) (x : X) (w s r : ℤ)
    (hw : st.windows.head? = some w) (hs : st.steps.head? = some s) (hr : st.ranks.head? = some r)
    (hc : ¬ (st.clusterSweep = true ∧ st.nComponents.isSome = true)) (e : PyErr)
    (h : ∀ st₁ : State L Ω C, st₁.transform = st.transform → st₁.clusterSweep = st.clusterSweep →
      st₁.globalSvd = some (flags st) → (st.clusterSweep = false → st₁.nComponents = st.nComponents) →
      (fitLevel ops st₁ 0 x (w, s, r)).2 = .error e) : (fit ops st x).2 = .error e := by
  obtain ⟨windows, steps, ranks, gs, nc, cs, t, lv, d, c, ng⟩ := st
  simp only at hw hs hr
  cases windows with
  | nil => cases hw
  | cons w' ws =>
  cases steps with
  | nil => cases hs
  | cons s' ss =>
  cases ranks with
  | nil => cases hr
  | cons r' rs =>
  cases hw; cases hs; cases hr
  unfold fit
  rw [if_neg hc]
  cases cs with
  | false =>
    refine fitLoop_error ops _ 0 x (w, s, r) _ e ?_
    refine h _ ?_ ?_ ?_ ?_
    · rfl
    · rfl
    · rfl
    · exact fun _ => rfl
  | true =>
    refine fitLoop_error ops _ 0 x (w, s, r) _ e ?_
    refine h _ ?_ ?_ ?_ ?_
    · rfl
    · rfl
    · rfl
    · exact fun h => by cases h

/-- **C118** (constructor): `n_components_array` must have one entry for each step size; nothing is fitted or
clustered after it. -/
theorem C118_init (windows steps ranks : List ℤ) (globalSvd : Option (List Bool)) (nc : Option (List (Option ℕ)))
    (sweep : Bool) (t : Transform) :
    ((∀ a, nc = some a → a.length = steps.length) → ∃ st : State L Ω C,
      State.init windows steps ranks globalSvd nc sweep t = .ok st ∧ st.levels = none ∧ st.daOmega = none ∧
        st.classes = none ∧ st.nGlobal = none) ∧
    (∀ a, nc = some a → a.length ≠ steps.length →
      (State.init windows steps ranks globalSvd nc sweep t : Except PyErr (State L Ω C)) = .error .valueError) := by
  constructor
  · intro h
    refine ⟨_, if_neg ?_, rfl, rfl, rfl, rfl⟩
    rintro ⟨a, h1, h2⟩
    exact h2 (h a h1)
  · intro a h1 h2
    exact if_pos ⟨a, h1, h2⟩

/-- **C118** is false for the default `transform_method=None`, documented as `"absolute"`: as soon as the
first level has been fitted, `fit` raises ValueError, as for unknown methods. -/
theorem C118_default_false (ops : Ops X L Ω C) (st : State L Ω C) (x : X) (w s r : ℤ) (g : Bool) (l : L)
    (ht : st.transform = .none ∨ st.transform = .other) (hw : st.windows.head? = some w) (hs : st.steps.head? = some s)
    (hr : st.ranks.head? = some r) (hg : (flags st).head? = some g) (hf : ops.fit x w s r g = .ok l)
    (hn : st.clusterSweep = true ∨ ∃ o, st.nComponents.bind (·[0]?) = some o) :
    (fit ops st x).2 = .error .valueError := by
  by_cases hc : st.clusterSweep = true ∧ st.nComponents.isSome = true
  · unfold fit; rw [if_pos hc]
  · refine fit_first ops st x w s r hw hs hr hc _ fun st₁ h1 h2 h3 h4 => ?_
    rw [List.head?_eq_getElem?] at hg
    have hsw : ∀ l, ops.clusterSweep st₁.transform l = .error .valueError := fun l => by
      rw [h1]; rcases ht with ht | ht <;> rw [ht] <;> rfl
    have hcl : ∀ n l, ops.clusterOmega n st₁.transform l = .error .valueError := fun n l => by
      rw [h1]; rcases ht with ht | ht <;> rw [ht] <;> rfl
    simp only [fitLevel, h3, Option.getD_some, hg, hf, components, hsw, hcl, h2]
    cases hcs : st.clusterSweep with
    | true => rfl
    | false =>
      rw [hcs] at hn
      obtain h | ⟨o, ho⟩ := hn
      · cases h
      · rw [h4 hcs]
        cases hnc : st.nComponents with
        | none => rw [hnc] at ho; cases ho
        | some b =>
          rw [hnc, Option.bind_some] at ho
          simp only [ho]
          cases o <;> rfl

/-- **C118** is false without `cluster_sweep` and `n_components_array`, the defaults of the constructor:
TypeError after the first level has been fitted. -/
theorem C118_defaults_false (ops : Ops X L Ω C) (st : State L Ω C) (x : X) (w s r : ℤ) (g : Bool) (l : L)
    (hw : st.windows.head? = some w) (hs : st.steps.head? = some s)
    (hr : st.ranks.head? = some r) (hg : (flags st).head? = some g) (hf : ops.fit x w s r g = .ok l)
    (hc : st.clusterSweep = false) (hn : st.nComponents = none) :
    (fit ops st x).2 = .error .typeError := by
  refine fit_first ops st x w s r hw hs hr (by simp [hc]) _ fun st₁ h1 h2 h3 h4 => ?_
  rw [List.head?_eq_getElem?] at hg
  simp only [fitLevel, h3, Option.getD_some, hg, hf, components, h2, hc, h4 hc, hn]
  rfl

/-- **C118** is false for a second fit with `cluster_sweep=True`, after a success or a failure alike:
always ValueError. The first fit has set `n_components_array`. -/
theorem C118_refit_false (ops : Ops X L Ω C) (st : State L Ω C) (x y : X) (hc : st.clusterSweep = true) :
    fit ops (fit ops st x).1 y = ((fit ops st x).1, .error .valueError) := by
  obtain ⟨-, -, -, -, -, h6, h7, -, -⟩ := fit_frame ops st x
  have h8 := h7 hc
  generalize (fit ops st x).1 = st₁ at h6 h8 ⊢
  unfold fit
  rw [if_pos ⟨h6.trans hc, h8⟩]

/-- **C118** is false for `NaN` in `n_components_array`: only the first successful fit looks for the best
number; a later fit on other data uses that number again, whatever the sweep would find. -/
theorem C118_nan_false (ops : Ops X L Ω C) (st st₁ st₂ : State L Ω C) (x y : X) (i : ℕ)
    (hc : st.clusterSweep = false)
    (h1 : fit ops st x = (st₁, .ok ())) (h2 : fit ops st₁ y = (st₂, .ok ()))
    (hi : i < min st.windows.length (min st.steps.length st.ranks.length)) :
    st₂.nComponents.bind (·[i]?) = st₁.nComponents.bind (·[i]?) := by
  obtain ⟨ls, -, hl, h⟩ := C118_fit_partial ops st st₁ x h1
  obtain ⟨ls', e, hl', h'⟩ := C118_fit_partial ops st₁ st₂ y h2
  obtain ⟨l, hl0⟩ : ∃ l, ls[i]? = some l := ⟨_, List.getElem?_eq_getElem (by omega)⟩
  obtain ⟨_, _, _, _, _, n, -, -, -, -, -, -, -, hn⟩ := h i l hl0
  have hc1 : st₁.clusterSweep = false := by
    have := (fit_frame ops st x).2.2.2.2.2.1
    rw [h1] at this
    exact this.trans hc
  by_cases hi' : i < ls'.length
  · obtain ⟨l', hl0'⟩ : ∃ l, ls'[i]? = some l := ⟨_, List.getElem?_eq_getElem hi'⟩
    obtain ⟨_, _, _, _, _, n', -, -, -, -, -, -, ⟨_, _, _, _, h5⟩, hn'⟩ := h' i l' hl0'
    rw [hn', hn, h5 n hc1 hn]
  · have hf := fit_frame ops st x
    rw [h1] at hf
    obtain ⟨f1, -, -, -, -, -, -, -, f2, f3⟩ := hf
    rw [hl', f1, f2, f3] at hi'
    omega

/-- **C118** is false for lists of different lengths: they are cut to the shortest without a message,
and the global clustering then raises ValueError. -/
theorem C118_lengths_false (ops : Ops X L Ω C) (st st' : State L Ω C) (x : X) (n : ℕ) (t : Transform)
    (hd : st.daOmega = none) (h : fit ops st x = (st', .ok ()))
    (h0 : 0 < min st.steps.length st.ranks.length)
    (hlen : min st.steps.length st.ranks.length < st.windows.length) :
    (∃ ls, st'.levels = some ls ∧ ls.length < st.windows.length) ∧
    (globalClusterOmega ops st' (some n) t).2 = .error .valueError := by
  obtain ⟨ls, h1, h2, -⟩ := C118_fit_partial ops st st' x h
  have hf := fit_frame ops st x
  rw [h] at hf
  obtain ⟨f1, f2, -⟩ := hf
  simp only at f1 f2
  have hi : ∀ m, interp ops { st' with nGlobal := m, daOmega := none } = .error .valueError := by
    intro m
    unfold interp
    simp only [h1]
    cases ls with
    | nil => simp at h2; omega
    | cons l ls =>
      simp only
      rw [if_neg]
      rw [h2, f1]
      omega
  refine ⟨⟨ls, h1, by omega⟩, ?_⟩
  simp only [globalClusterOmega, Option.some_or, globalCluster', f2, hd, hi]

/-! ## C119: global bands -/

/-- The method in force: the argument, else that of the object, else `"absolute"`. -/
def method (arg own : Transform) : Transform :=
  if arg ≠ .none then arg else if own ≠ .none then own else .absolute

theorem globalCluster'_cached (ops : Ops X L Ω C) (st : State L Ω C) (n : ℕ) (t : Transform) (o : Ω)
    (h : st.daOmega = some o) (hm : method t st.transform ≠ .other) :
    globalCluster' ops st n t = (st, ops.globalCluster n (method t st.transform) o) := by
  obtain ⟨windows, steps, ranks, gs, nc, cs, t', lv, d, c, ng⟩ := st
  cases h
  cases t <;> cases t' <;> simp_all [globalCluster', method]

theorem globalCluster'_fresh (ops : Ops X L Ω C) (st : State L Ω C) (n : ℕ) (t : Transform) (o : Ω)
    (h : st.daOmega = none) (hi : interp ops st = .ok o) (hm : method t st.transform ≠ .other) :
    globalCluster' ops st n t =
      ({ st with daOmega := some o }, ops.globalCluster n (method t st.transform) o) := by
  rw [← globalCluster'_cached ops { st with daOmega := some o } n t o rfl hm]
  obtain ⟨windows, steps, ranks, gs, nc, cs, t', lv, d, c, ng⟩ := st
  cases h
  simp only [globalCluster', hi]

/-- `_da_omega` is not set, or belongs to the levels of the object. -/
def Fresh (ops : Ops X L Ω C) (st : State L Ω C) : Prop :=
  st.daOmega = none ∨ ∃ ls, st.levels = some ls ∧ st.daOmega = some (ops.interp ls)

theorem globalClusterOmega_fresh (ops : Ops X L Ω C) (st : State L Ω C) (n : Option ℕ) (t : Transform)
    (m : ℕ) (hm : n.or st.nGlobal = some m) (ls : List L) (hl : st.levels = some ls) (hne : ls ≠ [])
    (hlen : ls.length = st.windows.length) (hf : Fresh ops st) (hmt : method t st.transform ≠ .other) :
    (globalClusterOmega ops st n t).2 = ops.globalCluster m (method t st.transform) (ops.interp ls) ∧
    Fresh ops (globalClusterOmega ops st n t).1 ∧
    (globalClusterOmega ops st n t).1.levels = st.levels ∧
    (globalClusterOmega ops st n t).1.windows = st.windows ∧
    (globalClusterOmega ops st n t).1.transform = st.transform ∧
    (globalClusterOmega ops st n t).1.nGlobal = some m ∧
    (∀ c, (globalClusterOmega ops st n t).2 = .ok c →
      (globalClusterOmega ops st n t).1.omegaClasses = .ok c) := by
  have hkey : globalCluster' ops { st with nGlobal := some m } m t =
      ({ st with nGlobal := some m, daOmega := some (ops.interp ls) },
        ops.globalCluster m (method t st.transform) (ops.interp ls)) := by
    rcases hf with hf | ⟨ls', hl', hf⟩
    · refine globalCluster'_fresh ops { st with nGlobal := some m } m t (ops.interp ls) hf ?_ hmt
      unfold interp
      simp only [hl]
      cases ls with
      | nil => exact absurd rfl hne
      | cons a as => rw [if_pos hlen]
    · rw [hl] at hl'
      cases hl'
      rw [globalCluster'_cached ops { st with nGlobal := some m } m t (ops.interp ls) hf hmt, ← hf]
  unfold globalClusterOmega
  simp only [hm, hkey]
  cases ops.globalCluster m (method t st.transform) (ops.interp ls) with
  | error e =>
    exact ⟨rfl, Or.inr ⟨ls, hl, rfl⟩, rfl, rfl, rfl, rfl, fun c h => by cases h⟩
  | ok c => exact ⟨rfl, Or.inr ⟨ls, hl, rfl⟩, rfl, rfl, rfl, rfl, fun c h => by cases h; rfl⟩

/-- A sequence of global clusterings, with any arguments. -/
def clusterings (ops : Ops X L Ω C) (st : State L Ω C) : List (Option ℕ × Transform) → State L Ω C
  | [] => st
  | a :: as => clusterings ops (globalClusterOmega ops st a.1 a.2).1 as

/-- A sequence of fits. -/
def fits (ops : Ops X L Ω C) (st : State L Ω C) : List X → State L Ω C
  | [] => st
  | x :: xs => fits ops (fit ops st x).1 xs

theorem globalClusterOmega_keeps (ops : Ops X L Ω C) (st : State L Ω C) (n : Option ℕ) (t : Transform)
    (ls : List L) (hl : st.levels = some ls) (hne : ls ≠ []) (hlen : ls.length = st.windows.length)
    (hf : Fresh ops st) : Fresh ops (globalClusterOmega ops st n t).1 ∧
      (globalClusterOmega ops st n t).1.levels = st.levels ∧
      (globalClusterOmega ops st n t).1.windows = st.windows ∧
      (globalClusterOmega ops st n t).1.transform = st.transform := by
  cases hm : n.or st.nGlobal with
  | none =>
    unfold globalClusterOmega
    rw [hm]
    exact ⟨hf, rfl, rfl, rfl⟩
  | some m =>
    by_cases hmt : method t st.transform = .other
    · obtain ⟨windows, steps, ranks, gs, nc, cs, t', lv, d, c, ng⟩ := st
      simp only at hl hlen hm hmt
      subst hl
      have hi : ∀ ng : Option ℕ, interp ops (⟨windows, steps, ranks, gs, nc, cs, t', some ls, d, c, ng⟩ :
          State L Ω C) = .ok (ops.interp ls) := by
        intro ng
        cases ls with
        | nil => exact absurd rfl hne
        | cons a as => simp only [interp]; rw [if_pos hlen]
      rcases hf with hf | ⟨ls', hl', hf⟩
      · simp only at hf
        subst hf
        simp only [globalClusterOmega, hm]
        clear hm
        cases t <;> cases t' <;> simp_all [method, globalCluster', Fresh]
      · cases hl'
        simp only at hf
        subst hf
        simp only [globalClusterOmega, hm]
        clear hm
        cases t <;> cases t' <;> simp_all [method, globalCluster', Fresh]
    · obtain ⟨-, h2, h3, h4, h5, -⟩ := globalClusterOmega_fresh ops st n t m hm ls hl hne hlen hf hmt
      exact ⟨h2, h3, h4, h5⟩

/-- **C119** (global bands; partial: no fit after a clustering). On a new object, after any number of
fits, the last one with all its levels, and then any number of global clusterings, `global_cluster_omega`
clusters the eigenvalues of the levels of the last fit, into the number of bands given or used before,
with the method given, that of the object, or `"absolute"`; and the classes are recorded. -/
theorem C119_bands_partial (ops : Ops X L Ω C) (st₀ st : State L Ω C) (xs : List X)
    (as : List (Option ℕ × Transform)) (h0 : st₀.daOmega = none) (hst : st = fits ops st₀ xs) (ls : List L)
    (hl : st.levels = some ls) (hne : ls ≠ []) (hlen : ls.length = st.windows.length) (n : Option ℕ)
    (m : ℕ) (hm : n.or (clusterings ops st as).nGlobal = some m) (t : Transform)
    (hmt : method t st.transform ≠ .other) :
    (globalClusterOmega ops (clusterings ops st as) n t).2 =
      ops.globalCluster m (method t st.transform) (ops.interp ls) ∧
    ∀ c, (globalClusterOmega ops (clusterings ops st as) n t).2 = .ok c →
      (globalClusterOmega ops (clusterings ops st as) n t).1.omegaClasses = .ok c := by
  have hfr : Fresh ops st := by
    left
    rw [hst]
    clear hst hl hmt hm hlen
    induction xs generalizing st₀ with
    | nil => exact h0
    | cons x xs ih => exact ih _ ((fit_frame ops st₀ x).2.1.trans h0)
  clear hst
  induction as generalizing st with
  | nil =>
    obtain ⟨h1, -, -, -, -, -, h2⟩ := globalClusterOmega_fresh ops st n t m hm ls hl hne hlen hfr hmt
    exact ⟨h1, h2⟩
  | cons a as ih =>
    obtain ⟨h1, h2, h3, h4⟩ := globalClusterOmega_keeps ops st a.1 a.2 ls hl hne hlen hfr
    have := ih (globalClusterOmega ops st a.1 a.2).1 (h2.trans hl) (hlen.trans (by rw [h3])) hm
      (by rw [h4]; exact hmt) h1
    rw [h4] at this
    exact this

/-- **C119** is false after a further fit: whatever the new data, the classes found before are still
reported, and `global_cluster_omega` clusters the eigenvalues of the *earlier* fit again. -/
theorem C119_refit_false (ops : Ops X L Ω C) (st : State L Ω C) (y : X) (n : ℕ) (t : Transform) (c : C)
    (h : (globalClusterOmega ops st (some n) t).2 = .ok c) :
    let st₁ := (fit ops (globalClusterOmega ops st (some n) t).1 y).1
    st₁.omegaClasses = .ok c ∧ (globalClusterOmega ops st₁ (some n) t).2 = .ok c := by
  obtain ⟨o, hd, hc, hcl, htr, hm⟩ : ∃ o, (globalClusterOmega ops st (some n) t).1.daOmega = some o ∧
      ops.globalCluster n (method t st.transform) o = .ok c ∧
      (globalClusterOmega ops st (some n) t).1.classes = some c ∧
      (globalClusterOmega ops st (some n) t).1.transform = st.transform ∧
      method t st.transform ≠ .other := by
    obtain ⟨windows, steps, ranks, gs, nc, cs, t', lv, d, cl, ng⟩ := st
    have main : ∀ o, (d = some o ∨ (d = none ∧ interp ops (⟨windows, steps, ranks, gs, nc, cs, t', lv, d,
        cl, some n⟩ : State L Ω C) = .ok o)) → ∃ o,
        (globalClusterOmega ops (⟨windows, steps, ranks, gs, nc, cs, t', lv, d, cl, ng⟩ :
          State L Ω C) (some n) t).1.daOmega = some o ∧
        ops.globalCluster n (method t t') o = .ok c ∧
        (globalClusterOmega ops (⟨windows, steps, ranks, gs, nc, cs, t', lv, d, cl, ng⟩ :
          State L Ω C) (some n) t).1.classes = some c ∧
        (globalClusterOmega ops (⟨windows, steps, ranks, gs, nc, cs, t', lv, d, cl, ng⟩ :
          State L Ω C) (some n) t).1.transform = t' ∧
        method t t' ≠ .other := by
      intro o ho
      have hm : method t t' ≠ .other := by
        intro hm
        rcases ho with rfl | ⟨rfl, hi⟩
        · cases t <;> cases t' <;> simp_all [method, globalClusterOmega, globalCluster']
        · cases t <;> cases t' <;> simp_all [method, globalClusterOmega, globalCluster']
      have hkey : globalCluster' ops (⟨windows, steps, ranks, gs, nc, cs, t', lv, d, cl, some n⟩ :
          State L Ω C) n t = (⟨windows, steps, ranks, gs, nc, cs, t', lv, some o, cl, some n⟩,
            ops.globalCluster n (method t t') o) := by
        rcases ho with rfl | ⟨rfl, hi⟩
        · exact globalCluster'_cached ops _ n t o rfl hm
        · exact globalCluster'_fresh ops _ n t o rfl hi hm
      unfold globalClusterOmega at h ⊢
      simp only [Option.some_or, hkey] at h ⊢
      cases hg : ops.globalCluster n (method t t') o with
      | error e => rw [hg] at h; cases h
      | ok c' =>
        rw [hg] at h
        cases h
        exact ⟨o, rfl, hg, rfl, rfl, hm⟩
    cases d with
    | some o => exact main o (Or.inl rfl)
    | none =>
      cases hi : interp ops (⟨windows, steps, ranks, gs, nc, cs, t', lv, none, cl, some n⟩ :
          State L Ω C) with
      | ok o => exact main o (Or.inr ⟨rfl, hi⟩)
      | error e => simp [globalClusterOmega, globalCluster', hi] at h
  intro st₁
  obtain ⟨-, f2, f3, -, f5, -⟩ := fit_frame ops (globalClusterOmega ops st (some n) t).1 y
  have e1 : st₁.daOmega = some o := f2.trans hd
  have e2 : st₁.transform = st.transform := f5.trans htr
  refine ⟨by rw [State.omegaClasses, f3.trans hcl], ?_⟩
  unfold globalClusterOmega
  rw [Option.some_or]
  simp only
  rw [globalCluster'_cached ops { st₁ with nGlobal := some n } n t o e1 (by rw [e2]; exact hm)]
  simp only [e2, hc]

/-! ## A concrete object -/

/-- Operations on toy data: a level is a number, the low frequency component half of it. -/
def toyOps : Ops ℕ ℕ (List ℕ) (List ℕ) :=
  ⟨fun x _ _ _ _ => .ok x, fun _ l => .ok (l % 5), fun _ _ l => .ok l, fun l => l / 2, id,
    fun n _ o => .ok (o.map (· % n))⟩

def toy (n : Option (List (Option ℕ))) (sweep : Bool) (t : Transform) : State ℕ (List ℕ) (List ℕ) :=
  ⟨[4, 8], [1, 2], [3, 3], none, n, sweep, t, none, none, none, none⟩

example : State.init [4, 8] [1, 2] [3, 3] none (some [some 2, none]) false .absolute =
    .ok (toy (some [some 2, none]) false .absolute) := if_neg (by simp)

/-- A fit of two levels that succeeds, with a number given for one level and `NaN` for the other; the
hypotheses of `C118_fit_partial` and `C118_nan_false` are met, and the kept number is not what the sweep
would find. -/
example : (fit toyOps (toy (some [some 2, none]) false .absolute) 8).2 = .ok () ∧
    (fit toyOps (toy (some [some 2, none]) false .absolute) 8).1.levels = some [8, 4] ∧
    (fit toyOps (fit toyOps (toy (some [some 2, none]) false .absolute) 8).1 104).1.nComponents =
      some [some 2, some 4] ∧ toyOps.sweep .absolute 52 = .ok 2 := ⟨rfl, rfl, rfl, rfl⟩

/-- The defaults `transform_method=None` and `n_components_array=None`. -/
example : (fit toyOps (toy (some [some 2, some 2]) false .none) 8).2 = .error .valueError :=
  C118_default_false toyOps _ 8 4 1 3 true 8 (.inl rfl) rfl rfl rfl rfl rfl (.inr ⟨_, rfl⟩)

example : (fit toyOps (toy none false .absolute) 8).2 = .error .typeError :=
  C118_defaults_false toyOps _ 8 4 1 3 true 8 rfl rfl rfl rfl rfl rfl rfl

/-- After a second fit on other data the bands are those of the first fit, and differ from what the new
levels give. -/
example : let st := (globalClusterOmega toyOps (fit toyOps (toy (some [some 2, none]) false .absolute) 8).1
      (some 3) .none).1
    let st₁ := (fit toyOps st 100).1
    st.omegaClasses = .ok [2, 1] ∧ st₁.levels = some [100, 50] ∧ st₁.omegaClasses = .ok [2, 1] ∧
    (globalClusterOmega toyOps st₁ (some 3) .none).2 = .ok [2, 1] ∧
    toyOps.globalCluster 3 .absolute (toyOps.interp [100, 50]) = .ok [1, 2] :=
  ⟨rfl, rfl, rfl, rfl, rfl⟩

end Verif.MrCostsState
