import Verif.Model.ParamShared
import Verif.Lemmas.Param
import Verif.Props.Param

/-!
# Property C170: the objects handed to `ParametricDMD`
-/

set_option autoImplicit false

namespace Verif.ParamShared

open Verif Verif.Param

variable {D W V K : Type}

/-- The DMD instances an object refers to. -/
def Refs.all : Refs → List ℕ
  | .mono a => [a]
  | .part as => as

theorem fitLoop_spec (cls : DmdClass D W K) : ∀ (as : List ℕ) (mem : ℕ → D) (Ms : List (T2 K)), as.Nodup →
    (∀ x, x ∉ as → (fitLoop cls mem as Ms).2 x = mem x) ∧
    (∀ ds, fitZip cls (as.map mem) Ms = .ok ds → (fitLoop cls mem as Ms).1 = .ok () ∧ as.map (fitLoop cls mem as Ms).2 = ds) ∧
    ∀ e, fitZip cls (as.map mem) Ms = .error e → (fitLoop cls mem as Ms).1 = .error e := by
  intro as
  induction as with
  | nil => intro mem Ms _; simp [fitLoop, fitZip]
  | cons a as ih =>
    intro mem Ms hn
    obtain ⟨ha, hn'⟩ := List.nodup_cons.1 hn
    cases Ms with
    | nil => simp [fitLoop, fitZip]
    | cons M Ms =>
      cases hf : cls.fit M (mem a) with
      | error e => simp [fitLoop, fitZip, hf]
      | ok d =>
        obtain ⟨h1, h2, h3⟩ := ih (Function.update mem a d) Ms hn'
        have hmap : as.map (Function.update mem a d) = as.map mem :=
          List.map_congr_left fun x hx => Function.update_of_ne (fun h => ha (by rw [← h]; exact hx)) _ _
        rw [hmap] at h2 h3
        refine ⟨?_, ?_, ?_⟩
        · intro x hx
          rw [List.mem_cons, not_or] at hx
          simp only [fitLoop, hf]
          rw [h1 x hx.2, Function.update_of_ne hx.1]
        · intro ds hds
          simp only [List.map_cons, fitZip, hf] at hds
          cases hz : fitZip cls (as.map mem) Ms with
          | error e => rw [hz] at hds; simp [Except.map] at hds
          | ok ds' =>
            rw [hz] at hds
            simp only [Except.map, Except.ok.injEq] at hds
            obtain ⟨h4, h5⟩ := h2 ds' hz
            simp only [fitLoop, hf, List.map_cons]
            refine ⟨h4, ?_⟩
            rw [← hds, h5, h1 a ha, Function.update_self]
        · intro e he
          simp only [List.map_cons, fitZip, hf] at he
          cases hz : fitZip cls (as.map mem) Ms with
          | ok ds' => rw [hz] at he; simp [Except.map] at he
          | error e' =>
            rw [hz] at he
            simp only [Except.map, Except.error.injEq] at he
            simp only [fitLoop, hf]
            rw [h3 e' hz, he]

/-- **C170** (private objects, fit). If no DMD instance is given twice, `fit` is that of C37, C38, C61, C62, C112 and C165,
where every `ParametricDMD` has its own objects: it raises in the same cases, and leaves the same state if it does not. -/
theorem C170_fit (cls : DmdClass D W K) (podFit : T2 K → Pod K) (o : Obj V K) (m : World D K) (X : T3 K) (params : Params V)
    (len : ℕ) (hn : o.refs.all.Nodup) :
    (o.fit cls podFit m X params len).1 = ((o.view m).fit cls podFit X params len).1 ∧
    ((o.fit cls podFit m X params len).1 = .ok () →
      (o.fit cls podFit m X params len).2.1.view (o.fit cls podFit m X params len).2.2 =
        ((o.view m).fit cls podFit X params len).2) := by
  obtain ⟨refs, podRef, light, tp, ps, nt, co⟩ := o
  unfold Obj.fit PDmd.fit Obj.view
  by_cases h : X.d0 ≠ params.len len
  · simp [h]
  rw [if_neg h, if_neg h]
  cases refs with
  | mono a =>
    simp only [Bool.false_eq_true, if_false]
    cases params.normalise with
    | error e => simp
    | ok q =>
      simp only
      cases hs : ((podFit (arrange X)).reduce (arrange X)).splitCols X.d0 with
      | error e => simp
      | ok cs =>
        cases light <;> simp only [Bool.false_eq_true, if_false, if_true] <;>
        · cases vstack cs with
          | error e => simp
          | ok M =>
            simp only
            cases cls.fit M (m.dmd a) with
            | error e => simp
            | ok d => simp
  | part as =>
    simp only [List.length_map]
    by_cases hm : X.d0 != as.length
    · simp [hm]
    rw [if_neg hm, if_neg hm]
    cases params.normalise with
    | error e => simp
    | ok q =>
      simp only
      cases hs : ((podFit (arrange X)).reduce (arrange X)).splitCols X.d0 with
      | error e => simp
      | ok cs =>
        obtain ⟨-, h2, h3⟩ := fitLoop_spec cls as m.dmd cs hn
        cases light <;> simp only [Bool.false_eq_true, if_false, if_true] <;>
        · cases hz : fitZip cls (as.map m.dmd) cs with
          | error e => simp [h3 e hz]
          | ok ds => simp [(h2 ds hz).1, (h2 ds hz).2]

theorem bindTimes_spec (cls : DmdClass D W K) (hlaw : ∀ w d, cls.getTime (cls.setTime w d) = .ok w) (a0 : ℕ) (w : W) :
    ∀ (as : List ℕ) (mem : ℕ → D), as.Nodup → cls.getTime (mem a0) = .ok w →
      bindTimes cls a0 mem as = (.ok (), fun x => if x ∈ as then cls.setTime w (mem x) else mem x) := by
  intro as
  induction as with
  | nil => intro mem _ _; simp [bindTimes]
  | cons a as ih =>
    intro mem hn hw
    obtain ⟨ha, hn'⟩ := List.nodup_cons.1 hn
    simp only [bindTimes, hw]
    rw [ih _ hn']
    · congr 1
      funext x
      by_cases hx : x = a
      · subst hx; simp [ha]
      · simp [hx, Function.update_of_ne hx]
    · by_cases h0 : a0 = a
      · subst h0; rw [Function.update_self, hlaw]
      · rw [Function.update_of_ne h0, hw]

theorem mapM_map' {α β γ : Type} (f : α → β) (g : β → Except PyErr γ) (l : List α) :
    (l.map f).mapM g = l.mapM fun a => g (f a) := by
  induction l with
  | nil => rfl
  | cons a l ih => rw [List.map_cons, List.mapM_cons, List.mapM_cons, ih]

theorem predict_spec (cls : DmdClass D W K) (hlaw : ∀ w d, cls.getTime (cls.setTime w d) = .ok w) (o : Obj V K)
    (m : World D K) (hn : o.refs.all.Nodup) :
    (o.predictCoefficients cls m).1 = ((o.view m).predictCoefficients cls).1 ∧
    o.view (o.predictCoefficients cls m).2 = ((o.view m).predictCoefficients cls).2 ∧
    (o.predictCoefficients cls m).2.pod = m.pod := by
  obtain ⟨refs, podRef, light, tp, ps, nt, co⟩ := o
  unfold Obj.predictCoefficients PDmd.predictCoefficients Obj.view
  cases refs with
  | mono a => simp
  | part as =>
    cases as with
    | nil => simp
    | cons a as =>
      simp only [List.map_cons]
      cases hw : cls.getTime (m.dmd a) with
      | error e => simp [bindTimes, hw]
      | ok w =>
        have hb := bindTimes_spec cls hlaw a w (a :: as) m.dmd hn hw
        rw [hb]
        have key : ∀ bs : List ℕ, (∀ b ∈ bs, b ∈ a :: as) →
            bs.map (fun x => if x ∈ a :: as then cls.setTime w (m.dmd x) else m.dmd x) =
              (bs.map m.dmd).map (cls.setTime w) := by
          intro bs hbs
          rw [List.map_map]
          exact List.map_congr_left fun x hx => by simp only [if_pos (hbs x hx), Function.comp]
        have h1 := key (a :: as) fun _ h => h
        refine ⟨?_, ?_, rfl⟩
        · have e : ((a :: as).mapM fun b => cls.reconstructed
              ((fun x => if x ∈ a :: as then cls.setTime w (m.dmd x) else m.dmd x) b)) =
              (((a :: as).map m.dmd).map (cls.setTime w)).mapM cls.reconstructed := by
            rw [← h1, mapM_map']
          simp only [List.map_cons] at e ⊢
          rw [← e]
        · simp only [List.map_cons] at h1 ⊢
          rw [h1]

/-- **C170** (private objects, reading). If no DMD instance is given twice, `reconstructed_data` is that of the properties
of private objects, and leaves the same state. `hlaw`: a DMD returns the time that was assigned to it. -/
theorem C170_read [Inhabited K] (cls : DmdClass D W K) (hlaw : ∀ w d, cls.getTime (cls.setTime w d) = .ok w)
    (interp : List (List V) → T2 K → List (List V) → Except PyErr (T2 K)) (o : Obj V K) (m : World D K)
    (hn : o.refs.all.Nodup) :
    (o.reconstructedData cls interp m).1 = ((o.view m).reconstructedData cls interp).1 ∧
    o.view (o.reconstructedData cls interp m).2 = ((o.view m).reconstructedData cls interp).2 := by
  obtain ⟨h1, h2, h3⟩ := predict_spec cls hlaw o m hn
  unfold Obj.reconstructedData PDmd.reconstructedData
  generalize hp : o.predictCoefficients cls m = p at h1 h2 h3
  generalize hq : (o.view m).predictCoefficients cls = q at h1 h2
  obtain ⟨p1, p2⟩ := p
  obtain ⟨q1, q2⟩ := q
  simp only at h1 h2 h3
  subst h1
  cases p1 with
  | error e => exact ⟨rfl, h2⟩
  | ok M =>
    have hpod : q2.pod = p2.pod o.podRef := by rw [← h2]; rfl
    simp only [h2, hpod]
    cases q2.interpolate interp M with
    | error e => exact ⟨rfl, h2⟩
    | ok C =>
      cases p2.pod o.podRef with
      | none => exact ⟨rfl, h2⟩
      | some pod => exact ⟨rfl, h2⟩

theorem fitLoop_other (cls : DmdClass D W K) : ∀ (as : List ℕ) (mem : ℕ → D) (Ms : List (T2 K)) (x : ℕ), x ∉ as →
    (fitLoop cls mem as Ms).2 x = mem x := by
  intro as
  induction as with
  | nil => intro mem Ms x _; simp [fitLoop]
  | cons a as ih =>
    intro mem Ms x hx
    rw [List.mem_cons, not_or] at hx
    cases Ms with
    | nil => simp [fitLoop]
    | cons M Ms =>
      simp only [fitLoop]
      cases cls.fit M (mem a) with
      | error e => rfl
      | ok d => simp only; rw [ih _ _ _ hx.2, Function.update_of_ne hx.1]

theorem bindTimes_other (cls : DmdClass D W K) (a0 : ℕ) : ∀ (as : List ℕ) (mem : ℕ → D) (x : ℕ), x ∉ as →
    (bindTimes cls a0 mem as).2 x = mem x := by
  intro as
  induction as with
  | nil => intro mem x _; simp [bindTimes]
  | cons a as ih =>
    intro mem x hx
    rw [List.mem_cons, not_or] at hx
    simp only [bindTimes]
    cases cls.getTime (mem a0) with
    | error e => rfl
    | ok w => simp only; rw [ih _ _ hx.2, Function.update_of_ne hx.1]

theorem view_congr (o : Obj V K) (m m' : World D K) (h : ∀ x ∈ o.refs.all, m'.dmd x = m.dmd x)
    (hp : m'.pod o.podRef = m.pod o.podRef) : o.view m' = o.view m := by
  obtain ⟨refs, podRef, light, tp, ps, nt, co⟩ := o
  unfold Obj.view
  simp only at hp
  cases refs with
  | mono a => simp [hp, h a (by simp [Refs.all])]
  | part as =>
    have : as.map m'.dmd = as.map m.dmd := List.map_congr_left fun x hx => h x hx
    simp [hp, this]

/-- **C170** (independence). Fitting and reading an instance has no effect on instances with other DMDs and another POD. -/
theorem C170_separate [Inhabited K] (cls : DmdClass D W K) (podFit : T2 K → Pod K)
    (interp : List (List V) → T2 K → List (List V) → Except PyErr (T2 K)) (o o' : Obj V K) (m : World D K)
    (hd : ∀ x ∈ o'.refs.all, x ∉ o.refs.all) (hp : o'.podRef ≠ o.podRef) (X : T3 K) (params : Params V) (len : ℕ) :
    o'.view (o.fit cls podFit m X params len).2.2 = o'.view m ∧
    o'.view (o.reconstructedData cls interp m).2 = o'.view m := by
  refine ⟨?_, ?_⟩
  · have key : (∀ x, x ∉ o.refs.all → (o.fit cls podFit m X params len).2.2.dmd x = m.dmd x) ∧
        ∀ x, x ≠ o.podRef → (o.fit cls podFit m X params len).2.2.pod x = m.pod x := by
      obtain ⟨refs, podRef, light, tp, ps, nt, co⟩ := o
      unfold Obj.fit
      by_cases h : X.d0 ≠ params.len len
      · simp [h]
      rw [if_neg h]
      cases refs with
      | mono a =>
        simp only [Bool.false_eq_true, if_false]
        cases params.normalise with
        | error e => simp
        | ok q =>
          simp only
          cases ((podFit (arrange X)).reduce (arrange X)).splitCols X.d0 with
          | error e => exact ⟨fun _ _ => rfl, fun x hx => Function.update_of_ne hx _ _⟩
          | ok cs =>
            cases light <;> simp only [Bool.false_eq_true, if_false, if_true] <;>
            · cases vstack cs with
              | error e => exact ⟨fun _ _ => rfl, fun x hx => Function.update_of_ne hx _ _⟩
              | ok M =>
                simp only
                cases cls.fit M (m.dmd a) with
                | error e => exact ⟨fun _ _ => rfl, fun x hx => Function.update_of_ne hx _ _⟩
                | ok d =>
                  refine ⟨fun x hx => ?_, fun x hx => Function.update_of_ne hx _ _⟩
                  simp only [Refs.all, List.mem_singleton] at hx
                  exact Function.update_of_ne hx _ _
      | part as =>
        simp only
        by_cases hm : X.d0 != as.length
        · simp [hm]
        rw [if_neg hm]
        cases params.normalise with
        | error e => simp
        | ok q =>
          simp only
          cases ((podFit (arrange X)).reduce (arrange X)).splitCols X.d0 with
          | error e => exact ⟨fun _ _ => rfl, fun x hx => Function.update_of_ne hx _ _⟩
          | ok cs =>
            cases light <;> simp only [Bool.false_eq_true, if_false, if_true] <;>
            exact ⟨fun x hx => fitLoop_other cls as _ _ x hx, fun x hx => Function.update_of_ne hx _ _⟩
    exact view_congr _ _ _ (fun x hx => key.1 x (hd x hx)) (key.2 _ hp)
  · have key : (∀ x, x ∉ o.refs.all → (o.predictCoefficients cls m).2.dmd x = m.dmd x) ∧
        (o.predictCoefficients cls m).2.pod = m.pod := by
      obtain ⟨refs, podRef, light, tp, ps, nt, co⟩ := o
      unfold Obj.predictCoefficients
      cases refs with
      | mono a => simp
      | part as =>
        cases as with
        | nil => simp
        | cons a as =>
          have h1 := bindTimes_other cls a (a :: as) m.dmd
          simp only
          generalize bindTimes cls a m.dmd (a :: as) = b at h1
          obtain ⟨b1, b2⟩ := b
          cases b1 with
          | error e => exact ⟨h1, rfl⟩
          | ok u => exact ⟨h1, rfl⟩
    have e : (o.reconstructedData cls interp m).2 = (o.predictCoefficients cls m).2 := by
      unfold Obj.reconstructedData
      generalize o.predictCoefficients cls m = p
      obtain ⟨p1, p2⟩ := p
      cases p1 with
      | error e => rfl
      | ok M =>
        simp only
        cases (o.view p2).interpolate interp M with
        | error e => rfl
        | ok C => cases p2.pod o.podRef <;> rfl
    rw [e]
    exact view_congr _ _ _ (fun x hx => key.1 x (hd x hx)) (by rw [key.2])

/-! ## Shared objects -/

/-- After the loop over one instance given `k` times: the last fit. -/
theorem fitLoop_shared (cls : DmdClass D W K) (hforget : ∀ M d d', cls.fit M d = cls.fit M d') (a : ℕ) :
    ∀ (Ms : List (T2 K)) (M : T2 K) (mem : ℕ → D), (fitLoop cls mem (List.replicate (Ms.length + 1) a) (Ms ++ [M])).1 = .ok () →
      cls.fit M (mem a) = .ok ((fitLoop cls mem (List.replicate (Ms.length + 1) a) (Ms ++ [M])).2 a) := by
  intro Ms
  induction Ms with
  | nil =>
    intro M mem h
    simp only [List.length_nil, zero_add, List.replicate_one, List.nil_append, fitLoop] at h ⊢
    cases hf : cls.fit M (mem a) with
    | error e => rw [hf] at h; simp at h
    | ok d => simp
  | cons N Ms ih =>
    intro M mem h
    rw [List.length_cons, List.replicate_succ, List.cons_append] at h ⊢
    simp only [fitLoop] at h ⊢
    cases hf : cls.fit N (mem a) with
    | error e => rw [hf] at h; simp at h
    | ok d =>
      rw [hf] at h
      simp only at h ⊢
      rw [hforget M (mem a) d]
      have := ih M (Function.update mem a d) h
      rwa [Function.update_self] at this

/-- **C170** is false for one instance given several times, `ParametricDMD([dmd] * k, ...)`: after any `fit` that does not
raise, the instance is that of the last training parameter, and the forecast coefficients are the same for all training
parameters. `hforget`: a fit of a DMD does not depend on earlier fits (C26). -/
theorem C170_same_dmd_false (cls : DmdClass D W K) (hforget : ∀ M d d', cls.fit M d = cls.fit M d')
    (podFit : T2 K → Pod K) (o o₁ : Obj V K) (m m₁ : World D K) (X : T3 K) (params : Params V) (len k a : ℕ)
    (hr : o.refs = .part (List.replicate (k + 1) a)) (h : o.fit cls podFit m X params len = (.ok (), o₁, m₁)) :
    (∃ (Ms : List (T2 K)) (M : T2 K), ((podFit (arrange X)).reduce (arrange X)).splitCols X.d0 = .ok (Ms ++ [M]) ∧
      cls.fit M (m.dmd a) = .ok (m₁.dmd a)) ∧
    ∀ (w : World D K) (M : T2 K), (o₁.predictCoefficients cls w).1 = .ok M → ∀ F : T3 K, M.reshape3 (k + 1) = .ok F →
      ∀ p p' s t, p ≤ k → p' ≤ k → s < F.d1 → F.get p s t = F.get p' s t := by
  have hrefs : o₁.refs = o.refs ∧ ∃ cs, ((podFit (arrange X)).reduce (arrange X)).splitCols X.d0 = .ok cs ∧
      cs.length = k + 1 ∧ (fitLoop cls m.dmd (List.replicate (k + 1) a) cs).1 = .ok () ∧
      m₁.dmd = (fitLoop cls m.dmd (List.replicate (k + 1) a) cs).2 := by
    obtain ⟨refs, podRef, light, tp, ps, nt, co⟩ := o
    simp only at hr
    subst hr
    unfold Obj.fit at h
    by_cases hl : X.d0 ≠ params.len len
    · simp [hl] at h
    rw [if_neg hl] at h
    simp only at h
    by_cases hm : X.d0 != (List.replicate (k + 1) a).length
    · rw [if_pos hm] at h; simp at h
    rw [if_neg hm] at h
    have hX : X.d0 = k + 1 := by simpa using hm
    cases hq : params.normalise with
    | error e => rw [hq] at h; simp at h
    | ok q =>
      rw [hq] at h
      simp only at h
      cases hs : ((podFit (arrange X)).reduce (arrange X)).splitCols X.d0 with
      | error e => rw [hs] at h; simp at h
      | ok cs =>
        rw [hs] at h
        have hcs : cs.length = k + 1 := by
          unfold T2.splitCols at hs
          split_ifs at hs
          simp only [Except.ok.injEq] at hs
          rw [← hs]; simp [hX]
        cases light <;>
        · simp only [Bool.false_eq_true, if_false, if_true, Prod.mk.injEq] at h
          obtain ⟨e1, e2, e3⟩ := h
          subst e2
          exact ⟨rfl, cs, rfl, hcs, e1, by rw [← e3]⟩
  obtain ⟨hrefs, cs, hs, hcs, hok, hmem⟩ := hrefs
  refine ⟨?_, ?_⟩
  · have hne : cs ≠ [] := by intro h0; rw [h0] at hcs; simp at hcs
    refine ⟨cs.dropLast, cs.getLast hne, by rw [List.dropLast_concat_getLast, hs], ?_⟩
    have hl : cs.dropLast.length = k := by rw [List.length_dropLast, hcs]; rfl
    have := fitLoop_shared cls hforget a cs.dropLast (cs.getLast hne) m.dmd
      (by rw [hl, List.dropLast_concat_getLast]; exact hok)
    rw [hl, List.dropLast_concat_getLast, ← hmem] at this
    exact this
  · intro w M hM F hF p p' s t hp hp' hs'
    unfold Obj.predictCoefficients at hM
    rw [hrefs, hr, List.replicate_succ] at hM
    simp only at hM
    generalize bindTimes cls a w.dmd (a :: List.replicate k a) = b at hM
    obtain ⟨b1, mem⟩ := b
    cases b1 with
    | error e => simp at hM
    | ok u =>
      simp only at hM
      rw [← List.replicate_succ] at hM
      cases hR : cls.reconstructed (mem a) with
      | error e =>
        exfalso
        rw [List.replicate_succ, List.mapM_cons, hR] at hM
        simp [bind, Except.bind] at hM
      | ok R =>
        have hmm : ((List.replicate (k + 1) a).mapM fun b => cls.reconstructed (mem b)) =
            .ok (List.replicate (k + 1) R) := by
          apply mapM_ok
          · simp
          · intro i x y hx hy
            rw [List.eq_of_mem_replicate (List.mem_of_getElem? hx), List.eq_of_mem_replicate (List.mem_of_getElem? hy), hR]
        rw [hmm] at hM
        simp only [bind, Except.bind] at hM
        obtain ⟨C, h1, h2, h3, h4⟩ := vstack_blocks R.rows R.cols (List.replicate (k + 1) R) (by simp) (by
          intro R' hR'
          rw [List.eq_of_mem_replicate hR']
          exact ⟨rfl, rfl⟩)
        rw [h1] at hM
        simp only [Except.ok.injEq] at hM
        subst hM
        unfold T2.reshape3 at hF
        split at hF
        · simp at hF
        · simp only [Except.ok.injEq] at hF
          subst hF
          have hd : C.rows / (k + 1) = R.rows := by
            rw [h2, List.length_replicate]; exact Nat.mul_div_cancel_left _ (by omega)
          simp only [hd] at hs' ⊢
          have hget : ∀ i ≤ k, (List.replicate (k + 1) R)[i]? = some R := by
            intro i hi
            rw [List.getElem?_replicate, if_pos (by omega)]
          rw [h4 p s t R (hget p hp) hs', h4 p' s t R (hget p' hp') hs']

/-- **C170** is false for a POD shared by two instances: after the `fit` of one of them, the other one expands with the POD
of the data of the first. -/
theorem C170_same_pod_false (cls : DmdClass D W K) (podFit : T2 K → Pod K) (o o₁ o' : Obj V K) (m m₁ : World D K) (X : T3 K)
    (params : Params V) (len : ℕ) (hp : o'.podRef = o.podRef)
    (h : o.fit cls podFit m X params len = (.ok (), o₁, m₁)) : (o'.view m₁).pod = some (podFit (arrange X)) := by
  have key : m₁.pod o.podRef = some (podFit (arrange X)) := by
    obtain ⟨refs, podRef, light, tp, ps, nt, co⟩ := o
    unfold Obj.fit at h
    by_cases hl : X.d0 ≠ params.len len
    · simp [hl] at h
    rw [if_neg hl] at h
    cases refs with
    | mono a =>
      simp only [Bool.false_eq_true, if_false] at h
      cases hq : params.normalise with
      | error e => rw [hq] at h; simp at h
      | ok q =>
        rw [hq] at h
        simp only at h
        cases hs : ((podFit (arrange X)).reduce (arrange X)).splitCols X.d0 with
        | error e => rw [hs] at h; simp at h
        | ok cs =>
          rw [hs] at h
          cases light <;> simp only [Bool.false_eq_true, if_false, if_true] at h <;>
          · cases hv : vstack cs with
            | error e => rw [hv] at h; simp at h
            | ok M =>
              rw [hv] at h
              simp only at h
              cases hf : cls.fit M (m.dmd a) with
              | error e => rw [hf] at h; simp at h
              | ok d =>
                rw [hf] at h
                simp only [Prod.mk.injEq] at h
                rw [← h.2.2]; simp
    | part as =>
      simp only at h
      by_cases hm : X.d0 != as.length
      · rw [if_pos hm] at h; simp at h
      rw [if_neg hm] at h
      cases hq : params.normalise with
      | error e => rw [hq] at h; simp at h
      | ok q =>
        rw [hq] at h
        simp only at h
        cases hs : ((podFit (arrange X)).reduce (arrange X)).splitCols X.d0 with
        | error e => rw [hs] at h; simp at h
        | ok cs =>
          rw [hs] at h
          cases light <;>
          · simp only [Bool.false_eq_true, if_false, if_true, Prod.mk.injEq] at h
            rw [← h.2.2]; simp
  show m₁.pod o'.podRef = _
  rw [hp, key]

theorem fitLoop_fail (cls : DmdClass D W K) (b : ℕ) (post : List ℕ) (M : T2 K) (Mpost : List (T2 K)) (e : PyErr) :
    ∀ (pre : List ℕ) (Mpre : List (T2 K)) (mem : ℕ → D) (ds : List D), (pre ++ b :: post).Nodup → pre.length = Mpre.length →
      fitZip cls (pre.map mem) Mpre = .ok ds → cls.fit M (mem b) = .error e →
      (fitLoop cls mem (pre ++ b :: post) (Mpre ++ M :: Mpost)).1 = .error e ∧
      (pre ++ b :: post).map (fitLoop cls mem (pre ++ b :: post) (Mpre ++ M :: Mpost)).2 = ds ++ (b :: post).map mem := by
  intro pre
  induction pre with
  | nil =>
    intro Mpre mem ds _ hl hz he
    obtain rfl : Mpre = [] := List.length_eq_zero_iff.1 hl.symm
    simp only [List.map_nil, fitZip, Except.ok.injEq] at hz
    subst hz
    simp [fitLoop, he]
  | cons a pre ih =>
    intro Mpre mem ds hn hl hz he
    cases Mpre with
    | nil => simp at hl
    | cons N Mpre =>
      rw [List.cons_append] at hn ⊢
      obtain ⟨ha, hn'⟩ := List.nodup_cons.1 hn
      simp only [List.map_cons, fitZip] at hz
      cases hf : cls.fit N (mem a) with
      | error e' => rw [hf] at hz; simp at hz
      | ok d =>
        rw [hf] at hz
        simp only at hz
        cases hz' : fitZip cls (pre.map mem) Mpre with
        | error e' => rw [hz'] at hz; simp [Except.map] at hz
        | ok ds' =>
          rw [hz'] at hz
          simp only [Except.map, Except.ok.injEq] at hz
          have hmap : ∀ l : List ℕ, a ∉ l → l.map (Function.update mem a d) = l.map mem := fun l hl' =>
            List.map_congr_left fun x hx => Function.update_of_ne (fun h => hl' (by rw [← h]; exact hx)) _ _
          have hap : a ∉ pre := fun h => ha (List.mem_append_left _ h)
          have hab : a ∉ b :: post := fun h => ha (List.mem_append_right _ h)
          have hne : b ≠ a := fun h => hab (by rw [h]; exact List.mem_cons_self)
          obtain ⟨h1, h2⟩ := ih Mpre (Function.update mem a d) ds' hn' (by simpa using hl)
            (by rw [hmap _ hap]; exact hz') (by rw [Function.update_of_ne hne]; exact he)
          rw [List.cons_append]
          simp only [fitLoop, hf]
          refine ⟨h1, ?_⟩
          rw [List.map_cons, h2, fitLoop_other cls _ _ _ a ha, Function.update_self, ← hz, List.cons_append, hmap _ hab]

/-- **C170** is false for a `fit` in which the DMD of one of the parameters raises: the instance is left with the DMDs of
the parameters before fitted to the new data, the other DMDs as they were, and the POD and the parameters of the new
data. -/
theorem C170_failure_false (cls : DmdClass D W K) (podFit : T2 K → Pod K) (o : Obj V K) (m : World D K) (X : T3 K)
    (params : Params V) (len b : ℕ) (pre post : List ℕ) (Mpre Mpost : List (T2 K)) (M : T2 K) (ps : List (List V))
    (ds : List D) (e : PyErr) (hr : o.refs = .part (pre ++ b :: post)) (hn : (pre ++ b :: post).Nodup)
    (hlen : X.d0 = params.len len) (hd0 : X.d0 = (pre ++ b :: post).length) (hps : params.normalise = .ok ps)
    (hs : ((podFit (arrange X)).reduce (arrange X)).splitCols X.d0 = .ok (Mpre ++ M :: Mpost))
    (hl : pre.length = Mpre.length) (hz : fitZip cls (pre.map m.dmd) Mpre = .ok ds) (he : cls.fit M (m.dmd b) = .error e) :
    ∃ o₁ m₁, o.fit cls podFit m X params len = (.error e, o₁, m₁) ∧
      (o₁.view m₁).dmd = .part (ds ++ (b :: post).map m.dmd) ∧
      (o₁.view m₁).pod = some (podFit (arrange X)) ∧ (o₁.view m₁).trainingParameters = some ps := by
  obtain ⟨h1, h2⟩ := fitLoop_fail cls b post M Mpost e pre Mpre m.dmd ds hn hl hz he
  obtain ⟨refs, podRef, light, tp, qs, nt, co⟩ := o
  simp only at hr
  subst hr
  unfold Obj.fit
  rw [if_neg (by simpa using hlen)]
  simp only
  rw [if_neg (by simpa using hd0), hps]
  simp only [hs]
  cases light <;>
  · simp only [Bool.false_eq_true, if_false, if_true, h1]
    refine ⟨_, _, rfl, ?_, ?_, rfl⟩
    · simp only [Obj.view, h2]
    · simp [Obj.view]

/-- **C170** (training coefficients). A light instance and one without fit raise `RuntimeError`; otherwise, after a fit that
does not raise, `training_modal_coefficients` are the blocks of the reduced data, one per training parameter. -/
theorem C170_coefficients (cls : DmdClass D W K) (podFit : T2 K → Pod K) (o : Obj V K) (m : World D K) (X : T3 K)
    (params : Params V) (len : ℕ) :
    (o.light = true → o.trainingModalCoefficients = .error .runtimeError ∧
      (o.fit cls podFit m X params len).2.1.trainingModalCoefficients = .error .runtimeError) ∧
    (o.coefficients = none → o.trainingModalCoefficients = .error .runtimeError) ∧
    (o.light = false → (o.fit cls podFit m X params len).1 = .ok () → ∃ cs,
      ((podFit (arrange X)).reduce (arrange X)).splitCols X.d0 = .ok cs ∧
      (o.fit cls podFit m X params len).2.1.trainingModalCoefficients = .ok cs) := by
  obtain ⟨refs, podRef, light, tp, qs, nt, co⟩ := o
  refine ⟨?_, ?_, ?_⟩
  · intro hl
    simp only at hl
    subst hl
    refine ⟨rfl, ?_⟩
    unfold Obj.fit
    by_cases h : X.d0 ≠ params.len len
    · rw [if_pos h]; rfl
    rw [if_neg h]
    cases refs with
    | mono a =>
      simp only [Bool.false_eq_true, if_false]
      cases params.normalise with
      | error e => rfl
      | ok q =>
        simp only
        cases ((podFit (arrange X)).reduce (arrange X)).splitCols X.d0 with
        | error e => rfl
        | ok cs =>
          simp only [if_true]
          cases vstack cs with
          | error e => rfl
          | ok M =>
            simp only
            cases cls.fit M (m.dmd a) <;> rfl
    | part as =>
      simp only
      by_cases hm : X.d0 != as.length
      · rw [if_pos hm]; rfl
      rw [if_neg hm]
      cases params.normalise with
      | error e => rfl
      | ok q =>
        simp only
        cases ((podFit (arrange X)).reduce (arrange X)).splitCols X.d0 with
        | error e => rfl
        | ok cs => rfl
  · intro hc
    simp only at hc
    subst hc
    cases light <;> rfl
  · intro hl h
    simp only at hl
    subst hl
    unfold Obj.fit at h ⊢
    by_cases h0 : X.d0 ≠ params.len len
    · rw [if_pos h0] at h; simp at h
    rw [if_neg h0] at h ⊢
    cases refs with
    | mono a =>
      simp only [Bool.false_eq_true, if_false] at h ⊢
      cases hq : params.normalise with
      | error e => rw [hq] at h; simp at h
      | ok q =>
        rw [hq] at h
        simp only at h ⊢
        cases hs : ((podFit (arrange X)).reduce (arrange X)).splitCols X.d0 with
        | error e => rw [hs] at h; simp at h
        | ok cs =>
          rw [hs] at h
          simp only at h ⊢
          refine ⟨cs, rfl, ?_⟩
          cases hv : vstack cs with
          | error e => rfl
          | ok M =>
            simp only
            cases cls.fit M (m.dmd a) <;> rfl
    | part as =>
      simp only at h ⊢
      by_cases hm : X.d0 != as.length
      · rw [if_pos hm] at h; simp at h
      rw [if_neg hm] at h ⊢
      cases hq : params.normalise with
      | error e => rw [hq] at h; simp at h
      | ok q =>
        rw [hq] at h
        simp only at h ⊢
        cases hs : ((podFit (arrange X)).reduce (arrange X)).splitCols X.d0 with
        | error e => rw [hs] at h; simp at h
        | ok cs => exact ⟨cs, rfl, rfl⟩

/-- One instance given twice, data 0, 1 and 10, 11 for the parameters 3 and 4: the forecast for both is 10, 11. -/
example : ∃ (o o₁ : Obj ℕ ℕ) (m m₁ : World (Option (T2 ℕ) × ℕ) ℕ) (M : T2 ℕ), o.refs = .part [7, 7] ∧
    o.fit storing (fun _ => keepPod) m ⟨2, 1, 2, fun p _ t => 10 * p + t⟩ (.one [3, 4]) 0 = (.ok (), o₁, m₁) ∧
    (o₁.predictCoefficients storing m₁).1 = .ok M ∧ (M.rows, M.cols) = (2, 2) ∧
    (M.get 0 0, M.get 0 1, M.get 1 0, M.get 1 1) = (10, 11, 10, 11) :=
  ⟨⟨.part [7, 7], 0, false, none, none, none, none⟩, _, ⟨fun _ => (none, 0), fun _ => none⟩, _, _, rfl, rfl, rfl, rfl, rfl⟩

/-- With two instances the forecasts are 0, 1 and 10, 11. -/
example : ∃ (o o₁ : Obj ℕ ℕ) (m m₁ : World (Option (T2 ℕ) × ℕ) ℕ) (M : T2 ℕ), o.refs = .part [7, 8] ∧
    o.fit storing (fun _ => keepPod) m ⟨2, 1, 2, fun p _ t => 10 * p + t⟩ (.one [3, 4]) 0 = (.ok (), o₁, m₁) ∧
    (o₁.predictCoefficients storing m₁).1 = .ok M ∧ (M.rows, M.cols) = (2, 2) ∧
    (M.get 0 0, M.get 0 1, M.get 1 0, M.get 1 1) = (0, 1, 10, 11) :=
  ⟨⟨.part [7, 8], 0, false, none, none, none, none⟩, _, ⟨fun _ => (none, 0), fun _ => none⟩, _, _, rfl, rfl, rfl, rfl, rfl⟩

/-- A POD that subtracts the first entry of the data. -/
def shiftPod (M : T2 ℕ) : Pod ℕ := ⟨fun A => ⟨A.rows, A.cols, fun i j => A.get i j - M.get 0 0⟩, List.map (· + M.get 0 0)⟩

/-- Two instances with one POD: the reconstruction of the first at its only parameter is 5, 6, and after the fit of the
second, to data from 100 on, it is 100, 101. -/
example : ∃ (o o' o₁ o₂ : Obj ℕ ℕ) (m m₁ m₂ : World (Option (T2 ℕ) × ℕ) ℕ) (A B : T3 ℕ),
    o.refs.all = [0] ∧ o'.refs.all = [1] ∧ o.podRef = o'.podRef ∧
    o.fit storing shiftPod m ⟨1, 1, 2, fun _ _ t => 5 + t⟩ (.one [3]) 0 = (.ok (), o₁, m₁) ∧
    o'.fit storing shiftPod m₁ ⟨1, 1, 2, fun _ _ t => 100 + t⟩ (.one [3]) 0 = (.ok (), o₂, m₂) ∧
    (o₁.reconstructedData storing (fun _ S _ => .ok S) m₁).1 = .ok A ∧
    (o₁.reconstructedData storing (fun _ S _ => .ok S) m₂).1 = .ok B ∧
    (A.get 0 0 0, A.get 0 0 1) = (5, 6) ∧ (B.get 0 0 0, B.get 0 0 1) = (100, 101) :=
  ⟨⟨.mono 0, 9, false, none, some [[3]], none, none⟩, ⟨.mono 1, 9, false, none, none, none, none⟩, _, _,
    ⟨fun _ => (none, 0), fun _ => none⟩, _, _, _, _, rfl, rfl, rfl, rfl, rfl, rfl, rfl, rfl, rfl⟩

end Verif.ParamShared
