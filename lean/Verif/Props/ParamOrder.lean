import Verif.Props.ParamNew
import Mathlib.Logic.Equiv.Basic

/-!
# C165: parametric DMD and the order of the training parameters

The training parameters, their snapshots and (partitioned method) their DMDs are given in another
order. Position `p` of the new order is position `σ p` of the old one.
-/

set_option autoImplicit false

namespace Verif.Param

open Verif

variable {K D W V : Type}

/-- What is assumed of the DMD class: the reconstruction over the window `w` of an instance `d` fitted
on `M` has the rows of `M` and `len w` columns, and its entries `rec d M w` are a function of the
instance, the data and the window. A window assigned is read back, and replaces the one before. -/
structure Behaves (cls : DmdClass D W K) (len : W → ℕ) (rec : D → T2 K → W → ℕ → ℕ → K) : Prop where
  fit : ∀ M d, ∃ d', cls.fit M d = .ok d' ∧ ∀ w, ∃ R, cls.reconstructed (cls.setTime w d') = .ok R ∧
    R.rows = M.rows ∧ R.cols = len w ∧ ∀ i t : ℕ, i < M.rows → t < len w → R.get i t = rec d M w i t
  data : ∀ M M' d w, M.Same M' → ∀ i t : ℕ, i < M.rows → rec d M w i t = rec d M' w i t
  get : ∀ w d, cls.getTime (cls.setTime w d) = .ok w
  set : ∀ w w' d, cls.setTime w (cls.setTime w' d) = cls.setTime w d

/-- The snapshots with the training parameters in another order. -/
def T3.reorder (X : T3 K) (σ : Equiv.Perm ℕ) : T3 K := ⟨X.d0, X.d1, X.d2, fun p => X.get (σ p)⟩

/-- What the user reads: `dmd_time = w`, `parameters = qs`, then `reconstructed_data`. -/
def forecastAt [Inhabited K] (cls : DmdClass D W K)
    (interp : List (List V) → T2 K → List (List V) → Except PyErr (T2 K)) (o : PDmd D V K) (w : W)
    (qs : List (List V)) : Except PyErr (T3 K) :=
  (((o.setTime cls w).2.setParameters (.two qs)).2.reconstructedData cls interp).1

/-- Equal shapes and entries. -/
def T3.Same (A B : T3 K) : Prop :=
  A.d0 = B.d0 ∧ A.d1 = B.d1 ∧ A.d2 = B.d2 ∧
    ∀ i j k : ℕ, i < A.d0 → j < A.d1 → k < A.d2 → A.get i j k = B.get i j k

/-- The reduced snapshots of training parameter `p`. -/
def coef (X : T3 K) (r : ℕ) (g : List K → ℕ → K) (p : ℕ) : T2 K :=
  ⟨r, X.d2, fun i t => g ((List.range X.d1).map fun s => X.get p s t) i⟩

/-- The coefficients one above the other, as the monolithic method fits them. -/
def coefAll (X : T3 K) (r : ℕ) (g : List K → ℕ → K) : T2 K :=
  ⟨X.d0 * r, X.d2, fun i t => (coef X r g (i / r)).get (i % r) t⟩

theorem forecasts_part {cls : DmdClass D W K} {len : W → ℕ} {rec : D → T2 K → W → ℕ → ℕ → K}
    (hb : Behaves cls len rec) (podFit : T2 K → Pod K) (o : PDmd D V K) (X : T3 K) (h0 : 0 < X.d0)
    (params : Params V) (ps : List (List V)) (hps : params.normalise = .ok ps)
    (hlen : params.len 0 = X.d0) (ds : List D) (hd : o.dmd = .part ds) (hdl : ds.length = X.d0)
    (dd : ℕ → D) (hdd : ∀ p < X.d0, ds[p]? = some (dd p)) (r : ℕ) (g : List K → ℕ → K)
    (hpod : (podFit (arrange X)).Columnwise X.d1 r g) :
    ∃ o₁, o.fit cls podFit X params 0 = (.ok (), o₁) ∧ ∀ w qs, 0 < len w →
      Forecasts cls ((o₁.setTime cls w).2.setParameters (.two qs)).2 ps (podFit (arrange X)) X.d0 r
        (len w) (fun p s t => rec (dd p) (coef X r g p) w s t) ∧
      ((o₁.setTime cls w).2.setParameters (.two qs)).2.parameters = some qs := by
  obtain ⟨cs, hs, hcl, hc⟩ := coefficients_spec X _ r g hpod h0
  have hfit0 : ∀ M d, ∃ d', cls.fit M d = .ok d' := fun M d =>
    let ⟨d', h, _⟩ := hb.fit M d; ⟨d', h⟩
  obtain ⟨ds', hds'⟩ := fitZip_ok cls hfit0 ds cs
  obtain ⟨z1, z2⟩ := fitZip_spec cls ds cs ds' (by rw [hdl, hcl]) hds'
  obtain ⟨dmd, light, tp, pr, nt, pod, co⟩ := o
  simp only at hd
  subst hd
  have hfit : ∃ o₁, PDmd.fit cls podFit ⟨.part ds, light, tp, pr, nt, pod, co⟩ X params 0 =
      (.ok (), o₁) ∧ o₁.dmd = .part ds' ∧ o₁.ntrain = some X.d0 ∧
      o₁.trainingParameters = some ps ∧ o₁.pod = some (podFit (arrange X)) := by
    unfold PDmd.fit
    rw [if_neg (by simp [hlen])]
    cases light
    · simp only [hdl, bne_self_eq_false, hps, hs, Bool.false_eq_true, if_false, hds']
      exact ⟨_, rfl, rfl, rfl, rfl, rfl⟩
    · simp only [hdl, bne_self_eq_false, hps, hs, Bool.false_eq_true, if_false, if_true, hds']
      exact ⟨_, rfl, rfl, rfl, rfl, rfl⟩
  obtain ⟨o₁, f1, f2, f3, f4, f5⟩ := hfit
  refine ⟨o₁, f1, fun w qs hw => ?_⟩
  obtain ⟨d0, dt, hd0⟩ : ∃ d0 dt, ds' = d0 :: dt := by
    cases ds' with
    | nil => simp at z1; omega
    | cons a b => exact ⟨a, b, rfl⟩
  have hall : ∀ p : Fin X.d0, ∃ e R, ds'[(p : ℕ)]? = some e ∧
      cls.reconstructed (cls.setTime w e) = .ok R ∧ R.rows = r ∧ R.cols = len w ∧
      ∀ i t : ℕ, i < r → t < len w → R.get i t = rec (dd p) (coef X r g p) w i t := by
    intro p
    obtain ⟨c, hcp⟩ : ∃ c, cs[(p : ℕ)]? = some c := ⟨_, List.getElem?_eq_getElem (by have := p.2; omega)⟩
    obtain ⟨e, he, hfe⟩ := z2 p _ c (hdd p p.2) hcp
    obtain ⟨-, c1, c2, c3⟩ := hc p c hcp
    obtain ⟨d', hd', hR⟩ := hb.fit c (dd p)
    rw [hfe] at hd'
    cases hd'
    obtain ⟨R, r1, r2, r3, r4⟩ := hR w
    refine ⟨e, R, he, r1, by rw [r2, c1], r3, fun i t hi ht => ?_⟩
    rw [r4 i t (by omega) ht]
    exact hb.data c _ _ _ ⟨c1, c2, fun i t hi ht => c3 i t (by omega) (by omega)⟩ i t (by omega)
  choose ef Rf he hR hr hcols hget using hall
  let Rs := List.ofFn Rf
  have hRl : Rs.length = X.d0 := by simp [Rs]
  have hRp : ∀ (p : ℕ) (hp : p < X.d0), Rs[p]? = some (Rf ⟨p, hp⟩) := by
    intro p hp; simp [Rs, List.getElem?_ofFn, hp]
  obtain ⟨M, m1, m2, m3, m4⟩ := vstack_blocks r (len w) Rs (by intro h; rw [h] at hRl; simp at hRl; omega)
    (by
      intro R hRm
      obtain ⟨p, rfl⟩ := List.mem_ofFn.mp hRm
      exact ⟨hr p, hcols p⟩)
  have hmap : ((cls.setTime w (cls.setTime w d0)) :: dt.map (cls.setTime w)).mapM cls.reconstructed = .ok Rs := by
    have : ((cls.setTime w (cls.setTime w d0)) :: dt.map (cls.setTime w)) = ds'.map (cls.setTime w) := by
      rw [hd0, hb.set]; rfl
    rw [this]
    apply mapM_ok
    · simp [hRl, z1, hdl]
    · intro p a b ha hbp
      rw [List.getElem?_map] at ha
      obtain ⟨e, h1, rfl⟩ := Option.map_eq_some_iff.mp ha
      have hp : p < X.d0 := by rw [← hRl]; exact (List.getElem?_eq_some_iff.mp hbp).1
      have h2 := he ⟨p, hp⟩
      simp only at h2
      rw [h1, Option.some.injEq] at h2
      rw [hRp p hp, Option.some.injEq] at hbp
      rw [h2, ← hbp]
      exact hR ⟨p, hp⟩
  obtain ⟨dmd1, light1, tp1, pr1, nt1, pod1, co1⟩ := o₁
  simp only at f2 f3 f4 f5
  subst f2 f3 f4 f5 hd0
  refine ⟨⟨h0, hw, ?_, rfl, rfl, rfl⟩, rfl⟩
  refine ⟨M, ⟨.part ((cls.setTime w (cls.setTime w d0)) :: dt.map (cls.setTime w)), light1, some ps,
    some qs, some X.d0, some (podFit (arrange X)), co1⟩, ?_, by rw [m2, hRl], m3, ?_⟩
  · simp only [PDmd.setTime, PDmd.setParameters, Params.normalise, PDmd.predictCoefficients, hb.get,
      List.map_cons, hmap, bind, Except.bind, m1]
  · intro p s t hp hs' ht
    rw [m4 p s t _ (hRp p hp) hs']
    exact hget ⟨p, hp⟩ s t hs' ht

theorem forecasts_mono {cls : DmdClass D W K} {len : W → ℕ} {rec : D → T2 K → W → ℕ → ℕ → K}
    (hb : Behaves cls len rec) (podFit : T2 K → Pod K) (o : PDmd D V K) (X : T3 K) (h0 : 0 < X.d0)
    (params : Params V) (ps : List (List V)) (hps : params.normalise = .ok ps)
    (hlen : params.len 0 = X.d0) (d : D) (hd : o.dmd = .mono d) (r : ℕ) (g : List K → ℕ → K)
    (hpod : (podFit (arrange X)).Columnwise X.d1 r g) :
    ∃ o₁, o.fit cls podFit X params 0 = (.ok (), o₁) ∧ ∀ w qs, 0 < len w →
      Forecasts cls ((o₁.setTime cls w).2.setParameters (.two qs)).2 ps (podFit (arrange X)) X.d0 r
        (len w) (fun p s t => rec d (coefAll X r g) w (p * r + s) t) ∧
      ((o₁.setTime cls w).2.setParameters (.two qs)).2.parameters = some qs := by
  obtain ⟨cs, hs, hcl, hc⟩ := coefficients_spec X _ r g hpod h0
  have hsh : ∀ c ∈ cs, c.rows = r ∧ c.cols = X.d2 := by
    intro c hcm
    obtain ⟨p, hpc⟩ := List.mem_iff_getElem?.mp hcm
    obtain ⟨-, a, b, -⟩ := hc p c hpc
    exact ⟨a, b⟩
  obtain ⟨C, v1, v2, v3, v4⟩ := vstack_blocks r X.d2 cs (by intro h; simp [h] at hcl; omega) hsh
  obtain ⟨d', hd', hR⟩ := hb.fit C d
  obtain ⟨dmd, light, tp, pr, nt, pod, co⟩ := o
  simp only at hd
  subst hd
  have hfit : ∃ o₁, PDmd.fit cls podFit ⟨.mono d, light, tp, pr, nt, pod, co⟩ X params 0 =
      (.ok (), o₁) ∧ o₁.dmd = .mono d' ∧ o₁.ntrain = some X.d0 ∧
      o₁.trainingParameters = some ps ∧ o₁.pod = some (podFit (arrange X)) := by
    unfold PDmd.fit
    rw [if_neg (by simp [hlen])]
    cases light
    · simp only [hps, hs, Bool.false_eq_true, if_false, v1, hd']
      exact ⟨_, rfl, rfl, rfl, rfl, rfl⟩
    · simp only [hps, hs, Bool.false_eq_true, if_false, if_true, v1, hd']
      exact ⟨_, rfl, rfl, rfl, rfl, rfl⟩
  obtain ⟨o₁, f1, f2, f3, f4, f5⟩ := hfit
  refine ⟨o₁, f1, fun w qs hw => ?_⟩
  obtain ⟨R, r1, r2, r3, r4⟩ := hR w
  obtain ⟨dmd1, light1, tp1, pr1, nt1, pod1, co1⟩ := o₁
  simp only at f2 f3 f4 f5
  subst f2 f3 f4 f5
  refine ⟨⟨h0, hw, ?_, rfl, rfl, rfl⟩, rfl⟩
  refine ⟨R, ⟨.mono (cls.setTime w d'), light1, some ps, some qs, some X.d0,
    some (podFit (arrange X)), co1⟩, ?_, by rw [r2, v2, hcl], r3, ?_⟩
  · simp only [PDmd.setTime, PDmd.setParameters, Params.normalise, PDmd.predictCoefficients, r1]
  · intro p s t hp hs' ht
    have hlt := index_lt hp hs'
    rw [r4 _ t (by rw [v2, hcl]; exact hlt) ht]
    refine hb.data C _ d w ⟨by rw [v2, hcl]; rfl, v3, ?_⟩ _ t (by rw [v2, hcl]; exact hlt)
    intro i t hi ht
    rw [v2, hcl] at hi
    have hrpos : 0 < r := by by_contra h; simp at h; subst h; simp at hi
    have hq : i / r < X.d0 := Nat.div_lt_of_lt_mul (by rw [mul_comm]; exact hi)
    have hm : i % r < r := Nat.mod_lt _ hrpos
    obtain ⟨c, hcp⟩ : ∃ c, cs[i / r]? = some c := ⟨_, List.getElem?_eq_getElem (by omega)⟩
    have hi' : i = i / r * r + i % r := (Nat.div_add_mod' i r).symm
    conv_lhs => rw [hi']
    rw [v4 _ _ t c hcp hm]
    exact (hc _ c hcp).2.2.2 _ t hm (by omega)

/-- The interpolator does not depend on the order in which the training parameters and their values
are given. -/
def OrderFree (f : List (List V) → T2 K → List V → ℕ → K) : Prop :=
  ∀ (σ : Equiv.Perm ℕ) (train train' : List (List V)) (S S' : T2 K) (q : List V) (s : ℕ),
    (∀ p, train'[p]? = train[σ p]?) → S'.rows = S.rows → S'.cols = S.cols →
    (∀ p, σ p < S.rows ↔ p < S.rows) →
    (∀ p s : ℕ, p < S.rows → s < S.cols → S'.get p s = S.get (σ p) s) → s < S.cols →
    f train' S' q s = f train S q s

theorem OrderFree.ext {f : List (List V) → T2 K → List V → ℕ → K} (hf : OrderFree f) (train) (S S' : T2 K)
    (q) (s : ℕ) (h : S.Same S') (hs : s < S.cols) : f train S q s = f train S' q s :=
  (hf 1 train train S S' q s (fun _ => rfl) h.1.symm h.2.1.symm (fun _ => Iff.rfl)
    (fun p s hp hs => (h.2.2 p s hp hs).symm) hs).symm

theorem forecastAt_eq [Inhabited K] {cls : DmdClass D W K}
    {interp : List (List V) → T2 K → List (List V) → Except PyErr (T2 K)}
    {f : List (List V) → T2 K → List V → ℕ → K} (hi : PointwiseInterp interp f) (hf : OrderFree f)
    (o o' : PDmd D V K) (w : W) (qs : List (List V)) (hne : qs ≠ []) (train train' : List (List V))
    (pod pod' : Pod K) (hexp : pod'.expand = pod.expand) (k r T : ℕ) (c c' : ℕ → ℕ → ℕ → K)
    (σ : Equiv.Perm ℕ) (hσ : ∀ p, σ p < k ↔ p < k) (htr : ∀ p, train'[p]? = train[σ p]?)
    (hcc : ∀ p s t : ℕ, p < k → s < r → t < T → c' p s t = c (σ p) s t)
    (H : Forecasts cls ((o.setTime cls w).2.setParameters (.two qs)).2 train pod k r T c)
    (hq : ((o.setTime cls w).2.setParameters (.two qs)).2.parameters = some qs)
    (H' : Forecasts cls ((o'.setTime cls w).2.setParameters (.two qs)).2 train' pod' k r T c')
    (hq' : ((o'.setTime cls w).2.setParameters (.two qs)).2.parameters = some qs) :
    ∃ R R', forecastAt cls interp o w qs = .ok R ∧ forecastAt cls interp o' w qs = .ok R' ∧
      R.d0 = qs.length ∧ R.d2 = T ∧ R'.Same R := by
  obtain ⟨R, a1, a2, a3, a4, a5⟩ := C112_pointwise cls interp f hi hf.ext _ train pod k r T c H qs hq hne
  obtain ⟨R', b1, b2, b3, b4, b5⟩ := C112_pointwise cls interp f hi hf.ext _ train' pod' k r T c' H' qs hq' hne
  have key : ∀ (q : List V) (t : ℕ), t < T →
      (List.range r).map (f train' ⟨k, r, fun p s => c' p s t⟩ q) =
        (List.range r).map (f train ⟨k, r, fun p s => c p s t⟩ q) := by
    intro q t htT
    apply List.map_congr_left
    intro s hs
    rw [List.mem_range] at hs
    exact hf σ train train' _ _ q s htr rfl rfl hσ (fun p s hp hs => hcc p s t hp hs htT) hs
  obtain ⟨q0, qt, hqq⟩ := List.exists_cons_of_ne_nil hne
  refine ⟨R, R', a1, b1, a2, a3, by rw [a2, b2], ?_, by rw [a3, b3], ?_⟩
  · rw [a4 q0 (by rw [hqq]; rfl), b4 q0 (by rw [hqq]; rfl), hexp, key q0 0 H.instants]
  · intro i j t hi' _ htT
    rw [b2] at hi'
    rw [b3] at htT
    have hqi : qs[i]? = some qs[i] := List.getElem?_eq_getElem hi'
    rw [a5 i j t _ hqi htT, b5 i j t _ hqi htT, hexp, key _ t htT]

theorem len_normalise (params : Params V) (ps : List (List V)) (h : params.normalise = .ok ps) :
    params.len 0 = ps.length := by
  cases params with
  | one l => simp only [Params.normalise, Except.ok.injEq] at h; subst h; simp [Params.len]
  | two l => simp only [Params.normalise, Except.ok.injEq] at h; subst h; rfl
  | more => simp [Params.normalise] at h

theorem getElem?_all {α : Type} {k : ℕ} (σ : Equiv.Perm ℕ) (hσ : ∀ p, σ p < k ↔ p < k) (l l' : List α)
    (h : l.length = k) (h' : l'.length = k) (hp : ∀ p < k, l'[p]? = l[σ p]?) (p : ℕ) : l'[p]? = l[σ p]? := by
  by_cases hlt : p < k
  · exact hp p hlt
  · rw [List.getElem?_eq_none (by omega), List.getElem?_eq_none (by have := mt (hσ p).mp hlt; omega)]

/-- Blocks of `r` rows in another order. -/
theorem blockPerm (σ : Equiv.Perm ℕ) (r : ℕ) (hr : 0 < r) :
    ∃ π : Equiv.Perm ℕ, ∀ i, π i = σ (i / r) * r + i % r := by
  have h : ∀ τ : Equiv.Perm ℕ, ∀ i, (τ (i / r) * r + i % r) / r = τ (i / r) ∧
      (τ (i / r) * r + i % r) % r = i % r := by
    intro τ i
    have hm : i % r < r := Nat.mod_lt _ hr
    rw [Nat.add_comm, Nat.add_mul_div_right _ _ hr, Nat.div_eq_of_lt hm, Nat.add_mul_mod_self_right,
      Nat.mod_eq_of_lt hm, Nat.zero_add]
    exact ⟨rfl, rfl⟩
  refine ⟨⟨fun i => σ (i / r) * r + i % r, fun i => σ.symm (i / r) * r + i % r, ?_, ?_⟩, fun i => rfl⟩
  · intro i
    simp only [(h σ i).1, (h σ i).2, Equiv.symm_apply_apply]
    exact Nat.div_add_mod' i r
  · intro i
    simp only [(h σ.symm i).1, (h σ.symm i).2, Equiv.apply_symm_apply]
    exact Nat.div_add_mod' i r

/-- **C165** (partitioned). If the snapshots, the training parameters and the DMDs of the partition are
given in another order, `fit` succeeds in both orders, and for every window and every list of new
parameters the predictions are the same, although the reference DMD (the first) is another one. -/
theorem C165_partitioned [Inhabited K] (cls : DmdClass D W K) (len : W → ℕ)
    (rec : D → T2 K → W → ℕ → ℕ → K) (hb : Behaves cls len rec) (podFit : T2 K → Pod K)
    (interp : List (List V) → T2 K → List (List V) → Except PyErr (T2 K))
    (f : List (List V) → T2 K → List V → ℕ → K) (hi : PointwiseInterp interp f) (hf : OrderFree f)
    (X : T3 K) (h0 : 0 < X.d0) (σ : Equiv.Perm ℕ) (hσ : ∀ p, σ p < X.d0 ↔ p < X.d0)
    (params params' : Params V) (ps ps' : List (List V)) (hps : params.normalise = .ok ps)
    (hps' : params'.normalise = .ok ps') (hl : ps.length = X.d0) (hl' : ps'.length = X.d0)
    (hp : ∀ p < X.d0, ps'[p]? = ps[σ p]?)
    (o o' : PDmd D V K) (ds ds' : List D) (hd : o.dmd = .part ds) (hd' : o'.dmd = .part ds')
    (hdl : ds.length = X.d0) (hdl' : ds'.length = X.d0) (hdd : ∀ p < X.d0, ds'[p]? = ds[σ p]?)
    (r : ℕ) (g : List K → ℕ → K) (hpod : (podFit (arrange X)).Columnwise X.d1 r g)
    (hpod' : (podFit (arrange (X.reorder σ))).Columnwise X.d1 r g)
    (hexp : (podFit (arrange (X.reorder σ))).expand = (podFit (arrange X)).expand) :
    ∃ o₁ o₁', o.fit cls podFit X params 0 = (.ok (), o₁) ∧
      o'.fit cls podFit (X.reorder σ) params' 0 = (.ok (), o₁') ∧
      ∀ (w : W) (qs : List (List V)), 0 < len w → qs ≠ [] →
        ∃ R R', forecastAt cls interp o₁ w qs = .ok R ∧ forecastAt cls interp o₁' w qs = .ok R' ∧
          R.d0 = qs.length ∧ R.d2 = len w ∧ R'.Same R := by
  obtain ⟨dd, hdd0⟩ : ∃ dd : ℕ → D, ∀ p < X.d0, ds[p]? = some (dd p) := by
    have hne : ds ≠ [] := by rintro rfl; simp at hdl; omega
    refine ⟨fun p => ds.getD p (ds.head hne), fun p hp => ?_⟩
    rw [← hdl] at hp
    simp [List.getD, hp]
  have hlen : params.len 0 = X.d0 := by rw [len_normalise params ps hps, hl]
  have hlen' : params'.len 0 = X.d0 := by rw [len_normalise params' ps' hps', hl']
  obtain ⟨o₁, h1, h2⟩ := forecasts_part hb podFit o X h0 params ps hps hlen ds hd hdl dd hdd0 r g hpod
  obtain ⟨o₁', h1', h2'⟩ := forecasts_part hb podFit o' (X.reorder σ) h0 params' ps' hps' hlen' ds' hd' hdl'
    (fun p => dd (σ p)) (fun p hp => by
      rw [hdd p hp]; exact hdd0 _ ((hσ p).mpr hp)) r g hpod'
  refine ⟨o₁, o₁', h1, h1', fun w qs hw hne => ?_⟩
  obtain ⟨H, hq⟩ := h2 w qs hw
  obtain ⟨H', hq'⟩ := h2' w qs hw
  exact forecastAt_eq hi hf o₁ o₁' w qs hne ps ps' _ _ hexp X.d0 r (len w) _ _ σ hσ
    (getElem?_all σ hσ ps ps' hl hl' hp) (fun p s t _ _ _ => rfl) H hq H' hq'

/-- **C165** (monolithic). The same for the monolithic method, if the DMD class does not depend on the
order of the rows of its data. -/
theorem C165_monolithic [Inhabited K] (cls : DmdClass D W K) (len : W → ℕ)
    (rec : D → T2 K → W → ℕ → ℕ → K) (hb : Behaves cls len rec)
    (hrows : ∀ (π : Equiv.Perm ℕ) (M M' : T2 K) (d : D) (w : W) (i t : ℕ), (∀ i, π i < M.rows ↔ i < M.rows) →
      M'.rows = M.rows → M'.cols = M.cols →
      (∀ i t : ℕ, i < M.rows → t < M.cols → M'.get i t = M.get (π i) t) → i < M.rows → t < len w →
      rec d M' w i t = rec d M w (π i) t)
    (podFit : T2 K → Pod K) (interp : List (List V) → T2 K → List (List V) → Except PyErr (T2 K))
    (f : List (List V) → T2 K → List V → ℕ → K) (hi : PointwiseInterp interp f) (hf : OrderFree f)
    (X : T3 K) (h0 : 0 < X.d0) (σ : Equiv.Perm ℕ) (hσ : ∀ p, σ p < X.d0 ↔ p < X.d0)
    (params params' : Params V) (ps ps' : List (List V)) (hps : params.normalise = .ok ps)
    (hps' : params'.normalise = .ok ps') (hl : ps.length = X.d0) (hl' : ps'.length = X.d0)
    (hp : ∀ p < X.d0, ps'[p]? = ps[σ p]?)
    (o o' : PDmd D V K) (d : D) (hd : o.dmd = .mono d) (hd' : o'.dmd = .mono d)
    (r : ℕ) (g : List K → ℕ → K) (hpod : (podFit (arrange X)).Columnwise X.d1 r g)
    (hpod' : (podFit (arrange (X.reorder σ))).Columnwise X.d1 r g)
    (hexp : (podFit (arrange (X.reorder σ))).expand = (podFit (arrange X)).expand) :
    ∃ o₁ o₁', o.fit cls podFit X params 0 = (.ok (), o₁) ∧
      o'.fit cls podFit (X.reorder σ) params' 0 = (.ok (), o₁') ∧
      ∀ (w : W) (qs : List (List V)), 0 < len w → qs ≠ [] →
        ∃ R R', forecastAt cls interp o₁ w qs = .ok R ∧ forecastAt cls interp o₁' w qs = .ok R' ∧
          R.d0 = qs.length ∧ R.d2 = len w ∧ R'.Same R := by
  have hlen : params.len 0 = X.d0 := by rw [len_normalise params ps hps, hl]
  have hlen' : params'.len 0 = X.d0 := by rw [len_normalise params' ps' hps', hl']
  obtain ⟨o₁, h1, h2⟩ := forecasts_mono hb podFit o X h0 params ps hps hlen d hd r g hpod
  obtain ⟨o₁', h1', h2'⟩ := forecasts_mono hb podFit o' (X.reorder σ) h0 params' ps' hps' hlen' d hd' r g hpod'
  refine ⟨o₁, o₁', h1, h1', fun w qs hw hne => ?_⟩
  obtain ⟨H, hq⟩ := h2 w qs hw
  obtain ⟨H', hq'⟩ := h2' w qs hw
  refine forecastAt_eq hi hf o₁ o₁' w qs hne ps ps' _ _ hexp X.d0 r (len w) _ _ σ hσ
    (getElem?_all σ hσ ps ps' hl hl' hp) (fun p s t hp' hs ht => ?_) H hq H' hq'
  have hr : 0 < r := by omega
  obtain ⟨π, hπ⟩ := blockPerm σ r hr
  have e1 : σ p * r + s = π (p * r + s) := by
    rw [hπ, Nat.add_comm (p * r), Nat.add_mul_div_right _ _ hr, Nat.div_eq_of_lt hs, Nat.add_mul_mod_self_right,
      Nat.mod_eq_of_lt hs, Nat.zero_add]
  rw [e1]
  refine hrows π (coefAll X r g) (coefAll (X.reorder σ) r g) d w _ t ?_ rfl rfl ?_ (index_lt hp' hs) ht
  · intro i
    rw [hπ]
    show _ < X.d0 * r ↔ i < X.d0 * r
    have hm : i % r < r := Nat.mod_lt _ hr
    constructor
    · intro h
      have : σ (i / r) < X.d0 := by
        by_contra hc
        have := Nat.mul_le_mul_right r (Nat.le_of_not_lt hc)
        omega
      exact (Nat.div_lt_iff_lt_mul hr).mp ((hσ _).mp this)
    · intro h
      exact index_lt ((hσ _).mpr ((Nat.div_lt_iff_lt_mul hr).mpr h)) hm
  · intro i t _ _
    have hm : i % r < r := Nat.mod_lt _ hr
    rw [hπ]
    show (coef X r g (σ (i / r))).get (i % r) t = (coef X r g ((σ (i / r) * r + i % r) / r)).get ((σ (i / r) * r + i % r) % r) t
    rw [Nat.add_comm (σ (i / r) * r), Nat.add_mul_div_right _ _ hr, Nat.div_eq_of_lt hm, Nat.add_mul_mod_self_right,
      Nat.mod_eq_of_lt hm, Nat.zero_add]

/-- A DMD whose reconstruction continues the first snapshot, `M[i, 0] + t`. -/
def counting : DmdClass (Option (T2 ℕ) × ℕ) ℕ ℕ where
  fit M _ := .ok (some M, M.cols)
  getTime d := .ok d.2
  setTime w d := (d.1, w)
  reconstructed d := match d.1 with
    | some M => .ok ⟨M.rows, d.2, fun i t => if M.cols = 0 then 0 else M.get i 0 + t⟩
    | none => .error .attributeError

/-- The hypotheses on the DMD class, also that of `C165_monolithic`, hold for `counting`. -/
example : Behaves counting id (fun _ M _ i t => if M.cols = 0 then 0 else M.get i 0 + t) ∧
    ∀ (π : Equiv.Perm ℕ) (M M' : T2 ℕ) (i t : ℕ), M'.cols = M.cols →
      (∀ i t : ℕ, i < M.rows → t < M.cols → M'.get i t = M.get (π i) t) → i < M.rows →
      (if M'.cols = 0 then 0 else M'.get i 0 + t) = if M.cols = 0 then 0 else M.get (π i) 0 + t := by
  refine ⟨⟨fun M d => ⟨_, rfl, fun w => ⟨_, rfl, rfl, rfl, fun _ _ _ _ => rfl⟩⟩, ?_, fun _ _ => rfl,
    fun _ _ _ => rfl⟩, ?_⟩
  · intro M M' d w h i t hi
    rw [← h.2.1]
    split_ifs with hc
    · rfl
    · rw [h.2.2 i 0 hi (by omega)]
  · intro π M M' i t hc h hi
    rw [hc]
    split_ifs with h0
    · rfl
    · rw [h i 0 hi (by omega)]

/-- The hypothesis on the interpolator holds for the sum of the training values. -/
example : OrderFree (V := ℕ) (fun _ (S : T2 ℕ) _ s => ∑ p ∈ Finset.range S.rows, S.get p s) := by
  intro σ train train' S S' q s _ hr hc hσ hS hs
  dsimp only
  rw [hr]
  refine Finset.sum_equiv σ (fun p => by simp [hσ]) fun p hp => ?_
  exact hS p s (Finset.mem_range.mp hp) hs

/-- Two training parameters in both orders, `5` asked for, three instants: the parameters `1, 2` have
the states `10, 11` and `20, 21`. -/
example :
    let X : T3 ℕ := ⟨2, 1, 2, fun p _ t => 10 * (p + 1) + t⟩
    let interp : List (List ℕ) → T2 ℕ → List (List ℕ) → Except PyErr (T2 ℕ) := fun _ S qs =>
      .ok ⟨qs.length, S.cols, fun _ s => ∑ p ∈ Finset.range S.rows, S.get p s⟩
    let o : PDmd (Option (T2 ℕ) × ℕ) ℕ ℕ := ⟨.part [(none, 0), (none, 0)], false, none, none, none, none, none⟩
    let r := fun (X : T3 ℕ) (ps : List ℕ) =>
      (forecastAt counting interp (o.fit counting (fun _ => keepPod) X (.one ps) 0).2 3 [[5]]).toOption.map
        fun R => (R.d0, R.d1, R.d2, (List.range 3).map (R.get 0 0))
    r X [1, 2] = some (1, 1, 3, [30, 32, 34]) ∧
      r (X.reorder (Equiv.swap 0 1)) [2, 1] = some (1, 1, 3, [30, 32, 34]) := by
  constructor <;> decide

end Verif.Param
