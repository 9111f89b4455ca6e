import Verif.Lemmas.Param

/-!
# Properties C37, C38, C61, C62: parametric DMD
-/

set_option autoImplicit false

namespace Verif.Param

open Verif

variable {K D W V : Type}

/-! ## C37 -/

/-- **C37** (arrangement). The space-time matrix has one row per space point and one column per
pair of parameter and instant; instant `t` of parameter `p` is column `p * T + t`. -/
theorem C37_arrange (X : T3 K) :
    (arrange X).rows = X.d1 ∧ (arrange X).cols = X.d0 * X.d2 ∧
    ∀ p s t : ℕ, t < X.d2 → (arrange X).get s (p * X.d2 + t) = X.get p s t := by
  refine ⟨rfl, rfl, fun p s t ht => ?_⟩
  obtain ⟨h1, h2⟩ := index_div (p := p) ht
  show X.get ((p * X.d2 + t) / X.d2) s ((p * X.d2 + t) % X.d2) = _
  rw [h1, h2]

/-- The POD reduces every column of length `m` by itself, to `r` coefficients. (For EZyRB's `POD` the matrix is
multiplied by the transposed modes.) -/
def Pod.Columnwise (pod : Pod K) (m r : ℕ) (g : List K → ℕ → K) : Prop :=
  ∀ M : T2 K, M.rows = m → (pod.reduce M).rows = r ∧ (pod.reduce M).cols = M.cols ∧
    ∀ i j : ℕ, i < r → j < M.cols →
      (pod.reduce M).get i j = g ((List.range M.rows).map fun s => M.get s j) i

/-- The matrices of coefficients computed by `fit`. -/
theorem coefficients_spec (X : T3 K) (pod : Pod K) (r : ℕ) (g : List K → ℕ → K) (hp : pod.Columnwise X.d1 r g)
    (h0 : 0 < X.d0) :
    ∃ cs, (pod.reduce (arrange X)).splitCols X.d0 = .ok cs ∧ cs.length = X.d0 ∧
      ∀ (p : ℕ) c, cs[p]? = some c → p < X.d0 ∧ c.rows = r ∧ c.cols = X.d2 ∧
        ∀ i t : ℕ, i < r → t < X.d2 →
          c.get i t = g ((List.range X.d1).map fun s => X.get p s t) i := by
  obtain ⟨h1, h2, h3⟩ := hp (arrange X) rfl
  obtain ⟨a1, a2, a3⟩ := C37_arrange X
  have hdiv : X.d0 * X.d2 / X.d0 = X.d2 := Nat.mul_div_cancel_left _ h0
  refine ⟨_, by rw [T2.splitCols, if_neg (by rw [h2, a2]; simp [h0.ne'])], by simp, ?_⟩
  intro p c hc
  rw [List.getElem?_map] at hc
  obtain ⟨q, hq, rfl⟩ := Option.map_eq_some_iff.mp hc
  rw [List.getElem?_eq_some_iff] at hq
  obtain ⟨hlt, rfl⟩ := hq
  simp only [List.length_range] at hlt
  simp only [List.getElem_range, h2, a2, hdiv]
  refine ⟨hlt, h1, trivial, fun i t hi ht => ?_⟩
  rw [h3 i _ hi (by rw [a2]; exact index_lt hlt ht), a1]
  congr 1
  apply List.map_congr_left
  intro s _
  exact a3 p s t ht

/-- **C37** (splitting). Whatever the DMDs do, after `fit` of `X` the training coefficients are
one matrix per training parameter, in the order of the parameters, with one column per instant;
column `t` of matrix `p` is the reduction of snapshot `t` of parameter `p`, so it depends on no
other parameter's snapshots. With a reduction that changes nothing (`g l i = l[i]`) the split is
the inverse of the arrangement. -/
theorem C37_split (cls : DmdClass D W K) (podFit : T2 K → Pod K) (o : PDmd D V K)
    (hl : o.light = false) (X : T3 K) (h0 : 0 < X.d0) (params : Params V) (ps : List (List V))
    (hps : params.normalise = .ok ps) (len : ℕ) (hlen : params.len len = X.d0)
    (hpart : ∀ ds, o.dmd = .part ds → ds.length = X.d0) (r : ℕ) (g : List K → ℕ → K)
    (hpod : (podFit (arrange X)).Columnwise X.d1 r g) :
    ∃ cs, (o.fit cls podFit X params len).2.coefficients = some cs ∧ cs.length = X.d0 ∧
      ∀ (p : ℕ) c, cs[p]? = some c → c.rows = r ∧ c.cols = X.d2 ∧
        ∀ i t : ℕ, i < r → t < X.d2 →
          c.get i t = g ((List.range X.d1).map fun s => X.get p s t) i := by
  obtain ⟨cs, hs, hcl, hc⟩ := coefficients_spec X _ r g hpod h0
  refine ⟨cs, ?_, hcl, fun p c h => (hc p c h).2⟩
  unfold PDmd.fit
  rw [if_neg (by simp [hlen])]
  obtain ⟨dmd, light, tp, pr, nt, pod, co⟩ := o
  simp only at hl hpart
  subst hl
  cases dmd with
  | mono d =>
    simp only [hps, hs, Bool.false_eq_true, if_false]
    cases vstack cs with
    | error e => rfl
    | ok M =>
      simp only
      cases cls.fit M d <;> rfl
  | part ds =>
    simp only [hpart ds rfl, hps, hs, bne_self_eq_false, Bool.false_eq_true, if_false]
    cases h : fitZip cls ds cs <;> simp_all

/-- **C37** (forecast, partitioned). With every DMD of the partition forecasting an `r x T`
matrix, the forecast coefficients of parameter `p` are those of the `p`-th DMD. -/
theorem C37_forecast_partitioned (cls : DmdClass D W K) (o : PDmd D V K) (d : D) (ds : List D)
    (hd : o.dmd = .part (d :: ds)) (hn : o.ntrain = some (d :: ds).length) (w : W)
    (hw : cls.getTime d = .ok w) (r T : ℕ) (hT : 0 < T) (Rs : List (T2 K))
    (hl : Rs.length = (d :: ds).length)
    (hR : ∀ (p : ℕ) e R, (d :: ds)[p]? = some e → Rs[p]? = some R →
      cls.reconstructed (cls.setTime w e) = .ok R)
    (hsh : ∀ R ∈ Rs, R.rows = r ∧ R.cols = T) :
    ∃ F, (o.forecasted cls).1 = .ok F ∧ F.d0 = (d :: ds).length ∧ F.d1 = r ∧ F.d2 = T ∧
      ∀ (p i t : ℕ) R, Rs[p]? = some R → i < r → F.get p i t = R.get i t := by
  have hne : Rs ≠ [] := by intro h; simp [h] at hl
  obtain ⟨C, h1, h2, h3, h4⟩ := vstack_blocks r T Rs hne hsh
  have hm : ((d :: ds).map (cls.setTime w)).mapM cls.reconstructed = .ok Rs := by
    apply mapM_ok
    · simp [hl]
    · intro p a b ha hb
      rw [List.getElem?_map] at ha
      obtain ⟨e, he, rfl⟩ := Option.map_eq_some_iff.mp ha
      exact hR p e b he hb
  have hp : o.predictCoefficients cls =
      (.ok C, { o with dmd := .part ((d :: ds).map (cls.setTime w)) }) := by
    unfold PDmd.predictCoefficients
    simp only [hd, hw, hm, bind, Except.bind, h1]
  have hk : Rs.length * r / (d :: ds).length = r := by
    rw [hl]; exact Nat.mul_div_cancel_left _ (by simp)
  unfold PDmd.forecasted
  rw [hp]
  simp only [hn, Option.getD_some]
  refine ⟨_, by rw [T2.reshape3, if_neg (by rw [h2, h3, hl]; simp; omega)], rfl, ?_, h3, ?_⟩
  · rw [h2, hk]
  · intro p i t R hRp hi
    simp only [h2, hk]
    exact h4 p i t R hRp hi

/-- **C37** (forecast, monolithic). The forecast coefficients of parameter `p` are rows
`p * r, …, p * r + r - 1` of the reconstruction of the only DMD. -/
theorem C37_forecast_monolithic (cls : DmdClass D W K) (o : PDmd D V K) (d : D)
    (hd : o.dmd = .mono d) (k : ℕ) (hk : 0 < k) (hn : o.ntrain = some k) (M : T2 K)
    (hM : cls.reconstructed d = .ok M) (r : ℕ) (hr : M.rows = k * r) (hc : 0 < M.cols) :
    ∃ F, (o.forecasted cls).1 = .ok F ∧ F.d0 = k ∧ F.d1 = r ∧ F.d2 = M.cols ∧
      ∀ p i t : ℕ, F.get p i t = M.get (p * r + i) t := by
  have hdiv : k * r / k = r := Nat.mul_div_cancel_left _ hk
  have hp : o.predictCoefficients cls = (.ok M, o) := by
    unfold PDmd.predictCoefficients
    simp only [hd, hM]
  unfold PDmd.forecasted
  rw [hp]
  simp only [hn, Option.getD_some]
  refine ⟨_, by rw [T2.reshape3, if_neg (by rw [hr]; simp; omega)], rfl, by rw [hr, hdiv], rfl, ?_⟩
  intro p i t
  simp only [hr, hdiv]

/-- **C37** (axes). `roll_shape` and `back_roll_shape` are inverse to each other, and
`roll_shape(X)[t]` is the slice of `X` at instant `t`. -/
theorem C37_roll (X : T3 K) :
    backRollShape (rollShape X) = X ∧ rollShape (backRollShape X) = X ∧
    (rollShape X).d0 = X.d2 ∧ (rollShape X).d1 = X.d0 ∧ (rollShape X).d2 = X.d1 ∧
    ∀ t p s : ℕ, (rollShape X).get t p s = X.get p s t :=
  ⟨rfl, rfl, rfl, rfl, rfl, fun _ _ _ => rfl⟩

/-! ## C38 -/

/-- **C38** (one window). For a DMD class whose `dmd_time` can be read back after being set: after
setting `dmd_time` on the parametric instance it is read back, and the forecast uses that window
for *every* DMD of a partition, which all have it afterwards. -/
theorem C38_window (cls : DmdClass D W K) (hlaw : ∀ w d, cls.getTime (cls.setTime w d) = .ok w)
    (hlaw2 : ∀ w d, cls.setTime w (cls.setTime w d) = cls.setTime w d)
    (o : PDmd D V K) (hne : o.dmd ≠ .part []) (w : W) :
    ∃ o', o.setTime cls w = (.ok (), o') ∧ o'.getTime cls = .ok w ∧
      (∀ d, o.dmd = .mono d →
        (o'.predictCoefficients cls).1 = cls.reconstructed (cls.setTime w d)) ∧
      (∀ ds, o.dmd = .part ds →
        (o'.predictCoefficients cls).1 =
          (do vstack (← ds.mapM fun d => cls.reconstructed (cls.setTime w d))) ∧
        (o'.predictCoefficients cls).2.dmd = .part (ds.map (cls.setTime w)) ∧
        ∀ d' ∈ ds.map (cls.setTime w), cls.getTime d' = .ok w) := by
  obtain ⟨dmd, light, tp, pr, nt, pod, co⟩ := o
  cases dmd with
  | mono d =>
    refine ⟨_, rfl, hlaw w d, ?_, ?_⟩
    · intro d' h; cases h; rfl
    · intro ds h; cases h
  | part ds =>
    cases ds with
    | nil => exact absurd rfl hne
    | cons d ds =>
      refine ⟨_, rfl, hlaw w d, ?_, ?_⟩
      · intro d' h; cases h
      · intro es h
        cases h
        have hall : (cls.setTime w d :: ds).map (cls.setTime w) = (d :: ds).map (cls.setTime w) := by
          simp [hlaw2]
        refine ⟨?_, ?_, ?_⟩
        · simp only [PDmd.predictCoefficients, hlaw]
          rw [hall]
          simp [List.mapM_map, Function.comp_def]
        · simp only [PDmd.predictCoefficients, hlaw]
          rw [hall]
        · intro d' hd'
          obtain ⟨e, -, rfl⟩ := List.mem_map.mp hd'
          exact hlaw w e

/-- **C38** (rejections). `fit` raises `ValueError` if the numbers of parameters and of data sets
differ, if a partition has another number of DMDs, and for parameters with more than two axes;
`parameters` rejects the latter as well. Reconstruction without parameters raises `ValueError`
(if the forecast itself succeeds). -/
theorem C38_errors [Inhabited K] (cls : DmdClass D W K) (podFit : T2 K → Pod K) (o : PDmd D V K)
    (X : T3 K) (params : Params V) (len : ℕ)
    (interp : List (List V) → T2 K → List (List V) → Except PyErr (T2 K)) :
    (X.d0 ≠ params.len len → (o.fit cls podFit X params len) = (.error .valueError, o)) ∧
    (∀ ds, o.dmd = .part ds → X.d0 ≠ ds.length →
      (o.fit cls podFit X params len).1 = .error .valueError) ∧
    (o.fit cls podFit X .more len).1 = .error .valueError ∧
    o.setParameters .more = (.error .valueError, o) ∧
    ((o.parameters = none ∨ o.parameters = some []) →
      ∀ M o', o.predictCoefficients cls = (.ok M, o') →
        (o.reconstructedData cls interp).1 = .error .valueError) := by
  refine ⟨?_, ?_, ?_, rfl, ?_⟩
  · intro h; rw [PDmd.fit, if_pos h]
  · intro ds hds hne
    unfold PDmd.fit
    by_cases h : X.d0 ≠ params.len len
    · rw [if_pos h]
    · rw [if_neg h]
      simp [hds, hne]
  · unfold PDmd.fit
    by_cases h : X.d0 ≠ (Params.more : Params V).len len
    · rw [if_pos h]
    · rw [if_neg h]
      simp only [Params.normalise]
      split_ifs <;> rfl
  · intro hp M o' hM
    have hpar : o'.parameters = o.parameters := by
      obtain ⟨dmd, light, tp, pr, nt, pod, co⟩ := o
      cases dmd with
      | mono d => simp only [PDmd.predictCoefficients, Prod.mk.injEq] at hM; rw [← hM.2]
      | part ds =>
        cases ds with
        | nil => simp [PDmd.predictCoefficients] at hM
        | cons d ds =>
          simp only [PDmd.predictCoefficients] at hM
          cases hg : cls.getTime d with
          | error e => simp [hg] at hM
          | ok w =>
            simp only [hg, Prod.mk.injEq] at hM
            rw [← hM.2]
    unfold PDmd.reconstructedData
    rw [hM]
    have : o'.interpolate interp M = .error .valueError := by
      unfold PDmd.interpolate
      rw [hpar]
      rcases hp with hp | hp <;> rw [hp]
    simp only [this]

/-! ## C61 -/

/-- Same shape and same entries inside the shape. -/
def T2.Same (A B : T2 K) : Prop :=
  A.rows = B.rows ∧ A.cols = B.cols ∧ ∀ i j : ℕ, i < A.rows → j < A.cols → A.get i j = B.get i j

/-- What C61 assumes of the parts given by the user: DMDs that accept any data, reproduce their
training data, and have a window depending on the number of snapshots only; a POD that reduces
column by column and loses nothing on the training snapshots; an interpolator that is exact at the
training parameters. -/
structure Faithful (cls : DmdClass D W K) (pod : Pod K)
    (interp : List (List V) → T2 K → List (List V) → Except PyErr (T2 K)) (X : T3 K) (r : ℕ)
    (g : List K → ℕ → K) : Prop where
  fit : ∀ M d, ∃ d', cls.fit M d = .ok d'
  time : ∀ n, ∃ w, ∀ M d d', M.cols = n → cls.fit M d = .ok d' → cls.getTime d' = .ok w
  recon : ∀ M d d', cls.fit M d = .ok d' → ∃ R, cls.reconstructed d' = .ok R ∧ R.Same M
  reset : ∀ w d, cls.getTime d = .ok w → cls.setTime w d = d
  columnwise : pod.Columnwise X.d1 r g
  lossless : ∀ p t : ℕ, p < X.d0 → t < X.d2 →
    pod.expand ((List.range r).map (g ((List.range X.d1).map fun s => X.get p s t))) =
      (List.range X.d1).map fun s => X.get p s t
  interp : ∀ train (S : T2 K), S.rows = train.length →
    ∃ R, interp train S train = .ok R ∧ R.Same S

/-- The end of `reconstructed_data`: from correctly forecast coefficients to the data. -/
theorem reconstructed_of_forecast [Inhabited K] {cls : DmdClass D W K} {pod : Pod K}
    {interp : List (List V) → T2 K → List (List V) → Except PyErr (T2 K)} {X : T3 K} {r : ℕ}
    {g : List K → ℕ → K} (hF : Faithful cls pod interp X r g) (h0 : 0 < X.d0) (h2 : 0 < X.d2)
    (o o' : PDmd D V K) (ps : List (List V)) (hlen : ps.length = X.d0)
    (hn : o'.ntrain = some X.d0) (htp : o'.trainingParameters = some ps)
    (hpar : o'.parameters = some ps) (hpod : o'.pod = some pod) (M : T2 K)
    (hM : o.predictCoefficients cls = (.ok M, o')) (hr : M.rows = X.d0 * r) (hc : M.cols = X.d2)
    (hget : ∀ p i t : ℕ, p < X.d0 → i < r → t < X.d2 →
      M.get (p * r + i) t = g ((List.range X.d1).map fun s => X.get p s t) i) :
    ∃ R, (o.reconstructedData cls interp).1 = .ok R ∧ R.d0 = X.d0 ∧ R.d1 = X.d1 ∧ R.d2 = X.d2 ∧
      ∀ p s t : ℕ, p < X.d0 → s < X.d1 → t < X.d2 → R.get p s t = X.get p s t := by
  obtain ⟨q, qs, hq⟩ : ∃ q qs, ps = q :: qs := by
    cases ps with
    | nil => simp at hlen; omega
    | cons q qs => exact ⟨q, qs, rfl⟩
  have hdiv : X.d0 * r / X.d0 = r := Nat.mul_div_cancel_left _ h0
  -- the slices and their interpolants
  let slices : List (T2 K) := (List.range X.d2).map fun t =>
    ⟨X.d0, r, fun p s => M.get (p * r + s) t⟩
  have hI : ∀ t : ℕ, ∃ R, interp ps ⟨X.d0, r, fun p s => M.get (p * r + s) t⟩ ps = .ok R ∧
      R.Same ⟨X.d0, r, fun p s => M.get (p * r + s) t⟩ := fun t => hF.interp ps _ hlen.symm
  choose I hI1 hI2 using hI
  have hmap : slices.mapM (fun s => interp ps s ps) = .ok ((List.range X.d2).map I) := by
    apply mapM_ok
    · simp [slices]
    · intro t a b ha hb
      simp only [slices, List.getElem?_map, Option.map_eq_some_iff] at ha hb
      obtain ⟨x, hx, rfl⟩ := ha
      obtain ⟨y, hy, rfl⟩ := hb
      rw [hx] at hy
      cases hy
      exact hI1 x
  have hne : (List.range X.d2).map I = I 0 :: (List.range (X.d2 - 1)).map (fun t => I (t + 1)) := by
    obtain ⟨n, hn⟩ : ∃ n, X.d2 = n + 1 := ⟨X.d2 - 1, by omega⟩
    rw [hn, List.range_succ_eq_map]
    simp [Function.comp_def]
  have hint : o'.interpolate interp M = dstack ((List.range X.d2).map I) := by
    unfold PDmd.interpolate
    rw [hpar, hq]
    simp only [hn, htp, Option.getD_some]
    rw [T2.reshape3, if_neg (by rw [hr, hc]; simp; omega)]
    simp only [bind, Except.bind, rollShape, T3.swap02, T3.swap12, hr, hc, hdiv]
    rw [← hq]
    have := hmap
    simp only [slices] at this
    rw [this]
  rw [hne] at hint
  have hIget : ∀ t : ℕ, t < X.d2 → (I 0 :: (List.range (X.d2 - 1)).map (fun t => I (t + 1))).getD t
      (I 0) = I t := by
    intro t ht
    rw [← hne]
    simp [List.getD, ht]
  have hlast : ∀ t p : ℕ, t < X.d2 → p < X.d0 →
      (List.range r).map (fun s => (I t).get p s) =
        (List.range r).map (g ((List.range X.d1).map fun s => X.get p s t)) := by
    intro t p ht hp
    apply List.map_congr_left
    intro i hi
    obtain ⟨s1, s2, s3⟩ := hI2 t
    rw [s3 p i (by rw [s1]; exact hp) (by rw [s2]; exact List.mem_range.mp hi)]
    exact hget p i t hp (List.mem_range.mp hi) ht
  have hcols : (I 0).cols = r := (hI2 0).2.1
  have halong : ∀ p t : ℕ, p < X.d0 → t < X.d2 →
      pod.expand ((List.range (I 0).cols).map fun s =>
        ((I 0 :: (List.range (X.d2 - 1)).map (fun t => I (t + 1))).getD t (I 0)).get p s) =
      (List.range X.d1).map fun s => X.get p s t := by
    intro p t hp ht
    rw [hIget t ht, hcols, hlast t p ht hp]
    exact hF.lossless p t hp ht
  unfold PDmd.reconstructedData
  rw [hM]
  simp only [hint, dstack, hpod]
  refine ⟨_, rfl, (hI2 0).1, ?_, ?_, ?_⟩
  · simp only [T3.along1]
    rw [halong 0 0 h0 h2]; simp
  · simp; omega
  · intro p s t hp hs ht
    simp only [T3.along1]
    rw [halong p t hp ht]
    simp [List.getD, hs]

/-- **C61** (training data). With DMDs that reproduce what they are fitted on, a POD without loss
on the data and an interpolator that is exact at the training parameters, parametric DMD asked for
the training parameters returns the training data: same axes (parameter, space, time) and
entries. This holds for the monolithic and for the partitioned method. -/
theorem C61_training_data [Inhabited K] (cls : DmdClass D W K) (podFit : T2 K → Pod K)
    (interp : List (List V) → T2 K → List (List V) → Except PyErr (T2 K)) (o : PDmd D V K)
    (X : T3 K) (h0 : 0 < X.d0) (h2 : 0 < X.d2) (params : Params V) (hp : params ≠ .more)
    (hlen : params.len 0 = X.d0) (hpart : ∀ ds, o.dmd = .part ds → ds.length = X.d0) (r : ℕ)
    (g : List K → ℕ → K) (hF : Faithful cls (podFit (arrange X)) interp X r g) :
    ∃ o₁ o₂ R, o.fit cls podFit X params 0 = (.ok (), o₁) ∧
      o₁.setParameters params = (.ok (), o₂) ∧
      (o₂.reconstructedData cls interp).1 = .ok R ∧
      R.d0 = X.d0 ∧ R.d1 = X.d1 ∧ R.d2 = X.d2 ∧
      ∀ p s t : ℕ, p < X.d0 → s < X.d1 → t < X.d2 → R.get p s t = X.get p s t := by
  obtain ⟨ps, hps, hpl⟩ : ∃ ps, params.normalise = .ok ps ∧ ps.length = X.d0 := by
    cases params with
    | one l => exact ⟨_, rfl, by simpa [Params.len] using hlen⟩
    | two l => exact ⟨_, rfl, by simpa [Params.len] using hlen⟩
    | more => exact absurd rfl hp
  obtain ⟨cs, hs, hcl, hc⟩ := coefficients_spec X _ r g hF.columnwise h0
  have hsh : ∀ c ∈ cs, c.rows = r ∧ c.cols = X.d2 := by
    intro c hcm
    obtain ⟨p, hpc⟩ := List.mem_iff_getElem?.mp hcm
    obtain ⟨-, a, b, -⟩ := hc p c hpc
    exact ⟨a, b⟩
  have hne : cs ≠ [] := by intro h; simp [h] at hcl; omega
  obtain ⟨C, v1, v2, v3, v4⟩ := vstack_blocks r X.d2 cs hne hsh
  have hget : ∀ p i t : ℕ, p < X.d0 → i < r → t < X.d2 →
      C.get (p * r + i) t = g ((List.range X.d1).map fun s => X.get p s t) i := by
    intro p i t hp' hi ht
    obtain ⟨c, hpc⟩ : ∃ c, cs[p]? = some c := ⟨_, List.getElem?_eq_getElem (by omega)⟩
    rw [v4 p i t c hpc hi]
    exact (hc p c hpc).2.2.2 i t hi ht
  obtain ⟨dmd, light, tp, pr, nt, pod, co⟩ := o
  cases dmd with
  | mono d =>
    obtain ⟨d', hd'⟩ := hF.fit C d
    obtain ⟨R, hR, hRs⟩ := hF.recon C d d' hd'
    have hfit : ∃ o₁, PDmd.fit cls podFit ⟨.mono d, light, tp, pr, nt, pod, co⟩ X params 0 =
        (.ok (), o₁) ∧ o₁.dmd = .mono d' ∧ o₁.ntrain = some X.d0 ∧
        o₁.trainingParameters = some ps ∧ o₁.pod = some (podFit (arrange X)) := by
      unfold PDmd.fit
      rw [if_neg (by simp [hlen])]
      cases light
      · simp only [hps, hs, Bool.false_eq_true, if_false, v1, hd']
        exact ⟨_, rfl, rfl, rfl, rfl, rfl⟩
      · simp only [hps, hs, Bool.false_eq_true, if_false, if_true, v1, hd']
        exact ⟨_, rfl, rfl, rfl, rfl, rfl⟩
    obtain ⟨o₁, f1, f2, f3, f4, f5⟩ := hfit
    obtain ⟨R', hR'⟩ := reconstructed_of_forecast hF h0 h2
      { o₁ with parameters := some ps } { o₁ with parameters := some ps } ps hpl f3 f4 rfl f5 R
      (by simp only [PDmd.predictCoefficients, f2, hR])
      (by rw [hRs.1, v2, hcl]) (by rw [hRs.2.1, v3])
      (fun p i t hp' hi ht => by
        rw [hRs.2.2 _ _ (by rw [hRs.1, v2, hcl]; exact index_lt hp' hi)
          (by rw [hRs.2.1, v3]; exact ht)]
        exact hget p i t hp' hi ht)
    exact ⟨o₁, _, R', f1, by simp only [PDmd.setParameters, hps], hR'⟩
  | part ds =>
    have hdl : ds.length = X.d0 := hpart ds rfl
    obtain ⟨ds', hds'⟩ := fitZip_ok cls hF.fit ds cs
    obtain ⟨z1, z2⟩ := fitZip_spec cls ds cs ds' (by rw [hdl, hcl]) hds'
    obtain ⟨w, hw⟩ := hF.time X.d2
    -- every DMD of the partition has the same window and reproduces its matrix
    have hall : ∀ (p : ℕ) e, ds'[p]? = some e → ∃ c R, cs[p]? = some c ∧
        cls.setTime w e = e ∧ cls.getTime e = .ok w ∧ cls.reconstructed e = .ok R ∧ R.Same c := by
      intro p e he
      have hplt : p < ds'.length := (List.getElem?_eq_some_iff.mp he).1
      obtain ⟨d, hd⟩ : ∃ d, ds[p]? = some d := ⟨_, List.getElem?_eq_getElem (by omega)⟩
      obtain ⟨c, hcp⟩ : ∃ c, cs[p]? = some c := ⟨_, List.getElem?_eq_getElem (by omega)⟩
      obtain ⟨d', hd', hfit⟩ := z2 p d c hd hcp
      rw [he] at hd'
      cases hd'
      obtain ⟨R, hR, hRs⟩ := hF.recon c d e hfit
      have hg := hw c d e (hc p c hcp).2.2.1 hfit
      exact ⟨c, R, hcp, hF.reset w e hg, hg, hR, hRs⟩
    obtain ⟨d0, dt, hd0⟩ : ∃ d0 dt, ds' = d0 :: dt := by
      cases ds' with
      | nil => simp at z1; omega
      | cons a b => exact ⟨a, b, rfl⟩
    have hset : ds'.map (cls.setTime w) = ds' := by
      apply List.ext_getElem?
      intro p
      rw [List.getElem?_map]
      cases he : ds'[p]? with
      | none => rfl
      | some e =>
        obtain ⟨c, R, -, h, -⟩ := hall p e he
        simp [h]
    have hrec : ∃ Rs, ds'.mapM cls.reconstructed = .ok Rs ∧ Rs.length = cs.length ∧
        ∀ (p : ℕ) R c, Rs[p]? = some R → cs[p]? = some c → R.Same c := by
      have hch : ∀ p : Fin ds'.length, ∃ R c, cs[(p : ℕ)]? = some c ∧
          cls.reconstructed (ds'[(p : ℕ)]) = .ok R ∧ R.Same c := by
        intro p
        obtain ⟨c, R, h1, -, -, h4, h5⟩ := hall p _ (List.getElem?_eq_getElem p.2)
        exact ⟨R, c, h1, h4, h5⟩
      choose Rf cf hcf hRf hSf using hch
      refine ⟨List.ofFn Rf, ?_, by simp; omega, ?_⟩
      · apply mapM_ok
        · simp
        · intro p a b ha hb
          have hplt : p < ds'.length := (List.getElem?_eq_some_iff.mp ha).1
          rw [List.getElem?_ofFn] at hb
          simp only [hplt, dif_pos, Option.some.injEq] at hb
          rw [List.getElem?_eq_getElem hplt, Option.some.injEq] at ha
          rw [← ha, ← hb]
          exact hRf ⟨p, hplt⟩
      · intro p R c hRp hcp
        rw [List.getElem?_ofFn] at hRp
        by_cases hplt : p < ds'.length
        · simp only [hplt, dif_pos, Option.some.injEq] at hRp
          have := hcf ⟨p, hplt⟩
          rw [hcp, Option.some.injEq] at this
          rw [← hRp, this]
          exact hSf ⟨p, hplt⟩
        · simp [hplt] at hRp
    obtain ⟨Rs, hRs, hRl, hRsame⟩ := hrec
    have hsh' : ∀ R ∈ Rs, R.rows = r ∧ R.cols = X.d2 := by
      intro R hRm
      obtain ⟨p, hpR⟩ := List.mem_iff_getElem?.mp hRm
      have hplt : p < Rs.length := (List.getElem?_eq_some_iff.mp hpR).1
      obtain ⟨c, hcp⟩ : ∃ c, cs[p]? = some c := ⟨_, List.getElem?_eq_getElem (by omega)⟩
      obtain ⟨a, b, -⟩ := hRsame p R c hpR hcp
      obtain ⟨-, a', b', -⟩ := hc p c hcp
      exact ⟨a.trans a', b.trans b'⟩
    obtain ⟨M, m1, m2, m3, m4⟩ := vstack_blocks r X.d2 Rs
      (by intro h; simp [h] at hRl; omega) hsh'
    have hfit : ∃ o₁, PDmd.fit cls podFit ⟨.part ds, light, tp, pr, nt, pod, co⟩ X params 0 =
        (.ok (), o₁) ∧ o₁.dmd = .part ds' ∧ o₁.ntrain = some X.d0 ∧
        o₁.trainingParameters = some ps ∧ o₁.pod = some (podFit (arrange X)) := by
      unfold PDmd.fit
      rw [if_neg (by simp [hlen])]
      cases light
      · simp only [hdl, bne_self_eq_false, hps, hs, Bool.false_eq_true, if_false, hds']
        exact ⟨_, rfl, rfl, rfl, rfl, rfl⟩
      · simp only [hdl, bne_self_eq_false, hps, hs, Bool.false_eq_true, if_false, if_true, hds']
        exact ⟨_, rfl, rfl, rfl, rfl, rfl⟩
    obtain ⟨o₁, f1, f2, f3, f4, f5⟩ := hfit
    have hpred : PDmd.predictCoefficients cls { o₁ with parameters := some ps } =
        (.ok M, { o₁ with parameters := some ps }) := by
      obtain ⟨c, R, -, -, hg, -⟩ := hall 0 d0 (by rw [hd0]; rfl)
      rw [hd0] at f2 hset hRs
      simp only [PDmd.predictCoefficients, f2, hg, hset, hRs, bind, Except.bind, m1]
    obtain ⟨R', hR'⟩ := reconstructed_of_forecast hF h0 h2
      { o₁ with parameters := some ps } { o₁ with parameters := some ps } ps hpl f3 f4 rfl f5 M
      hpred (by rw [m2, hRl, hcl]) m3
      (fun p i t hp' hi ht => by
        obtain ⟨R, hpR⟩ : ∃ R, Rs[p]? = some R := ⟨_, List.getElem?_eq_getElem (by omega)⟩
        obtain ⟨c, hcp⟩ : ∃ c, cs[p]? = some c := ⟨_, List.getElem?_eq_getElem (by omega)⟩
        obtain ⟨a, b, e⟩ := hRsame p R c hpR hcp
        obtain ⟨-, a', b', e'⟩ := hc p c hcp
        rw [m4 p i t R hpR hi, e i t (by rw [a, a']; exact hi) (by rw [b, b']; exact ht)]
        exact e' i t hi ht)
    exact ⟨o₁, _, R', f1, by simp only [PDmd.setParameters, hps], hR'⟩

/-! ## C62 -/

/-- A DMD that stores its data and returns it, with the number of columns as window. -/
def storing : DmdClass (Option (T2 ℕ) × ℕ) ℕ ℕ where
  fit M _ := .ok (some M, M.cols)
  getTime d := if d.1.isSome then .ok d.2 else .error .runtimeError
  setTime w d := (d.1, w)
  reconstructed d := match d.1 with
    | some M => .ok M
    | none => .error .attributeError

/-- A POD that keeps the data. -/
def keepPod : Pod ℕ := ⟨id, id⟩

/-- Instance of the hypotheses of C61: two parameters, one space point, two instants. -/
example : Faithful storing keepPod (V := ℕ) (fun _ S _ => .ok S)
    ⟨2, 1, 2, fun p _ t => 10 * p + t⟩ 1 (fun l i => l.getD i 0) where
  fit M d := ⟨_, rfl⟩
  time n := ⟨n, fun M d d' h1 h2 => by
    simp only [storing, Except.ok.injEq] at h2
    subst h2
    simp [storing, h1]⟩
  recon M d d' h := ⟨M, by simp only [storing, Except.ok.injEq] at h; subst h; rfl,
    rfl, rfl, fun _ _ _ _ => rfl⟩
  reset w d h := by
    simp only [storing] at h ⊢
    split_ifs at h
    simp only [Except.ok.injEq] at h
    rw [← h]
  columnwise M h := by
    refine ⟨h, rfl, fun i j hi hj => ?_⟩
    have : i = 0 := by omega
    subst this
    simp only at h
    simp [keepPod, h]
  lossless p t hp ht := by simp [keepPod]
  interp train S h := ⟨S, rfl, rfl, rfl, fun _ _ _ _ => rfl⟩

/-- **C62** fails: a rejected `fit` does not leave the instance as it was. A partition of two DMDs
fitted on two parameters forecasts coefficients of shape `(2, 2, 1)`. A `fit` on one parameter
is rejected with `ValueError`, but afterwards the forecast of the old fit has shape `(1, 4, 1)`:
the coefficients of both parameters in one vector. -/
theorem C62_rejected_fit_false :
    ∃ (o : PDmd (Option (T2 ℕ) × ℕ) ℕ ℕ) (X X' : T3 ℕ) (o₁ o₂ : PDmd (Option (T2 ℕ) × ℕ) ℕ ℕ),
      o = ⟨.part [(none, 0), (none, 0)], false, none, none, none, none, none⟩ ∧
      o.fit storing (fun _ => keepPod) X (.one [3, 4]) 0 = (.ok (), o₁) ∧
      o₁.fit storing (fun _ => keepPod) X' (.one [5]) 0 = (.error .valueError, o₂) ∧
      (∃ F, (o₁.forecasted storing).1 = .ok F ∧ (F.d0, F.d1, F.d2) = (2, 2, 1)) ∧
      (∃ F, (o₂.forecasted storing).1 = .ok F ∧ (F.d0, F.d1, F.d2) = (1, 4, 1)) :=
  ⟨_, ⟨2, 2, 1, fun p s _ => 10 * p + s⟩, ⟨1, 2, 1, fun _ _ _ => 0⟩, _, _, rfl, rfl, rfl,
    ⟨_, rfl, rfl⟩, ⟨_, rfl, rfl⟩⟩

/-- **C62** (partial). A `fit` rejected because the numbers of parameters and data sets differ
changes nothing; one rejected for the number of DMDs changes nothing but the stored number of
parameters, so the instance still works if that number is the same as before. Missing: see
`C62_rejected_fit_false`. -/
theorem C62_rejected_fit_partial (cls : DmdClass D W K) (podFit : T2 K → Pod K) (o : PDmd D V K)
    (X : T3 K) (params : Params V) (len : ℕ) :
    (X.d0 ≠ params.len len → (o.fit cls podFit X params len).2 = o) ∧
    (∀ ds, o.dmd = .part ds → X.d0 ≠ ds.length → o.ntrain = some X.d0 →
      (o.fit cls podFit X params len).2 = o) := by
  refine ⟨fun h => by rw [PDmd.fit, if_pos h], fun ds hds hne hn => ?_⟩
  unfold PDmd.fit
  by_cases h : X.d0 ≠ params.len len
  · rw [if_pos h]
  · rw [if_neg h]
    simp only [hds]
    rw [if_pos (by simpa using hne)]
    rw [← hn, ← hds]

/-- **C62** is false also in that a rejected `fit` can make forecasts impossible: if the number of its data sets does not
divide the number of forecast coefficients, `forecasted_modal_coefficients` raises ValueError from then on. -/
theorem C62_unusable_false (cls : DmdClass D W K) (podFit : T2 K → Pod K) (o : PDmd D V K) (X : T3 K) (params : Params V)
    (len : ℕ) (d : D) (ds : List D) (hds : o.dmd = .part (d :: ds)) (hne : X.d0 ≠ (d :: ds).length) (hlen : X.d0 = params.len len)
    (w : W) (hw : cls.getTime d = .ok w) (Rs : List (T2 K))
    (hR : ((d :: ds).map (cls.setTime w)).mapM cls.reconstructed = .ok Rs) (M : T2 K) (hM : vstack Rs = .ok M)
    (hdvd : ¬ X.d0 ∣ M.rows) :
    ∃ o₂, o.fit cls podFit X params len = (.error .valueError, o₂) ∧ (o₂.forecasted cls).1 = .error .valueError := by
  refine ⟨{ o with ntrain := some X.d0 }, ?_, ?_⟩
  · unfold PDmd.fit
    rw [if_neg (by simpa using hlen)]
    simp only [hds]
    rw [if_pos (by simpa using hne)]
  · unfold PDmd.forecasted PDmd.predictCoefficients
    simp only [hds, hw, hR, bind, Except.bind, hM, Option.getD_some]
    rw [T2.reshape3, if_pos (Or.inr (Or.inr fun h => hdvd (Nat.dvd_of_mod_eq_zero h)))]

/-- Instance: two DMDs with one coefficient each, and a `fit` with three data sets. -/
example : ∃ (o : PDmd (Option (T2 ℕ) × ℕ) ℕ ℕ) (d : Option (T2 ℕ) × ℕ) (ds : List (Option (T2 ℕ) × ℕ)) (w : ℕ) (Rs : List (T2 ℕ))
    (M : T2 ℕ), o.dmd = .part (d :: ds) ∧ 3 ≠ (d :: ds).length ∧ storing.getTime d = .ok w ∧
      ((d :: ds).map (storing.setTime w)).mapM storing.reconstructed = .ok Rs ∧ vstack Rs = .ok M ∧ ¬ 3 ∣ M.rows :=
  ⟨⟨.part [(some ⟨1, 1, fun _ _ => 7⟩, 1), (some ⟨1, 1, fun _ _ => 8⟩, 1)], false, none, none, none, none, none⟩, _, _, _, _, _,
    rfl, by decide, rfl, rfl, rfl, by decide⟩

end Verif.Param
