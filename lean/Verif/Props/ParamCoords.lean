import Verif.Model.ParamPod
import Verif.Props.ParamOrder
import Verif.Spec.LinAlg
import Mathlib.Tactic

/-!
# C173: the coordinates and the unit of the snapshots in parametric DMD

Models: `Verif/Model/Param.lean`, `Verif/Model/ParamPod.lean`.
-/

set_option autoImplicit false

namespace Verif.Param

open Verif

variable {D W V : Type}

/-! ### Vocabulary -/

/-- All snapshots in other coordinates: `K` has `n'` rows and `n` columns. -/
noncomputable def T3.turn (K : ℕ → ℕ → ℂ) (n n' : ℕ) (X : T3 ℂ) : T3 ℂ :=
  ⟨X.d0, n', X.d2, fun p s t => if s < n' then ∑ a ∈ Finset.range n, K s a * X.get p a t else default⟩

/-- The columns of `K` are orthonormal. -/
def Isometric (K : ℕ → ℕ → ℂ) (n n' : ℕ) : Prop :=
  ∀ a b, a < n → b < n → ∑ s ∈ Finset.range n', star (K s a) * K s b = if a = b then 1 else 0

/-- The modes in other coordinates. -/
noncomputable def turnModes (K : ℕ → ℕ → ℂ) (n : ℕ) (U : ℕ → ℕ → ℂ) : ℕ → ℕ → ℂ :=
  fun s i => ∑ a ∈ Finset.range n, K s a * U a i

/-- A two-dimensional array in another unit. -/
def T2.scale (c : ℂ) (M : T2 ℂ) : T2 ℂ := ⟨M.rows, M.cols, fun i j => c * M.get i j⟩

/-- A three-dimensional array in another unit. -/
def T3.scale (c : ℂ) (X : T3 ℂ) : T3 ℂ := ⟨X.d0, X.d1, X.d2, fun i j k => c * X.get i j k⟩

/-! ### Coordinates -/

theorem reduce_turn (K : ℕ → ℕ → ℂ) (n n' r : ℕ) (hK : Isometric K n n') (U : ℕ → ℕ → ℂ) (X : T3 ℂ) :
    (podOf n' r (turnModes K n U)).reduce (arrange (X.turn K n n')) = (podOf n r U).reduce (arrange X) := by
  simp only [podOf, arrange, T3.swap01, T3.flattenTail, T3.turn, T2.mk.injEq, true_and]
  funext i j
  have h1 : ∀ s ∈ Finset.range n', star (turnModes K n U s i) *
      (if s < n' then ∑ a ∈ Finset.range n, K s a * X.get (j / X.d2) a (j % X.d2) else default) =
      ∑ b ∈ Finset.range n, ∑ a ∈ Finset.range n, (star (U b i) * X.get (j / X.d2) a (j % X.d2)) * (star (K s b) * K s a) := by
    intro s hs
    rw [if_pos (Finset.mem_range.mp hs), turnModes, star_sum, Finset.sum_mul_sum]
    refine Finset.sum_congr rfl fun b _ => Finset.sum_congr rfl fun a _ => ?_
    rw [star_mul']
    ring
  rw [Finset.sum_congr rfl h1, Finset.sum_comm]
  refine Finset.sum_congr rfl fun b hb => ?_
  rw [Finset.sum_comm]
  have h2 : ∀ a ∈ Finset.range n, ∑ s ∈ Finset.range n', star (U b i) * X.get (j / X.d2) a (j % X.d2) * (star (K s b) * K s a) =
      if b = a then star (U b i) * X.get (j / X.d2) a (j % X.d2) else 0 := by
    intro a ha
    rw [← Finset.mul_sum, hK b a (Finset.mem_range.mp hb) (Finset.mem_range.mp ha)]
    split_ifs <;> simp
  rw [Finset.sum_congr rfl h2, Finset.sum_ite_eq, if_pos hb]

theorem expand_turn (K : ℕ → ℕ → ℂ) (n n' r : ℕ) (U : ℕ → ℕ → ℂ) (v : List ℂ) (s : ℕ) :
    ((podOf n' r (turnModes K n U)).expand v).getD s default =
      if s < n' then ∑ a ∈ Finset.range n, K s a * ((podOf n r U).expand v).getD a default else default := by
  simp only [podOf]
  split_ifs with hs
  · rw [List.getD_eq_getElem?_getD, List.getElem?_map, List.getElem?_range hs]
    simp only [Option.map_some, Option.getD_some, turnModes]
    have : ∀ a ∈ Finset.range n, K s a * ((List.range n).map fun a => ∑ i ∈ Finset.range r, U a i * v.getD i 0).getD a default =
        ∑ i ∈ Finset.range r, K s a * U a i * v.getD i 0 := by
      intro a ha
      rw [List.getD_eq_getElem?_getD, List.getElem?_map, List.getElem?_range (Finset.mem_range.mp ha)]
      simp only [Option.map_some, Option.getD_some, Finset.mul_sum]
      exact Finset.sum_congr rfl fun i _ => by ring
    rw [Finset.sum_congr rfl this, Finset.sum_comm]
    exact Finset.sum_congr rfl fun i _ => by rw [Finset.sum_mul]
  · rw [List.getD_eq_getElem?_getD, List.getElem?_eq_none (by simpa using hs), Option.getD_none]

/-! ### Following a fit and a forecast -/

/-- The class does not depend on the unit of its data, with `S d d'` if the instances `d` and `d'` differ by the unit: fitting and
setting the window keep the relation, exceptions are the same, and reconstructions are in the new unit. -/
structure Sim (cls : DmdClass D W ℂ) (c : ℂ) (S : D → D → Prop) : Prop where
  fit : ∀ M d d', S d d' → (∃ e, cls.fit M d = .error e ∧ cls.fit (M.scale c) d' = .error e) ∨
    ∃ e e', cls.fit M d = .ok e ∧ cls.fit (M.scale c) d' = .ok e' ∧ S e e'
  get : ∀ d d', S d d' → cls.getTime d' = cls.getTime d
  set : ∀ w d d', S d d' → S (cls.setTime w d) (cls.setTime w d')
  recon : ∀ d d', S d d' → cls.reconstructed d' = (cls.reconstructed d).map (T2.scale c)

theorem scale_one (M : T2 ℂ) : M.scale 1 = M := by simp [T2.scale]

theorem sim_eq (cls : DmdClass D W ℂ) : Sim cls 1 Eq where
  fit := by
    rintro M d _ rfl
    rw [scale_one]
    rcases h : cls.fit M d with e | e
    · exact Or.inl ⟨e, rfl, rfl⟩
    · exact Or.inr ⟨e, e, rfl, rfl, rfl⟩
  get := by rintro d _ rfl; rfl
  set := by rintro w d _ rfl; rfl
  recon := by
    rintro d _ rfl
    rcases cls.reconstructed d with e | R
    · rfl
    · simp [Except.map, scale_one]

/-- Related attributes `_dmd`. -/
def RelDmds (S : D → D → Prop) : Dmds D → Dmds D → Prop
  | .mono d, .mono d' => S d d'
  | .part ds, .part ds' => List.Forall₂ S ds ds'
  | _, _ => False

/-- Related instances; the PODs are given separately. -/
structure Rel (S : D → D → Prop) (o o' : PDmd D V ℂ) : Prop where
  dmd : RelDmds S o.dmd o'.dmd
  light : o'.light = o.light
  train : o'.trainingParameters = o.trainingParameters
  pars : o'.parameters = o.parameters
  ntrain : o'.ntrain = o.ntrain

theorem splitCols_scale (c : ℂ) (M : T2 ℂ) (k : ℕ) :
    (M.scale c).splitCols k = (M.splitCols k).map (List.map (T2.scale c)) := by
  have hc : (M.scale c).cols = M.cols := rfl
  simp only [T2.splitCols, hc]
  by_cases h : k = 0 ∨ M.cols % k ≠ 0
  · rw [if_pos h, if_pos h]
    rfl
  · rw [if_neg h, if_neg h]
    simp only [Except.map, List.map_map]
    rfl

theorem vstack_scale (c : ℂ) : ∀ l : List (T2 ℂ), vstack (l.map (T2.scale c)) = (vstack l).map (T2.scale c)
  | [] => rfl
  | [A] => rfl
  | A :: B :: Ms => by
    have h := vstack_scale c (B :: Ms)
    simp only [List.map_cons] at h ⊢
    simp only [vstack]
    rw [h]
    rcases vstack (B :: Ms) with e | C
    · rfl
    · simp only [Except.map]
      by_cases hc : A.cols = C.cols
      · have : (A.scale c).cols = (C.scale c).cols := hc
        rw [if_pos hc, if_pos this]
        simp only [T2.above, T2.scale, Except.ok.injEq, T2.mk.injEq, true_and]
        funext i j
        by_cases hi : i < A.rows <;> simp [hi]
      · have : ¬ (A.scale c).cols = (C.scale c).cols := hc
        rw [if_neg hc, if_neg this]

theorem fitZip_sim {cls : DmdClass D W ℂ} {c : ℂ} {S : D → D → Prop} (hs : Sim cls c S) :
    ∀ (ds ds' : List D) (l : List (T2 ℂ)), List.Forall₂ S ds ds' →
      (∃ e, fitZip cls ds l = .error e ∧ fitZip cls ds' (l.map (T2.scale c)) = .error e) ∨
        ∃ e e', fitZip cls ds l = .ok e ∧ fitZip cls ds' (l.map (T2.scale c)) = .ok e' ∧ List.Forall₂ S e e' := by
  intro ds ds' l h
  induction h generalizing l with
  | nil => exact Or.inr ⟨[], [], by cases l <;> rfl, by cases l <;> rfl, .nil⟩
  | @cons d d' ds ds' hd hds ih =>
    cases l with
    | nil => exact Or.inr ⟨_, _, rfl, rfl, .cons hd hds⟩
    | cons M Ms =>
      simp only [List.map_cons, fitZip]
      rcases hs.fit M d d' hd with ⟨e, h1, h2⟩ | ⟨e, e', h1, h2, h3⟩
      · exact Or.inl ⟨e, by rw [h1], by rw [h2]⟩
      · rcases ih Ms with ⟨x, k1, k2⟩ | ⟨x, x', k1, k2, k3⟩
        · exact Or.inl ⟨x, by rw [h1]; simp only [k1]; rfl, by rw [h2]; simp only [k2]; rfl⟩
        · exact Or.inr ⟨e :: x, e' :: x', by rw [h1]; simp only [k1]; rfl, by rw [h2]; simp only [k2]; rfl, .cons h3 k3⟩

/-- Related data give the same outcome and related instances. -/
theorem fit_sim {cls : DmdClass D W ℂ} {c : ℂ} {S : D → D → Prop} (hs : Sim cls c S) (podFit podFit' : T2 ℂ → Pod ℂ)
    (o o' : PDmd D V ℂ) (ho : Rel S o o') (X X' : T3 ℂ) (params : Params V) (len : ℕ) (h0 : X'.d0 = X.d0)
    (hred : (podFit' (arrange X')).reduce (arrange X') = ((podFit (arrange X)).reduce (arrange X)).scale c) :
    (o'.fit cls podFit' X' params len).1 = (o.fit cls podFit X params len).1 ∧
      ((o.fit cls podFit X params len).1 = .ok () →
        Rel S (o.fit cls podFit X params len).2 (o'.fit cls podFit' X' params len).2 ∧
          (o.fit cls podFit X params len).2.pod = some (podFit (arrange X)) ∧
          (o'.fit cls podFit' X' params len).2.pod = some (podFit' (arrange X'))) := by
  obtain ⟨dmd, light, tp, ps, nt, pod, co⟩ := o
  obtain ⟨dmd', light', tp', ps', nt', pod', co'⟩ := o'
  obtain ⟨hd, hl, ht, hp, hn⟩ := ho
  simp only at hd hl ht hp hn
  subst hl ht hp hn
  simp only [PDmd.fit, h0, hred, splitCols_scale]
  by_cases h1 : X.d0 ≠ params.len len
  · simp only [if_pos h1]
    exact ⟨trivial, fun h => by cases h⟩
  simp only [if_neg h1]
  cases dmd with
  | mono d =>
    cases dmd' with
    | part _ => exact hd.elim
    | mono d' =>
      simp only [Bool.false_eq_true, if_false]
      rcases params.normalise with e | q
      · exact ⟨rfl, fun h => by cases h⟩
      simp only
      rcases ((podFit (arrange X)).reduce (arrange X)).splitCols X.d0 with e | co
      · exact ⟨rfl, fun h => by cases h⟩
      simp only [Except.map]
      cases light' <;> simp only [Bool.false_eq_true, if_false, if_true]
      all_goals
        rw [vstack_scale]
        rcases vstack co with e | M
        · exact ⟨rfl, fun h => by cases h⟩
        simp only [Except.map]
        rcases hs.fit M d d' hd with ⟨e, k1, k2⟩ | ⟨e, e', k1, k2, k3⟩
        · simp only [k1, k2]
          exact ⟨trivial, fun h => by cases h⟩
        · simp only [k1, k2]
          exact ⟨trivial, fun _ => ⟨⟨k3, rfl, rfl, rfl, rfl⟩, trivial, trivial⟩⟩
  | part ds =>
    cases dmd' with
    | mono _ => exact hd.elim
    | part ds' =>
      have hlen : ds'.length = ds.length := (List.Forall₂.length_eq hd).symm
      simp only [hlen]
      by_cases h2 : (X.d0 != ds.length) = true
      · simp only [if_pos h2]
        exact ⟨trivial, fun h => by cases h⟩
      simp only [if_neg h2]
      rcases params.normalise with e | q
      · exact ⟨rfl, fun h => by cases h⟩
      simp only
      rcases ((podFit (arrange X)).reduce (arrange X)).splitCols X.d0 with e | co
      · exact ⟨rfl, fun h => by cases h⟩
      simp only [Except.map]
      cases light' <;> simp only [Bool.false_eq_true, if_false, if_true]
      all_goals
        rcases fitZip_sim hs ds ds' co hd with ⟨e, k1, k2⟩ | ⟨e, e', k1, k2, k3⟩
        · simp only [k1, k2]
          exact ⟨trivial, fun h => by cases h⟩
        · simp only [k1, k2]
          exact ⟨trivial, fun _ => ⟨⟨k3, rfl, rfl, rfl, rfl⟩, trivial, trivial⟩⟩

theorem mapM_rec_sim {cls : DmdClass D W ℂ} {c : ℂ} {S : D → D → Prop} (hs : Sim cls c S) (ds ds' : List D)
    (h : List.Forall₂ S ds ds') :
    ds'.mapM (m := Except PyErr) cls.reconstructed = (ds.mapM (m := Except PyErr) cls.reconstructed).map (List.map (T2.scale c)) := by
  induction h with
  | nil => rfl
  | @cons d d' ds ds' hd hds ih =>
    rw [List.mapM_cons, List.mapM_cons, ih, hs.recon d d' hd]
    rcases cls.reconstructed d with e | R
    · rfl
    · rcases ds.mapM (m := Except PyErr) cls.reconstructed with e | Rs
      · rfl
      · rfl

theorem predict_sim {cls : DmdClass D W ℂ} {c : ℂ} {S : D → D → Prop} (hs : Sim cls c S) (o o' : PDmd D V ℂ) (ho : Rel S o o') :
    (o'.predictCoefficients cls).1 = (o.predictCoefficients cls).1.map (T2.scale c) ∧
      (o'.predictCoefficients cls).2.parameters = (o.predictCoefficients cls).2.parameters ∧
      (o'.predictCoefficients cls).2.trainingParameters = (o.predictCoefficients cls).2.trainingParameters ∧
      (o'.predictCoefficients cls).2.ntrain = (o.predictCoefficients cls).2.ntrain ∧
      (o.predictCoefficients cls).2.pod = o.pod ∧ (o'.predictCoefficients cls).2.pod = o'.pod := by
  obtain ⟨dmd, light, tp, ps, nt, pod, co⟩ := o
  obtain ⟨dmd', light', tp', ps', nt', pod', co'⟩ := o'
  obtain ⟨hd, hl, ht, hp, hn⟩ := ho
  simp only at hd hl ht hp hn
  subst hl ht hp hn
  cases dmd with
  | mono d =>
    cases dmd' with
    | part _ => exact hd.elim
    | mono d' =>
      exact ⟨hs.recon d d' hd, rfl, rfl, rfl, rfl, rfl⟩
  | part ds =>
    cases dmd' with
    | mono _ => exact hd.elim
    | part ds' =>
      have hd : List.Forall₂ S ds ds' := hd
      cases hd with
      | nil => exact ⟨rfl, rfl, rfl, rfl, rfl, rfl⟩
      | @cons d d' ds ds' h1 h2 =>
        have hg := hs.get d d' h1
        unfold PDmd.predictCoefficients
        rcases hw : cls.getTime d with e | w
        · rw [hw] at hg
          simp only [hg, hw]
          exact ⟨rfl, trivial, trivial, trivial, trivial, trivial⟩
        · rw [hw] at hg
          simp only [hg, hw]
          refine ⟨?_, trivial, trivial, trivial, trivial, trivial⟩
          have h3 : List.Forall₂ S ((d :: ds).map (cls.setTime w)) ((d' :: ds').map (cls.setTime w)) := by
            rw [List.forall₂_map_left_iff, List.forall₂_map_right_iff]
            exact (List.Forall₂.cons h1 h2).imp fun a b hab => hs.set w a b hab
          rw [mapM_rec_sim hs _ _ h3]
          rcases ((d :: ds).map (cls.setTime w)).mapM (m := Except PyErr) cls.reconstructed with e | Rs
          · rfl
          · exact vstack_scale c Rs

theorem reshape3_scale (c : ℂ) (M : T2 ℂ) (k : ℕ) : (M.scale c).reshape3 k = (M.reshape3 k).map (T3.scale c) := by
  have hc : (M.scale c).cols = M.cols := rfl
  have hr : (M.scale c).rows = M.rows := rfl
  simp only [T2.reshape3, hc, hr]
  by_cases h : k = 0 ∨ M.cols = 0 ∨ M.rows % k ≠ 0
  · rw [if_pos h, if_pos h]
    rfl
  · rw [if_neg h, if_neg h]
    rfl

theorem dstack_scale (c : ℂ) : ∀ l : List (T2 ℂ), dstack (l.map (T2.scale c)) = (dstack l).map (T3.scale c)
  | [] => rfl
  | A :: As => by
    simp only [List.map_cons, dstack, Except.map, T3.scale, Except.ok.injEq, T3.mk.injEq]
    refine ⟨rfl, rfl, by simp, ?_⟩
    funext p s t
    have : (A.scale c :: As.map (T2.scale c)).getD t (A.scale c) = ((A :: As).getD t A).scale c := by
      rw [← List.map_cons, List.getD_eq_getElem?_getD, List.getD_eq_getElem?_getD, List.getElem?_map]
      cases (A :: As)[t]? <;> rfl
    rw [this]
    rfl

theorem mapM_interp_scale (c : ℂ) (f : T2 ℂ → Except PyErr (T2 ℂ)) (hf : ∀ M, f (M.scale c) = (f M).map (T2.scale c))
    (l : List (T2 ℂ)) :
    (l.map (T2.scale c)).mapM (m := Except PyErr) f = (l.mapM (m := Except PyErr) f).map (List.map (T2.scale c)) := by
  induction l with
  | nil => rfl
  | cons M l ih =>
    rw [List.map_cons, List.mapM_cons, List.mapM_cons, ih, hf]
    rcases f M with e | R
    · rfl
    · rcases l.mapM (m := Except PyErr) f with e | Rs
      · rfl
      · rfl

theorem interpolate_sim (c : ℂ) (interp : List (List V) → T2 ℂ → List (List V) → Except PyErr (T2 ℂ))
    (hi : ∀ ps M qs, interp ps (M.scale c) qs = (interp ps M qs).map (T2.scale c)) (o o' : PDmd D V ℂ)
    (h1 : o'.parameters = o.parameters) (h2 : o'.trainingParameters = o.trainingParameters) (h3 : o'.ntrain = o.ntrain) (M : T2 ℂ) :
    o'.interpolate interp (M.scale c) = (o.interpolate interp M).map (T3.scale c) := by
  unfold PDmd.interpolate
  rw [h1, h2, h3]
  rcases o.parameters with _ | (_ | ⟨q, qs⟩)
  · rfl
  · rfl
  · simp only [reshape3_scale]
    rcases M.reshape3 (o.ntrain.getD 0) with e | F
    · rfl
    · simp only [Except.map, bind, Except.bind]
      have : ((List.range (rollShape (F.scale c)).d0).map fun t =>
          (⟨(rollShape (F.scale c)).d1, (rollShape (F.scale c)).d2, (rollShape (F.scale c)).get t⟩ : T2 ℂ)) =
          ((List.range (rollShape F).d0).map fun t => (⟨(rollShape F).d1, (rollShape F).d2, (rollShape F).get t⟩ : T2 ℂ)).map
            (T2.scale c) := by
        rw [List.map_map]
        rfl
      rw [this, mapM_interp_scale c _ fun M => hi _ M _]
      rcases ((List.range (rollShape F).d0).map fun t => (⟨(rollShape F).d1, (rollShape F).d2, (rollShape F).get t⟩ : T2 ℂ)).mapM
        (m := Except PyErr) fun s => interp (o.trainingParameters.getD []) s (q :: qs) with e | Rs
      · rfl
      · exact dstack_scale c Rs

theorem setTime_sim {cls : DmdClass D W ℂ} {c : ℂ} {S : D → D → Prop} (hs : Sim cls c S) (o o' : PDmd D V ℂ) (ho : Rel S o o') (w : W) :
    Rel S (o.setTime cls w).2 (o'.setTime cls w).2 ∧ (o.setTime cls w).2.pod = o.pod ∧ (o'.setTime cls w).2.pod = o'.pod := by
  obtain ⟨dmd, light, tp, ps, nt, pod, co⟩ := o
  obtain ⟨dmd', light', tp', ps', nt', pod', co'⟩ := o'
  obtain ⟨hd, hl, ht, hp, hn⟩ := ho
  simp only at hd hl ht hp hn
  subst hl ht hp hn
  cases dmd with
  | mono d =>
    cases dmd' with
    | part _ => exact hd.elim
    | mono d' => exact ⟨⟨hs.set w d d' hd, rfl, rfl, rfl, rfl⟩, rfl, rfl⟩
  | part ds =>
    cases dmd' with
    | mono _ => exact hd.elim
    | part ds' =>
      have hd : List.Forall₂ S ds ds' := hd
      cases hd with
      | nil => exact ⟨⟨List.Forall₂.nil, rfl, rfl, rfl, rfl⟩, rfl, rfl⟩
      | @cons d d' ds ds' h1 h2 => exact ⟨⟨List.Forall₂.cons (hs.set w d d' h1) h2, rfl, rfl, rfl, rfl⟩, rfl, rfl⟩

/-- Forecasts of related instances. -/
theorem forecast_sim {cls : DmdClass D W ℂ} {c : ℂ} {S : D → D → Prop} (hs : Sim cls c S)
    (interp : List (List V) → T2 ℂ → List (List V) → Except PyErr (T2 ℂ))
    (hi : ∀ ps M qs, interp ps (M.scale c) qs = (interp ps M qs).map (T2.scale c)) (o o' : PDmd D V ℂ) (ho : Rel S o o')
    (p p' : Pod ℂ) (hp : o.pod = some p) (hp' : o'.pod = some p') (w : W) (qs : List (List V)) :
    (∃ e, forecastAt cls interp o w qs = .error e ∧ forecastAt cls interp o' w qs = .error e) ∨
      ∃ C : T3 ℂ, forecastAt cls interp o w qs = .ok ⟨C.d0, (p.expand (C.along1 0 0)).length, C.d2,
          fun i s t => (p.expand (C.along1 i t)).getD s default⟩ ∧
        forecastAt cls interp o' w qs = .ok ⟨C.d0, (p'.expand ((C.scale c).along1 0 0)).length, C.d2,
          fun i s t => (p'.expand ((C.scale c).along1 i t)).getD s default⟩ := by
  obtain ⟨h1, h2, h3⟩ := setTime_sim hs o o' ho w
  have h4 : Rel S ((o.setTime cls w).2.setParameters (.two qs)).2 ((o'.setTime cls w).2.setParameters (.two qs)).2 :=
    ⟨h1.dmd, h1.light, h1.train, rfl, h1.ntrain⟩
  obtain ⟨k1, k2, k3, k4, k5, k6⟩ := predict_sim hs _ _ h4
  have hp1 : ((o.setTime cls w).2.setParameters (.two qs)).2.pod = some p := h2.trans hp
  have hp2 : ((o'.setTime cls w).2.setParameters (.two qs)).2.pod = some p' := h3.trans hp'
  unfold forecastAt PDmd.reconstructedData
  generalize ((o.setTime cls w).2.setParameters (.two qs)).2 = a at *
  generalize ((o'.setTime cls w).2.setParameters (.two qs)).2 = a' at *
  rcases hA : a.predictCoefficients cls with ⟨r, b⟩
  rcases hA' : a'.predictCoefficients cls with ⟨r', b'⟩
  rw [hA, hA'] at k1 k2 k3 k4
  rw [hA, hp1] at k5
  rw [hA', hp2] at k6
  simp only at k1 k2 k3 k4 k5 k6
  subst k1
  rcases r with e | M
  · exact Or.inl ⟨e, rfl, rfl⟩
  · simp only [Except.map, k5, k6, interpolate_sim c interp hi b b' k2 k3 k4]
    rcases b.interpolate interp M with e | C
    · exact Or.inl ⟨e, rfl, rfl⟩
    · exact Or.inr ⟨C, rfl, rfl⟩

/-! ### The claims -/

/-- **C173** (coordinates). Let the columns of `K` be orthonormal and let all snapshots be given in other coordinates. With the turned modes
as POD (they are the left singular vectors of the turned data) `fit` has the same outcome, and the forecast for every window and
every list of parameters is the one of the original fit in the new coordinates. -/
theorem C173_coordinates (cls : DmdClass D W ℂ) (interp : List (List V) → T2 ℂ → List (List V) → Except PyErr (T2 ℂ))
    (K : ℕ → ℕ → ℂ) (n n' r : ℕ) (hK : Isometric K n n') (U : ℕ → ℕ → ℂ) (podFit podFit' : T2 ℂ → Pod ℂ) (o : PDmd D V ℂ)
    (X : T3 ℂ) (hpod : podFit (arrange X) = podOf n r U)
    (hpod' : podFit' (arrange (X.turn K n n')) = podOf n' r (turnModes K n U)) (params : Params V) (len : ℕ) :
    (o.fit cls podFit' (X.turn K n n') params len).1 = (o.fit cls podFit X params len).1 ∧
      ((o.fit cls podFit X params len).1 = .ok () → ∀ (w : W) (qs : List (List V)),
        forecastAt cls interp (o.fit cls podFit' (X.turn K n n') params len).2 w qs =
          (forecastAt cls interp (o.fit cls podFit X params len).2 w qs).map (T3.turn K n n')) := by
  have hrel : Rel Eq o o := ⟨by
    unfold RelDmds
    cases o.dmd with
    | mono d => rfl
    | part ds => exact List.forall₂_same.mpr fun _ _ => rfl, rfl, rfl, rfl, rfl⟩
  obtain ⟨h1, h2⟩ := fit_sim (sim_eq cls) podFit podFit' o o hrel X (X.turn K n n') params len rfl
    (by rw [hpod, hpod', reduce_turn K n n' r hK, scale_one])
  refine ⟨h1, fun hok w qs => ?_⟩
  obtain ⟨k1, k2, k3⟩ := h2 hok
  rw [hpod] at k2
  rw [hpod'] at k3
  have hone : ∀ C : T3 ℂ, C.scale 1 = C := fun C => by simp [T3.scale]
  rcases forecast_sim (sim_eq cls) interp (fun ps M qs => by
    rw [scale_one]
    rcases interp ps M qs with e | R
    · rfl
    · simp [Except.map, scale_one]) _ _ k1 _ _ k2 k3 w qs with ⟨e, e1, e2⟩ | ⟨C, e1, e2⟩
  · rw [e1, e2]
    rfl
  · rw [e1, e2, hone]
    simp only [Except.map, T3.turn, Except.ok.injEq, T3.mk.injEq, true_and]
    refine ⟨by simp [podOf], ?_⟩
    funext i s t
    exact expand_turn K n n' r U _ s

/-- **C173** (unit). In another unit of the snapshots the forecasts are those of the original fit in that unit, for all DMD classes and
interpolators that do not depend on the unit (for DMD itself: C134). -/
theorem C173_unit (cls : DmdClass D W ℂ) (c : ℂ) (S : D → D → Prop) (hs : Sim cls c S)
    (interp : List (List V) → T2 ℂ → List (List V) → Except PyErr (T2 ℂ))
    (hi : ∀ ps M qs, interp ps (M.scale c) qs = (interp ps M qs).map (T2.scale c))
    (n r : ℕ) (U : ℕ → ℕ → ℂ) (podFit podFit' : T2 ℂ → Pod ℂ) (o : PDmd D V ℂ)
    (ho : match o.dmd with | .mono d => S d d | .part ds => ∀ d ∈ ds, S d d)
    (X : T3 ℂ) (hpod : podFit (arrange X) = podOf n r U) (hpod' : podFit' (arrange (X.scale c)) = podOf n r U)
    (params : Params V) (len : ℕ) :
    (o.fit cls podFit' (X.scale c) params len).1 = (o.fit cls podFit X params len).1 ∧
      ((o.fit cls podFit X params len).1 = .ok () → ∀ (w : W) (qs : List (List V)),
        forecastAt cls interp (o.fit cls podFit' (X.scale c) params len).2 w qs =
          (forecastAt cls interp (o.fit cls podFit X params len).2 w qs).map (T3.scale c)) := by
  have hrel : Rel S o o := ⟨by
    unfold RelDmds
    cases hd : o.dmd with
    | mono d => rw [hd] at ho; exact ho
    | part ds => rw [hd] at ho; exact List.forall₂_same.mpr ho, rfl, rfl, rfl, rfl⟩
  have hred : (podOf n r U).reduce (arrange (X.scale c)) = ((podOf n r U).reduce (arrange X)).scale c := by
    simp only [podOf, arrange, T3.swap01, T3.flattenTail, T3.scale, T2.scale, T2.mk.injEq, true_and]
    funext i j
    rw [Finset.mul_sum]
    exact Finset.sum_congr rfl fun a _ => by ring
  obtain ⟨h1, h2⟩ := fit_sim hs podFit podFit' o o hrel X (X.scale c) params len rfl (by rw [hpod, hpod', hred])
  refine ⟨h1, fun hok w qs => ?_⟩
  obtain ⟨k1, k2, k3⟩ := h2 hok
  rw [hpod] at k2
  rw [hpod'] at k3
  rcases forecast_sim hs interp hi _ _ k1 _ _ k2 k3 w qs with ⟨e, e1, e2⟩ | ⟨C, e1, e2⟩
  · rw [e1, e2]
    rfl
  · rw [e1, e2]
    simp only [Except.map, T3.scale, Except.ok.injEq, T3.mk.injEq, true_and]
    refine ⟨by simp [podOf], ?_⟩
    funext i s t
    have hv : ∀ k, ((C.scale c).along1 i t).getD k 0 = c * (C.along1 i t).getD k 0 := by
      intro k
      have : (C.scale c).along1 i t = (C.along1 i t).map (c * ·) := by
        simp only [T3.along1, T3.scale, List.map_map]
        rfl
      rw [this, List.getD_eq_getElem?_getD, List.getD_eq_getElem?_getD, List.getElem?_map]
      cases (C.along1 i t)[k]? <;> simp
    simp only [podOf]
    rw [List.getD_eq_getElem?_getD, List.getD_eq_getElem?_getD, List.getElem?_map, List.getElem?_map]
    by_cases hs : s < n
    · rw [List.getElem?_range hs]
      simp only [Option.map_some, Option.getD_some]
      rw [Finset.mul_sum]
      refine Finset.sum_congr rfl fun k _ => ?_
      have := hv k
      simp only [T3.scale] at this
      rw [this]
      ring
    · rw [List.getElem?_eq_none (by simpa using hs)]
      simp only [Option.map_none, Option.getD_none]
      exact (mul_zero c).symm

open Matrix LinAlg in
/-- **C173** (POD). The turned left singular vectors are left singular vectors of the turned snapshots, with the same singular values,
so that the POD of the turned data may have them as modes. -/
theorem C173_pod (K : ℕ → ℕ → ℂ) (n' r : ℕ) (X : T3 ℂ) (hK : Isometric K X.d1 n') (U : ℕ → ℕ → ℂ) (s : Fin r → ℝ)
    (V : Matrix (Fin (X.d0 * X.d2)) (Fin r) ℂ)
    (h : IsSVD (Matrix.of fun (a : Fin X.d1) (j : Fin (X.d0 * X.d2)) => (arrange X).get a j)
      (Matrix.of fun (a : Fin X.d1) (i : Fin r) => U a i) s V) :
    IsSVD (Matrix.of fun (a : Fin n') (j : Fin (X.d0 * X.d2)) => (arrange (X.turn K X.d1 n')).get a j)
      (Matrix.of fun (a : Fin n') (i : Fin r) => turnModes K X.d1 U a i) s V := by
  let Q : Matrix (Fin n') (Fin X.d1) ℂ := Matrix.of fun s a => K s a
  have hQ : Qᴴ * Q = 1 := by
    ext a b
    rw [Matrix.mul_apply, Matrix.one_apply]
    have := hK a b a.2 b.2
    rw [Finset.sum_range] at this
    simp only [Fin.ext_iff]
    rw [← this]
    rfl
  have h1 : (Matrix.of fun (a : Fin n') (i : Fin r) => turnModes K X.d1 U a i) =
      Q * Matrix.of fun (a : Fin X.d1) (i : Fin r) => U a i := by
    ext a i
    rw [Matrix.mul_apply]
    simp only [Matrix.of_apply, turnModes]
    rw [Finset.sum_range]
    rfl
  have h2 : (Matrix.of fun (a : Fin n') (j : Fin (X.d0 * X.d2)) => (arrange (X.turn K X.d1 n')).get a j) =
      Q * Matrix.of fun (a : Fin X.d1) (j : Fin (X.d0 * X.d2)) => (arrange X).get a j := by
    ext a j
    rw [Matrix.mul_apply]
    simp only [Matrix.of_apply, arrange, T3.swap01, T3.flattenTail, T3.turn, a.2, if_true]
    rw [Finset.sum_range]
    rfl
  rw [h1, h2]
  refine ⟨?_, ?_, h.v, h.nonneg⟩
  · rw [h.eq]
    simp only [Matrix.mul_assoc]
  · rw [conjTranspose_mul, Matrix.mul_assoc, ← Matrix.mul_assoc Qᴴ, hQ, Matrix.one_mul, h.u]

/-! ### The hypotheses are met -/

/-- Two sensors exchanged, a third added that records nothing. -/
def exTurn : ℕ → ℕ → ℂ := fun s a => if s = 0 ∧ a = 1 ∨ s = 1 ∧ a = 0 then 1 else 0

example : Isometric exTurn 2 3 := by
  intro a b ha hb
  interval_cases a <;> interval_cases b <;> simp [exTurn, Finset.sum_range_succ]

/-- A class that stores its data and returns them. -/
def keeping : DmdClass (Option (T2 ℂ)) Unit ℂ where
  fit M _ := .ok (some M)
  getTime _ := .ok ()
  setTime _ d := d
  reconstructed d := match d with
    | none => .error .attributeError
    | some M => .ok M

example (c : ℂ) : Sim keeping c fun d d' => d' = d.map (T2.scale c) where
  fit M d d' _ := Or.inr ⟨some M, some (M.scale c), rfl, rfl, rfl⟩
  get _ _ _ := rfl
  set _ _ _ h := h
  recon d d' h := by
    subst h
    cases d <;> rfl

/-- One snapshot of two sensors for each of two parameters: the fit succeeds. -/
example (U : ℕ → ℕ → ℂ) (X : ℕ → ℕ → ℕ → ℂ) :
    ((⟨.mono none, false, none, none, none, none, none⟩ : PDmd (Option (T2 ℂ)) ℕ ℂ).fit keeping (fun _ => podOf 2 1 U) ⟨2, 2, 1, X⟩
      (.one [3, 4]) 0).1 = .ok () := by
  simp [PDmd.fit, Params.len, Params.normalise, podOf, T2.splitCols, arrange, T3.swap01, T3.flattenTail, vstack, keeping,
    List.range_succ]

end Verif.Param
