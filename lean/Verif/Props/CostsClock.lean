import Verif.Props.CostsUnits

/-!
# Property C176: the unit of time in COSTS
-/

set_option autoImplicit false

namespace Verif.CostsWhole

open Verif Verif.Costs Verif.CostsInit Verif.Refit Verif.Rank

variable {n nT wl : ℕ} {B Al : Type}

/-! ## Vocabulary -/

/-- A window with times in a unit that is `k` times smaller. -/
def Win.clock (k : ℝ) (W : Win n wl) : Win n wl := ⟨W.data, fun i => k * W.time i⟩

/-- The result of the DMD in this unit of time. -/
noncomputable def Out.clock (k : ℝ) (r : Out) : Out := ⟨r.rank, r.modes, fun l => r.omega l / k, r.amplitudes⟩

/-- The entries of the arrays in this unit of time. -/
noncomputable def Row.clock (k : ℝ) (r : Row) : Row :=
  ⟨r.start, r.modes, fun l => r.omega l / k, r.amplitudes, r.mean, fun i => k * r.time i⟩

/-- What is assumed of the numerical routines (C152): `f` takes guesses of eigenvalues to the new unit; guesses computed
from the data and results are those in the new unit. -/
structure Clocks (N : Num n nT wl B Al) (k : ℝ) (f : Al → Al) : Prop where
  check : ∀ W, N.bop.check (W.clock k) = N.bop.check W
  sing : ∀ W, N.bop.sing (W.clock k) = N.bop.sing W
  rows : ∀ W, N.bop.rows (W.clock k) = N.bop.rows W
  cols : ∀ W, N.bop.cols (W.clock k) = N.bop.cols W
  basis : ∀ W r, N.bop.basis (W.clock k) r = N.bop.basis W r
  alpha : ∀ W b r, N.bop.alpha (W.clock k) b r = f (N.bop.alpha W b r)
  alen : ∀ a, N.bop.alen (f a) = N.bop.alen a
  solve : ∀ W b a, N.bop.solve (W.clock k) b (f a) = (N.bop.solve W b a).map (Out.clock k)

/-- The options with a given guess in the new unit. -/
def Opts.clock (f : Al → Al) (o : Opts n wl B Al) : Opts n wl B Al :=
  { o with loop := { o.loop with initAlpha := o.loop.initAlpha.map f } }

/-- A k-means that does not depend on unit and origin of the values. -/
def UnitFree (kmeans : ℕ → List ℝ → Except PyErr (List ℕ × List ℝ)) : Prop :=
  ∀ (a b : ℝ), 0 < a → ∀ m xs, kmeans m (xs.map fun x => a * x + b) =
    (kmeans m xs).map fun p => (p.1, p.2.map fun x => a * x + b)

/-- A sort that depends on the order of the values only. -/
def OrderOnly (argsort : List ℝ → List ℕ) : Prop :=
  ∀ (a b : ℝ), 0 < a → ∀ l, argsort (l.map fun x => a * x + b) = argsort l

/-! ## Lemmas -/

section bop

variable {N : Num n nT wl B Al} {k : ℝ} {f : Al → Al}

theorem fit_clock (h : Clocks N k f) (W : Win n wl) (st st' : Bop (Win n wl) ℝ B Al Out) (h1 : st'.rank = st.rank)
    (h2 : st'.basis = st.basis) (h3 : st'.alpha = st.alpha.map f) :
    (st'.fit N.bop (W.clock k)).1 = (st.fit N.bop W).1 ∧
    (st'.fit N.bop (W.clock k)).2.rank = (st.fit N.bop W).2.rank ∧
    (st'.fit N.bop (W.clock k)).2.basis = (st.fit N.bop W).2.basis ∧
    (st'.fit N.bop (W.clock k)).2.alpha = (st.fit N.bop W).2.alpha.map f ∧
    (st'.fit N.bop (W.clock k)).2.out = (st.fit N.bop W).2.out.map (Out.clock k) := by
  have hrank : ∀ r, N.bop.rankOf (W.clock k) r = N.bop.rankOf W r := by
    intro r
    unfold BopNum.rankOf
    rw [h.sing, h.rows, h.cols]
  have hpick : ∀ r b, N.bop.pickBasis (W.clock k) r b = N.bop.pickBasis W r b := by
    intro r b
    unfold BopNum.pickBasis
    simp only [hrank, h.basis]
  have ha : ∀ b r, N.bop.pickAlpha (W.clock k) b r (st.alpha.map f) = (N.bop.pickAlpha W b r st.alpha).map f := by
    intro b r
    unfold BopNum.pickAlpha
    cases st.alpha with
    | none => simp only [Option.map_none, h.alpha]; rfl
    | some a =>
      simp only [Option.map_some, h.alen]
      split_ifs <;> rfl
  unfold Bop.fit
  simp only [h.check, hrank, h1, hpick, h2, h3, ha]
  cases N.bop.check W with
  | error e => exact ⟨rfl, rfl, rfl, rfl, rfl⟩
  | ok u =>
    cases N.bop.pickBasis W (N.bop.rankOf W st.rank) st.basis with
    | error e => exact ⟨rfl, rfl, rfl, rfl, rfl⟩
    | ok b =>
      simp only
      cases N.bop.pickAlpha W b (N.bop.rankOf W st.rank) st.alpha with
      | error e => exact ⟨rfl, rfl, rfl, rfl, rfl⟩
      | ok a =>
        simp only [Except.map, h.solve]
        cases N.bop.solve W b a with
        | error e => exact ⟨rfl, rfl, rfl, rfl, rfl⟩
        | ok r => exact ⟨rfl, rfl, rfl, rfl, rfl⟩

theorem run_clock (h : Clocks N k f) (o : Loop (Win n wl) ℝ B Al Out)
    (hloc : ∀ W, o.localRank (W.clock k) = o.localRank W) (heig : ∀ r, o.eigs (Out.clock k r) = f (o.eigs r)) :
    ∀ (ws : List (Win n wl)) (st st' : Bop (Win n wl) ℝ B Al Out), st'.rank = st.rank → st'.basis = st.basis →
      st'.alpha = st.alpha.map f →
      ({ o with initAlpha := o.initAlpha.map f } : Loop (Win n wl) ℝ B Al Out).run N.bop st' (ws.map (Win.clock k)) =
        (o.run N.bop st ws).map (List.map (Out.clock k)) := by
  intro ws
  induction ws with
  | nil => intro st st' _ _ _; rfl
  | cons W ws ih =>
    intro st st' h1 h2 h3
    have hb : (({ o with initAlpha := o.initAlpha.map f } : Loop (Win n wl) ℝ B Al Out).before (W.clock k) st').rank =
          (o.before W st).rank ∧
        (({ o with initAlpha := o.initAlpha.map f } : Loop (Win n wl) ℝ B Al Out).before (W.clock k) st').basis =
          (o.before W st).basis ∧
        (({ o with initAlpha := o.initAlpha.map f } : Loop (Win n wl) ℝ B Al Out).before (W.clock k) st').alpha =
          (o.before W st).alpha.map f := by
      unfold Loop.before
      simp only [hloc]
      split_ifs
      · exact ⟨h1, h2, h3⟩
      · exact ⟨rfl, rfl, h3⟩
    obtain ⟨e1, e2, e3, e4, e5⟩ := fit_clock h W _ _ hb.1 hb.2.1 hb.2.2
    rw [List.map_cons]
    unfold Loop.run
    generalize (({ o with initAlpha := o.initAlpha.map f } : Loop (Win n wl) ℝ B Al Out).before (W.clock k) st').fit N.bop
      (W.clock k) = p' at e1 e2 e3 e4 e5
    generalize (o.before W st).fit N.bop W = p at e1 e2 e3 e4 e5
    obtain ⟨res, s⟩ := p
    obtain ⟨res', s'⟩ := p'
    simp only at e1 e2 e3 e4 e5
    subst e1
    cases res' with
    | error e => rfl
    | ok u =>
      cases hs : s.out with
      | none => rw [hs] at e5; simp only [e5, hs]; rfl
      | some r =>
        rw [hs] at e5
        simp only [e5, hs, Option.map_some]
        have ha := ih (o.after r s) (({ o with initAlpha := o.initAlpha.map f } : Loop (Win n wl) ℝ B Al Out).after (Out.clock k r) s')
          (by unfold Loop.after; simp only [heig]; split_ifs <;> exact e2)
          (by unfold Loop.after; simp only [heig]; split_ifs <;> exact e3)
          (by unfold Loop.after; simp only [heig]; split_ifs <;> first | exact e4 | rfl)
        rw [ha]
        cases o.run N.bop (o.after r s) ws with
        | error e => rfl
        | ok rs => rfl

end bop

theorem window_clock (cs : Option ℝ) (x : ℕ → ℕ → ℝ) (time : ℕ → ℝ) (k : ℝ) (start : ℕ) :
    window n wl cs x (fun i => k * time i) start = (window n wl cs x time start).clock k := by
  unfold window Win.clock
  congr 1
  funext i
  ring

theorem row_clock (alloc : ℕ) (x : ℕ → ℕ → ℝ) (time : ℕ → ℝ) (k : ℝ) (start : ℕ) (r : Out) :
    row alloc wl x (fun i => k * time i) start (Out.clock k r) = (row alloc wl x time start r).map (Row.clock k) := by
  unfold row
  by_cases h : alloc < r.rank
  · rw [if_pos h, if_pos (show alloc < (Out.clock k r).rank from h)]
    rfl
  · rw [if_neg h, if_neg (show ¬ alloc < (Out.clock k r).rank from h)]
    simp only [Except.map, Except.ok.injEq]
    unfold Row.clock
    simp only [Row.mk.injEq, true_and, and_true]
    refine ⟨rfl, ?_, rfl⟩
    funext l
    by_cases hl : l < r.rank
    · rw [if_pos hl, if_pos (show l < (Out.clock k r).rank from hl)]
      rfl
    · rw [if_neg hl, if_neg (show ¬ l < (Out.clock k r).rank from hl), zero_div]

theorem mapM_clock (alloc : ℕ) (x : ℕ → ℕ → ℝ) (time : ℕ → ℝ) (k : ℝ) : ∀ (starts : List ℕ) (outs : List Out),
    (starts.zip (outs.map (Out.clock k))).mapM (fun p => row alloc wl x (fun i => k * time i) p.1 p.2) =
      ((starts.zip outs).mapM (fun p => row alloc wl x time p.1 p.2)).map (List.map (Row.clock k)) := by
  intro starts
  induction starts with
  | nil => intro outs; rfl
  | cons a starts ih =>
    intro outs
    cases outs with
    | nil => rfl
    | cons r outs =>
      rw [List.map_cons, List.zip_cons_cons, List.zip_cons_cons, mapM_cons', mapM_cons', row_clock, ih]
      cases row alloc wl x time a r with
      | error e => rfl
      | ok R =>
        simp only [Except.map]
        cases (starts.zip outs).mapM (fun p => row alloc wl x time p.1 p.2) with
        | error e => rfl
        | ok rows => rfl

/-! ## Clustering -/

theorem least_sub (z : ℝ) : ∀ l : List ℝ, CostsPad.least (l.map fun x => 1 * x + -z) = (CostsPad.least l).map fun x => 1 * x + -z := by
  intro l
  induction l with
  | nil => rfl
  | cons a l ih =>
    rw [List.map_cons]
    unfold CostsPad.least
    rw [ih]
    cases CostsPad.least l with
    | none => rfl
    | some y =>
      simp only [Option.map_some, one_mul, ← min_add_add_right]

/-- The transformed frequencies in the other unit: `x ↦ a * x + b`. -/
theorem transform_clock (k : ℝ) (hk : 0 < k) (m : Transform) : ∃ a b : ℝ, 0 < a ∧ ∀ ws : List ℝ,
    CostsPad.transform m (ws.map fun w => w / k) =
      (CostsPad.transform m ws).map (List.map (Option.map fun x => a * x + b)) := by
  cases m with
  | absolute =>
    refine ⟨1 / k, 0, by positivity, fun ws => ?_⟩
    simp only [CostsPad.transform, Except.map, List.map_map, Except.ok.injEq]
    refine List.map_congr_left fun w _ => ?_
    simp only [Function.comp_apply, Option.map_some, abs_div, abs_of_pos hk]
    congr 1
    ring
  | squareFrequencies =>
    refine ⟨1 / k ^ 2, 0, by positivity, fun ws => ?_⟩
    simp only [CostsPad.transform, Except.map, List.map_map, Except.ok.injEq]
    refine List.map_congr_left fun w _ => ?_
    simp only [Function.comp_apply, Option.map_some, div_pow]
    congr 1
    ring
  | log10 =>
    refine ⟨1, -Real.logb 10 k, one_pos, fun ws => ?_⟩
    have hlog : ∀ w : ℝ, w ≠ 0 → Real.logb 10 |w / k| = 1 * Real.logb 10 |w| + -Real.logb 10 k := by
      intro w hw
      rw [abs_div, abs_of_pos hk, Real.logb_div (abs_ne_zero.2 hw) hk.ne']
      ring
    have hz : ∀ w : ℝ, w / k = 0 ↔ w = 0 := fun w => by simp [div_eq_zero_iff, hk.ne']
    have hl : (((ws.map fun w => w / k).filter fun w => decide (w ≠ 0)).map fun w => Real.logb 10 |w|) =
        (((ws.filter fun w => decide (w ≠ 0)).map fun w => Real.logb 10 |w|)).map fun x => 1 * x + -Real.logb 10 k := by
      rw [List.filter_map, List.map_map, List.map_map]
      have : ((fun w : ℝ => decide (w ≠ 0)) ∘ fun w => w / k) = fun w => decide (w ≠ 0) := by
        funext w
        simp only [Function.comp_apply, ne_eq, hz]
      rw [this]
      refine List.map_congr_left fun w hw => ?_
      have hw' := (List.mem_filter.1 hw).2
      simp only [ne_eq, decide_not, Bool.not_eq_true', decide_eq_false_iff_not] at hw'
      exact hlog w hw'
    simp only [CostsPad.transform, hl, least_sub]
    cases CostsPad.least ((ws.filter fun w => decide (w ≠ 0)).map fun w => Real.logb 10 |w|) with
    | none => rfl
    | some z =>
      simp only [Option.map_some, Except.map, List.map_map, Except.ok.injEq]
      refine List.map_congr_left fun w _ => ?_
      simp only [Function.comp_apply]
      by_cases hw : w = 0
      · rw [if_pos hw, if_pos ((hz w).2 hw)]
        rfl
      · rw [if_neg hw, if_neg (fun h => hw ((hz w).1 h)), hlog w hw]
        rfl
  | period =>
    refine ⟨k, 0, hk, fun ws => ?_⟩
    simp only [CostsPad.transform, Except.map, List.map_map, Except.ok.injEq]
    refine List.map_congr_left fun w _ => ?_
    simp only [Function.comp_apply]
    by_cases hw : w = 0
    · rw [if_pos hw, if_pos (by simp [hw])]
      rfl
    · rw [if_neg hw, if_neg (by simp [hw, hk.ne'])]
      simp only [Option.map_some, abs_div, abs_of_pos hk]
      congr 1
      have := abs_ne_zero.2 hw
      field_simp
      ring
  | none => exact ⟨1, 0, one_pos, fun ws => rfl⟩
  | other => exact ⟨1, 0, one_pos, fun ws => rfl⟩

theorem finite_clock (g : ℝ → ℝ) : ∀ l : List (Option ℝ), CostsPad.finite (l.map (Option.map g)) = (CostsPad.finite l).map (List.map g) := by
  intro l
  induction l with
  | nil => rfl
  | cons x l ih =>
    cases x with
    | none => rfl
    | some x =>
      rw [List.map_cons, Option.map_some, CostsPad.finite, CostsPad.finite, ih]
      cases CostsPad.finite l <;> rfl

theorem argmin_clock (a b : ℝ) (ha : 0 < a) : ∀ l : List ℝ, argmin (l.map fun x => a * x + b) = argmin l := by
  intro l
  induction l with
  | nil => rfl
  | cons x l ih =>
    rw [List.map_cons]
    unfold argmin
    rw [ih]
    congr 1
    simp only [List.mem_map, forall_exists_index, and_imp, forall_apply_eq_imp_iff₂, add_le_add_iff_right, mul_le_mul_iff_right₀ ha]

theorem cluster_clock (kmeans : ℕ → List ℝ → Except PyErr (List ℕ × List ℝ)) (hkm : UnitFree kmeans) (argsort : List ℝ → List ℕ)
    (hso : OrderOnly argsort) (hsort : ∀ l, IsArgsort l (argsort l)) (k : ℝ) (hk : 0 < k) (nC alloc : ℕ) (m : Transform) :
    ∃ a b : ℝ, 0 < a ∧ ∀ om : List (List ℂ),
      CostsPad.cluster true kmeans argsort nC alloc m (om.map (List.map fun z => z / (k : ℂ))) =
        (CostsPad.cluster true kmeans argsort nC alloc m om).map fun p => (p.1.map fun x => a * x + b, p.2) := by
  obtain ⟨a, b, ha, ht⟩ := transform_clock k hk m
  refine ⟨a, b, ha, fun om => ?_⟩
  unfold CostsPad.cluster
  simp only [Bool.not_true, Bool.false_eq_true, if_false, bind, Except.bind]
  have hf : ((om.map (List.map fun z => z / (k : ℂ))).flatten.map Complex.im) = (om.flatten.map Complex.im).map fun w => w / k := by
    rw [← List.map_flatten, List.map_map, List.map_map]
    refine List.map_congr_left fun z _ => ?_
    simp [Complex.div_ofReal_im]
  rw [hf, ht]
  cases CostsPad.transform m (om.flatten.map Complex.im) with
  | error e => rfl
  | ok x =>
    simp only [Except.map]
    rw [finite_clock]
    cases CostsPad.finite x with
    | error e => rfl
    | ok y =>
      simp only [Except.map]
      rw [hkm a b ha]
      cases kmeans nC y with
      | error e => rfl
      | ok p =>
        simp only [Except.map, Except.ok.injEq, Prod.mk.injEq]
        rw [hso a b ha]
        refine ⟨?_, ?_⟩
        · simp only [relabel, List.map_map]
          refine List.map_congr_left fun i hi => ?_
          have hi' : i < p.2.length := by
            have := (hsort p.2).1.mem_iff.1 hi
            simpa using this
          simp [List.getD_eq_getElem?_getD, hi']
        · simp only [relabel, List.length_map]

/-! ## Property theorems -/

/-- **C176** (fit). With times in a unit that is `k` times smaller, and a given guess of the eigenvalues in that unit, the
fit of COSTS raises the same exceptions and gives the same modes, amplitudes and means; frequencies are in the new unit. -/
theorem C176_fit (o : Opts n wl B Al) (N : Num n nT wl B Al) (k : ℝ) (f : Al → Al) (h : Clocks N k f)
    (hloc : ∃ g : List ℝ → SvdRank ℝ, ∀ W, o.loop.localRank W = g (N.bop.sing W))
    (heig : ∀ r, o.loop.eigs (Out.clock k r) = f (o.loop.eigs r)) (step nSteps : ℤ) (x : ℕ → ℕ → ℝ) (time : ℕ → ℝ) :
    fit (o.clock f) N step nSteps x (fun i => k * time i) =
      (fit o N step nSteps x time).map fun F => ⟨F.alloc, F.rows.map (Row.clock k)⟩ := by
  obtain ⟨g, hg⟩ := hloc
  have hl : ∀ W : Win n wl, o.loop.localRank (W.clock k) = o.loop.localRank W := fun W => by rw [hg, hg, h.sing]
  unfold fit
  cases fitWindows nT nT wl step nSteps with
  | error e => rfl
  | ok w =>
    simp only [bind, Except.bind]
    have hp : prepare (o.clock f) N (fun a t => x a t) = prepare o N fun a t => x a t := rfl
    rw [hp]
    cases prepare o N fun a t => x a t with
    | error e => rfl
    | ok p =>
      obtain ⟨alloc, rank, basis⟩ := p
      simp only
      generalize ((List.range w.nSlides.toNat).map fun k : ℕ => (w.indices k).1.toNat) = starts
      have hw : starts.map (window n wl (o.clock f).sharpness x fun i => k * time i) =
          (starts.map (window n wl o.sharpness x time)).map (Win.clock k) := by
        rw [List.map_map]
        refine List.map_congr_left fun a _ => ?_
        exact window_clock _ _ _ _ _
      have hr := run_clock h ({ o.loop with basis := basis } : Loop (Win n wl) ℝ B Al Out) hl heig
        (starts.map (window n wl o.sharpness x time)) (Bop.new rank basis o.loop.initAlpha)
        (Bop.new rank basis (o.loop.initAlpha.map f)) rfl rfl rfl
      have hr' : Loop.fit (K := ℝ) ({ (o.clock f).loop with basis := basis } : Loop (Win n wl) ℝ B Al Out) N.bop rank
          (starts.map (window n wl (o.clock f).sharpness x fun i => k * time i)) =
          (Loop.fit (K := ℝ) ({ o.loop with basis := basis } : Loop (Win n wl) ℝ B Al Out) N.bop rank
            (starts.map (window n wl o.sharpness x time))).map (List.map (Out.clock k)) := by
        rw [hw]
        exact hr
      rw [hr']
      cases Loop.fit (K := ℝ) ({ o.loop with basis := basis } : Loop (Win n wl) ℝ B Al Out) N.bop rank
          (starts.map (window n wl o.sharpness x time)) with
      | error e => rfl
      | ok outs =>
        simp only [Except.map]
        rw [mapM_clock]
        cases (starts.zip outs).mapM (fun p => row alloc wl x time p.1 p.2) with
        | error e => rfl
        | ok rows => rfl

theorem minTime_mul (t : ℕ → ℝ) (k : ℝ) (hk : 0 < k) : minTime wl (fun i => k * t i) = k * minTime wl t := by
  unfold minTime
  have : ∀ (l : List ℝ) (a : ℝ), (l.map (k * ·)).foldl min (k * a) = k * l.foldl min a := by
    intro l
    induction l with
    | nil => intro a; rfl
    | cons b l ih => intro a; rw [List.map_cons, List.foldl_cons, List.foldl_cons, ← mul_min_of_nonneg _ _ hk.le, ih]
  rw [← this, List.map_map]
  rfl

/-- **C176** (bands). The bands do not depend on the unit of time, whatever the transformation of the frequencies, for a
k-means that does not depend on unit and origin of its values. -/
theorem C176_bands (kmeans : ℕ → List ℝ → Except PyErr (List ℕ × List ℝ)) (hkm : UnitFree kmeans) (argsort : List ℝ → List ℕ)
    (hso : OrderOnly argsort) (hsort : ∀ l, IsArgsort l (argsort l)) (nC : ℕ) (m : Transform) (im : Bool) (F : Fitted) (k : ℝ)
    (hk : 0 < k) :
    (Fitted.bands kmeans argsort wl nC m im ⟨F.alloc, F.rows.map (Row.clock k)⟩) = F.bands kmeans argsort wl nC m im := by
  obtain ⟨a, b, ha, hcl⟩ := cluster_clock kmeans hkm argsort hso hsort k hk nC F.alloc m
  unfold Fitted.bands
  have ho : (⟨F.alloc, F.rows.map (Row.clock k)⟩ : Fitted).omegas = F.omegas.map (List.map fun z => z / (k : ℂ)) := by
    unfold Fitted.omegas
    simp only [List.map_map]
    refine List.map_congr_left fun r _ => ?_
    simp only [Function.comp_apply, List.map_map]
    rfl
  rw [ho, hcl]
  simp only [bind, Except.bind]
  cases CostsPad.cluster true kmeans argsort nC F.alloc m F.omegas with
  | error e => rfl
  | ok p =>
    simp only [Except.map, Except.ok.injEq]
    funext j s t
    rw [List.zip_map_left, List.map_map]
    rw [scaleReconstruction_eq, scaleReconstruction_eq]
    simp only [List.map_map]
    congr 2
    refine List.map_congr_left fun q _ => ?_
    simp only [Function.comp_apply]
    have hfit : ∀ q : Row × List ℕ, (Row.clock k q.1).toFit wl q.2 =
        ⟨q.1.modes, q.1.amplitudes, fun l => q.1.omega l / k, fun l => q.2.getD l 0, q.1.mean,
          fun i => k * (q.1.time i - minTime wl q.1.time)⟩ := by
      intro q
      unfold Row.toFit Row.clock
      simp only [minTime_mul _ _ hk, mul_sub]
    have hocc : ∀ c, occurs ((F.rows.zip p.2).map ((fun x : ℕ × WindowFit => x.2) ∘
        (fun p : Row × List ℕ => (p.1.start, p.1.toFit wl p.2)) ∘ Prod.map (Row.clock k) id)) F.alloc c =
        occurs ((F.rows.zip p.2).map ((fun x : ℕ × WindowFit => x.2) ∘ fun p : Row × List ℕ => (p.1.start, p.1.toFit wl p.2)))
          F.alloc c := by
      intro c
      simp [occurs, Function.comp_def, Row.toFit]
    have hsum : ∀ i, ((Row.clock k q.1).toFit wl q.2).sumOver F.alloc
        (fun l => ((Row.clock k q.1).toFit wl q.2).classes l == j) s i =
        (q.1.toFit wl q.2).sumOver F.alloc (fun l => (q.1.toFit wl q.2).classes l == j) s i := by
      intro i
      unfold WindowFit.sumOver
      rw [hfit]
      congr 1
      refine List.map_congr_left fun l _ => ?_
      simp only [Row.toFit]
      congr 2
      have : (k : ℂ) ≠ 0 := by exact_mod_cast hk.ne'
      push_cast
      field_simp
    have hband : ∀ i, windowBand ((F.rows.zip p.2).map ((fun x : ℕ × WindowFit => x.2) ∘
        (fun p : Row × List ℕ => (p.1.start, p.1.toFit wl p.2)) ∘ Prod.map (Row.clock k) id)) F.alloc (p.1.map fun x => a * x + b) im
          ((Row.clock k q.1).toFit wl q.2) j s i =
        windowBand ((F.rows.zip p.2).map ((fun x : ℕ × WindowFit => x.2) ∘ fun p : Row × List ℕ => (p.1.start, p.1.toFit wl p.2)))
          F.alloc p.1 im (q.1.toFit wl q.2) j s i := by
      intro i
      unfold windowBand
      rw [hocc, hsum, argmin_clock a b ha]
      rfl
    simp only [Prod.map, id]
    rw [hband]
    rfl

/-! ## The hypotheses can be met -/

/-- A sort as C176 assumes exists. -/
theorem exists_orderOnly : ∃ argsort : List ℝ → List ℕ, OrderOnly argsort ∧ ∀ l, IsArgsort l (argsort l) := by
  classical
  refine ⟨fun l => (List.range l.length).mergeSort fun i j => decide (l.getD i (l.headD 0) ≤ l.getD j (l.headD 0)),
    fun a b ha l => ?_, fun l => ⟨List.mergeSort_perm _ _, ?_⟩⟩
  · cases l with
    | nil => rfl
    | cons y l =>
      have hg : ∀ i, ((y :: l).map fun x => a * x + b).getD i (((y :: l).map fun x => a * x + b).headD 0) =
          a * (y :: l).getD i ((y :: l).headD 0) + b := by
        intro i
        rw [List.map_cons, List.headD_cons, List.headD_cons, ← List.map_cons (f := fun x => a * x + b)]
        simp only [List.getD_eq_getElem?_getD, List.getElem?_map]
        cases (y :: l)[i]? <;> rfl
      simp only [hg, add_le_add_iff_right, mul_le_mul_iff_right₀ ha, List.length_map]
  · rw [List.pairwise_map]
    have hs := List.pairwise_mergeSort (le := fun i j => decide (l.getD i (l.headD 0) ≤ l.getD j (l.headD 0)))
      (fun a b c hab hbc => by
        simp only [decide_eq_true_eq] at *
        exact hab.trans hbc)
      (fun a b => by
        simp only [Bool.or_eq_true, decide_eq_true_eq]
        exact le_total _ _) (List.range l.length)
    refine hs.imp_of_mem fun {i j} hi hj h => ?_
    have hi' : i < l.length := by simpa using hi
    have hj' : j < l.length := by simpa using hj
    simpa [List.getD_eq_getElem?_getD, hi', hj'] using h

/-- Clusters around the first values. -/
def firstClusters : ℕ → List ℝ → Except PyErr (List ℕ × List ℝ) := fun m xs =>
  if 0 < m ∧ m ≤ xs.length then .ok ((List.range xs.length).map (· % m), xs.take m) else .error .valueError

/-- They do not depend on unit and origin, and can be more than one. -/
example : UnitFree firstClusters ∧ firstClusters 2 [1, 3, 5] = .ok ([0, 1, 0], [1, 3]) := by
  refine ⟨fun a b _ m xs => ?_, rfl⟩
  unfold firstClusters
  rw [List.length_map]
  split_ifs
  · simp [Except.map, List.map_take]
  · rfl

/-- Routines whose guess and frequency are one over the length of the window. -/
noncomputable def clockNum : Num 1 3 2 Unit ℝ :=
  ⟨⟨fun _ => .ok (), fun _ => [1], fun _ => 1, fun _ => 2, fun _ _ => (), fun _ => 1, fun W _ _ => 1 / W.time 1, fun _ => 1, false,
    fun W _ a => .ok ⟨1, fun _ _ => 1, fun _ => ((a + 1 / W.time 1 : ℝ) : ℂ) * Complex.I, fun _ => 1⟩⟩, fun _ => [1], fun _ _ => ()⟩

/-- Options that pass the frequency of a window on to the next one, from a given guess. -/
noncomputable def clockOpts : Opts 1 2 Unit ℝ :=
  ⟨⟨false, true, false, none, some 5, fun _ => .int 1, fun r => (r.omega 0).im⟩, .int 1, none, false, none⟩

/-- They follow the unit of time as C176 assumes. -/
example (k : ℝ) : Clocks clockNum k (fun a => a / k) ∧
    (∃ g : List ℝ → SvdRank ℝ, ∀ W, clockOpts.loop.localRank W = g (clockNum.bop.sing W)) ∧
    ∀ r, clockOpts.loop.eigs (Out.clock k r) = clockOpts.loop.eigs r / k := by
  refine ⟨⟨fun _ => rfl, fun _ => rfl, fun _ => rfl, fun _ => rfl, fun _ _ => rfl, fun W _ _ => ?_, fun _ => rfl, fun W _ a => ?_⟩,
    ⟨fun _ => .int 1, fun _ => rfl⟩, fun r => ?_⟩
  · simp only [clockNum, Win.clock]
    rw [mul_comm, div_mul_eq_div_div]
  · simp only [clockNum, Win.clock, Except.map, Out.clock, Except.ok.injEq, Out.mk.injEq, true_and, and_true]
    funext _
    rw [mul_comm k, ← div_div, ← add_div]
    push_cast
    ring
  · exact Complex.div_ofReal_im _ _

end Verif.CostsWhole
