import Verif.Model.CostsWhole
import Verif.Props.Costs
import Verif.Props.CostsInit
import Verif.Props.CostsKern
import Verif.Lemmas.SvdUnique
import Verif.Lemmas.SvdExists

/-!
# Property C171: background and origin of time in COSTS
-/

set_option autoImplicit false

namespace Verif.CostsWhole

open Verif Verif.Costs Verif.CostsInit Verif.Refit Verif.Rank

variable {n nT wl : ℕ} {B Al : Type}

/-! ## The arrays -/

/-- Subtracting the mean removes a constant background. -/
theorem window_shift (hwl : 1 ≤ wl) (c : Option ℝ) (x : ℕ → ℕ → ℝ) (b : ℕ → ℝ) (time : ℕ → ℝ) (start : ℕ) :
    window n wl c (fun s t => x s t + b s) time start = window n wl c x time start := by
  have hw : (wl : ℝ) ≠ 0 := by exact_mod_cast (by omega : wl ≠ 0)
  unfold window CostsKern.prepared
  congr 1
  funext a i
  rw [Finset.sum_add_distrib, Finset.sum_const, Finset.card_range, nsmul_eq_mul, add_div, mul_div_cancel_left₀ _ hw]
  ring

/-- Times are counted from the beginning of the window. -/
theorem window_origin (c : Option ℝ) (x : ℕ → ℕ → ℝ) (τ : ℝ) (time : ℕ → ℝ) (start : ℕ) :
    window n wl c x (fun i => time i + τ) start = window n wl c x time start := by
  unfold window
  congr 1
  funext i
  ring

theorem prepare_shift (o : Opts n wl B Al) (N : Num n nT wl B Al) (hg : o.loop.globalSvd = false)
    (hr : ¬ (0 < o.svdRank.val ∧ o.svdRank.val < 1)) (hsing : ∀ X, (N.sing X).length = min n nT)
    (X X' : Fin n → Fin nT → ℝ) : prepare o N X' = prepare o N X := by
  unfold prepare
  simp only [hg, Bool.false_eq_true, if_false]
  by_cases h : 0 < o.svdRank.val
  · rw [if_pos h, if_pos h]
    have : computeRank (N.sing X') n nT o.svdRank = computeRank (N.sing X) n nT o.svdRank := by
      unfold computeRank
      rw [if_neg h.ne', if_neg h.ne', if_neg hr, if_neg hr]
      cases o.svdRank <;> simp only [hsing]
    simp only [this]
  · rw [if_neg h, if_neg h]

theorem mapM_comp {α β γ : Type} (f g : α → Except PyErr β) (h : β → β) (hfg : ∀ a, g a = (f a).map h) (l : List α) :
    l.mapM g = (l.mapM f).map (List.map h) := by
  induction l with
  | nil => rfl
  | cons a l ih =>
    rw [List.mapM_cons, List.mapM_cons, hfg, ih]
    cases f a with
    | error e => rfl
    | ok b =>
      cases l.mapM f with
      | error e => rfl
      | ok bs => rfl

/-- **C171** (background, arrays). With a local SVD and a rank that is not a fraction of the energy, adding a constant to
every variable changes nothing but the means of the windows: same modes, eigenvalues and amplitudes, same exceptions. -/
theorem C171_background_fit (o : Opts n wl B Al) (N : Num n nT wl B Al) (step nSteps : ℤ) (x : ℕ → ℕ → ℝ) (b : ℕ → ℝ)
    (time : ℕ → ℝ) (hwl : 1 ≤ wl) (hg : o.loop.globalSvd = false) (hr : ¬ (0 < o.svdRank.val ∧ o.svdRank.val < 1))
    (hsing : ∀ X, (N.sing X).length = min n nT) :
    fit o N step nSteps (fun s t => x s t + b s) time =
      (fit o N step nSteps x time).map fun F =>
        { F with rows := F.rows.map fun r => { r with mean := fun s => r.mean s + b s } } := by
  have hw : (wl : ℝ) ≠ 0 := by exact_mod_cast (by omega : wl ≠ 0)
  unfold fit
  cases fitWindows nT nT wl step nSteps with
  | error e => rfl
  | ok w =>
    simp only [bind, Except.bind]
    rw [prepare_shift o N hg hr hsing (fun a t => x a t)]
    cases prepare o N fun a t => x a t with
    | error e => rfl
    | ok p =>
      obtain ⟨alloc, rank, basis⟩ := p
      simp only
      have hwin : window n wl o.sharpness (fun s t => x s t + b s) time = window n wl o.sharpness x time :=
        funext fun k => window_shift hwl _ _ _ _ _
      rw [hwin]
      cases Loop.fit (K := ℝ) _ _ _ _ with
      | error e => rfl
      | ok outs =>
        simp only
        rw [mapM_comp (γ := Unit) (fun p : ℕ × Out => row alloc wl x time p.1 p.2) _
          (fun r => { r with mean := fun s => r.mean s + b s })]
        · cases List.mapM (m := Except PyErr) (fun p : ℕ × Out => row alloc wl x time p.1 p.2) _ with
          | error e => rfl
          | ok rows => rfl
        · intro p
          unfold row
          split_ifs
          · rfl
          · simp only [Except.map, Except.ok.injEq, Row.mk.injEq, true_and, and_true]
            funext s
            rw [Finset.sum_add_distrib, Finset.sum_const, Finset.card_range, nsmul_eq_mul, add_div,
              mul_div_cancel_left₀ _ hw]

/-- **C171** (origin of time, arrays). Times counted from another origin change nothing but `time_array`, for all options. -/
theorem C171_origin_fit (o : Opts n wl B Al) (N : Num n nT wl B Al) (step nSteps : ℤ) (x : ℕ → ℕ → ℝ) (τ : ℝ)
    (time : ℕ → ℝ) :
    fit o N step nSteps x (fun i => time i + τ) =
      (fit o N step nSteps x time).map fun F =>
        { F with rows := F.rows.map fun r => { r with time := fun i => r.time i + τ } } := by
  unfold fit
  cases fitWindows nT nT wl step nSteps with
  | error e => rfl
  | ok w =>
    simp only [bind, Except.bind]
    cases prepare o N fun a t => x a t with
    | error e => rfl
    | ok p =>
      obtain ⟨alloc, rank, basis⟩ := p
      simp only
      have hwin : window n wl o.sharpness x (fun i => time i + τ) = window n wl o.sharpness x time :=
        funext fun k => window_origin _ _ _ _ _
      rw [hwin]
      cases Loop.fit (K := ℝ) _ _ _ _ with
      | error e => rfl
      | ok outs =>
        simp only
        rw [mapM_comp (γ := Unit) (fun p : ℕ × Out => row alloc wl x time p.1 p.2) _
          (fun r => { r with time := fun i => r.time i + τ })]
        · cases List.mapM (m := Except PyErr) (fun p : ℕ × Out => row alloc wl x time p.1 p.2) _ with
          | error e => rfl
          | ok rows => rfl
        · intro p
          unfold row
          split_ifs <;> rfl

/-! ## The bands -/

theorem foldl_min_add (τ : ℝ) : ∀ (l : List ℝ) (a : ℝ), (l.map (· + τ)).foldl min (a + τ) = l.foldl min a + τ := by
  intro l
  induction l with
  | nil => intro a; rfl
  | cons b l ih => intro a; rw [List.map_cons, List.foldl_cons, List.foldl_cons, min_add_add_right, ih]

theorem minTime_add (wl : ℕ) (t : ℕ → ℝ) (τ : ℝ) : minTime wl (fun i => t i + τ) = minTime wl t + τ := by
  unfold minTime
  rw [← foldl_min_add, List.map_map]
  rfl

/-- **C171** (origin of time). Times counted from another origin do not change the bands. -/
theorem C171_origin (o : Opts n wl B Al) (N : Num n nT wl B Al) (step nSteps : ℤ) (x : ℕ → ℕ → ℝ) (τ : ℝ) (time : ℕ → ℝ)
    (kmeans : ℕ → List ℝ → Except PyErr (List ℕ × List ℝ)) (argsort : List ℝ → List ℕ) (nC : ℕ) (m : Transform) (im : Bool) :
    (fit o N step nSteps x fun i => time i + τ).bind (Fitted.bands kmeans argsort wl nC m im) =
      (fit o N step nSteps x time).bind (Fitted.bands kmeans argsort wl nC m im) := by
  rw [C171_origin_fit]
  cases fit o N step nSteps x time with
  | error e => rfl
  | ok F =>
    simp only [Except.map, Except.bind]
    unfold Fitted.bands
    have ho : Fitted.omegas { F with rows := F.rows.map fun r => { r with time := fun i => r.time i + τ } } = F.omegas := by
      simp [Fitted.omegas, Function.comp_def]
    rw [ho]
    simp only
    cases CostsPad.cluster true kmeans argsort nC F.alloc m F.omegas with
    | error e => rfl
    | ok p =>
      obtain ⟨cen, cls⟩ := p
      simp only [bind, Except.bind]
      congr 1
      funext j s t
      congr 1
      rw [List.zip_map_left, List.map_map]
      refine List.map_congr_left fun p _ => ?_
      simp only [Function.comp_apply, Prod.map_fst, Prod.map_snd, id_eq, Row.toFit, minTime_add, add_sub_add_right_eq_sub]

theorem run_length (o : Loop (Win n wl) ℝ B Al Out) (N : BopNum (Win n wl) ℝ B Al Out) :
    ∀ (ws : List (Win n wl)) (st : Bop (Win n wl) ℝ B Al Out) (rs : List Out), o.run N st ws = .ok rs →
      rs.length = ws.length := by
  intro ws
  induction ws with
  | nil => intro st rs h; simp only [Loop.run, Except.ok.injEq] at h; rw [← h]; rfl
  | cons w ws ih =>
    intro st rs h
    rw [run_cons] at h
    split at h
    · simp at h
    · split at h
      · simp at h
      · rename_i rs' h'
        simp only [Except.ok.injEq] at h
        rw [← h, List.length_cons, List.length_cons, ih _ _ h']

theorem rows_start (alloc : ℕ) (x : ℕ → ℕ → ℝ) (time : ℕ → ℝ) : ∀ (l : List (ℕ × Out)) (rows : List Row),
    l.mapM (fun p => row alloc wl x time p.1 p.2) = .ok rows → rows.map Row.start = l.map Prod.fst := by
  intro l
  induction l with
  | nil => intro rows h; simp only [List.mapM_nil, pure, Except.pure, Except.ok.injEq] at h; rw [← h]; rfl
  | cons p l ih =>
    intro rows h
    rw [mapM_cons'] at h
    split at h
    · simp at h
    · rename_i r hr
      split at h
      · simp at h
      · rename_i rs hrs
        simp only [Except.ok.injEq] at h
        rw [← h, List.map_cons, List.map_cons, ih _ hrs]
        congr 1
        unfold row at hr
        split_ifs at hr
        simp only [Except.ok.injEq] at hr
        rw [← hr]

/-- The rows of a fit are those of the windows. -/
theorem fit_starts (o : Opts n wl B Al) (N : Num n nT wl B Al) (step nSteps : ℤ) (x : ℕ → ℕ → ℝ) (time : ℕ → ℝ) (F : Fitted)
    (h : fit o N step nSteps x time = .ok F) :
    ∃ w, fitWindows nT nT wl step nSteps = .ok w ∧
      F.rows.map Row.start = (List.range w.nSlides.toNat).map fun k : ℕ => (w.indices k).1.toNat := by
  unfold fit at h
  cases hw : fitWindows nT nT wl step nSteps with
  | error e => rw [hw] at h; simp [bind, Except.bind] at h
  | ok w =>
    refine ⟨w, rfl, ?_⟩
    rw [hw] at h
    simp only [bind, Except.bind] at h
    split at h
    · simp at h
    · rename_i p hp
      split at h
      · simp at h
      · rename_i outs hl
        split at h
        · simp at h
        · rename_i rows hrows
          simp only [Except.ok.injEq] at h
          have hlen := run_length _ _ _ _ _ hl
          rw [List.length_map] at hlen
          rw [← h]
          simp only
          rw [rows_start _ _ _ _ _ hrows, List.map_fst_zip hlen.ge]

/-- What k-means is assumed to return: one label for each value, every label in use, one centroid for each label. -/
def GoodLabels (kmeans : ℕ → List ℝ → Except PyErr (List ℕ × List ℝ)) : Prop :=
  ∀ k xs cls cen, kmeans k xs = .ok (cls, cen) → cls.length = xs.length ∧ cen.length = k ∧ ∀ j < k, j ∈ cls

theorem finite_length : ∀ (l : List (Option ℝ)) (xs : List ℝ), CostsPad.finite l = .ok xs → xs.length = l.length := by
  intro l
  induction l with
  | nil => intro xs h; simp only [CostsPad.finite, Except.ok.injEq] at h; rw [← h]; rfl
  | cons a l ih =>
    intro xs h
    cases a with
    | none => simp [CostsPad.finite] at h
    | some a =>
      simp only [CostsPad.finite] at h
      cases h' : CostsPad.finite l with
      | error e => rw [h'] at h; simp [Except.map] at h
      | ok ys =>
        rw [h'] at h
        simp only [Except.map, Except.ok.injEq] at h
        rw [← h, List.length_cons, List.length_cons, ih ys h']

theorem transform_length (m : Transform) (ws : List ℝ) (l : List (Option ℝ)) (h : CostsPad.transform m ws = .ok l) :
    l.length = ws.length := by
  cases m with
  | absolute => simp only [CostsPad.transform, Except.ok.injEq] at h; rw [← h, List.length_map]
  | squareFrequencies => simp only [CostsPad.transform, Except.ok.injEq] at h; rw [← h, List.length_map]
  | period => simp only [CostsPad.transform, Except.ok.injEq] at h; rw [← h, List.length_map]
  | none => simp [CostsPad.transform] at h
  | other => simp [CostsPad.transform] at h
  | log10 =>
    simp only [CostsPad.transform] at h
    split at h
    · simp at h
    · simp only [Except.ok.injEq] at h; rw [← h, List.length_map]

/-- After the clustering band 0 is the lowest, and some eigenvalue is in it. -/
theorem cluster_zero (kmeans : ℕ → List ℝ → Except PyErr (List ℕ × List ℝ)) (hk : GoodLabels kmeans)
    (argsort : List ℝ → List ℕ) (ha : ∀ l, IsArgsort l (argsort l)) (nC alloc : ℕ) (hn : 1 ≤ nC) (m : Transform)
    (om : List (List ℂ)) (hom : ∀ r ∈ om, r.length = alloc) (cen : List ℝ) (cls : List (List ℕ))
    (h : CostsPad.cluster true kmeans argsort nC alloc m om = .ok (cen, cls)) :
    argmin cen = 0 ∧ cls.length = om.length ∧ ∃ c ∈ cls, ∃ l < alloc, c.getD l 0 = 0 := by
  unfold CostsPad.cluster at h
  simp only [Bool.not_true, Bool.false_eq_true, if_false, bind, Except.bind] at h
  split at h
  · simp at h
  · rename_i xs hx
    split at h
    · simp at h
    · rename_i ys hy
      split at h
      · simp at h
      · rename_i p hp
        obtain ⟨c0, cen0⟩ := p
        simp only [Except.ok.injEq, Prod.mk.injEq] at h
        obtain ⟨hcen, hcls⟩ := h
        obtain ⟨h1, h2, h3⟩ := hk _ _ _ _ hp
        have hperm := (ha cen0).1
        have hsort := (ha cen0).2
        refine ⟨?_, ?_, ?_⟩
        · rw [← hcen]
          change argmin ((argsort cen0).map fun i => cen0.getD i 0) = 0
          cases hl : (argsort cen0).map fun i => cen0.getD i 0 with
          | nil => rfl
          | cons a l =>
            rw [hl, List.pairwise_cons] at hsort
            rw [argmin, if_pos hsort.1]
        · rw [← hcls]; simp [CostsPad.reshape]
        · -- the cluster with the smallest centroid
          have hlen : (argsort cen0).length = nC := by rw [hperm.length_eq, List.length_range, h2]
          have hi : (argsort cen0)[0]? = some ((argsort cen0)[0]'(by omega)) := List.getElem?_eq_getElem _
          have hlut := buildLut_get _ _ hperm 0 _ hi
          have hlt : (argsort cen0)[0]'(by omega) < nC := by
            have := hperm.mem_iff.1 (List.getElem_mem (show 0 < (argsort cen0).length by omega))
            rw [List.mem_range, h2] at this
            exact this
          obtain ⟨e, he, hce⟩ := List.getElem_of_mem (h3 _ hlt)
          have hflat : c0.length = om.length * alloc := by
            rw [h1, finite_length _ _ hy, transform_length _ _ _ hx, List.length_map, List.length_flatten,
              List.map_congr_left hom, List.map_const', List.sum_replicate, smul_eq_mul]
          have hap : 0 < alloc := by
            rcases Nat.eq_zero_or_pos alloc with h0 | h0
            · rw [hflat, h0] at he; omega
            · exact h0
          have hdiv : e / alloc < om.length := by
            rw [Nat.div_lt_iff_lt_mul hap, ← hflat]; exact he
          refine ⟨((relabel (argsort cen0) cen0 c0).2.drop (e / alloc * alloc)).take alloc, ?_, e % alloc, Nat.mod_lt _ hap, ?_⟩
          · rw [← hcls]
            exact List.mem_map.2 ⟨e / alloc, List.mem_range.2 hdiv, rfl⟩
          · rw [List.getD_eq_getElem?_getD, List.getElem?_take_of_lt (Nat.mod_lt _ hap), List.getElem?_drop,
              Nat.div_add_mod' e alloc]
            simp only [relabel, List.getElem?_map, List.getElem?_eq_getElem he, Option.map_some, Option.getD_some, hce]
            rw [List.getD_eq_getElem?_getD, hlut, Option.getD_some]

/-- Adding a constant to the means adds it to the lowest band. -/
theorem scale_shift (length rank : ℕ) (cen : List ℝ) (im : Bool) (wins : List (ℕ × WindowFit)) (b : ℕ → ℝ) (j s t : ℕ)
    (hc : ∃ w ∈ wins, w.1 ≤ t ∧ t < w.1 + length) (hmin : argmin cen = 0) (hocc : occurs (wins.map (·.2)) rank 0 = true) :
    scaleReconstruction length rank cen im
        (wins.map fun w => (w.1, { w.2 with mean := fun s => w.2.mean s + b s })) j s t =
      scaleReconstruction length rank cen im wins j s t + if im = true ∧ j = 0 then b s else 0 := by
  have hW := total_pos length t wins hc
  rw [scaleReconstruction_eq, scaleReconstruction_eq, List.map_map, List.map_map, List.map_map]
  have hocc' : ∀ k, occurs (wins.map ((fun x : ℕ × WindowFit => x.2) ∘ fun w =>
      (w.1, { w.2 with mean := fun s => w.2.mean s + b s }))) rank k = occurs (wins.map (·.2)) rank k := by
    intro k
    simp [occurs, Function.comp_def]
  have hband : ∀ w ∈ wins, windowBand (wins.map ((fun x : ℕ × WindowFit => x.2) ∘ fun w =>
      (w.1, { w.2 with mean := fun s => w.2.mean s + b s }))) rank cen im { w.2 with mean := fun s => w.2.mean s + b s } j s
        (t - w.1) = windowBand (wins.map (·.2)) rank cen im w.2 j s (t - w.1) + if im = true ∧ j = 0 then b s else 0 := by
    intro w _
    unfold windowBand
    rw [hocc', hmin]
    by_cases hj : j = 0
    · subst hj
      rw [if_pos hocc, if_pos hocc]
      by_cases hi : im = true
      · simp only [hi, and_self, if_true, WindowFit.sumOver]; ring
      · simp only [hi, Bool.false_eq_true, false_and, if_false, WindowFit.sumOver]; ring
    · simp only [hj, and_false, if_false, add_zero, WindowFit.sumOver]
  have e1 : (wins.map ((fun w : ℕ × WindowFit => weight length w.1 t) ∘ fun w =>
      (w.1, { w.2 with mean := fun s => w.2.mean s + b s }))).sum = (wins.map fun w => weight length w.1 t).sum := rfl
  rw [e1, div_eq_iff hW.ne', add_mul, div_mul_cancel₀ _ hW.ne', ← List.sum_map_mul_left, ← List.sum_map_add]
  congr 1
  refine List.map_congr_left fun w hw => ?_
  simp only [Function.comp_apply]
  rw [hband w hw]
  ring

/-- **C171** (background). With a local SVD and a rank that is not a fraction of the energy, adding a constant to every
variable adds this constant to the low frequency band if the means are included, and changes nothing else; so the global
reconstruction and the low frequency component follow the background, and the high frequency component does not see it. -/
theorem C171_background_partial (o : Opts n wl B Al) (N : Num n nT wl B Al) (step nSteps : ℤ) (x : ℕ → ℕ → ℝ) (b : ℕ → ℝ)
    (time : ℕ → ℝ) (hwl : 1 ≤ wl) (hstep : 1 ≤ step) (hover : step ≤ wl) (hn : nSteps = nT ∨ nSteps = nT - 1)
    (hg : o.loop.globalSvd = false) (hr : ¬ (0 < o.svdRank.val ∧ o.svdRank.val < 1))
    (hsing : ∀ X, (N.sing X).length = min n nT)
    (kmeans : ℕ → List ℝ → Except PyErr (List ℕ × List ℝ)) (hk : GoodLabels kmeans)
    (argsort : List ℝ → List ℕ) (ha : ∀ l, IsArgsort l (argsort l)) (nC : ℕ) (hnC : 1 ≤ nC) (m : Transform) (im : Bool) :
    (∀ e, (fit o N step nSteps x time).bind (Fitted.bands kmeans argsort wl nC m im) = .error e →
      (fit o N step nSteps (fun s t => x s t + b s) time).bind (Fitted.bands kmeans argsort wl nC m im) = .error e) ∧
    ∀ R, (fit o N step nSteps x time).bind (Fitted.bands kmeans argsort wl nC m im) = .ok R →
      ∃ R', (fit o N step nSteps (fun s t => x s t + b s) time).bind (Fitted.bands kmeans argsort wl nC m im) = .ok R' ∧
        ∀ j s, ∀ t < nT, R' j s t = R j s t + if im = true ∧ j = 0 then b s else 0 := by
  rw [C171_background_fit o N step nSteps x b time hwl hg hr hsing]
  cases hF : fit o N step nSteps x time with
  | error e => simp [Except.bind, Except.map]
  | ok F =>
    simp only [Except.map, Except.bind]
    have ho : Fitted.omegas { F with rows := F.rows.map fun r => { r with mean := fun s => r.mean s + b s } } = F.omegas := by
      simp [Fitted.omegas, Function.comp_def]
    unfold Fitted.bands
    rw [ho]
    simp only
    cases hcl : CostsPad.cluster true kmeans argsort nC F.alloc m F.omegas with
    | error e => simp [bind, Except.bind]
    | ok p =>
      obtain ⟨cen, cls⟩ := p
      simp only [bind, Except.bind, reduceCtorEq, false_imp_iff, implies_true, true_and, Except.ok.injEq]
      rintro R rfl
      refine ⟨_, rfl, ?_⟩
      intro j s t ht
      obtain ⟨hmin, hlen, c, hc, l, hl, hcz⟩ := cluster_zero kmeans hk argsort ha nC F.alloc hnC m F.omegas
        (by intro r hr; obtain ⟨r', -, rfl⟩ := List.mem_map.1 hr; simp) cen cls hcl
      have hlen' : cls.length = F.rows.length := by rw [hlen, Fitted.omegas, List.length_map]
      -- the time step is covered
      obtain ⟨w, hw, hst⟩ := fit_starts o N step nSteps x time F hF
      have hle : (wl : ℤ) ≤ nT := by
        by_contra hlt
        unfold fitWindows at hw
        rw [if_neg (by simp)] at hw
        simp only at hw
        rw [if_pos (by omega)] at hw
        simp at hw
      obtain ⟨w', hw', hpos, hin, -, hcov⟩ := C45_windows nT wl step nSteps (by omega) hle (by omega) hn
      rw [hw] at hw'
      obtain rfl : w = w' := by simpa using hw'
      obtain ⟨k, hk0, hk1, hka, hkb⟩ := hcov hover t (by omega) (by omega)
      obtain ⟨hge, -, hl2, -⟩ := hin k hk0 hk1
      have hmemst : (w.indices k).1.toNat ∈ F.rows.map Row.start := by
        rw [hst]
        refine List.mem_map.2 ⟨k.toNat, List.mem_range.2 (by omega), ?_⟩
        rw [Int.toNat_of_nonneg hk0]
      obtain ⟨r0, hr0, hr0s⟩ := List.mem_map.1 hmemst
      have hcovd : ∃ v ∈ (F.rows.zip cls).map fun p => (p.1.start, p.1.toFit wl p.2), v.1 ≤ t ∧ t < v.1 + wl := by
        obtain ⟨i, hi, hri⟩ := List.getElem_of_mem hr0
        refine ⟨(r0.start, r0.toFit wl (cls[i]'(by omega))), List.mem_map.2 ⟨(r0, cls[i]'(by omega)), ?_, rfl⟩, ?_⟩
        · rw [← hri, ← List.getElem_zip (h := by rw [List.length_zip]; omega)]
          exact List.getElem_mem _
        · simp only [hr0s]; omega
      have hW := total_pos wl t _ hcovd
      have hocc : occurs (((F.rows.zip cls).map fun p => (p.1.start, p.1.toFit wl p.2)).map (·.2)) F.alloc 0 = true := by
        obtain ⟨i, hi, hci⟩ := List.getElem_of_mem hc
        simp only [occurs, List.any_eq_true, List.mem_range, beq_iff_eq]
        refine ⟨(F.rows[i]'(by omega)).toFit wl c, ?_, l, hl, hcz⟩
        rw [List.map_map]
        refine List.mem_map.2 ⟨(F.rows[i]'(by omega), c), ?_, rfl⟩
        rw [← hci, ← List.getElem_zip (h := by rw [List.length_zip]; omega)]
        exact List.getElem_mem _
      rw [← scale_shift wl F.alloc cen im _ b j s t hcovd hmin hocc]
      congr 1
      rw [List.zip_map_left, List.map_map, List.map_map]
      rfl

/-! ## Times in reverse order -/

theorem foldl_min_const (a : ℝ) : ∀ (l : List ℝ), (∀ b ∈ l, a ≤ b) → l.foldl min a = a := by
  intro l
  induction l with
  | nil => intro _; rfl
  | cons b l ih =>
    intro h
    rw [List.foldl_cons, min_eq_left (h b (by simp)), ih fun c hc => h c (by simp [hc])]

theorem foldl_min_le : ∀ (l : List ℝ) (a m : ℝ), m ≤ a → (∀ b ∈ l, m ≤ b) → (m = a ∨ m ∈ l) → l.foldl min a = m := by
  intro l
  induction l with
  | nil => intro a m _ _ h; simpa using h.symm.elim (fun h => absurd h (by simp)) Eq.symm
  | cons b l ih =>
    intro a m hma hml h
    rw [List.foldl_cons]
    refine ih _ _ (le_min hma (hml b (by simp))) (fun c hc => hml c (by simp [hc])) ?_
    rcases h with rfl | h
    · left; rw [min_eq_left (hml b (by simp))]
    · rcases List.mem_cons.1 h with rfl | h
      · left; rw [min_eq_right hma]
      · right; exact h

/-- **C171** (times). If the times do not decrease, the bands are put together at the times the windows were fitted at. -/
theorem C171_times (c : Option ℝ) (x : ℕ → ℕ → ℝ) (time : ℕ → ℝ) (hm : Monotone time) (alloc start : ℕ) (r : Out) (R : Row)
    (h : row alloc wl x time start r = .ok R) (cls : List ℕ) (i : Fin wl) :
    (R.toFit wl cls).time i = (window n wl c x time start).time i := by
  unfold row at h
  split_ifs at h
  simp only [Except.ok.injEq] at h
  subst h
  simp only [Row.toFit, window, minTime]
  rw [foldl_min_const]
  · simp
  · intro b hb
    obtain ⟨k, -, rfl⟩ := List.mem_map.1 hb
    exact hm (by omega)

/-- **C171** is false for times in reverse order: `fit` counts the times of a window from its first snapshot, `scale_reconstruction` from
the smallest time, so that every mode `φ b e^{ω t}` enters the bands with the factor `e^{ω T}` for windows that last `T`. -/
theorem C171_reverse_false (c : Option ℝ) (x : ℕ → ℕ → ℝ) (time : ℕ → ℝ) (hm : Antitone time) (alloc start : ℕ) (r : Out)
    (R : Row) (h : row alloc wl x time start r = .ok R) (cls : List ℕ) (i : Fin wl) (sel : ℕ → Bool) (s : ℕ) :
    (R.toFit wl cls).sumOver alloc sel s i =
      (((List.range alloc).filter sel).map fun l => Complex.exp (R.omega l * (time start - time (start + (wl - 1)) : ℝ)) *
        (R.modes s l * R.amplitudes l * Complex.exp (R.omega l * (window n wl c x time start).time i))).sum := by
  unfold row at h
  split_ifs at h
  simp only [Except.ok.injEq] at h
  subst h
  have hi := i.2
  simp only [Row.toFit, window, minTime, WindowFit.sumOver]
  rw [foldl_min_le _ _ (time (start + (wl - 1)))]
  · congr 1
    refine List.map_congr_left fun l _ => ?_
    rw [mul_left_comm, ← Complex.exp_add]
    congr 2
    push_cast
    ring
  · exact hm (by omega)
  · intro b hb
    obtain ⟨k, hk, rfl⟩ := List.mem_map.1 hb
    rw [List.mem_range] at hk
    exact hm (by omega)
  · right
    exact List.mem_map.2 ⟨wl - 1, List.mem_range.2 (by omega), rfl⟩

/-! ## The global SVD -/

open Matrix LinAlg SvdUnique in
/-- The leading left singular vector of orthogonal rows is in the direction of the larger row. -/
theorem leading_row {p : ℕ} (X : Matrix (Fin 2) (Fin nT) ℂ) (α β : ℝ) (hα : 0 ≤ α) (hαβ : α < β) (k k' : Fin 2) (hk : k ≠ k')
    (hX : X * Xᴴ = diagonal fun a => if a = k then (α : ℂ) else β)
    (U : Matrix (Fin 2) (Fin (p + 1)) ℂ) (sg : Fin (p + 1) → ℝ) (V : Matrix (Fin nT) (Fin (p + 1)) ℂ) (h : IsSVD X U sg V)
    (hs : Antitone sg) : U k 0 = 0 := by
  have hg := gram h
  have hU : X * Xᴴ * U = U * rdiag fun i => sg i * sg i := by
    rw [hg, Matrix.mul_assoc, h.u, Matrix.mul_one]
  have hent : ∀ a j, (if a = k then (α : ℂ) else β) * U a j = U a j * ((sg j * sg j : ℝ) : ℂ) := by
    intro a j
    have := congrFun (congrFun hU a) j
    rw [hX, Matrix.diagonal_mul, rdiag, Matrix.mul_diagonal] at this
    exact this
  by_contra h0
  have h1 : sg 0 * sg 0 = α := by
    have := hent k 0
    rw [if_pos rfl, mul_comm] at this
    exact_mod_cast (mul_left_cancel₀ h0 this).symm
  have h2 : ∀ j, U k' j = 0 := by
    intro j
    by_contra hj
    have := hent k' j
    rw [if_neg hk.symm, mul_comm] at this
    have h3 : sg j * sg j = β := by exact_mod_cast (mul_left_cancel₀ hj this).symm
    have h4 : sg j ≤ sg 0 := hs (Fin.zero_le j)
    nlinarith [h.nonneg j, h.nonneg 0]
  have h5 := congrFun (congrFun hg k') k'
  rw [hX, diagonal_apply_eq, if_neg hk.symm, Matrix.mul_apply] at h5
  have : ∑ j, (U * rdiag fun i => sg i * sg i) k' j * Uᴴ j k' = 0 := by
    refine Finset.sum_eq_zero fun j _ => ?_
    rw [conjTranspose_apply, h2 j, star_zero, mul_zero]
  rw [this] at h5
  have : β = 0 := by exact_mod_cast h5
  linarith

/-- An oscillation `s` in one variable and a constant `b` in another one. -/
def twoVars (s : ℕ → ℝ) (b : ℝ) : ℕ → ℕ → ℝ := fun a t => if a = 0 then s t else b

open Matrix LinAlg SvdUnique in
theorem twoVars_gram (s : ℕ → ℝ) (b : ℝ) (hs : ∑ t : Fin nT, s t = 0) :
    (Matrix.of fun (a : Fin 2) (t : Fin nT) => (twoVars s b a t : ℂ)) *
      (Matrix.of fun (a : Fin 2) (t : Fin nT) => (twoVars s b a t : ℂ))ᴴ =
    !![((∑ t : Fin nT, s t ^ 2 : ℝ) : ℂ), 0; 0, ((nT * b ^ 2 : ℝ) : ℂ)] := by
  have hs' : ∑ t : Fin nT, (s t : ℂ) = 0 := by exact_mod_cast congrArg (fun r : ℝ => (r : ℂ)) hs
  ext i j
  rw [Matrix.mul_apply]
  fin_cases i <;> fin_cases j <;>
    simp [twoVars, Matrix.conjTranspose_apply, Complex.conj_ofReal, ← Finset.sum_mul, ← Finset.mul_sum, hs', pow_two]

open Matrix LinAlg SvdUnique in
/-- **C171** is false with the global SVD, the default: the projection basis is that of the data with their background. For an
oscillation in one variable and a larger constant in another one, the projection of every window on the leading direction is 0;
without the constant it is the oscillation up to a factor of modulus 1, for the same data of the windows. -/
theorem C171_global_false {p : ℕ} (s : ℕ → ℝ) (hs : ∑ t : Fin nT, s t = 0) (h0 : 0 < ∑ t : Fin nT, s t ^ 2) (b : ℝ)
    (hb : ∑ t : Fin nT, s t ^ 2 < nT * b ^ 2) (c : Option ℝ) (time : ℕ → ℝ) (hwl : 1 ≤ wl)
    (U U' : Matrix (Fin 2) (Fin (p + 1)) ℂ) (sg sg' : Fin (p + 1) → ℝ) (V V' : Matrix (Fin nT) (Fin (p + 1)) ℂ)
    (h : IsSVD (Matrix.of fun (a : Fin 2) (t : Fin nT) => (twoVars s b a t : ℂ)) U sg V) (ha : Antitone sg)
    (h' : IsSVD (Matrix.of fun (a : Fin 2) (t : Fin nT) => (twoVars s 0 a t : ℂ)) U' sg' V') (ha' : Antitone sg')
    (start : ℕ) (i : Fin wl) :
    window 2 wl c (twoVars s b) time start = window 2 wl c (twoVars s 0) time start ∧
    ∑ a, star (U a 0) * ((window 2 wl c (twoVars s b) time start).data a i : ℂ) = 0 ∧
    ∑ a, star (U' a 0) * ((window 2 wl c (twoVars s 0) time start).data a i : ℂ) =
      star (U' 0 0) * ((window 2 wl c (twoVars s 0) time start).data 0 i : ℂ) ∧ ‖U' 0 0‖ = 1 := by
  have hwin : window 2 wl c (twoVars s b) time start = window 2 wl c (twoVars s 0) time start := by
    rw [← window_shift hwl c (twoVars s 0) (fun a => if a = 0 then 0 else b)]
    congr 1
    funext a t
    by_cases h : a = 0 <;> simp [twoVars, h]
  have hw1 : (window 2 wl c (twoVars s 0) time start).data 1 i = 0 := by
    simp [window, CostsKern.prepared, twoVars]
  have hU : U 0 0 = 0 := by
    refine leading_row _ _ _ h0.le hb 0 1 (by decide) ?_ U sg V h ha
    rw [twoVars_gram s b hs]
    ext i j
    fin_cases i <;> fin_cases j <;> simp
  have hU' : U' 1 0 = 0 := by
    refine leading_row _ 0 _ le_rfl h0 1 0 (by decide) ?_ U' sg' V' h' ha'
    rw [twoVars_gram s 0 hs]
    ext i j
    fin_cases i <;> fin_cases j <;> simp
  refine ⟨hwin, ?_, ?_, ?_⟩
  · rw [hwin, Fin.sum_univ_two, hU, hw1]; simp
  · rw [Fin.sum_univ_two, hw1]; simp
  · have := congrFun (congrFun h'.u 0) 0
    rw [Matrix.mul_apply, Fin.sum_univ_two, conjTranspose_apply, conjTranspose_apply, hU', mul_zero, add_zero,
      Matrix.one_apply_eq] at this
    have e : ((‖U' 0 0‖ ^ 2 : ℝ) : ℂ) = 1 := by
      rw [← this]; push_cast; rw [← Complex.conj_mul']; rfl
    have e' : ‖U' 0 0‖ ^ 2 = 1 := by exact_mod_cast e
    nlinarith [norm_nonneg (U' 0 0)]

/-! ## The hypotheses can be met -/

/-- `np.argsort` as assumed exists. -/
theorem exists_argsort : ∃ argsort : List ℝ → List ℕ, ∀ l, IsArgsort l (argsort l) := by
  classical
  refine ⟨fun l => (List.range l.length).mergeSort fun i j => decide (l.getD i 0 ≤ l.getD j 0), fun l => ⟨List.mergeSort_perm _ _, ?_⟩⟩
  rw [List.pairwise_map]
  refine (List.pairwise_mergeSort ?_ ?_ _).imp ?_
  · intro a b c hab hbc
    simp only [decide_eq_true_eq] at *
    exact hab.trans hbc
  · intro a b
    simp only [Bool.or_eq_true, decide_eq_true_eq]
    exact le_total _ _
  · intro a b h
    simpa using h

/-- One cluster. -/
def oneCluster : ℕ → List ℝ → Except PyErr (List ℕ × List ℝ) := fun k xs =>
  if k = 1 ∧ 0 < xs.length then .ok (List.replicate xs.length 0, [0]) else .error .valueError

theorem oneCluster_good : GoodLabels oneCluster := by
  intro k xs cls cen h
  unfold oneCluster at h
  split_ifs at h with hc
  simp only [Except.ok.injEq, Prod.mk.injEq] at h
  obtain ⟨rfl, rfl⟩ := h
  refine ⟨by simp, by simp [hc.1], fun j hj => ?_⟩
  rw [List.mem_replicate]
  exact ⟨by omega, by omega⟩

/-- One variable, windows of two snapshots, rank 1, local SVD; `BOPDMD` finds one mode with frequency 1. -/
def exOpts : Opts 1 2 Unit Unit :=
  ⟨⟨false, false, false, none, none, fun _ => .int 1, fun _ => ()⟩, .int 1, none, false, none⟩

/-- The routines of the example. -/
noncomputable def exNum : Num 1 3 2 Unit Unit :=
  ⟨⟨fun _ => .ok (), fun _ => [1], fun _ => 1, fun _ => 2, fun _ _ => (), fun _ => 1, fun _ _ _ => (), fun _ => 1, false,
    fun _ _ _ => .ok ⟨1, fun _ _ => 1, fun _ => Complex.I, fun _ => 1⟩⟩, fun _ => [1], fun _ _ => ()⟩

/-- The arrays of the example for the window that begins at `start`. -/
noncomputable def exRow (x : ℕ → ℕ → ℝ) (time : ℕ → ℝ) (start : ℕ) : Row :=
  ⟨start, fun _ l => if l < 1 then 1 else 0, fun l => if l < 1 then Complex.I else 0, fun l => if l < 1 then 1 else 0,
    fun s => (∑ i ∈ Finset.range 2, x s (start + i)) / (2 : ℕ), fun i => time (start + i)⟩

/-- The hypotheses of C171 are met by a fit with two overlapping windows that succeeds, as does its clustering. -/
example (x : ℕ → ℕ → ℝ) (time : ℕ → ℝ) (argsort : List ℝ → List ℕ) :
    exOpts.loop.globalSvd = false ∧ ¬ (0 < exOpts.svdRank.val ∧ exOpts.svdRank.val < 1) ∧
    (∀ X, (exNum.sing X).length = min 1 3) ∧
    ∃ F, fit exOpts exNum 1 3 x time = .ok F ∧ F.rows.map Row.start = [0, 1] ∧
      ∃ R, F.bands oneCluster argsort 2 1 .absolute true = .ok R := by
  refine ⟨rfl, by simp [exOpts, SvdRank.val], fun _ => rfl, ?_⟩
  have hw : fitWindows 3 3 2 1 3 = .ok ⟨3, 2, 1, 2, false⟩ := by decide
  have hp : prepare exOpts exNum (fun a t => x a t) = .ok (1, .int 1, none) := by
    simp [prepare, exOpts, exNum, SvdRank.val, computeRank]
  have hl : ∀ w w' : Win 1 2, Loop.fit ({ exOpts.loop with basis := none } : Loop (Win 1 2) ℝ Unit Unit Out) exNum.bop (.int 1) [w, w'] =
      .ok [⟨1, fun _ _ => 1, fun _ => Complex.I, fun _ => 1⟩, ⟨1, fun _ _ => 1, fun _ => Complex.I, fun _ => 1⟩] := by
    intro w w'
    simp [Loop.fit, Loop.run, Loop.before, Loop.after, Bop.new, Bop.fit, exOpts, exNum, BopNum.rankOf, BopNum.pickBasis,
      BopNum.pickAlpha, computeRank, SvdRank.val]
  refine ⟨⟨1, [exRow x time 0, exRow x time 1]⟩, ?_, rfl, ?_⟩
  · unfold fit
    have hw' : fitWindows ((3 : ℕ) : ℤ) ((3 : ℕ) : ℤ) ((2 : ℕ) : ℤ) 1 3 = .ok ⟨3, 2, 1, 2, false⟩ := hw
    rw [hw']
    simp only [bind, Except.bind]
    rw [hp]
    have hst : (List.range (2 : ℤ).toNat).map (fun k : ℕ => ((⟨3, 2, 1, 2, false⟩ : Windows).indices k).1.toNat) = [0, 1] := by
      decide
    simp only [hst, List.map_cons, List.map_nil]
    rw [hl]
    rfl
  · obtain ⟨p, hp⟩ : ∃ p, CostsPad.cluster true oneCluster argsort 1 1 .absolute
        (Fitted.omegas ⟨1, [exRow x time 0, exRow x time 1]⟩) = .ok p := by
      unfold CostsPad.cluster
      simp [Fitted.omegas, exRow, CostsPad.transform, CostsPad.finite, bind, Except.bind, Except.map, oneCluster]
    obtain ⟨cen, cls⟩ := p
    exact ⟨_, by unfold Fitted.bands; rw [hp]; rfl⟩

open LinAlg in
/-- The hypotheses of `C171_global_false` are met by the oscillation 1, -1 and the constant 2. -/
example : ∑ t : Fin 2, (fun t : ℕ => (-1 : ℝ) ^ t) t = 0 ∧ 0 < ∑ t : Fin 2, ((fun t : ℕ => (-1 : ℝ) ^ t) t) ^ 2 ∧
    ∑ t : Fin 2, ((fun t : ℕ => (-1 : ℝ) ^ t) t) ^ 2 < (2 : ℕ) * (2 : ℝ) ^ 2 ∧
    ∀ b : ℝ, ∃ (U : Matrix (Fin 2) (Fin (1 + 1)) ℂ) (sg : Fin (1 + 1) → ℝ) (V : Matrix (Fin 2) (Fin (1 + 1)) ℂ),
      IsSVD (Matrix.of fun (a : Fin 2) (t : Fin 2) => (twoVars (fun t : ℕ => (-1 : ℝ) ^ t) b a t : ℂ)) U sg V ∧ Antitone sg := by
  refine ⟨by simp [Fin.sum_univ_two], by simp [Fin.sum_univ_two], by simp [Fin.sum_univ_two]; norm_num, fun b => ?_⟩
  have := exists_svd (Matrix.of fun (a : Fin 2) (t : Fin 2) => (twoVars (fun t : ℕ => (-1 : ℝ) ^ t) b a t : ℂ))
  rwa [show min 2 2 = 1 + 1 from rfl] at this

end Verif.CostsWhole
