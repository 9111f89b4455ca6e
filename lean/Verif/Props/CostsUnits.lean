import Verif.Props.CostsArrays

/-!
# Property C175: the unit of the data and the order of the sensors in COSTS
-/

set_option autoImplicit false

namespace Verif.CostsWhole

open Verif Verif.Costs Verif.CostsInit Verif.Refit Verif.Rank

variable {n nT wl : ℕ} {B Al : Type}

/-! ## Vocabulary -/

/-- The data of a window in a unit that is `c` times smaller, variable `a` being variable `τ a` of before. -/
def Win.turn (c : ℝ) (τ : Equiv.Perm (Fin n)) (W : Win n wl) : Win n wl := ⟨fun a i => c * W.data (τ a) i, W.time⟩

/-- The result of the DMD in this unit and order: modes are normalized, so that the unit is in the amplitudes. -/
noncomputable def Out.turn (c : ℝ) (σ : ℕ → ℕ) (r : Out) : Out := ⟨r.rank, fun s l => r.modes (σ s) l, r.omega, fun l => c * r.amplitudes l⟩

/-- The entries of the arrays in this unit and order. -/
noncomputable def Row.turn (c : ℝ) (σ : ℕ → ℕ) (r : Row) : Row :=
  ⟨r.start, fun s l => r.modes (σ s) l, r.omega, fun l => c * r.amplitudes l, fun s => c * r.mean (σ s), r.time⟩

/-- What is assumed of the numerical routines (C53, C155): bases are turned by `f`, singular values are in the unit of the
data, initial guesses do not depend on it, and the results of the DMD are those in the new unit and order. -/
structure Turns (N : Num n nT wl B Al) (c : ℝ) (τ : Equiv.Perm (Fin n)) (σ : ℕ → ℕ) (f : B → B) : Prop where
  check : ∀ W, N.bop.check (W.turn c τ) = N.bop.check W
  sing : ∀ W, N.bop.sing (W.turn c τ) = (N.bop.sing W).map (c * ·)
  rows : ∀ W, N.bop.rows (W.turn c τ) = N.bop.rows W
  cols : ∀ W, N.bop.cols (W.turn c τ) = N.bop.cols W
  basis : ∀ W r, N.bop.basis (W.turn c τ) r = f (N.bop.basis W r)
  bcols : ∀ b, N.bop.bcols (f b) = N.bop.bcols b
  alpha : ∀ W b r, N.bop.alpha (W.turn c τ) (f b) r = N.bop.alpha W b r
  solve : ∀ W b a, N.bop.solve (W.turn c τ) (f b) a = (N.bop.solve W b a).map (Out.turn c σ)
  dataSing : ∀ X, N.sing (fun a t => c * X (τ a) t) = (N.sing X).map (c * ·)
  dataBasis : ∀ X r, N.basis (fun a t => c * X (τ a) t) r = f (N.basis X r)

/-- The options with a given projection basis turned. -/
def Opts.turn (f : B → B) (o : Opts n wl B Al) : Opts n wl B Al :=
  { o with loop := { o.loop with basis := o.loop.basis.map f } }

/-! ## Lemmas -/

theorem typed_scale (sigma : List ℝ) (rows cols : ℕ) (r : SvdRank ℝ) (c : ℝ) (hc : 0 < c) :
    CostsRank.computeRankTyped ⟨sigma.map (c * ·), rows, cols⟩ r = CostsRank.computeRankTyped ⟨sigma, rows, cols⟩ r := by
  unfold CostsRank.computeRankTyped
  simp only [C53_scale_invariant sigma rows cols r c hc, median_scale sigma c hc, List.countP_map]
  have : ((fun s => decide (c * median sigma * omega (beta rows cols) < s)) ∘ fun x => c * x) =
      fun s => decide (median sigma * omega (beta rows cols) < s) := by
    funext s
    simp only [Function.comp_apply, mul_assoc, mul_lt_mul_iff_right₀ hc]
  rw [this]

section bop

variable {N : Num n nT wl B Al} {c : ℝ} {τ : Equiv.Perm (Fin n)} {σ : ℕ → ℕ} {f : B → B}

theorem rankOf_turn (h : Turns N c τ σ f) (hc : 0 < c) (W : Win n wl) (r : SvdRank ℝ) :
    N.bop.rankOf (W.turn c τ) r = N.bop.rankOf W r := by
  unfold BopNum.rankOf
  rw [h.sing, h.rows, h.cols, C53_scale_invariant _ _ _ _ _ hc]

/-- A fit in the other unit and order. -/
theorem fit_turn (h : Turns N c τ σ f) (hc : 0 < c) (W : Win n wl) (st st' : Bop (Win n wl) ℝ B Al Out) (h1 : st'.rank = st.rank)
    (h2 : st'.basis = st.basis.map f) (h3 : st'.alpha = st.alpha) :
    (st'.fit N.bop (W.turn c τ)).1 = (st.fit N.bop W).1 ∧
    (st'.fit N.bop (W.turn c τ)).2.rank = (st.fit N.bop W).2.rank ∧
    (st'.fit N.bop (W.turn c τ)).2.basis = (st.fit N.bop W).2.basis.map f ∧
    (st'.fit N.bop (W.turn c τ)).2.alpha = (st.fit N.bop W).2.alpha ∧
    (st'.fit N.bop (W.turn c τ)).2.out = (st.fit N.bop W).2.out.map (Out.turn c σ) := by
  have hpick : N.bop.pickBasis (W.turn c τ) (N.bop.rankOf W st.rank) st'.basis =
      (N.bop.pickBasis W (N.bop.rankOf W st.rank) st.basis).map f := by
    rw [h2]
    unfold BopNum.pickBasis
    cases st.basis with
    | none =>
      simp only [Option.map_none, rankOf_turn h hc, h.basis]
      split_ifs <;> rfl
    | some b =>
      simp only [Option.map_some, h.bcols]
      split_ifs <;> rfl
  unfold Bop.fit
  simp only [h.check, rankOf_turn h hc, h1, hpick, h3]
  cases N.bop.check W with
  | error e => exact ⟨rfl, rfl, h2, rfl, rfl⟩
  | ok u =>
    cases N.bop.pickBasis W (N.bop.rankOf W st.rank) st.basis with
    | error e => exact ⟨rfl, rfl, h2, rfl, rfl⟩
    | ok b =>
      have ha : N.bop.pickAlpha (W.turn c τ) (f b) (N.bop.rankOf W st.rank) st.alpha =
          N.bop.pickAlpha W b (N.bop.rankOf W st.rank) st.alpha := by
        unfold BopNum.pickAlpha
        cases st.alpha with
        | none => simp only [h.alpha]
        | some a => rfl
      simp only [Except.map, ha]
      cases N.bop.pickAlpha W b (N.bop.rankOf W st.rank) st.alpha with
      | error e => exact ⟨rfl, rfl, rfl, rfl, rfl⟩
      | ok a =>
        simp only [h.solve]
        cases N.bop.solve W b a with
        | error e => exact ⟨rfl, rfl, rfl, rfl, rfl⟩
        | ok r => exact ⟨rfl, rfl, rfl, rfl, rfl⟩

/-- The loop over the windows in the other unit and order. -/
theorem run_turn (h : Turns N c τ σ f) (hc : 0 < c) (o : Loop (Win n wl) ℝ B Al Out)
    (hloc : ∀ W, o.localRank (W.turn c τ) = o.localRank W) (heig : ∀ r, o.eigs (Out.turn c σ r) = o.eigs r) :
    ∀ (ws : List (Win n wl)) (st st' : Bop (Win n wl) ℝ B Al Out), st'.rank = st.rank → st'.basis = st.basis.map f →
      st'.alpha = st.alpha →
      ({ o with basis := o.basis.map f } : Loop (Win n wl) ℝ B Al Out).run N.bop st' (ws.map (Win.turn c τ)) =
        (o.run N.bop st ws).map (List.map (Out.turn c σ)) := by
  intro ws
  induction ws with
  | nil => intro st st' _ _ _; rfl
  | cons W ws ih =>
    intro st st' h1 h2 h3
    have hb : (({ o with basis := o.basis.map f } : Loop (Win n wl) ℝ B Al Out).before (W.turn c τ) st').rank = (o.before W st).rank ∧
        (({ o with basis := o.basis.map f } : Loop (Win n wl) ℝ B Al Out).before (W.turn c τ) st').basis =
          (o.before W st).basis.map f ∧
        (({ o with basis := o.basis.map f } : Loop (Win n wl) ℝ B Al Out).before (W.turn c τ) st').alpha = (o.before W st).alpha := by
      unfold Loop.before
      simp only [hloc]
      split_ifs
      · exact ⟨h1, h2, h3⟩
      · exact ⟨rfl, rfl, h3⟩
    obtain ⟨e1, e2, e3, e4, e5⟩ := fit_turn h hc W _ _ hb.1 hb.2.1 hb.2.2
    rw [List.map_cons]
    unfold Loop.run
    generalize (({ o with basis := o.basis.map f } : Loop (Win n wl) ℝ B Al Out).before (W.turn c τ) st').fit N.bop (W.turn c τ) = p'
      at e1 e2 e3 e4 e5
    generalize (o.before W st).fit N.bop W = p at e1 e2 e3 e4 e5
    obtain ⟨res, s⟩ := p
    obtain ⟨res', s'⟩ := p'
    simp only at e1 e2 e3 e4 e5
    subst e1
    cases res' with
    | error e => rfl
    | ok u =>
      cases hs : s.out with
      | none => rw [hs] at e5; simp only [e5, hs]; rfl
      | some r =>
        rw [hs] at e5
        simp only [e5, hs, Option.map_some]
        have ha := ih (o.after r s) (({ o with basis := o.basis.map f } : Loop (Win n wl) ℝ B Al Out).after (Out.turn c σ r) s')
          (by unfold Loop.after; simp only [heig]; split_ifs <;> exact e2)
          (by unfold Loop.after; simp only [heig]; split_ifs <;> exact e3)
          (by unfold Loop.after; simp only [heig]; split_ifs <;> first | exact e4 | rfl)
        rw [ha]
        cases o.run N.bop (o.after r s) ws with
        | error e => rfl
        | ok rs => rfl

end bop

theorem window_turn (cs : Option ℝ) (x : ℕ → ℕ → ℝ) (time : ℕ → ℝ) (c : ℝ) (τ : Equiv.Perm (Fin n)) (σ : ℕ → ℕ)
    (hσ : ∀ a : Fin n, σ a = τ a) (start : ℕ) :
    window n wl cs (fun s t => c * x (σ s) t) time start = (window n wl cs x time start).turn c τ := by
  unfold window CostsKern.prepared Win.turn
  congr 1
  funext a i
  simp only [hσ, ← Finset.mul_sum]
  ring

theorem row_turn (alloc : ℕ) (x : ℕ → ℕ → ℝ) (time : ℕ → ℝ) (c : ℝ) (σ : ℕ → ℕ) (start : ℕ) (r : Out) :
    row alloc wl (fun s t => c * x (σ s) t) time start (Out.turn c σ r) = (row alloc wl x time start r).map (Row.turn c σ) := by
  unfold row
  by_cases h : alloc < r.rank
  · rw [if_pos h, if_pos (show alloc < (Out.turn c σ r).rank from h)]
    rfl
  · rw [if_neg h, if_neg (show ¬ alloc < (Out.turn c σ r).rank from h)]
    simp only [Except.map, Except.ok.injEq]
    unfold Row.turn
    simp only [Row.mk.injEq, true_and, and_true]
    refine ⟨rfl, rfl, ?_, ?_⟩
    · funext l
      by_cases hl : l < r.rank
      · rw [if_pos hl, if_pos (show l < (Out.turn c σ r).rank from hl)]
        rfl
      · rw [if_neg hl, if_neg (show ¬ l < (Out.turn c σ r).rank from hl), mul_zero]
    · funext s
      rw [← Finset.mul_sum, mul_div_assoc]

theorem mapM_turn (alloc : ℕ) (x : ℕ → ℕ → ℝ) (time : ℕ → ℝ) (c : ℝ) (σ : ℕ → ℕ) : ∀ (starts : List ℕ) (outs : List Out),
    (starts.zip (outs.map (Out.turn c σ))).mapM (fun p => row alloc wl (fun s t => c * x (σ s) t) time p.1 p.2) =
      ((starts.zip outs).mapM (fun p => row alloc wl x time p.1 p.2)).map (List.map (Row.turn c σ)) := by
  intro starts
  induction starts with
  | nil => intro outs; rfl
  | cons a starts ih =>
    intro outs
    cases outs with
    | nil => rfl
    | cons r outs =>
      rw [List.map_cons, List.zip_cons_cons, List.zip_cons_cons, mapM_cons', mapM_cons', row_turn, ih]
      cases row alloc wl x time a r with
      | error e => rfl
      | ok R =>
        simp only [Except.map]
        cases (starts.zip outs).mapM (fun p => row alloc wl x time p.1 p.2) with
        | error e => rfl
        | ok rows => rfl

theorem prepare_turn {N : Num n nT wl B Al} {c : ℝ} {τ : Equiv.Perm (Fin n)} {σ : ℕ → ℕ} {f : B → B} (h : Turns N c τ σ f)
    (hc : 0 < c) (o : Opts n wl B Al) (X : Fin n → Fin nT → ℝ) :
    prepare (o.turn f) N (fun a t => c * X (τ a) t) = (prepare o N X).map fun p => (p.1, p.2.1, p.2.2.map f) := by
  unfold prepare Opts.turn
  simp only [h.dataSing, h.dataBasis, C53_scale_invariant _ _ _ _ _ hc, typed_scale _ _ _ _ _ hc]
  split_ifs <;> rfl

/-! ## Property theorems -/

/-- **C175** (fit). In a unit that is `c` times smaller and with the sensors in another order, the fit of COSTS raises the
same exceptions, and has the same frequencies; modes and means are in the new order, amplitudes and means in the new unit.
For the local and the global SVD and every choice of the initial guesses. -/
theorem C175_fit (o : Opts n wl B Al) (N : Num n nT wl B Al) (c : ℝ) (hc : 0 < c) (τ : Equiv.Perm (Fin n)) (σ : ℕ → ℕ)
    (hσ : ∀ a : Fin n, σ a = τ a) (f : B → B) (h : Turns N c τ σ f)
    (hloc : ∃ g : SvdRank ℝ → SvdRank ℝ, ∀ W, o.loop.localRank W =
      g (CostsRank.computeRankTyped ⟨N.bop.sing W, n, wl⟩ o.svdRank))
    (heig : ∀ r, o.loop.eigs (Out.turn c σ r) = o.loop.eigs r) (step nSteps : ℤ) (x : ℕ → ℕ → ℝ) (time : ℕ → ℝ) :
    fit (o.turn f) N step nSteps (fun s t => c * x (σ s) t) time =
      (fit o N step nSteps x time).map fun F => ⟨F.alloc, F.rows.map (Row.turn c σ)⟩ := by
  obtain ⟨g, hg⟩ := hloc
  have hl : ∀ W : Win n wl, o.loop.localRank (W.turn c τ) = o.loop.localRank W := fun W => by
    rw [hg, hg, h.sing, typed_scale _ _ _ _ _ hc]
  unfold fit
  cases fitWindows nT nT wl step nSteps with
  | error e => rfl
  | ok w =>
    simp only [bind, Except.bind]
    have hp : prepare (o.turn f) N (fun (a : Fin n) (t : Fin nT) => c * x (σ a) t) =
        (prepare o N fun a t => x a t).map fun p => (p.1, p.2.1, p.2.2.map f) := by
      rw [← prepare_turn h hc]
      simp only [hσ]
    rw [hp]
    cases prepare o N fun a t => x a t with
    | error e => rfl
    | ok p =>
      obtain ⟨alloc, rank, basis⟩ := p
      simp only [Except.map]
      generalize ((List.range w.nSlides.toNat).map fun k : ℕ => (w.indices k).1.toNat) = starts
      have hw : starts.map (window n wl (o.turn f).sharpness (fun s t => c * x (σ s) t) time) =
          (starts.map (window n wl o.sharpness x time)).map (Win.turn c τ) := by
        rw [List.map_map]
        refine List.map_congr_left fun a _ => ?_
        exact window_turn _ _ _ _ _ _ hσ _
      have hr := run_turn h hc ({ o.loop with basis := basis } : Loop (Win n wl) ℝ B Al Out) hl heig
        (starts.map (window n wl o.sharpness x time)) (Bop.new rank basis o.loop.initAlpha)
        (Bop.new rank (basis.map f) o.loop.initAlpha) rfl rfl rfl
      have hr' : Loop.fit (K := ℝ) ({ (o.turn f).loop with basis := basis.map f } : Loop (Win n wl) ℝ B Al Out) N.bop rank
          (starts.map (window n wl (o.turn f).sharpness (fun s t => c * x (σ s) t) time)) =
          (Loop.fit (K := ℝ) ({ o.loop with basis := basis } : Loop (Win n wl) ℝ B Al Out) N.bop rank
            (starts.map (window n wl o.sharpness x time))).map (List.map (Out.turn c σ)) := by
        rw [hw]
        exact hr
      rw [hr']
      cases Loop.fit (K := ℝ) ({ o.loop with basis := basis } : Loop (Win n wl) ℝ B Al Out) N.bop rank
          (starts.map (window n wl o.sharpness x time)) with
      | error e => rfl
      | ok outs =>
        simp only [Except.map]
        rw [mapM_turn]
        cases (starts.zip outs).mapM (fun p => row alloc wl x time p.1 p.2) with
        | error e => rfl
        | ok rows => rfl

/-- The reconstruction is linear in amplitudes and means. -/
theorem scale_turn (length rank : ℕ) (cen : List ℝ) (im : Bool) (c : ℝ) (σ : ℕ → ℕ) (wins : List (Row × List ℕ)) (j s t : ℕ) :
    scaleReconstruction length rank cen im ((wins.map fun p => (Row.turn c σ p.1, p.2)).map fun p => (p.1.start, p.1.toFit length p.2))
        j s t =
      c * scaleReconstruction length rank cen im (wins.map fun p => (p.1.start, p.1.toFit length p.2)) j (σ s) t := by
  rw [scaleReconstruction_eq, scaleReconstruction_eq]
  simp only [List.map_map]
  rw [mul_div_assoc', ← List.sum_map_mul_left]
  congr 1
  congr 1
  refine List.map_congr_left fun p _ => ?_
  simp only [Function.comp_apply]
  have hocc : ∀ k, occurs (wins.map ((fun x : ℕ × WindowFit => x.2) ∘ (fun p : Row × List ℕ => (p.1.start, p.1.toFit length p.2)) ∘
      fun p => (Row.turn c σ p.1, p.2))) rank k =
      occurs (wins.map ((fun x : ℕ × WindowFit => x.2) ∘ fun p : Row × List ℕ => (p.1.start, p.1.toFit length p.2))) rank k := by
    intro k
    simp [occurs, Function.comp_def, Row.toFit, Row.turn]
  have hsum : ∀ i, ((Row.turn c σ p.1).toFit length p.2).sumOver rank
      (fun l => ((Row.turn c σ p.1).toFit length p.2).classes l == j) s i =
      c * (p.1.toFit length p.2).sumOver rank (fun l => (p.1.toFit length p.2).classes l == j) (σ s) i := by
    intro i
    unfold WindowFit.sumOver
    rw [← List.sum_map_mul_left]
    congr 1
    refine List.map_congr_left fun l _ => ?_
    simp only [Row.toFit, Row.turn]
    ring
  have hband : ∀ i, windowBand (wins.map ((fun x : ℕ × WindowFit => x.2) ∘ (fun p : Row × List ℕ => (p.1.start, p.1.toFit length p.2)) ∘
      fun p => (Row.turn c σ p.1, p.2))) rank cen im ((Row.turn c σ p.1).toFit length p.2) j s i =
      c * windowBand (wins.map ((fun x : ℕ × WindowFit => x.2) ∘ fun p : Row × List ℕ => (p.1.start, p.1.toFit length p.2))) rank cen im
        (p.1.toFit length p.2) j (σ s) i := by
    intro i
    unfold windowBand
    rw [hocc, hsum]
    split_ifs
    · simp only [Complex.re_ofReal_mul, Row.toFit, Row.turn]; ring
    · simp only [Complex.re_ofReal_mul]; ring
    · ring
  rw [hband]
  simp only [Row.turn]
  ring

/-- **C175** (bands). The bands are those of the original fit in the new unit and order. The clustering is the same. -/
theorem C175_bands (kmeans : ℕ → List ℝ → Except PyErr (List ℕ × List ℝ)) (argsort : List ℝ → List ℕ) (nC : ℕ) (m : Transform)
    (im : Bool) (F : Fitted) (c : ℝ) (σ : ℕ → ℕ) :
    (Fitted.bands kmeans argsort wl nC m im ⟨F.alloc, F.rows.map (Row.turn c σ)⟩) =
      (F.bands kmeans argsort wl nC m im).map fun R j s t => c * R j (σ s) t := by
  unfold Fitted.bands
  have ho : (⟨F.alloc, F.rows.map (Row.turn c σ)⟩ : Fitted).omegas = F.omegas := by
    unfold Fitted.omegas
    simp only [List.map_map]
    rfl
  rw [ho]
  simp only [bind, Except.bind]
  cases CostsPad.cluster true kmeans argsort nC F.alloc m F.omegas with
  | error e => rfl
  | ok p =>
    simp only [Except.map, Except.ok.injEq]
    funext j s t
    rw [← scale_turn]
    congr 2
    rw [List.zip_map_left]
    rfl

/-! ## Instance -/

/-- The size of the first snapshot. -/
noncomputable def size {k : ℕ} (X : Fin 2 → Fin (k + 1) → ℝ) : ℝ := Real.sqrt (X 0 0 ^ 2 + X 1 0 ^ 2)

/-- Two variables, windows of two snapshots; the DMD finds the first snapshot as its only mode. -/
noncomputable def sizeNum : Num 2 3 2 Unit Unit :=
  ⟨⟨fun _ => .ok (), fun W => [size W.data], fun _ => 2, fun _ => 2, fun _ _ => (), fun _ => 1, fun _ _ _ => (), fun _ => 1, false,
    fun W _ _ => .ok ⟨1, fun s _ => if h : s < 2 then ((W.data ⟨s, h⟩ 0 / size W.data : ℝ) : ℂ) else 0, fun _ => Complex.I,
      fun _ => (size W.data : ℂ)⟩⟩,
    fun X => [size X], fun _ _ => ()⟩

theorem size_turn {k : ℕ} (X : Fin 2 → Fin (k + 1) → ℝ) (c : ℝ) (hc : 0 < c) :
    size (fun a i => c * X (Equiv.swap 0 1 a) i) = c * size X := by
  unfold size
  simp only
  rw [Equiv.swap_apply_left, Equiv.swap_apply_right, show (c * X 1 0) ^ 2 + (c * X 0 0) ^ 2 = c ^ 2 * (X 0 0 ^ 2 + X 1 0 ^ 2) by ring,
    Real.sqrt_mul (by positivity), Real.sqrt_sq hc.le]

/-- These routines follow every unit and the exchange of the two sensors, as C175 assumes. -/
example (c : ℝ) (hc : 0 < c) :
    ∃ σ : ℕ → ℕ, (∀ a : Fin 2, σ a = (Equiv.swap 0 1 : Equiv.Perm (Fin 2)) a) ∧ Turns sizeNum c (Equiv.swap 0 1) σ id := by
  refine ⟨fun s => if s = 0 then 1 else if s = 1 then 0 else s, fun a => ?_,
    fun _ => rfl, fun W => ?_, fun _ => rfl, fun _ => rfl, fun _ _ => rfl, fun _ => rfl, fun _ _ _ => rfl, fun W b a => ?_, fun X => ?_,
    fun _ _ => rfl⟩
  · fin_cases a <;> simp
  · exact congrArg (fun y => [y]) (size_turn W.data c hc)
  · show Except.ok (ε := PyErr) _ = Except.ok _
    congr 1
    unfold Out.turn
    simp only [Out.mk.injEq, true_and]
    have hs : size (W.turn c (Equiv.swap 0 1)).data = c * size W.data := size_turn W.data c hc
    refine ⟨?_, ?_⟩
    · funext s l
      rw [hs]
      match s with
      | 0 => simp [Win.turn, mul_div_mul_left _ _ hc.ne']
      | 1 => simp [Win.turn, mul_div_mul_left _ _ hc.ne']
      | s + 2 => simp
    · funext l
      rw [hs]
      push_cast
      rfl
  · exact congrArg (fun y => [y]) (size_turn X c hc)

end Verif.CostsWhole
