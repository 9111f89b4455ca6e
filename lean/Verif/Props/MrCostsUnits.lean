import Verif.Model.MrCostsWhole
import Verif.Props.CostsClock

/-!
# Property C177: units, order of the sensors and origin of time in mrCOSTS
-/

set_option autoImplicit false

namespace Verif.MrCostsWhole

open Verif Verif.Costs Verif.CostsWhole Verif.MrCostsState Verif.Rank

/-! ## Vocabulary -/

section vocabulary

variable {n nT : ℕ} {B Al Ω C L : Type}

/-- An mrCOSTS object with its levels replaced. All other attributes are the same. -/
def onLevels (ψ : L → L) (st : State L Ω C) : State L Ω C := { st with levels := st.levels.map (List.map ψ) }

/-- A level in a unit of the data that is `c` times smaller, with variable `s` being variable `σ s` of before. -/
noncomputable def Level.turn (c : ℝ) (σ : ℕ → ℕ) (l : Level) : Level :=
  ⟨l.length, l.rank, ⟨l.fitted.alloc, l.fitted.rows.map (Row.turn c σ)⟩, l.bands.map fun R j s t => c * R j (σ s) t⟩

/-- A level in a unit of time that is `k` times smaller: the bands are the same. -/
noncomputable def Level.clock (k : ℝ) (l : Level) : Level :=
  ⟨l.length, l.rank, ⟨l.fitted.alloc, l.fitted.rows.map (Row.clock k)⟩, l.bands⟩

/-- A level with times counted from another origin: the bands are the same. -/
noncomputable def Level.later (τ : ℝ) (l : Level) : Level :=
  ⟨l.length, l.rank, ⟨l.fitted.alloc, l.fitted.rows.map fun r => { r with time := fun i => r.time i + τ }⟩, l.bands⟩

/-- Options with a given projection basis in the new order. -/
def Parts.turn (f : B → B) (P : Parts n nT B Al Ω C) : Parts n nT B Al Ω C :=
  { P with opts := fun wl r g => (P.opts wl r g).turn f }

/-- Options with a given initial guess in the new unit of time. -/
def Parts.clock (f : Al → Al) (P : Parts n nT B Al Ω C) : Parts n nT B Al Ω C :=
  { P with opts := fun wl r g => (P.opts wl r g).clock f }

end vocabulary

/-! ## The loop over the levels -/

section loop

variable {X L Ω C : Type}

/-- What the levels do to the data in two runs. -/
structure Follows (a b : Ops X L Ω C) (φ : X → X) (ψ : L → L) : Prop where
  fit : ∀ x w s r g, b.fit (φ x) w s r g = (a.fit x w s r g).map ψ
  sweep : ∀ t l, b.sweep t (ψ l) = a.sweep t l
  cluster : ∀ m t l, b.cluster m t (ψ l) = (a.cluster m t l).map ψ
  low : ∀ l, b.low (ψ l) = φ (a.low l)

theorem fitLevel_follows {a b : Ops X L Ω C} {φ : X → X} {ψ : L → L} (h : Follows a b φ ψ) (st : State L Ω C) (k : ℕ) (x : X)
    (p : ℤ × ℤ × ℤ) : fitLevel b (onLevels ψ st) k (φ x) p = ((fitLevel a st k x p).1, (fitLevel a st k x p).2.map ψ) := by
  have hc : ∀ l, components b (onLevels ψ st) k (ψ l) = components a st k l := by
    intro l
    unfold components Ops.clusterSweep
    simp only [h.sweep]
    rfl
  unfold fitLevel
  simp only [onLevels]
  cases (st.globalSvd.getD [])[k]? with
  | none => rfl
  | some g =>
    simp only [h.fit]
    cases a.fit x p.1 p.2.1 p.2.2 g with
    | error e => rfl
    | ok l =>
      have := hc l
      simp only [onLevels] at this
      simp only [Except.map, this]
      cases components a st k l with
      | error e => rfl
      | ok q =>
        simp only [Ops.clusterOmega, h.cluster]
        split_ifs <;> rfl

theorem fitLoop_follows {a b : Ops X L Ω C} {φ : X → X} {ψ : L → L} (h : Follows a b φ ψ) : ∀ (ps : List (ℤ × ℤ × ℤ)) (k : ℕ) (x : X)
    (st : State L Ω C), fitLoop b k (φ x) ps (onLevels ψ st) = (onLevels ψ (fitLoop a k x ps st).1, (fitLoop a k x ps st).2) := by
  intro ps
  induction ps with
  | nil => intro k x st; rfl
  | cons p ps ih =>
    intro k x st
    unfold fitLoop
    rw [fitLevel_follows h]
    generalize fitLevel a st k x p = q
    obtain ⟨arr, res⟩ := q
    cases res with
    | error e => rfl
    | ok l =>
      simp only [Except.map, h.low]
      rw [← ih]
      congr 1
      simp only [onLevels]
      cases st.levels <;> simp

theorem fit_follows {a b : Ops X L Ω C} {φ : X → X} {ψ : L → L} (h : Follows a b φ ψ) (st : State L Ω C) (x : X) :
    MrCostsState.fit b (onLevels ψ st) (φ x) = (onLevels ψ (MrCostsState.fit a st x).1, (MrCostsState.fit a st x).2) := by
  unfold MrCostsState.fit
  by_cases h0 : st.clusterSweep ∧ st.nComponents.isSome
  · rw [if_pos h0, if_pos (show (onLevels ψ st).clusterSweep ∧ (onLevels ψ st).nComponents.isSome from h0)]
  · rw [if_neg h0, if_neg (show ¬ ((onLevels ψ st).clusterSweep ∧ (onLevels ψ st).nComponents.isSome) from h0)]
    simp only
    by_cases hs : st.clusterSweep
    · rw [if_pos hs, if_pos (show (onLevels ψ st).clusterSweep from hs)]
      rw [← fitLoop_follows h]
      rfl
    · rw [if_neg hs, if_neg (show ¬ (onLevels ψ st).clusterSweep from hs)]
      rw [← fitLoop_follows h]
      rfl

end loop

variable {n nT : ℕ} {B Al Ω C : Type}

/-! ## Property theorems -/

/-- **C177** (unit of the data and order of the sensors). The data of an mrCOSTS fit in another unit, the sensors in another
order: the same exceptions, the same numbers of clusters, and every level and its bands are those of the original fit in the
new unit and order. -/
theorem C177_units (P : Parts n nT B Al Ω C) (time : ℕ → ℝ) (c : ℝ) (hc : 0 < c) (τ : Equiv.Perm (Fin n)) (σ : ℕ → ℕ)
    (hσ : ∀ a : Fin n, σ a = τ a) (f : B → B) (h : ∀ wl, Turns (P.num wl) c τ σ f)
    (hloc : ∀ wl r g, ∃ q : SvdRank ℝ → SvdRank ℝ, ∀ W, (P.opts wl r g).loop.localRank W =
      q (CostsRank.computeRankTyped ⟨(P.num wl).bop.sing W, n, wl⟩ (P.opts wl r g).svdRank))
    (heig : ∀ wl r g v, (P.opts wl r g).loop.eigs (Out.turn c σ v) = (P.opts wl r g).loop.eigs v) (st : State Level Ω C)
    (x : ℕ → ℕ → ℝ) :
    MrCostsState.fit (ops (P.turn f) time) (onLevels (Level.turn c σ) st) (fun s t => c * x (σ s) t) =
      (onLevels (Level.turn c σ) (MrCostsState.fit (ops P time) st x).1, (MrCostsState.fit (ops P time) st x).2) := by
  refine fit_follows (φ := fun x s t => c * x (σ s) t) ⟨fun x w s r g => ?_, fun t l => ?_, fun m t l => ?_, fun l => ?_⟩ st x
  · show ((CostsWhole.fit _ _ _ _ _ _).map _ : Except PyErr Level) = _
    simp only [Parts.turn]
    rw [C175_fit _ _ c hc τ σ hσ f (h w.toNat) (hloc _ _ _) (heig _ _ _)]
    simp only [ops, fitCosts]
    cases CostsWhole.fit (P.opts w.toNat r g) (P.num w.toNat) s P.nSteps x time <;> rfl
  · have ho : (Level.turn c σ l).fitted.omegas = l.fitted.omegas := by
      simp only [Level.turn, Fitted.omegas, List.map_map]
      rfl
    simp only [ops, sweepCosts, ho]
    rfl
  · show (Except.map _ (Fitted.bands _ _ _ _ _ _ _) : Except PyErr Level) = _
    simp only [Level.turn, Parts.turn]
    rw [C175_bands]
    simp only [ops, clusterCosts]
    cases l.fitted.bands P.kmeans P.argsort l.length m t P.includeMeans <;> rfl
  · funext s t
    obtain ⟨len, rk, F, bands⟩ := l
    cases bands <;> simp [ops, lowCosts, Level.turn]

/-- **C177** (unit of time). The times in another unit: the same exceptions, numbers of clusters and bands on every level;
frequencies are in the new unit. -/
theorem C177_time (P : Parts n nT B Al Ω C) (time : ℕ → ℝ) (k : ℝ) (hk : 0 < k) (f : Al → Al) (h : ∀ wl, Clocks (P.num wl) k f)
    (hloc : ∀ wl r g, ∃ q : List ℝ → SvdRank ℝ, ∀ W, (P.opts wl r g).loop.localRank W = q ((P.num wl).bop.sing W))
    (heig : ∀ wl r g v, (P.opts wl r g).loop.eigs (Out.clock k v) = f ((P.opts wl r g).loop.eigs v))
    (hkm : UnitFree P.kmeans) (hso : OrderOnly P.argsort) (hsort : ∀ l, IsArgsort l (P.argsort l))
    (hbest : ∀ (a b : ℝ), 0 < a → ∀ r m xs, P.best r m (xs.map fun y => a * y + b) = P.best r m xs)
    (st : State Level Ω C) (x : ℕ → ℕ → ℝ) :
    MrCostsState.fit (ops (P.clock f) fun i => k * time i) (onLevels (Level.clock k) st) x =
      (onLevels (Level.clock k) (MrCostsState.fit (ops P time) st x).1, (MrCostsState.fit (ops P time) st x).2) := by
  have hF : Follows (ops P time) (ops (P.clock f) fun i => k * time i) id (Level.clock k) := by
    refine ⟨fun x w s r g => ?_, fun t l => ?_, fun m t l => ?_, fun l => rfl⟩
    · show ((CostsWhole.fit _ _ _ _ _ _).map _ : Except PyErr Level) = _
      simp only [Parts.clock, id]
      rw [C176_fit _ _ k f (h w.toNat) (hloc _ _ _) (heig _ _ _)]
      simp only [ops, fitCosts]
      cases CostsWhole.fit (P.opts w.toNat r g) (P.num w.toNat) s P.nSteps x time <;> rfl
    · obtain ⟨a, b, ha, ht⟩ := transform_clock k hk t
      have ho : (Level.clock k l).fitted.omegas.flatten.map Complex.im =
          (l.fitted.omegas.flatten.map Complex.im).map fun w => w / k := by
        have : (Level.clock k l).fitted.omegas = l.fitted.omegas.map (List.map fun z => z / (k : ℂ)) := by
          simp only [Level.clock, Fitted.omegas, List.map_map]
          refine List.map_congr_left fun r _ => ?_
          simp only [Function.comp_apply, List.map_map]
          rfl
        rw [this, ← List.map_flatten, List.map_map, List.map_map]
        refine List.map_congr_left fun z _ => ?_
        simp [Complex.div_ofReal_im]
      simp only [ops, sweepCosts, ho, ht, bind, Except.bind]
      cases CostsPad.transform t (l.fitted.omegas.flatten.map Complex.im) with
      | error e => rfl
      | ok y =>
        simp only [Except.map]
        rw [finite_clock]
        cases CostsPad.finite y with
        | error e => rfl
        | ok y => exact hbest a b ha _ _ _
    · show (Except.map _ (Fitted.bands _ _ _ _ _ _ _) : Except PyErr Level) = _
      simp only [Level.clock, Parts.clock]
      rw [C176_bands _ hkm _ hso hsort _ _ _ _ k hk]
      simp only [ops, clusterCosts]
      cases l.fitted.bands P.kmeans P.argsort l.length m t P.includeMeans <;> rfl
  exact fit_follows hF st x

/-- The bands do not depend on the origin of time. -/
theorem bands_later (kmeans : ℕ → List ℝ → Except PyErr (List ℕ × List ℝ)) (argsort : List ℝ → List ℕ) (wl nC : ℕ) (m : Transform)
    (im : Bool) (F : Fitted) (τ : ℝ) :
    (Fitted.bands kmeans argsort wl nC m im ⟨F.alloc, F.rows.map fun r => { r with time := fun i => r.time i + τ }⟩) =
      F.bands kmeans argsort wl nC m im := by
  have hmin : ∀ t : ℕ → ℝ, minTime wl (fun i => t i + τ) = minTime wl t + τ := by
    intro t
    unfold minTime
    have : ∀ (l : List ℝ) (a : ℝ), (l.map (· + τ)).foldl min (a + τ) = l.foldl min a + τ := by
      intro l
      induction l with
      | nil => intro a; rfl
      | cons b l ih => intro a; rw [List.map_cons, List.foldl_cons, List.foldl_cons, min_add_add_right, ih]
    rw [← this, List.map_map]
    rfl
  have ho : (⟨F.alloc, F.rows.map fun r => { r with time := fun i => r.time i + τ }⟩ : Fitted).omegas = F.omegas := by
    simp [Fitted.omegas, Function.comp_def]
  have hfit : ∀ (r : Row) (cls : List ℕ), ({ r with time := fun i => r.time i + τ } : Row).toFit wl cls = r.toFit wl cls := by
    intro r cls
    simp only [Row.toFit, hmin, add_sub_add_right_eq_sub]
  unfold Fitted.bands
  rw [ho]
  simp only [List.zip_map_left, List.map_map, Function.comp_def, Prod.map, hfit, id]

/-- **C177** (origin of time). Times counted from another origin: the same exceptions, numbers of clusters, frequencies and
bands on every level. -/
theorem C177_origin (P : Parts n nT B Al Ω C) (time : ℕ → ℝ) (τ : ℝ) (st : State Level Ω C) (x : ℕ → ℕ → ℝ) :
    MrCostsState.fit (ops P fun i => time i + τ) (onLevels (Level.later τ) st) x =
      (onLevels (Level.later τ) (MrCostsState.fit (ops P time) st x).1, (MrCostsState.fit (ops P time) st x).2) := by
  have hF : Follows (ops P time) (ops P fun i => time i + τ) id (Level.later τ) := by
    refine ⟨fun x w s r g => ?_, fun t l => ?_, fun m t l => ?_, fun l => rfl⟩
    · simp only [ops, fitCosts, id]
      rw [C171_origin_fit]
      cases CostsWhole.fit (P.opts w.toNat r g) (P.num w.toNat) s P.nSteps x time <;> rfl
    · have ho : (Level.later τ l).fitted.omegas = l.fitted.omegas := by
        simp [Level.later, Fitted.omegas, Function.comp_def]
      simp only [ops, sweepCosts, ho]
      rfl
    · simp only [ops, clusterCosts, Level.later]
      rw [bands_later]
      cases l.fitted.bands P.kmeans P.argsort l.length m t P.includeMeans <;> rfl
  exact fit_follows hF st x

/-! ## The hypotheses can be met -/

/-- The size of the data of two sensors. -/
noncomputable def total {k : ℕ} (X : Fin 2 → Fin k → ℝ) : ℝ := ∑ a, ∑ i, |X a i|

theorem total_turn {k : ℕ} (X : Fin 2 → Fin k → ℝ) (c : ℝ) (hc : 0 < c) :
    total (fun a i => c * X (Equiv.swap 0 1 a) i) = c * total X := by
  unfold total
  simp only [abs_mul, abs_of_pos hc, ← Finset.mul_sum]
  congr 1
  exact Equiv.sum_comp (Equiv.swap (0 : Fin 2) 1) fun a => ∑ i, |X a i|

/-- Routines for windows of all lengths: the mode is the first snapshot, the amplitude the size of the window, the frequency
the guess plus one over the sum of the times. -/
noncomputable def totalNum (nT wl : ℕ) : Num 2 nT wl Unit ℝ :=
  ⟨⟨fun _ => .ok (), fun W => [total W.data], fun _ => 2, fun _ => wl, fun _ _ => (), fun _ => 1, fun W _ _ => 1 / ∑ i, W.time i,
    fun _ => 1, false,
    fun W _ a => .ok ⟨1, fun s _ => if h : s < 2 ∧ 0 < wl then ((W.data ⟨s, h.1⟩ ⟨0, h.2⟩ / total W.data : ℝ) : ℂ) else 0,
      fun _ => ((a + 1 / ∑ i, W.time i : ℝ) : ℂ) * Complex.I, fun _ => (total W.data : ℂ)⟩⟩,
    fun X => [total X], fun _ _ => ()⟩

/-- They follow every unit and the exchange of the two sensors. -/
example (nT wl : ℕ) (c : ℝ) (hc : 0 < c) :
    ∃ σ : ℕ → ℕ, (∀ a : Fin 2, σ a = (Equiv.swap 0 1 : Equiv.Perm (Fin 2)) a) ∧ Turns (totalNum nT wl) c (Equiv.swap 0 1) σ id := by
  refine ⟨fun s => if s = 0 then 1 else if s = 1 then 0 else s, fun a => ?_,
    fun _ => rfl, fun W => ?_, fun _ => rfl, fun _ => rfl, fun _ _ => rfl, fun _ => rfl, fun _ _ _ => rfl, fun W b a => ?_, fun X => ?_,
    fun _ _ => rfl⟩
  · fin_cases a <;> simp
  · exact congrArg (fun y => [y]) (total_turn W.data c hc)
  · show Except.ok (ε := PyErr) _ = Except.ok _
    congr 1
    unfold Out.turn
    simp only [Out.mk.injEq, true_and]
    have hs : total (W.turn c (Equiv.swap 0 1)).data = c * total W.data := total_turn W.data c hc
    refine ⟨?_, rfl, ?_⟩
    · funext s l
      rw [hs]
      match s with
      | 0 => simp [Win.turn, mul_div_mul_left _ _ hc.ne']
      | 1 => simp [Win.turn, mul_div_mul_left _ _ hc.ne']
      | s + 2 => simp
    · funext l
      rw [hs]
      push_cast
      rfl
  · exact congrArg (fun y => [y]) (total_turn X c hc)

/-- They follow every unit of time. -/
example (nT wl : ℕ) (k : ℝ) : Clocks (totalNum nT wl) k (fun a => a / k) := by
  have hsum : ∀ W : Win 2 wl, ∑ i, (W.clock k).time i = (∑ i, W.time i) * k := by
    intro W
    rw [mul_comm, Finset.mul_sum]
    rfl
  refine ⟨fun _ => rfl, fun _ => rfl, fun _ => rfl, fun _ => rfl, fun _ _ => rfl, fun W _ _ => ?_, fun _ => rfl, fun W _ a => ?_⟩
  · show 1 / ∑ i, (W.clock k).time i = (1 / ∑ i, W.time i) / k
    rw [hsum, div_div]
  · show Except.ok (ε := PyErr) _ = Except.ok _
    congr 1
    unfold Out.clock
    simp only [Out.mk.injEq, true_and]
    refine ⟨rfl, ?_, rfl⟩
    funext _
    rw [hsum, ← div_div, ← add_div]
    push_cast
    ring

/-- An mrCOSTS object with the frequencies of a window passed on to the next one, from a given guess, and as many clusters as
there are values, but not more than two. -/
noncomputable def totalParts (nT : ℕ) (argsort : List ℝ → List ℕ) : Parts 2 nT Unit ℝ Unit Unit :=
  ⟨fun _ r g => ⟨⟨g, true, false, none, some 5, fun _ => .int r, fun v => (v.omega 0).im⟩, .int r, none, false, none⟩, totalNum nT, nT,
    firstClusters, argsort, fun _ _ xs => if xs.length = 0 then .error .valueError else .ok (min 2 xs.length), true, fun _ => (),
    fun _ _ _ => .ok ()⟩

/-- Its options and its choice of the number of clusters are as C177 assumes. -/
example (nT : ℕ) (argsort : List ℝ → List ℕ) :
    (∀ wl r g, ∃ q : SvdRank ℝ → SvdRank ℝ, ∀ W, ((totalParts nT argsort).opts wl r g).loop.localRank W =
      q (CostsRank.computeRankTyped ⟨((totalParts nT argsort).num wl).bop.sing W, 2, wl⟩ ((totalParts nT argsort).opts wl r g).svdRank)) ∧
    (∀ wl r g c σ v, ((totalParts nT argsort).opts wl r g).loop.eigs (Out.turn c σ v) =
      ((totalParts nT argsort).opts wl r g).loop.eigs v) ∧
    (∀ wl r g (k : ℝ) v, ((totalParts nT argsort).opts wl r g).loop.eigs (Out.clock k v) =
      ((totalParts nT argsort).opts wl r g).loop.eigs v / k) ∧
    ∀ (a b : ℝ), 0 < a → ∀ r m xs, (totalParts nT argsort).best r m (xs.map fun y => a * y + b) = (totalParts nT argsort).best r m xs := by
  refine ⟨fun wl r g => ⟨fun _ => .int r, fun _ => rfl⟩, fun _ _ _ _ _ _ => rfl, fun _ _ _ k v => Complex.div_ofReal_im _ _, ?_⟩
  intro a b _ r m xs
  simp only [totalParts, List.length_map]

end Verif.MrCostsWhole
