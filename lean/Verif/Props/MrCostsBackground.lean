import Verif.Model.MrCostsWhole
import Verif.Props.MrCostsUnits

/-!
# Property C178: constant backgrounds in mrCOSTS
-/

set_option autoImplicit false

namespace Verif.MrCostsWhole

open Verif Verif.Costs Verif.CostsInit Verif.Refit Verif.CostsWhole Verif.MrCostsState Verif.Rank

variable {n nT : ℕ} {B Al Ω C : Type}

/-! ## Vocabulary -/

/-- The arrays of a fit with a constant added to the window means. -/
def shifted (b : ℕ → ℝ) (F : Fitted) : Fitted :=
  { F with rows := F.rows.map fun r => { r with mean := fun s => r.mean s + b s } }

/-- Level `l'` is level `l` with the background `b`: the same modes, frequencies, amplitudes and times; the background is in
the window means and in the low frequency band, at all `nT` time steps, and in no other band. -/
def Above (nT : ℕ) (b : ℕ → ℝ) (l l' : Level) : Prop :=
  l'.length = l.length ∧ l'.rank = l.rank ∧ l'.fitted = shifted b l.fitted ∧
    ∃ R R', l.bands = some R ∧ l'.bands = some R' ∧ ∀ j s, ∀ t < nT, R' j s t = R j s t + if j = 0 then b s else 0

/-- Numbers of clusters given by the user are positive. -/
def Positive (nc : Option (List (Option ℕ))) : Prop := ∀ a, nc = some a → ∀ m, some m ∈ a → 1 ≤ m

/-! ## One level -/

theorem mapM_congr {α β : Type} (f g : α → Except PyErr β) : ∀ l : List α, (∀ p ∈ l, f p = g p) → l.mapM f = l.mapM g := by
  intro l
  induction l with
  | nil => intro _; rfl
  | cons a l ih =>
    intro h
    rw [mapM_cons', mapM_cons', h a (by simp), ih fun p hp => h p (by simp [hp])]

/-- A fit depends on the data at the time steps only. -/
theorem fit_congr {wl : ℕ} (o : Opts n wl B Al) (N : Num n nT wl B Al) (step nSteps : ℤ) (x y : ℕ → ℕ → ℝ) (time : ℕ → ℝ) (hwl : 1 ≤ wl)
    (hstep : 1 ≤ step) (hn : nSteps = nT ∨ nSteps = nT - 1) (h : ∀ s, ∀ t < nT, x s t = y s t) :
    CostsWhole.fit o N step nSteps x time = CostsWhole.fit o N step nSteps y time := by
  unfold CostsWhole.fit
  cases hw : fitWindows nT nT wl step nSteps with
  | error e => rfl
  | ok w =>
    have hle : (wl : ℤ) ≤ nT := by
      by_contra hlt
      unfold fitWindows at hw
      rw [if_neg (by simp)] at hw
      simp only at hw
      rw [if_pos (by omega)] at hw
      simp at hw
    obtain ⟨w', hw', hpos, hin, -, -⟩ := C45_windows nT wl step nSteps (by omega) hle (by omega) hn
    rw [hw] at hw'
    obtain rfl : w = w' := by simpa using hw'
    have hst : ∀ a ∈ (List.range w.nSlides.toNat).map fun k : ℕ => (w.indices k).1.toNat, a + wl ≤ nT := by
      intro a ha
      obtain ⟨k, hk, rfl⟩ := List.mem_map.1 ha
      obtain ⟨h1, h2, h3, -⟩ := hin k (by omega) (by have := List.mem_range.1 hk; omega)
      omega
    simp only [bind, Except.bind]
    have hp : (fun (a : Fin n) (t : Fin nT) => x a t) = fun (a : Fin n) (t : Fin nT) => y a t := by
      funext a t
      exact h _ _ t.2
    rw [hp]
    cases prepare o N fun a t => y a t with
    | error e => rfl
    | ok p =>
      obtain ⟨alloc, rank, basis⟩ := p
      simp only
      generalize ((List.range w.nSlides.toNat).map fun k : ℕ => (w.indices k).1.toNat) = starts at hst
      have hwin : starts.map (window n wl o.sharpness x time) = starts.map (window n wl o.sharpness y time) := by
        refine List.map_congr_left fun a ha => ?_
        have hd : ∀ (s : ℕ) (i : Fin wl), x s (a + i) = y s (a + i) := fun s i => h _ _ (by have := hst a ha; have := i.2; omega)
        have hm : ∀ s, ∑ i ∈ Finset.range wl, x s (a + i) = ∑ i ∈ Finset.range wl, y s (a + i) := fun s =>
          Finset.sum_congr rfl fun i hi => h _ _ (by have := hst a ha; have := Finset.mem_range.1 hi; omega)
        unfold window
        congr 1
        funext s i
        unfold CostsKern.prepared
        simp only [hd, hm]
      rw [hwin]
      cases Loop.fit (K := ℝ) ({ o.loop with basis := basis } : Loop (Win n wl) ℝ B Al Out) N.bop rank
          (starts.map (window n wl o.sharpness y time)) with
      | error e => rfl
      | ok outs =>
        simp only
        rw [mapM_congr (fun p : ℕ × Out => row alloc wl x time p.1 p.2) (fun p => row alloc wl y time p.1 p.2)]
        intro p hp
        have hp1 := hst p.1 (List.of_mem_zip hp).1
        unfold row
        split_ifs
        · rfl
        · congr 2
          funext s
          congr 1
          exact Finset.sum_congr rfl fun i hi => h _ _ (by have := Finset.mem_range.1 hi; omega)

/-- The level before the clustering. -/
def Before (P : Parts n nT B Al Ω C) (b : ℕ → ℝ) (l l' : Level) : Prop :=
  l'.length = l.length ∧ l'.rank = l.rank ∧ l'.fitted = shifted b l.fitted ∧ l.bands = none ∧ l'.bands = none ∧
    ∀ nC m, 1 ≤ nC →
      (∀ e, l.fitted.bands P.kmeans P.argsort l.length nC m P.includeMeans = .error e →
        l'.fitted.bands P.kmeans P.argsort l.length nC m P.includeMeans = .error e) ∧
      ∀ R, l.fitted.bands P.kmeans P.argsort l.length nC m P.includeMeans = .ok R →
        ∃ R', l'.fitted.bands P.kmeans P.argsort l.length nC m P.includeMeans = .ok R' ∧
          ∀ j s, ∀ t < nT, R' j s t = R j s t + if P.includeMeans = true ∧ j = 0 then b s else 0

/-- What is assumed: a local SVD with a rank that is not a fraction of the energy, k-means and argsort as in C171, and a sweep
that returns a positive number. -/
structure Local (P : Parts n nT B Al Ω C) : Prop where
  steps : P.nSteps = nT ∨ P.nSteps = nT - 1
  svd : ∀ wl r, (P.opts wl r false).loop.globalSvd = false
  rank : ∀ wl r, ¬ (0 < (P.opts wl r false).svdRank.val ∧ (P.opts wl r false).svdRank.val < 1)
  sing : ∀ wl X, ((P.num wl).sing X).length = min n nT
  kmeans : GoodLabels P.kmeans
  argsort : ∀ l, IsArgsort l (P.argsort l)
  best : ∀ r a xs m, P.best r a xs = .ok m → 1 ≤ m
  means : P.includeMeans = true

theorem fit_before (P : Parts n nT B Al Ω C) (hP : Local P) (time : ℕ → ℝ) (b : ℕ → ℝ) (x x' : ℕ → ℕ → ℝ)
    (hx : ∀ s, ∀ t < nT, x' s t = x s t + b s) (w step rank : ℤ) (hw : 1 ≤ step ∧ step ≤ w) :
    (∃ e, fitCosts P time x w step rank false = .error e ∧ fitCosts P time x' w step rank false = .error e) ∨
    ∃ l l', fitCosts P time x w step rank false = .ok l ∧ fitCosts P time x' w step rank false = .ok l' ∧ Before P b l l' := by
  have hwl : 1 ≤ w.toNat := by omega
  have hc : CostsWhole.fit (P.opts w.toNat rank false) (P.num w.toNat) step P.nSteps x' time =
      CostsWhole.fit (P.opts w.toNat rank false) (P.num w.toNat) step P.nSteps (fun s t => x s t + b s) time :=
    fit_congr _ _ _ _ _ _ _ hwl hw.1 hP.steps hx
  have hf := C171_background_fit (P.opts w.toNat rank false) (P.num w.toNat) step P.nSteps x b time hwl (hP.svd _ _) (hP.rank _ _)
    (hP.sing _)
  have hb := fun nC m (h : 1 ≤ nC) => C171_background_partial (P.opts w.toNat rank false) (P.num w.toNat) step P.nSteps x b time hwl hw.1
    (by omega) hP.steps (hP.svd _ _) (hP.rank _ _) (hP.sing _) P.kmeans hP.kmeans P.argsort hP.argsort nC h m P.includeMeans
  unfold fitCosts
  rw [hc]
  cases hF : CostsWhole.fit (P.opts w.toNat rank false) (P.num w.toNat) step P.nSteps x time with
  | error e =>
    rw [hF] at hf
    exact .inl ⟨e, rfl, by rw [hf]; rfl⟩
  | ok F =>
    rw [hF] at hf hb
    rw [hf] at hb ⊢
    exact .inr ⟨_, _, rfl, rfl, rfl, rfl, rfl, rfl, rfl, fun nC m h => hb nC m h⟩

theorem cluster_above (P : Parts n nT B Al Ω C) (hP : Local P) (b : ℕ → ℝ) (l l' : Level) (h : Before P b l l') (nC : ℕ) (hn : 1 ≤ nC)
    (m : Transform) : (∃ e, clusterCosts P nC m l = .error e ∧ clusterCosts P nC m l' = .error e) ∨
      ∃ k k', clusterCosts P nC m l = .ok k ∧ clusterCosts P nC m l' = .ok k' ∧ Above nT b k k' := by
  obtain ⟨h1, h2, h3, -, -, h6⟩ := h
  obtain ⟨he, hr⟩ := h6 nC m hn
  unfold clusterCosts
  rw [h1]
  cases hB : l.fitted.bands P.kmeans P.argsort l.length nC m P.includeMeans with
  | error e => exact .inl ⟨e, rfl, by rw [he e hB]; rfl⟩
  | ok R =>
    obtain ⟨R', hR', hrel⟩ := hr R hB
    rw [hR']
    refine .inr ⟨_, _, rfl, rfl, rfl, h2, h3, R, R', rfl, rfl, fun j s t ht => ?_⟩
    rw [hrel j s t ht]
    simp [hP.means]

theorem sweep_before (P : Parts n nT B Al Ω C) (b : ℕ → ℝ) (l l' : Level) (h : Before P b l l') (t : Transform) :
    sweepCosts P t l' = sweepCosts P t l := by
  obtain ⟨-, h2, h3, -⟩ := h
  have ho : l'.fitted.omegas = l.fitted.omegas := by
    rw [h3]
    simp [shifted, Fitted.omegas, Function.comp_def]
  have ha : l'.fitted.alloc = l.fitted.alloc := by rw [h3]; rfl
  unfold sweepCosts
  rw [ho, ha, h2]

theorem low_above (b : ℕ → ℝ) (l l' : Level) (h : Above nT b l l') (s t : ℕ) (ht : t < nT) : lowCosts l' s t = lowCosts l s t + b s := by
  obtain ⟨-, -, -, R, R', h1, h2, h3⟩ := h
  simp only [lowCosts, h1, h2, h3 0 s t ht, if_true]

/-! ## The loop over the levels -/

theorem sweep_positive (P : Parts n nT B Al Ω C) (hP : Local P) (time : ℕ → ℝ) (t : Transform) (l : Level) (m : ℕ)
    (h : (ops P time).clusterSweep t l = .ok m) : 1 ≤ m := by
  unfold Ops.clusterSweep at h
  split_ifs at h
  simp only [ops, sweepCosts, bind, Except.bind] at h
  split at h
  · simp at h
  · split at h
    · simp at h
    · exact hP.best _ _ _ _ h

theorem components_positive (P : Parts n nT B Al Ω C) (hP : Local P) (time : ℕ → ℝ) (st : State Level Ω C) (hnc : Positive st.nComponents)
    (k : ℕ) (l : Level) (m : ℕ) (arr : Option (List (Option ℕ))) (h : components (ops P time) st k l = .ok (m, arr)) :
    1 ≤ m ∧ Positive arr := by
  have hsw : ∀ q, ((ops P time).clusterSweep st.transform l).map (fun n => (n, st.nComponents.map fun a => a.set k (some n))) = .ok q →
      1 ≤ q.1 ∧ Positive q.2 := by
    intro q hq
    cases hc : (ops P time).clusterSweep st.transform l with
    | error e => rw [hc] at hq; simp [Except.map] at hq
    | ok v =>
      rw [hc] at hq
      simp only [Except.map, Except.ok.injEq] at hq
      subst hq
      have hv := sweep_positive P hP time _ _ _ hc
      refine ⟨hv, fun a ha m hm => ?_⟩
      simp only [Option.map_eq_some_iff] at ha
      obtain ⟨a0, h0, rfl⟩ := ha
      rcases List.mem_or_eq_of_mem_set hm with h1 | h1
      · exact hnc a0 h0 m h1
      · simp only [Option.some.injEq] at h1; omega
  unfold components at h
  simp only at h
  split_ifs at h
  · exact hsw _ h
  · split at h
    · simp at h
    · rename_i a ha
      split at h
      · simp at h
      · exact hsw _ h
      · rename_i v hv
        simp only [Except.ok.injEq, Prod.mk.injEq] at h
        obtain ⟨rfl, rfl⟩ := h
        exact ⟨hnc a ha _ (List.mem_of_getElem? hv), hnc⟩

theorem loop_above (P : Parts n nT B Al Ω C) (hP : Local P) (time : ℕ → ℝ) (b : ℕ → ℝ) : ∀ (ps : List (ℤ × ℤ × ℤ)) (k : ℕ)
    (x x' : ℕ → ℕ → ℝ) (st : State Level Ω C) (lv : Option (List Level)), (∀ s, ∀ t < nT, x' s t = x s t + b s) →
    (∀ p ∈ ps, 1 ≤ p.2.1 ∧ p.2.1 ≤ p.1) → Positive st.nComponents → (∀ g ∈ st.globalSvd.getD [], g = false) →
    Option.Rel (List.Forall₂ (Above nT b)) st.levels lv →
    (fitLoop (ops P time) k x' ps { st with levels := lv }).2 = (fitLoop (ops P time) k x ps st).2 ∧
    (fitLoop (ops P time) k x' ps { st with levels := lv }).1.nComponents = (fitLoop (ops P time) k x ps st).1.nComponents ∧
    Option.Rel (List.Forall₂ (Above nT b)) (fitLoop (ops P time) k x ps st).1.levels
      (fitLoop (ops P time) k x' ps { st with levels := lv }).1.levels := by
  intro ps
  induction ps with
  | nil => intro k x x' st lv _ _ _ _ hl; exact ⟨rfl, rfl, hl⟩
  | cons p ps ih =>
    intro k x x' st lv hx hp hnc hg hl
    unfold fitLoop fitLevel
    simp only
    cases hgk : (st.globalSvd.getD [])[k]? with
    | none => exact ⟨rfl, rfl, hl⟩
    | some g =>
      obtain rfl : g = false := hg g (List.mem_of_getElem? hgk)
      simp only
      have hfit : (ops P time).fit = fitCosts P time := rfl
      rw [hfit]
      rcases fit_before P hP time b x x' hx p.1 p.2.1 p.2.2 (hp p (by simp)) with ⟨e, e1, e2⟩ | ⟨l, l', e1, e2, hb⟩
      · rw [e1, e2]
        exact ⟨rfl, rfl, hl⟩
      · rw [e1, e2]
        simp only
        have hc : components (ops P time) { st with levels := lv } k l' = components (ops P time) st k l := by
          unfold components Ops.clusterSweep
          simp only [show ∀ t, (ops P time).sweep t l' = (ops P time).sweep t l from sweep_before P b l l' hb]
        rw [hc]
        cases hcomp : components (ops P time) st k l with
        | error e => exact ⟨rfl, rfl, hl⟩
        | ok q =>
          obtain ⟨m, arr⟩ := q
          obtain ⟨hm, harr⟩ := components_positive P hP time st hnc k l m arr hcomp
          simp only [Ops.clusterOmega]
          by_cases hacc : costsAccepts st.transform = true
          · rw [if_pos hacc, if_pos hacc]
            have hcl : (ops P time).cluster = clusterCosts P := rfl
            rw [hcl]
            rcases cluster_above P hP b l l' hb m hm st.transform with ⟨e, c1, c2⟩ | ⟨v, v', c1, c2, hv⟩
            · rw [c1, c2]
              exact ⟨rfl, rfl, hl⟩
            · rw [c1, c2]
              simp only
              refine ih (k + 1) _ _ { st with nComponents := arr, levels := st.levels.map (· ++ [v]) } (lv.map (· ++ [v']))
                (fun s t ht => low_above b v v' hv s t ht) (fun p hp' => hp p (by simp [hp'])) harr hg ?_
              simp only
              generalize st.levels = lv0 at hl
              cases hl with
              | none => exact .none
              | some hl => exact .some (List.rel_append hl (.cons hv .nil))
          · rw [if_neg hacc, if_neg hacc]
            exact ⟨rfl, rfl, hl⟩

/-- **C178**. Without global SVD, and with window means included, adding a constant to every variable of the data of a new mrCOSTS
object gives the same exceptions and numbers of clusters; on every level modes, frequencies and amplitudes are the same, and the
constant is in the low frequency band, at all time steps, and in no other. So it is handed on from level to level and ends in the
low frequency component of the last one. Missing: the default `global_svd=True`, where this is false (`C171_global_false`). -/
theorem C178_background_partial (P : Parts n nT B Al Ω C) (hP : Local P) (time : ℕ → ℝ) (b : ℕ → ℝ) (x : ℕ → ℕ → ℝ) (st : State Level Ω C)
    (hnew : st.levels = none) (hg : ∃ gs, st.globalSvd = some gs ∧ ∀ g ∈ gs, g = false) (hnc : Positive st.nComponents)
    (hw : ∀ p ∈ st.windows.zip (st.steps.zip st.ranks), 1 ≤ p.2.1 ∧ p.2.1 ≤ p.1) :
    (MrCostsState.fit (ops P time) st fun s t => x s t + b s).2 = (MrCostsState.fit (ops P time) st x).2 ∧
    (MrCostsState.fit (ops P time) st fun s t => x s t + b s).1.nComponents = (MrCostsState.fit (ops P time) st x).1.nComponents ∧
    Option.Rel (List.Forall₂ (Above nT b)) (MrCostsState.fit (ops P time) st x).1.levels
      (MrCostsState.fit (ops P time) st fun s t => x s t + b s).1.levels := by
  obtain ⟨gs, hgs, hgf⟩ := hg
  unfold MrCostsState.fit
  by_cases h0 : st.clusterSweep ∧ st.nComponents.isSome
  · rw [if_pos h0, if_pos h0]
    refine ⟨rfl, rfl, ?_⟩
    simp only [hnew]
    exact .none
  · rw [if_neg h0, if_neg h0]
    simp only
    by_cases hs : st.clusterSweep = true
    · rw [if_pos hs]
      refine loop_above P hP time b _ 0 x _
        { st with nComponents := some (List.replicate st.windows.length none), globalSvd := some (st.globalSvd.getD (List.replicate st.windows.length true)), levels := some [] }
        (some []) (fun _ _ _ => rfl) hw ?_ ?_ (.some List.Forall₂.nil)
      · intro a ha m hm
        simp only [Option.some.injEq] at ha
        subst ha
        simp [List.mem_replicate] at hm
      · simpa [hgs] using hgf
    · rw [if_neg hs]
      refine loop_above P hP time b _ 0 x _
        { st with globalSvd := some (st.globalSvd.getD (List.replicate st.windows.length true)), levels := some [] }
        (some []) (fun _ _ _ => rfl) hw hnc ?_ (.some List.Forall₂.nil)
      simpa [hgs] using hgf

/-! ## The hypotheses can be met -/

/-- The object of C177 with as many singular values as the data have. -/
noncomputable def backParts (nT : ℕ) (argsort : List ℝ → List ℕ) : Parts 2 nT Unit ℝ Unit Unit :=
  { totalParts nT argsort with num := fun wl => { totalNum nT wl with sing := fun X => List.replicate (min 2 nT) (total X) } }

/-- It is as C178 assumes. -/
example (nT : ℕ) : ∃ argsort, Local (backParts nT argsort) := by
  obtain ⟨argsort, ha⟩ := exists_argsort
  refine ⟨argsort, .inl rfl, fun _ _ => rfl, fun wl r h => ?_, fun wl X => List.length_replicate .., ?_, ha, ?_, rfl⟩
  · have h1 : (0 : ℝ) < (r : ℝ) ∧ (r : ℝ) < 1 := h
    have h2 : 0 < r := by exact_mod_cast h1.1
    have h3 : r < 1 := by exact_mod_cast h1.2
    omega
  · intro k xs cls cen h
    have h' : firstClusters k xs = .ok (cls, cen) := h
    unfold firstClusters at h'
    split_ifs at h' with hc
    simp only [Except.ok.injEq, Prod.mk.injEq] at h'
    obtain ⟨rfl, rfl⟩ := h'
    refine ⟨by simp, by simp [hc.2], fun j hj => ?_⟩
    exact List.mem_map.2 ⟨j, List.mem_range.2 (by omega), Nat.mod_eq_of_lt hj⟩
  · intro r a xs m h
    have h' : (if xs.length = 0 then .error .valueError else .ok (min 2 xs.length) : Except PyErr ℕ) = .ok m := h
    split_ifs at h'
    simp only [Except.ok.injEq] at h'
    omega

/-- A new object with two levels, a given number of clusters on the first and a sweep on the second. -/
example : ∃ st : State Level Unit Unit, State.init [2, 4] [1, 3] [1, 1] (some [false, false]) (some [some 2, none]) false .absolute = .ok st ∧
    st.levels = none ∧ (∃ gs, st.globalSvd = some gs ∧ ∀ g ∈ gs, g = false) ∧ Positive st.nComponents ∧
    ∀ p ∈ st.windows.zip (st.steps.zip st.ranks), 1 ≤ p.2.1 ∧ p.2.1 ≤ p.1 := by
  refine ⟨⟨[2, 4], [1, 3], [1, 1], some [false, false], some [some 2, none], false, .absolute, none, none, none, none⟩, ?_, rfl,
    ⟨_, rfl, by simp⟩, ?_, by simp⟩
  · unfold State.init
    rw [if_neg (by simp)]
  · intro a ha m hm
    simp only [Option.some.injEq] at ha
    subst ha
    simp at hm
    omega

end Verif.MrCostsWhole
