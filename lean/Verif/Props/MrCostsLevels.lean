import Verif.Model.MrCostsWhole
import Verif.Props.MrCostsState
import Verif.Props.CostsWhole

/-!
# Property C118 with COSTS on the levels
-/

set_option autoImplicit false

namespace Verif.MrCostsWhole

open Verif Verif.Costs Verif.CostsInit Verif.Refit Verif.Rank Verif.CostsWhole Verif.MrCostsState

variable {n nT : ℕ} {B Al Ω C : Type}

/-- **C118** (levels). After a successful fit level `i` holds the arrays of a COSTS fit with window, step, rank and flag `i` to the
data (`i = 0`) or to the first band of the level before, and the bands of its clustering with the given transformation into the
number of clusters that is recorded for this level; where no number is given, it is the best one for the transformed frequencies
of this fit. (What is false for other calls is in the other theorems of C118.) -/
theorem C118_levels_partial (P : Parts n nT B Al Ω C) (time : ℕ → ℝ) (st st' : State Level Ω C) (x : ℕ → ℕ → ℝ)
    (h : MrCostsState.fit (ops P time) st x = (st', .ok ())) :
    ∃ ls, st'.levels = some ls ∧ ls.length = min st.windows.length (min st.steps.length st.ranks.length) ∧
      ∀ (i : ℕ) l, ls[i]? = some l → ∃ y w s r g m R,
        (i = 0 → y = x) ∧
        (∀ (j : ℕ) l', i = j + 1 → ls[j]? = some l' → ∃ R', l'.bands = some R' ∧ y = R' 0) ∧
        st.windows[i]? = some w ∧ st.steps[i]? = some s ∧ st.ranks[i]? = some r ∧ (flags st)[i]? = some g ∧
        CostsWhole.fit (P.opts w.toNat r g) (P.num w.toNat) s P.nSteps y time = .ok l.fitted ∧
        l.fitted.bands P.kmeans P.argsort w.toNat m st.transform P.includeMeans = .ok R ∧ l.bands = some R ∧
        st'.nComponents.bind (·[i]?) = some (some m) ∧
        (∀ k, st.clusterSweep = false → st.nComponents.bind (·[i]?) = some (some k) → m = k) ∧
        (st.clusterSweep = true ∨ st.nComponents.bind (·[i]?) = some none → ∃ vs,
          CostsPad.transform st.transform (l.fitted.omegas.flatten.map Complex.im) = .ok (vs.map some) ∧
            P.best r l.fitted.alloc vs = .ok m) := by
  obtain ⟨ls, h1, h2, h3⟩ := C118_fit_partial (ops P time) st st' x h
  -- every level has its bands
  have hlev : ∀ (t : Transform) (sw : Bool) (gv : Option (Option ℕ)) (y : ℕ → ℕ → ℝ) (w s r : ℤ) (g : Bool) (m : ℕ) (l : Level),
      LevelIs (ops P time) t sw gv y (w, s, r) g m l → ∃ R,
        CostsWhole.fit (P.opts w.toNat r g) (P.num w.toNat) s P.nSteps y time = .ok l.fitted ∧
        l.fitted.bands P.kmeans P.argsort w.toNat m t P.includeMeans = .ok R ∧ l.bands = some R ∧
        (∀ k, sw = false → gv = some (some k) → m = k) ∧
        (sw = true ∨ gv = some none → ∃ vs,
          CostsPad.transform t (l.fitted.omegas.flatten.map Complex.im) = .ok (vs.map some) ∧ P.best r l.fitted.alloc vs = .ok m) := by
    rintro t sw gv y w s r g m l ⟨l₀, hf, hc, hs, hg⟩
    simp only [ops, fitCosts] at hf
    cases hF : CostsWhole.fit (P.opts w.toNat r g) (P.num w.toNat) s P.nSteps y time with
    | error e => rw [hF] at hf; simp [Except.map] at hf
    | ok F =>
      rw [hF] at hf
      simp only [Except.map, Except.ok.injEq] at hf
      subst hf
      simp only [ops, clusterCosts] at hc
      cases hR : F.bands P.kmeans P.argsort w.toNat m t P.includeMeans with
      | error e => rw [hR] at hc; simp [Except.map] at hc
      | ok R =>
        rw [hR] at hc
        simp only [Except.map, Except.ok.injEq] at hc
        subst hc
        refine ⟨R, rfl, hR, rfl, hg, fun h0 => ?_⟩
        have hsw := hs h0
        simp only [ops, sweepCosts, bind, Except.bind] at hsw
        cases ht : CostsPad.transform t (F.omegas.flatten.map Complex.im) with
        | error e => rw [ht] at hsw; simp at hsw
        | ok vs =>
          rw [ht] at hsw
          simp only at hsw
          cases hv : CostsPad.finite vs with
          | error e => rw [hv] at hsw; simp at hsw
          | ok us =>
            rw [hv] at hsw
            refine ⟨us, ?_, hsw⟩
            have : ∀ (vs : List (Option ℝ)) (us : List ℝ), CostsPad.finite vs = .ok us → vs = us.map some := by
              intro vs
              induction vs with
              | nil => intro us h; simp only [CostsPad.finite, Except.ok.injEq] at h; subst h; rfl
              | cons v vs ih =>
                intro us h
                cases v with
                | none => simp [CostsPad.finite] at h
                | some v =>
                  simp only [CostsPad.finite] at h
                  cases h' : CostsPad.finite vs with
                  | error e => rw [h'] at h; simp [Except.map] at h
                  | ok ws =>
                    rw [h'] at h
                    simp only [Except.map, Except.ok.injEq] at h
                    subst h
                    rw [List.map_cons, ih ws h']
            rw [this vs us hv]
  refine ⟨ls, h1, h2, fun i l hi => ?_⟩
  obtain ⟨y, w, s, r, g, m, e1, e2, e3, e4, e5, e6, e7, e8⟩ := h3 i l hi
  obtain ⟨R, f1, f2, f3, f4, f5⟩ := hlev _ _ _ _ _ _ _ _ _ _ e7
  refine ⟨y, w, s, r, g, m, R, e1, fun j l' hj hl' => ?_, e3, e4, e5, e6, f1, f2, f3, e8, f4, f5⟩
  obtain ⟨y', w', s', r', g', m', -, -, -, -, -, -, e7', -⟩ := h3 j l' hl'
  obtain ⟨R', -, -, f3', -⟩ := hlev _ _ _ _ _ _ _ _ _ _ e7'
  refine ⟨R', f3', ?_⟩
  rw [e2 j l' hj hl']
  funext a b
  simp only [ops, lowCosts, f3']

/-! ## The hypothesis can be met -/

theorem twoWindows (x : ℕ → ℕ → ℝ) (time : ℕ → ℝ) (argsort : List ℝ → List ℕ) :
    ∃ F, CostsWhole.fit exOpts exNum 1 3 x time = .ok F ∧ ∃ R, F.bands oneCluster argsort 2 1 .absolute true = .ok R := by
  have hw : fitWindows 3 3 2 1 3 = .ok ⟨3, 2, 1, 2, false⟩ := by decide
  have hp : prepare exOpts exNum (fun a t => x a t) = .ok (1, .int 1, none) := by
    simp [prepare, exOpts, exNum, SvdRank.val, computeRank]
  have hl : ∀ w w' : Win 1 2, Loop.fit ({ exOpts.loop with basis := none } : Loop (Win 1 2) ℝ Unit Unit Out) exNum.bop (.int 1) [w, w'] =
      .ok [⟨1, fun _ _ => 1, fun _ => Complex.I, fun _ => 1⟩, ⟨1, fun _ _ => 1, fun _ => Complex.I, fun _ => 1⟩] := by
    intro w w'
    simp [Loop.fit, Loop.run, Loop.before, Loop.after, Bop.new, Bop.fit, exOpts, exNum, BopNum.rankOf, BopNum.pickBasis,
      BopNum.pickAlpha, computeRank, SvdRank.val]
  refine ⟨⟨1, [exRow x time 0, exRow x time 1]⟩, ?_, ?_⟩
  · unfold CostsWhole.fit
    have hw' : fitWindows ((3 : ℕ) : ℤ) ((3 : ℕ) : ℤ) ((2 : ℕ) : ℤ) 1 3 = .ok ⟨3, 2, 1, 2, false⟩ := hw
    rw [hw']
    simp only [bind, Except.bind]
    rw [hp]
    have hst : (List.range (2 : ℤ).toNat).map (fun k : ℕ => ((⟨3, 2, 1, 2, false⟩ : Windows).indices k).1.toNat) = [0, 1] := by
      decide
    simp only [hst, List.map_cons, List.map_nil]
    rw [hl]
    rfl
  · obtain ⟨p, hp⟩ : ∃ p, CostsPad.cluster true oneCluster argsort 1 1 .absolute
        (Fitted.omegas ⟨1, [exRow x time 0, exRow x time 1]⟩) = .ok p := by
      unfold CostsPad.cluster
      simp [Fitted.omegas, exRow, CostsPad.transform, CostsPad.finite, bind, Except.bind, Except.map, oneCluster]
    obtain ⟨cen, cls⟩ := p
    exact ⟨_, by unfold Fitted.bands; rw [hp]; rfl⟩

/-- The routines of `exNum` for windows of all lengths. -/
noncomputable def exParts (argsort : List ℝ → List ℕ) : Parts 1 3 Unit Unit Unit Unit :=
  ⟨fun _ _ _ => ⟨⟨false, false, false, none, none, fun _ => .int 1, fun _ => ()⟩, .int 1, none, false, none⟩,
    fun _ => ⟨⟨fun _ => .ok (), fun _ => [1], fun _ => 1, fun _ => 2, fun _ _ => (), fun _ => 1, fun _ _ _ => (), fun _ => 1, false,
      fun _ _ _ => .ok ⟨1, fun _ _ => 1, fun _ => Complex.I, fun _ => 1⟩⟩, fun _ => [1], fun _ _ => ()⟩,
    3, oneCluster, argsort, fun _ _ _ => .ok 1, true, fun _ => (), fun _ _ _ => .ok ()⟩

/-- A fit with two levels of two windows each succeeds, for all data. -/
example (argsort : List ℝ → List ℕ) (time : ℕ → ℝ) (x : ℕ → ℕ → ℝ) : ∃ st' : State Level Unit Unit,
    MrCostsState.fit (ops (exParts argsort) time)
      ⟨[2, 2], [1, 1], [1, 1], some [false, false], some [some 1, some 1], false, .absolute, none, none, none, none⟩ x = (st', .ok ()) := by
  have key : ∀ x, ∃ l, (ops (exParts argsort) time).fit x 2 1 1 false = .ok l ∧
      ∃ l', (ops (exParts argsort) time).cluster 1 .absolute l = .ok l' := by
    intro x
    obtain ⟨F, hF, R, hR⟩ := twoWindows x time argsort
    refine ⟨⟨2, 1, F, none⟩, ?_, ⟨2, 1, F, some R⟩, ?_⟩
    · show (CostsWhole.fit exOpts exNum 1 3 x time).map _ = _
      rw [hF]
      rfl
    · show (F.bands oneCluster argsort 2 1 .absolute true).map _ = _
      rw [hR]
      rfl
  obtain ⟨l, h1, l', h2⟩ := key x
  obtain ⟨m, h3, m', h4⟩ := key ((ops (exParts argsort) time).low l')
  refine ⟨_, Prod.ext rfl ?_⟩
  simp [MrCostsState.fit, fitLoop, fitLevel, components, Ops.clusterOmega, costsAccepts, h1, h2, h3, h4]

end Verif.MrCostsWhole
