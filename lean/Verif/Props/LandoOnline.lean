import Verif.Lemmas.LandoOnline

/-!
# C73: online learning of LANDO is a least-squares fit

`oLearn` is `fit` with `online=True` followed by any number of `update`s.
-/

set_option autoImplicit false

namespace Verif.Lando

open Matrix Verif.LinAlg
open scoped RealInnerProductSpace

variable {X H o : Type} [Fintype o] [NormedAddCommGroup H] [InnerProductSpace ℝ H] {φ : X → H}
  {sv : Solver} {tol : ℝ}

/-- Sum of squared errors of the model with weights `W` and dictionary items `D`, when every snapshot
`x` is replaced by a feature vector `z`. -/
noncomputable def featureErr {J : Type} [Fintype J] (D : J → H) (W : Matrix o J ℝ)
    (data : List (H × (o → ℝ))) : ℝ :=
  (data.map fun e => ∑ r, (e.2 r - ∑ a, W r a * ⟪D a, e.1⟫) ^ 2).sum

theorem rss_featureErr (st : Online X o) (hist : List ((st.d.ι → ℝ) × X × (o → ℝ)))
    (W : Matrix o st.d.ι ℝ) :
    rss (gram φ st.d) hist W
      = featureErr (fun a => φ (st.d.item a)) W (hist.map fun e => (comb φ st.d e.1, e.2.2)) := by
  rw [rss, featureErr, List.map_map]
  congr 1
  refine List.map_congr_left fun e _ => ?_
  simp only [rnormSq, Function.comp_apply, Pi.sub_apply]
  refine Finset.sum_congr rfl fun r _ => ?_
  congr 2
  rw [mulVec, dotProduct]
  exact Finset.sum_congr rfl fun a _ => by rw [inner_item_comb]

/-- **C73 (online).** After `fit` and any number of `update`s with any pairs, there is for every pair
`(x, y)` seen so far a feature vector `z` in the span of the dictionary, within squared distance
`dict_tol` of the feature of `x`, such that the online weights minimise the sum of squared errors
over all these pairs, among all weights. -/
theorem C73_online (hsv : SolverOk sv) (htol : 0 ≤ tol) (p0 : X × (o → ℝ)) (h0 : φ p0.1 ≠ 0)
    (ps : List (X × (o → ℝ))) :
    ∃ zs : List H,
      List.Forall₂ (fun z p => ‖φ p.1 - z‖ ^ 2 ≤ tol ∧
        ∃ c : (oLearn (kOf φ) sv tol p0 ps).d.ι → ℝ,
          z = ∑ a, c a • φ ((oLearn (kOf φ) sv tol p0 ps).d.item a)) zs (p0 :: ps) ∧
      ∀ W' : Matrix o (oLearn (kOf φ) sv tol p0 ps).d.ι ℝ,
        featureErr (fun a => φ ((oLearn (kOf φ) sv tol p0 ps).d.item a))
            (oLearn (kOf φ) sv tol p0 ps).W (zs.zip ((p0 :: ps).map Prod.snd))
          ≤ featureErr (fun a => φ ((oLearn (kOf φ) sv tol p0 ps).d.item a)) W'
            (zs.zip ((p0 :: ps).map Prod.snd)) := by
  obtain ⟨hist, hI, hm⟩ := oinv_learn hsv htol p0 h0 ps
  refine ⟨hist.map fun e => comb φ (oLearn (kOf φ) sv tol p0 ps).d e.1, ?_, ?_⟩
  · rw [← hm, List.forall₂_map_left_iff, List.forall₂_map_right_iff, List.forall₂_same]
    intro e he
    exact ⟨hI.near e he, e.1, rfl⟩
  · intro W'
    have hz : (hist.map fun e => comb φ (oLearn (kOf φ) sv tol p0 ps).d e.1).zip
          ((p0 :: ps).map Prod.snd)
        = hist.map fun e => (comb φ (oLearn (kOf φ) sv tol p0 ps).d e.1, e.2.2) := by
      rw [← hm, List.map_map, List.zip_map']
      rfl
    rw [hz, ← rss_featureErr, ← rss_featureErr]
    exact rss_le _ _ hist _ W' hI.inv hI.wts

/-- **C73 (online = batch).** With `dict_tol = 0` the online weights minimise the objective of the
batch computation: the sum over all pairs seen of the squared errors of the learnt model
`x ↦ W k(D, x)`, among all weights. -/
theorem C73_online_batch (hsv : SolverOk sv) (p0 : X × (o → ℝ)) (h0 : φ p0.1 ≠ 0)
    (ps : List (X × (o → ℝ))) (W' : Matrix o (oLearn (kOf φ) sv 0 p0 ps).d.ι ℝ) :
    featureErr (fun a => φ ((oLearn (kOf φ) sv 0 p0 ps).d.item a)) (oLearn (kOf φ) sv 0 p0 ps).W
        ((p0 :: ps).map fun p => (φ p.1, p.2))
      ≤ featureErr (fun a => φ ((oLearn (kOf φ) sv 0 p0 ps).d.item a)) W'
        ((p0 :: ps).map fun p => (φ p.1, p.2)) := by
  obtain ⟨zs, hz, hW⟩ := C73_online hsv (le_refl 0) p0 h0 ps
  have hzs : zs = (p0 :: ps).map fun p => φ p.1 := by
    rw [← List.forall₂_eq_eq_eq, List.forall₂_map_right_iff]
    refine hz.imp fun z p h => ?_
    have : ‖φ p.1 - z‖ ^ 2 = 0 := le_antisymm h.1 (by positivity)
    have := pow_eq_zero_iff (two_ne_zero) |>.mp this
    exact (sub_eq_zero.mp (norm_eq_zero.mp this)).symm
  have := hW W'
  rw [hzs, List.zip_map'] at this
  exact this

omit [Fintype o] in
/-- **C73 (dictionary).** With online learning, `fit` and any `update`s build the same dictionary and
factor as one batch `fit` on all snapshots in the same order. -/
theorem C73_dictionary (k : X → X → ℝ) (p0 : X × (o → ℝ)) (ps : List (X × (o → ℝ))) :
    (oLearn k sv tol p0 ps).d = learn k sv tol p0.1 (ps.map Prod.fst) :=
  oLearn_d k p0 ps

/-- A case meeting the hypotheses: scalar snapshots, linear kernel, first snapshot 1. -/
example (sv : Solver) (hsv : SolverOk sv) (ps : List (ℝ × (Unit → ℝ)))
    (W' : Matrix Unit (oLearn (kOf fun x : ℝ => x) sv 0 (1, fun _ => 3) ps).d.ι ℝ) :=
  C73_online_batch hsv (1, fun _ => 3) one_ne_zero ps W'

end Verif.Lando
