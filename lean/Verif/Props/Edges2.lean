import Verif.Props.CostsInit
import Verif.Props.Edmd
import Verif.Props.Rank
import Mathlib.Data.Finset.Sort

/-!
# Further cases of C86 and C105
-/

set_option autoImplicit false

namespace Verif.Edmd

open Verif Matrix

theorem le_of_strictMono {t m : ℕ} (f : Fin t → Fin m) (hf : StrictMono f) (i : Fin t) :
    (i : ℕ) ≤ f i := by
  obtain ⟨i, hi⟩ := i
  induction i with
  | zero => simp
  | succ i ih =>
    have h1 := ih (by omega)
    have h2 : f ⟨i, by omega⟩ < f ⟨i + 1, hi⟩ := hf (by simp [Fin.lt_def])
    rw [Fin.lt_def] at h2
    simp only at h1 ⊢
    omega

theorem sum_le_first {m : ℕ} (f : Fin m → ℝ) (hf : ∀ i j, i ≤ j → f j ≤ f i) (T : Finset (Fin m)) :
    ∃ h : T.card ≤ m, ∑ i ∈ T, f i ≤ ∑ i : Fin T.card, f (Fin.castLE h i) := by
  have h : T.card ≤ m := by simpa using T.card_le_univ
  refine ⟨h, ?_⟩
  have e : ∑ i ∈ T, f i = ∑ i : Fin T.card, f (T.orderEmbOfFin rfl i) := by
    conv_lhs => rw [← Finset.map_orderEmbOfFin_univ T rfl, Finset.sum_map]
    rfl
  rw [e]
  refine Finset.sum_le_sum fun i _ => hf _ _ ?_
  rw [Fin.le_def]
  exact le_of_strictMono _ (T.orderEmbOfFin rfl).strictMono i

theorem svals_sq {m : ℕ} (g : Fin m → ℝ) (i : Fin m) : svals g i ^ 2 = |g i| := by
  unfold svals
  split_ifs with h
  · rw [Real.sq_sqrt (by linarith), abs_of_neg h]; ring
  · rw [Real.sq_sqrt (by linarith), abs_of_nonneg (by linarith)]

theorem sum_take_ofFn {m : ℕ} (f : Fin m → ℝ) (t : ℕ) (h : t ≤ m) :
    ((List.ofFn f).take t).sum = ∑ i : Fin t, f (Fin.castLE h i) := by
  rw [← List.sum_ofFn]
  congr 1
  refine List.ext_getElem (by simp [h]) fun i h1 h2 => ?_
  simp

/-- **C86** (energy). With `0 < svd_rank < 1`, the retained directions carry at least the fraction
`svd_rank` of the sum of the absolute eigenvalues of the Gramian, and no smaller set of eigenvalues,
whichever they are, does. In particular the order in which `np.linalg.eig` lists them is irrelevant. -/
theorem C86_energy {m : ℕ} {G : Matrix (Fin m) (Fin m) ℝ} (e : ℝ) (h0 : 0 < e) (h1 : e < 1)
    (d : Svd G (.float e)) (hG : G ≠ 0) :
    e * ∑ i, |d.g i| ≤ ∑ i : Fin d.r, d.s i ^ 2 ∧
    ∀ T : Finset (Fin m), T.card < d.r → ∑ i ∈ T, |d.g i| < e * ∑ i, |d.g i| := by
  have hne : ∃ i, d.g i ≠ 0 := by
    by_contra hc
    push Not at hc
    have hz : d.g = 0 := funext hc
    have h2 := d.eig
    rw [hz] at h2
    have h3 : d.E * d.Eᵀ = 1 := mul_eq_one_comm.1 d.ortho
    apply hG
    calc G = G * (d.E * d.Eᵀ) := by rw [h3, Matrix.mul_one]
      _ = G * d.E * d.Eᵀ := (Matrix.mul_assoc _ _ _).symm
      _ = 0 := by rw [h2]; simp
  obtain ⟨i₀, hi₀⟩ := hne
  set sg := sortedVals d.g d.p with hsg
  have hlen : sg.length = m := by simp [hsg, sortedVals]
  have hnz : ∃ s ∈ sg, s ≠ 0 := by
    refine ⟨svals d.g i₀, ?_, ?_⟩
    · simp only [hsg, sortedVals, List.mem_ofFn]
      exact ⟨d.p.symm i₀, by simp⟩
    · intro h
      have := svals_sq d.g i₀
      rw [h] at this
      exact hi₀ (abs_eq_zero.1 (by rw [← this]; norm_num))
  have hL := Rank.C13_least_rank sg sg.length sg.length hnz e h0 h1
  have hr : d.r = Rank.computeRank sg sg.length sg.length (.float e) := by
    have := C86_rank sg (.float e) (by simpa [Rank.SvdRank.val] using h0.ne')
    rw [min_eq_left hL.1.1] at this
    exact this
  have hsq : sg.map (· ^ 2) = List.ofFn fun i => |d.g (d.p i)| := by
    simp only [hsg, sortedVals, List.map_ofFn]
    congr 1; funext i; exact svals_sq _ _
  have htot : (sg.map (· ^ 2)).sum = ∑ i, |d.g i| := by
    rw [hsq, List.sum_ofFn]; exact Equiv.sum_comp d.p fun i => |d.g i|
  have htake : ∀ t (h : t ≤ m), ((sg.take t).map (· ^ 2)).sum =
      ∑ i : Fin t, |d.g (d.p (Fin.castLE h i))| := by
    intro t h
    rw [List.map_take, hsq, sum_take_ofFn _ t h]
  rw [← hr, htot] at hL
  refine ⟨?_, ?_⟩
  · have := hL.1.2
    rw [htake _ (rank_le _ _ _)] at this
    refine this.trans (le_of_eq (Finset.sum_congr rfl fun i _ => ?_))
    exact (svals_sq _ _).symm
  · intro T hT
    by_contra hc
    push Not at hc
    have hanti : ∀ i j : Fin m, i ≤ j → |d.g (d.p j)| ≤ |d.g (d.p i)| := by
      intro i j hij
      rw [← svals_sq, ← svals_sq]
      exact pow_le_pow_left₀ (Real.sqrt_nonneg _) (d.sorted i j hij) 2
    obtain ⟨h, hs⟩ := sum_le_first (fun i => |d.g (d.p i)|) hanti (T.map d.p.symm.toEmbedding)
    rw [Finset.sum_map] at hs
    simp only [Equiv.coe_toEmbedding, Equiv.apply_symm_apply] at hs
    have hcard : (T.map d.p.symm.toEmbedding).card = T.card := Finset.card_map _
    have hm : d.r ≤ (T.map d.p.symm.toEmbedding).card :=
      hL.2 ⟨by rw [hlen]; exact h, by rw [htake _ h]; exact hc.trans hs⟩
    omega

/-- Its hypotheses are met by a Gramian listed in ascending order, `diag(1, 4)`, of which half the
energy is wanted. -/
example : ∃ d : Svd (diagonal ![1, 4] : Matrix (Fin 2) (Fin 2) ℝ) (.float (1 / 2)),
    (∀ T : Finset (Fin 2), T.card < d.r → ∑ i ∈ T, |d.g i| < 1 / 2 * ∑ i, |d.g i|) := by
  let d : Svd (diagonal ![1, 4] : Matrix (Fin 2) (Fin 2) ℝ) (.float (1 / 2)) :=
    { g := ![1, 4], E := 1, eig := by simp, ortho := by simp, p := Equiv.swap 0 1
      sorted := by
        have n4 : ¬ (4 : ℝ) < 0 := by norm_num
        have n1 : ¬ (1 : ℝ) < 0 := by norm_num
        intro i j hij
        fin_cases i <;> fin_cases j <;> simp [svals, n4, n1] at hij ⊢
        }
  refine ⟨d, (C86_energy (1 / 2) (by norm_num) (by norm_num) d ?_).2⟩
  intro h
  have := congrFun (congrFun h 0) 0
  simp at this

end Verif.Edmd

namespace Verif.CostsInit

/-- **C105** is false for one mode and one band: the guess has two values, `i√x` and `-i√x`. -/
theorem C105_single_false (o : Obj) (x : ℝ) (ha : o.artificial = true) (hi : o.initAlpha = none)
    (hr : o.rank = 1) :
    ∃ a, (o.cluster [x]).build = .ok (some a) ∧ a = [freq x, -freq x] ∧ a.length ≠ o.rank := by
  refine ⟨_, ?_, rfl, by simp [hr]⟩
  have ht : times (repeatEach ([x].map fun x => (Real.sqrt x : ℂ) * Complex.I) 1) (signs 1) =
      .ok [freq x, -freq x] := by
    simp [times, repeatEach, signs, freq]
  unfold Obj.build Obj.cluster
  simp only [ha, hi, if_true, List.length_cons, List.length_nil, zero_add, hr,
    Nat.reduceDiv, ht]

example := C105_single_false ((Obj.new true none none 1 none)) 4 rfl rfl rfl

end Verif.CostsInit
