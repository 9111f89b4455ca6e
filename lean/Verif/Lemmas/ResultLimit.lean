import Verif.Props.Unique
import Mathlib.Topology.Instances.Matrix
import Mathlib.Topology.MetricSpace.Sequences
import Mathlib.Topology.Algebra.Polynomial
import Mathlib.Analysis.Complex.Basic

/-!
# Limits of results of fits

Results of fits to converging data converge along a subsequence, to a result of the fit to the limit.
-/

set_option autoImplicit false

namespace Verif.ResultLimit

open Verif Verif.LinAlg Verif.Operator Verif.Whole Verif.Unique Matrix Filter Topology

variable {m n : Type} [Fintype m] [Fintype n]

/-- Entries of columns of norm one are bounded by one. -/
theorem entry_le_one {a : Type} [Fintype a] (v : a → ℂ) (h : normSq v = 1) (i : a) : ‖v i‖ ≤ 1 := by
  have h1 : Complex.normSq (v i) ≤ normSq v :=
    Finset.single_le_sum (f := fun i => Complex.normSq (v i)) (fun _ _ => Complex.normSq_nonneg _) (Finset.mem_univ i)
  rw [h, Complex.normSq_eq_norm_sq] at h1
  have := norm_nonneg (v i)
  nlinarith

theorem col_norm {a : Type} [Fintype a] {p : ℕ} (U : Matrix a (Fin p) ℂ) (h : Uᴴ * U = 1) (j : Fin p) :
    normSq (fun i => U i j) = 1 := by
  have h1 := congrFun (congrFun h j) j
  rw [Matrix.mul_apply, one_apply_eq] at h1
  have h2 : ((normSq fun i => U i j : ℝ) : ℂ) = 1 := by
    rw [← h1, normSq]; push_cast
    refine Finset.sum_congr rfl fun i _ => ?_
    rw [conjTranspose_apply, Complex.star_def, Complex.normSq_eq_conj_mul_self]
  exact_mod_cast h2

theorem le_card [DecidableEq m] {p : ℕ} (U : Matrix m (Fin p) ℂ) (h : Uᴴ * U = 1) : p ≤ Fintype.card m := by
  have := (Matrix.rank_mul_le_right Uᴴ U).trans (Matrix.rank_le_card_height U)
  rwa [h, Matrix.rank_one, Fintype.card_fin] at this

/-- Bounded matrices have convergent subsequences. -/
theorem matrix_subseq {a b : Type} [Fintype a] [Fintype b] (U : ℕ → Matrix a b ℂ) (h : ∀ k i j, ‖U k i j‖ ≤ 1) :
    ∃ (L : Matrix a b ℂ) (φ : ℕ → ℕ), StrictMono φ ∧ Tendsto (U ∘ φ) atTop (𝓝 L) := by
  have hc : IsCompact {M : Matrix a b ℂ | ∀ i j, M i j ∈ Metric.closedBall (0 : ℂ) 1} :=
    (isCompact_closedBall (0 : ℂ) 1).matrix
  haveI : FirstCountableTopology (Matrix a b ℂ) := inferInstanceAs (FirstCountableTopology (a → b → ℂ))
  obtain ⟨L, -, φ, hφ, hL⟩ := hc.tendsto_subseq (x := U) fun k i j => by
    rw [mem_closedBall_zero_iff]; exact h k i j
  exact ⟨L, φ, hφ, hL⟩

theorem nat_subseq (p : ℕ → ℕ) (N : ℕ) (h : ∀ k, p k ≤ N) : ∃ (a : ℕ) (φ : ℕ → ℕ), StrictMono φ ∧ ∀ k, p (φ k) = a := by
  obtain ⟨a, -, φ, hφ, ha⟩ := ((Set.finite_Iic N).isCompact).tendsto_subseq (x := p) h
  rw [nhds_discrete, tendsto_pure] at ha
  obtain ⟨K, hK⟩ := eventually_atTop.mp ha
  exact ⟨a, fun k => φ (k + K), hφ.comp fun x y hxy => by omega, fun k => hK _ (by omega)⟩

theorem tendsto_entry {a b : Type} {U : ℕ → Matrix a b ℂ} {L : Matrix a b ℂ} (h : Tendsto U atTop (𝓝 L)) (i : a) (j : b) :
    Tendsto (fun k => U k i j) atTop (𝓝 (L i j)) :=
  (tendsto_pi_nhds.mp (tendsto_pi_nhds.mp h i)) j

theorem tendsto_of_entries {a b : Type} {U : ℕ → Matrix a b ℂ} {L : Matrix a b ℂ}
    (h : ∀ i j, Tendsto (fun k => U k i j) atTop (𝓝 (L i j))) : Tendsto U atTop (𝓝 L) :=
  tendsto_pi_nhds.mpr fun i => tendsto_pi_nhds.mpr fun j => h i j

theorem tendsto_mul {a b c : Type} [Fintype b] {U : ℕ → Matrix a b ℂ} {V : ℕ → Matrix b c ℂ} {L : Matrix a b ℂ}
    {M : Matrix b c ℂ} (h : Tendsto U atTop (𝓝 L)) (h' : Tendsto V atTop (𝓝 M)) :
    Tendsto (fun k => U k * V k) atTop (𝓝 (L * M)) :=
  tendsto_of_entries fun i j => by
    simp only [Matrix.mul_apply]
    exact tendsto_finsetSum _ fun l _ => (tendsto_entry h i l).mul (tendsto_entry h' l j)

theorem tendsto_ct {a b : Type} {U : ℕ → Matrix a b ℂ} {L : Matrix a b ℂ} (h : Tendsto U atTop (𝓝 L)) :
    Tendsto (fun k => (U k)ᴴ) atTop (𝓝 Lᴴ) :=
  tendsto_of_entries fun i j => by
    simp only [conjTranspose_apply]
    exact (continuous_star.tendsto _).comp (tendsto_entry h j i)

theorem tendsto_diag {q : ℕ} {e : ℕ → Fin q → ℂ} {l : Fin q → ℂ} (h : ∀ i, Tendsto (fun k => e k i) atTop (𝓝 (l i))) :
    Tendsto (fun k => diagonal (e k)) atTop (𝓝 (diagonal l)) :=
  tendsto_of_entries fun i j => by
    simp only [diagonal_apply]
    split_ifs
    · exact h i
    · exact tendsto_const_nhds

theorem tendsto_rdiag {q : ℕ} {e : ℕ → Fin q → ℝ} {l : Fin q → ℝ} (h : ∀ i, Tendsto (fun k => e k i) atTop (𝓝 (l i))) :
    Tendsto (fun k => rdiag (e k)) atTop (𝓝 (rdiag l)) :=
  tendsto_diag fun i => (Complex.continuous_ofReal.tendsto _).comp (h i)

theorem tendsto_lead {a : Type} {p q : ℕ} (hq : q ≤ p) {U : ℕ → Matrix a (Fin p) ℂ} {L : Matrix a (Fin p) ℂ}
    (h : Tendsto U atTop (𝓝 L)) : Tendsto (fun k => lead q hq (U k)) atTop (𝓝 (lead q hq L)) :=
  tendsto_of_entries fun i _ => tendsto_entry h i _

theorem tendsto_normSq {a : Type} [Fintype a] {v : ℕ → a → ℂ} {l : a → ℂ}
    (h : ∀ i, Tendsto (fun k => v k i) atTop (𝓝 (l i))) : Tendsto (fun k => normSq (v k)) atTop (𝓝 (normSq l)) := by
  simp only [normSq]
  exact tendsto_finsetSum _ fun i _ => (Complex.continuous_normSq.tendsto _).comp (h i)

theorem tendsto_frobSq {a b : Type} [Fintype a] [Fintype b] {X : ℕ → Matrix a b ℂ} {L : Matrix a b ℂ}
    (h : Tendsto X atTop (𝓝 L)) : Tendsto (fun k => frobSq (X k)) atTop (𝓝 (frobSq L)) := by
  simp only [frobSq]
  exact tendsto_finsetSum _ fun i _ => tendsto_finsetSum _ fun j _ =>
    (Complex.continuous_normSq.tendsto _).comp (tendsto_entry h i j)

/-- The singular values can be read off. -/
theorem value_eq {p : ℕ} {X : Matrix m n ℂ} {U : Matrix m (Fin p) ℂ} {s : Fin p → ℝ} {V : Matrix n (Fin p) ℂ}
    (h : IsSVD X U s V) (i : Fin p) : s i = ((Uᴴ * X * V) i i).re := by
  have : Uᴴ * X * V = rdiag s := by
    rw [h.eq]
    calc Uᴴ * (U * rdiag s * Vᴴ) * V = (Uᴴ * U) * rdiag s * (Vᴴ * V) := by simp only [Matrix.mul_assoc]
      _ = _ := by rw [h.u, h.v, Matrix.one_mul, Matrix.mul_one]
  rw [this]; simp [rdiag]

/-- The eigenvalues can be read off. -/
theorem eig_eq {q : ℕ} {A W : Matrix (Fin q) (Fin q) ℂ} {e : Fin q → ℂ} (h : A * W = W * diagonal e)
    (hn : ∀ j, normSq (fun i => W i j) = 1) (j : Fin q) : e j = (Wᴴ * A * W) j j := by
  rw [Matrix.mul_assoc, h, ← Matrix.mul_assoc, mul_diagonal]
  have h1 : (Wᴴ * W) j j = 1 := by
    rw [Matrix.mul_apply]
    have : ((normSq fun i => W i j : ℝ) : ℂ) = 1 := by rw [hn]; simp
    rw [← this, normSq]; push_cast
    refine Finset.sum_congr rfl fun i _ => ?_
    rw [conjTranspose_apply, Complex.star_def, Complex.normSq_eq_conj_mul_self]
  rw [h1, one_mul]

/-- Characteristic polynomials in terms of eigenvalues, by values. -/
theorem charpoly_iff {q : ℕ} (A : Matrix (Fin q) (Fin q) ℂ) (e : Fin q → ℂ) :
    A.charpoly.roots = Finset.univ.val.map e ↔ ∀ z, (diagonal (fun _ => z) - A).det = ∏ j, (z - e j) := by
  have hev : ∀ z, A.charpoly.eval z = (diagonal (fun _ => z) - A).det := fun z => by
    rw [Matrix.eval_charpoly]; rfl
  have hp : ∀ z, (∏ j, (Polynomial.X - Polynomial.C (e j))).eval z = ∏ j, (z - e j) := fun z => by
    rw [Polynomial.eval_prod]; simp
  constructor
  · intro h z
    have hs : A.charpoly.Splits := IsAlgClosed.splits _
    have := hs.eq_prod_roots_of_monic (charpoly_monic A)
    rw [h, Multiset.map_map] at this
    rw [← hev, this, ← hp]
    rfl
  · intro h
    have : A.charpoly = ∏ j, (Polynomial.X - Polynomial.C (e j)) :=
      Polynomial.funext fun z => by rw [hev, h, hp]
    rw [this]
    have := Polynomial.roots_multiset_prod_X_sub_C (Finset.univ.val.map e)
    rw [Multiset.map_map] at this
    exact this

theorem tendsto_tikSigma (o : Options) (ht : ∀ t, o.tikhonov = some t → 0 ≤ t) {q : ℕ} {X : ℕ → Matrix m n ℂ}
    {X0 : Matrix m n ℂ} (hX : Tendsto X atTop (𝓝 X0)) {s : ℕ → Fin q → ℝ} {s0 : Fin q → ℝ}
    (hs : ∀ i, Tendsto (fun k => s k i) atTop (𝓝 (s0 i))) (hpos : ∀ i, 0 < s0 i) (i : Fin q) :
    Tendsto (fun k => (tikSigma (o.tik (X k)) (s k) i)⁻¹) atTop (𝓝 (tikSigma (o.tik X0) s0 i)⁻¹) := by
  have hi := (hpos i).ne'
  cases h : o.tikhonov with
  | none =>
    simp only [Options.tik, h, Option.map_none, tikSigma]
    exact (hs i).inv₀ hi
  | some t =>
    simp only [Options.tik, h, Option.map_some, tikSigma]
    refine Tendsto.inv₀ ?_ ?_
    · refine Tendsto.mul (((hs i).pow 2).add (tendsto_const_nhds.mul ?_)) ((hs i).inv₀ hi)
      exact (Real.continuous_sqrt.tendsto _).comp (tendsto_frobSq hX)
    · have h1 : 0 ≤ t * Real.sqrt (frobSq X0) := mul_nonneg (ht t h) (Real.sqrt_nonneg _)
      have h2 : 0 < s0 i ^ 2 := pow_pos (hpos i) 2
      exact mul_ne_zero (by linarith) (inv_ne_zero hi)

/-- The limit of results is a result. -/
theorem limit_result [DecidableEq m] (o : Options) (ho : o.forwardBackward = false)
    (ht : ∀ t, o.tikhonov = some t → 0 ≤ t) {q : ℕ} {X0 Y0 : Matrix m n ℂ} (hg : Gap X0 q) {X Y : ℕ → Matrix m n ℂ}
    (hX : Tendsto X atTop (𝓝 X0)) (hY : Tendsto Y atTop (𝓝 Y0)) (W : ℕ → Matrix (Fin q) (Fin q) ℂ)
    (e : ℕ → Fin q → ℂ) (modes : ℕ → Matrix m (Fin q) ℂ) (h : ∀ k, IsResult o (X k) (Y k) (W k) (e k) (modes k)) :
    ∃ (φ : ℕ → ℕ) (W0 : Matrix (Fin q) (Fin q) ℂ) (e0 : Fin q → ℂ) (modes0 : Matrix m (Fin q) ℂ), StrictMono φ ∧
      IsResult o X0 Y0 W0 e0 modes0 ∧ (∀ j, Tendsto (fun k => e (φ k) j) atTop (𝓝 (e0 j))) ∧
      Tendsto (fun k => modes (φ k)) atTop (𝓝 modes0) := by
  choose p hq U s V hS hA A hAt he hr hn hm using h
  obtain ⟨a, φ₁, hφ₁, hp⟩ := nat_subseq p (Fintype.card m) fun k => le_card (U k) (hS k).u
  have h' : ∀ k, ∃ (hq : q ≤ a) (U : Matrix m (Fin a) ℂ) (s : Fin a → ℝ) (V : Matrix n (Fin a) ℂ),
      IsSVD (X (φ₁ k)) U s V ∧ Antitone s ∧ ∃ A, IsAtilde o hq (X (φ₁ k)) (Y (φ₁ k)) U s V A ∧
      A * W (φ₁ k) = W (φ₁ k) * diagonal (e (φ₁ k)) ∧
      A.charpoly.roots = Finset.univ.val.map (e (φ₁ k)) ∧ (∀ j, normSq (fun i => W (φ₁ k) i j) = 1) ∧
      modes (φ₁ k) = computeModes o.exact (o.tik (X (φ₁ k))) (Y (φ₁ k)) (lead q hq U) (s ∘ Fin.castLE hq) (lead q hq V)
        (W (φ₁ k)) := fun k => by
    rw [← hp k]
    exact ⟨hq _, U _, s _, V _, hS _, hA _, A _, hAt _, he _, hr _, hn _, hm _⟩
  clear hS hA hAt he hr hn hm hp A U s V hq p
  choose hq U s V hS hA A hAt he hr hn hm using h'
  obtain ⟨U0, φ₂, hφ₂, hU⟩ := matrix_subseq U fun k i j => entry_le_one _ (col_norm (U k) (hS k).u j) i
  obtain ⟨V0, φ₃, hφ₃, hV⟩ := matrix_subseq (V ∘ φ₂) fun k i j => entry_le_one _ (col_norm (V (φ₂ k)) (hS _).v j) i
  obtain ⟨W0, φ₄, hφ₄, hW⟩ := matrix_subseq (W ∘ φ₁ ∘ φ₂ ∘ φ₃) fun k i j => entry_le_one _ (hn (φ₂ (φ₃ k)) j) i
  set ψ : ℕ → ℕ := φ₂ ∘ φ₃ ∘ φ₄ with hψ
  have hψm : StrictMono ψ := hφ₂.comp (hφ₃.comp hφ₄)
  have hχ : StrictMono (φ₁ ∘ ψ) := hφ₁.comp hψm
  have tU : Tendsto (fun k => U (ψ k)) atTop (𝓝 U0) := hU.comp (hφ₃.comp hφ₄).tendsto_atTop
  have tV : Tendsto (fun k => V (ψ k)) atTop (𝓝 V0) := hV.comp hφ₄.tendsto_atTop
  have tW : Tendsto (fun k => W (φ₁ (ψ k))) atTop (𝓝 W0) := hW
  have tX : Tendsto (fun k => X (φ₁ (ψ k))) atTop (𝓝 X0) := hX.comp hχ.tendsto_atTop
  have tY : Tendsto (fun k => Y (φ₁ (ψ k))) atTop (𝓝 Y0) := hY.comp hχ.tendsto_atTop
  set s0 : Fin a → ℝ := fun i => ((U0ᴴ * X0 * V0) i i).re with hs0
  have ts : ∀ i, Tendsto (fun k => s (ψ k) i) atTop (𝓝 (s0 i)) := fun i => by
    have := (Complex.continuous_re.tendsto _).comp (tendsto_entry (tendsto_mul (tendsto_mul (tendsto_ct tU) tX) tV) i i)
    refine this.congr fun k => ?_
    exact (value_eq (hS (ψ k)) i).symm
  have hq0 : q ≤ a := hq 0
  have hS0 : IsSVD X0 U0 s0 V0 := by
    refine ⟨?_, ?_, ?_, fun i => ?_⟩
    · refine tendsto_nhds_unique tX ?_
      refine (tendsto_mul (tendsto_mul tU (tendsto_rdiag ts)) (tendsto_ct tV)).congr fun k => ?_
      exact (hS (ψ k)).eq.symm
    · refine tendsto_nhds_unique (tendsto_mul (tendsto_ct tU) tU) ?_
      exact tendsto_const_nhds.congr fun k => (hS (ψ k)).u.symm
    · refine tendsto_nhds_unique (tendsto_mul (tendsto_ct tV) tV) ?_
      exact tendsto_const_nhds.congr fun k => (hS (ψ k)).v.symm
    · exact ge_of_tendsto' (ts i) fun k => (hS (ψ k)).nonneg i
  have hA0 : Antitone s0 := fun i j hij => le_of_tendsto_of_tendsto' (ts j) (ts i) fun k => hA (ψ k) hij
  have hpos : ∀ i : Fin q, 0 < (s0 ∘ Fin.castLE hq0) i := fun i => by
    obtain ⟨p, U, s, V, hs, ha, hqp, hp, -⟩ := id hg
    have := (gap_lead X0 hg hq0 hqp hS0 hA0 hs ha).1
    rw [this]
    exact hp _ i.2
  have tlq : ∀ i : Fin q, Tendsto (fun k => (s (ψ k) ∘ Fin.castLE hq0) i) atTop (𝓝 ((s0 ∘ Fin.castLE hq0) i)) :=
    fun i => ts _
  have tik := tendsto_rdiag fun i => tendsto_tikSigma o ht tX tlq hpos i
  set A0 := leastSquareOperator (o.tik X0) (lead q hq0 U0) (s0 ∘ Fin.castLE hq0) (lead q hq0 V0) Y0 with hA0'
  have tA : Tendsto (fun k => A (ψ k)) atTop (𝓝 A0) := by
    have := tendsto_mul (tendsto_mul (tendsto_mul (tendsto_ct (tendsto_lead hq0 tU)) tY) (tendsto_lead hq0 tV)) tik
    refine this.congr fun k => ?_
    have := hAt (ψ k)
    simp only [IsAtilde, ho, Bool.false_eq_true, if_false] at this
    rw [this]; rfl
  set e0 : Fin q → ℂ := fun j => (W0ᴴ * A0 * W0) j j with he0
  have te : ∀ j, Tendsto (fun k => e (φ₁ (ψ k)) j) atTop (𝓝 (e0 j)) := fun j => by
    refine (tendsto_entry (tendsto_mul (tendsto_mul (tendsto_ct tW) tA) tW) j j).congr fun k => ?_
    exact (eig_eq (he (ψ k)) (hn (ψ k)) j).symm
  set modes0 := computeModes o.exact (o.tik X0) Y0 (lead q hq0 U0) (s0 ∘ Fin.castLE hq0) (lead q hq0 V0) W0 with hm0
  have tm : Tendsto (fun k => modes (φ₁ (ψ k))) atTop (𝓝 modes0) := by
    simp only [hm, hm0, computeModes]
    split_ifs
    · exact tendsto_mul (tendsto_mul (tendsto_mul tY (tendsto_lead hq0 tV)) tik) tW
    · exact tendsto_mul (tendsto_lead hq0 tU) tW
  refine ⟨φ₁ ∘ ψ, W0, e0, modes0, hχ, ⟨a, hq0, U0, s0, V0, hS0, hA0, A0, ?_, ?_, ?_, ?_, rfl⟩, te, tm⟩
  · simp only [IsAtilde, ho, Bool.false_eq_true, if_false]; rfl
  · refine tendsto_nhds_unique (tendsto_mul tA tW) ?_
    exact (tendsto_mul tW (tendsto_diag te)).congr fun k => (he (ψ k)).symm
  · rw [charpoly_iff]
    intro z
    have h1 : Tendsto (fun k => (diagonal (fun _ => z) - A (ψ k)).det) atTop (𝓝 (diagonal (fun _ => z) - A0).det) := by
      have hc : Continuous fun M : Matrix (Fin q) (Fin q) ℂ => (diagonal (fun _ => z) - M).det :=
        (continuous_const.sub continuous_id).matrix_det
      exact (hc.tendsto _).comp tA
    refine tendsto_nhds_unique h1 ?_
    have h2 : Tendsto (fun k => ∏ j, (z - e (φ₁ (ψ k)) j)) atTop (𝓝 (∏ j, (z - e0 j))) :=
      tendsto_finsetProd _ fun j _ => tendsto_const_nhds.sub (te j)
    exact h2.congr fun k => (((charpoly_iff _ _).mp (hr (ψ k))) z).symm
  · intro j
    refine tendsto_nhds_unique (tendsto_normSq fun i => tendsto_entry tW i j) ?_
    exact tendsto_const_nhds.congr fun k => (hn (ψ k) j).symm

end Verif.ResultLimit
