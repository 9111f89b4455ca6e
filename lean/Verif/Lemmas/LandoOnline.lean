import Verif.Lemmas.Lando

/-! Helper lemmas for the online learning of LANDO: a recursive least-squares invariant. -/

set_option autoImplicit false

namespace Verif.Lando

open Matrix Verif.LinAlg
open scoped RealInnerProductSpace

section Alg

variable {ι o : Type} [Fintype ι] [DecidableEq ι] [Fintype o]

/-- Sum of `c cᵀ`. -/
def gMat {Y : Type} (hist : List ((ι → ℝ) × Y)) : Matrix ι ι ℝ :=
  (hist.map fun e => vecMulVec e.1 e.1).sum

/-- Sum of `y cᵀ`. -/
def bMat {X : Type} (hist : List ((ι → ℝ) × X × (o → ℝ))) : Matrix o ι ℝ :=
  (hist.map fun e => vecMulVec e.2.2 e.1).sum

omit [DecidableEq ι] in
theorem gMat_quad {Y : Type} (hist : List ((ι → ℝ) × Y)) (v : ι → ℝ) :
    0 ≤ v ⬝ᵥ (gMat hist *ᵥ v) := by
  induction hist with
  | nil => simp [gMat]
  | cons e t ih =>
    have : gMat (e :: t) = vecMulVec e.1 e.1 + gMat t := by simp [gMat]
    rw [this, add_mulVec, dotProduct_add, vecMulVec_mulVec, dotProduct_smul]
    have h : MulOpposite.op (e.1 ⬝ᵥ v) • (v ⬝ᵥ e.1) = (e.1 ⬝ᵥ v) ^ 2 := by
      rw [dotProduct_comm v e.1, sq]; rfl
    rw [h]
    positivity

theorem den_pos {Y : Type} (hist : List ((ι → ℝ) × Y)) (P : Matrix ι ι ℝ) (hP : P * gMat hist = 1)
    (p : ι → ℝ) : 0 < 1 + p ⬝ᵥ (P *ᵥ p) := by
  have h1 : gMat hist * P = 1 := mul_eq_one_comm.mp hP
  have h2 : gMat hist *ᵥ (P *ᵥ p) = p := by rw [mulVec_mulVec, h1, one_mulVec]
  have h3 := gMat_quad hist (P *ᵥ p)
  rw [h2, dotProduct_comm] at h3
  linarith

/-- Sherman–Morrison. -/
theorem keep_P (P G : Matrix ι ι ℝ) (p h : ι → ℝ) (hP : P * G = 1)
    (hden : 1 + p ⬝ᵥ (P *ᵥ p) ≠ 0)
    (hh : h = fun a => (p ᵥ* P) a / (1 + p ⬝ᵥ (P *ᵥ p))) :
    (P * (1 - vecMulVec p h)) * (G + vecMulVec p p) = 1
      ∧ p ᵥ* (P * (1 - vecMulVec p h)) = h := by
  have hs : h = (1 + p ⬝ᵥ (P *ᵥ p))⁻¹ • (p ᵥ* P) := by
    rw [hh]; funext a; simp [div_eq_inv_mul]
  have hhG : h ᵥ* (G + vecMulVec p p) = p := by
    rw [vecMul_add, vecMul_vecMulVec, hs, smul_vecMul, vecMul_vecMul, hP, vecMul_one,
      smul_dotProduct, ← dotProduct_mulVec, smul_eq_mul]
    rw [← add_smul]
    have : (1 + p ⬝ᵥ (P *ᵥ p))⁻¹ + (1 + p ⬝ᵥ (P *ᵥ p))⁻¹ * (p ⬝ᵥ (P *ᵥ p)) = 1 := by
      field_simp
    rw [this, one_smul]
  constructor
  · rw [Matrix.mul_assoc, Matrix.sub_mul, Matrix.one_mul, vecMulVec_mul, hhG, add_sub_cancel_right,
      hP]
  · rw [Matrix.mul_sub, Matrix.mul_one, vecMul_sub, mul_vecMulVec, vecMul_vecMulVec]
    funext a
    rw [hh]
    simp only [Pi.sub_apply, Pi.smul_apply, smul_eq_mul]
    field_simp
    ring

omit [Fintype o] in
theorem keep_W (P G K : Matrix ι ι ℝ) (W W' B : Matrix o ι ℝ) (p h kt : ι → ℝ) (y : o → ℝ)
    (hP : P * G = 1) (hden : 1 + p ⬝ᵥ (P *ᵥ p) ≠ 0)
    (hh : h = fun a => (p ᵥ* P) a / (1 + p ⬝ᵥ (P *ᵥ p)))
    (hW : W * K = B * P) (hp : K *ᵥ p = kt)
    (hW' : W' * K = W * K + vecMulVec (y - W *ᵥ kt) h) :
    W' * K = (B + vecMulVec y p) * (P * (1 - vecMulVec p h)) := by
  have hk := (keep_P P G p h hP hden hh).2
  rw [Matrix.add_mul, vecMulVec_mul, hk, ← Matrix.mul_assoc, ← hW, Matrix.mul_sub, Matrix.mul_one,
    mul_vecMulVec, ← mulVec_mulVec, hp, hW', sub_vecMulVec]
  abel

omit [DecidableEq ι] [Fintype o] in
theorem push_W (K : Matrix ι ι ℝ) (W : Matrix o ι ℝ) (p kt : ι → ℝ) (kxx d : ℝ) (y wu : o → ℝ)
    (hK : Kᵀ = K) (hp : K *ᵥ p = kt) (hd : d = kxx - kt ⬝ᵥ p) (hd0 : d ≠ 0)
    (hwu : wu = fun r => (y - W *ᵥ kt) r / d) :
    (Matrix.fromCols (W - vecMulVec wu p) (Matrix.of fun r (_ : Unit) => wu r))
      * Matrix.fromBlocks K (Matrix.of fun a _ => kt a) (Matrix.of fun _ a => kt a)
          (Matrix.of fun _ _ => kxx)
    = Matrix.fromCols (W * K) (Matrix.of fun r (_ : Unit) => y r) := by
  have hpK : p ᵥ* K = kt := by rw [← hK, vecMul_transpose, hp]
  rw [fromCols_mul_fromBlocks]
  congr 1
  · rw [Matrix.sub_mul, vecMulVec_mul, hpK]
    have : (Matrix.of fun r (_ : Unit) => wu r) * (Matrix.of fun (_ : Unit) a => kt a)
        = vecMulVec wu kt := by
      ext r a; simp [Matrix.mul_apply, vecMulVec_apply]
    rw [this]
    abel
  · ext r u
    simp only [Matrix.add_apply, Matrix.mul_apply, Matrix.sub_apply, Matrix.of_apply,
      vecMulVec_apply, Finset.univ_unique, Finset.sum_const, Finset.card_singleton, one_smul,
      sub_mul, Finset.sum_sub_distrib]
    have e1 : ∑ x, wu r * p x * kt x = wu r * (kt ⬝ᵥ p) := by
      rw [dotProduct, Finset.mul_sum]
      exact Finset.sum_congr rfl fun x _ => by ring
    have e2 : ∑ x, W r x * kt x = (W *ᵥ kt) r := rfl
    have e3 : wu r * d = y r - (W *ᵥ kt) r := by
      rw [hwu]; simp only [Pi.sub_apply]; field_simp
    rw [e1, e2]
    rw [hd] at e3
    linarith

/-- Extension of the history. -/
def extHist {Y : Type} (hist : List ((ι → ℝ) × Y)) : List ((ι ⊕ Unit → ℝ) × Y) :=
  hist.map fun e => (Sum.elim e.1 fun _ => 0, e.2)

omit [Fintype ι] [DecidableEq ι] in
theorem gMat_ext {Y : Type} (hist : List ((ι → ℝ) × Y)) (y : Y) :
    gMat (extHist hist ++ [((Sum.elim (fun _ => 0) fun _ => 1 : ι ⊕ Unit → ℝ), y)])
      = Matrix.fromBlocks (gMat hist) 0 0 (1 : Matrix Unit Unit ℝ) := by
  induction hist with
  | nil =>
    ext a b
    rcases a with a | a <;> rcases b with b | b <;> simp [gMat, extHist, vecMulVec_apply]
  | cons e t ih =>
    have h1 : gMat (e :: t) = vecMulVec e.1 e.1 + gMat t := by simp [gMat]
    have h2 : gMat (extHist (e :: t) ++ [((Sum.elim (fun _ => 0) fun _ => 1 : ι ⊕ Unit → ℝ), y)])
        = vecMulVec (Sum.elim e.1 fun _ => 0) (Sum.elim e.1 fun _ => 0)
          + gMat (extHist t ++ [((Sum.elim (fun _ => 0) fun _ => 1 : ι ⊕ Unit → ℝ), y)]) := by
      simp [gMat, extHist]
    rw [h2, ih, h1]
    ext a b
    rcases a with a | a <;> rcases b with b | b <;> simp [vecMulVec_apply]

omit [Fintype ι] [DecidableEq ι] [Fintype o] in
theorem bMat_ext {X : Type} (hist : List ((ι → ℝ) × X × (o → ℝ))) (x : X) (y : o → ℝ) :
    bMat (extHist hist ++ [((Sum.elim (fun _ => 0) fun _ => 1 : ι ⊕ Unit → ℝ), x, y)])
      = Matrix.fromCols (bMat hist) (Matrix.of fun r (_ : Unit) => y r) := by
  induction hist with
  | nil =>
    ext a b
    rcases b with b | b <;> simp [bMat, extHist, vecMulVec_apply]
  | cons e t ih =>
    have h1 : bMat (e :: t) = vecMulVec e.2.2 e.1 + bMat t := by simp [bMat]
    have h2 : bMat (extHist (e :: t)
          ++ [((Sum.elim (fun _ => 0) fun _ => 1 : ι ⊕ Unit → ℝ), x, y)])
        = vecMulVec e.2.2 (Sum.elim e.1 fun _ => 0)
          + bMat (extHist t ++ [((Sum.elim (fun _ => 0) fun _ => 1 : ι ⊕ Unit → ℝ), x, y)]) := by
      simp [bMat, extHist]
    rw [h2, ih, h1]
    ext a b
    rcases b with b | b <;> simp [vecMulVec_apply]

/-- The least-squares objective. -/
def rss {X : Type} (K : Matrix ι ι ℝ) (hist : List ((ι → ℝ) × X × (o → ℝ))) (W : Matrix o ι ℝ) :
    ℝ := (hist.map fun e => rnormSq (e.2.2 - W *ᵥ (K *ᵥ e.1))).sum

omit [DecidableEq ι] in
theorem rss_cross {X : Type} (K : Matrix ι ι ℝ) (hist : List ((ι → ℝ) × X × (o → ℝ)))
    (W D : Matrix o ι ℝ) :
    rss K hist (W + D) = rss K hist W
      + (hist.map fun e => rnormSq ((D * K) *ᵥ e.1)).sum
      - 2 * ((bMat hist - (W * K) * gMat hist)ᵀ * (D * K)).trace := by
  induction hist with
  | nil => simp [rss, bMat, gMat]
  | cons e t ih =>
    have h1 : rss K (e :: t) (W + D) = rnormSq (e.2.2 - (W + D) *ᵥ (K *ᵥ e.1)) + rss K t (W + D) := by
      simp [rss]
    have h2 : rss K (e :: t) W = rnormSq (e.2.2 - W *ᵥ (K *ᵥ e.1)) + rss K t W := by simp [rss]
    have h3 : bMat (e :: t) = vecMulVec e.2.2 e.1 + bMat t := by simp [bMat]
    have h4 : gMat (e :: t) = vecMulVec e.1 e.1 + gMat t := by simp [gMat]
    have h5 : (bMat (e :: t) - (W * K) * gMat (e :: t))ᵀ * (D * K)
        = vecMulVec e.1 (e.2.2 - W *ᵥ (K *ᵥ e.1)) * (D * K)
          + (bMat t - (W * K) * gMat t)ᵀ * (D * K) := by
      rw [← Matrix.add_mul]
      congr 1
      rw [h3, h4, Matrix.mul_add, mul_vecMulVec, ← mulVec_mulVec]
      rw [show vecMulVec e.1 (e.2.2 - W *ᵥ (K *ᵥ e.1)) = (vecMulVec (e.2.2 - W *ᵥ (K *ᵥ e.1)) e.1)ᵀ
        from (transpose_vecMulVec _ _).symm, ← transpose_add, sub_vecMulVec]
      congr 1
      abel
    have h6 : (vecMulVec e.1 (e.2.2 - W *ᵥ (K *ᵥ e.1)) * (D * K)).trace
        = (e.2.2 - W *ᵥ (K *ᵥ e.1)) ⬝ᵥ ((D * K) *ᵥ e.1) := by
      rw [vecMulVec_mul, trace_vecMulVec, dotProduct_mulVec, dotProduct_comm]
    have h7 : e.2.2 - (W + D) *ᵥ (K *ᵥ e.1)
        = (e.2.2 - W *ᵥ (K *ᵥ e.1)) + (-((D * K) *ᵥ e.1)) := by
      rw [add_mulVec, ← mulVec_mulVec]; abel
    have h8 : rnormSq (-((D * K) *ᵥ e.1)) = rnormSq ((D * K) *ᵥ e.1) := by simp [rnormSq]
    rw [h1, ih, h2, h5, trace_add, h6, h7, rnormSq_add, h8, dotProduct_neg, List.map_cons,
      List.sum_cons]
    ring

theorem rss_le {X : Type} (K P : Matrix ι ι ℝ) (hist : List ((ι → ℝ) × X × (o → ℝ)))
    (W W' : Matrix o ι ℝ) (hP : P * gMat hist = 1) (hW : W * K = bMat hist * P) :
    rss K hist W ≤ rss K hist W' := by
  have h := rss_cross K hist W (W' - W)
  rw [add_sub_cancel, hW, Matrix.mul_assoc, hP, Matrix.mul_one, sub_self, transpose_zero,
    Matrix.zero_mul, trace_zero, mul_zero, sub_zero] at h
  rw [h]
  have : 0 ≤ (hist.map fun e => rnormSq (((W' - W) * K) *ᵥ e.1)).sum := by
    apply List.sum_nonneg
    intro v hv
    obtain ⟨e, _, rfl⟩ := List.mem_map.mp hv
    exact rnormSq_nonneg _
  linarith

end Alg

section Run

variable {X H o : Type} [NormedAddCommGroup H] [InnerProductSpace ℝ H] {φ : X → H}
  {sv : Solver} {tol : ℝ}

/-- The dictionary evolves as without online learning. -/
theorem oLearn_d (k : X → X → ℝ) (p0 : X × (o → ℝ)) (ps : List (X × (o → ℝ))) :
    (oLearn k sv tol p0 ps).d = learn k sv tol p0.1 (ps.map Prod.fst) := by
  induction ps using List.reverseRecOn with
  | nil => rfl
  | append_singleton ps p ih =>
    rw [oLearn, List.foldl_append, List.map_append, learn, List.foldl_append]
    show (oStep k sv tol (oLearn k sv tol p0 ps) p).d
      = step k sv tol (learn k sv tol p0.1 (ps.map Prod.fst)) p.1
    rw [← ih, oStep, step]
    split <;> rfl

/-- The invariant of recursive least squares. -/
structure OInv (φ : X → H) (tol : ℝ) (st : Online X o)
    (hist : List ((st.d.ι → ℝ) × X × (o → ℝ))) : Prop where
  fac : Fac φ st.d
  ind : ∀ v, comb φ st.d v = 0 → v = 0
  inv : st.P * gMat hist = 1
  wts : st.W * gram φ st.d = bMat hist * st.P
  near : ∀ e ∈ hist, ‖φ e.2.1 - comb φ st.d e.1‖ ^ 2 ≤ tol

theorem oinv_init (htol : 0 ≤ tol) (x0 : X) (y0 : o → ℝ) (h0 : φ x0 ≠ 0) :
    OInv φ tol (oInit (kOf φ) x0 y0) [((fun _ => 1 : Unit → ℝ), x0, y0)] := by
  have hk : kOf φ x0 x0 ≠ 0 := by
    intro h; exact h0 (inner_self_eq_zero.mp h)
  have hk0 : 0 ≤ kOf φ x0 x0 := real_inner_self_nonneg
  refine ⟨fac_init x0, ?_, ?_, ?_, ?_⟩
  · exact fun v hv => indep_init x0 h0 v hv
  · have : (1 : Matrix Unit Unit ℝ) * gMat [((fun _ => 1 : Unit → ℝ), x0, y0)] = 1 := by
      ext a b; simp [gMat, vecMulVec_apply]
    exact this
  · have : (Matrix.of fun r (_ : Unit) => y0 r / Real.sqrt (kOf φ x0 x0) ^ 2)
        * (Matrix.of fun _ _ => kOf φ x0 x0 : Matrix Unit Unit ℝ)
        = bMat [((fun _ => 1 : Unit → ℝ), x0, y0)] * (1 : Matrix Unit Unit ℝ) := by
      ext r b
      rw [Real.sq_sqrt hk0]
      simp [bMat, vecMulVec_apply, Matrix.mul_apply, div_mul_cancel₀ _ hk]
    exact this
  · intro e he
    rw [List.mem_singleton] at he
    subst he
    have : (∑ a : Unit, (1 : ℝ) • φ ((fun _ : Unit => x0) a)) = φ x0 := by simp
    show ‖φ x0 - ∑ a : Unit, (1 : ℝ) • φ ((fun _ : Unit => x0) a)‖ ^ 2 ≤ tol
    rw [this, sub_self, norm_zero]
    simpa using htol

theorem oinv_push (hsv : SolverOk sv) (htol : 0 ≤ tol) {st : Online X o}
    {hist : List ((st.d.ι → ℝ) × X × (o → ℝ))} (hI : OInv φ tol st hist) (x : X) (y : o → ℝ)
    (hd : 0 < delta (kOf φ) sv st.d x) :
    OInv φ tol (oPush (kOf φ) sv st x y)
      (extHist hist ++ [((Sum.elim (fun _ => 0) fun _ => 1 : st.d.ι ⊕ Unit → ℝ), x, y)]) := by
  refine ⟨fac_push hsv hI.fac x, fun v hv => indep_push hsv hI.fac hI.ind x hd v hv, ?_, ?_, ?_⟩
  · have : (Matrix.fromBlocks st.P 0 0 (1 : Matrix Unit Unit ℝ))
        * gMat (extHist hist ++ [((Sum.elim (fun _ => 0) fun _ => 1 : st.d.ι ⊕ Unit → ℝ), x, y)])
        = 1 := by
      rw [gMat_ext, fromBlocks_multiply, hI.inv]
      simp
    exact this
  · have h1 := push_W (gram φ st.d) st.W (piVec (kOf φ) sv st.d x) (kTilde (kOf φ) st.d x)
      (kOf φ x x) (delta (kOf φ) sv st.d x) y _ (gram_symm st.d) (gram_pi hsv hI.fac x) rfl
      (ne_of_gt hd) rfl
    have h2 : bMat (extHist hist ++ [((Sum.elim (fun _ => 0) fun _ => 1 : st.d.ι ⊕ Unit → ℝ), x, y)])
        * (Matrix.fromBlocks st.P 0 0 (1 : Matrix Unit Unit ℝ))
        = Matrix.fromCols (bMat hist * st.P) (Matrix.of fun r (_ : Unit) => y r) := by
      rw [bMat_ext, fromCols_mul_fromBlocks]
      simp
    have h3 := gram_push (φ := φ) (sv := sv) (kOf φ) st.d x
    rw [← hI.wts] at h2
    refine Eq.trans ?_ h2.symm
    refine Eq.trans ?_ h1
    exact congrArg (fun K => (oPush (kOf φ) sv st x y).W * K) h3
  · intro e he
    rcases List.mem_append.mp he with he | he
    · obtain ⟨e', he', rfl⟩ := List.mem_map.mp he
      have := comb_push (φ := φ) (sv := sv) st.d x e'.1 0
      show ‖φ e'.2.1 - comb φ (push (kOf φ) sv st.d x) (Sum.elim e'.1 fun _ => 0)‖ ^ 2 ≤ tol
      rw [this, zero_smul, add_zero]
      exact hI.near e' he'
    · obtain rfl := List.mem_singleton.mp he
      have := comb_push (φ := φ) (sv := sv) st.d x (fun _ => 0) 1
      show ‖φ x - comb φ (push (kOf φ) sv st.d x) (Sum.elim (fun _ => 0) fun _ => 1)‖ ^ 2 ≤ tol
      rw [this]
      simpa [comb] using htol

theorem gram_surj {st : Dict X} (hi : ∀ v, comb φ st v = 0 → v = 0) (b : st.ι → ℝ) :
    ∃ z, gram φ st *ᵥ z = b := by
  have hinj : Function.Injective (gram φ st).mulVecLin := by
    rw [← LinearMap.ker_eq_bot, LinearMap.ker_eq_bot']
    intro v hv
    refine hi v ?_
    have : ⟪comb φ st v, comb φ st v⟫ = 0 := by
      rw [inner_comb_comb]
      have h : gram φ st *ᵥ v = 0 := hv
      rw [h, dotProduct_zero]
    exact inner_self_eq_zero.mp this
  exact (LinearMap.injective_iff_surjective.mp hinj) b

theorem oinv_keep (hsv : SolverOk sv) {st : Online X o}
    {hist : List ((st.d.ι → ℝ) × X × (o → ℝ))} (hI : OInv φ tol st hist) (x : X) (y : o → ℝ)
    (hd : delta (kOf φ) sv st.d x ≤ tol) :
    OInv φ tol (oKeep (kOf φ) sv st x y) (hist ++ [(piVec (kOf φ) sv st.d x, x, y)]) := by
  have hg : gMat (hist ++ [(piVec (kOf φ) sv st.d x, x, y)])
      = gMat hist + vecMulVec (piVec (kOf φ) sv st.d x) (piVec (kOf φ) sv st.d x) := by
    simp [gMat]
  have hb : bMat (hist ++ [(piVec (kOf φ) sv st.d x, x, y)])
      = bMat hist + vecMulVec y (piVec (kOf φ) sv st.d x) := by
    simp [bMat]
  have hden := ne_of_gt (den_pos hist st.P hI.inv (piVec (kOf φ) sv st.d x))
  refine ⟨hI.fac, hI.ind, ?_, ?_, ?_⟩
  · show st.P * (1 - vecMulVec (piVec (kOf φ) sv st.d x) (hVec (kOf φ) sv st x)) * gMat
      (hist ++ [(piVec (kOf φ) sv st.d x, x, y)]) = 1
    rw [hg]
    exact (keep_P st.P (gMat hist) (piVec (kOf φ) sv st.d x) _ hI.inv hden rfl).1
  · have hmain : ((st.W + Matrix.of fun r => sv st.d.ι (st.d.chol * st.d.cholᵀ)ᵀ
          fun a => innov (kOf φ) st x y r * hVec (kOf φ) sv st x a : Matrix o st.d.ι ℝ))
        * gram φ st.d
      = bMat (hist ++ [(piVec (kOf φ) sv st.d x, x, y)])
        * (st.P * (1 - vecMulVec (piVec (kOf φ) sv st.d x) (hVec (kOf φ) sv st x))) := by
      rw [hb]
      refine keep_W st.P (gMat hist) (gram φ st.d) st.W _ (bMat hist) (piVec (kOf φ) sv st.d x)
        _ (kTilde (kOf φ) st.d x) y hI.inv hden rfl hI.wts (gram_pi hsv hI.fac x) ?_
      rw [Matrix.add_mul]
      congr 1
      ext r a
      have hK : (st.d.chol * st.d.cholᵀ)ᵀ = gram φ st.d := by
        have := hI.fac
        unfold Fac at this
        rw [this, gram_symm]
      rw [hK]
      obtain ⟨z, hz⟩ := gram_surj hI.ind
        (fun a => innov (kOf φ) st x y r * hVec (kOf φ) sv st x a)
      have hs := (hsv st.d.ι (gram φ st.d)
        fun a => innov (kOf φ) st x y r * hVec (kOf φ) sv st x a).solves z hz
      have := congrFun hs a
      rw [vecMulVec_apply]
      refine Eq.trans ?_ this
      rw [Matrix.mul_apply, mulVec, dotProduct]
      refine Finset.sum_congr rfl fun c _ => ?_
      rw [Matrix.of_apply, mul_comm]
      congr 1
      exact congrFun (congrFun (gram_symm (φ := φ) st.d) a) c
    exact hmain
  · intro e he
    rcases List.mem_append.mp he with he | he
    · exact hI.near e he
    · obtain rfl := List.mem_singleton.mp he
      show ‖φ x - comb φ st.d (piVec (kOf φ) sv st.d x)‖ ^ 2 ≤ tol
      rw [← delta_eq hsv hI.fac]
      exact hd

theorem oinv_learn (hsv : SolverOk sv) (htol : 0 ≤ tol) (p0 : X × (o → ℝ)) (h0 : φ p0.1 ≠ 0)
    (ps : List (X × (o → ℝ))) :
    ∃ hist, OInv φ tol (oLearn (kOf φ) sv tol p0 ps) hist ∧ hist.map Prod.snd = p0 :: ps := by
  induction ps using List.reverseRecOn with
  | nil => exact ⟨_, oinv_init htol p0.1 p0.2 h0, rfl⟩
  | append_singleton ps p ih =>
    obtain ⟨hist, hI, hm⟩ := ih
    have hl : oLearn (kOf φ) sv tol p0 (ps ++ [p])
        = oStep (kOf φ) sv tol (oLearn (kOf φ) sv tol p0 ps) p := by
      rw [oLearn, List.foldl_append]; rfl
    rw [hl]
    unfold oStep
    have hn := delta_nonneg hsv hI.fac p.1
    by_cases hd : tol < |delta (kOf φ) sv (oLearn (kOf φ) sv tol p0 ps).d p.1|
    · rw [if_pos hd]
      rw [abs_of_nonneg hn] at hd
      refine ⟨_, oinv_push hsv htol hI p.1 p.2 (by linarith), ?_⟩
      have : (extHist hist).map Prod.snd = p0 :: ps := by
        rw [← hm, extHist, List.map_map]; rfl
      have h : (extHist hist ++ [((Sum.elim (fun _ => 0) fun _ => 1 :
          (oLearn (kOf φ) sv tol p0 ps).d.ι ⊕ Unit → ℝ), p.1, p.2)]).map Prod.snd
          = p0 :: (ps ++ [p]) := by
        rw [List.map_append, this]; rfl
      exact h
    · rw [if_neg hd]
      rw [abs_of_nonneg hn, not_lt] at hd
      refine ⟨_, oinv_keep hsv hI p.1 p.2 hd, ?_⟩
      have h : (hist ++ [(piVec (kOf φ) sv (oLearn (kOf φ) sv tol p0 ps).d p.1, p.1, p.2)]).map
          Prod.snd = p0 :: (ps ++ [p]) := by
        rw [List.map_append, hm]; rfl
      exact h

end Run

end Verif.Lando
