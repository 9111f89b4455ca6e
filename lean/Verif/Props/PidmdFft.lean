import Verif.Lemmas.Fourier
import Verif.Lemmas.Lstsq
import Verif.Props.PidmdBand
import Mathlib.LinearAlgebra.Matrix.Rank
import Mathlib.LinearAlgebra.Matrix.Diagonal

/-!
# C71 and C70 (first part): circulant manifolds of PiDMD, block circulant with circulant blocks
-/

set_option autoImplicit false

namespace Verif.Pidmd

open Matrix LinAlg

variable {G m : Type} [AddCommGroup G] [Fintype G] [DecidableEq G] [Fintype m]

/-! ### Helpers on one frequency -/

theorem row_err (u v : m → ℂ) (s l : ℂ) (hs : (normSq u : ℂ) * s = ∑ t, star (u t) * v t) :
    normSq (v - l • u) = normSq v + normSq u * (Complex.normSq (l - s) - Complex.normSq s) := by
  have h1 : normSq (v - l • u) = normSq v + Complex.normSq l * normSq u
      - 2 * (star l * ∑ t, star (u t) * v t).re := by
    simp only [normSq, Finset.mul_sum, Complex.re_sum]
    rw [← Finset.sum_add_distrib, ← Finset.sum_sub_distrib]
    refine Finset.sum_congr rfl fun t _ => ?_
    simp only [Pi.sub_apply, Pi.smul_apply, smul_eq_mul, Complex.normSq_apply, Complex.sub_re,
      Complex.sub_im, Complex.mul_re, Complex.mul_im, Complex.star_def, Complex.conj_re,
      Complex.conj_im]
    ring
  rw [h1, ← hs]
  simp only [Complex.normSq_apply, Complex.sub_re, Complex.sub_im, Complex.mul_re, Complex.mul_im,
    Complex.star_def, Complex.conj_re, Complex.conj_im, Complex.ofReal_re, Complex.ofReal_im]
  ring

/-- What an option demands of the eigenvalues. -/
def Good : CircOpt → ℂ → Prop
  | .plain, _ => True
  | .unitary, z => Complex.normSq z = 1
  | .symmetric, z => z.im = 0
  | .skewsymmetric, z => z.re = 0

theorem phase_mul (z : ℂ) : phase z * (‖z‖ : ℂ) = z := by
  rw [phase, mul_comm Complex.I, mul_comm]
  exact Complex.norm_mul_exp_arg_mul_I z

theorem norm_phase (z : ℂ) : ‖phase z‖ = 1 := by
  rw [phase, mul_comm]
  exact Complex.norm_exp_ofReal_mul_I _

theorem adjust_good (o : CircOpt) (z : ℂ) : Good o (adjust o z) := by
  cases o
  · trivial
  · show Complex.normSq (phase z) = 1
    rw [Complex.normSq_eq_norm_sq, norm_phase, one_pow]
  · simp [Good, adjust]
  · simp [Good, adjust]

theorem adjust_best (o : CircOpt) (s l : ℂ) (hl : Good o l) :
    Complex.normSq (adjust o s - s) ≤ Complex.normSq (l - s) := by
  cases o
  · simp [adjust, Complex.normSq_nonneg]
  · have hl' : ‖l‖ = 1 := by
      have h : Complex.normSq l = 1 := hl
      rw [Complex.normSq_eq_norm_sq] at h
      nlinarith [norm_nonneg l]
    have e : phase s - s = phase s * ((1 - ‖s‖ : ℝ) : ℂ) := by
      nth_rewrite 2 [← phase_mul s]
      push_cast
      ring
    show Complex.normSq (phase s - s) ≤ _
    rw [e, Complex.normSq_eq_norm_sq, Complex.normSq_eq_norm_sq, norm_mul, norm_phase, one_mul,
      Complex.norm_real, Real.norm_eq_abs]
    have := abs_norm_sub_norm_le l s
    rw [hl'] at this
    exact pow_le_pow_left₀ (abs_nonneg _) this 2
  · have h : l.im = 0 := hl
    simp only [adjust, Complex.normSq_apply, Complex.sub_re, Complex.sub_im, Complex.ofReal_re,
      Complex.ofReal_im, h]
    nlinarith [sq_nonneg (l.re - s.re)]
  · have h : l.re = 0 := hl
    simp only [adjust, Complex.normSq_apply, Complex.sub_re, Complex.sub_im, Complex.mul_re,
      Complex.mul_im, Complex.I_re, Complex.I_im, Complex.ofReal_re, Complex.ofReal_im, h]
    nlinarith [sq_nonneg (l.im - s.im)]

theorem adjust_star (o : CircOpt) (z : ℂ) : star (adjust o z) = adjust o (star z) := by
  cases o
  · rfl
  · show star (phase z) = phase (star z)
    rw [phase, phase, Complex.star_def, ← Complex.exp_conj, map_mul, Complex.conj_I,
      Complex.conj_ofReal, Complex.arg_conj]
    split_ifs with h
    · rw [h, neg_mul, Complex.exp_neg, mul_comm, Complex.exp_pi_mul_I]
      norm_num
    · congr 1
      push_cast
      ring
  · simp [adjust]
  · simp [adjust]

/-- The manifold of an option: constant along the wrapped diagonals (for a group of pairs: block
circulant with circulant blocks), and unitary, Hermitian or skew-Hermitian if demanded. -/
def InManifold (o : CircOpt) (B : Matrix G G ℂ) : Prop :=
  IsCirc B ∧ match o with
    | .plain => True
    | .unitary => Bᴴ * B = 1
    | .symmetric => Bᴴ = B
    | .skewsymmetric => Bᴴ = -B

theorem inManifold_iff {F : Matrix G G ℂ} (hF : IsFourier F) (o : CircOpt) (lam : G → ℂ) :
    InManifold o (circA F lam) ↔ ∀ k, Good o (lam k) := by
  unfold InManifold
  rw [and_iff_right (hF.circA_circ lam)]
  cases o
  · simp [Good]
  · show (circA F lam)ᴴ * circA F lam = 1 ↔ _
    rw [hF.circA_star, hF.circA_mul, ← hF.circA_one]
    constructor
    · intro h k
      have := congrFun (hF.circA_inj h) k
      rw [Complex.star_def, ← Complex.normSq_eq_conj_mul_self] at this
      exact_mod_cast this
    · intro h
      congr 1
      funext k
      have := h k
      rw [Complex.star_def, ← Complex.normSq_eq_conj_mul_self]
      exact_mod_cast this
  · show (circA F lam)ᴴ = circA F lam ↔ _
    rw [hF.circA_star]
    constructor
    · intro h k
      exact Complex.conj_eq_iff_im.mp (congrFun (hF.circA_inj h) k)
    · intro h
      congr 1
      funext k
      exact Complex.conj_eq_iff_im.mpr (h k)
  · show (circA F lam)ᴴ = -circA F lam ↔ _
    have hn : -circA F lam = circA F fun k => -lam k := by
      rw [hF.circA_eq, hF.circA_eq]
      have : (diagonal fun k => -lam k) = -diagonal lam := (diagonal_neg lam).symm
      rw [this, Matrix.mul_neg, Matrix.neg_mul]
    rw [hF.circA_star, hn]
    constructor
    · intro h k
      have := congrArg Complex.re (congrFun (hF.circA_inj h) k)
      simp only [Complex.star_def, Complex.conj_re, Complex.neg_re] at this
      show (lam k).re = 0
      linarith
    · intro h
      congr 1
      funext k
      have : (lam k).re = 0 := h k
      apply Complex.ext <;> simp [this]

/-- Optimal eigenvalues give an optimal operator. -/
theorem fourier_opt {F : Matrix G G ℂ} (hF : IsFourier F) (o : CircOpt) (X Y : Matrix G m ℂ)
    (E : Finset G) (s lam : G → ℂ)
    (hs : ∀ k, k ∉ E → (normSq ((Fᴴ * X) k) : ℂ) * s k =
      ∑ t, star ((Fᴴ * X) k t) * (Fᴴ * Y) k t)
    (hl : ∀ k, lam k = if k ∈ E then 0 else adjust o (s k)) :
    ((o = .unitary → E = ∅) → InManifold o (circA F lam)) ∧
    ∀ B, InManifold o B → (∀ k ∈ E, B *ᵥ (fun i => F i k) = 0) →
      frobSq (Y - circA F lam * X) ≤ frobSq (Y - B * X) := by
  constructor
  · intro hE
    rw [inManifold_iff hF]
    intro k
    rw [hl]
    by_cases hk : k ∈ E
    · rw [if_pos hk]
      cases o
      · trivial
      · rw [hE rfl] at hk; simp at hk
      · simp [Good]
      · simp [Good]
    · rw [if_neg hk]
      exact adjust_good o _
  · intro B hB hBE
    have hBe := hF.eq_circA hB.1
    rw [hBe] at hB hBE ⊢
    set mu := IsFourier.eigsOf F B
    have hmu := (inManifold_iff hF o mu).mp hB
    have hz : ∀ k ∈ E, mu k = 0 := by
      intro k hk
      have h1 := hBE k hk
      have h2 : circA F mu *ᵥ (fun i => F i k) = fun i => F i k * mu k := by
        funext i
        have h3 : circA F mu * F = F * diagonal mu := by
          rw [hF.circA_eq, Matrix.mul_assoc, hF.inv_mul, Matrix.mul_one]
        have h4 := congrFun (congrFun h3 i) k
        rw [mul_diagonal] at h4
        rw [← h4]
        rfl
      rw [h2] at h1
      have h5 := congrFun h1 0
      have h6 : F 0 k = 1 := by rw [hF.symm, hF.map_zero]
      simpa [h6] using h5
    have hc : (0 : ℝ) < Fintype.card G := by exact_mod_cast Fintype.card_pos
    refine le_of_mul_le_mul_left ?_ hc
    rw [hF.error_eq, hF.error_eq]
    refine Finset.sum_le_sum fun k _ => ?_
    by_cases hk : k ∈ E
    · rw [hl, if_pos hk, hz k hk]
    · rw [hl, if_neg hk, row_err _ _ _ _ (hs k hk), row_err _ _ _ _ (hs k hk)]
      have h1 := adjust_best o (s k) (mu k) (hmu k)
      have h2 : 0 ≤ normSq ((Fᴴ * X) k) := Finset.sum_nonneg fun _ _ => Complex.normSq_nonneg _
      have h3 := mul_le_mul_of_nonneg_left h1 h2
      linarith

theorem fourier_conj {F : Matrix G G ℂ} (hF : IsFourier F) (X : Matrix G m ℂ) (k : G) (t : m) :
    (F * cj X) k t = star ((Fᴴ * X) k t) := by
  rw [Matrix.mul_apply, Matrix.mul_apply, star_sum]
  refine Finset.sum_congr rfl fun j _ => ?_
  rw [star_mul', conjTranspose_apply, star_star, hF.symm k j]
  rfl

theorem cj_real {a b : Type} (X : Matrix a b ℂ) (hX : ∀ i j, (X i j).im = 0) : cj X = X := by
  ext i j
  exact Complex.conj_eq_iff_im.mpr (hX i j)

theorem normSq_star (v : m → ℂ) : normSq (fun t => star (v t)) = normSq v := by
  simp [normSq, Complex.star_def, Complex.normSq_conj]

/-- For real data the code's quotient is the least-squares solution. -/
theorem circ_sigma {F : Matrix G G ℂ} (hF : IsFourier F) (X Y : Matrix G m ℂ)
    (hX : ∀ i t, (X i t).im = 0) (k : G) :
    circDen F X k = normSq ((Fᴴ * X) k) ∧
    circNum F X Y k = ∑ t, star ((Fᴴ * X) k t) * (Fᴴ * Y) k t := by
  have h1 : ∀ t, (F * X) k t = star ((Fᴴ * X) k t) := by
    intro t
    rw [← fourier_conj hF, cj_real X hX]
  constructor
  · rw [circDen, ← normSq_star ((Fᴴ * X) k)]
    congr 1
    funext t
    exact h1 t
  · rw [circNum, Matrix.mul_apply]
    refine Finset.sum_congr rfl fun t _ => ?_
    rw [h1, conjTranspose_apply, fourier_conj hF, star_star]

theorem computeCirculant_some {F : Matrix G G ℂ} {X Y : Matrix G m ℂ} {o : CircOpt} {E : Finset G}
    {A : Matrix G G ℂ} (h : computeCirculant F X Y o E = some A) :
    (∀ k, k ∉ E → circDen F X k ≠ 0) ∧
    A = circA F fun k => if k ∈ E then 0 else adjust o (circNum F X Y k / circDen F X k) := by
  unfold computeCirculant at h
  split_ifs at h with hs
  have hne : ∀ k, k ∉ E → circDen F X k ≠ 0 := by
    intro k hk h0
    have := hs k
    simp [circEigs, hk, circEig, h0] at this
  refine ⟨hne, ?_⟩
  rw [Option.some.injEq] at h
  rw [← h]
  congr 1
  funext k
  by_cases hk : k ∈ E
  · simp [circEigs, hk]
  · simp [circEigs, hk, circEig, hne k hk]

/-- **C71** (circulant; partial: real snapshots `X`). When the computation succeeds, the operator is
in the requested manifold (for the unitary option: if nothing was truncated), and it is the closest
fit among all matrices of the manifold that vanish on the truncated frequencies `E`; with `E = ∅`
these are all matrices of the manifold. -/
theorem C71_circulant_partial (N : ℕ) [NeZero N] (X Y : Matrix (ZMod N) m ℂ)
    (hX : ∀ i t, (X i t).im = 0) (o : CircOpt) (E : Finset (ZMod N))
    (A : Matrix (ZMod N) (ZMod N) ℂ) (h : computeCirculant (dft N) X Y o E = some A) :
    ((o = .unitary → E = ∅) → InManifold o A) ∧
    ∀ B, InManifold o B → (∀ k ∈ E, B *ᵥ (fun i => dft N i k) = 0) →
      frobSq (Y - A * X) ≤ frobSq (Y - B * X) := by
  obtain ⟨hne, rfl⟩ := computeCirculant_some h
  refine fourier_opt (dft_isFourier N) o X Y E
    (fun k => circNum (dft N) X Y k / circDen (dft N) X k) _ (fun k hk => ?_) fun k => rfl
  obtain ⟨h1, h2⟩ := circ_sigma (dft_isFourier N) X Y hX k
  rw [← h1, ← h2, mul_div_cancel₀]
  exact_mod_cast hne k hk

/-- **C71** (eigenvalues and modes of the circulant manifold without `compute_A`). The pairs
returned, the eigenvalues not in `E` and the corresponding columns of `fft(np.eye(nx))`
(pidmd_utils.py L212-214), are eigenpairs of the operator that `compute_A` would return. -/
theorem C71_circulant_modes (N : ℕ) [NeZero N] (X Y : Matrix (ZMod N) m ℂ) (o : CircOpt)
    (E : Finset (ZMod N)) (A : Matrix (ZMod N) (ZMod N) ℂ)
    (h : computeCirculant (dft N) X Y o E = some A) (k : ZMod N) (hk : k ∉ E) :
    ∃ l, circEigs (dft N) X Y o E k = some l ∧
      A *ᵥ (fun i => dft N i k) = l • (fun i => dft N i k) ∧ (fun i => dft N i k) ≠ 0 := by
  have hF := dft_isFourier N
  obtain ⟨hne, rfl⟩ := computeCirculant_some h
  refine ⟨adjust o (circNum (dft N) X Y k / circDen (dft N) X k), ?_, ?_, ?_⟩
  · simp [circEigs, hk, circEig, hne k hk]
  · funext i
    set lam : ZMod N → ℂ := fun k =>
      if k ∈ E then 0 else adjust o (circNum (dft N) X Y k / circDen (dft N) X k)
    have h3 : circA (dft N) lam * dft N = dft N * diagonal lam := by
      rw [hF.circA_eq, Matrix.mul_assoc, hF.inv_mul, Matrix.mul_one]
    have h4 := congrFun (congrFun h3 i) k
    rw [mul_diagonal] at h4
    have h5 : (circA (dft N) lam *ᵥ fun i => dft N i k) i = (circA (dft N) lam * dft N) i k := rfl
    rw [h5, h4, Pi.smul_apply, smul_eq_mul, mul_comm]
    simp [lam, hk]
  · intro h0
    have := congrFun h0 0
    rw [hF.symm, hF.map_zero] at this
    exact one_ne_zero this

/-! ### truncation -/

theorem sum_top {S T : Finset G} (g : G → ℝ) (hg : ∀ k, 0 ≤ g k) (hc : S.card ≤ T.card)
    (h : ∀ e, e ∉ T → ∀ k ∈ T, g e ≤ g k) : ∑ k ∈ S, g k ≤ ∑ k ∈ T, g k := by
  have h1 : ∑ k ∈ S, g k = ∑ k ∈ S ∩ T, g k + ∑ k ∈ S \ T, g k := by
    rw [Finset.sum_inter_add_sum_sdiff]
  have h2 : ∑ k ∈ T, g k = ∑ k ∈ S ∩ T, g k + ∑ k ∈ T \ S, g k := by
    rw [Finset.inter_comm, Finset.sum_inter_add_sum_sdiff]
  rw [h1, h2]
  refine add_le_add_right ?_ _
  have hcard : (S \ T).card ≤ (T \ S).card := by
    have e1 := Finset.card_sdiff_add_card_inter S T
    have e2 := Finset.card_sdiff_add_card_inter T S
    rw [Finset.inter_comm] at e2
    omega
  rcases (S \ T).eq_empty_or_nonempty with he | hne
  · rw [he, Finset.sum_empty]
    exact Finset.sum_nonneg fun k _ => hg k
  · obtain ⟨M, hM, hMax⟩ := Finset.exists_max_image (S \ T) g hne
    have hMT : M ∉ T := (Finset.mem_sdiff.mp hM).2
    calc ∑ k ∈ S \ T, g k ≤ (S \ T).card • g M := Finset.sum_le_card_nsmul _ _ _ hMax
      _ ≤ (T \ S).card • g M := nsmul_le_nsmul_left (hg M) hcard
      _ ≤ ∑ k ∈ T \ S, g k := Finset.card_nsmul_le_sum _ _ _ fun k hk =>
          h M hMT k (Finset.mem_sdiff.mp hk).1

open Classical in
theorem rank_circA {F : Matrix G G ℂ} (hF : IsFourier F) (lam : G → ℂ) :
    (circA F lam).rank = (Finset.univ.filter fun k => lam k ≠ 0).card := by
  have h1 : IsUnit F.det := (Matrix.isUnit_iff_isUnit_det F).mp
    ⟨⟨F, invF F, hF.mul_inv, hF.inv_mul⟩, rfl⟩
  have h2 : IsUnit (invF F).det := (Matrix.isUnit_iff_isUnit_det _).mp
    ⟨⟨invF F, F, hF.inv_mul, hF.mul_inv⟩, rfl⟩
  rw [hF.circA_eq, rank_mul_eq_left_of_isUnit_det _ _ h2, rank_mul_eq_right_of_isUnit_det _ _ h1,
    rank_diagonal, Fintype.card_subtype]

/-- **C71** (truncated circulant; partial: real snapshots, no further option). Zeroing the
frequencies chosen by `argpartition` gives the closest fit among all circulant matrices of rank at
most `r`. -/
theorem C71_circulant_rank_partial (N : ℕ) [NeZero N] (X Y : Matrix (ZMod N) m ℂ)
    (hX : ∀ i t, (X i t).im = 0) (r : ℕ) (E : Finset (ZMod N))
    (hE : IsExcluded (circRes (dft N) X Y) r E) (A : Matrix (ZMod N) (ZMod N) ℂ)
    (h : computeCirculant (dft N) X Y .plain E = some A) :
    IsCirc A ∧ A.rank ≤ r ∧ ∀ B, IsCirc B → B.rank ≤ r →
      frobSq (Y - A * X) ≤ frobSq (Y - B * X) := by
  classical
  have hF := dft_isFourier N
  obtain ⟨hne, rfl⟩ := computeCirculant_some h
  set s : ZMod N → ℂ := fun k => circNum (dft N) X Y k / circDen (dft N) X k with hs
  set lam : ZMod N → ℂ := fun k => if k ∈ E then 0 else adjust .plain (s k) with hlam
  have hEc : Eᶜ.card ≤ r ∧ ∀ S : Finset (ZMod N), S.card ≤ r → S.card ≤ Eᶜ.card := by
    have h1 := Finset.card_compl E
    have h2 := hE.1
    have h3 : E.card ≤ Fintype.card (ZMod N) := Finset.card_le_univ E
    refine ⟨by omega, fun S hS => ?_⟩
    have h4 : S.card ≤ Fintype.card (ZMod N) := Finset.card_le_univ S
    omega
  refine ⟨hF.circA_circ _, ?_, fun B hB hBr => ?_⟩
  · rw [rank_circA hF]
    refine le_trans (Finset.card_le_card fun k hk => ?_) hEc.1
    rw [Finset.mem_compl]
    intro hkE
    simp [hlam, hkE] at hk
  · have hBe := hF.eq_circA hB
    rw [hBe] at hBr ⊢
    set mu := IsFourier.eigsOf (dft N) B
    rw [rank_circA hF] at hBr
    set S := Finset.univ.filter fun k => mu k ≠ 0 with hS
    have hc : (0 : ℝ) < Fintype.card (ZMod N) := by exact_mod_cast Fintype.card_pos
    refine le_of_mul_le_mul_left ?_ hc
    rw [hF.error_eq, hF.error_eq]
    -- the gain of a frequency
    set g : ZMod N → ℝ := fun k =>
      normSq (((dft N)ᴴ * X) k) * Complex.normSq (s k) with hg
    have hg0 : ∀ k, 0 ≤ g k := fun k => mul_nonneg
      (Finset.sum_nonneg fun _ _ => Complex.normSq_nonneg _) (Complex.normSq_nonneg _)
    have hrow : ∀ (k : ZMod N) (l : ℂ), circDen (dft N) X k ≠ 0 →
        normSq (((dft N)ᴴ * Y) k - l • ((dft N)ᴴ * X) k) = normSq (((dft N)ᴴ * Y) k)
          + normSq (((dft N)ᴴ * X) k) * Complex.normSq (l - s k) - g k := by
      intro k l hk
      obtain ⟨h1, h2⟩ := circ_sigma hF X Y hX k
      rw [row_err _ _ (s k) l]
      · rw [hg]; ring
      · rw [← h1, ← h2, hs]
        simp only
        rw [mul_div_cancel₀]
        exact_mod_cast hk
    have hrow0 : ∀ (k : ZMod N) (l : ℂ), circDen (dft N) X k = 0 →
        normSq (((dft N)ᴴ * Y) k - l • ((dft N)ᴴ * X) k) = normSq (((dft N)ᴴ * Y) k) ∧ g k = 0 := by
      intro k l hk
      have h1 := (circ_sigma hF X Y hX k).1
      rw [hk] at h1
      refine ⟨?_, by rw [hg]; simp [← h1]⟩
      have hz : ((dft N)ᴴ * X) k = 0 := by
        funext t
        have := (Finset.sum_eq_zero_iff_of_nonneg
          (fun t _ => Complex.normSq_nonneg (((dft N)ᴴ * X) k t))).mp h1.symm t (Finset.mem_univ t)
        exact Complex.normSq_eq_zero.mp this
      rw [hz, smul_zero, sub_zero]
    have hA : ∀ k, normSq (((dft N)ᴴ * Y) k - lam k • ((dft N)ᴴ * X) k) =
        normSq (((dft N)ᴴ * Y) k) - if k ∈ Eᶜ then g k else 0 := by
      intro k
      by_cases hk : k ∈ E
      · have : lam k = 0 := by simp [hlam, hk]
        simp [this, hk]
      · have : lam k = s k := by simp [hlam, hk, adjust]
        rw [hrow k _ (hne k hk), this, if_pos (Finset.mem_compl.mpr hk)]
        simp
    have hBk : ∀ k, normSq (((dft N)ᴴ * Y) k) - (if k ∈ S then g k else 0) ≤
        normSq (((dft N)ᴴ * Y) k - mu k • ((dft N)ᴴ * X) k) := by
      intro k
      by_cases hk : k ∈ S
      · rw [if_pos hk]
        by_cases hd : circDen (dft N) X k = 0
        · obtain ⟨h1, h2⟩ := hrow0 k (mu k) hd
          rw [h1, h2, sub_zero]
        · rw [hrow k _ hd]
          have : 0 ≤ normSq (((dft N)ᴴ * X) k) * Complex.normSq (mu k - s k) := mul_nonneg
            (Finset.sum_nonneg fun _ _ => Complex.normSq_nonneg _) (Complex.normSq_nonneg _)
          linarith
      · have : mu k = 0 := by
          by_contra hm
          exact hk (by simp [hS, hm])
        simp [this, hk]
    have htop : ∑ k ∈ S, g k ≤ ∑ k ∈ Eᶜ, g k := by
      refine sum_top g hg0 (hEc.2 S hBr) fun e he k hk => ?_
      have he' : e ∈ E := by simpa using he
      have hk' : k ∉ E := by simpa using hk
      have hle := hE.2 e he' k hk'
      have hdk := hne k hk'
      by_cases hde : circDen (dft N) X e = 0
      · rw [(hrow0 e 0 hde).2]; exact hg0 k
      · have gres : ∀ k, circDen (dft N) X k ≠ 0 →
            g k = (‖circNum (dft N) X Y k‖ / Real.sqrt (circDen (dft N) X k)) ^ 2 := by
          intro k hk
          have h1 := (circ_sigma hF X Y hX k).1
          have h0 : 0 ≤ circDen (dft N) X k := Finset.sum_nonneg fun _ _ => Complex.normSq_nonneg _
          rw [hg, div_pow, Real.sq_sqrt h0]
          simp only [hs]
          rw [← h1, Complex.normSq_eq_norm_sq, norm_div, Complex.norm_real, Real.norm_eq_abs,
            div_pow, sq_abs]
          field_simp
        simp only [circRes, hde, hdk, if_false] at hle
        rw [gres e hde, gres k hdk]
        exact pow_le_pow_left₀ (div_nonneg (norm_nonneg _) (Real.sqrt_nonneg _)) hle 2
    calc ∑ k, normSq (((dft N)ᴴ * Y) k - lam k • ((dft N)ᴴ * X) k)
        = ∑ k, normSq (((dft N)ᴴ * Y) k) - ∑ k ∈ Eᶜ, g k := by
          simp only [hA]
          rw [Finset.sum_sub_distrib, Finset.sum_ite_mem, Finset.univ_inter]
      _ ≤ ∑ k, normSq (((dft N)ᴴ * Y) k) - ∑ k ∈ S, g k := by linarith
      _ = ∑ k, (normSq (((dft N)ᴴ * Y) k) - if k ∈ S then g k else 0) := by
          rw [Finset.sum_sub_distrib, Finset.sum_ite_mem, Finset.univ_inter]
      _ ≤ _ := Finset.sum_le_sum fun k _ => hBk k

/-- **C71** is false when eigenvalues are truncated (also with `svd_rank=-1` and fewer snapshots
than states, where `r = min(nx, nt) < nx`): the operator of the manifold "circulant_unitary" is
never unitary. -/
theorem C71_circulant_unitary_truncated_false (N : ℕ) [NeZero N] (X Y : Matrix (ZMod N) m ℂ)
    (r : ℕ) (hr : r < N) (E : Finset (ZMod N)) (hE : IsExcluded (circRes (dft N) X Y) r E)
    (A : Matrix (ZMod N) (ZMod N) ℂ) (h : computeCirculant (dft N) X Y .unitary E = some A) :
    Aᴴ * A ≠ 1 := by
  obtain ⟨hne, rfl⟩ := computeCirculant_some h
  intro hU
  have hm : InManifold .unitary _ := ⟨(dft_isFourier N).circA_circ _, hU⟩
  rw [inManifold_iff (dft_isFourier N)] at hm
  have hc : 0 < E.card := by rw [hE.1, ZMod.card]; omega
  obtain ⟨e, he⟩ := Finset.card_pos.mp hc
  have := hm e
  simp [Good, he] at this

/-- **C71** is false for complex snapshots: for the single state with `X = Y = i` the operator 1 fits
exactly, but the code returns -1. -/
theorem C71_circulant_complex_false : ∃ X : Matrix (ZMod 1) (Fin 1) ℂ,
    ∃ A, computeCirculant (dft 1) X X .plain ∅ = some A ∧ IsCirc (1 : Matrix (ZMod 1) (ZMod 1) ℂ) ∧
      frobSq (X - (1 : Matrix (ZMod 1) (ZMod 1) ℂ) * X) < frobSq (X - A * X) := by
  have hd : ∀ i j, dft 1 i j = 1 := by
    intro i j
    have : i = 0 := Subsingleton.elim _ _
    subst this
    simp [dft]
  have hden : ∀ k, circDen (dft 1) (Matrix.of fun _ _ => Complex.I : Matrix (ZMod 1) (Fin 1) ℂ) k
      = 1 := by
    intro k
    simp [circDen, normSq, Matrix.mul_apply, hd]
  have hnum : ∀ k, circNum (dft 1) (Matrix.of fun _ _ => Complex.I : Matrix (ZMod 1) (Fin 1) ℂ)
      (Matrix.of fun _ _ => Complex.I) k = -1 := by
    intro k
    simp [circNum, Matrix.mul_apply, hd, cj]
  refine ⟨Matrix.of fun _ _ => Complex.I, circA (dft 1) fun _ => -1, ?_, ?_, ?_⟩
  · unfold computeCirculant
    have he : ∀ k, circEigs (dft 1) (Matrix.of fun _ _ => Complex.I : Matrix (ZMod 1) (Fin 1) ℂ)
        (Matrix.of fun _ _ => Complex.I) .plain ∅ k = some (-1) := by
      intro k
      simp [circEigs, circEig, hden, hnum, adjust]
    rw [if_pos fun k => by rw [he]; rfl]
    simp [he]
  · intro i j d
    have : d = 0 := Subsingleton.elim _ _
    rw [this, add_zero, add_zero]
  · have hA : circA (dft 1) (fun _ => (-1 : ℂ)) = -1 := by
      ext i j
      have : i = j := Subsingleton.elim _ _
      subst this
      simp [circA, Matrix.mul_apply, invF, hd]
    rw [hA, Matrix.one_mul, sub_self]
    simp [frobSq]

/-- **C71** is false for data whose spatial mean is zero at all times: without truncation (at least
as many snapshots as states) the eigenvalue of the mean is 0/0 and no operator is obtained, although
circulant matrices that fit the data exist. -/
theorem C71_circulant_zero_mean_false (N : ℕ) [NeZero N] (X Y : Matrix (ZMod N) m ℂ)
    (hX : ∀ t, ∑ i, X i t = 0) (o : CircOpt) (r : ℕ) (hr : N ≤ r) (E : Finset (ZMod N))
    (hE : IsExcluded (circRes (dft N) X Y) r E) : computeCirculant (dft N) X Y o E = none := by
  have he : E = ∅ := by
    rw [← Finset.card_eq_zero, hE.1, ZMod.card]; omega
  subst he
  unfold computeCirculant
  rw [if_neg]
  intro h
  have h0 := h 0
  have hd : circDen (dft N) X 0 = 0 := by
    unfold circDen normSq
    refine Finset.sum_eq_zero fun t _ => ?_
    have : (dft N * X) 0 t = 0 := by
      rw [Matrix.mul_apply, ← hX t]
      refine Finset.sum_congr rfl fun i _ => ?_
      rw [(dft_isFourier N).symm, (dft_isFourier N).map_zero, one_mul]
    rw [this, map_zero]
  simp [circEigs, circEig, hd] at h0

/-- Zero-mean data, preserved exactly by the identity. -/
example : (∀ t, ∑ i, (Matrix.of fun i t => !![1, 2; -1, -2] i t : Matrix (ZMod 2) (Fin 2) ℂ) i t = 0)
    ∧ IsExcluded (circRes (dft 2) (Matrix.of fun i t => !![1, 2; -1, -2] i t :
        Matrix (ZMod 2) (Fin 2) ℂ) (Matrix.of fun i t => !![1, 2; -1, -2] i t)) 2 ∅ := by
  refine ⟨fun t => ?_, ?_, ?_⟩
  · have : ∑ i : ZMod 2, (!![1, 2; -1, -2] : Matrix (Fin 2) (Fin 2) ℂ) i t =
        ∑ i : Fin 2, (!![1, 2; -1, -2] : Matrix (Fin 2) (Fin 2) ℂ) i t := rfl
    show ∑ i : ZMod 2, (!![1, 2; -1, -2] : Matrix (Fin 2) (Fin 2) ℂ) i t = 0
    rw [this, Fin.sum_univ_two]
    fin_cases t <;> simp
  · simp [ZMod.card]
  · simp

/-- Real data for which the computation succeeds. -/
example : ∃ A, computeCirculant (dft 2) (1 : Matrix (ZMod 2) (ZMod 2) ℂ) 1 .unitary ∅ = some A := by
  refine ⟨_, if_pos fun k => ?_⟩
  have : circDen (dft 2) (1 : Matrix (ZMod 2) (ZMod 2) ℂ) k ≠ 0 := by
    rw [circDen, Matrix.mul_one]
    have h : normSq (dft 2 k) = 2 := by
      unfold normSq
      have h1 : ∀ i, Complex.normSq (dft 2 k i) = 1 := fun i => by
        rw [Complex.normSq_eq_norm_sq, (dft_isFourier 2).norm_one, one_pow]
      simp [h1, ZMod.card]
    rw [h]
    norm_num
  simp [circEigs, circEig, this]

/-! ### Block circulant with circulant blocks -/

theorem star_ofReal (x : ℝ) : star (x : ℂ) = x := Complex.conj_ofReal x

theorem bccbA_eq {F : Matrix G G ℂ} (hF : IsFourier F) (d : G → ℂ) :
    bccbA F d = circA F fun k => star (d k) := by
  have hs : ((Real.sqrt (Fintype.card G) : ℂ)) * (Real.sqrt (Fintype.card G) : ℂ) =
      (Fintype.card G : ℂ) := by
    rw [← Complex.ofReal_mul, Real.mul_self_sqrt (Nat.cast_nonneg _)]
    simp
  have h1 : (Matrix.of fun i j => star (d j) *
      (((Real.sqrt (Fintype.card G) : ℂ)⁻¹ • F)ᴴ) i j)ᵀ =
      (Real.sqrt (Fintype.card G) : ℂ)⁻¹ • (diagonal (fun k => star (d k)) * Fᴴ) := by
    ext i j
    rw [transpose_apply, Matrix.of_apply, Matrix.smul_apply, diagonal_mul, conjTranspose_apply,
      conjTranspose_apply, Matrix.smul_apply, smul_eq_mul, smul_eq_mul, star_mul', hF.symm i j,
      star_inv₀, star_ofReal]
    ring
  rw [bccbA, h1, hF.circA_eq, invF, Matrix.mul_smul, Matrix.mul_smul, smul_smul, ← mul_inv, hs,
    Matrix.mul_assoc]

theorem bccbF_apply {F : Matrix G G ℂ} (hF : IsFourier F) (X : Matrix G m ℂ) (k : G) (t : m) :
    bccbF F X k t = (Real.sqrt (Fintype.card G) : ℂ)⁻¹ * star ((Fᴴ * X) k t) := by
  rw [bccbF, Matrix.smul_apply, smul_eq_mul, fourier_conj hF]

theorem sqrt_card_ne : (Real.sqrt (Fintype.card G) : ℂ) ≠ 0 := by
  have : (0 : ℝ) < Fintype.card G := by exact_mod_cast Fintype.card_pos
  exact_mod_cast (Real.sqrt_pos.mpr this).ne'

theorem sqrt_card_mul : (Real.sqrt (Fintype.card G) : ℂ) * (Real.sqrt (Fintype.card G) : ℂ) =
    (Fintype.card G : ℂ) := by
  rw [← Complex.ofReal_mul, Real.mul_self_sqrt (Nat.cast_nonneg _)]
  simp

theorem bccbF_normSq {F : Matrix G G ℂ} (hF : IsFourier F) (X : Matrix G m ℂ) (k : G) :
    (normSq (bccbF F X k) : ℂ) = (Fintype.card G : ℂ)⁻¹ * (normSq ((Fᴴ * X) k) : ℂ) := by
  have h : normSq (bccbF F X k) = (Fintype.card G : ℝ)⁻¹ * normSq ((Fᴴ * X) k) := by
    unfold normSq
    rw [Finset.mul_sum]
    refine Finset.sum_congr rfl fun t _ => ?_
    rw [bccbF_apply hF, Complex.normSq_mul, Complex.normSq_inv, Complex.normSq_ofReal,
      Real.mul_self_sqrt (Nat.cast_nonneg _), Complex.star_def, Complex.normSq_conj]
  rw [h]
  push_cast
  ring

theorem bccbF_dot {F : Matrix G G ℂ} (hF : IsFourier F) (X Y : Matrix G m ℂ) (k : G) :
    ∑ t, bccbF F X k t * star (bccbF F Y k t) =
      (Fintype.card G : ℂ)⁻¹ * ∑ t, star ((Fᴴ * X) k t) * (Fᴴ * Y) k t := by
  rw [Finset.mul_sum]
  refine Finset.sum_congr rfl fun t _ => ?_
  rw [bccbF_apply hF, bccbF_apply hF, star_mul', star_star, star_inv₀, star_ofReal,
    ← sqrt_card_mul, mul_inv]
  ring

/-- **C70** (block circulant with circulant blocks, for all real or complex data). When the
computation succeeds, the operator is in the requested manifold (for the unitary option: if nothing
was truncated), and it is the closest fit among all matrices of the manifold that vanish on the
truncated frequencies. `dp` are the solutions of the scalar least-squares problems L304-306. -/
theorem C70_bccb (p q : ℕ) [NeZero p] [NeZero q] (X Y : Matrix (ZMod p × ZMod q) m ℂ) (o : CircOpt)
    (dp : ZMod p × ZMod q → ℂ)
    (hdp : ∀ k, IsLstsq (Matrix.of fun t (_ : Unit) => bccbF (dft2 p q) X k t)
      (bccbF (dft2 p q) Y k) fun _ => dp k)
    (E : Finset (ZMod p × ZMod q)) (A : Matrix (ZMod p × ZMod q) (ZMod p × ZMod q) ℂ)
    (h : computeBCCB (dft2 p q) X Y o dp E = some A) :
    ((o = .unitary → E = ∅) → InManifold o A) ∧
    ∀ B, InManifold o B → (∀ k ∈ E, B *ᵥ (fun i => dft2 p q i k) = 0) →
      frobSq (Y - A * X) ≤ frobSq (Y - B * X) := by
  have hF := dft2_isFourier p q
  have hcard : (Fintype.card (ZMod p × ZMod q) : ℂ) ≠ 0 := IsFourier.card_ne
  unfold computeBCCB at h
  split_ifs at h with hs
  rw [Option.some.injEq, bccbA_eq hF] at h
  rw [← h]
  by_cases ho : o = .plain
  · subst ho
    have hne : ∀ k, k ∉ E → normSq (bccbF (dft2 p q) X k) ≠ 0 := by
      intro k hk h0
      have := hs k
      simp [bccbD, hk, bccbPlain, h0] at this
    refine fourier_opt hF .plain X Y E (fun k =>
      (∑ t, bccbF (dft2 p q) X k t * star (bccbF (dft2 p q) Y k t)) /
        (normSq (bccbF (dft2 p q) X k) : ℂ)) _ (fun k hk => ?_) fun k => ?_
    · have h1 : (normSq (bccbF (dft2 p q) X k) : ℂ) ≠ 0 := by exact_mod_cast hne k hk
      rw [bccbF_normSq hF] at h1
      have h2 : (normSq (((dft2 p q)ᴴ * X) k) : ℂ) ≠ 0 := right_ne_zero_of_mul h1
      rw [bccbF_normSq hF, bccbF_dot hF]
      field_simp
    · by_cases hk : k ∈ E
      · simp [bccbD, hk]
      · simp only [bccbD, hk, if_false, if_true, bccbPlain, hne k hk, Option.getD_some, adjust]
        rw [star_div₀, star_star, star_ofReal]
  · refine fourier_opt hF o X Y E (fun k => star (dp k)) _ (fun k _ => ?_) fun k => ?_
    · have h1 := congrFun (hdp k).normal ()
      have h2 : (normSq (bccbF (dft2 p q) X k) : ℂ) * star (dp k) =
          ∑ t, bccbF (dft2 p q) X k t * star (bccbF (dft2 p q) Y k t) := by
        simp only [mulVec, dotProduct, conjTranspose_apply, Matrix.of_apply, Pi.sub_apply,
          Finset.univ_unique, Finset.sum_singleton, mul_sub, Finset.sum_sub_distrib,
          Pi.zero_apply] at h1
        have h3 := congrArg star (sub_eq_zero.mp h1)
        rw [star_sum, star_sum] at h3
        have h4 : ∀ t, star (star (bccbF (dft2 p q) X k t) * (bccbF (dft2 p q) X k t * dp k)) =
            (Complex.normSq (bccbF (dft2 p q) X k t) : ℂ) * star (dp k) := by
          intro t
          rw [Complex.normSq_eq_conj_mul_self, star_mul', star_mul', star_star]
          simp only [Complex.star_def]
          ring
        have h5 : ∀ t, star (star (bccbF (dft2 p q) X k t) * bccbF (dft2 p q) Y k t) =
            bccbF (dft2 p q) X k t * star (bccbF (dft2 p q) Y k t) := by
          intro t
          rw [star_mul', star_star]
        simp only [h4, h5] at h3
        rw [← h3, ← Finset.sum_mul]
        congr 1
        simp [normSq]
      rw [bccbF_normSq hF, bccbF_dot hF, mul_assoc] at h2
      exact mul_left_cancel₀ (inv_ne_zero hcard) h2
    · by_cases hk : k ∈ E
      · simp [bccbD, hk]
      · simp only [bccbD, hk, if_false, ho, Option.getD_some]
        rw [adjust_star]

/-- **C70** (when it is not a number). The operator has `NaN` entries exactly if no option is given and the data lack a spatial frequency
that is not truncated: with an option, or if all missing frequencies are truncated, the computation succeeds. -/
theorem C70_bccb_nan (p q : ℕ) [NeZero p] [NeZero q] (X Y : Matrix (ZMod p × ZMod q) m ℂ) (o : CircOpt)
    (dp : ZMod p × ZMod q → ℂ) (E : Finset (ZMod p × ZMod q)) :
    computeBCCB (dft2 p q) X Y o dp E = none ↔ o = .plain ∧ ∃ k, k ∉ E ∧ ∀ t, ((dft2 p q)ᴴ * X) k t = 0 := by
  have hF := dft2_isFourier p q
  have hcard : (Fintype.card (ZMod p × ZMod q) : ℂ) ≠ 0 := IsFourier.card_ne
  have h0 : ∀ k, normSq (bccbF (dft2 p q) X k) = 0 ↔ ∀ t, ((dft2 p q)ᴴ * X) k t = 0 := by
    intro k
    have h1 : normSq (bccbF (dft2 p q) X k) = 0 ↔ normSq (((dft2 p q)ᴴ * X) k) = 0 := by
      have := bccbF_normSq hF X k
      constructor
      · intro h
        rw [h, Complex.ofReal_zero] at this
        have := (mul_eq_zero.mp this.symm).resolve_left (inv_ne_zero hcard)
        exact_mod_cast this
      · intro h
        rw [h, Complex.ofReal_zero, mul_zero] at this
        exact_mod_cast this
    rw [h1, normSq, Finset.sum_eq_zero_iff_of_nonneg fun _ _ => Complex.normSq_nonneg _]
    simp
  unfold computeBCCB
  split_ifs with hs
  · simp only [reduceCtorEq, false_iff, not_and, not_exists]
    intro ho k hk h
    have := hs k
    simp [bccbD, hk, ho, bccbPlain, (h0 k).mpr h] at this
  · simp only [true_iff]
    push Not at hs
    obtain ⟨k, hk⟩ := hs
    by_cases hE : k ∈ E
    · simp [bccbD, hE] at hk
    · by_cases ho : o = .plain
      · refine ⟨ho, k, hE, (h0 k).mp ?_⟩
        by_contra h
        simp [bccbD, hE, ho, bccbPlain, h] at hk
      · simp [bccbD, hE, ho] at hk

end Verif.Pidmd
