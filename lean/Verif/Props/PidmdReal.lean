import Verif.Props.PidmdBlock
import Verif.Props.PidmdBand
import Verif.Props.RealData
import Verif.Lemmas.PinvExists

/-!
# C158: PiDMD of real snapshots
-/

set_option autoImplicit false

namespace Verif.PidmdReal

open Verif Verif.Pidmd Verif.LinAlg Verif.RealData Matrix

section Fourier

variable {G m : Type} [AddCommGroup G] [Fintype G] [DecidableEq G] [Fintype m]

omit [Fintype m] in
theorem fourier_neg {F : Matrix G G ℂ} (hF : IsFourier F) (k i : G) : F (-k) i = star (F k i) := by
  rw [hF.symm (-k) i, hF.symm k i, hF.star_eq]

theorem cj_circA {F : Matrix G G ℂ} (hF : IsFourier F) (lam : G → ℂ) :
    (circA F lam).map star = circA F fun k => star (lam (-k)) := by
  ext i j
  rw [map_apply, hF.circA_apply, hF.circA_apply, star_mul', star_inv₀, star_natCast, star_sum]
  congr 1
  refine (Equiv.sum_comp (Equiv.neg G) _).symm.trans (Finset.sum_congr rfl fun k _ => ?_)
  rw [Equiv.neg_apply, star_mul', fourier_neg hF, star_star]

/-- A circulant matrix is real if and only if its eigenvalues at opposite frequencies are conjugate. -/
theorem real_circA {F : Matrix G G ℂ} (hF : IsFourier F) (lam : G → ℂ) :
    IsReal (circA F lam) ↔ ∀ k, lam (-k) = star (lam k) := by
  rw [isReal_iff, cj_circA hF]
  constructor
  · intro h k
    have := congrFun (hF.circA_inj h) k
    rw [← this, star_star]
  · intro h
    congr 1
    funext k
    rw [h, star_star]

theorem transform_neg {F : Matrix G G ℂ} (hF : IsFourier F) {X : Matrix G m ℂ} (hX : IsReal X) (k : G) (t : m) :
    (F * X) (-k) t = star ((F * X) k t) := by
  rw [Matrix.mul_apply, Matrix.mul_apply, star_sum]
  refine Finset.sum_congr rfl fun j _ => ?_
  rw [star_mul', fourier_neg hF, show star (X j t) = X j t from Complex.conj_eq_iff_im.mpr (hX j t)]

theorem num_neg {F : Matrix G G ℂ} (hF : IsFourier F) {X Y : Matrix G m ℂ} (hX : IsReal X) (hY : IsReal Y) (k : G) :
    circNum F X Y (-k) = star (circNum F X Y k) := by
  rw [circNum, circNum, Matrix.mul_apply, Matrix.mul_apply, star_sum, cj_real Y hY]
  refine Finset.sum_congr rfl fun t _ => ?_
  rw [conjTranspose_apply, conjTranspose_apply, transform_neg hF hX, transform_neg hF hY, star_mul']

theorem den_neg {F : Matrix G G ℂ} (hF : IsFourier F) {X : Matrix G m ℂ} (hX : IsReal X) (k : G) :
    circDen F X (-k) = circDen F X k := by
  rw [circDen, circDen, ← normSq_star ((F * X) k)]
  congr 1
  funext t
  exact transform_neg hF hX k t

theorem res_neg {F : Matrix G G ℂ} (hF : IsFourier F) {X Y : Matrix G m ℂ} (hX : IsReal X) (hY : IsReal Y) (k : G) :
    circRes F X Y (-k) = circRes F X Y k := by
  unfold circRes
  rw [den_neg hF hX, num_neg hF hX hY, norm_star]

theorem eig_neg {F : Matrix G G ℂ} (hF : IsFourier F) {X Y : Matrix G m ℂ} (hX : IsReal X) (hY : IsReal Y) (o : CircOpt)
    (k : G) : adjust o (circNum F X Y (-k) / circDen F X (-k)) = star (adjust o (circNum F X Y k / circDen F X k)) := by
  rw [adjust_star, num_neg hF hX hY, den_neg hF hX, star_div₀, star_ofReal]

theorem coeff {F : Matrix G G ℂ} (x : G → ℂ) (k : G) :
    (invF F *ᵥ x) k = (Fintype.card G : ℂ)⁻¹ * ∑ j, star (F j k) * x j := by
  rw [invF, smul_mulVec]
  rfl

theorem coeff_neg {F : Matrix G G ℂ} (hF : IsFourier F) {x : G → ℂ} (hx : ∀ i, (x i).im = 0) (k : G) :
    (invF F *ᵥ x) (-k) = star ((invF F *ᵥ x) k) := by
  rw [coeff, coeff, star_mul', star_inv₀, star_natCast, star_sum]
  congr 1
  refine Finset.sum_congr rfl fun j _ => ?_
  rw [hF.symm j (-k), hF.symm j k, fourier_neg hF, star_mul', show star (x j) = x j from Complex.conj_eq_iff_im.mpr (hx j)]

end Fourier

/-- **C158** (circulant manifolds; partial: the frequencies that the truncation removes and those that it keeps have
different weights, as is the case without truncation). The operator fitted to real snapshots is real. -/
theorem C158_circulant_partial {m : Type} [Fintype m] (N : ℕ) [NeZero N] (X Y : Matrix (ZMod N) m ℂ) (hX : IsReal X)
    (hY : IsReal Y) (o : CircOpt) (E : Finset (ZMod N))
    (hE : ∀ e ∈ E, ∀ k, k ∉ E → circRes (dft N) X Y e ≠ circRes (dft N) X Y k) (A : Matrix (ZMod N) (ZMod N) ℂ)
    (h : computeCirculant (dft N) X Y o E = some A) : IsReal A := by
  have hF := dft_isFourier N
  obtain ⟨-, rfl⟩ := computeCirculant_some h
  rw [real_circA hF]
  have hm : ∀ k, k ∈ E → -k ∈ E := fun k hk => by
    by_contra hn
    exact hE k hk (-k) hn (res_neg hF hX hY k).symm
  intro k
  by_cases hk : k ∈ E
  · simp [hk, hm k hk]
  · have hk' : -k ∉ E := fun h' => hk (by simpa using hm _ h')
    rw [if_neg hk, if_neg hk', eig_neg hF hX hY]

/-- **C158**, negation for the truncated circulant manifolds: opposite frequencies have the same weight. If the truncation
removes one of two opposite frequencies, the operator is not real, and it maps every real state that contains that frequency
to one with imaginary parts. -/
theorem C158_circulant_split_false {m : Type} [Fintype m] (N : ℕ) [NeZero N] (X Y : Matrix (ZMod N) m ℂ) (hX : IsReal X)
    (hY : IsReal Y) (o : CircOpt) (E : Finset (ZMod N)) (k : ZMod N) (hk : -k ∈ E) (hk' : k ∉ E)
    (A : Matrix (ZMod N) (ZMod N) ℂ) (h : computeCirculant (dft N) X Y o E = some A)
    (hne : circEigs (dft N) X Y o E k ≠ some 0) :
    circRes (dft N) X Y (-k) = circRes (dft N) X Y k ∧ ¬ IsReal A ∧
    ∀ x : ZMod N → ℂ, (∀ i, (x i).im = 0) → (dft N *ᵥ x) k ≠ 0 → ∃ i, ((A *ᵥ x) i).im ≠ 0 := by
  have hF := dft_isFourier N
  obtain ⟨hd, rfl⟩ := computeCirculant_some h
  refine ⟨res_neg hF hX hY k, ?_, ?_⟩
  · rw [real_circA hF]
    intro hr
    have h1 := hr k
    simp only [hk, hk', if_true, if_false] at h1
    refine hne ?_
    rw [circEigs, if_neg hk', circEig, if_neg (hd k hk')]
    rw [← star_star (adjust o _), ← h1, star_zero]
  · intro x hx hxk
    by_contra hn
    push Not at hn
    set lam : ZMod N → ℂ := fun k => if k ∈ E then 0 else adjust o (circNum (dft N) X Y k / circDen (dft N) X k) with hlam
    have e : ∀ j, (invF (dft N) *ᵥ (circA (dft N) lam *ᵥ x)) j = lam j * (invF (dft N) *ᵥ x) j := by
      intro j
      rw [mulVec_mulVec, hF.circA_eq, ← Matrix.mul_assoc, ← Matrix.mul_assoc, hF.inv_mul, Matrix.one_mul, ← mulVec_mulVec,
        mulVec_diagonal]
    have h1 := coeff_neg hF hn k
    rw [e, e] at h1
    simp only [hlam, hk, hk', if_true, if_false, zero_mul] at h1
    have h2 : lam k * (invF (dft N) *ᵥ x) k = 0 := by
      simp only [hlam, hk', if_false]
      rw [← star_star (_ * _), ← h1, star_zero]
    rcases mul_eq_zero.mp h2 with h3 | h3
    · refine hne ?_
      simp only [hlam, hk', if_false] at h3
      rw [circEigs, if_neg hk', circEig, if_neg (hd k hk'), h3]
    · refine hxk ?_
      have h4 : (invF (dft N) *ᵥ x) k = (Fintype.card (ZMod N) : ℂ)⁻¹ * star ((dft N *ᵥ x) k) := by
        rw [coeff, mulVec, dotProduct, star_sum]
        congr 1
        refine Finset.sum_congr rfl fun j _ => ?_
        rw [star_mul', hF.symm j k, show star (x j) = x j from Complex.conj_eq_iff_im.mpr (hx j)]
      rw [h4] at h3
      have h5 := (mul_eq_zero.mp h3).resolve_left (inv_ne_zero IsFourier.card_ne)
      rw [← star_star ((dft N *ᵥ x) k), h5, star_zero]

/-- The three snapshots (1, 1, 0), (0, 1, 1), (1, 0, 1): a pattern that moves around a ring. -/
def ring (t : ℕ) : Matrix (ZMod 3) (Fin 2) ℂ := of fun i j => if i = ((j.val + t + 2 : ℕ) : ZMod 3) then 0 else 1

theorem dft3 (k j : ZMod 3) : dft 3 k j = dft 3 1 1 ^ (k.val * j.val) := by
  simp only [dft, of_apply]
  rw [← Complex.exp_nat_mul]
  congr 1
  simp only [ZMod.val_one]
  push_cast
  ring

theorem sum3 (f : ZMod 3 → ℂ) : ∑ i, f i = f 0 + f 1 + f 2 := Fin.sum_univ_three f

theorem star_w : star (dft 3 1 1) = dft 3 1 1 ^ 2 := by
  rw [(dft_isFourier 3).star_eq, dft3 1 (-1)]
  rfl

theorem om : dft 3 1 1 ^ 2 = -1 - dft 3 1 1 := by
  have h := congrFun (congrFun (dft_isFourier 3).orth 0) 1
  rw [Matrix.mul_apply, sum3, Matrix.smul_apply, Matrix.one_apply_ne (by decide)] at h
  simp only [conjTranspose_apply] at h
  rw [dft3 0 0, dft3 1 0, dft3 2 0, dft3 0 1, dft3 2 1] at h
  have e1 : ((2 : ZMod 3).val * (1 : ZMod 3).val) = 2 := rfl
  simp only [ZMod.val_zero, mul_zero, zero_mul, pow_zero, star_one, one_mul, e1, smul_zero] at h
  linear_combination h

theorem ring_vals : (ring 0 0 0 = 1 ∧ ring 0 1 0 = 1 ∧ ring 0 2 0 = 0) ∧ (ring 0 0 1 = 0 ∧ ring 0 1 1 = 1 ∧ ring 0 2 1 = 1) ∧
    (ring 1 0 0 = 0 ∧ ring 1 1 0 = 1 ∧ ring 1 2 0 = 1) ∧ (ring 1 0 1 = 1 ∧ ring 1 1 1 = 0 ∧ ring 1 2 1 = 1) := by
  simp only [ring, of_apply]
  refine ⟨⟨?_, ?_, ?_⟩, ⟨?_, ?_, ?_⟩, ⟨?_, ?_, ?_⟩, ?_, ?_, ?_⟩ <;> first | exact if_pos (by decide) | exact if_neg (by decide)

theorem ringX (k : ZMod 3) : (dft 3 * ring 0) k 0 = dft 3 k 0 + dft 3 k 1 ∧ (dft 3 * ring 0) k 1 = dft 3 k 1 + dft 3 k 2 := by
  obtain ⟨⟨h1, h2, h3⟩, ⟨h4, h5, h6⟩, -, -⟩ := ring_vals
  constructor <;> rw [Matrix.mul_apply, sum3]
  · rw [h1, h2, h3]; ring
  · rw [h4, h5, h6]; ring

theorem ringY (k : ZMod 3) : (dft 3 * ring 1) k 0 = dft 3 k 1 + dft 3 k 2 ∧ (dft 3 * ring 1) k 1 = dft 3 k 0 + dft 3 k 2 := by
  obtain ⟨-, -, ⟨h1, h2, h3⟩, ⟨h4, h5, h6⟩⟩ := ring_vals
  constructor <;> rw [Matrix.mul_apply, sum3]
  · rw [h1, h2, h3]; ring
  · rw [h4, h5, h6]; ring

theorem ring_real (t : ℕ) : IsReal (ring t) := by
  intro i j
  simp only [ring, of_apply]
  split_ifs <;> simp

theorem w_val (j : ZMod 3) : dft 3 0 j = 1 ∧ dft 3 1 0 = 1 ∧ dft 3 1 2 = -1 - dft 3 1 1 := by
  refine ⟨?_, ?_, ?_⟩
  · rw [dft3]; simp
  · rw [dft3]; simp
  · rw [dft3, ← om]; rfl

theorem norm_w : dft 3 1 1 * star (dft 3 1 1) = 1 := by
  rw [mul_comm]; exact (dft_isFourier 3).star_mul_self 1 1

theorem den_zero : circDen (dft 3) (ring 0) 0 = 8 := by
  rw [circDen, normSq, Fin.sum_univ_two, (ringX 0).1, (ringX 0).2]
  simp only [(w_val _).1]
  norm_num [Complex.normSq_apply]

theorem den_one : circDen (dft 3) (ring 0) 1 = 2 := by
  have h : (circDen (dft 3) (ring 0) 1 : ℂ) = 2 := by
    rw [circDen, normSq, Fin.sum_univ_two, (ringX 1).1, (ringX 1).2, (w_val 0).2.1, (w_val 0).2.2]
    push_cast
    rw [← Complex.mul_conj, ← Complex.mul_conj]
    simp only [map_add, map_sub, map_neg, map_one, ← Complex.star_def]
    have := star_w
    have := norm_w
    have := om
    rw [star_w] at *
    rw [om]
    linear_combination -this
  exact_mod_cast h

theorem num_zero : circNum (dft 3) (ring 0) (ring 1) 0 = 8 := by
  rw [circNum, Matrix.mul_apply, Fin.sum_univ_two, cj_real _ (ring_real 1)]
  simp only [conjTranspose_apply]
  rw [(ringX 0).1, (ringX 0).2, (ringY 0).1, (ringY 0).2]
  simp only [(w_val _).1]
  norm_num

theorem num_one : circNum (dft 3) (ring 0) (ring 1) 1 = 2 * dft 3 1 1 ^ 2 := by
  rw [circNum, Matrix.mul_apply, Fin.sum_univ_two, cj_real _ (ring_real 1)]
  simp only [conjTranspose_apply]
  rw [(ringX 1).1, (ringX 1).2, (ringY 1).1, (ringY 1).2, (w_val 0).2.1, (w_val 0).2.2]
  simp only [star_add, star_sub, star_neg, star_one, star_w]
  rw [om]
  ring

theorem ring_den (k : ZMod 3) : circDen (dft 3) (ring 0) k ≠ 0 := by
  have hk : k = 0 ∨ k = 1 ∨ k = -1 := by revert k; decide
  rcases hk with rfl | rfl | rfl
  · rw [den_zero]; norm_num
  · rw [den_one]; norm_num
  · rw [den_neg (dft_isFourier 3) (ring_real 0), den_one]; norm_num

/-- Without truncation the operators of these snapshots exist, and they are real. -/
example (o : CircOpt) : ∃ A, computeCirculant (dft 3) (ring 0) (ring 1) o ∅ = some A ∧ IsReal A := by
  have hs : ∀ k, (circEigs (dft 3) (ring 0) (ring 1) o ∅ k).isSome := fun k => by
    simp [circEigs, circEig, ring_den]
  exact ⟨_, if_pos hs, C158_circulant_partial 3 _ _ (ring_real 0) (ring_real 1) o ∅ (by simp) _ (if_pos hs)⟩

/-- **C158**, negation for the circulant manifold with the default options: for three snapshots of a pattern of three cells
that moves around a ring, `svd_rank=-1` keeps two of the three frequencies (there are two pairs of snapshots), and whichever
are kept, the operator is not real and the reconstruction of the second snapshot has an imaginary part. -/
theorem C158_circulant_false : IsReal (ring 0) ∧ IsReal (ring 1) ∧
    ∀ E, IsExcluded (circRes (dft 3) (ring 0) (ring 1)) 2 E →
      ∃ A, computeCirculant (dft 3) (ring 0) (ring 1) .plain E = some A ∧ ¬ IsReal A ∧
        ∃ i, ((A *ᵥ fun i => ring 0 i 0) i).im ≠ 0 := by
  refine ⟨ring_real 0, ring_real 1, fun E hE => ?_⟩
  have hF := dft_isFourier 3
  have hX := ring_real 0
  have hY := ring_real 1
  have zc : ∀ e : ZMod 3, e ≠ 0 → -e ≠ e ∧ (e = 1 ∨ e = 2) ∧ (-e = 1 ∨ -e = -1) := by decide
  have n2 : (-1 : ZMod 3) = 2 := by decide
  have hw : dft 3 1 1 ≠ 0 := fun h0 => by
    have := norm_w
    rw [h0, zero_mul] at this
    exact zero_ne_one this
  have hd := ring_den
  have hn1 : circNum (dft 3) (ring 0) (ring 1) 1 ≠ 0 := by
    rw [num_one]; exact mul_ne_zero two_ne_zero (pow_ne_zero 2 hw)
  have hn2 : circNum (dft 3) (ring 0) (ring 1) 2 ≠ 0 := by
    rw [← n2, num_neg hF hX hY]; exact star_ne_zero.mpr hn1
  have hcard : E.card = 1 := by rw [hE.1, ZMod.card]
  obtain ⟨e, rfl⟩ := Finset.card_eq_one.mp hcard
  have h0 : e ≠ 0 := by
    rintro rfl
    have := hE.2 0 (by simp) 1 (by simp)
    have r0 : circRes (dft 3) (ring 0) (ring 1) 0 = some (8 / Real.sqrt 8) := by
      rw [circRes, if_neg (hd 0), den_zero, num_zero]; norm_num
    have r1 : circRes (dft 3) (ring 0) (ring 1) 1 = some (2 / Real.sqrt 2) := by
      rw [circRes, if_neg (hd 1), den_one, num_one, norm_mul, norm_pow, hF.norm_one]; norm_num
    rw [r0, r1] at this
    simp only [Real.div_sqrt] at this
    exact absurd this (not_le.mpr (Real.sqrt_lt_sqrt (by norm_num) (by norm_num)))
  have hsome : ∀ k, (circEigs (dft 3) (ring 0) (ring 1) .plain {e} k).isSome := by
    intro k
    unfold circEigs circEig
    split_ifs with h1 h2
    · rfl
    · exact absurd h2 (hd k)
    · rfl
  refine ⟨_, if_pos hsome, ?_⟩
  have hk : -e ∉ ({e} : Finset (ZMod 3)) := by
    rw [Finset.mem_singleton]
    exact zc e h0 |>.1
  have hne : circEigs (dft 3) (ring 0) (ring 1) .plain {e} (-e) ≠ some 0 := by
    rw [circEigs, if_neg hk, circEig, if_neg (hd _)]
    intro hc
    have h1 : circNum (dft 3) (ring 0) (ring 1) (-e) / circDen (dft 3) (ring 0) (-e) = 0 := Option.some.inj hc
    have h2 := (div_eq_zero_iff.mp h1).resolve_right (by exact_mod_cast hd _)
    rw [num_neg hF hX hY, star_eq_zero] at h2
    have : e = 1 ∨ e = 2 := zc e h0 |>.2.1
    rcases this with rfl | rfl
    · exact hn1 h2
    · exact hn2 h2
  obtain ⟨-, h2, h3⟩ := C158_circulant_split_false 3 (ring 0) (ring 1) hX hY .plain {e} (-e) (by simp) hk _ (if_pos hsome) hne
  refine ⟨h2, h3 _ (fun i => hX i 0) ?_⟩
  have hx : ∀ k, (dft 3 *ᵥ fun i => ring 0 i 0) k = dft 3 k 0 + dft 3 k 1 := fun k => (ringX k).1
  have hx1 : (dft 3 *ᵥ fun i => ring 0 i 0) 1 ≠ 0 := by
    rw [hx, (w_val 0).2.1]
    intro h
    have := om
    have h' : dft 3 1 1 = -1 := by linear_combination h
    rw [h'] at this
    norm_num at this
  have hneg : (dft 3 *ᵥ fun i => ring 0 i 0) (-1) = star ((dft 3 *ᵥ fun i => ring 0 i 0) 1) := transform_neg hF hX 1 0
  have : -e = 1 ∨ -e = -1 := zc e h0 |>.2.2
  rcases this with h | h <;> rw [h]
  · exact hx1
  · rw [hneg]; exact star_ne_zero.mpr hx1

/-! ### Block-circulant matrices -/

theorem map_mul' {a b c : Type} [Fintype b] (A : Matrix a b ℂ) (B : Matrix b c ℂ) :
    (A * B).map star = A.map star * B.map star := by
  ext i j
  simp [Matrix.mul_apply]

theorem pinv_conj {a b : Type} [Fintype a] [Fintype b] {A : Matrix a b ℂ} {P : Matrix b a ℂ} (h : IsPinv A P) :
    IsPinv (A.map star) (P.map star) := by
  have hc : ∀ {c d : Type} (M : Matrix c d ℂ), (M.map star)ᴴ = Mᴴ.map star := fun M => by ext i j; simp
  refine ⟨?_, ?_, ?_, ?_⟩
  · rw [← map_mul', ← map_mul', h.apa]
  · rw [← map_mul', ← map_mul', h.pap]
  · rw [← map_mul', hc, h.ap]
  · rw [← map_mul', hc, h.pa]

theorem mulVec_conj {a b : Type} [Fintype b] (A : Matrix a b ℂ) (x : b → ℂ) (i : a) :
    (A.map star *ᵥ fun j => star (x j)) i = star ((A *ᵥ x) i) := by
  simp [mulVec, dotProduct]

section Blocks

variable {m : Type} [Fintype m]

theorem fftBlock_neg {p q : ℕ} [NeZero q] {X : Matrix (Fin p × ZMod q) m ℂ} (hX : IsReal X) (i : Fin p) (k : ZMod q) (t : m) :
    fftBlock (dft q) X (i, -k) t = star (fftBlock (dft q) X (i, k) t) := by
  simp only [fftBlock, of_apply, star_div₀, star_sum, star_mul', star_ofReal]
  congr 1
  refine Finset.sum_congr rfl fun b _ => ?_
  rw [fourier_neg (dft_isFourier q), show star (X (i, b) t) = X (i, b) t from Complex.conj_eq_iff_im.mpr (hX _ t)]

theorem bcA_real {p q : ℕ} [NeZero q] (d : ZMod q → Matrix (Fin p) (Fin p) ℂ)
    (hd : ∀ k i j, d (-k) i j = star (d k i j)) : IsReal (bcA (dft q) d) := by
  rintro ⟨i, a⟩ ⟨j, b⟩
  rw [bcA_apply (dft_isFourier q)]
  exact (real_circA (cj_isFourier (dft_isFourier q)) fun k => d k i j).mpr (fun k => hd k i j) a b

/-- **C158** (block circulant): the operator fitted to real snapshots is real; `d` are the least-squares solutions of smallest
norm at each frequency. -/
theorem C158_bc (p q : ℕ) [NeZero q] (X Y : Matrix (Fin p × ZMod q) m ℂ) (hX : IsReal X) (hY : IsReal Y)
    (P : ZMod q → Matrix (Fin p) m ℂ) (hP : ∀ k, IsPinv (blockData (dft q) X k) (P k)) :
    IsReal (bcA (dft q) fun k => of fun i => P k *ᵥ fftBlock (dft q) Y (i, k)) := by
  refine bcA_real _ fun k i j => ?_
  have h1 : blockData (dft q) X (-k) = (blockData (dft q) X k).map star := by
    ext t i
    exact fftBlock_neg hX i k t
  have h2 : P (-k) = (P k).map star := (hP (-k)).unique (h1 ▸ pinv_conj (hP k))
  have h3 : fftBlock (dft q) Y (i, -k) = fun t => star (fftBlock (dft q) Y (i, k) t) := funext fun t => fftBlock_neg hY i k t
  simp only [of_apply]
  rw [h2, h3, mulVec_conj]

/-- **C158** (block circulant with tridiagonal blocks). -/
theorem C158_bctb (p q : ℕ) [NeZero q] (X Y : Matrix (Fin p × ZMod q) m ℂ) (hX : IsReal X) (hY : IsReal Y)
    (w : Fin p → ℤ × ℤ) (P : (k : ZMod q) → (i : Fin p) → Matrix (Cols w i) m ℂ)
    (hP : ∀ k i, IsPinv (bandData w (freq (dft q) X k) i) (P k i)) :
    IsReal (bcA (dft q) fun k => banded w fun i => P k i *ᵥ freq (dft q) Y k i) := by
  refine bcA_real _ fun k i j => ?_
  have h1 : bandData w (freq (dft q) X (-k)) i = (bandData w (freq (dft q) X k) i).map star := by
    ext t j
    exact fftBlock_neg hX j.1 k t
  have h2 : P (-k) i = (P k i).map star := (hP (-k) i).unique (h1 ▸ pinv_conj (hP k i))
  have h3 : freq (dft q) Y (-k) i = fun t => star (freq (dft q) Y k i t) := funext fun t => fftBlock_neg hY i k t
  simp only [banded, of_apply]
  split_ifs with h
  · rw [h2, h3]
    exact mulVec_conj (P k i) (freq (dft q) Y k i) _
  · simp

/-- **C158** (diagonal and banded manifolds). -/
theorem C158_banded {p : ℕ} (X Y : Matrix (Fin p) m ℂ) (hX : IsReal X) (hY : IsReal Y)
    (w : Fin p → ℤ × ℤ) (P : (i : Fin p) → Matrix (Cols w i) m ℂ) (hP : ∀ i, IsPinv (bandData w X i) (P i)) :
    IsReal (banded w fun i => P i *ᵥ Y i) := by
  intro i j
  have h1 : (bandData w X i).map star = bandData w X i := by
    ext t j
    exact Complex.conj_eq_iff_im.mpr (hX j.1 t)
  have h2 : (P i).map star = P i := (h1 ▸ pinv_conj (hP i)).unique (hP i)
  have h3 : (fun t => star (Y i t)) = Y i := funext fun t => Complex.conj_eq_iff_im.mpr (hY i t)
  simp only [banded, of_apply]
  split_ifs with h
  · have := mulVec_conj (P i) (Y i) ⟨j, h⟩
    rw [h2, h3] at this
    exact Complex.conj_eq_iff_im.mp this.symm
  · rfl

/-- **C158** (block circulant with circulant blocks; partial: the truncation removes with each frequency the opposite one, as
is the case without truncation). `dp` are the least-squares solutions of smallest norm. -/
theorem C158_bccb_partial (p q : ℕ) [NeZero p] [NeZero q] (X Y : Matrix (ZMod p × ZMod q) m ℂ) (hX : IsReal X)
    (hY : IsReal Y) (o : CircOpt) (dp : ZMod p × ZMod q → ℂ)
    (hdp : ∀ k, ∃ P, IsPinv (of fun t (_ : Unit) => bccbF (dft2 p q) X k t) P ∧ dp k = (P *ᵥ bccbF (dft2 p q) Y k) ())
    (E : Finset (ZMod p × ZMod q)) (hE : ∀ k ∈ E, -k ∈ E) (A : Matrix (ZMod p × ZMod q) (ZMod p × ZMod q) ℂ)
    (h : computeBCCB (dft2 p q) X Y o dp E = some A) : IsReal A := by
  have hF := dft2_isFourier p q
  have hE' : ∀ k, -k ∈ E ↔ k ∈ E := fun k => ⟨fun hk => by simpa using hE _ hk, hE k⟩
  have hf : ∀ {Z : Matrix (ZMod p × ZMod q) m ℂ}, IsReal Z → ∀ k, bccbF (dft2 p q) Z (-k) = fun t => star (bccbF (dft2 p q) Z k t) := by
    intro Z hZ k
    funext t
    simp only [bccbF, Matrix.smul_apply, smul_eq_mul, star_mul', star_inv₀, star_ofReal, cj_real Z hZ]
    rw [transform_neg hF hZ]
  have hn : ∀ k, dp (-k) = star (dp k) := by
    intro k
    obtain ⟨P, hP, e⟩ := hdp k
    obtain ⟨P', hP', e'⟩ := hdp (-k)
    have h1 : (of fun t (_ : Unit) => bccbF (dft2 p q) X (-k) t) = (of fun t (_ : Unit) => bccbF (dft2 p q) X k t).map star := by
      ext t u
      exact congrFun (hf hX k) t
    have h2 : P' = P.map star := hP'.unique (h1 ▸ pinv_conj hP)
    rw [e, e', h2, hf hY, mulVec_conj]
  have hD : ∀ k, bccbD (dft2 p q) X Y o dp E (-k) = (bccbD (dft2 p q) X Y o dp E k).map star := by
    intro k
    unfold bccbD
    by_cases hk : k ∈ E
    · rw [if_pos hk, if_pos ((hE' k).mpr hk)]; simp
    · rw [if_neg hk, if_neg (mt (hE' k).mp hk)]
      by_cases ho : o = .plain
      · rw [if_pos ho, if_pos ho]
        unfold bccbPlain
        rw [hf hX, hf hY, normSq_star]
        split_ifs with h0
        · rfl
        · simp
      · rw [if_neg ho, if_neg ho, hn, Option.map_some, adjust_star]
  unfold computeBCCB at h
  split_ifs at h with hs
  rw [Option.some.injEq, bccbA_eq hF] at h
  rw [← h, real_circA hF]
  intro k
  rw [hD, star_star]
  obtain ⟨z, hz⟩ := Option.isSome_iff_exists.mp (hs k)
  rw [hz]
  simp

/-- Least-squares solutions of smallest norm exist for all snapshots. -/
example (p q : ℕ) [NeZero q] (X : Matrix (Fin p × ZMod q) m ℂ) :
    ∃ P : ZMod q → Matrix (Fin p) m ℂ, ∀ k, IsPinv (blockData (dft q) X k) (P k) := by
  classical
  exact ⟨fun k => (exists_pinv (blockData (dft q) X k)).choose, fun k => (exists_pinv _).choose_spec⟩

end Blocks

/-! ### Toeplitz and Hankel matrices -/

section Toeplitz

variable {m : Type} [Fintype m]

theorem half_gap (y a b : ℂ) : Complex.normSq (y - (a + b) / 2) + Complex.normSq ((a - b) / 2) =
    (Complex.normSq (y - a) + Complex.normSq (y - b)) / 2 := by
  simp only [Complex.normSq_apply, Complex.sub_re, Complex.sub_im, Complex.div_ofNat_re, Complex.div_ofNat_im,
    Complex.add_re, Complex.add_im]
  ring

theorem frobSq_conj {a b : Type} [Fintype a] [Fintype b] (M : Matrix a b ℂ) : frobSq (M.map star) = frobSq M := by
  simp [frobSq]

/-- A best fit of real data in a set of matrices that contains with each its conjugate and the mean of the two is real, if the
data determine it. -/
theorem real_of_best {a : Type} [Fintype a] (S : Matrix a a ℂ → Prop) (hc : ∀ B, S B → S (B.map star))
    (hm : ∀ B C, S B → S C → S ((1 / 2 : ℂ) • (B + C))) (hs : ∀ B C, S B → S C → S ((1 / 2 : ℂ) • (B - C))) (X Y : Matrix a m ℂ) (hX : IsReal X) (hY : IsReal Y)
    (hd : ∀ B, S B → B * X = 0 → B = 0) (A : Matrix a a ℂ) (hA : S A) (hb : ∀ B, S B → frobSq (Y - A * X) ≤ frobSq (Y - B * X)) :
    IsReal A := by
  have hXc := (isReal_iff X).mp hX
  have hYc := (isReal_iff Y).mp hY
  have e1 : frobSq (Y - A.map star * X) = frobSq (Y - A * X) := by
    rw [← frobSq_conj (Y - A * X)]
    congr 1
    have : (Y - A * X).map star = Y.map star - (A * X).map star := by
      ext i j; simp only [map_apply, Matrix.sub_apply, star_sub]
    rw [this, map_mul', hXc, hYc]
  have e2 : frobSq (Y - ((1 / 2 : ℂ) • (A + A.map star)) * X) + frobSq (((1 / 2 : ℂ) • (A - A.map star)) * X) =
      (frobSq (Y - A * X) + frobSq (Y - A.map star * X)) / 2 := by
    simp only [frobSq, ← Finset.sum_add_distrib, Finset.sum_div]
    refine Finset.sum_congr rfl fun i _ => Finset.sum_congr rfl fun j _ => ?_
    simp only [Matrix.smul_mul, Matrix.add_mul, Matrix.sub_mul, Matrix.sub_apply, Matrix.smul_apply, Matrix.add_apply, smul_eq_mul]
    rw [← half_gap]
    congr 2
    · congr 1; ring
    · ring
  have h1 := hb _ (hm A _ hA (hc A hA))
  have h2 : frobSq (((1 / 2 : ℂ) • (A - A.map star)) * X) = 0 := by
    have : 0 ≤ frobSq (((1 / 2 : ℂ) • (A - A.map star)) * X) :=
      Finset.sum_nonneg fun _ _ => Finset.sum_nonneg fun _ _ => Complex.normSq_nonneg _
    linarith
  have h3 : ((1 / 2 : ℂ) • (A - A.map star)) * X = 0 := by
    exact (frobSq_eq_zero _).mp h2
  have h4 := hd _ (hs A _ hA (hc A hA)) h3
  rw [isReal_iff]
  have h5 := (smul_eq_zero.mp h4).resolve_left (by norm_num)
  exact (sub_eq_zero.mp h5).symm

/-- **C158** (Toeplitz; partial: the snapshots determine the Toeplitz matrix). The operator fitted to real snapshots is
real. -/
theorem C158_toeplitz_partial {n : ℕ} [NeZero n] (X Y : Matrix (Fin n) m ℂ) (hX : IsReal X) (hY : IsReal Y)
    (hd : ∀ B : Matrix (Fin n) (Fin n) ℂ, IsToeplitz B → B * X = 0 → B = 0) (e : Init n → ℂ)
    (he : IsLstsq (toepM false X) (fun k => toepY false X Y k.1) e) : IsReal (toepA false e) := by
  obtain ⟨h1, h2⟩ := C70_toeplitz X Y e he
  refine real_of_best IsToeplitz (fun B hB i j i' j' h => ?_) (fun B C hB hC i j i' j' h => ?_) (fun B C hB hC i j i' j' h => ?_)
    X Y hX hY hd _ h1 h2
  · rw [map_apply, map_apply, hB i j i' j' h]
  · simp only [Matrix.smul_apply, Matrix.add_apply, hB i j i' j' h, hC i j i' j' h]
  · simp only [Matrix.smul_apply, Matrix.sub_apply, hB i j i' j' h, hC i j i' j' h]

/-- **C158** (Hankel; partial: the snapshots determine the Hankel matrix). -/
theorem C158_hankel_partial {n : ℕ} [NeZero n] (X Y : Matrix (Fin n) m ℂ) (hX : IsReal X) (hY : IsReal Y)
    (hd : ∀ B : Matrix (Fin n) (Fin n) ℂ, IsHankel B → B * X = 0 → B = 0) (e : Init n → ℂ)
    (he : IsLstsq (toepM true X) (fun k => toepY true X Y k.1) e) : IsReal (toepA true e) := by
  obtain ⟨h1, h2⟩ := C70_hankel X Y e he
  refine real_of_best IsHankel (fun B hB i j i' j' h => ?_) (fun B C hB hC i j i' j' h => ?_) (fun B C hB hC i j i' j' h => ?_)
    X Y hX hY hd _ h1 h2
  · rw [map_apply, map_apply, hB i j i' j' h]
  · simp only [Matrix.smul_apply, Matrix.add_apply, hB i j i' j' h, hC i j i' j' h]
  · simp only [Matrix.smul_apply, Matrix.sub_apply, hB i j i' j' h, hC i j i' j' h]

/-- Invertible snapshots determine the operator. -/
example (X : Matrix (Fin 3) (Fin 3) ℂ) (hX : IsUnit X.det) (B : Matrix (Fin 3) (Fin 3) ℂ) (h : B * X = 0) : B = 0 := by
  have := congrArg (· * X⁻¹) h
  simpa [Matrix.mul_assoc, mul_nonsing_inv X hX] using this

theorem pinv_lstsq {a b : Type} [Fintype a] [Fintype b] {M : Matrix a b ℂ} {P : Matrix b a ℂ} (hP : IsPinv M P) (y : a → ℂ) :
    IsLstsq M y (P *ᵥ y) := by
  refine isLstsq_of_normal _ _ _ ?_
  rw [mulVec_sub, mulVec_mulVec, mulVec_mulVec]
  have h1 : Mᴴ * (M * P) = Mᴴ := by
    have := congrArg conjTranspose hP.apa
    rw [conjTranspose_mul, hP.ap] at this
    exact this
  rw [Matrix.mul_assoc, h1, sub_self]

/-- The least-squares solution of smallest norm is orthogonal to the kernel. -/
theorem pinv_ker {a b : Type} [Fintype a] [Fintype b] {M : Matrix a b ℂ} {P : Matrix b a ℂ} (hP : IsPinv M P) (y : a → ℂ)
    (v : b → ℂ) (hv : M *ᵥ v = 0) : star v ⬝ᵥ (P *ᵥ y) = 0 := by
  have h1 : P *ᵥ y = (P * M) *ᵥ (P *ᵥ y) := by rw [mulVec_mulVec, hP.pap]
  rw [h1, dotProduct_mulVec]
  have h2 : star v ᵥ* (P * M) = 0 := by
    rw [← hP.pa, ← star_mulVec, ← mulVec_mulVec, hv]
    simp
  rw [h2, zero_dotProduct]

theorem w4 (k j : ZMod (2 * 2)) : dft (2 * 2) k j = (-Complex.I) ^ (k.val * j.val) := by
  have h : Complex.exp (-(2 * Real.pi * Complex.I / 4)) = -Complex.I := by
    have : -(2 * (Real.pi : ℂ) * Complex.I / 4) = -((Real.pi : ℂ) / 2 * Complex.I) := by ring
    rw [this, Complex.exp_neg, Complex.exp_pi_div_two_mul_I, Complex.inv_I]
  rw [← h, ← Complex.exp_nat_mul]
  simp only [dft, of_apply]
  congr 1
  push_cast
  ring

theorem toep_entries (e : Init 2 → ℂ) (i j : Fin 2) : toepA false e i j =
    (4 : ℂ)⁻¹ * (e ⟨0, by decide⟩ * dft (2 * 2) 0 (emb i - emb j) + e ⟨1, by decide⟩ * dft (2 * 2) 1 (emb i - emb j) +
      e ⟨2, by decide⟩ * dft (2 * 2) 2 (emb i - emb j)) := by
  have hs : ∀ f : ZMod (2 * 2) → ℂ, ∑ k, f k = f 0 + f 1 + f 2 + f 3 := fun f => Fin.sum_univ_four f
  simp only [toepA, of_apply, toepNewA_eq]
  rw [(dft_isFourier (2 * 2)).circA_apply, hs, ZMod.card]
  have h0 : toepEigs e 0 = e ⟨0, by decide⟩ := dif_pos (by decide)
  have h1 : toepEigs e 1 = e ⟨1, by decide⟩ := dif_pos (by decide)
  have h2 : toepEigs e 2 = e ⟨2, by decide⟩ := dif_pos (by decide)
  have h3 : toepEigs e 3 = 0 := dif_neg (by decide)
  rw [h0, h1, h2, h3]
  norm_num

/-- The operator of `C158_toeplitz_false`. -/
theorem toeplitz_value (P : Matrix (Init 2) (Init 2) ℂ)
    (hP : IsPinv (toepM false (of ![![1], ![0]] : Matrix (Fin 2) (Fin 1) ℂ)) P) :
    toepA false (P *ᵥ fun k => toepY false (of ![![1], ![0]] : Matrix (Fin 2) (Fin 1) ℂ) (of ![![1], ![1]]) k.1) =
      !![1, (1 + Complex.I) / 2; 1, 1] := by
  set X : Matrix (Fin 2) (Fin 1) ℂ := of ![![1], ![0]] with hX
  set Y : Matrix (Fin 2) (Fin 1) ℂ := of ![![1], ![1]] with hY
  set e := P *ᵥ fun k : Init 2 => toepY false X Y k.1 with he
  have hb := (C70_toeplitz X Y e (pinv_lstsq hP _)).2 !![1, 0; 1, 1] (by
    intro i j i' j' h
    fin_cases i <;> fin_cases j <;> fin_cases i' <;> fin_cases j' <;> simp at h ⊢)
  have h0 : Y - (!![1, 0; 1, 1] : Matrix (Fin 2) (Fin 2) ℂ) * X = 0 := by
    ext i j
    fin_cases i <;> fin_cases j <;> simp [hX, hY, Matrix.mul_apply, Fin.sum_univ_two]
  rw [h0] at hb
  have h1 : Y - toepA false e * X = 0 := by
    refine (frobSq_eq_zero _).mp (le_antisymm (hb.trans (by simp [frobSq])) ?_)
    exact Finset.sum_nonneg fun _ _ => Finset.sum_nonneg fun _ _ => Complex.normSq_nonneg _
  have a00 : toepA false e 0 0 = 1 := by
    have := congrFun (congrFun h1 0) 0
    simp [hX, hY, Matrix.mul_apply, Fin.sum_univ_two] at this
    linear_combination -this
  have a10 : toepA false e 1 0 = 1 := by
    have := congrFun (congrFun h1 1) 0
    simp [hX, hY, Matrix.mul_apply, Fin.sum_univ_two] at this
    linear_combination -this
  have d00 : (emb (0 : Fin 2) - emb (0 : Fin 2) : ZMod (2 * 2)) = 0 := by decide
  have d11 : (emb (1 : Fin 2) - emb (1 : Fin 2) : ZMod (2 * 2)) = 0 := by decide
  have d10 : (emb (1 : Fin 2) - emb (0 : Fin 2) : ZMod (2 * 2)) = 1 := by decide
  have d01 : (emb (0 : Fin 2) - emb (1 : Fin 2) : ZMod (2 * 2)) = 3 := by decide
  have f00 : ∀ k : ZMod (2 * 2), dft (2 * 2) k 0 = 1 := fun k => by rw [w4]; simp
  have f0 : ∀ k : ZMod (2 * 2), dft (2 * 2) 0 k = 1 := fun k => by rw [w4]; simp
  have f11 : dft (2 * 2) 1 1 = -Complex.I := by rw [w4]; exact pow_one _
  have f21 : dft (2 * 2) 2 1 = -1 := by
    rw [w4]
    show (-Complex.I) ^ 2 = -1
    simp
  have f13 : dft (2 * 2) 1 3 = Complex.I := by
    rw [w4]
    show (-Complex.I) ^ 3 = Complex.I
    rw [pow_succ, neg_sq, Complex.I_sq]; ring
  have f23 : dft (2 * 2) 2 3 = -1 := by
    rw [w4]
    show (-Complex.I) ^ 6 = -1
    rw [show (-Complex.I) ^ 6 = ((-Complex.I) ^ 2) ^ 3 by ring, neg_sq, Complex.I_sq]; ring
  -- a vector in the kernel
  let v : Init 2 → ℂ := fun k => if k.1 = 0 then 1 else if k.1 = 1 then -(1 + Complex.I) else Complex.I
  have v0 : v ⟨0, by decide⟩ = 1 := rfl
  have v1 : v ⟨1, by decide⟩ = -(1 + Complex.I) := rfl
  have v2 : v ⟨2, by decide⟩ = Complex.I := rfl
  have hv : toepM false X *ᵥ v = 0 := by
    have hz : toepG false X *ᵥ v = 0 := by
      funext ⟨i, t⟩
      rw [← toepA_mul]
      fin_cases i <;> fin_cases t <;>
        simp [hX, Matrix.mul_apply, Fin.sum_univ_two, toep_entries, v0, v1, v2, d00, d10, f00, f0, f11, f21]
      linear_combination Complex.I_sq
    rw [toepM_gram, ← mulVec_mulVec, hz, mulVec_zero]
  have ho := pinv_ker hP (fun k : Init 2 => toepY false X Y k.1) v hv
  rw [← he] at ho
  have hs : ∀ f : Init 2 → ℂ, ∑ k, f k = f ⟨0, by decide⟩ + f ⟨1, by decide⟩ + f ⟨2, by decide⟩ := by
    intro f
    have hu : (Finset.univ : Finset (Init 2)) = {⟨0, by decide⟩, ⟨1, by decide⟩, ⟨2, by decide⟩} := by decide
    rw [hu, Finset.sum_insert (by decide), Finset.sum_insert (by decide), Finset.sum_singleton]
    ring
  rw [dotProduct, hs] at ho
  simp only [Pi.star_apply, v0, v1, v2] at ho
  simp at ho
  have e00 := toep_entries e 0 0
  have e10 := toep_entries e 1 0
  rw [a00, d00, f00, f00, f00] at e00
  rw [a10, d10, f0, f11, f21] at e10
  have e1 : e ⟨1, by decide⟩ = 1 + Complex.I := by
    linear_combination (-(1 + Complex.I) / 4) * (ho - (1 - Complex.I) / 2 * (-4) * e00 - (1 + Complex.I) / 2 * (-4) * e10) +
      e ⟨1, by decide⟩ * (5 / 8 + Complex.I / 8) * Complex.I_sq
  have a01 : toepA false e 0 1 = (1 + Complex.I) / 2 := by
    rw [toep_entries, d01, f0, f13, f23]
    linear_combination -e10 + Complex.I / 2 * e1 + (1 / 2 : ℂ) * Complex.I_sq
  have a11 : toepA false e 1 1 = 1 := by
    rw [toep_entries, d11, f00, f00, f00]
    exact e00.symm
  ext i j
  fin_cases i <;> fin_cases j
  · simpa using a00
  · simpa using a01
  · simpa using a10
  · simpa using a11

/-- **C158**, negation for the Toeplitz manifold with one pair of snapshots: (1, 0) and (1, 1) do not determine a
Toeplitz matrix; the one returned is not real, and its eigenvalues are not conjugate to each other. -/
theorem C158_toeplitz_false (P : Matrix (Init 2) (Init 2) ℂ)
    (hP : IsPinv (toepM false (of ![![1], ![0]] : Matrix (Fin 2) (Fin 1) ℂ)) P) (A : Matrix (Fin 2) (Fin 2) ℂ)
    (hA : A = toepA false (P *ᵥ fun k => toepY false (of ![![1], ![0]] : Matrix (Fin 2) (Fin 1) ℂ) (of ![![1], ![1]]) k.1)) :
    ¬ IsReal A ∧ ∀ (W : Matrix (Fin 2) (Fin 2) ℂ) (eigs : Fin 2 → ℂ), IsUnit W.det → A * W = W * diagonal eigs →
      (Finset.univ.val.map fun i => star (eigs i)) ≠ Finset.univ.val.map eigs := by
  rw [toeplitz_value P hP] at hA
  subst hA
  constructor
  · intro h
    have := h 0 1
    norm_num [Complex.add_im, Complex.div_im] at this
  · intro W eigs hW h hc
    have h1 : (!![1, (1 + Complex.I) / 2; 1, 1] : Matrix (Fin 2) (Fin 2) ℂ).det = ∏ i, eigs i := by
      have := congrArg det h
      rw [det_mul, det_mul, det_diagonal, mul_comm] at this
      exact mul_left_cancel₀ hW.ne_zero this
    have h2 : star (∏ i, eigs i) = ∏ i, eigs i := by
      have := congrArg Multiset.prod hc
      rw [star_prod]
      exact this
    rw [← h1, det_fin_two] at h2
    have h3 := Complex.conj_eq_iff_im.mp h2
    norm_num [Complex.add_im, Complex.div_im] at h3

/-- The hypothesis of `C158_toeplitz_false` can be met. -/
example : ∃ P, IsPinv (toepM false (of ![![1], ![0]] : Matrix (Fin 2) (Fin 1) ℂ)) P := exists_pinv _

end Toeplitz

/-! ### The manifolds that are fitted with matrix factorisations -/

section Factors

variable {n m r : Type} [Fintype n] [Fintype m] [Fintype r] [DecidableEq r]

omit [Fintype n] [Fintype r] [DecidableEq r] in
theorem pinv_real [Fintype n] [Fintype r] {R : Matrix n r ℂ} (hR : IsReal R) {P : Matrix r n ℂ} (hP : IsPinv R P) : IsReal P := by
  rw [isReal_iff] at hR ⊢
  exact (hR ▸ pinv_conj hP : IsPinv R (P.map star)).unique hP

theorem real_entry {a b : Type} {M : Matrix a b ℂ} (hM : IsReal M) (i : a) (j : b) : M i j = ((M i j).re : ℂ) :=
  Complex.ext rfl (hM i j)

/-- **C158** (unitary, symmetric, skew-symmetric): for real snapshots and real factors (as the library returns for real data)
the reduced operator is real, and its eigenvalues come in conjugate pairs. -/
theorem C158_reduced {p q : ℕ} (hq : q ≤ p) (U : Matrix n (Fin p) ℂ) (s : Fin p → ℝ) (V : Matrix m (Fin p) ℂ) (Y : Matrix n m ℂ)
    (P Q : Matrix (Fin q) (Fin q) ℂ) (hU : IsReal U) (hV : IsReal V) (hY : IsReal Y) (hP : IsReal P) (hQ : IsReal Q)
    (T : Matrix (Fin q) (Fin q) ℂ)
    (hT : T = unitaryAtilde P Q ∨ T = computeSymmetric false q hq U s V Y ∨ T = computeSymmetric true q hq U s V Y)
    (W : Matrix (Fin q) (Fin q) ℂ) (eigs : Fin q → ℂ) (hW : IsUnit W.det) (h : T * W = W * diagonal eigs) :
    IsReal T ∧ (Finset.univ.val.map fun i => star (eigs i)) = Finset.univ.val.map eigs := by
  have hC : IsReal (coeffs U Y V) := (hU.conjTranspose.mul hY).mul hV
  have key : IsReal T := by
    rcases hT with rfl | rfl | rfl
    · exact hP.mul hQ.conjTranspose
    · have hS : ∀ i j, (symUpper (s ∘ Fin.castLE hq) ((coeffs U Y V).submatrix (Fin.castLE hq) (Fin.castLE hq)) i j).im = 0 := by
        intro i j
        simp only [symUpper, of_apply]
        split_ifs <;> simp only [Complex.ofReal_im, Complex.zero_im]
      intro i j
      simp only [computeSymmetric, symAtilde, Bool.false_eq_true, if_false, Matrix.add_apply, Matrix.sub_apply,
        conjTranspose_apply, Complex.add_im, Complex.sub_im, hS, Complex.star_def, Complex.conj_im, diagonal_apply]
      split_ifs <;> simp
    · have hS : ∀ i j, (skewUpper (s ∘ Fin.castLE hq) ((coeffs U Y V).submatrix (Fin.castLE hq) (Fin.castLE hq)) i j).im = 0 := by
        intro i j
        simp only [skewUpper, of_apply, submatrix_apply, Function.comp_apply]
        split_ifs
        · rw [hC]; simp
        · rw [real_entry hC (Fin.castLE hq i), real_entry hC (Fin.castLE hq j), Complex.star_def, Complex.conj_ofReal]
          norm_cast
        · rfl
      intro i j
      simp only [computeSymmetric, skewAtilde, if_true, Matrix.add_apply, Matrix.sub_apply, Matrix.neg_apply,
        conjTranspose_apply, Complex.add_im, Complex.sub_im, Complex.neg_im, hS, Complex.star_def, Complex.conj_im, diagonal_apply]
      split_ifs <;> simp
  exact ⟨key, real_spectrum key W eigs hW h⟩

/-- **C158** (upper triangular), with real factors of `rq` (as the library returns for real data). -/
theorem C158_upper {p q : ℕ} (Y : Matrix (Fin p) m ℂ) (R : Matrix (Fin p) (Fin q) ℂ) (Q : Matrix (Fin q) m ℂ)
    (Rinv : Matrix (Fin q) (Fin p) ℂ) (hY : IsReal Y) (hR : IsReal R) (hQ : IsReal Q) (hP : IsPinv R Rinv) :
    IsReal (upperTriangular Y Q Rinv) ∧ IsReal (rot180 (upperTriangular (flipud Y) Q Rinv)) := by
  have key : ∀ Z : Matrix (Fin p) m ℂ, IsReal Z → IsReal (upperTriangular Z Q Rinv) := by
    intro Z hZ
    refine IsReal.mul (fun i j => ?_) (pinv_real hR hP)
    simp only [triu, of_apply]
    split_ifs
    · exact hZ.mul hQ.conjTranspose i j
    · rfl
  exact ⟨key Y hY, fun i j => key (flipud Y) (fun i j => hY _ j) _ _⟩

end Factors

end Verif.PidmdReal
