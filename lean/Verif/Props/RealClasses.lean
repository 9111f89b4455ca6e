import Verif.Props.RealData
import Verif.Model.OptDmd
import Verif.Model.Dmdc
import Verif.Model.Edmd
import Verif.Model.Subspace
import Verif.Model.Compressed

/-!
# C164: real data in the other classes

As `C133`, for `DMDc`, `OptDMD`, `EDMD`, `SubspaceDMD` and `CDMD`. The library routines return real singular vectors for
real matrices and eigenvectors in conjugate pairs.
-/

set_option autoImplicit false

namespace Verif.RealData

open Verif Verif.LinAlg Matrix

variable {m n r k : Type} [Fintype m] [Fintype n] [Fintype r] [Fintype k] [DecidableEq r] [DecidableEq k]

/-! ### Helpers -/

theorem paired_mul {a : Type} {B : Matrix a r ℂ} (hB : IsReal B) {σ : Equiv.Perm r} {W : Matrix r r ℂ} {eigs : r → ℂ}
    (h : Paired σ W eigs) : Paired σ (B * W) eigs := by
  refine ⟨fun i j => ?_, h.val⟩
  simp only [Matrix.mul_apply, star_sum, star_mul']
  refine Finset.sum_congr rfl fun k _ => ?_
  rw [h.vec, show star (B i k) = B i k from Complex.conj_eq_iff_im.mpr (hB i k)]

theorem isReal_rdiag (s : r → ℝ) : IsReal (rdiag s) := (isReal_iff _).mpr (rdiag_real s)

theorem IsReal.sub {A B : Matrix m n ℂ} (hA : IsReal A) (hB : IsReal B) : IsReal (A - B) := by
  intro i j
  simp [hA i j, hB i j]

theorem IsReal.submatrix {a b : Type} {A : Matrix m n ℂ} (hA : IsReal A) (f : a → m) (g : b → n) :
    IsReal (A.submatrix f g) := fun i j => hA (f i) (g j)

theorem pinv_paired [DecidableEq m] {σ : Equiv.Perm r} {modes : Matrix m r ℂ} {eigs : r → ℂ} (h : Paired σ modes eigs)
    {P : Matrix r m ℂ} (hP : IsPinv modes P) (j : r) (i : m) : star (P j i) = P (σ j) i := by
  have := C133_amplitudes σ modes eigs h P hP (Pi.single i 1) (fun a => by by_cases ha : a = i <;> simp [Pi.single_apply, ha]) j
  simpa [mulVec_single] using this

/-- The operator `modes diag(eigs ^ k) pinv(modes)` is real. -/
theorem isReal_operator [DecidableEq m] {σ : Equiv.Perm r} {modes : Matrix m r ℂ} {eigs : r → ℂ} (h : Paired σ modes eigs)
    {P : Matrix r m ℂ} (hP : IsPinv modes P) (p : ℤ) : IsReal (modes * diagonal (fun i => eigs i ^ p) * P) := by
  intro a b
  rw [← Complex.conj_eq_iff_im]
  rw [Matrix.mul_apply, map_sum]
  simp only [mul_diagonal]
  refine (Finset.sum_congr rfl fun j _ => ?_).trans (Equiv.sum_comp σ fun j => modes a j * eigs j ^ p * P j b)
  have e1 := h.vec a j
  have e2 := h.val j
  have e3 := pinv_paired h hP j b
  rw [← e1, ← e2, ← e3, ← star_zpow₀]
  simp

/-! ### `DMDc` -/

/-- **C164** (`DMDc` with given `B`): for real snapshots, controls and `B` the reduced operator is real, its eigenvalues come in
conjugate pairs, and the modes of conjugate eigenvectors are conjugate. -/
theorem C164_dmdc_known {c : ℕ} (U : Matrix m r ℂ) (s : r → ℝ) (V : Matrix n r ℂ) (Y : Matrix m n ℂ) (B : Matrix m (Fin c) ℂ)
    (I : Matrix (Fin c) n ℂ) (hU : IsReal U) (hV : IsReal V) (hY : IsReal Y) (hB : IsReal B) (hI : IsReal I) (W : Matrix r r ℂ)
    (eigs : r → ℂ) (h : Dmdc.knownOperator U s V Y B I * W = W * diagonal eigs) :
    (IsUnit W.det → (Finset.univ.val.map fun i => star (eigs i)) = Finset.univ.val.map eigs) ∧
      ∀ σ, Paired σ W eigs → Paired σ (Dmdc.knownModes U s V Y B I W) eigs := by
  classical
  have hYB : IsReal (Y - B * I) := hY.sub (hB.mul hI)
  refine ⟨fun hW => (C133_spectrum none U s V _ hU hV hYB).2 W eigs hW h, fun σ hσ => ?_⟩
  exact C133_modes true none U s V _ hU hV hYB σ W eigs hσ

/-- **C164** (`DMDc` without `B`): the same, and the matrix `B` that is found is real. -/
theorem C164_dmdc_unknown {c : ℕ} (Y : Matrix m n ℂ) (Up : Matrix (m ⊕ Fin c) k ℂ) (sp : k → ℝ) (Vp : Matrix n k ℂ)
    (Ur : Matrix m r ℂ) (hY : IsReal Y) (hUp : IsReal Up) (hVp : IsReal Vp) (hUr : IsReal Ur) (W : Matrix r r ℂ) (eigs : r → ℂ)
    (h : Dmdc.unknownOperator Y Up sp Vp Ur * W = W * diagonal eigs) :
    IsReal (Dmdc.unknownB Y Up sp Vp Ur) ∧
      (IsUnit W.det → (Finset.univ.val.map fun i => star (eigs i)) = Finset.univ.val.map eigs) ∧
      ∀ σ, Paired σ W eigs → Paired σ (Dmdc.unknownModes Y Up sp Vp Ur W) eigs := by
  classical
  have hu : IsReal (Dmdc.upper Up) := hUp.submatrix _ _
  have hl : IsReal (Dmdc.lower Up) := hUp.submatrix _ _
  refine ⟨hUr.mul ((((hUr.conjTranspose.mul hY).mul hVp).mul (isReal_rdiag _)).mul hl.conjTranspose), fun hW => ?_, fun σ hσ => ?_⟩
  · refine real_spectrum ?_ W eigs hW h
    exact (((((hUr.conjTranspose.mul hY).mul hVp).mul (isReal_rdiag _)).mul hu.conjTranspose).mul hUr)
  · exact paired_mul ((((hY.mul hVp).mul (isReal_rdiag _)).mul hu.conjTranspose).mul hUr) hσ

theorem controlLoop_real {c : ℕ} {A : Matrix m m ℂ} {B : Matrix m (Fin c) ℂ} (hA : IsReal A) (hB : IsReal B)
    (us : List (List ℂ)) (hus : ∀ u ∈ us, ∀ z ∈ u, z.im = 0) (i : ℕ) (data out : List (m → ℂ))
    (hd : ∀ x ∈ data, ∀ a, (x a).im = 0) (h : Dmdc.controlLoop A B i data us = .ok out) : ∀ x ∈ out, ∀ a, (x a).im = 0 := by
  induction us generalizing i data with
  | nil =>
    simp only [Dmdc.controlLoop, Except.ok.injEq] at h
    exact h ▸ hd
  | cons u us ih =>
    simp only [Dmdc.controlLoop] at h
    split at h
    · cases h
    · rename_i hl
      split at h
      · cases h
      · rename_i x hx
        refine ih (fun u' hu' => hus u' (List.mem_cons_of_mem _ hu')) _ _ (fun y hy => ?_) h
        rcases List.mem_append.mp hy with hy | hy
        · exact hd y hy
        · rw [List.mem_singleton] at hy
          subst hy
          intro a
          have hxr := hd x (List.mem_of_getElem? hx)
          simp only [Pi.add_apply, Complex.add_im, mulVec, dotProduct, Complex.im_sum, Complex.mul_im]
          rw [Finset.sum_eq_zero fun j _ => by rw [hxr j, hA a j]; ring, Finset.sum_eq_zero fun j _ => ?_, add_zero]
          have : (u.getD j 0).im = 0 := by
            have hj : (j : ℕ) < u.length := by
              have := j.2
              have hl' : u.length = c := by simpa using hl
              omega
            rw [List.getD_eq_getElem?_getD, List.getElem?_eq_getElem hj]
            exact hus u (by simp) _ (List.getElem_mem hj)
          rw [this, hB a j]
          ring

/-- **C164** (`DMDc`, reconstruction): with real snapshots, a real `B`, real controls and modes in conjugate pairs,
`reconstructed_data` is real, with the controls of the fit and with new ones, for every window. -/
theorem C164_dmdc_reconstruction [DecidableEq m] {c : ℕ} (σ : Equiv.Perm r) (modes : Matrix m r ℂ) (eigs : r → ℂ)
    (h : Paired σ modes eigs) (P : Matrix r m ℂ) (hP : IsPinv modes P) (B : Matrix m (Fin c) ℂ) (hB : IsReal B)
    (snapshots : List (m → ℂ)) (hs : ∀ x ∈ snapshots, ∀ a, (x a).im = 0) (lag : ℕ) (orig dmd : Time.Window)
    (controlin : Dmdc.Control) (controlInput : Option Dmdc.Control)
    (hc : ∀ cols, controlInput.getD controlin = .two cols → ∀ u ∈ cols, ∀ z ∈ u, z.im = 0) (out : List (m → ℂ))
    (ho : Dmdc.reconstructedData modes eigs P B snapshots lag orig dmd controlin controlInput = .ok out) :
    ∀ x ∈ out, ∀ a, (x a).im = 0 := by
  have ht : ∀ x ∈ snapshots.take lag, ∀ a, (x a).im = 0 := fun x hx => hs x (List.mem_of_mem_take hx)
  simp only [Dmdc.reconstructedData] at ho
  split at ho
  · cases ho
  · split at ho
    · cases ho
    · split at ho
      · cases ho
      · split at ho
        · rename_i cols hcols
          exact controlLoop_real (isReal_operator h hP _) hB cols (hc cols hcols) 0 _ _ ht ho
        · simp only [Except.ok.injEq] at ho
          exact ho ▸ ht
        · cases ho

/-! ### `OptDMD` -/

theorem isReal_pinvDiag (q : OptDmd.Prec) (s : r → ℝ) : IsReal (OptDmd.pinvDiag q s) := isReal_rdiag _

/-- **C164** (`OptDMD`): for real data the reduced operator is real and the eigenvalues come in conjugate pairs; so do the modes of
`factorization="evd"`, unless the real part of an eigenvalue is exactly the threshold of `pinv_diag` (missing, see `C164_optdmd_false`); the predictions
of `factorization="svd"` for real inputs are real. -/
theorem C164_optdmd_partial (q : OptDmd.Prec) (Y : Matrix m n ℂ) (U : Matrix m k ℂ) (s : k → ℝ) (V : Matrix n k ℂ) (Uz : Matrix m r ℂ)
    (hY : IsReal Y) (hU : IsReal U) (hV : IsReal V) (hUz : IsReal Uz) (W : Matrix r r ℂ) (eigs : r → ℂ)
    (h : OptDmd.atilde (OptDmd.matQ q Y U s V Uz) Uz * W = W * diagonal eigs) :
    (IsUnit W.det → (Finset.univ.val.map fun i => star (eigs i)) = Finset.univ.val.map eigs) ∧
      (∀ σ, Paired σ W eigs → (∀ i, (eigs i).re ≠ OptDmd.rcond q) →
        Paired σ (OptDmd.rightVecs q Uz (OptDmd.matQ q Y U s V Uz) eigs W) eigs) ∧
      ∀ (X out : Matrix m (Fin 1) ℂ), IsReal X →
        OptDmd.predict .svd (OptDmd.fitSpaces .svd q Uz (OptDmd.matQ q Y U s V Uz) eigs W) X = .ok out → IsReal out := by
  classical
  have hQ : IsReal (OptDmd.matQ q Y U s V Uz) :=
    ((((hUz.conjTranspose.mul hY).mul hV).mul (isReal_pinvDiag q s)).mul hU.conjTranspose).conjTranspose
  have hA : IsReal (OptDmd.atilde (OptDmd.matQ q Y U s V Uz) Uz) := hQ.conjTranspose.mul hUz
  refine ⟨fun hW => real_spectrum hA W eigs hW h, fun σ hσ hr => ?_, fun X out hX ho => ?_⟩
  · have hp := paired_mul (hUz.mul hA) hσ
    refine ⟨fun i j => ?_, hσ.val⟩
    have hd : ∀ M : Matrix m r ℂ, ∀ i j, (M * OptDmd.pinvDiagC q eigs) i j =
        M i j * (((if OptDmd.Gt (eigs j) (OptDmd.rcond q) then ((eigs j)⁻¹).re else 0 : ℝ)) : ℂ) := by
      intro M i j
      rw [OptDmd.pinvDiagC, rdiag, mul_diagonal]
    rw [OptDmd.rightVecs, hd, hd, star_mul', hp.vec]
    congr 1
    have e : (OptDmd.Gt (eigs (σ j)) (OptDmd.rcond q)) ↔ OptDmd.Gt (eigs j) (OptDmd.rcond q) := by
      rw [← hσ.val j]
      simp [OptDmd.Gt, hr j]
    have e2 : ((eigs (σ j))⁻¹).re = ((eigs j)⁻¹).re := by
      rw [← hσ.val j, ← star_inv₀]
      simp
    simp only [e, e2]
    simp
  · simp only [OptDmd.predict, OptDmd.fitSpaces, Except.ok.injEq] at ho
    rw [← ho]
    exact (hUz.mul hQ.conjTranspose).mul hX

/-- **C164** is false for `OptDMD` if the real part of a pair is exactly the threshold: numpy compares complex numbers by their
imaginary parts then, so that one mode of the pair is zero and the other is not (disagreement D220). -/
theorem C164_optdmd_false : ∃ (Y W : Matrix (Fin 2) (Fin 2) ℂ) (s : Fin 2 → ℝ) (eigs : Fin 2 → ℂ) (σ : Equiv.Perm (Fin 2)),
    IsReal Y ∧ OptDmd.atilde (OptDmd.matQ .double Y 1 s 1 (1 : Matrix (Fin 2) (Fin 2) ℂ)) 1 * W = W * diagonal eigs ∧
      Paired σ W eigs ∧ ¬ ∃ τ, Paired τ (OptDmd.rightVecs .double 1 (OptDmd.matQ .double Y 1 s 1 (1 : Matrix (Fin 2) (Fin 2) ℂ))
        eigs W) eigs := by
  have hc : 0 < OptDmd.rcond .double ∧ OptDmd.rcond .double < 1 := by
    constructor <;> norm_num [OptDmd.rcond]
  generalize hcc : OptDmd.rcond .double = c at hc
  have hQ : ∀ Y : Matrix (Fin 2) (Fin 2) ℂ,
      OptDmd.matQ .double Y 1 (fun _ : Fin 2 => (1 : ℝ)) 1 (1 : Matrix (Fin 2) (Fin 2) ℂ) = Yᴴ := by
    intro Y
    have : OptDmd.pinvDiag .double (fun _ : Fin 2 => (1 : ℝ)) = 1 := by
      simp [OptDmd.pinvDiag, hcc, hc.2, rdiag]
    simp [OptDmd.matQ, this]
  have hI : Complex.I * Complex.I = -1 := Complex.I_mul_I
  refine ⟨!![(c : ℂ), -1; 1, c], !![1, 1; -Complex.I, Complex.I], fun _ => 1, ![c + Complex.I, c - Complex.I], Equiv.swap 0 1,
    ?_, ?_, ⟨?_, ?_⟩, ?_⟩
  · intro i j; fin_cases i <;> fin_cases j <;> simp
  · rw [hQ, OptDmd.atilde, conjTranspose_conjTranspose]
    ext i j
    fin_cases i <;> fin_cases j <;> simp [Matrix.mul_apply, Fin.sum_univ_two] <;>
      first | linear_combination hI | linear_combination -hI | ring
  · intro i j
    fin_cases i <;> fin_cases j <;> simp
  · intro j
    fin_cases j <;> simp [sub_eq_add_neg]
  · rintro ⟨τ, hτ⟩
    have e : ∀ j, OptDmd.rightVecs .double 1 (OptDmd.matQ .double !![(c : ℂ), -1; 1, c] 1 (fun _ : Fin 2 => (1 : ℝ)) 1
        (1 : Matrix (Fin 2) (Fin 2) ℂ)) ![c + Complex.I, c - Complex.I] !![1, 1; -Complex.I, Complex.I] 0 j =
        ![(c + Complex.I) * ((((c : ℂ) + Complex.I)⁻¹).re : ℂ), 0] j := by
      intro j
      rw [hQ, OptDmd.rightVecs, OptDmd.atilde, conjTranspose_conjTranspose, OptDmd.pinvDiagC, rdiag, mul_diagonal]
      fin_cases j <;> simp [OptDmd.Gt, hcc, Matrix.mul_apply, Fin.sum_univ_two]
    have hre : (((c : ℂ) + Complex.I)⁻¹).re ≠ 0 := by
      rw [Complex.inv_re]
      have : Complex.normSq ((c : ℂ) + Complex.I) ≠ 0 := by
        simp only [Complex.normSq_apply, Complex.add_re, Complex.ofReal_re, Complex.I_re, Complex.add_im, Complex.ofReal_im,
          Complex.I_im]
        nlinarith [hc.1]
      simp [hc.1.ne', this]
    have hne : (c : ℂ) + Complex.I ≠ 0 := by
      intro h
      have := congrArg Complex.im h
      simp at this
    -- the partner of the first eigenvalue is the second, whose mode is zero
    have hv := hτ.val 0
    have ht : τ 0 = 1 := by
      by_contra h
      have h0 : τ 0 = 0 := by omega
      rw [h0] at hv
      have := congrArg Complex.im hv
      simp at this
      linarith
    have hm := hτ.vec 0 0
    rw [ht, e, e] at hm
    simp at hm
    rcases hm with hm | hm
    · have := congrArg Complex.im hm
      simp at this
    · exact hre (by simpa using hm)

/-! ### `EDMD` -/

theorem isReal_toC {a b : Type} (M : Matrix a b ℝ) : IsReal (Edmd.toC M) := fun i j => by simp [Edmd.toC]

/-- **C164** (`EDMD`): the eigenvalues come in conjugate pairs and the threshold keeps or drops both of a pair; if the eigenvectors
do, the eigenfunctions at every point and the modes are conjugate too. -/
theorem C164_edmd {d N : ℕ} (ker : (Fin d → ℝ) → (Fin d → ℝ) → ℝ) (svdRank : Rank.SvdRank ℝ) (X Y : Matrix (Fin d) (Fin N) ℝ)
    (f : Edmd.Fit ker svdRank X Y) :
    (Finset.univ.val.map fun i => star (f.eigs i)) = Finset.univ.val.map f.eigs ∧
      ∀ σ, Paired σ f.V f.eigs → (∀ i, Edmd.Kept f.eigs (σ i) ↔ Edmd.Kept f.eigs i) ∧ Paired σ f.modes f.eigs ∧
        ∀ (x : Fin d → ℝ) (out : Fin f.svd.r → ℂ), Edmd.eigenfunctions ker X f.svd.Q f.svd.s f.V x = .ok out →
          ∀ i, star (out i) = out (σ i) := by
  have hV : IsUnit f.V.det := (Matrix.isUnit_iff_isUnit_det _).mp f.inv
  refine ⟨real_spectrum (isReal_toC _) f.V f.eigs hV f.eig, fun σ hσ => ⟨fun i => ?_, ⟨fun i j => ?_, hσ.val⟩, ?_⟩⟩
  · rw [Edmd.Kept, Edmd.Kept, ← hσ.val i, norm_star]
  · -- the inverse of the eigenvectors has paired rows
    have hinv : ∀ a b, star (f.V⁻¹ a b) = f.V⁻¹ (σ a) b := by
      have e : (of fun a b => star (f.V⁻¹ (σ.symm a) b)) * f.V = 1 := by
        ext a b
        have h1 := congrFun (congrFun (nonsing_inv_mul f.V hV) (σ.symm a)) (σ.symm b)
        have h2 := congrArg star h1
        rw [Matrix.mul_apply, star_sum] at h2
        rw [Matrix.mul_apply]
        simp only [of_apply]
        refine (Finset.sum_congr rfl fun c _ => ?_).trans (h2.trans ?_)
        · rw [star_mul', hσ.vec, Equiv.apply_symm_apply]
        · by_cases hab : a = b
          · subst hab; simp
          · rw [Matrix.one_apply_ne hab, Matrix.one_apply_ne (fun h => hab (σ.symm.injective h)), star_zero]
      have e2 := inv_eq_left_inv e
      intro a b
      have := congrFun (congrFun e2 (σ a)) b
      simp only [of_apply, Equiv.symm_apply_apply] at this
      exact this.symm
    have hB := ((isReal_toC X).mul (isReal_toC f.svd.Q)).mul (isReal_toC (Edmd.pinvDiag f.svd.s))
    simp only [Edmd.Fit.modes, Edmd.modes]
    rw [Matrix.mul_apply, Matrix.mul_apply, star_sum]
    refine Finset.sum_congr rfl fun c _ => ?_
    rw [star_mul', transpose_apply, transpose_apply, hinv, show star _ = _ from Complex.conj_eq_iff_im.mpr (hB i c)]
  · intro x out ho i
    simp only [Edmd.eigenfunctions, dif_pos, Except.ok.injEq] at ho
    rw [← ho]
    exact (paired_mul (isReal_toC _) hσ).vec 0 i

/-! ### `SubspaceDMD` and `CDMD` -/

/-- **C164** (`SubspaceDMD`): with real singular vectors the eigenvalues come in conjugate pairs, and the modes of conjugate
eigenvectors are conjugate, or both not numbers. -/
theorem C164_subspace {d p : ℕ} {a : Type} [Fintype a] (U : Matrix (Fin d) (Fin p) ℂ) (s : Fin p → ℝ) (V : Matrix a (Fin p) ℂ)
    (Uq2 : Matrix (Fin d) a ℂ) (hU : IsReal U) (hV : IsReal V) (h2 : IsReal Uq2) (At W : Matrix (Fin p) (Fin p) ℂ)
    (eigs : Fin p → ℂ) (hAt : Subspace.computeOperator .none U s V Uq2 = .ok At) (h : At * W = W * diagonal eigs) :
    (IsUnit W.det → (Finset.univ.val.map fun i => star (eigs i)) = Finset.univ.val.map eigs) ∧
      ∀ σ, Paired σ W eigs → ∀ i j, Subspace.computeModes s V Uq2 eigs W i (σ j) =
        (Subspace.computeModes s V Uq2 eigs W i j).map star := by
  classical
  have e : At = Operator.leastSquareOperator none U s V Uq2 := by
    simpa [Subspace.computeOperator, Operator.scaledOperator, Operator.RescaleAttr.mode] using hAt.symm
  subst e
  refine ⟨fun hW => (C133_spectrum none U s V _ hU hV h2).2 W eigs hW h, fun σ hσ i j => ?_⟩
  have hp := paired_mul ((h2.mul hV).mul (isReal_rdiag fun i => (s i)⁻¹)) hσ
  simp only [Subspace.computeModes, of_apply]
  have hz : eigs (σ j) = 0 ↔ eigs j = 0 := by rw [← hσ.val j, star_eq_zero]
  by_cases h0 : eigs j = 0
  · rw [if_pos h0, if_pos (hz.mpr h0)]
    rfl
  · rw [if_neg h0, if_neg (fun h => h0 (hz.mp h)), ← hp.vec, ← hσ.val j]
    simp

/-- **C164** (`CDMD`): real snapshots compressed with a real matrix give real compressed snapshots, so the eigenvalues come in
conjugate pairs and the modes of conjugate eigenvectors are conjugate. -/
theorem C164_cdmd {d t p : ℕ} (c : Compressed.Compression) (g : Compressed.Draws (t + 1) d) (S : Matrix (Fin d) (Fin (t + 1)) ℂ)
    (hS : IsReal S) (hg : IsReal g.uniform ∧ IsReal g.sparse ∧ IsReal g.normal)
    (hc : ∀ rows cols C, c = .array rows cols C → ∀ i j, (C i j).im = 0) (cs : Σ k, Matrix (Fin k) (Fin (t + 1)) ℂ)
    (h : Compressed.compressSnapshots c g S = .ok cs) :
    IsReal cs.2 ∧ ∀ (U : Matrix (Fin cs.1) (Fin p) ℂ) (s : Fin p → ℝ) (V : Matrix (Fin t) (Fin p) ℂ), IsReal U → IsReal V →
      ∀ (A W : Matrix (Fin p) (Fin p) ℂ) (eigs : Fin p → ℂ),
        Compressed.computeOperator none .none U s V (Compressed.tail cs.2) = .ok A → A * W = W * diagonal eigs →
        (IsUnit W.det → (Finset.univ.val.map fun i => star (eigs i)) = Finset.univ.val.map eigs) ∧
        ∀ σ, Paired σ W eigs → Paired σ (Compressed.computeModes (Compressed.tail S) s V W) eigs := by
  have hr : IsReal cs.2 := by
    cases c with
    | array rows cols C =>
      simp only [Compressed.compressSnapshots] at h
      split at h
      · cases h
      · cases h
        exact IsReal.mul (fun i j => hc rows cols C rfl i j) hS
    | uniform => cases h; exact hg.1.mul hS
    | sparse => cases h; exact hg.2.1.mul hS
    | normal => cases h; exact hg.2.2.mul hS
    | sample =>
      simp only [Compressed.compressSnapshots] at h
      split at h
      · cases h
      · cases h
        refine IsReal.mul (fun i j => ?_) hS
        simp only [Compressed.sampleMatrix, of_apply]
        split <;> simp
    | other => cases h
  refine ⟨hr, fun U s V hU hV A W eigs hA he => ?_⟩
  have e : A = Operator.leastSquareOperator none U s V (Compressed.tail cs.2) := by
    simpa [Compressed.computeOperator, Operator.scaledOperator, Operator.RescaleAttr.mode] using hA.symm
  subst e
  refine ⟨fun hW => (C133_spectrum none U s V _ hU hV (hr.submatrix _ _)).2 W eigs hW he, fun σ hσ => ?_⟩
  exact paired_mul (((hS.submatrix _ _).mul hV).mul (isReal_rdiag _)) hσ

/-- The hypotheses are met by a quarter turn of the plane with a control, for which the eigenvalues are `i` and `-i`: the operator of
`DMDc`, eigenvectors in conjugate pairs that are a basis, and the pseudo-inverse of the modes. -/
example : ∃ (U V Y W P : Matrix (Fin 2) (Fin 2) ℂ) (s : Fin 2 → ℝ) (B : Matrix (Fin 2) (Fin 1) ℂ) (I : Matrix (Fin 1) (Fin 2) ℂ)
    (eigs : Fin 2 → ℂ) (σ : Equiv.Perm (Fin 2)), IsReal U ∧ IsReal V ∧ IsReal Y ∧ IsReal B ∧ IsReal I ∧ B * I ≠ 0 ∧ IsUnit W.det ∧
      Dmdc.knownOperator U s V Y B I * W = W * diagonal eigs ∧ Paired σ W eigs ∧ eigs 0 = Complex.I ∧ IsPinv W P := by
  have hdet : IsUnit (!![1, 1; -Complex.I, Complex.I] : Matrix (Fin 2) (Fin 2) ℂ).det := by
    rw [det_fin_two_of, isUnit_iff_ne_zero]
    intro h
    have := congrArg Complex.im h
    norm_num at this
  refine ⟨1, 1, !![1, -1; 1, 0], !![1, 1; -Complex.I, Complex.I], (!![1, 1; -Complex.I, Complex.I] : Matrix (Fin 2) (Fin 2) ℂ)⁻¹,
    fun _ => 1, !![1; 0], !![1, 0], ![Complex.I, -Complex.I], Equiv.swap 0 1, ?_, ?_, ?_, ?_, ?_, ?_, hdet, ?_, ⟨?_, ?_⟩, rfl, ?_⟩
  · intro i j; fin_cases i <;> fin_cases j <;> simp
  · intro i j; fin_cases i <;> fin_cases j <;> simp
  · intro i j; fin_cases i <;> fin_cases j <;> simp
  · intro i j; fin_cases i <;> fin_cases j <;> simp
  · intro i j; fin_cases i <;> fin_cases j <;> simp
  · intro h
    have := congrFun (congrFun h 0) 0
    simp at this
  · have e : Dmdc.knownOperator (1 : Matrix (Fin 2) (Fin 2) ℂ) (fun _ : Fin 2 => (1 : ℝ)) 1 !![1, -1; 1, 0] !![1; 0]
        (!![1, 0] : Matrix (Fin 1) (Fin 2) ℂ) = !![0, -1; 1, 0] := by
      rw [Dmdc.knownOperator]
      ext i j
      fin_cases i <;> fin_cases j <;>
        simp [Operator.leastSquareOperator, Operator.tikSigma, rdiag, Matrix.mul_apply, Fin.sum_univ_two]
    rw [e]
    ext i j
    fin_cases i <;> fin_cases j <;> simp [Matrix.mul_apply, Fin.sum_univ_two]
  · intro i j
    fin_cases i <;> fin_cases j <;> simp
  · intro j
    fin_cases j <;> simp
  · constructor <;> simp [mul_nonsing_inv _ hdet, nonsing_inv_mul _ hdet]

end Verif.RealData
