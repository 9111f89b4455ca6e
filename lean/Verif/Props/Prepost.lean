import Verif.Model.Prepost
import Verif.Lemmas.LinAlg

/-!
# Properties C24, C25, C57: pre/post-processing wrappers
-/

set_option autoImplicit false

namespace Verif.Prepost

open Verif Verif.LinAlg Matrix

variable {m n r : Type} [Fintype m] [Fintype n] [Fintype r] [DecidableEq r]

/-- **C24** (zero mean). The data handed to the DMD sum to zero (over all entries, respectively
over time for `axis=1`), and post-processing gives back the data. -/
theorem C24_zero_mean [Nonempty m] [Nonempty n] (X : Matrix m n ℂ) :
    (∑ i, ∑ j, (zeroMeanAll.pre X).2 i j = 0) ∧
    (∀ i, ∑ j, (zeroMeanTime.pre X).2 i j = 0) ∧
    zeroMeanAll.post (zeroMeanAll.pre X).1 (zeroMeanAll.pre X).2 = X ∧
    zeroMeanTime.post (zeroMeanTime.pre X).1 (zeroMeanTime.pre X).2 = X := by
  have hm : (Fintype.card m : ℂ) ≠ 0 := Nat.cast_ne_zero.mpr Fintype.card_ne_zero
  have hn : (Fintype.card n : ℂ) ≠ 0 := Nat.cast_ne_zero.mpr Fintype.card_ne_zero
  refine ⟨?_, fun i => ?_, ?_, ?_⟩
  · simp only [zeroMeanAll, Finset.sum_sub_distrib, Finset.sum_const, Finset.card_univ,
      nsmul_eq_mul, meanAll]
    push_cast
    field_simp
    ring
  · simp only [zeroMeanTime, Finset.sum_sub_distrib, Finset.sum_const, Finset.card_univ,
      nsmul_eq_mul, meanTime]
    field_simp
    ring
  · funext i j; simp [zeroMeanAll]
  · funext i j; simp [zeroMeanTime]

/-- Orthogonal projection: `Q Q^H X` is the closest to `X` among the matrices `Q B`. -/
private theorem proj_best (Q : Matrix m r ℂ) (hQ : Qᴴ * Q = 1) (X : Matrix m n ℂ)
    (B : Matrix r n ℂ) : frobSq (Q * (Qᴴ * X) - X) ≤ frobSq (Q * B - X) := by
  have e : Q * B - X = (Q * (Qᴴ * X) - X) + Q * (B - Qᴴ * X) := by
    rw [Matrix.mul_sub]; abel
  rw [e, frobSq_add]
  have h0 : (Q * (Qᴴ * X) - X)ᴴ * (Q * (B - Qᴴ * X)) = 0 := by
    have : Qᴴ * (Q * (Qᴴ * X) - X) = 0 := by
      rw [Matrix.mul_sub, ← Matrix.mul_assoc, hQ, Matrix.one_mul, sub_self]
    rw [← Matrix.mul_assoc, ← conjTranspose_conjTranspose Q, ← conjTranspose_mul,
      conjTranspose_conjTranspose, this, conjTranspose_zero, Matrix.zero_mul]
  rw [h0]
  have := frobSq_nonneg (Q * (B - Qᴴ * X))
  simp
  linarith

/-- **C24** (randomized). With `Q` having orthonormal columns (the `Q` factor of a QR
decomposition), post after pre is the orthogonal projection onto the range of `Q`: the best
approximation of `X` from that range, and `X` itself if the range contains `X`. -/
theorem C24_randomized (Q : Matrix m r ℂ) (hQ : Qᴴ * Q = 1) (X : Matrix m n ℂ) :
    (∀ B : Matrix r n ℂ, frobSq (randPost (randPre Q X).1 (randPre Q X).2 - X) ≤
      frobSq (Q * B - X)) ∧
    ((∃ B : Matrix r n ℂ, X = Q * B) → randPost (randPre Q X).1 (randPre Q X).2 = X) := by
  have e : randPost (randPre Q X).1 (randPre Q X).2 = Q * (Qᴴ * X) := by
    simp [randPost, randPre]
  rw [e]
  refine ⟨proj_best Q hQ X, ?_⟩
  rintro ⟨B, rfl⟩
  rw [← Matrix.mul_assoc Qᴴ, hQ, Matrix.one_mul]

/-- **C24** (SVD projection, real data; partial). If the projection matrix is real, with
orthonormal columns, the same holds for SVD projection; in particular the data of an
untruncated SVD are returned unchanged. Missing: complex data, see
`C24_svd_projection_complex_false`. -/
theorem C24_svd_projection_partial (U : Matrix m r ℂ) (hU : Uᴴ * U = 1)
    (hreal : ∀ i j, (U i j).im = 0) (X : Matrix m n ℂ) :
    (∀ B : Matrix r n ℂ, frobSq (svdPost U (svdPre U X) - X) ≤ frobSq (U * B - X)) ∧
    (∀ (s : r → ℝ) (V : Matrix n r ℂ), IsSVD X U s V → svdPost U (svdPre U X) = X) := by
  have ht : Uᵀ = Uᴴ := by
    ext i j
    rw [transpose_apply, conjTranspose_apply, Complex.star_def, Complex.conj_eq_iff_im.mpr
      (hreal j i)]
  have e : svdPost U (svdPre U X) = U * (Uᴴ * X) := by rw [svdPost, svdPre, ht]
  rw [e]
  refine ⟨proj_best U hU X, fun s V h => ?_⟩
  rw [h.eq, Matrix.mul_assoc U, ← Matrix.mul_assoc Uᴴ, hU, Matrix.one_mul]

/-- **C24** fails for complex data with SVD projection: the pre-processing uses the transpose, not
the conjugate transpose. For the data `(1, i)` the wrapped DMD is fitted on 0. -/
theorem C24_svd_projection_complex_false :
    ∃ (X U : Matrix (Fin 2) (Fin 1) ℂ) (s : Fin 1 → ℝ) (V : Matrix (Fin 1) (Fin 1) ℂ),
      IsSVD X U s V ∧ X ≠ 0 ∧ svdPre U X = 0 ∧ svdPost U (svdPre U X) = 0 := by
  have h2 : Real.sqrt 2 * Real.sqrt 2 = 2 := Real.mul_self_sqrt (by norm_num)
  have h2c : (Real.sqrt 2 : ℂ) * (Real.sqrt 2 : ℂ) = 2 := by exact_mod_cast h2
  have h0 : (Real.sqrt 2 : ℂ) ≠ 0 := by
    intro h; rw [h] at h2c; norm_num at h2c
  have hi : (Real.sqrt 2 : ℂ)⁻¹ * (Real.sqrt 2 : ℂ)⁻¹ = 1 / 2 := by
    rw [← mul_inv, h2c]; norm_num
  have hz : svdPre (!![(Real.sqrt 2 : ℂ)⁻¹; (Real.sqrt 2 : ℂ)⁻¹ * Complex.I])
      (!![1; Complex.I] : Matrix (Fin 2) (Fin 1) ℂ) = 0 := by
    ext i j; fin_cases i; fin_cases j
    simp [svdPre, Matrix.mul_apply, Fin.sum_univ_two, mul_assoc]
  refine ⟨!![1; Complex.I], !![(Real.sqrt 2 : ℂ)⁻¹; (Real.sqrt 2 : ℂ)⁻¹ * Complex.I],
    fun _ => Real.sqrt 2, 1, ⟨?_, ?_, by simp, fun _ => Real.sqrt_nonneg _⟩, ?_, hz, ?_⟩
  · ext i j; fin_cases i <;> fin_cases j
    · simp [rdiag, h0]
    · simp [rdiag]
      rw [mul_right_comm, inv_mul_cancel₀ h0, one_mul]
  · ext i j; fin_cases i; fin_cases j
    simp [Matrix.mul_apply, Fin.sum_univ_two]
    have : (Real.sqrt 2 : ℂ)⁻¹ * Complex.I * ((Real.sqrt 2 : ℂ)⁻¹ * Complex.I) = -(1 / 2) := by
      calc _ = ((Real.sqrt 2 : ℂ)⁻¹ * (Real.sqrt 2 : ℂ)⁻¹) * (Complex.I * Complex.I) := by ring
        _ = _ := by rw [hi, Complex.I_mul_I]; ring
    linear_combination hi - this
  · intro h
    have := congrFun (congrFun h 0) 0
    simp at this
  · rw [hz]; simp [svdPost]

/-! ## C25 -/

variable {D B : Type}

/-- **C25** (round trip). For every stack of layers, each of which undoes its own pre-processing,
around a DMD that reproduces its training data (the data it was fitted on, here recorded by
`trained`): after `fit(X)`, `reconstructed_data` is `X`, and the DMD was fitted on the data
transformed by all layers, outermost first. -/
theorem C25_round_trip (c : Base D B) (b : B) (trained : B → D)
    (ht : ∀ b x, trained (c.fit b x) = x) (hrec : ∀ b x, c.recon (c.fit b x) = x)
    (ls : List (Layer D)) (hls : ∀ l ∈ ls, ∀ x, l.post (l.pre x).1 (l.pre x).2 = x) (x : D) :
    ((Obj.stack ls b).fit c x).recon c = .ok x ∧
    ∃ b', (Obj.stack ls b).fitReturn c x = .base b' ∧
      trained b' = ls.foldl (fun y l => (l.pre y).2) x := by
  induction ls generalizing x with
  | nil =>
    exact ⟨by simp [Obj.stack, Obj.fit, Obj.recon, hrec], _, rfl, by simp [ht]⟩
  | cons l ls ih =>
    have hl := hls l List.mem_cons_self
    obtain ⟨ih1, b', hb', ih2⟩ := ih (fun k hk => hls k (List.mem_cons_of_mem _ hk)) (l.pre x).2
    refine ⟨?_, b', ?_, by rw [ih2, List.foldl_cons]⟩
    · simp only [Obj.stack, Obj.fit, Obj.recon, ih1, bind, Except.bind, pure, Except.pure, hl]
    · simpa only [Obj.stack, Obj.fitReturn] using hb'

/-- **C25** (order and states). For a layer around any wrapped object `o` (itself any stack), with
any earlier state: after `fit(X)` the object `o` has been fitted on the pre-processed data, and the
reconstruction is the post-processing, with the state produced from `X`, of the reconstruction
of `o`. -/
theorem C25_order (c : Base D B) (l : Layer D) (o : Obj D B) (st : Option l.S)
    (sh : Option Time.Window) (x y : D) (h : (o.fit c (l.pre x).2).recon c = .ok y) :
    ((Obj.wrap l st sh o).fit c x).recon c = .ok (l.post (l.pre x).1 y) := by
  simp only [Obj.fit, Obj.recon, h, bind, Except.bind, pure, Except.pure]

/-- **C25** (refit). For every stack, what was fitted before does not matter, if it does not matter
to the wrapped DMD. -/
theorem C25_refit (c : Base D B) (hc : ∀ b x x', c.fit (c.fit b x) x' = c.fit b x') (o : Obj D B)
    (x x' : D) : (o.fit c x).fit c x' = o.fit c x' := by
  induction o generalizing x x' with
  | base b => simp [Obj.fit, hc]
  | wrap l st sh inner ih => simp [Obj.fit, ih]

/-- A DMD that returns what it was fitted on. -/
def echo : Base ℤ (ℤ × Time.Window) where
  fit b x := (x, b.2)
  window b := b.2
  setWindow b w := (b.1, w)
  recon b := if b.2.tend = 5 then 0 else b.1

/-- The layer `x ↦ x - 3`. -/
def shift3 : Layer ℤ := ⟨ℤ, fun x => (3, x - 3), fun s y => y + s⟩

/-- Instance for C25: two layers around a DMD that reproduces its data. -/
example : ((Obj.stack [shift3, ⟨Unit, fun x => ((), -x), fun _ y => -y⟩] (0, ⟨0, 1, 1⟩)).fit
    echo 10).recon echo = .ok 10 := by decide +kernel

/-! ## C57 -/

/-- **C57** (partial). Reading `dmd_time` after in-place edits of its items gives the edited
dictionary, and if nobody assigned `dmd_time` on a wrapper, the edit reaches the wrapped DMD.
Missing: assignment of `dmd_time`, and the return value of `fit`, refuted below. -/
theorem C57_edit_partial (c : Base D B) (hc : ∀ b w, c.window (c.setWindow b w) = w)
    (ls : List (Layer D)) (b : B) (f : Time.Window → Time.Window) :
    ((Obj.stack ls b).editWindow c f).window c = f ((Obj.stack ls b).window c) ∧
    (Obj.stack ls b).editWindow c f = Obj.stack ls (c.setWindow b (f (c.window b))) := by
  induction ls with
  | nil => exact ⟨by simp [Obj.stack, Obj.editWindow, Obj.window, hc], rfl⟩
  | cons l ls ih =>
    exact ⟨by simpa only [Obj.stack, Obj.editWindow, Obj.window] using ih.1,
      by simp only [Obj.stack, Obj.editWindow, ih.2]⟩

/-- **C57** fails: `wrapped.dmd_time = d` leaves the wrapped DMD's window as it was, so
`reconstructed_data` ignores it, although reading `dmd_time` gives `d`. (With the wrapped DMD
itself, the assignment takes effect.) -/
theorem C57_assign_false :
    ∃ w : Time.Window,
      let o := (Obj.stack [shift3] (0, ⟨0, 1, 1⟩)).fit echo 10
      (o.assignWindow echo w).window echo = w ∧
      (o.assignWindow echo w).recon echo = o.recon echo ∧
      (o.editWindow echo fun _ => w).recon echo ≠ o.recon echo :=
  ⟨⟨0, 5, 1⟩, by decide +kernel, by decide +kernel, by decide +kernel⟩

/-- **C57** fails: `fit` of a wrapped DMD returns the innermost DMD, so the chained call
`wrapped.fit(X).reconstructed_data` is not post-processed. -/
theorem C57_fit_returns_inner_false :
    ((Obj.stack [shift3] (0, ⟨0, 1, 1⟩)).fit echo 10).recon echo = .ok 10 ∧
    ((Obj.stack [shift3] (0, ⟨0, 1, 1⟩)).fitReturn echo 10).recon echo = .ok 7 := by
  constructor <;> decide +kernel

end Verif.Prepost
