import Verif.Model.Spectrum
import Verif.Props.RealData
import Verif.Props.MrSeparate
import Verif.Lemmas.PinvExists
import Verif.Lemmas.EigExists

/-!
# Property C148: signals sampled in physical time
-/

set_option autoImplicit false

namespace Verif.Sampling

open Verif Verif.LinAlg Verif.Operator Verif.Time Verif.Bitmask Matrix

variable {m : Type} [Fintype m]

/-- The signal `∑ a, c a * exp (α a * t)`. -/
noncomputable def signal {q : ℕ} (c : Fin q → m → ℂ) (α : Fin q → ℂ) (t : ℝ) : m → ℂ :=
  fun p => ∑ a, c a p * Complex.exp (α a * t)

/-- Below the Nyquist frequency the logarithm undoes the exponential. -/
theorem log_exp_step (z : ℂ) (h : ℝ) (hz : |z.im| * h < Real.pi) (hh : 0 < h) :
    Complex.log (Complex.exp (z * h)) = z * h := by
  have e : (z * h).im = z.im * h := by simp
  have hb : |z.im * h| < Real.pi := by rw [abs_mul, abs_of_pos hh]; exact hz
  obtain ⟨h1, h2⟩ := abs_lt.mp hb
  refine Complex.log_exp ?_ ?_
  · rw [e]; exact h1
  · rw [e]; exact h2.le

/-- Two components with one sampled eigenvalue are one. -/
theorem step_injective {q : ℕ} (α : Fin q → ℂ) (hα : Function.Injective α) (h : ℝ) (hh : 0 < h)
    (hny : ∀ a, |(α a).im| * h < Real.pi) : Function.Injective fun a => Complex.exp (α a * h) := by
  intro a b hab
  have := congrArg Complex.log hab
  beta_reduce at this
  rw [log_exp_step _ _ (hny a) hh, log_exp_step _ _ (hny b) hh] at this
  exact hα (mul_right_cancel₀ (by exact_mod_cast hh.ne') this)

theorem exp_step (z : ℂ) (t0 h : ℝ) (j : ℕ) :
    Complex.exp (z * ((t0 + h * j : ℝ) : ℂ)) = Complex.exp (z * t0) * Complex.exp (z * h) ^ j := by
  rw [← Complex.exp_nat_mul, ← Complex.exp_add]
  congr 1
  push_cast
  ring

/-- **C148** (fit): the snapshots are samples `x(t0), x(t0 + h), …` of a sum of exponentials with independent
coefficient vectors, at least as many pairs as exponentials, and the step is below the Nyquist limit. DMD with all nonzero
singular values, with amplitudes from any snapshot `k` (`opt=k`), with the time dictionaries set to the physical times, has
the frequencies of the signal, and its reconstruction at the times of any window is the signal at these times; after a
selection of modes by their eigenvalues it is the sum of the exponentials selected. -/
theorem C148_signal {q N : ℕ} (hN : q ≤ N) (c : Fin q → m → ℂ) (α : Fin q → ℂ) (hα : Function.Injective α)
    (hc : ∀ v : Fin q → ℂ, (∀ p, ∑ a, v a * c a p = 0) → v = 0) (t0 h : ℚ) (hh : 0 < h)
    (hny : ∀ a, |(α a).im| * h < Real.pi) (X Y : Matrix m (Fin N) ℂ)
    (hX : ∀ p j, X p j = signal c α (t0 + h * (j : ℕ)) p) (hY : ∀ p j, Y p j = signal c α (t0 + h * ((j : ℕ) + 1)) p)
    {r : ℕ} (U : Matrix m (Fin r) ℂ) (s : Fin r → ℝ) (V : Matrix (Fin N) (Fin r) ℂ) (hsvd : IsSVD X U s V)
    (hs : ∀ i, s i ≠ 0) (W : Matrix (Fin r) (Fin r) ℂ) (eigs b : Fin r → ℂ)
    (hW : leastSquareOperator none U s V Y * W = W * diagonal eigs)
    (hr : (leastSquareOperator none U s V Y).charpoly.roots = Finset.univ.val.map eigs)
    (hn : ∀ j, normSq (fun i => W i j) = 1) (exact : Bool) (k : ℕ)
    (hb : IsLstsq (computeModes exact none Y U s V W) (signal c α (t0 + h * k)) b)
    (w : Window) (hdt : w.dt ≠ 0) (keep : ℂ → Bool) :
    (∃ l, Spectrum.frequency (.cplx (List.ofFn eigs)) (some ⟨t0, t0 + h * N, h⟩) = .ok l ∧
      l.Perm (List.ofFn fun a => (α a).im / (2 * Real.pi))) ∧
    (reconstructed (afterFit (List.ofFn fun j p => computeModes exact none Y U s V W p j) (List.ofFn eigs)
        (List.ofFn b)) ⟨t0, t0 + h * N, h⟩ w (.int k) (N + 1) =
      w.timesteps.map fun ts => ts.map fun t : ℚ => signal c α (t : ℝ)) ∧
    reconstructed ((afterFit (List.ofFn fun j p => computeModes exact none Y U s V W p j) (List.ofFn eigs)
        (List.ofFn b)).setMask (.bool1 (List.ofFn fun j => keep (eigs j)))).2 ⟨t0, t0 + h * N, h⟩ w (.int k) (N + 1) =
      w.timesteps.map fun ts => ts.map fun t p =>
        ∑ a, if keep (Complex.exp (α a * h)) then c a p * Complex.exp (α a * (t : ℚ)) else 0 := by
  classical
  have hhR : (0 : ℝ) < (h : ℝ) := by exact_mod_cast hh
  set l : Fin q → ℂ := fun a => Complex.exp (α a * (h : ℝ)) with hl
  set d : Fin q → m → ℂ := fun a p => c a p * Complex.exp (α a * (t0 : ℝ)) with hd
  have hlinj : Function.Injective l := step_injective α hα h hhR hny
  have hl0 : ∀ a, l a ≠ 0 := fun a => Complex.exp_ne_zero _
  have hdind : ∀ v : Fin q → ℂ, (∀ p, ∑ a, v a * d a p = 0) → v = 0 := by
    intro v hv
    have h1 := hc (fun a => v a * Complex.exp (α a * (t0 : ℝ))) fun p => by
      refine Eq.trans ?_ (hv p)
      refine Finset.sum_congr rfl fun a _ => ?_
      rw [hd]; ring
    funext a
    have := congrFun h1 a
    exact (mul_eq_zero.mp this).resolve_right (Complex.exp_ne_zero _)
  have hsig : ∀ (j : ℕ) p, signal c α (t0 + h * j) p = ∑ a, d a p * l a ^ j := by
    intro j p
    rw [signal]
    refine Finset.sum_congr rfl fun a _ => ?_
    rw [exp_step, hd, hl]
    ring
  set Φ := computeModes exact none Y U s V W with hΦ
  obtain ⟨b0, hb0⟩ := exists_isLstsq Φ (fun p => ∑ a, d a p)
  obtain ⟨π, hπ⟩ := MrDMD.dmd_components hN d l hlinj hl0 hdind X Y (fun p t => by rw [hX, hsig])
    (fun p t => by
      rw [hY]
      have := hsig ((t : ℕ) + 1) p
      push_cast at this
      exact this) U s V hsvd hs W eigs b0 hW hr hn exact hb0
  have hΦinj : ∀ v, Φ *ᵥ v = 0 → v = 0 := by
    intro v hv
    have hne : ∀ a, b0 (π a) ≠ 0 := by
      intro a h0
      have hz : ∀ p, d a p = 0 := fun p => by rw [← (hπ a).2 p, h0, mul_zero]
      have := hdind (Pi.single a 1) fun p => by
        simp [Pi.single_apply, hz]
      have := congrFun this a
      simp at this
    have h1 := hdind (fun a => v (π a) / b0 (π a)) fun p => by
      have h2 := congrFun hv p
      simp only [mulVec, dotProduct, Pi.zero_apply] at h2
      rw [← Equiv.sum_comp π] at h2
      refine Eq.trans ?_ h2
      refine Finset.sum_congr rfl fun a _ => ?_
      rw [← (hπ a).2 p, ← hΦ]
      field_simp [hne a]
    funext j
    have := congrFun h1 (π.symm j)
    simp only [Equiv.apply_symm_apply, Pi.zero_apply] at this
    exact (div_eq_zero_iff.mp this).resolve_right (by have := hne (π.symm j); rwa [Equiv.apply_symm_apply] at this)
  have hbk : ∀ a, b (π a) = b0 (π a) * l a ^ k := by
    let v : Fin r → ℂ := fun j => b0 j * l (π.symm j) ^ k
    have h1 : signal c α (t0 + h * k) = Φ *ᵥ v := by
      funext p
      rw [hsig]
      simp only [mulVec, dotProduct]
      rw [← Equiv.sum_comp π]
      refine Finset.sum_congr rfl fun a _ => ?_
      rw [← (hπ a).2 p, ← hΦ]
      simp only [v, Equiv.symm_apply_apply]
      ring
    rw [h1] at hb
    have h2 := lstsq_solves _ _ _ hb
    have h3 := hΦinj (b - v) (by rw [mulVec_sub, h2, sub_self])
    intro a
    have := congrFun h3 (π a)
    simp only [Pi.sub_apply, v, Equiv.symm_apply_apply, Pi.zero_apply] at this
    exact sub_eq_zero.mp this
  have hlog : ∀ a, Complex.log (l a) = α a * (h : ℝ) := fun a => log_exp_step _ _ (hny a) hhR
  -- one component at one time
  have hcomp : ∀ a p (t : ℚ), Φ p (π a) * (npPow (eigs (π a)) (exponent ⟨t0, t0 + h * N, h⟩ (.int k) (N + 1) t) * b (π a)) =
      c a p * Complex.exp (α a * t) := by
    intro a p t
    have he : exponent ⟨t0, t0 + h * N, h⟩ (.int k) (N + 1) t = (t - t0) / h - k := by
      simp [exponent, translate]
    have h1 : npPow (l a) ((t - t0) / h - k) * l a ^ k = Complex.exp (α a * (t - t0)) := by
      rw [npPow, Complex.cpow_def_of_ne_zero (hl0 a), hlog, ← Complex.exp_log (hl0 a), hlog, ← Complex.exp_nat_mul,
        ← Complex.exp_add]
      congr 1
      have hh0 : (h : ℂ) ≠ 0 := by exact_mod_cast hh.ne'
      push_cast
      field_simp
      ring
    rw [he, (hπ a).1, hbk]
    calc Φ p (π a) * (npPow (l a) ((t - t0) / h - k) * (b0 (π a) * l a ^ k))
        = Φ p (π a) * b0 (π a) * (npPow (l a) ((t - t0) / h - k) * l a ^ k) := by ring
      _ = d a p * Complex.exp (α a * (t - t0)) := by rw [h1, hΦ, (hπ a).2 p]
      _ = _ := by
        rw [hd]
        beta_reduce
        rw [mul_assoc, ← Complex.exp_add]
        congr 2
        push_cast
        ring
  have hmask : ∀ mask : Fin r → Bool, reconstructed ((afterFit (List.ofFn fun j p => Φ p j) (List.ofFn eigs)
        (List.ofFn b)).setMask (.bool1 (List.ofFn mask))).2 ⟨t0, t0 + h * N, h⟩ w (.int k) (N + 1) =
      w.timesteps.map fun ts => ts.map fun t p => ∑ a, if mask (π a) then c a p * Complex.exp (α a * (t : ℚ)) else 0 := by
    intro mask
    rw [RealData.reconstructed_mask _ _ _ _ _ _ hdt, timesteps_ok w hdt]
    simp only [Except.map]
    congr 1
    refine List.map_congr_left fun t _ => ?_
    funext p
    rw [← Equiv.sum_comp π]
    refine Finset.sum_congr rfl fun a _ => ?_
    split_ifs
    · exact hcomp a p t
    · rfl
  refine ⟨?_, ?_, ?_⟩
  · refine ⟨_, rfl, ?_⟩
    have h1 : (List.ofFn eigs).Perm (List.ofFn l) := by
      have : eigs = l ∘ π.symm := by
        funext j
        have := (hπ (π.symm j)).1
        rwa [Equiv.apply_symm_apply] at this
      rw [← Multiset.coe_eq_coe, ← Fin.univ_val_map, ← Fin.univ_val_map, this]
      have h2 : (Finset.univ : Finset (Fin r)).val.map π.symm = (Finset.univ : Finset (Fin q)).val := by
        have := congrArg Finset.val (Finset.map_univ_equiv π.symm)
        simpa using this
      rw [← Multiset.map_map, h2]
    have h3 := h1.map fun z : ℂ => (Complex.log z).im / (2 * Real.pi * (h : ℝ))
    simp only [Spectrum.logImag, List.map_map]
    refine (List.Perm.trans ?_ h3).trans ?_
    · rfl
    · rw [List.map_ofFn]
      have : ((fun z : ℂ => (Complex.log z).im / (2 * Real.pi * (h : ℝ))) ∘ l) = fun a => (α a).im / (2 * Real.pi) := by
        funext a
        simp only [Function.comp, hlog]
        have hpi := Real.pi_pos
        simp
        field_simp
      rw [this]
  · have h1 := hmask fun _ => true
    have hr := Rel.init (List.ofFn fun j p => Φ p j) (List.ofFn eigs) (List.ofFn b) (n := r) (by simp) (by simp) (by simp)
    have hst := (hr.step (.setMask (.bool1 (List.ofFn fun _ : Fin r => true)))).2
    have hsp : ((Spec.afterFit (List.ofFn fun j p => Φ p j) (List.ofFn eigs) (List.ofFn b)).step
        (.setMask (.bool1 (List.ofFn fun _ : Fin r => true)))).2 =
        Spec.afterFit (List.ofFn fun j p => Φ p j) (List.ofFn eigs) (List.ofFn b) := by
      simp [Spec.step, Spec.afterFit]
    rw [hsp] at hst
    have h2 := reconstructed_rel hst ⟨t0, t0 + h * N, h⟩ w (.int k) (N + 1)
    rw [reconstructed_rel hr, ← h2]
    refine h1.trans ?_
    congr 1
  · rw [hmask fun j => keep (eigs j)]
    simp only [(hπ _).1]
    rfl

/-- `o` is a DMD fitted to the samples `x(t0), …, x(t0 + h * N)`, with amplitudes from snapshot `k`. -/
def IsFit {q : ℕ} (c : Fin q → m → ℂ) (α : Fin q → ℂ) (t0 h : ℚ) (N k : ℕ) (o : Obj (m → ℂ) ℂ ℂ) : Prop :=
  ∃ (r : ℕ) (U : Matrix m (Fin r) ℂ) (s : Fin r → ℝ) (V : Matrix (Fin N) (Fin r) ℂ) (W : Matrix (Fin r) (Fin r) ℂ)
    (eigs b : Fin r → ℂ) (exact : Bool) (X Y : Matrix m (Fin N) ℂ),
    (∀ p j, X p j = signal c α (t0 + h * (j : ℕ)) p) ∧ (∀ p j, Y p j = signal c α (t0 + h * ((j : ℕ) + 1)) p) ∧
    IsSVD X U s V ∧ (∀ i, s i ≠ 0) ∧ leastSquareOperator none U s V Y * W = W * diagonal eigs ∧
    (leastSquareOperator none U s V Y).charpoly.roots = Finset.univ.val.map eigs ∧
    (∀ j, normSq (fun i => W i j) = 1) ∧
    IsLstsq (computeModes exact none Y U s V W) (signal c α (t0 + h * k)) b ∧
    o = afterFit (List.ofFn fun j p => computeModes exact none Y U s V W p j) (List.ofFn eigs) (List.ofFn b)

/-- **C148** (sampling): two fits of one signal, with different first times, steps, numbers of snapshots and reference
snapshots, reconstruct the same over every window. -/
theorem C148_resampling {q : ℕ} (c : Fin q → m → ℂ) (α : Fin q → ℂ) (hα : Function.Injective α)
    (hc : ∀ v : Fin q → ℂ, (∀ p, ∑ a, v a * c a p = 0) → v = 0)
    (t0 h t0' h' : ℚ) (N N' k k' : ℕ) (hh : 0 < h) (hh' : 0 < h') (hN : q ≤ N) (hN' : q ≤ N')
    (hny : ∀ a, |(α a).im| * h < Real.pi) (hny' : ∀ a, |(α a).im| * h' < Real.pi) (o o' : Obj (m → ℂ) ℂ ℂ)
    (ho : IsFit c α t0 h N k o) (ho' : IsFit c α t0' h' N' k' o') (w : Window) (hdt : w.dt ≠ 0) :
    reconstructed o ⟨t0, t0 + h * N, h⟩ w (.int k) (N + 1) =
      reconstructed o' ⟨t0', t0' + h' * N', h'⟩ w (.int k') (N' + 1) := by
  obtain ⟨r, U, s, V, W, eigs, b, exact, X, Y, hX, hY, h1, h2, h3, h4, h5, h6, rfl⟩ := ho
  obtain ⟨r', U', s', V', W', eigs', b', exact', X', Y', hX', hY', h1', h2', h3', h4', h5', h6', rfl⟩ := ho'
  rw [(C148_signal hN c α hα hc t0 h hh hny X Y hX hY U s V h1 h2 W eigs b h3 h4 h5 exact k h6 w hdt
    fun _ => true).2.1, (C148_signal hN' c α hα hc t0' h' hh' hny' X' Y' hX' hY' U' s' V' h1' h2' W' eigs' b' h3' h4' h5'
    exact' k' h6' w hdt fun _ => true).2.1]

/-- The hypotheses of the theorems are met: for every signal with independent coefficients there is such a fit. -/
theorem exists_fit {q M : ℕ} (c : Fin q → Fin M → ℂ) (α : Fin q → ℂ) (t0 h : ℚ) (N k : ℕ) : ∃ o, IsFit c α t0 h N k o := by
  set X : Matrix (Fin M) (Fin N) ℂ := of fun p j => signal c α (t0 + h * (j : ℕ)) p with hX
  set Y : Matrix (Fin M) (Fin N) ℂ := of fun p j => signal c α (t0 + h * ((j : ℕ) + 1)) p with hY
  obtain ⟨r, U, s, V, h1, h2⟩ := MrDMD.exists_compact_svd X
  obtain ⟨W, eigs, h3, h4, h5⟩ := exists_eig (leastSquareOperator none U s V Y)
  obtain ⟨b, h6⟩ := exists_isLstsq (computeModes true none Y U s V W) (signal c α (t0 + h * k))
  exact ⟨_, r, U, s, V, W, eigs, b, true, X, Y, fun _ _ => rfl, fun _ _ => rfl, h1, h2, h3, h4, h5, h6, rfl⟩

/-- A signal of two oscillations and a decay in three sensors, sampled every half second from time 10 on. -/
example : ∃ (c : Fin 3 → Fin 3 → ℂ) (α : Fin 3 → ℂ), Function.Injective α ∧
    (∀ v : Fin 3 → ℂ, (∀ p, ∑ a, v a * c a p = 0) → v = 0) ∧ ∀ a, |(α a).im| * ((1 / 2 : ℚ) : ℝ) < Real.pi := by
  have h3 : ∀ i : Fin 3, i = 0 ∨ i = 1 ∨ i = 2 := by decide
  refine ⟨fun a p => if a = p then 1 else 0, ![2 * Complex.I, -2 * Complex.I, -1], ?_, ?_, ?_⟩
  · intro a b hab
    have him := congrArg Complex.im hab
    rcases h3 a with rfl | rfl | rfl <;> rcases h3 b with rfl | rfl | rfl <;> first | rfl | (simp at him; done) | skip
    all_goals (exfalso; simp at him; norm_num at him)
  · intro v hv
    funext p
    simpa using hv p
  · intro a
    have := Real.two_le_pi
    rcases h3 a with rfl | rfl | rfl <;> simp <;> linarith

/-- Above the Nyquist limit the claim fails, for any program: the oscillation with period 4/3, sampled every second, has
the samples of the one with period 4 backwards. -/
theorem C148_nyquist_needed (j : ℕ) :
    signal (fun (_ : Fin 1) (_ : Fin 1) => 1) (fun _ => (3 / 2 : ℂ) * Real.pi * Complex.I) (0 + 1 * (j : ℕ)) =
      signal (fun (_ : Fin 1) (_ : Fin 1) => 1) (fun _ => -(1 / 2 : ℂ) * Real.pi * Complex.I) (0 + 1 * (j : ℕ)) ∧
    signal (fun (_ : Fin 1) (_ : Fin 1) => 1) (fun _ => (3 / 2 : ℂ) * Real.pi * Complex.I) (1 / 2) =
      -signal (fun (_ : Fin 1) (_ : Fin 1) => 1) (fun _ => -(1 / 2 : ℂ) * Real.pi * Complex.I) (1 / 2) := by
  constructor
  · funext p
    simp only [signal, Finset.univ_unique, Finset.sum_singleton, one_mul]
    rw [show (3 / 2 : ℂ) * Real.pi * Complex.I * ((0 + (j : ℝ) : ℝ) : ℂ) =
      -(1 / 2 : ℂ) * Real.pi * Complex.I * ((0 + (j : ℝ) : ℝ) : ℂ) + j * (2 * Real.pi * Complex.I) by
        push_cast; ring]
    exact Complex.exp_periodic.nat_mul j _
  · funext p
    simp only [signal, Finset.univ_unique, Finset.sum_singleton, one_mul, Pi.neg_apply]
    rw [show (3 / 2 : ℂ) * Real.pi * Complex.I * ((1 / 2 : ℝ) : ℂ) =
      -(1 / 2 : ℂ) * Real.pi * Complex.I * ((1 / 2 : ℝ) : ℂ) + Real.pi * Complex.I by
        push_cast; ring, Complex.exp_add, Complex.exp_pi_mul_I]
    ring

end Verif.Sampling
