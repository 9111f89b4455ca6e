import Verif.Model.BopEigs
import Mathlib.Tactic.Linarith
import Mathlib.Tactic.Ring
import Mathlib.Tactic.NormNum
import Mathlib.Tactic.IntervalCases

/-!
# Properties C41, C69: eigenvalue constraints of BOP-DMD
-/

set_option autoImplicit false

namespace Verif.BopEigs

open Verif

/-- What is assumed of `set.pop`. -/
def IsPop (pop : Finset ℕ → ℕ) : Prop := ∀ S : Finset ℕ, S.Nonempty → pop S ∈ S

theorem argmin_spec (n : ℕ) (f : ℕ → ℝ) (hn : 1 ≤ n) :
    argmin n f < n ∧ (∀ i < n, f (argmin n f) ≤ f i) ∧ ∀ i < argmin n f, f (argmin n f) < f i := by
  have key : ∀ m, 1 ≤ m →
      (List.range m).foldl (fun b i => if f i < f b then i else b) 0 < m ∧
      (∀ i < m, f ((List.range m).foldl (fun b i => if f i < f b then i else b) 0) ≤ f i) ∧
      ∀ i < (List.range m).foldl (fun b i => if f i < f b then i else b) 0,
        f ((List.range m).foldl (fun b i => if f i < f b then i else b) 0) < f i := by
    intro m
    induction m with
    | zero => intro h; omega
    | succ m ih =>
      intro _
      rcases Nat.eq_zero_or_pos m with rfl | hm
      · simp [List.range_succ]
      · obtain ⟨h1, h2, h3⟩ := ih hm
        rw [List.range_succ, List.foldl_append, List.foldl_cons, List.foldl_nil]
        split_ifs with h
        · refine ⟨by omega, fun i hi => ?_, fun i hi => lt_of_lt_of_le h (h2 i hi)⟩
          rcases Nat.lt_or_ge i m with hlt | hge
          · exact le_trans h.le (h2 i hlt)
          · rw [show i = m by omega]
        · refine ⟨by omega, fun i hi => ?_, h3⟩
          rcases Nat.lt_or_ge i m with hlt | hge
          · exact h2 i hlt
          · rw [show i = m by omega]; exact not_lt.mp h
  exact key n hn

/-- What the pairing loop does: an involution without fixed points, pairing each index with the
nearest of one of the two. -/
theorem pairLoop_spec (n : ℕ) (e : ℕ → ℂ) (pop : Finset ℕ → ℕ) (hpop : IsPop pop) (k : ℕ) :
    ∀ (S : Finset ℕ) (new out : ℕ → Option ℂ), S.card ≤ k → pairLoop n e pop k S new = .ok out →
      ∃ σ : ℕ → ℕ, (∀ i ∈ S, σ i ∈ S ∧ σ (σ i) = i ∧ σ i ≠ i ∧ (σ i = near n e i ∨ i = near n e (σ i)) ∧
        out i = some (pairVal e i (σ i))) ∧ ∀ i, i ∉ S → out i = new i := by
  induction k with
  | zero =>
    intro S new out hS h
    have : S = ∅ := Finset.card_eq_zero.mp (by omega)
    subst this
    simp only [pairLoop, Except.ok.injEq] at h
    exact ⟨id, by simp, fun i _ => by rw [h]⟩
  | succ k ih =>
    intro S new out hS h
    rw [pairLoop] at h
    by_cases he : S = ∅
    · rw [if_pos he, Except.ok.injEq] at h
      subst he
      exact ⟨id, by simp, fun i _ => by rw [h]⟩
    · rw [if_neg he] at h
      have h1 : pop S ∈ S := hpop S (Finset.nonempty_iff_ne_empty.mpr he)
      simp only at h
      set i1 := pop S with hi1
      set i2 := near n e i1 with hi2
      by_cases h2 : i2 ∈ S.erase i1
      · rw [if_neg (by simpa using h2)] at h
        have hne : i2 ≠ i1 := (Finset.mem_erase.mp h2).1
        have hi2S : i2 ∈ S := (Finset.mem_erase.mp h2).2
        have hc : ((S.erase i1).erase i2).card ≤ k := by
          rw [Finset.card_erase_of_mem h2, Finset.card_erase_of_mem h1]; omega
        obtain ⟨σ, hs, ho⟩ := ih _ _ _ hc h
        refine ⟨fun i => if i = i1 then i2 else if i = i2 then i1 else σ i, ?_, ?_⟩
        · intro i hi
          by_cases ha : i = i1
          · subst ha
            simp only [if_true, hne, if_false]
            refine ⟨hi2S, trivial, by simpa using hne, Or.inl rfl, ?_⟩
            rw [ho i1 (by simp), Function.update_of_ne hne.symm, Function.update_self]
          · by_cases hb : i = i2
            · subst hb
              simp only [hne, if_false, if_true]
              refine ⟨h1, trivial, hne.symm, Or.inr rfl, ?_⟩
              rw [ho i2 (by simp), Function.update_self]
            · have hi' : i ∈ (S.erase i1).erase i2 := by simp [ha, hb, hi]
              obtain ⟨s1, s2, s3, s4, s5⟩ := hs i hi'
              have hm := Finset.mem_erase.mp s1
              have hm2 := Finset.mem_erase.mp hm.2
              simp only [ha, hb, if_false, hm.1, hm2.1]
              exact ⟨hm2.2, s2, s3, s4, s5⟩
        · intro i hi
          have ha : i ≠ i1 := fun h => hi (h ▸ h1)
          have hb : i ≠ i2 := fun h => hi (h ▸ hi2S)
          rw [ho i (by simp [hi]), Function.update_of_ne hb, Function.update_of_ne ha]
      · rw [if_pos (by simpa using h2)] at h
        simp at h

theorem pairVal_conj (e : ℕ → ℂ) (i j : ℕ) (h : Real.sign (e j).im = -Real.sign (e i).im) :
    pairVal e j i = (starRingEnd ℂ) (pairVal e i j) := by
  unfold pairVal
  rw [h]
  apply Complex.ext
  · simp; ring
  · simp only [Complex.add_im, Complex.ofReal_im, Complex.mul_im, Complex.I_re, Complex.I_im,
      Complex.ofReal_re, Complex.conj_im]
    ring

theorem pushLast_conj (c : Constraints) (z : ℂ) :
    pushLast c ((starRingEnd ℂ) z) = (starRingEnd ℂ) (pushLast c z) := by
  unfold pushLast pushStable pushImag
  rw [Complex.conj_re]
  split_ifs
  · apply Complex.ext <;> simp
  · rfl
  · apply Complex.ext <;> simp
  · rfl

/-- **C41** (real parts). Whatever is returned satisfies the constraints on the real part: with
`"stable"` no positive real part, with `"imag"` (which excludes `"stable"`) real part zero. For
all eigenvalues and all orders in which the pairs are taken. -/
theorem C41_real_parts (c : Constraints) (n : ℕ) (e : ℕ → ℂ) (pop : Finset ℕ → ℕ)
    (out : ℕ → Option ℂ) (h : push c n e pop = .ok out) (i : ℕ) (z : ℂ) (hz : out i = some z) :
    (c.stable = true → z.re ≤ 0) ∧ (c.stable = false → c.imag = true → z.re = 0) := by
  have : ∃ y, z = pushLast c y := by
    unfold push at h
    cases hv : (if c.conj then conjugatePairs n e pop else .ok fun i => some (e i) :
        Except PyErr (ℕ → Option ℂ)) with
    | error er => rw [hv] at h; simp at h
    | ok v =>
      rw [hv] at h
      simp only [Except.ok.injEq] at h
      rw [← h] at hz
      obtain ⟨y, -, hy⟩ := Option.map_eq_some_iff.mp hz
      exact ⟨y, hy.symm⟩
  obtain ⟨y, rfl⟩ := this
  constructor
  · intro hs
    rw [pushLast, if_pos hs, pushStable]
    split_ifs with hp
    · simp
    · exact not_lt.mp hp
  · intro hs hi
    rw [pushLast, if_neg (by simp [hs]), if_pos hi, pushImag]
    simp

/-- **C41** (imaginary parts are kept by `"stable"` and `"imag"`, and values already in the left
half-plane are not moved by `"stable"`). -/
theorem C41_minimal_change (c : Constraints) (hc : c.conj = false) (n : ℕ) (e : ℕ → ℂ)
    (pop : Finset ℕ → ℕ) : ∃ out, push c n e pop = .ok out ∧ ∀ i, ∃ z, out i = some z ∧
      z.im = (e i).im ∧ (c.stable = true → (e i).re ≤ 0 → z = e i) ∧
      (c.stable = false → c.imag = false → z = e i) := by
  refine ⟨_, by rw [push, hc]; rfl, fun i => ⟨pushLast c (e i), rfl, ?_, ?_, ?_⟩⟩
  · unfold pushLast pushStable pushImag
    split_ifs <;> simp
  · intro hs hr
    rw [pushLast, if_pos hs, pushStable, if_neg (not_lt.mpr hr)]
  · intro hs hi
    rw [pushLast, if_neg (by simp [hs]), if_neg (by simp [hi])]

/-- The indexes that are to be paired: all, or all but the one nearest to the real axis. -/
noncomputable def toPair (n : ℕ) (e : ℕ → ℂ) : Finset ℕ :=
  if n % 2 = 1 then (Finset.range n).erase (argmin n fun j => |(e j).im|) else Finset.range n

theorem conjugatePairs_spec (n : ℕ) (e : ℕ → ℂ) (pop : Finset ℕ → ℕ) (hpop : IsPop pop)
    (out : ℕ → Option ℂ) (h : conjugatePairs n e pop = .ok out) :
    ∃ σ : ℕ → ℕ, (∀ i ∈ toPair n e, σ i ∈ toPair n e ∧ σ (σ i) = i ∧ σ i ≠ i ∧
        (σ i = near n e i ∨ i = near n e (σ i)) ∧ out i = some (pairVal e i (σ i))) ∧
      ∀ i < n, i ∉ toPair n e → σ i = i ∧ out i = some ((e i).re : ℂ) := by
  unfold conjugatePairs at h
  unfold toPair
  by_cases ho : n % 2 = 1
  · rw [if_pos ho] at h
    simp only [if_pos ho]
    set i0 := argmin n fun j => |(e j).im| with hi0
    obtain ⟨σ, h1, h2⟩ := pairLoop_spec n e pop hpop n _ _ _
      (le_trans (Finset.card_erase_le) (by rw [Finset.card_range])) h
    refine ⟨fun i => if i = i0 then i0 else σ i, fun i hi => ?_, fun i hi hn => ?_⟩
    · have hne := (Finset.mem_erase.mp hi).1
      obtain ⟨s1, s2, s3, s4, s5⟩ := h1 i hi
      have hne2 := (Finset.mem_erase.mp s1).1
      simp only [hne, if_false, hne2]
      exact ⟨s1, s2, s3, s4, s5⟩
    · have : i = i0 := by
        by_contra hne
        exact hn (Finset.mem_erase.mpr ⟨hne, Finset.mem_range.mpr hi⟩)
      subst this
      rw [h2 _ hn, Function.update_self]
      simp
  · rw [if_neg ho] at h
    simp only [if_neg ho]
    obtain ⟨σ, h1, h2⟩ := pairLoop_spec n e pop hpop n _ _ _ (by rw [Finset.card_range]) h
    exact ⟨σ, h1, fun i hi hn => absurd (Finset.mem_range.mpr hi) hn⟩

/-- **C41** (conjugate pairs; partial: only if the eigenvalue nearest to the conjugate of another
is on the other side of the real axis). The values returned are closed under conjugation, with
multiplicity: an involution of the indexes maps each to its conjugate. For all orders in which the
pairs are taken, also combined with `"stable"` or `"imag"`. -/
theorem C41_conjugate_partial (c : Constraints) (hc : c.conj = true) (n : ℕ) (e : ℕ → ℂ)
    (pop : Finset ℕ → ℕ) (hpop : IsPop pop) (out : ℕ → Option ℂ) (h : push c n e pop = .ok out)
    (hopp : ∀ i ∈ toPair n e, Real.sign (e (near n e i)).im = -Real.sign (e i).im) :
    ∃ σ : ℕ → ℕ, ∀ i < n, σ i < n ∧ σ (σ i) = i ∧
      ∃ z, out i = some z ∧ out (σ i) = some ((starRingEnd ℂ) z) := by
  unfold push at h
  rw [if_pos hc] at h
  cases hv : conjugatePairs n e pop with
  | error er => rw [hv] at h; simp at h
  | ok v =>
    rw [hv] at h
    simp only [Except.ok.injEq] at h
    obtain ⟨σ, h1, h2⟩ := conjugatePairs_spec n e pop hpop v hv
    have hsub : ∀ i ∈ toPair n e, i < n := by
      intro i hi
      unfold toPair at hi
      split_ifs at hi
      · exact Finset.mem_range.mp (Finset.mem_of_mem_erase hi)
      · exact Finset.mem_range.mp hi
    refine ⟨σ, fun i hi => ?_⟩
    by_cases hm : i ∈ toPair n e
    · obtain ⟨s1, s2, s3, s4, s5⟩ := h1 i hm
      obtain ⟨-, -, -, -, t5⟩ := h1 (σ i) s1
      rw [s2] at t5
      refine ⟨hsub _ s1, s2, pushLast c (pairVal e i (σ i)), ?_, ?_⟩
      · rw [← h]; simp only; rw [s5]; rfl
      · rw [← h]
        simp only
        rw [t5, Option.map_some, ← pushLast_conj, pairVal_conj]
        rcases s4 with hn | hn
        · rw [hn]; exact hopp i hm
        · have := hopp (σ i) s1
          rw [← hn] at this
          rw [this, neg_neg]
    · obtain ⟨s1, s2⟩ := h2 i hi hm
      refine ⟨by rw [s1]; exact hi, by rw [s1, s1], pushLast c ((e i).re : ℂ), ?_, ?_⟩
      · rw [← h]; simp only; rw [s2]; rfl
      · rw [s1, ← h]
        simp only
        rw [s2, Option.map_some, ← pushLast_conj, Complex.conj_ofReal]

/-! ### values that already satisfy the constraints -/

theorem pairLoop_ok (n : ℕ) (e : ℕ → ℂ) (pop : Finset ℕ → ℕ) (hpop : IsPop pop) (k : ℕ) :
    ∀ (S : Finset ℕ) (new : ℕ → Option ℂ),
      (∀ i ∈ S, near n e i ∈ S ∧ near n e i ≠ i ∧ near n e (near n e i) = i) →
      ∃ out, pairLoop n e pop k S new = .ok out := by
  induction k with
  | zero => intro S new _; exact ⟨new, rfl⟩
  | succ k ih =>
    intro S new hS
    rw [pairLoop]
    by_cases he : S = ∅
    · rw [if_pos he]; exact ⟨new, rfl⟩
    · rw [if_neg he]
      have h1 : pop S ∈ S := hpop S (Finset.nonempty_iff_ne_empty.mpr he)
      obtain ⟨a1, a2, a3⟩ := hS _ h1
      simp only
      rw [if_neg (by simp [a1, a2])]
      refine ih _ _ fun i hi => ?_
      have hm := Finset.mem_erase.mp hi
      have hm2 := Finset.mem_erase.mp hm.2
      obtain ⟨b1, b2, b3⟩ := hS i hm2.2
      refine ⟨?_, b2, b3⟩
      refine Finset.mem_erase.mpr ⟨fun h => hm2.1 ?_, Finset.mem_erase.mpr ⟨fun h => hm.1 ?_, b1⟩⟩
      · rw [← b3, h, a3]
      · rw [← b3, h]

/-- Distinct eigenvalues closed under conjugation, none real except one if their number is odd. -/
structure ConjClosed (n : ℕ) (e : ℕ → ℂ) : Prop where
  inj : ∀ i < n, ∀ j < n, e i = e j → i = j
  closed : ∀ i < n, ∃ j < n, e j = (starRingEnd ℂ) (e i)
  real : ∀ i < n, (e i).im = 0 → n % 2 = 1
  unique : ∀ i < n, ∀ j < n, (e i).im = 0 → (e j).im = 0 → i = j
  odd : n % 2 = 1 → ∃ i < n, (e i).im = 0

theorem near_of_closed (n : ℕ) (e : ℕ → ℂ) (h : ConjClosed n e) (i : ℕ) (hi : i < n) :
    near n e i < n ∧ e (near n e i) = (starRingEnd ℂ) (e i) := by
  obtain ⟨s1, s2, -⟩ := argmin_spec n (fun j => ‖e j - (starRingEnd ℂ) (e i)‖) (by omega)
  obtain ⟨j, hj, hje⟩ := h.closed i hi
  have h0 := s2 j hj
  rw [hje, sub_self, norm_zero] at h0
  refine ⟨s1, ?_⟩
  have : ‖e (near n e i) - (starRingEnd ℂ) (e i)‖ = 0 := le_antisymm h0 (norm_nonneg _)
  exact sub_eq_zero.mp (norm_eq_zero.mp this)

theorem pairVal_self (e : ℕ → ℂ) (i j : ℕ) (h : e j = (starRingEnd ℂ) (e i)) :
    pairVal e i j = e i := by
  unfold pairVal
  rw [h]
  apply Complex.ext
  · simp; ring
  · simp only [Complex.conj_re, Complex.conj_im, abs_neg, Complex.add_im, Complex.ofReal_im,
      Complex.mul_im, Complex.I_re, Complex.I_im, Complex.ofReal_re, zero_mul, one_mul, zero_add]
    have : Real.sign (e i).im * |(e i).im| = (e i).im := by
      rcases lt_trichotomy (e i).im 0 with hl | hz | hg
      · rw [Real.sign_of_neg hl, abs_of_neg hl]; ring
      · rw [hz]; simp
      · rw [Real.sign_of_pos hg, abs_of_pos hg]; ring
    linarith

theorem toPair_closed (n : ℕ) (e : ℕ → ℂ) (h : ConjClosed n e) :
    ∀ i, i ∈ toPair n e ↔ i < n ∧ (e i).im ≠ 0 := by
  intro i
  unfold toPair
  by_cases ho : n % 2 = 1
  · rw [if_pos ho]
    obtain ⟨a, ha, ha0⟩ := h.odd ho
    obtain ⟨s1, s2, -⟩ := argmin_spec n (fun j => |(e j).im|) (by omega)
    have h0 : (e (argmin n fun j => |(e j).im|)).im = 0 := by
      have := s2 a ha
      simp only [ha0, abs_zero] at this
      exact abs_eq_zero.mp (le_antisymm this (abs_nonneg _))
    rw [Finset.mem_erase, Finset.mem_range]
    constructor
    · rintro ⟨h1, h2⟩
      exact ⟨h2, fun hz => h1 (h.unique _ h2 _ s1 hz h0)⟩
    · rintro ⟨h1, h2⟩
      exact ⟨fun he => h2 (he ▸ h0), h1⟩
  · rw [if_neg ho, Finset.mem_range]
    exact ⟨fun hi => ⟨hi, fun hz => ho (h.real i hi hz)⟩, fun hi => hi.1⟩

/-- **C41** (values that satisfy the constraints are kept). Distinct values closed under
conjugation, none real except one if their number is odd, with real parts satisfying the other
constraints: they are returned unchanged, whatever the order of the pairs. -/
theorem C41_fixed (c : Constraints) (n : ℕ) (e : ℕ → ℂ) (pop : Finset ℕ → ℕ) (hpop : IsPop pop)
    (hconj : c.conj = true → ConjClosed n e) (hst : c.stable = true → ∀ i < n, (e i).re ≤ 0)
    (him : c.stable = false → c.imag = true → ∀ i < n, (e i).re = 0) :
    ∃ out, push c n e pop = .ok out ∧ ∀ i < n, out i = some (e i) := by
  have hlast : ∀ i < n, pushLast c (e i) = e i := by
    intro i hi
    unfold pushLast pushStable pushImag
    split_ifs with h1 h2 h3
    · exact absurd h2 (not_lt.mpr (hst h1 i hi))
    · rfl
    · have := him (by simpa using h1) h3 i hi
      apply Complex.ext
      · simp [this]
      · simp
    · rfl
  by_cases hc : c.conj = true
  · have hcc := hconj hc
    have hmem := toPair_closed n e hcc
    have hprop : ∀ i ∈ toPair n e,
        near n e i ∈ toPair n e ∧ near n e i ≠ i ∧ near n e (near n e i) = i := by
      intro i hi
      obtain ⟨hi1, hi2⟩ := (hmem i).mp hi
      obtain ⟨n1, n2⟩ := near_of_closed n e hcc i hi1
      obtain ⟨m1, m2⟩ := near_of_closed n e hcc _ n1
      refine ⟨(hmem _).mpr ⟨n1, ?_⟩, fun heq => hi2 ?_, ?_⟩
      · rw [n2]; simpa using hi2
      · rw [heq] at n2
        have := congrArg Complex.im n2
        simp at this
        linarith
      · rw [n2, Complex.conj_conj] at m2
        exact hcc.inj _ m1 _ hi1 m2
    obtain ⟨v, hv⟩ : ∃ v, conjugatePairs n e pop = .ok v := by
      unfold conjugatePairs
      unfold toPair at hprop
      by_cases ho : n % 2 = 1
      · rw [if_pos ho]
        rw [if_pos ho] at hprop
        exact pairLoop_ok n e pop hpop n _ _ hprop
      · rw [if_neg ho]
        rw [if_neg ho] at hprop
        exact pairLoop_ok n e pop hpop n _ _ hprop
    obtain ⟨σ, h1, h2⟩ := conjugatePairs_spec n e pop hpop v hv
    refine ⟨fun i => (v i).map (pushLast c), by rw [push, if_pos hc, hv], fun i hi => ?_⟩
    have hvi : v i = some (e i) := by
      by_cases hm : i ∈ toPair n e
      · obtain ⟨s1, s2, s3, s4, s5⟩ := h1 i hm
        have hσ : σ i = near n e i := by
          rcases s4 with h | h
          · exact h
          · obtain ⟨-, -, p3⟩ := hprop _ s1
            rw [← h] at p3
            exact p3.symm
        rw [s5, pairVal_self e i (σ i)]
        rw [hσ]
        exact (near_of_closed n e hcc i hi).2
      · have him0 : (e i).im = 0 := by
          by_contra hne
          exact hm ((hmem i).mpr ⟨hi, hne⟩)
        rw [(h2 i hi hm).2]
        congr 1
        apply Complex.ext <;> simp [him0]
    simp only [hvi, Option.map_some, hlast i hi]
  · refine ⟨fun i => (some (e i)).map (pushLast c), by rw [push, if_neg hc], fun i hi => ?_⟩
    simp only [Option.map_some, hlast i hi]

/-- **C41** (idempotence of `"stable"` and `"imag"`, for all values). -/
theorem C41_idempotent_partial (c : Constraints) (hc : c.conj = false) (n : ℕ) (e : ℕ → ℂ)
    (pop pop' : Finset ℕ → ℕ) :
    ∃ e' : ℕ → ℂ, push c n e pop = .ok (fun i => some (e' i)) ∧
      push c n e' pop' = .ok (fun i => some (e' i)) := by
  refine ⟨fun i => pushLast c (e i), by rw [push, hc]; rfl, ?_⟩
  rw [push, hc]
  have : ∀ z, pushLast c (pushLast c z) = pushLast c z := by
    intro z
    unfold pushLast pushStable pushImag
    split_ifs <;> simp_all
  simp [this]

/-- Pairs `1 ± i` and the real eigenvalue 2 satisfy `ConjClosed`. -/
theorem closed_example : ConjClosed 3 fun i => if i = 0 then 1 + Complex.I else
    if i = 1 then 2 else 1 - Complex.I := by
  refine ⟨?_, ?_, ?_, ?_, ?_⟩
  · intro i hi j hj h
    have := congrArg Complex.im h
    interval_cases i <;> interval_cases j <;> simp at this ⊢ <;> norm_num at this
  · intro i hi
    interval_cases i
    · exact ⟨2, by omega, by simp [sub_eq_add_neg]⟩
    · exact ⟨1, by omega, by rw [if_neg (by omega), if_pos rfl]; exact (Complex.conj_ofReal 2).symm⟩
    · exact ⟨0, by omega, by simp⟩
  · intro i _ _; rfl
  · intro i hi j hj h1 h2
    interval_cases i <;> interval_cases j <;> simp at h1 h2 ⊢
  · intro _; exact ⟨1, by omega, by simp⟩

/-- The smallest element is an admissible `pop`. -/
theorem isPop_min : IsPop fun S => if h : S.Nonempty then S.min' h else 0 := by
  intro S h
  simp only [h, dif_pos]
  exact S.min'_mem h

/-! ### where the claim is false -/

theorem near_two (e : ℕ → ℂ) (i : ℕ) : near 2 e i =
    if ‖e 1 - (starRingEnd ℂ) (e i)‖ < ‖e 0 - (starRingEnd ℂ) (e i)‖ then 1 else 0 := by
  simp [near, argmin, List.range_succ]

/-- The first eigenvalue equal to the conjugate, if there is one. -/
theorem near_eq (n : ℕ) (e : ℕ → ℂ) (i j : ℕ) (hj : j < n) (h : e j = (starRingEnd ℂ) (e i))
    (hf : ∀ k < j, e k ≠ (starRingEnd ℂ) (e i)) : near n e i = j := by
  obtain ⟨s1, s2, s3⟩ := argmin_spec n (fun j => ‖e j - (starRingEnd ℂ) (e i)‖) (by omega)
  have h0 := s2 j hj
  simp only [h, sub_self, norm_zero] at h0
  change ‖e (near n e i) - _‖ ≤ 0 at h0
  have hz : e (near n e i) = (starRingEnd ℂ) (e i) :=
    sub_eq_zero.mp (norm_eq_zero.mp (le_antisymm h0 (norm_nonneg _)))
  rcases lt_trichotomy (near n e i) j with hl | he | hg
  · exact absurd hz (hf _ hl)
  · exact he
  · have := s3 j hg
    simp only [h, sub_self, norm_zero] at this
    exact absurd this (not_lt.mpr (norm_nonneg _))

/-- `1 + i` and `1 - 2i`, which are not conjugate, meet the hypotheses of `C41_conjugate_partial`
(they become `1 ± 3i/2`). -/
example : ∃ e : ℕ → ℂ, e 1 ≠ (starRingEnd ℂ) (e 0) ∧ ∀ i ∈ toPair 2 e,
    Real.sign (e (near 2 e i)).im = -Real.sign (e i).im := by
  set e : ℕ → ℂ := fun i => if i = 0 then 1 + Complex.I else 1 - ((2 : ℝ) : ℂ) * Complex.I
    with he
  have n0 : near 2 e 0 = 1 := by
    rw [near_two, if_pos]
    have e1 : e 1 - (starRingEnd ℂ) (e 0) = ((-1 : ℝ) : ℂ) * Complex.I := by
      apply Complex.ext <;> simp [he]; norm_num
    have e0 : e 0 - (starRingEnd ℂ) (e 0) = ((2 : ℝ) : ℂ) * Complex.I := by
      apply Complex.ext <;> simp [he]; norm_num
    rw [e1, e0, norm_mul, norm_mul, Complex.norm_I, Complex.norm_real, Complex.norm_real]
    norm_num
  have n1 : near 2 e 1 = 0 := by
    rw [near_two, if_neg]
    have e1 : e 1 - (starRingEnd ℂ) (e 1) = ((-4 : ℝ) : ℂ) * Complex.I := by
      apply Complex.ext <;> simp [he]; norm_num
    have e0 : e 0 - (starRingEnd ℂ) (e 1) = ((-1 : ℝ) : ℂ) * Complex.I := by
      apply Complex.ext <;> simp [he]; norm_num
    rw [e1, e0, norm_mul, norm_mul, Complex.norm_I, Complex.norm_real, Complex.norm_real]
    norm_num
  refine ⟨e, fun h => ?_, fun i hi => ?_⟩
  · have := congrArg Complex.im h
    simp [he] at this
  · have hi2 : i < 2 := by simpa [toPair] using hi
    interval_cases i
    · rw [n0]; simp [he, Real.sign_of_neg]
    · rw [n1]; simp [he, Real.sign_of_neg]

/-- **C41** is false for eigenvalues on the same side of the real axis: `1 + i` and `1 + i/2`
both become `1 + 3i/4` if the first is taken first, and `ValueError` is raised otherwise. -/
theorem C41_same_side_false : ∃ e : ℕ → ℂ, ∀ pop : Finset ℕ → ℕ, IsPop pop →
    (pop (Finset.range 2) = 0 ∧ ∃ out, push ⟨false, false, true⟩ 2 e pop = .ok out ∧
      out 0 = some (1 + 3 / 4 * Complex.I) ∧ out 1 = some (1 + 3 / 4 * Complex.I)) ∨
    (pop (Finset.range 2) = 1 ∧ push ⟨false, false, true⟩ 2 e pop = .error .valueError) := by
  set e : ℕ → ℂ := fun i => if i = 0 then 1 + Complex.I else 1 + ((1 / 2 : ℝ) : ℂ) * Complex.I
    with he
  refine ⟨e, fun pop hpop => ?_⟩
  have n0 : near 2 e 0 = 1 := by
    rw [near_two, if_pos]
    have e1 : e 1 - (starRingEnd ℂ) (e 0) = ((3 / 2 : ℝ) : ℂ) * Complex.I := by
      apply Complex.ext <;> simp [he]; norm_num
    have e0 : e 0 - (starRingEnd ℂ) (e 0) = ((2 : ℝ) : ℂ) * Complex.I := by
      apply Complex.ext <;> simp [he]; norm_num
    rw [e1, e0, norm_mul, norm_mul, Complex.norm_I, Complex.norm_real, Complex.norm_real]
    norm_num
  have n1 : near 2 e 1 = 1 := by
    rw [near_two, if_pos]
    have e1 : e 1 - (starRingEnd ℂ) (e 1) = ((1 : ℝ) : ℂ) * Complex.I := by
      apply Complex.ext <;> simp [he]; norm_num
    have e0 : e 0 - (starRingEnd ℂ) (e 1) = ((3 / 2 : ℝ) : ℂ) * Complex.I := by
      apply Complex.ext <;> simp [he]; norm_num
    rw [e1, e0, norm_mul, norm_mul, Complex.norm_I, Complex.norm_real, Complex.norm_real]
    norm_num
  have hm : pop (Finset.range 2) < 2 := Finset.mem_range.mp (hpop _ ⟨0, by simp⟩)
  have hl : ∀ z, pushLast ⟨false, false, true⟩ z = z := fun z => by simp [pushLast]
  have hne : Finset.range 2 ≠ ∅ := by simp
  have hp : pop (Finset.range 2) = 0 ∨ pop (Finset.range 2) = 1 := by omega
  rcases hp with h0 | h1
  · left
    have v0 : pairVal e 0 1 = 1 + 3 / 4 * Complex.I := by
      apply Complex.ext
      · simp [pairVal, he]; norm_num
      · simp [pairVal, he, Real.sign_of_pos]; norm_num
    have v1 : pairVal e 1 0 = 1 + 3 / 4 * Complex.I := by
      apply Complex.ext
      · simp [pairVal, he]; norm_num
      · simp [pairVal, he, Real.sign_of_pos]; norm_num
    have hv : conjugatePairs 2 e pop = .ok (Function.update (Function.update (fun _ => none) 0
        (some (1 + 3 / 4 * Complex.I))) 1 (some (1 + 3 / 4 * Complex.I))) := by
      have he0 : ((Finset.range 2).erase 0).erase 1 = ∅ := by decide
      simp only [conjugatePairs, pairLoop, h0, n0, hne, v0, v1, he0, if_true, if_false]
      simp
    refine ⟨h0, _, by rw [push, if_pos rfl, hv], ?_, ?_⟩
    · simp [hl, Function.update_of_ne]
    · simp [hl]
  · right
    refine ⟨h1, ?_⟩
    have hv : conjugatePairs 2 e pop = .error .valueError := by
      simp only [conjugatePairs, pairLoop, h1, n1, hne, if_false]
      simp
    rw [push, if_pos rfl, hv]

/-- **C41** is false for two different real eigenvalues: they are closed under conjugation, but
`ValueError` is raised, whatever the order. -/
theorem C41_two_real_false (c : Constraints) (hc : c.conj = true) (e : ℕ → ℂ)
    (h0 : (e 0).im = 0) (h1 : (e 1).im = 0) (hne : e 0 ≠ e 1) (pop : Finset ℕ → ℕ)
    (hpop : IsPop pop) : push c 2 e pop = .error .valueError := by
  have c0 : e 0 = (starRingEnd ℂ) (e 0) := by apply Complex.ext <;> simp [h0]
  have c1 : e 1 = (starRingEnd ℂ) (e 1) := by apply Complex.ext <;> simp [h1]
  have n0 : near 2 e 0 = 0 := near_eq 2 e 0 0 (by omega) c0 (by simp)
  have n1 : near 2 e 1 = 1 := near_eq 2 e 1 1 (by omega) c1 (by
    intro k hk
    rw [show k = 0 by omega, ← c1]
    exact hne)
  have hm : pop (Finset.range 2) < 2 := Finset.mem_range.mp (hpop _ ⟨0, by simp⟩)
  have hn : near 2 e (pop (Finset.range 2)) = pop (Finset.range 2) := by
    have hp : pop (Finset.range 2) = 0 ∨ pop (Finset.range 2) = 1 := by omega
    rcases hp with h | h <;> rw [h] <;> assumption
  have hv : conjugatePairs 2 e pop = .error .valueError := by
    have hne' : Finset.range 2 ≠ ∅ := by simp
    simp only [conjugatePairs, pairLoop, hn, hne', if_false]
    simp
  rw [push, if_pos hc, hv]

/-- **C41**: for repeated eigenvalues the outcome depends on the order in which Python pops the
indexes: `i, -i, i, -i` raise `ValueError` for one order and are returned unchanged for another. -/
theorem C41_repeated_false : ∃ (e : ℕ → ℂ) (pop pop' : Finset ℕ → ℕ), IsPop pop ∧ IsPop pop' ∧
    push ⟨false, false, true⟩ 4 e pop = .error .valueError ∧
    ∃ out, push ⟨false, false, true⟩ 4 e pop' = .ok out ∧ ∀ i < 4, out i = some (e i) := by
  set e : ℕ → ℂ := fun i => if i % 2 = 0 then Complex.I else -Complex.I with he
  have hI : Complex.I ≠ -Complex.I := fun h => by
    have := congrArg Complex.im h
    simp at this
    norm_num at this
  have n0 : near 4 e 0 = 1 := near_eq 4 e 0 1 (by omega) (by simp [he]) (by
    intro k hk; rw [show k = 0 by omega]; simpa [he] using hI)
  have n2 : near 4 e 2 = 1 := near_eq 4 e 2 1 (by omega) (by simp [he]) (by
    intro k hk; rw [show k = 0 by omega]; simpa [he] using hI)
  have n3 : near 4 e 3 = 0 := near_eq 4 e 3 0 (by omega) (by simp [he]) (by simp)
  set pop : Finset ℕ → ℕ := fun S => if 0 ∈ S then 0 else if 2 ∈ S then 2 else
    if h : S.Nonempty then S.min' h else 0 with hpop
  set pop' : Finset ℕ → ℕ := fun S => if 2 ∈ S then 2 else if 3 ∈ S then 3 else
    if h : S.Nonempty then S.min' h else 0 with hpop'
  refine ⟨e, pop, pop', ?_, ?_, ?_, ?_⟩
  · intro S hS
    simp only [hpop]
    split_ifs with a b
    · exact a
    · exact b
    · exact S.min'_mem hS
  · intro S hS
    simp only [hpop']
    split_ifs with a b
    · exact a
    · exact b
    · exact S.min'_mem hS
  · have p1 : pop (Finset.range 4) = 0 := by simp [hpop]
    have p2 : pop (((Finset.range 4).erase 0).erase 1) = 2 := by simp [hpop]
    have q1 : Finset.range 4 ≠ ∅ := by decide
    have q2 : ((Finset.range 4).erase 0).erase 1 ≠ ∅ := by decide
    have hv : conjugatePairs 4 e pop = .error .valueError := by
      simp only [conjugatePairs, pairLoop, p1, n0, q1, if_false]
      simp only [p2, n2, q2, if_false]
      simp
    rw [push, if_pos rfl, hv]
  · have p1 : pop' (Finset.range 4) = 2 := by simp [hpop']
    have p2 : pop' (((Finset.range 4).erase 2).erase 1) = 3 := by simp [hpop']
    have q1 : Finset.range 4 ≠ ∅ := by decide
    have q2 : ((Finset.range 4).erase 2).erase 1 ≠ ∅ := by decide
    have q3 : ((((Finset.range 4).erase 2).erase 1).erase 3).erase 0 = ∅ := by decide
    have hv : ∃ v, conjugatePairs 4 e pop' = .ok v ∧ v 0 = some (pairVal e 0 3) ∧
        v 1 = some (pairVal e 1 2) ∧ v 2 = some (pairVal e 2 1) ∧ v 3 = some (pairVal e 3 0) := by
      simp only [conjugatePairs, pairLoop, p1, n2, q1, if_false]
      simp only [p2, n3, q2, q3, if_false, if_true]
      refine ⟨_, by simp; rfl, ?_⟩
      simp [Function.update_of_ne]
    obtain ⟨v, hv, v0, v1, v2, v3⟩ := hv
    refine ⟨_, by rw [push, if_pos rfl, hv], fun i hi => ?_⟩
    have hl : ∀ z, pushLast ⟨false, false, true⟩ z = z := fun z => by simp [pushLast]
    interval_cases i
    · simp only [v0, Option.map_some, hl]; rw [pairVal_self]; simp [he]
    · simp only [v1, Option.map_some, hl]; rw [pairVal_self]; simp [he]
    · simp only [v2, Option.map_some, hl]; rw [pairVal_self]; simp [he]
    · simp only [v3, Option.map_some, hl]; rw [pairVal_self]; simp [he]

/-- **C41** (rejected combinations). Exactly the sets with an unknown name, or with both
`"stable"` and `"imag"`, are rejected, with `ValueError`; so in an accepted set the two flags are
never both set. -/
theorem C41_check (s : List String) :
    (check s = .ok () ↔ (∀ x ∈ s, x = "stable" ∨ x = "imag" ∨ x = "conjugate_pairs") ∧
      ¬ ("stable" ∈ s ∧ "imag" ∈ s)) ∧
    (check s ≠ .ok () → check s = .error .valueError) ∧
    (check s = .ok () → ((ofSet s).stable = true → (ofSet s).imag = false)) := by
  have hany : (s.any fun x => decide (x ∉ ["stable", "imag", "conjugate_pairs"])) = true ↔
      ¬ ∀ x ∈ s, x = "stable" ∨ x = "imag" ∨ x = "conjugate_pairs" := by
    simp [List.any_eq_true]
  have h1 : check s = .ok () ↔ (∀ x ∈ s, x = "stable" ∨ x = "imag" ∨ x = "conjugate_pairs") ∧
      ¬ ("stable" ∈ s ∧ "imag" ∈ s) := by
    unfold check
    split_ifs with ha hb
    · simp only [reduceCtorEq, false_iff]
      exact fun h => hany.mp ha h.1
    · simp only [reduceCtorEq, false_iff]
      exact fun h => h.2 hb
    · simp only [true_iff]
      exact ⟨not_not.mp fun h => ha (hany.mpr h), hb⟩
  refine ⟨h1, fun h => ?_, fun h hs => ?_⟩
  · unfold check at h ⊢
    split_ifs at h ⊢ <;> simp_all
  · have := (h1.mp h).2
    simp only [ofSet, decide_eq_true_eq, decide_eq_false_iff_not] at hs ⊢
    exact fun hi => this ⟨hs, hi⟩

/-! ## C69: the caller's array -/

/-- **C69** (partial). The array given to the routine (the user's `init_alpha`, which `fit` passes
on without copying) is unchanged, except with `"stable"` and without `"conjugate_pairs"` when it
contains a value with positive real part. -/
theorem C69_unchanged_partial (c : Constraints) (e : ℕ → ℂ)
    (h : c.stable = false ∨ c.conj = true ∨ ∀ i, (e i).re ≤ 0) : inputAfter c e = e := by
  unfold inputAfter
  split_ifs with hc
  · rcases h with h | h | h
    · simp [h] at hc
    · simp [h] at hc
    · funext i
      rw [pushStable, if_neg (not_lt.mpr (h i))]
  · rfl

/-- **C69** is false: with `"stable"` a value `x + iy` with `x > 0` in the user's array is
overwritten by `iy`. -/
theorem C69_overwritten_false (c : Constraints) (hs : c.stable = true) (hc : c.conj = false)
    (e : ℕ → ℂ) (i : ℕ) (hi : 0 < (e i).re) :
    inputAfter c e i = Complex.I * (e i).im ∧ inputAfter c e i ≠ e i := by
  have : inputAfter c e i = Complex.I * (e i).im := by
    simp [inputAfter, hs, hc, pushStable, hi]
  refine ⟨this, fun h => ?_⟩
  rw [this] at h
  have := congrArg Complex.re h
  simp at this
  linarith

end Verif.BopEigs
