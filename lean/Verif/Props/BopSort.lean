import Verif.Model.BopSort
import Verif.Props.Bop
import Mathlib.Order.WellFounded
import Mathlib.Data.Fin.Tuple.Sort
import Mathlib.Order.Filter.AtTopBot.Basic
import Mathlib.Analysis.SpecialFunctions.Exp

/-!
# C106, C107: sorting the bags of BOP-DMD and the ensemble forecast
-/

set_option autoImplicit false

namespace Verif.BopSort

open Verif.Bop

variable {n r : ℕ}

/-! ## C106 -/

/-- What is assumed of `np.argsort`: it gives a permutation after which the keys do not decrease
(nothing about the order of equal ones). -/
def IsArgsort (argsort : (Fin r → ℝ ×ₗ ℝ) → Equiv.Perm (Fin r)) : Prop :=
  ∀ f, Monotone (f ∘ argsort f)

/-- Trial `j` is used. -/
def taken (c : Cfg) (o : ℕ → Raw n r) (j : ℕ) : Prop :=
  (o j).converged = true ∨ c.removeBadBags = false

instance (c : Cfg) (o : ℕ → Raw n r) : DecidablePred (taken c o) :=
  fun _ => inferInstanceAs (Decidable (_ ∨ _))

/-- The trials used among the first `k`. -/
def takenSet (c : Cfg) (o : ℕ → Raw n r) (k : ℕ) : Finset ℕ :=
  (Finset.range k).filter (taken c o)

/-- The spread by which `eig_sort="auto"` decides: the variance of the real parts, the imaginary
parts or the moduli. -/
noncomputable def spread (e : Fin r → ℂ) : Key → ℝ
  | .real => (∑ i, ((e i).re - (∑ j, (e j).re) / r) ^ 2) / r
  | .imag => (∑ i, ((e i).im - (∑ j, (e j).im) / r) ^ 2) / r
  | .abs => (∑ i, (‖e i‖ - (∑ j, ‖e j‖) / r) ^ 2) / r

/-- `K` is the order of the bags: the one asked for, or with "auto" one of largest spread for the
eigenvalues of the first trial used. -/
def OrderOf (c : Cfg) (s : EigSort) (o : ℕ → Raw n r) (K : Key) : Prop :=
  s = .key K ∨ s = .auto ∧ ∃ j, taken c o j ∧ (∀ i < j, ¬ taken c o i) ∧
    ∀ K', spread (o j).e K' ≤ spread (o j).e K

theorem chosen_max (e : Fin r → ℂ) (K' : Key) : spread e K' ≤ spread e (chosen e) := by
  have h1 : spread e .real = var fun i => (e i).re := rfl
  have h2 : spread e .imag = var fun i => (e i).im := rfl
  have h3 : spread e .abs = var fun i => ‖e i‖ := rfl
  unfold chosen
  simp only
  split_ifs with ha hb
  · cases K' <;> simp only [h1, h2, h3] <;> first | exact le_rfl | exact ha.1 | exact ha.2
  · cases K' <;> simp only [h1, h2, h3]
    · by_contra hlt
      exact ha ⟨by linarith, by linarith⟩
    · exact le_rfl
    · exact hb
  · cases K' <;> simp only [h1, h2, h3]
    · by_contra hlt
      exact ha ⟨by linarith, by linarith⟩
    · linarith
    · exact le_rfl

theorem used_eq (c : Cfg) (o : ℕ → Raw n r) (p : ℕ → Equiv.Perm (Fin r)) (k : ℕ) :
    used c (fun j => sorted (o j) (p j)) k = takenSet c o k := by
  unfold used takenSet
  exact Finset.filter_congr fun j _ => Iff.rfl

theorem advance_skip (c : Cfg) (st : St (Ix n r)) (o : Raw n r) (p q : Equiv.Perm (Fin r))
    (h : (o.converged || !c.removeBadBags) = false) :
    advance c st (sorted o p) = advance c st (sorted o q) := by
  simp only [advance]
  have h1 : ∀ p, (sorted o p).converged = o.converged := fun _ => rfl
  simp only [h1, h, Bool.false_eq_true, if_false]

theorem taken_iff (c : Cfg) (o : ℕ → Raw n r) (j : ℕ) :
    taken c o j ↔ ((o j).converged || !c.removeBadBags) = true := by
  simp [taken]

theorem sortLoop_eq (c : Cfg) (argsort : (Fin r → ℝ ×ₗ ℝ) → Equiv.Perm (Fin r)) (s : EigSort)
    (o : ℕ → Raw n r) (K : Key)
    (hs : s = .key K ∨ s = .auto ∧
      ∀ j, taken c o j → (∀ i < j, ¬ taken c o i) → K = chosen (o j).e) (k : ℕ) :
    ∃ s', sortLoop c argsort s o k =
        .ok (loop c (fun j => sorted (o j) (argsort fun i => keyOf K ((o j).e i))) k, s') ∧
      ∀ st, loop c (fun j => sorted (o j) (argsort fun i => keyOf K ((o j).e i))) k =
        .running st → s' = .key K ∨ s' = .auto ∧ s = .auto ∧ ∀ i < k, ¬ taken c o i := by
  induction k with
  | zero =>
    refine ⟨s, rfl, fun st _ => ?_⟩
    rcases hs with h | h
    · exact Or.inl h
    · exact Or.inr ⟨h.1, h.1, fun i hi => by omega⟩
  | succ k ih =>
    obtain ⟨s', h1, h2⟩ := ih
    rw [sortLoop, h1, loop]
    cases hl : loop c (fun j => sorted (o j) (argsort fun i => keyOf K ((o j).e i))) k with
    | done st => exact ⟨s', rfl, fun _ h => by simp at h⟩
    | raised => exact ⟨s', rfl, fun _ h => by simp at h⟩
    | running st =>
      simp only
      unfold pass
      by_cases ht : taken c o k
      · rw [if_pos ((taken_iff c o k).mp ht)]
        have hr : resolve s' (o k).e = .key K := by
          rcases h2 st hl with h | ⟨h, hs0, hn⟩
          · rw [h]; rfl
          · rw [h]
            rcases hs with h' | h'
            · rw [h'] at hs0; simp at hs0
            · rw [h'.2 k ht hn]; rfl
        have ha : argsortEigs argsort s' (o k).e =
            .ok (argsort fun i => keyOf K ((o k).e i), .key K) := by
          unfold argsortEigs; rw [hr]
        rw [ha]
        exact ⟨.key K, rfl, fun _ _ => Or.inl rfl⟩
      · have hb : ((o k).converged || !c.removeBadBags) = false := by
          rw [← Bool.not_eq_true]; exact fun h => ht ((taken_iff c o k).mpr h)
        rw [hb]
        refine ⟨s', ?_, fun _ _ => ?_⟩
        · simp only [Bool.false_eq_true, if_false]
          rw [advance_skip c st (o k) _ _ hb]
        · rcases h2 st hl with h | ⟨h, hs0, hn⟩
          · exact Or.inl h
          · refine Or.inr ⟨h, hs0, fun i hi => ?_⟩
            rcases Nat.lt_or_ge i k with hlt | hge
            · exact hn i hlt
            · rwa [show i = k by omega]

/-- The order in which all bags are sorted. -/
theorem exists_order (c : Cfg) (s : EigSort) (hs : s ≠ .other) (o : ℕ → Raw n r) :
    ∃ K, (s = .key K ∨ s = .auto ∧
        ∀ j, taken c o j → (∀ i < j, ¬ taken c o i) → K = chosen (o j).e) ∧
      ((∃ j, taken c o j) → OrderOf c s o K) := by
  classical
  cases s with
  | other => exact absurd rfl hs
  | key K => exact ⟨K, Or.inl rfl, fun _ => Or.inl rfl⟩
  | auto =>
    by_cases h : ∃ j, taken c o j
    · refine ⟨chosen (o (Nat.find h)).e, Or.inr ⟨rfl, fun j hj hm => ?_⟩, fun _ => Or.inr ⟨rfl,
        Nat.find h, Nat.find_spec h, fun i hi => Nat.find_min h hi, chosen_max _⟩⟩
      have : Nat.find h = j := by
        refine le_antisymm (Nat.find_min' h hj) ?_
        by_contra hlt
        exact hm _ (not_le.mp hlt) (Nat.find_spec h)
      rw [this]
    · exact ⟨.real, Or.inr ⟨rfl, fun j hj => absurd ⟨j, hj⟩ h⟩, fun h' => absurd h' h⟩

/-- **C106** (statistics of sorted bags). Once the loop has ended, the eigenvalues, modes and
amplitudes of each of the `num_trials` trials used have been put into one order, by a permutation
`p j` common to the three, after which the keys of the eigenvalues do not decrease; the key is the
one asked for and with "auto" it is that of the largest spread in the first trial used. Reported
are the means over the trials and the roots of the mean squared distances from them. -/
theorem C106_sorted (c : Cfg) (hf : 1 ≤ c.bagMaxfail) (hn : 1 ≤ c.numTrials)
    (argsort : (Fin r → ℝ ×ₗ ℝ) → Equiv.Perm (Fin r)) (ha : IsArgsort argsort) (s s' : EigSort)
    (hs : s ≠ .other) (o : ℕ → Raw n r) (k : ℕ) (st : St (Ix n r))
    (h : sortLoop c argsort s o k = .ok (.done st, s')) :
    ∃ (K : Key) (p : ℕ → Equiv.Perm (Fin r)) (k' : ℕ), OrderOf c s o K ∧
      (∀ j, Monotone fun i => keyOf K ((o j).e (p j i))) ∧ k' ≤ k ∧
      (takenSet c o k').card = c.numTrials ∧ (∀ j < k', (takenSet c o j).card < c.numTrials) ∧
      (∀ i, mean c st (.e i) = (∑ j ∈ takenSet c o k', (o j).e (p j i)) / c.numTrials) ∧
      (∀ i, mean c st (.b i) = (∑ j ∈ takenSet c o k', (o j).b (p j i)) / c.numTrials) ∧
      (∀ x i, mean c st (.w x i) =
        (∑ j ∈ takenSet c o k', (o j).w x (p j i)) / c.numTrials) ∧
      (∀ i, std c st (.e i) = Real.sqrt
        ((∑ j ∈ takenSet c o k', ‖(o j).e (p j i) - mean c st (.e i)‖ ^ 2) / c.numTrials)) ∧
      (∀ i, std c st (.b i) = Real.sqrt
        ((∑ j ∈ takenSet c o k', ‖(o j).b (p j i) - mean c st (.b i)‖ ^ 2) / c.numTrials)) ∧
      ∀ x i, std c st (.w x i) = Real.sqrt
        ((∑ j ∈ takenSet c o k', ‖(o j).w x (p j i) - mean c st (.w x i)‖ ^ 2) /
          c.numTrials) := by
  obtain ⟨K, hK, hO⟩ := exists_order c s hs o
  obtain ⟨s'', h1, -⟩ := sortLoop_eq c argsort s o K hK k
  rw [h] at h1
  simp only [Except.ok.injEq, Prod.mk.injEq] at h1
  obtain ⟨k', hk, hc, hmin, hst⟩ := C43_statistics c hf hn _ k st h1.1.symm
  rw [used_eq c o fun j => argsort fun i => keyOf K ((o j).e i)] at hc hst
  have hex : ∃ j, taken c o j := by
    have : (takenSet c o k').Nonempty := Finset.card_pos.mp (by omega)
    obtain ⟨j, hj⟩ := this
    unfold takenSet at hj
    exact ⟨j, (Finset.mem_filter.mp hj).2⟩
  refine ⟨K, fun j => argsort fun i => keyOf K ((o j).e i), k', hO hex,
    fun j => ha fun i => keyOf K ((o j).e i), hk, hc, fun j hj => ?_, fun i => (hst (.e i)).1,
    fun i => (hst (.b i)).1, fun x i => (hst (.w x i)).1, fun i => (hst (.e i)).2,
    fun i => (hst (.b i)).2, fun x i => (hst (.w x i)).2⟩
  have := hmin j hj
  rwa [used_eq c o fun j => argsort fun i => keyOf K ((o j).e i)] at this

/-- Two sortings by a key without ties are the same. -/
theorem sort_unique {β : Type} [LinearOrder β] (f : Fin r → β) (hf : Function.Injective f)
    (a b : Equiv.Perm (Fin r)) (h1 : Monotone (f ∘ a)) (h2 : Monotone (f ∘ b)) : a = b := by
  have s1 : StrictMono (f ∘ a) := h1.strictMono_of_injective (hf.comp a.injective)
  have s2 : StrictMono (f ∘ b) := h2.strictMono_of_injective (hf.comp b.injective)
  have hr : Set.range (f ∘ a) = Set.range (f ∘ b) := by
    rw [Set.range_comp, Set.range_comp, a.surjective.range_eq, b.surjective.range_eq]
  have := (StrictMono.range_inj s1 s2).mp hr
  ext i
  exact congrArg Fin.val (hf (congrFun this i))

/-- **C106** (bags that agree). If all the trials used found the same eigenvalues `e` with the
same modes and amplitudes, each in an order of its own, and the key of the sorting tells the
eigenvalues apart, then exactly these are reported, in one order, and all deviations are 0. -/
theorem C106_agree (c : Cfg) (hf : 1 ≤ c.bagMaxfail) (hn : 1 ≤ c.numTrials)
    (argsort : (Fin r → ℝ ×ₗ ℝ) → Equiv.Perm (Fin r)) (ha : IsArgsort argsort) (s s' : EigSort)
    (hs : s ≠ .other) (o : ℕ → Raw n r) (k : ℕ) (st : St (Ix n r))
    (h : sortLoop c argsort s o k = .ok (.done st, s'))
    (w : Matrix (Fin n) (Fin r) ℂ) (e b : Fin r → ℂ) (q : ℕ → Equiv.Perm (Fin r))
    (hq : ∀ j, taken c o j → (∀ i, (o j).e i = e (q j i)) ∧ (∀ i, (o j).b i = b (q j i)) ∧
      ∀ x i, (o j).w x i = w x (q j i))
    (hK : ∀ K, OrderOf c s o K → Function.Injective fun i => keyOf K (e i)) :
    ∃ σ : Equiv.Perm (Fin r), (∃ K, OrderOf c s o K ∧ StrictMono fun i => keyOf K (e (σ i))) ∧
      ∀ i, mean c st (.e i) = e (σ i) ∧ mean c st (.b i) = b (σ i) ∧
        (∀ x, mean c st (.w x i) = w x (σ i)) ∧ std c st (.e i) = 0 ∧ std c st (.b i) = 0 ∧
        ∀ x, std c st (.w x i) = 0 := by
  obtain ⟨K, p, k', hO, hp, -, hc, -, he, hb, hw, hse, hsb, hsw⟩ :=
    C106_sorted c hf hn argsort ha s s' hs o k st h
  have hinj := hK K hO
  have hmem : ∀ j ∈ takenSet c o k', taken c o j := fun j hj => by
    unfold takenSet at hj; exact (Finset.mem_filter.mp hj).2
  obtain ⟨j₀, hj₀⟩ : (takenSet c o k').Nonempty := Finset.card_pos.mp (by omega)
  have hmono : ∀ j ∈ takenSet c o k',
      Monotone ((fun i => keyOf K (e i)) ∘ ((p j).trans (q j))) := fun j hj => by
    have := hp j
    have h2 : (fun i => keyOf K ((o j).e (p j i))) =
        (fun i => keyOf K (e i)) ∘ ((p j).trans (q j)) := by
      funext i
      simp [(hq j (hmem j hj)).1]
    rwa [h2] at this
  set σ := (p j₀).trans (q j₀) with hσ
  have hall : ∀ j ∈ takenSet c o k', ∀ i, q j (p j i) = σ i := fun j hj i => by
    have := sort_unique _ hinj _ _ (hmono j hj) (hmono j₀ hj₀)
    rw [← hσ] at this
    exact congrArg (fun f : Equiv.Perm (Fin r) => f i) this
  have hN : (c.numTrials : ℂ) ≠ 0 := by
    have : c.numTrials ≠ 0 := by omega
    exact_mod_cast this
  have avg : ∀ (f : ℕ → ℂ) (z : ℂ), (∀ j ∈ takenSet c o k', f j = z) →
      (∑ j ∈ takenSet c o k', f j) / c.numTrials = z := fun f z hz => by
    rw [Finset.sum_congr rfl hz, Finset.sum_const, hc, nsmul_eq_mul]
    field_simp
  have dev : ∀ (f : ℕ → ℂ) (z m : ℂ), (∀ j ∈ takenSet c o k', f j = z) → m = z →
      Real.sqrt ((∑ j ∈ takenSet c o k', ‖f j - m‖ ^ 2) / c.numTrials) = 0 :=
    fun f z m hz hm => by
      rw [Finset.sum_eq_zero fun j hj => by rw [hz j hj, hm]; simp]
      simp
  have ve : ∀ i, ∀ j ∈ takenSet c o k', (o j).e (p j i) = e (σ i) := fun i j hj => by
    rw [(hq j (hmem j hj)).1, hall j hj]
  have vb : ∀ i, ∀ j ∈ takenSet c o k', (o j).b (p j i) = b (σ i) := fun i j hj => by
    rw [(hq j (hmem j hj)).2.1, hall j hj]
  have vw : ∀ x i, ∀ j ∈ takenSet c o k', (o j).w x (p j i) = w x (σ i) := fun x i j hj => by
    rw [(hq j (hmem j hj)).2.2, hall j hj]
  have me : ∀ i, mean c st (.e i) = e (σ i) := fun i => by rw [he]; exact avg _ _ (ve i)
  have mb : ∀ i, mean c st (.b i) = b (σ i) := fun i => by rw [hb]; exact avg _ _ (vb i)
  have mw : ∀ x i, mean c st (.w x i) = w x (σ i) := fun x i => by
    rw [hw]; exact avg _ _ (vw x i)
  refine ⟨σ, ⟨K, hO, ?_⟩, fun i => ⟨me i, mb i, fun x => mw x i, ?_, ?_, fun x => ?_⟩⟩
  · exact (hmono j₀ hj₀).strictMono_of_injective (hinj.comp σ.injective)
  · rw [hse]; exact dev _ _ _ (ve i) (me i)
  · rw [hsb]; exact dev _ _ _ (vb i) (mb i)
  · rw [hsw]; exact dev _ _ _ (vw x i) (mw x i)

/-- **C106** (keys). The keys "real" and "imag" tell distinct eigenvalues apart; "abs" tells those
of distinct modulus apart, and no others. -/
theorem C106_keys (e : Fin r → ℂ) :
    (Function.Injective (fun i => keyOf .real (e i)) ↔ Function.Injective e) ∧
    (Function.Injective (fun i => keyOf .imag (e i)) ↔ Function.Injective e) ∧
    (Function.Injective (fun i => keyOf .abs (e i)) ↔ Function.Injective fun i => ‖e i‖) := by
  have h1 : ∀ x y : ℂ, keyOf .real x = keyOf .real y ↔ x = y := fun x y => by
    simp [keyOf, Complex.ext_iff]
  have h2 : ∀ x y : ℂ, keyOf .imag x = keyOf .imag y ↔ x = y := fun x y => by
    simp [keyOf, Complex.ext_iff, and_comm]
  have h3 : ∀ x y : ℂ, keyOf .abs x = keyOf .abs y ↔ ‖x‖ = ‖y‖ := fun x y => by
    simp [keyOf]
  simp only [Function.Injective, h1, h2, h3, and_self]

/-- **C106** (orders). "real" sorts by real part, then imaginary part; "imag" by imaginary part, then
real part; "abs" by modulus. -/
theorem C106_order (argsort : (Fin r → ℝ ×ₗ ℝ) → Equiv.Perm (Fin r)) (ha : IsArgsort argsort)
    (e : Fin r → ℂ) :
    (∃ p, argsortEigs argsort (.key .real) e = .ok (p, .key .real) ∧ ∀ i j, i ≤ j →
      (e (p i)).re < (e (p j)).re ∨ (e (p i)).re = (e (p j)).re ∧ (e (p i)).im ≤ (e (p j)).im) ∧
    (∃ p, argsortEigs argsort (.key .imag) e = .ok (p, .key .imag) ∧ ∀ i j, i ≤ j →
      (e (p i)).im < (e (p j)).im ∨ (e (p i)).im = (e (p j)).im ∧ (e (p i)).re ≤ (e (p j)).re) ∧
    ∃ p, argsortEigs argsort (.key .abs) e = .ok (p, .key .abs) ∧ ∀ i j, i ≤ j →
      ‖e (p i)‖ ≤ ‖e (p j)‖ := by
  refine ⟨⟨_, rfl, fun i j hij => ?_⟩, ⟨_, rfl, fun i j hij => ?_⟩, ⟨_, rfl, fun i j hij => ?_⟩⟩
  · have := ha (fun i => keyOf .real (e i)) hij
    simpa [keyOf, Prod.Lex.toLex_le_toLex] using this
  · have := ha (fun i => keyOf .imag (e i)) hij
    simpa [keyOf, Prod.Lex.toLex_le_toLex] using this
  · have := ha (fun i => keyOf .abs (e i)) hij
    simp only [Function.comp, keyOf, Prod.Lex.toLex_le_toLex, le_refl, and_true] at this
    exact this.elim le_of_lt le_of_eq

/-- **C106** (unsupported order). Bagging with an unsupported `eig_sort` raises `ValueError` at
the first trial used. -/
theorem C106_unsupported (c : Cfg) (argsort : (Fin r → ℝ ×ₗ ℝ) → Equiv.Perm (Fin r))
    (o : ℕ → Raw n r) (hn : 1 ≤ c.numTrials) (h0 : taken c o 0) (k : ℕ) :
    sortLoop c argsort .other o (k + 1) = .error .valueError := by
  induction k with
  | zero =>
    rw [sortLoop, sortLoop, loop, if_pos (by omega)]
    simp only
    rw [pass, if_pos ((taken_iff c o 0).mp h0)]
    rfl
  | succ k ih => rw [sortLoop, ih]

/-! Two bags of four eigenvalues, `-10 ± i` and `-1 ± i`, the first exact and the second with the
real parts of two of them less by `ε`. -/

/-- The bags of `C106_auto_false`: the entries of the two differ by at most `ε`, position by
position. -/
noncomputable def bagEx (ε : ℝ) (j : ℕ) : Raw 1 4 where
  converged := true
  w := fun _ _ => 1
  e := ![⟨-10 - (if j = 0 then 0 else ε), 1⟩, ⟨-10, -1⟩, ⟨-1 - (if j = 0 then 0 else ε), 1⟩,
    ⟨-1, -1⟩]
  b := fun _ => 1

/-- The order found for the first bag. -/
def bagPerm : Equiv.Perm (Fin 4) where
  toFun := ![1, 0, 3, 2]
  invFun := ![1, 0, 3, 2]
  left_inv := by decide
  right_inv := by decide

theorem bagEx_order (ε : ℝ) (c : Cfg) (K : Key) (h : OrderOf c .auto (bagEx ε) K) :
    K = .real := by
  rcases h with h | ⟨-, j, -, hmin, hmax⟩
  · simp at h
  obtain rfl : j = 0 := by
    by_contra hj
    exact hmin 0 (Nat.pos_of_ne_zero hj) (Or.inl rfl)
  have h101 : ‖(⟨-10, 1⟩ : ℂ)‖ = Real.sqrt 101 := by
    rw [Complex.norm_def, Complex.normSq_mk]; norm_num
  have h101' : ‖(⟨-10, -1⟩ : ℂ)‖ = Real.sqrt 101 := by
    rw [Complex.norm_def, Complex.normSq_mk]; norm_num
  have h2 : ‖(⟨-1, 1⟩ : ℂ)‖ = Real.sqrt 2 := by
    rw [Complex.norm_def, Complex.normSq_mk]; norm_num
  have h2' : ‖(⟨-1, -1⟩ : ℂ)‖ = Real.sqrt 2 := by
    rw [Complex.norm_def, Complex.normSq_mk]; norm_num
  have hr : spread (bagEx ε 0).e .real = 81 / 4 := by
    simp [spread, bagEx, Fin.sum_univ_four]; norm_num
  have hi : spread (bagEx ε 0).e .imag = 1 := by
    simp [spread, bagEx, Fin.sum_univ_four]; norm_num
  have ha : spread (bagEx ε 0).e .abs = (Real.sqrt 101 - Real.sqrt 2) ^ 2 / 4 := by
    simp only [spread, bagEx, Fin.sum_univ_four, if_true, sub_zero, Matrix.cons_val]
    rw [h101, h101', h2, h2']
    push_cast
    ring
  have hm := hmax .real
  rw [hr] at hm
  cases K with
  | real => rfl
  | imag => rw [hi] at hm; norm_num at hm
  | abs =>
    rw [ha] at hm
    have s1 := Real.sq_sqrt (show (0 : ℝ) ≤ 101 by norm_num)
    have s2 := Real.sq_sqrt (show (0 : ℝ) ≤ 2 by norm_num)
    have p1 : 10 ≤ Real.sqrt 101 := Real.le_sqrt_of_sq_le (by norm_num)
    have p2 : 5 / 4 ≤ Real.sqrt 2 := Real.le_sqrt_of_sq_le (by norm_num)
    nlinarith [mul_le_mul p1 p2 (by norm_num) (Real.sqrt_nonneg 101)]

/-- **C106** is false for bags that nearly agree, with the default `eig_sort="auto"`: the members
of a conjugate pair have the same real part, and whether one or the other comes first is decided
by the noise. Here two bags have eigenvalues within `ε` of `-10 ± i`, `-1 ± i`, in the same
positions, and the four reported eigenvalues are all real, with deviations of at least 1, however
small `ε` is. -/
theorem C106_auto_false (ε : ℝ) (h0 : 0 < ε) (h1 : ε < 1)
    (argsort : (Fin 4 → ℝ ×ₗ ℝ) → Equiv.Perm (Fin 4)) (ha : IsArgsort argsort) :
    (∀ i, ‖(bagEx ε 0).e i - (bagEx ε 1).e i‖ ≤ ε ∧ |((bagEx ε 0).e i).im| = 1 ∧
      |((bagEx ε 1).e i).im| = 1) ∧
    ∃ st s', sortLoop ⟨2, true, 200⟩ argsort .auto (bagEx ε) 2 = .ok (.done st, s') ∧
      ∀ i, (mean ⟨2, true, 200⟩ st (.e i)).im = 0 ∧ 1 ≤ std ⟨2, true, 200⟩ st (.e i) := by
  set c : Cfg := ⟨2, true, 200⟩ with hc
  refine ⟨fun i => ?_, ?_⟩
  · have key : ∀ x y : ℝ, ‖(⟨x, y⟩ : ℂ) - ⟨x - ε, y⟩‖ ≤ ε := fun x y => by
      have : (⟨x, y⟩ : ℂ) - ⟨x - ε, y⟩ = (ε : ℂ) := by
        apply Complex.ext <;> simp
      rw [this, Complex.norm_real, Real.norm_of_nonneg h0.le]
    fin_cases i <;> simp [bagEx, h0.le] <;> simpa using key _ _
  · obtain ⟨K, hK, hO⟩ := exists_order c .auto (by simp) (bagEx ε)
    obtain ⟨s', hl, -⟩ := sortLoop_eq c argsort .auto (bagEx ε) K hK 2
    obtain ⟨st, hst⟩ : ∃ st, loop c (fun j => sorted (bagEx ε j)
        (argsort fun i => keyOf K ((bagEx ε j).e i))) 2 = .done st := by
      simp [loop, advance, sorted, bagEx, hc]
    rw [hst] at hl
    refine ⟨st, s', hl, ?_⟩
    obtain ⟨K, p, k', hO, hp, hk, hcard, -, he, -, -, hse, -, -⟩ :=
      C106_sorted c (by simp [hc]) (by simp [hc]) argsort ha .auto s' (by simp) (bagEx ε) 2 st hl
    obtain rfl := bagEx_order ε c K hO
    have hall : ∀ k, takenSet c (bagEx ε) k = Finset.range k := fun k =>
      Finset.filter_true_of_mem fun i _ => Or.inl rfl
    rw [hall] at hcard
    obtain rfl : k' = 2 := by simpa [hc] using hcard
    have inj : ∀ j, Function.Injective fun i => keyOf .real ((bagEx ε j).e i) := fun j => by
      rw [(C106_keys _).1]
      intro a b hab
      fin_cases a <;> fin_cases b <;>
        simp [bagEx, Complex.ext_iff] at hab ⊢ <;> norm_num at hab
    have hp0 : p 0 = bagPerm := by
      refine sort_unique _ (inj 0) _ _ (hp 0) ?_
      refine Fin.monotone_iff_le_succ.mpr fun i => ?_
      fin_cases i <;> simp [bagPerm, bagEx, keyOf, Prod.Lex.toLex_le_toLex] <;> norm_num
    have hp1 : p 1 = 1 := by
      refine sort_unique _ (inj 1) _ _ (hp 1) ?_
      refine Fin.monotone_iff_le_succ.mpr fun i => ?_
      fin_cases i <;> simp [bagEx, keyOf, Prod.Lex.toLex_le_toLex] <;>
        first | (left; linarith) | linarith
    intro i
    have hm := he i
    have hs := hse i
    rw [hall, Finset.sum_range_succ, Finset.sum_range_one, hp0, hp1] at hm hs
    have him : (mean c st (.e i)).im = 0 := by
      rw [hm]
      have : ((c.numTrials : ℕ) : ℂ) = ((2 : ℝ) : ℂ) := by simp [hc]
      rw [this, Complex.div_ofReal_im]
      fin_cases i <;> simp [bagPerm, bagEx]
    refine ⟨him, ?_⟩
    rw [hs]
    refine Real.le_sqrt_of_sq_le ?_
    have low : ∀ z : ℂ, |z.im| = 1 → 1 ≤ ‖z - mean c st (.e i)‖ ^ 2 := fun z hz => by
      have h2 := Complex.abs_im_le_norm (z - mean c st (.e i))
      rw [Complex.sub_im, him, sub_zero, hz] at h2
      nlinarith
    have e0 : |((bagEx ε 0).e (bagPerm i)).im| = 1 := by
      fin_cases i <;> simp [bagPerm, bagEx]
    have e1 : |((bagEx ε 1).e ((1 : Equiv.Perm (Fin 4)) i)).im| = 1 := by
      fin_cases i <;> simp [bagEx]
    have l0 := low _ e0
    have l1 := low _ e1
    have : ((c.numTrials : ℕ) : ℝ) = 2 := by simp [hc]
    rw [this]
    linarith

/-- The assumption on `np.argsort` can be met. -/
example : IsArgsort (Tuple.sort : (Fin r → ℝ ×ₗ ℝ) → Equiv.Perm (Fin r)) :=
  fun f => Tuple.monotone_sort f

/-- A case of `C106_agree`: `±i` in alternating order, sorted by imaginary part. -/
noncomputable def swapEx (j : ℕ) : Raw 1 2 where
  converged := true
  w := fun _ i => (swapP j i : ℕ)
  e := fun i => if swapP j i = 0 then Complex.I else -Complex.I
  b := fun i => (swapP j i : ℕ) + 1
where
  /-- identity or exchange -/
  swapP (j : ℕ) : Equiv.Perm (Fin 2) := if j % 2 = 0 then 1 else Equiv.swap 0 1

example : ∃ st s', sortLoop ⟨2, true, 200⟩ Tuple.sort (.key .imag) swapEx 2 =
    .ok (.done st, s') ∧ ∀ i, std ⟨2, true, 200⟩ st (.e i) = 0 := by
  obtain ⟨s', hl, -⟩ := sortLoop_eq ⟨2, true, 200⟩ Tuple.sort (.key .imag) swapEx .imag
    (Or.inl rfl) 2
  obtain ⟨st, hst⟩ : ∃ st, loop ⟨2, true, 200⟩ (fun j => sorted (swapEx j)
      (Tuple.sort fun i => keyOf .imag ((swapEx j).e i))) 2 = .done st := by
    simp [loop, advance, sorted, swapEx]
  rw [hst] at hl
  refine ⟨st, s', hl, fun i => ?_⟩
  obtain ⟨σ, -, h⟩ := C106_agree ⟨2, true, 200⟩ (by simp) (by simp) Tuple.sort
    (fun f => Tuple.monotone_sort f) (.key .imag) s' (by simp) swapEx 2 st hl
    (fun _ i => (i : ℕ)) (fun i => if i = 0 then Complex.I else -Complex.I)
    (fun i => (i : ℕ) + 1) swapEx.swapP (fun j _ => ⟨fun _ => rfl, fun _ => rfl, fun _ _ => rfl⟩)
    (fun K hK => by
      obtain rfl : K = .imag := by
        rcases hK with h | ⟨h, -⟩
        · simpa using h.symm
        · simp at h
      rw [(C106_keys _).2.1]
      intro a b hab
      fin_cases a <;> fin_cases b <;> simp [Complex.ext_iff] at hab ⊢ <;> norm_num at hab)
  exact (h i).2.2.2.1

/-! ## C107 -/

/-- The number of dimensions of the times that are not of length 1. -/
def dims (shape : List ℕ) : ℕ := shape.countP (· ≠ 1)

theorem squeeze_length (shape : List ℕ) : (squeeze shape).length = dims shape := by
  rw [squeeze, dims, List.countP_eq_length_filter]

theorem forecast_ens (f : Fitted n r) (z y : ℕ → Fin r → ℝ) (shape : List ℕ) (t : List ℝ)
    (se sb : Fin r → ℝ) (hs : f.std = some (se, sb)) (hr : f.rows = some n)
    (h1 : dims shape = 1) :
    forecast f z y shape t = .ok (.ens
      (t.map fun τ => ensMean f.numTrials fun k =>
        column f.modes (drawn f.eigs se (z k)) (drawn f.amps sb (y k)) τ)
      (t.map fun τ => ensVar f.numTrials fun k =>
        column f.modes (drawn f.eigs se (z k)) (drawn f.amps sb (y k)) τ)) := by
  unfold forecast
  simp [hs, hr, squeeze_length, h1]

/-- **C107** (no spread). If all bags agreed (all deviations are 0), the forecast is the one of
the averaged eigenvalues, modes and amplitudes, whatever is drawn, and its variance is 0. -/
theorem C107_no_spread (f : Fitted n r) (z y : ℕ → Fin r → ℝ) (shape : List ℕ) (t : List ℝ)
    (hs : f.std = some (fun _ => 0, fun _ => 0)) (hr : f.rows = some n) (hN : 1 ≤ f.numTrials)
    (h1 : dims shape = 1) :
    forecast f z y shape t = .ok (.ens
      (t.map fun (τ : ℝ) i => ∑ j, f.modes i j * f.amps j * Complex.exp (f.eigs j * τ))
      (t.map fun _ _ => 0)) := by
  have hN' : (f.numTrials : ℂ) ≠ 0 := by
    have : f.numTrials ≠ 0 := by omega
    exact_mod_cast this
  have hd : ∀ (x : Fin r → ℂ) (u : Fin r → ℝ), drawn x (fun _ => 0) u = x := fun x u => by
    funext j; simp [drawn]
  have hm : ∀ x : Fin n → ℂ, ensMean f.numTrials (fun _ => x) = x := fun x => by
    funext i
    rw [ensMean, Finset.sum_const, Finset.card_range, nsmul_eq_mul]
    field_simp
  have hv : ∀ x : Fin n → ℂ, ensVar f.numTrials (fun _ => x) = fun _ => 0 := fun x => by
    funext i
    rw [ensVar, hm]
    simp
  rw [forecast_ens f z y shape t _ _ hs hr h1]
  simp only [hd, hm, hv]
  rfl

/-- The eigenvalues and the amplitudes of an ensemble forecast: the reported ones plus a real
multiple of the deviation. -/
def IsDraw (x : Fin r → ℂ) (sd z : Fin r → ℝ) (x' : Fin r → ℂ) : Prop :=
  ∀ j, (x' j).re = (x j).re + z j * sd j ∧ (x' j).im = (x j).im

/-- **C107** (what is averaged). With deviations the forecast is the mean over `num_trials` draws
of the forecasts with the drawn eigenvalues and amplitudes (and the averaged modes), and the
variance is the mean squared distance from it; without, it is the forecast of the results of the
fit. -/
theorem C107_forecast (f : Fitted n r) (z y : ℕ → Fin r → ℝ) (shape : List ℕ) (t : List ℝ) :
    (∀ se sb, f.std = some (se, sb) → f.rows = some n → dims shape = 1 →
      ∃ (e b : ℕ → Fin r → ℂ) (mu : List (Fin n → ℂ)) (v : List (Fin n → ℝ)),
        (∀ k, IsDraw f.eigs se (z k) (e k) ∧ IsDraw f.amps sb (y k) (b k)) ∧
        forecast f z y shape t = .ok (.ens mu v) ∧ mu.length = t.length ∧ v.length = t.length ∧
        ∀ (l : ℕ) (τ : ℝ), t[l]? = some τ → ∃ m s, mu[l]? = some m ∧ v[l]? = some s ∧
          (∀ i, m i = (∑ k ∈ Finset.range f.numTrials,
            ∑ j, f.modes i j * b k j * Complex.exp (e k j * τ)) / f.numTrials) ∧
          ∀ i, s i = (∑ k ∈ Finset.range f.numTrials,
            ‖∑ j, f.modes i j * b k j * Complex.exp (e k j * τ) - m i‖ ^ 2) / f.numTrials) ∧
    (f.std = none → dims shape ≤ 1 → forecast f z y shape t =
      .ok (.plain (t.map fun (τ : ℝ) i =>
        ∑ j, f.modes i j * f.amps j * Complex.exp (f.eigs j * τ)))) := by
  constructor
  · intro se sb hs hr h1
    refine ⟨fun k => drawn f.eigs se (z k), fun k => drawn f.amps sb (y k), _, _,
      fun k => ⟨fun j => by simp [drawn], fun j => by simp [drawn]⟩,
      forecast_ens f z y shape t se sb hs hr h1, by simp, by simp, fun l τ hl =>
      ⟨_, _, by simp only [List.getElem?_map, hl]; rfl,
        by simp only [List.getElem?_map, hl]; rfl, fun i => rfl, fun i => rfl⟩⟩
  · intro hs h1
    unfold forecast
    rw [hs, squeeze_length, if_neg (by omega)]
    rfl

/-- **C107** (errors). Times with two or more dimensions are refused; an ensemble forecast of a
model fitted with `fit_econ`, which has no snapshots, fails. -/
theorem C107_errors (f : Fitted n r) (z y : ℕ → Fin r → ℝ) (shape : List ℕ) (t : List ℝ) :
    (2 ≤ dims shape → forecast f z y shape t = .error .valueError) ∧
    (∀ sd, f.std = some sd → f.rows = none → dims shape ≤ 1 →
      forecast f z y shape t = .error .attributeError) := by
  constructor
  · intro h
    rw [forecast, squeeze_length, if_pos (by omega)]
  · intro sd hs hr h
    rw [forecast, squeeze_length, if_neg (by omega), hs, hr]

/-- **C107** is false for a single time: a model fitted with bagging raises `TypeError`, one
fitted without returns the forecast. -/
theorem C107_single_false (f : Fitted n r) (z y : ℕ → Fin r → ℝ) (τ : ℝ) (hr : f.rows = some n) :
    ((∃ sd, f.std = some sd) → forecast f z y [1] [τ] = .error .typeError) ∧
    (f.std = none → ∃ x, forecast f z y [1] [τ] = .ok (.plain [x])) := by
  constructor
  · rintro ⟨sd, hs⟩
    rw [forecast, hs, hr]
    rfl
  · intro hs
    rw [forecast, hs]
    exact ⟨_, rfl⟩

/-- **C107** (stability), in part: if all *drawn* eigenvalues have a real part of at most 0, the
forecast is bounded, for all times from 0 on. Missing: that they do if the eigenvalues of all
bags do, see `C107_stable_false`. -/
theorem C107_stable_partial (f : Fitted n r) (z y : ℕ → Fin r → ℝ) (se sb : Fin r → ℝ)
    (hs : f.std = some (se, sb)) (hr : f.rows = some n)
    (hst : ∀ k < f.numTrials, ∀ j, (f.eigs j).re + z k j * se j ≤ 0) :
    ∃ C : ℝ, ∀ (shape : List ℕ) (t : List ℝ), dims shape = 1 → (∀ τ ∈ t, 0 ≤ τ) → ∀ mu v,
      forecast f z y shape t = .ok (.ens mu v) → ∀ m ∈ mu, ∀ i, ‖m i‖ ≤ C := by
  refine ⟨∑ i, ∑ k ∈ Finset.range f.numTrials, ∑ j, ‖f.modes i j * drawn f.amps sb (y k) j‖,
    fun shape t h1 ht mu v hf m hm i => ?_⟩
  rw [forecast_ens f z y shape t se sb hs hr h1] at hf
  simp only [Except.ok.injEq, Fc.ens.injEq] at hf
  rw [← hf.1] at hm
  obtain ⟨τ, hτ, rfl⟩ := List.mem_map.mp hm
  refine le_trans ?_ (Finset.single_le_sum (f := fun i => ∑ k ∈ Finset.range f.numTrials,
    ∑ j, ‖f.modes i j * drawn f.amps sb (y k) j‖) (fun i _ => Finset.sum_nonneg fun k _ =>
      Finset.sum_nonneg fun j _ => norm_nonneg _) (Finset.mem_univ i))
  rw [ensMean, norm_div, Complex.norm_natCast]
  have hle : ‖∑ k ∈ Finset.range f.numTrials,
      column f.modes (drawn f.eigs se (z k)) (drawn f.amps sb (y k)) τ i‖ ≤
      ∑ k ∈ Finset.range f.numTrials, ∑ j, ‖f.modes i j * drawn f.amps sb (y k) j‖ := by
    refine (norm_sum_le _ _).trans (Finset.sum_le_sum fun k hk => ?_)
    refine (norm_sum_le _ _).trans (Finset.sum_le_sum fun j _ => ?_)
    rw [norm_mul]
    refine mul_le_of_le_one_right (norm_nonneg _) ?_
    rw [Complex.norm_exp]
    have hre : (drawn f.eigs se (z k) j * (τ : ℂ)).re =
        ((f.eigs j).re + z k j * se j) * τ := by
      rw [Complex.re_mul_ofReal]; simp [drawn]
    rw [hre]
    exact Real.exp_le_one_iff.mpr
      (mul_nonpos_of_nonpos_of_nonneg (hst k (Finset.mem_range.mp hk) j) (ht τ hτ))
  refine le_trans ?_ hle
  rcases Nat.eq_zero_or_pos f.numTrials with h0 | hpos
  · rw [h0]; simp
  · exact div_le_self (norm_nonneg _) (by exact_mod_cast hpos)

/-- A model fitted with two bags whose eigenvalues are `i + iδ` and `i - iδ`. -/
noncomputable def oscEx (δ : ℝ) : Fitted 1 1 where
  modes := fun _ _ => 1
  eigs := fun _ => Complex.I
  amps := fun _ => 1
  std := some (fun _ => δ, fun _ => 0)
  numTrials := 2
  rows := some 1

/-- `oscEx` has the statistics of the two bags. -/
example (δ : ℝ) (h : 0 ≤ δ) :
    Complex.I = ((Complex.I + δ * Complex.I) + (Complex.I - δ * Complex.I)) / 2 ∧
    δ = Real.sqrt ((‖(Complex.I + δ * Complex.I) - Complex.I‖ ^ 2 +
      ‖(Complex.I - δ * Complex.I) - Complex.I‖ ^ 2) / 2) := by
  refine ⟨by ring, ?_⟩
  have h1 : (Complex.I + δ * Complex.I) - Complex.I = δ * Complex.I := by ring
  have h2 : (Complex.I - δ * Complex.I) - Complex.I = -(δ * Complex.I) := by ring
  rw [h1, h2, norm_neg, norm_mul, Complex.norm_I, Complex.norm_real, Real.norm_of_nonneg h,
    mul_one, add_self_div_two, Real.sqrt_sq h]

/-- **C107** is false for the frequencies: the draws are real multiples of the deviations, so no
draw changes the imaginary part of an eigenvalue, however much it varied among the bags. -/
theorem C107_frequency_false (f : Fitted n r) (sd z : Fin r → ℝ) (j : Fin r) :
    (drawn f.eigs sd z j).im = (f.eigs j).im := by
  simp [drawn]

/-- **C107** is false for stable systems: two bags with purely imaginary eigenvalues `i ± iδ` (as
with `eig_constraints={"imag"}`) give an ensemble forecast that grows beyond all bounds if a
positive number is drawn: the spread of the frequency is added to the growth rate. -/
theorem C107_stable_false (δ : ℝ) (hδ : 0 < δ) (z y : ℕ → Fin 1 → ℝ) (hz : 0 < z 0 0)
    (hz1 : z 1 0 = 0) (C : ℝ) :
    ∃ T : ℝ, 0 < T ∧ ∃ mu v, forecast (oscEx δ) z y [2] [0, T] = .ok (.ens mu v) ∧
      ∃ m ∈ mu, C < ‖m 0‖ := by
  have hp : 0 < z 0 0 * δ := mul_pos hz hδ
  have htop : Filter.Tendsto (fun T : ℝ => Real.exp (z 0 0 * δ * T)) Filter.atTop Filter.atTop :=
    Real.tendsto_exp_atTop.comp (Filter.tendsto_id.const_mul_atTop hp)
  obtain ⟨T, hT, hT0⟩ := ((htop.eventually_gt_atTop (2 * C)).and
    (Filter.eventually_gt_atTop 0)).exists
  refine ⟨T, hT0, _, _, forecast_ens (oscEx δ) z y [2] [0, T] _ _ rfl rfl rfl, _,
    List.mem_map.mpr ⟨T, by simp, rfl⟩, ?_⟩
  have hval : ensMean (oscEx δ).numTrials (fun k => column (oscEx δ).modes
      (drawn (oscEx δ).eigs (fun _ => δ) (z k)) (drawn (oscEx δ).amps (fun _ => 0) (y k)) T) 0 =
      Complex.exp (Complex.I * T) * (((Real.exp (z 0 0 * δ * T) + 1) / 2 : ℝ) : ℂ) := by
    simp only [ensMean, column, drawn, oscEx, Finset.sum_range_succ, Finset.sum_range_zero,
      Finset.univ_unique, Fin.default_eq_zero, Finset.sum_singleton, hz1]
    push_cast
    rw [add_mul, Complex.exp_add]
    simp
    ring
  rw [hval, norm_mul, Complex.norm_exp, Complex.norm_real]
  have : (Complex.I * (T : ℂ)).re = 0 := by simp
  rw [this, Real.exp_zero, one_mul, Real.norm_of_nonneg (by positivity)]
  linarith

/-- The hypotheses of `C107_stable_partial` are met by a damped model and small draws. -/
example : ∀ k < ({ oscEx 1 with eigs := fun _ => -2 } : Fitted 1 1).numTrials, ∀ j,
    (({ oscEx 1 with eigs := fun _ => -2 } : Fitted 1 1).eigs j).re +
      (fun _ _ => (1 : ℝ) : ℕ → Fin 1 → ℝ) k j * (1 : ℝ) ≤ 0 := by
  intro k _ j
  simp

end Verif.BopSort
