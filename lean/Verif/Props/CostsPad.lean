import Verif.Model.CostsPad
import Verif.Lemmas.Param

/-!
# Property C131: the bands of COSTS are those of the fitted eigenvalues
-/

set_option autoImplicit false

namespace Verif.CostsPad

open Verif Costs

/-! ## Specification -/

/-- A labelling of values with centres for `n` labels, with its sum of squared distances. -/
noncomputable def cost (xs : List ℝ) (lab : List ℕ) (cen : ℕ → ℝ) : ℝ :=
  ((xs.zip lab).map fun p => (p.1 - cen p.2) ^ 2).sum

/-- An ideal result of k-means: no labelling with labels below `n` and no centres are better. -/
def IsBest (n : ℕ) (xs : List ℝ) (lab : List ℕ) : Prop :=
  lab.length = xs.length ∧ (∀ l ∈ lab, l < n) ∧ ∃ cen : ℕ → ℝ,
    ∀ (lab' : List ℕ) (cen' : ℕ → ℝ), lab'.length = xs.length → (∀ l ∈ lab', l < n) →
      cost xs lab cen ≤ cost xs lab' cen'

theorem finite_some (l : List ℝ) : finite (l.map some) = .ok l := by
  induction l with
  | nil => rfl
  | cons x l ih => simp only [List.map_cons, finite, ih]; rfl

theorem finite_none (l : List (Option ℝ)) (h : none ∈ l) : finite l = .error .valueError := by
  induction l with
  | nil => simp at h
  | cons x l ih =>
    cases x with
    | none => rfl
    | some x => simp only [finite, ih (by simpa using h)]; rfl

theorem reshape_flatten {α : Type} (rows : List (List α)) (alloc : ℕ) (h : ∀ r ∈ rows, r.length = alloc) :
    reshape rows.length alloc rows.flatten = rows := by
  unfold reshape
  induction rows with
  | nil => rfl
  | cons r rows ih =>
    have hr : r.length = alloc := h r (by simp)
    rw [List.length_cons, List.range_succ_eq_map, List.map_cons, List.map_map]
    congr 1
    · simp [← hr]
    · refine Eq.trans ?_ (ih fun r hr => h r (by simp [hr]))
      refine List.map_congr_left fun k _ => ?_
      simp only [Function.comp_apply, List.flatten_cons]
      congr 1
      rw [Nat.succ_mul, Nat.add_comm, ← List.drop_drop, ← hr, List.drop_left]

theorem flatten_map_map {α β : Type} (rows : List (List α)) (f : α → β) :
    (rows.map (List.map f)).flatten = rows.flatten.map f := by
  rw [List.map_flatten]

/-- The value clustered for a frequency, if it is not 0. -/
noncomputable def value : Transform → ℝ → ℝ
  | .absolute, w => |w|
  | .squareFrequencies, w => w ^ 2
  | .log10, w => Real.logb 10 |w|
  | .period, w => 1 / |w|
  | _, w => w

theorem least_isSome (l : List ℝ) (h : l ≠ []) : ∃ z, least l = some z ∧ z ∈ l ∧ ∀ x ∈ l, z ≤ x := by
  induction l with
  | nil => exact absurd rfl h
  | cons x l ih =>
    by_cases hl : l = []
    · subst hl; exact ⟨x, rfl, by simp, by simp⟩
    · obtain ⟨z, hz, hm, hle⟩ := ih hl
      refine ⟨min x z, by simp [least, hz], ?_, ?_⟩
      · rcases min_choice x z with h | h <;> rw [h] <;> simp [hm]
      · intro y hy
        rcases List.mem_cons.mp hy with rfl | hy
        · exact min_le_left _ _
        · exact (min_le_right _ _).trans (hle y hy)

theorem transform_nonzero (m : Transform) (hm : m ≠ .none ∧ m ≠ .other) (ws : List ℝ)
    (h : (∀ w ∈ ws, w ≠ 0) ∧ ws ≠ [] ∨ m = .absolute ∨ m = .squareFrequencies) :
    transform m ws = .ok ((ws.map (value m)).map some) := by
  have key : ∀ f : ℝ → Option ℝ, (∀ w ∈ ws, f w = some (value m w)) →
      ws.map f = (ws.map (value m)).map some := by
    intro f hf
    rw [List.map_map]
    exact List.map_congr_left hf
  cases m with
  | absolute => simp [transform, value]
  | squareFrequencies => simp [transform, value]
  | log10 =>
    simp only [reduceCtorEq, or_false] at h
    have hfil : ws.filter (fun w => decide (w ≠ 0)) = ws := by
      rw [List.filter_eq_self]
      intro w hw
      simp [h.1 w hw]
    obtain ⟨z, hz, -, -⟩ := least_isSome (ws.map fun w => Real.logb 10 |w|) (by simpa using h.2)
    simp only [transform, hfil, hz]
    rw [key _ fun w hw => by rw [if_neg (h.1 w hw)]; rfl]
  | period =>
    simp only [reduceCtorEq, or_false] at h
    simp only [transform]
    rw [key _ fun w hw => by rw [if_neg (h.1 w hw)]; rfl]
  | none => exact absurd rfl hm.1
  | other => exact absurd rfl hm.2

/-- **C131**, in part: if all windows have the same number of eigenvalues as there are places, none of them real
(for the absolute and squared frequencies: with or without real ones), exactly their transformed frequencies
are clustered, and each eigenvalue gets the band of its own frequency. Missing: windows of smaller rank
(`C131_padding_false`, `C131_period_false`). -/
theorem C131_bands_partial (kmeans : ℕ → List ℝ → Except PyErr (List ℕ × List ℝ))
    (argsort : List ℝ → List ℕ) (n alloc : ℕ) (m : Transform) (hm : m ≠ .none ∧ m ≠ .other)
    (ws : List (List ℂ)) (hl : ∀ w ∈ ws, w.length = alloc)
    (h : (∀ w ∈ ws, ∀ z ∈ w, z.im ≠ 0) ∧ ws.flatten ≠ [] ∨ m = .absolute ∨ m = .squareFrequencies)
    (label : ℝ → ℕ) (cen : List ℝ)
    (hk : kmeans n (ws.flatten.map fun z => value m z.im) =
      .ok ((ws.flatten.map fun z => value m z.im).map label, cen)) :
    ∃ omega c band, omegaArray alloc ws = .ok omega ∧ omega = ws ∧
      relabel (argsort cen) cen ((ws.flatten.map fun z => value m z.im).map label) = (c, band) ∧
      cluster true kmeans argsort n alloc m omega = .ok (c, ws.map fun w => w.map fun z =>
        (buildLut (argsort cen)).getD (label (value m z.im)) 0) := by
  have homega : omegaArray alloc ws = .ok ws := by
    unfold omegaArray
    have : ∀ w ∈ ws, padRow alloc w = .ok w := by
      intro w hw
      simp [padRow, hl w hw]
    clear hk h hl
    induction ws with
    | nil => rfl
    | cons w ws ih =>
      rw [List.mapM_cons, this w (by simp), ih fun w hw => this w (by simp [hw])]
      rfl
  refine ⟨ws, _, _, homega, rfl, rfl, ?_⟩
  have ht : transform m (ws.flatten.map Complex.im) = .ok ((ws.flatten.map fun z => value m z.im).map some) := by
    rw [transform_nonzero m hm, List.map_map, List.map_map, List.map_map]
    · rfl
    · rcases h with ⟨h1, h2⟩ | h
      · left
        refine ⟨?_, by simpa using h2⟩
        intro w hw
        obtain ⟨z, hz, rfl⟩ := List.mem_map.mp hw
        obtain ⟨l, hlm, hzl⟩ := List.mem_flatten.mp hz
        exact h1 l hlm z hzl
      · exact Or.inr h
  simp only [cluster, Bool.not_true, Bool.false_eq_true, if_false, bind, Except.bind, ht, finite_some, hk]
  simp only [relabel, Except.ok.injEq, Prod.mk.injEq, true_and]
  have := reshape_flatten (ws.map fun w => w.map fun z => (buildLut (argsort cen)).getD (label (value m z.im)) 0)
    alloc (by
      intro r hr
      obtain ⟨w, hw, rfl⟩ := List.mem_map.mp hr
      simp [hl w hw])
  rw [List.length_map] at this
  refine Eq.trans ?_ this
  congr 1
  rw [List.map_map, List.map_map, ← List.map_flatten]
  rfl

/-- Instance: two windows with two eigenvalues each. -/
example := C131_bands_partial (fun _ x => .ok (x.map fun v => if v < 7 then 1 else 0, [9, 5])) (fun _ => [1, 0])
  2 2 .absolute (by decide) [[⟨0, 5⟩, ⟨0, -9⟩], [⟨1, 5⟩, ⟨0, 9⟩]] (by simp) (by simp)
  (fun v => if v < 7 then 1 else 0) [9, 5] rfl

/-- **C131** (reconstruction): the places without an eigenvalue, where modes and amplitudes are 0, add nothing,
whatever band they are put in. -/
theorem C131_padding_adds_nothing (f : WindowFit) (r alloc : ℕ) (hr : r ≤ alloc)
    (h0 : ∀ s l, r ≤ l → f.modes s l = 0 ∨ f.amplitudes l = 0) (sel : ℕ → Bool) (s i : ℕ) :
    f.sumOver alloc sel s i = f.sumOver r sel s i := by
  unfold WindowFit.sumOver
  obtain ⟨k, rfl⟩ := Nat.exists_eq_add_of_le hr
  rw [List.range_add, List.filter_append, List.map_append, List.sum_append]
  have : ((List.filter sel ((List.range k).map (r + ·))).map fun l =>
      f.modes s l * f.amplitudes l * Complex.exp (f.omega l * f.time i)).sum = 0 := by
    apply List.sum_eq_zero
    intro x hx
    obtain ⟨l, hl, rfl⟩ := List.mem_map.mp hx
    have hl' := (List.mem_filter.mp hl).1
    obtain ⟨j, -, rfl⟩ := List.mem_map.mp hl'
    rcases h0 s (r + j) (by omega) with h | h <;> simp [h]
  rw [this, add_zero]

/-- Windows with the eigenvalues `5i, 9i` and `5i`: the second is one short. -/
noncomputable def wsEx : List (List ℂ) := [[⟨0, 5⟩, ⟨0, 9⟩], [⟨0, 5⟩]]

theorem wsEx_values : ∃ omega, omegaArray 2 wsEx = .ok omega ∧
    transform .absolute (omega.flatten.map Complex.im) = .ok ([5, 9, 5, 0].map some) := by
  refine ⟨[[⟨0, 5⟩, ⟨0, 9⟩], [⟨0, 5⟩, 0]], ?_, ?_⟩
  · simp [omegaArray, wsEx, padRow, bind, Except.bind, pure, Except.pure]
  · simp [transform]

/-- **C131** is false for windows of different ranks: of the eigenvalues `5i, 9i` and `5i`, asked for two bands,
an ideal k-means makes a band of `5i` and one of `9i`. But what COSTS hands to it contains a 0 for the missing
eigenvalue, and then the ideal result is a band with that 0 only, and all eigenvalues in the other. -/
theorem C131_padding_false :
    (∀ a b c : ℕ, IsBest 2 [5, 9, 5] [a, b, c] → a = c ∧ a ≠ b) ∧
    (∃ omega, omegaArray 2 wsEx = .ok omega ∧
      transform .absolute (omega.flatten.map Complex.im) = .ok ([5, 9, 5, 0].map some)) ∧
    (∀ a b c d : ℕ, IsBest 2 [5, 9, 5, 0] [a, b, c, d] → a = b ∧ a = c ∧ a ≠ d) ∧
    IsBest 2 [5, 9, 5, 0] [1, 1, 1, 0] := by
  have two : ∀ l : ℕ, l < 2 → l = 0 ∨ l = 1 := by omega
  refine ⟨?_, wsEx_values, ?_, ?_⟩
  · rintro a b c ⟨-, hlt, cen, hb⟩
    have h := hb [0, 1, 0] (fun l => if l = 0 then 5 else 9) rfl (by simp)
    simp only [cost, List.zip_cons_cons, List.map_cons, List.sum_cons, List.zip_nil_right, List.map_nil,
      List.sum_nil] at h
    norm_num at h
    rcases two a (hlt a (by simp)) with rfl | rfl <;> rcases two b (hlt b (by simp)) with rfl | rfl <;>
      rcases two c (hlt c (by simp)) with rfl | rfl <;> simp <;>
      linarith [sq_nonneg (cen 0 - 7), sq_nonneg (cen 1 - 7), sq_nonneg (5 - cen 0), sq_nonneg (5 - cen 1),
        sq_nonneg (9 - cen 0), sq_nonneg (9 - cen 1)]
  · rintro a b c d ⟨-, hlt, cen, hb⟩
    have h := hb [1, 1, 1, 0] (fun l => if l = 0 then 0 else 19 / 3) rfl (by simp)
    simp only [cost, List.zip_cons_cons, List.map_cons, List.sum_cons, List.zip_nil_right, List.map_nil,
      List.sum_nil] at h
    norm_num at h
    rcases two a (hlt a (by simp)) with rfl | rfl <;> rcases two b (hlt b (by simp)) with rfl | rfl <;>
      rcases two c (hlt c (by simp)) with rfl | rfl <;> rcases two d (hlt d (by simp)) with rfl | rfl <;> simp <;>
      linarith [sq_nonneg (4 * cen 0 - 19), sq_nonneg (4 * cen 1 - 19), sq_nonneg (3 * cen 0 - 10),
        sq_nonneg (3 * cen 1 - 10), sq_nonneg (2 * cen 0 - 5), sq_nonneg (2 * cen 1 - 5), sq_nonneg (2 * cen 0 - 9),
        sq_nonneg (2 * cen 1 - 9), sq_nonneg (cen 0 - 7), sq_nonneg (cen 1 - 7), sq_nonneg (cen 0 - 5),
        sq_nonneg (cen 1 - 5), sq_nonneg (3 * cen 0 - 14), sq_nonneg (3 * cen 1 - 14), sq_nonneg (cen 0 - 9),
        sq_nonneg (cen 1 - 9), sq_nonneg (cen 0), sq_nonneg (cen 1)]
  · refine ⟨rfl, by simp, fun l => if l = 0 then 0 else 19 / 3, ?_⟩
    intro lab' cen hlen hlt
    match lab', hlen with
    | [a, b, c, d], _ =>
      simp only [cost, List.zip_cons_cons, List.map_cons, List.sum_cons, List.zip_nil_right, List.map_nil,
        List.sum_nil]
      norm_num
      rcases two a (hlt a (by simp)) with rfl | rfl <;> rcases two b (hlt b (by simp)) with rfl | rfl <;>
      rcases two c (hlt c (by simp)) with rfl | rfl <;> rcases two d (hlt d (by simp)) with rfl | rfl <;>
      linarith [sq_nonneg (4 * cen 0 - 19), sq_nonneg (4 * cen 1 - 19), sq_nonneg (3 * cen 0 - 10),
        sq_nonneg (3 * cen 1 - 10), sq_nonneg (2 * cen 0 - 5), sq_nonneg (2 * cen 1 - 5), sq_nonneg (2 * cen 0 - 9),
        sq_nonneg (2 * cen 1 - 9), sq_nonneg (cen 0 - 7), sq_nonneg (cen 1 - 7), sq_nonneg (cen 0 - 5),
        sq_nonneg (cen 1 - 5), sq_nonneg (3 * cen 0 - 14), sq_nonneg (3 * cen 1 - 14), sq_nonneg (cen 0 - 9),
        sq_nonneg (cen 1 - 9), sq_nonneg (cen 0), sq_nonneg (cen 1), sq_nonneg (3 * cen 0 - 19),
        sq_nonneg (3 * cen 1 - 19)]

/-- **C131** is false for `"period"`: with one window of smaller rank, or one real eigenvalue, the clustering raises
`ValueError`, whatever the method. -/
theorem C131_period_false (kmeans : ℕ → List ℝ → Except PyErr (List ℕ × List ℝ))
    (argsort : List ℝ → List ℕ) (n alloc : ℕ) (ws omega : List (List ℂ)) (ho : omegaArray alloc ws = .ok omega)
    (h : ∃ w ∈ ws, w.length < alloc ∨ ∃ z ∈ w, z.im = 0) :
    cluster true kmeans argsort n alloc .period omega = .error .valueError := by
  have hz : ∃ z ∈ omega.flatten, z.im = 0 := by
    obtain ⟨w, hw, h⟩ := h
    have : ∀ (ws omega : List (List ℂ)), omegaArray alloc ws = .ok omega → w ∈ ws →
        w ++ List.replicate (alloc - w.length) 0 ∈ omega := by
      intro ws
      induction ws with
      | nil => intro _ _ h; simp at h
      | cons v ws ih =>
        intro omega ho hw
        unfold omegaArray at ho
        rw [List.mapM_cons] at ho
        simp only [bind, Except.bind, pure, Except.pure] at ho
        cases hp : padRow alloc v with
        | error e => rw [hp] at ho; cases ho
        | ok v' =>
          rw [hp] at ho
          simp only at ho
          cases hr : List.mapM (padRow alloc) ws with
          | error e => rw [hr] at ho; cases ho
          | ok o' =>
            rw [hr] at ho
            simp only [Except.ok.injEq] at ho
            subst ho
            rcases List.mem_cons.mp hw with rfl | hw
            · unfold padRow at hp
              split_ifs at hp
              simp only [Except.ok.injEq] at hp
              simp [hp]
            · exact List.mem_cons_of_mem _ (ih o' hr hw)
    have hm := this ws omega ho hw
    rcases h with h | ⟨z, hz, h0⟩
    · refine ⟨0, List.mem_flatten.mpr ⟨_, hm, ?_⟩, by simp⟩
      rw [List.mem_append]
      right
      rw [List.mem_replicate]
      exact ⟨by omega, rfl⟩
    · exact ⟨z, List.mem_flatten.mpr ⟨_, hm, by simp [hz]⟩, h0⟩
  obtain ⟨z, hz, h0⟩ := hz
  simp only [cluster, transform, bind, Except.bind, Bool.not_true, Bool.false_eq_true, if_false]
  rw [finite_none]
  rw [List.mem_map]
  exact ⟨z.im, List.mem_map.mpr ⟨z, hz, rfl⟩, by simp [h0]⟩

/-- **C131** (logarithm): frequencies 0, missing eigenvalues included, count as the smallest frequency that is
not 0; if there is none, `ValueError`. -/
theorem C131_log10 (ws : List ℝ) :
    ((∀ w ∈ ws, w = 0) → transform .log10 ws = .error .valueError) ∧
    ((∃ w ∈ ws, w ≠ 0) → ∃ u ∈ ws, u ≠ 0 ∧ (∀ w ∈ ws, w ≠ 0 → |u| ≤ |w|) ∧
      transform .log10 ws = .ok ((ws.map fun w => Real.logb 10 |if w = 0 then u else w|).map some)) := by
  constructor
  · intro h
    have : ws.filter (fun w => decide (w ≠ 0)) = [] := by
      rw [List.filter_eq_nil_iff]
      intro w hw
      simp [h w hw]
    simp only [transform, this, List.map_nil, least]
  · rintro ⟨w0, hw0, hne⟩
    obtain ⟨z, hz, hm, hle⟩ := least_isSome
      ((ws.filter fun w => decide (w ≠ 0)).map fun w => Real.logb 10 |w|) (by
        rw [Ne, List.map_eq_nil_iff, List.filter_eq_nil_iff]
        intro h
        exact absurd (by simpa using h w0 hw0) hne)
    obtain ⟨u, hu, rfl⟩ := List.mem_map.mp hm
    have hu' := List.mem_filter.mp hu
    have hu0 : u ≠ 0 := by simpa using hu'.2
    refine ⟨u, hu'.1, hu0, ?_, ?_⟩
    · intro w hw hw0
      have := hle (Real.logb 10 |w|) (List.mem_map.mpr ⟨w, List.mem_filter.mpr ⟨hw, by simp [hw0]⟩, rfl⟩)
      exact (Real.logb_le_logb (by norm_num) (abs_pos.mpr hu0) (abs_pos.mpr hw0)).mp this
    · simp only [transform, hz, List.map_map]
      refine congrArg _ (List.map_congr_left fun w _ => ?_)
      by_cases h : w = 0 <;> simp [h]

/-- Instance: the missing eigenvalue is put with the slowest. -/
example : ∃ u, transform .log10 [5, 9, 5, 0] = .ok ([Real.logb 10 |5|, Real.logb 10 |9|, Real.logb 10 |5|, Real.logb 10 |u|].map some) := by
  obtain ⟨u, -, -, -, h⟩ := (C131_log10 [5, 9, 5, 0]).2 ⟨5, by simp, by norm_num⟩
  exact ⟨u, by rw [h]; norm_num⟩

/-- **C131** (errors): a window with more eigenvalues than places raises `ValueError`; a clustering method without
`fit_predict` raises `AttributeError` (the code means to raise `ValueError`); the default `transform_method=None` and all
unknown names raise `ValueError`, whatever the frequencies are. -/
theorem C131_errors (kmeans : ℕ → List ℝ → Except PyErr (List ℕ × List ℝ)) (argsort : List ℝ → List ℕ)
    (n alloc : ℕ) (m : Transform) (omega : List (List ℂ)) :
    cluster false kmeans argsort n alloc m omega = .error .attributeError ∧
    (∀ es : List ℂ, alloc < es.length → padRow alloc es = .error .valueError) ∧
    ∀ ws : List ℝ, transform .none ws = .error .valueError ∧ transform .other ws = .error .valueError :=
  ⟨rfl, fun es h => by simp [padRow, h], fun _ => ⟨rfl, rfl⟩⟩

end Verif.CostsPad
