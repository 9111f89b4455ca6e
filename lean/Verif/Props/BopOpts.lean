import Verif.Model.BopOpts
import Batteries.Lean.Except

/-!
# Property C130: the arguments of `BOPDMD` are checked
-/

set_option autoImplicit false

namespace Verif.BopOpts

open Verif

/-! ## Specification -/

/-- The recommended values of the options. -/
def Recommended : Name → ℚ → Prop
  | .initLambda, q => 0 ≤ q ∧ q ≤ 10 ^ 16
  | .maxlam, q => 0 ≤ q ∧ q ≤ 200
  | .lamup, q => 1 ≤ q ∧ q ≤ 10 ^ 16
  | .maxiter, q => 0 ≤ q ∧ q ≤ 10 ^ 12
  | .tol, q => 0 ≤ q ∧ q ≤ 10 ^ 16
  | .epsStall, q => q ≤ 1
  | .useLevmarq, _ => True
  | .useFulljac, _ => True
  | .verbose, _ => True

/-- Values below the recommended ones. -/
def TooSmall : Name → ℚ → Prop
  | .initLambda, q => q < 0
  | .maxlam, q => q < 0
  | .lamup, q => q < 1
  | .maxiter, q => q < 0
  | .tol, q => q < 0
  | _, _ => False

/-- The value is the number `q`, as a Python `int`, `bool` or `float`. -/
def IsNum (v : Val) (q : ℚ) : Prop :=
  (∃ z : ℤ, v = .int z ∧ q = z) ∨ (v = .bool true ∧ q = 1) ∨ (v = .bool false ∧ q = 0) ∨ v = .float (.fin q)

/-- The value is no Python `int`, `bool` or `float`. -/
def NotNum (v : Val) : Prop := (∃ z, v = .npInt z) ∨ v = .other

/-- The order of the options in the documentation, the warnings and `print_varpro_opts`. -/
def Order : List Name :=
  [.initLambda, .maxlam, .lamup, .useLevmarq, .maxiter, .tol, .epsStall, .useFulljac, .verbose]

/-- The length of the arrays a constraint function is tested on: the rank if it is a positive `int`, else 10. -/
def TestLength (rank : Rank) (r : ℕ) : Prop :=
  (∃ z : ℤ, rank = .int z ∧ 1 ≤ z ∧ (r : ℤ) = z) ∨
    ((∃ z : ℤ, rank = .int z ∧ z < 1) ∨ ∃ q, rank = .float q) ∧ r = 10

theorem isNum_iff (v : Val) (q : ℚ) : IsNum v q ↔ v.num? = some (.fin q) := by
  cases v with
  | int z => simp [IsNum, Val.num?]; exact eq_comm
  | bool b => cases b <;> simp [IsNum, Val.num?, eq_comm]
  | float x => simp [IsNum, Val.num?]
  | npInt z => simp [IsNum, Val.num?]
  | other => simp [IsNum, Val.num?]

theorem notNum_iff (v : Val) : NotNum v ↔ v.num? = none := by
  cases v <;> simp [NotNum, Val.num?]

theorem check_range (n : Name) (q : ℚ) (r : F × F) (R T : Prop)
    (h1 : (F.fin q).lt r.1 = true ↔ T) (h2 : r.2.lt (.fin q) = true ↔ ¬ R ∧ ¬ T) (h3 : T → ¬ R) :
    ∃ ws, (if (F.fin q).lt r.1 then Except.ok [Warning.mk n true] else if r.2.lt (.fin q) then .ok [⟨n, false⟩]
        else .ok [] : Except PyErr (List Warning)) = .ok ws ∧ (R → ws = []) ∧
      (¬ R → ∃ s, ws = [⟨n, s⟩] ∧ (s = true ↔ T)) := by
  by_cases hT : T
  · rw [if_pos (h1.mpr hT)]
    exact ⟨_, rfl, fun h => absurd h (h3 hT), fun _ => ⟨true, rfl, by simp [hT]⟩⟩
  · rw [if_neg (fun h => hT (h1.mp h))]
    by_cases hR : R
    · rw [if_neg (fun h => (h2.mp h).1 hR)]
      exact ⟨_, rfl, fun _ => rfl, fun h => absurd hR h⟩
    · rw [if_pos (h2.mpr ⟨hR, hT⟩)]
      exact ⟨_, rfl, fun h => absurd h hR, fun _ => ⟨false, rfl, by simp [hT]⟩⟩

theorem two (a b q : ℚ) (hab : a ≤ b) :
    ((decide (b < q)) = true ↔ ¬ (a ≤ q ∧ q ≤ b) ∧ ¬ q < a) ∧ (q < a → ¬ (a ≤ q ∧ q ≤ b)) := by
  constructor
  · rw [decide_eq_true_iff]
    constructor
    · intro h
      exact ⟨fun h' => absurd h'.2 (not_le.mpr h), not_lt.mpr (hab.trans h.le)⟩
    · rintro ⟨h, h'⟩
      by_contra hc
      exact h ⟨not_lt.mp h', not_lt.mp hc⟩
  · intro h h'
    exact absurd h'.1 (not_le.mpr h)

theorem check1_num (n : Name) (v : Val) (q : ℚ) (h : IsNum v q) :
    ∃ ws, check1 n v = .ok ws ∧ (Recommended n q → ws = []) ∧
      (¬ Recommended n q → ∃ s, ws = [⟨n, s⟩] ∧ (s = true ↔ TooSmall n q)) := by
  rw [isNum_iff] at h
  simp only [check1, h]
  apply check_range
  · cases n <;> simp [range, F.lt, TooSmall]
  · cases n <;> simp only [range, F.lt, Recommended, TooSmall] <;>
      first
        | exact (two _ _ _ (by norm_num)).1
        | simp
  · cases n <;> simp only [Recommended, TooSmall] <;>
      first
        | exact (two _ _ _ (by norm_num)).2
        | simp

theorem warn_ok (l : List (Name × Val)) (h : ∀ p ∈ l, p.2.num? ≠ none) :
    ∃ ws, warn l = (ws, .ok ()) ∧ (ws.map (·.name)).Sublist (l.map (·.1)) ∧
      ∀ w, w ∈ ws ↔ ∃ p ∈ l, ∃ u, check1 p.1 p.2 = .ok u ∧ w ∈ u := by
  induction l with
  | nil => exact ⟨[], rfl, by simp, by simp⟩
  | cons p l ih =>
    obtain ⟨n, v⟩ := p
    obtain ⟨ws, hw, hs, hm⟩ := ih fun p hp => h p (by simp [hp])
    obtain ⟨x, hx⟩ := Option.ne_none_iff_exists'.mp (h (n, v) (by simp))
    simp only at hx
    have hc : check1 n v = .ok [⟨n, true⟩] ∨ check1 n v = .ok [⟨n, false⟩] ∨ check1 n v = .ok [] := by
      simp only [check1, hx]
      split_ifs <;> simp
    have fin : ∀ u : List Warning, check1 n v = .ok u → (u.map (·.name)).Sublist [n] →
        ∃ ws, warn ((n, v) :: l) = (ws, .ok ()) ∧ (ws.map (·.name)).Sublist (((n, v) :: l).map (·.1)) ∧
          ∀ w, w ∈ ws ↔ ∃ p ∈ (n, v) :: l, ∃ u, check1 p.1 p.2 = .ok u ∧ w ∈ u := by
      intro u hu hn
      refine ⟨u ++ ws, by simp only [warn, hu, hw], ?_, ?_⟩
      · rw [List.map_append, List.map_cons]
        exact (hn.append hs)
      · intro w
        simp only [List.mem_append, hm, List.mem_cons, exists_eq_or_imp, hu, Except.ok.injEq, exists_eq_left']
    rcases hc with hc | hc | hc
    · exact fin _ hc (by simp)
    · exact fin _ hc (by simp)
    · exact fin _ hc (by simp)

theorem warn_err (l : List (Name × Val)) (h : ∃ p ∈ l, p.2.num? = none) :
    (warn l).2 = .error .typeError := by
  induction l with
  | nil => simp at h
  | cons p l ih =>
    obtain ⟨n, v⟩ := p
    cases hv : v.num? with
    | none => simp [warn, check1, hv]
    | some x =>
      have h' : ∃ p ∈ l, p.2.num? = none := by
        obtain ⟨p, hp, hn⟩ := h
        rcases List.mem_cons.mp hp with rfl | hp
        · rw [hv] at hn; cases hn
        · exact ⟨p, hp, hn⟩
      have hc : ∃ u, check1 n v = .ok u := by
        simp only [check1, hv]
        split_ifs <;> exact ⟨_, rfl⟩
      obtain ⟨u, hu⟩ := hc
      simp only [warn, hu, ih h']

theorem mem_names (n : Name) : n ∈ names := by cases n <;> simp [names]

/-- **C130** (types): building the operator in `fit` raises `TypeError` exactly if the dictionary has a key
that is no option, or a value that is no Python number; nothing else is raised. -/
theorem C130_types (d : Dict) :
    ((operator d).2 = .error .typeError ↔
      (∃ v, (none, v) ∈ d) ∨ ∃ n, NotNum (lookup d n)) ∧
    ((operator d).2 ≠ .error .typeError → (operator d).2 = .ok (names.map (lookup d))) := by
  by_cases hk : ∃ v, ((none : Option Name), v) ∈ d
  · have : d.any (fun p => decide (p.1 = none)) = true := by
      rw [List.any_eq_true]
      obtain ⟨v, hv⟩ := hk
      exact ⟨_, hv, by simp⟩
    simp [operator, this, hk]
  · have hf : d.any (fun p => decide (p.1 = none)) = false := by
      rw [List.any_eq_false]
      rintro ⟨k, v⟩ hp
      simp only [decide_eq_true_eq]
      rintro rfl
      exact hk ⟨v, hp⟩
    by_cases hn : ∃ n, NotNum (lookup d n)
    · obtain ⟨n, hn'⟩ := hn
      have := warn_err (names.map fun n => (n, lookup d n))
        ⟨(n, lookup d n), List.mem_map.mpr ⟨n, mem_names n, rfl⟩, (notNum_iff _).mp hn'⟩
      simp only [operator, hf, this]
      exact ⟨⟨fun _ => Or.inr ⟨n, hn'⟩, fun _ => rfl⟩, fun h => absurd rfl h⟩
    · obtain ⟨ws, hw, -, -⟩ := warn_ok (names.map fun n => (n, lookup d n)) (by
        rintro p hp
        obtain ⟨n, -, rfl⟩ := List.mem_map.mp hp
        exact fun h => hn ⟨n, (notNum_iff _).mpr h⟩)
      have : (operator d).2 = .ok (names.map (lookup d)) := by
        simp only [operator, hf, hw]; rfl
      rw [this]
      refine ⟨⟨fun h => (by cases h), fun h => ?_⟩, fun _ => rfl⟩
      rcases h with h | h
      · exact absurd h hk
      · exact absurd h hn

/-- **C130** (warnings), in part: if all options are finite numbers, there is a warning for exactly the options
with a value that is not recommended, one each, in the order of the options, and it says whether the value is too
small. Missing: `nan` (`C130_nan_false`). -/
theorem C130_warnings_partial (d : Dict) (hd : ∀ v, (none, v) ∉ d) (q : Name → ℚ)
    (hq : ∀ n, IsNum (lookup d n) (q n)) :
    ∃ ws, operator d = (ws, .ok (names.map (lookup d))) ∧ (ws.map (·.name)).Sublist Order ∧
      (∀ n, (∃ s, ⟨n, s⟩ ∈ ws) ↔ ¬ Recommended n (q n)) ∧
      (∀ n, ⟨n, true⟩ ∈ ws ↔ TooSmall n (q n)) := by
  have hf : d.any (fun p => decide (p.1 = none)) = false := by
    rw [List.any_eq_false]
    rintro ⟨k, v⟩ hp
    simp only [decide_eq_true_eq]
    rintro rfl
    exact hd v hp
  obtain ⟨ws, hw, hs, hm⟩ := warn_ok (names.map fun n => (n, lookup d n)) (by
    rintro p hp
    obtain ⟨n, -, rfl⟩ := List.mem_map.mp hp
    simp [(isNum_iff _ _).mp (hq n)])
  have hmem : ∀ n s, (⟨n, s⟩ : Warning) ∈ ws ↔ ∃ u, check1 n (lookup d n) = .ok u ∧ (⟨n, s⟩ : Warning) ∈ u := by
    intro n s
    rw [hm]
    constructor
    · rintro ⟨p, hp, u, hu, hwu⟩
      obtain ⟨n', -, rfl⟩ := List.mem_map.mp hp
      obtain ⟨ws', h1, h2, h3⟩ := check1_num n' _ _ (hq n')
      simp only at hu
      rw [h1, Except.ok.injEq] at hu
      subst hu
      by_cases hr : Recommended n' (q n')
      · rw [h2 hr] at hwu; simp at hwu
      · obtain ⟨s', e, -⟩ := h3 hr
        rw [e] at hwu
        simp only [List.mem_singleton, Warning.mk.injEq] at hwu
        obtain ⟨rfl, rfl⟩ := hwu
        exact ⟨ws', h1, by simp [e]⟩
    · rintro ⟨u, hu, hwu⟩
      exact ⟨(n, lookup d n), List.mem_map.mpr ⟨n, mem_names n, rfl⟩, u, hu, hwu⟩
  refine ⟨ws, ?_, ?_, ?_, ?_⟩
  · simp only [operator, hf, hw]; rfl
  · simpa [names, Order] using hs
  · intro n
    obtain ⟨ws', h1, h2, h3⟩ := check1_num n _ _ (hq n)
    simp only [hmem, h1, Except.ok.injEq, exists_eq_left']
    constructor
    · rintro ⟨s, hs⟩ hr
      rw [h2 hr] at hs; simp at hs
    · intro hr
      obtain ⟨s, e, -⟩ := h3 hr
      exact ⟨s, by simp [e]⟩
  · intro n
    obtain ⟨ws', h1, h2, h3⟩ := check1_num n _ _ (hq n)
    simp only [hmem, h1, Except.ok.injEq, exists_eq_left']
    by_cases hr : Recommended n (q n)
    · rw [h2 hr]
      constructor
      · intro h; simp at h
      · intro hT
        exfalso
        cases n <;> simp only [Recommended, TooSmall] at hr hT
        all_goals exact absurd hr.1 (not_le.mpr hT)
    · obtain ⟨s, e, hs⟩ := h3 hr
      rw [e, ← hs]
      simp [eq_comm]

/-- **C130** (meaning): the options used and printed are those of the dictionary, and the documented
defaults for all others; an empty dictionary gives no warning and reaches the iterations. -/
theorem C130_values (d : Dict) (opts : List Val) (h : (operator d).2 = .ok opts) :
    (printed opts).map (·.1) = Order ∧
    (∀ n v, (n, v) ∈ printed opts ↔ v = lookup d n) ∧
    (∀ n v, (some n, v) ∈ d → (d.filter fun p => p.1 = some n).length ≤ 1 → lookup d n = v) ∧
    (∀ n, (∀ v, (some n, v) ∉ d) → lookup d n = default n) := by
  have ho : opts = names.map (lookup d) := by
    have := (C130_types d).2 (by rw [h]; simp)
    rw [h, Except.ok.injEq] at this
    exact this
  subst ho
  refine ⟨by simp [printed, names, Order], ?_, ?_, ?_⟩
  · intro n v
    have : printed (names.map (lookup d)) = names.map fun n => (n, lookup d n) := by
      simp [printed, names]
    rw [this, List.mem_map]
    constructor
    · rintro ⟨n', -, e⟩
      rw [Prod.mk.injEq] at e
      rw [← e.1, e.2]
    · rintro rfl
      exact ⟨n, mem_names n, rfl⟩
  · intro n v hv hl
    unfold lookup
    have hfind : d.find? (fun p => decide (p.1 = some n)) = some (some n, v) := by
      rw [← List.head?_filter]
      have hmem : (some n, v) ∈ d.filter fun p => decide (p.1 = some n) := by simp [hv]
      cases hfl : d.filter fun p => decide (p.1 = some n) with
      | nil => rw [hfl] at hmem; simp at hmem
      | cons a l =>
        rw [hfl] at hmem hl
        have : l = [] := List.length_eq_zero_iff.mp (by simpa using hl)
        subst this
        simp only [List.mem_singleton] at hmem
        simp [hmem]
    rw [hfind]
    rfl
  · intro n hn
    unfold lookup
    have : d.find? (fun p => decide (p.1 = some n)) = none := by
      rw [List.find?_eq_none]
      rintro ⟨k, v⟩ hp
      simp only [decide_eq_true_eq]
      rintro rfl
      exact hn v hp
    rw [this]
    rfl

theorem C130_default : operator [] = ([], .ok (names.map default)) ∧ start [] true = ([], .ok ()) ∧
    ∀ n, ∃ q, IsNum (default n) q ∧ Recommended n q := by
  refine ⟨by decide +kernel, by decide +kernel, ?_⟩
  intro n
  cases n
  · exact ⟨1, by simp [IsNum, default], by norm_num [Recommended]⟩
  · exact ⟨52, by simp [IsNum, default], by norm_num [Recommended]⟩
  · exact ⟨2, by simp [IsNum, default], by norm_num [Recommended]⟩
  · exact ⟨1, by simp [IsNum, default], by norm_num [Recommended]⟩
  · exact ⟨30, by simp [IsNum, default], by norm_num [Recommended]⟩
  · exact ⟨1 / 10 ^ 6, by simp [IsNum, default], by norm_num [Recommended]⟩
  · exact ⟨1 / 10 ^ 12, by simp [IsNum, default], by norm_num [Recommended]⟩
  · exact ⟨1, by simp [IsNum, default], by norm_num [Recommended]⟩
  · exact ⟨0, by simp [IsNum, default], by norm_num [Recommended]⟩

/-- Instance of the warnings: two options out of range. -/
example : operator [(some .maxlam, .int 300), (some .tol, .float (.fin (-1)))] =
    ([⟨.maxlam, false⟩, ⟨.tol, true⟩],
      .ok [.float (.fin 1), .int 300, .float (.fin 2), .bool true, .int 30, .float (.fin (-1)),
        .float (.fin (1 / 10 ^ 12)), .bool true, .bool false]) := by decide +kernel

/-- **C130** is false for `nan`: no warning is given. -/
theorem C130_nan_false : operator [(some .tol, .float .nan), (some .lamup, .float .nan)] =
    ([], .ok (names.map (lookup [(some .tol, .float .nan), (some .lamup, .float .nan)]))) := by decide +kernel

/-- **C130** (infinities): an infinite value is too large for all options with an upper limit and too small for all with a
lower one; for the three switches, and for `eps_stall` below, there is no warning. -/
theorem C130_infinite (n : Name) :
    ((operator [(some n, .float .posInf)]).1 =
      if n ∈ [.useLevmarq, .useFulljac, .verbose] then [] else [⟨n, false⟩]) ∧
    ((operator [(some n, .float .negInf)]).1 =
      if n ∈ [.useLevmarq, .useFulljac, .verbose, .epsStall] then [] else [⟨n, true⟩]) ∧
    (∃ o, (operator [(some n, .float .posInf)]).2 = .ok o) ∧ ∃ o, (operator [(some n, .float .negInf)]).2 = .ok o := by
  refine ⟨?_, ?_, ?_, ?_⟩
  · cases n <;> decide +kernel
  · cases n <;> decide +kernel
  · refine ⟨names.map (lookup [(some n, .float .posInf)]), ?_⟩
    cases n <;> decide +kernel
  · refine ⟨names.map (lookup [(some n, .float .negInf)]), ?_⟩
    cases n <;> decide +kernel

/-- **C130** (no iterations): with `maxiter=0` the fit does not fail, whatever number is given for `maxlam`. -/
theorem C130_no_iterations (d : Dict) (b : Bool) (hd : ∀ v, (none, v) ∉ d) (hn : ∀ n, ¬ NotNum (lookup d n))
    (h : lookup d .maxiter = .int 0) : (start d b).2 = .ok () := by
  have hop : (operator d).2 = .ok (names.map (lookup d)) := by
    refine (C130_types d).2 fun h => ?_
    rcases (C130_types d).1.mp h with ⟨v, hv⟩ | ⟨n, hn'⟩
    · exact hd v hv
    · exact hn n hn'
  simp [start, hop, bind, Except.bind, h, zeros]

example : (start [(some .maxiter, .int 0), (some .maxlam, .float .nan)] true).2 = .ok () := by decide +kernel

/-- **C130** is false for floats: `maxiter=30.0`, which is recommended and gives no warning, is refused
by numpy with `TypeError`, and so is `maxlam=52.0` if the step has to be shortened; a numpy integer, which
`np.zeros` and `range` take, is refused by the check. -/
theorem C130_floats_false :
    start [(some .maxiter, .float (.fin 30))] false = ([], .error .typeError) ∧
    start [(some .maxlam, .float (.fin 52))] false = ([], .ok ()) ∧
    start [(some .maxlam, .float (.fin 52))] true = ([], .error .typeError) ∧
    start [(some .maxiter, .npInt 30)] false = ([], .error .typeError) ∧
    zeros (.npInt 30) = .ok 30 := by decide +kernel

/-- **C130** (start): with an `int` (or `bool`) for `maxiter` and `maxlam` and numbers elsewhere, the iterations
are reached; a negative `maxiter` raises `ValueError`, after a warning. -/
theorem C130_start (d : Dict) (b : Bool) (hd : ∀ v, (none, v) ∉ d) (hn : ∀ n, ¬ NotNum (lookup d n))
    (hl : (∃ z, lookup d .maxlam = .int z) ∨ ∃ c, lookup d .maxlam = .bool c) :
    (∀ z : ℤ, lookup d .maxiter = .int z → 0 ≤ z → (start d b).2 = .ok ()) ∧
    (∀ c, lookup d .maxiter = .bool c → (start d b).2 = .ok ()) ∧
    (∀ z : ℤ, lookup d .maxiter = .int z → z < 0 → (start d b).2 = .error .valueError ∧
      ⟨.maxiter, true⟩ ∈ (start d b).1) := by
  have hop : (operator d).2 = .ok (names.map (lookup d)) := by
    refine (C130_types d).2 fun h => ?_
    rcases (C130_types d).1.mp h with ⟨v, hv⟩ | ⟨n, hn'⟩
    · exact hd v hv
    · exact hn n hn'
  have hp : ∃ k, passes (lookup d .maxlam) = .ok k := by
    rcases hl with ⟨z, hz⟩ | ⟨c, hc⟩
    · rw [hz]; exact ⟨_, rfl⟩
    · rw [hc]; exact ⟨_, rfl⟩
  obtain ⟨k, hk⟩ := hp
  refine ⟨?_, ?_, ?_⟩
  · intro z hz h0
    simp only [start, hop, bind, Except.bind, hz, zeros, if_pos h0, hk]
    split_ifs <;> rfl
  · intro c hc
    simp only [start, hop, bind, Except.bind, hc, zeros, hk]
    split_ifs <;> rfl
  · intro z hz h0
    refine ⟨by simp only [start, hop, bind, Except.bind, hz, zeros, if_neg (not_le.mpr h0)], ?_⟩
    have hf : d.any (fun p => decide (p.1 = none)) = false := by
      rw [List.any_eq_false]
      rintro ⟨k, v⟩ hp
      simp only [decide_eq_true_eq]
      rintro rfl
      exact hd v hp
    obtain ⟨ws, hw, -, hm⟩ := warn_ok (names.map fun n => (n, lookup d n)) (by
      rintro p hp
      obtain ⟨n, -, rfl⟩ := List.mem_map.mp hp
      exact fun h => hn n ((notNum_iff _).mpr h))
    simp only [start, operator, hf, hw]
    show _ ∈ ws
    rw [hm]
    refine ⟨_, List.mem_map.mpr ⟨.maxiter, mem_names _, rfl⟩, [⟨.maxiter, true⟩], ?_, by simp⟩
    have : (z : ℚ) < 0 := by exact_mod_cast h0
    simp [check1, hz, Val.num?, range, F.lt, this]

example : (start [(some .maxiter, .int (-1))] true).1 = [⟨.maxiter, true⟩] := by decide +kernel

/-! ## The constructor -/

/-- **C130** (constructor): `BOPDMD(...)` succeeds exactly if `bag_warning` and `bag_maxfail` are `int`s, the options
are `None` or a dictionary, and the constraints are `None`, a set of known names without `stable` together with
`imag`, or a Python function that maps an array of the test length to an array of the same length; it
then keeps the dictionary. -/
theorem C130_constructor (rank : Rank) (bw bm : Bool) (opts : Option (Bool × Dict)) (c : Constr) (d : Dict) :
    construct rank bw bm opts c = .ok d ↔
      bw = true ∧ bm = true ∧ (opts = none ∧ d = [] ∨ opts = some (true, d)) ∧
      (c = .none ∨
        (∃ s, c = .set s ∧ (∀ x ∈ s, x = "stable" ∨ x = "imag" ∨ x = "conjugate_pairs") ∧
          ¬ ("stable" ∈ s ∧ "imag" ∈ s)) ∨
        ∃ f r, c = .function f ∧ TestLength rank r ∧ f r = .ok (some [r])) := by
  have hdummy : ∀ r, TestLength rank r ↔ r = dummy rank := by
    intro r
    cases rank with
    | int z =>
      simp only [TestLength, Rank.int.injEq, exists_eq_left', reduceCtorEq, exists_false, or_false, dummy]
      split_ifs <;> omega
    | float q => simp [TestLength, dummy]
  have hset : ∀ s : List String, BopEigs.check s = .ok () ↔
      (∀ x ∈ s, x = "stable" ∨ x = "imag" ∨ x = "conjugate_pairs") ∧ ¬ ("stable" ∈ s ∧ "imag" ∈ s) := by
    intro s
    unfold BopEigs.check
    split_ifs with h1 h2
    · simp only [List.any_eq_true, decide_eq_true_eq] at h1
      obtain ⟨x, hx, hn⟩ := h1
      simp only [false_iff, not_and]
      intro h
      exact absurd (h x hx) (by simpa using hn)
    · simp [h2]
    · simp only [List.any_eq_true, decide_eq_true_eq, not_exists, not_and, not_not] at h1
      simp only [true_iff]
      exact ⟨fun x hx => by simpa using h1 x hx, h2⟩
  have hfn : ∀ (r : ℕ) (f : Fn), checkFn r f = .ok () ↔ f r = .ok (some [r]) := by
    intro r f
    unfold checkFn
    cases f r with
    | error e => simp
    | ok o =>
      cases o with
      | none => simp
      | some sh =>
        simp only [Except.ok.injEq, Option.some.injEq]
        split_ifs with h
        · simp only [false_iff]
          exact fun h' => h h'.symm
        · simp only [true_iff]
          exact (not_not.mp h).symm
  have hnil : BopEigs.check [] = .ok () := by decide
  have hc : checkConstr rank c = .ok () ↔ (c = .none ∨
        (∃ s, c = .set s ∧ (∀ x ∈ s, x = "stable" ∨ x = "imag" ∨ x = "conjugate_pairs") ∧
          ¬ ("stable" ∈ s ∧ "imag" ∈ s)) ∨
        ∃ f r, c = .function f ∧ TestLength rank r ∧ f r = .ok (some [r])) := by
    simp only [hdummy, exists_eq_left, and_left_comm (b := _ = dummy rank)]
    cases c with
    | none => simp [checkConstr, hnil]
    | set s => simp only [checkConstr, hset]; simp
    | function f => simp only [checkConstr, hfn]; simp
    | callable f => simp [checkConstr]
    | other => simp [checkConstr]
  rw [← hc]
  have keep : ∀ d' : Dict, ((checkConstr rank c).map fun _ => d') = .ok d ↔ d' = d ∧ checkConstr rank c = .ok () := by
    intro d'
    cases checkConstr rank c with
    | error e => simp [Except.map]
    | ok u => cases u; simp [Except.map]
  unfold construct
  cases bw <;> cases bm <;> simp
  match opts with
  | none =>
    simp only [keep, true_and, reduceCtorEq, or_false]
    rw [eq_comm (a := d)]
  | some (true, d') => simp [keep]
  | some (false, d') => simp

/-- Instance: a set, an `int` rank and a dictionary. -/
example : construct (.int 3) true true (some (true, [(some .tol, .other)])) (.set ["imag", "conjugate_pairs"]) =
    .ok [(some .tol, .other)] := by decide +kernel

/-- **C130** is false for the time of the check: a dictionary with an unknown option, or a value of a wrong
type, passes the constructor; `fit` raises. -/
theorem C130_late_false (v : Val) :
    construct (.int 0) true true (some (true, [(none, v)])) .none = .ok [(none, v)] ∧
    (operator [(none, v)]).2 = .error .typeError ∧
    construct (.int 0) true true (some (true, [(some .tol, .other)])) .none = .ok [(some .tol, .other)] ∧
    (operator [(some .tol, .other)]).2 = .error .typeError :=
  ⟨rfl, rfl, rfl, by decide +kernel⟩

/-- **C130** is false for functions: without a rank they are tested on ten numbers only. One that returns ten
numbers whatever it is given is accepted, though it breaks every fit of another rank; one made for the
four eigenvalues of the data is refused, and so is every callable that is no Python function. -/
theorem C130_function_false :
    (∀ n, n ≠ 10 → (fun _ => .ok (some [10]) : Fn) n ≠ .ok (some [n])) ∧
    construct (.int 0) true true none (.function fun _ => .ok (some [10])) = .ok [] ∧
    (∀ f : Fn, f = (fun n => if n = 4 then .ok (some [4]) else .error .valueError) → f 4 = .ok (some [4]) ∧
      construct (.int (-1)) true true none (.function f) = .error .valueError) ∧
    ∀ (rank : Rank) (f : Fn), construct rank true true none (.callable f) = .error .typeError := by
  refine ⟨?_, rfl, ?_, ?_⟩
  · intro n hn h
    simp only [Except.ok.injEq, Option.some.injEq, List.cons.injEq, and_true] at h
    exact hn h.symm
  · rintro f rfl
    exact ⟨rfl, rfl⟩
  · intro rank f
    rfl

end Verif.BopOpts
