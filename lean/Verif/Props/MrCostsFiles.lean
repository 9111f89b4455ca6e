import Verif.Props.MrCostsState
import Verif.Model.MrCosts
import Mathlib.Analysis.SpecialFunctions.Complex.Log
import Mathlib.Tactic

/-!
# C120-C123: files, sweeps, plots and periods of COSTS and mrCOSTS
-/

set_option autoImplicit false

namespace Verif.MrCostsState

open Verif
open Verif.Costs (Transform)

variable {X L Ω C D : Type}

/-! ## C120: files -/

theorem toNetcdf_ok (window : L → ℤ) (save : L → Except PyErr D) (enc : L → D) : ∀ (ls : List L)
    (f₀ : Files D), (∀ l ∈ ls, save l = .ok (enc l)) → ∃ f, toNetcdf window save ls f₀ = .ok f ∧
      (∀ w, (∀ l ∈ ls, window l ≠ w) → f w = f₀ w) ∧
      ((ls.map window).Nodup → ∀ l ∈ ls, f (window l) = some (enc l)) ∧
      (∀ l rest, ls = rest ++ [l] → f (window l) = some (enc l))
  | [], f₀, _ => ⟨f₀, rfl, fun _ _ => rfl, fun _ l h => by simp at h, fun l rest h => by simp at h⟩
  | l :: ls, f₀, h => by
    obtain ⟨f, h1, h2, h3, h4⟩ := toNetcdf_ok window save enc ls
      (fun w => if w = window l then some (enc l) else f₀ w) (fun l' h' => h l' (by simp [h']))
    refine ⟨f, ?_, ?_, ?_, ?_⟩
    · simp only [toNetcdf, h l (by simp), bind, Except.bind]
      exact h1
    · intro w hw
      rw [h2 w (fun l' h' => hw l' (by simp [h'])), if_neg (Ne.symm (hw l (by simp)))]
    · intro hnd l' hl'
      rw [List.map_cons, List.nodup_cons] at hnd
      rcases List.mem_cons.1 hl' with rfl | hl'
      · rw [h2 _ (fun l'' h'' he => hnd.1 (List.mem_map.2 ⟨l'', h'', he⟩)), if_pos rfl]
      · exact h3 hnd.2 l' hl'
    · intro l' rest hr
      cases rest with
      | nil =>
        simp only [List.nil_append, List.cons.injEq] at hr
        obtain ⟨rfl, rfl⟩ := hr
        rw [h2 _ (by simp), if_pos rfl]
      | cons a rest =>
        simp only [List.cons_append, List.cons.injEq] at hr
        exact h4 l' rest hr.2

theorem readFiles_ok (dWindow : D → ℤ) (f : Files D) (names : List ℤ)
    (h : ∀ w ∈ names, (f w).isSome = true) :
    readFiles dWindow f names =
      .ok ((names.filterMap f).insertionSort fun a b => dWindow a ≤ dWindow b) := by
  have key : names.mapM (openFile f) = .ok (names.filterMap f) := by
    induction names with
    | nil => rfl
    | cons w ws ih =>
      obtain ⟨d, hd⟩ := Option.isSome_iff_exists.1 (h w (by simp))
      rw [List.mapM_cons, ih fun w' h' => h w' (by simp [h']), List.filterMap_cons, openFile, hd]
      rfl
  unfold readFiles
  rw [key]
  rfl

theorem fromNetcdf_ok (at' : Attrs L) (dWindow : D → ℤ) (load : D → L) (f : Files D) (names : List ℤ)
    (ds : List D) (h : readFiles dWindow f names = .ok ds) (hne : ds ≠ []) :
    (fromNetcdf at' dWindow load f names : Except PyErr (State L Ω C)) =
      .ok ⟨(ds.map load).map at'.window, (ds.map load).map at'.step, (ds.map load).map at'.rank,
        some ((ds.map load).map at'.globalSvd),
        some ((ds.map load).map fun l => some (at'.components l)), false, .none,
        some (ds.map load), none, none, none⟩ := by
  unfold fromNetcdf
  rw [h]
  simp only [bind, Except.bind, if_neg hne, State.init]
  rw [if_neg (by simp)]
  rfl

/-- **C120** (round trip; partial: increasing window lengths, and the attributes listed). If every level
can be saved and loaded (C99), then the files of an mrCOSTS object with increasing window lengths, read
in any order, give back the levels, with their windows, steps, ranks, flags and numbers of bands. -/
theorem C120_round_trip_partial (at' : Attrs L) (save : L → Except PyErr D) (dWindow : D → ℤ)
    (load : D → L) (enc : L → D) (ls : List L) (f₀ : Files D) (names : List ℤ) (hne : ls ≠ [])
    (hsave : ∀ l ∈ ls, save l = .ok (enc l)) (hload : ∀ l ∈ ls, load (enc l) = l)
    (hwin : ∀ l ∈ ls, dWindow (enc l) = at'.window l)
    (hinc : (ls.map at'.window).Pairwise (· < ·)) (hn : names.Perm (ls.map at'.window)) :
    ∃ f, toNetcdf at'.window save ls f₀ = .ok f ∧
      ∃ st : State L Ω C, fromNetcdf at' dWindow load f names = .ok st ∧ st.levels = some ls ∧
        st.windows = ls.map at'.window ∧ st.steps = ls.map at'.step ∧ st.ranks = ls.map at'.rank ∧
        st.globalSvd = some (ls.map at'.globalSvd) ∧
        st.nComponents = some (ls.map fun l => some (at'.components l)) := by
  obtain ⟨f, h1, -, h3, -⟩ := toNetcdf_ok at'.window save enc ls f₀ hsave
  have hnd : (ls.map at'.window).Nodup := hinc.imp fun h => ne_of_lt h
  have hmem := h3 hnd
  have hfm : (ls.map at'.window).filterMap f = ls.map enc := by
    clear h1 h3 hnd hn hinc hsave hload hwin hne
    induction ls with
    | nil => rfl
    | cons l ls ih =>
      rw [List.map_cons, List.filterMap_cons, hmem l (by simp), List.map_cons]
      simp only
      rw [ih fun l' h' => hmem l' (by simp [h'])]
  have hp : (names.filterMap f).Perm (ls.map enc) := by
    rw [← hfm]; exact hn.filterMap f
  have hread := readFiles_ok dWindow f names (by
    intro w hw
    obtain ⟨l, hl, rfl⟩ := List.mem_map.1 (hn.subset hw)
    rw [hmem l hl]; rfl)
  have hsorted : (names.filterMap f).insertionSort (fun a b => dWindow a ≤ dWindow b) = ls.map enc := by
    have hmw : (ls.map enc).map dWindow = ls.map at'.window := by
      rw [List.map_map]
      exact List.map_congr_left hwin
    have hpw : (ls.map enc).Pairwise fun a b => dWindow a < dWindow b := by
      rw [← hmw] at hinc
      exact List.pairwise_map.1 hinc
    have : Std.Total (fun a b : D => dWindow a ≤ dWindow b) := ⟨fun a b => le_total _ _⟩
    have : IsTrans D (fun a b : D => dWindow a ≤ dWindow b) := ⟨fun a b c => le_trans⟩
    refine List.Perm.eq_of_pairwise (le := fun a b => dWindow a ≤ dWindow b) ?_
      (List.pairwise_insertionSort _ _) (hpw.imp fun h => le_of_lt h)
      ((List.perm_insertionSort _ _).trans hp)
    intro a b ha hb hab hba
    rw [List.mem_insertionSort] at ha
    have ha := hp.subset ha
    by_contra hab'
    rcases List.mem_iff_getElem.1 ha with ⟨i, hi, rfl⟩
    rcases List.mem_iff_getElem.1 hb with ⟨j, hj, rfl⟩
    rcases lt_trichotomy i j with hij | rfl | hij
    · exact absurd (List.pairwise_iff_getElem.1 hpw i j hi hj hij) (not_lt.2 hba)
    · exact hab' rfl
    · exact absurd (List.pairwise_iff_getElem.1 hpw j i hj hi hij) (not_lt.2 hab)
  have hml : (ls.map enc).map load = ls := by
    rw [List.map_map]
    conv_rhs => rw [← List.map_id ls]
    exact List.map_congr_left hload
  refine ⟨f, h1, _, fromNetcdf_ok at' dWindow load f names (ls.map enc) (hread.trans (by rw [hsorted]))
    (by simpa using hne), ?_⟩
  rw [hml]
  exact ⟨rfl, rfl, rfl, rfl, rfl, rfl⟩

/-- **C120** is false for two levels with the same window length (and, say, different steps or ranks):
they share a file name, and the first of them cannot be read back, from whatever list of files. -/
theorem C120_same_window_false (at' : Attrs L) (save : L → Except PyErr D) (dWindow : D → ℤ)
    (load : D → L) (enc : L → D) (l₁ l₂ : L) (names : List ℤ)
    (hsave : ∀ l, save l = .ok (enc l)) (hload : ∀ l, load (enc l) = l)
    (hw : at'.window l₁ = at'.window l₂) (hne : l₁ ≠ l₂) :
    ∃ f, toNetcdf at'.window save [l₁, l₂] (fun _ => none) = .ok f ∧
      ∀ st : State L Ω C, fromNetcdf at' dWindow load f names = .ok st →
        ∃ ls, st.levels = some ls ∧ l₁ ∉ ls := by
  refine ⟨_, by simp only [toNetcdf, hsave, bind, Except.bind]; rfl, ?_⟩
  intro st hst
  generalize hf : (fun w => if w = at'.window l₂ then some (enc l₂) else
    (fun w => if w = at'.window l₁ then some (enc l₁) else none) w) = f at hst
  by_cases hall : ∀ w ∈ names, (f w).isSome = true
  · have hread := readFiles_ok dWindow f names hall
    by_cases hne' : names.filterMap f = []
    · exfalso
      rw [hne'] at hread
      simp [fromNetcdf, hread, bind, Except.bind] at hst
    · rw [fromNetcdf_ok at' dWindow load f names _ hread (by
        intro h0
        apply hne'
        have := congrArg List.length h0
        rw [List.length_insertionSort] at this
        exact List.length_eq_zero_iff.1 this)] at hst
      cases hst
      refine ⟨_, rfl, ?_⟩
      intro hm
      obtain ⟨d, hd, hl⟩ := List.mem_map.1 hm
      rw [List.mem_insertionSort, List.mem_filterMap] at hd
      obtain ⟨w, -, hd⟩ := hd
      rw [← hf] at hd
      simp only [hw] at hd
      split_ifs at hd
      cases hd
      rw [hload] at hl
      exact hne hl.symm
  · exfalso
    push Not at hall
    obtain ⟨w, hw', hn⟩ := hall
    have hnone : f w = none := by simpa using hn
    have : readFiles dWindow f names = .error .valueError := by
      unfold readFiles
      have key : names.mapM (openFile f) = .error .valueError := by
        clear hst
        induction names with
        | nil => simp at hw'
        | cons w' ws ih =>
          rw [List.mapM_cons, openFile]
          cases hfw : f w' with
          | none => rfl
          | some d =>
            have hmem : w ∈ ws := by
              rcases List.mem_cons.1 hw' with rfl | h
              · rw [hnone] at hfw; cases hfw
              · exact h
            rw [ih hmem]
            rfl
      rw [key]
      rfl
    simp [fromNetcdf, this, bind, Except.bind] at hst

/-- **C120** is false for window lengths that do not increase: the levels come back sorted, although the
later ones were fitted to what the earlier ones left. -/
theorem C120_order_false (at' : Attrs L) (save : L → Except PyErr D) (dWindow : D → ℤ)
    (load : D → L) (enc : L → D) (l₁ l₂ : L) (names : List ℤ)
    (hsave : ∀ l, save l = .ok (enc l)) (hload : ∀ l, load (enc l) = l)
    (hwin : ∀ l, dWindow (enc l) = at'.window l) (hw : at'.window l₂ < at'.window l₁)
    (hn : names.Perm [at'.window l₁, at'.window l₂]) :
    ∃ f, toNetcdf at'.window save [l₁, l₂] (fun _ => none) = .ok f ∧
      ∃ st : State L Ω C, fromNetcdf at' dWindow load f names = .ok st ∧ st.levels = some [l₂, l₁] := by
  obtain ⟨f, h1, st, h2, h3, -⟩ := C120_round_trip_partial (Ω := Ω) (C := C) at' save dWindow load enc
    [l₂, l₁] (fun _ => none) names (by simp) (fun l _ => hsave l) (fun l _ => hload l)
    (fun l _ => hwin l) (by simpa using hw) (hn.trans (List.Perm.swap _ _ _))
  refine ⟨f, ?_, st, h2, h3⟩
  rw [← h1]
  simp only [toNetcdf, hsave, bind, Except.bind]
  congr 1
  funext w
  by_cases a : w = at'.window l₂ <;> by_cases b : w = at'.window l₁ <;> simp [a, b] <;> omega

/-- **C120** is false for the transformation and the global bands: they are not in the files, so that a
global clustering after reading uses `"absolute"`, whatever the object that was saved used. -/
theorem C120_transform_false (ops : Ops X L Ω C) (at' : Attrs L) (dWindow : D → ℤ) (load : D → L)
    (f : Files D) (names : List ℤ) (st : State L Ω C)
    (h : fromNetcdf at' dWindow load f names = .ok st) (n : ℕ) :
    st.transform = .none ∧ (st.omegaClasses : Except PyErr C) = .error .valueError ∧
    ∃ ls, st.levels = some ls ∧
      (globalClusterOmega ops st (some n) .none).2 = ops.globalCluster n .absolute (ops.interp ls) := by
  cases hr : readFiles dWindow f names with
  | error e => simp [fromNetcdf, hr, bind, Except.bind] at h
  | ok ds =>
    by_cases hne : ds = []
    · simp [fromNetcdf, hr, bind, Except.bind, hne] at h
    · rw [fromNetcdf_ok at' dWindow load f names ds hr hne] at h
      cases h
      refine ⟨rfl, rfl, ds.map load, rfl, ?_⟩
      exact (globalClusterOmega_fresh ops _ (some n) .none n rfl (ds.map load) rfl (by simpa using hne)
        (by simp) (Or.inl rfl) (by simp [method])).1

/-- **C120** (errors): a missing file gives ValueError, no files IndexError. -/
theorem C120_errors (at' : Attrs L) (dWindow : D → ℤ) (load : D → L) (f : Files D) (w : ℤ)
    (h : f w = none) (names : List ℤ) :
    (fromNetcdf at' dWindow load f (w :: names) : Except PyErr (State L Ω C)) = .error .valueError ∧
    (fromNetcdf at' dWindow load f [] : Except PyErr (State L Ω C)) = .error .indexError := by
  refine ⟨?_, ?_⟩
  · simp [fromNetcdf, readFiles, List.mapM_cons, openFile, h, bind, Except.bind]
  · simp [fromNetcdf, readFiles, bind, Except.bind, pure, Except.pure]

/-- Two levels in a table, saved as they are: the hypotheses of the round trip are met. -/
example : ∃ f, toNetcdf (fun l : ℤ × ℕ => l.1) (fun l => .ok l) [(4, 0), (8, 1)] (fun _ => none) = .ok f ∧
    ∃ st : State (ℤ × ℕ) Unit Unit, fromNetcdf ⟨fun l => l.1, fun _ => 1, fun _ => 2, fun _ => true,
      fun l => l.2⟩ (fun l => l.1) id f [8, 4] = .ok st ∧ st.levels = some [(4, 0), (8, 1)] := by
  obtain ⟨f, h1, st, h2, h3, -⟩ := C120_round_trip_partial (Ω := Unit) (C := Unit)
    ⟨fun l : ℤ × ℕ => l.1, fun _ => 1, fun _ => 2, fun _ => true, fun l => l.2⟩ (fun l => .ok l)
    (fun l => l.1) id id [(4, 0), (8, 1)] (fun _ => none) [8, 4] (by simp) (fun _ _ => rfl)
    (fun _ _ => rfl) (fun _ _ => rfl) (by simp) (by decide)
  exact ⟨f, h1, st, h2, h3⟩

/-! ## C121: hyperparameter sweeps -/

theorem argmax_spec : ∀ (xs : List ℚ), xs ≠ [] → ∃ v, xs[argmax xs]? = some v ∧ (∀ y ∈ xs, y ≤ v) ∧
    ∀ (j : ℕ) u, j < argmax xs → xs[j]? = some u → u < v
  | [], h => absurd rfl h
  | x :: xs, _ => by
    unfold argmax
    split_ifs with h
    · exact ⟨x, rfl, fun y hy => by
        rcases List.mem_cons.1 hy with rfl | hy
        · exact le_refl _
        · exact h y hy, fun j u hj => by omega⟩
    · push Not at h
      obtain ⟨y, hy, hxy⟩ := h
      obtain ⟨v, h1, h2, h3⟩ := argmax_spec xs (List.ne_nil_of_mem hy)
      refine ⟨v, by simpa using h1, ?_, ?_⟩
      · intro z hz
        rcases List.mem_cons.1 hz with rfl | hz
        · exact (hxy.trans_le (h2 y hy)).le
        · exact h2 z hz
      · intro j u hj hu
        cases j with
        | zero =>
          simp only [List.getElem?_cons_zero, Option.some.injEq] at hu
          subst hu
          exact hxy.trans_le (h2 y hy)
        | succ j => exact h3 j u (by omega) (by simpa using hu)

theorem mapM_ok (score : ℤ → Except PyErr ℚ) : ∀ (range : List ℤ) (vs : List ℚ),
    range.mapM score = .ok vs → vs.length = range.length ∧
      ∀ (i : ℕ) n, range[i]? = some n → ∃ v, vs[i]? = some v ∧ score n = .ok v
  | [], vs, h => by cases h; exact ⟨rfl, fun i n h => by simp at h⟩
  | m :: range, vs, h => by
    rw [List.mapM_cons] at h
    cases hm : score m with
    | error e => rw [hm] at h; cases h
    | ok v =>
      cases hr : range.mapM score with
      | error e => rw [hm, hr] at h; cases h
      | ok vs' =>
        rw [hm, hr] at h
        cases h
        obtain ⟨h1, h2⟩ := mapM_ok score range vs' hr
        refine ⟨by simp [h1], fun i n hi => ?_⟩
        cases i with
        | zero =>
          simp only [List.getElem?_cons_zero, Option.some.injEq] at hi
          subst hi
          exact ⟨v, rfl, hm⟩
        | succ i => simpa using h2 i n (by simpa using hi)

theorem mapM_total (score : ℤ → Except PyErr ℚ) (v : ℤ → ℚ) : ∀ (range : List ℤ),
    (∀ n ∈ range, score n = .ok (v n)) → range.mapM score = .ok (range.map v)
  | [], _ => rfl
  | n :: range, h => by
    rw [List.mapM_cons, h n (by simp), mapM_total score v range fun m hm => h m (by simp [hm])]
    rfl

/-- `n` is the first number of `range` with the best score. -/
def Best (range : List ℤ) (v : ℤ → ℚ) (n : ℤ) : Prop :=
  ∃ i : ℕ, range[i]? = some n ∧ (∀ m ∈ range, v m ≤ v n) ∧
    ∀ (j : ℕ) m, j < i → range[j]? = some m → v m < v n

theorem choose_best (range : List ℤ) (v : ℤ → ℚ) (hne : range ≠ []) :
    ∃ n, choose range (range.map v) = .ok n ∧ Best range v n := by
  obtain ⟨w, h1, h2, h3⟩ := argmax_spec (range.map v) (by simpa using hne)
  rw [List.getElem?_map] at h1
  cases hn : range[argmax (range.map v)]? with
  | none => rw [hn] at h1; cases h1
  | some n =>
    rw [hn] at h1
    simp only [Option.map_some, Option.some.injEq] at h1
    subst h1
    refine ⟨n, ?_, _, hn, fun m hm => h2 _ (List.mem_map.2 ⟨m, hm, rfl⟩), fun j m hj hm => h3 j _ hj ?_⟩
    · unfold choose
      rw [if_neg (by simpa using hne), hn]
    · rw [List.getElem?_map, hm]; rfl

/-- **C121** (best score). With a range of numbers that all can be scored, the sweep of COSTS returns
the first one with the largest score. -/
theorem C121_best (svdRank : ℤ) (range : List ℤ) (hne : range ≠ []) (t : Transform)
    (ht : t ≠ .none ∧ t ≠ .other) (score : ℤ → Except PyErr ℚ) (v : ℤ → ℚ)
    (hv : ∀ n ∈ range, score n = .ok (v n)) :
    ∃ n, costsSweep svdRank (some range) t score = .ok n ∧ Best range v n := by
  obtain ⟨n, h1, h2⟩ := choose_best range v hne
  refine ⟨n, ?_, h2⟩
  have ha : costsAccepts t = true := by
    cases t <;> first | rfl | exact absurd rfl ht.1 | exact absurd rfl ht.2
  simp only [costsSweep, Option.getD_some, ha, mapM_total score v range hv, bind, Except.bind, h1]
  rfl

/-- **C121** (methods): without an accepted transformation of the frequencies, `None` included, no sweep. -/
theorem C121_transform (r : ℤ) (range : Option (List ℤ)) (t : Transform) (ht : t = .none ∨ t = .other)
    (score : ℤ → Except PyErr ℚ) : costsSweep r range t score = .error .valueError := by
  rcases ht with rfl | rfl <;> rfl

/-- **C121** (default range). Without a range and for a rank of at least 4, the numbers compared are
those from `max(rank // 4, 2)` to `rank // 2`. -/
theorem C121_default_partial (r : ℤ) (hr : 4 ≤ r) (t : Transform) (ht : t ≠ .none ∧ t ≠ .other)
    (score : ℤ → Except PyErr ℚ) (v : ℤ → ℚ)
    (hv : ∀ n, 2 ≤ n → r ≤ 4 * n + 3 → 2 * n ≤ r → score n = .ok (v n)) :
    ∃ n, costsSweep r none t score = .ok n ∧ 2 ≤ n ∧ r ≤ 4 * n + 3 ∧ 2 * n ≤ r ∧
      ∀ m, 2 ≤ m → r ≤ 4 * m + 3 → 2 * m ≤ r → v m ≤ v n := by
  have hmem : ∀ n, n ∈ defaultRange r ↔ 2 ≤ n ∧ r ≤ 4 * n + 3 ∧ 2 * n ≤ r := by
    intro n
    unfold defaultRange
    rw [List.mem_map]
    constructor
    · rintro ⟨i, hi, rfl⟩
      rw [List.mem_range] at hi
      refine ⟨?_, ?_, ?_⟩ <;> omega
    · rintro ⟨h1, h2, h3⟩
      refine ⟨(n - max (r / 4) 2).toNat, ?_, ?_⟩
      · rw [List.mem_range]; omega
      · omega
  obtain ⟨n, h1, i, hi, h2, -⟩ := C121_best r (defaultRange r)
    (List.ne_nil_of_mem ((hmem (r / 2)).2 (by omega))) t ht score v
    (fun n hn => hv n ((hmem n).1 hn).1 ((hmem n).1 hn).2.1 ((hmem n).1 hn).2.2)
  have hn := (hmem n).1 (List.mem_of_getElem? hi)
  exact ⟨n, h1, hn.1, hn.2.1, hn.2.2, fun m a b c => h2 m ((hmem m).2 ⟨a, b, c⟩)⟩

/-- **C121** is false for smaller ranks: without a range the sweep raises ValueError, also for the rank 0
that stands for an automatic choice. -/
theorem C121_small_rank_false (r : ℤ) (hr : r < 4) (t : Transform) (score : ℤ → Except PyErr ℚ) :
    costsSweep r none t score = .error .valueError := by
  have : defaultRange r = [] := by
    unfold defaultRange
    rw [show ((r / 2 + 1) - max (r / 4) 2).toNat = 0 by omega]
    rfl
  unfold costsSweep
  simp only [Option.getD_none, this]
  split_ifs <;> rfl

/-- **C121** (mrCOSTS). The sweep over the global bands returns all scores and the first number with the
largest one. -/
theorem C121_global (range : List ℤ) (hne : range ≠ []) (m : Score) (sil ch : ℤ → Except PyErr ℚ)
    (v : ℤ → ℚ) (hv : ∀ n ∈ range, (m = .none ∨ m = .silhouette) ∧ sil n = .ok (v n) ∨
      m = .calinskiHarabasz ∧ ch n = .ok (v n)) :
    ∃ n, globalSweep range m sil ch = .ok (range.map v, n) ∧ Best range v n := by
  obtain ⟨n, h1, h2⟩ := choose_best range v hne
  refine ⟨n, ?_, h2⟩
  have hm := mapM_total (fun n => match m with
    | .none => sil n
    | .silhouette => sil n
    | .calinskiHarabasz => ch n
    | .other => .ok 0) v range (by
      intro n hn
      rcases hv n hn with ⟨rfl | rfl, h⟩ | ⟨rfl, h⟩ <;> exact h)
  simp only [globalSweep, bind, Except.bind]
  cases m <;> simp only at hm ⊢ <;> rw [hm] <;> simp only [h1] <;> rfl

/-- **C121** is false for a misspelt `score_method`: no error; the first number of the range is
returned as the best one. -/
theorem C121_method_false (n : ℤ) (range : List ℤ) (sil ch : ℤ → Except PyErr ℚ) :
    globalSweep (n :: range) .other sil ch = .ok ((n :: range).map fun _ => 0, n) := by
  obtain ⟨k, h1, i, hi, h2, h3⟩ := choose_best (n :: range) (fun _ => 0) (by simp)
  have hm := mapM_total (fun _ => .ok 0) (fun _ => 0) (n :: range) fun _ _ => rfl
  have : k = n := by
    cases i with
    | zero => simpa using hi.symm
    | succ i => exact absurd (h3 0 n (by omega) rfl) (lt_irrefl _)
  subst this
  simp only [globalSweep, bind, Except.bind, hm, h1]
  rfl

example : ∃ n, costsSweep 8 none .absolute (fun n => .ok (-(n - 3) ^ 2 : ℚ)) = .ok n ∧ n = 3 := by
  obtain ⟨n, h, -, -, -, hb⟩ := C121_default_partial 8 (by norm_num) .absolute (by simp)
    (fun n => .ok (-(n - 3) ^ 2 : ℚ)) (fun n => -(n - 3) ^ 2) (fun _ _ _ _ => rfl)
  refine ⟨n, h, ?_⟩
  have := hb 3 (by norm_num) (by norm_num) (by norm_num)
  norm_num at this
  have h0 : ((n : ℚ) - 3) = 0 := by nlinarith [sq_nonneg ((n : ℚ) - 3)]
  have : (n : ℚ) = 3 := by linarith
  exact_mod_cast this

/-! ## C122: the input of a level, in the plots -/

/-- **C122** (default reconstruction arguments). After a fit, the data shown by the plots of a level above
0 are those the level was fitted to. -/
theorem C122_input_partial (ops : Ops X L Ω C) (st st' : State L Ω C) (x : X)
    (h : fit ops st x = (st', .ok ())) : ∃ ls, st'.levels = some ls ∧
      ∀ (i : ℕ) l, ls[i + 1]? = some l → ∃ y w s r g n l₀,
        plotInput ops.low ls ((i : ℤ) + 1) none = .ok y ∧
        ops.fit y w s r g = .ok l₀ ∧ ops.cluster n st.transform l₀ = .ok l := by
  obtain ⟨ls, h1, h2, h3⟩ := C118_fit_partial ops st st' x h
  refine ⟨ls, h1, fun i l hl => ?_⟩
  obtain ⟨xi, w, s, r, g, n, -, e2, -, -, -, -, ⟨l₀, f1, f2, -, -⟩, -⟩ := h3 (i + 1) l hl
  obtain ⟨l', hl'⟩ : ∃ l', ls[i]? = some l' :=
    ⟨_, List.getElem?_eq_getElem (by have := (List.getElem?_eq_some_iff.1 hl).1; omega)⟩
  refine ⟨xi, w, s, r, g, n, l₀, ?_, f1, f2⟩
  unfold plotInput
  rw [if_neg (by omega), if_pos (by omega), show ((i : ℤ) + 1 - 1).toNat = i by omega, hl',
    e2 i l' rfl hl']

/-- **C122** is false with `costs_recon_kwargs={"include_means": False}`: the plots show the low
frequency component with the means, the next level was fitted to the one without. -/
theorem C122_kwargs_false : ∃ (F : MrCosts.Fitted) (y : ℕ → ℕ → ℝ),
    plotInput (fun F : MrCosts.Fitted => F.low true) [F] 1 none = .ok y ∧
      y 0 0 = 5 ∧ F.low false 0 0 = 0 := by
  refine ⟨⟨1, 1, 1, [0], [(0, ⟨fun _ _ => 1, fun _ => 0, fun _ => 0, fun _ => 0, fun _ => 5, fun _ => 0⟩)]⟩,
    _, rfl, ?_, ?_⟩
  · simp [MrCosts.Fitted.low, Costs.scaleSeparation, Costs.scaleReconstruction, Costs.addWindow,
      Costs.windowBand, Costs.occurs, Costs.argmin, Costs.WindowFit.sumOver, Costs.kern]
  · simp [MrCosts.Fitted.low, Costs.scaleSeparation, Costs.scaleReconstruction, Costs.addWindow,
      Costs.windowBand, Costs.occurs, Costs.argmin, Costs.WindowFit.sumOver, Costs.kern]

/-- **C122** (errors): level 0 needs the data (ValueError); negative levels, which `costs_array` would
accept, raise UnboundLocalError. -/
theorem C122_errors (low : L → X) (ls : List L) :
    plotInput low ls 0 none = .error .valueError ∧
    (∀ level < 0, plotInput low ls level none = .error .unboundLocalError) ∧
    ∀ level x, plotInput low ls level (some x) = .ok x := by
  refine ⟨rfl, fun level h => ?_, fun _ _ => rfl⟩
  unfold plotInput
  rw [if_neg (by omega), if_neg (by omega)]

/-! ## C123: periods -/

/-- **C123** (periods). `periods()` has one entry for each eigenvalue outside the lowest band; for a
frequency `w` other than 0 it is the smallest `T > 0` after which `exp(i w t)` repeats itself. -/
theorem C123_periods (ws : List ℝ) (cs : List ℕ) (hl : ws.length = cs.length) :
    ∃ ps, periods (some ws) (some cs) = .ok ps ∧
      List.Forall₂ (fun (w : ℝ) (p : Option ℝ) => (w = 0 → p = none) ∧ (w ≠ 0 → ∃ T : ℝ, p = some T ∧ 0 < T ∧
          (∀ t : ℝ, Complex.exp (Complex.I * w * (t + T : ℝ)) = Complex.exp (Complex.I * w * t)) ∧
          ∀ T' : ℝ, 0 < T' → Complex.exp (Complex.I * w * T') = 1 → T ≤ T'))
        (((ws.zip cs).filter fun p => decide (0 < p.2)).map Prod.fst) ps := by
  refine ⟨_, rfl, ?_⟩
  rw [List.forall₂_map_left_iff, List.forall₂_map_right_iff, List.forall₂_same]
  rintro ⟨w, c⟩ -
  refine ⟨fun h => if_pos h, fun h => ⟨2 * Real.pi / |w|, if_neg h, ?_, ?_, ?_⟩⟩
  · positivity
  · intro t
    rw [Complex.exp_eq_exp_iff_exists_int]
    rcases abs_cases w with ⟨ha, -⟩ | ⟨ha, -⟩
    · refine ⟨1, ?_⟩
      rw [ha]
      have : (w : ℂ) ≠ 0 := by exact_mod_cast h
      push_cast
      field_simp
    · refine ⟨-1, ?_⟩
      rw [ha]
      have : (w : ℂ) ≠ 0 := by exact_mod_cast h
      push_cast
      field_simp
  · intro T' hT' hexp
    rw [Complex.exp_eq_one_iff] at hexp
    obtain ⟨n, hn⟩ := hexp
    have hr : w * T' = n * (2 * Real.pi) := by
      have := congrArg Complex.im hn
      simpa using this
    have hn0 : n ≠ 0 := by
      rintro rfl
      simp [h, hT'.ne'] at hr
    rw [div_le_iff₀ (abs_pos.2 h)]
    have h1 : T' * |w| = |w * T'| := by rw [abs_mul, abs_of_pos hT', mul_comm]
    rw [h1, hr, abs_mul, abs_of_pos Real.two_pi_pos]
    have : (1 : ℝ) ≤ |(n : ℝ)| := by
      rw [← Int.cast_abs]
      exact_mod_cast Int.one_le_abs hn0
    nlinarith [Real.two_pi_pos]

/-- **C123** (errors): ValueError before `fit`; after `fit` but before `cluster_omega` the error is a
TypeError from a comparison with `None`. -/
theorem C123_errors (ws : List ℝ) (cs : Option (List ℕ)) :
    periods none cs = .error .valueError ∧ periods (some ws) none = .error .typeError := ⟨rfl, rfl⟩

example : ∃ T : ℝ, periods (some [2, 7]) (some [1, 0]) = .ok [some T] ∧ T = Real.pi := by
  refine ⟨2 * Real.pi / |2|, ?_, ?_⟩
  · simp [periods]
  · rw [abs_of_pos (by norm_num)]; ring

end Verif.MrCostsState
