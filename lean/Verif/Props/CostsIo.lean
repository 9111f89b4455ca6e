import Verif.Model.CostsIo

/-!
# C99, C101: COSTS as a dataset, and the keyword arguments shared by the levels of mrCOSTS
-/

set_option autoImplicit false

namespace Verif.CostsIo

open Verif

variable {α : Type}

/-! ## C99 -/

/-- A keyword argument the conversion keeps: no function, not the string `"None"`, a set only under
`eig_constraints`, a list only elsewhere. -/
def Plain (k : String) (v : Val α) : Prop :=
  (∀ n, v ≠ .callable n) ∧ v ≠ .str "None" ∧ (∀ s, v = .set s → k = "eig_constraints") ∧
    (∀ l, v = .list l → k ≠ "eig_constraints")

theorem restore_sanitize (listOf : Finset String → List String)
    (hl : ∀ s, (listOf s).toFinset = s) (k : String) (v : Val α) (h : Plain k v) :
    restore k (sanitize listOf v) = v := by
  obtain ⟨h1, h2, h3, h4⟩ := h
  cases v with
  | none => cases hk : (k == "eig_constraints") <;> simp [restore, sanitize, unsanitize, hk]
  | bool b => cases hk : (k == "eig_constraints") <;> simp [restore, sanitize, unsanitize, hk]
  | str s =>
    have hs : s ≠ "None" := fun e => h2 (by rw [e])
    cases hk : (k == "eig_constraints") <;> simp [restore, sanitize, unsanitize, hk, hs]
  | set s =>
    have := h3 s rfl
    subst this
    simp [restore, sanitize, unsanitize, hl]
  | list l =>
    have hk : (k == "eig_constraints") = false := by simpa using h4 l rfl
    simp [restore, sanitize, unsanitize, hk]
  | callable n => exact absurd rfl (h1 n)
  | other a => cases hk : (k == "eig_constraints") <;> simp [restore, sanitize, unsanitize, hk]

theorem name_round_trip (t : Option String) (h : t ≠ some "None") :
    unsanitizeName (sanitizeName t) = t := by
  cases t with
  | none => simp [unsanitizeName, sanitizeName]
  | some s =>
    have : s ≠ "None" := fun e => h (by rw [e])
    simp [unsanitizeName, sanitizeName, this]

/-- **C99** (conversion, when the allocated rank is the rank of the object). A COSTS object that was
fitted and clustered can be converted, and reading the dataset into a new object `COSTS()` gives
every attribute back: frequencies, classes, amplitudes, modes, means, centroids, times, window
geometry, rank, transformation and keyword arguments. Lost are only the options of the constructor
that are not keyword arguments of BOPDMD, and the allocated rank. -/
theorem C99_round_trip_partial (listOf : Finset String → List String)
    (hl : ∀ s, (listOf s).toFinset = s)
    (labels centres : Arr α → ℕ → Option String → α) (o o₁ o₂ : Obj α) (d : FitData α)
    (rank rankTwice : ℤ → ℕ) (nC : ℕ) (tm : Option String) (htm : tm ≠ some "None")
    (hfit : o.fit d rank rankTwice = .ok o₁) (hcl : o₁.clusterOmega labels centres nC tm = .ok o₂)
    (hrank : o₂.svdRank.map Int.toNat = o₂.svdRankPreAllocate)
    (hplain : ∀ p ∈ o₂.kwargs, Plain p.1 p.2) :
    ∃ ds, o₂.toXarray listOf = .ok ds ∧
      (Obj.init.fromXarray ds : Obj α) =
        { o₂ with
          initializeArtificially := false
          useLastFreq := false
          initAlpha := none
          resetAlphaInit := false
          forceEvenEigs := true
          maxRank := none
          svdRankPreAllocate := none } := by
  unfold Obj.fit at hfit
  cases hc : o.chooseRank d.nDataVars rank rankTwice with
  | error e => rw [hc] at hfit; simp [bind, Except.bind] at hfit
  | ok rp =>
    obtain ⟨r, pre⟩ := rp
    rw [hc] at hfit
    simp only [bind, Except.bind, Except.ok.injEq] at hfit
    subst hfit
    simp only [Obj.clusterOmega, if_true, Except.ok.injEq] at hcl
    subst hcl
    simp only [Option.map_some, Option.some.injEq] at hrank
    refine ⟨_, by
      simp only [Obj.toXarray, dataVar, arange, Option.map_some, bind, Except.bind,
        Int.toNat_natCast, hrank, and_self, if_true]
      rfl, ?_⟩
    · simp only [Obj.fromXarray, Obj.init, Option.getD_some, name_round_trip tm htm, List.map_map]
      congr 1
      conv_rhs => rw [← List.map_id (if o.globalSvd = true then _ else _)]
      refine List.map_congr_left fun p hp => ?_
      simp only [Function.comp, id]
      rw [restore_sanitize listOf hl p.1 p.2 (hplain p hp)]

/-- **C99** (with the default `global_svd=True` the hypothesis on the ranks holds). -/
theorem C99_global (labels centres : Arr α → ℕ → Option String → α) (o o₁ o₂ : Obj α)
    (d : FitData α) (rank rankTwice : ℤ → ℕ) (nC : ℕ) (tm : Option String)
    (hg : o.globalSvd = true)
    (hfit : o.fit d rank rankTwice = .ok o₁) (hcl : o₁.clusterOmega labels centres nC tm = .ok o₂) :
    o₂.svdRank.map Int.toNat = o₂.svdRankPreAllocate := by
  unfold Obj.fit Obj.chooseRank at hfit
  cases hr : o.svdRank with
  | none => rw [hr] at hfit; simp [bind, Except.bind] at hfit
  | some r =>
    rw [hr] at hfit
    simp only [hg, if_true, bind, Except.bind, Except.ok.injEq] at hfit
    subst hfit
    simp only [Obj.clusterOmega, if_true, Except.ok.injEq] at hcl
    subst hcl
    simp

/-- **C99** (what is lost matters: clustering again). The docstring promises a complete round trip
without alteration, but an object read from a dataset cannot be clustered: `cluster_omega` raises
`TypeError`, whatever its arguments, where the original object accepts every number of bands. -/
theorem C99_recluster_false (labels centres : Arr α → ℕ → Option String → α) (o o₁ o₂ : Obj α)
    (d : FitData α) (rank rankTwice : ℤ → ℕ) (nC : ℕ) (tm : Option String)
    (hfit : o.fit d rank rankTwice = .ok o₁) (hcl : o₁.clusterOmega labels centres nC tm = .ok o₂)
    (nC' : ℕ) (tm' : Option String) (ds : Dataset α) :
    (∃ o₃, o₂.clusterOmega labels centres nC' tm' = .ok o₃) ∧
      ((Obj.init.fromXarray ds : Obj α).clusterOmega labels centres nC' tm' =
        .error .typeError) := by
  constructor
  · unfold Obj.fit at hfit
    cases hc : o.chooseRank d.nDataVars rank rankTwice with
    | error e => rw [hc] at hfit; simp [bind, Except.bind] at hfit
    | ok rp =>
      obtain ⟨r, pre⟩ := rp
      rw [hc] at hfit
      simp only [bind, Except.bind, Except.ok.injEq] at hfit
      subst hfit
      simp only [Obj.clusterOmega, if_true, Except.ok.injEq] at hcl
      subst hcl
      exact ⟨_, by
        simp only [Obj.clusterOmega, if_true]
        rfl⟩
  · simp [Obj.clusterOmega, Obj.fromXarray, Obj.init]

/-- **C99** (a fit with a rank per window). With `global_svd=False` and `svd_rank` 0 or -1, the
fitted and clustered object cannot be converted at all: `to_xarray` raises `ValueError` (the rank
coordinate is `arange(svd_rank)`, which is empty, while the arrays have `max_rank` or
`n_data_vars` columns). -/
theorem C99_local_false (listOf : Finset String → List String)
    (labels centres : Arr α → ℕ → Option String → α) (o : Obj α) (d : FitData α)
    (rank rankTwice : ℤ → ℕ) (nC : ℕ) (tm : Option String) (r : ℤ) (hr : o.svdRank = some r)
    (hr0 : r ≤ 0) (hg : o.globalSvd = false) (hm : ∀ m, o.maxRank = some m → 0 < m)
    (hn : 0 < d.nDataVars) :
    ∃ o₁ o₂, o.fit d rank rankTwice = .ok o₁ ∧ o₁.clusterOmega labels centres nC tm = .ok o₂ ∧
      o₂.toXarray listOf = .error .valueError := by
  have hr' : ¬ r > 0 := by omega
  have hz : r.toNat = 0 := by omega
  have key : ∃ pre, 0 < pre ∧ o.chooseRank d.nDataVars rank rankTwice = .ok (r, pre) := by
    unfold Obj.chooseRank
    rw [hr]
    simp only [hg, hr', if_false, Bool.false_eq_true]
    cases hmm : o.maxRank with
    | none => exact ⟨_, hn, rfl⟩
    | some m => exact ⟨_, hm m hmm, rfl⟩
  obtain ⟨pre, hp, hc⟩ := key
  refine ⟨_, _, by
    unfold Obj.fit
    rw [hc]
    rfl, by
    simp only [Obj.clusterOmega, if_true]
    rfl, ?_⟩
  · have : ¬ pre = 0 := by omega
    simp [Obj.toXarray, dataVar, arange, bind, Except.bind, hz, this]

/-- **C99** (storable). No attribute that `to_xarray` writes for a keyword argument is `None`, a set
or a function, which a netCDF file cannot hold. -/
theorem C99_storable (listOf : Finset String → List String) (o : Obj α) (ds : Dataset α)
    (h : o.toXarray listOf = .ok ds) :
    ∀ p ∈ ds.kwargs, p.2 ≠ .none ∧ (∀ s, p.2 ≠ .set s) ∧ ∀ n, p.2 ≠ .callable n := by
  have key : ∀ v : Val α, sanitize listOf v ≠ .none ∧ (∀ s, sanitize listOf v ≠ .set s) ∧
      ∀ n, sanitize listOf v ≠ .callable n := by
    intro v
    cases v <;> simp [sanitize]
  have hk : ds.kwargs = o.kwargs.map fun p => (p.1, sanitize listOf p.2) := by
    unfold Obj.toXarray at h
    simp only [bind, Except.bind] at h
    repeat' split at h
    all_goals first | (simp at h; done) | (simp only [Except.ok.injEq] at h; subst h; rfl)
  rw [hk]
  intro p hp
  obtain ⟨q, -, rfl⟩ := List.mem_map.mp hp
  exact key q.2

/-- **C99** (functions). A keyword argument that is a function, as `mode_prox` or a custom
`eig_constraints` may be, comes back as a string, for every key. -/
theorem C99_callable_false (listOf : Finset String → List String) (k name : String) :
    restore k (sanitize listOf (.callable name : Val α)) = .str ("Custom function " ++ name) := by
  have h : "Custom function " ++ name ≠ "None" := by
    intro e
    have := congrArg String.length e
    rw [String.length_append] at this
    have h1 : "Custom function ".length = 16 := rfl
    have h2 : "None".length = 4 := rfl
    omega
  cases hk : (k == "eig_constraints") <;> simp [restore, sanitize, unsanitize, h, hk]

/-- The hypotheses of C99 are met: a fit of three windows of a 2 × 8 data set with rank 2, clustered
into two bands, with a constraint set among the keyword arguments. -/
example : ∃ (o o₁ o₂ : Obj ℕ) (d : FitData ℕ),
    o.fit d (fun _ => 2) (fun _ => 2) = .ok o₁ ∧
    o₁.clusterOmega (fun _ _ _ => 5) (fun _ _ _ => 6) 2 (some "absolute") = .ok o₂ ∧
    o₂.svdRank.map Int.toNat = o₂.svdRankPreAllocate ∧ (∀ p ∈ o₂.kwargs, Plain p.1 p.2) ∧
    o₂.modesArray = some ⟨[3, 2, 2], 8⟩ ∧ o₂.kwargs.length = 4 := by
  refine ⟨{ Obj.init with
      svdRank := some 2
      kwargs := [("eig_constraints", .set {"imag"}), ("eig_sort", .str "imag"),
        ("proj_basis", .none), ("use_proj", .bool false)] }, _, _,
    ⟨2, 8, 4, 2, 3, false, 7, 8, 9, 10, 11, 12⟩, rfl, rfl, rfl, ?_, rfl, rfl⟩
  intro p hp
  change p ∈ [("eig_constraints", .set {"imag"}), ("eig_sort", .str "imag"),
    ("proj_basis", .other 12), ("use_proj", .bool false)] at hp
  simp only [List.mem_cons, List.not_mem_nil, or_false] at hp
  rcases hp with rfl | rfl | rfl | rfl <;> simp [Plain]

/-! ## C101 -/

/-- `d[k] = v; d[k]`. -/
theorem get?_insert_self (d : Dict α) (k : String) (v : Val α) :
    (d.insert k v).get? k = some v := by
  unfold Dict.insert Dict.get?
  split
  next h =>
    induction d with
    | nil => simp at h
    | cons p rest ih =>
      by_cases hp : p.1 = k
      · simp [hp]
      · have hp' : (p.1 == k) = false := by simpa using hp
        simp only [List.any_cons, hp', Bool.false_or] at h
        simp only [List.map_cons, hp', Bool.false_eq_true, if_false, List.find?_cons, ih h]
  next h =>
    have : d.find? (fun p => p.1 == k) = none := by
      rw [List.find?_eq_none]
      intro q hq e
      exact h (List.any_eq_true.2 ⟨q, hq, e⟩)
    simp [List.find?_append, this]

/-- Another key is not touched. -/
theorem get?_insert_ne (d : Dict α) (k k' : String) (v : Val α) (hne : k' ≠ k) :
    (d.insert k v).get? k' = d.get? k' := by
  unfold Dict.insert Dict.get?
  split
  · congr 1
    induction d with
    | nil => rfl
    | cons p rest ih =>
      by_cases hp : p.1 = k
      · have h1 : (k == k') = false := by simpa using fun e => hne e.symm
        have h2 : (p.1 == k') = false := by rw [hp]; exact h1
        rename_i h
        by_cases hr : rest.any (fun p => p.1 == k)
        · simp only [List.map_cons, hp, beq_self_eq_true, if_true, List.find?_cons, h1,
            ih hr]
        · have : rest.map (fun p => if p.1 == k then (k, v) else p) = rest := by
            conv_rhs => rw [← List.map_id rest]
            refine List.map_congr_left fun q hq => ?_
            have : ¬ q.1 = k := fun e => hr (List.any_eq_true.2 ⟨q, hq, by simp [e]⟩)
            simp [this]
          simp only [List.map_cons, hp, beq_self_eq_true, if_true, List.find?_cons, h1, this]
      · have hp' : (p.1 == k) = false := by simpa using hp
        rename_i h
        simp only [List.any_cons, hp', Bool.false_or] at h
        simp only [List.map_cons, hp', Bool.false_eq_true, if_false, List.find?_cons, ih h]
  · have h1 : (k == k') = false := by simpa using fun e => hne e.symm
    simp [List.find?_append, h1]

theorem fillDefaults_basis (d : Dict α) :
    ((fillDefaults d).get? "proj_basis").getD .none = (d.get? "proj_basis").getD .none := by
  unfold fillDefaults
  rw [get?_insert_ne _ _ _ _ (by decide), get?_insert_self, get?_insert_ne _ _ _ _ (by decide)]
  rfl

theorem levelStep_used (d : Dict α) (g : Bool) (b : α) :
    (levelStep d g b).2 = if g then .other b else (d.get? "proj_basis").getD .none := by
  unfold levelStep
  cases g with
  | false => simpa using fillDefaults_basis d
  | true =>
    simp only [if_true]
    rw [get?_insert_ne _ _ _ _ (by decide), get?_insert_self]
    rfl

theorem levelStep_dict (d : Dict α) (g : Bool) (b : α) :
    ((levelStep d g b).1.get? "proj_basis").getD .none = (levelStep d g b).2 := rfl

/-- The basis of the last level with `global_svd=True`, or else the one in the caller's
dictionary. -/
def latest (start : Val α) (levels : List (Bool × α)) : Val α :=
  levels.foldl (fun v l => if l.1 then .other l.2 else v) start

/-- **C101** (which basis a level is fitted with). For all levels: the windows of level `k` are
fitted with the basis of the last level up to `k` that has `global_svd=True`; only without such a
level with the `proj_basis` of the caller. -/
theorem C101_used (d : Dict α) (levels : List (Bool × α)) (k : ℕ) (hk : k < levels.length) :
    (mrFit d levels).2[k]? =
      some (latest ((d.get? "proj_basis").getD .none) (levels.take (k + 1))) := by
  induction levels generalizing d k with
  | nil => simp at hk
  | cons l rest ih =>
    obtain ⟨g, b⟩ := l
    have hd := levelStep_dict d g b
    cases k with
    | zero =>
      simp only [mrFit, List.getElem?_cons_zero, latest, List.take_succ_cons, List.take_zero,
        List.foldl_cons, List.foldl_nil, levelStep_used]
    | succ k =>
      have := ih (levelStep d g b).1 k (by simpa using hk)
      simp only [mrFit, List.getElem?_cons_succ]
      rw [this, hd, levelStep_used]
      simp [latest]

/-- **C101** (own basis). If all levels use a global SVD (the default), every level is fitted with
the basis of its own data. -/
theorem C101_own_basis_partial (d : Dict α) (levels : List (Bool × α))
    (h : ∀ l ∈ levels, l.1 = true) :
    (mrFit d levels).2 = levels.map fun l => .other l.2 := by
  induction levels generalizing d with
  | nil => rfl
  | cons l rest ih =>
    obtain ⟨g, b⟩ := l
    have hg : g = true := h (g, b) (by simp)
    subst hg
    simp only [mrFit, List.map_cons]
    rw [ih _ fun l hl => h l (List.mem_cons_of_mem _ hl), levelStep_used]
    simp

/-- **C101** (a local level after a global one). With `global_svd_array = [True, False]` the second
level, which should take a basis from each of its windows, is fitted with the basis of the data of
the first level. -/
theorem C101_leak_false (d : Dict α) (b b' : α) :
    (mrFit d [(true, b), (false, b')]).2 = [.other b, .other b] ∧
      (mrFit ([] : Dict α) [(false, b')]).2 = [.none] := by
  constructor
  · simp only [mrFit, levelStep_used, levelStep_dict]
    simp
  · simp only [mrFit, levelStep_used]
    simp [Dict.get?]

theorem mrFit_recorded (d : Dict α) (levels : List (Bool × α)) :
    ((mrFit d levels).1.get? "proj_basis").getD .none =
      latest ((d.get? "proj_basis").getD .none) levels := by
  induction levels generalizing d with
  | nil => rfl
  | cons l rest ih =>
    obtain ⟨g, b⟩ := l
    simp only [mrFit, latest, List.foldl_cons]
    have := ih (levelStep d g b).1
    rw [levelStep_dict, levelStep_used] at this
    exact this

/-- **C101** (what is recorded). After the fit every level (and the caller's dictionary) records one
and the same `proj_basis`, the last one computed. So with two levels with global SVD and different
bases, the basis recorded for the first level, which `to_xarray` saves, is not the one it was
fitted with. -/
theorem C101_recorded_false (d : Dict α) (b b' : α) (hb : b ≠ b') :
    ((mrFit d [(true, b), (true, b')]).1.get? "proj_basis").getD .none = .other b' ∧
      (mrFit d [(true, b), (true, b')]).2[0]? = some (.other b) ∧
      (.other b : Val α) ≠ .other b' := by
  refine ⟨?_, ?_, fun h => hb (by simpa using h)⟩
  · rw [mrFit_recorded]
    simp [latest]
  · rw [C101_used _ _ _ (by simp)]
    simp [latest]

/-- **C101** (the caller's dictionary is changed). Fitting with a dictionary without `proj_basis`
leaves the basis of the fit in it, so that a second object made with the same dictionary and
`global_svd=False` is fitted with that basis. -/
theorem C101_caller_false (d : Dict α) (b b' : α) (h : d.get? "proj_basis" = none) :
    ((mrFit d [(true, b)]).1.get? "proj_basis").getD .none = .other b ∧
      (mrFit (mrFit d [(true, b)]).1 [(false, b')]).2 = [.other b] ∧
      (mrFit d [(false, b')]).2 = [.none] := by
  have h1 : ((mrFit d [(true, b)]).1.get? "proj_basis").getD .none = .other b := by
    rw [mrFit_recorded]
    simp [latest]
  refine ⟨h1, ?_, ?_⟩
  · have : ∀ d' : Dict α, (mrFit d' [(false, b')]).2 = [(d'.get? "proj_basis").getD .none] := by
      intro d'
      simp only [mrFit, levelStep_used]
      simp
    rw [this, h1]
  · simp only [mrFit, levelStep_used]
    simp [h]

end Verif.CostsIo
