import Verif.Lemmas.MrDMD

/-!
# Properties C27-C31, C58: multi-resolution DMD
-/

set_option autoImplicit false

namespace Verif.MrDMD

open Verif

variable {α : Type}

/-! ## C27 -/

/-- **C27** (addresses). A tree of depth `d` has `2^(d+1) - 1` slots, and every slot is addressed by
exactly one `(level, leaf)` with `level ≤ d` and `leaf < 2^level`. -/
theorem C27_addresses (depth : ℕ) :
    (Tree.new depth : Tree α).tree.length = 2 ^ (depth + 1) - 1 ∧
    ∀ i : ℕ, i < 2 ^ (depth + 1) - 1 → ∃! p : ℕ × ℕ,
      (p.1 ≤ depth ∧ p.2 < 2 ^ p.1) ∧ nodeIndex p.1 (p.2 : ℕ) = (i : ℕ) := by
  refine ⟨by simp [Tree.new], fun i hi => ?_⟩
  have h1 : 2 ^ Nat.log 2 (i + 1) ≤ i + 1 := Nat.pow_log_le_self 2 (by omega)
  have h2 : i + 1 < 2 ^ (Nat.log 2 (i + 1) + 1) := Nat.lt_pow_succ_log_self (by norm_num) _
  have h3 : Nat.log 2 (i + 1) < depth + 1 := Nat.log_lt_of_lt_pow (by omega) (by omega)
  rw [pow_succ] at h2
  refine ⟨(Nat.log 2 (i + 1), i + 1 - 2 ^ Nat.log 2 (i + 1)), ⟨⟨by omega, by simp only; omega⟩, ?_⟩,
    ?_⟩
  · simp only [nodeIndex]
    rw [Nat.cast_sub h1]
    push_cast
    ring
  · rintro ⟨l, b⟩ ⟨⟨hl, hb⟩, he⟩
    simp only [nodeIndex] at he hb hl
    have hp : 0 < 2 ^ l := Nat.pos_of_ne_zero (by simp)
    have hi' : 2 ^ l + b - 1 = i := by
      have : ((2 ^ l + b : ℕ) : ℤ) = i + 1 := by push_cast; linarith
      omega
    obtain ⟨rfl, rfl⟩ := node_inj l b (Nat.log 2 (i + 1)) (i + 1 - 2 ^ Nat.log 2 (i + 1)) hb
      (by omega) (by omega)
    rfl

/-- The value last written to a node by a sequence of writes. -/
def lastWrite (ws : List ((ℕ × ℕ) × α)) (p : ℕ × ℕ) : Option α :=
  (ws.reverse.find? fun w => w.1 == p).map (·.2)

/-- **C27** (contents). After any sequence of writes to admissible nodes of a new tree, reading an
admissible node returns the value last written to it (`None` if there is none). -/
theorem C27_last_write (depth : ℕ) (ws : List ((ℕ × ℕ) × α))
    (hws : ∀ w ∈ ws, w.1.1 ≤ depth ∧ w.1.2 < 2 ^ w.1.1) :
    ∃ t, ws.foldlM (fun t w => Tree.set t w.1.1 w.1.2 w.2) (Tree.new depth) = .ok t ∧
      ∀ l b : ℕ, l ≤ depth → b < 2 ^ l → t.get l b = .ok (lastWrite ws (l, b)) := by
  suffices H : ∃ t, ws.foldlM (fun t w => Tree.set t w.1.1 w.1.2 w.2) (Tree.new depth) = .ok t ∧
      t.depth = depth ∧ t.tree.length = 2 ^ (depth + 1) - 1 ∧
      ∀ l b : ℕ, l ≤ depth → b < 2 ^ l → t.get l b = .ok (lastWrite ws (l, b)) by
    obtain ⟨t, h1, -, -, h2⟩ := H
    exact ⟨t, h1, h2⟩
  have hget : ∀ (t : Tree α), t.depth = depth → t.tree.length = 2 ^ (depth + 1) - 1 →
      ∀ l b : ℕ, l ≤ depth → b < 2 ^ l →
        t.get l b = .ok (t.tree.getD (2 ^ l + b - 1) none) := by
    intro t hd hlen l b hl hb
    have hb' : ¬ ((2 : ℤ) ^ l ≤ b) := by
      have : (b : ℤ) < ((2 ^ l : ℕ) : ℤ) := by exact_mod_cast hb
      push_cast at this
      omega
    rw [Tree.get, hd, if_neg (by omega), if_neg hb', hlen, pyIndex_node depth l b hl hb]
  induction ws using List.reverseRecOn with
  | nil =>
    refine ⟨Tree.new depth, rfl, rfl, by simp [Tree.new], fun l b hl hb => ?_⟩
    rw [hget _ rfl (by simp [Tree.new]) l b hl hb]
    simp [Tree.new, lastWrite, List.getD, List.getElem?_replicate]
    split_ifs <;> rfl
  | append_singleton ws w ih =>
    obtain ⟨t, h1, hd, hlen, h2⟩ := ih fun v hv => hws v (List.mem_append_left _ hv)
    obtain ⟨hwl, hwb⟩ := hws w (by simp)
    have hset : Tree.set t w.1.1 w.1.2 w.2 =
        .ok { t with tree := t.tree.set (2 ^ w.1.1 + w.1.2 - 1) (some w.2) } := by
      rw [Tree.set, hlen, pyIndex_node depth _ _ hwl hwb]
    refine ⟨{ t with tree := t.tree.set (2 ^ w.1.1 + w.1.2 - 1) (some w.2) }, ?_, hd,
      by simpa using hlen, fun l b hl hb => ?_⟩
    · rw [List.foldlM_append, h1]
      simp [bind, Except.bind, hset, pure, Except.pure]
    · rw [hget _ (by exact hd) (by simpa using hlen) l b hl hb]
      have old := h2 l b hl hb
      rw [hget t hd hlen l b hl hb] at old
      have hold : t.tree.getD (2 ^ l + b - 1) none = lastWrite ws (l, b) := by
        simpa using old
      have hlw : lastWrite (ws ++ [w]) (l, b) =
          if w.1 = (l, b) then some w.2 else lastWrite ws (l, b) := by
        by_cases h : w.1 = (l, b) <;> simp [lastWrite, h]
      rw [hlw]
      by_cases h : w.1 = (l, b)
      · have hlt : 2 ^ w.1.1 + w.1.2 - 1 < t.tree.length := by
          have h1 : 2 ^ w.1.1 ≤ 2 ^ depth := Nat.pow_le_pow_right (by norm_num) hwl
          have h2 : 2 ^ (depth + 1) = 2 * 2 ^ depth := by ring
          have : 0 < 2 ^ w.1.1 := Nat.pos_of_ne_zero (by simp)
          rw [hlen]; omega
        rw [if_pos h]
        rw [h] at hlt ⊢
        simp only [List.getD, List.getElem?_set_self hlt, Option.getD_some]
      · have hne : 2 ^ w.1.1 + w.1.2 - 1 ≠ 2 ^ l + b - 1 := by
          intro he
          obtain ⟨e1, e2⟩ := node_inj _ _ _ _ hwb hb he
          exact h (Prod.ext e1 e2)
        rw [if_neg h, ← hold]
        simp only [List.getD, List.getElem?_set_ne hne]

/-- **C27** (errors). Reading a level beyond the depth, or a leaf not below `2^level`, raises
`ValueError`. -/
theorem C27_invalid (t : Tree α) (level : ℕ) (bin : ℤ) (h : t.depth < level ∨ 2 ^ level ≤ bin) :
    t.get level bin = .error .valueError := by
  unfold Tree.get
  by_cases h1 : t.depth < level
  · rw [if_pos h1]
  · rw [if_neg h1, if_pos (h.resolve_left h1)]

/-- **C27** fails for negative leaves: they are not rejected but address another node; leaf -1 of
level 1 is node `(0, 0)`. -/
theorem C27_negative_leaf_false :
    ∃ t : Tree ℕ, (Tree.new 1).set 0 0 7 = .ok t ∧ t.get 1 (-1) = .ok (some 7) :=
  ⟨⟨1, [some 7, none, none]⟩, by decide, by decide⟩

example : ([((0, 0), 5), ((1, 1), 6), ((1, 1), 7)] : List ((ℕ × ℕ) × ℕ)).foldlM
    (fun t w => Tree.set t w.1.1 w.1.2 w.2) (Tree.new 1) = .ok ⟨1, [some 5, none, some 7]⟩ := by
  decide

/-! ## C28 -/

/-- **C28.** The pieces of a level, concatenated, are the data; there is one per leaf, their
lengths differ by at most one, and none is empty if there are at least as many snapshots as
leaves. -/
theorem C28_partition {V : Type} (X : List V) (level : ℕ) :
    (arraySplit X (2 ^ level)).flatten = X ∧ (arraySplit X (2 ^ level)).length = 2 ^ level ∧
    (∀ p ∈ arraySplit X (2 ^ level), p.length = X.length / 2 ^ level ∨
      p.length = X.length / 2 ^ level + 1) ∧
    (2 ^ level ≤ X.length → ∀ p ∈ arraySplit X (2 ^ level), p ≠ []) := by
  have hk : 0 < 2 ^ level := Nat.pos_of_ne_zero (by simp)
  have hs := sum_sizes X.length (2 ^ level) hk
  have hm := pieces_map_length _ X hs
  have hlen : ∀ p ∈ arraySplit X (2 ^ level), p.length = X.length / 2 ^ level ∨
      p.length = X.length / 2 ^ level + 1 := by
    intro p hp
    have : p.length ∈ sizes X.length (2 ^ level) := by
      rw [← hm]; exact List.mem_map_of_mem hp
    rcases List.mem_append.mp this with h | h
    · exact Or.inr (List.eq_of_mem_replicate h)
    · exact Or.inl (List.eq_of_mem_replicate h)
  refine ⟨pieces_flatten _ X hs, ?_, hlen, fun hn p hp he => ?_⟩
  · have := congrArg List.length hm
    rw [List.length_map] at this
    rw [arraySplit, this, sizes, List.length_append, List.length_replicate, List.length_replicate]
    have := Nat.mod_lt X.length hk
    omega
  · have h1 : 1 ≤ X.length / 2 ^ level := (Nat.one_le_div_iff hk).mpr hn
    have := hlen p hp
    rw [he] at this
    simp at this
    omega

example : arraySplit [1, 2, 3, 4, 5, 6, 7] (2 ^ 2) = [[1, 2], [3, 4], [5, 6], [7]] := by decide

/-! ## C29 -/

variable {V : Type} [AddCommGroup V]

/-- **C29.** For any DMDs in the leaves (whose reconstructions have as many columns as their data)
and a data type conversion that is additive (the identity for complex data, the real part for
real data): fitting succeeds; each level's contribution is computed from the data minus the
(converted) sum of the contributions of the levels above; and the data are the (converted)
reconstruction plus the final residual. -/
theorem C29_telescoping (rec : ℕ → ℕ → List V → List V)
    (hrec : ∀ l i x, (rec l i x).length = x.length) (cast : V →+ V) (levels : List ℕ)
    (X : List V) :
    ∃ cs r, fitLevels rec cast levels X = .ok (cs, r) ∧ cs.length = levels.length ∧
      (∀ c ∈ cs, c.length = X.length) ∧ r.length = X.length ∧
      List.zipWith (· + ·) ((reconstructed cs X.length).map cast) r = X ∧
      ∀ (k level : ℕ), levels[k]? = some level →
        cs[k]? = some (levelRec rec level (List.zipWith (· - ·) X
          ((reconstructed (cs.take k) X.length).map cast))) := by
  have hzero : ∀ X : List V,
      List.zipWith (· - ·) X ((reconstructed ([] : List (List V)) X.length).map cast) = X := by
    intro X
    apply List.ext_getElem?
    intro i
    rw [List.getElem?_zipWith]
    by_cases hi : i < X.length
    · simp [reconstructed, hi]
    · simp [reconstructed, List.getElem?_eq_none (Nat.le_of_not_lt hi)]
  have hsub : ∀ (X c R : List V), c.length = X.length → R.length = X.length →
      List.zipWith (· - ·) (List.zipWith (fun x y => x - cast y) X c) (R.map cast) =
        List.zipWith (· - ·) X ((List.zipWith (· + ·) c R).map cast) := by
    intro X c R h1 h2
    apply List.ext_getElem?
    intro i
    by_cases hi : i < X.length
    · have hc : i < c.length := by omega
      have hR : i < R.length := by omega
      simp [hi, hc, hR]
      abel
    · simp [List.getElem?_zipWith, List.getElem?_eq_none (Nat.le_of_not_lt hi)]
  have hadd : ∀ (X c R r : List V), c.length = X.length → R.length = X.length →
      List.zipWith (· + ·) (R.map cast) r = List.zipWith (fun x y => x - cast y) X c →
      r.length = X.length →
      List.zipWith (· + ·) ((List.zipWith (· + ·) c R).map cast) r = X := by
    intro X c R r h1 h2 h3 h4
    apply List.ext_getElem?
    intro i
    by_cases hi : i < X.length
    · have hc : i < c.length := by omega
      have hR : i < R.length := by omega
      have hr : i < r.length := by omega
      have := congrArg (·[i]?) h3
      simp [hi, hc, hR, hr] at this ⊢
      rw [add_assoc, this]
      abel
    · have : X.length ≤ i := Nat.le_of_not_lt hi
      rw [List.getElem?_eq_none this, List.getElem?_eq_none (by simp; omega)]
  induction levels generalizing X with
  | nil =>
    refine ⟨[], X, rfl, rfl, by simp, rfl, ?_, by simp⟩
    apply List.ext_getElem?
    intro i
    rw [List.getElem?_zipWith]
    by_cases hi : i < X.length
    · simp [reconstructed, hi]
    · simp [reconstructed, List.getElem?_eq_none (Nat.le_of_not_lt hi)]
  | cons level ls ih =>
    have hl := length_levelRec rec hrec level X
    have hXl : (List.zipWith (fun x y => x - cast y) X (levelRec rec level X)).length =
        X.length := by simp [hl]
    obtain ⟨cs, r, h1, h2, h3, h4, h5, h6⟩ :=
      ih (List.zipWith (fun x y => x - cast y) X (levelRec rec level X))
    rw [hXl] at h3 h4 h5 h6
    have hRl : ∀ cs : List (List V), (reconstructed cs X.length).length = X.length := by
      intro cs; simp [reconstructed]
    refine ⟨levelRec rec level X :: cs, r, ?_, by simp [h2], ?_, h4, ?_, ?_⟩
    · rw [fitLevels]
      simp only [hl, ne_eq, not_true_eq_false, if_false, h1, bind, Except.bind, pure, Except.pure]
    · intro c hc
      rcases List.mem_cons.mp hc with rfl | hc
      · exact hl
      · exact h3 c hc
    · rw [reconstructed_cons _ _ _ hl]
      exact hadd X _ _ r hl (hRl cs) h5 h4
    · intro k lev hk
      cases k with
      | zero =>
        simp only [List.getElem?_cons_zero, Option.some.injEq] at hk
        subst hk
        rw [List.take_zero, hzero]
        rfl
      | succ k =>
        rw [List.getElem?_cons_succ] at hk ⊢
        rw [h6 k lev hk, List.take_succ_cons, reconstructed_cons _ _ _ hl,
          hsub X _ _ hl (hRl _)]

/-- Instance: leaves that reconstruct half of their data, two levels. -/
example : fitLevels (fun _ _ x => x.map (· / 2)) (AddMonoidHom.id ℚ) [0, 1] [4, 8, 12] =
    .ok ([[2, 4, 6], [1, 2, 3]], [1, 2, 3]) := by decide +kernel

/-- **C29** fails for integer snapshots: `newX.astype(X.dtype)` truncates the contributions, so
the residual handed on is not the data minus the contribution. -/
theorem C29_integer_false :
    ∃ (rec : ℕ → ℕ → List ℚ → List ℚ) (cast : ℚ → ℚ) (X : List ℚ),
      (∀ l i x, (rec l i x).length = x.length) ∧ (∀ k : ℤ, cast k = k) ∧
      (∀ x ∈ X, ∃ k : ℤ, x = k) ∧
      fitLevels rec cast [0] X = .ok ([[9 / 10, 9 / 10]], [1, 1]) ∧ X = [1, 1] := by
  refine ⟨fun _ _ x => x.map (· * (9 / 10)), fun q => if 0 ≤ q then ⌊q⌋ else ⌈q⌉, [1, 1], by simp,
    fun k => by simp, ?_, by decide +kernel, rfl⟩
  intro x hx
  exact ⟨1, by simpa using hx⟩

/-! ## C30 -/

/-- **C30** (tiling). The intervals of the leaves of a level tile the training window: the first
begins at its start, each begins where the previous one ends, the last ends at its end. -/
theorem C30_tiling (orig : Time.Window) (maxLevel level : ℕ) (hl : level ≤ maxLevel) :
    ∃ lo hi : ℕ → ℚ, (∀ leaf : ℕ, leaf < 2 ^ level → interval orig maxLevel level leaf =
        .ok (lo leaf, hi leaf)) ∧
      lo 0 = orig.t0 ∧ hi (2 ^ level - 1) = orig.tend ∧
      (∀ leaf, leaf + 1 < 2 ^ level → hi leaf = lo (leaf + 1)) ∧
      ∀ leaf, hi leaf - lo leaf = (orig.tend - orig.t0) / 2 ^ level := by
  have hp : (2 : ℚ) ^ level ≠ 0 := by positivity
  refine ⟨fun leaf => orig.t0 + (orig.tend - orig.t0) / 2 ^ level * leaf,
    fun leaf => orig.t0 + (orig.tend - orig.t0) / 2 ^ level * leaf +
      (orig.tend - orig.t0) / 2 ^ level, ?_, by simp, ?_, ?_, ?_⟩
  · intro leaf hleaf
    have : ¬ ((2 : ℤ) ^ level ≤ leaf) := by
      have : (leaf : ℤ) < ((2 ^ level : ℕ) : ℤ) := by exact_mod_cast hleaf
      push_cast at this
      omega
    simp only [interval, if_neg (not_lt.mpr hl), if_neg this]
    push_cast
    rfl
  · have h1 : 1 ≤ 2 ^ level := Nat.one_le_two_pow
    simp only [Nat.cast_sub h1]
    push_cast
    field_simp
    ring
  · intro leaf _
    push_cast
    ring
  · intro leaf
    ring

/-- **C30** (errors). A level beyond `max_level`, or a leaf not below `2^level`, raises
`ValueError`. -/
theorem C30_invalid (orig : Time.Window) (maxLevel level : ℕ) (leaf : ℤ)
    (h : maxLevel < level ∨ 2 ^ level ≤ leaf) :
    interval orig maxLevel level leaf = .error .valueError := by
  unfold interval
  by_cases h1 : maxLevel < level
  · rw [if_pos h1]
  · rw [if_neg h1, if_pos (h.resolve_left h1)]

/-- **C30** (bins). For a window with `t0 < tend`, `time_window_bins` lists, without duplicates,
exactly the nodes whose time interval shares an instant with the window (ends excluded). -/
theorem C30_bins (orig : Time.Window) (ho : orig.t0 < orig.tend) (maxLevel : ℕ) (t0 tend : ℚ)
    (ht : t0 < tend) :
    (timeWindowBins orig maxLevel t0 tend).Nodup ∧
    ∀ level leaf : ℕ, (level, leaf) ∈ timeWindowBins orig maxLevel t0 tend ↔
      ∃ lo hi, interval orig maxLevel level leaf = .ok (lo, hi) ∧
        ∃ t, (t0 < t ∧ t < tend) ∧ (lo < t ∧ t < hi) := by
  constructor
  · unfold timeWindowBins
    rw [List.nodup_flatMap]
    refine ⟨fun level _ => ?_, ?_⟩
    · exact (List.Nodup.filter _ List.nodup_range).map fun a b h => (Prod.mk.inj h).2
    · refine List.Pairwise.imp ?_ List.nodup_range
      intro a b hab p hp hq
      obtain ⟨x, -, rfl⟩ := List.mem_map.mp hp
      obtain ⟨y, -, hy⟩ := List.mem_map.mp hq
      exact hab (Prod.mk.inj hy).1.symm
  · intro level leaf
    have hmem : (level, leaf) ∈ timeWindowBins orig maxLevel t0 tend ↔
        level ≤ maxLevel ∧ leaf < 2 ^ level ∧ ∃ l, interval orig maxLevel level leaf = .ok l ∧
          seen t0 tend l = true := by
      simp only [timeWindowBins, List.mem_flatMap, List.mem_range, List.mem_map, List.mem_filter,
        Prod.mk.injEq]
      constructor
      · rintro ⟨l, hl, b, ⟨hb, hs⟩, rfl, rfl⟩
        refine ⟨by omega, hb, ?_⟩
        cases hi : interval orig maxLevel l b with
        | ok v => rw [hi] at hs; exact ⟨v, rfl, hs⟩
        | error e => rw [hi] at hs; simp at hs
      · rintro ⟨hl, hb, v, hv, hs⟩
        exact ⟨level, by omega, leaf, ⟨hb, by rw [hv]; exact hs⟩, rfl, rfl⟩
    rw [hmem]
    -- admissible nodes have intervals of positive length
    have hpos : ∀ lo hi, interval orig maxLevel level leaf = .ok (lo, hi) →
        level ≤ maxLevel ∧ leaf < 2 ^ level ∧ lo < hi := by
      intro lo hi h
      unfold interval at h
      by_cases h1 : maxLevel < level
      · rw [if_pos h1] at h; simp at h
      by_cases h2 : (2 : ℤ) ^ level ≤ leaf
      · rw [if_neg h1, if_pos h2] at h; simp at h
      rw [if_neg h1, if_neg h2] at h
      simp only [Except.ok.injEq, Prod.mk.injEq] at h
      have hlt : leaf < 2 ^ level := by
        have : ((leaf : ℕ) : ℤ) < ((2 ^ level : ℕ) : ℤ) := by push_cast; omega
        exact_mod_cast this
      refine ⟨by omega, hlt, ?_⟩
      have : 0 < (orig.tend - orig.t0) / 2 ^ level := by
        apply div_pos <;> [linarith; positivity]
      rw [← h.1, ← h.2]
      linarith
    constructor
    · rintro ⟨-, -, ⟨lo, hi⟩, hv, hs⟩
      refine ⟨lo, hi, hv, ?_⟩
      obtain ⟨-, -, hlt⟩ := hpos lo hi hv
      have key : t0 < hi ∧ lo < tend := by
        simp only [seen, Bool.or_eq_true, Bool.and_eq_true, decide_eq_true_iff] at hs
        rcases hs with (⟨a, b⟩ | ⟨a, b⟩) | ⟨a, b⟩
        · exact ⟨b, by linarith⟩
        · exact ⟨by linarith, a⟩
        · exact ⟨by linarith, by linarith [b]⟩
      have hmx : max t0 lo < min tend hi := by
        rw [max_lt_iff, lt_min_iff, lt_min_iff]
        exact ⟨⟨ht, key.1⟩, key.2, hlt⟩
      obtain ⟨t, h1, h2⟩ := exists_between hmx
      rw [max_lt_iff] at h1
      rw [lt_min_iff] at h2
      exact ⟨t, ⟨h1.1, h2.1⟩, h1.2, h2.2⟩
    · rintro ⟨lo, hi, hv, t, ⟨h1, h2⟩, h3, h4⟩
      obtain ⟨hl, hb, hlt⟩ := hpos lo hi hv
      refine ⟨hl, hb, (lo, hi), hv, ?_⟩
      simp only [seen, Bool.or_eq_true, Bool.and_eq_true, decide_eq_true_iff]
      rcases le_or_gt lo t0 with h | h
      · exact Or.inl (Or.inl ⟨h, by linarith⟩)
      · rcases le_or_gt tend hi with h' | h'
        · exact Or.inl (Or.inr ⟨by linarith, h'⟩)
        · exact Or.inr ⟨h.le, h'.le⟩

example : timeWindowBins ⟨0, 8, 1⟩ 2 3 5 = [(0, 0), (1, 0), (1, 1), (2, 1), (2, 2)] := by
  decide +kernel

/-! ## C31 -/

/-- **C31** (partial). On a new instance given a function or a single DMD, `fit` on `n ≥ 2`
snapshots sets `max_level` to the smaller of the requested one and the limit, and for `n ≠ 3` the
limit is the deepest level whose leaves can have two snapshots each, so no leaf gets fewer.
Missing: three snapshots, instances already fitted, sequences of DMDs; refuted below. -/
theorem C31_clamp_partial {V : Type} (maxLevel n : ℕ) (hn : 2 ≤ n) (h3 : n ≠ 3) :
    clampLevel .function maxLevel n = (.ok (), min maxLevel (levelThreshold n)) ∧
    (∀ level, level ≤ levelThreshold n ↔ 2 * 2 ^ level ≤ n) ∧
    ∀ (X : List V), X.length = n → ∀ level ≤ min maxLevel (levelThreshold n),
      ∀ p ∈ arraySplit X (2 ^ level), 2 ≤ p.length := by
  have hiff : ∀ level, level ≤ levelThreshold n ↔ 2 * 2 ^ level ≤ n := by
    intro level
    rw [levelThreshold_eq n hn]
    by_cases h : 4 ≤ n
    · rw [if_pos h]
      have hl : 2 ≤ Nat.log 2 n := Nat.le_log_of_pow_le (by norm_num) (by simpa using h)
      rw [← pow_succ', ← Nat.le_log_iff_pow_le (by norm_num) (by omega)]
      omega
    · rw [if_neg h, if_neg h3]
      have : n = 2 := by omega
      subst this
      constructor
      · intro h; rw [Nat.le_zero.mp h]; norm_num
      · intro h
        by_contra hne
        have : 2 ^ 1 ≤ 2 ^ level := Nat.pow_le_pow_right (by norm_num) (by omega)
        omega
  refine ⟨?_, hiff, ?_⟩
  · unfold clampLevel
    by_cases h : levelThreshold n < maxLevel
    · rw [if_pos h, min_eq_right h.le]; rfl
    · rw [if_neg h, min_eq_left (not_lt.mp h)]
  · intro X hX level hlev p hp
    have hk : 0 < 2 ^ level := Nat.pos_of_ne_zero (by simp)
    have := (hiff level).mp (le_trans hlev (min_le_right _ _))
    have h2 : 2 ≤ X.length / 2 ^ level := by
      rw [Nat.le_div_iff_mul_le hk]; omega
    have := (C28_partition X level).2.2.1 p hp
    omega

/-- **C31** fails for three snapshots: level 1 is allowed (`int` rounds -0.41 up to 0), and one of
its leaves gets a single snapshot, which the leaf's `fit` rejects (C20). -/
theorem C31_three_snapshots_false :
    clampLevel .function 1 3 = (.ok (), 1) ∧ [3] ∈ arraySplit [1, 2, 3] (2 ^ 1) := by
  refine ⟨?_, by decide⟩
  have : levelThreshold 3 = 1 := by rw [levelThreshold_eq 3 (by norm_num)]; norm_num
  simp [clampLevel, this]

theorem log_four : Nat.log 2 4 = 2 := by
  rw [Nat.log_eq_iff (by norm_num)]; norm_num

/-- **C31** fails for refits: after a fit on 4 snapshots the level stays at 1, though 100 snapshots
allow the requested level 5. -/
theorem C31_refit_false :
    (clampLevel .function 5 4).2 = 1 ∧
    clampLevel .function (clampLevel .function 5 4).2 100 = (.ok (), 1) ∧
    clampLevel .function 5 100 = (.ok (), 5) := by
  have h4 : levelThreshold 4 = 1 := by
    rw [levelThreshold_eq 4 (by norm_num), if_pos (by norm_num), log_four]
  have h100 : levelThreshold 100 = 5 := by
    rw [levelThreshold_eq 100 (by norm_num), if_pos (by norm_num)]
    have : Nat.log 2 100 = 6 := by
      rw [Nat.log_eq_iff (by norm_num)]; norm_num
    rw [this]
  refine ⟨?_, ?_, ?_⟩ <;> simp [clampLevel, h4, h100, Builder.check]

/-- **C31** fails for a sequence of DMDs: if the level must be lowered, the sequence no longer has
one item per level and `fit` raises. -/
theorem C31_sequence_false : clampLevel (.sequence 3) 2 4 = (.error .valueError, 1) := by
  have h4 : levelThreshold 4 = 1 := by
    rw [levelThreshold_eq 4 (by norm_num), if_pos (by norm_num), log_four]
  simp [clampLevel, h4, Builder.check]

/-! ## C58 -/

/-- **C58** fails for `MrDMD`: after `fit` on `n` snapshots `dmd_timesteps` has `n + 1` entries,
one more than `reconstructed_data` has columns. -/
theorem C58_mrdmd_timesteps_false (rec : ℕ → ℕ → List V → List V)
    (hrec : ∀ l i x, (rec l i x).length = x.length) (levels : List ℕ) (X : List V) :
    ∃ ts cs r, (fitWindow X.length).timesteps = .ok ts ∧
      fitLevels rec id levels X = .ok (cs, r) ∧
      ts.length = (reconstructed cs X.length).length + 1 := by
  obtain ⟨cs, r, h, -⟩ := C29_telescoping rec hrec (AddMonoidHom.id V) levels X
  refine ⟨(List.range (X.length + 1)).map fun i : ℕ => (0 : ℚ) + i * 1, cs, r, ?_, h, ?_⟩
  · have : (((X.length : ℕ) : ℚ) + 1 - 0) / 1 = ((X.length + 1 : ℕ) : ℚ) := by push_cast; ring
    simp only [fitWindow, Time.Window.timesteps, Time.arange, one_ne_zero, if_false, this,
      Int.ceil_natCast, Int.toNat_natCast]
  · simp [reconstructed]

end Verif.MrDMD
