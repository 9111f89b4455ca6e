import Verif.Model.Alias
import Verif.Model.Dmdc
import Verif.Model.Edmd
import Verif.Props.MrDMD

/-!
# C163: what a fitted instance shares with its caller

Model: `Verif/Model/Alias.lean`.
-/

set_option autoImplicit false

namespace Verif.Alias

open Verif

variable {V : Type}

/-- An array of the caller: it lies inside a used buffer. -/
def Valid (mem : Mem V) (v : View) : Prop := v.buf < mem.next ∧ v.start + v.len ≤ (mem.cells v.buf).length

/-- What the caller can do to the memory between two calls: change the contents of buffers that existed before `fit`, keeping
their lengths. -/
def CallerWrites (before : Mem V) (m m' : Mem V) : Prop :=
  m'.next = m.next ∧ (∀ b, before.next ≤ b → m'.cells b = m.cells b) ∧ ∀ b, (m'.cells b).length = (m.cells b).length

/-! ### Helpers -/

theorem read_alloc (mem : Mem V) (xs : List V) : (mem.alloc xs).2.read (mem.alloc xs).1 = xs := by
  simp [Mem.alloc, View.read]

theorem read_alloc_old (mem : Mem V) (xs : List V) (v : View) (h : v.buf < mem.next) :
    v.read (mem.alloc xs).1 = v.read mem := by
  simp [Mem.alloc, View.read, Function.update_of_ne h.ne]

theorem holder_old (mem : Mem V) (g : Given) (v : View) (h : v.buf < mem.next) : v.read (holder mem g).1 = v.read mem := by
  match g with
  | .array2 w => rfl
  | .arrayN w true => rfl
  | .arrayN w false => exact read_alloc_old _ _ _ h
  | .list vs => exact read_alloc_old _ _ _ h

theorem holder_next (mem : Mem V) (g : Given) : mem.next ≤ (holder mem g).1.next := by
  match g with
  | .array2 w => exact le_rfl
  | .arrayN w true => exact le_rfl
  | .arrayN w false => exact Nat.le_succ _
  | .list vs => exact Nat.le_succ _

theorem holder_read (mem : Mem V) (g : Given) : (holder mem g).2.read (holder mem g).1 = g.read mem := by
  match g with
  | .array2 w => simp [holder, Given.read, Given.views]
  | .arrayN w true => simp [holder, Given.read, Given.views]
  | .arrayN w false => rw [holder, read_alloc]; simp [Given.read, Given.views]
  | .list vs => rw [holder, read_alloc]; simp [Given.read, Given.views]

theorem holder_buf (mem : Mem V) (g : Given) (h : ∀ v ∈ g.views, v.buf < mem.next) :
    (holder mem g).2.buf < (holder mem g).1.next := by
  match g with
  | .array2 w => exact h w (by simp [Given.views])
  | .arrayN w true => exact h w (by simp [Given.views])
  | .arrayN w false => exact Nat.lt_succ_self _
  | .list vs => exact Nat.lt_succ_self _

theorem cut_read (mem : Mem V) (buf : ℕ) (ss : List ℕ) (start : ℕ) :
    (cut buf start ss).map (fun v => v.read mem) = MrDMD.pieces ss ((mem.cells buf).drop start) := by
  induction ss generalizing start with
  | nil => rfl
  | cons s ss ih =>
    simp only [cut, List.map_cons, MrDMD.pieces, View.read, List.drop_drop]
    congr 1
    exact ih (start + s)

theorem cut_buf (buf : ℕ) (ss : List ℕ) (start : ℕ) (v : View) (h : v ∈ cut buf start ss) : v.buf = buf := by
  induction ss generalizing start with
  | nil => simp [cut] at h
  | cons s ss ih =>
    simp only [cut, List.mem_cons] at h
    rcases h with rfl | h
    · rfl
    · exact ih _ h

/-- The whole of a buffer. -/
def whole (mem : Mem V) (b : ℕ) : View := ⟨b, 0, (mem.cells b).length⟩

theorem read_whole (mem : Mem V) (b n : ℕ) (h : (mem.cells b).length = n) : (View.mk b 0 n).read mem = mem.cells b := by
  simp [View.read, ← h]

theorem split_read (mem : Mem V) (b n k : ℕ) (h : (mem.cells b).length = n) :
    (splitViews ⟨b, 0, n⟩ k).map (fun v => v.read mem) = MrDMD.arraySplit (mem.cells b) k := by
  rw [splitViews, cut_read, MrDMD.arraySplit, h, List.drop_zero]

variable [AddCommGroup V]

theorem fitHeap_spec (rec : ℕ → ℕ → List V → List V) (cast : V → V) (b n : ℕ) (levels : List ℕ) (mem : Mem V)
    (hn : (mem.cells b).length = n) :
    match fitHeap rec cast ⟨b, 0, n⟩ levels mem, MrDMD.fitLevels rec cast levels (mem.cells b) with
    | .ok (ks, cs, m'), .ok (cs', r) =>
        cs = cs' ∧ m'.cells b = r ∧ r.length = n ∧ (∀ c, c ≠ b → m'.cells c = mem.cells c) ∧ m'.next = mem.next ∧
          ks = levels.map fun level => splitViews ⟨b, 0, n⟩ (2 ^ level)
    | .error e, .error e' => e = e'
    | _, _ => False := by
  induction levels generalizing mem with
  | nil => simp [fitHeap, MrDMD.fitLevels, hn]
  | cons level ls ih =>
    have hk : (splitViews ⟨b, 0, n⟩ (2 ^ level)).map (fun x => (holder mem (.array2 x)).2) =
        splitViews ⟨b, 0, n⟩ (2 ^ level) := by simp [holder]
    have hr : ((splitViews ⟨b, 0, n⟩ (2 ^ level)).mapIdx fun leaf x => rec level leaf (x.read mem)).flatten =
        MrDMD.levelRec rec level (mem.cells b) := by
      rw [MrDMD.levelRec, ← split_read mem b n _ hn]
      congr 1
      apply List.ext_getElem <;> simp
    simp only [fitHeap, MrDMD.fitLevels, hk, hr]
    by_cases hl : (MrDMD.levelRec rec level (mem.cells b)).length = n
    · rw [if_neg (by simpa using hl), if_neg (by simpa [hn] using hl)]
      set ys := List.zipWith (fun x y => x - cast y) (mem.cells b) (MrDMD.levelRec rec level (mem.cells b)) with hys
      have hyl : ys.length = n := by simp [hys, hn, hl]
      have hst : mem.store ⟨b, 0, n⟩ (List.zipWith (fun x y => x - cast y) ((View.mk b 0 n).read mem)
          (MrDMD.levelRec rec level (mem.cells b))) = ⟨Function.update mem.cells b ys, mem.next⟩ := by
        rw [read_whole mem b n hn, Mem.store, ← hys]
        simp [← hn]
      have := ih ⟨Function.update mem.cells b ys, mem.next⟩ (by simp [hyl])
      rw [hst]
      simp only [Function.update_self] at this
      revert this
      cases fitHeap rec cast ⟨b, 0, n⟩ ls ⟨Function.update mem.cells b ys, mem.next⟩ with
      | error e =>
        cases MrDMD.fitLevels rec cast ls ys with
        | error e' => intro h; simpa [bind, Except.bind] using h
        | ok p => intro h; exact h.elim
      | ok p =>
        obtain ⟨ks, cs, m'⟩ := p
        cases MrDMD.fitLevels rec cast ls ys with
        | error e' => intro h; exact h.elim
        | ok p' =>
          obtain ⟨cs', r⟩ := p'
          intro h
          obtain ⟨h1, h2, h3, h4, h5, h6⟩ := h
          simp only [bind, Except.bind, pure, Except.pure]
          refine ⟨by rw [h1], h2, h3, fun c hc => ?_, h5, by rw [h6]; rfl⟩
          rw [h4 c hc, Function.update_of_ne hc]
    · rw [if_pos (by simpa using hl), if_pos (by simpa [hn] using hl)]

/-! ### Arrays of the caller -/

/-- **C163** (`fit` of the classes that store `Snapshots(X)`). Keeping the snapshots leaves all arrays of the caller as they are,
and the instance sees the columns it was given. -/
theorem C163_caller (mem : Mem V) (g : Given) :
    (∀ v : View, v.buf < mem.next → v.read (holder mem g).1 = v.read mem) ∧
      (holder mem g).2.read (holder mem g).1 = g.read mem :=
  ⟨fun v h => holder_old mem g v h, holder_read mem g⟩

/-- **C163** (`MrDMD`). A fit leaves all arrays of the caller and the snapshots of the instance as they are, although it subtracts
in place, and computes what the loop on values computes. -/
theorem C163_mrdmd (rec : ℕ → ℕ → List V → List V) (cast : V → V) (levels : List ℕ) (mem : Mem V) (g : Given)
    (hg : ∀ v ∈ g.views, v.buf < mem.next) :
    match (fitMr rec cast levels mem g).2, MrDMD.fitLevels rec cast levels (g.read mem) with
    | .ok (_, cs, m'), .ok (cs', _) =>
        cs = cs' ∧ (fitMr rec cast levels mem g).1.read m' = g.read mem ∧
          ∀ v : View, v.buf < mem.next → v.read m' = v.read mem
    | .error e, .error e' => e = e'
    | _, _ => False := by
  have hs := fitHeap_spec rec cast (holder mem g).1.next (g.read mem).length levels
    ((holder mem g).1.alloc (g.read mem)).1 (by simp [Mem.alloc])
  have e : ((holder mem g).1.alloc (g.read mem)).1.cells (holder mem g).1.next = g.read mem := by simp [Mem.alloc]
  rw [e] at hs
  have e2 : (fitMr rec cast levels mem g).2 = fitHeap rec cast ⟨(holder mem g).1.next, 0, (g.read mem).length⟩ levels
      ((holder mem g).1.alloc (g.read mem)).1 := by
    simp only [fitMr, holder_read]
    rfl
  have e1 : (fitMr rec cast levels mem g).1 = (holder mem g).2 := rfl
  rw [e2, e1]
  revert hs
  cases fitHeap rec cast ⟨(holder mem g).1.next, 0, (g.read mem).length⟩ levels ((holder mem g).1.alloc (g.read mem)).1 with
  | error a =>
    cases MrDMD.fitLevels rec cast levels (g.read mem) with
    | error a' => exact id
    | ok p => exact id
  | ok p =>
    obtain ⟨ks, cs, m'⟩ := p
    cases MrDMD.fitLevels rec cast levels (g.read mem) with
    | error a' => exact id
    | ok p' =>
      obtain ⟨cs', r⟩ := p'
      rintro ⟨h1, -, -, h4, -, -⟩
      have old : ∀ v : View, v.buf < (holder mem g).1.next → v.read m' = v.read (holder mem g).1 := by
        intro v hv
        rw [View.read, h4 _ hv.ne]
        exact read_alloc_old _ _ v hv
      refine ⟨h1, ?_, fun v hv => ?_⟩
      · rw [old _ (holder_buf mem g hg), holder_read]
      · rw [old v (lt_of_lt_of_le hv (holder_next mem g)), holder_old mem g v hv]

/-- **C163** (leaves of `MrDMD`). After the fit the `snapshots` of every leaf are its columns of what all levels together left, not
those it was fitted to: the leaves share the memory of the array the levels are subtracted from (disagreement D217). -/
theorem C163_leaf_partial (rec : ℕ → ℕ → List V → List V) (cast : V → V) (levels : List ℕ) (mem : Mem V) (g : Given)
    (ks : List (List View)) (cs : List (List V)) (m' : Mem V) (h : (fitMr rec cast levels mem g).2 = .ok (ks, cs, m')) :
    ∃ r, MrDMD.fitLevels rec cast levels (g.read mem) = .ok (cs, r) ∧
      ks.map (List.map fun v => v.read m') = levels.map fun level => MrDMD.arraySplit r (2 ^ level) := by
  have hs := fitHeap_spec rec cast (holder mem g).1.next (g.read mem).length levels
    ((holder mem g).1.alloc (g.read mem)).1 (by simp [Mem.alloc])
  have e : ((holder mem g).1.alloc (g.read mem)).1.cells (holder mem g).1.next = g.read mem := by simp [Mem.alloc]
  rw [e] at hs
  have e2 : (fitMr rec cast levels mem g).2 = fitHeap rec cast ⟨(holder mem g).1.next, 0, (g.read mem).length⟩ levels
      ((holder mem g).1.alloc (g.read mem)).1 := by
    simp only [fitMr, holder_read]
    rfl
  rw [← e2, h] at hs
  revert hs
  cases MrDMD.fitLevels rec cast levels (g.read mem) with
  | error a' => exact fun h => h.elim
  | ok p' =>
    obtain ⟨cs', r⟩ := p'
    rintro ⟨h1, h2, h3, -, -, h6⟩
    refine ⟨r, by rw [h1], ?_⟩
    rw [h6, List.map_map]
    refine List.map_congr_left fun level _ => ?_
    simp only [Function.comp]
    rw [split_read m' _ _ _ (by rw [h2, h3]), h2]

/-- **C163** is false for the leaves of `MrDMD`: a node that reproduces its data exactly has vanishing `snapshots` after the fit. -/
theorem C163_leaf_false : ∃ (rec : ℕ → ℕ → List ℤ → List ℤ) (mem : Mem ℤ) (g : Given) (ks : List (List View)) (cs : List (List ℤ))
    (m' : Mem ℤ), (fitMr rec id [0] mem g).2 = .ok (ks, cs, m') ∧ g.read mem = [1, 2, 4, 8, 16] ∧ cs = [[1, 2, 4, 8, 16]] ∧
      ks.map (List.map fun v => v.read m') = [[[0, 0, 0, 0, 0]]] := by
  refine ⟨fun _ _ x => x, ⟨fun _ => [1, 2, 4, 8, 16], 1⟩, .array2 ⟨0, 0, 5⟩, _, _, _, rfl, rfl, rfl, ?_⟩
  decide

omit [AddCommGroup V] in
/-- **C163** (lists and arrays that cannot be flattened in place). Whatever the caller writes into its arrays after the fit, the
instance keeps its snapshots. Missing: matrices and contiguous arrays, see `C163_array_false`. -/
theorem C163_keeps_partial (mem m' : Mem V) (g : Given) (hg : (∃ vs, g = .list vs) ∨ ∃ v, g = .arrayN v false)
    (h : CallerWrites mem (holder mem g).1 m') : (holder mem g).2.read m' = g.read mem := by
  rw [← holder_read]
  have hb : mem.next ≤ (holder mem g).2.buf := by
    rcases hg with ⟨vs, rfl⟩ | ⟨v, rfl⟩ <;> exact le_rfl
  rw [View.read, h.2.1 _ hb]
  rfl

omit [AddCommGroup V] in
/-- **C163** is false for matrices and contiguous arrays: what the caller writes into the array after the fit is what the instance
then holds as `snapshots` (disagreement D218). -/
theorem C163_array_false (mem : Mem V) (v : View) (hv : Valid mem v) (g : Given) (hg : g = .array2 v ∨ g = .arrayN v true)
    (xs : List V) (hx : xs.length = v.len) :
    ∃ m', CallerWrites mem (holder mem g).1 m' ∧ (holder mem g).2.read m' = xs := by
  have e : holder mem g = (mem, v) := by rcases hg with rfl | rfl <;> rfl
  rw [e]
  refine ⟨mem.store v xs, ⟨rfl, fun b hb => ?_, fun b => ?_⟩, ?_⟩
  · simp only [Mem.store]
    rw [Function.update_of_ne (lt_of_lt_of_le hv.1 hb).ne']
  · simp only [Mem.store]
    by_cases hb : b = v.buf
    · subst hb
      have := hv.2
      simp [hx]
      omega
    · rw [Function.update_of_ne hb]
  · have := hv.2
    simp only [View.read, Mem.store, Function.update_self]
    rw [List.append_assoc, List.drop_append_of_le_length (by simp; omega), List.drop_of_length_le (by simp), List.nil_append,
      List.take_append_of_le_length (by omega), List.take_of_length_le (by omega)]

omit [AddCommGroup V] in
/-- **C163** (times). The times kept by `BOPDMD.fit` and `HAVOK.fit` survive whatever the caller does with the array; those kept by
`BOPDMD.fit_econ` and `VarProDMD.fit` become what the caller writes (disagreement D219). -/
theorem C163_times (c : TimeOf) (mem : Mem V) (t : View) (ht : Valid mem t) :
    if c = .bopFit ∨ c = .havok then
      ∀ m', CallerWrites mem (keepTime c mem t).1 m' → (keepTime c mem t).2.read m' = t.read mem
    else ∀ xs : List V, xs.length = t.len →
      ∃ m', CallerWrites mem (keepTime c mem t).1 m' ∧ (keepTime c mem t).2.read m' = xs := by
  cases c with
  | bopFit =>
    intro m' h
    have := C163_keeps_partial mem m' (.arrayN t false) (.inr ⟨t, rfl⟩) h
    exact this.trans (by simp [Given.read, Given.views])
  | havok =>
    intro m' h
    have := C163_keeps_partial mem m' (.arrayN t false) (.inr ⟨t, rfl⟩) h
    exact this.trans (by simp [Given.read, Given.views])
  | bopEcon => exact fun xs hx => C163_array_false mem t ht _ (.inl rfl) xs hx
  | varpro => exact fun xs hx => C163_array_false mem t ht _ (.inl rfl) xs hx

/-! ### What is computed from the shared arrays after the fit -/

theorem controlLoop_prefix {m : Type} [Fintype m] {q : ℕ} (A : Matrix m m ℂ) (B : Matrix m (Fin q) ℂ) (us : List (List ℂ)) (i : ℕ)
    (data out : List (m → ℂ)) (h : Dmdc.controlLoop A B i data us = .ok out) : data <+: out := by
  induction us generalizing i data with
  | nil => simp only [Dmdc.controlLoop, Except.ok.injEq] at h; rw [h]
  | cons u us ih =>
    simp only [Dmdc.controlLoop] at h
    split at h
    · cases h
    · split at h
      · cases h
      · exact (List.prefix_append _ _).trans (ih _ _ h)

/-- **C163** is false for `DMDc`: its `reconstructed_data` starts with what the caller has written into the matrix of snapshots
since the fit, whatever that is (disagreement D218). -/
theorem C163_dmdc_false {m r : Type} [Fintype m] [Fintype r] [DecidableEq r] {q : ℕ} (mem : Mem (m → ℂ)) (v : View)
    (hv : Valid mem v) (xs : List (m → ℂ)) (hx : xs.length = v.len) (modes : Matrix m r ℂ) (eigs : r → ℂ) (P : Matrix r m ℂ)
    (B : Matrix m (Fin q) ℂ) (lag : ℕ) (orig dmd : Time.Window) (c : Dmdc.Control) :
    ∃ m', CallerWrites mem (holder mem (.array2 v)).1 m' ∧
      ∀ out, Dmdc.reconstructedData modes eigs P B ((holder mem (.array2 v)).2.read m') lag orig dmd c none = .ok out →
        xs.take lag <+: out := by
  obtain ⟨m', h1, h2⟩ := C163_array_false mem v hv (.array2 v) (.inl rfl) xs hx
  refine ⟨m', h1, fun out h => ?_⟩
  rw [h2] at h
  simp only [Dmdc.reconstructedData, Option.getD_none] at h
  split at h
  · cases h
  · split at h
    · cases h
    · split at h
      · cases h
      · split at h
        · exact controlLoop_prefix _ _ _ _ _ _ h
        · simp only [Except.ok.injEq] at h
          rw [h]
        · cases h

/-- **C163** is false for `EDMD`: the eigenfunctions are computed from the shared snapshots. With one snapshot `1`, the linear
kernel and everything computed in `fit` equal to one, the eigenfunction at `1` is `1`; after the caller has overwritten the
snapshot with `2` it is `2` (disagreement D218). -/
theorem C163_edmd_false : ∃ (mem m' : Mem (Fin 1 → ℝ)) (v : View), Valid mem v ∧
    CallerWrites mem (holder mem (.array2 v)).1 m' ∧
    ∀ read : Mem (Fin 1 → ℝ) → Matrix (Fin 1) (Fin 1) ℝ,
      (∀ mm i j, read mm i j = ((holder mem (.array2 v)).2.read mm).getD j 0 i) →
      Edmd.eigenfunctions (fun x y => x 0 * y 0) (read (holder mem (.array2 v)).1) (1 : Matrix (Fin 1) (Fin 1) ℝ) (fun _ => 1) 1
        (fun _ => 1) = .ok (fun _ => 1) ∧
      Edmd.eigenfunctions (fun x y => x 0 * y 0) (read m') (1 : Matrix (Fin 1) (Fin 1) ℝ) (fun _ => 1) 1
        (fun _ => 1) = .ok (fun _ => 2) := by
  refine ⟨⟨fun _ => [fun _ => 1], 1⟩, ⟨fun b => if b = 0 then [fun _ => 2] else [fun _ => 1], 1⟩, ⟨0, 0, 1⟩, ⟨by simp, by simp⟩,
    ⟨rfl, fun b hb => ?_, fun b => ?_⟩, fun read hread => ⟨?_, ?_⟩⟩
  · have : b ≠ 0 := by
      have : 1 ≤ b := hb
      omega
    simp [holder, this]
  · by_cases hb : b = 0 <;> simp [holder, hb]
  all_goals
    simp only [Edmd.eigenfunctions, dif_pos, Except.ok.injEq]
    funext i
    obtain rfl : i = 0 := Subsingleton.elim _ _
    simp [Edmd.toC, Edmd.pinvDiag, Matrix.mul_apply, hread, holder, View.read]
    norm_num

/-- The hypotheses are met: a matrix of three columns in a buffer of five, given as matrix and as list; the caller overwrites all
of it; a fit of two levels. -/
example : ∃ (mem m' : Mem ℤ) (v : View), Valid mem v ∧ (∀ w ∈ (Given.array2 v).views, w.buf < mem.next) ∧
    CallerWrites mem (holder mem (.list [v])).1 m' ∧ v.read m' ≠ v.read mem ∧ (holder mem (.list [v])).2.read m' = v.read mem ∧
    ∃ ks cs m'', (fitMr (fun _ _ x => x.map fun y => y / 2) id [0, 1] mem (.array2 v)).2 = .ok (ks, cs, m'') ∧
      ks.map (List.map fun w => w.read m'') = [[[1, 1, 2]], [[1, 1], [2]]] ∧ v.read m'' = [2, 4, 8] := by
  refine ⟨⟨fun _ => [1, 2, 4, 8, 16], 1⟩, ⟨fun b => if b = 0 then [0, 0, 0, 0, 0] else if b = 1 then [2, 4, 8] else
    [1, 2, 4, 8, 16], 2⟩, ⟨0, 1, 3⟩, ⟨by decide, by decide⟩, by decide, ⟨rfl, fun b hb => ?_, fun b => ?_⟩, by decide, by decide,
    _, _, _, rfl, by decide, by decide⟩
  · have h0 : b ≠ 0 := by
      have : 1 ≤ b := hb
      omega
    by_cases h1 : b = 1
    · subst h1; rfl
    · simp [holder, Mem.alloc, h0, h1]
  · by_cases h0 : b = 0
    · subst h0; rfl
    · by_cases h1 : b = 1
      · subst h1; rfl
      · simp [holder, Mem.alloc, h0, h1]

end Verif.Alias
