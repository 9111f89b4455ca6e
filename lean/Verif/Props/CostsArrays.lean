import Verif.Props.CostsWhole
import Verif.Props.CostsRank

/-!
# Property C174: the arrays of COSTS are the fits of its windows
-/

set_option autoImplicit false

namespace Verif.CostsWhole

open Verif Verif.Costs Verif.CostsInit Verif.Refit Verif.Rank

variable {n nT wl : ℕ} {B Al : Type}

/-! ## Specification -/

/-- The window that begins at `a` as it is to be given to the DMD: without its mean, with rounded corners, and with
times that begin at 0. -/
noncomputable def centred (n wl : ℕ) (c : Option ℝ) (x : ℕ → ℕ → ℝ) (time : ℕ → ℝ) (a : ℕ) : Win n wl :=
  ⟨fun s i => (x s (a + i) - (∑ j ∈ Finset.range wl, x s (a + j)) / wl) * CostsKern.lvKern wl c i,
    fun i => time (a + i) - time a⟩

/-- The entries of the arrays for the window that begins at `a` are the result `out` of the DMD, filled up with zeros,
the mean of the window, and its times. -/
structure Keeps (wl : ℕ) (x : ℕ → ℕ → ℝ) (time : ℕ → ℝ) (a : ℕ) (out : Out) (R : Row) : Prop where
  start : R.start = a
  found : ∀ l < out.rank, (∀ s, R.modes s l = out.modes s l) ∧ R.omega l = out.omega l ∧ R.amplitudes l = out.amplitudes l
  rest : ∀ l, out.rank ≤ l → (∀ s, R.modes s l = 0) ∧ R.omega l = 0 ∧ R.amplitudes l = 0
  mean : ∀ s, R.mean s * wl = ∑ i ∈ Finset.range wl, x s (a + i)
  time : ∀ i, R.time i = time (a + i)

/-! ## Lemmas -/

theorem mapM_get {α β : Type} (f : α → Except PyErr β) : ∀ (l : List α) (bs : List β), l.mapM f = .ok bs →
    bs.length = l.length ∧ ∀ (k : ℕ) (a : α), l[k]? = some a → ∃ b, bs[k]? = some b ∧ f a = .ok b := by
  intro l
  induction l with
  | nil =>
    intro bs h
    simp only [List.mapM_nil, pure, Except.pure, Except.ok.injEq] at h
    rw [← h]
    exact ⟨rfl, fun k a h => by simp at h⟩
  | cons c l ih =>
    intro bs h
    rw [mapM_cons'] at h
    split at h
    · simp at h
    · rename_i b hb
      split at h
      · simp at h
      · rename_i rs hrs
        simp only [Except.ok.injEq] at h
        obtain ⟨h1, h2⟩ := ih rs hrs
        rw [← h]
        refine ⟨by simp [h1], fun k a hk => ?_⟩
        cases k with
        | zero =>
          simp only [List.getElem?_cons_zero, Option.some.injEq] at hk
          exact ⟨b, rfl, hk ▸ hb⟩
        | succ k =>
          rw [List.getElem?_cons_succ] at hk
          exact h2 k a hk

theorem mapM_ok {α β : Type} (f : α → Except PyErr β) : ∀ (l : List α), (∀ a ∈ l, ∃ b, f a = .ok b) → ∃ bs, l.mapM f = .ok bs := by
  intro l
  induction l with
  | nil => exact fun _ => ⟨[], rfl⟩
  | cons c l ih =>
    intro h
    obtain ⟨b, hb⟩ := h c List.mem_cons_self
    obtain ⟨bs, hbs⟩ := ih fun a ha => h a (List.mem_cons_of_mem _ ha)
    exact ⟨b :: bs, by rw [mapM_cons', hb, hbs]⟩

theorem window_centred (c : Option ℝ) (x : ℕ → ℕ → ℝ) (time : ℕ → ℝ) (a : ℕ) :
    window n wl c x time a = centred n wl c x time a := rfl

theorem row_keeps (hwl : 1 ≤ wl) (alloc : ℕ) (x : ℕ → ℕ → ℝ) (time : ℕ → ℝ) (a : ℕ) (out : Out) (R : Row)
    (h : row alloc wl x time a out = .ok R) : out.rank ≤ alloc ∧ Keeps wl x time a out R := by
  unfold row at h
  split_ifs at h with hr
  simp only [Except.ok.injEq] at h
  subst h
  have hw : (wl : ℝ) ≠ 0 := by exact_mod_cast (by omega : wl ≠ 0)
  refine ⟨not_lt.1 hr, rfl, fun l hl => ?_, fun l hl => ?_, fun s => div_mul_cancel₀ _ hw, fun i => rfl⟩
  · simp [hl]
  · simp [not_lt.2 hl]

/-- The steps of a fit that succeeds. -/
theorem fit_steps (o : Opts n wl B Al) (N : Num n nT wl B Al) (step nSteps : ℤ) (x : ℕ → ℕ → ℝ) (time : ℕ → ℝ) (F : Fitted)
    (h : fit o N step nSteps x time = .ok F) :
    ∃ w rank basis outs, fitWindows nT nT wl step nSteps = .ok w ∧
      prepare o N (fun a t => x a t) = .ok (F.alloc, rank, basis) ∧
      Loop.fit (K := ℝ) ({ o.loop with basis := basis } : Loop (Win n wl) ℝ B Al Out) N.bop rank
        (((List.range w.nSlides.toNat).map fun k : ℕ => (w.indices k).1.toNat).map (window n wl o.sharpness x time)) = .ok outs ∧
      (((List.range w.nSlides.toNat).map fun k : ℕ => (w.indices k).1.toNat).zip outs).mapM
        (fun p => row F.alloc wl x time p.1 p.2) = .ok F.rows := by
  unfold fit at h
  cases hw : fitWindows nT nT wl step nSteps with
  | error e => rw [hw] at h; simp [bind, Except.bind] at h
  | ok w =>
    rw [hw] at h
    simp only [bind, Except.bind] at h
    split at h
    · simp at h
    · rename_i p hp
      split at h
      · simp at h
      · rename_i outs hl
        split at h
        · simp at h
        · rename_i rows hrows
          simp only [Except.ok.injEq] at h
          subst h
          exact ⟨w, p.2.1, p.2.2, outs, rfl, hp, hl, hrows⟩

/-- The rows of a fit whose windows are fitted one by one. -/
theorem rows_of (hwl : 1 ≤ wl) (alloc : ℕ) (x : ℕ → ℕ → ℝ) (time : ℕ → ℝ) (f : ℕ → Except PyErr Out) (starts : List ℕ)
    (outs : List Out) (ho : starts.mapM f = .ok outs) (rows : List Row)
    (hr : (starts.zip outs).mapM (fun p => row alloc wl x time p.1 p.2) = .ok rows) :
    rows.length = starts.length ∧ ∀ (k a : ℕ), starts[k]? = some a → ∃ out R, f a = .ok out ∧ out.rank ≤ alloc ∧ rows[k]? = some R ∧
      Keeps wl x time a out R := by
  obtain ⟨l1, g1⟩ := mapM_get f starts outs ho
  obtain ⟨l2, g2⟩ := mapM_get _ _ _ hr
  refine ⟨by rw [l2, List.length_zip, l1, min_self], fun k a hk => ?_⟩
  obtain ⟨out, ho', hf⟩ := g1 k a hk
  obtain ⟨R, hR, hrow⟩ := g2 k (a, out) (by rw [List.getElem?_zip_eq_some]; exact ⟨hk, ho'⟩)
  obtain ⟨h1, h2⟩ := row_keeps hwl alloc x time a out R hrow
  exact ⟨out, R, hf, h1, hR, h2⟩

theorem mapM_map {α β γ : Type} (g : α → β) (f : β → Except PyErr γ) (l : List α) :
    (l.map g).mapM f = l.mapM fun a => f (g a) := by
  induction l with
  | nil => rfl
  | cons a l ih => rw [List.map_cons, mapM_cons', mapM_cons', ih]

theorem prepare_local (o : Opts n wl B Al) (N : Num n nT wl B Al) (hg : o.loop.globalSvd = false) (X : Fin n → Fin nT → ℝ)
    (alloc : ℕ) (rank : SvdRank ℝ) (basis : Option B) (h : prepare o N X = .ok (alloc, rank, basis)) :
    basis = o.loop.basis := by
  unfold prepare at h
  simp only [hg, Bool.false_eq_true, if_false] at h
  split_ifs at h <;> simp only [Except.ok.injEq, Prod.mk.injEq] at h <;> exact h.2.2.symm

/-! ## Property theorems -/

/-- **C174** (local SVD). After a fit with `global_svd=False`, and without `use_last_freq`, the arrays have one entry for
each window, and it is what a new `BOPDMD` with the options of the `COSTS` object finds on the data of that window
alone, less their mean and with rounded corners; filled up with zeros; along with that mean and the times of the window. -/
theorem C174_local (hwl : 1 ≤ wl) (o : Opts n wl B Al) (N : Num n nT wl B Al) (step nSteps : ℤ) (x : ℕ → ℕ → ℝ)
    (time : ℕ → ℝ) (F : Fitted) (hg : o.loop.globalSvd = false) (hl : o.loop.useLastFreq = false)
    (hr : o.loop.resetAlphaInit = true → o.loop.initAlpha = none) (h : fit o N step nSteps x time = .ok F) :
    ∃ w, fitWindows nT nT wl step nSteps = .ok w ∧ F.rows.length = w.nSlides.toNat ∧
      ∀ k < w.nSlides.toNat, ∃ out R, F.rows[k]? = some R ∧ out.rank ≤ F.alloc ∧
        fresh N.bop (o.loop.localRank (centred n wl o.sharpness x time (w.indices k).1.toNat)) o.loop.basis o.loop.initAlpha
          (centred n wl o.sharpness x time (w.indices k).1.toNat) = .ok out ∧
        Keeps wl x time (w.indices k).1.toNat out R := by
  obtain ⟨w, rank, basis, outs, h1, h2, h3, h4⟩ := fit_steps o N step nSteps x time F h
  obtain rfl := prepare_local o N hg _ _ _ _ h2
  rw [C104_local _ N.bop rank hg hl hr, mapM_map] at h3
  obtain ⟨g1, g2⟩ := rows_of hwl F.alloc x time _ _ outs h3 F.rows h4
  refine ⟨w, h1, by simpa using g1, fun k hk => ?_⟩
  obtain ⟨out, R, e1, e2, e3, e4⟩ := g2 k (w.indices k).1.toNat (by simp [hk])
  exact ⟨out, R, e3, e2, e1, e4⟩

theorem prepare_global (o : Opts n wl B Al) (N : Num n nT wl B Al) (hg : o.loop.globalSvd = true) (r : ℕ) (hr : 1 ≤ r)
    (ho : o.svdRank = .int r) (X : Fin n → Fin nT → ℝ) (hs : (N.sing X).length = min n nT) (hm : 1 ≤ min n nT) :
    prepare o N X = .ok (min r (min n nT), .int (min r (min n nT) : ℕ), some (N.basis X (min r (min n nT)))) := by
  have hr' : (1 : ℤ) ≤ r := by exact_mod_cast hr
  have h1 : ∀ k : ℕ, 1 ≤ k → computeRank (N.sing X) n nT (.int k : SvdRank ℝ) = min k (min n nT) := fun k hk => by
    have := CostsRank.computeRank_int (K := ℝ) (N.sing X) n nT k (by exact_mod_cast hk)
    rw [this, hs]
    rfl
  have h2 : ∀ k : ℕ, 1 ≤ k → CostsRank.computeRankTyped ⟨N.sing X, n, nT⟩ (.int k : SvdRank ℝ) = .int (min k (min n nT) : ℕ) :=
    fun k hk => by
      rw [CostsRank.typed_int _ _ (by exact_mod_cast hk)]
      simp only [hs]
      rfl
  have hk : 1 ≤ min r (min n nT) := by omega
  have hmm : min (min r (min n nT)) (min n nT) = min r (min n nT) := by omega
  unfold prepare
  simp only [hg, if_true, ho]
  rw [h2 r hr, h2 _ hk, h1 r hr, h1 _ hk, hmm]

/-- **C174** (global SVD). With `global_svd=True` and `svd_rank=r`, all windows are fitted with one projection basis,
computed from all the data, with one rank, and with one guess of the eigenvalues. -/
theorem C174_global (hwl : 1 ≤ wl) (o : Opts n wl B Al) (N : Num n nT wl B Al) (step nSteps : ℤ) (x : ℕ → ℕ → ℝ)
    (time : ℕ → ℝ) (F : Fitted) (hg : o.loop.globalSvd = true) (r : ℕ) (hr : 1 ≤ r) (ho : o.svdRank = .int r)
    (hs : ∀ X, (N.sing X).length = min n nT) (hm : 1 ≤ min n nT) (hN : BopOk N.bop)
    (hw : ∀ W, min r (min n nT) ≤ (N.bop.sing W).length) (h : fit o N step nSteps x time = .ok F) :
    F.alloc = min r (min n nT) ∧ ∃ w g, fitWindows nT nT wl step nSteps = .ok w ∧ F.rows.length = w.nSlides.toNat ∧
      (∀ g', o.loop.initAlpha = some g' → w.nSlides.toNat ≠ 0 → g = some g') ∧
      (o.loop.initAlpha = none → w.nSlides.toNat ≠ 0 → g = some (N.bop.alpha (centred n wl o.sharpness x time
        (w.indices 0).1.toNat) (N.basis (fun a t => x a t) (min r (min n nT))) (min r (min n nT)))) ∧
      ∀ k < w.nSlides.toNat, ∃ out R, F.rows[k]? = some R ∧ out.rank ≤ F.alloc ∧
        fresh N.bop (.int (min r (min n nT) : ℕ)) (some (N.basis (fun a t => x a t) (min r (min n nT)))) g
          (centred n wl o.sharpness x time (w.indices k).1.toNat) = .ok out ∧
        Keeps wl x time (w.indices k).1.toNat out R := by
  obtain ⟨w, rank, basis, outs, h1, h2, h3, h4⟩ := fit_steps o N step nSteps x time F h
  rw [prepare_global o N hg r hr ho _ (hs _) hm] at h2
  simp only [Except.ok.injEq, Prod.mk.injEq] at h2
  obtain ⟨ha, rfl, rfl⟩ := h2
  refine ⟨ha.symm, w, ?_⟩
  cases hn : w.nSlides.toNat with
  | zero =>
    rw [hn] at h4
    simp only [List.range_zero, List.map_nil, List.zip_nil_left, List.mapM_nil, pure, Except.pure, Except.ok.injEq] at h4
    refine ⟨none, h1, by rw [← h4]; rfl, fun _ _ h => absurd rfl h, fun _ h => absurd rfl h, fun k hk => absurd hk (by omega)⟩
  | succ q =>
    rw [hn] at h3 h4
    have hst : ((List.range (q + 1)).map fun k : ℕ => (w.indices k).1.toNat) =
        (w.indices 0).1.toNat :: ((List.range q).map fun k : ℕ => (w.indices ((k + 1 : ℕ) : ℤ)).1.toNat) := by
      rw [List.range_succ_eq_map]
      simp
    obtain ⟨g, hg1, hg2, hg3⟩ := C104_global (K := ℝ) ({ o.loop with basis := some (N.basis (fun a t => x a t) (min r (min n nT))) } :
      Loop (Win n wl) ℝ B Al Out) N.bop (min r (min n nT)) (N.basis (fun a t => x a t) (min r (min n nT))) hN (by omega) hg rfl
      (window n wl o.sharpness x time (w.indices 0).1.toNat)
      (((List.range q).map fun k : ℕ => (w.indices ((k + 1 : ℕ) : ℤ)).1.toNat).map (window n wl o.sharpness x time)) fun v _ => hw v
    have h3' := h3
    rw [hst, List.map_cons, hg3, ← List.map_cons, ← hst, mapM_map] at h3'
    obtain ⟨g1, g2⟩ := rows_of hwl F.alloc x time _ _ outs h3' F.rows h4
    refine ⟨some g, h1, by simpa using g1, fun g' e _ => by rw [hg2 g' e], fun e _ => by rw [hg1 e]; rfl, fun k hk => ?_⟩
    obtain ⟨out, R, e1, e2, e3, e4⟩ := g2 k (w.indices k).1.toNat (by simp [hk])
    exact ⟨out, R, e3, e2, e1, e4⟩

/-- The number of places for modes, for `global_svd=False`: with `svd_rank` 0 or negative `max_rank`, and the number of
variables if that is not given; with `svd_rank` a positive integer that number, as far as the data have singular values. -/
def Places (o : Opts n wl B Al) (nT p : ℕ) : Prop :=
  o.svdRank.val ≤ 0 ∧ p = o.maxRank.getD n ∨
  ∃ r : ℕ, 1 ≤ r ∧ o.svdRank = .int r ∧ r ≤ n ∧ (o.forceEven = true → Even r) ∧ p = min r (min n nT)

theorem not_isOdd (r : ℕ) (h : Even r) : ¬ CostsRank.IsOdd (.int r : SvdRank ℝ) := by
  obtain ⟨k, rfl⟩ := h
  exact not_not.2 ⟨k, by simp [SvdRank.val]; ring⟩

theorem prepare_places (o : Opts n wl B Al) (N : Num n nT wl B Al) (hg : o.loop.globalSvd = false) (X : Fin n → Fin nT → ℝ)
    (hs : (N.sing X).length = min n nT) (p : ℕ) (hp : Places o nT p) : prepare o N X = .ok (p, o.svdRank, o.loop.basis) := by
  unfold prepare
  simp only [hg, Bool.false_eq_true, if_false]
  rcases hp with ⟨h0, rfl⟩ | ⟨r, h1, h2, h3, h4, rfl⟩
  · rw [if_neg (not_lt.2 h0)]
  · rw [h2]
    have hpos : (0 : ℝ) < (SvdRank.int (r : ℤ) : SvdRank ℝ).val := by simp [SvdRank.val]; omega
    have hle : ¬ (n : ℝ) < (SvdRank.int (r : ℤ) : SvdRank ℝ).val := by simp [SvdRank.val]; exact_mod_cast h3
    rw [if_pos hpos, if_neg (fun h => not_isOdd r (h4 h.1) h.2), if_neg hle]
    rw [CostsRank.computeRank_int (K := ℝ) (N.sing X) n nT r (by exact_mod_cast h1), hs]
    rfl

/-- **C174** (success). With `global_svd=False`, for windows that fit in the data, `fit` succeeds exactly if the DMD
succeeds on each window and finds no more modes there than there are places for. -/
theorem C174_succeeds (h1 : 1 ≤ wl) (h2 : wl ≤ nT) (step : ℤ) (h3 : 1 ≤ step) (nSteps : ℤ) (h4 : nSteps = nT ∨ nSteps = nT - 1)
    (o : Opts n wl B Al) (N : Num n nT wl B Al) (x : ℕ → ℕ → ℝ)
    (time : ℕ → ℝ) (hg : o.loop.globalSvd = false) (hl : o.loop.useLastFreq = false)
    (hr : o.loop.resetAlphaInit = true → o.loop.initAlpha = none) (hs : ∀ X, (N.sing X).length = min n nT) (p : ℕ)
    (hp : Places o nT p) :
    ∃ w, fitWindows nT nT wl step nSteps = .ok w ∧ 1 ≤ w.nSlides ∧
      ((∃ F, fit o N step nSteps x time = .ok F) ↔ ∀ k < w.nSlides.toNat, ∃ out : Out,
        fresh N.bop (o.loop.localRank (centred n wl o.sharpness x time (w.indices k).1.toNat)) o.loop.basis o.loop.initAlpha
          (centred n wl o.sharpness x time (w.indices k).1.toNat) = .ok out ∧ out.rank ≤ p) ∧
      ∀ F, fit o N step nSteps x time = .ok F → F.alloc = p := by
  obtain ⟨w, hw, hpos, -⟩ := C45_windows nT wl step nSteps (by exact_mod_cast h1) (by exact_mod_cast h2) h3 h4
  have halloc : ∀ F, fit o N step nSteps x time = .ok F → F.alloc = p := by
    intro F h
    obtain ⟨w', rank, basis, outs, -, e2, -⟩ := fit_steps o N step nSteps x time F h
    rw [prepare_places o N hg _ (hs _) p hp] at e2
    simp only [Except.ok.injEq, Prod.mk.injEq] at e2
    exact e2.1.symm
  refine ⟨w, hw, hpos, ⟨fun ⟨F, h⟩ k hk => ?_, fun h => ?_⟩, halloc⟩
  · obtain ⟨w', hw', -, hall⟩ := C174_local h1 o N step nSteps x time F hg hl hr h
    rw [hw] at hw'
    simp only [Except.ok.injEq] at hw'
    subst hw'
    obtain ⟨out, R, -, e2, e1, -⟩ := hall k hk
    exact ⟨out, e1, halloc F h ▸ e2⟩
  · set starts := (List.range w.nSlides.toNat).map fun k : ℕ => (w.indices k).1.toNat with hst
    have hmem : ∀ a ∈ starts, ∃ out : Out, fresh N.bop (o.loop.localRank (centred n wl o.sharpness x time a)) o.loop.basis
        o.loop.initAlpha (centred n wl o.sharpness x time a) = .ok out ∧ out.rank ≤ p := by
      intro a ha
      obtain ⟨k, hk, rfl⟩ := List.mem_map.1 ha
      exact h k (List.mem_range.1 hk)
    obtain ⟨outs, houts⟩ := mapM_ok (fun a => fresh N.bop (o.loop.localRank (centred n wl o.sharpness x time a)) o.loop.basis
        o.loop.initAlpha (centred n wl o.sharpness x time a)) starts fun a ha => (hmem a ha).imp fun _ h => h.1
    obtain ⟨l1, g1⟩ := mapM_get _ _ _ houts
    obtain ⟨rows, hrows⟩ := mapM_ok (fun q : ℕ × Out => row p wl x time q.1 q.2) (starts.zip outs) (by
      intro q hq
      obtain ⟨k, hk⟩ := List.getElem?_of_mem hq
      rw [List.getElem?_zip_eq_some] at hk
      obtain ⟨b, hb, hf⟩ := g1 k _ hk.1
      rw [hk.2] at hb
      simp only [Option.some.injEq] at hb
      obtain ⟨out, ho1, ho2⟩ := hmem q.1 (List.mem_of_getElem? hk.1)
      rw [ho1] at hf
      simp only [Except.ok.injEq] at hf
      unfold row
      rw [if_neg (not_lt.2 (by rw [hb, ← hf]; exact ho2))]
      exact ⟨_, rfl⟩)
    refine ⟨⟨p, rows⟩, ?_⟩
    unfold fit
    rw [hw]
    simp only [bind, Except.bind]
    rw [prepare_places o N hg _ (hs _) p hp]
    simp only
    rw [C104_local _ N.bop o.svdRank hg hl hr, mapM_map]
    rw [← hst]
    have : (starts.mapM fun a => fresh N.bop (o.loop.localRank (window n wl o.sharpness x time a)) o.loop.basis
        o.loop.initAlpha (window n wl o.sharpness x time a)) = .ok outs := houts
    simp only [this, hrows]

theorem mapM_error {α β : Type} (f : α → Except PyErr β) (e : PyErr) : ∀ (l : List α),
    (∀ a ∈ l, f a = .error e ∨ ∃ b, f a = .ok b) → (∃ a ∈ l, f a = .error e) → l.mapM f = .error e := by
  intro l
  induction l with
  | nil => rintro - ⟨a, ha, -⟩; simp at ha
  | cons c l ih =>
    rintro h ⟨a, ha, hf⟩
    rw [mapM_cons']
    rcases h c List.mem_cons_self with hc | ⟨b, hb⟩
    · rw [hc]
    · rw [hb]
      rcases List.mem_cons.1 ha with rfl | ha
      · rw [hf] at hb; simp at hb
      · rw [ih (fun a' h' => h a' (List.mem_cons_of_mem _ h')) ⟨a, ha, hf⟩]

/-- **C174** (too many modes). If the DMD succeeds on every window, but finds more modes on one of them than there are
places for, `fit` raises ValueError. -/
theorem C174_too_many (o : Opts n wl B Al) (N : Num n nT wl B Al) (step nSteps : ℤ) (w : Windows)
    (hw : fitWindows nT nT wl step nSteps = .ok w) (x : ℕ → ℕ → ℝ)
    (time : ℕ → ℝ) (hg : o.loop.globalSvd = false) (hl : o.loop.useLastFreq = false)
    (hr : o.loop.resetAlphaInit = true → o.loop.initAlpha = none) (hs : ∀ X, (N.sing X).length = min n nT) (p : ℕ)
    (hp : Places o nT p) (out : ℕ → Out)
    (hout : ∀ k < w.nSlides.toNat,
      fresh N.bop (o.loop.localRank (centred n wl o.sharpness x time (w.indices k).1.toNat)) o.loop.basis o.loop.initAlpha
        (centred n wl o.sharpness x time (w.indices k).1.toNat) = .ok (out k))
    (hmany : ∃ k < w.nSlides.toNat, p < (out k).rank) :
    fit o N step nSteps x time = .error .valueError := by
  set starts := (List.range w.nSlides.toNat).map fun k : ℕ => (w.indices k).1.toNat with hst
  obtain ⟨outs, houts⟩ := mapM_ok (fun a => fresh N.bop (o.loop.localRank (centred n wl o.sharpness x time a)) o.loop.basis
      o.loop.initAlpha (centred n wl o.sharpness x time a)) starts fun a ha => by
    obtain ⟨k, hk, rfl⟩ := List.mem_map.1 ha
    exact ⟨_, hout k (List.mem_range.1 hk)⟩
  obtain ⟨l1, g1⟩ := mapM_get _ _ _ houts
  have hrows : (starts.zip outs).mapM (fun q : ℕ × Out => row p wl x time q.1 q.2) = .error .valueError := by
    refine mapM_error _ _ _ (fun q _ => ?_) ?_
    · unfold row
      split_ifs
      · exact Or.inl rfl
      · exact Or.inr ⟨_, rfl⟩
    · obtain ⟨k, hk, hlt⟩ := hmany
      have hk' : starts[k]? = some (w.indices k).1.toNat := by simp [hst, hk]
      obtain ⟨b, hb, hf⟩ := g1 k _ hk'
      have hf' := (hout k hk).symm.trans hf
      simp only [Except.ok.injEq] at hf'
      refine ⟨((w.indices k).1.toNat, b), List.mem_of_getElem? (i := k) (by rw [List.getElem?_zip_eq_some]; exact ⟨hk', hb⟩), ?_⟩
      unfold row
      rw [if_pos (by rw [← hf']; exact hlt)]
  unfold fit
  rw [hw]
  simp only [bind, Except.bind]
  rw [prepare_places o N hg _ (hs _) p hp]
  simp only
  rw [C104_local _ N.bop o.svdRank hg hl hr, mapM_map]
  rw [← hst]
  have : (starts.mapM fun a => fresh N.bop (o.loop.localRank (window n wl o.sharpness x time a)) o.loop.basis
      o.loop.initAlpha (window n wl o.sharpness x time a)) = .ok outs := houts
  simp only [this, hrows]

/-- **C174** (errors). `fit` raises ValueError if the windows are longer than the data, and, with `global_svd=False`,
for an odd `svd_rank` where even ones are forced, and for an `svd_rank` above the number of variables. -/
theorem C174_rejects (o : Opts n wl B Al) (N : Num n nT wl B Al) (step nSteps : ℤ) (x : ℕ → ℕ → ℝ) (time : ℕ → ℝ)
    (h : nT < wl ∨ o.loop.globalSvd = false ∧ (∃ r : ℕ, Odd r ∧ o.svdRank = .int r ∧ o.forceEven = true) ∨
      o.loop.globalSvd = false ∧ ∃ r : ℕ, n < r ∧ o.svdRank = .int r) :
    fit o N step nSteps x time = .error .valueError := by
  have hw : fitWindows nT nT wl step nSteps = .error .valueError ∨
      (¬ nT < wl ∧ ∃ w, fitWindows nT nT wl step nSteps = .ok w) := by
    by_cases hlt : nT < wl
    · exact Or.inl (C45_errors nT nT wl step nSteps (Or.inl (by exact_mod_cast hlt)))
    · refine Or.inr ⟨hlt, ?_⟩
      unfold fitWindows
      rw [if_neg (by simp)]
      simp only
      rw [if_neg (by push_cast; omega)]
      split_ifs <;> exact ⟨_, rfl⟩
  unfold fit
  rcases hw with hw | ⟨hlt, w, hw⟩
  · rw [hw]; rfl
  · rw [hw]
    simp only [bind, Except.bind]
    have hp : prepare o N (fun a t => x a t) = .error .valueError := by
      rcases h with h | ⟨hg, r, hr, ho, hf⟩ | ⟨hg, r, hr, ho⟩
      · exact absurd h hlt
      · obtain ⟨k, hk⟩ := hr
        have hpos : (0 : ℝ) < (SvdRank.int (r : ℤ) : SvdRank ℝ).val := by simp [SvdRank.val]; omega
        have hodd : CostsRank.IsOdd (SvdRank.int (r : ℤ) : SvdRank ℝ) := by
          rintro ⟨j, hj⟩
          have hj' : ((r : ℤ) : ℝ) = ((2 * j : ℤ) : ℝ) := by push_cast; simpa [SvdRank.val] using hj
          have : (r : ℤ) = 2 * j := by exact_mod_cast hj'
          omega
        unfold prepare
        simp only [hg, Bool.false_eq_true, if_false, ho]
        rw [if_pos hpos, if_pos ⟨hf, by rw [ho]; exact hodd⟩]
      · have hpos : (0 : ℝ) < (SvdRank.int (r : ℤ) : SvdRank ℝ).val := by simp [SvdRank.val]; omega
        have hgt : (n : ℝ) < (SvdRank.int (r : ℤ) : SvdRank ℝ).val := by simp [SvdRank.val]; exact_mod_cast hr
        unfold prepare
        simp only [hg, Bool.false_eq_true, if_false, ho]
        rw [if_pos hpos]
        split_ifs <;> rfl
    rw [hp]

/-! ## Instances -/

/-- The fit of C171's example meets the hypotheses of `C174_local` and `C174_succeeds`, with one place. -/
example (x : ℕ → ℕ → ℝ) (time : ℕ → ℝ) : exOpts.loop.globalSvd = false ∧ exOpts.loop.useLastFreq = false ∧
    (exOpts.loop.resetAlphaInit = true → exOpts.loop.initAlpha = none) ∧ (∀ X, (exNum.sing X).length = min 1 3) ∧
    Places exOpts 3 1 ∧ ∃ F, fit exOpts exNum 1 3 x time = .ok F ∧ F.alloc = 1 := by
  have hp : Places exOpts 3 1 := Or.inr ⟨1, le_rfl, rfl, le_rfl, fun h => by simp [exOpts] at h, rfl⟩
  refine ⟨rfl, rfl, fun h => rfl, fun _ => rfl, hp, ?_⟩
  obtain ⟨w, -, -, hiff, hal⟩ := C174_succeeds (nT := 3) (by norm_num) (by norm_num) 1 le_rfl 3 (Or.inl rfl) exOpts exNum x time rfl rfl
    (fun h => rfl) (fun _ => rfl) 1 hp
  obtain ⟨F, hF⟩ := hiff.2 fun k _ => ⟨⟨1, fun _ _ => 1, fun _ => Complex.I, fun _ => 1⟩, by
    simp [fresh, Bop.new, Bop.fit, exOpts, exNum, BopNum.rankOf, BopNum.pickBasis, BopNum.pickAlpha, computeRank, SvdRank.val], le_rfl⟩
  exact ⟨F, hF, hal F hF⟩

/-- Global SVD, rank 1; a basis and a guess are known by their sizes. -/
def globalOpts : Opts 1 2 ℕ ℕ :=
  ⟨⟨true, false, false, none, none, fun _ => .int 1, fun _ => 1⟩, .int 1, none, false, none⟩

/-- The routines of the example. -/
noncomputable def globalNum : Num 1 3 2 ℕ ℕ :=
  ⟨⟨fun _ => .ok (), fun _ => [1], fun _ => 1, fun _ => 2, fun _ r => r, id, fun _ _ r => r, id, false,
    fun _ b a => .ok ⟨a, fun _ _ => b, fun _ => Complex.I, fun _ => 1⟩⟩, fun _ => [1], fun _ r => r⟩

/-- The hypotheses of `C174_global` are met by a fit with two windows that succeeds. -/
example (x : ℕ → ℕ → ℝ) (time : ℕ → ℝ) : globalOpts.loop.globalSvd = true ∧ globalOpts.svdRank = .int (1 : ℕ) ∧
    (∀ X, (globalNum.sing X).length = min 1 3) ∧ BopOk globalNum.bop ∧
    (∀ W, min 1 (min 1 3) ≤ (globalNum.bop.sing W).length) ∧ ∃ F, fit globalOpts globalNum 1 3 x time = .ok F ∧ F.rows.length = 2 := by
  refine ⟨rfl, rfl, fun _ => rfl, ⟨fun _ => ⟨rfl, le_rfl⟩, fun _ _ _ => rfl, fun _ _ _ => rfl⟩, fun _ => le_rfl, ?_⟩
  have hw' : fitWindows ((3 : ℕ) : ℤ) ((3 : ℕ) : ℤ) ((2 : ℕ) : ℤ) 1 3 = .ok ⟨3, 2, 1, 2, false⟩ := by decide
  have hp := prepare_global globalOpts globalNum rfl 1 le_rfl rfl (fun a t => x a t) rfl (by norm_num)
  have hst : (List.range (2 : ℤ).toNat).map (fun k : ℕ => ((⟨3, 2, 1, 2, false⟩ : Windows).indices k).1.toNat) = [0, 1] := by
    decide
  have hl : ∀ W W' : Win 1 2, Loop.fit (K := ℝ) ({ globalOpts.loop with basis := some 1 } : Loop (Win 1 2) ℝ ℕ ℕ Out) globalNum.bop
      (.int 1) [W, W'] =
      .ok [⟨1, fun _ _ => 1, fun _ => Complex.I, fun _ => 1⟩, ⟨1, fun _ _ => 1, fun _ => Complex.I, fun _ => 1⟩] := by
    intro W W'
    simp [Loop.fit, Loop.run, Loop.before, Loop.after, Bop.new, Bop.fit, globalOpts, globalNum, BopNum.rankOf, BopNum.pickBasis,
      BopNum.pickAlpha, computeRank, SvdRank.val]
  unfold fit
  rw [hw']
  simp only [bind, Except.bind]
  rw [hp]
  simp only [hst, List.map_cons, List.map_nil]
  have : (globalNum.basis (fun a t => x a t) (min 1 (min 1 3))) = 1 := rfl
  rw [this]
  have e : (SvdRank.int ((min 1 (min 1 3) : ℕ) : ℤ) : SvdRank ℝ) = .int 1 := rfl
  rw [e, hl]
  exact ⟨_, rfl, rfl⟩

end Verif.CostsWhole
