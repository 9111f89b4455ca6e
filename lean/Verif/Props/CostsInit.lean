import Verif.Model.CostsInit
import Verif.Props.Refit
import Batteries.Lean.Except

/-!
# C104, C105: the starting points of the fits of COSTS
-/

set_option autoImplicit false

namespace Verif.CostsInit

open Verif Verif.Refit

/-! ## C104: which guess a window is fitted with -/

section loop

variable {D K B Al R : Type} [Field K] [LinearOrder K]

/-- What a new `BOPDMD` object with rank `r`, projection basis `b` and guess `a` finds on `w`. -/
def fresh (N : BopNum D K B Al R) (r : Rank.SvdRank K) (b : Option B) (a : Option Al) (w : D) :
    Except PyErr R :=
  match (Bop.new r b a : Bop D K B Al R).fit N w with
  | (.error e, _) => .error e
  | (.ok (), st) => match st.out with
    | some r => .ok r
    | none => .error .attributeError

/-- A fit does not depend on the result of the fit before. -/
theorem fit_forget (N : BopNum D K B Al R) (st : Bop D K B Al R) (w : D) :
    st.fit N w = (Bop.new st.rank st.basis st.alpha : Bop D K B Al R).fit N w := rfl

/-- A fit that succeeds has a result, and knows basis and guess. -/
theorem fit_ok (N : BopNum D K B Al R) (st : Bop D K B Al R) (w : D)
    (h : (st.fit N w).1 = .ok ()) :
    ∃ b a r, N.pickBasis w (N.rankOf w st.rank) st.basis = .ok b ∧
      N.pickAlpha w b (N.rankOf w st.rank) st.alpha = .ok a ∧ N.solve w b a = .ok r ∧
      st.fit N w = (.ok (), ⟨.int (N.rankOf w st.rank), some b, some a, some w, some r⟩) := by
  cases hc : N.check w with
  | error e => simp [Bop.fit, hc] at h
  | ok _ =>
    cases hb : N.pickBasis w (N.rankOf w st.rank) st.basis with
    | error e => simp [Bop.fit, hc, hb] at h
    | ok b =>
      cases ha : N.pickAlpha w b (N.rankOf w st.rank) st.alpha with
      | error e => simp [Bop.fit, hc, hb, ha] at h
      | ok a =>
        cases hs : N.solve w b a with
        | error e => simp [Bop.fit, hc, hb, ha, hs] at h
        | ok r => exact ⟨b, a, r, rfl, ha, hs, by simp [Bop.fit, hc, hb, ha, hs]⟩

theorem run_cons (o : Loop D K B Al R) (N : BopNum D K B Al R) (st : Bop D K B Al R) (w : D)
    (ws : List D) :
    o.run N st (w :: ws) =
      match fresh N (o.before w st).rank (o.before w st).basis (o.before w st).alpha w with
      | .error e => .error e
      | .ok r => match o.run N (o.after r ((o.before w st).fit N w).2) ws with
        | .error e => .error e
        | .ok rs => .ok (r :: rs) := by
  rw [Loop.run, fresh, ← fit_forget]
  rcases h : (o.before w st).fit N w with ⟨res, st'⟩
  cases res with
  | error e => rfl
  | ok u =>
    obtain ⟨b, a, r, -, -, -, h4⟩ := fit_ok N (o.before w st) w (by rw [h])
    rw [h] at h4
    simp only [Prod.mk.injEq, true_and] at h4
    subst h4
    rfl

theorem mapM_cons' {α β : Type} (f : α → Except PyErr β) (a : α) (l : List α) :
    (a :: l).mapM f = match f a with
      | .error e => .error e
      | .ok b => match l.mapM f with
        | .error e => .error e
        | .ok bs => .ok (b :: bs) := by
  rw [List.mapM_cons]
  simp only [bind, Except.bind, pure, Except.pure]
  cases f a with
  | error e => rfl
  | ok b => cases l.mapM f <;> rfl

/-- **C104** (local SVD). With `global_svd=False`, unless `use_last_freq` is set, the windows are
fitted independently of each other: each as by a new `BOPDMD` object with the rank of that window,
the given `proj_basis` and the given initial guess (with `reset_alpha_init` the first window
only). -/
theorem C104_local (o : Loop D K B Al R) (N : BopNum D K B Al R) (rank : Rank.SvdRank K)
    (hg : o.globalSvd = false) (hl : o.useLastFreq = false)
    (hr : o.resetAlphaInit = true → o.initAlpha = none) (ws : List D) :
    o.fit N rank ws = ws.mapM fun w => fresh N (o.localRank w) o.basis o.initAlpha w := by
  have gen : ∀ (ws : List D) (st : Bop D K B Al R), st.alpha = o.initAlpha →
      o.run N st ws = ws.mapM fun w => fresh N (o.localRank w) o.basis o.initAlpha w := by
    intro ws
    induction ws with
    | nil => intro st _; rfl
    | cons w ws ih =>
      intro st hst
      rw [run_cons, mapM_cons']
      have hb : o.before w st = { st with rank := o.localRank w, basis := o.basis } := by
        simp [Loop.before, hg]
      rw [hb]
      simp only [hst]
      cases fresh N (o.localRank w) o.basis o.initAlpha w with
      | error e => rfl
      | ok r =>
        simp only
        rw [ih]
        unfold Loop.after
        rw [hg, hl]
        cases hrr : o.resetAlphaInit with
        | false => rfl
        | true => simp [hr hrr]
  exact gen ws _ rfl

/-- **C104** is false for the default as documented ("the initial guess is not reset between the
windows"): with `global_svd=False` and no guess given, `reset_alpha_init` makes no difference, a new
guess is computed for every window in both cases. -/
theorem C104_reset_false (o : Loop D K B Al R) (N : BopNum D K B Al R) (rank : Rank.SvdRank K)
    (hg : o.globalSvd = false) (hl : o.useLastFreq = false) (hi : o.initAlpha = none)
    (ws : List D) :
    ({ o with resetAlphaInit := false } : Loop D K B Al R).fit N rank ws =
        ws.mapM (fun w => fresh N (o.localRank w) o.basis none w) ∧
      ({ o with resetAlphaInit := true } : Loop D K B Al R).fit N rank ws =
        ws.mapM (fun w => fresh N (o.localRank w) o.basis none w) := by
  constructor
  · have := C104_local { o with resetAlphaInit := false } N rank hg hl (fun h => hi) ws
    rw [this]
    simp only [hi]
  · have := C104_local { o with resetAlphaInit := true } N rank hg hl (fun h => hi) ws
    rw [this]
    simp only [hi]

/-- **C104** (global SVD). With `global_svd=True` all windows are fitted with one projection basis
and one guess. Without a given guess it is the one computed from the first window (not from the entire
data set, as the docstring says), for windows with at least `k` singular values. -/
theorem C104_global [IsStrictOrderedRing K] (o : Loop D K B Al R) (N : BopNum D K B Al R) (k : ℕ) (b : B)
    (hN : BopOk N) (hk : 1 ≤ k) (hg : o.globalSvd = true) (hb : o.basis = some b) (w : D)
    (ws : List D) (hw : ∀ v ∈ w :: ws, k ≤ (N.sing v).length) :
    ∃ a, (o.initAlpha = none → a = N.alpha w b k) ∧ (∀ a', o.initAlpha = some a' → a = a') ∧
      o.fit N (.int k) (w :: ws) =
        (w :: ws).mapM fun v => fresh N (.int k) (some b) (some a) v := by
  have hrank : ∀ v ∈ w :: ws, N.rankOf v (.int k) = k := by
    intro v hv
    have := (Rank.C12_rank (N.sing v) (N.rows v) (N.cols v) (hN.sing v).1 (hN.sing v).2).1 k
      (by exact_mod_cast hk)
    unfold BopNum.rankOf
    have h6 : min (k : ℤ) ((N.sing v).length : ℤ) = k :=
      min_eq_left (by exact_mod_cast hw v hv)
    rw [h6] at this
    exact_mod_cast this
  have gen : ∀ (vs : List D) (a : Al) (st : Bop D K B Al R), (∀ v ∈ vs, N.rankOf v (.int k) = k) →
      st.rank = .int k → st.basis = some b → st.alpha = some a →
      o.run N st vs = vs.mapM fun v => fresh N (.int k) (some b) (some a) v := by
    intro vs
    induction vs with
    | nil => intro a st _ _ _ _; rfl
    | cons v vs ih =>
      intro a st hv h1 h2 h3
      have hbef : o.before v st = st := by simp [Loop.before, hg]
      rw [run_cons, mapM_cons', hbef, h1, h2, h3]
      cases hf : fresh N (.int k) (some b) (some a) v with
      | error e => rfl
      | ok r =>
        simp only
        have haft : o.after r (st.fit N v).2 = (st.fit N v).2 := by simp [Loop.after, hg]
        have hok : (st.fit N v).1 = .ok () := by
          rw [fit_forget, h1, h2, h3]
          unfold fresh at hf
          rcases hh : (Bop.new (.int k) (some b) (some a) : Bop D K B Al R).fit N v with ⟨res, st'⟩
          rw [hh] at hf
          cases res with
          | error e => simp at hf
          | ok u => rfl
        obtain ⟨b', a', r', e1, e2, -, e4⟩ := fit_ok N st v hok
        rw [h1, hv v (by simp), h2] at e1
        rw [h1, hv v (by simp), h3] at e2
        have eb : b' = b := by
          unfold BopNum.pickBasis at e1
          simp only at e1
          split at e1
          · simp at e1
          · simpa using e1.symm
        have ea : a' = a := by
          unfold BopNum.pickAlpha at e2
          simp only at e2
          split at e2
          · simp at e2
          · simpa using e2.symm
        rw [haft, e4, ih a _ (fun x hx => hv x (List.mem_cons_of_mem _ hx))
          (by simp only [h1, hv v (by simp)]) (by rw [eb]) (by rw [ea])]
  cases hi : o.initAlpha with
  | some a =>
    refine ⟨a, by simp, by simp, ?_⟩
    exact gen (w :: ws) a _ hrank rfl hb hi
  | none =>
    refine ⟨N.alpha w b k, by simp, by simp, ?_⟩
    have hlen := hN.alpha w b k
    have hr := hrank w (by simp)
    have key : ((Bop.new (.int k) (some b) none : Bop D K B Al R).fit N w).1 =
          ((Bop.new (.int k) (some b) (some (N.alpha w b k)) : Bop D K B Al R).fit N w).1 ∧
        (((Bop.new (.int k) (some b) none : Bop D K B Al R).fit N w).1 = .ok () →
          (Bop.new (.int k) (some b) none : Bop D K B Al R).fit N w =
            (Bop.new (.int k) (some b) (some (N.alpha w b k)) : Bop D K B Al R).fit N w) := by
      unfold Bop.fit Bop.new BopNum.pickAlpha BopNum.pickBasis
      simp only [hr, hlen, ne_eq, not_true_eq_false, if_false]
      cases N.check w with
      | error e => simp
      | ok u =>
        by_cases hbk : N.bcols b = k
        · simp only [hbk, not_true_eq_false, if_false]
          cases N.solve w b (N.alpha w b k) <;> simp
        · simp [hbk]
    rw [← gen (w :: ws) (N.alpha w b k) (Bop.new (.int k) (some b) (some (N.alpha w b k))) hrank rfl
      rfl rfl]
    unfold Loop.fit
    rw [hb, hi]
    have hbef : ∀ st : Bop D K B Al R, o.before w st = st := by intro st; simp [Loop.before, hg]
    simp only [Loop.run, hbef]
    obtain ⟨k1, k2⟩ := key
    rcases h1 : (Bop.new (.int k) (some b) none : Bop D K B Al R).fit N w with ⟨r1, s1⟩
    rcases h2 : (Bop.new (.int k) (some b) (some (N.alpha w b k)) : Bop D K B Al R).fit N w with
      ⟨r2, s2⟩
    rw [h1, h2] at k1 k2
    simp only at k1 k2
    subst k1
    cases r1 with
    | error e => rfl
    | ok u =>
      have := k2 rfl
      simp only [Prod.mk.injEq, true_and] at this
      rw [this]

/-- **C104** is false for `use_last_freq` ("use the eigenvalues from this window to seed the next
window") with the default `global_svd=True`: neither `use_last_freq` nor `reset_alpha_init` has any
effect. -/
theorem C104_ignored_false (o : Loop D K B Al R) (N : BopNum D K B Al R) (hg : o.globalSvd = true)
    (u r : Bool) (rank : Rank.SvdRank K) (ws : List D) :
    ({ o with useLastFreq := u, resetAlphaInit := r } : Loop D K B Al R).fit N rank ws =
      o.fit N rank ws := by
  have gen : ∀ (ws : List D) (st : Bop D K B Al R),
      ({ o with useLastFreq := u, resetAlphaInit := r } : Loop D K B Al R).run N st ws =
        o.run N st ws := by
    intro ws
    induction ws with
    | nil => intro st; rfl
    | cons w ws ih =>
      intro st
      rw [run_cons, run_cons]
      have hb : ({ o with useLastFreq := u, resetAlphaInit := r } : Loop D K B Al R).before w st =
          o.before w st := rfl
      have ha : ∀ x st', ({ o with useLastFreq := u, resetAlphaInit := r } : Loop D K B Al R).after x
          st' = o.after x st' := by
        intro x st'
        simp [Loop.after, hg]
      simp only [hb, ha, ih]
  exact gen ws _

/-- **C104** (`use_last_freq` with a local SVD). The eigenvalues of a window are the guess of the
next one. -/
theorem C104_last (o : Loop D K B Al R) (N : BopNum D K B Al R) (rank : Rank.SvdRank K)
    (hg : o.globalSvd = false) (hl : o.useLastFreq = true) (ws : List D) (rs : List R)
    (h : o.fit N rank ws = .ok rs) :
    rs.length = ws.length ∧ ∀ (i : ℕ) (hi : i < ws.length) (hi' : i < rs.length),
      fresh N (o.localRank ws[i]) o.basis
        (if _ : i = 0 then o.initAlpha else some (o.eigs (rs[i - 1]'(by omega)))) ws[i] =
          .ok rs[i] := by
  have gen : ∀ (ws : List D) (st : Bop D K B Al R) (rs : List R), o.run N st ws = .ok rs →
      rs.length = ws.length ∧ ∀ (i : ℕ) (hi : i < ws.length) (hi' : i < rs.length),
        fresh N (o.localRank ws[i]) o.basis
          (if _ : i = 0 then st.alpha else some (o.eigs (rs[i - 1]'(by omega)))) ws[i] =
            .ok rs[i] := by
    intro ws
    induction ws with
    | nil =>
      intro st rs h
      simp only [Loop.run, Except.ok.injEq] at h
      subst h
      simp
    | cons w ws ih =>
      intro st rs h
      have hb : o.before w st = { st with rank := o.localRank w, basis := o.basis } := by
        simp [Loop.before, hg]
      rw [run_cons, hb] at h
      cases hf : fresh N (o.localRank w) o.basis st.alpha w with
      | error e => simp [hf] at h
      | ok r =>
        simp only [hf] at h
        cases ht : o.run N (o.after r
            (({ st with rank := o.localRank w, basis := o.basis } : Bop D K B Al R).fit N w).2) ws with
        | error e => rw [ht] at h; simp at h
        | ok tl =>
          rw [ht] at h
          simp only [Except.ok.injEq] at h
          subst h
          obtain ⟨h1, h2⟩ := ih _ tl ht
          refine ⟨by simp [h1], ?_⟩
          intro i hi hi'
          cases i with
          | zero => simpa using hf
          | succ i =>
            have h3 := h2 i (by simpa using hi) (by simpa using hi')
            have hal : (o.after r (({ st with rank := o.localRank w, basis := o.basis } :
                Bop D K B Al R).fit N w).2).alpha = some (o.eigs r) := by
              simp [Loop.after, hg, hl]
            rw [hal] at h3
            simp only [List.getElem_cons_succ, Nat.add_eq_zero_iff, one_ne_zero, and_false,
              dif_neg, not_false_iff, Nat.add_sub_cancel]
            cases i with
            | zero => simpa using h3
            | succ i => simpa using h3
  exact gen ws _ rs h

/-- **C104** is false for `use_last_freq` with a rank that is chosen per window: if the second window
has another rank than the first, `ValueError`. -/
theorem C104_last_rank_false (o : Loop D K B Al R) (N : BopNum D K B Al R) (rank : Rank.SvdRank K)
    (hg : o.globalSvd = false) (hl : o.useLastFreq = true) (hbas : o.basis = none) (w v : D)
    (ws : List D) (r : R) (hw : fresh N (o.localRank w) o.basis o.initAlpha w = .ok r)
    (hc : N.check v = .ok ()) (hne : N.alen (o.eigs r) ≠ N.rankOf v (o.localRank v)) :
    o.fit N rank (w :: v :: ws) = .error .valueError := by
  have hb : ∀ (x : D) (st : Bop D K B Al R),
      o.before x st = { st with rank := o.localRank x, basis := o.basis } := by
    intro x st; simp [Loop.before, hg]
  unfold Loop.fit
  rw [run_cons, hb]
  simp only [Bop.new] at hw ⊢
  rw [hw]
  simp only
  rw [run_cons, hb]
  have hal : ∀ st : Bop D K B Al R, (o.after r st).alpha = some (o.eigs r) := by
    intro st; simp [Loop.after, hg, hl]
  simp only [hal]
  have : fresh N (o.localRank v) o.basis (some (o.eigs r)) v = .error .valueError := by
    unfold fresh Bop.fit Bop.new
    rw [hbas]
    simp only [hc]
    cases hp : N.useProj <;> simp [BopNum.pickBasis, BopNum.pickAlpha, hp, hne]
  rw [this]

end loop

/-- The hypotheses of C104 are met: three windows with a global basis of two columns; with a local
SVD of rank 2; and, for `use_last_freq`, windows of rank 1 and 2. -/
def exLoop (g u : Bool) (b : Option (List ℚ × ℕ)) (r : List ℚ → Rank.SvdRank ℚ) :
    Loop (List ℚ) ℚ (List ℚ × ℕ) (List ℚ) (ℕ × List ℚ) :=
  ⟨g, u, false, none, b, r, fun p => List.replicate p.1 1⟩

example : (exLoop true false (some ([9, 9], 2)) fun _ => .int 2).fit (bopEx true) (.int 2)
    [[5, 4], [3, 2, 1], [7, 1]] = .ok [(2, [9, 9]), (2, [9, 9]), (2, [9, 9])] := by
  obtain ⟨a, h1, -, h⟩ := C104_global (exLoop true false (some ([9, 9], 2)) fun _ => .int 2)
    (bopEx true) 2 ([9, 9], 2) (bopEx_ok true) (by norm_num) rfl rfl [5, 4] [[3, 2, 1], [7, 1]]
    (by simp [bopEx])
  rw [show ((2 : ℕ) : ℤ) = 2 from rfl] at h
  rw [h, h1 rfl]
  decide +kernel

example : (exLoop false false none fun _ => .int 2).fit (bopEx true) (.int 2)
    [[5, 4], [3, 2, 1]] = .ok [(2, [5, 4]), (2, [3, 2, 1])] := by
  rw [C104_local _ _ _ rfl rfl (by simp [exLoop])]
  decide +kernel

example : (exLoop false true none fun w => .int w.length).fit (bopEx true) (.int 2)
    [[5], [3, 2]] = .error .valueError :=
  C104_last_rank_false _ _ _ rfl rfl rfl [5] [3, 2] [] (1, [5]) (by decide +kernel) rfl
    (by decide +kernel)

example : ∃ rs, (exLoop false true none fun _ => .int 2).fit (bopEx true) (.int 2)
    [[5, 1], [3, 2]] = .ok rs := ⟨[(2, [5, 1]), (2, [3, 2])], by decide +kernel⟩

/-! ## C105: guesses from the clustering -/

/-- The guess from `c` bands: `√` of each centroid on the imaginary axis. -/
noncomputable def freq (x : ℝ) : ℂ := (Real.sqrt x : ℂ) * Complex.I

theorem signs_length (q : ℕ) : (signs q).length = 2 * q := by
  simp [signs, mul_comm]

theorem repeat_length {α : Type} (x : List α) (q : ℕ) : (repeatEach x q).length = x.length * q := by
  induction x with
  | nil => simp [repeatEach]
  | cons a x ih =>
    simp only [repeatEach, List.flatMap_cons, List.length_append, List.length_replicate,
      List.length_cons] at ih ⊢
    rw [ih]; ring

theorem signs_succ (m : ℕ) : signs (m + 1) = 1 :: -1 :: signs m := by
  simp [signs, List.replicate_succ]

theorem signs_add (a b : ℕ) : signs (a + b) = signs a ++ signs b := by
  rw [signs, List.replicate_add, List.flatten_append]; rfl

theorem zip_signs (z : ℂ) (m : ℕ) :
    List.zipWith (· * ·) (List.replicate (2 * m) z) (signs m) =
      (List.replicate m [z, -z]).flatten := by
  induction m with
  | zero => simp [signs]
  | succ m ih =>
    rw [show 2 * (m + 1) = 2 * m + 1 + 1 by ring, List.replicate_succ, List.replicate_succ,
      signs_succ, List.replicate_succ, List.flatten_cons, ← ih]
    simp

/-- **C105** (two bands, rank divisible by 4). After clustering into two bands with centroids `x, y`,
the guess of the next fit with `initialize_artificially=True` consists of conjugate pairs, half of
them `±i√x`, half `±i√y`. -/
theorem C105_guess_partial (o : Obj) (m : ℕ) (x y : ℝ) (ha : o.artificial = true)
    (hi : o.initAlpha = none) (hr : o.rank = 4 * m) :
    (o.cluster [x, y]).build = .ok (some ((List.replicate m [freq x, -freq x]).flatten ++
      (List.replicate m [freq y, -freq y]).flatten)) := by
  have hq : o.rank / 2 = 2 * m := by omega
  have hrep : repeatEach ([x, y].map fun x => (Real.sqrt x : ℂ) * Complex.I) (2 * m) =
      List.replicate (2 * m) (freq x) ++ List.replicate (2 * m) (freq y) := by
    simp [repeatEach, freq]
  have hs : signs (2 * m) = signs m ++ signs m := by rw [two_mul, signs_add]
  have ht : times (repeatEach ([x, y].map fun x => (Real.sqrt x : ℂ) * Complex.I) (2 * m))
      (signs (2 * m)) = .ok ((List.replicate m [freq x, -freq x]).flatten ++
      (List.replicate m [freq y, -freq y]).flatten) := by
    unfold times
    rw [if_pos (by rw [repeat_length, signs_length]; simp), hrep, hs,
      List.zipWith_append (by rw [List.length_replicate, signs_length]), zip_signs, zip_signs]
  unfold Obj.build Obj.cluster
  simp only [ha, hi, if_true, List.length_cons, List.length_nil, zero_add, Nat.reduceAdd, hq, ht]

/-- Four modes, bands at the squared frequencies 1 and 9: the guess is `i, -i, 3i, -3i`. -/
example : ((Obj.new true none none 4 none).cluster [1, 9]).build =
    .ok (some [Complex.I, -Complex.I, 3 * Complex.I, -(3 * Complex.I)]) := by
  rw [C105_guess_partial _ 1 1 9 rfl rfl rfl]
  have h9 : Real.sqrt 9 = 3 := by
    rw [show (9 : ℝ) = 3 ^ 2 by norm_num]; exact Real.sqrt_sq (by norm_num)
  simp [freq, h9]

/-- **C105** is false for any other number of bands: with three or more bands (or one), and at least
as many modes as bands, `fit` raises `ValueError`. -/
theorem C105_bands_false (o : Obj) (c : List ℝ) (ha : o.artificial = true) (hi : o.initAlpha = none)
    (h1 : 1 ≤ c.length) (h2 : c.length ≠ 2) (hr : c.length ≤ o.rank) (h3 : 2 ≤ o.rank) :
    (o.cluster c).build = .error .valueError := by
  have hq : 1 ≤ o.rank / c.length := (Nat.le_div_iff_mul_le (by omega)).2 (by omega)
  have hq2 : c.length = 1 → 2 ≤ o.rank / c.length := by
    intro h; rw [h]; omega
  have hl1 := repeat_length (c.map fun x => (Real.sqrt x : ℂ) * Complex.I) (o.rank / c.length)
  rw [List.length_map] at hl1
  have hl2 := signs_length (o.rank / c.length)
  have ht : times (repeatEach (c.map fun x => (Real.sqrt x : ℂ) * Complex.I) (o.rank / c.length))
      (signs (o.rank / c.length)) = .error .valueError := by
    generalize repeatEach (c.map fun x => (Real.sqrt x : ℂ) * Complex.I) (o.rank / c.length) = X at *
    generalize signs (o.rank / c.length) = Y at *
    generalize o.rank / c.length = q at *
    have hX : X.length ≠ 1 := by
      rw [hl1]
      intro h
      have := Nat.eq_one_of_mul_eq_one_right h
      have h' := Nat.eq_one_of_mul_eq_one_left h
      have := hq2 (by omega)
      omega
    have hne : X.length ≠ Y.length := by
      rw [hl1, hl2]
      intro h
      exact h2 (Nat.eq_of_mul_eq_mul_right (by omega) h)
    unfold times
    rw [if_neg hne]
    match X, Y, hX, hl2 with
    | [a], _, hX, _ => simp at hX
    | _, [b], _, hl2 => simp at hl2; omega
    | [], [], _, _ => rfl
    | [], _ :: _ :: _, _, _ => rfl
    | _ :: _ :: _, [], _, _ => rfl
    | _ :: _ :: _, _ :: _ :: _, _, _ => rfl
  unfold Obj.build Obj.cluster
  simp only [ha, hi, if_true, ht]

/-- Its hypotheses are met: three bands, six modes. -/
example : ((Obj.new true none none 6 none).cluster [1, 4, 9]).build = .error .valueError :=
  C105_bands_false _ _ rfl rfl (by simp) (by simp) (by simp [Obj.new]) (by simp [Obj.new])

/-- **C105** is false for two modes and two bands: the guess is `i√x, -i√y`, no conjugate pair unless
the bands coincide. -/
theorem C105_pairs_false (o : Obj) (x y : ℝ) (ha : o.artificial = true) (hi : o.initAlpha = none)
    (hr : o.rank = 2) (hx : 0 ≤ x) (hy : 0 ≤ y) (hne : x ≠ y) :
    (o.cluster [x, y]).build = .ok (some [freq x, -freq y]) ∧
      (starRingEnd ℂ) (freq x) ∉ [freq x, -freq y] ∨
    (o.cluster [x, y]).build = .ok (some [freq x, -freq y]) ∧
      (starRingEnd ℂ) (-freq y) ∉ [freq x, -freq y] := by
  have hb : (o.cluster [x, y]).build = .ok (some [freq x, -freq y]) := by
    have ht : times (repeatEach ([x, y].map fun x => (Real.sqrt x : ℂ) * Complex.I) 1) (signs 1) =
        .ok [freq x, -freq y] := by
      simp [times, repeatEach, signs, freq]
    unfold Obj.build Obj.cluster
    simp only [ha, hi, if_true, List.length_cons, List.length_nil, zero_add, Nat.reduceAdd, hr,
      Nat.reduceDiv, ht]
  have hconj : ∀ z : ℝ, (starRingEnd ℂ) (freq z) = -freq z := by
    intro z; simp [freq]
  have hinj : freq x ≠ freq y := by
    intro h
    have := congrArg Complex.im h
    simp only [freq, Complex.mul_I_im, Complex.ofReal_re] at this
    exact hne ((Real.sqrt_inj hx hy).1 this)
  by_cases h0 : x = 0
  · right
    refine ⟨hb, ?_⟩
    rw [map_neg, hconj, neg_neg]
    have hy0 : freq y ≠ 0 := by
      intro h
      refine hinj ?_
      rw [h, h0]; simp [freq]
    simp only [List.mem_cons, List.not_mem_nil, or_false, not_or]
    exact ⟨fun h => hinj h.symm, fun h => hy0 (self_eq_neg.1 h)⟩
  · left
    refine ⟨hb, ?_⟩
    rw [hconj]
    have hx0 : freq x ≠ 0 := by
      intro h
      have := congrArg Complex.im h
      simp only [freq, Complex.mul_I_im, Complex.ofReal_re, Complex.zero_im] at this
      exact h0 ((Real.sqrt_eq_zero hx).1 this)
    simp only [List.mem_cons, List.not_mem_nil, or_false, not_or, neg_inj]
    exact ⟨fun h => hx0 (neg_eq_self.1 h), hinj⟩

/-- **C105** is false for the argument `cluster_centroids` of the constructor: it is ignored. With
`initialize_artificially=True` and any centroids, the fit has no guess. -/
theorem C105_argument_false (c : List ℝ) (rank : ℕ) (n : Option ℕ) :
    (Obj.new true none (some c) rank n).build = .ok none := rfl

/-- **C105** is false for an `init_alpha` without `initialize_artificially`: it is ignored and lost. -/
theorem C105_alpha_false (a : List ℂ) (c : Option (List ℝ)) (rank : ℕ) (n : Option ℕ) :
    ∃ o, (Obj.new false (some a) c rank n).fit = .ok o ∧ o.initAlpha = none :=
  ⟨_, rfl, rfl⟩

/-- **C105** is false for repeated clustering: the guess of a fit is kept, so later clusterings have
no effect on the guesses of later fits. -/
theorem C105_stale_false (o o' : Obj) (c c' : List ℝ) (ha : o.artificial = true)
    (h : (o.cluster c).fit = .ok o') (hn : o'.initAlpha ≠ none) :
    (o'.cluster c').build = (o.cluster c).build := by
  unfold Obj.fit at h
  cases hb : (o.cluster c).build with
  | error e => rw [hb] at h; simp at h
  | ok a =>
    rw [hb] at h
    simp only [Except.ok.injEq] at h
    subst h
    simp only at hn
    obtain ⟨a', rfl⟩ := Option.ne_none_iff_exists'.1 hn
    unfold Obj.build Obj.cluster
    simp [ha]

/-- Its hypotheses are met, with different clusters. -/
example : ∃ o', ((Obj.new true none none 4 none).cluster [1, 9]).fit = .ok o' ∧ o'.initAlpha ≠ none ∧
    (o'.cluster [4, 16]).build = ((Obj.new true none none 4 none).cluster [1, 9]).build ∧
    ((Obj.new true none none 4 none).cluster [4, 16]).build ≠
      ((Obj.new true none none 4 none).cluster [1, 9]).build := by
  have h := C105_guess_partial (Obj.new true none none 4 none) 1 1 9 rfl rfl rfl
  have h' := C105_guess_partial (Obj.new true none none 4 none) 1 4 16 rfl rfl rfl
  refine ⟨_, by rw [Obj.fit, h], by simp, ?_, ?_⟩
  · rw [h]; rfl
  · rw [h, h']
    intro e
    have h4 : Real.sqrt 4 = 2 := by
      rw [show (4 : ℝ) = 2 ^ 2 by norm_num]; exact Real.sqrt_sq (by norm_num)
    simp only [freq, h4, Real.sqrt_one] at e
    have e1 := congrArg (fun x : Except PyErr (Option (List ℂ)) =>
      match x with | .ok (some (z :: _)) => z.im | _ => 0) e
    simp at e1

end Verif.CostsInit
