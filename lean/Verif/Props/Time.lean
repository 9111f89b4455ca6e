import Verif.Lemmas.Time

/-!
# Properties C08–C11: timesteps, dynamics, reconstruction
-/

namespace Verif.Time

open Verif Verif.Bitmask

/-- **C08** (timesteps), the part that holds. For `dt > 0` the timesteps are listed in steps of
exactly `dt` starting from `t0`, and they are exactly the instants `t0 + i dt` that lie strictly
before `tend + dt`; in particular every instant of the window is listed. If `tend - t0 = k dt`
there are `k + 1` of them, the last one is `tend` and none lies after `tend`. -/
theorem C08_timesteps_partial (w : Window) (hdt : 0 < w.dt) :
    ∃ l, w.timesteps = .ok l ∧
      (∀ (i : ℕ) t, l[i]? = some t → t = w.t0 + i * w.dt) ∧
      (∀ t, t ∈ l ↔ ∃ i : ℕ, t = w.t0 + i * w.dt ∧ t < w.tend + w.dt) ∧
      (∀ k : ℕ, w.tend - w.t0 = k * w.dt →
        l.length = k + 1 ∧ l.getLast? = some w.tend ∧ ∀ t ∈ l, t ≤ w.tend) := by
  have hget := fun i h => steps_getElem? w i h
  refine ⟨steps w, timesteps_ok w hdt.ne', ?_, ?_, ?_⟩
  · intro i t hi
    have := hget i (List.getElem?_eq_some_iff.mp hi).1
    rw [hi] at this
    exact Option.some.inj this
  · intro t
    rw [List.mem_iff_getElem?]
    constructor
    · rintro ⟨i, hi⟩
      have hl := (List.getElem?_eq_some_iff.mp hi).1
      have := hget i hl
      rw [hi] at this
      have ht := Option.some.inj this
      exact ⟨i, ht, ht ▸ (lt_length_steps w hdt i).mp hl⟩
    · rintro ⟨i, rfl, hlt⟩
      exact ⟨i, hget i ((lt_length_steps w hdt i).mpr hlt)⟩
  · intro k hk
    have hlen : (steps w).length = k + 1 := by
      have h1 := (lt_length_steps w hdt k).mpr (by linarith)
      have h2 : ¬ (k + 1 < (steps w).length) := by
        rw [lt_length_steps w hdt (k + 1)]; push_cast; linarith
      omega
    refine ⟨hlen, ?_, ?_⟩
    · rw [List.getLast?_eq_getElem?, hlen]
      simp only [Nat.add_sub_cancel]
      rw [hget k (by omega)]
      congr 1; linarith
    · intro t ht
      obtain ⟨i, hi⟩ := List.mem_iff_getElem?.mp ht
      have hl := (List.getElem?_eq_some_iff.mp hi).1
      have := hget i hl
      rw [hi] at this
      rw [Option.some.inj this]
      have : (i : ℚ) ≤ k := by exact_mod_cast (by omega : i ≤ k)
      nlinarith

/-- **C08**, the claim "no entry lies after `tend`" fails when `tend - t0` is not a multiple of
`dt`: for `t0 = 0`, `tend = 5/2`, `dt = 1` the timesteps are 0, 1, 2, 3 (disagreement D04). -/
theorem C08_overshoot_false :
    ∃ (w : Window) (l : List ℚ), 0 < w.dt ∧ w.t0 ≤ w.tend ∧ w.timesteps = .ok l ∧
      ∃ t ∈ l, w.tend < t := by
  refine ⟨⟨0, 5 / 2, 1⟩, [0, 1, 2, 3], by norm_num, by norm_num, by decide +kernel, 3, by simp, by norm_num⟩

/-- After `fit` on `n` snapshots there is one timestep per snapshot, `0, …, n - 1`. -/
theorem C08_after_fit (n : ℕ) :
    (fitWindow n).timesteps = .ok ((List.range n).map fun i : ℕ => (i : ℚ)) := by
  have h1 : (fitWindow n).dt ≠ 0 := by simp [fitWindow]
  rw [timesteps_ok _ h1]
  simp [steps, fitWindow]

example : ∃ l, (⟨0, 10, 1/2⟩ : Window).timesteps = .ok l ∧ l.length = 21 := by
  obtain ⟨l, h1, -, -, h4⟩ := C08_timesteps_partial ⟨0, 10, 1/2⟩ (by norm_num)
  exact ⟨l, h1, (h4 20 (by norm_num)).1⟩

/-- Which input snapshot `opt` designates among `n`: the first one for a boolean, otherwise the
one with that Python index. -/
def OptDesignates (n : ℕ) : Opt → ℕ → Prop
  | .bool _, i => i = 0
  | .int k, i => i < n ∧ (k = i ∨ k = (i : ℤ) - n)

/-- **C09** (phase reference). Let `i` be the index of the snapshot designated by `opt` among the
`n` input snapshots, taken at time `orig.t0 + i * orig.dt`. At any timestep `m` sampling
intervals later (earlier for negative `m`, provided that no eigenvalue is zero) the dynamics of
each mode are its amplitude times the `m`-th power of its eigenvalue. -/
theorem C09_dynamics (eigs amps : List ℂ) (orig dmd : Window) (opt : Opt) (n i : ℕ)
    (hdt : orig.dt ≠ 0) (hi : OptDesignates n opt i)
    (ts : List ℚ) (hts : dmd.timesteps = .ok ts) (j : ℕ) (m : ℤ)
    (_hz : 0 ≤ m ∨ ∀ e ∈ eigs, e ≠ 0)
    (hj : ts[j]? = some (orig.t0 + (i + m) * orig.dt)) :
    ∃ dyn, dynamics eigs amps orig dmd opt n = .ok dyn ∧ dyn.length = ts.length ∧
      dyn[j]? = some (List.zipWith (fun e a => e ^ m * a) eigs amps) := by
  refine ⟨ts.map fun t => dynamicsAt eigs amps (exponent orig opt n t), by
    simp [dynamics, hts, Except.map], by simp, ?_⟩
  have hexp : exponent orig opt n (orig.t0 + (i + m) * orig.dt) = ((m : ℤ) : ℚ) := by
    have h0 : (orig.t0 + ((i : ℚ) + m) * orig.dt - orig.t0) / orig.dt = i + m := by
      field_simp; ring
    unfold exponent
    rw [h0]
    cases opt with
    | bool b =>
      have : i = 0 := hi
      subst this
      simp [translate]
    | int k =>
      obtain ⟨hlt, rfl | rfl⟩ := hi
      · simp [translate]
      · have : ((i : ℤ) - n) < 0 := by omega
        simp [translate, this]
  rw [List.getElem?_map, hj]
  simp only [Option.map_some, dynamicsAt, hexp, npPow_int]

/-- **C09**, special case `m = 0`: at the time of the designated snapshot the dynamics are the
amplitudes. -/
theorem C09_reference_instant (eigs amps : List ℂ) (hl : eigs.length = amps.length)
    (orig dmd : Window) (opt : Opt) (n i : ℕ)
    (hdt : orig.dt ≠ 0) (hi : OptDesignates n opt i)
    (ts : List ℚ) (hts : dmd.timesteps = .ok ts) (j : ℕ)
    (hj : ts[j]? = some (orig.t0 + i * orig.dt)) :
    ∃ dyn, dynamics eigs amps orig dmd opt n = .ok dyn ∧ dyn[j]? = some amps := by
  obtain ⟨dyn, h1, -, h3⟩ := C09_dynamics eigs amps orig dmd opt n i hdt hi ts hts j 0
    (.inl le_rfl) (by simpa using hj)
  refine ⟨dyn, h1, ?_⟩
  rw [h3]
  congr 1
  simp only [zpow_zero, one_mul]
  clear h1 h3
  induction eigs generalizing amps with
  | nil => cases amps with
    | nil => rfl
    | cons => simp at hl
  | cons e es ih => cases amps with
    | nil => simp at hl
    | cons a as => simp [ih as (by simpa using hl)]

/-- Instance: 4 snapshots, `opt = -1` designates snapshot 3; two steps later the exponent is 2. -/
example : OptDesignates 4 (.int (-1)) 3 ∧
    ∃ dyn, dynamics [2, 3] [5, 7] (fitWindow 4) ⟨0, 6, 1⟩ (.int (-1)) 4 = .ok dyn ∧
      dyn[5]? = some [2 ^ 2 * 5, 3 ^ 2 * 7] := by
  refine ⟨by simp [OptDesignates], ?_⟩
  obtain ⟨l, h1, -, h3, -⟩ := C08_timesteps_partial ⟨0, 6, 1⟩ (by norm_num)
  have h5 : l[5]? = some 5 := by
    have hs := timesteps_ok ⟨0, 6, 1⟩ (by norm_num)
    rw [h1] at hs
    rw [Except.ok.inj hs, steps_getElem? _ 5 ((lt_length_steps _ (by norm_num) 5).mpr (by norm_num))]
    norm_num
  obtain ⟨dyn, e1, -, e3⟩ := C09_dynamics [2, 3] [5, 7] (fitWindow 4) ⟨0, 6, 1⟩ (.int (-1)) 4 3
    (by simp [fitWindow]) (by simp [OptDesignates]) l h1 5 2 (.inl (by norm_num)) (by rw [h5]; norm_num [fitWindow])
  exact ⟨dyn, e1, by rw [e3]; simp⟩

/-- **C10** (window selects instants). Let `w'` be the window `w` enlarged by `a` steps at the
beginning and `c` steps at the end. In any state reached after a fit with `n` modes by any
history of selections and edits, `reconstructed_data` over `w'` has `a + c` more columns and its
column `a + j` is column `j` of the one over `w`. Moreover column `j` is a function of the `j`-th
timestep alone, the same function for every window. -/
theorem C10_window {ι : Type} (n : ℕ) (ms : List (ι → ℂ)) (es bs : List ℂ)
    (hm : ms.length = n) (he : es.length = n) (hb : bs.length = n) (ops : List (Op (ι → ℂ) ℂ ℂ))
    (orig : Window) (opt : Opt) (nsnap : ℕ) :
    ∃ col : ℚ → ι → ℂ,
      (∀ w ts, w.timesteps = .ok ts →
        reconstructed ((afterFit ms es bs).run ops).2 orig w opt nsnap = .ok (ts.map col)) ∧
      (∀ (w : Window) (a c : ℕ), 0 < w.dt → w.t0 ≤ w.tend →
        ∃ r r', reconstructed ((afterFit ms es bs).run ops).2 orig w opt nsnap = .ok r ∧
          reconstructed ((afterFit ms es bs).run ops).2 orig
            ⟨w.t0 - a * w.dt, w.tend + c * w.dt, w.dt⟩ opt nsnap = .ok r' ∧
          r'.length = a + r.length + c ∧ ∀ j < r.length, r'[a + j]? = r[j]?) := by
  have hr := ((Rel.init ms es bs hm he hb).run ops).2
  obtain ⟨col, hc⟩ : ∃ col : ℚ → ι → ℂ, ∀ w ts, w.timesteps = .ok ts →
      reconstructed ((afterFit ms es bs).run ops).2 orig w opt nsnap = .ok (ts.map col) :=
    ⟨_, fun w ts hts => by rw [reconstructed_rel hr, hts]; rfl⟩
  refine ⟨col, hc, ?_⟩
  intro w a c hdt hle
  have h1 := timesteps_ok w hdt.ne'
  have h2 := timesteps_ok ⟨w.t0 - a * w.dt, w.tend + c * w.dt, w.dt⟩ hdt.ne'
  have hlt : ∀ i, i < (steps ⟨w.t0 - a * w.dt, w.tend + c * w.dt, w.dt⟩).length ↔
      i < a + (steps w).length + c := by
    intro i
    rw [lt_length_steps ⟨w.t0 - a * w.dt, w.tend + c * w.dt, w.dt⟩ hdt]
    simp only
    by_cases hi : i < a + c
    · constructor
      · intro; omega
      · intro _
        have : (i : ℚ) + 1 ≤ a + c := by exact_mod_cast hi
        nlinarith
    · obtain ⟨k, rfl⟩ : ∃ k, i = a + c + k := ⟨i - (a + c), by omega⟩
      have : a + c + k < a + (steps w).length + c ↔ k < (steps w).length := by omega
      rw [this, lt_length_steps w hdt]
      push_cast
      constructor <;> intro h <;> linarith
  have hlen : (steps ⟨w.t0 - a * w.dt, w.tend + c * w.dt, w.dt⟩).length =
      a + (steps w).length + c := by
    have ha := hlt (a + (steps w).length + c)
    have hb := hlt ((steps ⟨w.t0 - a * w.dt, w.tend + c * w.dt, w.dt⟩).length)
    omega
  refine ⟨_, _, hc w _ h1, hc _ _ h2, by simp [hlen], ?_⟩
  intro j hj
  rw [List.length_map] at hj
  rw [List.getElem?_map, List.getElem?_map, steps_getElem? w j hj,
    steps_getElem? _ (a + j) (by rw [hlen]; omega)]
  congr 2
  push_cast
  ring

example := C10_window (ι := Fin 2) 1 [fun _ => 1] [2] [3] rfl rfl rfl
  [.setMask (.bool1 [false])] (fitWindow 4) (.bool false) 4

/-- **C11** (additivity). In any state reached after a fit with `n` modes by any history of
selections and edits, and for any mask, the reconstruction with the mask plus the one with the
complementary mask is the reconstruction with all the modes, over any window. -/
theorem C11_additive {ι : Type} (n : ℕ) (ms : List (ι → ℂ)) (es bs : List ℂ)
    (hm : ms.length = n) (he : es.length = n) (hb : bs.length = n) (ops : List (Op (ι → ℂ) ℂ ℂ))
    (mask : List Bool) (hmask : mask.length = n)
    (orig w : Window) (hdt : w.dt ≠ 0) (opt : Opt) (nsnap : ℕ) :
    let o := ((afterFit ms es bs).run ops).2
    let withMask := fun m => reconstructed (o.setMask (.bool1 m)).2 orig w opt nsnap
    ∃ r1 r2 r, withMask mask = .ok r1 ∧ withMask (mask.map (!·)) = .ok r2 ∧
      withMask (List.replicate n true) = .ok r ∧ r1.length = r.length ∧ r2.length = r.length ∧
      ∀ (j : ℕ) x1 x2, r1[j]? = some x1 → r2[j]? = some x2 → r[j]? = some (x1 + x2) := by
  intro o withMask
  have hr := ((Rel.init ms es bs hm he hb).run ops).2
  obtain ⟨ms', es', bs', v, -, -, h1, h2, h3, l0, -, -, -, hs⟩ := hr.ensure
  have hrec : ∀ m, m.length = n → withMask m = .ok ((steps w).map fun t =>
      dotCol (gather m ((Spec.afterFit ms es bs).run ops).2.modes)
        (dynamicsAt (gather m ((Spec.afterFit ms es bs).run ops).2.eigs)
          (gather m ((Spec.afterFit ms es bs).run ops).2.amps) (exponent orig opt nsnap t))) := by
    intro m hl
    have hst := (hr.step (.setMask (.bool1 m))).2
    have hml : ((Spec.afterFit ms es bs).run ops).2.mask.length = n := by rw [hs]; exact l0
    have hsp : (((Spec.afterFit ms es bs).run ops).2.step (.setMask (.bool1 m))).2 =
        { ((Spec.afterFit ms es bs).run ops).2 with mask := m } := by
      simp [Spec.step, hml, hl]
    rw [hsp] at hst
    have := reconstructed_rel hst orig w opt nsnap
    rw [timesteps_ok w hdt] at this
    exact this
  refine ⟨_, _, _, hrec _ hmask, hrec _ (by simp [hmask]), hrec _ (by simp), by simp, by simp, ?_⟩
  have e1 : ((Spec.afterFit ms es bs).run ops).2.modes.length = n := by
    rw [hs]; simp [length_scatter, h1]
  have e2 : ((Spec.afterFit ms es bs).run ops).2.eigs.length = n := by
    rw [hs]; simp [length_scatter, h2]
  have e3 : ((Spec.afterFit ms es bs).run ops).2.amps.length = n := by
    rw [hs]; simp [length_scatter, h3]
  intro j x1 x2 hx1 hx2
  rw [List.getElem?_map] at hx1 hx2 ⊢
  cases ht : (steps w)[j]? with
  | none => simp [ht] at hx1
  | some t =>
    simp only [ht, Option.map_some, Option.some.injEq] at hx1 hx2 ⊢
    rw [← hx1, ← hx2, dotCol_split _ mask _ _ _ (by omega) (by omega) (by omega)]
    have g : ∀ {α : Type} (xs : List α), xs.length = n → gather (List.replicate n true) xs = xs := by
      rintro α xs rfl; exact gather_true xs
    rw [g _ e1, g _ e2, g _ e3]

example := C11_additive (ι := Fin 2) 3 [fun _ => 1, fun _ => 2, fun i => i.val] [2, 3, 4] [5, 6, 7]
  rfl rfl rfl [.setMask (.bool1 [false, true, true]), .writeEig 0 8] [true, false, true] rfl
  (fitWindow 4) ⟨0, 9, 1⟩ (by norm_num) (.int 2) 4

end Verif.Time
