import Verif.Lemmas.Tuner
import Mathlib.Data.List.Perm.Basic

/-!
# Properties C32-C36, C59: the modes tuner
-/

set_option autoImplicit false

namespace Verif.Tuner

open Verif Verif.Bitmask

variable {M E A : Type}

/-! ## C32 -/

/-- **C32** (partial). After any history that leaves all modes active, `select_modes` makes
exactly the modes meeting the criterion active, leaves the modes, eigenvalues and amplitudes as
they are and reports the indexes cut. Missing: instances with inactive modes, refuted by
`C32_masked_false`. -/
theorem C32_select_partial (n : ℕ) (ms : List M) (es : List E) (bs : List A) (hm : ms.length = n)
    (he : es.length = n) (hb : bs.length = n) (ops : List (Op M E A))
    (hall : ((Spec.afterFit ms es bs).run ops).2.mask = List.replicate n true)
    (criterion : Obj M E A → Except PyErr (List Bool)) (c : List Bool) (nul : Bool)
    (hc : criterion ((afterFit ms es bs).run ops).2 = .ok c) (hl : c.length = n) :
    ∃ o' cut, selectModes ((afterFit ms es bs).run ops).2 criterion nul = (.ok cut, o') ∧
      observe o' = { ((Spec.afterFit ms es bs).run ops).2 with mask := c }.observe ∧
      ∀ i, i ∈ cut ↔ c[i]? = some false := by
  have hr := ((Rel.init ms es bs hm he hb).run ops).2
  obtain ⟨o', cut, mask, h1, h2, h3, h4, -, h5⟩ := rel_selectModes hr criterion c nul hc
  have hcount : ((Spec.afterFit ms es bs).run ops).2.mask.count true = n := by
    rw [hall]; simp
  have hcut : ∀ i, i ∈ cut ↔ c[i]? = some false := by
    intro i
    rw [h4, hcount]
    constructor
    · rintro ⟨hi, hne⟩
      rw [List.getElem?_eq_getElem (by omega)] at hne ⊢
      cases hb : c[i] <;> simp_all
    · intro hi
      have := (List.getElem?_eq_some_iff.mp hi).1
      exact ⟨by omega, by rw [hi]; simp⟩
  have hmask : mask = c := by
    apply List.ext_getElem?
    intro i
    by_cases hi : i < n
    · rw [h5 i hi, hall]
      by_cases hf : c[i]? = some false
      · rw [if_pos ((hcut i).mpr hf), hf]
      · rw [if_neg (fun h => hf ((hcut i).mp h))]
        have hci : c[i]? = some (c[i]'(by omega)) := List.getElem?_eq_getElem (by omega)
        rw [List.getElem?_replicate, if_pos hi]
        rw [hci] at hf ⊢
        cases hb : c[i]'(by omega) <;> simp_all
    · rw [List.getElem?_eq_none (by rw [h3]; omega), List.getElem?_eq_none (by rw [hl]; omega)]
  refine ⟨o', cut, h1, ?_, hcut⟩
  rw [h2.observe, hmask]

/-- **C32**, whatever the mask: a criterion that keeps every active mode changes nothing. -/
theorem C32_keep_all (n : ℕ) (ms : List M) (es : List E) (bs : List A) (hm : ms.length = n)
    (he : es.length = n) (hb : bs.length = n) (ops : List (Op M E A))
    (criterion : Obj M E A → Except PyErr (List Bool)) (k : ℕ) (nul : Bool)
    (hc : criterion ((afterFit ms es bs).run ops).2 = .ok (List.replicate k true))
    (hk : ((Spec.afterFit ms es bs).run ops).2.mask.count true ≤ k) :
    ∃ o', selectModes ((afterFit ms es bs).run ops).2 criterion nul = (.ok [], o') ∧
      observe o' = observe ((afterFit ms es bs).run ops).2 := by
  have hr := ((Rel.init ms es bs hm he hb).run ops).2
  obtain ⟨o', cut, mask, h1, h2, h3, h4, -, h5⟩ := rel_selectModes hr criterion _ nul hc
  have hcut : cut = [] := by
    rw [List.eq_nil_iff_forall_not_mem]
    intro i hi
    obtain ⟨a, b⟩ := (h4 i).mp hi
    exact b (by rw [List.getElem?_replicate, if_pos (by omega)])
  subst hcut
  have hmask : mask = ((Spec.afterFit ms es bs).run ops).2.mask := by
    apply List.ext_getElem?
    intro i
    by_cases hi : i < n
    · rw [h5 i hi]; simp
    · rw [List.getElem?_eq_none (by omega),
        List.getElem?_eq_none (by rw [hr.lengths.1]; omega)]
  subst hmask
  exact ⟨o', h1, by rw [h2.observe, hr.observe]⟩

/-- The criterion "eigenvalue at least 3" used in the instances below. -/
def atLeast3 (o : Obj ℕ ℕ ℕ) : Except PyErr (List Bool) :=
  o.getEigs.map fun p => (p.1.getD []).map fun e => decide (3 ≤ e)

example : ((selectModes (afterFit [7, 8, 9] [1, 5, 3] [4, 4, 4]) atLeast3).1,
    observe (selectModes (afterFit [7, 8, 9] [1, 5, 3] [4, 4, 4]) atLeast3).2) =
    (.ok [0], ⟨.ok [false, true, true], .ok (some [8, 9]), .ok (some [5, 3]),
      .ok (some [4, 4])⟩) := by decide

/-- **C32** fails on an instance with inactive modes: the positions of the discarded modes among
the active ones are used as positions in the whole mask. With mask `[F, T, T]` and eigenvalues
1, 2, 3, keeping eigenvalues at least 3 leaves eigenvalue 2 active. -/
theorem C32_masked_false :
    ∃ o : Obj ℕ ℕ ℕ, o = ((afterFit [7, 8, 9] [1, 2, 3] [4, 4, 4]).run
        [.setMask (.bool1 [false, true, true])]).2 ∧
      atLeast3 o = .ok [false, true] ∧
      (selectModes o atLeast3).1 = .ok [0] ∧
      (observe (selectModes o atLeast3).2).eigs = .ok (some [2, 3]) :=
  ⟨_, rfl, by decide, by decide, by decide⟩

/-! ## C59 -/

/-- **C59** fails: `nullify_amplitudes=True` is the same as `False`: modes are removed, no
amplitude is set to zero. -/
theorem C59_nullify_false :
    (∀ (o : Obj M E A) criterion, selectModes o criterion true = selectModes o criterion false) ∧
    observe (selectModes (afterFit [7, 8] [1, 5] [4, 6]) atLeast3 true).2 =
      ⟨.ok [false, true], .ok (some [8]), .ok (some [5]), .ok (some [6])⟩ :=
  ⟨fun _ _ => rfl, by decide⟩

/-! ## C33 -/

/-- The eigenvalue lies strictly inside the ring. -/
def InRing (inner outer : EReal) (e : ℂ) : Prop := inner < (‖e‖ : EReal) ∧ (‖e‖ : EReal) < outer

theorem fixable_iff (inner outer : EReal) (e : ℂ) :
    fixable inner outer e = true ↔ InRing inner outer e := by
  simp [fixable, InRing]

/-- **C33.** On an instance after any history, `stabilize_modes` (inner radius not negative)
changes exactly the active modes whose eigenvalue lies in the ring: the eigenvalue gets modulus
one and keeps its phase, the amplitude is multiplied by the former modulus. All other
eigenvalues and amplitudes, all modes and the mask stay. The changes survive reactivating all
modes; the positions of the stabilized modes among the active ones are reported. -/
theorem C33_stabilize (n : ℕ) (ms : List M) (es bs : List ℂ) (hm : ms.length = n)
    (he : es.length = n) (hb : bs.length = n) (ops : List (Op M ℂ ℂ)) (inner outer : EReal)
    (h0 : 0 ≤ inner) :
    let o := ((afterFit ms es bs).run ops).2
    let s := ((Spec.afterFit ms es bs).run ops).2
    ∃ o' idx es' bs', stabilizeModes o inner outer = (.ok idx, o') ∧
      (∀ k : ℕ, k ∈ idx ↔ ∃ i e, (activeIdx s.mask)[k]? = some i ∧ s.eigs[i]? = some e ∧
        InRing inner outer e) ∧
      observe o' = (⟨s.modes, es', bs', s.mask⟩ : Spec M ℂ ℂ).observe ∧
      observe (o'.setMask (.bool1 (List.replicate n true))).2 =
        ⟨.ok (List.replicate n true), .ok (some s.modes), .ok (some es'), .ok (some bs')⟩ ∧
      es'.length = n ∧ bs'.length = n ∧
      ∀ (i : ℕ) (e b e' b' : ℂ), s.eigs[i]? = some e → s.amps[i]? = some b →
        es'[i]? = some e' → bs'[i]? = some b' →
        (s.mask[i]? = some true ∧ InRing inner outer e →
          ‖e'‖ = 1 ∧ e = ‖e‖ * e' ∧ b' = b * ‖e‖) ∧
        (¬ (s.mask[i]? = some true ∧ InRing inner outer e) → e' = e ∧ b' = b) := by
  intro o s
  have hr : Rel n o s := ((Rel.init ms es bs hm he hb).run ops).2
  obtain ⟨o', h1, h2⟩ := rel_stabilizeModes hr inner outer
  obtain ⟨m1, m2, m3, m4⟩ := hr.lengths
  obtain ⟨o2, h3, h4⟩ := h2.setMask (List.replicate n true) (by simp)
  refine ⟨o', _, _, _, h1, ?_, h2.observe, ?_, by simp [m1, m3], by simp [m1, m3, m4], ?_⟩
  · intro k
    rw [mem_whereTrue, List.getElem?_map]
    constructor
    · intro h
      obtain ⟨e, hv, hf⟩ := Option.map_eq_some_iff.mp h
      rw [fixable_iff] at hf
      have hlt : k < (visible s.mask s.eigs).length := (List.getElem?_eq_some_iff.mp hv).1
      rw [length_visible _ _ (by omega)] at hlt
      obtain ⟨i, hi⟩ := (activeIdx_getElem?_isSome s.mask k).mpr hlt
      refine ⟨i, e, hi, ?_, hf⟩
      rw [← hv, visible_getElem? s.mask s.eigs (by omega) k, hi]
      rfl
    · rintro ⟨i, e, hi, hei, hf⟩
      rw [visible_getElem? s.mask s.eigs (by omega) k, hi]
      simp [hei, (fixable_iff _ _ _).mpr hf]
  · rw [h3]
    simp only
    rw [h4.observe]
    simp only [Spec.observe]
    rw [visible_all n _ m2, visible_all n _ (by simp [m1, m3]),
      visible_all n _ (by simp [m1, m3, m4])]
  · intro i e b e' b' hei hbi he' hb'
    have hi : i < n := by rw [← m3]; exact (List.getElem?_eq_some_iff.mp hei).1
    rw [List.getElem?_zipWith] at he' hb'
    have hmi : s.mask[i]? = some (s.mask[i]'(by omega)) := List.getElem?_eq_getElem (by omega)
    have hz : (List.zip s.amps s.eigs)[i]? = some (b, e) := by
      rw [List.getElem?_zip_eq_some]; exact ⟨hbi, hei⟩
    rw [hmi, hei] at he'
    rw [hmi, hz] at hb'
    simp only [Option.some.injEq] at he' hb'
    rw [hmi]
    cases hmask : s.mask[i]'(by omega) with
    | false => simp_all
    | true =>
      rw [hmask] at he' hb'
      simp only [if_true] at he' hb'
      constructor
      · rintro ⟨-, hin⟩
        rw [if_pos ((fixable_iff _ _ _).mpr hin)] at he' hb'
        have hpos : 0 < ‖e‖ := by
          have : (0 : EReal) < (‖e‖ : EReal) := lt_of_le_of_lt h0 hin.1
          exact_mod_cast this
        have hne : (‖e‖ : ℂ) ≠ 0 := by exact_mod_cast hpos.ne'
        refine ⟨?_, ?_, hb'.symm⟩
        · rw [← he', norm_div, Complex.norm_real, norm_norm, div_self hpos.ne']
        · rw [← he']; field_simp
      · intro hnot
        have : ¬ fixable inner outer e = true := fun h =>
          hnot ⟨rfl, (fixable_iff _ _ _).mp h⟩
        rw [if_neg this] at he' hb'
        exact ⟨he'.symm, hb'.symm⟩

/-- **C33** (idempotence). A second `stabilize_modes` with the same ring changes nothing the user
can read. -/
theorem C33_idempotent (n : ℕ) (ms : List M) (es bs : List ℂ) (hm : ms.length = n)
    (he : es.length = n) (hb : bs.length = n) (ops : List (Op M ℂ ℂ)) (inner outer : EReal)
    (h0 : 0 ≤ inner) :
    let o := ((afterFit ms es bs).run ops).2
    let o' := (stabilizeModes o inner outer).2
    observe (stabilizeModes o' inner outer).2 = observe o' := by
  intro o o'
  have hr : Rel n o _ := ((Rel.init ms es bs hm he hb).run ops).2
  generalize ((Spec.afterFit ms es bs).run ops).2 = s at hr
  obtain ⟨o1, h1, h2⟩ := rel_stabilizeModes hr inner outer
  obtain ⟨o2, h3, h4⟩ := rel_stabilizeModes h2 inner outer
  have ho1 : o' = o1 := by simp only [o', h1]
  rw [ho1, h3]
  simp only
  rw [h4.observe, h2.observe]
  have key : ∀ e : ℂ, (if fixable inner outer (if fixable inner outer e then e / (‖e‖ : ℂ) else e)
      then (if fixable inner outer e then e / (‖e‖ : ℂ) else e) /
        (‖(if fixable inner outer e then e / (‖e‖ : ℂ) else e)‖ : ℂ)
      else (if fixable inner outer e then e / (‖e‖ : ℂ) else e)) =
      (if fixable inner outer e then e / (‖e‖ : ℂ) else e) ∧
      (fixable inner outer e = true → ‖e / (‖e‖ : ℂ)‖ = 1) := by
    intro e
    by_cases h : fixable inner outer e = true
    · have hpos : 0 < ‖e‖ := by
        have : (0 : EReal) < (‖e‖ : EReal) :=
          lt_of_le_of_lt h0 ((fixable_iff _ _ _).mp h).1
        exact_mod_cast this
      have hn : ‖e / (‖e‖ : ℂ)‖ = 1 := by
        rw [norm_div, Complex.norm_real, norm_norm, div_self hpos.ne']
      refine ⟨?_, fun _ => hn⟩
      simp only [if_pos h]
      rw [hn]
      split_ifs <;> simp
    · exact ⟨by simp only [if_neg h], fun h' => absurd h' h⟩
  congr 2
  · apply List.ext_getElem?
    intro i
    simp only [List.getElem?_zipWith]
    rcases hmi : s.mask[i]? with _ | b
    · simp
    · rcases hei : s.eigs[i]? with _ | e
      · simp
      · cases b with
        | false => simp
        | true => simpa using (key e).1
  · apply List.ext_getElem?
    intro i
    simp only [List.getElem?_zipWith]
    rcases hmi : s.mask[i]? with _ | b
    · simp
    · rcases hei : s.eigs[i]? with _ | e
      · have h1 : (List.zip s.amps s.eigs)[i]? = none := by
          rw [List.getElem?_eq_none_iff]
          have := List.getElem?_eq_none_iff.mp hei
          simp; omega
        simp [List.zip, List.getElem?_zipWith, hmi, hei]
      · rcases hai : s.amps[i]? with _ | a
        · simp [List.zip, List.getElem?_zipWith, hmi, hei, hai]
        · cases b with
          | false => simp [List.zip, List.getElem?_zipWith, hmi, hei, hai]
          | true =>
            by_cases hf : fixable inner outer e = true
            · have hn := (key e).2 hf
              simp only [List.zip, List.getElem?_zipWith, hmi, hei, hai, if_pos hf, if_true, hn]
              split_ifs <;> simp
            · simp [List.zip, List.getElem?_zipWith, hmi, hei, hai, hf]

/-- The contribution of a stabilized mode one step after the reference instant is unchanged. -/
theorem C33_first_step (e b : ℂ) (he : e ≠ 0) : (b * ‖e‖) * (e / ‖e‖) = b * e := by
  have : (‖e‖ : ℂ) ≠ 0 := by exact_mod_cast norm_ne_zero_iff.mpr he
  field_simp

example : InRing 1 ⊤ (3 + 4 * Complex.I) := by
  have : ‖(3 + 4 * Complex.I : ℂ)‖ = 5 := by
    rw [Complex.norm_eq_sqrt_sq_add_sq]
    simp
    rw [show (3 : ℝ) ^ 2 + 4 ^ 2 = 5 ^ 2 by norm_num, Real.sqrt_sq (by norm_num)]
  rw [InRing, this]
  exact ⟨by exact_mod_cast (by norm_num : (1 : ℝ) < 5), EReal.coe_lt_top 5⟩

/-! ## C34 -/

/-- **C34** (threshold; partial). An eigenvalue is kept exactly if its modulus lies between the
thresholds, as long as it does not equal one of them. Missing: equality, refuted below. -/
theorem C34_threshold_partial (low up : EReal) (eigs : List ℂ) (k : ℕ) (e : ℂ)
    (hk : eigs[k]? = some e) (h1 : (‖e‖ : EReal) ≠ low) (h2 : (‖e‖ : EReal) ≠ up) :
    (threshold low up eigs).length = eigs.length ∧
    ((threshold low up eigs)[k]? = some true ↔ low ≤ ‖e‖ ∧ (‖e‖ : EReal) ≤ up) := by
  refine ⟨by simp [threshold], ?_⟩
  simp only [threshold, List.getElem?_map, hk, Option.map_some, Option.some.injEq,
    Bool.and_eq_true, decide_eq_true_iff]
  constructor
  · rintro ⟨a, b⟩; exact ⟨b.le, a.le⟩
  · rintro ⟨a, b⟩; exact ⟨lt_of_le_of_ne b h2, lt_of_le_of_ne a h1.symm⟩

/-- **C34** fails at the thresholds, which are documented as inclusive: with thresholds 1/2 and 1
the eigenvalue 1 is dropped. -/
theorem C34_inclusive_false : threshold ((1 / 2 : ℝ) : EReal) 1 [1] = [false] := by
  simp [threshold]

/-- **C34** (`stable_modes`; partial). With one distance for both sides, or with separate ones,
an eigenvalue whose distance from the unit circle is not exactly the allowed one is kept exactly
if it is at most that distance inside, or outside, of the circle. -/
theorem C34_stable_partial (inside outside : ℝ) (eigs : List ℂ) (k : ℕ) (e : ℂ)
    (hk : eigs[k]? = some e) (h0 : 0 ≤ inside) (h0' : 0 ≤ outside)
    (h1 : 1 - ‖e‖ ≠ inside) (h2 : ‖e‖ - 1 ≠ outside) :
    (∀ d : ℝ, d ≠ 0 → stableModesArgs (some d) none none = .ok (d, d)) ∧
    stableModesArgs none (some inside) (some outside) = .ok (inside, outside) ∧
    stableModesArgs none (some inside) none = .ok (inside, ⊤) ∧
    stableModesArgs none none (some outside) = .ok (⊤, outside) ∧
    ((stableModesSel inside outside eigs)[k]? = some true ↔
      (‖e‖ ≤ 1 → 1 - ‖e‖ ≤ inside) ∧ (1 ≤ ‖e‖ → ‖e‖ - 1 ≤ outside)) ∧
    ((stableModesSel inside ⊤ eigs)[k]? = some true ↔ (‖e‖ ≤ 1 → 1 - ‖e‖ ≤ inside)) ∧
    ((stableModesSel ⊤ outside eigs)[k]? = some true ↔ (1 ≤ ‖e‖ → ‖e‖ - 1 ≤ outside)) := by
  have c1 : ((1 : EReal) - (inside : EReal)) = ((1 - inside : ℝ) : EReal) := by
    rw [EReal.coe_sub, EReal.coe_one]
  have c2 : ((1 : EReal) + (outside : EReal)) = ((1 + outside : ℝ) : EReal) := by
    rw [EReal.coe_add, EReal.coe_one]
  have c3 : ((1 : EReal) - ⊤) = ⊥ := rfl
  have c4 : ((1 : EReal) + ⊤) = ⊤ := rfl
  have n1 : (inside : EReal) ≠ ⊤ := EReal.coe_ne_top _
  have n2 : (outside : EReal) ≠ ⊤ := EReal.coe_ne_top _
  refine ⟨?_, ?_, ?_, ?_, ?_, ?_, ?_⟩
  · intro d hd
    have : (d : EReal) ≠ 0 := by exact_mod_cast hd
    simp [stableModesArgs, truthy, this]
  · simp [stableModesArgs, truthy]
  · simp [stableModesArgs, truthy]
  · simp [stableModesArgs, truthy]
  · simp only [stableModesSel, threshold, List.getElem?_map, hk, Option.map_some,
      Option.some.injEq, Bool.and_eq_true, decide_eq_true_iff, c1, c2, gt_iff_lt,
      EReal.coe_lt_coe_iff]
    constructor
    · rintro ⟨a, b⟩; exact ⟨fun _ => by linarith, fun _ => by linarith⟩
    · rintro ⟨a, b⟩
      constructor
      · rcases le_total 1 ‖e‖ with h | h
        · have := lt_of_le_of_ne (b h) h2; linarith
        · rcases lt_or_eq_of_le h0' with h' | h'
          · linarith
          · rcases lt_or_eq_of_le h with h'' | h''
            · linarith
            · exact absurd (by rw [h'', ← h']; ring) h2
      · rcases le_total ‖e‖ 1 with h | h
        · have := lt_of_le_of_ne (a h) h1; linarith
        · rcases lt_or_eq_of_le h0 with h' | h'
          · linarith
          · rcases lt_or_eq_of_le h with h'' | h''
            · linarith
            · exact absurd (by rw [← h'', ← h']; ring) h1
  · simp only [stableModesSel, threshold, List.getElem?_map, hk, Option.map_some,
      Option.some.injEq, Bool.and_eq_true, decide_eq_true_iff, c1, c4, gt_iff_lt,
      EReal.coe_lt_coe_iff, EReal.coe_lt_top, true_and]
    constructor
    · intro a _; linarith
    · intro a
      rcases le_total ‖e‖ 1 with h | h
      · have := lt_of_le_of_ne (a h) h1; linarith
      · rcases lt_or_eq_of_le h0 with h' | h'
        · linarith
        · rcases lt_or_eq_of_le h with h'' | h''
          · linarith
          · exact absurd (by rw [← h'', ← h']; ring) h1
  · simp only [stableModesSel, threshold, List.getElem?_map, hk, Option.map_some,
      Option.some.injEq, Bool.and_eq_true, decide_eq_true_iff, c2, c3, gt_iff_lt,
      EReal.coe_lt_coe_iff, EReal.bot_lt_coe, and_true]
    constructor
    · intro a _; linarith
    · intro b
      rcases le_total 1 ‖e‖ with h | h
      · have := lt_of_le_of_ne (b h) h2; linarith
      · rcases lt_or_eq_of_le h0' with h' | h'
        · linarith
        · rcases lt_or_eq_of_le h with h'' | h''
          · linarith
          · exact absurd (by rw [h'', ← h']; ring) h2

/-- **C34** (errors). A common distance together with a separate one, and no distance at all, are
rejected with `ValueError` (for nonzero distances). -/
theorem C34_stable_errors (d : EReal) (hd : d ≠ 0) (x : EReal) (hx : x ≠ 0) (y : Option EReal) :
    stableModesArgs (some d) (some x) y = .error .valueError ∧
    stableModesArgs (some d) y (some x) = .error .valueError ∧
    stableModesArgs none none none = .error .valueError := by
  refine ⟨by simp [stableModesArgs, truthy, hd, hx], ?_, by simp [stableModesArgs, truthy]⟩
  cases y with
  | none => simp [stableModesArgs, truthy, hd, hx]
  | some y => simp [stableModesArgs, truthy, hd, hx]

/-- **C34** fails for a common distance 0: it counts as not given, so alone it raises, and
together with a separate distance it is ignored instead of rejected. -/
theorem C34_zero_distance_false :
    stableModesArgs (some 0) none none = .error .valueError ∧
    stableModesArgs (some 0) (some 1) none = .ok (1, ⊤) := by
  have : (1 : EReal) ≠ ⊤ := by simpa using EReal.coe_ne_top 1
  simp [stableModesArgs, truthy, this]

/-! ## C35 -/

variable {ι : Type} [Fintype ι]

/-- The integral contribution of a mode over the given instants: squared norm of the mode times
the sum of the moduli of its dynamics. -/
noncomputable def contribution (orig : Time.Window) (opt : Time.Opt) (nsnap : ℕ) (ts : List ℚ)
    (mode : ι → ℂ) (eig amp : ℂ) : ℝ :=
  (∑ x, ‖mode x‖ ^ 2) *
    (ts.map fun t => ‖Time.npPow eig (Time.exponent orig opt nsnap t) * amp‖).sum

/-- **C35** (partial). For `n ≥ 1`: exactly `n` modes (or all, if there are fewer) are kept, every
kept mode has at least the integral contribution, over the *training* window, of every dropped
mode, and `dmd_time` is as before. Missing: `n = 0`, refuted below. -/
theorem C35_strongest_partial (argsort : List ℝ → List ℕ)
    (hperm : ∀ l, (argsort l).Perm (List.range l.length))
    (hsort : ∀ l, (argsort l).Pairwise fun i j => l.getD i 0 ≤ l.getD j 0)
    (ms : List (ι → ℂ)) (es bs : List ℂ) (he : es.length = ms.length) (hb : bs.length = ms.length)
    (orig dmd : Time.Window) (ts : List ℚ) (hts : orig.timesteps = .ok ts) (opt : Time.Opt)
    (nsnap n : ℕ) (hn : 1 ≤ n) :
    ∃ sel, integralSel argsort ms es bs orig dmd opt nsnap n = (.ok sel, dmd) ∧
      sel.length = ms.length ∧ sel.count true = min n ms.length ∧
      ∀ (i j : ℕ) mi mj ei ej bi bj, sel[i]? = some true → sel[j]? = some false →
        ms[i]? = some mi → es[i]? = some ei → bs[i]? = some bi →
        ms[j]? = some mj → es[j]? = some ej → bs[j]? = some bj →
        contribution orig opt nsnap ts mj ej bj ≤ contribution orig opt nsnap ts mi ei bi := by
  have hcontr : ∃ C : List ℝ, (ms.mapIdx fun k m => integralContribution m
      ((ts.map fun t => Time.dynamicsAt es bs (Time.exponent orig opt nsnap t)).map
        fun c => c.getD k 0)) = C := ⟨_, rfl⟩
  obtain ⟨C, hC⟩ := hcontr
  have hClen : C.length = ms.length := by rw [← hC]; simp
  have hCget : ∀ (i : ℕ) m e b, ms[i]? = some m → es[i]? = some e → bs[i]? = some b →
      C.getD i 0 = contribution orig opt nsnap ts m e b := by
    intro i m e b h1 h2 h3
    have : C[i]? = some (contribution orig opt nsnap ts m e b) := by
      rw [← hC, List.getElem?_mapIdx, h1]
      simp only [Option.map_some, Option.some.injEq, integralContribution, contribution]
      rw [Real.sq_sqrt (Finset.sum_nonneg fun x _ => by positivity), List.map_map, List.map_map]
      congr 3
      funext t
      simp [Time.dynamicsAt, List.getD, List.getElem?_zipWith, h2, h3]
    simp [List.getD, this]
  obtain ⟨first, hfirst⟩ : ∃ f, lastN (argsort C) n = f := ⟨_, rfl⟩
  have hlast : first = (argsort C).drop ((argsort C).length - n) := by
    rw [← hfirst, lastN, if_pos (by omega)]
    simp
  have hlen : (argsort C).length = ms.length := by
    rw [(hperm C).length_eq, List.length_range, hClen]
  have hnodup : (argsort C).Nodup := (hperm C).nodup_iff.mpr List.nodup_range
  have hfn : first.Nodup := by rw [hlast]; exact hnodup.sublist (List.drop_sublist _ _)
  have hflt : ∀ i ∈ first, i < ms.length := by
    intro i hi
    rw [hlast] at hi
    have := (hperm C).mem_iff.mp (List.mem_of_mem_drop hi)
    rw [← hClen]
    exact List.mem_range.mp this
  refine ⟨first.foldl (fun m i => m.set i true) (List.replicate ms.length false), ?_, ?_, ?_, ?_⟩
  · simp only [integralSel, Time.dynamics, hts, Except.map]
    rw [hC, hfirst]
  · rw [length_foldl_set, List.length_replicate]
  · rw [← length_activeIdx]
    have : (activeIdx (first.foldl (fun m i => m.set i true)
        (List.replicate ms.length false))).Perm first := by
      rw [List.perm_ext_iff_of_nodup (by
        unfold activeIdx; exact List.Nodup.filter _ List.nodup_range) hfn]
      intro i
      simp only [activeIdx, List.mem_filter, List.mem_range, decide_eq_true_iff,
        length_foldl_set, List.length_replicate, getElem?_foldl_set]
      constructor
      · rintro ⟨h1, h2⟩
        by_contra hni
        simp [hni, List.getElem?_replicate, h1] at h2
      · intro hi
        exact ⟨hflt i hi, by simp [hi, hflt i hi]⟩
    rw [this.length_eq, hlast, List.length_drop, hlen]
    omega
  · intro i j mi mj ei ej bi bj hi hj h1 h2 h3 h4 h5 h6
    rw [← hCget i mi ei bi h1 h2 h3, ← hCget j mj ej bj h4 h5 h6]
    rw [getElem?_foldl_set] at hi hj
    have himem : i ∈ first := by
      by_contra hni
      have : ¬ (i ∈ first ∧ i < (List.replicate ms.length false).length) := fun h => hni h.1
      rw [if_neg this, List.getElem?_replicate] at hi
      split_ifs at hi <;> simp at hi
    have hjlt : j < ms.length := (List.getElem?_eq_some_iff.mp h4).1
    have hjnot : j ∉ first := by
      intro hjm
      rw [if_pos ⟨hjm, by simpa using hjlt⟩] at hj
      simp at hj
    have hjmem : j ∈ (argsort C).take ((argsort C).length - n) := by
      have hjall : j ∈ argsort C := (hperm C).mem_iff.mpr (List.mem_range.mpr (by omega))
      rw [← List.take_append_drop ((argsort C).length - n) (argsort C)] at hjall
      rcases List.mem_append.mp hjall with h | h
      · exact h
      · rw [← hlast] at h; exact absurd h hjnot
    have hs := hsort C
    rw [← List.take_append_drop ((argsort C).length - n) (argsort C), List.pairwise_append] at hs
    exact hs.2.2 j hjmem i (by rw [← hlast]; exact himem)

/-- **C35** fails for `n = 0`: all the modes are kept (`argsort()[-0:]` is everything). -/
theorem C35_zero_false :
    ∃ argsort : List ℝ → List ℕ,
      integralSel (ι := Unit) argsort [fun _ => 1, fun _ => 2] [1, 1] [1, 1] ⟨0, 1, 1⟩ ⟨0, 1, 1⟩
        (.bool false) 2 0 = (.ok [true, true], ⟨0, 1, 1⟩) ∧
      (∀ x y, x ≤ y → argsort [x, y] = [0, 1]) := by
  refine ⟨fun l => List.range l.length, ?_, fun x y _ => rfl⟩
  simp only [integralSel, Time.dynamics, Time.Window.timesteps, Time.arange, Except.map,
    one_ne_zero, if_false, lastN]
  simp [List.range_succ]

/-! ## C36 -/

variable {D : Type}

/-- The references passed to a constructor. -/
def Arg.refs : Arg → List ℕ
  | .list rs => rs
  | .single r => [r]

theorem newTuner_refs (s : TState D) (arg : Arg) (inPlace : Bool) :
    (s.newTuner arg inPlace) = if inPlace then
        ⟨s.heap, s.tuners ++ [⟨arg.refs, arg matches .list _⟩]⟩
      else ⟨(deepcopyAll s.heap arg.refs).1,
        s.tuners ++ [⟨(deepcopyAll s.heap arg.refs).2, arg matches .list _⟩]⟩ := by
  cases arg <;> cases inPlace <;> rfl

/-- **C36** (isolation). Let the user hold some instances and use any number of tuners, made from
those instances or from tuned ones, with any sequence of operations, succeeding or not. As long
as no tuner is created with `in_place=True` on the user's own instances, these are never
changed. -/
theorem C36_isolation (heap : List D) (ops : List (TOp D))
    (h : ∀ arg, TOp.new arg true ∈ ops → ∀ r ∈ arg.refs, heap.length ≤ r) :
    ((⟨heap, []⟩ : TState D).run ops).heap.take heap.length = heap := by
  suffices H : ∀ (ops : List (TOp D)) (s : TState D),
      (∀ arg, TOp.new arg true ∈ ops → ∀ r ∈ arg.refs, heap.length ≤ r) →
      (∀ t ∈ s.tuners, ∀ r ∈ t.refs, heap.length ≤ r) → heap.length ≤ s.heap.length →
      s.heap.take heap.length = heap → (s.run ops).heap.take heap.length = heap by
    exact H ops ⟨heap, []⟩ h (by simp) le_rfl (by simp)
  intro ops
  induction ops with
  | nil => intro s _ _ _ h4; exact h4
  | cons op ops ih =>
    intro s hops hts hlen hheap
    have hdc : ∀ refs : List ℕ, heap.length ≤ (deepcopyAll s.heap refs).1.length ∧
        (deepcopyAll s.heap refs).1.take heap.length = heap ∧
        ∀ r ∈ (deepcopyAll s.heap refs).2, heap.length ≤ r := by
      intro refs
      refine ⟨by simp [deepcopyAll]; omega, ?_, ?_⟩
      · simp only [deepcopyAll]
        rw [List.take_append_of_le_length hlen, hheap]
      · intro r hr
        simp only [deepcopyAll, List.mem_map, List.mem_range] at hr
        obtain ⟨k, -, rfl⟩ := hr
        omega
    have step : (∀ t ∈ (s.step op).2.tuners, ∀ r ∈ t.refs, heap.length ≤ r) ∧
        heap.length ≤ (s.step op).2.heap.length ∧
        (s.step op).2.heap.take heap.length = heap := by
      cases op with
      | new arg inPlace =>
        simp only [TState.step]
        rw [newTuner_refs]
        cases inPlace with
        | true =>
          refine ⟨?_, hlen, hheap⟩
          intro t ht r hr
          simp only [if_true, List.mem_append, List.mem_singleton] at ht
          rcases ht with ht | rfl
          · exact hts t ht r hr
          · exact hops arg (by simp) r hr
        | false =>
          obtain ⟨d1, d2, d3⟩ := hdc arg.refs
          refine ⟨?_, d1, d2⟩
          intro t ht r hr
          simp only [Bool.false_eq_true, if_false, List.mem_append, List.mem_singleton] at ht
          rcases ht with ht | rfl
          · exact hts t ht r hr
          · exact d3 r hr
      | subset t idx =>
        simp only [TState.step]
        cases ht : s.tuners[t]? with
        | none => exact ⟨hts, hlen, hheap⟩
        | some tn =>
          simp only
          by_cases hl : tn.isList = false
          · rw [if_pos hl]; exact ⟨hts, hlen, hheap⟩
          · rw [if_neg hl]
            cases hp : pick tn.refs idx with
            | error e => exact ⟨hts, hlen, hheap⟩
            | ok rs =>
              simp only
              rw [newTuner_refs]
              refine ⟨?_, hlen, hheap⟩
              intro u hu r hr
              simp only [if_true, List.mem_append, List.mem_singleton] at hu
              rcases hu with hu | rfl
              · exact hts u hu r hr
              · exact hts tn (List.mem_of_getElem? ht) r (mem_pick _ _ _ hp r hr)
      | tune t f =>
        simp only [TState.step]
        cases ht : s.tuners[t]? with
        | none => exact ⟨hts, hlen, hheap⟩
        | some tn =>
          simp only
          refine ⟨hts, by rw [applyAll_length]; exact hlen, ?_⟩
          rw [← hheap]
          apply List.ext_getElem?
          intro i
          by_cases hi : i < (s.heap.take heap.length).length
          · have hi' : i < heap.length := by rw [hheap] at hi; exact hi
            rw [hheap, List.getElem?_take_of_lt hi', applyAll_frame]
            · have := congrArg (·[i]?) hheap
              simpa [List.getElem?_take_of_lt hi'] using this
            · intro hmem
              have := hts tn (List.mem_of_getElem? ht) i hmem
              omega
          · rw [hheap] at hi
            rw [hheap, List.getElem?_eq_none (by simp; omega), List.getElem?_eq_none (by omega)]
      | copy t =>
        simp only [TState.step]
        cases ht : s.tuners[t]? with
        | none => exact ⟨hts, hlen, hheap⟩
        | some tn =>
          obtain ⟨d1, d2, d3⟩ := hdc tn.refs
          exact ⟨hts, d1, d2⟩
    exact ih (s.step op).2 (fun arg ha => hops arg (by simp [ha])) step.1 step.2.1 step.2.2

theorem filterMap_valid (heap : List D) (rs : List ℕ) (hv : ∀ r ∈ rs, r < heap.length) :
    (rs.filterMap fun r => heap[r]?).length = rs.length ∧
    ∀ k : ℕ, (rs.filterMap fun r => heap[r]?)[k]? = (rs[k]?).bind fun r => heap[r]? := by
  induction rs with
  | nil => simp
  | cons a as ih =>
    have ha : heap[a]? = some (heap[a]'(hv a (by simp))) := List.getElem?_eq_getElem _
    obtain ⟨h1, h2⟩ := ih fun r hr => hv r (by simp [hr])
    rw [List.filterMap_cons, ha]
    refine ⟨by simp [h1], fun k => ?_⟩
    cases k with
    | zero => simp [ha]
    | succ k => simpa using h2 k

/-- **C36** (tuning). A tuner made from the list of instances `rs` works on one private instance
per item, in the same order: after tuning operations `fs` (that succeed) `get` returns a list as
long as `rs` whose `k`-th instance is the `k`-th given one with `fs` applied in turn. A further
operation on the subset `idx` of the tuner changes exactly the instances numbered in `idx`. -/
theorem C36_tuning (heap : List D) (rs : List ℕ) (hv : ∀ r ∈ rs, r < heap.length)
    (fs : List (D → Except PyErr Unit × D)) (hfs : ∀ f ∈ fs, ∀ d, (f d).1 = .ok ())
    (idx : List ℕ) (hidx : idx.Nodup) (hidx' : ∀ i ∈ idx, i < rs.length)
    (g : D → Except PyErr Unit × D) (hg : ∀ d, (g d).1 = .ok ()) :
    let s := (⟨heap, []⟩ : TState D).run (.new (.list rs) false :: fs.map (.tune 0))
    let s' := s.run [.subset 0 idx, .tune 1 g]
    ∃ refs, s.tuners = [⟨refs, true⟩] ∧ (⟨refs, true⟩ : Tuner).get = some (.list refs) ∧
      refs.length = rs.length ∧
      (∀ k r d : _, rs[k]? = some r → heap[r]? = some d →
        (s.contents ⟨refs, true⟩)[k]? = some (some (fs.foldl (fun d f => (f d).2) d)) ∧
        (s'.contents ⟨refs, true⟩)[k]? = some (some
          (if k ∈ idx then (g (fs.foldl (fun d f => (f d).2) d)).2
            else fs.foldl (fun d f => (f d).2) d))) := by
  intro s s'
  obtain ⟨c1, c2⟩ := filterMap_valid heap rs hv
  set refs := (deepcopyAll heap rs).2 with hrefs
  have hrlen : refs.length = rs.length := by simp [hrefs, deepcopyAll, c1]
  have hrget : ∀ k : ℕ, k < rs.length → refs[k]? = some (k + heap.length) := by
    intro k hk
    simp [hrefs, deepcopyAll, c1, hk]
  have hnd : refs.Nodup := by
    simp only [hrefs, deepcopyAll]
    exact List.nodup_range.map fun a b h => by simpa using h
  -- state after the tuning operations
  have key : ∀ (fs : List (D → Except PyErr Unit × D)) (s0 : TState D),
      (∀ f ∈ fs, ∀ d, (f d).1 = .ok ()) → s0.tuners = [⟨refs, true⟩] →
      s0.heap.length = heap.length + rs.length →
      (s0.run (fs.map (.tune 0))).tuners = [⟨refs, true⟩] ∧
      (s0.run (fs.map (.tune 0))).heap.length = heap.length + rs.length ∧
      ∀ k < rs.length, (s0.run (fs.map (.tune 0))).heap[k + heap.length]? =
        (s0.heap[k + heap.length]?).map fun d => fs.foldl (fun d f => (f d).2) d := by
    intro fs
    induction fs with
    | nil => intro s0 _ h2 h3; exact ⟨h2, h3, by simp [TState.run]⟩
    | cons f fs ih =>
      intro s0 h1 h2 h3
      have hvr : ∀ r ∈ refs, r < s0.heap.length := by
        intro r hr
        simp only [hrefs, deepcopyAll, List.mem_map, List.mem_range, c1] at hr
        obtain ⟨k, hk, rfl⟩ := hr
        omega
      obtain ⟨a1, a2⟩ := applyAll_ok f (h1 f (by simp)) s0.heap refs hnd hvr
      have hstep : (s0.step (.tune 0 f)).2 = ⟨(applyAll f s0.heap refs).2, [⟨refs, true⟩]⟩ := by
        simp [TState.step, h2]
      obtain ⟨i1, i2, i3⟩ := ih (s0.step (.tune 0 f)).2 (fun f' hf' => h1 f' (by simp [hf']))
        (by rw [hstep]) (by rw [hstep]; simp only; rw [applyAll_length]; exact h3)
      refine ⟨i1, i2, fun k hk => ?_⟩
      have : (s0.run ((f :: fs).map (.tune 0))) =
          ((s0.step (.tune 0 f)).2.run (fs.map (.tune 0))) := rfl
      rw [this, i3 k hk, hstep]
      simp only
      rw [a2, if_pos (List.mem_of_getElem? (hrget k hk))]
      simp [Option.map_map, Function.comp_def]
  have hs0 : (⟨heap, []⟩ : TState D).newTuner (.list rs) false =
      ⟨heap ++ rs.filterMap fun r => heap[r]?, [⟨refs, true⟩]⟩ := by
    rw [newTuner_refs]; simp [Arg.refs, hrefs, deepcopyAll]
  obtain ⟨k1, k2, k3⟩ := key fs ((⟨heap, []⟩ : TState D).newTuner (.list rs) false) hfs
    (by rw [hs0]) (by rw [hs0]; simp [c1])
  have hs : s = ((⟨heap, []⟩ : TState D).newTuner (.list rs) false).run (fs.map (.tune 0)) := rfl
  rw [← hs] at k1 k2 k3
  have hinit : ∀ k r d : _, rs[k]? = some r → heap[r]? = some d →
      s.heap[k + heap.length]? = some (fs.foldl (fun d f => (f d).2) d) := by
    intro k r d h1 h2
    have hk : k < rs.length := (List.getElem?_eq_some_iff.mp h1).1
    rw [k3 k hk, hs0]
    simp only
    rw [List.getElem?_append_right (by omega), Nat.add_sub_cancel, c2, h1]
    simp [h2]
  -- the subset
  have hpick : ∀ idx : List ℕ, (∀ i ∈ idx, i < rs.length) →
      pick refs idx = .ok (idx.map (· + heap.length)) := by
    intro idx
    induction idx with
    | nil => intro _; rfl
    | cons i is ih =>
      intro hi
      rw [pick, hrget i (hi i (by simp)), ih fun j hj => hi j (by simp [hj])]
      rfl
  have hs' : s' = ⟨(applyAll g s.heap (idx.map (· + heap.length))).2,
      [⟨refs, true⟩, ⟨idx.map (· + heap.length), true⟩]⟩ := by
    have e1 : (s.step (.subset 0 idx)).2 =
        ⟨s.heap, [⟨refs, true⟩, ⟨idx.map (· + heap.length), true⟩]⟩ := by
      simp [TState.step, k1, hpick idx hidx', TState.newTuner]
    have e2 : s' = ((s.step (.subset 0 idx)).2.step (.tune 1 g)).2 := rfl
    rw [e2, e1]
    simp [TState.step]
  obtain ⟨g1, g2⟩ := applyAll_ok g hg s.heap (idx.map (· + heap.length))
    (hidx.map fun a b h => by simpa using h) (by
      intro r hr
      obtain ⟨i, hi, rfl⟩ := List.mem_map.mp hr
      have := hidx' i hi
      omega)
  refine ⟨refs, k1, rfl, hrlen, ?_⟩
  intro k r d h1 h2
  have hk : k < rs.length := (List.getElem?_eq_some_iff.mp h1).1
  have hin := hinit k r d h1 h2
  refine ⟨by simp [TState.contents, hrget k hk, hin], ?_⟩
  have hmem : k + heap.length ∈ idx.map (· + heap.length) ↔ k ∈ idx := by simp
  simp only [TState.contents, List.getElem?_map, hrget k hk, Option.map_some, hs']
  rw [g2]
  by_cases hki : k ∈ idx
  · rw [if_pos (hmem.mpr hki), if_pos hki, hin]; rfl
  · rw [if_neg (fun h => hki (hmem.mp h)), if_neg hki, hin]

/-- **C36** (single instance). `get` of a tuner made from one instance returns one instance, a
copy; and such a tuner has no subsets. -/
theorem C36_single (heap : List D) (r : ℕ) (d : D) (hr : heap[r]? = some d) (idx : List ℕ) :
    let s := (⟨heap, []⟩ : TState D).newTuner (.single r) false
    s.tuners = [⟨[heap.length], false⟩] ∧
      (⟨[heap.length], false⟩ : Tuner).get = some (.single heap.length) ∧
      s.heap[heap.length]? = some d ∧ s.step (.subset 0 idx) = (.error .valueError, s) := by
  simp [TState.newTuner, deepcopyAll, hr, Tuner.get, TState.step]

/-- **C36** (criteria). `select` accepts the three selector names and builds the criterion from the keyword
arguments, takes a callable as it is, and rejects all other strings and values. -/
theorem C36_criteria {C : Type} (name : String) (build : Except PyErr C) (c : C) :
    ((name = "module_threshold" ∨ name = "stable_modes" ∨ name = "integral_contribution") →
      (Criteria.name name build).resolve = build) ∧
    (¬ (name = "module_threshold" ∨ name = "stable_modes" ∨ name = "integral_contribution") →
      (Criteria.name name build).resolve = .error .valueError) ∧
    (Criteria.callable c).resolve = .ok c ∧
    (Criteria.other : Criteria C).resolve = .error .valueError := by
  refine ⟨fun h => ?_, fun h => ?_, rfl, rfl⟩
  · exact if_pos (by simpa [selectorNames] using h)
  · exact if_neg (by simpa [selectorNames] using h)

/-- Instance: two of three instances given, the first of them tuned through a subset. -/
example :
    let s := (⟨[10, 20, 30], []⟩ : TState ℕ).run [.new (.list [2, 0]) false,
      .tune 0 fun d => (.ok (), d + 1), .subset 0 [0], .tune 1 fun d => (.ok (), 2 * d)]
    s.heap = [10, 20, 30, 62, 11] ∧ s.tuners = [⟨[3, 4], true⟩, ⟨[3], true⟩] := by decide

end Verif.Tuner
