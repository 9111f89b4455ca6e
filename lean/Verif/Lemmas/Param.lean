import Verif.Model.Param
import Mathlib.Tactic.Ring

/-!
# Lemmas on parametric DMD
-/

set_option autoImplicit false

namespace Verif.Param

open Verif

variable {K D W V : Type}

theorem index_div {p t n : ℕ} (ht : t < n) : (p * n + t) / n = p ∧ (p * n + t) % n = t := by
  have hn : 0 < n := by omega
  constructor
  · rw [Nat.add_comm, Nat.add_mul_div_right _ _ hn, Nat.div_eq_of_lt ht, Nat.zero_add]
  · rw [Nat.add_comm, Nat.add_mul_mod_self_right, Nat.mod_eq_of_lt ht]

theorem index_lt {p i k n : ℕ} (hp : p < k) (hi : i < n) : p * n + i < k * n := by
  calc p * n + i < p * n + n := by omega
    _ = (p + 1) * n := by rw [Nat.add_mul, Nat.one_mul]
    _ ≤ k * n := Nat.mul_le_mul_right n hp

/-- `vstack` of blocks of one shape. -/
theorem vstack_blocks (r n : ℕ) : ∀ (Ms : List (T2 K)), Ms ≠ [] →
    (∀ M ∈ Ms, M.rows = r ∧ M.cols = n) →
    ∃ C, vstack Ms = .ok C ∧ C.rows = Ms.length * r ∧ C.cols = n ∧
      ∀ (p i t : ℕ) (M : T2 K), Ms[p]? = some M → i < r → C.get (p * r + i) t = M.get i t := by
  intro Ms
  induction Ms with
  | nil => intro h; exact absurd rfl h
  | cons A Ms ih =>
    intro _ hM
    obtain ⟨hAr, hAc⟩ := hM A (by simp)
    cases Ms with
    | nil =>
      refine ⟨A, rfl, by simp [hAr], hAc, ?_⟩
      intro p i t M hp hi
      cases p with
      | zero =>
        obtain rfl : A = M := by simpa using hp
        simp
      | succ p => simp at hp
    | cons B Ms =>
      obtain ⟨C, h1, h2, h3, h4⟩ := ih (by simp) fun M h => hM M (List.mem_cons_of_mem _ h)
      refine ⟨A.above C, ?_, ?_, ?_, ?_⟩
      · rw [vstack, h1]
        simp [hAc, h3]
      · simp only [T2.above, hAr, h2, List.length_cons]
        ring_nf
      · exact hAc
      · intro p i t M hp hi
        cases p with
        | zero =>
          obtain rfl : A = M := by simpa using hp
          simp only [T2.above, Nat.zero_mul, Nat.zero_add, hAr]
          rw [if_pos hi]
        | succ p =>
          have hp' : (B :: Ms)[p]? = some M := by simpa using hp
          simp only [T2.above, hAr]
          have e : (p + 1) * r + i = r + (p * r + i) := by ring
          rw [e, if_neg (by omega), Nat.add_sub_cancel_left]
          exact h4 p i t M hp' hi

theorem fitZip_spec (cls : DmdClass D W K) : ∀ (ds : List D) (Ms : List (T2 K)) (ds' : List D),
    ds.length = Ms.length → fitZip cls ds Ms = .ok ds' →
    ds'.length = ds.length ∧
    ∀ (p : ℕ) d M, ds[p]? = some d → Ms[p]? = some M → ∃ d', ds'[p]? = some d' ∧
      cls.fit M d = .ok d' := by
  intro ds
  induction ds with
  | nil =>
    intro Ms ds' _ h
    cases Ms <;> simp [fitZip] at h <;> subst h <;> simp
  | cons d ds ih =>
    intro Ms ds' hl h
    cases Ms with
    | nil => simp at hl
    | cons M Ms =>
      simp only [fitZip] at h
      cases hf : cls.fit M d with
      | error e => simp [hf] at h
      | ok d' =>
        rw [hf] at h
        simp only at h
        cases hz : fitZip cls ds Ms with
        | error e => simp [hz, Except.map] at h
        | ok es =>
          simp only [hz, Except.map, Except.ok.injEq] at h
          subst h
          obtain ⟨i1, i2⟩ := ih Ms es (by simpa using hl) hz
          refine ⟨by simp [i1], ?_⟩
          intro p d0 M0 h1 h2
          cases p with
          | zero =>
            simp only [List.getElem?_cons_zero, Option.some.injEq] at h1 h2
            subst h1; subst h2
            exact ⟨d', by simp, hf⟩
          | succ p => simpa using i2 p d0 M0 (by simpa using h1) (by simpa using h2)

theorem fitZip_ok (cls : DmdClass D W K) (h : ∀ M d, ∃ d', cls.fit M d = .ok d') :
    ∀ (ds : List D) (Ms : List (T2 K)), ∃ ds', fitZip cls ds Ms = .ok ds' := by
  intro ds
  induction ds with
  | nil => intro Ms; cases Ms <;> exact ⟨[], rfl⟩
  | cons d ds ih =>
    intro Ms
    cases Ms with
    | nil => exact ⟨d :: ds, rfl⟩
    | cons M Ms =>
      obtain ⟨d', hd⟩ := h M d
      obtain ⟨es, he⟩ := ih Ms
      exact ⟨d' :: es, by simp [fitZip, hd, he, Except.map]⟩

theorem mapM_ok {α β : Type} (f : α → Except PyErr β) : ∀ (l : List α) (g : List β),
    l.length = g.length → (∀ (p : ℕ) a b, l[p]? = some a → g[p]? = some b → f a = .ok b) →
    l.mapM f = .ok g := by
  intro l
  induction l with
  | nil => intro g hl _; cases g <;> simp_all [pure, Except.pure]
  | cons a l ih =>
    intro g hl h
    cases g with
    | nil => simp at hl
    | cons b g =>
      have h0 := h 0 a b rfl rfl
      have h1 := ih g (by simpa using hl) fun p a b ha hb => h (p + 1) a b (by simpa using ha)
        (by simpa using hb)
      rw [List.mapM_cons, h0, h1]
      rfl

end Verif.Param
