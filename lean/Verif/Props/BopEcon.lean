import Verif.Model.BopEcon
import Verif.Props.Rank

/-!
# C108: `fit_econ` of BOP-DMD
-/

set_option autoImplicit false

namespace Verif.BopEcon

open Verif.Refit Verif.Rank

variable {m : ℕ} {Al R : Type}

/-- The snapshots `U diag(s) V`. -/
noncomputable def snapshots {q n : ℕ} (U : Matrix (Fin m) (Fin q) ℂ) (s : Fin q → ℝ)
    (V : Matrix (Fin q) (Fin n) ℂ) : Matrix (Fin m) (Fin n) ℂ :=
  U * Matrix.diagonal (fun i => (s i : ℂ)) * V

theorem ux_eq {q n : ℕ} (U : Matrix (Fin m) (Fin q) ℂ) (hU : U.conjTranspose * U = 1)
    (s : Fin q → ℝ) (V : Matrix (Fin q) (Fin n) ℂ) (t : List ℝ) :
    (Args.mk (List.ofFn s) q n V t).ux = U.conjTranspose * snapshots U s V := by
  rw [snapshots, Matrix.mul_assoc, ← Matrix.mul_assoc, hU, Matrix.one_mul]
  ext i j
  rw [Matrix.diagonal_mul]
  simp [Args.ux, List.getD_eq_getElem?_getD]

/-- **C108**. With a projection basis `U` of `q ≥ 2` orthonormal columns and `svd_rank = q`,
`fit_econ(s, V, t)` has the same outcome as `fit(U diag(s) V, t)`: the same error, or the same
result and the same attributes, apart from the snapshots, which `fit_econ` does not have. At least
`q` snapshots (and at least two). -/
theorem C108_econ {q n : ℕ} (N : Routines m Al R) (U : Matrix (Fin m) (Fin q) ℂ)
    (hU : U.conjTranspose * U = 1) (s : Fin q → ℝ) (V : Matrix (Fin q) (Fin n) ℂ) (t : List ℝ)
    (hs : (N.sing n (snapshots U s V)).length = min m n) (h2 : 2 ≤ q) (hm : q ≤ m) (hn : q ≤ n)
    (a : Option Al) (old : Option (Data m)) (out : Option R) :
    let st : Inst m Al R := ⟨.int q, some ⟨q, U⟩, a, old, out⟩
    let e := fitEcon N true ⟨List.ofFn s, q, n, V, t⟩ st
    let f := st.fit (full N) (⟨n, snapshots U s V⟩, t)
    e.1 = f.1 ∧ e.2 = { f.2 with snaps := none } := by
  intro st e f
  have hr : (full N).rankOf (⟨n, snapshots U s V⟩, t) (.int q) = q := by
    have := (C12_rank (N.sing n (snapshots U s V)) m n hs (by omega)).1 q (by omega)
    have h3 : (computeRank (N.sing n (snapshots U s V)) m n (.int q) : ℤ) = q := by
      rw [this, hs]; omega
    exact_mod_cast h3
  have hv : (SvdRank.int (q : ℤ) : SvdRank ℝ).val = (q : ℝ) := by simp [SvdRank.val]
  have hux := ux_eq U hU s V t
  have hlen : (List.ofFn s).length = q := List.length_ofFn
  have hq1 : q ≠ 1 := by omega
  simp only [e, f, st, fitEcon, econCheck, Bop.fit, hr, hv, BopNum.pickBasis, BopNum.pickAlpha]
  have hchk : (full N).check (⟨n, snapshots U s V⟩, t) = if t.length = 1 then .error .typeError
    else if n ≠ t.length then .error .valueError else .ok () := rfl
  rw [hchk]
  simp only [hlen, hq1, false_or, ne_eq, not_true_eq_false, if_false, Bool.true_eq_false]
  by_cases h1 : t.length = 1
  · simp [h1]
  · by_cases hnt : n = t.length
    · have hb : (full N).bcols ⟨q, U⟩ = q := rfl
      have hal : (full N).alpha (⟨n, snapshots U s V⟩, t) ⟨q, U⟩ q =
          N.init q n (Args.mk (List.ofFn s) q n V t).ux t (.int q) := by rw [hux]; rfl
      have hso : ∀ al, (full N).solve (⟨n, snapshots U s V⟩, t) ⟨q, U⟩ al =
          N.compute q n (Args.mk (List.ofFn s) q n V t).ux t ⟨q, U⟩ al := fun al => by
        rw [hux]; rfl
      have hln : ∀ al, (full N).alen al = N.alen al := fun _ => rfl
      simp only [h1, hnt, if_false, not_true_eq_false, hb]
      cases a with
      | none =>
        simp only [hal, hso]
        cases N.compute q n (Args.mk (List.ofFn s) q n V t).ux t ⟨q, U⟩
          (N.init q n (Args.mk (List.ofFn s) q n V t).ux t (.int q)) <;> simp
      | some al =>
        simp only [hso, hln, Nat.cast_inj]
        by_cases hla : N.alen al = q
        · simp only [hla, not_true_eq_false, if_false]
          cases N.compute q n (Args.mk (List.ofFn s) q n V t).ux t ⟨q, U⟩ al <;> simp
        · simp [hla]
    · simp [h1, hnt]

/-- **C108** (no basis). Without a projection basis, or with `use_proj=False`, `ValueError`. -/
theorem C108_no_basis (N : Routines m Al R) (x : Args) (st : Inst m Al R) (useProj : Bool)
    (h : st.basis = none ∨ useProj = false) :
    (fitEcon N useProj x st).1 = .error .valueError := by
  have hc : econCheck useProj ({ st with snaps := none, out := none } : Inst m Al R) x =
      .error .valueError := by
    unfold econCheck
    rcases h with h | h
    · simp only [h]
    · cases hb : st.basis <;> simp [h]
  simp only [fitEcon, hc]

/-- **C108** (shapes). A fit takes place only if `svd_rank` is the number of columns of the basis,
of singular values and of rows of `V`, and `V` has one column per time; otherwise an error. -/
theorem C108_shapes (N : Routines m Al R) (x : Args) (st : Inst m Al R) (useProj : Bool)
    (h : (fitEcon N useProj x st).1 = .ok ()) :
    useProj = true ∧ x.t.length = x.n ∧ x.s.length = x.a ∧ x.a ≠ 1 ∧
      (x.a : ℝ) = st.rank.val ∧ ∃ b, st.basis = some b ∧ b.1 = x.a := by
  cases hc : econCheck useProj ({ st with snaps := none, out := none } : Inst m Al R) x with
  | error e => simp only [fitEcon, hc] at h; simp at h
  | ok b =>
    unfold econCheck at hc
    simp only at hc
    cases hb : st.basis with
    | none => simp [hb] at hc
    | some b' =>
      simp only [hb] at hc
      split_ifs at hc with c1 c2 c3 c4 c5 c6
      push Not at c2 c3 c4 c6
      have h1 : x.s.length = x.a := by
        have := c3.2.trans c4.symm
        exact_mod_cast this
      have h2 : b'.1 = x.a := by
        have := c2.trans c4.symm
        exact_mod_cast this
      refine ⟨by simpa using c1, c6.symm, h1, ?_, c4, b', rfl, h2⟩
      have := c3.1
      rwa [h1] at this

/-- **C108** is false for rank 1: the only singular value is squeezed to an array without
dimensions and refused, whatever the basis. -/
theorem C108_rank_one_false (N : Routines m Al R) (x : Args) (st : Inst m Al R) (useProj : Bool)
    (h : x.s.length = 1) : (fitEcon N useProj x st).1 = .error .valueError := by
  have hc : econCheck useProj ({ st with snaps := none, out := none } : Inst m Al R) x =
      .error .valueError := by
    unfold econCheck
    cases hb : st.basis <;> simp [h]
  simp only [fitEcon, hc]

/-- **C108** is false for the ranks that are chosen from the data (the default `svd_rank=0`, `-1`,
a fraction): `fit_econ` compares them with the number of columns of the basis and raises
`ValueError`, whatever the arguments; `fit` with the same basis computes the rank first. -/
theorem C108_rank_false (N : Routines m Al R) (x : Args) (st : Inst m Al R) (useProj : Bool)
    (b : Basis m) (hb : st.basis = some b) (hq : 1 ≤ b.1) (hr : st.rank.val < 1) :
    (fitEcon N useProj x st).1 = .error .valueError := by
  have hne : (b.1 : ℝ) ≠ st.rank.val := by
    have : (1 : ℝ) ≤ b.1 := by exact_mod_cast hq
    exact fun h => by linarith
  have hc : econCheck useProj ({ st with snaps := none, out := none } : Inst m Al R) x =
      .error .valueError := by
    unfold econCheck
    simp [hb, hne]
  simp only [fitEcon, hc]

/-- Routines for the examples. -/
noncomputable def rtEx : Routines 2 (List ℂ) Unit where
  init q _ _ _ _ := List.replicate q 0
  alen := List.length
  compute _ _ _ _ _ _ := .ok ()
  sing n _ := List.replicate (min 2 n) 1
  basis _ _ _ := ⟨2, 1⟩

/-- `fit` accepts `svd_rank = -1` in the situation of `C108_rank_false`. -/
example (X : Matrix (Fin 2) (Fin 3) ℂ) (a : ℝ) :
    (Bop.fit (full rtEx) (⟨3, X⟩, [0, a, 2 * a])
      (Bop.new (.int (-1)) (some ⟨2, 1⟩) none)).1 = .ok () := by
  have hr : (full rtEx).rankOf (⟨3, X⟩, [0, a, 2 * a]) (.int (-1)) = 2 := by
    have := (C12_rank ((full rtEx).sing (⟨3, X⟩, [0, a, 2 * a])) 2 3 (by simp [full, rtEx])
      (by simp [full, rtEx])).2.1
    rw [BopNum.rankOf]
    have h2 : (full rtEx).rows (⟨3, X⟩, [0, a, 2 * a]) = 2 := rfl
    have h3 : (full rtEx).cols (⟨3, X⟩, [0, a, 2 * a]) = 3 := rfl
    rw [h2, h3, this]
    simp [full, rtEx]
  simp only [Bop.fit, Bop.new, hr, BopNum.pickBasis, BopNum.pickAlpha]
  simp [full, rtEx]

/-- A case of `C108_econ`. -/
example (V : Matrix (Fin 2) (Fin 3) ℂ) (a : ℝ) :
    (fitEcon rtEx true ⟨List.ofFn ![2, 1], 2, 3, V, [0, a, 2 * a]⟩
      (Bop.new (.int 2) (some ⟨2, 1⟩) none)).1 = .ok () := by
  have := (C108_econ rtEx (1 : Matrix (Fin 2) (Fin 2) ℂ) (by simp) ![2, 1] V [0, a, 2 * a]
    (by simp [rtEx]) le_rfl le_rfl (by norm_num) none none none).1
  simp only [Bop.new]
  rw [show (SvdRank.int 2 : SvdRank ℝ) = .int ((2 : ℕ) : ℤ) from rfl, this]
  simp [Bop.fit, BopNum.pickBasis, BopNum.pickAlpha, full, rtEx, BopNum.rankOf, computeRank,
    SvdRank.val]

end Verif.BopEcon
