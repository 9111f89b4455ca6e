import Verif.Props.Hankel
import Verif.Props.PidmdEnergy
import Verif.Props.PidmdBand
import Verif.Props.FailedFit
import Verif.Props.CostsIo
import Verif.Props.MrLeaves

/-!
# Arguments at the edge: C23, C50, C96, C99, C149, C161
-/

set_option autoImplicit false

namespace Verif.Hankel

open Verif

/-- **C23** fails for windows before the training window, in general: with `d` delays and a wrapped DMD that is exact,
the window from `-a` to `-b` (`2 ≤ b ≤ a ≤ d`, in units of the step) gets as many columns as it has timesteps, but they
are the states at the times `d - a, ..., d - b`. -/
theorem C23_before_columns_false {K : Type} [Field K] [CharZero K] [DecidableEq K] (m : Method K) (n d a b : ℕ)
    (hb : 2 ≤ b) (hab : b ≤ a) (had : a ≤ d) (hm : Admissible m d d) (y : ℕ → List K) (hy : ∀ t, (y t).length = n)
    (inner : Time.Window → Except PyErr (List (List K)))
    (hin : inner ⟨0, 0, 1⟩ = .ok [((List.range d).map y).flatten]) (tend : ℚ) :
    (Time.Window.timesteps ⟨-(a : ℚ), -(b : ℚ), 1⟩).map List.length = .ok (a - b + 1) ∧
    reconstructedData m d ⟨0, tend, 1⟩ ⟨-(a : ℚ), -(b : ℚ), 1⟩ inner =
      .ok ((List.range (a - b + 1)).map fun i => y (d - a + i)) := by
  have hlen : (-(b : ℚ) + 1 - -(a : ℚ)) / 1 = ((a - b + 1 : ℕ) : ℚ) := by
    rw [Nat.cast_add, Nat.cast_sub hab]; push_cast; ring
  have hts : ∃ ts, Time.Window.timesteps ⟨-(a : ℚ), -(b : ℚ), 1⟩ = .ok ts ∧ ts.length = a - b + 1 := by
    simp only [Time.Window.timesteps, Time.arange, if_neg one_ne_zero]
    refine ⟨_, rfl, ?_⟩
    rw [List.length_map, List.length_range, hlen, Int.ceil_natCast, Int.toNat_natCast]
  obtain ⟨ts, hts, htl⟩ := hts
  refine ⟨by rw [hts]; simp [Except.map, htl], ?_⟩
  have hfl : ∀ k : ℕ, ⌊(-(k : ℚ) - 0) / 1⌋ = -(k : ℤ) := by
    intro k
    rw [sub_zero, div_one]
    exact_mod_cast Int.floor_intCast (R := ℚ) (-(k : ℤ))
  have hd1 : (1 : ℚ) ≤ d := by exact_mod_cast (by omega : 1 ≤ d)
  have hocc : ∀ k : ℕ, firstOccurrence ⟨0, tend, 1⟩ ⟨-(a : ℚ), -(b : ℚ), 1⟩ d (-(k : ℚ)) = 0 := by
    intro k
    simp only [firstOccurrence, hfl k]
    rw [max_eq_left]
    have : (0 : ℚ) ≤ k := Nat.cast_nonneg k
    push_cast
    linarith
  have hsub : subWindow ⟨0, tend, 1⟩ ⟨-(a : ℚ), -(b : ℚ), 1⟩ d = ⟨0, 0, 1⟩ := by
    simp only [subWindow, hocc]
  have hpost : post m d [((List.range d).map y).flatten] = .ok ((List.range d).map y) := by
    have hX := C22_post_pre m n d ((List.range d).map y)
      (by
        intro x hx
        obtain ⟨i, -, rfl⟩ := List.mem_map.mp hx
        exact hy _) (by omega) (by simp) (by simpa using hm)
    rw [← hX, pseudoHankel, if_neg (by simp)]
    simp only [Except.bind]
    congr 1
    simp [List.take_of_length_le]
  have hti : min ((d : ℤ) - 1) ⌊(-(a : ℚ) - 0) / 1⌋ = -(a : ℤ) := by
    rw [hfl]
    omega
  simp only [reconstructedData, hts, hsub, hin, hpost, bind, Except.bind, pure, Except.pure, hti, htl]
  congr 1
  unfold pySlice
  simp only [List.length_map, List.length_range]
  rw [if_pos (by omega), if_pos (by omega)]
  apply List.ext_getElem?
  intro i
  rw [List.getElem?_drop, List.getElem?_take]
  by_cases hi : i < a - b + 1
  · rw [if_pos (by omega), List.getElem?_map, List.getElem?_map, List.getElem?_range hi,
      List.getElem?_range (by omega)]
    simp only [Option.map_some]
    congr 2
    omega
  · rw [if_neg (by omega), List.getElem?_eq_none (by simp; omega)]

/-- A case: three delays, the window from -3 to -2. -/
example : reconstructedData (.first : Method ℚ) 3 ⟨0, 4, 1⟩ ⟨-3, -2, 1⟩ (fun _ => .ok [[5, 6, 7]]) =
    .ok [[5], [6]] := by decide +kernel

end Verif.Hankel

namespace Verif.Pidmd

open Verif Verif.LinAlg Verif.Possible Matrix

/-- **C50** (invalid requests, by name). These manifolds raise `ValueError` without `compute_A`; these are computed with
every value of `compute_A`; with any other name `ValueError` is raised. -/
theorem C50_names (manifold : String) (computeA : Bool) (opt : Fin 3) :
    (manifold ∈ ["uppertriangular", "lowertriangular", "toeplitz", "hankel", "BC", "BCTB", "BCCB", "BCCBunitary",
        "BCCBsymmetric", "BCCBskewsymmetric"] → procrustesCheck manifold false opt = .error .valueError) ∧
    (manifold ∈ ["uppertriangular", "lowertriangular", "toeplitz", "hankel"] →
      procrustesCheck manifold true opt = .ok ()) ∧
    (manifold ∈ ["BC", "BCTB", "BCCB", "BCCBunitary", "BCCBsymmetric", "BCCBskewsymmetric"] →
      procrustesCheck manifold true 1 = .ok ()) ∧
    (manifold ∈ ["unitary", "diagonal", "symmetric", "skewsymmetric", "circulant", "circulant_unitary",
        "circulant_symmetric", "circulant_skewsymmetric", "symmetric_tridiagonal"] →
      procrustesCheck manifold computeA opt = .ok ()) ∧
    (manifold ∉ ["uppertriangular", "lowertriangular", "toeplitz", "hankel", "BC", "BCTB", "BCCB", "BCCBunitary",
        "BCCBsymmetric", "BCCBskewsymmetric", "unitary", "diagonal", "symmetric", "skewsymmetric", "circulant",
        "circulant_unitary", "circulant_symmetric", "circulant_skewsymmetric", "symmetric_tridiagonal"] →
      procrustesCheck manifold computeA opt = .error .valueError) := by
  refine ⟨?_, ?_, ?_, ?_, ?_⟩
  · intro h
    simp only [List.mem_cons, List.not_mem_nil, or_false] at h
    rcases h with rfl | rfl | rfl | rfl | rfl | rfl | rfl | rfl | rfl | rfl <;> simp [procrustesCheck, others, needsA]
  · intro h
    simp only [List.mem_cons, List.not_mem_nil, or_false] at h
    rcases h with rfl | rfl | rfl | rfl <;> simp [procrustesCheck, others, needsA]
  · intro h
    simp only [List.mem_cons, List.not_mem_nil, or_false] at h
    rcases h with rfl | rfl | rfl | rfl | rfl | rfl <;> simp [procrustesCheck, others, needsA]
  · intro h
    simp only [List.mem_cons, List.not_mem_nil, or_false] at h
    rcases h with rfl | rfl | rfl | rfl | rfl | rfl | rfl | rfl | rfl <;> simp [procrustesCheck, others]
  · intro h
    simp only [List.mem_cons, List.not_mem_nil, or_false, not_or] at h
    have h1 : manifold ∉ others := by simp [others, h]
    have h2 : needsA manifold = false := by simp [needsA, h]
    simp [procrustesCheck, h1, h2]

variable {m n : Type} [Fintype m] [Fintype n] [DecidableEq m]

/-- **C161** (unitary, best fit). The eigenvalues and modes of a unitary fit belong to an operator on the retained
subspace that is unitary, and no unitary operator on that subspace carries the projected snapshots closer to the
projected next ones. -/
theorem C161_unitary_best {q : ℕ} (X Y : Matrix m n ℂ) (eigs : Fin q → ℂ) (modes : Matrix m (Fin q) ℂ)
    (h : Pidmd.IsUnitary X Y eigs modes) :
    ∃ (U : Matrix m (Fin q) ℂ) (A : Matrix (Fin q) (Fin q) ℂ), Uᴴ * U = 1 ∧ Aᴴ * A = 1 ∧
      (U * A * Uᴴ) * modes = modes * diagonal eigs ∧
      ∀ B : Matrix (Fin q) (Fin q) ℂ, Bᴴ * B = 1 →
        frobSq (Uᴴ * Y - A * (Uᴴ * X)) ≤ frobSq (Uᴴ * Y - B * (Uᴴ * X)) := by
  classical
  obtain ⟨p, hq, U, s, V, hX, -, P, R, t, hP, W, hW, rfl⟩ := h
  have hU := lead_orthonormal hq U hX.u
  obtain ⟨h1, -, h3, -⟩ := C50_unitary (lead q hq U) hU X Y P R t hP
  refine ⟨lead q hq U, unitaryAtilde P R, hU, h1, ?_, h3⟩
  calc lead q hq U * unitaryAtilde P R * (lead q hq U)ᴴ * (lead q hq U * W)
      = lead q hq U * unitaryAtilde P R * ((lead q hq U)ᴴ * lead q hq U) * W := by simp only [Matrix.mul_assoc]
    _ = lead q hq U * (unitaryAtilde P R * W) := by rw [hU, Matrix.mul_one, Matrix.mul_assoc]
    _ = _ := by rw [hW.1, ← Matrix.mul_assoc]

end Verif.Pidmd

namespace Verif.Refit

open Verif

variable {D S U At W T K M E A : Type}

/-- **C149** (shapes). If `Y` has another shape than `X`, `fit` raises `ValueError`, whatever the state of the object. -/
theorem C149_shape (N : DmdNum D S U At W T K M E A) (x y : D) (st : Dmd D T K At M E A)
    (hx : N.snapshots x = .ok ()) (hy : N.snapshots y = .ok ()) (hs : N.sameShape x y = false) :
    (st.fit N x (some y)).1 = .error .valueError := by
  simp [Dmd.fit, hx, checkY, hy, hs]

end Verif.Refit

namespace Verif.CostsIo

open Verif

/-- **C99** (before `fit` and before `cluster_omega`). A new object cannot be converted (`ValueError`), and neither can
one that was fitted but not clustered (`TypeError`). -/
theorem C99_unfinished {α : Type} (listOf : Finset String → List String) (o : Obj α) (d : FitData α)
    (rank rankTwice : ℤ → ℕ) :
    (o.timeArray = none → o.toXarray listOf = .error .valueError) ∧
    (o.nComponents = none → ∀ o', o.fit d rank rankTwice = .ok o' → o'.toXarray listOf = .error .typeError) := by
  refine ⟨fun h => by simp [Obj.toXarray, h, dataVar, bind, Except.bind], fun h o' ho => ?_⟩
  unfold Obj.fit at ho
  cases hc : o.chooseRank d.nDataVars rank rankTwice with
  | error e => rw [hc] at ho; cases ho
  | ok rp =>
    rw [hc] at ho
    obtain ⟨r, pre⟩ := rp
    injection ho with ho
    subst ho
    simp [Obj.toXarray, dataVar, arange, h, bind, Except.bind]

end Verif.CostsIo

namespace Verif.MrDMD

open Verif

/-- **C96** (before `fit`). If a node of the tree has not been fitted, `eigs` raises `AttributeError`. -/
theorem C96_unfitted {K ι : Type} [Field K] (t : Tree (Leaf K ι)) (h : none ∈ t.tree) :
    eigs t = .error .attributeError := by
  have key : ∀ (f : Option (Leaf K ι) → Except PyErr (List K)), f none = .error .attributeError →
      (∀ a, f (some a) = .ok a.eigs) → ∀ l : List (Option (Leaf K ι)), none ∈ l →
      l.mapM f = .error .attributeError := by
    intro f f0 f1 l
    induction l with
    | nil => intro h; simp at h
    | cons a l ih =>
      intro h
      rw [List.mapM_cons]
      cases a with
      | none => rw [f0]; rfl
      | some a =>
        rw [f1, ih (by simpa using h)]
        rfl
  unfold eigs
  rw [key _ rfl (fun _ => rfl) _ h]
  rfl

end Verif.MrDMD
