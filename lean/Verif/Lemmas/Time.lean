import Verif.Model.Time
import Verif.Lemmas.Bitmask
import Mathlib.Tactic.Linarith
import Mathlib.Tactic.Ring
import Mathlib.Tactic.FieldSimp
import Mathlib.Tactic.Abel

/-! Helper lemmas on timesteps and reconstruction. -/

namespace Verif.Time

open Verif Verif.Bitmask

/-- The list of timesteps for a nonzero step. -/
def steps (w : Window) : List ℚ :=
  (List.range ⌈(w.tend + w.dt - w.t0) / w.dt⌉.toNat).map fun i : ℕ => w.t0 + (i : ℚ) * w.dt

theorem timesteps_ok (w : Window) (h : w.dt ≠ 0) : w.timesteps = .ok (steps w) := by
  simp [Window.timesteps, arange, h, steps]

theorem steps_getElem? (w : Window) (i : ℕ) (h : i < (steps w).length) :
    (steps w)[i]? = some (w.t0 + (i : ℚ) * w.dt) := by
  have h' : i < ⌈(w.tend + w.dt - w.t0) / w.dt⌉.toNat := by simpa [steps] using h
  simp [steps, h']

theorem length_steps (w : Window) :
    (steps w).length = ⌈(w.tend + w.dt - w.t0) / w.dt⌉.toNat := by simp [steps]

/-- For a positive step the number of timesteps is the least count reaching past the end. -/
theorem lt_length_steps (w : Window) (h : 0 < w.dt) (i : ℕ) :
    i < (steps w).length ↔ w.t0 + (i : ℚ) * w.dt < w.tend + w.dt := by
  rw [length_steps, Int.lt_toNat, Int.lt_ceil, lt_div_iff₀ h]
  push_cast
  constructor <;> intro h' <;> linarith

theorem npPow_int (z : ℂ) (m : ℤ) : npPow z (m : ℚ) = z ^ m := by
  simp only [npPow]
  rw [← Complex.cpow_intCast]
  congr 1

theorem reconstructed_rel {ι : Type} {n : ℕ} {o : Obj (ι → ℂ) ℂ ℂ} {s : Spec (ι → ℂ) ℂ ℂ}
    (h : Rel n o s) (orig dmd : Window) (opt : Opt) (nsnap : ℕ) :
    reconstructed o orig dmd opt nsnap =
      dmd.timesteps.map fun ts => ts.map fun t => dotCol (gather s.mask s.modes)
        (dynamicsAt (gather s.mask s.eigs) (gather s.mask s.amps) (exponent orig opt nsnap t)) := by
  obtain ⟨ms, es, bs, v, he, hr, h1, h2, h3, l0, l1, l2, l3, rfl⟩ := h.ensure
  obtain ⟨ms', es', bs', hop, hb, -⟩ := h.ex
  have g1 := gather_scatter v.mask ms v.modes (by omega) l1
  have g2 := gather_scatter v.mask es v.eigs (by omega) l2
  have g3 := gather_scatter v.mask bs v.amps (by omega) l3
  simp only [g1, g2, g3]
  have e1 : o.getModes = .ok (some v.modes, ⟨some (ms, es), some bs, some v⟩) := by
    simp [Obj.getModes, hop, he, bind, Except.bind, pure, Except.pure]
  simp only [reconstructed, e1, bind, Except.bind]
  simp only [Obj.getEigs, Obj.getAmps, Obj.ensure, bind, Except.bind, pure, Except.pure, dynamics]
  cases dmd.timesteps with
  | error e => rfl
  | ok ts => simp [Except.map]

/-- The contribution of one mode to a column of the reconstruction. -/
noncomputable def contrib {ι : Type} (p : ℚ) (m : ι → ℂ) (e a : ℂ) : ι → ℂ :=
  fun x => m x * (npPow e p * a)

theorem dotCol_dynamics {ι : Type} (p : ℚ) (ms : List (ι → ℂ)) (es as : List ℂ) :
    dotCol ms (dynamicsAt es as p) =
      (List.zipWith (fun m (q : ℂ × ℂ) => contrib p m q.1 q.2) ms (es.zip as)).sum := by
  unfold dotCol dynamicsAt
  congr 1
  induction ms generalizing es as with
  | nil => simp
  | cons m ms ih =>
    cases es with
    | nil => simp
    | cons e es =>
      cases as with
      | nil => simp
      | cons a as => simp [ih]; rfl

theorem dotCol_split {ι : Type} (p : ℚ) (mask : List Bool) (ms : List (ι → ℂ)) (es as : List ℂ)
    (h1 : ms.length = mask.length) (h2 : es.length = mask.length) (h3 : as.length = mask.length) :
    dotCol (gather mask ms) (dynamicsAt (gather mask es) (gather mask as) p) +
      dotCol (gather (mask.map (!·)) ms)
        (dynamicsAt (gather (mask.map (!·)) es) (gather (mask.map (!·)) as) p) =
    dotCol ms (dynamicsAt es as p) := by
  simp only [dotCol_dynamics]
  induction mask generalizing ms es as with
  | nil =>
    cases ms with
    | nil => simp [gather]
    | cons => simp at h1
  | cons b mask ih =>
    cases ms with
    | nil => simp at h1
    | cons m ms =>
    cases es with
    | nil => simp at h2
    | cons e es =>
    cases as with
    | nil => simp at h3
    | cons a as =>
      have := ih ms es as (by simpa using h1) (by simpa using h2) (by simpa using h3)
      cases b
      · simp only [gather, List.map_cons, Bool.not_false, if_true, Bool.false_eq_true, if_false,
          List.zip_cons_cons, List.zipWith_cons_cons, List.sum_cons]
        rw [← this]; abel
      · simp only [gather, List.map_cons, Bool.not_true, if_true, Bool.false_eq_true, if_false,
          List.zip_cons_cons, List.zipWith_cons_cons, List.sum_cons]
        rw [← this]; abel

end Verif.Time
