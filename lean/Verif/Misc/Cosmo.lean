import Mathlib.Analysis.SpecialFunctions.Pow.Deriv
import Mathlib.Analysis.SpecialFunctions.ExpDeriv
import Verif.Coord.Objects

/-!
# `utils/scalar_factor.py`: the scale factor of a flat Robertson-Walker universe (C55)

`t` is modelled as a scalar astropy quantity; floating-point numbers are idealised as real numbers.  A result that
numpy would store as `nan` or `inf` is the tag `notANumber`.
-/

namespace Einpy.Misc
open Einpy.Coord

/-- numpy `x ** y` for a non-integer exponent `y`: `nan` for a negative base, `inf` for `0 ** negative`. -/
noncomputable def npPow (x y : ℝ) : Py ℝ :=
  if x < 0 then .error .notANumber
  else if x = 0 ∧ y < 0 then .error .notANumber
  else .ok (x ^ y)

/-- constant.py:21-31 `Cosmo_Const`, in s⁻². -/
noncomputable def cosmoConst : ℝ := 2.036e-35

/-- scalar_factor.py:39, scalar_factor.py:77 `hubble_const = (constant.Cosmo_Const / 3) ** 0.5`. -/
noncomputable def hubbleConst : ℝ := Real.sqrt (cosmoConst / 3)

/-- scalar_factor.py:7-42 `scalar_factor`.  The decorator is `checkDim`; `t.to(u.s).value` is `t.si`. -/
noncomputable def scalarFactor (t : Qty) (era : String) (tuning : ℝ) : Py ℝ := do
  let t ← checkDim t .time
  let T := t.si
  if era = "md" then return tuning * (← npPow T (2 / 3))
  else if era = "rd" then return tuning * (← npPow T 0.5)
  else if era = "ded" then return tuning * Real.exp (hubbleConst * T)
  else throw .valueError

/-- scalar_factor.py:45-80 `scalar_factor_derivative`. -/
noncomputable def scalarFactorDerivative (t : Qty) (era : String) (tuning : ℝ) : Py ℝ := do
  let t ← checkDim t .time
  let T := t.si
  if era = "md" then return (2 / 3) * tuning * (← npPow T (-1 / 3))
  else if era = "rd" then return 0.5 * tuning * (← npPow T (-0.5))
  else if era = "ded" then return tuning * (hubbleConst * Real.exp (hubbleConst * T))
  else throw .valueError

/-! ## Specification -/

/-- The eras named in the documentation. -/
def KnownEra (era : String) : Prop := era = "md" ∨ era = "rd" ∨ era = "ded"

/-- The Hubble rate a'/a of the three flat single-component universes: 2/(3t) for matter, 1/(2t) for radiation and
√(Λ/3) for dark energy. -/
noncomputable def hubbleRate (era : String) (t : ℝ) : ℝ :=
  if era = "md" then 2 / (3 * t) else if era = "rd" then 1 / (2 * t) else Real.sqrt (2.036e-35 / 3)

/-- The time at which the scale factor is `tuning_param`: one second after the bang, or now for dark energy. -/
noncomputable def refTime (era : String) : ℝ := if era = "ded" then 0 else 1

/-! ## Theorems -/

theorem npPow_pos {x : ℝ} (hx : 0 < x) (y : ℝ) : npPow x y = .ok (x ^ y) := by
  unfold npPow; rw [if_neg (not_lt.2 hx.le), if_neg (fun h => hx.ne' h.1)]

theorem npPow_neg {x : ℝ} (hx : x < 0) (y : ℝ) : npPow x y = .error .notANumber := by
  unfold npPow; rw [if_pos hx]

theorem checkDim_time {t : Qty} (h : t.dim = .time) : checkDim t .time = .ok t := by
  unfold checkDim; rw [if_pos h]

theorem sf_md {t : Qty} (h : t.dim = .time) (ht : 0 < t.si) (p : ℝ) :
    scalarFactor t "md" p = .ok (p * t.si ^ ((2:ℝ) / 3)) := by
  simp [scalarFactor, checkDim_time h, npPow_pos ht, bind, Except.bind, pure, Except.pure]

theorem sf_rd {t : Qty} (h : t.dim = .time) (ht : 0 < t.si) (p : ℝ) :
    scalarFactor t "rd" p = .ok (p * t.si ^ (0.5:ℝ)) := by
  simp [scalarFactor, checkDim_time h, npPow_pos ht, bind, Except.bind, pure, Except.pure]

theorem sf_ded {t : Qty} (h : t.dim = .time) (p : ℝ) :
    scalarFactor t "ded" p = .ok (p * Real.exp (hubbleConst * t.si)) := by
  simp [scalarFactor, checkDim_time h, bind, Except.bind, pure, Except.pure]

theorem sfd_md {t : Qty} (h : t.dim = .time) (ht : 0 < t.si) (p : ℝ) :
    scalarFactorDerivative t "md" p = .ok ((2 / 3) * p * t.si ^ ((-1:ℝ) / 3)) := by
  simp [scalarFactorDerivative, checkDim_time h, npPow_pos ht, bind, Except.bind, pure, Except.pure]

theorem sfd_rd {t : Qty} (h : t.dim = .time) (ht : 0 < t.si) (p : ℝ) :
    scalarFactorDerivative t "rd" p = .ok (0.5 * p * t.si ^ (-0.5:ℝ)) := by
  simp [scalarFactorDerivative, checkDim_time h, npPow_pos ht, bind, Except.bind, pure, Except.pure]

theorem sfd_ded {t : Qty} (h : t.dim = .time) (p : ℝ) :
    scalarFactorDerivative t "ded" p = .ok (p * (hubbleConst * Real.exp (hubbleConst * t.si))) := by
  simp [scalarFactorDerivative, checkDim_time h, bind, Except.bind, pure, Except.pure]

theorem ofSI_si (x : ℝ) (d : Dim) : (Qty.ofSI x d).si = x := by simp [Qty.ofSI, Qty.si]

/-- **C55.** For each era, every tuning parameter and every positive time in any unit of time: both functions return
numbers, and the second returns the derivative, with respect to time in seconds, of the values of the first. -/
theorem C55_derivative (t : Qty) (hd : t.dim = .time) (ht : 0 < t.si) (era : String) (he : KnownEra era) (p : ℝ) :
    ∃ (a : ℝ → ℝ) (d : ℝ), (∀ s, 0 < s → scalarFactor (.ofSI s .time) era p = .ok (a s)) ∧
      scalarFactorDerivative t era p = .ok d ∧ HasDerivAt a d t.si := by
  rcases he with rfl | rfl | rfl
  · refine ⟨fun s => p * s ^ ((2:ℝ) / 3), _, fun s hs => ?_, sfd_md hd ht p, ?_⟩
    · rw [sf_md rfl (by rwa [ofSI_si]), ofSI_si]
    · refine ((Real.hasDerivAt_rpow_const (p := (2:ℝ) / 3) (Or.inl ht.ne')).const_mul p).congr_deriv ?_
      rw [show (2:ℝ) / 3 - 1 = -1 / 3 by norm_num]; ring
  · refine ⟨fun s => p * s ^ (0.5:ℝ), _, fun s hs => ?_, sfd_rd hd ht p, ?_⟩
    · rw [sf_rd rfl (by rwa [ofSI_si]), ofSI_si]
    · refine ((Real.hasDerivAt_rpow_const (p := (0.5:ℝ)) (Or.inl ht.ne')).const_mul p).congr_deriv ?_
      rw [show (0.5:ℝ) - 1 = -0.5 by norm_num]; ring
  · refine ⟨fun s => p * Real.exp (hubbleConst * s), _, fun s _ => ?_, sfd_ded hd p, ?_⟩
    · rw [sf_ded rfl, ofSI_si]
    · refine ((((hasDerivAt_id t.si).const_mul hubbleConst).exp).const_mul p).congr_deriv ?_
      simp only [id]; ring

/-- A case: t = 2 minutes. -/
example : (⟨2, 60, .time, by norm_num⟩ : Qty).dim = .time ∧ 0 < (⟨2, 60, .time, by norm_num⟩ : Qty).si ∧
    KnownEra "rd" := ⟨rfl, by norm_num [Qty.si], Or.inr (Or.inl rfl)⟩

/-- **C55.** The expansion law of each era: the derivative is the Hubble rate of that era times the scale factor, and the
scale factor is `tuning_param` at the reference time. -/
theorem C55_hubble_law (t : Qty) (hd : t.dim = .time) (ht : 0 < t.si) (era : String) (he : KnownEra era) (p : ℝ) :
    (∃ a, scalarFactor t era p = .ok a ∧ scalarFactorDerivative t era p = .ok (hubbleRate era t.si * a)) ∧
    scalarFactor (.ofSI (refTime era) .time) era p = .ok p := by
  rcases he with rfl | rfl | rfl
  · refine ⟨⟨_, sf_md hd ht p, ?_⟩, ?_⟩
    · rw [sfd_md hd ht]; congr 1
      rw [show (-1:ℝ) / 3 = (2:ℝ) / 3 - 1 by norm_num, Real.rpow_sub_one ht.ne']
      simp [hubbleRate]; field_simp
    · rw [sf_md rfl (by simp [ofSI_si, refTime]), ofSI_si]; simp [refTime]
  · refine ⟨⟨_, sf_rd hd ht p, ?_⟩, ?_⟩
    · rw [sfd_rd hd ht]; congr 1
      rw [show (-0.5:ℝ) = (0.5:ℝ) - 1 by norm_num, Real.rpow_sub_one ht.ne']
      simp [hubbleRate]; field_simp; ring
    · rw [sf_rd rfl (by simp [ofSI_si, refTime]), ofSI_si]; simp [refTime]
  · refine ⟨⟨_, sf_ded hd p, ?_⟩, ?_⟩
    · rw [sfd_ded hd]; congr 1
      simp [hubbleRate, hubbleConst, cosmoConst]; ring
    · rw [sf_ded rfl, ofSI_si]; simp [refTime]

/-- **C55.** An era other than the documented three raises `ValueError`, whatever the time and the tuning parameter. -/
theorem C55_unknown_era (t : Qty) (hd : t.dim = .time) (era : String) (he : ¬ KnownEra era) (p : ℝ) :
    scalarFactor t era p = .error .valueError ∧ scalarFactorDerivative t era p = .error .valueError := by
  have h1 : era ≠ "md" := fun h => he (Or.inl h)
  have h2 : era ≠ "rd" := fun h => he (Or.inr (Or.inl h))
  have h3 : era ≠ "ded" := fun h => he (Or.inr (Or.inr h))
  constructor <;>
    simp [scalarFactor, scalarFactorDerivative, checkDim_time hd, h1, h2, h3, bind, Except.bind, throw, throwThe,
      MonadExceptOf.throw]

example : ¬ KnownEra "MD" := by unfold KnownEra; decide

/-- **C55.** A quantity that is not a time is refused in every era. -/
theorem C55_wrong_unit (t : Qty) (hd : t.dim ≠ .time) (era : String) (p : ℝ) :
    scalarFactor t era p = .error .valueError ∧ scalarFactorDerivative t era p = .error .valueError := by
  constructor <;> simp [scalarFactor, scalarFactorDerivative, checkDim, hd, bind, Except.bind]

/-- **C55.** Only the duration matters, not the unit it is given in. -/
theorem C55_unit_independent (t s : Qty) (ht : t.dim = .time) (hs : s.dim = .time) (h : t.si = s.si) (era : String)
    (p : ℝ) : scalarFactor t era p = scalarFactor s era p ∧
      scalarFactorDerivative t era p = scalarFactorDerivative s era p := by
  constructor <;> simp [scalarFactor, scalarFactorDerivative, checkDim_time ht, checkDim_time hs, h, bind, Except.bind]

/-- Before the bang the matter and radiation laws give no number, and at the bang the derivative is infinite. -/
theorem C55_before_bang (t : Qty) (hd : t.dim = .time) (era : String) (he : era = "md" ∨ era = "rd") (p : ℝ) :
    (t.si < 0 → scalarFactor t era p = .error .notANumber ∧ scalarFactorDerivative t era p = .error .notANumber) ∧
    (t.si = 0 → scalarFactor t era p = .ok 0 ∧ scalarFactorDerivative t era p = .error .notANumber) := by
  rcases he with rfl | rfl
  all_goals
    refine ⟨fun h => ?_, fun h => ?_⟩
    · simp [scalarFactor, scalarFactorDerivative, checkDim_time hd, npPow_neg h, bind, Except.bind]
    · norm_num [scalarFactor, scalarFactorDerivative, checkDim_time hd, npPow, h, bind, Except.bind, pure, Except.pure]

end Einpy.Misc
