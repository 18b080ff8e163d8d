import Mathlib.Algebra.MvPolynomial.Derivation
import Mathlib.Algebra.Module.LinearMap.Rat
import Mathlib.RingTheory.Localization.FractionRing
import Mathlib.Algebra.TrivSqZeroExt.Basic
import Mathlib.Data.Real.Sqrt
import Mathlib.Algebra.Algebra.Rat
import Mathlib.RingTheory.MvPolynomial.Basic

/-!
# A concrete differential field for the non-vacuity examples of the curvature properties

Rational functions with real coefficients in named generators; a derivation is given by its values on the generators.
-/

namespace Einpy.Predef

/-- polynomials in named generators -/
abbrev Poly := MvPolynomial String ℝ

/-- rational functions in named generators -/
def Rat0 := FractionRing Poly

noncomputable section

instance : Field Rat0 := inferInstanceAs (Field (FractionRing Poly))
instance : DecidableEq Rat0 := Classical.decEq _
instance : Algebra Poly Rat0 := inferInstanceAs (Algebra Poly (FractionRing Poly))
instance : IsFractionRing Poly Rat0 := inferInstanceAs (IsFractionRing Poly (FractionRing Poly))
instance : Algebra ℝ Rat0 := ((algebraMap Poly Rat0).comp (algebraMap ℝ Poly)).toAlgebra
instance : IsScalarTower ℝ Poly Rat0 := IsScalarTower.of_algebraMap_eq fun _ => rfl
instance : CharZero Rat0 := ⟨fun m n h => by
  have h2 : algebraMap ℝ Rat0 (m:ℝ) = algebraMap ℝ Rat0 (n:ℝ) := by rwa [map_natCast, map_natCast]
  exact Nat.cast_injective ((algebraMap ℝ Rat0).injective h2)⟩

/-- a generator -/
def gen (s : String) : Rat0 := algebraMap Poly Rat0 (MvPolynomial.X s)

/-- the derivation of polynomials with given values on the generators -/
def preD (f : String → Rat0) : Derivation ℝ Poly Rat0 := MvPolynomial.mkDerivation ℝ f

/-- p ↦ p + ε p' -/
def toDual (f : String → Rat0) : Poly →+* TrivSqZeroExt Rat0 Rat0 where
  toFun p := TrivSqZeroExt.inl (algebraMap Poly Rat0 p) + TrivSqZeroExt.inr (preD f p)
  map_one' := by ext <;> simp
  map_zero' := by ext <;> simp
  map_add' p q := by ext <;> simp
  map_mul' p q := by
    ext
    · simp
    · simp [Algebra.smul_def, mul_comm]

/-- x ↦ x + ε x' on rational functions -/
def toDualF (f : String → Rat0) : Rat0 →+* TrivSqZeroExt Rat0 Rat0 :=
  IsLocalization.lift (M := nonZeroDivisors Poly) (g := toDual f) fun y => by
    rw [TrivSqZeroExt.isUnit_iff_isUnit_fst]
    have : (toDual f y).fst = algebraMap Poly Rat0 y := by simp [toDual]
    rw [this]
    exact IsLocalization.map_units Rat0 y

theorem toDualF_algebraMap (f : String → Rat0) (p : Poly) : toDualF f (algebraMap Poly Rat0 p) = toDual f p :=
  IsLocalization.lift_eq _ _

theorem toDualF_fst (f : String → Rat0) (x : Rat0) : (toDualF f x).fst = x := by
  have h : ((TrivSqZeroExt.fstHom ℝ Rat0 Rat0).toRingHom.comp (toDualF f)) = RingHom.id Rat0 := by
    refine IsLocalization.ringHom_ext (nonZeroDivisors Poly) ?_
    refine RingHom.ext fun p => ?_
    show (toDualF f (algebraMap Poly Rat0 p)).fst = algebraMap Poly Rat0 p
    rw [toDualF_algebraMap]
    simp [toDual]
  exact congrArg (fun g : Rat0 →+* Rat0 => g x) h

/-- the derivation of rational functions with given values on the generators -/
def mkD (f : String → Rat0) : Derivation ℚ Rat0 Rat0 :=
  Derivation.mk' (AddMonoidHom.toRatLinearMap
    { toFun := fun x => (toDualF f x).snd
      map_zero' := by simp
      map_add' := fun x y => by simp }) fun x y => by
    show (toDualF f (x * y)).snd = x • (toDualF f y).snd + y • (toDualF f x).snd
    rw [map_mul, TrivSqZeroExt.snd_mul, toDualF_fst, toDualF_fst]
    simp [mul_comm]

theorem mkD_gen (f : String → Rat0) (s : String) : mkD f (gen s) = f s := by
  show (toDualF f (gen s)).snd = f s
  unfold gen
  rw [toDualF_algebraMap]
  simp [toDual, preD]

theorem mkD_real (f : String → Rat0) (x : ℝ) : mkD f (algebraMap ℝ Rat0 x) = 0 := by
  show (toDualF f (algebraMap ℝ Rat0 x)).snd = 0
  rw [IsScalarTower.algebraMap_apply ℝ Poly Rat0, toDualF_algebraMap]
  simp [toDual]

theorem gen_inj {s t : String} (h : gen s = gen t) : s = t :=
  MvPolynomial.X_injective (IsFractionRing.injective Poly Rat0 h)

theorem gen_ne (s : String) : gen s ≠ 0 := by
  intro h
  have : (MvPolynomial.X s : Poly) = 0 := IsFractionRing.injective Poly Rat0 (by rw [map_zero]; exact h)
  exact MvPolynomial.X_ne_zero s this

end
end Einpy.Predef
