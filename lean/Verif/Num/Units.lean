import Verif.Num.Props4

/-!
# Units of the constructor arguments (`quantity_input`, `primitive`) and property C72

Only arguments that are astropy quantities are modelled.  `u.quantity_input` checks that the unit of the argument is
convertible to the declared unit (otherwise `UnitsError`, a `ValueError`) and passes the argument on unconverted; the
methods then read the bare `.value`.
-/

namespace Einpy.Num
open Classical

variable (k : PhysConst)

/-- Physical dimensions that occur in the constructor signatures (base_metric.py:41, schwarzschild.py:17, kerr.py:17,
kerrnewman.py:19). -/
inductive Dim
  | mass | one | charge | chargePerMass | other
  deriving DecidableEq

/-- An astropy quantity: a number and a unit; the unit is its dimension and its size in SI units. -/
structure Quantity where
  value : ℝ
  scale : ℝ
  dim : Dim
  scale_pos : 0 < scale

/-- The number `q.si.value`. -/
def Quantity.si (q : Quantity) : ℝ := q.value * q.scale

/-- `@u.quantity_input(arg=unit)` for one argument: base_metric.py:41, schwarzschild.py:16, kerr.py:16, kerrnewman.py:18. -/
def quantityInput (q : Quantity) (d : Dim) : Py Quantity := if q.dim = d then .ok q else .error .valueError

/-- units.py:8-31 `primitive` on one quantity: `item.value`, in whatever unit it was given. -/
def primitive (q : Quantity) : ℝ := q.value

/-- schwarzschild.py:16-37 -/
noncomputable def Schwarzschild.make (system : String) (M : Quantity) : Py NumMetric := do
  let M ← quantityInput M .mass
  return Schwarzschild.new k system (primitive M)

/-- kerr.py:16-40 -/
noncomputable def Kerr.make (system : String) (M a : Quantity) : Py NumMetric := do
  let M ← quantityInput M .mass
  let a ← quantityInput a .one
  return Kerr.new k system (primitive M) (primitive a)

/-- kerrnewman.py:18-52 -/
noncomputable def KerrNewman.make (system : String) (M a Q q : Quantity) : Py NumMetric := do
  let M ← quantityInput M .mass
  let a ← quantityInput a .one
  let Q ← quantityInput Q .charge
  let q ← quantityInput q .chargePerMass
  return KerrNewman.new k system (primitive M) (primitive a) (primitive Q) (primitive q)

/-- **C72**: the constructors refuse arguments of the wrong dimension and accept all others. -/
theorem C72_dimension_checked (s : String) (M a Q q : Quantity) :
    ((∃ m, KerrNewman.make k s M a Q q = .ok m) ↔
      M.dim = .mass ∧ a.dim = .one ∧ Q.dim = .charge ∧ q.dim = .chargePerMass) ∧
    (∀ e, KerrNewman.make k s M a Q q = .error e → e = .valueError) ∧
    ((∃ m, Kerr.make k s M a = .ok m) ↔ M.dim = .mass ∧ a.dim = .one) ∧
    ((∃ m, Schwarzschild.make k s M = .ok m) ↔ M.dim = .mass) := by
  unfold KerrNewman.make Kerr.make Schwarzschild.make quantityInput
  by_cases h1 : M.dim = .mass <;> by_cases h2 : a.dim = .one <;> by_cases h3 : Q.dim = .charge <;>
    by_cases h4 : q.dim = .chargePerMass <;> simp [h1, h2, h3, h4, bind, Except.bind, pure, Except.pure] <;>
    first
      | exact fun e h => h.symm
      | skip

/-- **C72 (SI units only)**: with every argument in SI units the object is built from the physical values. -/
theorem C72_si_partial {s : String} {M a Q q : Quantity} {m : NumMetric} (h : KerrNewman.make k s M a Q q = .ok m)
    (hM : M.scale = 1) (ha : a.scale = 1) (hQ : Q.scale = 1) (hq : q.scale = 1) :
    m.M = M.si ∧ m.a = a.si ∧ m.Q = Q.si ∧ m.q = q.si ∧ m.schRad = 2 * k.G * M.si / k.c ^ 2 ∧ m.system = s := by
  unfold KerrNewman.make quantityInput at h
  simp only [bind, Except.bind, pure, Except.pure] at h
  split_ifs at h
  simp only at h
  rw [← Except.ok.inj h]
  unfold Quantity.si
  rw [hM, ha, hQ, hq, mul_one, mul_one, mul_one, mul_one]
  exact ⟨rfl, rfl, rfl, rfl, rfl, rfl⟩

/-- **C72 (SI units only)** for the other two constructors. -/
theorem C72_si_kerr_partial {s : String} {M a : Quantity} :
    (∀ m, Kerr.make k s M a = .ok m → M.scale = 1 → a.scale = 1 →
      m.M = M.si ∧ m.a = a.si ∧ m.Q = 0 ∧ m.schRad = 2 * k.G * M.si / k.c ^ 2 ∧ m.system = s) ∧
    (∀ m, Schwarzschild.make k s M = .ok m → M.scale = 1 →
      m.M = M.si ∧ m.a = 0 ∧ m.Q = 0 ∧ m.schRad = 2 * k.G * M.si / k.c ^ 2 ∧ m.system = s) := by
  constructor
  · intro m h hM ha
    unfold Kerr.make quantityInput at h
    simp only [bind, Except.bind, pure, Except.pure] at h
    split_ifs at h
    simp only at h
    rw [← Except.ok.inj h]
    unfold Quantity.si
    rw [hM, ha, mul_one, mul_one]
    exact ⟨rfl, rfl, rfl, rfl, rfl⟩
  · intro m h hM
    unfold Schwarzschild.make quantityInput at h
    simp only [bind, Except.bind, pure, Except.pure] at h
    split_ifs at h
    simp only at h
    rw [← Except.ok.inj h]
    unfold Quantity.si
    rw [hM, mul_one]
    exact ⟨rfl, rfl, rfl, rfl, rfl⟩

/-- **C72 is false of this commit**: two descriptions of the same positive mass in different units give two different
objects; they agree only if the units have the same size. -/
theorem C72_refuted_iff {s : String} {M M' : Quantity} {m m' : NumMetric} (h : Schwarzschild.make k s M = .ok m)
    (h' : Schwarzschild.make k s M' = .ok m') (hsame : M.si = M'.si) (hM : M.si ≠ 0) :
    (m.schRad = m'.schRad ↔ M.scale = M'.scale) ∧ (m = m' ↔ M.scale = M'.scale) := by
  unfold Schwarzschild.make quantityInput at h h'
  simp only [bind, Except.bind, pure, Except.pure] at h h'
  split_ifs at h h'
  simp only at h h'
  rw [← Except.ok.inj h, ← Except.ok.inj h']
  have hv : M.value = M'.value ↔ M.scale = M'.scale := by
    unfold Quantity.si at hsame hM
    have hv : M.value ≠ 0 := left_ne_zero_of_mul hM
    constructor
    · intro e; rw [← e] at hsame; exact mul_left_cancel₀ hv hsame
    · intro e; rw [← e] at hsame; exact mul_right_cancel₀ M.scale_pos.ne' hsame
  have hr : schwarzschildRadius k M.value = schwarzschildRadius k M'.value ↔ M.value = M'.value := by
    unfold schwarzschildRadius
    have h2 : (2 * k.G / k.c ^ 2) ≠ 0 := by have := k.G_pos; have := k.c_pos; positivity
    rw [show 2 * k.G * M.value / k.c ^ 2 = (2 * k.G / k.c ^ 2) * M.value by ring,
      show 2 * k.G * M'.value / k.c ^ 2 = (2 * k.G / k.c ^ 2) * M'.value by ring]
    exact ⟨fun e => mul_left_cancel₀ h2 e, fun e => by rw [e]⟩
  refine ⟨hr.trans hv, ?_⟩
  constructor
  · intro e
    exact hv.mp (congrArg NumMetric.M e)
  · intro e
    have := hv.mpr e
    show Schwarzschild.new k s M.value = Schwarzschild.new k s M'.value
    rw [this]

/-- One tonne is a thousand kilogrammes, and the radius comes out a thousand times too small. -/
example : ∃ m m', Schwarzschild.make k "Spherical" ⟨1, 1000, .mass, by norm_num⟩ = .ok m ∧
    Schwarzschild.make k "Spherical" ⟨1000, 1, .mass, one_pos⟩ = .ok m' ∧ m'.schRad = 1000 * m.schRad := by
  refine ⟨_, _, rfl, rfl, ?_⟩
  show 2 * k.G * 1000 / k.c ^ 2 = 1000 * (2 * k.G * 1 / k.c ^ 2)
  ring

end Einpy.Num
