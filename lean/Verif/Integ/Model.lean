import Mathlib.Analysis.SpecialFunctions.Pow.Real
import Verif.Dual.Model

/-!
# Model of `integrators/utils.py`, `integrators/fantasy.py` and `integrators/runge_kutta.py`

Floating-point numbers are idealised as real numbers.  Four-vectors are functions `Fin 4 → ℝ`; a metric function is a
4×4 table of expressions in the coordinates with its parameters already supplied (`g(q, *g_prms)`).
-/

namespace Einpy
open Classical

/-- four-vectors -/
abbrev V4 := Fin 4 → ℝ

/-- The integrator's state `[q1, p1, q2, p2]`. -/
abbrev PS := V4 × V4 × V4 × V4

namespace PS
/-- `state[0]` -/
def q1 (s : PS) : V4 := s.1
/-- `state[1]` -/
def p1 (s : PS) : V4 := s.2.1
/-- `state[2]` -/
def q2 (s : PS) : V4 := s.2.2.1
/-- `state[3]` -/
def p2 (s : PS) : V4 := s.2.2.2
end PS

/-- Evaluation of an expression on plain numbers (the metric called with an array of floats).  The elements are numpy
floats, so a zero divisor gives `inf`/`nan`, reported as `notANumber`; the same holds for powers and logarithms outside
their domain. -/
noncomputable def Expr.evalNum {ι : Type*} (x : ι → ℝ) : Expr ι → Py ℝ
  | .var i => .ok (x i)
  | .const c => .ok c
  | .add a b => return (← a.evalNum x) + (← b.evalNum x)
  | .sub a b => return (← a.evalNum x) - (← b.evalNum x)
  | .mul a b => return (← a.evalNum x) * (← b.evalNum x)
  | .div a b => do
    let u ← a.evalNum x
    let v ← b.evalNum x
    if v = 0 then throw .notANumber else return u / v
  | .neg a => return - (← a.evalNum x)
  | .pow a p => do
    let u ← a.evalNum x
    if u = 0 ∧ p < 0 then throw .notANumber
    else if u < 0 ∧ ¬ ∃ k : ℤ, p = k then throw .notANumber
    else return u ^ p
  | .sin a => return Real.sin (← a.evalNum x)
  | .cos a => return Real.cos (← a.evalNum x)
  | .tan a => do
    let u ← a.evalNum x
    if Real.cos u = 0 then throw .notANumber else return Real.tan u
  | .log a => do
    let u ← a.evalNum x
    if u ≤ 0 then throw .notANumber else return Real.log u
  | .exp a => return Real.exp (← a.evalNum x)

/-- Run four computations in order. -/
def seq4 {α : Type*} (f : Fin 4 → Py α) : Py (Fin 4 → α) := do
  let a ← f 0
  let b ← f 1
  let c ← f 2
  let d ← f 3
  return ![a, b, c, d]

/-- `g(q, *g_prms)` on plain numbers. -/
noncomputable def evalMetric (g : MetricFn) (q : V4) : Py (Fin 4 → Fin 4 → ℝ) :=
  seq4 fun i => seq4 fun j => (g i j).evalNum q

/-- numpy `M @ v`. -/
def matVec (M : Fin 4 → Fin 4 → ℝ) (v : V4) : V4 := fun i => ∑ j, M i j * v j

/-- numpy `u @ v`. -/
def dot4 (u v : V4) : ℝ := ∑ j, u j * v j

/-- integrators/utils.py:10-43 `_PartHamFlow`: `_jacobian_g(g, g_prms, q, wrt) @ p @ p`. -/
noncomputable def partHamFlow (g : MetricFn) (q p : V4) (wrt : Fin 4) : Py ℝ := do
  let J ← jacobianG g q ((wrt : Nat) : Int)
  return dot4 (matVec J p) p

/-- integrators/utils.py:46-90 `_flow_A`, result `(q2_next, p1_next)`. -/
noncomputable def flowA (g : MetricFn) (q1 p1 q2 p2 : V4) (δ : ℝ) : Py (V4 × V4) := do
  let dp1 ← seq4 fun i => do return 0.5 * (← partHamFlow g q1 p2 i)
  let G ← evalMetric g q1
  return (fun i => q2 i + δ * matVec G p2 i, fun i => p1 i - δ * dp1 i)

/-- integrators/utils.py:93-149 `_flow_B`, result `(q1_next, p2_next)`. -/
noncomputable def flowB (g : MetricFn) (q1 p1 q2 p2 : V4) (δ : ℝ) : Py (V4 × V4) := do
  let dp2 ← seq4 fun i => do return 0.5 * (← partHamFlow g q2 p1 i)
  let G ← evalMetric g q2
  return (fun i => q1 i + δ * matVec G p1 i, fun i => p2 i - δ * dp2 i)

/-- integrators/utils.py:152-198 `_flow_mixed`, for arrays of any length. -/
noncomputable def flowMixed {ι : Type*} (q1 p1 q2 p2 : ι → ℝ) (δ ω : ℝ) :
    (ι → ℝ) × (ι → ℝ) × (ι → ℝ) × (ι → ℝ) :=
  let c := Real.cos (2 * ω * δ)
  let s := Real.sin (2 * ω * δ)
  (fun i => 0.5 * ((q1 i + q2 i) + (q1 i - q2 i) * c + (p1 i - p2 i) * s),
   fun i => 0.5 * ((p1 i + p2 i) + (p1 i - p2 i) * c - (q1 i - q2 i) * s),
   fun i => 0.5 * ((q1 i + q2 i) - (q1 i - q2 i) * c - (p1 i - p2 i) * s),
   fun i => 0.5 * ((p1 i + p2 i) - (p1 i - p2 i) * c + (q1 i - q2 i) * s))

/-- integrators/utils.py:201-219 `_Z`, result `(Z0, Z1)`; `order` is an int. -/
noncomputable def yoshidaZ (order : Int) : ℝ × ℝ :=
  let n : ℝ := ((order : ℝ) - 2) / 2
  let x : ℝ := 2 ^ (1 / (2 * n + 1))
  (-x / (2 - x), 1 / (2 - x))

/-- What an integrator object holds that its stepping methods read: metric (with parameters), `omega`, `order`. -/
structure IntegCfg where
  metric : MetricFn
  omega : ℝ
  order : Int

/-- fantasy.py:144-194 `_ord_2`.  The source evaluates each flow twice to take its two components; both evaluations are
kept. -/
noncomputable def ord2 (c : IntegCfg) (s : PS) (δ : ℝ) : Py PS := do
  let g := c.metric
  let a1 ← flowA g s.q1 s.p1 s.q2 s.p2 (0.5 * δ)
  let a1' ← flowA g s.q1 s.p1 s.q2 s.p2 (0.5 * δ)
  let HA1 : PS := (s.q1, a1.2, a1'.1, s.p2)
  let b1 ← flowB g HA1.q1 HA1.p1 HA1.q2 HA1.p2 (0.5 * δ)
  let b1' ← flowB g HA1.q1 HA1.p1 HA1.q2 HA1.p2 (0.5 * δ)
  let HB1 : PS := (b1.1, HA1.p1, HA1.q2, b1'.2)
  let HC : PS := flowMixed HB1.q1 HB1.p1 HB1.q2 HB1.p2 δ c.omega
  let b2 ← flowB g HC.q1 HC.p1 HC.q2 HC.p2 (0.5 * δ)
  let b2' ← flowB g HC.q1 HC.p1 HC.q2 HC.p2 (0.5 * δ)
  let HB2 : PS := (b2.1, HC.p1, HC.q2, b2'.2)
  let a2 ← flowA g HB2.q1 HB2.p1 HB2.q2 HB2.p2 (0.5 * δ)
  let a2' ← flowA g HB2.q1 HB2.p1 HB2.q2 HB2.p2 (0.5 * δ)
  return (HB2.q1, a2.2, a2'.1, HB2.p2)

/-- fantasy.py:196-215 `_ord_4`: the weights come from `_Z(self.order)`. -/
noncomputable def ord4 (c : IntegCfg) (s : PS) (δ : ℝ) : Py PS := do
  let Z := yoshidaZ c.order
  let s1 ← ord2 c s (δ * Z.2)
  let s2 ← ord2 c s1 (δ * Z.1)
  ord2 c s2 (δ * Z.2)

/-- fantasy.py:217-236 `_ord_6`. -/
noncomputable def ord6 (c : IntegCfg) (s : PS) (δ : ℝ) : Py PS := do
  let Z := yoshidaZ c.order
  let s1 ← ord4 c s (δ * Z.2)
  let s2 ← ord4 c s1 (δ * Z.1)
  ord4 c s2 (δ * Z.2)

/-- fantasy.py:238-257 `_ord_8`. -/
noncomputable def ord8 (c : IntegCfg) (s : PS) (δ : ℝ) : Py PS := do
  let Z := yoshidaZ c.order
  let s1 ← ord6 c s (δ * Z.2)
  let s2 ← ord6 c s1 (δ * Z.1)
  ord6 c s2 (δ * Z.2)

/-- fantasy.py:92-97, 106-111 the dispatch on `order`. -/
noncomputable def orderStep (c : IntegCfg) (s : PS) (δ : ℝ) : Py PS :=
  if c.order = 2 then ord2 c s δ
  else if c.order = 4 then ord4 c s δ
  else if c.order = 6 then ord6 c s δ
  else if c.order = 8 then ord8 c s δ
  else .error .notImplementedError

/-- fantasy.py:25-123 a `GeodesicIntegrator` object. -/
structure Integ where
  cfg : IntegCfg
  delta : ℝ
  timeLike : Bool
  rtol : ℝ
  atol : ℝ
  suppressWarnings : Bool
  stepNum : Nat
  resList : PS
  results : List PS
  /-- step numbers for which a `RuntimeWarning` was issued -/
  warned : List Nat

/-- fantasy.py:25-123 the constructor. -/
noncomputable def Integ.new (cfg : IntegCfg) (q0 p0 : V4) (timeLike : Bool) (delta rtol atol : ℝ)
    (suppressWarnings : Bool) : Py Integ :=
  if cfg.order ≠ 2 ∧ cfg.order ≠ 4 ∧ cfg.order ≠ 6 ∧ cfg.order ≠ 8 then .error .notImplementedError
  else .ok ⟨cfg, delta, timeLike, rtol, atol, suppressWarnings, 0, (q0, p0, q0, p0), [], []⟩

/-- numpy `np.allclose(a, b, rtol, atol)` on scalars. -/
def allclose (a b rtol atol : ℝ) : Prop := |a - b| ≤ atol + rtol * |b|

/-- fantasy.py:259-292 `step`. -/
noncomputable def Integ.step (I : Integ) : Py Integ := do
  let arr ← orderStep I.cfg I.resList I.delta
  let I := { I with resList := arr, stepNum := I.stepNum + 1 }
  let I ← if I.suppressWarnings then pure I else do
    let G ← evalMetric I.cfg.metric arr.q1
    let const : ℝ := if I.timeLike then -1 else 0
    if allclose (dot4 (matVec G arr.p1) arr.p1) const I.rtol I.atol then pure I
    else pure { I with warned := I.warned ++ [I.stepNum] }
  return { I with results := I.results ++ [I.resList] }

/-- `for i in steps: geodint.step()` (geodesic.py:227-228), `N` iterations. -/
noncomputable def Integ.runN : Nat → Integ → Py Integ
  | 0, I => .ok I
  | N + 1, I => do (← I.step).runN N

/-! ## runge_kutta.py -/

/-- runge_kutta.py:7-35 an `RK4naive` object over any real vector space. -/
structure RK4 (E : Type*) where
  t : ℝ
  y : E
  tBound : ℝ
  stepSize : ℝ
  func : ℝ → E → E
  direction : Int

/-- runge_kutta.py:12-35 the constructor, including the computation of `direction`. -/
noncomputable def RK4.new {E : Type*} (f : ℝ → E → E) (t0 : ℝ) (y0 : E) (tBound h : ℝ) : RK4 E :=
  ⟨t0, y0, tBound, h, f, 1 * (if tBound ≥ t0 then 1 else 0) - 1 * (if ¬ tBound < t0 then 1 else 0)⟩

/-- runge_kutta.py:37-55 `step`. -/
noncomputable def RK4.step {E : Type*} [AddCommGroup E] [Module ℝ E] (s : RK4 E) : RK4 E :=
  if (s.t ≥ s.tBound ∧ s.direction = 1) ∨ (s.t ≤ s.tBound ∧ s.direction = -1) then s
  else
    let h := s.stepSize
    let k0 := s.func s.t s.y
    let k1 := s.func (s.t + h / 2) (s.y + (h / 2) • k0)
    let k2 := s.func (s.t + h / 2) (s.y + (h / 2) • k1)
    let k3 := s.func (s.t + h) (s.y + h • k2)
    { s with y := s.y + (h / 6) • (k0 + (2 : ℝ) • k1 + (2 : ℝ) • k2 + k3), t := s.t + h }

end Einpy
