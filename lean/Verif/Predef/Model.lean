import Verif.Tensor.Lemmas2

/-!
# The predefined metrics (`symbolic/predefined/*.py`) and `symbolic/constants.py`

Expressions are elements of a field `K` (sympy expressions up to the equality decided by `simplify`).  `Fns K` supplies the
symbols and the elementary functions; nothing is assumed about them here, the theorems state the laws they need.
-/

namespace Einpy.Predef

/-- The sympy vocabulary the predefined metrics are written with. -/
structure Fns (K : Type) where
  /-- `symbols(name)` -/
  var : String → K
  sin : K → K
  cos : K → K
  sinh : K → K
  cosh : K → K
  tanh : K → K
  exp : K → K
  sqrt : K → K
  /-- `x ** y` with an exponent that is not an integer literal -/
  pow : K → K → K
  /-- `besselj(order, argument)` -/
  besselj : K → K → K
  /-- `Function(name)(argument)` -/
  fn : String → K → K
  pi : K

section
variable {K : Type} [Field K]

/-- `sympy.diag(*entries).tolist()`. -/
def diag (l : List K) : NDArr K :=
  ⟨[l.length, l.length], fun idx => match idx with
    | [i, j] => if i = j then l.getD i 0 else 0
    | _ => 0⟩

/-- `metric[i][j] = metric[j][i] = v`. -/
def setSym (a : NDArr K) (i j : Nat) (v : K) : NDArr K :=
  ⟨a.shape, fun idx => if idx = [i, j] ∨ idx = [j, i] then v else a.get idx⟩

/-- `MetricTensor(metric, coords, "ll", name=name)` (metric.py:12-43). -/
def metricTensor (a : NDArr K) (coords : List String) (name : String) : Py (MetricV K) := do
  let o ← mkKind .metric (.arr a) (.seq coords) (.str ['l', 'l']) none (some name)
  return ⟨o.arr, o.config, o.syms, o.name⟩

variable (F : Fns K)

/-- predefined/vacuum_solutions.py:7-28. -/
def schwarzschild (c sch : K) : Py (MetricV K) :=
  let r := F.var "r"
  let theta := F.var "theta"
  let val1 := 1 - sch / r
  let c2 := c ^ 2
  metricTensor (diag [val1, -1 / (val1 * c2), -(r ^ 2) / c2, -((r * F.sin theta) ^ 2) / c2]) ["t", "r", "theta", "phi"]
    "SchwarzschildMetric"

/-- predefined/vacuum_solutions.py:31-65. -/
def kerr (c sch a : K) : Py (MetricV K) :=
  let r := F.var "r"
  let theta := F.var "theta"
  let Sigma := r ^ 2 + (a ^ 2 * F.cos theta ^ 2)
  let Delta := r ^ 2 - sch * r + a ^ 2
  let c2 := c ^ 2
  let metric := diag [1 - (sch * r / Sigma), -Sigma / (Delta * c2), -Sigma / c2,
    -((r ^ 2 + a ^ 2 + (sch * r * (a ^ 2) * (F.sin theta ^ 2) / Sigma)) * (F.sin theta ^ 2)) / c2]
  let metric := setSym metric 0 3 (sch * r * a * (F.sin theta ^ 2) / (Sigma * c))
  metricTensor metric ["t", "r", "theta", "phi"] "KerrMetric"

/-- predefined/vacuum_solutions.py:68-115. -/
def kerrNewman (c G eps_0 sch a Q : K) : Py (MetricV K) :=
  let r := F.var "r"
  let theta := F.var "theta"
  let Sigma := r ^ 2 + (a ^ 2 * F.cos theta ^ 2)
  let rQsq := ((Q ^ 2) * G) / (4 * F.pi * eps_0 * (c ^ 4))
  let Delta := r ^ 2 - sch * r + a ^ 2 + rQsq
  let c2 := c ^ 2
  let metric := diag [1 + ((rQsq - sch * r) / Sigma), -Sigma / (Delta * c2), -Sigma / c2,
    (Delta * a ^ 2 * F.sin theta ^ 2 - (r ^ 2 + a ^ 2) ^ 2) * F.sin theta ^ 2 / (Sigma * c2)]
  let metric := setSym metric 0 3 ((sch * r - rQsq) * a * (F.sin theta ^ 2) / (Sigma * c))
  metricTensor metric ["t", "r", "theta", "phi"] "KerrNewmanMetric"

/-- predefined/vacuum_solutions.py:118-156. -/
def reissnerNordstorm (c G eps_0 sch Q : K) : Py (MetricV K) :=
  let r := F.var "r"
  let theta := F.var "theta"
  let rQsq := ((Q ^ 2) * G) / (4 * F.pi * eps_0 * (c ^ 4))
  let Arn := 1 - sch / r + rQsq / r ^ 2
  let c2 := c ^ 2
  metricTensor (diag [Arn, -1 / (Arn * c2), -(r ^ 2) / c2, -(r ^ 2) * F.sin theta ^ 2 / c2]) ["t", "r", "theta", "phi"]
    "ReissnerNordstormMetric"

/-- predefined/minkowski.py:7-20 (also bound to the name `Minkowski`, minkowski.py:23). -/
def minkowskiCartesian (c : K) : Py (MetricV K) :=
  metricTensor (diag [-1, 1 / (c ^ 2), 1 / (c ^ 2), 1 / (c ^ 2)]) ["t", "x", "y", "z"] "MinkowskiMetric"

/-- predefined/minkowski.py:26-41. -/
def minkowskiPolar (c : K) : Py (MetricV K) :=
  let r := F.var "r"
  let th := F.var "theta"
  let c2 := c ^ 2
  metricTensor (diag [-1, 1 / c2, (r ^ 2) / c2, (r ^ 2 * F.sin th ^ 2) / c2]) ["t", "r", "theta", "phi"]
    "MinkowskiMetricPolar"

/-- predefined/de_sitter.py:6-21. -/
def antiDeSitter : Py (MetricV K) :=
  let t := F.var "t"
  let ch := F.var "chi"
  let th := F.var "theta"
  metricTensor (diag [-1, F.cos t ^ 2, F.cos t ^ 2 * F.sinh ch ^ 2, F.cos t ^ 2 * F.sinh ch ^ 2 * F.sin th ^ 2])
    ["t", "chi", "theta", "phi"] "AntiDeSitterMetric"

/-- predefined/de_sitter.py:24-34. -/
def antiDeSitterStatic : Py (MetricV K) :=
  let r := F.var "r"
  let th := F.var "theta"
  metricTensor (diag [-F.cosh r ^ 2, 1, F.sinh r ^ 2, F.sinh r ^ 2 * F.sin th ^ 2]) ["t", "r", "theta", "phi"]
    "AntiDeSitterStaticMetric"

/-- predefined/de_sitter.py:37-49: the variable called `t` is `coords[1]`, i.e. the symbol x. -/
def deSitter : Py (MetricV K) :=
  let coords := ["t", "x", "y", "z"]
  let t := F.var (coords.getD 1 "")
  let al := F.var "alpha"
  let expr := F.exp (2 * t / al)
  metricTensor (diag [-1, expr, expr, expr]) coords "DeSitterMetric"

/-- predefined/janis_newman_winicour.py:7-36. -/
def janisNewmanWinicour (c G gam M : K) : Py (MetricV K) :=
  let r := F.var "r"
  let th := F.var "theta"
  let r_s := (2 * G * M) / (c ^ 2)
  let alpha := 1 - (r_s / (gam * r))
  metricTensor (diag [-1 * (F.pow alpha gam), F.pow alpha (-gam) / (c ^ 2), (r ^ 2) * (F.pow alpha (-gam + 1)),
    (r ^ 2) * (F.pow alpha (-gam + 1)) * (F.sin th ^ 2)]) ["t", "r", "theta", "phi"] "JanisNewmanWinicourMetric"

/-- predefined/alcubierre_warp.py:7-52. -/
def alcubierreWarp (x_s sigma R v : K) : Py (MetricV K) :=
  let x := F.var "x"
  let y := F.var "y"
  let z := F.var "z"
  let r_s := F.sqrt ((x - x_s) ^ 2 + y + z)
  let f := (F.tanh (sigma * (r_s + R)) - F.tanh (sigma * (r_s - R))) / (2 * F.tanh (sigma * R))
  let v2 := v ^ 2
  let f2 := f ^ 2
  let metric := diag [v2 * f2 - 1, 1, 1, 1]
  let metric := setSym metric 0 1 (-v * f)
  metricTensor metric ["t", "x", "y", "z"] "AlcubierreWarpMetric"

/-- predefined/barriola_vilenkin.py:7-28. -/
def barriolaVilekin (c k : K) : Py (MetricV K) :=
  let r := F.var "r"
  let th := F.var "theta"
  metricTensor (diag [-1, 1 / (c ^ 2), ((k * r) ^ 2) / (c ^ 2), ((k * r * F.sin th) ^ 2) / (c ^ 2)])
    ["t", "r", "theta", "phi"] "BarriolaVilekinMetric"

/-- predefined/bertotti_kasner.py:7-30 (the parameter `k` is not used). -/
def bertottiKasner (c _k lambd : K) : Py (MetricV K) :=
  let t := F.var "t"
  let th := F.var "theta"
  metricTensor (diag [-1, F.exp (2 * F.sqrt lambd * c * t) / (c ^ 2), 1 / (lambd * (c ^ 2)),
    (F.sin th ^ 2) / (lambd * (c ^ 2))]) ["t", "r", "theta", "phi"] "BertottiKasnerMetric"

/-- predefined/bessel_gravitational_wave.py:7-45; `besselj(rho, 0)` is the Bessel function of order rho at 0. -/
def besselGravitationalWave (C : K) : Py (MetricV K) :=
  let t := F.var "t"
  let rho := F.var "rho"
  let U := C * F.besselj rho 0 * F.cos t
  let W := (1 / 2) * (C ^ 2) * rho * ((rho * ((F.besselj rho 0 ^ 2) + (F.besselj rho 1 ^ 2)))
    - (2 * F.besselj rho 0 * F.besselj rho 1 * (F.cos t ^ 2)))
  metricTensor (diag [-1 * F.exp (-2 * U) * F.exp (2 * W), F.exp (-2 * U) * F.exp (2 * W), F.exp (-2 * U) * (rho ^ 2),
    F.exp (2 * U)]) ["t", "rho", "phi", "z"] "BesselGravitationalWaveMetric"

/-- predefined/cmetric.py:6-21. -/
def cMetric : Py (MetricV K) :=
  let x := F.var "x"
  let y := F.var "y"
  let f := F.fn "f" x
  let h := F.fn "h" y
  metricTensor (diag [-h / (x + y) ^ 2, 1 / ((x + y) ^ 2 * f), 1 / ((x + y) ^ 2 * h), f / (x + y) ^ 2])
    ["t", "x", "y", "phi"] "CMetric"

/-- predefined/davidson.py:6-20. -/
def davidson : Py (MetricV K) :=
  let t := F.var "t"
  let r := F.var "r"
  let expr := F.pow (1 + r ^ 2) (2 / 5)
  metricTensor (diag [-(expr ^ 3), F.pow t (4 / 3) * expr, F.pow t (-2 / 3) / expr, F.pow t (4 / 3) * r ^ 2 / expr])
    ["t", "r", "z", "phi"] "DavidsonMetric"

/-- predefined/ernst.py:7-34. -/
def ernst (B M : K) : Py (MetricV K) :=
  let r := F.var "r"
  let th := F.var "theta"
  let lambd := 1 + ((B * r * F.sin th) ^ 2)
  let w := 1 - ((2 * M) / r)
  metricTensor (diag [-1 * (lambd ^ 2) * w, (lambd ^ 2) / w, ((r * lambd) ^ 2), (((r * F.sin th) / lambd) ^ 2)])
    ["t", "r", "theta", "phi"] "ErnstMetric"

/-- predefined/godel.py:6-19. -/
def godel : Py (MetricV K) :=
  let om := F.var "omega"
  let x := F.var "x"
  let metric := diag [-1, 1, -(1 / 2) * F.exp (2 * F.sqrt 2 * om * x), 1]
  let metric := setSym metric 0 2 (-F.exp (F.sqrt 2 * om * x))
  metricTensor metric ["t", "x", "y", "z"] "GodelMetric"

end

/-! ## what the constructors return -/

section
variable {K : Type} [Field K]

/-- The predefined function returned a covariant metric with the components `g` in the coordinates `coords`. -/
def Returns (p : Py (MetricV K)) (coords : List String) (g : Matrix (Fin 4) (Fin 4) K) : Prop :=
  ∃ m, p = .ok m ∧ m.arr.shape = [4, 4] ∧ m.config = ['l', 'l'] ∧ m.syms = coords ∧ m.arr.toMatrix 4 = g

theorem Returns.inj {p : Py (MetricV K)} {c c' : List String} {g g' : Matrix (Fin 4) (Fin 4) K} (h : Returns p c g)
    (h' : Returns p c' g') : c = c' ∧ g = g' := by
  obtain ⟨m, e, -, -, h1, h2⟩ := h
  obtain ⟨m', e', -, -, h1', h2'⟩ := h'
  rw [e] at e'
  have := Except.ok.inj e'
  subst this
  exact ⟨h1.symm.trans h1', h2.symm.trans h2'⟩

theorem metricTensor_ok (a : NDArr K) (coords : List String) (name : String) (ha : a.shape = [4, 4])
    (hc : coords.length = 4) : Returns (metricTensor a coords name) coords (a.toMatrix 4) := by
  refine ⟨⟨a, ['l', 'l'], coords, some name⟩, ?_, ha, rfl, rfl, rfl⟩
  unfold metricTensor
  rw [mkKind_cube (n := 4) .metric a ['l', 'l'] coords none (some name) (by intro c h; simp at h; tauto) ha hc rfl]
  rfl

theorem returns_diag (a b c d : K) (coords : List String) (name : String) (hc : coords.length = 4) :
    Returns (metricTensor (diag [a, b, c, d]) coords name) coords (Matrix.diagonal ![a, b, c, d]) := by
  have := metricTensor_ok (diag [a, b, c, d]) coords name rfl hc
  convert this using 1
  ext i j
  rw [Matrix.diagonal_apply]
  fin_cases i <;> fin_cases j <;> rfl

theorem returns_sym03 (a b c d e : K) (coords : List String) (name : String) (hc : coords.length = 4) :
    Returns (metricTensor (setSym (diag [a, b, c, d]) 0 3 e) coords name) coords
      !![a, 0, 0, e; 0, b, 0, 0; 0, 0, c, 0; e, 0, 0, d] := by
  have := metricTensor_ok (setSym (diag [a, b, c, d]) 0 3 e) coords name rfl hc
  convert this using 1
  ext i j
  fin_cases i <;> fin_cases j <;> rfl

theorem returns_sym01 (a b c d e : K) (coords : List String) (name : String) (hc : coords.length = 4) :
    Returns (metricTensor (setSym (diag [a, b, c, d]) 0 1 e) coords name) coords
      !![a, e, 0, 0; e, b, 0, 0; 0, 0, c, 0; 0, 0, 0, d] := by
  have := metricTensor_ok (setSym (diag [a, b, c, d]) 0 1 e) coords name rfl hc
  convert this using 1
  ext i j
  fin_cases i <;> fin_cases j <;> rfl

theorem returns_sym02 (a b c d e : K) (coords : List String) (name : String) (hc : coords.length = 4) :
    Returns (metricTensor (setSym (diag [a, b, c, d]) 0 2 e) coords name) coords
      !![a, 0, e, 0; 0, b, 0, 0; e, 0, c, 0; 0, 0, 0, d] := by
  have := metricTensor_ok (setSym (diag [a, b, c, d]) 0 2 e) coords name rfl hc
  convert this using 1
  ext i j
  fin_cases i <;> fin_cases j <;> rfl

end

end Einpy.Predef
