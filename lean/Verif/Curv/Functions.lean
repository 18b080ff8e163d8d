import Mathlib.Analysis.Calculus.ContDiff.Operations
import Mathlib.Analysis.Calculus.FDeriv.Symmetric
import Mathlib.Topology.Sets.Opens
import Mathlib.Analysis.Calculus.Deriv.Pi
import Mathlib.Analysis.Calculus.Deriv.Comp
import Verif.Curv.Space

/-!
# The ring of smooth functions on an open set of `ℝⁿ`, with its partial derivatives
-/

namespace Einpy.Fn
open Classical
open scoped Topology ContDiff

/-! ## specification: classical formulas with real derivatives -/

/-- Partial derivative of a function of `n` real variables. -/
noncomputable def pd {n : ℕ} (F : (Fin n → ℝ) → ℝ) (k : Fin n) (x : Fin n → ℝ) : ℝ := deriv (fun s => F (Function.update x k s)) (x k)

variable {n : ℕ}

/-- `Γ^i_jk = ½ Σ_l g^il (∂_k g_lj + ∂_j g_lk - ∂_l g_jk)` -/
noncomputable def christoffel (G : Fin n → Fin n → (Fin n → ℝ) → ℝ) (i j k : Fin n) (x : Fin n → ℝ) : ℝ :=
  1 / 2 * ∑ l, (Matrix.of fun a b => G a b x)⁻¹ i l * (pd (G l j) k x + pd (G l k) j x - pd (G j k) l x)

/-- `R^t_srk = ∂_r Γ^t_sk - ∂_k Γ^t_sr + Σ_p (Γ^p_sk Γ^t_pr - Γ^p_sr Γ^t_pk)` -/
noncomputable def riemann (G : Fin n → Fin n → (Fin n → ℝ) → ℝ) (t s r k : Fin n) (x : Fin n → ℝ) : ℝ :=
  pd (christoffel G t s k) r x - pd (christoffel G t s r) k x +
    ∑ p, (christoffel G p s k x * christoffel G t p r x - christoffel G p s r x * christoffel G t p k x)

/-- `R_ab = Σ_t R^t_atb` -/
noncomputable def ricci (G : Fin n → Fin n → (Fin n → ℝ) → ℝ) (a b : Fin n) (x : Fin n → ℝ) : ℝ := ∑ t, riemann G t a t b x

/-- `R = Σ g^ab R_ab` -/
noncomputable def scalar (G : Fin n → Fin n → (Fin n → ℝ) → ℝ) (x : Fin n → ℝ) : ℝ :=
  ∑ a, ∑ b, (Matrix.of fun a b => G a b x)⁻¹ a b * ricci G a b x

/-- `G_ab = R_ab - ½ R g_ab` -/
noncomputable def einstein (G : Fin n → Fin n → (Fin n → ℝ) → ℝ) (a b : Fin n) (x : Fin n → ℝ) : ℝ :=
  ricci G a b x - 1 / 2 * scalar G x * G a b x

/-- `S_ab = (R_ab - R g_ab/(2(n-1)))/(n-2)` -/
noncomputable def schouten (G : Fin n → Fin n → (Fin n → ℝ) → ℝ) (a b : Fin n) (x : Fin n → ℝ) : ℝ :=
  ((n : ℝ) - 2)⁻¹ * (ricci G a b x - (2 * ((n : ℝ) - 1))⁻¹ * (scalar G x * G a b x))

/-- `C_iklm = g_it R^t_klm + (R_im g_kl - R_il g_km + R_kl g_im - R_km g_il)/(n-2) + R (g_il g_km - g_im g_kl)/((n-1)(n-2))` -/
noncomputable def weyl (G : Fin n → Fin n → (Fin n → ℝ) → ℝ) (i k l m : Fin n) (x : Fin n → ℝ) : ℝ :=
  ∑ t, G i t x * riemann G t k l m x +
    ((n : ℝ) - 2)⁻¹ * (ricci G i m x * G k l x - ricci G i l x * G k m x + ricci G k l x * G i m x - ricci G k m x * G i l x) +
    (((n : ℝ) - 1) * ((n : ℝ) - 2))⁻¹ * (scalar G x * (G i l x * G k m x - G i m x * G k l x))

/-! ## the ring -/

variable (U : TopologicalSpace.Opens (Fin n → ℝ))

/-- Extension by zero. -/
noncomputable def ext (f : U → ℝ) : (Fin n → ℝ) → ℝ := fun x => if h : x ∈ U then f ⟨x, h⟩ else 0

variable {U} in
theorem ext_of {f : U → ℝ} (x : U) : ext U f x = f x := by simp [ext]

variable {U} in
theorem ext_near {f : U → ℝ} {F : (Fin n → ℝ) → ℝ} (h : ∀ x : U, f x = F x) : ∀ x ∈ U, ext U f x = F x := fun x hx => by
  rw [ext_of ⟨x, hx⟩, h]

/-- The smooth functions on `U`. -/
def SmoothFn : Subalgebra ℚ (U → ℝ) where
  carrier := {f | ContDiffOn ℝ ∞ (ext U f) U}
  mul_mem' {f g} hf hg := by
    refine (ContDiffOn.mul hf hg).congr ?_
    exact ext_near fun x => by simp [ext_of]
  add_mem' {f g} hf hg := by
    refine (ContDiffOn.add hf hg).congr ?_
    exact ext_near fun x => by simp [ext_of]
  algebraMap_mem' q := by
    refine (contDiffOn_const (c := (q : ℝ))).congr ?_
    exact ext_near fun x => by simp

variable {U}

/-- The restriction of a function smooth on `U`. -/
def ofFn (F : (Fin n → ℝ) → ℝ) (h : ContDiffOn ℝ ∞ F U) : SmoothFn U :=
  ⟨fun x => F x, h.congr (ext_near fun _ => rfl)⟩

theorem smoothAt (f : SmoothFn U) (x : U) : ContDiffAt ℝ ∞ (ext U f.1) x := (f.2 : ContDiffOn ℝ ∞ (ext U f.1) U).contDiffAt (U.isOpen.mem_nhds x.2)

/-- the derivative along `e_k` -/
noncomputable def slope (f : SmoothFn U) (k : Fin n) (x : Fin n → ℝ) : ℝ := fderiv ℝ (ext U f.1) x (Pi.single k 1)

theorem slope_eq (f : SmoothFn U) (k : Fin n) (x : U) : slope f k x = pd (ext U f.1) k x := by
  have h1 := ((smoothAt f x).differentiableAt (by simp)).hasFDerivAt
  have h2 := hasDerivAt_update (x : Fin n → ℝ) k ((x : Fin n → ℝ) k)
  have h3 : HasFDerivAt (ext U f.1) (fderiv ℝ (ext U f.1) x) (Function.update (x : Fin n → ℝ) k ((x : Fin n → ℝ) k)) := by
    rw [Function.update_eq_self]; exact h1
  exact (h3.comp_hasDerivAt _ h2).deriv.symm

theorem slope_smooth (f : SmoothFn U) (k : Fin n) : ContDiffOn ℝ ∞ (slope f k) U := by
  have h : ContDiffOn ℝ ∞ (fderiv ℝ (ext U f.1)) U := ContDiffOn.fderiv_of_isOpen f.2 U.isOpen (by simp)
  exact h.clm_apply contDiffOn_const

theorem ext_eventually {f : U → ℝ} {F : (Fin n → ℝ) → ℝ} (h : ∀ x : U, f x = F x) (x : U) : ext U f =ᶠ[𝓝 (x : Fin n → ℝ)] F :=
  Filter.eventually_of_mem (U.isOpen.mem_nhds x.2) (ext_near h)

theorem slope_of (f : SmoothFn U) (F : (Fin n → ℝ) → ℝ) (h : ∀ x : U, f.1 x = F x) (k : Fin n) (x : U) :
    slope f k x = fderiv ℝ F x (Pi.single k 1) := by
  unfold slope
  rw [(ext_eventually h x).fderiv_eq]

/-- The partial derivative as a derivation of the ring. -/
noncomputable def partialD (U : TopologicalSpace.Opens (Fin n → ℝ)) (k : Fin n) : Derivation ℚ (SmoothFn U) (SmoothFn U) where
  toFun f := ofFn (slope f k) (slope_smooth f k)
  map_add' f g := by
    refine Subtype.ext (funext fun x => ?_)
    show slope (f + g) k x = slope f k x + slope g k x
    rw [slope_of (f + g) (fun x => ext U f.1 x + ext U g.1 x) (fun x => by simp [ext_of]) k x,
      fderiv_fun_add ((smoothAt f x).differentiableAt (by simp)) ((smoothAt g x).differentiableAt (by simp))]
    rfl
  map_smul' q f := by
    refine Subtype.ext (funext fun x => ?_)
    show slope (q • f) k x = q • slope f k x
    rw [slope_of (q • f) (fun x => (q : ℝ) * ext U f.1 x) (fun x => by simp [ext_of, Algebra.smul_def]) k x,
      fderiv_const_mul ((smoothAt f x).differentiableAt (by simp))]
    simp [slope, Algebra.smul_def]
  map_one_eq_zero' := by
    refine Subtype.ext (funext fun x => ?_)
    show slope (1 : SmoothFn U) k x = 0
    rw [slope_of (1 : SmoothFn U) (fun _ => 1) (fun x => rfl) k x]
    simp
  leibniz' f g := by
    refine Subtype.ext (funext fun x => ?_)
    show slope (f * g) k x = f.1 x * slope g k x + g.1 x * slope f k x
    rw [slope_of (f * g) (fun x => ext U f.1 x * ext U g.1 x) (fun x => by simp [ext_of]) k x,
      fderiv_fun_mul ((smoothAt f x).differentiableAt (by simp)) ((smoothAt g x).differentiableAt (by simp))]
    simp [slope, ext_of]

theorem partialD_val (f : SmoothFn U) (k : Fin n) (x : U) : (partialD U k f).1 x = slope f k x := rfl

theorem pd_congr {F G : (Fin n → ℝ) → ℝ} {x : Fin n → ℝ} (h : F =ᶠ[𝓝 x] G) (k : Fin n) : pd F k x = pd G k x := by
  have hc : Continuous fun s : ℝ => Function.update x k s := by fun_prop
  have h3 := hc.tendsto (x k)
  rw [Function.update_eq_self] at h3
  exact Filter.EventuallyEq.deriv_eq (h3.eventually h)

theorem partialD_pd (f : SmoothFn U) (F : (Fin n → ℝ) → ℝ) (h : ∀ x : U, f.1 x = F x) (k : Fin n) (x : U) :
    (partialD U k f).1 x = pd F k x := by
  rw [partialD_val, slope_eq, pd_congr (ext_eventually h x)]

theorem partialD_comm (i j : Fin n) (f : SmoothFn U) : partialD U i (partialD U j f) = partialD U j (partialD U i f) := by
  refine Subtype.ext (funext fun x => ?_)
  have key : ∀ a b : Fin n, (partialD U a (partialD U b f)).1 x = fderiv ℝ (fderiv ℝ (ext U f.1)) x (Pi.single a 1) (Pi.single b 1) := by
    intro a b
    rw [partialD_val, slope_of (partialD U b f) (slope f b) (fun x => rfl) a x]
    have h2 : DifferentiableAt ℝ (fderiv ℝ (ext U f.1)) x :=
      ((smoothAt f x).fderiv_right (m := 1) (by norm_cast)).differentiableAt (by norm_num)
    unfold slope
    rw [fderiv_clm_apply h2 (differentiableAt_const _)]
    simp
  rw [key, key]
  exact ((smoothAt f x).isSymmSndFDerivAt (by simp; norm_cast)).eq _ _

/-- Evaluation at a point. -/
noncomputable def ev (x : U) : SmoothFn U →+* ℝ := (Pi.evalRingHom (fun _ : U => ℝ) x).comp (SmoothFn U).val.toRingHom

theorem isUnit_of (f : SmoothFn U) (h : ∀ x : U, f.1 x ≠ 0) : IsUnit f := by
  refine IsUnit.of_mul_eq_one (ofFn (fun x => (ext U f.1 x)⁻¹) (ContDiffOn.inv f.2 fun x hx => ?_)) ?_
  · rw [ext_of ⟨x, hx⟩]; exact h _
  · refine Subtype.ext (funext fun x => ?_)
    show f.1 x * (ext U f.1 x)⁻¹ = 1
    rw [ext_of, mul_inv_cancel₀ (h x)]

theorem inv_ev (g : Matrix (Fin n) (Fin n) (SmoothFn U)) (hu : IsUnit g.det) (x : U) (i j : Fin n) :
    (g⁻¹ i j).1 x = (Matrix.of fun a b => (g a b).1 x)⁻¹ i j := by
  have h : (g.map (ev x)) * (g⁻¹).map (ev x) = 1 := by
    rw [← Matrix.map_mul, Matrix.mul_nonsing_inv _ hu]
    exact Matrix.map_one _ (map_zero _) (map_one _)
  have := Matrix.inv_eq_right_inv h
  have e := congrFun (congrFun this i) j
  exact e.symm

/-- `sympy.diff` for expressions that denote smooth functions of the coordinates `names`: the `k`-th name means the partial derivative along the
`k`-th coordinate, any other name is a symbol the functions do not contain. -/
noncomputable def diffD (U : TopologicalSpace.Opens (Fin n → ℝ)) (names : List String) : String → Derivation ℚ (SmoothFn U) (SmoothFn U) := fun s =>
  if h : names.idxOf s < n then partialD U ⟨names.idxOf s, h⟩ else 0

theorem coordD_diffD {names : List String} (hl : names.length = n) (hn : names.Nodup) (k : Fin n) :
    coordD (diffD U names) names n k = partialD U k := by
  have hk : (k : ℕ) < names.length := by rw [hl]; exact k.2
  have e : names.idxOf (names.getD k "") = k := by
    rw [List.getD_eq_getElem _ _ hk]
    exact List.Nodup.idxOf_getElem hn k hk
  unfold coordD diffD
  rw [dif_pos (by rw [e]; exact k.2)]
  congr 1
  exact Fin.ext e

/-- The metric object `m`, whose expressions denote smooth functions on `U`, has the covariant components `G`; its coordinates have different
names. -/
structure Describes (m : MetricV (SmoothFn U)) (G : Fin n → Fin n → (Fin n → ℝ) → ℝ) : Prop where
  names : m.syms.Nodup
  space : ∃ g : Matrix (Fin n) (Fin n) (SmoothFn U), IsSpace m g ∧ ∀ i j (x : U), (g i j).1 x = G i j x

section
variable {g : Matrix (Fin n) (Fin n) (SmoothFn U)} {G : Fin n → Fin n → (Fin n → ℝ) → ℝ} (hu : IsUnit g.det) (hG : ∀ i j (x : U), (g i j).1 x = G i j x)
include hu hG

theorem christoffel_val (i j k : Fin n) (x : U) : (Geo.christoffel (partialD U) g i j k).1 x = christoffel G i j k x := by
  have e : ∀ x : U, (Matrix.of fun a b => (g a b).1 x) = Matrix.of fun a b => G a b x := fun x => by ext a b; exact hG a b x
  unfold Geo.christoffel Geo.half christoffel
  have h1 : ∀ l, (g⁻¹ i l * (partialD U k (g l j) + partialD U j (g l k) - partialD U l (g j k))).1 x =
      (Matrix.of fun a b => G a b x)⁻¹ i l * (pd (G l j) k x + pd (G l k) j x - pd (G j k) l x) := by
    intro l
    rw [← e, ← inv_ev g hu, ← partialD_pd (g l j) _ (hG l j), ← partialD_pd (g l k) _ (hG l k), ← partialD_pd (g j k) _ (hG j k)]
    rfl
  have h2 : ∀ f : SmoothFn U, (((2 : ℚ)⁻¹) • f).1 x = 1 / 2 * f.1 x := by
    intro f
    show ((2 : ℚ)⁻¹) • f.1 x = _
    rw [Algebra.smul_def]; norm_num
  have h3 : ∀ F : Fin n → SmoothFn U, (∑ l, F l).1 x = ∑ l, (F l).1 x := fun F => map_sum (ev x) F _
  rw [h2, h3]
  simp only [h1]

omit hu hG in
theorem ev_smul (x : U) (q : ℚ) (f : SmoothFn U) : ev x (q • f) = (q : ℝ) * ev x f := by
  show q • f.1 x = _
  rw [Algebra.smul_def]; rfl

theorem riemann_val (t s r k : Fin n) (x : U) : ev x (Geo.riemann (partialD U) g t s r k) = riemann G t s r k x := by
  have hc := christoffel_val hu hG
  have hc' : ∀ i j k, ev x (Geo.christoffel (partialD U) g i j k) = christoffel G i j k x := fun i j k => hc i j k x
  have hp : ∀ a i j k, ev x (partialD U a (Geo.christoffel (partialD U) g i j k)) = pd (christoffel G i j k) a x :=
    fun a i j k => partialD_pd _ _ (hc i j k) a x
  unfold Geo.riemann riemann
  simp only [map_add, map_sub, map_sum, map_mul, hc', hp]

theorem ricci_val (a b : Fin n) (x : U) : ev x (Geo.ricci (partialD U) g a b) = ricci G a b x := by
  unfold Geo.ricci ricci
  simp only [map_sum, riemann_val hu hG]

theorem inv_val (a b : Fin n) (x : U) : ev x (g⁻¹ a b) = (Matrix.of fun a b => G a b x)⁻¹ a b := by
  have e : (Matrix.of fun a b => (g a b).1 x) = Matrix.of fun a b => G a b x := by ext a b; exact hG a b x
  rw [← e]
  exact inv_ev g hu x a b

theorem scalar_val (x : U) : ev x (Geo.scalar (partialD U) g) = scalar G x := by
  unfold Geo.scalar scalar
  simp only [map_sum, map_mul, ricci_val hu hG, inv_val hu hG]

theorem einstein_val (a b : Fin n) (x : U) : ev x (Geo.einstein (partialD U) g a b) = einstein G a b x := by
  have hg : ∀ i j, ev x (g i j) = G i j x := fun i j => hG i j x
  unfold Geo.einstein Geo.half einstein
  simp only [map_sub, map_mul, ricci_val hu hG, scalar_val hu hG, ev_smul, hg]
  push_cast
  ring

theorem schouten_val (a b : Fin n) (x : U) : ev x (Geo.schouten (partialD U) g a b) = schouten G a b x := by
  have hg : ∀ i j, ev x (g i j) = G i j x := fun i j => hG i j x
  unfold Geo.schouten schouten
  simp only [map_sub, map_mul, ricci_val hu hG, scalar_val hu hG, ev_smul, hg, Fintype.card_fin]
  push_cast
  ring

theorem weyl_val (i k l m : Fin n) (x : U) : ev x (Geo.weyl (partialD U) g i k l m) = weyl G i k l m x := by
  have hg : ∀ i j, ev x (g i j) = G i j x := fun i j => hG i j x
  unfold Geo.weyl weyl Geo.riemannLow
  simp only [map_add, map_sub, map_mul, map_sum, ricci_val hu hG, riemann_val hu hG, scalar_val hu hG, ev_smul, hg, Fintype.card_fin]
  push_cast
  ring

end

/-- **C139.**  The curvature constructors, applied to a metric object whose components are smooth functions on an open set `U` of `ℝⁿ` (given covariantly
or contravariantly), return objects whose components have, at every point of `U`, the values of the classical formulas with real derivatives. -/
theorem C139_functions (m : MetricV (SmoothFn U)) (G : Fin n → Fin n → (Fin n → ℝ) → ℝ) (h : Describes m G) :
    (Returns (christoffelFromMetric (diffD U m.syms) m) fun t => ∀ (i j k : Fin n) (x : U), (t.arr.get [(i : ℕ), j, k]).1 x = christoffel G i j k x) ∧
    (Returns (riemannFromMetric (diffD U m.syms) m) fun t => ∀ (i j k l : Fin n) (x : U), (t.arr.get [(i : ℕ), j, k, l]).1 x = riemann G i j k l x) ∧
    (Returns (ricciFromMetric (diffD U m.syms) m) fun t => ∀ (i j : Fin n) (x : U), (t.arr.get [(i : ℕ), j]).1 x = ricci G i j x) ∧
    (Returns (scalarFromMetric (diffD U m.syms) m) fun t => ∀ x : U, t.expr.1 x = scalar G x) ∧
    (Returns (einsteinFromMetric (diffD U m.syms) m) fun t => ∀ (i j : Fin n) (x : U), (t.arr.get [(i : ℕ), j]).1 x = einstein G i j x) ∧
    (3 ≤ n → Returns (schoutenFromMetric (diffD U m.syms) m) fun t => ∀ (i j : Fin n) (x : U), (t.arr.get [(i : ℕ), j]).1 x = schouten G i j x) ∧
    (3 ≤ n → Returns (weylFromMetric (diffD U m.syms) m) fun t => ∀ (i j k l : Fin n) (x : U), (t.arr.get [(i : ℕ), j, k, l]).1 x = weyl G i j k l x) := by
  obtain ⟨hn, g, hS, hG⟩ := h
  have hD : coordD (diffD U m.syms) m.syms n = partialD U := funext (coordD_diffD hS.syms hn)
  have hu := hS.reps.2.1
  refine ⟨?_, ?_, ?_, ?_, ?_, fun h3 => ?_, fun h3 => ?_⟩
  · obtain ⟨a, e, -, hc⟩ := christoffel_ok (diffD U m.syms) m g hS
    refine ⟨_, e, fun i j k x => ?_⟩
    show (a.get _).1 x = _
    rw [(comp_three _ _).mp hc, hD]
    exact christoffel_val hu hG i j k x
  · obtain ⟨a, e, -, hc⟩ := riemann_ok (diffD U m.syms) m g hS
    refine ⟨_, e, fun i j k l x => ?_⟩
    show (a.get _).1 x = _
    rw [(comp_four _ _).mp hc, hD]
    exact riemann_val hu hG i j k l x
  · obtain ⟨a, e, -, hc⟩ := ricci_ok (diffD U m.syms) m g hS
    refine ⟨_, e, fun i j x => ?_⟩
    show (a.get _).1 x = _
    rw [(comp_two _ _).mp hc, hD]
    exact ricci_val hu hG i j x
  · obtain ⟨a, e, -, hc⟩ := scalar_ok (diffD U m.syms) m g hS
    refine ⟨_, e, fun x => ?_⟩
    show (a.get _).1 x = _
    rw [hc, hD]
    exact scalar_val hu hG x
  · obtain ⟨a, e, -, hc⟩ := einstein_ok (diffD U m.syms) m g hS
    refine ⟨_, e, fun i j x => ?_⟩
    show (a.get _).1 x = _
    rw [(comp_two _ _).mp hc, hD]
    exact einstein_val hu hG i j x
  · obtain ⟨a, e, -, hc⟩ := schouten_ok (diffD U m.syms) m g hS h3
    refine ⟨_, e, fun i j x => ?_⟩
    show (a.get _).1 x = _
    rw [(comp_two _ _).mp hc, hD]
    exact schouten_val hu hG i j x
  · obtain ⟨W, e, hc⟩ := weyl_ok3 (diffD U m.syms) m g hS (fun i j f => by rw [hD]; exact partialD_comm i j f) h3
    refine ⟨_, e, fun i j k l x => ?_⟩
    rw [hc, hD]
    exact weyl_val hu hG i j k l x

/-- Every symmetric matrix of smooth functions with nonvanishing determinant is described by a metric object, and `sympy.diff` commutes on it. -/
theorem describes_of (G : Fin n → Fin n → (Fin n → ℝ) → ℝ) (hs : ∀ i j, ContDiffOn ℝ ∞ (G i j) U) (hsym : ∀ i j, ∀ x ∈ U, G i j x = G j i x)
    (hdet : ∀ x ∈ U, (Matrix.of fun i j => G i j x).det ≠ 0) (names : List String) (hl : names.length = n) (hn : names.Nodup) :
    Describes (U := U) ⟨NDArr.ofMatrix (Matrix.of fun i j => ofFn (G i j) (hs i j)), ['l', 'l'], names, none⟩ G := by
  refine ⟨hn, Matrix.of fun i j => ofFn (G i j) (hs i j), ⟨⟨rfl, ?_, Or.inl ⟨rfl, toMatrix_ofMatrix _⟩⟩, hl, ?_⟩, fun i j x => rfl⟩
  · refine isUnit_of _ fun x => ?_
    have := RingHom.map_det (ev x) (Matrix.of fun i j => ofFn (G i j) (hs i j))
    have e : ((Matrix.of fun i j => ofFn (G i j) (hs i j)).det).1 x = (Matrix.of fun i j => G i j x).det := this
    rw [e]
    exact hdet x x.2
  · ext i j x
    exact hsym j i x x.2

end Einpy.Fn
