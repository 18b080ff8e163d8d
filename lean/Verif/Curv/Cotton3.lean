import Verif.Curv.ConfFlat
import Verif.Curv.Geo3
import Mathlib.Analysis.SpecialFunctions.Sqrt

/-!
# C148: in dimension three the metric is conformally flat exactly when `∇_k S_ij` is symmetric in `j` and `k`
-/

namespace Einpy.Fn
open scoped Topology ContDiff

section
variable {n : ℕ} {U : TopologicalSpace.Opens (Fin n → ℝ)} {m : MetricV (SmoothFn U)} {G : Fin n → Fin n → (Fin n → ℝ) → ℝ}

set_option maxHeartbeats 1000000 in
theorem conformal_cotton (h : Describes m G) (hn : 3 ≤ n) {u : (Fin n → ℝ) → ℝ} (hu : ContDiffOn ℝ ∞ u U) (h0 : ∀ y ∈ U, 0 < u y)
    (hR : ∀ y ∈ U, ∀ t s r k, riemann (fun i j x => u x * G i j x) t s r k y = 0) : ∀ y ∈ U, ∀ k i j, covSchouten G k i j y = covSchouten G j i k y := by
  have hW := conformal_weyl h hn hu h0 hR
  obtain ⟨-, g, hS, hG⟩ := h
  have hu' := hS.reps.2.1
  have hq : ContDiffOn ℝ ∞ (fun x => √(u x)) U := hu.sqrt fun x hx => (h0 x hx).ne'
  obtain ⟨τ, hτ⟩ : ∃ τ : SmoothFn U, ∀ x : U, ev x τ = √(u x) := ⟨ofFn _ hq, fun _ => rfl⟩
  obtain ⟨σ, hσ⟩ : ∃ σ : SmoothFn U, ∀ x : U, ev x σ = (√(u x))⁻¹ := ⟨ofFn _ (hq.inv fun x hx => (Real.sqrt_pos.mpr (h0 x hx)).ne'), fun _ => rfl⟩
  have hστ : σ * τ = 1 := by
    refine fn_ext fun x => ?_
    rw [map_mul, hσ, hτ, map_one]
    exact inv_mul_cancel₀ (Real.sqrt_pos.mpr (h0 x x.2)).ne'
  have hτu : IsUnit τ := IsUnit.of_mul_eq_one σ (by rw [mul_comm]; exact hστ)
  have huu : IsUnit ((τ * τ) • g).det := by rw [Matrix.det_smul]; exact ((hτu.mul hτu).pow _).mul hu'
  have hR' : ∀ t s r k, Geo.riemann (partialD U) ((τ * τ) • g) t s r k = 0 := fun t s r k => by
    refine Subtype.ext (funext fun x => ?_)
    refine (riemann_val huu (G := fun i j x => u x * G i j x) (fun i j x => ?_) t s r k x).trans (hR x x.2 t s r k)
    have e : ev x (((τ * τ) • g) i j) = u x * G i j x := by
      rw [Matrix.smul_apply, smul_eq_mul, map_mul, map_mul, hτ, Real.mul_self_sqrt (h0 x x.2).le]
      exact congrArg _ (hG i j x)
    exact e
  obtain ⟨ρ, hT⟩ := Geo.tractor_of_flat (d := partialD U) (g := g) (σ := σ) (τ := τ) partialD_comm hS.symm hu' (by simpa using hn) hστ fun a b => by
    simp [Geo.schouten, Geo.ricci, Geo.scalar, hR']
  have hW' : ∀ i k l m, Geo.weyl (partialD U) g i k l m = 0 := fun i k l m => by
    refine fn_ext fun x => ?_
    rw [weyl_val hu' hG i k l m x, hW x x.2, map_zero]
  have hC := Geo.cotton_of_tractor (d := partialD U) (g := g) (σ := σ) (ρ := ρ) partialD_comm hS.symm hu' hW' hT (IsUnit.of_mul_eq_one τ hστ)
  clear hT hR' huu hτu hστ hσ hτ hq hR h0
  intro y hy k i j
  have e := congrArg (ev (⟨y, hy⟩ : U)) (hC k j i)
  rw [covSchouten_val hu' hG, covSchouten_val hu' hG] at e
  exact e

/-- `∇_k S_ij`, computed from the arrays of the Christoffel symbols and of a tensor with two lower indices -/
noncomputable def nabla (c S : Obj (SmoothFn U)) (k i j : Fin n) (y : Fin n → ℝ) : ℝ :=
  pd (value S [(i : ℕ), j]) k y - ∑ a : Fin n, symbols c a k i y * value S [(a : ℕ), j] y - ∑ a : Fin n, symbols c a k j y * value S [(i : ℕ), a] y

theorem nabla_eq {c S : Obj (SmoothFn U)} (hc : ∀ (i j k : Fin n) (x : U), (c.arr.get [(i : ℕ), j, k]).1 x = christoffel G i j k x)
    (hS : ∀ (i j : Fin n) (x : U), (S.arr.get [(i : ℕ), j]).1 x = schouten G i j x) (k i j : Fin n) {y : Fin n → ℝ} (hy : y ∈ U) :
    nabla c S k i j y = covSchouten G k i j y := by
  have e1 : ∀ a b c', symbols c a b c' y = christoffel G a b c' y := fun a b c' => (ext_of (⟨y, hy⟩ : U)).trans (hc a b c' ⟨y, hy⟩)
  have e2 : ∀ i j : Fin n, value S [(i : ℕ), j] y = schouten G i j y := fun i j => (ext_of (⟨y, hy⟩ : U)).trans (hS i j ⟨y, hy⟩)
  have e3 : pd (value S [(i : ℕ), j]) k y = pd (schouten G i j) k y := pd_congr (ext_eventually (hS i j) ⟨y, hy⟩) k
  unfold nabla covSchouten
  simp only [e1, e2, e3]

/-- **C148.**  In every dimension from three on: where the metric is conformally flat, `∇_k S_ij` of the tensor `SchoutenTensor.from_metric(m)` returns is
symmetric in `j` and `k`. -/
theorem C148_cotton_of_conformally_flat (m : MetricV (SmoothFn U)) (G : Fin n → Fin n → (Fin n → ℝ) → ℝ) (h : Describes m G) (hn : 3 ≤ n)
    (hF : ∀ x ∈ U, ∃ V : TopologicalSpace.Opens (Fin n → ℝ), x ∈ V ∧ V ≤ U ∧ ∃ u, ContDiffOn ℝ ∞ u V ∧ (∀ y ∈ V, 0 < u y) ∧
      ∃ φ s, FlatCoordinates (fun i j x => u x * G i j x) V φ s) :
    Returns (christoffelFromMetric (diffD U m.syms) m) fun c => Returns (schoutenFromMetric (diffD U m.syms) m) fun S =>
      ∀ i j k : Fin n, ∀ y ∈ U, nabla c S k i j y = nabla c S j i k y := by
  obtain ⟨c, ec, hc⟩ := (C139_functions m G h).1
  obtain ⟨S, eS, hS⟩ := (C139_functions m G h).2.2.2.2.2.1 hn
  refine ⟨c, ec, S, eS, fun i j k y hy => ?_⟩
  rw [nabla_eq hc hS k i j hy, nabla_eq hc hS j i k hy]
  obtain ⟨V, hyV, hVU, u, hus, hu0, φ, s, hfl⟩ := hF y hy
  obtain ⟨m', hm'⟩ := describes_restrict h hVU
  exact conformal_cotton hm' hn hus hu0 (flat_riemann V hfl).1 y hyV k i j
end

/-- **C148.**  In dimension three `∇_k S_ij` of the tensor `SchoutenTensor.from_metric(m)` returns is symmetric in `j` and `k` on `U` exactly when every point of
`U` has a neighbourhood with a positive function `u` and coordinates in which `u` times the metric is a diagonal matrix of signs. -/
theorem C148_conformally_flat_iff {U : TopologicalSpace.Opens (Fin 3 → ℝ)} (m : MetricV (SmoothFn U)) (G : Fin 3 → Fin 3 → (Fin 3 → ℝ) → ℝ) (h : Describes m G) :
    Returns (christoffelFromMetric (diffD U m.syms) m) fun c => Returns (schoutenFromMetric (diffD U m.syms) m) fun S =>
      (∀ i j k : Fin 3, ∀ y ∈ U, nabla c S k i j y = nabla c S j i k y) ↔
        ∀ x ∈ U, ∃ V : TopologicalSpace.Opens (Fin 3 → ℝ), x ∈ V ∧ V ≤ U ∧ ∃ u, ContDiffOn ℝ ∞ u V ∧ (∀ y ∈ V, 0 < u y) ∧
          ∃ φ s, FlatCoordinates (fun i j x => u x * G i j x) V φ s := by
  obtain ⟨c, ec, hc⟩ := (C139_functions m G h).1
  obtain ⟨S, eS, hS⟩ := (C139_functions m G h).2.2.2.2.2.1 le_rfl
  refine ⟨c, ec, S, eS, fun hC x hx => ?_, fun hF => ?_⟩
  · refine exists_conformal h le_rfl (fun y hy i k l m => ?_) (fun y hy k i j => ?_) hx
    · obtain ⟨-, g, hS, hG⟩ := h
      rw [← weyl_val hS.reps.2.1 hG i k l m ⟨y, hy⟩, Geo.weyl_three (partialD U) g partialD_comm hS.symm hS.reps.2.1, map_zero]
    · rw [← nabla_eq hc hS k i j hy, ← nabla_eq hc hS j i k hy, hC i j k y hy]
  · obtain ⟨c', ec', S', eS', hC⟩ := C148_cotton_of_conformally_flat m G h le_rfl hF
    rw [ec] at ec'; rw [eS] at eS'
    obtain rfl := Except.ok.inj ec'
    obtain rfl := Except.ok.inj eS'
    exact hC

/-! ## the hypotheses are met: hyperbolic space in dimension three -/

/-- the upper half space -/
def hyp3Open : TopologicalSpace.Opens (Fin 3 → ℝ) := ⟨{x | 0 < x 0}, isOpen_lt continuous_const (continuous_apply 0)⟩

/-- the hyperbolic metric -/
noncomputable def hyp3G (i j : Fin 3) (x : Fin 3 → ℝ) : ℝ := if i = j then (x 0 ^ 2)⁻¹ else 0

theorem hyp3G_smooth (i j : Fin 3) : ContDiffOn ℝ ∞ (hyp3G i j) hyp3Open := by
  unfold hyp3G
  by_cases h : i = j
  · simp only [h, if_true]
    refine ContDiffOn.inv (by fun_prop) fun x hx => ?_
    exact pow_ne_zero _ (show 0 < x 0 from hx).ne'
  · simp only [h, if_false]
    exact contDiffOn_const

/-- the metric object -/
noncomputable def hyp3Metric : MetricV (SmoothFn hyp3Open) :=
  ⟨NDArr.ofMatrix (Matrix.of fun i j => ofFn (hyp3G i j) (hyp3G_smooth i j)), ['l', 'l'], ["x", "y", "z"], none⟩

theorem hyp3Metric_describes : Describes hyp3Metric hyp3G := by
  refine describes_of hyp3G hyp3G_smooth (fun i j x _ => ?_) (fun x hx => ?_) _ rfl (by decide)
  · simp only [hyp3G, eq_comm]
  · have hx : 0 < x 0 := hx
    have e : (Matrix.of fun i j => hyp3G i j x) = Matrix.diagonal fun _ => (x 0 ^ 2)⁻¹ := by
      ext i j
      simp only [Matrix.of_apply, hyp3G, Matrix.diagonal_apply]
    rw [e, Matrix.det_diagonal, Finset.prod_const]
    positivity

/-- the Cartesian coordinates and the factor `x_0²` -/
theorem hyp3_conformal : FlatCoordinates (fun i j x => x 0 ^ 2 * hyp3G i j x) hyp3Open (fun a x => x a) (fun _ => 1) := by
  have hp : ∀ (a i : Fin 3) (x : Fin 3 → ℝ), pd (fun x => x a) i x = if a = i then 1 else 0 := fun a i x => by
    unfold pd
    by_cases h : a = i
    · subst h; simp
    · simp [h]
  refine ⟨fun a => by fun_prop, fun x _ y _ h => h, fun x _ => ?_, fun _ => Or.inr rfl, fun x hx i j => ?_⟩
  · have : (Matrix.of fun a i => pd (fun x : Fin 3 → ℝ => x a) i x) = 1 := by
      ext a i; simp [hp, Matrix.one_apply]
    rw [this, Matrix.det_one]
    exact one_ne_zero
  · have hx : 0 < x 0 := hx
    simp only [hp, hyp3G, one_mul]
    by_cases h : i = j
    · subst h
      simp [hx.ne']
    · simp [h, Ne.symm h]

/-- `∇_k S_ij` is symmetric for hyperbolic space -/
theorem hyp3_cotton : Returns (christoffelFromMetric (diffD hyp3Open hyp3Metric.syms) hyp3Metric) fun c =>
    Returns (schoutenFromMetric (diffD hyp3Open hyp3Metric.syms) hyp3Metric) fun S => ∀ i j k : Fin 3, ∀ y ∈ hyp3Open, nabla c S k i j y = nabla c S j i k y :=
  C148_cotton_of_conformally_flat hyp3Metric hyp3G hyp3Metric_describes le_rfl fun x hx =>
    ⟨hyp3Open, hx, le_rfl, fun x => x 0 ^ 2, by fun_prop, fun y hy => pow_pos (show 0 < y 0 from hy) 2, _, _, hyp3_conformal⟩

end Einpy.Fn
