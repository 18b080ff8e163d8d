import Verif.Integ.Geod
import Verif.Geodesic.Total

/-!
# Geodesics of the named metrics: C107

`Geodesic("Schwarzschild" | "Kerr" | "KerrNewman", …)` approximates the geodesics of those space-times.
-/

namespace Einpy
open Classical Topology Asymptotics Finset

/-! ## specification -/

/-- The space-time meant by a metric name and a parameter tuple: the Kerr–Newman family with spin `a` and charge `Q`. -/
inductive NamedMetric : String → List ℝ → ℝ → ℝ → Prop
  | schwarzschild (ps : List ℝ) : NamedMetric "Schwarzschild" ps 0 0
  | kerr (a : ℝ) (l : List ℝ) : NamedMetric "Kerr" (a :: l) a 0
  | kerrNewman (a Q : ℝ) (l : List ℝ) : NamedMetric "KerrNewman" (a :: Q :: l) a Q

/-- Christoffel symbols of a covariant metric, the inverse being the matrix inverse. -/
noncomputable def christoffelOf (cov : Fin 4 → Fin 4 → V4 → ℝ) (x : V4) (i j k : Fin 4) : ℝ :=
  1 / 2 * ∑ l, (Matrix.of fun a b => cov a b x)⁻¹ i l *
    (partialAt (cov l k) x j + partialAt (cov l j) x k - partialAt (cov j k) x l)

/-- `q`, with velocity `v`, satisfies the geodesic equation of `cov` at parameter `t`. -/
structure IsGeodesicAt (cov : Fin 4 → Fin 4 → V4 → ℝ) (q v : ℝ → V4) (t : ℝ) : Prop where
  velocity : ∀ i, HasDerivAt (fun t => q t i) (v t i) t
  accel : ∀ i, HasDerivAt (fun t => v t i) (-∑ j, ∑ k, christoffelOf cov (q t) i j k * v t j * v t k) t

/-- The covariant Kerr–Newman metric as a function of `(t, r, θ, φ)`. -/
noncomputable def blCov (a Q : ℝ) (i j : Fin 4) (x : V4) : ℝ := knCov a Q (x 1) (x 2) i j

/-- Away from the ring, the horizons and the axis. -/
def Exterior (a Q : ℝ) (x : V4) : Prop :=
  x 1 ^ 2 + a ^ 2 * Real.cos (x 2) ^ 2 ≠ 0 ∧ x 1 ^ 2 - 2 * x 1 + a ^ 2 + Q ^ 2 ≠ 0 ∧ Real.sin (x 2) ≠ 0

/-! ## proofs -/

section SmoothIff
variable {ι : Type*} (x : ι → ℝ) (a b : Expr ι)
theorem smo_var (i : ι) : (Expr.var i).Smooth x ↔ True := Iff.rfl
theorem smo_const (c : ℝ) : (Expr.const c : Expr ι).Smooth x ↔ True := Iff.rfl
theorem smo_add : (Expr.add a b).Smooth x ↔ a.Smooth x ∧ b.Smooth x := Iff.rfl
theorem smo_sub : (Expr.sub a b).Smooth x ↔ a.Smooth x ∧ b.Smooth x := Iff.rfl
theorem smo_mul : (Expr.mul a b).Smooth x ↔ a.Smooth x ∧ b.Smooth x := Iff.rfl
theorem smo_div : (Expr.div a b).Smooth x ↔ a.Smooth x ∧ b.Smooth x ∧ b.den x ≠ 0 := Iff.rfl
theorem smo_neg : (Expr.neg a).Smooth x ↔ a.Smooth x := Iff.rfl
theorem smo_sin : (Expr.sin a).Smooth x ↔ a.Smooth x := Iff.rfl
theorem smo_cos : (Expr.cos a).Smooth x ↔ a.Smooth x := Iff.rfl
theorem smo_pow2 : (Expr.pow a 2).Smooth x ↔ a.Smooth x :=
  ⟨fun h => h.1, fun h => ⟨h, Or.inr (Or.inr ⟨2, by norm_num, by norm_num⟩)⟩⟩
end SmoothIff

theorem kerrNewman_smooth (a Q : ℝ) (q : V4) (h : Exterior a Q q) : ∀ i j, (kerrNewmanFn a Q i j).Smooth q := by
  obtain ⟨hS, hD, hs⟩ := h
  have h2 : a ^ 2 + 2 * q 1 ^ 2 + a ^ 2 * Real.cos (2 * q 2) ≠ 0 := by
    rw [Real.cos_two_mul]
    intro h; apply hS; linarith
  have h3 : a ^ 2 - (a ^ 2 + q 1 ^ 2) * (1 / Real.sin (q 2) ^ 2) ≠ 0 := by
    intro h
    field_simp at h
    apply hS
    have := Real.sin_sq_add_cos_sq (q 2)
    have hc : Real.cos (q 2) ^ 2 = 1 - Real.sin (q 2) ^ 2 := by linarith
    rw [hc]; linarith
  have hS' : q 1 ^ 2 + (a * Real.cos (q 2)) ^ 2 ≠ 0 := by rw [mul_pow]; exact hS
  intro i j
  fin_cases i <;> fin_cases j <;>
    simp [kerrNewmanFn, sigmaE, deltaE, smo_var, smo_const, smo_add, smo_sub, smo_mul, smo_div, smo_neg, smo_sin, smo_cos,
      smo_pow2, Expr.den, -one_div, hS', hD, hs, h2, h3]

theorem kerr_smooth (a : ℝ) (q : V4) (h : Exterior a 0 q) : ∀ i j, (kerrFn a i j).Smooth q := by
  obtain ⟨hS, hD, hs⟩ := h
  have hD : q 1 ^ 2 - 2 * q 1 + a ^ 2 ≠ 0 := by simpa using hD
  have hS' : q 1 ^ 2 + (a * Real.cos (q 2)) ^ 2 ≠ 0 := by rw [mul_pow]; exact hS
  intro i j
  fin_cases i <;> fin_cases j <;>
    simp [kerrFn, sigmaE, deltaE, smo_var, smo_const, smo_add, smo_sub, smo_mul, smo_div, smo_neg, smo_sin, smo_cos,
      smo_pow2, Expr.den, -one_div, hS', hD, hs]

theorem exterior_sch {q : V4} (h : Exterior 0 0 q) : q 1 ≠ 0 ∧ q 1 ≠ 2 ∧ Real.sin (q 2) ≠ 0 := by
  obtain ⟨hS, hD, hs⟩ := h
  refine ⟨by simpa using hS, ?_, hs⟩
  intro h; apply hD; rw [h]; norm_num

theorem sch_smooth (q : V4) (h : Exterior 0 0 q) : ∀ i j, (schFn i j).Smooth q := by
  obtain ⟨hr, h2, hs⟩ := exterior_sch h
  have h1 : (1 : ℝ) - 2 / q 1 ≠ 0 := by
    rw [ne_eq, sub_eq_zero, eq_div_iff hr]; intro h; exact h2 (by linarith)
  intro i j
  fin_cases i <;> fin_cases j <;>
    simp [schFn, smo_var, smo_const, smo_sub, smo_mul, smo_div, smo_sin,
      smo_pow2, Expr.den, hr, h1, hs]

theorem blCov_diff (a Q : ℝ) (x : V4) (h : Exterior a Q x) (i j : Fin 4) : DifferentiableAt ℝ (blCov a Q i j) x := by
  obtain ⟨hS, hD, hs⟩ := h
  have h1 : DifferentiableAt ℝ (fun x : V4 => x 1) x := differentiableAt_apply 1 x
  have h2 : DifferentiableAt ℝ (fun x : V4 => x 2) x := differentiableAt_apply 2 x
  have hc : DifferentiableAt ℝ (fun x : V4 => Real.cos (x 2)) x := h2.cos
  have hsn : DifferentiableAt ℝ (fun x : V4 => Real.sin (x 2)) x := h2.sin
  have dS : DifferentiableAt ℝ (fun x : V4 => x 1 ^ 2 + a ^ 2 * Real.cos (x 2) ^ 2) x :=
    (h1.pow 2).add ((hc.pow 2).const_mul _)
  have dD : DifferentiableAt ℝ (fun x : V4 => x 1 ^ 2 - 2 * x 1 + a ^ 2 + Q ^ 2) x :=
    (((h1.pow 2).sub (h1.const_mul 2)).add_const _).add_const _
  have dw : DifferentiableAt ℝ (fun x : V4 => (2 * x 1 - Q ^ 2) / (x 1 ^ 2 + a ^ 2 * Real.cos (x 2) ^ 2)) x := by
    simp only [div_eq_mul_inv]
    exact ((h1.const_mul 2).sub_const _).mul (dS.inv hS)
  have z : DifferentiableAt ℝ (fun _ : V4 => (0 : ℝ)) x := differentiableAt_const _
  fin_cases i <;> fin_cases j
  · exact (dw.const_sub 1).neg
  · exact z
  · exact z
  · exact ((dw.mul_const a).mul (hsn.pow 2)).neg
  · exact z
  · have e : DifferentiableAt ℝ (fun x : V4 => (x 1 ^ 2 + a ^ 2 * Real.cos (x 2) ^ 2) / (x 1 ^ 2 - 2 * x 1 + a ^ 2 + Q ^ 2)) x := by
      simp only [div_eq_mul_inv]
      exact dS.mul (dD.inv hD)
    exact e
  · exact z
  · exact z
  · exact z
  · exact z
  · exact dS
  · exact z
  · exact ((dw.mul_const a).mul (hsn.pow 2)).neg
  · exact z
  · exact z
  · exact (((h1.pow 2).add_const _).add ((dw.mul_const _).mul (hsn.pow 2))).mul (hsn.pow 2)

theorem exterior_open (a Q : ℝ) (x : V4) (h : Exterior a Q x) : ∀ᶠ y in 𝓝 x, Exterior a Q y := by
  obtain ⟨hS, hD, hs⟩ := h
  have c1 : Continuous (fun x : V4 => x 1 ^ 2 + a ^ 2 * Real.cos (x 2) ^ 2) := by fun_prop
  have c2 : Continuous (fun x : V4 => x 1 ^ 2 - 2 * x 1 + a ^ 2 + Q ^ 2) := by fun_prop
  have c3 : Continuous (fun x : V4 => Real.sin (x 2)) := by fun_prop
  filter_upwards [c1.continuousAt.eventually_ne hS, c2.continuousAt.eventually_ne hD, c3.continuousAt.eventually_ne hs]
    with y e1 e2 e3 using ⟨e1, e2, e3⟩

/-- What is needed of the function behind a name. -/
theorem named_fn {s : String} {ps : List ℝ} {a Q : ℝ} (hn : NamedMetric s ps a Q) :
    ∃ g : MetricFn, (∀ x p tl rc kw P st rows, fourMomentum g ![0, x 0, x 1, x 2] p tl = .ok P →
        calculateTrajectory g ![0, x 0, x 1, x 2] P tl (if rc then "Cartesian" else "Spherical Polar") kw = .ok (st, rows) →
        ∃ o, Geodesic.new (.str s) (some ps) x p tl rc kw = .ok o ∧ o.momentum = P ∧ o.rows = rows) ∧
      (∀ y, Exterior a Q y → ∀ i j, (g i j).Smooth y) ∧
      (∀ y, Exterior a Q y → (fun i j => (g i j).den y) = knContra a Q (y 1) (y 2)) ∧
      (∀ i j (y : V4), (g i j).den y = (g j i).den y) := by
  cases hn with
  | schwarzschild =>
    refine ⟨schFn, ?_, sch_smooth, ?_, ?_⟩
    · intro x p tl rc kw P st rows h1 h2
      refine ⟨⟨"Schwarzschild", [0], ![0, x 0, x 1, x 2], P, tl, if tl then "Time-like" else "Null-like",
        if rc then "Cartesian" else "Spherical Polar", st, rows⟩, ?_, rfl, rfl⟩
      simp only [Geodesic.new, builtinMetric, bind, Except.bind, h1, h2, pure, Except.pure]
    · intro y hy
      obtain ⟨hr, h2, hs⟩ := exterior_sch hy
      exact sch_den y hr h2 hs
    · intro i j y; fin_cases i <;> fin_cases j <;> rfl
  | kerr =>
    rename_i l
    refine ⟨kerrFn a, ?_, kerr_smooth a, ?_, ?_⟩
    · intro x p tl rc kw P st rows h1 h2
      refine ⟨⟨"Kerr", (a :: l), ![0, x 0, x 1, x 2], P, tl, if tl then "Time-like" else "Null-like",
        if rc then "Cartesian" else "Spherical Polar", st, rows⟩, ?_, rfl, rfl⟩
      have e : Geodesic.new (.str "Kerr") (some (a :: l)) x p tl rc kw =
          (fourMomentum (kerrFn a) ![0, x 0, x 1, x 2] p tl >>= fun P =>
            calculateTrajectory (kerrFn a) ![0, x 0, x 1, x 2] P tl (if rc then "Cartesian" else "Spherical Polar") kw >>= fun r =>
              pure ⟨"Kerr", (a :: l), ![0, x 0, x 1, x 2], P, tl, if tl then "Time-like" else "Null-like",
                if rc then "Cartesian" else "Spherical Polar", r.1, r.2⟩) := rfl
      rw [e, h1]
      simp only [bind, Except.bind, h2, pure, Except.pure]
    · rintro y ⟨hS, hD, hs⟩
      exact kerr_den a y hS (by simpa using hD) hs
    · intro i j y; fin_cases i <;> fin_cases j <;> rfl
  | kerrNewman =>
    rename_i l
    refine ⟨kerrNewmanFn a Q, ?_, kerrNewman_smooth a Q, ?_, ?_⟩
    · intro x p tl rc kw P st rows h1 h2
      refine ⟨⟨"KerrNewman", (a :: Q :: l), ![0, x 0, x 1, x 2], P, tl, if tl then "Time-like" else "Null-like",
        if rc then "Cartesian" else "Spherical Polar", st, rows⟩, ?_, rfl, rfl⟩
      have e : Geodesic.new (.str "KerrNewman") (some (a :: Q :: l)) x p tl rc kw =
          (fourMomentum (kerrNewmanFn a Q) ![0, x 0, x 1, x 2] p tl >>= fun P =>
            calculateTrajectory (kerrNewmanFn a Q) ![0, x 0, x 1, x 2] P tl (if rc then "Cartesian" else "Spherical Polar") kw >>= fun r =>
              pure ⟨"KerrNewman", (a :: Q :: l), ![0, x 0, x 1, x 2], P, tl, if tl then "Time-like" else "Null-like",
                if rc then "Cartesian" else "Spherical Polar", r.1, r.2⟩) := rfl
      rw [e, h1]
      simp only [bind, Except.bind, h2, pure, Except.pure]
    · rintro y ⟨hS, hD, hs⟩
      exact kerrNewman_den a Q y hS hD hs
    · intro i j y; fin_cases i <;> fin_cases j <;> rfl

theorem knCov_inv (a Q : ℝ) (y : V4) (h : Exterior a Q y) :
    (Matrix.of fun i j => blCov a Q i j y)⁻¹ = knContra a Q (y 1) (y 2) := by
  obtain ⟨hS, hD, hs⟩ := h
  exact Matrix.inv_eq_left_inv (knContra_inverse a Q _ _ hS hD hs)

theorem knContra_shape (a Q r th : ℝ) : AxisymmetricShape (knContra a Q r th) := by
  refine ⟨rfl, ?_⟩
  intro i j
  fin_cases i <;> fin_cases j <;> simp [knContra]

/-- The root chosen by `_P` is the normalised, future directed one. -/
theorem fourMomentum_of {g : MetricFn} {q : V4} {G : Fin 4 → Fin 4 → ℝ} (hG : evalMetric g q = .ok G)
    (hshape : AxisymmetricShape G) (hA : G 0 0 ≠ 0) (P : V4) (tl : Bool)
    (hn : ∑ a, ∑ b, G a b * P a * P b = if tl then -1 else 0) (hf : 0 ≤ ∑ b, G 0 b * P b) :
    fourMomentum g q (fun i => P i.succ) tl = .ok P := by
  obtain ⟨hs, ho⟩ := hshape
  have o01 := ho 0 1 (by decide) (by decide) (by decide)
  have o02 := ho 0 2 (by decide) (by decide) (by decide)
  have o10 := ho 1 0 (by decide) (by decide) (by decide)
  have o12 := ho 1 2 (by decide) (by decide) (by decide)
  have o13 := ho 1 3 (by decide) (by decide) (by decide)
  have o20 := ho 2 0 (by decide) (by decide) (by decide)
  have o21 := ho 2 1 (by decide) (by decide) (by decide)
  have o23 := ho 2 3 (by decide) (by decide) (by decide)
  have o31 := ho 3 1 (by decide) (by decide) (by decide)
  have o32 := ho 3 2 (by decide) (by decide) (by decide)
  simp only [Fin.sum_univ_four, o01, o02, o10, o12, o13, o20, o21, o23, o31, o32, ← hs, zero_mul, add_zero, zero_add] at hn hf
  unfold fourMomentum
  simp only [hG, bind, Except.bind]
  have hk : (if tl = true then (-1 : ℝ) else 0) = -(if tl = true then (1 : ℝ) else 0) := by split_ifs <;> norm_num
  rw [hk] at hn
  generalize (if tl = true then (1 : ℝ) else 0) = k at hn ⊢
  have hD : (2 * G 0 3 * P (Fin.succ 2)) ^ 2 - 4 * G 0 0 * (G 1 1 * P (Fin.succ 0) * P (Fin.succ 0) +
      G 2 2 * P (Fin.succ 1) * P (Fin.succ 1) + G 3 3 * P (Fin.succ 2) * P (Fin.succ 2) + k) =
      (2 * (G 0 0 * P 0 + G 0 3 * P 3)) ^ 2 := by
    show (2 * G 0 3 * P 3) ^ 2 - 4 * G 0 0 * (G 1 1 * P 1 * P 1 + G 2 2 * P 2 * P 2 + G 3 3 * P 3 * P 3 + k) = _
    linear_combination (-4 * G 0 0) * hn
  rw [hD, Real.sqrt_sq (by linarith)]
  rw [if_neg (not_lt.mpr (sq_nonneg _)), if_neg (by simpa using hA)]
  refine congrArg Except.ok ?_
  funext i
  fin_cases i
  · show (-(2 * G 0 3 * P 3) + 2 * (G 0 0 * P 0 + G 0 3 * P 3)) / (2 * G 0 0) = P 0
    field_simp
    ring
  · rfl
  · rfl
  · rfl

/-- C106 for the fourth order method -/
theorem C106_geodesic_order4 (c : IntegCfg) (ho : c.order = 4)
    (hs : ∀ i j (y : V4), (c.metric i j).den y = (c.metric j i).den y) (cov : Fin 4 → Fin 4 → V4 → ℝ)
    (q v : ℝ → V4) (a b : ℝ) (ha : a ≤ 0) (hb : 0 ≤ b)
    (hi : ∀ t ∈ Set.Icc a b, ∀ᶠ u in 𝓝 t, InverseOf c.metric cov (q u))
    (h : ∀ t ∈ Set.Icc a b, ∀ᶠ u in 𝓝 t, GeodesicAt c.metric cov q v u) :
    ∃ K δ₀ : ℝ, 0 < δ₀ ∧ ∀ (tl : Bool) (coords : String) (kw : GeoKw), kw.omega = c.omega → kw.order = c.order →
      0 < kw.steps → |kw.delta| < δ₀ → kw.steps * kw.delta ∈ Set.Icc a b →
      ∃ st rows, calculateTrajectory c.metric (q 0) (fun i => ∑ j, cov i j (q 0) * v 0 j) tl coords kw = .ok (st, rows) ∧
        ∀ k : ℕ, (k : ℤ) < kw.steps → ∃ x u : V4, rows[k]? = some (rowOf coords x u) ∧
          ∀ i, |x i - q ((k + 1) * kw.delta) i| ≤ K * |kw.delta| ^ 4 ∧
            |u i - ∑ j, cov i j (q ((k + 1) * kw.delta)) * v ((k + 1) * kw.delta) j| ≤ K * |kw.delta| ^ 4 :=
  C105_converges_order4 c ho hs q (fun t i => ∑ j, cov i j (q t) * v t j) a b ha hb
    (fun t ht => (hi t ht).self_of_nhds.smooth)
    fun t ht => by filter_upwards [hi t ht, h t ht] with u h1 h2 using geodesic_hamilton hs h1 h2

/-- **C107**.  Let `q`, with velocity `v`, be a time-like (`tl = true`, unit speed) or null geodesic of the space-time named
by `s` and `ps`, near every parameter in `[t₀, t₁] ∋ 0`, starting at coordinate time `0`, future directed, and staying away
from ring, horizons and axis.  Then for every supported order and every `omega` the object built from its initial position and
the spatial covariant components of its initial velocity exists for all small step sizes, its stored momentum is the covariant
initial velocity, and row number `k` of its trajectory shows the position and covariant velocity of the geodesic at parameter
`(k+1)·delta` up to `K·delta²` (up to `K·delta⁴` for `order = 4`). -/
theorem C107_named (s : String) (ps : List ℝ) (a Q : ℝ) (hn : NamedMetric s ps a Q) (tl : Bool)
    (q v : ℝ → V4) (t₀ t₁ : ℝ) (h0 : t₀ ≤ 0) (h1 : 0 ≤ t₁)
    (hgeo : ∀ t ∈ Set.Icc t₀ t₁, ∀ᶠ u in 𝓝 t, IsGeodesicAt (blCov a Q) q v u)
    (hext : ∀ t ∈ Set.Icc t₀ t₁, Exterior a Q (q t)) (hq0 : q 0 0 = 0)
    (htt : (Matrix.of fun i j => blCov a Q i j (q 0))⁻¹ 0 0 ≠ 0)
    (hnorm : ∑ i, ∑ j, blCov a Q i j (q 0) * v 0 i * v 0 j = if tl then -1 else 0) (hfut : 0 ≤ v 0 0)
    (order : ℤ) (ho : order = 2 ∨ order = 4 ∨ order = 6 ∨ order = 8) (omega : ℝ) (m : ℕ) (hm : m = 2 ∨ (order = 4 ∧ m = 4)) :
    ∃ K δ₀ : ℝ, 0 < δ₀ ∧ ∀ (rc : Bool) (kw : GeoKw), kw.omega = omega → kw.order = order →
      0 < kw.steps → |kw.delta| < δ₀ → kw.steps * kw.delta ∈ Set.Icc t₀ t₁ →
      ∃ o, Geodesic.new (.str s) (some ps) (fun i => q 0 i.succ) (fun i => ∑ j, blCov a Q i.succ j (q 0) * v 0 j) tl rc kw = .ok o ∧
        (o.momentum = fun i => ∑ j, blCov a Q i j (q 0) * v 0 j) ∧
        ∀ k : ℕ, (k : ℤ) < kw.steps →
          ∃ x u : V4, o.rows[k]? = some (rowOf (if rc then "Cartesian" else "Spherical Polar") x u) ∧
            ∀ i, |x i - q ((k + 1) * kw.delta) i| ≤ K * |kw.delta| ^ m ∧
              |u i - ∑ j, blCov a Q i j (q ((k + 1) * kw.delta)) * v ((k + 1) * kw.delta) j| ≤ K * |kw.delta| ^ m := by
  obtain ⟨g, hnew, hsm, hden, hsym⟩ := named_fn hn
  have hinvm : ∀ y, Exterior a Q y → knContra a Q (y 1) (y 2) * knCov a Q (y 1) (y 2) = 1 := fun y hy =>
    knContra_inverse a Q _ _ hy.1 hy.2.1 hy.2.2
  have hdij : ∀ y, Exterior a Q y → ∀ i j, (g i j).den y = knContra a Q (y 1) (y 2) i j := fun y hy i j =>
    congrFun (congrFun (hden y hy) i) j
  have hcsym : ∀ (y : V4) i j, blCov a Q i j y = blCov a Q j i y := by
    intro y i j; fin_cases i <;> fin_cases j <;> rfl
  have hI : ∀ y, Exterior a Q y → InverseOf g (blCov a Q) y := by
    intro y hy
    refine ⟨hsm y hy, blCov_diff a Q y hy, fun i j => Filter.Eventually.of_forall fun z => hcsym z i j, fun i k => ?_⟩
    filter_upwards [exterior_open a Q y hy] with z hz
    have e := congrFun (congrFun (hinvm z hz) i) k
    rw [Matrix.mul_apply, Matrix.one_apply] at e
    rw [← e]
    exact sum_congr rfl fun b _ => by rw [hdij z hz]; rfl
  have hG : ∀ u, Exterior a Q (q u) → IsGeodesicAt (blCov a Q) q v u → GeodesicAt g (blCov a Q) q v u := by
    intro u hu h
    refine ⟨h.velocity, fun i => (h.accel i).congr_deriv ?_⟩
    have e : ∀ i j k, christoffelOf (blCov a Q) (q u) i j k = gammaAt g (blCov a Q) (q u) i j k := by
      intro i j k
      unfold christoffelOf gammaAt
      rw [knCov_inv a Q _ hu]
      simp only [hdij _ hu]
    simp only [e]
  have hE : ∀ t ∈ Set.Icc t₀ t₁, ∀ᶠ u in 𝓝 t, Exterior a Q (q u) := by
    intro t ht
    have hc : ContinuousAt q t := continuousAt_pi.mpr fun i => ((hgeo t ht).self_of_nhds.velocity i).continuousAt
    exact hc.tendsto.eventually (exterior_open a Q _ (hext t ht))
  have z : (0 : ℝ) ∈ Set.Icc t₀ t₁ := ⟨h0, h1⟩
  have e0 := hext 0 z
  have hq : q 0 = ![0, q 0 1, q 0 2, q 0 3] := by
    funext i; fin_cases i
    · exact hq0
    · rfl
    · rfl
    · rfl
  -- the initial momentum
  have hP : fourMomentum g (q 0) (fun i => ∑ j, blCov a Q i.succ j (q 0) * v 0 j) tl =
      .ok (fun i => ∑ j, blCov a Q i j (q 0) * v 0 j) := by
    have hev : evalMetric g (q 0) = .ok (knContra a Q (q 0 1) (q 0 2)) := by
      rw [← hden _ e0]
      exact evalMetric_regular fun i j => (hsm _ e0 i j).regular
    have hup : ∀ i, ∑ b, knContra a Q (q 0 1) (q 0 2) i b * ∑ j, blCov a Q b j (q 0) * v 0 j = v 0 i := by
      intro i
      have := congrFun (congrArg (fun M : Matrix (Fin 4) (Fin 4) ℝ => M.mulVec (v 0)) (hinvm _ e0)) i
      simp only [← Matrix.mulVec_mulVec, Matrix.one_mulVec] at this
      exact this
    refine fourMomentum_of hev (knContra_shape _ _ _ _) ?_ (fun i => ∑ j, blCov a Q i j (q 0) * v 0 j) tl ?_ ?_
    · rwa [knCov_inv a Q _ e0] at htt
    · rw [← hnorm]
      refine sum_congr rfl fun i _ => ?_
      have e : ∀ b, knContra a Q (q 0 1) (q 0 2) i b * (∑ j, blCov a Q i j (q 0) * v 0 j) * (∑ j, blCov a Q b j (q 0) * v 0 j) =
          (∑ j, blCov a Q i j (q 0) * v 0 j) * (knContra a Q (q 0 1) (q 0 2) i b * ∑ j, blCov a Q b j (q 0) * v 0 j) :=
        fun b => by ring
      simp only [e]
      rw [← mul_sum, hup, sum_mul]
      exact sum_congr rfl fun j _ => by ring
    · rw [hup]; exact hfut
  have hi : ∀ t ∈ Set.Icc t₀ t₁, ∀ᶠ u in 𝓝 t, InverseOf g (blCov a Q) (q u) := fun t ht =>
    (hE t ht).mono fun u hu => hI _ hu
  have hg : ∀ t ∈ Set.Icc t₀ t₁, ∀ᶠ u in 𝓝 t, GeodesicAt g (blCov a Q) q v u := fun t ht => by
    filter_upwards [hE t ht, hgeo t ht] with u e1 e2 using hG u e1 e2
  have main : ∃ K δ₀ : ℝ, 0 < δ₀ ∧ ∀ (tl : Bool) (coords : String) (kw : GeoKw), kw.omega = omega → kw.order = order →
      0 < kw.steps → |kw.delta| < δ₀ → kw.steps * kw.delta ∈ Set.Icc t₀ t₁ →
      ∃ st rows, calculateTrajectory g (q 0) (fun i => ∑ j, blCov a Q i j (q 0) * v 0 j) tl coords kw = .ok (st, rows) ∧
        ∀ k : ℕ, (k : ℤ) < kw.steps → ∃ x u : V4, rows[k]? = some (rowOf coords x u) ∧
          ∀ i, |x i - q ((k + 1) * kw.delta) i| ≤ K * |kw.delta| ^ m ∧
            |u i - ∑ j, blCov a Q i j (q ((k + 1) * kw.delta)) * v ((k + 1) * kw.delta) j| ≤ K * |kw.delta| ^ m := by
    rcases hm with rfl | ⟨h4, rfl⟩
    · exact C106_geodesic ⟨g, omega, order⟩ ho hsym (blCov a Q) q v t₀ t₁ h0 h1 hi hg
    · exact C106_geodesic_order4 ⟨g, omega, order⟩ h4 hsym (blCov a Q) q v t₀ t₁ h0 h1 hi hg
  obtain ⟨K, δ₀, hδ, hmain⟩ := main
  refine ⟨K, δ₀, hδ, fun rc kw hw hord hst hd hsd => ?_⟩
  obtain ⟨st, rows, hr, hrow⟩ := hmain tl (if rc then "Cartesian" else "Spherical Polar") kw hw hord hst hd hsd
  rw [hq] at hP
  have hr' := hr
  obtain ⟨o, ho1, ho2, ho3⟩ := hnew (fun i => q 0 i.succ) (fun i => ∑ j, blCov a Q i.succ j (q 0) * v 0 j) tl rc kw
    (fun i => ∑ j, blCov a Q i j (q 0) * v 0 j) st rows (by rw [hq]; exact hP) (by rw [hq] at hr ⊢; exact hr)
  exact ⟨o, ho1, ho2, fun k hk => by rw [ho3]; exact hrow k hk⟩

/-! ## a circular orbit

The hypotheses of C107 hold for the time-like circular orbit of radius 4 in the Schwarzschild space-time. -/

noncomputable def orbQ (t : ℝ) : V4 := ![2 * t, 4, Real.pi / 2, t / 4]

noncomputable def orbV (_ : ℝ) : V4 := ![2, 0, 0, 1 / 4]

theorem blCov_stationary (a Q : ℝ) (i j k : Fin 4) (hk : k = 0 ∨ k = 3) (x : V4) : partialAt (blCov a Q i j) x k = 0 := by
  unfold partialAt blCov
  rcases hk with rfl | rfl <;> simp

theorem orb_partial (t : ℝ) (j k l : Fin 4) (hj : j = 0 ∨ j = 3) (hk : k = 0 ∨ k = 3) (hl : l = 1 ∨ l = 2) :
    partialAt (blCov 0 0 j k) (orbQ t) l = if l = 1 then (if j = k then (if j = 0 then -(1 / 8) else 8) else 0) else 0 := by
  unfold partialAt blCov
  have q1 : orbQ t 1 = 4 := rfl
  have q2 : orbQ t 2 = Real.pi / 2 := rfl
  rcases hl with rfl | rfl
  · rcases hj with rfl | rfl <;> rcases hk with rfl | rfl <;> simp [knCov, q1, q2]
    · have h : (fun u : ℝ => 2 * u / u ^ 2) = fun u => 2 * u⁻¹ := by
        funext u
        by_cases hu : u = 0
        · simp [hu]
        · field_simp
      rw [h]
      have := ((hasDerivAt_inv (by norm_num : (4 : ℝ) ≠ 0)).const_mul 2).deriv
      rw [this]; norm_num
    · norm_num
  · rcases hj with rfl | rfl <;> rcases hk with rfl | rfl <;> simp [knCov, q1, q2]

theorem orb_geodesic (t : ℝ) : IsGeodesicAt (blCov 0 0) orbQ orbV t := by
  constructor
  · intro i
    fin_cases i
    · exact ((hasDerivAt_id t).const_mul 2).congr_deriv (by simp [orbV])
    · exact hasDerivAt_const t (4 : ℝ)
    · exact hasDerivAt_const t (Real.pi / 2 : ℝ)
    · exact ((hasDerivAt_id t).div_const 4).congr_deriv (by simp [orbV])
  · intro i
    refine (hasDerivAt_const t (orbV t i)).congr_deriv ?_
    have v0 : orbV t 0 = 2 := rfl
    have v1 : orbV t 1 = 0 := rfl
    have v2 : orbV t 2 = 0 := rfl
    have v3 : orbV t 3 = 1 / 4 := rfl
    have s0 := fun i j => blCov_stationary 0 0 i j 0 (Or.inl rfl) (orbQ t)
    have s3 := fun i j => blCov_stationary 0 0 i j 3 (Or.inr rfl) (orbQ t)
    have p := fun j k hj hk => orb_partial t j k 1 hj hk (Or.inl rfl)
    have p' := fun j k hj hk => orb_partial t j k 2 hj hk (Or.inr rfl)
    have a00 := p 0 0 (Or.inl rfl) (Or.inl rfl)
    have a03 := p 0 3 (Or.inl rfl) (Or.inr rfl)
    have a30 := p 3 0 (Or.inr rfl) (Or.inl rfl)
    have a33 := p 3 3 (Or.inr rfl) (Or.inr rfl)
    have b00 := p' 0 0 (Or.inl rfl) (Or.inl rfl)
    have b03 := p' 0 3 (Or.inl rfl) (Or.inr rfl)
    have b30 := p' 3 0 (Or.inr rfl) (Or.inl rfl)
    have b33 := p' 3 3 (Or.inr rfl) (Or.inr rfl)
    simp at a00 a03 a30 a33 b00 b03 b30 b33
    simp only [christoffelOf, Fin.sum_univ_four, v0, v1, v2, v3, s0, s3, a00, a03, a30, a33, b00, b03, b30, b33]
    ring

/-- Non-vacuity of C107. -/
theorem orb_hyps : NamedMetric "Schwarzschild" [] 0 0 ∧ (∀ t ∈ Set.Icc (0 : ℝ) 100, ∀ᶠ u in 𝓝 t, IsGeodesicAt (blCov 0 0) orbQ orbV u) ∧
    (∀ t ∈ Set.Icc (0 : ℝ) 100, Exterior 0 0 (orbQ t)) ∧ orbQ 0 0 = 0 ∧
    (Matrix.of fun i j => blCov 0 0 i j (orbQ 0))⁻¹ 0 0 ≠ 0 ∧
    (∑ i, ∑ j, blCov 0 0 i j (orbQ 0) * orbV 0 i * orbV 0 j = if true then -1 else 0) ∧ 0 ≤ orbV 0 0 := by
  have hx : ∀ t, Exterior 0 0 (orbQ t) := by
    intro t
    have q1 : orbQ t 1 = 4 := rfl
    have q2 : orbQ t 2 = Real.pi / 2 := rfl
    refine ⟨?_, ?_, ?_⟩
    · rw [q1]; norm_num
    · rw [q1]; norm_num
    · rw [q2]; simp
  refine ⟨.schwarzschild [], fun t _ => Filter.Eventually.of_forall orb_geodesic, fun t _ => hx t, by simp [orbQ], ?_, ?_, ?_⟩
  · rw [knCov_inv _ _ _ (hx 0)]
    have q1 : orbQ 0 1 = 4 := rfl
    simp only [q1, knContra]
    norm_num
  · have q1 : orbQ 0 1 = 4 := rfl
    have q2 : orbQ 0 2 = Real.pi / 2 := rfl
    simp only [blCov, q1, q2, knCov, Fin.sum_univ_four, orbV]
    simp
    norm_num
  · simp [orbV]

end Einpy
