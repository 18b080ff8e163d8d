import Verif.Num.Geodesics
import Verif.Geodesic.Circular

/-!
# C136: the two geodesic solvers of the package agree

`Geodesic` (geodesic/) works with `c = G = M = 1` and the integrator of integrators/fantasy.py, the `f_vec` of the classes in metric/ with SI
units and `RK4naive`.  Both are shown to approximate the same curve, after conversion of units.
-/

namespace Einpy.Num
open Classical
open scoped Topology

variable (k : PhysConst)

/-- SI size of the units of `Geodesic` for a hole of mass `M`: seconds for `t`, metres for `r`, radians for the angles. -/
noncomputable def siUnit (M : ℝ) : Vec4 := ![k.G * M / k.c ^ 3, k.G * M / k.c ^ 2, 1, 1]

/-- A position of `Geodesic` in SI units. -/
noncomputable def toSI (M : ℝ) (x : Vec4) : Vec4 := fun i => siUnit k M i * x i

/-- A velocity of `Geodesic` (per unit of proper time) in SI units (per second of proper time). -/
noncomputable def toSIvel (M : ℝ) (v : Vec4) : Vec4 := fun i => siUnit k M i / (k.G * M / k.c ^ 3) * v i

theorem update_scale (d x : Vec4) (m : Fin 4) (hd : d m ≠ 0) (s : ℝ) :
    Function.update (fun i => d i * x i) m s = fun i => d i * Function.update x m (s / d m) i := by
  funext i
  by_cases h : i = m
  · subst h; simp [mul_div_cancel₀ _ hd]
  · simp [Function.update_of_ne h]

/-- Christoffel symbols in other units -/
theorem lc_units {G : Vec4 → Mat4} {cov : Fin 4 → Fin 4 → V4 → ℝ} {d : Vec4} {κ : ℝ} (hd : ∀ i, d i ≠ 0) (hκ : κ ≠ 0) {x : Vec4}
    (hG : ∀ᶠ y in 𝓝 x, ∀ i j, G (fun i => d i * y i) i j * (d i * d j) = κ * cov i j y)
    (hdiff : ∀ i j, DifferentiableAt ℝ (cov i j) x) (hdet : IsUnit (Matrix.of fun i j => cov i j x).det) :
    IsLeviCivita G (fun i => d i * x i) (fun i j l => d i / (d j * d l) * christoffelOf cov x i j l) := by
  have hval : ∀ i j, G (fun i => d i * x i) i j = κ / (d i * d j) * cov i j x := by
    intro i j
    have := hG.self_of_nhds i j
    have h1 := hd i
    have h2 := hd j
    rw [div_mul_eq_mul_div, eq_div_iff (mul_ne_zero h1 h2)]; exact this
  set I := (Matrix.of fun i j => cov i j x)⁻¹ with hI
  have hinv : I * (Matrix.of fun i j => cov i j x) = 1 := Matrix.nonsing_inv_mul _ hdet
  refine ⟨fun m i j => κ / (d m * d i * d j) * partialAt (cov i j) x m, Matrix.of fun i j => d i * d j / κ * I i j, ?_, ?_, ?_⟩
  · intro m i j
    have hp : HasDerivAt (fun u => cov i j (Function.update x m u)) (partialAt (cov i j) x m) (x m) := by
      have hdx : DifferentiableAt ℝ (fun u => cov i j (Function.update x m u)) (x m) := by
        have h0 : DifferentiableAt ℝ (cov i j) (Function.update x m (x m)) := by rw [Function.update_eq_self]; exact hdiff i j
        exact h0.comp (x m) (hasDerivAt_update x m (x m)).differentiableAt
      exact hdx.hasDerivAt
    have hq : HasDerivAt (fun s : ℝ => s / d m) (1 / d m) (d m * x m) := (hasDerivAt_id _).div_const _
    have he : d m * x m / d m = x m := by field_simp [hd m]
    rw [← he] at hp
    have hc := (hp.comp (d m * x m) hq).const_mul (κ / (d i * d j))
    refine (hc.congr_deriv ?_).congr_of_eventuallyEq ?_
    · have h1 := hd i; have h2 := hd j; have h3 := hd m
      show κ / (d i * d j) * (partialAt (cov i j) x m * (1 / d m)) = κ / (d m * d i * d j) * partialAt (cov i j) x m
      field_simp
    · have hcont : Filter.Tendsto (fun s : ℝ => Function.update x m (s / d m)) (𝓝 (d m * x m)) (𝓝 x) := by
        have h1 : Continuous fun s : ℝ => Function.update x m (s / d m) := by fun_prop
        have h2 := h1.tendsto (d m * x m)
        rwa [he, Function.update_eq_self] at h2
      filter_upwards [hcont.eventually hG] with s hs
      have h1 := hd i
      have h2 := hd j
      have := hs i j
      rw [update_scale d x m (hd m)]
      show G _ i j = κ / (d i * d j) * cov i j (Function.update x m (s / d m))
      rw [div_mul_eq_mul_div, eq_div_iff (mul_ne_zero h1 h2)]; exact this
  · ext i j
    rw [Matrix.mul_apply]
    have e : ∀ l, (Matrix.of fun i j => d i * d j / κ * I i j) i l * G (fun i => d i * x i) l j =
        d i / d j * (I i l * (Matrix.of fun i j => cov i j x) l j) := by
      intro l
      rw [hval, Matrix.of_apply, Matrix.of_apply]
      have h1 := hd i; have h2 := hd j; have h3 := hd l
      field_simp
    simp only [e]
    rw [← Finset.mul_sum, ← Matrix.mul_apply, hinv, Matrix.one_apply]
    split_ifs with h
    · subst h; rw [div_self (hd i), mul_one]
    · rw [mul_zero]
  · intro i j l
    show d i / (d j * d l) * christoffelOf cov x i j l = _
    unfold christoffelFormula christoffelOf
    rw [← hI, ← mul_assoc, mul_comm (d i / (d j * d l)) (1 / 2), mul_assoc, Finset.mul_sum]
    congr 1
    refine Finset.sum_congr rfl fun m _ => ?_
    rw [Matrix.of_apply]
    have h1 := hd i; have h2 := hd j; have h3 := hd l; have h4 := hd m
    field_simp
    ring

/-- A geodesic of one line element is, in other units, a geodesic of the other -/
theorem geodesic_units {G : Vec4 → Mat4} {cov : Fin 4 → Fin 4 → V4 → ℝ} {d : Vec4} {κ μ : ℝ} (hd : ∀ i, d i ≠ 0) (hκ : κ ≠ 0) (hμ : 0 < μ)
    {q v : ℝ → Vec4} {t₀ t₁ : ℝ} {U : Set Vec4} (hU : IsOpen U)
    (hG : ∀ x ∈ U, ∀ i j, G (fun i => d i * x i) i j * (d i * d j) = κ * cov i j x)
    (hdiff : ∀ x ∈ U, ∀ i j, DifferentiableAt ℝ (cov i j) x) (hdet : ∀ x ∈ U, IsUnit (Matrix.of fun i j => cov i j x).det)
    (hgeo : ∀ t ∈ Set.Icc t₀ t₁, ∀ᶠ u in 𝓝 t, IsGeodesicAt cov q v u) (hq : ∀ t ∈ Set.Icc t₀ t₁, q t ∈ U) :
    IsGeodesicOn G (fun t i => d i * q (t / μ) i) (fun t i => d i / μ * v (t / μ) i) (Set.Icc (μ * t₀) (μ * t₁)) := by
  intro t ht
  have ht' : t / μ ∈ Set.Icc t₀ t₁ := by
    rw [Set.mem_Icc] at ht ⊢
    rw [le_div_iff₀ hμ, div_le_iff₀ hμ]
    exact ⟨by linarith [ht.1], by linarith [ht.2]⟩
  have hc : Filter.Tendsto (fun u : ℝ => u / μ) (𝓝 t) (𝓝 (t / μ)) := (continuous_id.div_const μ).tendsto t
  have hqc : ContinuousAt q (t / μ) :=
    continuousAt_pi.mpr fun i => ((hgeo _ ht').self_of_nhds.velocity i).continuousAt
  filter_upwards [hc.eventually (hgeo _ ht'), hc.eventually (hqc.eventually_mem (hU.mem_nhds (hq _ ht')))] with u hu hm
  have hlin : HasDerivAt (fun u : ℝ => u / μ) (1 / μ) u := (hasDerivAt_id u).div_const μ
  refine ⟨?_, _, lc_units hd hκ (Filter.eventually_of_mem (hU.mem_nhds hm) hG) (hdiff _ hm) (hdet _ hm), ?_⟩
  · refine hasDerivAt_pi.mpr fun i => ?_
    refine (((hu.velocity i).comp u hlin).const_mul (d i)).congr_deriv ?_
    ring
  · refine hasDerivAt_pi.mpr fun i => ?_
    refine (((hu.accel i).comp u hlin).const_mul (d i / μ)).congr_deriv ?_
    unfold geodesicAccel
    rw [neg_mul, mul_neg, neg_inj, Finset.sum_mul, Finset.mul_sum]
    refine Finset.sum_congr rfl fun j _ => ?_
    rw [Finset.sum_mul, Finset.mul_sum]
    refine Finset.sum_congr rfl fun l _ => ?_
    have h1 := hd i; have h2 := hd j; have h3 := hd l
    field_simp

/-! ## the line elements -/

theorem siUnit_ne {M : ℝ} (hM : 0 < M) (i : Fin 4) : siUnit k M i ≠ 0 := by
  have hc := k.c_pos
  have hG := k.G_pos
  fin_cases i
  · show k.G * M / k.c ^ 3 ≠ 0; positivity
  · show k.G * M / k.c ^ 2 ≠ 0; positivity
  · exact one_ne_zero
  · exact one_ne_zero

theorem exterior_open (a Q : ℝ) : IsOpen {x : V4 | Exterior a Q x} := by
  have c1 : Continuous fun x : V4 => x 1 ^ 2 + a ^ 2 * Real.cos (x 2) ^ 2 := by fun_prop
  have c2 : Continuous fun x : V4 => x 1 ^ 2 - 2 * x 1 + a ^ 2 + Q ^ 2 := by fun_prop
  have c3 : Continuous fun x : V4 => Real.sin (x 2) := by fun_prop
  exact (isOpen_ne_fun c1 continuous_const).inter ((isOpen_ne_fun c2 continuous_const).inter (isOpen_ne_fun c3 continuous_const))

theorem blCov_det {a Q : ℝ} {x : V4} (h : Exterior a Q x) : IsUnit (Matrix.of fun i j => blCov a Q i j x).det := by
  obtain ⟨hS, hD, hs⟩ := h
  have := knContra_inverse a Q _ _ hS hD hs
  exact Matrix.isUnit_det_of_left_inverse this

theorem kn_units {M a : ℝ} (hM : 0 < M) {x : V4} (hx : Exterior a 0 x) (i j : Fin 4) :
    knLineElement k.c (2 * k.G * M / k.c ^ 2) (a * (k.G * M / k.c ^ 2)) 0 (fun i => siUnit k M i * x i) i j * (siUnit k M i * siUnit k M j) =
      -(k.G * M / k.c ^ 2) ^ 2 * blCov a 0 i j x := by
  obtain ⟨hS, hD, hs⟩ := hx
  have hc := k.c_pos.ne'
  have hL : k.G * M / k.c ^ 2 ≠ 0 := by
    have := k.c_pos; have := k.G_pos; positivity
  have e0 : siUnit k M 0 = k.G * M / k.c ^ 2 / k.c := by show k.G * M / k.c ^ 3 = _; field_simp
  have e1 : siUnit k M 1 = k.G * M / k.c ^ 2 := rfl
  have e2 : siUnit k M 2 = 1 := rfl
  have e3 : siUnit k M 3 = 1 := rfl
  have e4 : 2 * k.G * M / k.c ^ 2 = 2 * (k.G * M / k.c ^ 2) := by ring
  rw [e4]
  have es : Real.sin (x 2) ^ 2 = 1 - Real.cos (x 2) ^ 2 := by rw [← Real.sin_sq_add_cos_sq (x 2)]; ring
  simp only [knLineElement, blCov, knCov, e1, e2]
  generalize k.G * M / k.c ^ 2 = L at *
  generalize x 1 = r at *
  generalize hcs : Real.cos (x 2) = C at *
  generalize hsn : Real.sin (x 2) = S at *
  have hS' : (L * r) ^ 2 + (a * L) ^ 2 * C ^ 2 = L ^ 2 * (r ^ 2 + a ^ 2 * C ^ 2) := by ring
  have hD' : (L * r) ^ 2 - 2 * L * (L * r) + (a * L) ^ 2 + 0 = L ^ 2 * (r ^ 2 - 2 * r + a ^ 2 + 0 ^ 2) := by ring
  simp only [one_mul, hcs, hsn, hS', hD']
  have eC : C ^ 2 = 1 - S ^ 2 := by rw [es]; ring
  rw [eC] at hS ⊢
  have hD2 : r ^ 2 - 2 * r + a ^ 2 ≠ 0 := by simpa using hD
  fin_cases i <;> fin_cases j <;> simp [e0, e1, e2, e3]
  all_goals (try field_simp) <;> (try ring)

theorem sch_units {M : ℝ} (hM : 0 < M) {x : V4} (hx : Exterior 0 0 x) (i j : Fin 4) :
    schwarzschildLineElement k.c (2 * k.G * M / k.c ^ 2) (fun i => siUnit k M i * x i) i j * (siUnit k M i * siUnit k M j) =
      -(k.G * M / k.c ^ 2) ^ 2 * blCov 0 0 i j x := by
  obtain ⟨hS, hD, hs⟩ := hx
  have hr : x 1 ≠ 0 := by
    intro h; rw [h] at hS; simp at hS
  have h2 : x 1 - 2 ≠ 0 := by
    intro h; apply hD
    have : x 1 = 2 := by linarith
    rw [this]; norm_num
  have hc := k.c_pos.ne'
  have hL : k.G * M / k.c ^ 2 ≠ 0 := by
    have := k.c_pos; have := k.G_pos; positivity
  have e0 : siUnit k M 0 = k.G * M / k.c ^ 2 / k.c := by show k.G * M / k.c ^ 3 = _; field_simp
  have e1 : siUnit k M 1 = k.G * M / k.c ^ 2 := rfl
  have e2 : siUnit k M 2 = 1 := rfl
  have e3 : siUnit k M 3 = 1 := rfl
  have e4 : 2 * k.G * M / k.c ^ 2 = 2 * (k.G * M / k.c ^ 2) := by ring
  rw [e4]
  have hk := knCov_schCov (x 1) (x 2) hr
  have hb : blCov 0 0 i j x = schCov (x 1) (x 2) i j := by unfold blCov; rw [hk]
  rw [hb]
  simp only [schwarzschildLineElement, schCov, e1, e2]
  generalize k.G * M / k.c ^ 2 = L at *
  generalize x 1 = r at *
  have e5 : 1 - 2 * L / (L * r) = (r - 2) / r := by field_simp
  have e6 : 1 - 2 / r = (r - 2) / r := by field_simp
  rw [e5, e6]
  fin_cases i <;> fin_cases j <;> simp [e0, e1, e2, e3, Matrix.diagonal]
  all_goals (try field_simp)

theorem siUnit_scale (M : ℝ) (q : Vec4) : (fun i => siUnit k M i * q i) = toSI k M q := rfl

theorem rk_index {t₀ t₁ δ μ : ℝ} {N : ℤ} {n : ℕ} (hμ : 0 < μ) (h0 : t₀ ≤ 0) (h1 : 0 ≤ t₁) (hN : N * δ ∈ Set.Icc t₀ t₁) (hn : (n : ℤ) ≤ N) :
    0 + n * (μ * δ) ∈ Set.Icc (μ * t₀) (μ * t₁) := by
  have h2 : (n : ℝ) ≤ N := by exact_mod_cast hn
  have h3 : (0:ℝ) ≤ n := Nat.cast_nonneg n
  rw [Set.mem_Icc] at hN
  have key : t₀ ≤ n * δ ∧ n * δ ≤ t₁ := by
    rcases le_total 0 δ with h | h
    · constructor
      · nlinarith
      · nlinarith [mul_le_mul_of_nonneg_right h2 h]
    · constructor
      · nlinarith [mul_le_mul_of_nonpos_right h2 h]
      · nlinarith
  have e : 0 + (n:ℝ) * (μ * δ) = μ * (n * δ) := by ring
  rw [e]
  exact ⟨mul_le_mul_of_nonneg_left key.1 hμ.le, mul_le_mul_of_nonneg_left key.2 hμ.le⟩

/-- The common argument: whatever `RK4naive` computes near the curve in SI units is near the rows of `Geodesic`. -/
theorem agree_core (s : String) (ps : List ℝ) (a : ℝ) (hn : NamedMetric s ps a 0) {M : ℝ} (hM : 0 < M) (tl : Bool)
    (f : Vec4 → Vec4 → Py (Vec4 × Vec4)) (q v : ℝ → V4) (t₀ t₁ : ℝ)
    (h0 : t₀ ≤ 0) (h1 : 0 ≤ t₁) (hgeo : ∀ t ∈ Set.Icc t₀ t₁, ∀ᶠ u in 𝓝 t, IsGeodesicAt (blCov a 0) q v u)
    (hext : ∀ t ∈ Set.Icc t₀ t₁, Exterior a 0 (q t)) (hq0 : q 0 0 = 0)
    (htt : (Matrix.of fun i j => blCov a 0 i j (q 0))⁻¹ 0 0 ≠ 0)
    (hnorm : ∑ i, ∑ j, blCov a 0 i j (q 0) * v 0 i * v 0 j = if tl then -1 else 0) (hfut : 0 ≤ v 0 0)
    (order : ℤ) (ho : order = 2 ∨ order = 4 ∨ order = 6 ∨ order = 8) (omega : ℝ) (m : ℕ) (hm : m = 2 ∨ (order = 4 ∧ m = 4))
    (hrk : ∃ K h₀ : ℝ, 0 < h₀ ∧ ∀ tb h, |h| < h₀ → ∀ n : ℕ, 0 + n * h ∈ Set.Icc (k.G * M / k.c ^ 3 * t₀) (k.G * M / k.c ^ 3 * t₁) →
      ∃ s, RK4Py.steps n (RK4Py.new (asRhs f) 0 (toSI k M (q 0), toSIvel k M (v 0)) tb h) = .ok s ∧
        ‖s.y.1 - toSI k M (q ((0 + n * h) / (k.G * M / k.c ^ 3)))‖ ≤ K * |h| ^ 4) :
    ∃ K δ₀ : ℝ, 0 < δ₀ ∧ ∀ (kw : GeoKw) (tb : ℝ), kw.omega = omega → kw.order = order → 0 < kw.steps → |kw.delta| < δ₀ →
      kw.steps * kw.delta ∈ Set.Icc t₀ t₁ →
      ∃ o, Geodesic.new (.str s) (some ps) (fun i => q 0 i.succ) (fun i => ∑ j, blCov a 0 i.succ j (q 0) * v 0 j) tl false kw = .ok o ∧
        ∀ n : ℕ, (n : ℤ) < kw.steps → ∃ (x u : V4) (r : RK4Py (Vec4 × Vec4)),
          o.rows[n]? = some [x 0, x 1, x 2, x 3, u 0, u 1, u 2, u 3] ∧
          RK4Py.steps (n + 1) (RK4Py.new (asRhs f) 0 (toSI k M (q 0), toSIvel k M (v 0)) tb (k.G * M / k.c ^ 3 * kw.delta)) = .ok r ∧
          ∀ i, |r.y.1 i - toSI k M x i| ≤ K * |kw.delta| ^ m := by
  have hμ : 0 < k.G * M / k.c ^ 3 := by
    have := k.c_pos; have := k.G_pos; positivity
  obtain ⟨K1, d1, hd1, hK1⟩ := C107_named s ps a 0 hn tl q v t₀ t₁ h0 h1 hgeo hext hq0 htt hnorm hfut order ho omega m hm
  obtain ⟨K2, d2, hd2, hK2⟩ := hrk
  generalize hμe : k.G * M / k.c ^ 3 = μ at *
  set B := ∑ i, |siUnit k M i| with hB
  refine ⟨|K2| * μ ^ 4 + B * |K1|, min (min d1 1) (d2 / μ), by positivity, ?_⟩
  intro kw tb k1 k2 k3 k4 k5
  have k41 : |kw.delta| < d1 := lt_of_lt_of_le k4 ((min_le_left _ _).trans (min_le_left _ _))
  have k42 : |kw.delta| < 1 := lt_of_lt_of_le k4 ((min_le_left _ _).trans (min_le_right _ _))
  have k43 : |kw.delta| < d2 / μ := lt_of_lt_of_le k4 (min_le_right _ _)
  obtain ⟨o, o1, -, o2⟩ := hK1 false kw k1 k2 k3 k41 k5
  refine ⟨o, o1, fun n hn' => ?_⟩
  obtain ⟨x, u, x1, x2⟩ := o2 n hn'
  have hh : |μ * kw.delta| = μ * |kw.delta| := by rw [abs_mul, abs_of_pos hμ]
  obtain ⟨r, r1, r2⟩ := hK2 tb (μ * kw.delta) (by rw [hh, mul_comm]; exact (lt_div_iff₀ hμ).mp k43) (n + 1)
    (rk_index hμ h0 h1 k5 (by push_cast; omega))
  refine ⟨x, u, r, ?_, r1, fun i => ?_⟩
  · rw [x1]; rfl
  · have et : (0 + ((n + 1 : ℕ) : ℝ) * (μ * kw.delta)) / μ = ((n:ℝ) + 1) * kw.delta := by
      push_cast; field_simp; ring
    rw [et] at r2
    have r3 : |r.y.1 i - toSI k M (q (((n:ℝ) + 1) * kw.delta)) i| ≤ K2 * |μ * kw.delta| ^ 4 := by
      have := norm_le_pi_norm (r.y.1 - toSI k M (q (((n:ℝ) + 1) * kw.delta))) i
      rw [Real.norm_eq_abs] at this
      exact this.trans r2
    have p4 : |kw.delta| ^ 4 ≤ |kw.delta| ^ m := by
      refine pow_le_pow_of_le_one (abs_nonneg _) k42.le ?_
      rcases hm with rfl | ⟨-, rfl⟩ <;> norm_num
    have r4 : |r.y.1 i - toSI k M (q (((n:ℝ) + 1) * kw.delta)) i| ≤ |K2| * μ ^ 4 * |kw.delta| ^ m := by
      refine r3.trans ?_
      rw [hh, mul_pow, mul_assoc]
      have hp : 0 ≤ μ ^ 4 * |kw.delta| ^ 4 := by positivity
      calc K2 * (μ ^ 4 * |kw.delta| ^ 4) ≤ |K2| * (μ ^ 4 * |kw.delta| ^ 4) := mul_le_mul_of_nonneg_right (le_abs_self _) hp
        _ ≤ |K2| * (μ ^ 4 * |kw.delta| ^ m) := by gcongr
    have r5 : |toSI k M (q (((n:ℝ) + 1) * kw.delta)) i - toSI k M x i| ≤ B * |K1| * |kw.delta| ^ m := by
      have e : toSI k M (q (((n:ℝ) + 1) * kw.delta)) i - toSI k M x i = -(siUnit k M i * (x i - q (((n:ℝ) + 1) * kw.delta) i)) := by
        unfold toSI; ring
      rw [e, abs_neg, abs_mul]
      have hb : |siUnit k M i| ≤ B := Finset.single_le_sum (f := fun i => |siUnit k M i|) (fun i _ => abs_nonneg _) (Finset.mem_univ i)
      have hB0 : 0 ≤ B := (abs_nonneg _).trans hb
      calc |siUnit k M i| * |x i - q (((n:ℝ) + 1) * kw.delta) i| ≤ B * (K1 * |kw.delta| ^ m) :=
            mul_le_mul hb (x2 i).1 (abs_nonneg _) hB0
        _ ≤ B * (|K1| * |kw.delta| ^ m) := by
            refine mul_le_mul_of_nonneg_left (mul_le_mul_of_nonneg_right (le_abs_self _) (by positivity)) hB0
        _ = B * |K1| * |kw.delta| ^ m := by ring
    have := abs_sub_le (r.y.1 i) (toSI k M (q (((n:ℝ) + 1) * kw.delta)) i) (toSI k M x i)
    calc _ ≤ _ := this
      _ ≤ |K2| * μ ^ 4 * |kw.delta| ^ m + B * |K1| * |kw.delta| ^ m := add_le_add r4 r5
      _ = _ := by ring

/-- **C136, Schwarzschild.** Given a future-directed time-like or null geodesic `q` of the Schwarzschild space-time (geometric units) that stays away
from centre, horizon and axis: for every small step size, `Geodesic("Schwarzschild", …)` and `RK4naive` on `Schwarzschild(M).f_vec`, started from the
same position and velocity in SI units and with the same step in seconds, both succeed and differ, in every row, by at most `K · delta²` (`K · delta⁴`
for order 4). -/
theorem C136_schwarzschild {M : ℝ} (hM : 0 < M) (ps : List ℝ) (tl : Bool) (q v : ℝ → V4) (t₀ t₁ : ℝ)
    (h0 : t₀ ≤ 0) (h1 : 0 ≤ t₁) (hgeo : ∀ t ∈ Set.Icc t₀ t₁, ∀ᶠ u in 𝓝 t, IsGeodesicAt (blCov 0 0) q v u)
    (hext : ∀ t ∈ Set.Icc t₀ t₁, Exterior 0 0 (q t)) (hq0 : q 0 0 = 0)
    (htt : (Matrix.of fun i j => blCov 0 0 i j (q 0))⁻¹ 0 0 ≠ 0)
    (hnorm : ∑ i, ∑ j, blCov 0 0 i j (q 0) * v 0 i * v 0 j = if tl then -1 else 0) (hfut : 0 ≤ v 0 0)
    (order : ℤ) (ho : order = 2 ∨ order = 4 ∨ order = 6 ∨ order = 8) (omega : ℝ) (m : ℕ) (hm : m = 2 ∨ (order = 4 ∧ m = 4)) :
    ∃ K δ₀ : ℝ, 0 < δ₀ ∧ ∀ (kw : GeoKw) (tb : ℝ), kw.omega = omega → kw.order = order → 0 < kw.steps → |kw.delta| < δ₀ →
      kw.steps * kw.delta ∈ Set.Icc t₀ t₁ →
      ∃ o, Geodesic.new (.str "Schwarzschild") (some ps) (fun i => q 0 i.succ) (fun i => ∑ j, blCov 0 0 i.succ j (q 0) * v 0 j) tl false kw = .ok o ∧
        ∀ n : ℕ, (n : ℤ) < kw.steps → ∃ (x u : V4) (r : RK4Py (Vec4 × Vec4)),
          o.rows[n]? = some [x 0, x 1, x 2, x 3, u 0, u 1, u 2, u 3] ∧
          RK4Py.steps (n + 1) (RK4Py.new (asRhs (Schwarzschild.fVec k (Schwarzschild.new k "Spherical" M))) 0
            (toSI k M (q 0), toSIvel k M (v 0)) tb (k.G * M / k.c ^ 3 * kw.delta)) = .ok r ∧
          ∀ i, |r.y.1 i - toSI k M x i| ≤ K * |kw.delta| ^ m := by
  have hμ : 0 < k.G * M / k.c ^ 3 := by
    have := k.c_pos; have := k.G_pos; positivity
  have hL : 0 < k.G * M / k.c ^ 2 := by
    have := k.c_pos; have := k.G_pos; positivity
  refine agree_core k "Schwarzschild" ps 0 (.schwarzschild ps) hM tl _ q v t₀ t₁ h0 h1 hgeo hext hq0 htt hnorm hfut order ho omega m hm ?_
  have hX := geodesic_units (siUnit_ne k hM) (neg_ne_zero.mpr (pow_ne_zero 2 hL.ne')) hμ (exterior_open 0 0)
    (fun x hx i j => sch_units k hM hx i j) (fun x hx i j => blCov_diff 0 0 x hx i j) (fun x hx => blCov_det hx) hgeo hext
  obtain ⟨K, h₀, hp, hK⟩ := C115_schwarzschild_geodesics k (M := M) (t₀ := 0)
    ⟨mul_nonpos_of_nonneg_of_nonpos hμ.le h0, mul_nonneg hμ.le h1⟩ hX (by
      intro t ht
      have ht' : t / (k.G * M / k.c ^ 3) ∈ Set.Icc t₀ t₁ := by
        rw [Set.mem_Icc] at ht ⊢
        rw [le_div_iff₀ hμ, div_le_iff₀ hμ]
        exact ⟨by linarith [ht.1], by linarith [ht.2]⟩
      obtain ⟨hS, hD, hs⟩ := hext _ ht'
      have e1 : siUnit k M 1 = k.G * M / k.c ^ 2 := rfl
      have e2 : siUnit k M 2 = 1 := rfl
      have hr : q (t / (k.G * M / k.c ^ 3)) 1 ≠ 0 := by
        intro h; rw [h] at hS; simp at hS
      refine ⟨?_, ?_, ?_⟩
      · show siUnit k M 1 * _ ≠ 0
        rw [e1]; exact mul_ne_zero hL.ne' hr
      · show siUnit k M 1 * _ ≠ _
        rw [e1]
        intro h
        have : q (t / (k.G * M / k.c ^ 3)) 1 = 2 := by
          apply mul_left_cancel₀ hL.ne'
          rw [h]; ring
        rw [this] at hD
        norm_num at hD
      · show Real.sin (siUnit k M 2 * _) ≠ 0
        rw [e2, one_mul]; exact hs)
  refine ⟨K, h₀, hp, fun tb h hh n hn => ?_⟩
  obtain ⟨s, s1, -, s2, -⟩ := hK tb h hh n hn
  simp only [zero_div] at s1
  exact ⟨s, s1, s2⟩

/-- **C136, Kerr.** The same for `Geodesic("Kerr", (a,), …)` — likewise for "Schwarzschild" (a = 0) and "KerrNewman" with Q = 0 — and a neutral test
particle with the `f_vec` of `KerrNewman(M, a, Q)`, whose metric is that of the uncharged hole (C46). -/
theorem C136_kerr {M a : ℝ} (hM : 0 < M) (ha : 0 ≤ a ∧ a ≤ 1) (Q : ℝ) (s : String) (ps : List ℝ) (hn : NamedMetric s ps a 0) (tl : Bool)
    (q v : ℝ → V4) (t₀ t₁ : ℝ)
    (h0 : t₀ ≤ 0) (h1 : 0 ≤ t₁) (hgeo : ∀ t ∈ Set.Icc t₀ t₁, ∀ᶠ u in 𝓝 t, IsGeodesicAt (blCov a 0) q v u)
    (hext : ∀ t ∈ Set.Icc t₀ t₁, Exterior a 0 (q t)) (hq0 : q 0 0 = 0)
    (htt : (Matrix.of fun i j => blCov a 0 i j (q 0))⁻¹ 0 0 ≠ 0)
    (hnorm : ∑ i, ∑ j, blCov a 0 i j (q 0) * v 0 i * v 0 j = if tl then -1 else 0) (hfut : 0 ≤ v 0 0)
    (order : ℤ) (ho : order = 2 ∨ order = 4 ∨ order = 6 ∨ order = 8) (omega : ℝ) (m : ℕ) (hm : m = 2 ∨ (order = 4 ∧ m = 4)) :
    ∃ K δ₀ : ℝ, 0 < δ₀ ∧ ∀ (kw : GeoKw) (tb : ℝ), kw.omega = omega → kw.order = order → 0 < kw.steps → |kw.delta| < δ₀ →
      kw.steps * kw.delta ∈ Set.Icc t₀ t₁ →
      ∃ o, Geodesic.new (.str s) (some ps) (fun i => q 0 i.succ) (fun i => ∑ j, blCov a 0 i.succ j (q 0) * v 0 j) tl false kw = .ok o ∧
        ∀ n : ℕ, (n : ℤ) < kw.steps → ∃ (x u : V4) (r : RK4Py (Vec4 × Vec4)),
          o.rows[n]? = some [x 0, x 1, x 2, x 3, u 0, u 1, u 2, u 3] ∧
          RK4Py.steps (n + 1) (RK4Py.new (asRhs (KerrNewman.fVec k (KerrNewman.new k "BoyerLindquist" M a Q 0))) 0
            (toSI k M (q 0), toSIvel k M (v 0)) tb (k.G * M / k.c ^ 3 * kw.delta)) = .ok r ∧
          ∀ i, |r.y.1 i - toSI k M x i| ≤ K * |kw.delta| ^ m := by
  have hμ : 0 < k.G * M / k.c ^ 3 := by
    have := k.c_pos; have := k.G_pos; positivity
  have hL : 0 < k.G * M / k.c ^ 2 := by
    have := k.c_pos; have := k.G_pos; positivity
  refine agree_core k s ps a hn hM tl _ q v t₀ t₁ h0 h1 hgeo hext hq0 htt hnorm hfut order ho omega m hm ?_
  have hX := geodesic_units (siUnit_ne k hM) (neg_ne_zero.mpr (pow_ne_zero 2 hL.ne')) hμ (exterior_open a 0)
    (fun x hx i j => kn_units k hM hx i j) (fun x hx i j => blCov_diff a 0 x hx i j) (fun x hx => blCov_det hx) hgeo hext
  obtain ⟨K, h₀, hp, hK⟩ := C115_kn_neutral_geodesics k (M := M) (a := a) (Q := Q) (al := a * (k.G * M / k.c ^ 2)) (t₀ := 0)
    (by
      unfold alpha
      rw [if_neg (by push Not; exact ha)])
    ⟨mul_nonpos_of_nonneg_of_nonpos hμ.le h0, mul_nonneg hμ.le h1⟩ hX (by
      intro t ht
      have ht' : t / (k.G * M / k.c ^ 3) ∈ Set.Icc t₀ t₁ := by
        rw [Set.mem_Icc] at ht ⊢
        rw [le_div_iff₀ hμ, div_le_iff₀ hμ]
        exact ⟨by linarith [ht.1], by linarith [ht.2]⟩
      obtain ⟨hS, hD, hs⟩ := hext _ ht'
      have e1 : siUnit k M 1 = k.G * M / k.c ^ 2 := rfl
      have e2 : siUnit k M 2 = 1 := rfl
      have e4 : 2 * k.G * M / k.c ^ 2 = 2 * (k.G * M / k.c ^ 2) := by ring
      simp only [e1, e2, e4, one_mul]
      generalize k.G * M / k.c ^ 2 = L at hL ⊢
      generalize q (t / (k.G * M / k.c ^ 3)) = y at *
      refine ⟨?_, ?_, hs⟩
      · have : (L * y 1) ^ 2 + (a * L) ^ 2 * Real.cos (y 2) ^ 2 = L ^ 2 * (y 1 ^ 2 + a ^ 2 * Real.cos (y 2) ^ 2) := by ring
        rw [this]; exact mul_ne_zero (pow_ne_zero 2 hL.ne') hS
      · have : (L * y 1) ^ 2 - 2 * L * (L * y 1) + (a * L) ^ 2 = L ^ 2 * (y 1 ^ 2 - 2 * y 1 + a ^ 2 + 0 ^ 2) := by ring
        rw [this]; exact mul_ne_zero (pow_ne_zero 2 hL.ne') hD)
  refine ⟨K, h₀, hp, fun tb h hh n hn => ?_⟩
  obtain ⟨s, s1, -, s2, -⟩ := hK tb h hh n hn
  simp only [zero_div] at s1
  exact ⟨s, s1, s2⟩

/-- A concrete instance: the circular orbit of radius `4` (units of GM/c²) around a hole of mass `M`. -/
example {M : ℝ} (hM : 0 < M) : ∃ K δ₀ : ℝ, 0 < δ₀ ∧ ∀ (kw : GeoKw) (tb : ℝ), kw.omega = 1 → kw.order = 2 → 0 < kw.steps → |kw.delta| < δ₀ →
      kw.steps * kw.delta ∈ Set.Icc (0:ℝ) 100 →
      ∃ o, Geodesic.new (.str "Schwarzschild") (some []) (fun i => orbQ 0 i.succ) (fun i => ∑ j, blCov 0 0 i.succ j (orbQ 0) * orbV 0 j) true false kw = .ok o ∧
        ∀ n : ℕ, (n : ℤ) < kw.steps → ∃ (x u : V4) (r : RK4Py (Vec4 × Vec4)),
          o.rows[n]? = some [x 0, x 1, x 2, x 3, u 0, u 1, u 2, u 3] ∧
          RK4Py.steps (n + 1) (RK4Py.new (asRhs (Schwarzschild.fVec k (Schwarzschild.new k "Spherical" M))) 0
            (toSI k M (orbQ 0), toSIvel k M (orbV 0)) tb (k.G * M / k.c ^ 3 * kw.delta)) = .ok r ∧
          ∀ i, |r.y.1 i - toSI k M x i| ≤ K * |kw.delta| ^ 2 := by
  obtain ⟨-, h1, h2, h3, h4, h5, h6⟩ := orb_hyps
  exact C136_schwarzschild k hM [] true orbQ orbV 0 100 le_rfl (by norm_num) h1 h2 h3 h4 h5 h6 2 (Or.inl rfl) 1 2 (Or.inl rfl)

end Einpy.Num
