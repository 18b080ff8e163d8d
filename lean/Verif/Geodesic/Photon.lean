import Verif.Geodesic.Reversal

/-!
# C135: the path of a photon does not depend on its energy

Null geodesics are the same curves for photons of every energy: momentum times `l`, step size divided by `l` should give the same positions and
`l` times the momenta.
-/

set_option linter.unusedSimpArgs false
set_option linter.unusedVariables false

namespace Einpy
open Classical
open scoped Topology

/-! ## the stored momentum, and the uncoupled integrator -/

/-- the stored momentum of a photon scales with the given one, with the same errors -/
theorem photon_fourMomentum {g : MetricFn} (q : V4) (p : Fin 3 → ℝ) {l : ℝ} (hl : 0 < l) :
    fourMomentum g q (fun i => l * p i) false = (fourMomentum g q p false).map fun P => fun i => l * P i := by
  unfold fourMomentum
  cases evalMetric g q with
  | error e => rfl
  | ok G =>
    simp only [bind, Except.bind, Bool.false_eq_true, if_false, add_zero]
    have e : (2 * G 0 3 * (l * p 2)) ^ 2 - 4 * G 0 0 * (G 1 1 * (l * p 0) * (l * p 0) + G 2 2 * (l * p 1) * (l * p 1) +
        G 3 3 * (l * p 2) * (l * p 2)) = l ^ 2 * ((2 * G 0 3 * p 2) ^ 2 - 4 * G 0 0 * (G 1 1 * p 0 * p 0 + G 2 2 * p 1 * p 1 + G 3 3 * p 2 * p 2)) := by
      ring
    rw [e]
    set D := (2 * G 0 3 * p 2) ^ 2 - 4 * G 0 0 * (G 1 1 * p 0 * p 0 + G 2 2 * p 1 * p 1 + G 3 3 * p 2 * p 2)
    have hD : l ^ 2 * D < 0 ↔ D < 0 := by
      constructor
      · intro h
        by_contra h'
        exact absurd h (not_lt.mpr (mul_nonneg (sq_nonneg l) (not_lt.mp h')))
      · intro h
        exact mul_neg_of_pos_of_neg (pow_pos hl 2) h
    simp only [hD]
    split_ifs
    · rfl
    · rfl
    · refine congrArg Except.ok ?_
      have hs : Real.sqrt (l ^ 2 * D) = l * Real.sqrt D := by
        rw [Real.sqrt_mul (sq_nonneg l), Real.sqrt_sq hl.le]
      rw [hs]
      funext i
      fin_cases i
      · show (-(2 * G 0 3 * (l * p 2)) + l * Real.sqrt D) / (2 * G 0 0) = l * ((-(2 * G 0 3 * p 2) + Real.sqrt D) / (2 * G 0 0))
        ring
      · rfl
      · rfl
      · rfl

/-- **C135, momentum.** For every metric argument — named or a callable —, position and number of steps: the 4-momentum stored for a photon with `l`
times the momentum is `l` times as large. -/
theorem C135_momentum (m : MetricArg) (ps : Option (List ℝ)) (x p : Fin 3 → ℝ) (rc rc' : Bool) {l : ℝ} (hl : 0 < l) (kw kw' : GeoKw)
    (o o' : GeodesicObj) (ho : Nulllike.new m ps x p rc kw = .ok o) (ho' : Nulllike.new m ps x (fun i => l * p i) rc' kw' = .ok o') :
    o'.momentum = fun i => l * o.momentum i := by
  unfold Nulllike.new Geodesic.new at ho ho'
  simp only [bind, Except.bind, pure, Except.pure] at ho ho'
  split at ho
  · cases ho
  rename_i nf hnf
  rw [hnf] at ho'
  simp only [] at ho'
  split at ho
  · cases ho
  rename_i aps haps
  rw [haps] at ho'
  simp only [] at ho'
  split at ho
  · cases ho
  rename_i g hg
  rw [hg] at ho'
  simp only [photon_fourMomentum _ _ hl] at ho'
  split at ho
  · cases ho
  rename_i P hP
  rw [hP] at ho'
  simp only [Except.map] at ho'
  split at ho
  · cases ho
  rename_i sps hsps
  rw [hsps] at ho'
  simp only [] at ho'
  split at ho
  · cases ho
  rename_i g' hg'
  rw [hg'] at ho'
  simp only [] at ho'
  split at ho
  · cases ho
  split at ho'
  · cases ho'
  rw [← Except.ok.inj ho, ← Except.ok.inj ho']

/-- **C135, uncoupled.** With `omega = 0` the property holds exactly: `l` times the momentum with the `l`-th part of the step size gives the same
exception, or an object with the same steps, `l` times the momentum, and the same rows with the momentum entries multiplied by `l` — for every
metric argument, order and number of steps. -/
theorem C135_uncoupled (m : MetricArg) (ps : Option (List ℝ)) (x p : Fin 3 → ℝ) (rc : Bool) {l : ℝ} (hl : 0 < l) (kw : GeoKw)
    (hω : kw.omega = 0) :
    Nulllike.new m ps x (fun i => l * p i) rc { kw with delta := kw.delta / l } =
      (Nulllike.new m ps x p rc kw).map fun o => { o with momentum := fun i => l * o.momentum i, rows := o.rows.map (scaleRow l) } := by
  unfold Nulllike.new Geodesic.new
  have hT : ∀ (g : MetricFn) q0 p0 coords, calculateTrajectory g q0 (fun i => l * p0 i) false coords { kw with delta := kw.delta / l } =
      (calculateTrajectory g q0 p0 false coords kw).map fun r => (r.1, r.2.map (scaleRow l)) := fun g q0 p0 coords =>
    scale_trajectory q0 p0 false coords kw _ (Or.inl hω) (by simp only []; field_simp) rfl rfl rfl rfl
  simp only [bind, Except.bind, pure, Except.pure, photon_fourMomentum _ _ hl]
  split
  · rfl
  split
  · rfl
  split
  · rfl
  rename_i g hg
  cases fourMomentum g ![0, x 0, x 1, x 2] p false with
  | error e => rfl
  | ok P =>
    simp only [Except.map]
    split
    · rfl
    split
    · rfl
    rename_i g' hg'
    simp only [hT]
    cases calculateTrajectory g' ![0, x 0, x 1, x 2] P false (if rc = true then "Cartesian" else "Spherical Polar") kw with
    | error e => rfl
    | ok r => rfl

/-! ## refutation for the coupled integrator -/

/-- radial position and momentum -/
noncomputable def rq (t r : ℝ) : V4 := ![t, r, Real.pi / 2, 0]
def rp (a b : ℝ) : V4 := ![a, b, 0, 0]

theorem sch_entries (q : V4) : (fun i j => (schFn i j).den q) = fun i j => (![![-1 / (1 - 2 / q 1), 0, 0, 0], ![0, 1 - 2 / q 1, 0, 0],
    ![0, 0, 1 / q 1 ^ 2, 0], ![0, 0, 0, 1 / (q 1 * Real.sin (q 2)) ^ 2]] : Fin 4 → Fin 4 → ℝ) i j := by
  funext i j
  fin_cases i <;> fin_cases j <;> simp [schFn, Expr.den, Real.rpow_two]

theorem radial_force (t r a b : ℝ) (hr : r ≠ 0) (h2 : r ≠ 2) (i : Fin 4) :
    partHamFlow schFn (rq t r) (rp a b) i = .ok (rp 0 (2 / r ^ 2 * (a ^ 2 / (1 - 2 / r) ^ 2 + b ^ 2)) i) := by
  have hs : ∀ i j (y : V4), (schFn i j).den y = (schFn j i).den y := by
    intro i j y; fin_cases i <;> fin_cases j <;> rfl
  have hreg : ∀ i j, (schFn i j).Regular (rq t r) := sch_regular _ hr h2 (by simp [rq])
  obtain ⟨J, hJ, -, -, h3⟩ := C28_jacobian schFn (rq t r) hreg i
  have h4 := h3 hs
  have e : ∀ a b, J a b = deriv (fun u => (schFn a b).den (Function.update (rq t r) i u)) (rq t r i) := by
    intro a b
    have := (h4 a b).deriv
    rw [slice_update] at this
    exact this.symm
  unfold partHamFlow
  rw [hJ]
  simp only [bind, Except.bind, pure, Except.pure, dot4, matVec]
  refine congrArg Except.ok ?_
  have hJv : ∑ j, (∑ k, J j k * rp a b k) * rp a b j = J 0 0 * a ^ 2 + (J 0 1 + J 1 0) * a * b + J 1 1 * b ^ 2 := by
    simp [Fin.sum_univ_four, rp]; ring
  rw [hJv, e, e, e, e]
  have c01 : ∀ u : V4, (schFn 0 1).den u = 0 := fun u => rfl
  have c10 : ∀ u : V4, (schFn 1 0).den u = 0 := fun u => rfl
  have c00 : ∀ u : V4, (schFn 0 0).den u = -1 / (1 - 2 / u 1) := fun u => rfl
  have c11 : ∀ u : V4, (schFn 1 1).den u = 1 - 2 / u 1 := fun u => rfl
  simp only [c01, c10, c00, c11, deriv_const]
  by_cases hi : i = 1
  · subst hi
    have hf : 1 - 2 / r ≠ 0 := by
      rw [ne_eq, sub_eq_zero, eq_div_iff hr]; intro h; exact h2 (by linarith)
    have d1 : HasDerivAt (fun u : ℝ => 1 - 2 / u) (2 / r ^ 2) r := by
      have := ((hasDerivAt_inv hr).const_mul 2).const_sub 1
      refine (this.congr_deriv (by ring)).congr_of_eventuallyEq ?_
      exact Filter.Eventually.of_forall fun u => by simp only [div_eq_mul_inv]
    have d0 : HasDerivAt (fun u : ℝ => -1 / (1 - 2 / u)) (2 / r ^ 2 / (1 - 2 / r) ^ 2) r := by
      refine ((hasDerivAt_const r (-1 : ℝ)).div d1 hf).congr_deriv ?_
      ring
    simp only [Function.update_self]
    have hq : rq t r 1 = r := rfl
    rw [hq, d0.deriv, d1.deriv]
    show _ = 2 / r ^ 2 * (a ^ 2 / (1 - 2 / r) ^ 2 + b ^ 2)
    ring
  · have hu : ∀ u : ℝ, Function.update (rq t r) i u 1 = r := fun u => by
      rw [Function.update_of_ne (Ne.symm hi)]; rfl
    simp only [hu, deriv_const]
    fin_cases i
    · show _ = (0:ℝ); ring
    · exact absurd rfl hi
    · show _ = (0:ℝ); ring
    · show _ = (0:ℝ); ring

theorem radial_metric (t r : ℝ) (hr : r ≠ 0) (h2 : r ≠ 2) :
    evalMetric schFn (rq t r) = .ok fun i j => (schFn i j).den (rq t r) :=
  evalMetric_regular (sch_regular _ hr h2 (by simp [rq]))

theorem radial_flowA (t1 r1 a1 b1 t2 r2 a2 b2 δ : ℝ) (hr : r1 ≠ 0) (h2 : r1 ≠ 2) :
    flowA schFn (rq t1 r1) (rp a1 b1) (rq t2 r2) (rp a2 b2) δ =
      .ok (rq (t2 - δ * (a2 / (1 - 2 / r1))) (r2 + δ * ((1 - 2 / r1) * b2)),
        rp a1 (b1 - δ * (1 / r1 ^ 2 * (a2 ^ 2 / (1 - 2 / r1) ^ 2 + b2 ^ 2)))) := by
  have h4 : (seq4 fun i => do return 0.5 * (← partHamFlow schFn (rq t1 r1) (rp a2 b2) i)) =
      .ok fun i => 0.5 * rp 0 (2 / r1 ^ 2 * (a2 ^ 2 / (1 - 2 / r1) ^ 2 + b2 ^ 2)) i := by
    refine seq4_ok.mpr fun i => ?_
    simp only [radial_force _ _ _ _ hr h2, bind, Except.bind, pure, Except.pure]
  rw [flowA_of schFn _ _ _ _ δ (radial_metric t1 r1 hr h2) h4]
  have c : ∀ i j, (schFn i j).den (rq t1 r1) = (fun i j => (schFn i j).den (rq t1 r1)) i j := fun _ _ => rfl
  refine congrArg Except.ok (Prod.ext ?_ ?_) <;> funext i
  · rw [sch_entries]
    fin_cases i <;> simp [matVec, Fin.sum_univ_four, rq, rp]
    ring
  · fin_cases i <;> simp [rp]
    ring_nf
    simp

theorem radial_mixed (t1 r1 a1 b1 t2 r2 a2 b2 δ ω c s : ℝ) (hc : Real.cos (2 * ω * δ) = c) (hs : Real.sin (2 * ω * δ) = s) :
    flowMixed (rq t1 r1) (rp a1 b1) (rq t2 r2) (rp a2 b2) δ ω =
      (rq (((t1 + t2) + (t1 - t2) * c + (a1 - a2) * s) / 2) (((r1 + r2) + (r1 - r2) * c + (b1 - b2) * s) / 2),
       rp (((a1 + a2) + (a1 - a2) * c - (t1 - t2) * s) / 2) (((b1 + b2) + (b1 - b2) * c - (r1 - r2) * s) / 2),
       rq (((t1 + t2) - (t1 - t2) * c - (a1 - a2) * s) / 2) (((r1 + r2) - (r1 - r2) * c - (b1 - b2) * s) / 2),
       rp (((a1 + a2) - (a1 - a2) * c + (t1 - t2) * s) / 2) (((b1 + b2) - (b1 - b2) * c + (r1 - r2) * s) / 2)) := by
  unfold flowMixed
  simp only [hc, hs]
  refine Prod.ext ?_ (Prod.ext ?_ (Prod.ext ?_ ?_)) <;> funext i <;> fin_cases i <;> simp [rq, rp] <;> ring

/-- one step of order 2 for the radial photon from `r = 4` with `p_r = l` and step size `4 / l`, up to the mixing -/
theorem radial_half {l h : ℝ} (hl : l ≠ 0) (hh : h = 4 / l) :
    flowA schFn (rq 0 4) (rp (-(l / 2)) l) (rq 0 4) (rp (-(l / 2)) l) (0.5 * h) = .ok (rq 2 5, rp (-(l / 2)) (3 / 4 * l)) ∧
    flowB schFn (rq 0 4) (rp (-(l / 2)) (3 / 4 * l)) (rq 2 5) (rp (-(l / 2)) l) (0.5 * h) =
      .ok (rq (5 / 3) (49 / 10), rp (-(l / 2)) (1619 / 1800 * l)) := by
  subst hh
  constructor
  · rw [radial_flowA _ _ _ _ _ _ _ _ _ (by norm_num) (by norm_num)]
    congr 3
    · field_simp; norm_num
    · field_simp; norm_num
    · field_simp; norm_num
  · rw [flowB_eq_flowA, radial_flowA _ _ _ _ _ _ _ _ _ (by norm_num) (by norm_num)]
    congr 3
    · field_simp; norm_num
    · field_simp; norm_num
    · field_simp; norm_num

theorem radial_step {l h ω T1 R1 A1 B1 T2 R2 A2 B2 : ℝ} (hl : l ≠ 0) (hh : h = 4 / l)
    (hm : flowMixed (rq (5 / 3) (49 / 10)) (rp (-(l / 2)) (3 / 4 * l)) (rq 2 5) (rp (-(l / 2)) (1619 / 1800 * l)) h ω =
      (rq T1 R1, rp A1 B1, rq T2 R2, rp A2 B2)) (h1 : R2 ≠ 0) (h2 : R2 ≠ 2)
    (h3 : R1 + 0.5 * h * ((1 - 2 / R2) * B1) ≠ 0) (h4 : R1 + 0.5 * h * ((1 - 2 / R2) * B1) ≠ 2) :
    ∃ (T : ℝ) (p1 q2 p2 : V4), ord2 ⟨schFn, ω, 2⟩ (rq 0 4, rp (-(l / 2)) l, rq 0 4, rp (-(l / 2)) l) h =
      .ok (rq T (R1 + 0.5 * h * ((1 - 2 / R2) * B1)), p1, q2, p2) := by
  obtain ⟨e1, e2⟩ := radial_half hl hh
  simp only [ord2, PS.q1, PS.p1, PS.q2, PS.p2, e1, e2, bind, Except.bind, hm, flowB_eq_flowA,
    radial_flowA _ _ _ _ _ _ _ _ _ h1 h2, radial_flowA _ _ _ _ _ _ _ _ _ h3 h4, pure, Except.pure]
  exact ⟨_, _, _, _, rfl⟩

/-- the photon that starts at `r = 4` in the Schwarzschild space-time with `p_r = l` -/
theorem radial_photon {l : ℝ} (hl : 0 < l) (kw : GeoKw) (hN : kw.steps = 1) (ho : kw.order = 2) (hw : kw.suppressWarnings = true)
    {T R : ℝ} {p1 q2 p2 : V4}
    (hstep : ord2 ⟨schFn, kw.omega, 2⟩ (rq 0 4, rp (-(l / 2)) l, rq 0 4, rp (-(l / 2)) l) kw.delta = .ok (rq T R, p1, q2, p2)) :
    ∃ o, Nulllike.new (.str "Schwarzschild") (some []) ![4, Real.pi / 2, 0] ![l, 0, 0] false kw = .ok o ∧
      ∃ row, o.rows = [row] ∧ row[1]? = some R := by
  obtain ⟨g, ps', hnew, -⟩ := named_new_tp (NamedMetric.schwarzschild [])
  have hP : fourMomentum schFn ![0, (![4, Real.pi / 2, 0] : Fin 3 → ℝ) 0, (![4, Real.pi / 2, 0] : Fin 3 → ℝ) 1, (![4, Real.pi / 2, 0] : Fin 3 → ℝ) 2]
      ![l, 0, 0] false = .ok (rp (-(l / 2)) l) := by
    have hq : (![0, (![4, Real.pi / 2, 0] : Fin 3 → ℝ) 0, (![4, Real.pi / 2, 0] : Fin 3 → ℝ) 1, (![4, Real.pi / 2, 0] : Fin 3 → ℝ) 2] : V4) = rq 0 4 := by
      funext i; fin_cases i <;> rfl
    rw [hq]
    unfold fourMomentum
    rw [radial_metric 0 4 (by norm_num) (by norm_num)]
    have c00 : (schFn 0 0).den (rq 0 4) = -2 := by
      show (-1 : ℝ) / (1 - 2 / 4) = -2; norm_num
    have c11 : (schFn 1 1).den (rq 0 4) = 1 / 2 := by
      show (1 : ℝ) - 2 / 4 = 1 / 2; norm_num
    have c03 : (schFn 0 3).den (rq 0 4) = 0 := rfl
    simp only [bind, Except.bind, c00, c11, c03, Bool.false_eq_true, if_false]
    have e : (2 * 0 * (![l, 0, 0] : Fin 3 → ℝ) 2) ^ 2 - 4 * (-2) * (1 / 2 * (![l, 0, 0] : Fin 3 → ℝ) 0 * (![l, 0, 0] : Fin 3 → ℝ) 0 +
        (schFn 2 2).den (rq 0 4) * (![l, 0, 0] : Fin 3 → ℝ) 1 * (![l, 0, 0] : Fin 3 → ℝ) 1 +
        (schFn 3 3).den (rq 0 4) * (![l, 0, 0] : Fin 3 → ℝ) 2 * (![l, 0, 0] : Fin 3 → ℝ) 2 + 0) = (2 * l) ^ 2 := by
      simp; ring
    rw [e, if_neg (not_lt.mpr (sq_nonneg _)), if_neg (by norm_num), Real.sqrt_sq (by positivity)]
    refine congrArg Except.ok ?_
    funext i
    fin_cases i
    · simp [rp]; ring
    · rfl
    · rfl
    · rfl
  have hT : calculateTrajectory schFn ![0, (![4, Real.pi / 2, 0] : Fin 3 → ℝ) 0, (![4, Real.pi / 2, 0] : Fin 3 → ℝ) 1, (![4, Real.pi / 2, 0] : Fin 3 → ℝ) 2]
      (rp (-(l / 2)) l) false "Spherical Polar" kw = .ok ([0], [polarRow (rq T R, p1, q2, p2)]) := by
    have hq : (![0, (![4, Real.pi / 2, 0] : Fin 3 → ℝ) 0, (![4, Real.pi / 2, 0] : Fin 3 → ℝ) 1, (![4, Real.pi / 2, 0] : Fin 3 → ℝ) 2] : V4) = rq 0 4 := by
      funext i; fin_cases i <;> rfl
    rw [hq]
    unfold calculateTrajectory Integ.new
    rw [hN, ho, hw]
    have hs : Integ.step ⟨⟨schFn, kw.omega, 2⟩, kw.delta, false, kw.rtol, kw.atol, true, 0, (rq 0 4, rp (-(l / 2)) l, rq 0 4, rp (-(l / 2)) l), [], []⟩ =
        .ok ⟨⟨schFn, kw.omega, 2⟩, kw.delta, false, kw.rtol, kw.atol, true, 1, (rq T R, p1, q2, p2), [(rq T R, p1, q2, p2)], []⟩ := by
      unfold Integ.step
      have : orderStep ⟨schFn, kw.omega, 2⟩ (rq 0 4, rp (-(l / 2)) l, rq 0 4, rp (-(l / 2)) l) kw.delta = .ok (rq T R, p1, q2, p2) := by
        unfold orderStep
        rw [if_pos rfl]; exact hstep
      simp only [this, bind, Except.bind, if_true, pure, Except.pure]
      rfl
    have h1 : (1 : ℤ).toNat = 1 := rfl
    simp only [h1, Integ.runN, ne_eq, not_true_eq_false, false_and, if_false, bind, Except.bind, hs]
    simp [pure, Except.pure]
  have hnew' : Geodesic.new (.str "Schwarzschild") (some []) ![4, Real.pi / 2, 0] ![l, 0, 0] false false kw =
      .ok ⟨"Schwarzschild", [0], ![0, 4, Real.pi / 2, 0], rp (-(l / 2)) l, false, "Null-like", "Spherical Polar", [0],
        [polarRow (rq T R, p1, q2, p2)]⟩ := by
    simp only [Geodesic.new, builtinMetric, bind, Except.bind, hP, Bool.false_eq_true, if_false, hT, pure, Except.pure]
    rfl
  exact ⟨_, hnew', _, rfl, rfl⟩

/-- **C135 refuted.** The coupling of the two copies depends on the step size and mixes positions with momenta, so the computed path depends on the
energy: for the radial photon from `r = 4` in the Schwarzschild space-time, order 2 and omega = π/8, momentum 1 with step size 4 and momentum 2 with
step size 2 give different radii after one step. -/
theorem C135_refuted :
    ¬ ∀ (s : String) (ps : List ℝ) (x p : Fin 3 → ℝ) (l : ℝ) (kw : GeoKw) (o o' : GeodesicObj), 0 < l →
      Nulllike.new (.str s) (some ps) x p false kw = .ok o →
      Nulllike.new (.str s) (some ps) x (fun i => l * p i) false { kw with delta := kw.delta / l } = .ok o' →
      ∀ k i : ℕ, i < 4 → (o'.rows[k]?.bind fun row => row[i]?) = (o.rows[k]?.bind fun row => row[i]?) := by
  intro h
  have c1 : Real.cos (2 * (Real.pi / 8) * 4) = -1 := by rw [show 2 * (Real.pi / 8) * 4 = Real.pi by ring, Real.cos_pi]
  have s1 : Real.sin (2 * (Real.pi / 8) * 4) = 0 := by rw [show 2 * (Real.pi / 8) * 4 = Real.pi by ring, Real.sin_pi]
  have c2 : Real.cos (2 * (Real.pi / 8) * 2) = 0 := by rw [show 2 * (Real.pi / 8) * 2 = Real.pi / 2 by ring, Real.cos_pi_div_two]
  have s2 : Real.sin (2 * (Real.pi / 8) * 2) = 1 := by rw [show 2 * (Real.pi / 8) * 2 = Real.pi / 2 by ring, Real.sin_pi_div_two]
  obtain ⟨T, p1, q2, p2, e1⟩ := radial_step (l := 1) (h := 4) one_ne_zero (by norm_num)
    (radial_mixed _ _ _ _ _ _ _ _ 4 (Real.pi / 8) (-1) 0 c1 s1) (by norm_num) (by norm_num) (by norm_num) (by norm_num)
  obtain ⟨T', p1', q2', p2', e2⟩ := radial_step (l := 2) (h := 2) two_ne_zero (by norm_num)
    (radial_mixed _ _ _ _ _ _ _ _ 2 (Real.pi / 8) 0 1 c2 s2) (by norm_num) (by norm_num) (by norm_num) (by norm_num)
  let kw : GeoKw := { steps := 1, delta := 4, order := 2, omega := Real.pi / 8, suppressWarnings := true }
  have hk : ({ kw with delta := kw.delta / 2 } : GeoKw) = { steps := 1, delta := 2, order := 2, omega := Real.pi / 8, suppressWarnings := true } := by
    simp only [kw]; norm_num
  obtain ⟨o, h1, row, r1, r2⟩ := radial_photon one_pos kw rfl rfl rfl e1
  obtain ⟨o', h1', row', r1', r2'⟩ := radial_photon two_pos { kw with delta := kw.delta / 2 } rfl rfl rfl (by rw [hk]; exact e2)
  have hp : (![2, 0, 0] : Fin 3 → ℝ) = fun i => 2 * (![1, 0, 0] : Fin 3 → ℝ) i := by
    funext i; fin_cases i <;> simp
  rw [hp] at h1'
  have := h "Schwarzschild" [] ![4, Real.pi / 2, 0] ![1, 0, 0] 2 kw o o' two_pos h1 h1' 0 1 (by norm_num)
  rw [r1, r1'] at this
  simp only [List.getElem?_cons_zero, Option.bind_some, r2, r2', Option.some.injEq] at this
  norm_num at this

/-! ## the limit of small steps -/

/-- **C135, partial.** What remains true of the coupled integrator: along a null geodesic of a named space-time both runs succeed for small step sizes
and their rows differ by at most `K · delta²` (`K · delta⁴` for order 4) in the positions and in the rescaled momenta. -/
theorem C135_limit_partial (s : String) (ps : List ℝ) (a Q : ℝ) (hn : NamedMetric s ps a Q) (q v : ℝ → V4) (t₀ t₁ : ℝ)
    (h0 : t₀ ≤ 0) (h1 : 0 ≤ t₁) (hgeo : ∀ t ∈ Set.Icc t₀ t₁, ∀ᶠ u in 𝓝 t, IsGeodesicAt (blCov a Q) q v u)
    (hext : ∀ t ∈ Set.Icc t₀ t₁, Exterior a Q (q t)) (hq0 : q 0 0 = 0)
    (htt : (Matrix.of fun i j => blCov a Q i j (q 0))⁻¹ 0 0 ≠ 0)
    (hnorm : ∑ i, ∑ j, blCov a Q i j (q 0) * v 0 i * v 0 j = 0) (hfut : 0 ≤ v 0 0)
    (order : ℤ) (ho : order = 2 ∨ order = 4 ∨ order = 6 ∨ order = 8) (omega l : ℝ) (hl : 0 < l)
    (m : ℕ) (hm : m = 2 ∨ (order = 4 ∧ m = 4)) :
    ∃ K δ₀ : ℝ, 0 < δ₀ ∧ ∀ (rc : Bool) (kw : GeoKw), kw.omega = omega → kw.order = order → 0 < kw.steps → |kw.delta| < δ₀ →
      kw.steps * kw.delta ∈ Set.Icc t₀ t₁ →
      ∃ o o', Nulllike.new (.str s) (some ps) (fun i => q 0 i.succ) (fun i => ∑ j, blCov a Q i.succ j (q 0) * v 0 j) rc kw = .ok o ∧
        Nulllike.new (.str s) (some ps) (fun i => q 0 i.succ) (fun i => l * ∑ j, blCov a Q i.succ j (q 0) * v 0 j) rc
          { kw with delta := kw.delta / l } = .ok o' ∧
        ∀ k : ℕ, (k : ℤ) < kw.steps → ∃ x u x' u' : V4,
          o.rows[k]? = some (rowOf (if rc then "Cartesian" else "Spherical Polar") x u) ∧
          o'.rows[k]? = some (rowOf (if rc then "Cartesian" else "Spherical Polar") x' u') ∧
          ∀ i, |x' i - x i| ≤ K * |kw.delta| ^ m ∧ |u' i - l * u i| ≤ K * |kw.delta| ^ m := by
  obtain ⟨K, d, hd, hK⟩ := C107_named s ps a Q hn false q v t₀ t₁ h0 h1 hgeo hext hq0 htt (by simpa using hnorm) hfut order ho omega m hm
  have hicc : ∀ t ∈ Set.Icc (t₀ / l) (t₁ / l), l * t ∈ Set.Icc t₀ t₁ := by
    intro t ht
    rw [Set.mem_Icc, div_le_iff₀ hl, le_div_iff₀ hl] at ht
    exact ⟨by linarith [ht.1], by linarith [ht.2]⟩
  have hgeo' : ∀ t ∈ Set.Icc (t₀ / l) (t₁ / l), ∀ᶠ u in 𝓝 t, IsGeodesicAt (blCov a Q) (fun t => q (l * t)) (fun t i => l * v (l * t) i) u := by
    intro t ht
    have hc : Filter.Tendsto (fun u : ℝ => l * u) (𝓝 t) (𝓝 (l * t)) := (continuous_const.mul continuous_id).tendsto t
    filter_upwards [hc.eventually (hgeo _ (hicc t ht))] with u hu
    have hlin : HasDerivAt (fun u : ℝ => l * u) l u := by simpa using (hasDerivAt_id u).const_mul l
    refine ⟨fun i => ?_, fun i => ?_⟩
    · refine ((hu.velocity i).comp u hlin).congr_deriv ?_
      ring
    · refine (((hu.accel i).comp u hlin).const_mul l).congr_deriv ?_
      rw [neg_mul, mul_neg, neg_inj, Finset.sum_mul, Finset.mul_sum]
      refine Finset.sum_congr rfl fun j _ => ?_
      rw [Finset.sum_mul, Finset.mul_sum]
      exact Finset.sum_congr rfl fun k _ => by ring
  obtain ⟨K', d', hd', hK'⟩ := C107_named s ps a Q hn false (fun t => q (l * t)) (fun t i => l * v (l * t) i) (t₀ / l) (t₁ / l)
    (div_nonpos_of_nonpos_of_nonneg h0 hl.le) (div_nonneg h1 hl.le) hgeo' (fun t ht => hext _ (hicc t ht)) (by simpa using hq0)
    (by simpa using htt)
    (by
      have e : ∀ i j, blCov a Q i j (q (l * 0)) * (l * v (l * 0) i) * (l * v (l * 0) j) = l ^ 2 * (blCov a Q i j (q 0) * v 0 i * v 0 j) := by
        intro i j; rw [mul_zero]; ring
      simp only [e, ← Finset.mul_sum, hnorm]; simp)
    (by simpa using mul_nonneg hl.le hfut) order ho omega m hm
  refine ⟨(K' / l ^ m + K) + (K' / l ^ m + l * K), min d (l * d'), by positivity, ?_⟩
  intro rc kw k1 k2 k3 k4 k5
  obtain ⟨o, o1, -, o2⟩ := hK rc kw k1 k2 k3 (lt_of_lt_of_le k4 (min_le_left _ _)) k5
  have hdl : |kw.delta / l| = |kw.delta| / l := by rw [abs_div, abs_of_pos hl]
  obtain ⟨o', o1', -, o2'⟩ := hK' rc { kw with delta := kw.delta / l } k1 k2 k3
    (by
      show |kw.delta / l| < d'
      rw [hdl, div_lt_iff₀ hl]
      linarith [lt_of_lt_of_le k4 (min_le_right d (l * d'))])
    (by
      show (kw.steps : ℝ) * (kw.delta / l) ∈ _
      rw [Set.mem_Icc] at k5 ⊢
      rw [div_le_iff₀ hl, le_div_iff₀ hl]
      have : (kw.steps : ℝ) * (kw.delta / l) * l = kw.steps * kw.delta := by field_simp
      rw [this]; exact k5)
  have em : (fun i : Fin 3 => ∑ j, blCov a Q i.succ j (q 0) * (l * v 0 j)) =
      fun i => l * ∑ j, blCov a Q i.succ j (q 0) * v 0 j := by
    funext i
    rw [Finset.mul_sum]
    exact Finset.sum_congr rfl fun j _ => by ring
  simp only [mul_zero] at o1'
  rw [em] at o1'
  refine ⟨o, o', o1, o1', fun k hk => ?_⟩
  obtain ⟨x, u, x1, x2⟩ := o2 k hk
  obtain ⟨x', u', x1', x2'⟩ := o2' k hk
  refine ⟨x, u, x', u', x1, x1', fun i => ?_⟩
  obtain ⟨y1, y2⟩ := x2 i
  obtain ⟨y1', y2'⟩ := x2' i
  have et : l * (((k:ℝ) + 1) * (kw.delta / l)) = ((k:ℝ) + 1) * kw.delta := by field_simp
  have ep : |kw.delta / l| ^ m = |kw.delta| ^ m / l ^ m := by rw [hdl, div_pow]
  simp only [et] at y1' y2'
  have es : (∑ j, blCov a Q i j (q (((k:ℝ) + 1) * kw.delta)) * (l * v (((k:ℝ) + 1) * kw.delta) j)) =
      l * ∑ j, blCov a Q i j (q (((k:ℝ) + 1) * kw.delta)) * v (((k:ℝ) + 1) * kw.delta) j := by
    rw [Finset.mul_sum]
    exact Finset.sum_congr rfl fun j _ => by ring
  rw [es, ep] at y2'
  rw [ep] at y1'
  have hpow : 0 ≤ |kw.delta| ^ m := by positivity
  have p1 : 0 ≤ K * |kw.delta| ^ m := le_trans (abs_nonneg _) y1
  have p2 : 0 ≤ K' * (|kw.delta| ^ m / l ^ m) := le_trans (abs_nonneg _) y1'
  have p3 : 0 ≤ l * (K * |kw.delta| ^ m) := mul_nonneg hl.le p1
  have eK : ((K' / l ^ m + K) + (K' / l ^ m + l * K)) * |kw.delta| ^ m =
      (K' * (|kw.delta| ^ m / l ^ m) + K * |kw.delta| ^ m) + (K' * (|kw.delta| ^ m / l ^ m) + l * (K * |kw.delta| ^ m)) := by
    ring
  rw [eK]
  constructor
  · have := abs_sub_le (x' i) (q (((k:ℝ) + 1) * kw.delta) i) (x i)
    rw [abs_sub_comm (q _ i) (x i)] at this
    linarith
  · have := abs_sub_le (u' i) (l * ∑ j, blCov a Q i j (q (((k:ℝ) + 1) * kw.delta)) * v (((k:ℝ) + 1) * kw.delta) j) (l * u i)
    rw [← mul_sub, abs_mul, abs_of_pos hl, abs_sub_comm _ (u i)] at this
    have := mul_le_mul_of_nonneg_left y2 hl.le
    linarith

/-- A concrete instance: photons on the photon sphere of the Schwarzschild space-time. -/
example : ∃ q v : ℝ → V4, (∀ t, IsGeodesicAt (blCov 0 0) q v t) ∧ (∀ t, Exterior 0 0 (q t)) ∧ q 0 0 = 0 ∧
    (Matrix.of fun i j => blCov 0 0 i j (q 0))⁻¹ 0 0 ≠ 0 ∧ ∑ i, ∑ j, blCov 0 0 i j (q 0) * v 0 i * v 0 j = 0 ∧ 0 ≤ v 0 0 ∧ v 0 3 ≠ 0 := by
  obtain ⟨ut, w, -, h1, h2, h3, h4⟩ := (C133_orbits (a := 0) (Q := 0) (r := 3) (W := Real.sqrt 3) (X := 0) (by norm_num) (by norm_num)
    (by norm_num) (by norm_num)).2 rfl 1 one_pos
  have hw : w ≠ 0 := by
    rintro rfl
    have : Real.sqrt 3 * ut = 0 := by linarith
    have h5 : 0 < Real.sqrt 3 * ut := mul_pos (Real.sqrt_pos.mpr (by norm_num)) h1
    linarith
  have hE : ∀ t, Exterior 0 0 (onLine (circPos 3 (Real.pi / 2) 0) (circDir ut w) t) := by
    intro t
    refine ⟨?_, ?_, ?_⟩
    · rw [circ_r, circ_th]; norm_num
    · rw [circ_r]; norm_num
    · rw [circ_th]; simp
  refine ⟨onLine (circPos 3 (Real.pi / 2) 0) (circDir ut w), fun _ => circDir ut w, (C133_kepler (by norm_num) (by norm_num) 0 ut w).mpr h3, hE, ?_, ?_,
    ?_, h1.le, hw⟩
  · simp [onLine, circPos]
  · rw [knCov_inv _ _ _ (hE 0)]
    simp only [circ_r, circ_th, knContra]
    norm_num
  · have hx : onLine (circPos 3 (Real.pi / 2) 0) (circDir ut w) 0 = circPos 3 (Real.pi / 2) 0 := by
      funext i; simp [onLine]
    rw [hx]
    refine Eq.trans ?_ h4
    have q1 : circPos 3 (Real.pi / 2) 0 1 = 3 := rfl
    have q2 : circPos 3 (Real.pi / 2) 0 2 = Real.pi / 2 := rfl
    have d0 : circDir ut w 0 = ut := rfl
    have d1 : circDir ut w 1 = 0 := rfl
    have d2 : circDir ut w 2 = 0 := rfl
    have d3 : circDir ut w 3 = w := rfl
    simp only [blCov, q1, q2, knCov, Fin.sum_univ_four, circE, circL, d0, d1, d2, d3]
    simp
    ring

end Einpy
