import Verif.Geodesic.Symmetry
import Verif.Geodesic.Circular

/-!
# C134, C135: reversed motion, and photons of different energy

Multiplying the momenta by `l` and dividing the step size by `l` runs through the same curve at another pace.  The elementary flows of the
integrator respect this exactly; the coupling of the two copies (`_flow_mixed`) does for `l = -1` (running backwards) and without coupling.
-/

set_option linter.unusedSimpArgs false
set_option linter.unusedVariables false

namespace Einpy
open Classical

/-- The state with both momenta multiplied by `l`. -/
def scalePS (l : ℝ) (s : PS) : PS := (s.q1, fun i => l * s.p1 i, s.q2, fun i => l * s.p2 i)

/-- A row of the trajectory with the momentum entries multiplied by `l`. -/
def scaleRow (l : ℝ) : List ℝ → List ℝ
  | [t, x, y, z, pt, pr, pth, pph] => [t, x, y, z, l * pt, l * pr, l * pth, l * pph]
  | r => r

section Scale
variable {g : MetricFn}

theorem seq4_map {α β : Type} (f : Fin 4 → Py α) (k : α → β) :
    (seq4 fun i => do return k (← f i)) = (seq4 f).map fun v => fun i => k (v i) := by
  simp only [seq4]
  cases f 0 with
  | error e => rfl
  | ok a =>
    cases f 1 with
    | error e => rfl
    | ok b =>
      cases f 2 with
      | error e => rfl
      | ok c =>
        cases f 3 with
        | error e => rfl
        | ok d =>
          refine congrArg Except.ok ?_
          funext i
          fin_cases i <;> rfl

theorem scale_matVec (l : ℝ) (G : Fin 4 → Fin 4 → ℝ) (p : V4) (i : Fin 4) :
    matVec G (fun j => l * p j) i = l * matVec G p i := by
  unfold matVec
  rw [Finset.mul_sum]
  exact Finset.sum_congr rfl fun j _ => by ring

theorem scale_norm (l : ℝ) (G : Fin 4 → Fin 4 → ℝ) (p : V4) :
    dot4 (matVec G fun j => l * p j) (fun j => l * p j) = l ^ 2 * dot4 (matVec G p) p := by
  unfold dot4
  rw [Finset.mul_sum]
  exact Finset.sum_congr rfl fun j _ => by rw [scale_matVec]; ring

theorem scale_part (l : ℝ) (q p : V4) (i : Fin 4) :
    partHamFlow g q (fun j => l * p j) i = (partHamFlow g q p i).map (l ^ 2 * ·) := by
  unfold partHamFlow
  cases jacobianG g q ((i : Nat) : Int) with
  | error e => rfl
  | ok J => exact congrArg Except.ok (scale_norm l J p)

theorem scale_flowA (l : ℝ) (q1 p1 q2 p2 : V4) (δ : ℝ) :
    flowA g q1 (fun i => l * p1 i) q2 (fun i => l * p2 i) δ =
      (flowA g q1 p1 q2 p2 (l * δ)).map fun r => (r.1, fun i => l * r.2 i) := by
  unfold flowA
  have h1 : (seq4 fun i => do return 0.5 * (← partHamFlow g q1 (fun j => l * p2 j) i)) =
      (seq4 fun i => do return 0.5 * (← partHamFlow g q1 p2 i)).map fun d => fun i => l ^ 2 * d i := by
    have e1 : (fun i => (do return 0.5 * (← partHamFlow g q1 (fun j => l * p2 j) i) : Py ℝ)) =
        fun i => do return l ^ 2 * (← (do return 0.5 * (← partHamFlow g q1 p2 i) : Py ℝ)) := by
      funext i
      rw [scale_part]
      cases partHamFlow g q1 p2 i with
      | error e => rfl
      | ok d => exact congrArg Except.ok (by ring)
    rw [e1]
    exact seq4_map _ _
  rw [h1]
  cases (seq4 fun i => do return 0.5 * (← partHamFlow g q1 p2 i)) with
  | error e => rfl
  | ok d =>
    cases evalMetric g q1 with
    | error e => rfl
    | ok G =>
      refine congrArg Except.ok (Prod.ext ?_ ?_) <;> funext i
      · show q2 i + δ * matVec G (fun j => l * p2 j) i = q2 i + l * δ * matVec G p2 i
        rw [scale_matVec]; ring
      · show l * p1 i - δ * (l ^ 2 * d i) = l * (p1 i - l * δ * d i)
        ring

/-- the elementary flow with the step size multiplied by `l` -/
def Sub.times (l : ℝ) : Sub → Sub
  | .A δ => .A (l * δ)
  | .B δ => .B (l * δ)
  | .M δ => .M (l * δ)

theorem scale_runSub {l ω : ℝ} (hω : ω = 0 ∨ l = -1) (x : Sub) (s : PS) :
    runSub g ω x (scalePS l s) = (runSub g ω (x.times l) s).map (scalePS l) := by
  obtain ⟨q1, p1, q2, p2⟩ := s
  cases x with
  | A δ =>
    simp only [runSub, scalePS, Sub.times, PS.q1, PS.p1, PS.q2, PS.p2, scale_flowA]
    cases flowA g q1 p1 q2 p2 (l * δ) <;> rfl
  | B δ =>
    simp only [runSub, scalePS, Sub.times, PS.q1, PS.p1, PS.q2, PS.p2, flowB_eq_flowA, scale_flowA]
    cases flowA g q2 p2 q1 p1 (l * δ) <;> rfl
  | M δ =>
    refine congrArg Except.ok ?_
    rcases hω with rfl | rfl
    · refine Prod.ext ?_ (Prod.ext ?_ (Prod.ext ?_ ?_)) <;> funext i <;>
        simp only [scalePS, PS.q1, PS.p1, PS.q2, PS.p2, flowMixed, mul_zero, zero_mul, Real.cos_zero, Real.sin_zero] <;> ring
    · have e : 2 * ω * (-1 * δ) = -(2 * ω * δ) := by ring
      refine Prod.ext ?_ (Prod.ext ?_ (Prod.ext ?_ ?_)) <;> funext i <;>
        simp only [scalePS, PS.q1, PS.p1, PS.q2, PS.p2, flowMixed, e, Real.cos_neg, Real.sin_neg] <;> ring

theorem scale_runSubs {l ω : ℝ} (hω : ω = 0 ∨ l = -1) (xs : List Sub) (s : PS) :
    runSubs g ω xs (scalePS l s) = (runSubs g ω (xs.map (Sub.times l)) s).map (scalePS l) := by
  induction xs generalizing s with
  | nil => rfl
  | cons x xs ih =>
    simp only [runSubs, List.map_cons, scale_runSub hω]
    cases runSub g ω (x.times l) s with
    | error e => rfl
    | ok s1 => exact ih s1

theorem subs2_times (l δ : ℝ) : (subs2 δ).map (Sub.times l) = subs2 (l * δ) := by
  simp [subs2, Sub.times]
  try ring_nf

theorem scale_ord2 {c : IntegCfg} {l : ℝ} (hω : c.omega = 0 ∨ l = -1) (s : PS) (δ : ℝ) :
    ord2 c (scalePS l s) δ = (ord2 c s (l * δ)).map (scalePS l) := by
  rw [ord2_eq, ord2_eq, scale_runSubs hω, subs2_times]

theorem scale_run {c : IntegCfg} {l : ℝ} (hω : c.omega = 0 ∨ l = -1) (ws : List ℝ) (s : PS) :
    runOrd2 c ws (scalePS l s) = (runOrd2 c (ws.map (l * ·)) s).map (scalePS l) := by
  induction ws generalizing s with
  | nil => rfl
  | cons w ws ih =>
    simp only [runOrd2, List.map_cons, scale_ord2 hω]
    cases ord2 c s (l * w) with
    | error e => rfl
    | ok s1 => exact ih s1

/-- **C134/C135** (one step). -/
theorem scale_orderStep {c : IntegCfg} {l : ℝ} (hω : c.omega = 0 ∨ l = -1) (s : PS) (δ : ℝ) :
    orderStep c (scalePS l s) δ = (orderStep c s (l * δ)).map (scalePS l) := by
  by_cases ho : Supported c.order
  · rw [orderStep_weights c ho, orderStep_weights c ho, scale_run hω, List.map_map]
    congr 3
    funext w
    simp only [Function.comp_def]
    ring
  · unfold Supported at ho
    push Not at ho
    unfold orderStep
    rw [if_neg ho.1, if_neg ho.2.1, if_neg ho.2.2.1, if_neg ho.2.2.2, if_neg ho.1, if_neg ho.2.1, if_neg ho.2.2.1, if_neg ho.2.2.2]
    rfl

/-- the second integrator runs the scaled motion of the first -/
structure Scaled (l : ℝ) (I J : Integ) : Prop where
  cfg : J.cfg = I.cfg
  sw : J.suppressWarnings = I.suppressWarnings
  delta : l * J.delta = I.delta
  res : J.resList = scalePS l I.resList
  results : J.results = I.results.map (scalePS l)

/-- both fail with the same exception, or both succeed with related results -/
def Both {α β : Type*} (R : α → β → Prop) : Py α → Py β → Prop
  | .ok a, .ok b => R a b
  | .error e, .error e' => e = e'
  | _, _ => False

theorem scaled_step {l : ℝ} {I J : Integ} (hω : I.cfg.omega = 0 ∨ l = -1) (h : Scaled l I J) : Both (Scaled l) I.step J.step := by
  obtain ⟨h1, h2, h3, h4, h5⟩ := h
  unfold Integ.step
  rw [h1, h4, scale_orderStep hω, h3]
  cases orderStep I.cfg I.resList I.delta with
  | error e => exact rfl
  | ok s =>
    simp only [Except.map, bind, Except.bind]
    rw [h2]
    cases hs : I.suppressWarnings with
    | true =>
      simp only [if_true, pure, Except.pure]
      exact ⟨rfl, rfl, h3, rfl, by simp [h5]⟩
    | false =>
      simp only [Bool.false_eq_true, if_false]
      have e : (scalePS l s).q1 = s.q1 := rfl
      rw [e]
      cases evalMetric I.cfg.metric s.q1 with
      | error e => exact rfl
      | ok G =>
        simp only []
        split_ifs <;> simp only [pure, Except.pure] <;> exact ⟨rfl, rfl, h3, rfl, by simp [h5]⟩

theorem step_cfg {I I' : Integ} (h : I.step = .ok I') : I'.cfg = I.cfg := by
  obtain ⟨_, _, _, _, _, hcfg, _⟩ := step_spec I I' h
  exact hcfg

theorem scaled_runN {l : ℝ} (N : ℕ) {I J : Integ} (hω : I.cfg.omega = 0 ∨ l = -1) (h : Scaled l I J) :
    Both (Scaled l) (I.runN N) (J.runN N) := by
  induction N generalizing I J with
  | zero => exact h
  | succ N ih =>
    have hs := scaled_step hω h
    simp only [Integ.runN]
    cases h1 : I.step with
    | error e =>
      cases h2 : J.step with
      | error e' => rw [h1, h2] at hs; exact hs
      | ok J' => rw [h1, h2] at hs; exact hs.elim
    | ok I' =>
      cases h2 : J.step with
      | error e' => rw [h1, h2] at hs; exact hs.elim
      | ok J' =>
        rw [h1, h2] at hs
        exact ih (by rw [step_cfg h1]; exact hω) hs

theorem scaleRow_polar (l : ℝ) (s : PS) : polarRow (scalePS l s) = scaleRow l (polarRow s) := rfl
theorem scaleRow_cart (l : ℝ) (s : PS) : cartRow (scalePS l s) = scaleRow l (cartRow s) := rfl

/-- The trajectory with the momentum multiplied by `l` and the step size divided by `l`: the same exception, or the same rows with the momenta
multiplied by `l`. -/
theorem scale_trajectory {l : ℝ} (q0 p0 : V4) (tl : Bool) (coords : String) (kw kw' : GeoKw) (hω : kw.omega = 0 ∨ l = -1)
    (hd : l * kw'.delta = kw.delta) (e1 : kw'.steps = kw.steps) (e2 : kw'.omega = kw.omega) (e3 : kw'.order = kw.order)
    (e4 : kw'.suppressWarnings = kw.suppressWarnings) :
    calculateTrajectory g q0 (fun i => l * p0 i) tl coords kw' =
      (calculateTrajectory g q0 p0 tl coords kw).map fun r => (r.1, r.2.map (scaleRow l)) := by
  unfold calculateTrajectory Integ.new
  rw [e1, e2, e3, e4]
  by_cases ho : kw.order ≠ 2 ∧ kw.order ≠ 4 ∧ kw.order ≠ 6 ∧ kw.order ≠ 8
  · simp only [if_pos ho]; rfl
  · simp only [if_neg ho, bind, Except.bind]
    have := scaled_runN (l := l) kw.steps.toNat
      (I := ⟨⟨g, kw.omega, kw.order⟩, kw.delta, tl, kw.rtol, kw.atol, kw.suppressWarnings, 0, (q0, p0, q0, p0), [], []⟩)
      (J := ⟨⟨g, kw.omega, kw.order⟩, kw'.delta, tl, kw'.rtol, kw'.atol, kw.suppressWarnings, 0,
        (q0, fun i => l * p0 i, q0, fun i => l * p0 i), [], []⟩)
      hω ⟨rfl, rfl, hd, rfl, rfl⟩
    revert this
    cases Integ.runN kw.steps.toNat
      ⟨⟨g, kw.omega, kw.order⟩, kw.delta, tl, kw.rtol, kw.atol, kw.suppressWarnings, 0, (q0, p0, q0, p0), [], []⟩ with
    | error e =>
      cases Integ.runN kw.steps.toNat
        ⟨⟨g, kw.omega, kw.order⟩, kw'.delta, tl, kw'.rtol, kw'.atol, kw.suppressWarnings, 0,
          (q0, fun i => l * p0 i, q0, fun i => l * p0 i), [], []⟩ with
      | error e' => intro h; exact congrArg Except.error (Eq.symm h)
      | ok J => intro h; exact h.elim
    | ok I =>
      cases Integ.runN kw.steps.toNat
        ⟨⟨g, kw.omega, kw.order⟩, kw'.delta, tl, kw'.rtol, kw'.atol, kw.suppressWarnings, 0,
          (q0, fun i => l * p0 i, q0, fun i => l * p0 i), [], []⟩ with
      | error e' => intro h; exact h.elim
      | ok J =>
        intro h
        have hr : J.results = I.results.map (scalePS l) := h.results
        simp only [hr, List.map_eq_nil_iff]
        by_cases hn : I.results = []
        · rw [if_pos hn, if_pos hn]; rfl
        · rw [if_neg hn, if_neg hn]
          split_ifs
          · simp [Except.map, pure, Except.pure, Function.comp_def, scaleRow_cart]
          · simp [Except.map, pure, Except.pure, Function.comp_def, scaleRow_polar]

end Scale

/-! ## C134: running backwards -/

/-- A row of a trajectory under reversal of time and of the rotation about the axis: `t`, `φ` (resp. `y`), `p_r` and `p_θ` change sign. -/
def revRow (cart : Bool) : List ℝ → List ℝ
  | [t, x, y, z, pt, pr, pth, pph] =>
    if cart then [-t, x, -y, z, pt, -pr, -pth, pph] else [-t, x, y, -z, pt, -pr, -pth, pph]
  | r => r

/-- A row of a trajectory under reversal of time alone: `t` and the spatial momentum change sign. -/
def revRowStatic : List ℝ → List ℝ
  | [t, x, y, z, pt, pr, pth, pph] => [-t, x, y, z, pt, -pr, -pth, -pph]
  | r => r

/-- signs of the simultaneous reversal of time and rotation -/
def tpe : V4 := ![-1, 1, 1, -1]

theorem tpe_sq (i : Fin 4) : tpe i = 1 ∨ tpe i = -1 := by
  fin_cases i
  · exact Or.inr rfl
  · exact Or.inl rfl
  · exact Or.inl rfl
  · exact Or.inr rfl

theorem tpe_q0 (q : V4) : moveQ tpe 0 q 0 = -q 0 := by simp [moveQ, tpe]
theorem tpe_q1 (q : V4) : moveQ tpe 0 q 1 = q 1 := by simp [moveQ, tpe]
theorem tpe_q2 (q : V4) : moveQ tpe 0 q 2 = q 2 := by simp [moveQ, tpe]
theorem tpe_q3 (q : V4) : moveQ tpe 0 q 3 = -q 3 := by simp [moveQ, tpe]

theorem tpe_ext {a Q : ℝ} {q : V4} (h : Exterior a Q q) : Exterior a Q (moveQ tpe 0 q) := by
  obtain ⟨h1, h2, h3⟩ := h
  refine ⟨?_, ?_, ?_⟩
  · rw [tpe_q1, tpe_q2]; exact h1
  · rw [tpe_q1]; exact h2
  · rw [tpe_q2]; exact h3

theorem tpe0 : tpe 0 = -1 := rfl
theorem tpe1 : tpe 1 = 1 := rfl
theorem tpe2 : tpe 2 = 1 := rfl
theorem tpe3 : tpe 3 = -1 := rfl

theorem sch_tp : IsSymmetry schFn tpe 0 where
  sign := tpe_sq
  value := by
    intro q i j
    fin_cases i <;> fin_cases j <;> simp [schFn, Expr.den, tpe_q1, tpe_q2, tpe0, tpe1, tpe2, tpe3]
  symm := by intro i j q; fin_cases i <;> fin_cases j <;> rfl
  smooth := fun q G hG i j => tame_ok _ (sch_tame i j) _ (seq4_ok.mp (seq4_ok.mp hG i) j)
  moved := fun q h => by
    obtain ⟨h1, h2, h3⟩ := exterior_sch (tpe_ext (sch_exterior h))
    exact sch_regular _ h1 h2 h3

theorem kerr_tp (a : ℝ) : IsSymmetry (kerrFn a) tpe 0 where
  sign := tpe_sq
  value := by
    intro q i j
    fin_cases i <;> fin_cases j <;> simp [kerrFn, sigmaE, deltaE, Expr.den, tpe_q1, tpe_q2, tpe0, tpe1, tpe2, tpe3]
  symm := by intro i j q; fin_cases i <;> fin_cases j <;> rfl
  smooth := fun q G hG i j => tame_ok _ (kerr_tame a i j) _ (seq4_ok.mp (seq4_ok.mp hG i) j)
  moved := fun q h => by
    obtain ⟨h1, h2, h3⟩ := tpe_ext (kerr_exterior h)
    exact kerr_regular a _ h1 (by simpa using h2) h3

theorem kerrNewman_tp (a Q : ℝ) : IsSymmetry (kerrNewmanFn a Q) tpe 0 where
  sign := tpe_sq
  value := by
    intro q i j
    fin_cases i <;> fin_cases j <;> simp [kerrNewmanFn, sigmaE, deltaE, Expr.den, tpe_q1, tpe_q2, tpe0, tpe1, tpe2, tpe3]
  symm := by intro i j q; fin_cases i <;> fin_cases j <;> rfl
  smooth := fun q G hG i j => tame_ok _ (kerrNewman_tame a Q i j) _ (seq4_ok.mp (seq4_ok.mp hG i) j)
  moved := fun q h => by
    obtain ⟨h1, h2, h3⟩ := tpe_ext (kerrNewman_exterior h)
    exact kerrNewman_regular a Q _ h1 h2 h3

/-- the constructor for a named metric, with the reversal as a symmetry -/
theorem named_new_tp {s : String} {ps : List ℝ} {a Q : ℝ} (hn : NamedMetric s ps a Q) :
    ∃ (g : MetricFn) (ps' : List ℝ), (∀ x p tl rc kw, Geodesic.new (.str s) (some ps) x p tl rc kw =
        (fourMomentum g ![0, x 0, x 1, x 2] p tl >>= fun P =>
          calculateTrajectory g ![0, x 0, x 1, x 2] P tl (if rc then "Cartesian" else "Spherical Polar") kw >>= fun r =>
            pure ⟨s, ps', ![0, x 0, x 1, x 2], P, tl, if tl then "Time-like" else "Null-like",
              if rc then "Cartesian" else "Spherical Polar", r.1, r.2⟩)) ∧ IsSymmetry g tpe 0 := by
  cases hn with
  | schwarzschild => exact ⟨schFn, [0], fun _ _ _ _ _ => rfl, sch_tp⟩
  | kerr => exact ⟨kerrFn a, _, fun _ _ _ _ _ => rfl, kerr_tp a⟩
  | kerrNewman => exact ⟨kerrNewmanFn a Q, _, fun _ _ _ _ _ => rfl, kerrNewman_tp a Q⟩

/-- the root chosen for `p_t` is the same for the reversed motion -/
theorem rev_fourMomentum {g : MetricFn} {e b : V4} (h : IsSymmetry g e b) (h0 : e 0 = -1) (q : V4) (p : Fin 3 → ℝ) (tl : Bool)
    (P : V4) (hP : fourMomentum g q p tl = .ok P) :
    fourMomentum g (moveQ e b q) (fun i => -(e i.succ * p i)) tl = .ok (fun i => -1 * moveP e P i) := by
  unfold fourMomentum at hP ⊢
  cases hG : evalMetric g q with
  | error er => rw [hG] at hP; cases hP
  | ok G =>
    rw [hG] at hP
    rw [(sym_eval h hG).2.2.2]
    simp only [bind, Except.bind] at hP ⊢
    have s0 := sign_sq h 0
    have s1 := sign_sq h 1
    have s2 := sign_sq h 2
    have s3 := sign_sq h 3
    have f0 : (Fin.succ 0 : Fin 4) = 1 := rfl
    have f1 : (Fin.succ 1 : Fin 4) = 2 := rfl
    have f2 : (Fin.succ 2 : Fin 4) = 3 := rfl
    have eA : e 0 * e 0 * G 0 0 = G 0 0 := by rw [s0, one_mul]
    have eB : 2 * (e 0 * e 3 * G 0 3) * -(e (Fin.succ 2) * p 2) = 2 * G 0 3 * p 2 := by
      rw [f2, h0]; linear_combination (2 * G 0 3 * p 2) * s3
    have eC : e 1 * e 1 * G 1 1 * -(e (Fin.succ 0) * p 0) * -(e (Fin.succ 0) * p 0) +
        e 2 * e 2 * G 2 2 * -(e (Fin.succ 1) * p 1) * -(e (Fin.succ 1) * p 1) +
        e 3 * e 3 * G 3 3 * -(e (Fin.succ 2) * p 2) * -(e (Fin.succ 2) * p 2) =
        G 1 1 * p 0 * p 0 + G 2 2 * p 1 * p 1 + G 3 3 * p 2 * p 2 := by
      rw [f0, f1, f2, s1, s2, s3]
      linear_combination (G 1 1 * p 0 * p 0) * s1 + (G 2 2 * p 1 * p 1) * s2 + (G 3 3 * p 2 * p 2) * s3
    rw [eA, eB, eC]
    generalize (if tl = true then (1 : ℝ) else 0) = k at hP ⊢
    split_ifs at hP ⊢
    rw [← Except.ok.inj hP]
    refine congrArg Except.ok ?_
    funext i
    fin_cases i <;> simp [moveP, h0]

theorem revRow_polar (s : PS) : polarRow (scalePS (-1) (movePS tpe 0 s)) = revRow false (polarRow s) := by
  obtain ⟨q1, p1, q2, p2⟩ := s
  simp [polarRow, scalePS, movePS, PS.q1, PS.p1, revRow, tpe_q0, tpe_q1, tpe_q2, tpe_q3, moveP, tpe0, tpe1, tpe2, tpe3]

theorem revRow_cart (s : PS) : cartRow (scalePS (-1) (movePS tpe 0 s)) = revRow true (cartRow s) := by
  obtain ⟨q1, p1, q2, p2⟩ := s
  simp [cartRow, scalePS, movePS, PS.q1, PS.p1, revRow, tpe_q0, tpe_q1, tpe_q2, tpe_q3, moveP, tpe0, tpe1, tpe2, tpe3]

theorem C134_forward (s : String) (ps : List ℝ) (a Q : ℝ) (hn : NamedMetric s ps a Q) (x p : Fin 3 → ℝ) (tl rc : Bool)
    (kw kw' : GeoKw) (hkw : kw' = { kw with delta := -kw.delta }) (o : GeodesicObj)
    (ho : Geodesic.new (.str s) (some ps) x p tl rc kw = .ok o) :
    ∃ o', Geodesic.new (.str s) (some ps) ![x 0, x 1, -x 2] ![-p 0, -p 1, p 2] tl rc kw' = .ok o' ∧
      o'.rows = o.rows.map (revRow rc) ∧ o'.steps = o.steps ∧
      o'.momentum = ![o.momentum 0, -o.momentum 1, -o.momentum 2, o.momentum 3] := by
  obtain ⟨g, ps', hnew, hS⟩ := named_new_tp hn
  rw [hnew] at ho
  have start : (![0, (![x 0, x 1, -x 2] : Fin 3 → ℝ) 0, (![x 0, x 1, -x 2] : Fin 3 → ℝ) 1, (![x 0, x 1, -x 2] : Fin 3 → ℝ) 2] : V4) =
      moveQ tpe 0 ![0, x 0, x 1, x 2] := by
    funext i
    fin_cases i
    · simp [tpe_q0]
    · simp [tpe_q1]
    · simp [tpe_q2]
    · simp [tpe_q3]
  have hmom : (![-p 0, -p 1, p 2] : Fin 3 → ℝ) = fun i => -(tpe i.succ * p i) := by
    funext i
    fin_cases i
    · show -p 0 = -(1 * p 0); ring
    · show -p 1 = -(1 * p 1); ring
    · show p 2 = -(-1 * p 2); ring
  cases hP : fourMomentum g ![0, x 0, x 1, x 2] p tl with
  | error er => rw [hP] at ho; cases ho
  | ok P =>
    rw [hP] at ho
    simp only [bind, Except.bind] at ho
    cases hT : calculateTrajectory g ![0, x 0, x 1, x 2] P tl (if rc then "Cartesian" else "Spherical Polar") kw with
    | error er => rw [hT] at ho; cases ho
    | ok r =>
      obtain ⟨st, rows⟩ := r
      rw [hT] at ho
      simp only [pure, Except.pure] at ho
      obtain ⟨ss, hrows, hT'⟩ := sym_trajectory hS _ _ tl _ kw st rows hT
      have hP' := rev_fourMomentum hS tpe0 _ p tl P hP
      rw [← start, ← hmom] at hP'
      have hT'' := scale_trajectory (g := g) (l := -1) (moveQ tpe 0 ![0, x 0, x 1, x 2]) (moveP tpe P) tl
        (if rc then "Cartesian" else "Spherical Polar") kw kw' (Or.inr rfl) (by rw [hkw]; ring) (by rw [hkw]) (by rw [hkw]) (by rw [hkw])
        (by rw [hkw])
      rw [hT', ← start] at hT''
      refine ⟨_, by rw [hnew, hP']; simp only [bind, Except.bind, hT'', Except.map, pure, Except.pure]; rfl, ?_, ?_, ?_⟩
      · rw [← Except.ok.inj ho, hrows]
        cases rc with
        | true =>
          simp only [if_true, List.map_map]
          refine List.map_congr_left fun u _ => ?_
          exact (scaleRow_cart (-1) (movePS tpe 0 u)).symm.trans (revRow_cart u)
        | false =>
          simp only [Bool.false_eq_true, if_false, List.map_map, show ¬ ("Spherical Polar" = "Cartesian") by decide]
          refine List.map_congr_left fun u _ => ?_
          exact (scaleRow_polar (-1) (movePS tpe 0 u)).symm.trans (revRow_polar u)
      · rw [← Except.ok.inj ho]
      · rw [← Except.ok.inj ho]
        funext i
        fin_cases i <;> simp [moveP, tpe0, tpe1, tpe2, tpe3]

/-- **C134.** A run with the opposite step size is the reversed motion: for the three named metrics, started at `(r, θ, -φ)` with the momentum
`(-p_r, -p_θ, p_φ)` and with `-delta`, the constructor succeeds exactly if it does for the original data, stores the reversed momentum with the
same `p_t`, and every row is the original row with `t`, `φ` (resp. `y`), `p_r`, `p_θ` negated. -/
theorem C134_reversal (s : String) (ps : List ℝ) (a Q : ℝ) (hn : NamedMetric s ps a Q) (x p : Fin 3 → ℝ) (tl rc : Bool) (kw : GeoKw) :
    ((∃ o, Geodesic.new (.str s) (some ps) x p tl rc kw = .ok o) ↔
      ∃ o', Geodesic.new (.str s) (some ps) ![x 0, x 1, -x 2] ![-p 0, -p 1, p 2] tl rc { kw with delta := -kw.delta } = .ok o') ∧
    ∀ o o', Geodesic.new (.str s) (some ps) x p tl rc kw = .ok o →
      Geodesic.new (.str s) (some ps) ![x 0, x 1, -x 2] ![-p 0, -p 1, p 2] tl rc { kw with delta := -kw.delta } = .ok o' →
      o'.rows = o.rows.map (revRow rc) ∧ o'.steps = o.steps ∧
      o'.momentum = ![o.momentum 0, -o.momentum 1, -o.momentum 2, o.momentum 3] := by
  refine ⟨⟨?_, ?_⟩, ?_⟩
  · rintro ⟨o, ho⟩
    obtain ⟨o', h, -⟩ := C134_forward s ps a Q hn x p tl rc kw _ rfl o ho
    exact ⟨o', h⟩
  · rintro ⟨o', ho⟩
    obtain ⟨o, h, -⟩ := C134_forward s ps a Q hn _ _ tl rc _ kw (by simp) o' ho
    have e1 : (![(![x 0, x 1, -x 2] : Fin 3 → ℝ) 0, (![x 0, x 1, -x 2] : Fin 3 → ℝ) 1, -(![x 0, x 1, -x 2] : Fin 3 → ℝ) 2] : Fin 3 → ℝ) = x := by
      funext i; fin_cases i <;> simp
    have e2 : (![-(![-p 0, -p 1, p 2] : Fin 3 → ℝ) 0, -(![-p 0, -p 1, p 2] : Fin 3 → ℝ) 1, (![-p 0, -p 1, p 2] : Fin 3 → ℝ) 2] : Fin 3 → ℝ) = p := by
      funext i; fin_cases i <;> simp
    rw [e1, e2] at h
    exact ⟨o, h⟩
  · intro o o' ho ho'
    obtain ⟨o'', h, hr⟩ := C134_forward s ps a Q hn x p tl rc kw _ rfl o ho
    rw [ho'] at h
    rw [Except.ok.inj h]
    exact hr

/-- **C134, static.** Without spin time alone can be reversed: from the same position, with the opposite momentum and step size, every row is the
original row with `t` and the spatial momentum negated — the particle retraces the same places. -/
theorem C134_static (s : String) (ps : List ℝ) (Q : ℝ) (hn : NamedMetric s ps 0 Q) (x p : Fin 3 → ℝ) (tl rc : Bool) (kw : GeoKw) :
    ((∃ o, Geodesic.new (.str s) (some ps) x p tl rc kw = .ok o) ↔
      ∃ o', Geodesic.new (.str s) (some ps) x (fun i => -p i) tl rc { kw with delta := -kw.delta } = .ok o') ∧
    ∀ o o', Geodesic.new (.str s) (some ps) x p tl rc kw = .ok o →
      Geodesic.new (.str s) (some ps) x (fun i => -p i) tl rc { kw with delta := -kw.delta } = .ok o' →
      o'.rows = o.rows.map revRowStatic ∧ o'.steps = o.steps ∧
      o'.momentum = ![o.momentum 0, -o.momentum 1, -o.momentum 2, -o.momentum 3] := by
  let m : AxialMove := ⟨0, false, true⟩
  have key : ∀ (x p : Fin 3 → ℝ) (kw : GeoKw) o, Geodesic.new (.str s) (some ps) x p tl rc kw = .ok o →
      ∃ o', Geodesic.new (.str s) (some ps) x (fun i => -p i) tl rc { kw with delta := -kw.delta } = .ok o' ∧
        o'.rows = o.rows.map revRowStatic ∧ o'.steps = o.steps ∧
        o'.momentum = ![o.momentum 0, -o.momentum 1, -o.momentum 2, -o.momentum 3] := by
    intro x p kw o ho
    obtain ⟨o1, h1, r1, s1, m1⟩ := C134_forward s ps 0 Q hn x p tl rc kw _ rfl o ho
    obtain ⟨o2, h2, r2, s2, m2⟩ := C116_forward s ps 0 Q hn m (fun _ => rfl) _ _ tl rc _ o1 h1
    have e1 : m.pos ![x 0, x 1, -x 2] = x := by
      funext i; fin_cases i <;> simp [m, AxialMove.pos, AxialMove.th, AxialMove.ph]
    have e2 : m.mom ![-p 0, -p 1, p 2] = fun i => -p i := by
      funext i; fin_cases i <;> simp [m, AxialMove.mom, AxialMove.pth, AxialMove.pph]
    rw [e1, e2] at h2
    refine ⟨o2, h2, ?_, by rw [s2, s1], ?_⟩
    · rw [r2, r1, List.map_map]
      refine List.map_congr_left fun row _ => ?_
      show m.row rc (revRow rc row) = revRowStatic row
      unfold revRow revRowStatic
      split
      · cases rc <;> simp [m, AxialMove.row, AxialMove.th, AxialMove.ph, AxialMove.pth, AxialMove.pph]
      · rename_i hne
        cases rc <;> simp only [AxialMove.row]
    · rw [m2, m1]
      funext i; fin_cases i <;> simp [m, AxialMove.pth, AxialMove.pph]
  refine ⟨⟨?_, ?_⟩, ?_⟩
  · rintro ⟨o, ho⟩
    obtain ⟨o', h, -⟩ := key x p kw o ho
    exact ⟨o', h⟩
  · rintro ⟨o', ho⟩
    obtain ⟨o, h, -⟩ := key _ _ _ o' ho
    simp only [neg_neg] at h
    exact ⟨o, h⟩
  · intro o o' ho ho'
    obtain ⟨o'', h, hr⟩ := key x p kw o ho
    rw [ho'] at h
    rw [Except.ok.inj h]
    exact hr

/-- A concrete instance: the circular orbit of radius 4, run backwards. -/
example (kw : GeoKw) (ho : kw.order = 2) (hN : kw.steps = 50) :
    ∃ o o', Geodesic.new (.str "Schwarzschild") (some []) ![4, Real.pi / 2, 0] ![0, 0, 4] true false kw = .ok o ∧
      Geodesic.new (.str "Schwarzschild") (some []) ![4, Real.pi / 2, 0] (fun i => -(![0, 0, 4] : Fin 3 → ℝ) i) true false
        { kw with delta := -kw.delta } = .ok o' ∧ o.rows.length = 50 ∧ o'.rows = o.rows.map revRowStatic := by
  have eE : circE 0 0 4 2 (1 / 4) = 1 := by norm_num [circE]
  have eL : circL 0 0 4 2 (1 / 4) = 4 := by norm_num [circL]
  obtain ⟨o, h1, -, h2, -⟩ := C133_circular "Schwarzschild" [] 0 0 (.schwarzschild []) (r := 4) (by norm_num) (by norm_num) 0 2 (1 / 4) true
    false (by norm_num) (by norm_num) (by norm_num [eE, eL]) kw (Or.inl ho) (by rw [hN]; norm_num)
  rw [eL] at h1
  obtain ⟨h3, h4⟩ := C134_static "Schwarzschild" [] 0 (.schwarzschild []) ![4, Real.pi / 2, 0] ![0, 0, 4] true false kw
  obtain ⟨o', h5⟩ := h3.mp ⟨o, h1⟩
  exact ⟨o, o', h1, h5, by rw [h2, hN]; rfl, (h4 o o' h1 h5).1⟩

end Einpy
