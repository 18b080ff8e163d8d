import Verif.Geodesic.Named

/-!
# C116: trajectories inherit the symmetries of the metric

The geodesic integrator (integrators/fantasy.py, geodesic/geodesic.py) never mentions symmetries.  Here it is proved that
every symmetry of the metric function that reflects coordinates and shifts them by constants is an exact symmetry of every
computed trajectory, for all orders, step sizes, `omega` and numbers of steps.
-/

set_option linter.unusedSimpArgs false
set_option linter.unusedVariables false

namespace Einpy
open Classical

/-! ## Specification -/

/-- Reflect (`e i = -1`) or keep (`e i = 1`) every coordinate and shift it by `b i`. -/
def moveQ (e b : V4) (q : V4) : V4 := fun i => e i * q i + b i

/-- The covariant components of a momentum after the move. -/
def moveP (e : V4) (p : V4) : V4 := fun i => e i * p i

/-- The move applied to both copies of the integrator's state. -/
def movePS (e b : V4) (s : PS) : PS := (moveQ e b s.q1, moveP e s.p1, moveQ e b s.q2, moveP e s.p2)

/-- The move is a symmetry of the (contravariant) metric function: components are transported by the tensor law.  The last
two clauses say that the metric function is differentiable wherever it has a value, at the moved point as well. -/
structure IsSymmetry (g : MetricFn) (e b : V4) : Prop where
  sign : ∀ i, e i = 1 ∨ e i = -1
  value : ∀ (q : V4) i j, (g i j).den (moveQ e b q) = e i * e j * (g i j).den q
  symm : ∀ i j (q : V4), (g i j).den q = (g j i).den q
  smooth : ∀ q G, evalMetric g q = .ok G → ∀ i j, (g i j).Regular q
  moved : ∀ q, (∀ i j, (g i j).Regular q) → ∀ i j, (g i j).Regular (moveQ e b q)

/-- The moves that are symmetries of the Kerr–Newman family: rotate by the angle `al`; `mirror`: reflect at the equatorial
plane; `flip`: reverse the sense of rotation. -/
structure AxialMove where
  al : ℝ
  mirror : Bool
  flip : Bool

namespace AxialMove

/-- effect on the components `θ` and `p_θ` -/
noncomputable def th (m : AxialMove) (x : ℝ) : ℝ := if m.mirror then Real.pi - x else x
def pth (m : AxialMove) (x : ℝ) : ℝ := if m.mirror then -x else x
/-- effect on the components `φ` and `p_φ` -/
def ph (m : AxialMove) (x : ℝ) : ℝ := (if m.flip then -x else x) + m.al
def pph (m : AxialMove) (x : ℝ) : ℝ := if m.flip then -x else x

/-- effect on a position `(r, θ, φ)` and on a momentum `(p_r, p_θ, p_φ)` given to the constructor -/
noncomputable def pos (m : AxialMove) (x : Fin 3 → ℝ) : Fin 3 → ℝ := ![x 0, m.th (x 1), m.ph (x 2)]
def mom (m : AxialMove) (p : Fin 3 → ℝ) : Fin 3 → ℝ := ![p 0, m.pth (p 1), m.pph (p 2)]

/-- effect on a row of the trajectory; with `return_cartesian` the entries 1–3 are `x, y, z`, otherwise `r, θ, φ` -/
noncomputable def row (m : AxialMove) (cart : Bool) : List ℝ → List ℝ
  | [t, x, y, z, pt, pr, pth, pph] =>
    let y' := if m.flip then -y else y
    if cart then [t, x * Real.cos m.al - y' * Real.sin m.al, x * Real.sin m.al + y' * Real.cos m.al,
      if m.mirror then -z else z, pt, pr, m.pth pth, m.pph pph]
    else [t, x, m.th y, m.ph z, pt, pr, m.pth pth, m.pph pph]
  | l => l

end AxialMove

/-! ## Proofs -/

section General
variable {g : MetricFn} {e b : V4}

theorem sign_sq (h : IsSymmetry g e b) (i : Fin 4) : e i * e i = 1 := by
  rcases h.sign i with h | h <;> rw [h] <;> norm_num

theorem sym_eval (h : IsSymmetry g e b) {q : V4} {G} (hG : evalMetric g q = .ok G) :
    (∀ i j, (g i j).Regular q) ∧ (∀ i j, (g i j).Regular (moveQ e b q)) ∧ (G = fun i j => (g i j).den q) ∧
    evalMetric g (moveQ e b q) = .ok fun i j => e i * e j * G i j := by
  have hr := h.smooth q G hG
  have hr' := h.moved q hr
  have hG' := evalMetric_regular hr
  rw [hG] at hG'
  have e1 := Except.ok.inj hG'
  refine ⟨hr, hr', e1, ?_⟩
  rw [evalMetric_regular hr', e1]
  refine congrArg Except.ok ?_
  funext i j
  exact h.value q i j

theorem sym_jac (h : IsSymmetry g e b) {q : V4} (hr : ∀ i j, (g i j).Regular q) (hr' : ∀ i j, (g i j).Regular (moveQ e b q))
    (k : Fin 4) : ∃ J, jacobianG g q ((k : Nat) : Int) = .ok J ∧
      jacobianG g (moveQ e b q) ((k : Nat) : Int) = .ok fun i j => e k * (e i * e j * J i j) := by
  obtain ⟨J, hJ, -, -, hd⟩ := C28_jacobian g q hr k
  obtain ⟨J', hJ', -, -, hd'⟩ := C28_jacobian g (moveQ e b q) hr' k
  refine ⟨J, hJ, hJ'.trans ?_⟩
  refine congrArg Except.ok ?_
  funext i j
  have h1 := hd h.symm i j
  have h2 := hd' h.symm i j
  have hk := sign_sq h k
  have h3 : HasDerivAt (fun u : ℝ => e k * u + b k) (e k) (q k) := by
    simpa using ((hasDerivAt_id (q k)).const_mul (e k)).add_const (b k)
  have h4 := HasDerivAt.comp (q k) (show HasDerivAt (slice g (moveQ e b q) k i j) (J' i j) (e k * q k + b k) from h2) h3
  have e1 : slice g (moveQ e b q) k i j ∘ (fun u : ℝ => e k * u + b k) = fun u => e i * e j * slice g q k i j u := by
    funext u
    show (g i j).den _ = e i * e j * (g i j).den _
    rw [← h.value]
    congr 1
    funext l
    by_cases hl : l = k
    · subst hl; simp [moveQ]
    · simp [moveQ, hl]
  rw [e1] at h4
  have h5 := h4.unique (h1.const_mul (e i * e j))
  calc J' i j = (J' i j * e k) * e k := by rw [mul_assoc, hk, mul_one]
    _ = _ := by rw [h5]; ring

theorem sym_part (h : IsSymmetry g e b) {q p : V4} (hr : ∀ i j, (g i j).Regular q)
    (hr' : ∀ i j, (g i j).Regular (moveQ e b q)) (k : Fin 4) :
    ∃ d, partHamFlow g q p k = .ok d ∧ partHamFlow g (moveQ e b q) (moveP e p) k = .ok (e k * d) := by
  obtain ⟨J, h1, h2⟩ := sym_jac h hr hr' k
  refine ⟨dot4 (matVec J p) p, ?_, ?_⟩
  · simp only [partHamFlow, h1, bind, Except.bind, pure, Except.pure]
  · simp only [partHamFlow, h2, bind, Except.bind, pure, Except.pure]
    refine congrArg Except.ok ?_
    simp only [dot4, matVec, moveP, Finset.mul_sum, Finset.sum_mul]
    refine Finset.sum_congr rfl fun i _ => Finset.sum_congr rfl fun j _ => ?_
    have hi := sign_sq h i
    have hj := sign_sq h j
    linear_combination (e k * J i j * p j * p i * (e j * e j)) * hi + (e k * J i j * p j * p i) * hj

theorem sym_matVec (h : IsSymmetry g e b) (G : Fin 4 → Fin 4 → ℝ) (p : V4) (i : Fin 4) :
    matVec (fun i j => e i * e j * G i j) (moveP e p) i = e i * matVec G p i := by
  simp only [matVec, moveP, Finset.mul_sum]
  refine Finset.sum_congr rfl fun j _ => ?_
  have hj := sign_sq h j
  linear_combination (e i * G i j * p j) * hj

theorem sym_norm (h : IsSymmetry g e b) (G : Fin 4 → Fin 4 → ℝ) (p : V4) :
    dot4 (matVec (fun i j => e i * e j * G i j) (moveP e p)) (moveP e p) = dot4 (matVec G p) p := by
  unfold dot4
  refine Finset.sum_congr rfl fun i _ => ?_
  rw [sym_matVec h]
  have hi := sign_sq h i
  show e i * matVec G p i * (e i * p i) = _
  linear_combination (matVec G p i * p i) * hi

theorem sym_flowA (h : IsSymmetry g e b) (q1 p1 q2 p2 : V4) (δ : ℝ) {r : V4 × V4} (hf : flowA g q1 p1 q2 p2 δ = .ok r) :
    flowA g (moveQ e b q1) (moveP e p1) (moveQ e b q2) (moveP e p2) δ = .ok (moveQ e b r.1, moveP e r.2) := by
  obtain ⟨G, dp, h1, h2, rfl⟩ := flowA_shape g q1 p1 q2 p2 δ hf
  obtain ⟨hr, hr', -, h3⟩ := sym_eval h h1
  choose d hd hd' using sym_part h (p := p2) hr hr'
  have hdp : ∀ i, dp i = 0.5 * d i := by
    intro i
    have := seq4_ok.mp h2 i
    simp only [hd, bind, Except.bind, pure, Except.pure] at this
    exact (Except.ok.inj this).symm
  have h4 : (seq4 fun i => do return 0.5 * (← partHamFlow g (moveQ e b q1) (moveP e p2) i)) = .ok fun i => e i * dp i := by
    refine seq4_ok.mpr fun i => ?_
    simp only [hd', bind, Except.bind, pure, Except.pure]
    refine congrArg Except.ok ?_
    rw [hdp]; ring
  rw [flowA_of g _ _ _ _ δ h3 h4]
  refine congrArg Except.ok (Prod.ext ?_ ?_) <;> funext i
  · show moveQ e b q2 i + δ * matVec (fun i j => e i * e j * G i j) (moveP e p2) i = e i * (q2 i + δ * matVec G p2 i) + b i
    rw [sym_matVec h]
    show e i * q2 i + b i + δ * (e i * matVec G p2 i) = _
    ring
  · show e i * p1 i - δ * (e i * dp i) = e i * (p1 i - δ * dp i)
    ring

theorem sym_runSub (h : IsSymmetry g e b) (ω : ℝ) (x : Sub) (s s' : PS) (hs : runSub g ω x s = .ok s') :
    runSub g ω x (movePS e b s) = .ok (movePS e b s') := by
  obtain ⟨q1, p1, q2, p2⟩ := s
  cases x with
  | A δ =>
    simp only [runSub, PS.q1, PS.p1, PS.q2, PS.p2] at hs
    cases hf : flowA g q1 p1 q2 p2 δ with
    | error e => rw [hf] at hs; cases hs
    | ok r =>
      rw [hf] at hs
      rw [← Except.ok.inj hs]
      have := sym_flowA h q1 p1 q2 p2 δ hf
      simp only [runSub, movePS, PS.q1, PS.p1, PS.q2, PS.p2, this, bind, Except.bind, pure, Except.pure]
  | B δ =>
    simp only [runSub, PS.q1, PS.p1, PS.q2, PS.p2, flowB_eq_flowA] at hs
    cases hf : flowA g q2 p2 q1 p1 δ with
    | error e => rw [hf] at hs; cases hs
    | ok r =>
      rw [hf] at hs
      rw [← Except.ok.inj hs]
      have := sym_flowA h q2 p2 q1 p1 δ hf
      simp only [runSub, movePS, PS.q1, PS.p1, PS.q2, PS.p2, flowB_eq_flowA, this, bind, Except.bind, pure, Except.pure]
  | M δ =>
    rw [← Except.ok.inj hs]
    refine congrArg Except.ok ?_
    refine Prod.ext ?_ (Prod.ext ?_ (Prod.ext ?_ ?_)) <;> funext i <;>
      simp only [movePS, PS.q1, PS.p1, PS.q2, PS.p2, flowMixed, moveQ, moveP] <;> norm_num [moveQ, moveP] <;> ring

theorem sym_runSubs (h : IsSymmetry g e b) (ω : ℝ) (l : List Sub) (s s' : PS) (hs : runSubs g ω l s = .ok s') :
    runSubs g ω l (movePS e b s) = .ok (movePS e b s') := by
  induction l generalizing s with
  | nil => rw [← Except.ok.inj hs]; rfl
  | cons x l ih =>
    simp only [runSubs] at hs ⊢
    cases h1 : runSub g ω x s with
    | error e => rw [h1] at hs; cases hs
    | ok s1 =>
      rw [h1] at hs
      rw [sym_runSub h ω x s s1 h1]
      exact ih s1 hs

/-- **C116** (one step).  If the integrator's step of any order takes the state `s` to `s'`, it takes the moved state to the
moved `s'`. -/
theorem C116_step_equivariant (c : IntegCfg) {e b : V4} (h : IsSymmetry c.metric e b) (s s' : PS) (δ : ℝ)
    (hs : orderStep c s δ = .ok s') : orderStep c (movePS e b s) δ = .ok (movePS e b s') := by
  by_cases ho : Supported c.order
  · rw [orderStep_eq c ho] at hs ⊢
    exact sym_runSubs h c.omega _ s s' hs
  · exfalso
    unfold Supported at ho
    push Not at ho
    unfold orderStep at hs
    rw [if_neg ho.1, if_neg ho.2.1, if_neg ho.2.2.1, if_neg ho.2.2.2] at hs
    cases hs

/-- the integrator object with all its states moved -/
def moveInteg (e b : V4) (I : Integ) : Integ :=
  { I with resList := movePS e b I.resList, results := I.results.map (movePS e b) }

theorem sym_step (I I' : Integ) {e b : V4} (h : IsSymmetry I.cfg.metric e b) (hs : I.step = .ok I') :
    (moveInteg e b I).step = .ok (moveInteg e b I') := by
  unfold Integ.step at hs ⊢
  cases ho : orderStep I.cfg I.resList I.delta with
  | error er => rw [ho] at hs; cases hs
  | ok s =>
    have ho' : orderStep (moveInteg e b I).cfg (moveInteg e b I).resList (moveInteg e b I).delta = .ok (movePS e b s) :=
      C116_step_equivariant I.cfg h _ _ _ ho
    rw [ho] at hs
    rw [ho']
    simp only [bind, Except.bind] at hs ⊢
    have hsw : (moveInteg e b I).suppressWarnings = I.suppressWarnings := rfl
    cases hw : I.suppressWarnings with
    | true =>
      simp only [hw, hsw, if_true, pure, Except.pure] at hs ⊢
      rw [← Except.ok.inj hs]
      simp [moveInteg]
    | false =>
      simp only [hw, hsw, Bool.false_eq_true, if_false] at hs ⊢
      cases hG : evalMetric I.cfg.metric s.q1 with
      | error er => simp only [hG] at hs; cases hs
      | ok G =>
        have hG' : evalMetric (moveInteg e b I).cfg.metric (movePS e b s).q1 = .ok fun i j => e i * e j * G i j :=
          (sym_eval h hG).2.2.2
        simp only [hG] at hs
        simp only [hG']
        have hn : dot4 (matVec (fun i j => e i * e j * G i j) (movePS e b s).p1) (movePS e b s).p1 =
            dot4 (matVec G s.p1) s.p1 := sym_norm h G s.p1
        rw [hn]
        have e1 : (moveInteg e b I).timeLike = I.timeLike := rfl
        have e2 : (moveInteg e b I).rtol = I.rtol := rfl
        have e3 : (moveInteg e b I).atol = I.atol := rfl
        simp only [e1, e2, e3]
        by_cases hc : allclose (dot4 (matVec G s.p1) s.p1) (if I.timeLike then -1 else 0) I.rtol I.atol
        · rw [if_pos hc] at hs ⊢
          simp only [pure, Except.pure] at hs ⊢
          rw [← Except.ok.inj hs]
          simp [moveInteg]
        · rw [if_neg hc] at hs ⊢
          simp only [pure, Except.pure] at hs ⊢
          rw [← Except.ok.inj hs]
          simp [moveInteg]

theorem sym_runN (N : Nat) (I I' : Integ) {e b : V4} (h : IsSymmetry I.cfg.metric e b) (hs : I.runN N = .ok I') :
    (moveInteg e b I).runN N = .ok (moveInteg e b I') := by
  induction N generalizing I with
  | zero => rw [← Except.ok.inj hs]; rfl
  | succ N ih =>
    simp only [Integ.runN] at hs ⊢
    cases h1 : I.step with
    | error er => rw [h1] at hs; cases hs
    | ok I1 =>
      rw [h1] at hs
      rw [sym_step I I1 h h1]
      obtain ⟨_, _, _, _, _, hcfg, _⟩ := step_spec I I1 h1
      exact ih I1 (by rw [hcfg]; exact h) hs

/-- The states behind the rows of a trajectory -/
theorem sym_trajectory (h : IsSymmetry g e b) (q0 p0 : V4) (tl : Bool) (coords : String) (kw : GeoKw)
    (st : List Nat) (rows : List (List ℝ)) (ht : calculateTrajectory g q0 p0 tl coords kw = .ok (st, rows)) :
    ∃ ss : List PS, rows = ss.map (if coords = "Cartesian" then cartRow else polarRow) ∧
      calculateTrajectory g (moveQ e b q0) (moveP e p0) tl coords kw =
        .ok (st, (ss.map (movePS e b)).map (if coords = "Cartesian" then cartRow else polarRow)) := by
  unfold calculateTrajectory at ht ⊢
  cases h0 : Integ.new ⟨g, kw.omega, kw.order⟩ q0 p0 tl kw.delta kw.rtol kw.atol kw.suppressWarnings with
  | error er => simp only [h0, bind, Except.bind] at ht; cases ht
  | ok I0 =>
    have hn : Integ.new ⟨g, kw.omega, kw.order⟩ (moveQ e b q0) (moveP e p0) tl kw.delta kw.rtol kw.atol kw.suppressWarnings =
        .ok (moveInteg e b I0) := by
      unfold Integ.new at h0 ⊢
      split_ifs at h0 ⊢ with hc
      rw [← Except.ok.inj h0]
      rfl
    have hcfg : I0.cfg.metric = g := by
      unfold Integ.new at h0
      split_ifs at h0 with hc
      rw [← Except.ok.inj h0]
    simp only [h0, bind, Except.bind] at ht
    simp only [hn, bind, Except.bind]
    cases h1 : I0.runN kw.steps.toNat with
    | error er => simp only [h1] at ht; cases ht
    | ok I =>
      have h2 := sym_runN _ I0 I (by rw [hcfg]; exact h) h1
      simp only [h1] at ht
      simp only [h2]
      by_cases hr : I.results = []
      · rw [if_pos hr] at ht; cases ht
      · have hr' : ¬ (moveInteg e b I).results = [] := by
          show ¬ I.results.map (movePS e b) = []
          simpa using hr
        rw [if_neg hr] at ht
        rw [if_neg hr']
        by_cases hc : coords = "Cartesian"
        · rw [if_pos hc] at ht
          simp only [if_pos hc]
          have := Except.ok.inj ht
          refine ⟨I.results, (Prod.ext_iff.mp this).2.symm, ?_⟩
          rw [show st = List.range kw.steps.toNat from (Prod.ext_iff.mp this).1.symm]
          rfl
        · rw [if_neg hc] at ht
          simp only [if_neg hc]
          have := Except.ok.inj ht
          refine ⟨I.results, (Prod.ext_iff.mp this).2.symm, ?_⟩
          rw [show st = List.range kw.steps.toNat from (Prod.ext_iff.mp this).1.symm]
          rfl

end General

/-! ## the named metrics -/

/-- expressions in which being evaluated without error implies being differentiable -/
def Expr.Tame {ι : Type*} : Expr ι → Prop
  | .var _ | .const _ => True
  | .add a b | .sub a b | .mul a b | .div a b => a.Tame ∧ b.Tame
  | .neg a | .sin a | .cos a => a.Tame
  | .pow a p => a.Tame ∧ p = 2
  | .tan _ | .log _ | .exp _ => False

theorem tame_ok {ι : Type*} {x : ι → ℝ} : ∀ (t : Expr ι), t.Tame → ∀ v, t.evalNum x = .ok v → t.Regular x
  | .var _, _, _, _ => trivial
  | .const _, _, _, _ => trivial
  | .add a b, h, v, hv => by
    simp only [Expr.evalNum, bind, Except.bind] at hv
    cases h1 : a.evalNum x with
    | error er => rw [h1] at hv; cases hv
    | ok u =>
      rw [h1] at hv
      cases h2 : b.evalNum x with
      | error er => simp only [h2] at hv; cases hv
      | ok w => exact ⟨tame_ok a h.1 u h1, tame_ok b h.2 w h2⟩
  | .sub a b, h, v, hv => by
    simp only [Expr.evalNum, bind, Except.bind] at hv
    cases h1 : a.evalNum x with
    | error er => rw [h1] at hv; cases hv
    | ok u =>
      rw [h1] at hv
      cases h2 : b.evalNum x with
      | error er => simp only [h2] at hv; cases hv
      | ok w => exact ⟨tame_ok a h.1 u h1, tame_ok b h.2 w h2⟩
  | .mul a b, h, v, hv => by
    simp only [Expr.evalNum, bind, Except.bind] at hv
    cases h1 : a.evalNum x with
    | error er => rw [h1] at hv; cases hv
    | ok u =>
      rw [h1] at hv
      cases h2 : b.evalNum x with
      | error er => simp only [h2] at hv; cases hv
      | ok w => exact ⟨tame_ok a h.1 u h1, tame_ok b h.2 w h2⟩
  | .div a b, h, v, hv => by
    simp only [Expr.evalNum, bind, Except.bind] at hv
    cases h1 : a.evalNum x with
    | error er => rw [h1] at hv; cases hv
    | ok u =>
      rw [h1] at hv
      cases h2 : b.evalNum x with
      | error er => simp only [h2] at hv; cases hv
      | ok w =>
        have hb := tame_ok b h.2 w h2
        refine ⟨tame_ok a h.1 u h1, hb, ?_⟩
        have hw := evalNum_regular hb
        rw [h2] at hw
        rw [← Except.ok.inj hw]
        intro h0
        simp only [h2, h0, if_true] at hv
        cases hv
  | .neg a, h, v, hv => by
    simp only [Expr.evalNum, bind, Except.bind] at hv
    cases h1 : a.evalNum x with
    | error er => rw [h1] at hv; cases hv
    | ok u => exact tame_ok a h u h1
  | .sin a, h, v, hv => by
    simp only [Expr.evalNum, bind, Except.bind] at hv
    cases h1 : a.evalNum x with
    | error er => rw [h1] at hv; cases hv
    | ok u => exact tame_ok a h u h1
  | .cos a, h, v, hv => by
    simp only [Expr.evalNum, bind, Except.bind] at hv
    cases h1 : a.evalNum x with
    | error er => rw [h1] at hv; cases hv
    | ok u => exact tame_ok a h u h1
  | .pow a p, h, v, hv => by
    simp only [Expr.evalNum, bind, Except.bind] at hv
    cases h1 : a.evalNum x with
    | error er => rw [h1] at hv; cases hv
    | ok u =>
      have := tame_ok a h.1 u h1
      rw [h.2]
      exact ⟨this, pow2_ok _⟩

theorem sch_tame (i j : Fin 4) : (schFn i j).Tame := by
  fin_cases i <;> fin_cases j <;> simp [schFn, Expr.Tame]

theorem kerr_tame (a : ℝ) (i j : Fin 4) : (kerrFn a i j).Tame := by
  fin_cases i <;> fin_cases j <;> simp [kerrFn, sigmaE, deltaE, Expr.Tame]

theorem kerrNewman_tame (a Q : ℝ) (i j : Fin 4) : (kerrNewmanFn a Q i j).Tame := by
  fin_cases i <;> fin_cases j <;> simp [kerrNewmanFn, sigmaE, deltaE, Expr.Tame]

theorem sch_exterior {q : V4} (h : ∀ i j, (schFn i j).Regular q) : Exterior 0 0 q := by
  have h1 := h 0 0
  have h3 := h 3 3
  simp [schFn, reg_var, reg_const, reg_sub, reg_mul, reg_div, reg_sin, reg_pow2, Expr.den, -one_div] at h1 h3
  obtain ⟨hr, h1⟩ := h1
  refine ⟨by simpa using hr, ?_, h3.2⟩
  intro h0
  apply h1
  have : q 1 * (q 1 - 2) = 0 := by linarith
  rcases mul_eq_zero.mp this with h | h
  · exact absurd h hr
  · rw [show q 1 = 2 by linarith]; norm_num

theorem kerr_exterior {a : ℝ} {q : V4} (h : ∀ i j, (kerrFn a i j).Regular q) : Exterior a 0 q := by
  have h1 := h 0 0
  have h3 := h 3 3
  simp [kerrFn, sigmaE, deltaE, reg_var, reg_const, reg_add, reg_sub, reg_mul, reg_div, reg_neg, reg_sin, reg_cos,
      reg_pow2, Expr.den, -one_div, mul_pow] at h1 h3
  exact ⟨h1.1, by simpa using h1.2, h3.1.2⟩

theorem kerrNewman_exterior {a Q : ℝ} {q : V4} (h : ∀ i j, (kerrNewmanFn a Q i j).Regular q) : Exterior a Q q := by
  have h1 := h 1 1
  have h3 := h 3 3
  simp [kerrNewmanFn, sigmaE, deltaE, reg_var, reg_const, reg_add, reg_sub, reg_mul, reg_div, reg_neg, reg_sin, reg_cos,
      reg_pow2, Expr.den, -one_div, mul_pow] at h1 h3
  exact ⟨h1, h3.2.1, h3.1⟩

namespace AxialMove
noncomputable def s (m : AxialMove) : ℝ := if m.mirror then -1 else 1
noncomputable def f (m : AxialMove) : ℝ := if m.flip then -1 else 1
noncomputable def c (m : AxialMove) : ℝ := if m.mirror then Real.pi else 0
noncomputable def e (m : AxialMove) : V4 := ![1, 1, m.s, m.f]
noncomputable def b (m : AxialMove) : V4 := ![0, 0, m.c, m.al]

variable (m : AxialMove)
theorem s_cases : m.s = 1 ∨ m.s = -1 := by unfold s; split_ifs <;> simp
theorem f_cases : m.f = 1 ∨ m.f = -1 := by unfold f; split_ifs <;> simp
theorem s_sq : m.s * m.s = 1 := by rcases m.s_cases with h | h <;> rw [h] <;> norm_num
theorem f_sq : m.f * m.f = 1 := by rcases m.f_cases with h | h <;> rw [h] <;> norm_num
theorem th_eq (x : ℝ) : m.th x = m.s * x + m.c := by unfold th s c; split_ifs <;> ring
theorem ph_eq (x : ℝ) : m.ph x = m.f * x + m.al := by unfold ph f; split_ifs <;> ring
theorem pth_eq (x : ℝ) : m.pth x = m.s * x := by unfold pth s; split_ifs <;> ring
theorem pph_eq (x : ℝ) : m.pph x = m.f * x := by unfold pph f; split_ifs <;> ring
theorem sin_th (x : ℝ) : Real.sin (m.s * x + m.c) = Real.sin x := by
  unfold s c; split_ifs
  · rw [show -1 * x + Real.pi = Real.pi - x by ring, Real.sin_pi_sub]
  · simp
theorem cos_th (x : ℝ) : Real.cos (m.s * x + m.c) = m.s * Real.cos x := by
  unfold s c; split_ifs
  · rw [show -1 * x + Real.pi = Real.pi - x by ring, Real.cos_pi_sub]; ring
  · simp
theorem cos_two_th (x : ℝ) : Real.cos (2 * (m.s * x + m.c)) = Real.cos (2 * x) := by
  rw [Real.cos_two_mul, Real.cos_two_mul, cos_th]
  have := m.s_sq
  linear_combination (2 * Real.cos x ^ 2) * this
theorem cos_sq_th (x : ℝ) : (m.s * Real.cos x) ^ 2 = Real.cos x ^ 2 := by
  rw [mul_pow, pow_two m.s, s_sq, one_mul]

theorem q0 (q : V4) : moveQ m.e m.b q 0 = q 0 := by simp [moveQ, e, b]
theorem q1 (q : V4) : moveQ m.e m.b q 1 = q 1 := by simp [moveQ, e, b]
theorem q2 (q : V4) : moveQ m.e m.b q 2 = m.s * q 2 + m.c := rfl
theorem q3 (q : V4) : moveQ m.e m.b q 3 = m.f * q 3 + m.al := rfl

theorem ext_move {a Q : ℝ} {q : V4} (h : Exterior a Q q) : Exterior a Q (moveQ m.e m.b q) := by
  obtain ⟨h1, h2, h3⟩ := h
  refine ⟨?_, ?_, ?_⟩
  · rw [q1, q2, cos_th, cos_sq_th]; exact h1
  · rw [q1]; exact h2
  · rw [q2, sin_th]; exact h3

theorem e_sign (i : Fin 4) : m.e i = 1 ∨ m.e i = -1 := by
  fin_cases i
  · exact Or.inl rfl
  · exact Or.inl rfl
  · exact m.s_cases
  · exact m.f_cases

theorem e22 : m.e 2 * m.e 2 = 1 := m.s_sq
theorem e33 : m.e 3 * m.e 3 = 1 := m.f_sq
theorem e00 : m.e 0 = 1 := rfl
theorem e11 : m.e 1 = 1 := rfl

theorem sch_symmetry : IsSymmetry schFn m.e m.b where
  sign := m.e_sign
  value := by
    intro q i j
    have h22 := m.e22
    have h33 := m.e33
    fin_cases i <;> fin_cases j <;>
      simp [schFn, Expr.den, q1, q2, sin_th, h22, h33, e00, e11]
  symm := by intro i j q; fin_cases i <;> fin_cases j <;> rfl
  smooth := fun q G hG i j => tame_ok _ (sch_tame i j) _ (seq4_ok.mp (seq4_ok.mp hG i) j)
  moved := fun q h => by
    obtain ⟨h1, h2, h3⟩ := exterior_sch (m.ext_move (sch_exterior h))
    exact sch_regular _ h1 h2 h3

theorem kerr_symmetry (a : ℝ) (hf : m.flip = true → a = 0) : IsSymmetry (kerrFn a) m.e m.b where
  sign := m.e_sign
  value := by
    intro q i j
    have h22 := m.e22
    have h33 := m.e33
    have h3 : m.e 3 * a = a := by
      show m.f * a = a
      unfold f; split_ifs with h
      · rw [hf h]; simp
      · simp
    have h4 : m.e 3 * (-(2 * q 1 * a) / ((q 1 ^ 2 + (a * Real.cos (q 2)) ^ 2) * (q 1 ^ 2 - 2 * q 1 + a ^ 2))) =
        -(2 * q 1 * a) / ((q 1 ^ 2 + (a * Real.cos (q 2)) ^ 2) * (q 1 ^ 2 - 2 * q 1 + a ^ 2)) := by
      rw [mul_div_assoc', show m.e 3 * -(2 * q 1 * a) = -(2 * q 1 * (m.e 3 * a)) by ring, h3]
    have hc : (a * (m.s * Real.cos (q 2))) ^ 2 = (a * Real.cos (q 2)) ^ 2 := by
      rw [mul_pow, cos_sq_th, mul_pow]
    fin_cases i <;> fin_cases j <;>
      simp [kerrFn, sigmaE, deltaE, Expr.den, q1, q2, sin_th, cos_th, hc, h22, h33, e00, e11, h4]
  symm := by intro i j q; fin_cases i <;> fin_cases j <;> rfl
  smooth := fun q G hG i j => tame_ok _ (kerr_tame a i j) _ (seq4_ok.mp (seq4_ok.mp hG i) j)
  moved := fun q h => by
    obtain ⟨h1, h2, h3⟩ := m.ext_move (kerr_exterior h)
    exact kerr_regular a _ h1 (by simpa using h2) h3

theorem kerrNewman_symmetry (a Q : ℝ) (hf : m.flip = true → a = 0) : IsSymmetry (kerrNewmanFn a Q) m.e m.b where
  sign := m.e_sign
  value := by
    intro q i j
    have h22 := m.e22
    have h33 := m.e33
    have h3 : m.e 3 * a = a := by
      show m.f * a = a
      unfold f; split_ifs with h
      · rw [hf h]; simp
      · simp
    have h4 : ∀ u v w : ℝ, m.e 3 * (4 * a * u * v / w) = 4 * a * u * v / w := by
      intro u v w
      rw [mul_div_assoc', show m.e 3 * (4 * a * u * v) = 4 * (m.e 3 * a) * u * v by ring, h3]
    have hc : (a * (m.s * Real.cos (q 2))) ^ 2 = (a * Real.cos (q 2)) ^ 2 := by
      rw [mul_pow, cos_sq_th, mul_pow]
    fin_cases i <;> fin_cases j <;>
      simp [kerrNewmanFn, sigmaE, deltaE, Expr.den, q1, q2, sin_th, cos_th, cos_two_th, hc, h22, h33, e00, e11, h4]
  symm := by intro i j q; fin_cases i <;> fin_cases j <;> rfl
  smooth := fun q G hG i j => tame_ok _ (kerrNewman_tame a Q i j) _ (seq4_ok.mp (seq4_ok.mp hG i) j)
  moved := fun q h => by
    obtain ⟨h1, h2, h3⟩ := m.ext_move (kerrNewman_exterior h)
    exact kerrNewman_regular a Q _ h1 h2 h3

end AxialMove

/-- the constructor for a named metric -/
theorem named_new {s : String} {ps : List ℝ} {a Q : ℝ} (hn : NamedMetric s ps a Q) :
    ∃ (g : MetricFn) (ps' : List ℝ), (∀ x p tl rc kw, Geodesic.new (.str s) (some ps) x p tl rc kw =
        (fourMomentum g ![0, x 0, x 1, x 2] p tl >>= fun P =>
          calculateTrajectory g ![0, x 0, x 1, x 2] P tl (if rc then "Cartesian" else "Spherical Polar") kw >>= fun r =>
            pure ⟨s, ps', ![0, x 0, x 1, x 2], P, tl, if tl then "Time-like" else "Null-like",
              if rc then "Cartesian" else "Spherical Polar", r.1, r.2⟩)) ∧
      ∀ m : AxialMove, (m.flip = true → a = 0) → IsSymmetry g m.e m.b := by
  cases hn with
  | schwarzschild => exact ⟨schFn, [0], fun _ _ _ _ _ => rfl, fun m _ => m.sch_symmetry⟩
  | kerr => exact ⟨kerrFn a, _, fun _ _ _ _ _ => rfl, fun m h => m.kerr_symmetry a h⟩
  | kerrNewman => exact ⟨kerrNewmanFn a Q, _, fun _ _ _ _ _ => rfl, fun m h => m.kerrNewman_symmetry a Q h⟩

theorem sym_fourMomentum {g : MetricFn} {e b : V4} (h : IsSymmetry g e b) (h0 : e 0 = 1) (q : V4) (p : Fin 3 → ℝ) (tl : Bool)
    (P : V4) (hP : fourMomentum g q p tl = .ok P) :
    fourMomentum g (moveQ e b q) (fun i => e i.succ * p i) tl = .ok (moveP e P) := by
  unfold fourMomentum at hP ⊢
  cases hG : evalMetric g q with
  | error er => rw [hG] at hP; cases hP
  | ok G =>
    rw [hG] at hP
    rw [(sym_eval h hG).2.2.2]
    simp only [bind, Except.bind] at hP ⊢
    have s0 := sign_sq h 0
    have s1 := sign_sq h 1
    have s2 := sign_sq h 2
    have s3 := sign_sq h 3
    have f0 : (Fin.succ 0 : Fin 4) = 1 := rfl
    have f1 : (Fin.succ 1 : Fin 4) = 2 := rfl
    have f2 : (Fin.succ 2 : Fin 4) = 3 := rfl
    have eA : e 0 * e 0 * G 0 0 = G 0 0 := by rw [s0, one_mul]
    have eB : 2 * (e 0 * e 3 * G 0 3) * (e (Fin.succ 2) * p 2) = 2 * G 0 3 * p 2 := by
      rw [f2, h0]; linear_combination (2 * G 0 3 * p 2) * s3
    have eC : e 1 * e 1 * G 1 1 * (e (Fin.succ 0) * p 0) * (e (Fin.succ 0) * p 0) +
        e 2 * e 2 * G 2 2 * (e (Fin.succ 1) * p 1) * (e (Fin.succ 1) * p 1) +
        e 3 * e 3 * G 3 3 * (e (Fin.succ 2) * p 2) * (e (Fin.succ 2) * p 2) =
        G 1 1 * p 0 * p 0 + G 2 2 * p 1 * p 1 + G 3 3 * p 2 * p 2 := by
      rw [f0, f1, f2, s1, s2, s3]
      linear_combination (G 1 1 * p 0 * p 0) * s1 + (G 2 2 * p 1 * p 1) * s2 + (G 3 3 * p 2 * p 2) * s3
    rw [eA, eB, eC]
    generalize (if tl = true then (1 : ℝ) else 0) = k at hP ⊢
    split_ifs at hP ⊢
    rw [← Except.ok.inj hP]
    refine congrArg Except.ok ?_
    funext i
    fin_cases i
    · simp [moveP, h0]
    · rfl
    · rfl
    · rfl

theorem AxialMove.row_polar (m : AxialMove) (s : PS) : polarRow (movePS m.e m.b s) = m.row false (polarRow s) := by
  obtain ⟨q1, p1, q2, p2⟩ := s
  have e2 : m.e 2 = m.s := rfl
  have e3 : m.e 3 = m.f := rfl
  simp [polarRow, movePS, PS.q1, PS.p1, AxialMove.row, m.q0, m.q1, m.q2, m.q3, m.th_eq, m.ph_eq, m.pth_eq, m.pph_eq, moveP,
    m.e00, m.e11, e2, e3]

theorem AxialMove.row_cart (m : AxialMove) (s : PS) : cartRow (movePS m.e m.b s) = m.row true (cartRow s) := by
  obtain ⟨q1, p1, q2, p2⟩ := s
  have hf : ∀ y, (if m.flip = true then -y else y) = m.f * y := fun y => by unfold AxialMove.f; split_ifs <;> ring
  have hs : ∀ y, (if m.mirror = true then -y else y) = m.s * y := fun y => by unfold AxialMove.s; split_ifs <;> ring
  have hcf : ∀ y, Real.cos (m.f * y) = Real.cos y := fun y => by rcases m.f_cases with h | h <;> simp [h]
  have hsf : ∀ y, Real.sin (m.f * y) = m.f * Real.sin y := fun y => by rcases m.f_cases with h | h <;> simp [h]
  simp only [cartRow, movePS, PS.q1, PS.p1, AxialMove.row, m.q0, m.q1, m.q2, m.q3, m.pth_eq, m.pph_eq, moveP, m.sin_th, m.cos_th,
    hf, hs, if_true, Real.cos_add, Real.sin_add, hcf, hsf]
  simp only [List.cons.injEq, and_true, true_and]
  refine ⟨by ring, by ring, by ring, ?_, ?_, rfl, rfl⟩
  · simp [AxialMove.e]
  · simp [AxialMove.e]

theorem AxialMove.start (m : AxialMove) (x : Fin 3 → ℝ) :
    (![0, m.pos x 0, m.pos x 1, m.pos x 2] : V4) = moveQ m.e m.b ![0, x 0, x 1, x 2] := by
  funext i
  fin_cases i
  · simp [m.q0]
  · simp [m.q1, AxialMove.pos]
  · show m.th (x 1) = m.s * x 1 + m.c
    exact m.th_eq _
  · show m.ph (x 2) = m.f * x 2 + m.al
    exact m.ph_eq _

theorem AxialMove.mom_eq (m : AxialMove) (p : Fin 3 → ℝ) : m.mom p = fun i => m.e i.succ * p i := by
  funext i
  fin_cases i
  · simp [AxialMove.mom, AxialMove.e]
  · exact m.pth_eq _
  · exact m.pph_eq _

theorem C116_forward (s : String) (ps : List ℝ) (a Q : ℝ) (hn : NamedMetric s ps a Q) (m : AxialMove)
    (hm : m.flip = true → a = 0) (x p : Fin 3 → ℝ) (tl rc : Bool) (kw : GeoKw) (o : GeodesicObj)
    (ho : Geodesic.new (.str s) (some ps) x p tl rc kw = .ok o) :
    ∃ o', Geodesic.new (.str s) (some ps) (m.pos x) (m.mom p) tl rc kw = .ok o' ∧
      o'.rows = o.rows.map (m.row rc) ∧ o'.steps = o.steps ∧
      o'.momentum = ![o.momentum 0, o.momentum 1, m.pth (o.momentum 2), m.pph (o.momentum 3)] := by
  obtain ⟨g, ps', hnew, hsym⟩ := named_new hn
  have hS := hsym m hm
  rw [hnew] at ho
  cases hP : fourMomentum g ![0, x 0, x 1, x 2] p tl with
  | error er => rw [hP] at ho; cases ho
  | ok P =>
    rw [hP] at ho
    simp only [bind, Except.bind] at ho
    cases hT : calculateTrajectory g ![0, x 0, x 1, x 2] P tl (if rc then "Cartesian" else "Spherical Polar") kw with
    | error er => rw [hT] at ho; cases ho
    | ok r =>
      obtain ⟨st, rows⟩ := r
      rw [hT] at ho
      simp only [pure, Except.pure] at ho
      obtain ⟨ss, hrows, hT'⟩ := sym_trajectory hS _ _ tl _ kw st rows hT
      have hP' := sym_fourMomentum hS m.e00 _ p tl P hP
      rw [← m.start, ← m.mom_eq] at hP'
      rw [← m.start] at hT'
      refine ⟨_, by rw [hnew, hP']; simp only [bind, Except.bind, hT', pure, Except.pure]; rfl, ?_, ?_, ?_⟩
      · rw [← Except.ok.inj ho, hrows]
        cases rc with
        | true => simp [m.row_cart]
        | false => simp [m.row_polar]
      · rw [← Except.ok.inj ho]
      · rw [← Except.ok.inj ho]
        funext i
        fin_cases i
        · simp [moveP, m.e00]
        · simp [moveP, m.e11]
        · exact (m.pth_eq _).symm
        · exact (m.pph_eq _).symm

/-- the inverse move -/
noncomputable def AxialMove.inv (m : AxialMove) : AxialMove := ⟨if m.flip then m.al else -m.al, m.mirror, m.flip⟩

theorem AxialMove.inv_pos (m : AxialMove) (x : Fin 3 → ℝ) : m.inv.pos (m.pos x) = x := by
  obtain ⟨al, mi, fl⟩ := m
  funext i
  fin_cases i <;> cases mi <;> cases fl <;> simp [pos, inv, th, ph]

theorem AxialMove.inv_mom (m : AxialMove) (x : Fin 3 → ℝ) : m.inv.mom (m.mom x) = x := by
  obtain ⟨al, mi, fl⟩ := m
  funext i
  fin_cases i <;> cases mi <;> cases fl <;> simp [mom, inv, pth, pph]

/-- **C116**.  Rotating the initial data of a geodesic of a named metric about the axis by any angle, and/or reflecting it at
the equatorial plane (for `a = 0` also reversing the sense of rotation), rotates and reflects every row of the trajectory, and
changes nothing else: not whether the constructor succeeds, not the number of rows, not the energy. -/
theorem C116_axial (s : String) (ps : List ℝ) (a Q : ℝ) (hn : NamedMetric s ps a Q) (m : AxialMove)
    (hm : m.flip = true → a = 0) (x p : Fin 3 → ℝ) (tl rc : Bool) (kw : GeoKw) :
    ((∃ o, Geodesic.new (.str s) (some ps) x p tl rc kw = .ok o) ↔
      ∃ o', Geodesic.new (.str s) (some ps) (m.pos x) (m.mom p) tl rc kw = .ok o') ∧
    ∀ o o', Geodesic.new (.str s) (some ps) x p tl rc kw = .ok o →
      Geodesic.new (.str s) (some ps) (m.pos x) (m.mom p) tl rc kw = .ok o' →
      o'.rows = o.rows.map (m.row rc) ∧ o'.steps = o.steps ∧
      o'.momentum = ![o.momentum 0, o.momentum 1, m.pth (o.momentum 2), m.pph (o.momentum 3)] := by
  refine ⟨⟨?_, ?_⟩, ?_⟩
  · rintro ⟨o, ho⟩
    obtain ⟨o', h, -⟩ := C116_forward s ps a Q hn m hm x p tl rc kw o ho
    exact ⟨o', h⟩
  · rintro ⟨o', ho⟩
    obtain ⟨o, h, -⟩ := C116_forward s ps a Q hn m.inv hm _ _ tl rc kw o' ho
    rw [m.inv_pos, m.inv_mom] at h
    exact ⟨o, h⟩
  · intro o o' ho ho'
    obtain ⟨o'', h, hr⟩ := C116_forward s ps a Q hn m hm x p tl rc kw o ho
    rw [ho'] at h
    rw [Except.ok.inj h]
    exact hr

/-- **C116** (equatorial motion).  A geodesic of a named metric that starts in the equatorial plane with no momentum out of
it stays there exactly: every row has `θ = π/2` (`z = 0`) and `p_θ = 0`. -/
theorem C116_equatorial (s : String) (ps : List ℝ) (a Q : ℝ) (hn : NamedMetric s ps a Q) (x p : Fin 3 → ℝ)
    (hx : x 1 = Real.pi / 2) (hp : p 1 = 0) (tl rc : Bool) (kw : GeoKw) (o : GeodesicObj)
    (ho : Geodesic.new (.str s) (some ps) x p tl rc kw = .ok o) (row : List ℝ) (hrow : row ∈ o.rows) :
    row[6]? = some 0 ∧ (rc = false → row[2]? = some (Real.pi / 2)) ∧ (rc = true → row[3]? = some 0) := by
  let m : AxialMove := ⟨0, true, false⟩
  obtain ⟨o', h, hr, -⟩ := C116_forward s ps a Q hn m (by simp [m]) x p tl rc kw o ho
  have e1 : m.pos x = x := by
    funext i; fin_cases i
    · rfl
    · show Real.pi - x 1 = x 1; rw [hx]; ring
    · show x 2 + 0 = x 2; ring
  have e2 : m.mom p = p := by
    funext i; fin_cases i
    · rfl
    · show - p 1 = p 1; rw [hp]; ring
    · rfl
  rw [e1, e2, ho] at h
  rw [← Except.ok.inj h] at hr
  have hfix : m.row rc row = row := by
    have : ∀ l : List (List ℝ), l = l.map (m.row rc) → ∀ r ∈ l, m.row rc r = r := by
      intro l
      induction l with
      | nil => intro _ r h; cases h
      | cons y l ih =>
        intro hl r hr
        rw [List.map_cons] at hl
        obtain ⟨h1, h2⟩ := List.cons.inj hl
        rcases List.mem_cons.mp hr with rfl | h
        · exact h1.symm
        · exact ih h2 r h
    exact this _ hr row hrow
  have h8 : ∃ t x y z a b c d, row = [t, x, y, z, a, b, c, d] := by
    obtain ⟨g, ps', hnew, hsym⟩ := named_new hn
    rw [hnew] at ho
    cases hP : fourMomentum g ![0, x 0, x 1, x 2] p tl with
    | error er => rw [hP] at ho; cases ho
    | ok P =>
      rw [hP] at ho
      simp only [bind, Except.bind] at ho
      cases hT : calculateTrajectory g ![0, x 0, x 1, x 2] P tl (if rc then "Cartesian" else "Spherical Polar") kw with
      | error er => rw [hT] at ho; cases ho
      | ok r =>
        obtain ⟨st, rows⟩ := r
        rw [hT] at ho
        simp only [pure, Except.pure] at ho
        obtain ⟨ss, hrows, -⟩ := sym_trajectory (hsym m (by simp [m])) _ _ tl _ kw st rows hT
        rw [← Except.ok.inj ho, hrows] at hrow
        obtain ⟨w, -, hw⟩ := List.mem_map.mp hrow
        rw [← hw]
        cases rc with
        | true => exact ⟨_, _, _, _, _, _, _, _, rfl⟩
        | false => exact ⟨_, _, _, _, _, _, _, _, rfl⟩
  obtain ⟨t, x, y, z, a, b, c, d, rfl⟩ := h8
  cases rc with
  | false =>
    simp [AxialMove.row, m, AxialMove.th, AxialMove.pth] at hfix ⊢
    constructor <;> linarith
  | true =>
    simp [AxialMove.row, m, AxialMove.pth] at hfix ⊢
    constructor <;> linarith

/-! ## Non-vacuity -/

/-- The circular orbit of radius 4, which lies in the equatorial plane, meets the hypotheses of `C116_axial` (with every move)
and of `C116_equatorial`: for small steps the constructor succeeds and returns ten rows. -/
example : ∃ (kw : GeoKw) (o : GeodesicObj) (p : Fin 3 → ℝ), p 1 = 0 ∧ 0 < kw.delta ∧
    Geodesic.new (.str "Schwarzschild") (some []) ![4, Real.pi / 2, 0] p true false kw = .ok o ∧ o.rows[9]? ≠ none := by
  obtain ⟨h1, h2, h3, h4, h5, h6, h7⟩ := orb_hyps
  obtain ⟨K, d, hd, h⟩ := C107_named "Schwarzschild" [] 0 0 h1 true orbQ orbV 0 100 le_rfl (by norm_num) h2 h3 h4 h5 h6 h7 2
    (Or.inl rfl) 1 2 (Or.inl rfl)
  have hm : 0 < min (d / 2) 1 := by positivity
  have hle : min (d / 2) 1 ≤ 1 := min_le_right _ _
  obtain ⟨o, ho, -, hr⟩ := h false { steps := 10, delta := min (d / 2) 1 } rfl rfl (by norm_num)
    (by
      show |min (d / 2) 1| < d
      rw [abs_of_pos hm]
      exact lt_of_le_of_lt (min_le_left _ _) (by linarith))
    ⟨by
      show (0 : ℝ) ≤ ((10 : ℤ) : ℝ) * min (d / 2) 1
      positivity, by
      show ((10 : ℤ) : ℝ) * min (d / 2) 1 ≤ 100
      push_cast
      linarith⟩
  refine ⟨{ steps := 10, delta := min (d / 2) 1 }, o, fun i => ∑ j, blCov 0 0 i.succ j (orbQ 0) * orbV 0 j, ?_, hm, ?_, ?_⟩
  rotate_left
  · have e : (fun i : Fin 3 => orbQ 0 i.succ) = ![4, Real.pi / 2, 0] := by
      funext i; fin_cases i
      · rfl
      · rfl
      · show (0 : ℝ) / 4 = 0
        norm_num
    rw [e] at ho
    exact ho
  · obtain ⟨x, u, h9, -⟩ := hr 9 (by norm_num)
    rw [h9]; simp
  · have : orbQ 0 1 = 4 := rfl
    simp [blCov, knCov, Fin.sum_univ_four, orbV]

/-- A proper rotation together with the reflection: `m.row` is not the identity. -/
example : (⟨Real.pi, true, false⟩ : AxialMove).row true [0, 1, 2, 3, 4, 5, 6, 7] = [0, -1, -2, -3, 4, 5, -6, 7] := by
  simp [AxialMove.row, AxialMove.pth, AxialMove.pph]

end Einpy
