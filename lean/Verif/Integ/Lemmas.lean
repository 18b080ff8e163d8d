import Verif.Integ.Model
import Verif.Dual.Props2

/-!
# The integration steps as sequences of elementary flows
-/

namespace Einpy
open Classical

/-- An elementary flow with its step size. -/
inductive Sub
  | A (δ : ℝ)
  | B (δ : ℝ)
  | M (δ : ℝ)

/-- Opposite step size. -/
def Sub.opp : Sub → Sub
  | .A δ => .A (-δ)
  | .B δ => .B (-δ)
  | .M δ => .M (-δ)

/-- One elementary flow acting on the whole state. -/
noncomputable def runSub (g : MetricFn) (ω : ℝ) : Sub → PS → Py PS
  | .A δ, s => do
    let r ← flowA g s.q1 s.p1 s.q2 s.p2 δ
    return (s.q1, r.2, r.1, s.p2)
  | .B δ, s => do
    let r ← flowB g s.q1 s.p1 s.q2 s.p2 δ
    return (r.1, s.p1, s.q2, r.2)
  | .M δ, s => .ok (flowMixed s.q1 s.p1 s.q2 s.p2 δ ω)

/-- A sequence of elementary flows. -/
noncomputable def runSubs (g : MetricFn) (ω : ℝ) : List Sub → PS → Py PS
  | [], s => .ok s
  | x :: l, s => do runSubs g ω l (← runSub g ω x s)

theorem runSubs_append (g : MetricFn) (ω : ℝ) (l l' : List Sub) (s : PS) :
    runSubs g ω (l ++ l') s = (do runSubs g ω l' (← runSubs g ω l s)) := by
  induction l generalizing s with
  | nil => rfl
  | cons x l ih =>
    simp only [List.cons_append, runSubs]
    cases h : runSub g ω x s with
    | error e => rfl
    | ok s1 => simp only [bind, Except.bind]; exact ih s1

/-- The elementary flows of `_ord_2`. -/
noncomputable def subs2 (δ : ℝ) : List Sub :=
  [.A (0.5 * δ), .B (0.5 * δ), .M δ, .B (0.5 * δ), .A (0.5 * δ)]

/-- Triple jump: `δ·Z1`, `δ·Z0`, `δ·Z1`. -/
def triple (Z : ℝ × ℝ) (f : ℝ → List Sub) (δ : ℝ) : List Sub :=
  f (δ * Z.2) ++ (f (δ * Z.1) ++ f (δ * Z.2))

/-- The elementary flows of a step of each supported order. -/
noncomputable def subsOf (order : Int) : ℝ → List Sub :=
  let Z := yoshidaZ order
  if order = 2 then subs2
  else if order = 4 then triple Z subs2
  else if order = 6 then triple Z (triple Z subs2)
  else triple Z (triple Z (triple Z subs2))

theorem ord2_eq (c : IntegCfg) (s : PS) (δ : ℝ) : ord2 c s δ = runSubs c.metric c.omega (subs2 δ) s := by
  unfold ord2 subs2
  simp only [runSubs, runSub]
  cases h1 : flowA c.metric s.q1 s.p1 s.q2 s.p2 (0.5 * δ) with
  | error e => rfl
  | ok a =>
    simp only [bind, Except.bind, pure, Except.pure]
    cases h2 : flowB c.metric (PS.q1 (s.q1, a.2, a.1, s.p2)) (PS.p1 (s.q1, a.2, a.1, s.p2))
      (PS.q2 (s.q1, a.2, a.1, s.p2)) (PS.p2 (s.q1, a.2, a.1, s.p2)) (0.5 * δ) with
    | error e => rfl
    | ok b =>
      simp only
      generalize hm : flowMixed _ _ _ _ _ _ = m
      cases h3 : flowB c.metric (PS.q1 m) (PS.p1 m) (PS.q2 m) (PS.p2 m) (0.5 * δ) with
      | error e => simp only [h3]
      | ok b2 =>
        simp only [h3]
        cases h4 : flowA c.metric (PS.q1 (b2.1, PS.p1 m, PS.q2 m, b2.2)) (PS.p1 (b2.1, PS.p1 m, PS.q2 m, b2.2))
          (PS.q2 (b2.1, PS.p1 m, PS.q2 m, b2.2)) (PS.p2 (b2.1, PS.p1 m, PS.q2 m, b2.2)) (0.5 * δ) with
        | error e => simp only [h4]
        | ok a2 => simp only [h4]

theorem triple_eq (g : MetricFn) (ω : ℝ) (Z : ℝ × ℝ) (f : ℝ → List Sub) (step : PS → ℝ → Py PS)
    (h : ∀ s δ, step s δ = runSubs g ω (f δ) s) (s : PS) (δ : ℝ) :
    (do let s1 ← step s (δ * Z.2)
        let s2 ← step s1 (δ * Z.1)
        step s2 (δ * Z.2)) = runSubs g ω (triple Z f δ) s := by
  unfold triple
  rw [runSubs_append, ← h]
  cases h1 : step s (δ * Z.2) with
  | error e => rfl
  | ok s1 =>
    simp only [bind, Except.bind]
    rw [runSubs_append, ← h]
    cases h2 : step s1 (δ * Z.1) with
    | error e => rfl
    | ok s2 => simp only [bind, Except.bind]; rw [← h]

theorem ord4_eq (c : IntegCfg) (s : PS) (δ : ℝ) :
    ord4 c s δ = runSubs c.metric c.omega (triple (yoshidaZ c.order) subs2 δ) s :=
  triple_eq c.metric c.omega (yoshidaZ c.order) subs2 (ord2 c) (ord2_eq c) s δ

theorem ord6_eq (c : IntegCfg) (s : PS) (δ : ℝ) :
    ord6 c s δ = runSubs c.metric c.omega (triple (yoshidaZ c.order) (triple (yoshidaZ c.order) subs2) δ) s :=
  triple_eq c.metric c.omega (yoshidaZ c.order) _ (ord4 c) (ord4_eq c) s δ

theorem ord8_eq (c : IntegCfg) (s : PS) (δ : ℝ) :
    ord8 c s δ = runSubs c.metric c.omega
      (triple (yoshidaZ c.order) (triple (yoshidaZ c.order) (triple (yoshidaZ c.order) subs2)) δ) s :=
  triple_eq c.metric c.omega (yoshidaZ c.order) _ (ord6 c) (ord6_eq c) s δ

/-- the supported orders -/
def Supported (order : Int) : Prop := order = 2 ∨ order = 4 ∨ order = 6 ∨ order = 8

theorem orderStep_eq (c : IntegCfg) (ho : Supported c.order) (s : PS) (δ : ℝ) :
    orderStep c s δ = runSubs c.metric c.omega (subsOf c.order δ) s := by
  unfold orderStep subsOf
  rcases ho with h | h | h | h
  · simp only [h, if_true]; exact ord2_eq c s δ
  · rw [if_neg (by omega), if_pos h]
    rw [if_neg (by omega), if_pos h]; exact ord4_eq c s δ
  · rw [if_neg (by omega), if_neg (by omega), if_pos h]
    rw [if_neg (by omega), if_neg (by omega), if_pos h]; exact ord6_eq c s δ
  · rw [if_neg (by omega), if_neg (by omega), if_neg (by omega), if_pos h]
    rw [if_neg (by omega), if_neg (by omega), if_neg (by omega)]; exact ord8_eq c s δ

/-! ## inverses -/

theorem flowMixed_inv {ι : Type*} (q1 p1 q2 p2 : ι → ℝ) (δ ω : ℝ) :
    flowMixed (flowMixed q1 p1 q2 p2 δ ω).1 (flowMixed q1 p1 q2 p2 δ ω).2.1 (flowMixed q1 p1 q2 p2 δ ω).2.2.1
      (flowMixed q1 p1 q2 p2 δ ω).2.2.2 (-δ) ω = (q1, p1, q2, p2) := by
  have h := Real.sin_sq_add_cos_sq (2 * ω * δ)
  have hc : Real.cos (2 * ω * -δ) = Real.cos (2 * ω * δ) := by rw [mul_neg, Real.cos_neg]
  have hs : Real.sin (2 * ω * -δ) = -Real.sin (2 * ω * δ) := by rw [mul_neg, Real.sin_neg]
  simp only [flowMixed, hc, hs]
  generalize Real.cos (2 * ω * δ) = c at *
  generalize Real.sin (2 * ω * δ) = t at *
  refine Prod.ext ?_ (Prod.ext ?_ (Prod.ext ?_ ?_)) <;> funext i <;> simp only <;> norm_num
  · linear_combination (1 / 2 * (q1 i - q2 i)) * h
  · linear_combination (1 / 2 * (p1 i - p2 i)) * h
  · linear_combination (-1 / 2 * (q1 i - q2 i)) * h
  · linear_combination (-1 / 2 * (p1 i - p2 i)) * h

theorem flowA_shape (g : MetricFn) (q1 p1 q2 p2 : V4) (δ : ℝ) {r : V4 × V4} (h : flowA g q1 p1 q2 p2 δ = .ok r) :
    ∃ G dp, evalMetric g q1 = .ok G ∧ (seq4 fun i => do return 0.5 * (← partHamFlow g q1 p2 i)) = .ok dp ∧
      r = (fun i => q2 i + δ * matVec G p2 i, fun i => p1 i - δ * dp i) := by
  unfold flowA at h
  cases h1 : (seq4 fun i => do return 0.5 * (← partHamFlow g q1 p2 i)) with
  | error e => rw [h1] at h; cases h
  | ok dp =>
    rw [h1] at h
    cases h2 : evalMetric g q1 with
    | error e => simp only [h2, bind, Except.bind] at h; cases h
    | ok G =>
      simp only [h2, bind, Except.bind, pure, Except.pure] at h
      exact ⟨G, dp, rfl, rfl, (Except.ok.inj h).symm⟩

theorem flowA_of (g : MetricFn) (q1 p1 q2 p2 : V4) (δ : ℝ) {G dp} (h1 : evalMetric g q1 = .ok G)
    (h2 : (seq4 fun i => do return 0.5 * (← partHamFlow g q1 p2 i)) = .ok dp) :
    flowA g q1 p1 q2 p2 δ = .ok (fun i => q2 i + δ * matVec G p2 i, fun i => p1 i - δ * dp i) := by
  unfold flowA
  rw [h2]
  simp only [bind, Except.bind, h1, pure, Except.pure]

/-- `_flow_B` is `_flow_A` with the two copies exchanged. -/
theorem flowB_eq_flowA (g : MetricFn) (q1 p1 q2 p2 : V4) (δ : ℝ) :
    flowB g q1 p1 q2 p2 δ = flowA g q2 p2 q1 p1 δ := rfl

theorem runSub_inv (g : MetricFn) (ω : ℝ) (x : Sub) (s s' : PS) (h : runSub g ω x s = .ok s') :
    runSub g ω x.opp s' = .ok s := by
  obtain ⟨q1, p1, q2, p2⟩ := s
  cases x with
  | A δ =>
    simp only [runSub, PS.q1, PS.p1, PS.q2, PS.p2] at h
    cases hf : flowA g q1 p1 q2 p2 δ with
    | error e => rw [hf] at h; cases h
    | ok r =>
      rw [hf] at h
      have hs : s' = (q1, r.2, r.1, p2) := (Except.ok.inj h).symm
      obtain ⟨G, dp, h1, h2, h3⟩ := flowA_shape g q1 p1 q2 p2 δ hf
      subst hs
      simp only [Sub.opp, runSub, PS.q1, PS.p1, PS.q2, PS.p2, flowA_of g q1 r.2 r.1 p2 (-δ) h1 h2, bind, Except.bind,
        pure, Except.pure]
      rw [h3]
      refine congrArg Except.ok (Prod.ext rfl (Prod.ext ?_ (Prod.ext ?_ rfl)))
      · funext i; simp only; ring
      · funext i; simp only; ring
  | B δ =>
    simp only [runSub, PS.q1, PS.p1, PS.q2, PS.p2, flowB_eq_flowA] at h
    cases hf : flowA g q2 p2 q1 p1 δ with
    | error e => rw [hf] at h; cases h
    | ok r =>
      rw [hf] at h
      have hs : s' = (r.1, p1, q2, r.2) := (Except.ok.inj h).symm
      obtain ⟨G, dp, h1, h2, h3⟩ := flowA_shape g q2 p2 q1 p1 δ hf
      subst hs
      simp only [Sub.opp, runSub, PS.q1, PS.p1, PS.q2, PS.p2, flowB_eq_flowA, flowA_of g q2 r.2 r.1 p1 (-δ) h1 h2, bind,
        Except.bind, pure, Except.pure]
      rw [h3]
      refine congrArg Except.ok (Prod.ext ?_ (Prod.ext rfl (Prod.ext rfl ?_)))
      · funext i; simp only; ring
      · funext i; simp only; ring
  | M δ =>
    have hs : s' = flowMixed q1 p1 q2 p2 δ ω := (Except.ok.inj h).symm
    subst hs
    exact congrArg Except.ok (flowMixed_inv q1 p1 q2 p2 δ ω)

theorem runSubs_inv (g : MetricFn) (ω : ℝ) (l : List Sub) (s s' : PS) (h : runSubs g ω l s = .ok s') :
    runSubs g ω (l.reverse.map Sub.opp) s' = .ok s := by
  induction l generalizing s with
  | nil => exact congrArg Except.ok (Except.ok.inj h).symm
  | cons x l ih =>
    simp only [runSubs] at h
    cases h1 : runSub g ω x s with
    | error e => rw [h1] at h; cases h
    | ok s1 =>
      rw [h1] at h
      have := ih s1 h
      rw [List.reverse_cons, List.map_append, runSubs_append, this]
      simp only [bind, Except.bind, List.map_cons, List.map_nil, runSubs, runSub_inv g ω x s s1 h1]

/-- A palindromic family: reversing the order and the signs is changing the sign of the step. -/
def Palindromic (f : ℝ → List Sub) : Prop := ∀ δ, (f δ).reverse.map Sub.opp = f (-δ)

theorem palindromic_subs2 : Palindromic subs2 := by
  intro δ
  simp [subs2, Sub.opp]

theorem palindromic_triple (Z : ℝ × ℝ) {f : ℝ → List Sub} (hf : Palindromic f) : Palindromic (triple Z f) := by
  intro δ
  simp only [triple, List.reverse_append, List.map_append, hf _, List.append_assoc, neg_mul]

theorem palindromic_subsOf (order : Int) : Palindromic (subsOf order) := by
  unfold subsOf
  simp only
  split_ifs
  · exact palindromic_subs2
  · exact palindromic_triple _ palindromic_subs2
  · exact palindromic_triple _ (palindromic_triple _ palindromic_subs2)
  · exact palindromic_triple _ (palindromic_triple _ (palindromic_triple _ palindromic_subs2))

end Einpy
