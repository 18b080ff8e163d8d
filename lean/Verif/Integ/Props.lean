import Mathlib.Analysis.Calculus.MeanValue
import Mathlib.Analysis.Calculus.Deriv.Pow
import Verif.Integ.Lemmas

/-!
# Integrators: C29, C30, C32 – C36, C67
-/

namespace Einpy
open Classical

/-! ## C29 -/

/-- **C29**.  For arrays of any length: the coupling step preserves `q1+q2` and `p1+p2`, rotates `(q1-q2, p1-p2)` by the
angle `2ωδ`, is undone by the step with `-δ`, and two steps compose to the step with the summed step size. -/
theorem C29_mixed_flow {ι : Type*} (q1 p1 q2 p2 : ι → ℝ) (δ ε ω : ℝ) :
    let r := flowMixed q1 p1 q2 p2 δ ω
    (∀ i, r.1 i + r.2.2.1 i = q1 i + q2 i ∧ r.2.1 i + r.2.2.2 i = p1 i + p2 i ∧
      r.1 i - r.2.2.1 i = Real.cos (2 * ω * δ) * (q1 i - q2 i) + Real.sin (2 * ω * δ) * (p1 i - p2 i) ∧
      r.2.1 i - r.2.2.2 i = Real.cos (2 * ω * δ) * (p1 i - p2 i) - Real.sin (2 * ω * δ) * (q1 i - q2 i)) ∧
    flowMixed r.1 r.2.1 r.2.2.1 r.2.2.2 (-δ) ω = (q1, p1, q2, p2) ∧
    flowMixed r.1 r.2.1 r.2.2.1 r.2.2.2 ε ω = flowMixed q1 p1 q2 p2 (δ + ε) ω := by
  refine ⟨fun i => ?_, flowMixed_inv q1 p1 q2 p2 δ ω, ?_⟩
  · simp only [flowMixed]
    refine ⟨?_, ?_, ?_, ?_⟩ <;> ring
  · have hc : Real.cos (2 * ω * (δ + ε)) = Real.cos (2 * ω * δ) * Real.cos (2 * ω * ε) -
        Real.sin (2 * ω * δ) * Real.sin (2 * ω * ε) := by rw [mul_add, Real.cos_add]
    have hs : Real.sin (2 * ω * (δ + ε)) = Real.sin (2 * ω * δ) * Real.cos (2 * ω * ε) +
        Real.cos (2 * ω * δ) * Real.sin (2 * ω * ε) := by rw [mul_add, Real.sin_add]
    simp only [flowMixed, hc, hs]
    refine Prod.ext ?_ (Prod.ext ?_ (Prod.ext ?_ ?_)) <;> funext i <;> simp only <;> ring

/-- **C29** (equal copies).  When the two copies agree the coupling step does nothing. -/
theorem C29_mixed_fixed {ι : Type*} (q p : ι → ℝ) (δ ω : ℝ) : flowMixed q p q p δ ω = (q, p, q, p) := by
  simp only [flowMixed]
  refine Prod.ext ?_ (Prod.ext ?_ (Prod.ext ?_ ?_)) <;> funext i <;> simp only <;> ring

/-! ## C30 -/

/-- **C30**.  For every metric function, `ω`, supported order, state and step size: if a step succeeds, the step with the
opposite step size from the state reached succeeds and returns exactly the starting state. -/
theorem C30_time_reversible (c : IntegCfg) (ho : c.order = 2 ∨ c.order = 4 ∨ c.order = 6 ∨ c.order = 8)
    (s s' : PS) (δ : ℝ) (h : orderStep c s δ = .ok s') : orderStep c s' (-δ) = .ok s := by
  rw [orderStep_eq c ho] at h ⊢
  rw [← palindromic_subsOf]
  exact runSubs_inv c.metric c.omega _ s s' h

/-! ## C32 -/

/-- The program does not read coordinate `k`. -/
def Expr.Avoids {ι : Type*} (k : ι) : Expr ι → Prop
  | .var i => i ≠ k
  | .const _ => True
  | .add a b | .sub a b | .mul a b | .div a b => a.Avoids k ∧ b.Avoids k
  | .neg a | .pow a _ | .sin a | .cos a | .tan a | .log a | .exp a => a.Avoids k

theorem truediv_deriv_zero {x y z : Dual} (hx : x.deriv = 0) (hy : y.deriv = 0) (h : x.truediv y = .ok z) :
    z.deriv = 0 := by
  unfold Dual.truediv at h
  split_ifs at h
  · rw [← Except.ok.inj h]; simp [hx, hy]

theorem eval_avoids {ι : Type*} (env : ι → Dual) (k : ι) (henv : ∀ i, i ≠ k → (env i).deriv = 0) (e : Expr ι)
    (he : e.Avoids k) (w : Val) (h : e.eval env = .ok w) : derivOf w = 0 := by
  induction e generalizing w with
  | var i => rw [← Except.ok.inj h]; exact henv i he
  | const c => rw [← Except.ok.inj h]; rfl
  | add a b iha ihb =>
    simp only [Expr.eval] at h
    cases ha : a.eval env with
    | error e => rw [ha] at h; cases h
    | ok x =>
      cases hb : b.eval env with
      | error e => simp only [ha, hb, bind, Except.bind] at h; cases h
      | ok y =>
        simp only [ha, hb, bind, Except.bind, pure, Except.pure] at h
        rw [← Except.ok.inj h]
        have h1 := iha he.1 x ha
        have h2 := ihb he.2 y hb
        clear h; cases x <;> cases y <;> simp_all [Val.add, derivOf, Dual.add, Dual.addNum]
  | sub a b iha ihb =>
    simp only [Expr.eval] at h
    cases ha : a.eval env with
    | error e => rw [ha] at h; cases h
    | ok x =>
      cases hb : b.eval env with
      | error e => simp only [ha, hb, bind, Except.bind] at h; cases h
      | ok y =>
        simp only [ha, hb, bind, Except.bind, pure, Except.pure] at h
        rw [← Except.ok.inj h]
        have h1 := iha he.1 x ha
        have h2 := ihb he.2 y hb
        clear h; cases x <;> cases y <;> simp_all [Val.sub, derivOf, Dual.sub, Dual.subNum, Dual.rsubNum]
  | mul a b iha ihb =>
    simp only [Expr.eval] at h
    cases ha : a.eval env with
    | error e => rw [ha] at h; cases h
    | ok x =>
      cases hb : b.eval env with
      | error e => simp only [ha, hb, bind, Except.bind] at h; cases h
      | ok y =>
        simp only [ha, hb, bind, Except.bind, pure, Except.pure] at h
        rw [← Except.ok.inj h]
        have h1 := iha he.1 x ha
        have h2 := ihb he.2 y hb
        clear h; cases x <;> cases y <;> simp_all [Val.mul, derivOf, Dual.mul, Dual.mulNum]
  | div a b iha ihb =>
    simp only [Expr.eval] at h
    cases ha : a.eval env with
    | error e => rw [ha] at h; cases h
    | ok x =>
      cases hb : b.eval env with
      | error e => simp only [ha, hb, bind, Except.bind] at h; cases h
      | ok y =>
        simp only [ha, hb, bind, Except.bind] at h
        have h1 := iha he.1 x ha
        have h2 := ihb he.2 y hb
        cases x with
        | num x =>
          cases y with
          | num y =>
            simp only [Val.div] at h
            split_ifs at h
            rw [← Except.ok.inj h]; rfl
          | dual y =>
            simp only [Val.div, Dual.rtruedivNum] at h
            cases hz : Dual.truediv ⟨x, 0⟩ y with
            | error e => rw [hz] at h; cases h
            | ok z =>
              rw [hz] at h
              rw [← Except.ok.inj h]; exact truediv_deriv_zero rfl h2 hz
        | dual x =>
          cases y with
          | num y =>
            simp only [Val.div, Dual.truedivNum] at h
            split_ifs at h
            · cases h
            · rw [← Except.ok.inj h]
              show x.deriv / y = 0
              rw [show x.deriv = 0 from h1, zero_div]
          | dual y =>
            simp only [Val.div] at h
            cases hz : Dual.truediv x y with
            | error e => rw [hz] at h; cases h
            | ok z =>
              rw [hz] at h
              rw [← Except.ok.inj h]; exact truediv_deriv_zero h1 h2 hz
  | neg a iha =>
    simp only [Expr.eval] at h
    cases ha : a.eval env with
    | error e => rw [ha] at h; cases h
    | ok x =>
      simp only [ha, bind, Except.bind, pure, Except.pure] at h
      rw [← Except.ok.inj h]
      have h1 := iha he x ha
      clear h; cases x <;> simp_all [Val.neg, derivOf, Dual.neg]
  | pow a p iha =>
    simp only [Expr.eval] at h
    cases ha : a.eval env with
    | error e => rw [ha] at h; cases h
    | ok x =>
      simp only [ha, bind, Except.bind] at h
      have h1 := iha he x ha
      cases x with
      | num x =>
        simp only [Val.pow] at h
        cases hp : pyPow x p with
        | error e => rw [hp] at h; cases h
        | ok z => rw [hp] at h; rw [← Except.ok.inj h]; rfl
      | dual x =>
        simp only [Val.pow, Dual.pow] at h
        cases hp : pyPow x.val p with
        | error e => rw [hp] at h; cases h
        | ok z =>
          cases hp' : pyPow x.val (p - 1) with
          | error e => simp only [hp, hp', bind, Except.bind] at h; cases h
          | ok z' =>
            simp only [hp, hp', bind, Except.bind, pure, Except.pure] at h
            rw [← Except.ok.inj h]
            show x.deriv * p * z' = 0
            rw [show x.deriv = 0 from h1]; ring
  | sin a iha =>
    simp only [Expr.eval] at h
    cases ha : a.eval env with
    | error e => rw [ha] at h; cases h
    | ok x =>
      simp only [ha, bind, Except.bind, pure, Except.pure] at h
      rw [← Except.ok.inj h]
      have h1 := iha he x ha
      clear h; cases x <;> simp_all [Val.sin, derivOf, Dual.sin]
  | cos a iha =>
    simp only [Expr.eval] at h
    cases ha : a.eval env with
    | error e => rw [ha] at h; cases h
    | ok x =>
      simp only [ha, bind, Except.bind, pure, Except.pure] at h
      rw [← Except.ok.inj h]
      have h1 := iha he x ha
      clear h; cases x <;> simp_all [Val.cos, derivOf, Dual.cos]
  | tan a iha =>
    simp only [Expr.eval] at h
    cases ha : a.eval env with
    | error e => rw [ha] at h; cases h
    | ok x =>
      simp only [ha, bind, Except.bind] at h
      have h1 := iha he x ha
      cases x with
      | num x =>
        simp only [Val.tan] at h
        split_ifs at h
        rw [← Except.ok.inj h]; rfl
      | dual x =>
        simp only [Val.tan, Dual.tan] at h
        cases hz : Dual.truediv x.sin x.cos with
        | error e => rw [hz] at h; cases h
        | ok z =>
          rw [hz] at h
          rw [← Except.ok.inj h]
          have h0 : x.deriv = 0 := h1
          exact truediv_deriv_zero (by simp [Dual.sin, h0]) (by simp [Dual.cos, h0]) hz
  | log a iha =>
    simp only [Expr.eval] at h
    cases ha : a.eval env with
    | error e => rw [ha] at h; cases h
    | ok x =>
      simp only [ha, bind, Except.bind] at h
      have h1 := iha he x ha
      cases x with
      | num x =>
        simp only [Val.log] at h
        split_ifs at h
        rw [← Except.ok.inj h]; rfl
      | dual x =>
        simp only [Val.log, Dual.log] at h
        split_ifs at h
        · cases h
        · cases h
        · rw [← Except.ok.inj h]
          show x.deriv / x.val = 0
          rw [show x.deriv = 0 from h1, zero_div]
  | exp a iha =>
    simp only [Expr.eval] at h
    cases ha : a.eval env with
    | error e => rw [ha] at h; cases h
    | ok x =>
      simp only [ha, bind, Except.bind, pure, Except.pure] at h
      rw [← Except.ok.inj h]
      have h1 := iha he x ha
      clear h; cases x <;> simp_all [Val.exp, derivOf, Dual.exp]

theorem evalAll_mem {ι : Type*} (env : ι → Dual) (es : List (Expr ι)) (vs : List Val) (h : evalAll env es = .ok vs) :
    ∀ v ∈ vs, ∃ e ∈ es, e.eval env = .ok v := by
  induction es generalizing vs with
  | nil => rw [← Except.ok.inj h]; simp
  | cons e es ih =>
    simp only [evalAll] at h
    cases h1 : e.eval env with
    | error er => rw [h1] at h; cases h
    | ok v =>
      cases h2 : evalAll env es with
      | error er => simp only [h1, h2, bind, Except.bind] at h; cases h
      | ok ws =>
        simp only [h1, h2, bind, Except.bind, pure, Except.pure] at h
        rw [← Except.ok.inj h]
        intro u hu
        rcases List.mem_cons.mp hu with rfl | hu
        · exact ⟨e, by simp, h1⟩
        · obtain ⟨e', he', h'⟩ := ih ws h2 u hu
          exact ⟨e', by simp [he'], h'⟩

theorem diffG_avoids (g : MetricFn) (q : V4) (k : Fin 4) (hk : ∀ i j, (g i j).Avoids k) (idx : List Nat) (d : ℝ)
    (h : diffG g q idx ((k : Nat) : Int) = .ok d) : d = 0 := by
  unfold diffG at h
  split_ifs at h with h1 h2
  · cases hv : evalAll (fun i => (⟨q i, if ((i : Nat) : Int) = ((k : Nat) : Int) then 1 else 0⟩ : Dual))
        (metricEntries g) with
    | error e => simp only [hv, bind, Except.bind] at h; cases h
    | ok vs =>
      simp only [hv, bind, Except.bind] at h
      match idx, h2 with
      | [i, j], _ =>
        simp only at h
        cases hi' : (if j < 4 then vs[4 * i + j]? else none) with
        | none => rw [hi'] at h; cases h
        | some v =>
          rw [hi'] at h
          have hi : vs[4 * i + j]? = some v := by
            split_ifs at hi' with hj
            exact hi'
          have hd : derivOf v = d := Except.ok.inj h
          obtain ⟨e, he, hev⟩ := evalAll_mem _ _ _ hv v (List.mem_of_getElem? hi)
          simp only [metricEntries, List.mem_map] at he
          obtain ⟨m, -, rfl⟩ := he
          rw [← hd]
          refine eval_avoids _ k ?_ _ (hk _ _) v hev
          intro a ha
          have : ¬ ((a : Nat) : Int) = ((k : Nat) : Int) := by
            intro hh; exact ha (Fin.ext (by exact_mod_cast hh))
          simp [this]

theorem jacobianLoop_avoids (g : MetricFn) (q : V4) (k : Fin 4) (hk : ∀ i j, (g i j).Avoids k) (l : List (Nat × Nat))
    (J J' : Nat → Nat → ℝ) (hJ : ∀ a b, J a b = 0) (h : jacobianLoop g q ((k : Nat) : Int) l J = .ok J') :
    ∀ a b, J' a b = 0 := by
  induction l generalizing J with
  | nil => rw [← Except.ok.inj h]; exact hJ
  | cons p l ih =>
    obtain ⟨i, j⟩ := p
    simp only [jacobianLoop] at h
    split_ifs at h
    · cases hd : diffG g q [i, j] ((k : Nat) : Int) with
      | error e => rw [hd] at h; cases h
      | ok v =>
        rw [hd] at h
        have hv := diffG_avoids g q k hk _ v hd
        refine ih _ ?_ h
        intro a b
        simp [hv, hJ]
    · exact ih J hJ h

theorem partHamFlow_avoids (g : MetricFn) (q p : V4) (k : Fin 4) (hk : ∀ i j, (g i j).Avoids k) (d : ℝ)
    (h : partHamFlow g q p k = .ok d) : d = 0 := by
  unfold partHamFlow jacobianG at h
  cases hl : jacobianLoop g q ((k : Nat) : Int) ((List.range 16).map fun k => (k / 4, k % 4)) (fun _ _ => 0) with
  | error e => simp only [hl, bind, Except.bind] at h; cases h
  | ok J =>
    have hz := jacobianLoop_avoids g q k hk _ _ J (fun _ _ => rfl) hl
    simp only [hl, bind, Except.bind, pure, Except.pure] at h
    rw [← Except.ok.inj h]
    simp [dot4, matVec, hz]

theorem seq4_ok {α : Type*} {f : Fin 4 → Py α} {v : Fin 4 → α} : seq4 f = .ok v ↔ ∀ i, f i = .ok (v i) := by
  unfold seq4
  constructor
  · intro h
    cases h0 : f 0 with
    | error e => rw [h0] at h; cases h
    | ok a =>
      cases h1 : f 1 with
      | error e => simp only [h0, h1, bind, Except.bind] at h; cases h
      | ok b =>
        cases h2 : f 2 with
        | error e => simp only [h0, h1, h2, bind, Except.bind] at h; cases h
        | ok c =>
          cases h3 : f 3 with
          | error e => simp only [h0, h1, h2, h3, bind, Except.bind] at h; cases h
          | ok d =>
            simp only [h0, h1, h2, h3, bind, Except.bind, pure, Except.pure] at h
            have hv := Except.ok.inj h
            intro i
            rw [← hv]
            fin_cases i
            · exact h0
            · exact h1
            · exact h2
            · exact h3
  · intro h
    simp only [h, bind, Except.bind, pure, Except.pure]
    congr 1
    funext i; fin_cases i <;> rfl

theorem flowA_avoids (g : MetricFn) (k : Fin 4) (hk : ∀ i j, (g i j).Avoids k) (q1 p1 q2 p2 : V4) (δ : ℝ) (r : V4 × V4)
    (h : flowA g q1 p1 q2 p2 δ = .ok r) : r.2 k = p1 k := by
  obtain ⟨G, dp, h1, h2, rfl⟩ := flowA_shape g q1 p1 q2 p2 δ h
  have := seq4_ok.mp h2 k
  cases hp : partHamFlow g q1 p2 k with
  | error e => simp only [hp, bind, Except.bind] at this; cases this
  | ok d =>
    simp only [hp, bind, Except.bind, pure, Except.pure] at this
    have hd := partHamFlow_avoids g q1 p2 k hk d hp
    have : dp k = 0 := by rw [← Except.ok.inj this, hd]; ring
    simp [this]

theorem runSub_avoids (g : MetricFn) (ω : ℝ) (k : Fin 4) (hk : ∀ i j, (g i j).Avoids k) (x : Sub) (s s' : PS)
    (h : runSub g ω x s = .ok s') : s'.p1 k + s'.p2 k = s.p1 k + s.p2 k := by
  obtain ⟨q1, p1, q2, p2⟩ := s
  cases x with
  | A δ =>
    simp only [runSub, PS.q1, PS.p1, PS.q2, PS.p2] at h
    cases hf : flowA g q1 p1 q2 p2 δ with
    | error e => rw [hf] at h; cases h
    | ok r =>
      rw [hf] at h
      rw [← Except.ok.inj h]
      show r.2 k + p2 k = p1 k + p2 k
      rw [flowA_avoids g k hk _ _ _ _ _ r hf]
  | B δ =>
    simp only [runSub, PS.q1, PS.p1, PS.q2, PS.p2, flowB_eq_flowA] at h
    cases hf : flowA g q2 p2 q1 p1 δ with
    | error e => rw [hf] at h; cases h
    | ok r =>
      rw [hf] at h
      rw [← Except.ok.inj h]
      show p1 k + r.2 k = p1 k + p2 k
      rw [flowA_avoids g k hk _ _ _ _ _ r hf]
  | M δ =>
    rw [← Except.ok.inj h]
    exact ((C29_mixed_flow q1 p1 q2 p2 δ 0 ω).1 k).2.1

theorem runSubs_avoids (g : MetricFn) (ω : ℝ) (k : Fin 4) (hk : ∀ i j, (g i j).Avoids k) (l : List Sub) (s s' : PS)
    (h : runSubs g ω l s = .ok s') : s'.p1 k + s'.p2 k = s.p1 k + s.p2 k := by
  induction l generalizing s with
  | nil => rw [← Except.ok.inj h]
  | cons x l ih =>
    simp only [runSubs] at h
    cases h1 : runSub g ω x s with
    | error e => rw [h1] at h; cases h
    | ok s1 =>
      rw [h1] at h
      rw [ih s1 h, runSub_avoids g ω k hk x s s1 h1]

/-- `n` applications of a partial map -/
def iterPy {α : Type*} (f : α → Py α) : Nat → α → Py α
  | 0, a => .ok a
  | n + 1, a => do f (← iterPy f n a)

/-- **C32**.  If the metric function does not read coordinate `k`, then `p1[k] + p2[k]` has its initial value after any
number of steps of any supported order with any step size and `ω`; when both copies start equal that value is twice the
initial momentum. -/
theorem C32_cyclic_momentum (c : IntegCfg) (ho : c.order = 2 ∨ c.order = 4 ∨ c.order = 6 ∨ c.order = 8) (k : Fin 4)
    (hk : ∀ i j, (c.metric i j).Avoids k) (δ : ℝ) (n : Nat) :
    (∀ s s' : PS, iterPy (fun s => orderStep c s δ) n s = .ok s' → s'.p1 k + s'.p2 k = s.p1 k + s.p2 k) ∧
    (∀ (q0 p0 : V4) (s' : PS), iterPy (fun s => orderStep c s δ) n (q0, p0, q0, p0) = .ok s' →
      s'.p1 k + s'.p2 k = 2 * p0 k) := by
  have main : ∀ s s' : PS, iterPy (fun s => orderStep c s δ) n s = .ok s' → s'.p1 k + s'.p2 k = s.p1 k + s.p2 k := by
    induction n with
    | zero => intro s s' h; rw [← Except.ok.inj h]
    | succ n ih =>
      intro s s' h
      simp only [iterPy] at h
      cases h1 : iterPy (fun s => orderStep c s δ) n s with
      | error e => rw [h1] at h; cases h
      | ok s1 =>
        rw [h1] at h
        have h2 : orderStep c s1 δ = .ok s' := h
        rw [orderStep_eq c ho] at h2
        rw [runSubs_avoids c.metric c.omega k hk _ s1 s' h2, ih s s1 h1]
  refine ⟨main, fun q0 p0 s' h => ?_⟩
  rw [main _ _ h]
  show p0 k + p0 k = 2 * p0 k
  ring

/-- `exMetricFn` reads neither coordinate 0 nor coordinate 3. -/
example : (∀ i j, (exMetricFn i j).Avoids 0) ∧ (∀ i j, (exMetricFn i j).Avoids 3) := by
  constructor <;> intro i j <;> fin_cases i <;> fin_cases j <;> simp [exMetricFn, Expr.Avoids]

/-! ## C33 -/

/-- Apply the order-2 step successively with the given step sizes. -/
noncomputable def runOrd2 (c : IntegCfg) : List ℝ → PS → Py PS
  | [], s => .ok s
  | d :: ds, s => do runOrd2 c ds (← ord2 c s d)

/-- Products of all pairs, first factor outermost. -/
def weightProd (ws vs : List ℝ) : List ℝ := ws.flatMap fun w => vs.map (w * ·)

/-- The composition weights: `order` 4, 6, 8 use one, two, three nested triple jumps, all with the constants of the
outermost order. -/
noncomputable def usedWeights (order : Int) : List ℝ :=
  let t : List ℝ := [(yoshidaZ order).2, (yoshidaZ order).1, (yoshidaZ order).2]
  if order = 2 then [1]
  else if order = 4 then t
  else if order = 6 then weightProd t t
  else weightProd t (weightProd t t)

theorem runOrd2_eq (c : IntegCfg) (ds : List ℝ) (s : PS) :
    runOrd2 c ds s = runSubs c.metric c.omega (ds.flatMap subs2) s := by
  induction ds generalizing s with
  | nil => rfl
  | cons d ds ih =>
    rw [List.flatMap_cons, runSubs_append, ← ord2_eq]
    simp only [runOrd2]
    cases h : ord2 c s d with
    | error e => rfl
    | ok s1 => simp only [bind, Except.bind]; exact ih s1

theorem triple_flat (Z : ℝ × ℝ) (ws : List ℝ) (f : ℝ → List Sub)
    (hf : ∀ δ, f δ = (ws.map (δ * ·)).flatMap subs2) (δ : ℝ) :
    triple Z f δ = ((weightProd [Z.2, Z.1, Z.2] ws).map (δ * ·)).flatMap subs2 := by
  simp only [triple, hf, weightProd, List.flatMap_cons, List.flatMap_nil, List.append_nil, List.map_append,
    List.map_map, List.flatMap_append]
  simp only [Function.comp_def, mul_assoc]

theorem orderStep_weights (c : IntegCfg) (ho : Supported c.order) (s : PS) (δ : ℝ) :
    orderStep c s δ = runOrd2 c ((usedWeights c.order).map (δ * ·)) s := by
  rw [orderStep_eq c ho, runOrd2_eq]
  congr 1
  have h2 : ∀ δ, subs2 δ = (([1] : List ℝ).map (δ * ·)).flatMap subs2 := by intro δ; simp
  have h4 : ∀ δ, triple (yoshidaZ c.order) subs2 δ =
      (([(yoshidaZ c.order).2, (yoshidaZ c.order).1, (yoshidaZ c.order).2] : List ℝ).map (δ * ·)).flatMap subs2 := by
    intro δ; simp [triple]
  have h6 := triple_flat (yoshidaZ c.order) _ _ h4
  have h8 := triple_flat (yoshidaZ c.order) _ _ h6
  unfold subsOf usedWeights
  simp only
  split_ifs
  · exact h2 δ
  · exact h4 δ
  · exact h6 δ
  · exact h8 δ

theorem weightProd_pow_sum (ws vs : List ℝ) (k : Nat) :
    ((weightProd ws vs).map (· ^ k)).sum = (ws.map (· ^ k)).sum * (vs.map (· ^ k)).sum := by
  induction ws with
  | nil => simp [weightProd]
  | cons w ws ih =>
    have : weightProd (w :: ws) vs = vs.map (w * ·) ++ weightProd ws vs := rfl
    rw [this, List.map_append, List.sum_append, ih, List.map_cons, List.sum_cons, add_mul, List.map_map]
    congr 1
    rw [← List.sum_map_mul_left]
    congr 1
    apply List.map_congr_left
    intro v _
    simp [mul_pow]

/-- The number `x` in `_Z(order)`. -/
theorem yoshida_root (order : Int) (k : Nat) (hk : (order : ℝ) - 1 = k) (h1 : 1 < k) :
    ∃ x : ℝ, x ^ k = 2 ∧ 1 < x ∧ x < 2 ∧ yoshidaZ order = (-x / (2 - x), 1 / (2 - x)) := by
  have hk0 : (k : ℝ) ≠ 0 := by positivity
  have hexp : 1 / (2 * (((order : ℝ) - 2) / 2) + 1) = 1 / (k : ℝ) := by rw [← hk]; ring_nf
  refine ⟨2 ^ (1 / (k : ℝ)), ?_, ?_, ?_, ?_⟩
  · rw [← Real.rpow_natCast, ← Real.rpow_mul (by norm_num), one_div, inv_mul_cancel₀ hk0, Real.rpow_one]
  · exact Real.one_lt_rpow (by norm_num) (by positivity)
  · conv_rhs => rw [← Real.rpow_one 2]
    apply Real.rpow_lt_rpow_of_exponent_lt (by norm_num)
    rw [div_lt_one (by positivity)]
    exact_mod_cast h1
  · unfold yoshidaZ; simp only [hexp]

theorem yoshida_sums (order : Int) (k m : Nat) (hk : (order : ℝ) - 1 = k) (h1 : 1 < k) (hm : Odd m) :
    ∃ x : ℝ, x ^ k = 2 ∧ 1 < x ∧ x < 2 ∧
    ((([(yoshidaZ order).2, (yoshidaZ order).1, (yoshidaZ order).2] : List ℝ)).map (· ^ m)).sum =
      (2 - x ^ m) / (2 - x) ^ m := by
  obtain ⟨x, hx, h1x, h2x, hZ⟩ := yoshida_root order k hk h1
  refine ⟨x, hx, h1x, h2x, ?_⟩
  rw [hZ]
  simp only [List.map_cons, List.map_nil, List.sum_cons, List.sum_nil, div_pow, one_pow, Odd.neg_pow hm]
  ring

/-- **C33** (order 4).  The order-4 step is the order-2 step applied with the step sizes `w·δ` for weights `w` with
`Σ w = 1` and `Σ w³ = 0`. -/
theorem C33_order4 (c : IntegCfg) (ho : c.order = 4) :
    ∃ ws : List ℝ, (∀ s δ, orderStep c s δ = runOrd2 c (ws.map (δ * ·)) s) ∧ ws.sum = 1 ∧ (ws.map (· ^ 3)).sum = 0 := by
  refine ⟨usedWeights c.order, orderStep_weights c (by unfold Supported; omega), ?_⟩
  have hu : usedWeights c.order = [(yoshidaZ 4).2, (yoshidaZ 4).1, (yoshidaZ 4).2] := by
    simp [usedWeights, ho]
  rw [hu]
  constructor
  · obtain ⟨x, hx, h1, h2, h3⟩ := yoshida_sums 4 3 1 (by norm_num) (by norm_num) (by decide)
    simp only [pow_one, List.map_id'] at h3
    rw [h3, div_self (by linarith)]
  · obtain ⟨x, hx, h1, h2, h3⟩ := yoshida_sums 4 3 3 (by norm_num) (by norm_num) (by decide)
    rw [h3, hx, sub_self, zero_div]

theorem usedWeights_sum (c : IntegCfg) (ho : Supported c.order) : (usedWeights c.order).sum = 1 := by
  have hs : c.order ≠ 2 → (([(yoshidaZ c.order).2, (yoshidaZ c.order).1, (yoshidaZ c.order).2] : List ℝ)).sum = 1 := by
    intro h2
    obtain ⟨k, hk, h1⟩ : ∃ k : Nat, ((c.order : ℤ) : ℝ) - 1 = k ∧ 1 < k := by
      rcases ho with h | h | h | h
      · exact absurd h h2
      · exact ⟨3, by rw [h]; norm_num, by norm_num⟩
      · exact ⟨5, by rw [h]; norm_num, by norm_num⟩
      · exact ⟨7, by rw [h]; norm_num, by norm_num⟩
    obtain ⟨x, hx, h1x, h2x, h3⟩ := yoshida_sums c.order k 1 hk h1 (by decide)
    simp only [pow_one, List.map_id'] at h3
    rw [h3, div_self (by linarith)]
  have hp : ∀ ws vs : List ℝ, (weightProd ws vs).sum = ws.sum * vs.sum := by
    intro ws vs
    have := weightProd_pow_sum ws vs 1
    simpa only [pow_one, List.map_id'] using this
  unfold usedWeights
  simp only
  split_ifs with h2 h4 h6
  · simp
  · exact hs h2
  · rw [hp, hs h2]; norm_num
  · rw [hp, hp, hs h2]; norm_num

/-- **C33** (consistency, all orders).  The step of every supported order is the order-2 step applied with step sizes
`w·δ` for weights that sum to one. -/
theorem C33_weights_sum_to_one (c : IntegCfg) (ho : c.order = 2 ∨ c.order = 4 ∨ c.order = 6 ∨ c.order = 8) :
    ∃ ws : List ℝ, (∀ s δ, orderStep c s δ = runOrd2 c (ws.map (δ * ·)) s) ∧ ws.sum = 1 :=
  ⟨usedWeights c.order, orderStep_weights c ho, usedWeights_sum c ho⟩

/-- **C33** (outermost level).  For order `2k+2` the outermost triple jump satisfies the order condition
`2·Z1^(2k+1) + Z0^(2k+1) = 0`. -/
theorem C33_outermost (order : Int) (ho : order = 4 ∨ order = 6 ∨ order = 8) :
    2 * (yoshidaZ order).2 + (yoshidaZ order).1 = 1 ∧
    2 * (yoshidaZ order).2 ^ (order - 1).toNat + (yoshidaZ order).1 ^ (order - 1).toNat = 0 := by
  have main : ∀ k : Nat, (order : ℝ) - 1 = k → 1 < k → Odd k → (order - 1).toNat = k →
      2 * (yoshidaZ order).2 + (yoshidaZ order).1 = 1 ∧
      2 * (yoshidaZ order).2 ^ (order - 1).toNat + (yoshidaZ order).1 ^ (order - 1).toNat = 0 := by
    intro k hk h1 hodd hto
    rw [hto]
    constructor
    · obtain ⟨x, hx, h1x, h2x, h3⟩ := yoshida_sums order k 1 hk h1 (by decide)
      simp only [pow_one, List.map_id', List.sum_cons, List.sum_nil] at h3
      rw [div_self (by linarith)] at h3
      linarith
    · obtain ⟨x, hx, h1x, h2x, h3⟩ := yoshida_sums order k k hk h1 hodd
      simp only [List.map_cons, List.map_nil, List.sum_cons, List.sum_nil] at h3
      rw [hx, sub_self, zero_div] at h3
      linarith
  rcases ho with h | h | h
  · exact main 3 (by rw [h]; norm_num) (by norm_num) (by decide) (by rw [h]; rfl)
  · exact main 5 (by rw [h]; norm_num) (by norm_num) (by decide) (by rw [h]; rfl)
  · exact main 7 (by rw [h]; norm_num) (by norm_num) (by decide) (by rw [h]; rfl)

theorem usedWeights_cubes (c : IntegCfg) (ho : c.order = 6 ∨ c.order = 8) :
    ((usedWeights c.order).map (· ^ 3)).sum ≠ 0 := by
  have key : ∀ k : Nat, (c.order : ℝ) - 1 = k → 3 < k →
      (([(yoshidaZ c.order).2, (yoshidaZ c.order).1, (yoshidaZ c.order).2] : List ℝ).map (· ^ 3)).sum ≠ 0 := by
    intro k hk h1
    obtain ⟨x, hx, h1x, h2x, h3⟩ := yoshida_sums c.order k 3 hk (by omega) (by decide)
    rw [h3]
    refine div_ne_zero ?_ (pow_ne_zero _ (by linarith))
    have : x ^ 3 < x ^ k := pow_lt_pow_right₀ h1x h1
    intro h0
    linarith
  rcases ho with h | h
  · have hk := key 5 (by rw [h]; norm_num) (by norm_num)
    have hu : usedWeights c.order = weightProd [(yoshidaZ c.order).2, (yoshidaZ c.order).1, (yoshidaZ c.order).2]
        [(yoshidaZ c.order).2, (yoshidaZ c.order).1, (yoshidaZ c.order).2] := by
      unfold usedWeights; rw [if_neg (by omega), if_neg (by omega), if_pos h]
    rw [hu, weightProd_pow_sum]
    exact mul_ne_zero hk hk
  · have hk := key 7 (by rw [h]; norm_num) (by norm_num)
    have hu : usedWeights c.order = weightProd [(yoshidaZ c.order).2, (yoshidaZ c.order).1, (yoshidaZ c.order).2]
        (weightProd [(yoshidaZ c.order).2, (yoshidaZ c.order).1, (yoshidaZ c.order).2]
        [(yoshidaZ c.order).2, (yoshidaZ c.order).1, (yoshidaZ c.order).2]) := by
      unfold usedWeights; rw [if_neg (by omega), if_neg (by omega), if_neg (by omega)]
    rw [hu, weightProd_pow_sum, weightProd_pow_sum]
    exact mul_ne_zero hk (mul_ne_zero hk hk)

/-- **C33** (refuted for orders 6 and 8).  The step of order 6 (or 8) is the order-2 step applied with step sizes `w·δ`
where `Σ w³ ≠ 0`: the inner triple jumps use the constants of the outer order, so the third-order error of the basic
step does not cancel. -/
theorem C33_order6_8_refuted (c : IntegCfg) (ho : c.order = 6 ∨ c.order = 8) :
    ∃ ws : List ℝ, (∀ s δ, orderStep c s δ = runOrd2 c (ws.map (δ * ·)) s) ∧ (ws.map (· ^ 3)).sum ≠ 0 :=
  ⟨usedWeights c.order, orderStep_weights c (by unfold Supported; omega), usedWeights_cubes c ho⟩

end Einpy
