import Mathlib.Analysis.Calculus.ContDiff.Operations
import Mathlib.Analysis.Calculus.FDeriv.Symmetric
import Mathlib.Analysis.SpecialFunctions.Trigonometric.Deriv
import Mathlib.Analysis.SpecialFunctions.Pow.Deriv
import Mathlib.Topology.Algebra.Module.FiniteDimension
import Verif.Integ.Lemmas
import Verif.Integ.Props

/-!
# Symplecticity of the integration steps: C31
-/

namespace Einpy
open Classical Topology

/-! ## smooth points of an expression -/

/-- Every sub-evaluation at `x` is smooth: as `Expr.Regular`, but a power of zero only with a positive integer
exponent. -/
def Expr.Smooth {ι : Type*} (x : ι → ℝ) : Expr ι → Prop
  | .var _ | .const _ => True
  | .add a b | .sub a b | .mul a b => a.Smooth x ∧ b.Smooth x
  | .div a b => a.Smooth x ∧ b.Smooth x ∧ b.den x ≠ 0
  | .neg a | .sin a | .cos a | .exp a => a.Smooth x
  | .pow a p => a.Smooth x ∧
      (0 < a.den x ∨ (a.den x < 0 ∧ ∃ k : ℤ, p = k) ∨ (∃ n : ℕ, 1 ≤ n ∧ p = n))
  | .tan a => a.Smooth x ∧ Real.cos (a.den x) ≠ 0
  | .log a => a.Smooth x ∧ 0 < a.den x

theorem Expr.Smooth.regular {ι : Type*} {x : ι → ℝ} {e : Expr ι} (h : e.Smooth x) : e.Regular x := by
  induction e with
  | var i => trivial
  | const c => trivial
  | add a b iha ihb => exact ⟨iha h.1, ihb h.2⟩
  | sub a b iha ihb => exact ⟨iha h.1, ihb h.2⟩
  | mul a b iha ihb => exact ⟨iha h.1, ihb h.2⟩
  | div a b iha ihb => exact ⟨iha h.1, ihb h.2.1, h.2.2⟩
  | neg a iha => exact iha h
  | pow a p iha =>
    refine ⟨iha h.1, ?_⟩
    rcases h.2 with h1 | h1 | ⟨n, hn, hp⟩
    · exact Or.inl h1
    · exact Or.inr (Or.inl h1)
    · rcases lt_trichotomy (a.den x) 0 with h0 | h0 | h0
      · exact Or.inr (Or.inl ⟨h0, n, by rw [hp]; simp⟩)
      · exact Or.inr (Or.inr ⟨h0, by rw [hp]; exact_mod_cast hn⟩)
      · exact Or.inl h0
  | sin a iha => exact iha h
  | cos a iha => exact iha h
  | tan a iha => exact ⟨iha h.1, h.2⟩
  | log a iha => exact ⟨iha h.1, h.2⟩
  | exp a iha => exact iha h

theorem Expr.Smooth.contDiffAt_n (n : WithTop ℕ∞) {x : V4} {e : Expr (Fin 4)} (h : e.Smooth x) :
    ContDiffAt ℝ n (fun y : V4 => e.den y) x := by
  induction e with
  | var i => exact (contDiff_apply ℝ ℝ i).contDiffAt
  | const c => exact contDiffAt_const
  | add a b iha ihb => exact (iha h.1).add (ihb h.2)
  | sub a b iha ihb => exact (iha h.1).sub (ihb h.2)
  | mul a b iha ihb => exact (iha h.1).mul (ihb h.2)
  | div a b iha ihb => exact (iha h.1).div (ihb h.2.1) h.2.2
  | neg a iha => exact (iha h).neg
  | pow a p iha =>
    rcases h.2 with h1 | h1 | ⟨n, hn, hp⟩
    · exact (iha h.1).rpow_const_of_ne (ne_of_gt h1)
    · exact (iha h.1).rpow_const_of_ne (ne_of_lt h1.1)
    · subst hp
      have e1 : (fun y : V4 => (Expr.pow a (n : ℝ)).den y) = fun y => a.den y ^ n := by
        funext y; simp [Expr.den]
      rw [e1]; exact (iha h.1).pow n
  | sin a iha => exact (iha h).sin
  | cos a iha => exact (iha h).cos
  | tan a iha =>
    have e1 : (fun y : V4 => (Expr.tan a).den y) = fun y => Real.sin (a.den y) / Real.cos (a.den y) := by
      funext y; simp [Expr.den, Real.tan_eq_sin_div_cos]
    rw [e1]; exact (iha h.1).sin.div (iha h.1).cos h.2
  | log a iha => exact (iha h.1).log (ne_of_gt h.2)
  | exp a iha => exact (iha h).exp

theorem Expr.Smooth.contDiffAt {x : V4} {e : Expr (Fin 4)} (h : e.Smooth x) :
    ContDiffAt ℝ 2 (fun y : V4 => e.den y) x := h.contDiffAt_n 2

theorem Expr.Smooth.eventually {x : V4} {e : Expr (Fin 4)} (h : e.Smooth x) : ∀ᶠ y in 𝓝 x, e.Smooth y := by
  induction e with
  | var i => exact Filter.Eventually.of_forall fun _ => trivial
  | const c => exact Filter.Eventually.of_forall fun _ => trivial
  | add a b iha ihb => exact (iha h.1).and (ihb h.2)
  | sub a b iha ihb => exact (iha h.1).and (ihb h.2)
  | mul a b iha ihb => exact (iha h.1).and (ihb h.2)
  | div a b iha ihb =>
    exact (iha h.1).and ((ihb h.2.1).and (h.2.1.contDiffAt.continuousAt.eventually_ne h.2.2))
  | neg a iha => exact iha h
  | pow a p iha =>
    refine (iha h.1).and ?_
    have hc := h.1.contDiffAt.continuousAt
    rcases h.2 with h1 | h1 | h1
    · filter_upwards [hc.eventually_const_lt h1] with y hy using Or.inl hy
    · filter_upwards [hc.eventually_lt_const h1.1] with y hy using Or.inr (Or.inl ⟨hy, h1.2⟩)
    · exact Filter.Eventually.of_forall fun _ => Or.inr (Or.inr h1)
  | sin a iha => exact iha h
  | cos a iha => exact iha h
  | tan a iha =>
    exact (iha h.1).and ((h.1.contDiffAt.cos.continuousAt).eventually_ne h.2)
  | log a iha =>
    exact (iha h.1).and (h.1.contDiffAt.continuousAt.eventually_const_lt h.2)
  | exp a iha => exact iha h

theorem evalNum_regular {ι : Type*} {x : ι → ℝ} {e : Expr ι} (h : e.Regular x) : e.evalNum x = .ok (e.den x) := by
  induction e with
  | var i => rfl
  | const c => rfl
  | add a b iha ihb => simp only [Expr.evalNum, iha h.1, ihb h.2]; rfl
  | sub a b iha ihb => simp only [Expr.evalNum, iha h.1, ihb h.2]; rfl
  | mul a b iha ihb => simp only [Expr.evalNum, iha h.1, ihb h.2]; rfl
  | div a b iha ihb =>
    simp only [Expr.evalNum, iha h.1, ihb h.2.1, bind, Except.bind, if_neg h.2.2]; rfl
  | neg a iha => simp only [Expr.evalNum, iha h]; rfl
  | pow a p iha =>
    have h1 : ¬ (a.den x = 0 ∧ p < 0) := by
      rintro ⟨h0, hp⟩
      rcases h.2 with h2 | ⟨h2, -⟩ | ⟨-, h2⟩ <;> linarith
    have h2 : ¬ (a.den x < 0 ∧ ¬ ∃ k : ℤ, p = k) := by
      rintro ⟨h0, hp⟩
      rcases h.2 with h2 | ⟨-, h2⟩ | ⟨h2, -⟩
      · linarith
      · exact hp h2
      · linarith
    simp only [Expr.evalNum, iha h.1, bind, Except.bind, if_neg h1, if_neg h2]; rfl
  | sin a iha => simp only [Expr.evalNum, iha h]; rfl
  | cos a iha => simp only [Expr.evalNum, iha h]; rfl
  | tan a iha => simp only [Expr.evalNum, iha h.1, bind, Except.bind, if_neg h.2]; rfl
  | log a iha => simp only [Expr.evalNum, iha h.1, bind, Except.bind, if_neg (not_le.mpr h.2)]; rfl
  | exp a iha => simp only [Expr.evalNum, iha h]; rfl

theorem evalMetric_regular {g : MetricFn} {q : V4} (h : ∀ i j, (g i j).Regular q) :
    evalMetric g q = .ok fun i j => (g i j).den q := by
  unfold evalMetric
  exact seq4_ok.mpr fun i => seq4_ok.mpr fun j => evalNum_regular (h i j)

/-! ## the Hamiltonian -/

/-- `H(q,p) = ½ Σ g^{ab}(q) p_a p_b`. -/
noncomputable def ham (g : MetricFn) (x : V4 × V4) : ℝ := 1 / 2 * ∑ a, ∑ b, (g a b).den x.1 * x.2 a * x.2 b

theorem ham_contDiffAt_n (n : WithTop ℕ∞) (g : MetricFn) (x : V4 × V4) (h : ∀ i j, (g i j).Smooth x.1) :
    ContDiffAt ℝ n (ham g) x := by
  unfold ham
  refine contDiffAt_const.mul (ContDiffAt.sum fun a _ => ContDiffAt.sum fun b _ => ?_)
  have h1 : ContDiffAt ℝ n (fun y : V4 × V4 => (g a b).den y.1) x :=
    ContDiffAt.comp x ((h a b).contDiffAt_n n) contDiffAt_fst
  have h2 : ∀ c : Fin 4, ContDiffAt ℝ n (fun y : V4 × V4 => y.2 c) x := fun c =>
    ((contDiff_apply ℝ ℝ c).comp contDiff_snd).contDiffAt
  exact (h1.mul (h2 a)).mul (h2 b)

theorem ham_contDiffAt (g : MetricFn) (x : V4 × V4) (h : ∀ i j, (g i j).Smooth x.1) : ContDiffAt ℝ 2 (ham g) x :=
  ham_contDiffAt_n 2 g x h

/-- coordinate `i` replaced by `t` -/
def repl (q : V4) (i : Fin 4) (t : ℝ) : V4 := fun k => if k = i then t else q k

theorem repl_self (q : V4) (i : Fin 4) : repl q i (q i) = q := by
  funext k; unfold repl; split_ifs with h
  · rw [h]
  · rfl

theorem hasDerivAt_repl (q : V4) (i : Fin 4) : HasDerivAt (repl q i) (Pi.single i 1) (q i) := by
  rw [hasDerivAt_pi]
  intro k
  unfold repl
  by_cases h : k = i
  · subst h; simp only [if_true, Pi.single_eq_same]; exact hasDerivAt_id _
  · simp only [h, if_false, Pi.single_eq_of_ne h]; exact hasDerivAt_const _ _

/-- `∂H/∂q_i` and `∂H/∂p_i`. -/
noncomputable def gradQ (g : MetricFn) (x : V4 × V4) : V4 := fun i => fderiv ℝ (ham g) x (Pi.single i 1, 0)
/-- see `gradQ` -/
noncomputable def gradP (g : MetricFn) (x : V4 × V4) : V4 := fun i => fderiv ℝ (ham g) x (0, Pi.single i 1)

theorem gradQ_eq (g : MetricFn) (q p : V4) (h : ∀ i j, (g i j).Smooth q) (i : Fin 4) (J : Fin 4 → Fin 4 → ℝ)
    (hJ : ∀ a b, HasDerivAt (slice g q i a b) (J a b) (q i)) :
    gradQ g (q, p) i = 1 / 2 * dot4 (matVec J p) p := by
  have hd : HasFDerivAt (ham g) (fderiv ℝ (ham g) (q, p)) (q, p) :=
    ((ham_contDiffAt g (q, p) h).differentiableAt (by norm_num)).hasFDerivAt
  have hc : HasDerivAt (fun t => (repl q i t, p)) ((Pi.single i 1 : V4), (0 : V4)) (q i) :=
    (hasDerivAt_repl q i).prodMk (hasDerivAt_const _ _)
  have h1 : HasDerivAt (fun t => ham g (repl q i t, p)) (gradQ g (q, p) i) (q i) := by
    have hd' : HasFDerivAt (ham g) (fderiv ℝ (ham g) (q, p)) (repl q i (q i), p) := by rw [repl_self]; exact hd
    exact hd'.comp_hasDerivAt (q i) hc
  have h2 : HasDerivAt (fun t => ham g (repl q i t, p)) (1 / 2 * ∑ a, ∑ b, J a b * p a * p b) (q i) := by
    unfold ham
    refine HasDerivAt.const_mul _ (HasDerivAt.fun_sum fun a _ => HasDerivAt.fun_sum fun b _ => ?_)
    exact ((hJ a b).mul_const (p a)).mul_const (p b)
  rw [h1.unique h2, dot4]
  simp only [matVec, Finset.sum_mul]
  congr 1
  refine Finset.sum_congr rfl fun a _ => Finset.sum_congr rfl fun b _ => by ring

theorem gradP_eq (g : MetricFn) (q p : V4) (h : ∀ i j, (g i j).Smooth q)
    (hs : ∀ i j (y : V4), (g i j).den y = (g j i).den y) (i : Fin 4) :
    gradP g (q, p) i = matVec (fun a b => (g a b).den q) p i := by
  have hd : HasFDerivAt (ham g) (fderiv ℝ (ham g) (q, p)) (q, p) :=
    ((ham_contDiffAt g (q, p) h).differentiableAt (by norm_num)).hasFDerivAt
  have hc : HasDerivAt (fun t => (q, repl p i t)) ((0 : V4), (Pi.single i 1 : V4)) (p i) :=
    (hasDerivAt_const _ _).prodMk (hasDerivAt_repl p i)
  have h1 : HasDerivAt (fun t => ham g (q, repl p i t)) (gradP g (q, p) i) (p i) := by
    have hd' : HasFDerivAt (ham g) (fderiv ℝ (ham g) (q, p)) (q, repl p i (p i)) := by rw [repl_self]; exact hd
    exact hd'.comp_hasDerivAt (p i) hc
  have hr : ∀ a, HasDerivAt (fun t => repl p i t a) ((Pi.single i 1 : V4) a) (p i) := fun a =>
    (hasDerivAt_pi.mp (hasDerivAt_repl p i)) a
  have h2 : HasDerivAt (fun t => ham g (q, repl p i t)) (1 / 2 * ∑ a, ∑ b,
      ((g a b).den q * (Pi.single i 1 : V4) a * repl p i (p i) b +
        (g a b).den q * repl p i (p i) a * (Pi.single i 1 : V4) b)) (p i) := by
    unfold ham
    refine HasDerivAt.const_mul _ (HasDerivAt.fun_sum fun a _ => HasDerivAt.fun_sum fun b _ => ?_)
    exact ((hr a).const_mul ((g a b).den q)).mul (hr b)
  rw [h1.unique h2, repl_self]
  simp only [matVec]
  have hsym : ∀ a b, (g a b).den q = (g b a).den q := fun a b => hs a b q
  have e1 : ∑ a, ∑ b, (g a b).den q * (Pi.single i 1 : V4) a * p b = ∑ b, (g i b).den q * p b := by
    rw [Finset.sum_eq_single i]
    · simp
    · intro a _ ha; simp [Pi.single_eq_of_ne ha]
    · simp
  have e2 : ∑ a, ∑ b, (g a b).den q * p a * (Pi.single i 1 : V4) b = ∑ b, (g i b).den q * p b := by
    refine Finset.sum_congr rfl fun a _ => ?_
    rw [Finset.sum_eq_single i]
    · simp [hsym a i]
    · intro b _ hb; simp [Pi.single_eq_of_ne hb]
    · simp
  simp only [Finset.sum_add_distrib, e1, e2]
  ring

/-! ## flow A as a differentiable map -/

/-- `_flow_A` on states, with exact derivatives. -/
noncomputable def phiA (g : MetricFn) (δ : ℝ) (s : PS) : PS :=
  (s.1, s.2.1 - δ • gradQ g (s.1, s.2.2.2), s.2.2.1 + δ • gradP g (s.1, s.2.2.2), s.2.2.2)

theorem runSub_A_smooth (g : MetricFn) (hs : ∀ i j (y : V4), (g i j).den y = (g j i).den y) (ω δ : ℝ) (s : PS)
    (h : ∀ i j, (g i j).Smooth s.q1) : runSub g ω (.A δ) s = .ok (phiA g δ s) := by
  have hreg : ∀ i j, (g i j).Regular s.q1 := fun i j => (h i j).regular
  have hdp : (seq4 fun i => do return 0.5 * (← partHamFlow g s.q1 s.p2 i)) = .ok (gradQ g (s.q1, s.p2)) := by
    refine seq4_ok.mpr fun i => ?_
    obtain ⟨J, hJ, -, -, hd⟩ := C28_jacobian g s.q1 hreg i
    simp only [partHamFlow, hJ, bind, Except.bind, pure, Except.pure]
    rw [gradQ_eq g s.q1 s.p2 h i J (hd hs)]
    norm_num
  have hf := flowA_of g s.q1 s.p1 s.q2 s.p2 δ (evalMetric_regular hreg) hdp
  simp only [runSub, hf, bind, Except.bind, pure, Except.pure]
  refine congrArg Except.ok (Prod.ext rfl (Prod.ext rfl (Prod.ext ?_ rfl)))
  funext i
  show s.q2 i + δ * matVec (fun i j => (g i j).den s.q1) s.p2 i = s.2.2.1 i + δ * gradP g (s.1, s.2.2.2) i
  rw [gradP_eq g s.1 s.2.2.2 h hs i]
  rfl

/-! ## the symplectic form -/

/-- The canonical symplectic form on the doubled phase space with conjugate pairs `(q1, p1)` and `(q2, p2)`. -/
def sympl (u v : PS) : ℝ :=
  ∑ i, (u.q1 i * v.p1 i - u.p1 i * v.q1 i) + ∑ i, (u.q2 i * v.p2 i - u.p2 i * v.q2 i)

/-- A linear map preserves the symplectic form. -/
def Symplectic (L : PS →L[ℝ] PS) : Prop := ∀ u v, sympl (L u) (L v) = sympl u v

theorem sum_single_fst (L : V4 × V4 →L[ℝ] ℝ) (x : V4) : ∑ i, x i * L (Pi.single i 1, 0) = L (x, 0) := by
  have : ((x, 0) : V4 × V4) = ∑ i, x i • ((Pi.single i 1 : V4), (0 : V4)) := by
    refine Prod.ext ?_ ?_
    · rw [Prod.fst_sum]
      funext k
      simp [Finset.sum_apply, Pi.single_apply]
    · rw [Prod.snd_sum]; simp
  rw [this, map_sum]
  simp only [map_smul, smul_eq_mul]

theorem sum_single_snd (L : V4 × V4 →L[ℝ] ℝ) (x : V4) : ∑ i, x i * L (0, Pi.single i 1) = L (0, x) := by
  have : ((0, x) : V4 × V4) = ∑ i, x i • ((0 : V4), (Pi.single i 1 : V4)) := by
    refine Prod.ext ?_ ?_
    · rw [Prod.fst_sum]; simp
    · rw [Prod.snd_sum]
      funext k
      simp [Finset.sum_apply, Pi.single_apply]
  rw [this, map_sum]
  simp only [map_smul, smul_eq_mul]

theorem phiA_symplectic (g : MetricFn) (δ : ℝ) (s : PS) (h : ∀ i j, (g i j).Smooth s.q1) :
    ∃ L : PS →L[ℝ] PS, HasFDerivAt (phiA g δ) L s ∧ Symplectic L := by
  have hC : ContDiffAt ℝ 2 (ham g) (s.1, s.2.2.2) := ham_contDiffAt g (s.1, s.2.2.2) h
  have hK : DifferentiableAt ℝ (fderiv ℝ (ham g)) (s.1, s.2.2.2) :=
    (hC.fderiv_right (m := 1) (by norm_num)).differentiableAt (by norm_num)
  have hsymm : IsSymmSndFDerivAt ℝ (ham g) (s.1, s.2.2.2) := hC.isSymmSndFDerivAt (by simp)
  let π : PS →L[ℝ] V4 × V4 :=
    (ContinuousLinearMap.fst ℝ V4 (V4 × V4 × V4)).prod
      (((ContinuousLinearMap.snd ℝ V4 V4).comp (ContinuousLinearMap.snd ℝ V4 (V4 × V4))).comp
        (ContinuousLinearMap.snd ℝ V4 (V4 × V4 × V4)))
  let B := fderiv ℝ (fderiv ℝ (ham g)) (s.1, s.2.2.2)
  have hKπ : HasFDerivAt (fun t : PS => fderiv ℝ (ham g) (t.1, t.2.2.2)) (B.comp π) s := by
    have h1 : HasFDerivAt (fderiv ℝ (ham g)) B (π s) := hK.hasFDerivAt
    exact h1.comp s π.hasFDerivAt
  have hev : ∀ v : V4 × V4, HasFDerivAt (fun t : PS => fderiv ℝ (ham g) (t.1, t.2.2.2) v)
      ((ContinuousLinearMap.apply ℝ ℝ v).comp (B.comp π)) s := fun v =>
    (ContinuousLinearMap.apply ℝ ℝ v).hasFDerivAt.comp s hKπ
  let LQ : PS →L[ℝ] V4 := ContinuousLinearMap.pi fun i =>
    (ContinuousLinearMap.apply ℝ ℝ ((Pi.single i 1 : V4), (0 : V4))).comp (B.comp π)
  let LP : PS →L[ℝ] V4 := ContinuousLinearMap.pi fun i =>
    (ContinuousLinearMap.apply ℝ ℝ ((0 : V4), (Pi.single i 1 : V4))).comp (B.comp π)
  have hQ : HasFDerivAt (fun t : PS => gradQ g (t.1, t.2.2.2)) LQ s := hasFDerivAt_pi.mpr fun i => hev _
  have hP : HasFDerivAt (fun t : PS => gradP g (t.1, t.2.2.2)) LP s := hasFDerivAt_pi.mpr fun i => hev _
  let P1 : PS →L[ℝ] V4 := ContinuousLinearMap.fst ℝ V4 (V4 × V4 × V4)
  let P2 : PS →L[ℝ] V4 := (ContinuousLinearMap.fst ℝ V4 (V4 × V4)).comp (ContinuousLinearMap.snd ℝ V4 (V4 × V4 × V4))
  let P3 : PS →L[ℝ] V4 := ((ContinuousLinearMap.fst ℝ V4 V4).comp (ContinuousLinearMap.snd ℝ V4 (V4 × V4))).comp
    (ContinuousLinearMap.snd ℝ V4 (V4 × V4 × V4))
  let P4 : PS →L[ℝ] V4 := ((ContinuousLinearMap.snd ℝ V4 V4).comp (ContinuousLinearMap.snd ℝ V4 (V4 × V4))).comp
    (ContinuousLinearMap.snd ℝ V4 (V4 × V4 × V4))
  refine ⟨P1.prod ((P2 - δ • LQ).prod ((P3 + δ • LP).prod P4)), ?_, ?_⟩
  · exact P1.hasFDerivAt.prodMk ((P2.hasFDerivAt.sub (hQ.const_smul δ)).prodMk
      ((P3.hasFDerivAt.add (hP.const_smul δ)).prodMk P4.hasFDerivAt))
  · intro u v
    have hu1 : ∀ w : PS, P1 w = w.q1 := fun _ => rfl
    have key : ∀ w : PS, ∀ i, LQ w i = B (w.q1, w.p2) (Pi.single i 1, 0) := fun _ _ => rfl
    have key' : ∀ w : PS, ∀ i, LP w i = B (w.q1, w.p2) (0, Pi.single i 1) := fun _ _ => rfl
    have hBs : B (u.q1, u.p2) (v.q1, v.p2) = B (v.q1, v.p2) (u.q1, u.p2) := hsymm _ _
    have split : ∀ (L : V4 × V4 →L[ℝ] ℝ) (x y : V4), L (x, y) = L (x, 0) + L (0, y) := by
      intro L x y
      rw [← map_add]; simp
    have e1 := sum_single_fst (B (u.q1, u.p2)) v.q1
    have e2 := sum_single_snd (B (u.q1, u.p2)) v.p2
    have e3 := sum_single_fst (B (v.q1, v.p2)) u.q1
    have e4 := sum_single_snd (B (v.q1, v.p2)) u.p2
    have lhs : sympl ((P1.prod ((P2 - δ • LQ).prod ((P3 + δ • LP).prod P4))) u)
        ((P1.prod ((P2 - δ • LQ).prod ((P3 + δ • LP).prod P4))) v) =
        ∑ i, (u.q1 i * (v.p1 i - δ * LQ v i) - (u.p1 i - δ * LQ u i) * v.q1 i) +
        ∑ i, ((u.q2 i + δ * LP u i) * v.p2 i - u.p2 i * (v.q2 i + δ * LP v i)) := rfl
    rw [lhs]
    have rearr : ∑ i, (u.q1 i * (v.p1 i - δ * LQ v i) - (u.p1 i - δ * LQ u i) * v.q1 i) +
        ∑ i, ((u.q2 i + δ * LP u i) * v.p2 i - u.p2 i * (v.q2 i + δ * LP v i)) =
        sympl u v + δ * (∑ i, v.q1 i * LQ u i + ∑ i, v.p2 i * LP u i - (∑ i, u.q1 i * LQ v i + ∑ i, u.p2 i * LP v i)) := by
      simp only [sympl, Fin.sum_univ_four]; ring
    rw [rearr]
    simp only [key, key']
    rw [e1, e2, e3, e4, ← split, ← split, hBs, sub_self, mul_zero, add_zero]

/-! ## flow B and the coupling flow -/

/-- exchange of the two copies -/
def swapL : PS →ₗ[ℝ] PS where
  toFun s := (s.2.2.1, s.2.2.2, s.1, s.2.1)
  map_add' _ _ := rfl
  map_smul' _ _ := rfl

/-- exchange of the two copies as a continuous map -/
noncomputable def swapC : PS →L[ℝ] PS := LinearMap.toContinuousLinearMap swapL

theorem swapC_symplectic : Symplectic swapC := by
  intro u v
  show ∑ i, (u.q2 i * v.p2 i - u.p2 i * v.q2 i) + ∑ i, (u.q1 i * v.p1 i - u.p1 i * v.q1 i) = _
  rw [add_comm]; rfl

theorem runSub_B_swap (g : MetricFn) (ω δ : ℝ) (s s' : PS) (h : runSub g ω (.A δ) (swapC s) = .ok s') :
    runSub g ω (.B δ) s = .ok (swapC s') := by
  obtain ⟨q1, p1, q2, p2⟩ := s
  have h' : (do let r ← flowA g q2 p2 q1 p1 δ
                return ((q2, r.2, r.1, p1) : PS)) = .ok s' := h
  show (do let r ← flowB g q1 p1 q2 p2 δ
           return ((r.1, p1, q2, r.2) : PS)) = _
  rw [flowB_eq_flowA]
  cases hf : flowA g q2 p2 q1 p1 δ with
  | error e => rw [hf] at h'; cases h'
  | ok r =>
    rw [hf] at h'
    rw [← Except.ok.inj h']
    rfl

/-- `_flow_mixed` as a linear map -/
noncomputable def mixL (δ ω : ℝ) : PS →ₗ[ℝ] PS where
  toFun s := flowMixed s.q1 s.p1 s.q2 s.p2 δ ω
  map_add' s t := by
    refine Prod.ext ?_ (Prod.ext ?_ (Prod.ext ?_ ?_)) <;> funext i <;>
      simp [flowMixed, PS.q1, PS.p1, PS.q2, PS.p2] <;> ring
  map_smul' c s := by
    refine Prod.ext ?_ (Prod.ext ?_ (Prod.ext ?_ ?_)) <;> funext i <;>
      simp [flowMixed, PS.q1, PS.p1, PS.q2, PS.p2] <;> ring

/-- `_flow_mixed` as a continuous linear map -/
noncomputable def mixC (δ ω : ℝ) : PS →L[ℝ] PS := LinearMap.toContinuousLinearMap (mixL δ ω)

theorem mixC_symplectic (δ ω : ℝ) : Symplectic (mixC δ ω) := by
  intro u v
  have h := Real.sin_sq_add_cos_sq (2 * ω * δ)
  have hu : ∀ w : PS, mixC δ ω w = flowMixed w.q1 w.p1 w.q2 w.p2 δ ω := fun _ => rfl
  simp only [sympl, hu, flowMixed]
  simp only [PS.q1, PS.p1, PS.q2, PS.p2]
  rw [← Finset.sum_add_distrib, ← Finset.sum_add_distrib]
  refine Finset.sum_congr rfl fun i _ => ?_
  generalize Real.cos (2 * ω * δ) = c at *
  generalize Real.sin (2 * ω * δ) = t at *
  linear_combination (1 / 2 * ((u.1 i - u.2.2.1 i) * (v.2.1 i - v.2.2.2 i) -
    (u.2.1 i - u.2.2.2 i) * (v.1 i - v.2.2.1 i))) * h

/-! ## sequences of flows -/

/-- The position at which an elementary flow evaluates the metric is a smooth point of it. -/
def SmoothSub (g : MetricFn) : Sub → PS → Prop
  | .A _, s => ∀ i j, (g i j).Smooth s.q1
  | .B _, s => ∀ i j, (g i j).Smooth s.q2
  | .M _, _ => True

/-- Every position at which a sequence of flows started at `s` evaluates the metric is a smooth point of it. -/
def SmoothRun (g : MetricFn) (ω : ℝ) : List Sub → PS → Prop
  | [], _ => True
  | x :: l, s => SmoothSub g x s ∧ ∀ s', runSub g ω x s = .ok s' → SmoothRun g ω l s'

theorem runSub_symplectic (g : MetricFn) (hs : ∀ i j (y : V4), (g i j).den y = (g j i).den y) (ω : ℝ) (x : Sub) (s : PS)
    (h : SmoothSub g x s) :
    ∃ (Φ : PS → PS) (L : PS →L[ℝ] PS), (∀ᶠ t in 𝓝 s, runSub g ω x t = .ok (Φ t)) ∧ HasFDerivAt Φ L s ∧ Symplectic L := by
  have nearA : ∀ (δ : ℝ) (s : PS), (∀ i j, (g i j).Smooth s.q1) →
      ∀ᶠ t in 𝓝 s, runSub g ω (.A δ) t = .ok (phiA g δ t) := by
    intro δ s h
    have h1 : ∀ᶠ q in 𝓝 s.q1, ∀ i j, (g i j).Smooth q :=
      Filter.eventually_all.mpr fun i => Filter.eventually_all.mpr fun j => (h i j).eventually
    have h2 : Filter.Tendsto (fun t : PS => t.q1) (𝓝 s) (𝓝 s.q1) := continuous_fst.continuousAt
    filter_upwards [h2.eventually h1] with t ht
    exact runSub_A_smooth g hs ω δ t ht
  cases x with
  | A δ =>
    obtain ⟨L, hL, hsym⟩ := phiA_symplectic g δ s h
    exact ⟨phiA g δ, L, nearA δ s h, hL, hsym⟩
  | B δ =>
    have h' : ∀ i j, (g i j).Smooth (swapC s).q1 := h
    obtain ⟨L, hL, hsym⟩ := phiA_symplectic g δ (swapC s) h'
    refine ⟨fun t => swapC (phiA g δ (swapC t)), swapC.comp (L.comp swapC), ?_, ?_, ?_⟩
    · have h2 : Filter.Tendsto (fun t : PS => swapC t) (𝓝 s) (𝓝 (swapC s)) := swapC.continuous.continuousAt
      filter_upwards [h2.eventually (nearA δ (swapC s) h')] with t ht
      exact runSub_B_swap g ω δ t _ ht
    · exact swapC.hasFDerivAt.comp s (hL.comp s swapC.hasFDerivAt)
    · intro u v
      show sympl (swapC (L (swapC u))) (swapC (L (swapC v))) = _
      rw [swapC_symplectic, hsym, swapC_symplectic]
  | M δ =>
    exact ⟨fun t => mixC δ ω t, mixC δ ω, Filter.Eventually.of_forall fun t => rfl, (mixC δ ω).hasFDerivAt,
      mixC_symplectic δ ω⟩

theorem runSubs_symplectic (g : MetricFn) (hs : ∀ i j (y : V4), (g i j).den y = (g j i).den y) (ω : ℝ) (l : List Sub)
    (s : PS) (h : SmoothRun g ω l s) :
    ∃ (Φ : PS → PS) (L : PS →L[ℝ] PS), (∀ᶠ t in 𝓝 s, runSubs g ω l t = .ok (Φ t)) ∧ HasFDerivAt Φ L s ∧ Symplectic L := by
  induction l generalizing s with
  | nil => exact ⟨id, ContinuousLinearMap.id ℝ PS, Filter.Eventually.of_forall fun _ => rfl, hasFDerivAt_id s,
      fun _ _ => rfl⟩
  | cons x l ih =>
    obtain ⟨Φ, L, h1, h2, h3⟩ := runSub_symplectic g hs ω x s h.1
    obtain ⟨Ψ, M, k1, k2, k3⟩ := ih (Φ s) (h.2 _ h1.self_of_nhds)
    refine ⟨fun t => Ψ (Φ t), M.comp L, ?_, k2.comp s h2, ?_⟩
    · have hc : Filter.Tendsto Φ (𝓝 s) (𝓝 (Φ s)) := h2.continuousAt
      filter_upwards [h1, hc.eventually k1] with t ht1 ht2
      simp only [runSubs, ht1, bind, Except.bind]
      exact ht2
    · intro u v
      show sympl (M (L u)) (M (L v)) = _
      rw [k3, h3]

/-- **C31**.  Let the metric function be symmetric, the order supported, and let every position at which one step from `s`
evaluates the metric be a smooth point of it (`subsOf` lists the elementary flows of the step, `orderStep_eq`).  Then
near `s` the step is a map `Φ` that is differentiable at `s` and whose derivative preserves the canonical symplectic
form. -/
theorem C31_symplectic (c : IntegCfg) (ho : c.order = 2 ∨ c.order = 4 ∨ c.order = 6 ∨ c.order = 8)
    (hs : ∀ i j (y : V4), (c.metric i j).den y = (c.metric j i).den y) (s : PS) (δ : ℝ)
    (h : SmoothRun c.metric c.omega (subsOf c.order δ) s) :
    ∃ (Φ : PS → PS) (L : PS →L[ℝ] PS), (∀ᶠ t in 𝓝 s, orderStep c t δ = .ok (Φ t)) ∧ HasFDerivAt Φ L s ∧
      ∀ u v, sympl (L u) (L v) = sympl u v := by
  obtain ⟨Φ, L, h1, h2, h3⟩ := runSubs_symplectic c.metric hs c.omega (subsOf c.order δ) s h
  refine ⟨Φ, L, ?_, h2, h3⟩
  filter_upwards [h1] with t ht
  rw [orderStep_eq c ho]; exact ht

theorem smoothRun_of_total (g : MetricFn) (h : ∀ i j (x : V4), (g i j).Smooth x) (ω : ℝ) (l : List Sub) (s : PS) :
    SmoothRun g ω l s := by
  induction l generalizing s with
  | nil => trivial
  | cons x l ih =>
    refine ⟨?_, fun s' _ => ih s'⟩
    cases x with
    | A δ => exact fun i j => h i j _
    | B δ => exact fun i j => h i j _
    | M δ => trivial

/-- **C31** (metric functions that are smooth everywhere): every step from every state succeeds and is symplectic. -/
theorem C31_symplectic_total (c : IntegCfg) (ho : c.order = 2 ∨ c.order = 4 ∨ c.order = 6 ∨ c.order = 8)
    (hs : ∀ i j (y : V4), (c.metric i j).den y = (c.metric j i).den y)
    (h : ∀ i j (x : V4), (c.metric i j).Smooth x) (δ : ℝ) :
    ∃ Φ : PS → PS, (∀ s, orderStep c s δ = .ok (Φ s)) ∧
      ∀ s, ∃ L : PS →L[ℝ] PS, HasFDerivAt Φ L s ∧ ∀ u v, sympl (L u) (L v) = sympl u v := by
  have key := fun s => C31_symplectic c ho hs s δ (smoothRun_of_total c.metric h c.omega _ s)
  choose F L h1 h2 h3 using key
  refine ⟨fun s => F s s, fun s => (h1 s).self_of_nhds, fun s => ⟨L s, ?_, h3 s⟩⟩
  refine (h2 s).congr_of_eventuallyEq ?_
  filter_upwards [h1 s] with t ht
  have := (h1 t).self_of_nhds
  rw [ht] at this
  exact (Except.ok.inj this).symm

/-- A curved metric function that is smooth everywhere: `diag(-1, 1, exp(x), 1/(1+x²))`. -/
noncomputable def exSmoothFn : MetricFn := fun i j =>
  if i = j then
    (match i with
      | 0 => .const (-1)
      | 1 => .const 1
      | 2 => .exp (.var 1)
      | 3 => .div (.const 1) (.add (.const 1) (.mul (.var 1) (.var 1))))
  else .const 0

example : (∀ i j (x : V4), (exSmoothFn i j).Smooth x) ∧
    ∀ i j (y : V4), (exSmoothFn i j).den y = (exSmoothFn j i).den y := by
  constructor
  · intro i j x
    have : (1 : ℝ) + x 1 * x 1 ≠ 0 := by nlinarith [mul_self_nonneg (x 1)]
    fin_cases i <;> fin_cases j <;> simp [exSmoothFn, Expr.Smooth, Expr.den, this]
  · intro i j y
    fin_cases i <;> fin_cases j <;> simp [exSmoothFn, Expr.den]

end Einpy
