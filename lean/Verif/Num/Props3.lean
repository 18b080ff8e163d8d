import Verif.Num.Props2

/-!
# Properties C47 - C50, C70 - C72: electromagnetism, singularities, coordinate checks, `v0`, perturbations, units
-/

set_option linter.unusedSimpArgs false
set_option linter.unusedVariables false

namespace Einpy.Num
open Classical Topology

variable (k : PhysConst)

/-! ## C47 -/

noncomputable def rQF (Q : ℝ) : ℝ := Real.sqrt (Q ^ 2 * k.G * k.Cc / k.c ^ 4)

noncomputable def potF (al rQ r th : ℝ) : Vec4 :=
  ![r * rQ / sigF al r th, 0, 0, -r * al * rQ * Real.sin th ^ 2 / sigF al r th]

noncomputable def emF (al rQ r th : ℝ) : Mat4 :=
  let F01 := -(rQ * (sigF al r th - 2 * r * r)) / sigF al r th ^ 2
  let F02 := (r * rQ * (-(al ^ 2 * Real.sin (2 * th)))) / sigF al r th ^ 2
  let F13 := (1 / sigF al r th ^ 2) * (al * rQ * Real.sin th ^ 2) * (sigF al r th - 2 * r ^ 2)
  let F23 := (1 / sigF al r th ^ 2) * (al * rQ * r * Real.sin (2 * th)) * (sigF al r th + (al * Real.sin th) ^ 2)
  !![0, F01, F02, 0; -F01, 0, 0, F13; -F02, 0, 0, F23; 0, -F13, -F23, 0]

theorem kn_pot (s : String) (M a Q q : ℝ) (x : Vec4) :
    KerrNewman.emPotentialCov k (KerrNewman.new k s M a Q q) x =
      if 0 ≤ a ∧ a ≤ 1 then
        if sigF (alF k M a) (x 1) (x 2) = 0 then .error .notANumber
        else .ok (potF (alF k M a) (rQF k Q) (x 1) (x 2))
      else .error .valueError := by
  unfold KerrNewman.emPotentialCov
  rw [show (KerrNewman.new k s M a Q q).M = M from rfl, show (KerrNewman.new k s M a Q q).a = a from rfl,
    show (KerrNewman.new k s M a Q q).Q = Q from rfl]
  by_cases h : 0 ≤ a ∧ a ≤ 1
  · rw [if_pos h]
    simp only [alpha_ok k h, rho_ok k h, bind, Except.bind, pure, Except.pure, Real.sq_sqrt (sigF_nonneg _ _ _)]
    split_ifs <;> rfl
  · rw [if_neg h]
    simp only [alpha_bad k h, bind, Except.bind]

theorem kn_em (s : String) (M a Q q : ℝ) (x : Vec4) :
    KerrNewman.emTensorCov k (KerrNewman.new k s M a Q q) x =
      if 0 ≤ a ∧ a ≤ 1 then
        if sigF (alF k M a) (x 1) (x 2) = 0 then .error .notANumber
        else .ok (emF (alF k M a) (rQF k Q) (x 1) (x 2))
      else .error .valueError := by
  unfold KerrNewman.emTensorCov
  rw [show (KerrNewman.new k s M a Q q).M = M from rfl, show (KerrNewman.new k s M a Q q).a = a from rfl,
    show (KerrNewman.new k s M a Q q).Q = Q from rfl]
  by_cases h : 0 ≤ a ∧ a ≤ 1
  · rw [if_pos h]
    simp only [alpha_ok k h, rho_ok k h, bind, Except.bind, pure, Except.pure, Real.sq_sqrt (sigF_nonneg _ _ _)]
    split_ifs <;> rfl
  · rw [if_neg h]
    simp only [alpha_bad k h, bind, Except.bind]

theorem emF_antisymm (al rQ r th : ℝ) : ∀ i j, emF al rQ r th i j = -emF al rQ r th j i := by
  unfold emF
  generalize -(rQ * (sigF al r th - 2 * r * r)) / sigF al r th ^ 2 = F01
  generalize (r * rQ * (-(al ^ 2 * Real.sin (2 * th)))) / sigF al r th ^ 2 = F02
  generalize (1 / sigF al r th ^ 2) * (al * rQ * Real.sin th ^ 2) * (sigF al r th - 2 * r ^ 2) = F13
  generalize (1 / sigF al r th ^ 2) * (al * rQ * r * Real.sin (2 * th)) * (sigF al r th + (al * Real.sin th) ^ 2) = F23
  intro i j
  fin_cases i <;> fin_cases j <;> simp

/-- **C47 (part)**: the Maxwell tensor is antisymmetric, in every coordinate system and for every parameter. -/
theorem C47_antisymmetric {s : String} {M a Q q : ℝ} {x : Vec4} {F : Mat4}
    (h : KerrNewman.emTensorCov k (KerrNewman.new k s M a Q q) x = .ok F) (i j : Fin 4) : F i j = -F j i := by
  rw [kn_em] at h
  split_ifs at h
  rw [← Except.ok.inj h]
  exact emF_antisymm _ _ _ _ i j

/-- So is its contravariant form. -/
theorem C47_contravariant_antisymmetric {M a Q q : ℝ} {x : Vec4} {F : Mat4}
    (h : KerrNewman.emTensorContra k (KerrNewman.new k "BoyerLindquist" M a Q q) x = .ok F) (i j : Fin 4) :
    F i j = -F j i := by
  unfold KerrNewman.emTensorContra at h
  rw [kn_em, kn_metric_eq, kerr_contra] at h
  split_ifs at h with h1 h2 h3 h4 h5 <;> simp only [bind, Except.bind, pure, Except.pure] at h
  all_goals try cases h
  generalize hE : emF (alF k M a) (rQF k Q) (x 1) (x 2) = E
  have ha : E.transpose = -E := by
    rw [← hE]; ext i j; exact emF_antisymm _ _ _ _ j i
  generalize hI : kerrI k.c (schwarzschildRadius k M) (alF k M a) (x 1) (x 2) = I
  have hs : I.transpose = I := by
    rw [← hI]; ext i j; exact axi_symm _ _ _ _ _ j i
  have : (I * E * I).transpose = -(I * E * I) := by
    rw [Matrix.transpose_mul, Matrix.transpose_mul, ha, hs]
    simp [Matrix.mul_assoc]
  have := congrFun (congrFun this j) i
  simpa using this

/-- The derivatives of the potential. -/
noncomputable def dpotF (al rQ r th : ℝ) : Fin 4 → Fin 4 → ℝ :=
  ![fun _ => 0,
    ![rQ * (sigF al r th - r * (2 * r)) / sigF al r th ^ 2, 0, 0,
      -(al * rQ * Real.sin th ^ 2) * ((sigF al r th - r * (2 * r)) / sigF al r th ^ 2)],
    ![-(r * rQ) * (-(al ^ 2) * Real.sin (2 * th)) / sigF al r th ^ 2, 0, 0,
      -(r * al * rQ) * (Real.sin (2 * th) * sigF al r th - Real.sin th ^ 2 * (-(al ^ 2) * Real.sin (2 * th))) / sigF al r th ^ 2],
    fun _ => 0]

theorem pot_partials (al rQ : ℝ) {x : Vec4} (hs : sigF al (x 1) (x 2) ≠ 0) :
    ∀ a b, HasDerivAt (fun s => potF al rQ (Function.update x a s 1) (Function.update x a s 2) b)
      (dpotF al rQ (x 1) (x 2) a b) (x a) := by
  have z : ∀ t : ℝ, HasDerivAt (fun _ : ℝ => (0 : ℝ)) 0 t := fun t => hasDerivAt_const _ _
  refine fin4_cases ?_ ?_ ?_ ?_
  · intro b
    have : (fun s => potF al rQ (Function.update x 0 s 1) (Function.update x 0 s 2) b) = fun _ => potF al rQ (x 1) (x 2) b := by
      funext s; simp [Function.update]
    rw [this]; exact hasDerivAt_const _ _
  · have : ∀ b, (fun s => potF al rQ (Function.update x 1 s 1) (Function.update x 1 s 2) b) = fun s => potF al rQ s (x 2) b := by
      intro b; funext s; simp [Function.update]
    intro b
    rw [this]
    revert b
    have h0 : HasDerivAt (fun r : ℝ => r / sigF al r (x 2)) ((sigF al (x 1) (x 2) - x 1 * (2 * x 1)) / sigF al (x 1) (x 2) ^ 2) (x 1) := by
      refine ((hasDerivAt_id (x 1)).div (sigF_dr al (x 1) (x 2)) hs).congr_deriv ?_
      simp
    refine fin4_cases ?_ (z _) (z _) ?_
    · have h := h0.const_mul rQ
      have e : (fun r => rQ * (r / sigF al r (x 2))) = fun r => r * rQ / sigF al r (x 2) := by funext r; ring
      rw [e] at h
      exact h.congr_deriv (mul_div_assoc _ _ _).symm
    · have h := h0.const_mul (-(al * rQ * Real.sin (x 2) ^ 2))
      have e : (fun r => -(al * rQ * Real.sin (x 2) ^ 2) * (r / sigF al r (x 2)))
          = fun r => -r * al * rQ * Real.sin (x 2) ^ 2 / sigF al r (x 2) := by funext r; ring
      rw [e] at h
      exact h
  · have : ∀ b, (fun s => potF al rQ (Function.update x 2 s 1) (Function.update x 2 s 2) b) = fun s => potF al rQ (x 1) s b := by
      intro b; funext s; simp [Function.update]
    intro b
    rw [this]
    revert b
    refine fin4_cases ?_ (z _) (z _) ?_
    · refine ((hasDerivAt_const (x 2) (x 1 * rQ)).div (sigF_dth al (x 1) (x 2)) hs).congr_deriv ?_
      show _ = -(x 1 * rQ) * (-(al ^ 2) * Real.sin (2 * x 2)) / sigF al (x 1) (x 2) ^ 2
      ring
    · refine (((sin2_dth (x 2)).const_mul (-x 1 * al * rQ)).div (sigF_dth al (x 1) (x 2)) hs).congr_deriv ?_
      show _ = -(x 1 * al * rQ) * (Real.sin (2 * x 2) * sigF al (x 1) (x 2)
        - Real.sin (x 2) ^ 2 * (-(al ^ 2) * Real.sin (2 * x 2))) / sigF al (x 1) (x 2) ^ 2
      ring
  · intro b
    have : (fun s => potF al rQ (Function.update x 3 s 1) (Function.update x 3 s 2) b) = fun _ => potF al rQ (x 1) (x 2) b := by
      funext s; simp [Function.update]
    rw [this]; exact hasDerivAt_const _ _

theorem pot_near {s : String} {M a Q q : ℝ} {x : Vec4} (ha : 0 ≤ a ∧ a ≤ 1) (hs : sigF (alF k M a) (x 1) (x 2) ≠ 0) :
    ReturnsNear (KerrNewman.emPotentialCov k (KerrNewman.new k s M a Q q))
      (fun y => potF (alF k M a) (rQF k Q) (y 1) (y 2)) x := by
  filter_upwards [(cont_sigF _ x).eventually_ne hs] with y h1
  rw [kn_pot, if_pos ha, if_neg h1]

/-- **C47 (part)**: the electric components of the Maxwell tensor are those of `dA`; the two magnetic ones, `F_rφ` and
`F_θφ`, have the opposite sign. -/
theorem C47_curl_partial {s : String} {M a Q q : ℝ} {x : Vec4} {F : Mat4}
    (h : KerrNewman.emTensorCov k (KerrNewman.new k s M a Q q) x = .ok F) :
    ∃ (A : Vec4 → Vec4) (dA : Fin 4 → Fin 4 → ℝ),
      ReturnsNear (KerrNewman.emPotentialCov k (KerrNewman.new k s M a Q q)) A x ∧
      (∀ a b, HasDerivAt (fun s => A (Function.update x a s) b) (dA a b) (x a)) ∧
      (∀ b, F 0 b = dA 0 b - dA b 0) ∧ F 1 2 = dA 1 2 - dA 2 1 ∧
      F 1 3 = -(dA 1 3 - dA 3 1) ∧ F 2 3 = -(dA 2 3 - dA 3 2) := by
  rw [kn_em] at h
  split_ifs at h with ha hs
  rw [← Except.ok.inj h]
  refine ⟨_, _, pot_near k ha hs, pot_partials _ _ hs, fin4_cases ?_ ?_ ?_ ?_, ?_, ?_, ?_⟩
  all_goals
    generalize alF k M a = al at *
    generalize rQF k Q = rQ at *
    generalize x 1 = r at *
    generalize x 2 = th at *
  · exact Eq.trans (show _ = (0 : ℝ) from rfl) (Eq.trans (by ring) (show (0 : ℝ) - 0 = _ from rfl))
  · refine Eq.trans (show _ = -(rQ * (sigF al r th - 2 * r * r)) / sigF al r th ^ 2 from rfl)
      (Eq.trans ?_ (show (0 : ℝ) - rQ * (sigF al r th - r * (2 * r)) / sigF al r th ^ 2 = _ from rfl))
    ring
  · refine Eq.trans (show _ = (r * rQ * (-(al ^ 2 * Real.sin (2 * th)))) / sigF al r th ^ 2 from rfl)
      (Eq.trans ?_ (show (0 : ℝ) - -(r * rQ) * (-(al ^ 2) * Real.sin (2 * th)) / sigF al r th ^ 2 = _ from rfl))
    ring
  · exact Eq.trans (show _ = (0 : ℝ) from rfl) (Eq.trans (by ring) (show (0 : ℝ) - 0 = _ from rfl))
  · exact Eq.trans (show _ = (0 : ℝ) from rfl) (Eq.trans (by ring) (show (0 : ℝ) - 0 = _ from rfl))
  · refine Eq.trans (show _ = (1 / sigF al r th ^ 2) * (al * rQ * Real.sin th ^ 2) * (sigF al r th - 2 * r ^ 2) from rfl)
      (Eq.trans ?_ (show -(-(al * rQ * Real.sin th ^ 2) * ((sigF al r th - r * (2 * r)) / sigF al r th ^ 2) - 0) = _ from rfl))
    ring
  · refine Eq.trans (show _ = (1 / sigF al r th ^ 2) * (al * rQ * r * Real.sin (2 * th)) * (sigF al r th + (al * Real.sin th) ^ 2) from rfl)
      (Eq.trans ?_ (show -(-(r * al * rQ) * (Real.sin (2 * th) * sigF al r th
        - Real.sin th ^ 2 * (-(al ^ 2) * Real.sin (2 * th))) / sigF al r th ^ 2 - 0) = _ from rfl))
    ring

/-- **C47 is false of this commit**: the Maxwell tensor is `dA` only where its magnetic part vanishes. -/
theorem C47_refuted_iff {s : String} {M a Q q : ℝ} {x : Vec4} {F : Mat4} {A : Vec4 → Vec4}
    (h : KerrNewman.emTensorCov k (KerrNewman.new k s M a Q q) x = .ok F)
    (hA : ReturnsNear (KerrNewman.emPotentialCov k (KerrNewman.new k s M a Q q)) A x) :
    IsCurlOf A F x ↔ F 1 3 = 0 ∧ F 2 3 = 0 := by
  obtain ⟨A', dA, hA', hd, h0, h12, h13, h23⟩ := C47_curl_partial k h
  have hnear := returnsNear_unique hA hA'
  have anti := C47_antisymmetric k h
  have tr : ∀ a b, HasDerivAt (fun s => A (Function.update x a s) b) (dA a b) (x a) := by
    intro a b
    refine (hd a b).congr_of_eventuallyEq ?_
    have c : ContinuousAt (fun s => Function.update x a s) (x a) :=
      (continuous_const.update a continuous_id).continuousAt
    have := c.eventually (p := fun y => A y = A' y)
      (by show ∀ᶠ y in 𝓝 (Function.update x a (x a)), _; rw [Function.update_eq_self]; exact hnear)
    filter_upwards [this] with s hs
    rw [hs]
  constructor
  · rintro ⟨dA', hd', e⟩
    have e' : dA' = dA := by funext a b; exact (hd' a b).unique (tr a b)
    subst e'
    constructor
    · have := e 1 3; linarith
    · have := e 2 3; linarith
  · rintro ⟨z13, z23⟩
    refine ⟨dA, tr, ?_⟩
    have d : ∀ i, F i i = 0 := fun i => by have := anti i i; linarith
    refine fin4_cases h0 (fin4_cases ?_ ?_ ?_ ?_) (fin4_cases ?_ ?_ ?_ ?_) (fin4_cases ?_ ?_ ?_ ?_)
    · rw [anti 1 0, h0 1]; ring
    · rw [d 1]; ring
    · exact h12
    · linarith
    · rw [anti 2 0, h0 2]; ring
    · rw [anti 2 1, h12]; ring
    · rw [d 2]; ring
    · linarith
    · rw [anti 3 0, h0 3]; ring
    · rw [anti 3 1]; linarith
    · rw [anti 3 2]; linarith
    · rw [d 3]; ring

/-- A charged rotating body where the magnetic part does not vanish. -/
example : ∃ F, KerrNewman.emTensorCov unitConst (KerrNewman.new unitConst "BoyerLindquist" 1 (1 / 2) 1 0)
    ![0, 10, Real.pi / 2, 0] = .ok F ∧ F 1 3 ≠ 0 := by
  have hal : alF unitConst 1 (1 / 2) = 1 / 2 := by
    show (1 / 2 : ℝ) * (1 * 1 / 1 ^ 2) = 1 / 2
    norm_num
  have hS : sigF (1 / 2) 10 (Real.pi / 2) = 100 := by rw [sigF, Real.cos_pi_div_two]; norm_num
  have hQ : rQF unitConst 1 = 1 := by
    show Real.sqrt (1 ^ 2 * 1 * 1 / 1 ^ 4) = 1
    norm_num
  refine ⟨emF (1 / 2) 1 10 (Real.pi / 2), ?_, ?_⟩
  · rw [kn_em, if_pos (by norm_num), if_neg]
    · rw [hal, hQ]; rfl
    · rw [hal]
      show sigF (1 / 2) 10 (Real.pi / 2) ≠ 0
      rw [hS]; norm_num
  · show (1 / sigF (1 / 2) 10 (Real.pi / 2) ^ 2) * ((1 / 2) * 1 * Real.sin (Real.pi / 2) ^ 2)
      * (sigF (1 / 2) 10 (Real.pi / 2) - 2 * 10 ^ 2) ≠ 0
    rw [hS, Real.sin_pi_div_two]; norm_num

/-! ## C48 -/

theorem minus_root {b D r : ℝ} : (do return (b - (← npSqrt D)) / 2 : Py ℝ) = .ok r ↔ 0 ≤ D ∧ r = (b - Real.sqrt D) / 2 := by
  unfold npSqrt
  split_ifs with h
  · simp only [bind, Except.bind]
    exact ⟨fun h => (by cases h), fun h' => absurd h'.1 (not_le.mpr h)⟩
  · simp only [bind, Except.bind, pure, Except.pure]
    exact ⟨fun e => ⟨not_lt.mp h, (Except.ok.inj e).symm⟩, fun e => by rw [e.2]⟩

theorem plus_root {b D r : ℝ} : (do return (b + (← npSqrt D)) / 2 : Py ℝ) = .ok r ↔ 0 ≤ D ∧ r = (b + Real.sqrt D) / 2 := by
  unfold npSqrt
  split_ifs with h
  · simp only [bind, Except.bind]
    exact ⟨fun h => (by cases h), fun h' => absurd h'.1 (not_le.mpr h)⟩
  · simp only [bind, Except.bind, pure, Except.pure]
    exact ⟨fun e => ⟨not_lt.mp h, (Except.ok.inj e).symm⟩, fun e => by rw [e.2]⟩

theorem roots_iff {b q r : ℝ} :
    (0 ≤ b ^ 2 - 4 * q ∧ r = (b - Real.sqrt (b ^ 2 - 4 * q)) / 2) ∨ (0 ≤ b ^ 2 - 4 * q ∧ r = (b + Real.sqrt (b ^ 2 - 4 * q)) / 2)
      ↔ r ^ 2 - b * r + q = 0 := by
  constructor
  · rintro (⟨h, rfl⟩ | ⟨h, rfl⟩)
    · linear_combination (1 / 4) * Real.sq_sqrt h
    · linear_combination (1 / 4) * Real.sq_sqrt h
  · intro h
    have e : (2 * r - b) ^ 2 = b ^ 2 - 4 * q := by linear_combination 4 * h
    have h0 : 0 ≤ b ^ 2 - 4 * q := by rw [← e]; positivity
    have e2 : (2 * r - b) ^ 2 = Real.sqrt (b ^ 2 - 4 * q) ^ 2 := by rw [Real.sq_sqrt h0, e]
    rcases sq_eq_sq_iff_eq_or_eq_neg.mp e2 with h1 | h1
    · right; exact ⟨h0, by linarith⟩
    · left; exact ⟨h0, by linarith⟩

/-- The metric object is a Kerr or Kerr-Newman metric in Boyer-Lindquist coordinates. -/
def IsKerrLike (m : NumMetric) : Prop := (m.name = "Kerr Metric" ∨ m.name = "Kerr-Newman Metric") ∧ m.system = "BoyerLindquist"

theorem sing_kerr {m : NumMetric} {S : Singularities} (hm : IsKerrLike m) (h : singularities k m = .ok S) :
    (0 ≤ m.a ∧ m.a ≤ 1) ∧
    (∀ r, S.innerHorizon = .ok r ↔ 0 ≤ schwarzschildRadius k m.M ^ 2 - 4 * (alF k m.M m.a ^ 2 + m.Q ^ 2 * k.G * k.Cc / k.c ^ 4) ∧
      r = (schwarzschildRadius k m.M - Real.sqrt (schwarzschildRadius k m.M ^ 2 - 4 * (alF k m.M m.a ^ 2 + m.Q ^ 2 * k.G * k.Cc / k.c ^ 4))) / 2) ∧
    (∀ r, S.outerHorizon = .ok r ↔ 0 ≤ schwarzschildRadius k m.M ^ 2 - 4 * (alF k m.M m.a ^ 2 + m.Q ^ 2 * k.G * k.Cc / k.c ^ 4) ∧
      r = (schwarzschildRadius k m.M + Real.sqrt (schwarzschildRadius k m.M ^ 2 - 4 * (alF k m.M m.a ^ 2 + m.Q ^ 2 * k.G * k.Cc / k.c ^ 4))) / 2) ∧
    (∀ th r, S.innerErgosphere th = .ok r ↔ 0 ≤ schwarzschildRadius k m.M ^ 2 - 4 * ((alF k m.M m.a * Real.cos th) ^ 2 + m.Q ^ 2 * k.G * k.Cc / k.c ^ 4) ∧
      r = (schwarzschildRadius k m.M - Real.sqrt (schwarzschildRadius k m.M ^ 2 - 4 * ((alF k m.M m.a * Real.cos th) ^ 2 + m.Q ^ 2 * k.G * k.Cc / k.c ^ 4))) / 2) ∧
    (∀ th r, S.outerErgosphere th = .ok r ↔ 0 ≤ schwarzschildRadius k m.M ^ 2 - 4 * ((alF k m.M m.a * Real.cos th) ^ 2 + m.Q ^ 2 * k.G * k.Cc / k.c ^ 4) ∧
      r = (schwarzschildRadius k m.M + Real.sqrt (schwarzschildRadius k m.M ^ 2 - 4 * ((alF k m.M m.a * Real.cos th) ^ 2 + m.Q ^ 2 * k.G * k.Cc / k.c ^ 4))) / 2) := by
  unfold singularities at h
  by_cases ha : 0 ≤ m.a ∧ m.a ≤ 1
  · simp only [alpha_ok k ha, bind, Except.bind, pure, Except.pure] at h
    rw [if_pos hm.1, if_pos hm.2] at h
    have e0 : 2 * m.M * k.G / k.c ^ 2 = schwarzschildRadius k m.M := by unfold schwarzschildRadius; ring
    have e1 : schwarzschildRadius k m.M ^ 2 - 4 * (alF k m.M m.a ^ 2 + m.Q ^ 2 * k.G * k.Cc / k.c ^ 4)
        = schwarzschildRadius k m.M ^ 2 - 4 * alF k m.M m.a ^ 2 - 4 * (m.Q ^ 2 * k.G * k.Cc / k.c ^ 4) := by ring
    have e2 : ∀ th, schwarzschildRadius k m.M ^ 2 - 4 * ((alF k m.M m.a * Real.cos th) ^ 2 + m.Q ^ 2 * k.G * k.Cc / k.c ^ 4)
        = schwarzschildRadius k m.M ^ 2 - 4 * (alF k m.M m.a * Real.cos th) ^ 2 - 4 * (m.Q ^ 2 * k.G * k.Cc / k.c ^ 4) := by
      intro th; ring
    rw [e0] at h
    rw [← Except.ok.inj h, e1]
    simp only [e2]
    exact ⟨ha, fun r => minus_root, fun r => plus_root, fun th r => minus_root, fun th r => plus_root⟩
  · simp only [alpha_bad k ha, bind, Except.bind] at h
    cases h

/-- **C48**: the two horizons are exactly the real roots of `Δ`. -/
theorem C48_horizons {m : NumMetric} {S : Singularities} (hm : IsKerrLike m) (h : singularities k m = .ok S) (r : ℝ) :
    (S.innerHorizon = .ok r ∨ S.outerHorizon = .ok r) ↔ delta k r m.M m.a m.Q = .ok 0 := by
  obtain ⟨ha, h1, h2, _, _⟩ := sing_kerr k hm h
  rw [h1, h2, roots_iff, delta_ok k ha]
  unfold delF
  constructor
  · intro e; refine congrArg Except.ok ?_; linear_combination e
  · intro e; have := Except.ok.inj e; linear_combination this

/-- **C48**: the two ergospheres are exactly the zeros of `g_tt` of the Kerr-Newman line element. -/
theorem C48_ergospheres {m : NumMetric} {S : Singularities} (hm : IsKerrLike m) (h : singularities k m = .ok S)
    {al : ℝ} (hal : alpha k m.M m.a = .ok al) (x : Vec4) (hx : x 1 ^ 2 + al ^ 2 * Real.cos (x 2) ^ 2 ≠ 0) :
    (S.innerErgosphere (x 2) = .ok (x 1) ∨ S.outerErgosphere (x 2) = .ok (x 1)) ↔
      knLineElement k.c (2 * k.G * m.M / k.c ^ 2) al (m.Q ^ 2 * k.G * k.Cc / k.c ^ 4) x 0 0 = 0 := by
  obtain ⟨ha, _, _, h1, h2⟩ := sing_kerr k hm h
  have hal' : alF k m.M m.a = al := Except.ok.inj ((alpha_ok k ha).symm.trans hal)
  rw [h1, h2, roots_iff, hal']
  have e : knLineElement k.c (2 * k.G * m.M / k.c ^ 2) al (m.Q ^ 2 * k.G * k.Cc / k.c ^ 4) x 0 0
      = k.c ^ 2 * (x 1 ^ 2 - (2 * k.G * m.M / k.c ^ 2) * x 1 + al ^ 2 + m.Q ^ 2 * k.G * k.Cc / k.c ^ 4
        - al ^ 2 * Real.sin (x 2) ^ 2) / (x 1 ^ 2 + al ^ 2 * Real.cos (x 2) ^ 2) := rfl
  have hc : k.c ^ 2 ≠ 0 := pow_ne_zero 2 k.c_pos.ne'
  rw [e, div_eq_zero_iff, or_iff_left hx, mul_eq_zero, or_iff_right hc]
  unfold schwarzschildRadius
  have sc := Real.sin_sq_add_cos_sq (x 2)
  constructor
  · intro h; linear_combination h - al ^ 2 * sc
  · intro h; linear_combination h + al ^ 2 * sc

/-- For a neutral body these are the zeros of `g_tt` of the metric the class itself returns. -/
theorem C48_ergospheres_own_metric {M a : ℝ} {S : Singularities} {x : Vec4} {g : Mat4}
    (h : singularities k (Kerr.new k "BoyerLindquist" M a) = .ok S)
    (hg : Kerr.metricCovariant k (Kerr.new k "BoyerLindquist" M a) x = .ok g) :
    (S.innerErgosphere (x 2) = .ok (x 1) ∨ S.outerErgosphere (x 2) = .ok (x 1)) ↔ g 0 0 = 0 := by
  rw [kerr_metric] at hg
  split_ifs at hg with h1 h2
  push Not at h2
  have hS : x 1 ^ 2 + alF k M a ^ 2 * Real.cos (x 2) ^ 2 ≠ 0 := by
    intro e; apply h2.1; unfold sigF; linear_combination e
  rw [C48_ergospheres k ⟨Or.inl rfl, rfl⟩ h (alpha_ok k h1) x hS, ← Except.ok.inj hg]
  have e : (Kerr.new k "BoyerLindquist" M a).Q ^ 2 * k.G * k.Cc / k.c ^ 4 = 0 := by
    show (0 : ℝ) ^ 2 * k.G * k.Cc / k.c ^ 4 = 0
    ring
  rw [e]
  exact Iff.of_eq (congrArg (· = (0 : ℝ)) (congrFun (congrFun (knLine_zero k.c _ _ x h2.1) 0) 0))

/-- For a charged body the reported ergospheres are never zeros of `g_tt` of the metric the class returns (which ignores
the charge, see `C46_refuted_ignores_charge`). -/
theorem C48_refuted_charged {M a Q q : ℝ} {S : Singularities} {x : Vec4} {g : Mat4} (hQ : Q ≠ 0)
    (h : singularities k (KerrNewman.new k "BoyerLindquist" M a Q q) = .ok S)
    (hg : KerrNewman.metricCovariant k (KerrNewman.new k "BoyerLindquist" M a Q q) x = .ok g)
    (he : S.innerErgosphere (x 2) = .ok (x 1) ∨ S.outerErgosphere (x 2) = .ok (x 1)) : g 0 0 < 0 := by
  rw [kn_metric] at hg
  split_ifs at hg with h1 h2
  push Not at h2
  obtain ⟨ha, _, _, e1, e2⟩ := sing_kerr k (m := KerrNewman.new k "BoyerLindquist" M a Q q) ⟨Or.inr rfl, rfl⟩ h
  rw [e1, e2, roots_iff] at he
  rw [← Except.ok.inj hg]
  show (1 - schwarzschildRadius k M * x 1 / sigF (alF k M a) (x 1) (x 2)) * k.c ^ 2 < 0
  have he' : x 1 ^ 2 - schwarzschildRadius k M * x 1 + ((alF k M a * Real.cos (x 2)) ^ 2 + Q ^ 2 * k.G * k.Cc / k.c ^ 4) = 0 := he
  have hp : 0 < Q ^ 2 * k.G * k.Cc / k.c ^ 4 := by
    have := k.G_pos; have := k.Cc_pos; have := k.c_pos; positivity
  have hS : 0 < sigF (alF k M a) (x 1) (x 2) := lt_of_le_of_ne (sigF_nonneg _ _ _) (Ne.symm h2.1)
  have hc := k.c_pos
  refine mul_neg_of_neg_of_pos ?_ (by positivity)
  rw [sub_neg, lt_div_iff₀ hS, one_mul]
  unfold sigF
  linarith

/-- **C48**: inner ergosphere ≤ inner horizon ≤ outer horizon ≤ outer ergosphere. -/
theorem C48_order {m : NumMetric} {S : Singularities} (hm : IsKerrLike m) (h : singularities k m = .ok S) {th ie ih oh oe : ℝ}
    (h1 : S.innerErgosphere th = .ok ie) (h2 : S.innerHorizon = .ok ih) (h3 : S.outerHorizon = .ok oh)
    (h4 : S.outerErgosphere th = .ok oe) : ie ≤ ih ∧ ih ≤ oh ∧ oh ≤ oe := by
  obtain ⟨ha, e2, e3, e1, e4⟩ := sing_kerr k hm h
  rw [e1] at h1; rw [e2] at h2; rw [e3] at h3; rw [e4] at h4
  have hcos : (alF k m.M m.a * Real.cos th) ^ 2 ≤ alF k m.M m.a ^ 2 := by
    rw [mul_pow]
    have := Real.cos_sq_le_one th
    nlinarith [sq_nonneg (alF k m.M m.a)]
  have hle := Real.sqrt_le_sqrt (show schwarzschildRadius k m.M ^ 2 - 4 * (alF k m.M m.a ^ 2 + m.Q ^ 2 * k.G * k.Cc / k.c ^ 4)
    ≤ schwarzschildRadius k m.M ^ 2 - 4 * ((alF k m.M m.a * Real.cos th) ^ 2 + m.Q ^ 2 * k.G * k.Cc / k.c ^ 4) by linarith)
  have h0 := Real.sqrt_nonneg (schwarzschildRadius k m.M ^ 2 - 4 * (alF k m.M m.a ^ 2 + m.Q ^ 2 * k.G * k.Cc / k.c ^ 4))
  rw [h1.2, h2.2, h3.2, h4.2]
  refine ⟨?_, ?_, ?_⟩ <;> linarith

/-- **C48**: in geometric units, the horizons and, at every angle, the ergospheres are real numbers exactly when
`a² + Q² ≤ M²`; the lengths are `α = G M a/c²`, `r_Q² = G k_e Q²/c⁴` and `G M/c²`. -/
theorem C48_real_iff {m : NumMetric} {S : Singularities} (hm : IsKerrLike m) (h : singularities k m = .ok S) :
    ((k.G * m.M * m.a / k.c ^ 2) ^ 2 + k.G * k.Cc * m.Q ^ 2 / k.c ^ 4 ≤ (k.G * m.M / k.c ^ 2) ^ 2 ↔
      (∃ r, S.innerHorizon = .ok r) ∧ (∃ r, S.outerHorizon = .ok r) ∧
      ∀ th, (∃ r, S.innerErgosphere th = .ok r) ∧ ∃ r, S.outerErgosphere th = .ok r) := by
  obtain ⟨ha, e2, e3, e1, e4⟩ := sing_kerr k hm h
  have hcos : ∀ th, (alF k m.M m.a * Real.cos th) ^ 2 ≤ alF k m.M m.a ^ 2 := by
    intro th
    rw [mul_pow]
    have := Real.cos_sq_le_one th
    nlinarith [sq_nonneg (alF k m.M m.a)]
  have key : (k.G * m.M * m.a / k.c ^ 2) ^ 2 + k.G * k.Cc * m.Q ^ 2 / k.c ^ 4 ≤ (k.G * m.M / k.c ^ 2) ^ 2 ↔
      0 ≤ schwarzschildRadius k m.M ^ 2 - 4 * (alF k m.M m.a ^ 2 + m.Q ^ 2 * k.G * k.Cc / k.c ^ 4) := by
    have : schwarzschildRadius k m.M ^ 2 - 4 * (alF k m.M m.a ^ 2 + m.Q ^ 2 * k.G * k.Cc / k.c ^ 4)
        = 4 * ((k.G * m.M / k.c ^ 2) ^ 2 - ((k.G * m.M * m.a / k.c ^ 2) ^ 2 + k.G * k.Cc * m.Q ^ 2 / k.c ^ 4)) := by
      unfold schwarzschildRadius alF; ring
    rw [this]
    constructor
    · intro h; linarith
    · intro h; linarith
  rw [key]
  constructor
  · intro hD
    refine ⟨⟨_, (e2 _).mpr ⟨hD, rfl⟩⟩, ⟨_, (e3 _).mpr ⟨hD, rfl⟩⟩, fun th => ?_⟩
    have hD' : 0 ≤ schwarzschildRadius k m.M ^ 2 - 4 * ((alF k m.M m.a * Real.cos th) ^ 2 + m.Q ^ 2 * k.G * k.Cc / k.c ^ 4) := by
      have := hcos th; linarith
    exact ⟨⟨_, (e1 th _).mpr ⟨hD', rfl⟩⟩, ⟨_, (e4 th _).mpr ⟨hD', rfl⟩⟩⟩
  · rintro ⟨⟨r, hr⟩, _⟩
    exact ((e2 r).mp hr).1

/-- A neutral body always has real horizons and ergospheres. -/
theorem C48_neutral_real {M a : ℝ} {S : Singularities} (h : singularities k (Kerr.new k "BoyerLindquist" M a) = .ok S) :
    (∃ r, S.innerHorizon = .ok r) ∧ (∃ r, S.outerHorizon = .ok r) ∧
      ∀ th, (∃ r, S.innerErgosphere th = .ok r) ∧ ∃ r, S.outerErgosphere th = .ok r := by
  have hm : IsKerrLike (Kerr.new k "BoyerLindquist" M a) := ⟨Or.inl rfl, rfl⟩
  refine (C48_real_iff k hm h).mp ?_
  have ha := (sing_kerr k hm h).1
  show (k.G * M * a / k.c ^ 2) ^ 2 + k.G * k.Cc * 0 ^ 2 / k.c ^ 4 ≤ (k.G * M / k.c ^ 2) ^ 2
  have e : (k.G * M * a / k.c ^ 2) ^ 2 + k.G * k.Cc * 0 ^ 2 / k.c ^ 4 = a ^ 2 * (k.G * M / k.c ^ 2) ^ 2 := by ring
  rw [e]
  have : a ^ 2 ≤ 1 := by
    have h1 : 0 ≤ a := ha.1
    have h2 : a ≤ 1 := ha.2
    nlinarith
  nlinarith [sq_nonneg (k.G * M / k.c ^ 2)]

/-- Schwarzschild: the outer horizon and the outer ergosphere are at `2GM/c²`, the inner ones at 0. -/
theorem C48_schwarzschild (M : ℝ) :
    ∃ S, singularities k (Schwarzschild.new k "Spherical" M) = .ok S ∧ S.innerHorizon = .ok 0 ∧
      S.outerHorizon = .ok (2 * k.G * M / k.c ^ 2) ∧
      (∀ th, S.innerErgosphere th = .ok 0 ∧ S.outerErgosphere th = .ok (2 * k.G * M / k.c ^ 2)) := by
  have e : 2 * M * k.G / k.c ^ 2 = 2 * k.G * M / k.c ^ 2 := by ring
  refine ⟨⟨fun _ => .ok 0, .ok 0, .ok (2 * k.G * M / k.c ^ 2), fun _ => .ok (2 * k.G * M / k.c ^ 2)⟩, ?_, rfl, rfl,
    fun _ => ⟨rfl, rfl⟩⟩
  unfold singularities
  have ha : (0 : ℝ) ≤ (Schwarzschild.new k "Spherical" M).a ∧ (Schwarzschild.new k "Spherical" M).a ≤ 1 := by
    show (0 : ℝ) ≤ 0 ∧ (0 : ℝ) ≤ 1
    norm_num
  simp only [alpha_ok k ha, bind, Except.bind, pure, Except.pure]
  rw [if_neg (by simp [Schwarzschild.new]), if_pos (show (Schwarzschild.new k "Spherical" M).system = "Spherical" from rfl)]
  rw [show (Schwarzschild.new k "Spherical" M).M = M from rfl, e]

example : ∃ S, singularities unitConst (KerrNewman.new unitConst "BoyerLindquist" 1 (1 / 2) (1 / 2) 0) = .ok S ∧
    ∃ r, S.outerHorizon = .ok r := by
  have ha : (0 : ℝ) ≤ (KerrNewman.new unitConst "BoyerLindquist" 1 (1 / 2) (1 / 2) 0).a ∧
      (KerrNewman.new unitConst "BoyerLindquist" 1 (1 / 2) (1 / 2) 0).a ≤ 1 := by
    show (0 : ℝ) ≤ 1 / 2 ∧ (1 / 2 : ℝ) ≤ 1
    norm_num
  have h : ∃ S, singularities unitConst (KerrNewman.new unitConst "BoyerLindquist" 1 (1 / 2) (1 / 2) 0) = .ok S := by
    unfold singularities
    simp only [alpha_ok unitConst ha, bind, Except.bind, pure, Except.pure]
    rw [if_pos (show (KerrNewman.new unitConst "BoyerLindquist" 1 (1 / 2) (1 / 2) 0).name = "Kerr Metric" ∨
        (KerrNewman.new unitConst "BoyerLindquist" 1 (1 / 2) (1 / 2) 0).name = "Kerr-Newman Metric" from Or.inr rfl),
      if_pos (show (KerrNewman.new unitConst "BoyerLindquist" 1 (1 / 2) (1 / 2) 0).system = "BoyerLindquist" from rfl)]
    exact ⟨_, rfl⟩
  obtain ⟨S, hS⟩ := h
  refine ⟨S, hS, ((C48_real_iff unitConst ⟨Or.inr rfl, rfl⟩ hS).mp ?_).2.1⟩
  show ((1 : ℝ) * 1 * (1 / 2) / 1 ^ 2) ^ 2 + 1 * 1 * (1 / 2) ^ 2 / 1 ^ 4 ≤ (1 * 1 / 1 ^ 2) ^ 2
  norm_num

/-! ## C49 -/

/-- **C49**: a Schwarzschild object in any other coordinate system raises `CoordinateError`, whatever the position. -/
theorem C49_schwarzschild (s : String) (M : ℝ) (x v : Vec4) (hs : s ≠ "Spherical") :
    Schwarzschild.metricCovariant k (Schwarzschild.new k s M) x = .error .coordinateError ∧
    contraOf (Schwarzschild.metricCovariant k (Schwarzschild.new k s M)) x = .error .coordinateError ∧
    Schwarzschild.christoffels k (Schwarzschild.new k s M) x = .error .coordinateError ∧
    Schwarzschild.fVec k (Schwarzschild.new k s M) x v = .error .coordinateError ∧
    singularities k (Schwarzschild.new k s M) = .error .coordinateError := by
  have h1 : Schwarzschild.metricCovariant k (Schwarzschild.new k s M) x = .error .coordinateError := if_neg hs
  refine ⟨h1, ?_, if_neg hs, if_neg hs, ?_⟩
  · unfold contraOf; rw [h1]; rfl
  · unfold singularities
    have ha : (0 : ℝ) ≤ (Schwarzschild.new k s M).a ∧ (Schwarzschild.new k s M).a ≤ 1 := by
      show (0 : ℝ) ≤ 0 ∧ (0 : ℝ) ≤ 1
      norm_num
    simp only [alpha_ok k ha, bind, Except.bind, pure, Except.pure]
    rw [if_neg (by simp [Schwarzschild.new]), if_neg (show ¬(Schwarzschild.new k s M).system = "Spherical" from hs)]; rfl

/-- **C49**: the same for Kerr; `singularities` validates the spin first. -/
theorem C49_kerr (s : String) (M a : ℝ) (x v : Vec4) (hs : s ≠ "BoyerLindquist") :
    Kerr.metricCovariant k (Kerr.new k s M a) x = .error .coordinateError ∧
    contraOf (Kerr.metricCovariant k (Kerr.new k s M a)) x = .error .coordinateError ∧
    Kerr.christoffels k (Kerr.new k s M a) x = .error .coordinateError ∧
    Kerr.fVec k (Kerr.new k s M a) x v = .error .coordinateError ∧
    singularities k (Kerr.new k s M a) = .error (if 0 ≤ a ∧ a ≤ 1 then .coordinateError else .valueError) := by
  have h1 : Kerr.metricCovariant k (Kerr.new k s M a) x = .error .coordinateError := if_neg hs
  refine ⟨h1, ?_, if_neg hs, if_neg hs, ?_⟩
  · unfold contraOf; rw [h1]; rfl
  · unfold singularities
    by_cases ha : 0 ≤ a ∧ a ≤ 1
    · have ha' : (0 : ℝ) ≤ (Kerr.new k s M a).a ∧ (Kerr.new k s M a).a ≤ 1 := ha
      simp only [alpha_ok k ha', bind, Except.bind, pure, Except.pure]
      rw [if_pos (show (Kerr.new k s M a).name = "Kerr Metric" ∨ (Kerr.new k s M a).name = "Kerr-Newman Metric" from Or.inl rfl),
        if_neg (show ¬(Kerr.new k s M a).system = "BoyerLindquist" from hs), if_pos ha]; rfl
    · have ha' : ¬((0 : ℝ) ≤ (Kerr.new k s M a).a ∧ (Kerr.new k s M a).a ≤ 1) := ha
      simp only [alpha_bad k ha', bind, Except.bind]
      rw [if_neg ha]

/-- **C49**: the same for Kerr-Newman, including the contravariant electromagnetic quantities. -/
theorem C49_kerr_newman (s : String) (M a Q q : ℝ) (x v : Vec4) (hs : s ≠ "BoyerLindquist") :
    KerrNewman.metricCovariant k (KerrNewman.new k s M a Q q) x = .error .coordinateError ∧
    contraOf (KerrNewman.metricCovariant k (KerrNewman.new k s M a Q q)) x = .error .coordinateError ∧
    KerrNewman.christoffels k (KerrNewman.new k s M a Q q) x = .error .coordinateError ∧
    KerrNewman.fVec k (KerrNewman.new k s M a Q q) x v = .error .coordinateError ∧
    singularities k (KerrNewman.new k s M a Q q) = .error (if 0 ≤ a ∧ a ≤ 1 then .coordinateError else .valueError) ∧
    (∀ A, KerrNewman.emPotentialContra k (KerrNewman.new k s M a Q q) x ≠ .ok A) ∧
    (∀ F, KerrNewman.emTensorContra k (KerrNewman.new k s M a Q q) x ≠ .ok F) := by
  have h1 : KerrNewman.metricCovariant k (KerrNewman.new k s M a Q q) x = .error .coordinateError := if_neg hs
  have h2 : contraOf (KerrNewman.metricCovariant k (KerrNewman.new k s M a Q q)) x = .error .coordinateError := by
    unfold contraOf; rw [h1]; rfl
  refine ⟨h1, h2, if_neg hs, if_neg hs, ?_, ?_, ?_⟩
  · unfold singularities
    by_cases ha : 0 ≤ a ∧ a ≤ 1
    · have ha' : (0 : ℝ) ≤ (KerrNewman.new k s M a Q q).a ∧ (KerrNewman.new k s M a Q q).a ≤ 1 := ha
      simp only [alpha_ok k ha', bind, Except.bind, pure, Except.pure]
      rw [if_pos (show (KerrNewman.new k s M a Q q).name = "Kerr Metric" ∨ (KerrNewman.new k s M a Q q).name = "Kerr-Newman Metric" from Or.inr rfl),
        if_neg (show ¬(KerrNewman.new k s M a Q q).system = "BoyerLindquist" from hs), if_pos ha]; rfl
    · have ha' : ¬((0 : ℝ) ≤ (KerrNewman.new k s M a Q q).a ∧ (KerrNewman.new k s M a Q q).a ≤ 1) := ha
      simp only [alpha_bad k ha', bind, Except.bind]
      rw [if_neg ha]
  · intro A h
    unfold KerrNewman.emPotentialContra at h
    rw [h2] at h
    cases e : KerrNewman.emPotentialCov k (KerrNewman.new k s M a Q q) x <;> rw [e] at h <;> cases h
  · intro F h
    unfold KerrNewman.emTensorContra at h
    rw [h2] at h
    cases e : KerrNewman.emTensorCov k (KerrNewman.new k s M a Q q) x <;> rw [e] at h <;> cases h

/-- **C49 does not extend to the covariant electromagnetic quantities**: they never look at the coordinate system. -/
theorem C49_refuted_em_unchecked (s s' : String) (M a Q q : ℝ) (x : Vec4) :
    KerrNewman.emPotentialCov k (KerrNewman.new k s M a Q q) x = KerrNewman.emPotentialCov k (KerrNewman.new k s' M a Q q) x ∧
    KerrNewman.emTensorCov k (KerrNewman.new k s M a Q q) x = KerrNewman.emTensorCov k (KerrNewman.new k s' M a Q q) x :=
  ⟨rfl, rfl⟩

/-- In their own coordinate system no method raises `CoordinateError`. -/
theorem C49_own_system (M a : ℝ) (x : Vec4) :
    Schwarzschild.metricCovariant k (Schwarzschild.new k "Spherical" M) x ≠ .error .coordinateError ∧
    Kerr.metricCovariant k (Kerr.new k "BoyerLindquist" M a) x ≠ .error .coordinateError := by
  constructor
  · rw [sch_metric]; split_ifs <;> simp
  · rw [kerr_metric]; split_ifs <;> simp

/-! ## C50 -/

/-- **C50**: when `v0` returns a number, the four-velocity it completes is normalised to `c²`, and it is the larger of the
two solutions when `g_tt > 0`. -/
theorem C50_v0_normalises {g : Mat4} (hg : ∀ i j, g i j = g j i) {v1 v2 v3 u : ℝ} (h : v0 k g v1 v2 v3 = .ok u) :
    normSq g ![u, v1, v2, v3] = k.c ^ 2 ∧
      (0 < g 0 0 → ∀ w, normSq g ![w, v1, v2, v3] = k.c ^ 2 → w ≤ u) := by
  unfold v0 npSqrt at h
  simp only [bind, Except.bind, pure, Except.pure] at h
  generalize hB : 2 * (g 0 1 * v1 + g 0 2 * v2 + g 0 3 * v3) = B at *
  generalize hC : (g 1 1 * v1 ^ 2 + g 2 2 * v2 ^ 2 + g 3 3 * v3 ^ 2) + 2 * v1 * (g 1 2 * v2 + g 1 3 * v3)
    + 2 * v2 * g 2 3 * v3 + -1 * k.c ^ 2 = C at *
  have hN : ∀ w, normSq g ![w, v1, v2, v3] - k.c ^ 2 = g 0 0 * w ^ 2 + B * w + C := by
    intro w
    unfold normSq
    simp only [Fin.sum_univ_four]
    rw [show (![w, v1, v2, v3] : Vec4) 0 = w from rfl, show (![w, v1, v2, v3] : Vec4) 1 = v1 from rfl,
      show (![w, v1, v2, v3] : Vec4) 2 = v2 from rfl, show (![w, v1, v2, v3] : Vec4) 3 = v3 from rfl,
      hg 1 0, hg 2 0, hg 3 0, hg 2 1, hg 3 1, hg 3 2, ← hB, ← hC]
    ring
  split_ifs at h with h1 h2
  · have h := h
    have hA : g 0 0 ≠ 0 := fun e => h2 (by rw [e]; ring)
    have hD := Real.sq_sqrt (not_lt.mp h1)
    have hu : u = (-B + Real.sqrt (B ^ 2 - 4 * g 0 0 * C)) / (2 * g 0 0) := (Except.ok.inj h).symm
    have hu2 : 2 * g 0 0 * u = -B + Real.sqrt (B ^ 2 - 4 * g 0 0 * C) := by
      rw [hu]; field_simp
    constructor
    · have : 4 * g 0 0 * (g 0 0 * u ^ 2 + B * u + C) = 0 := by
        linear_combination (2 * g 0 0 * u + B + Real.sqrt (B ^ 2 - 4 * g 0 0 * C)) * hu2 + hD
      have h3 := (mul_eq_zero.mp this).resolve_left (by positivity)
      have := hN u
      linarith
    · intro hpos w hw
      have e : g 0 0 * w ^ 2 + B * w + C = 0 := by rw [← hN w, hw]; ring
      have e2 : (2 * g 0 0 * w + B) ^ 2 = B ^ 2 - 4 * g 0 0 * C := by linear_combination 4 * g 0 0 * e
      have e3 : 2 * g 0 0 * w + B ≤ Real.sqrt (B ^ 2 - 4 * g 0 0 * C) := by
        rw [← e2]; exact Real.le_sqrt_of_sq_le le_rfl
      have : 2 * g 0 0 * w ≤ 2 * g 0 0 * u := by linarith
      exact le_of_mul_le_mul_left this (by linarith)

/-- **C50**: `v0` returns a number exactly when the quadratic is a genuine one with a real root. -/
theorem C50_v0_domain {g : Mat4} (hg : ∀ i j, g i j = g j i) (v1 v2 v3 : ℝ) :
    (∃ u, v0 k g v1 v2 v3 = .ok u) ↔ g 0 0 ≠ 0 ∧ ∃ w, normSq g ![w, v1, v2, v3] = k.c ^ 2 := by
  constructor
  · rintro ⟨u, h⟩
    refine ⟨?_, u, (C50_v0_normalises k hg h).1⟩
    intro e
    unfold v0 npSqrt at h
    simp only [bind, Except.bind, pure, Except.pure] at h
    split_ifs at h with h1 h2
    exact h2 (by rw [e]; ring)
  · rintro ⟨hA, w, hw⟩
    unfold v0 npSqrt
    simp only [bind, Except.bind, pure, Except.pure]
    split_ifs with h1 h2
    · exfalso
      revert h1
      rw [imp_false, not_lt]
      have : (2 * (g 0 1 * v1 + g 0 2 * v2 + g 0 3 * v3)) ^ 2 - 4 * g 0 0 * ((g 1 1 * v1 ^ 2 + g 2 2 * v2 ^ 2 + g 3 3 * v3 ^ 2)
          + 2 * v1 * (g 1 2 * v2 + g 1 3 * v3) + 2 * v2 * g 2 3 * v3 + -1 * k.c ^ 2)
          = (2 * g 0 0 * w + 2 * (g 0 1 * v1 + g 0 2 * v2 + g 0 3 * v3)) ^ 2 := by
        unfold normSq at hw
        simp only [Fin.sum_univ_four] at hw
        rw [show (![w, v1, v2, v3] : Vec4) 0 = w from rfl, show (![w, v1, v2, v3] : Vec4) 1 = v1 from rfl,
          show (![w, v1, v2, v3] : Vec4) 2 = v2 from rfl, show (![w, v1, v2, v3] : Vec4) 3 = v3 from rfl,
          hg 1 0, hg 2 0, hg 3 0, hg 2 1, hg 3 1, hg 3 2] at hw
        linear_combination (-4 * g 0 0) * hw
      rw [this]; positivity
    · exact absurd h2 (mul_ne_zero two_ne_zero hA)
    · exact ⟨_, rfl⟩

/-- With the signature (+,-,-,-) of a metric without cross terms every spatial velocity can be completed, and the result
is future directed. -/
theorem C50_v0_static_future {A B C D : ℝ} (hA : 0 < A) (hB : B < 0) (hC : C < 0) (hD : D < 0) (v1 v2 v3 : ℝ) :
    ∃ u, v0 k (axi A 0 B C D) v1 v2 v3 = .ok u ∧ 0 < u := by
  have hc := k.c_pos
  have hpos : 0 < A⁻¹ * (k.c ^ 2 - B * v1 ^ 2 - C * v2 ^ 2 - D * v3 ^ 2) := by
    refine mul_pos (inv_pos.mpr hA) ?_
    nlinarith [sq_nonneg v1, sq_nonneg v2, sq_nonneg v3, pow_pos hc 2, mul_nonneg (neg_nonneg.mpr hB.le) (sq_nonneg v1),
      mul_nonneg (neg_nonneg.mpr hC.le) (sq_nonneg v2), mul_nonneg (neg_nonneg.mpr hD.le) (sq_nonneg v3)]
  have hw : normSq (axi A 0 B C D) ![Real.sqrt (A⁻¹ * (k.c ^ 2 - B * v1 ^ 2 - C * v2 ^ 2 - D * v3 ^ 2)), v1, v2, v3] = k.c ^ 2 := by
    unfold normSq
    simp only [Fin.sum_univ_four, axi00, axi01, axi02, axi03, axi10, axi11, axi12, axi13, axi20, axi21, axi22, axi23, axi30,
      axi31, axi32, axi33]
    have e := Real.sq_sqrt hpos.le
    rw [show (![Real.sqrt (A⁻¹ * (k.c ^ 2 - B * v1 ^ 2 - C * v2 ^ 2 - D * v3 ^ 2)), v1, v2, v3] : Vec4) 0 = _ from rfl,
      show (![Real.sqrt (A⁻¹ * (k.c ^ 2 - B * v1 ^ 2 - C * v2 ^ 2 - D * v3 ^ 2)), v1, v2, v3] : Vec4) 1 = v1 from rfl,
      show (![Real.sqrt (A⁻¹ * (k.c ^ 2 - B * v1 ^ 2 - C * v2 ^ 2 - D * v3 ^ 2)), v1, v2, v3] : Vec4) 2 = v2 from rfl,
      show (![Real.sqrt (A⁻¹ * (k.c ^ 2 - B * v1 ^ 2 - C * v2 ^ 2 - D * v3 ^ 2)), v1, v2, v3] : Vec4) 3 = v3 from rfl]
    have e2 : A * (A⁻¹ * (k.c ^ 2 - B * v1 ^ 2 - C * v2 ^ 2 - D * v3 ^ 2)) = k.c ^ 2 - B * v1 ^ 2 - C * v2 ^ 2 - D * v3 ^ 2 := by
      rw [← mul_assoc, mul_inv_cancel₀ hA.ne', one_mul]
    generalize A⁻¹ * (k.c ^ 2 - B * v1 ^ 2 - C * v2 ^ 2 - D * v3 ^ 2) = R at *
    rw [show (![Real.sqrt R, v1, v2, v3] : Vec4) 0 = Real.sqrt R from rfl]
    linear_combination A * e + e2
  obtain ⟨u, hu⟩ := (C50_v0_domain k (axi_symm _ _ _ _ _) v1 v2 v3).mpr ⟨hA.ne', _, hw⟩
  refine ⟨u, hu, ?_⟩
  exact lt_of_lt_of_le (Real.sqrt_pos.mpr hpos) ((C50_v0_normalises k (axi_symm _ _ _ _ _) hu).2 hA _ hw)

end Einpy.Num
