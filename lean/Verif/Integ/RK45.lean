import Mathlib.Data.Real.Basic
import Mathlib.Tactic.Linarith
import Mathlib.Tactic.NormNum
import Mathlib.Tactic.Ring
import Mathlib.Algebra.Order.Group.MinMax
import Verif.Py.Basic

/-!
# C99: the class `RK45` (integrators/runge_kutta.py:57-114)

The class derives from `scipy.integrate.RK45`, which is not part of the repository.  The base class is a parameter of the model, of which
only the documented contract (`Lawful`) is assumed: it is what every theorem below quantifies over.
-/

namespace Einpy.RK45

/-- The arguments of the constructor of the base class. -/
structure BaseArgs (E : Type) where
  fn : ℝ → E → E
  t0 : ℝ
  y0 : E
  tBound : ℝ
  firstStep : ℝ
  maxStep : ℝ
  rtol : ℝ
  atol : ℝ
  vectorized : Bool

/-- An exception raised by `step` of the base class: `RuntimeError`, or another one (from the right-hand side). -/
inductive Raised
  | runtime
  | other (e : PyErr)

/-- A base class with objects of type `σ`: constructor, `step` (with the object after the call), the attributes `t`, `y` and whether `status` is
"running". -/
structure Base (E σ : Type) where
  init : BaseArgs E → Py σ
  step : σ → Except Raised Unit × σ
  t : σ → ℝ
  y : σ → E
  running : σ → Prop

/-- `x` is between `a` and `b`, in either order. -/
def Between (a b x : ℝ) : Prop := (a ≤ x ∧ x ≤ b) ∨ (b ≤ x ∧ x ≤ a)

/-- What the documentation of scipy promises of an object constructed with the arguments `a`; `Reach` is the set of objects that can occur. -/
structure Lawful {E σ : Type} (B : Base E σ) (a : BaseArgs E) (Reach : σ → Prop) : Prop where
  /-- a successful construction starts at `t0`, `y0`, with a first step that is positive and within the bounds and a positive maximal step -/
  init : ∀ s, B.init a = .ok s → Reach s ∧ B.t s = a.t0 ∧ B.y s = a.y0 ∧ 0 < a.firstStep ∧ a.firstStep ≤ |a.tBound - a.t0| ∧ 0 < a.maxStep
  /-- steps lead to objects that can occur -/
  reach : ∀ s, Reach s → Reach (B.step s).2
  /-- a step of a running solver moves towards the bound, not beyond it and not farther than the maximal step -/
  run : ∀ s, Reach s → Between a.t0 a.tBound (B.t s) → Between (B.t s) a.tBound (B.t (B.step s).2) ∧ |B.t (B.step s).2 - B.t s| ≤ a.maxStep
  /-- a step that raises leaves time and solution alone -/
  raised : ∀ s, Reach s → (∃ e, (B.step s).1 = .error e) → B.t (B.step s).2 = B.t s ∧ B.y (B.step s).2 = B.y s
  /-- a solver that is not running refuses to step with `RuntimeError` and does not change -/
  stopped : ∀ s, Reach s → ¬ B.running s → B.step s = (.error .runtime, s)

section
variable {E σ : Type}

/-- runge_kutta.py:62-98 `__init__`: the arguments handed to the base class.  `isFloat` says whether `y0` is a Python float. -/
noncomputable def baseArgs (fn : ℝ → E → E) (t0 : ℝ) (y0 : E) (isFloat : Bool) (tBound stepsize : ℝ) (rtol atol : Option ℝ) : BaseArgs E :=
  let r := match rtol with
    | none => 0.2 * stepsize
    | some r => r
  let a := match atol with
    | none => r / 0.8e3
    | some a => a
  ⟨fn, t0, y0, tBound, 0.8 * stepsize, 8 * stepsize, r, a, !isFloat⟩

/-- What a call of `step` does: exception or not, warnings issued, object after the call. -/
structure StepResult (σ : Type) where
  result : Py Unit
  warnings : ℕ
  obj : σ

/-- runge_kutta.py:100-114 `step`. -/
def step (B : Base E σ) (s : σ) : StepResult σ :=
  match B.step s with
  | (.ok _, s') => ⟨.ok (), 0, s'⟩
  | (.error .runtime, s') => ⟨.ok (), 1, s'⟩
  | (.error (.other e), s') => ⟨.error e, 0, s'⟩

/-- The object after `n` calls of `step`, exceptions being caught by the user. -/
def steps (B : Base E σ) : ℕ → σ → σ
  | 0, s => s
  | n + 1, s => steps B n (step B s).obj

theorem step_obj (B : Base E σ) (s : σ) : (step B s).obj = (B.step s).2 := by
  unfold step
  rcases B.step s with ⟨⟨⟩ | ⟨⟩, s'⟩
  · rename_i e; cases e <;> rfl
  · rfl

theorem between_trans {a b x y : ℝ} (h1 : Between a b x) (h2 : Between x b y) : Between a b y := by
  unfold Between at *
  rcases h1 with h1 | h1 <;> rcases h2 with h2 | h2
  · left; constructor <;> linarith
  · left; constructor <;> linarith
  · right; constructor <;> linarith
  · right; constructor <;> linarith

variable {B : Base E σ} {fn : ℝ → E → E} {t0 tBound stepsize : ℝ} {y0 : E} {isFloat : Bool} {rtol atol : Option ℝ} {Reach : σ → Prop}

/-- **C99.** Whatever the right-hand side does and however often `step` is called, the time stays between `t0` and `t_bound` and no single call moves it
by more than eight step sizes. -/
theorem C99_bounded (L : Lawful B (baseArgs fn t0 y0 isFloat tBound stepsize rtol atol) Reach) {s : σ}
    (h : B.init (baseArgs fn t0 y0 isFloat tBound stepsize rtol atol) = .ok s) (n : ℕ) :
    Between t0 tBound (B.t (steps B n s)) ∧ |B.t (step B (steps B n s)).obj - B.t (steps B n s)| ≤ 8 * stepsize := by
  have key : ∀ n s, Reach s → Between t0 tBound (B.t s) → Reach (steps B n s) ∧ Between t0 tBound (B.t (steps B n s)) := by
    intro n
    induction n with
    | zero => intro s h1 h2; exact ⟨h1, h2⟩
    | succ n ih =>
      intro s h1 h2
      refine ih _ ?_ ?_
      · rw [step_obj]; exact L.reach s h1
      · rw [step_obj]; exact between_trans h2 (L.run s h1 h2).1
  obtain ⟨hr, ht, -⟩ := L.init s h
  have hb : Between t0 tBound (B.t s) := by
    rw [ht]
    show Between t0 tBound t0
    rcases le_total t0 tBound with h | h
    · exact Or.inl ⟨le_refl _, h⟩
    · exact Or.inr ⟨h, le_refl _⟩
  obtain ⟨h1, h2⟩ := key n s hr hb
  refine ⟨h2, ?_⟩
  rw [step_obj]
  exact (L.run _ h1 h2).2

/-- **C99.** Construction fails unless the step size is positive and 0.8 of it fits between `t0` and `t_bound`. -/
theorem C99_stepsize (L : Lawful B (baseArgs fn t0 y0 isFloat tBound stepsize rtol atol) Reach) {s : σ}
    (h : B.init (baseArgs fn t0 y0 isFloat tBound stepsize rtol atol) = .ok s) :
    0 < stepsize ∧ 4 / 5 * stepsize ≤ |tBound - t0| ∧ B.t s = t0 ∧ B.y s = y0 := by
  obtain ⟨-, h1, h2, h3, h4, -⟩ := L.init s h
  have h3' : (0:ℝ) < 0.8 * stepsize := h3
  have h4' : 0.8 * stepsize ≤ |tBound - t0| := h4
  refine ⟨by linarith, by linarith, h1, h2⟩

/-- **C99.** On a solver that has finished or failed, any number of further calls of `step` raises nothing, issues one warning each, and leaves the object
as it is. -/
theorem C99_stopped {a : BaseArgs E} (L : Lawful B a Reach) {s : σ} (hs : Reach s) (hr : ¬ B.running s) (n : ℕ) :
    steps B n s = s ∧ (step B (steps B n s)).result = .ok () ∧ (step B (steps B n s)).warnings = 1 := by
  have e : step B s = ⟨.ok (), 1, s⟩ := by unfold step; rw [L.stopped s hs hr]
  have key : ∀ n, steps B n s = s := by
    intro n
    induction n with
    | zero => rfl
    | succ n ih => show steps B n (step B s).obj = s; rw [e]; exact ih
  rw [key n, e]
  exact ⟨rfl, rfl, rfl⟩

/-- **C99.** A call of `step` raises exactly the exceptions of the right-hand side other than `RuntimeError`; it never raises and warns at once, and a call
that raises or warns leaves time and solution as they were. -/
theorem C99_errors {a : BaseArgs E} (L : Lawful B a Reach) {s : σ} (hs : Reach s) :
    (∀ e, (step B s).result = .error e ↔ (B.step s).1 = .error (.other e)) ∧
    ((step B s).warnings = if (B.step s).1 matches .error .runtime then 1 else 0) ∧
    ((step B s).result ≠ .ok () ∨ (step B s).warnings ≠ 0 → B.t (step B s).obj = B.t s ∧ B.y (step B s).obj = B.y s) := by
  have hr := L.raised s hs
  unfold step
  rcases hB : B.step s with ⟨e | u, s'⟩
  · rw [hB] at hr
    have hr' := hr ⟨e, rfl⟩
    cases e with
    | runtime => simp; exact hr'
    | other e => simp; exact hr'
  · simp

/-- **C99 is false of this commit** where it concerns the right-hand side: a `RuntimeError` raised by the user's function is not reported to the caller as an
exception, but as a warning about a finished solver, although the solver is running. -/
theorem C99_refuted {s : σ} (h : (B.step s).1 = .error .runtime) : (step B s).result = .ok () ∧ (step B s).warnings = 1 := by
  unfold step
  rcases hB : B.step s with ⟨e | u, s'⟩
  · rw [hB] at h
    cases h
    exact ⟨rfl, rfl⟩
  · rw [hB] at h; cases h

/-- **C99.** The tolerances are those of the caller; a missing relative tolerance is a fifth of the step size, and a missing absolute tolerance the 800th part
of the relative one (given or not). -/
theorem C99_tolerances (fn : ℝ → E → E) (t0 : ℝ) (y0 : E) (isFloat : Bool) (tBound stepsize : ℝ) (rtol atol : Option ℝ) :
    ∃ b, b = baseArgs fn t0 y0 isFloat tBound stepsize rtol atol ∧ b.rtol = rtol.getD (stepsize / 5) ∧
      b.atol = atol.getD (rtol.getD (stepsize / 5) / 800) ∧ b.fn = fn ∧ b.tBound = tBound ∧ (b.vectorized = true ↔ isFloat = false) := by
  refine ⟨_, rfl, ?_, ?_, rfl, rfl, ?_⟩
  · cases rtol
    · show 0.2 * stepsize = stepsize / 5; ring
    · rfl
  · cases atol
    · cases rtol
      · show 0.2 * stepsize / 0.8e3 = stepsize / 5 / 800; ring
      · show _ / 0.8e3 = _ / 800; norm_num
    · rfl
  · cases isFloat <;> simp [baseArgs]

end

/-! ## Non-vacuity -/

/-- A base class that satisfies the contract: explicit Euler steps of the maximal length, cut off at the bound. -/
noncomputable def euler : Base ℝ (BaseArgs ℝ × ℝ × ℝ) where
  init a := if 0 < a.firstStep ∧ a.firstStep ≤ |a.tBound - a.t0| ∧ 0 < a.maxStep then .ok (a, a.t0, a.y0) else .error .valueError
  step s := if s.2.1 = s.1.tBound then (.error .runtime, s)
    else
      let t' := if s.1.tBound < s.2.1 then max s.1.tBound (s.2.1 - s.1.maxStep) else min s.1.tBound (s.2.1 + s.1.maxStep)
      (.ok (), (s.1, t', s.2.2 + (t' - s.2.1) * s.1.fn s.2.1 s.2.2))
  t s := s.2.1
  y s := s.2.2
  running s := s.2.1 ≠ s.1.tBound

theorem euler_lawful (a : BaseArgs ℝ) : Lawful euler a fun s => s.1 = a ∧ 0 < a.maxStep := by
  refine ⟨?_, ?_, ?_, ?_, ?_⟩
  · intro s h
    unfold euler at h
    simp only at h
    split_ifs at h with hc
    cases h
    exact ⟨⟨rfl, hc.2.2⟩, rfl, rfl, hc⟩
  · rintro s ⟨rfl, h2⟩
    unfold euler
    dsimp only
    split_ifs <;> exact ⟨rfl, h2⟩
  · rintro ⟨b, t, y⟩ ⟨h1, h2⟩ hb
    simp only at h1
    subst h1
    unfold euler
    dsimp only
    split_ifs with h3 h4
    · subst h3
      exact ⟨Or.inl ⟨le_refl _, le_refl _⟩, by simpa using h2.le⟩
    · dsimp only
      have hm := max_choice b.tBound (t - b.maxStep)
      have h5 := le_max_left b.tBound (t - b.maxStep)
      have h6 := le_max_right b.tBound (t - b.maxStep)
      generalize max b.tBound (t - b.maxStep) = m at *
      have h7 : m ≤ t := by rcases hm with h | h <;> rw [h] <;> linarith
      exact ⟨Or.inr ⟨h5, h7⟩, by rw [abs_le]; constructor <;> linarith⟩
    · dsimp only at h3 h4 ⊢
      have h4' : t ≤ b.tBound := not_lt.1 h4
      have hm := min_choice b.tBound (t + b.maxStep)
      have h5 := min_le_left b.tBound (t + b.maxStep)
      have h6 := min_le_right b.tBound (t + b.maxStep)
      generalize min b.tBound (t + b.maxStep) = m at *
      have h7 : t ≤ m := by rcases hm with h | h <;> rw [h] <;> linarith
      exact ⟨Or.inl ⟨h7, h5⟩, by rw [abs_le]; constructor <;> linarith⟩
  · rintro ⟨b, t, y⟩ ⟨h1, h2⟩ ⟨e, he⟩
    unfold euler at he ⊢
    dsimp only at he ⊢
    split_ifs at he ⊢ with h3
    exact ⟨rfl, rfl⟩
  · rintro ⟨b, t, y⟩ - h
    unfold euler at h ⊢
    dsimp only at h ⊢
    rw [if_pos (not_not.1 h)]

/-- C99 applies to a backward integration from 3 to 0. -/
example : ∃ s, euler.init (baseArgs (fun _ y => y) 3 1 true 0 (1 / 2) none none) = .ok s ∧
    ∀ n, Between 3 0 (euler.t (steps euler n s)) := by
  have h : euler.init (baseArgs (fun _ y => y) 3 1 true 0 (1 / 2) none none) = .ok (baseArgs (fun _ y => y) 3 1 true 0 (1 / 2) none none, 3, 1) := by
    refine if_pos ?_
    show (0:ℝ) < 0.8 * (1 / 2) ∧ (0.8 * (1 / 2) : ℝ) ≤ |0 - 3| ∧ (0:ℝ) < 8 * (1 / 2)
    norm_num
  exact ⟨_, h, fun n => (C99_bounded (euler_lawful _) h n).1⟩

end Einpy.RK45
