import Mathlib.Analysis.SpecialFunctions.Sqrt
import Mathlib.Analysis.Calculus.Deriv.Inv
import Mathlib.Analysis.Calculus.Deriv.Add
import Mathlib.Analysis.Calculus.Deriv.Mul
import Mathlib.Analysis.SpecialFunctions.Trigonometric.Basic
import Mathlib.Algebra.Order.Floor.Ring
import Mathlib.Algebra.Order.Floor.Semiring
import Verif.Coord.Model
import Verif.Misc.While

/-!
# `hypersurface/schwarzschildembedding.py` (C56, C77, C78)

Floating-point numbers are idealised as real numbers; a `nan` or `inf` is the tag `notANumber`.  `nan` values are kept
inside the returned lists, as numpy does.
-/

namespace Einpy.Misc
open Einpy.Coord

/-- A `SchwarzschildEmbedding` object: `self.M.value` (in units of 10e22 kg) and `self.r_init.value`. -/
structure Embedding where
  M : ℝ
  rInit : ℝ

/-- schwarzschildembedding.py:24-43: the constructor for a mass of `m` kilograms.  The radius is a number of metres
converted to the unit `u.m / M`. -/
noncomputable def Embedding.new (m : ℝ) : Py Embedding := do
  let M := m / 10e22
  let r ← npDiv (3 * M + 0.0001) M
  return ⟨M, r * M⟩

variable (e : Embedding)

/-- schwarzschildembedding.py:45-69 `gradient`. -/
noncomputable def Embedding.gradient (r : ℝ) : Py ℝ := do
  let R ← npDiv r (← Num.npSqrt (1 - (← npDiv (2 * e.M) r)))
  let num_one := 1 - (← npDiv (3 * e.M) r)
  let num_two ← Num.npSqrt (← npDiv ((4 * e.M * r - 9 * e.M * e.M) * R) ((r - 3 * e.M) ^ 2))
  let deno := (← Num.npSqrt (1 - (← npDiv (2 * e.M) r))) ^ 3
  npDiv (num_one * num_two) deno

/-- schwarzschildembedding.py:71-86 `radial_coord`. -/
noncomputable def Embedding.radialCoord (r : ℝ) : Py ℝ := do
  npDiv r (← Num.npSqrt (1 - (← npDiv (2 * e.M) r)))

/-- The variables of the loops in `get_values`. -/
structure Samples where
  r : ℝ
  z : Py ℝ
  xs : List (Py ℝ)
  ys : List (Py ℝ)

/-- The loop bodies schwarzschildembedding.py:110-113 (with `dr` the step), schwarzschildembedding.py:118-121 (with `dr`
minus the step), schwarzschildembedding.py:154-157 (with `dr` the step).  `h` is `r_step`. -/
noncomputable def Embedding.body (h dr : ℝ) (s : Samples) : Samples :=
  ⟨s.r + dr, (do return (← s.z) + (← e.gradient s.r) * h), s.xs ++ [e.radialCoord s.r], s.ys ++ [s.z]⟩

/-- schwarzschildembedding.py:89-126 `get_values`, as a relation between the argument and the returned pair of lists:
an execution that does not terminate returns nothing.  A zero `alpha` is not modelled. -/
def Embedding.GetValues (alpha : ℝ) (out : List (Py ℝ) × List (Py ℝ)) : Prop :=
  ∃ h, npDiv e.M alpha = .ok h ∧
  ∃ s1, While (fun s => s.r < 9 * e.M) (e.body h h) ⟨e.rInit, .ok 0, [], []⟩ s1 ∧
  ∃ s2, While (fun s => s.r > 9 * e.M / 4) (e.body h (-h)) ⟨e.rInit, .ok 0, s1.xs, s1.ys⟩ s2 ∧
  out = (s2.xs, s2.ys)

/-- A numpy array: a shape and the elements in row-major order. -/
structure NdArr (α : Type) where
  shape : List ℕ
  data : List α

/-- `Z.reshape(shape)`: a new array with the same elements. -/
def NdArr.reshape {α : Type} (a : NdArr α) (shape : List ℕ) : NdArr α := ⟨shape, a.data⟩

/-- `np.linspace(0, 2 * np.pi, N)` (schwarzschildembedding.py:146, with N = 60) -/
noncomputable def phiValues (N : ℕ) : List ℝ := (List.range N).map fun i => 2 * Real.pi * (i:ℕ) / ((N:ℝ) - 1)

/-- schwarzschildembedding.py:159-172, the part of `get_values_surface` after the loop, given the lists `R_values` and
`z_values` and the number N of angles.  `np.meshgrid` repeats the rows; the `for` loop appends N - 1 copies of `z_values`;
the result of `Z.reshape` is not used. -/
noncomputable def surfaceOf (N : ℕ) (R z : List (Py ℝ)) : NdArr (Py ℝ) × NdArr (Py ℝ) × NdArr (Py ℝ) :=
  let X : NdArr (Py ℝ) := ⟨[N, R.length], (phiValues N).flatMap fun p => R.map fun x => do return (← x) * Real.cos p⟩
  let Y : NdArr (Py ℝ) := ⟨[N, R.length], (phiValues N).flatMap fun p => R.map fun x => do return (← x) * Real.sin p⟩
  let x_len := N
  let Z0 : NdArr (Py ℝ) := ⟨[z.length], z⟩
  let Z := (List.range (x_len - 1)).foldl (fun (Z : NdArr (Py ℝ)) _ => ⟨[(Z.data ++ z).length], Z.data ++ z⟩) Z0
  let _ := Z.reshape [N, R.length]
  (X, Y, Z)

/-- schwarzschildembedding.py:128-172 `get_values_surface`, as a relation like `GetValues`. -/
def Embedding.GetValuesSurface (alpha : ℝ) (out : NdArr (Py ℝ) × NdArr (Py ℝ) × NdArr (Py ℝ)) : Prop :=
  ∃ h, npDiv e.M alpha = .ok h ∧
  ∃ s1, While (fun s => s.r < 20 * e.M) (e.body h h) ⟨e.rInit, .ok 0, [], []⟩ s1 ∧
  out = surfaceOf 60 s1.xs s1.ys

/-! ## Specification -/

/-- The optical (Fermat) metric of the Schwarzschild equatorial plane, −g_ij/g_tt with g_tt = −(1 − 2M/r):
the coefficient of dr². -/
noncomputable def opticalRR (M r : ℝ) : ℝ := (1 / (1 - 2 * M / r)) / (1 - 2 * M / r)

/-- The coefficient of dφ². -/
noncomputable def opticalPhi (M r : ℝ) : ℝ := r ^ 2 / (1 - 2 * M / r)

/-- The surface of revolution with profile (R(r), z(r)) carries the optical metric at `r`: R² is the coefficient of dφ²
and R'² + z'² is the coefficient of dr², where z' is the value reported by `gradient`. -/
def IsometricAt (e : Embedding) (r : ℝ) : Prop :=
  ∃ (Rf : ℝ → ℝ) (R' g : ℝ), (∀ᶠ s in nhds r, e.radialCoord s = .ok (Rf s)) ∧ HasDerivAt Rf R' r ∧
    e.gradient r = .ok g ∧ Rf r ^ 2 = opticalPhi e.M r ∧ R' ^ 2 + g ^ 2 = opticalRR e.M r

/-! ## The constructor -/

/-- The mass is converted to units of 10e22 kg and the initial radius is 3M + 0.0001. -/
theorem C77_new (m : ℝ) (hm : m ≠ 0) : Embedding.new m = .ok ⟨m / 10e22, 3 * (m / 10e22) + 0.0001⟩ := by
  have h : m / 10e22 ≠ 0 := by positivity
  simp only [Embedding.new, npDiv, if_neg h, bind, Except.bind, pure, Except.pure]
  rw [div_mul_cancel₀ _ h]

/-! ## Radial coordinate -/

variable {e}

theorem npDiv_of {x y : ℝ} (hy : y ≠ 0) : npDiv x y = .ok (x / y) := by unfold npDiv; rw [if_neg hy]

theorem npDiv_by_zero (x : ℝ) : npDiv x 0 = .error .notANumber := by unfold npDiv; rw [if_pos rfl]

theorem npSqrt_of {x : ℝ} (hx : 0 ≤ x) : Num.npSqrt x = .ok (Real.sqrt x) := by
  unfold Num.npSqrt; rw [if_neg (not_lt.2 hx)]

theorem lapse_pos {M r : ℝ} (hM : 0 < M) (hr : 2 * M < r) : 0 < 1 - 2 * M / r := by
  have : 0 < r := by linarith
  rw [sub_pos, div_lt_one this]; exact hr

theorem radialCoord_ok (hM : 0 < e.M) {r : ℝ} (hr : 2 * e.M < r) :
    e.radialCoord r = .ok (r / Real.sqrt (1 - 2 * e.M / r)) := by
  have hr0 : r ≠ 0 := by linarith
  have hs := lapse_pos hM hr
  simp only [Embedding.radialCoord, npDiv_of hr0, npSqrt_of hs.le, bind, Except.bind]
  rw [npDiv_of (Real.sqrt_pos.2 hs).ne']

/-- **C56.** Outside the horizon the radius of the surface at `r` is a number, its square is the coefficient of dφ² in the
optical metric, and its derivative is (1 − 3M/r)/(1 − 2M/r)^(3/2). -/
theorem C56_radial (hM : 0 < e.M) {r : ℝ} (hr : 2 * e.M < r) :
    ∃ Rf : ℝ → ℝ, (∀ s, 2 * e.M < s → e.radialCoord s = .ok (Rf s)) ∧ 0 < Rf r ∧ Rf r ^ 2 = opticalPhi e.M r ∧
      HasDerivAt Rf ((1 - 3 * e.M / r) / Real.sqrt (1 - 2 * e.M / r) ^ 3) r := by
  have hr0 : 0 < r := by linarith
  have hs := lapse_pos hM hr
  have hq := Real.sqrt_pos.2 hs
  have hqq := Real.sq_sqrt hs.le
  refine ⟨fun s => s / Real.sqrt (1 - 2 * e.M / s), fun s hs => radialCoord_ok hM hs, by positivity, ?_, ?_⟩
  · show (r / Real.sqrt (1 - 2 * e.M / r)) ^ 2 = _
    rw [div_pow, hqq]; rfl
  · have h1 : HasDerivAt (fun s : ℝ => 1 - 2 * e.M / s) (2 * e.M / r ^ 2) r := by
      have := ((hasDerivAt_const r (2 * e.M)).fun_div (hasDerivAt_id r) hr0.ne').const_sub 1
      refine this.congr_deriv ?_
      simp only [id]; ring
    have h2 := (hasDerivAt_id r).fun_div (h1.sqrt hs.ne') hq.ne'
    refine h2.congr_deriv ?_
    simp only [id]
    have h3 : Real.sqrt (1 - 2 * e.M / r) ^ 2 = 1 - 2 * e.M / r := hqq
    set q := Real.sqrt (1 - 2 * e.M / r)
    have h4 : 2 * e.M / r = 1 - q ^ 2 := by linarith
    have h5 : 3 * e.M / r = 3 / 2 * (1 - q ^ 2) := by rw [← h4]; ring
    have h6 : 2 * e.M / r ^ 2 = (1 - q ^ 2) / r := by rw [← h4]; field_simp
    rw [h5, h6]
    field_simp
    ring

example : (0:ℝ) < (⟨1, 3.0001⟩ : Embedding).M ∧ 2 * (⟨1, 3.0001⟩ : Embedding).M < 4 := by norm_num

/-- Inside or on the horizon there is no radius. -/
theorem C56_radial_none {r : ℝ} (h0 : 0 < r) (hr : r ≤ 2 * e.M) :
    e.radialCoord r = .error .notANumber := by
  have h1 : 1 - 2 * e.M / r ≤ 0 := by rw [sub_nonpos, one_le_div h0]; exact hr
  simp only [Embedding.radialCoord, npDiv_of h0.ne', bind, Except.bind]
  rcases h1.lt_or_eq with h | h
  · simp [Num.npSqrt, h]
  · rw [h, npSqrt_of le_rfl]; simp [npDiv]

/-! ## Gradient -/

theorem gradient_ok (hM : 0 < e.M) {r : ℝ} (hr : 9 * e.M / 4 ≤ r) (h3 : r ≠ 3 * e.M) :
    e.gradient r = .ok ((1 - 3 * e.M / r) * Real.sqrt ((4 * e.M * r - 9 * e.M * e.M) *
      (r / Real.sqrt (1 - 2 * e.M / r)) / (r - 3 * e.M) ^ 2) / Real.sqrt (1 - 2 * e.M / r) ^ 3) := by
  have hr0 : 0 < r := by linarith
  have hs := lapse_pos hM (show 2 * e.M < r by linarith)
  have hq := Real.sqrt_pos.2 hs
  have hd : (r - 3 * e.M) ^ 2 ≠ 0 := pow_ne_zero _ (sub_ne_zero.2 h3)
  have hn : 0 ≤ (4 * e.M * r - 9 * e.M * e.M) * (r / Real.sqrt (1 - 2 * e.M / r)) / (r - 3 * e.M) ^ 2 := by
    have : 0 ≤ 4 * e.M * r - 9 * e.M * e.M := by nlinarith
    positivity
  simp only [Embedding.gradient, npDiv_of hr0.ne', npSqrt_of hs.le, npDiv_of hq.ne', npDiv_of hd, npSqrt_of hn,
    npDiv_of (pow_ne_zero 3 hq.ne'), bind, Except.bind]

/-- **C56.** The gradient is a number exactly where the documentation says the embedding exists, r ≥ 9M/4, except at the
photon sphere r = 3M, where the code divides by zero. -/
theorem C56_defined (hM : 0 < e.M) {r : ℝ} (hr : 2 * e.M < r) :
    (∃ g, e.gradient r = .ok g) ↔ 9 * e.M / 4 ≤ r ∧ r ≠ 3 * e.M := by
  constructor
  · rintro ⟨g, hg⟩
    have hr0 : 0 < r := by linarith
    have hs := lapse_pos hM hr
    have hq := Real.sqrt_pos.2 hs
    by_cases h3 : r = 3 * e.M
    · exfalso
      have hd : (r - 3 * e.M) ^ 2 = 0 := by rw [h3]; ring
      simp only [Embedding.gradient, npDiv_of hr0.ne', npSqrt_of hs.le, npDiv_of hq.ne', hd, bind, Except.bind,
        npDiv_by_zero] at hg
      cases hg
    · refine ⟨?_, h3⟩
      by_contra hlt
      push Not at hlt
      have hd : (r - 3 * e.M) ^ 2 ≠ 0 := pow_ne_zero _ (sub_ne_zero.2 h3)
      have hd' : 0 < (r - 3 * e.M) ^ 2 := lt_of_le_of_ne (sq_nonneg _) (Ne.symm hd)
      have hn : (4 * e.M * r - 9 * e.M * e.M) * (r / Real.sqrt (1 - 2 * e.M / r)) / (r - 3 * e.M) ^ 2 < 0 := by
        have h1 : 4 * e.M * r - 9 * e.M * e.M < 0 := by nlinarith
        exact div_neg_of_neg_of_pos (mul_neg_of_neg_of_pos h1 (by positivity)) hd'
      have hn' : Num.npSqrt ((4 * e.M * r - 9 * e.M * e.M) * (r / Real.sqrt (1 - 2 * e.M / r)) / (r - 3 * e.M) ^ 2) =
          .error .notANumber := by unfold Num.npSqrt; rw [if_pos hn]
      simp only [Embedding.gradient, npDiv_of hr0.ne', npSqrt_of hs.le, npDiv_of hq.ne', npDiv_of hd, bind, Except.bind,
        hn'] at hg
      cases hg
  · rintro ⟨h1, h2⟩
    exact ⟨_, gradient_ok hM h1 h2⟩

/-- **C56, what holds.** The square of the gradient is the value an isometric embedding needs, multiplied by the radius R
of the surface.  (The full claim would not have the factor R.) -/
theorem C56_gradient_partial (hM : 0 < e.M) {r : ℝ} (hr : 9 * e.M / 4 ≤ r) (h3 : r ≠ 3 * e.M) :
    ∃ (Rf : ℝ → ℝ) (R' g : ℝ), (∀ s, 2 * e.M < s → e.radialCoord s = .ok (Rf s)) ∧ HasDerivAt Rf R' r ∧
      e.gradient r = .ok g ∧ g ^ 2 = Rf r * (opticalRR e.M r - R' ^ 2) := by
  have hr2 : 2 * e.M < r := by linarith
  obtain ⟨Rf, h1, -, -, h4⟩ := C56_radial hM hr2
  refine ⟨Rf, _, _, h1, h4, gradient_ok hM hr h3, ?_⟩
  have hr0 : 0 < r := by linarith
  have hs := lapse_pos hM hr2
  have hq := Real.sqrt_pos.2 hs
  have hqq := Real.sq_sqrt hs.le
  have hRf : Rf r = r / Real.sqrt (1 - 2 * e.M / r) := by
    have h5 := h1 r hr2
    rw [radialCoord_ok hM hr2] at h5
    exact (Except.ok.inj h5).symm
  have hn : 0 ≤ (4 * e.M * r - 9 * e.M * e.M) * (r / Real.sqrt (1 - 2 * e.M / r)) / (r - 3 * e.M) ^ 2 := by
    have : 0 ≤ 4 * e.M * r - 9 * e.M * e.M := by nlinarith
    positivity
  have hd : r - 3 * e.M ≠ 0 := sub_ne_zero.2 h3
  rw [div_pow, mul_pow, Real.sq_sqrt hn, hRf, opticalRR]
  have hk : 1 - 2 * e.M / r = Real.sqrt (1 - 2 * e.M / r) ^ 2 := hqq.symm
  set q := Real.sqrt (1 - 2 * e.M / r)
  have hMq : e.M = r * (1 - q ^ 2) / 2 := by
    have : 2 * e.M / r = 1 - q ^ 2 := by linarith
    field_simp at this; linarith
  rw [hk]
  have hd2 : r - 3 * (r * (1 - q ^ 2) / 2) ≠ 0 := by rw [← hMq]; exact hd
  rw [hMq]
  have hd3 : 2 - 3 * (1 - q ^ 2) ≠ 0 := by
    intro h; apply hd2; linear_combination (r / 2) * h
  have hx : (r - 3 * (r * (1 - q ^ 2) / 2)) ^ 2 = r ^ 2 * (2 - 3 * (1 - q ^ 2)) ^ 2 / 4 := by ring
  rw [hx]
  field_simp
  ring

example : (9:ℝ) * (⟨1, 3.0001⟩ : Embedding).M / 4 ≤ 4 ∧ (4:ℝ) ≠ 3 * (⟨1, 3.0001⟩ : Embedding).M := by norm_num

/-- The surface is isometric at `r` exactly when R(r) = 1 (in the internal unit), or at the inner rim r = 9M/4. -/
theorem C56_isometric_iff (hM : 0 < e.M) {r : ℝ} (hr : 9 * e.M / 4 ≤ r) (h3 : r ≠ 3 * e.M) :
    IsometricAt e r ↔ e.radialCoord r = .ok 1 ∨ r = 9 * e.M / 4 := by
  have hr2 : 2 * e.M < r := by linarith
  have hr0 : 0 < r := by linarith
  have hs := lapse_pos hM hr2
  have hq := Real.sqrt_pos.2 hs
  have hqq := Real.sq_sqrt hs.le
  obtain ⟨Rf, R', g, h1, h2, h4, h5⟩ := C56_gradient_partial hM hr h3
  obtain ⟨Rf0, k1, k2, k3, k4⟩ := C56_radial hM hr2
  have hnb : ∀ᶠ s in nhds r, e.radialCoord s = .ok (Rf s) := by
    filter_upwards [lt_mem_nhds hr2] with s hs using h1 s hs
  have heq : ∀ᶠ s in nhds r, Rf s = Rf0 s := by
    filter_upwards [lt_mem_nhds hr2] with s hs
    exact Except.ok.inj ((h1 s hs).symm.trans (k1 s hs))
  have hR' : R' = (1 - 3 * e.M / r) / Real.sqrt (1 - 2 * e.M / r) ^ 3 :=
    h2.unique (k4.congr_of_eventuallyEq heq)
  have hRr : Rf r = Rf0 r := Except.ok.inj ((h1 r hr2).symm.trans (k1 r hr2))
  have hneed : opticalRR e.M r - R' ^ 2 = e.M * (4 * r - 9 * e.M) / (r ^ 2 * (1 - 2 * e.M / r) ^ 3) := by
    rw [hR', opticalRR, div_pow, show (Real.sqrt (1 - 2 * e.M / r) ^ 3) ^ 2 = (Real.sqrt (1 - 2 * e.M / r) ^ 2) ^ 3 by ring,
      hqq]
    have hs' : r - 2 * e.M ≠ 0 := by linarith
    have hx : 1 - 2 * e.M / r = (r - 2 * e.M) / r := by field_simp
    rw [hx]; field_simp; ring
  constructor
  · rintro ⟨S, S', g', a1, a2, a3, a4, a5⟩
    have hSR : ∀ᶠ s in nhds r, S s = Rf s := by
      filter_upwards [a1, hnb] with s b1 b2 using Except.ok.inj (b1.symm.trans b2)
    have hS' : S' = R' := a2.unique (h2.congr_of_eventuallyEq hSR)
    have hg : g' = g := Except.ok.inj (a3.symm.trans h4)
    rw [hS', hg, h5] at a5
    have hmul : (Rf r - 1) * (opticalRR e.M r - R' ^ 2) = 0 := by linear_combination a5
    rcases mul_eq_zero.1 hmul with h | h
    · left; rw [h1 r hr2]; congr 1; linarith
    · right
      rw [hneed] at h
      have hden : r ^ 2 * (1 - 2 * e.M / r) ^ 3 ≠ 0 := by positivity
      rw [div_eq_zero_iff] at h
      rcases h with h | h
      · rcases mul_eq_zero.1 h with h | h
        · exact absurd h hM.ne'
        · linarith
      · exact absurd h hden
  · intro h
    refine ⟨Rf, R', g, hnb, h2, h4, by rw [hRr]; exact k3, ?_⟩
    rw [h5]
    rcases h with h | h
    · have : Rf r = 1 := Except.ok.inj ((h1 r hr2).symm.trans h)
      rw [this]; ring
    · have h0 : opticalRR e.M r - R' ^ 2 = 0 := by
        rw [hneed, h]; ring
      have : R' ^ 2 = opticalRR e.M r := by linarith
      rw [h0, this]; ring

/-- **C56 is violated.** With M = 1 (10e22 kg) the surface drawn at r = 4 is not isometric to the optical geometry. -/
theorem C56_refuted : ¬ ∀ (e : Embedding) (r : ℝ), 0 < e.M → 9 * e.M / 4 ≤ r → r ≠ 3 * e.M → IsometricAt e r := by
  intro h
  have h1 := h ⟨1, 3.0001⟩ 4 (by norm_num) (by norm_num) (by norm_num)
  rw [C56_isometric_iff (by norm_num) (by norm_num) (by norm_num)] at h1
  rcases h1 with h1 | h1
  · rw [radialCoord_ok (by norm_num) (by norm_num)] at h1
    have h2 := Except.ok.inj h1
    norm_num at h2
    have h3 : (0:ℝ) ≤ Real.sqrt 2 := Real.sqrt_nonneg 2
    have h4 : Real.sqrt 2 * Real.sqrt 2 = 2 := Real.mul_self_sqrt (by norm_num)
    nlinarith
  · norm_num at h1

/-! ## Sampling -/

/-- Euler sums: `z₀ = 0`, `z_{k+1} = z_k + h · g_k`, a `nan` being absorbing. -/
noncomputable def eulerSum (h : ℝ) (g : ℕ → Py ℝ) : ℕ → Py ℝ
  | 0 => .ok 0
  | k + 1 => do return (← eulerSum h g k) + (← g k) * h

theorem body_iterate (h dr r0 : ℝ) (xs ys : List (Py ℝ)) (n : ℕ) :
    (e.body h dr)^[n] ⟨r0, .ok 0, xs, ys⟩ = ⟨r0 + n * dr, eulerSum h (fun k => e.gradient (r0 + k * dr)) n,
      xs ++ (List.range n).map (fun k => e.radialCoord (r0 + (k:ℕ) * dr)),
      ys ++ (List.range n).map (eulerSum h (fun k => e.gradient (r0 + k * dr)))⟩ := by
  induction n with
  | zero => simp [eulerSum]
  | succ n ih =>
    rw [Function.iterate_succ_apply', ih, Embedding.body]
    simp only [List.range_succ, List.map_append, List.map_cons, List.map_nil, List.append_assoc, Samples.mk.injEq]
    refine ⟨by push_cast; ring, rfl, trivial, trivial⟩

/-- The loop `while r < b: …; r = r + h` with `h > 0` runs ⌈(b − r₀)/h⌉ times. -/
theorem up_loop {h b r0 : ℝ} (hh : 0 < h) (xs ys : List (Py ℝ)) :
    While (fun s : Samples => s.r < b) (e.body h h) ⟨r0, .ok 0, xs, ys⟩
      ((e.body h h)^[⌈(b - r0) / h⌉₊] ⟨r0, .ok 0, xs, ys⟩) := by
  refine while_of _ ?_ (fun k hk => ?_)
  · rw [body_iterate]
    have := Nat.le_ceil ((b - r0) / h)
    rw [div_le_iff₀ hh] at this
    show ¬ (r0 + _ < b)
    linarith
  · rw [body_iterate]
    have := Nat.lt_ceil.1 hk
    rw [lt_div_iff₀ hh] at this
    show r0 + _ < b
    linarith

/-- The loop `while r > b: …; r = r - h` with `h > 0` runs ⌈(r₀ − b)/h⌉ times. -/
theorem down_loop {h b r0 : ℝ} (hh : 0 < h) (xs ys : List (Py ℝ)) :
    While (fun s : Samples => s.r > b) (e.body h (-h)) ⟨r0, .ok 0, xs, ys⟩
      ((e.body h (-h))^[⌈(r0 - b) / h⌉₊] ⟨r0, .ok 0, xs, ys⟩) := by
  refine while_of _ ?_ (fun k hk => ?_)
  · rw [body_iterate]
    have := Nat.le_ceil ((r0 - b) / h)
    rw [div_le_iff₀ hh] at this
    show ¬ (r0 + _ > b)
    linarith
  · rw [body_iterate]
    have := Nat.lt_ceil.1 hk
    rw [lt_div_iff₀ hh] at this
    show r0 + _ > b
    linarith

/-- **C77.** For a positive mass and scaling factor `get_values` terminates, and there is only one result: with step
h = M/alpha, the radius of the surface at r_init, r_init + h, … below 9M, followed by that at r_init, r_init − h, … above
9M/4, and the corresponding Euler sums of the gradient, each started from zero. -/
theorem C77_get_values (hM : 0 < e.M) {alpha : ℝ} (ha : 0 < alpha) (out : List (Py ℝ) × List (Py ℝ)) :
    e.GetValues alpha out ↔
      ∃ h n m, h = e.M / alpha ∧ n = ⌈(9 * e.M - e.rInit) / h⌉₊ ∧ m = ⌈(e.rInit - 9 * e.M / 4) / h⌉₊ ∧
      out.1 = (List.range n).map (fun k => e.radialCoord (e.rInit + (k:ℕ) * h)) ++
        (List.range m).map (fun k => e.radialCoord (e.rInit - (k:ℕ) * h)) ∧
      out.2 = (List.range n).map (eulerSum h fun k => e.gradient (e.rInit + (k:ℕ) * h)) ++
        (List.range m).map (eulerSum h fun k => e.gradient (e.rInit - (k:ℕ) * h)) := by
  have hh : 0 < e.M / alpha := div_pos hM ha
  have key : e.GetValues alpha ((List.range ⌈(9 * e.M - e.rInit) / (e.M / alpha)⌉₊).map
        (fun k => e.radialCoord (e.rInit + (k:ℕ) * (e.M / alpha))) ++
        (List.range ⌈(e.rInit - 9 * e.M / 4) / (e.M / alpha)⌉₊).map
          (fun k => e.radialCoord (e.rInit - (k:ℕ) * (e.M / alpha))),
      (List.range ⌈(9 * e.M - e.rInit) / (e.M / alpha)⌉₊).map
        (eulerSum (e.M / alpha) fun k => e.gradient (e.rInit + (k:ℕ) * (e.M / alpha))) ++
        (List.range ⌈(e.rInit - 9 * e.M / 4) / (e.M / alpha)⌉₊).map
          (eulerSum (e.M / alpha) fun k => e.gradient (e.rInit - (k:ℕ) * (e.M / alpha)))) := by
    refine ⟨_, npDiv_of ha.ne', _, up_loop hh [] [], _, down_loop hh _ _, ?_⟩
    rw [body_iterate, body_iterate]
    simp [mul_neg, ← sub_eq_add_neg]
  constructor
  · intro hv
    have huniq : ∀ o o', e.GetValues alpha o → e.GetValues alpha o' → o = o' := by
      rintro o o' ⟨h, h1, s1, h2, s2, h3, h4⟩ ⟨h', k1, t1, k2, t2, k3, k4⟩
      have e1 : h = h' := Except.ok.inj (h1.symm.trans k1)
      subst e1
      have e2 := while_unique h2 k2
      subst e2
      have e3 := while_unique h3 k3
      subst e3
      exact h4.trans k4.symm
    rw [huniq out _ hv key]
    exact ⟨_, _, _, rfl, rfl, rfl, rfl, rfl⟩
  · rintro ⟨h, n, m, rfl, rfl, rfl, h1, h2⟩
    have : out = (out.1, out.2) := rfl
    rw [this, h1, h2]; exact key

/-- The two lists have the same length, and every abscissa is a number: the sampled radii stay between 9M/4 and 9M (for a
body heavier than 0.0001/6 in the internal unit). -/
theorem C77_samples (hM : 0 < e.M) (hr : e.rInit = 3 * e.M + 0.0001) (hbig : e.rInit < 9 * e.M) {alpha : ℝ} (ha : 0 < alpha)
    (out : List (Py ℝ) × List (Py ℝ)) (hv : e.GetValues alpha out) :
    out.1.length = out.2.length ∧
    ∀ x ∈ out.1, ∃ r, 9 * e.M / 4 < r ∧ r < 9 * e.M ∧ x = .ok (r / Real.sqrt (1 - 2 * e.M / r)) := by
  obtain ⟨h, n, m, rfl, hn, hm, h1, h2⟩ := (C77_get_values hM ha out).1 hv
  have hh : 0 < e.M / alpha := div_pos hM ha
  refine ⟨by rw [h1, h2]; simp, ?_⟩
  intro x hx
  rw [h1, List.mem_append, List.mem_map, List.mem_map] at hx
  rcases hx with ⟨k, hk, rfl⟩ | ⟨k, hk, rfl⟩
  · rw [List.mem_range, hn] at hk
    have := Nat.lt_ceil.1 hk
    rw [lt_div_iff₀ hh] at this
    have hk0 : (0:ℝ) ≤ k * (e.M / alpha) := by positivity
    refine ⟨_, ?_, ?_, radialCoord_ok hM ?_⟩ <;> linarith
  · rw [List.mem_range, hm] at hk
    have := Nat.lt_ceil.1 hk
    rw [lt_div_iff₀ hh] at this
    have hk0 : (0:ℝ) ≤ k * (e.M / alpha) := by positivity
    refine ⟨_, ?_, ?_, radialCoord_ok hM ?_⟩ <;> linarith

example : ∃ e : Embedding, Embedding.new 1e24 = .ok e ∧ 0 < e.M ∧ e.rInit = 3 * e.M + 0.0001 ∧ e.rInit < 9 * e.M :=
  ⟨_, C77_new 1e24 (by norm_num), by norm_num, by norm_num, by norm_num⟩

/-- **C77.** A negative scaling factor makes the call loop forever. -/
theorem C77_negative_alpha (hM : 0 < e.M) (hbig : e.rInit < 9 * e.M) {alpha : ℝ} (ha : alpha < 0)
    (out : List (Py ℝ) × List (Py ℝ)) : ¬ e.GetValues alpha out := by
  rintro ⟨h, h1, s1, h2, -⟩
  rw [npDiv_of ha.ne] at h1
  have hh : h < 0 := by rw [← Except.ok.inj h1]; exact div_neg_of_pos_of_neg hM ha
  refine while_diverges (fun k => ?_) s1 h2
  rw [body_iterate]
  have : (k:ℝ) * h ≤ 0 := mul_nonpos_of_nonneg_of_nonpos (Nat.cast_nonneg k) hh.le
  show e.rInit + k * h < 9 * e.M
  linarith

/-- **C77.** On the inner branch the drawn heights go against `gradient`: between consecutive samples r_k and
r_{k+1} = r_k − h the slope Δz/Δr is minus the reported gradient (on the outer branch it is the gradient). -/
theorem C77_inner_slope (hM : 0 < e.M) {alpha : ℝ} (ha : 0 < alpha) (k : ℕ) (z z' g : ℝ)
    (hz : eulerSum (e.M / alpha) (fun k => e.gradient (e.rInit - (k:ℕ) * (e.M / alpha))) k = .ok z)
    (hz' : eulerSum (e.M / alpha) (fun k => e.gradient (e.rInit - (k:ℕ) * (e.M / alpha))) (k + 1) = .ok z')
    (hg : e.gradient (e.rInit - (k:ℕ) * (e.M / alpha)) = .ok g) :
    (z' - z) / ((e.rInit - ((k + 1 : ℕ):ℝ) * (e.M / alpha)) - (e.rInit - (k:ℝ) * (e.M / alpha))) = -g := by
  have hh : 0 < e.M / alpha := div_pos hM ha
  rw [eulerSum, hz, hg] at hz'
  have : z + g * (e.M / alpha) = z' := Except.ok.inj hz'
  rw [← this]
  push_cast
  have hd : e.rInit - ((k:ℝ) + 1) * (e.M / alpha) - (e.rInit - k * (e.M / alpha)) = -(e.M / alpha) := by ring
  rw [hd]; field_simp; ring

/-! ## The surface -/

theorem replicate_fold (z : List (Py ℝ)) (n : ℕ) :
    (List.range n).foldl (fun (Z : NdArr (Py ℝ)) _ => ⟨[(Z.data ++ z).length], Z.data ++ z⟩) ⟨[z.length], z⟩ =
      ⟨[(n + 1) * z.length], (List.replicate (n + 1) z).flatten⟩ := by
  induction n with
  | zero => simp
  | succ n ih =>
    rw [List.range_succ, List.foldl_append, ih]
    simp only [List.foldl_cons, List.foldl_nil]
    rw [List.replicate_succ' (n := n + 1), List.flatten_append]
    simp [List.length_flatten, Nat.add_mul]

theorem surfaceOf_Z (N : ℕ) (hN : 0 < N) (R z : List (Py ℝ)) :
    (surfaceOf N R z).2.2 = ⟨[N * z.length], (List.replicate N z).flatten⟩ := by
  obtain ⟨n, rfl⟩ : ∃ n, N = n + 1 := ⟨N - 1, by omega⟩
  show (List.range (n + 1 - 1)).foldl _ _ = _
  rw [Nat.add_sub_cancel, replicate_fold]

theorem surfaceOf_shape (N : ℕ) (R z : List (Py ℝ)) :
    (surfaceOf N R z).1.shape = [N, R.length] ∧ (surfaceOf N R z).2.1.shape = [N, R.length] := ⟨rfl, rfl⟩

/-- `get_values_surface` terminates with exactly one result for a positive mass and scaling factor. -/
theorem surface_result (hM : 0 < e.M) {alpha : ℝ} (ha : 0 < alpha) (out : NdArr (Py ℝ) × NdArr (Py ℝ) × NdArr (Py ℝ)) :
    e.GetValuesSurface alpha out ↔ ∃ h n, h = e.M / alpha ∧ n = ⌈(20 * e.M - e.rInit) / h⌉₊ ∧
      out = surfaceOf 60 ((List.range n).map (fun k => e.radialCoord (e.rInit + (k:ℕ) * h)))
        ((List.range n).map (eulerSum h fun k => e.gradient (e.rInit + (k:ℕ) * h))) := by
  have hh : 0 < e.M / alpha := div_pos hM ha
  have key := up_loop (e := e) (b := 20 * e.M) (r0 := e.rInit) hh [] []
  constructor
  · rintro ⟨h, h1, s1, h2, rfl⟩
    have e1 := Except.ok.inj ((npDiv_of ha.ne').symm.trans h1)
    subst e1
    rw [while_unique h2 key, body_iterate]
    exact ⟨_, _, rfl, rfl, by simp⟩
  · rintro ⟨h, n, rfl, rfl, rfl⟩
    refine ⟨_, npDiv_of ha.ne', _, key, ?_⟩
    rw [body_iterate]; simp

/-- Element `i·n + j` of a concatenation of lists of length `n`. -/
theorem flatMap_get {α β : Type} (f : α → List β) (n j : ℕ) (hj : j < n) (hf : ∀ a, (f a).length = n) (l : List α) (i : ℕ)
    (a : α) (ha : l[i]? = some a) : (l.flatMap f)[i * n + j]? = (f a)[j]? := by
  induction l generalizing i with
  | nil => simp at ha
  | cons b l ih =>
    rw [List.flatMap_cons]
    cases i with
    | zero =>
      have hb : b = a := by simpa using ha
      subst hb
      rw [Nat.zero_mul, Nat.zero_add, List.getElem?_append_left (by rw [hf]; exact hj)]
    | succ i =>
      rw [List.getElem?_append_right (by rw [hf, Nat.succ_mul]; omega), ← ih i (by simpa using ha), hf]
      congr 1; rw [Nat.succ_mul]; omega

theorem phi_get {N i : ℕ} (hi : i < N) : (phiValues N)[i]? = some (2 * Real.pi * i / ((N:ℝ) - 1)) := by
  unfold phiValues
  rw [List.getElem?_map, List.getElem?_range hi]; rfl

theorem surfaceOf_X (N : ℕ) (f : ℕ → Py ℝ) (n : ℕ) (z : List (Py ℝ)) {i j : ℕ} (hi : i < N) (hj : j < n) (R : ℝ)
    (hR : f j = .ok R) :
    (surfaceOf N ((List.range n).map f) z).1.data[i * n + j]? = some (.ok (R * Real.cos (2 * Real.pi * i / ((N:ℝ) - 1)))) := by
  show ((phiValues N).flatMap _)[_]? = _
  rw [flatMap_get _ n j hj (fun a => by rw [List.length_map, List.length_map, List.length_range]) (phiValues N) i _ (phi_get hi),
    List.getElem?_map, List.getElem?_map, List.getElem?_range hj]
  simp only [Option.map_some, hR, bind, Except.bind, pure, Except.pure]

theorem surfaceOf_Y (N : ℕ) (f : ℕ → Py ℝ) (n : ℕ) (z : List (Py ℝ)) {i j : ℕ} (hi : i < N) (hj : j < n) (R : ℝ)
    (hR : f j = .ok R) :
    (surfaceOf N ((List.range n).map f) z).2.1.data[i * n + j]? = some (.ok (R * Real.sin (2 * Real.pi * i / ((N:ℝ) - 1)))) := by
  show ((phiValues N).flatMap _)[_]? = _
  rw [flatMap_get _ n j hj (fun a => by rw [List.length_map, List.length_map, List.length_range]) (phiValues N) i _ (phi_get hi),
    List.getElem?_map, List.getElem?_map, List.getElem?_range hj]
  simp only [Option.map_some, hR, bind, Except.bind, pure, Except.pure]

theorem flatten_get {α : Type} (z : List α) (N i j : ℕ) (hi : i < N) (hj : j < z.length) :
    (List.replicate N z).flatten[i * z.length + j]? = z[j]? := by
  have h := flatMap_get (fun _ : Unit => z) z.length j hj (fun _ => rfl) (List.replicate N ()) i ()
    (by simp [hi])
  have h2 : (List.replicate N ()).flatMap (fun _ : Unit => z) = (List.replicate N z).flatten := by
    rw [List.flatMap_def, List.map_replicate]
  rw [← h2]; exact h

/-- **C78, what holds.** `get_values_surface` terminates; X and Y are 60 × n arrays and Z has as many elements; the
elements with flat index i·n + j are those of the point at angle 2πi/59 on the circle of radius R(r_j) and height z_j,
with r_j = r_init + j·h and z_j the Euler sum of the gradient.  (Missing from the claim: Z is not a 60 × n array, see
`C78_refuted`.) -/
theorem C78_surface_partial (hM : 0 < e.M) (hr : 2 * e.M < e.rInit) {alpha : ℝ} (ha : 0 < alpha) :
    ∃ out n h, e.GetValuesSurface alpha out ∧ h = e.M / alpha ∧ n = ⌈(20 * e.M - e.rInit) / h⌉₊ ∧
      out.1.shape = [60, n] ∧ out.2.1.shape = [60, n] ∧ out.2.2.data.length = 60 * n ∧
      (∀ i j, i < 60 → j < n → ∃ R, e.radialCoord (e.rInit + (j:ℝ) * h) = .ok R ∧
        out.1.data[i * n + j]? = some (.ok (R * Real.cos (2 * Real.pi * i / 59))) ∧
        out.2.1.data[i * n + j]? = some (.ok (R * Real.sin (2 * Real.pi * i / 59))) ∧
        out.2.2.data[i * n + j]? = some (eulerSum h (fun k => e.gradient (e.rInit + (k:ℕ) * h)) j)) := by
  refine ⟨_, _, _, (surface_result hM ha _).2 ⟨_, _, rfl, rfl, rfl⟩, rfl, rfl, ?_, ?_, ?_, ?_⟩
  · rw [(surfaceOf_shape _ _ _).1, List.length_map, List.length_range]
  · rw [(surfaceOf_shape _ _ _).2, List.length_map, List.length_range]
  · rw [surfaceOf_Z 60 (by omega), List.length_flatten, List.map_replicate, List.sum_replicate, List.length_map,
      List.length_range, smul_eq_mul]
  · intro i j hi hj
    have hh : 0 < e.M / alpha := div_pos hM ha
    have hj0 : (0:ℝ) ≤ j * (e.M / alpha) := by positivity
    have hR := radialCoord_ok hM (show 2 * e.M < e.rInit + (j:ℝ) * (e.M / alpha) by linarith)
    have h59 : ((60:ℕ):ℝ) - 1 = 59 := by norm_num
    refine ⟨_, hR, ?_, ?_, ?_⟩
    · rw [surfaceOf_X 60 _ _ _ hi hj _ hR, h59]
    · rw [surfaceOf_Y 60 _ _ _ hi hj _ hR, h59]
    · rw [surfaceOf_Z 60 (by omega)]
      generalize hz : (List.range ⌈(20 * e.M - e.rInit) / (e.M / alpha)⌉₊).map
        (eulerSum (e.M / alpha) fun k => e.gradient (e.rInit + (k:ℕ) * (e.M / alpha))) = z
      have hlen : z.length = ⌈(20 * e.M - e.rInit) / (e.M / alpha)⌉₊ := by
        rw [← hz, List.length_map, List.length_range]
      have hzj : z[j]? = some (eulerSum (e.M / alpha) (fun k => e.gradient (e.rInit + (k:ℕ) * (e.M / alpha))) j) := by
        rw [← hz, List.getElem?_map, List.getElem?_range hj]; rfl
      rw [← hlen] at hj ⊢
      rw [flatten_get z 60 i j hi hj, hzj]

example : 2 * (⟨1, 3.0001⟩ : Embedding).M < (⟨1, 3.0001⟩ : Embedding).rInit := by norm_num

/-- **C78 is violated.** X, Y and Z do not have the same shape: the reshaped Z is thrown away. -/
theorem C78_refuted (hM : 0 < e.M) {alpha : ℝ} (ha : 0 < alpha) (out : NdArr (Py ℝ) × NdArr (Py ℝ) × NdArr (Py ℝ))
    (hv : e.GetValuesSurface alpha out) : out.2.2.shape ≠ out.1.shape := by
  obtain ⟨h, n, rfl, rfl, rfl⟩ := (surface_result hM ha out).1 hv
  rw [surfaceOf_Z 60 (by omega), (surfaceOf_shape _ _ _).1]
  intro h
  have := congrArg List.length h
  simp at this

end Einpy.Misc
