import Mathlib.Analysis.SpecialFunctions.Pow.Real
import Mathlib.Analysis.SpecialFunctions.Exp
import Mathlib.Analysis.Complex.Exponential
import Mathlib.Analysis.Complex.Norm
import Mathlib.Analysis.Complex.Trigonometric
import Mathlib.Analysis.SpecificLimits.Basic
import Verif.Py.Basic
import Verif.Misc.While
import Verif.Misc.Shadow

/-!
# `plotting/fractal.py` (C58, C82)

Floating-point numbers are idealised as real (complex) numbers.  The plotly figure itself is not modelled, only the data of
its heat maps and the visibility lists of its slider.
-/

namespace Einpy.Misc

/-- The local variables of the loop in `_julia`. -/
structure JState where
  z : ℂ
  it : ℕ

/-- fractal.py:19-23: the loop of `_julia`, as a relation between the start value of `z` and the final state. -/
def JuliaLoop (c : ℂ) (zabs_max : ℝ) (iter_max : ℕ) (z : ℂ) (s : JState) : Prop :=
  While (fun s : JState => ‖s.z‖ < zabs_max ∧ s.it < iter_max) (fun s => ⟨s.z ^ 2 + c, s.it + 1⟩) ⟨z, 0⟩ s

/-- An image: a numpy array of floats with two axes. -/
structure Img where
  w : ℕ
  h : ℕ
  at' : ℕ → ℕ → ℝ

/-- `np.zeros((width, height))` -/
def Img.zeros (w h : ℕ) : Img := ⟨w, h, fun _ _ => 0⟩

/-- `A[i, j] = v` -/
def Img.set (A : Img) (i j : ℕ) (v : ℝ) : Img := { A with at' := fun a b => if a = i ∧ b = j then v else A.at' a b }

/-- The parameters that `_fractal_img` hands on to `_julia`. -/
structure JParams where
  c : ℂ
  zabs_max : ℝ
  w : ℕ
  h : ℕ
  xmin : ℝ
  xmax : ℝ
  ymin : ℝ
  ymax : ℝ
  iter_max : ℕ

/-- fractal.py:14-20: the start value of pixel (i, j). -/
noncomputable def JParams.start (p : JParams) (i j : ℕ) : ℂ :=
  ((i:ℝ) / (p.w:ℝ) * (p.xmax - p.xmin) + p.xmin : ℝ) +
    Complex.I * (((j:ℝ) / (p.h:ℝ) * (p.ymax - p.ymin) + p.ymin : ℝ) : ℂ)

/-- fractal.py:13-24 `_julia`: the array after the call, or the exception raised.  (Only called with width and height
nonzero, so that the divisions of line 20 do not fail.) -/
def Julia (p : JParams) (i j : ℕ) (A : Img) (out : Py Img) : Prop :=
  ∃ s, JuliaLoop p.c p.zabs_max p.iter_max (p.start i j) s ∧
    out = if p.iter_max = 0 then .error .zeroDivisionError
      else .ok (A.set i j (((s.it:ℝ) / (p.iter_max:ℝ)) ^ (0.2:ℝ)))

/-- `for x in l: body`, as a relation; an exception ends the loop. -/
inductive ForIn {α σ : Type} (body : α → σ → Py σ → Prop) : List α → σ → Py σ → Prop
  | nil (s : σ) : ForIn body [] s (.ok s)
  | raise (x : α) (l : List α) (s : σ) (e : PyErr) : body x s (.error e) → ForIn body (x :: l) s (.error e)
  | step (x : α) (l : List α) (s s' : σ) (r : Py σ) : body x s (.ok s') → ForIn body l s' r → ForIn body (x :: l) s r

/-- fractal.py:27-41 `_fractal_img`. -/
noncomputable def fractalParams (w h : ℕ) (angle zabs_max : ℝ) (iter_max : ℕ) (xmin xmax ymin ymax : ℝ) : JParams :=
  ⟨0.80 * Complex.exp (Complex.I * (angle:ℂ)), zabs_max, w, h, xmin, xmax, ymin, ymax, iter_max⟩

/-- fractal.py:36-41: the two nested loops of `_fractal_img`. -/
def FractalImg (p : JParams) (out : Py Img) : Prop :=
  ForIn (fun i A r => ForIn (fun j A r => Julia p i j A r) (List.range p.h) A r) (List.range p.w) (Img.zeros p.w p.h) out

/-- fractal.py:85-89: the argument of the `i`th slider step. -/
def sliderStep (n i : ℕ) : List Bool := (List.replicate n false).set i true

/-- fractal.py:84-89: the slider steps of a figure with `n` traces. -/
def sliderSteps (n : ℕ) : List (List Bool) := (List.range n).map (sliderStep n)

/-! ## Specification -/

/-- The orbit of a point under z ↦ z² + c. -/
def orbit (c z : ℂ) : ℕ → ℂ
  | 0 => z
  | n + 1 => orbit c z n ^ 2 + c

/-- `n` is the escape time of `z`, cut off at `N`: the orbit stays inside the disc of radius `R` before time `n`, and at
time `n` it is outside or the limit has been reached. -/
def EscapeTime (c : ℂ) (R : ℝ) (N : ℕ) (z : ℂ) (n : ℕ) : Prop :=
  n ≤ N ∧ (∀ k, k < n → ‖orbit c z k‖ < R) ∧ (n = N ∨ R ≤ ‖orbit c z n‖)

/-! ## C58 -/

theorem jstate_iterate (c z : ℂ) (n : ℕ) :
    (fun s : JState => (⟨s.z ^ 2 + c, s.it + 1⟩ : JState))^[n] ⟨z, 0⟩ = ⟨orbit c z n, n⟩ := by
  induction n with
  | zero => rfl
  | succ n ih => rw [Function.iterate_succ_apply', ih]; rfl

theorem escape_unique {c : ℂ} {R : ℝ} {N : ℕ} {z : ℂ} {n m : ℕ} (hn : EscapeTime c R N z n) (hm : EscapeTime c R N z m) :
    n = m := by
  obtain ⟨h1, h2, h3⟩ := hn
  obtain ⟨k1, k2, k3⟩ := hm
  rcases lt_trichotomy n m with h | h | h
  · rcases h3 with h3 | h3
    · omega
    · exact absurd (k2 n h) (not_lt.2 h3)
  · exact h
  · rcases k3 with h3 | h3
    · omega
    · exact absurd (h2 m h) (not_lt.2 h3)

theorem escape_exists (c : ℂ) (R : ℝ) (N : ℕ) (z : ℂ) : ∃ n, EscapeTime c R N z n := by
  classical
  have h : ∃ n, n = N ∨ R ≤ ‖orbit c z n‖ := ⟨N, Or.inl rfl⟩
  refine ⟨Nat.find h, ?_, ?_, Nat.find_spec h⟩
  · exact Nat.find_min' h (Or.inl rfl)
  · intro k hk
    have := Nat.find_min h hk
    push Not at this
    exact this.2

/-- **C58.** The loop of `_julia` always terminates, and what it has counted is the escape time of the start value, at most
the iteration limit. -/
theorem C58_terminates (c : ℂ) (R : ℝ) (N : ℕ) (z : ℂ) :
    (∃! s, JuliaLoop c R N z s) ∧
    ∀ s, JuliaLoop c R N z s ↔ EscapeTime c R N z s.it ∧ s.z = orbit c z s.it := by
  have key : ∀ s, JuliaLoop c R N z s ↔ EscapeTime c R N z s.it ∧ s.z = orbit c z s.it := by
    intro s
    unfold JuliaLoop
    rw [while_iff]
    constructor
    · rintro ⟨n, h1, h2, h3⟩
      rw [jstate_iterate] at h1 h2
      rw [h1]
      have h3' : ∀ k, k < n → ‖orbit c z k‖ < R ∧ k < N := by
        intro k hk
        have := h3 k hk
        rw [jstate_iterate] at this
        exact this
      simp only [not_and, not_lt] at h2
      have hnN : n ≤ N := by
        by_contra h
        push Not at h
        exact absurd (h3' N h).2 (lt_irrefl N)
      refine ⟨⟨hnN, fun k hk => (h3' k hk).1, ?_⟩, rfl⟩
      by_cases hn : n = N
      · exact Or.inl hn
      · refine Or.inr ?_
        by_contra hlt
        push Not at hlt
        have := h2 hlt
        omega
    · rintro ⟨⟨h1, h2, h3⟩, h4⟩
      refine ⟨s.it, ?_, ?_, ?_⟩
      · rw [jstate_iterate, ← h4]
      · rw [jstate_iterate]
        rintro ⟨ha, hb⟩
        rcases h3 with h3 | h3
        · simp only at hb; omega
        · exact absurd ha (not_lt.2 h3)
      · intro k hk
        rw [jstate_iterate]
        exact ⟨h2 k hk, lt_of_lt_of_le hk h1⟩
  refine ⟨?_, key⟩
  obtain ⟨n, hn⟩ := escape_exists c R N z
  refine ⟨⟨orbit c z n, n⟩, (key _).2 ⟨hn, rfl⟩, ?_⟩
  intro s hs
  obtain ⟨h1, h2⟩ := (key s).1 hs
  have := escape_unique h1 hn
  cases s
  simp only at this h2
  subst this; rw [h2]

/-- The pixel value of an escape time. -/
noncomputable def pixel (N n : ℕ) : ℝ := ((n:ℝ) / (N:ℝ)) ^ (0.2:ℝ)

theorem pixel_bounds {N n : ℕ} (h : n ≤ N) : 0 ≤ pixel N n ∧ pixel N n ≤ 1 := by
  unfold pixel
  have h0 : (0:ℝ) ≤ (n:ℝ) / (N:ℝ) := by positivity
  have h1 : (n:ℝ) / (N:ℝ) ≤ 1 := by
    apply div_le_one_of_le₀ (by exact_mod_cast h) (by positivity)
  exact ⟨Real.rpow_nonneg h0 _, Real.rpow_le_one h0 h1 (by norm_num)⟩

theorem pixel_lt {N n m : ℕ} (hN : 0 < N) (h : n < m) : pixel N n < pixel N m := by
  unfold pixel
  have hN' : (0:ℝ) < N := by exact_mod_cast hN
  refine Real.rpow_lt_rpow (by positivity) ?_ (by norm_num)
  exact div_lt_div_of_pos_right (by exact_mod_cast h) hN'

theorem pixel_full {N : ℕ} (hN : 0 < N) : pixel N N = 1 := by
  unfold pixel
  have hN' : (N:ℝ) ≠ 0 := by exact_mod_cast hN.ne'
  rw [div_self hN', Real.one_rpow]

theorem pixel_zero (N : ℕ) : pixel N 0 = 0 := by
  unfold pixel
  rw [Nat.cast_zero, zero_div, Real.zero_rpow (by norm_num)]

theorem julia_iff {p : JParams} (hN : 0 < p.iter_max) (i j : ℕ) (A : Img) (out : Py Img) :
    Julia p i j A out ↔ ∃ n, EscapeTime p.c p.zabs_max p.iter_max (p.start i j) n ∧
      out = .ok (A.set i j (pixel p.iter_max n)) := by
  unfold Julia
  constructor
  · rintro ⟨s, hs, h⟩
    rw [if_neg hN.ne'] at h
    exact ⟨s.it, (((C58_terminates _ _ _ _).2 s).1 hs).1, h⟩
  · rintro ⟨n, hn, h⟩
    refine ⟨⟨orbit p.c (p.start i j) n, n⟩, ((C58_terminates _ _ _ _).2 _).2 ⟨hn, rfl⟩, ?_⟩
    rw [if_neg hN.ne']; exact h

/-- **C58.** For a positive iteration limit `_julia` writes exactly one value into the array, at pixel (i, j), changing
nothing else.  The value lies in [0, 1]; it is 1 exactly if the orbit of the start value stays inside the disc at all
tested times, 0 exactly if the start value itself is outside, and it increases strictly with the escape time. -/
theorem C58_pixel {p : JParams} (hN : 0 < p.iter_max) (i j : ℕ) (A : Img) :
    ∃ v, (∀ out, Julia p i j A out ↔ out = .ok (A.set i j v)) ∧ 0 ≤ v ∧ v ≤ 1 ∧
      (v = 1 ↔ ∀ k, k < p.iter_max → ‖orbit p.c (p.start i j) k‖ < p.zabs_max) ∧
      (v = 0 ↔ p.zabs_max ≤ ‖p.start i j‖) ∧
      (∀ n, EscapeTime p.c p.zabs_max p.iter_max (p.start i j) n → v ^ 5 = (n:ℝ) / (p.iter_max:ℝ)) := by
  obtain ⟨n, hn⟩ := escape_exists p.c p.zabs_max p.iter_max (p.start i j)
  refine ⟨pixel p.iter_max n, ?_, (pixel_bounds hn.1).1, (pixel_bounds hn.1).2, ?_, ?_, ?_⟩
  · intro out
    rw [julia_iff hN]
    constructor
    · rintro ⟨m, hm, h⟩
      rw [escape_unique hm hn] at h; exact h
    · intro h; exact ⟨n, hn, h⟩
  · constructor
    · intro h
      by_cases hnN : n = p.iter_max
      · intro k hk; exact hn.2.1 k (by omega)
      · have := pixel_lt hN (lt_of_le_of_ne hn.1 hnN)
        rw [pixel_full hN, h] at this
        exact absurd this (lt_irrefl 1)
    · intro h
      have : EscapeTime p.c p.zabs_max p.iter_max (p.start i j) p.iter_max := ⟨le_rfl, h, Or.inl rfl⟩
      rw [escape_unique hn this, pixel_full hN]
  · constructor
    · intro h
      by_cases hn0 : n = 0
      · subst hn0
        rcases hn.2.2 with h' | h'
        · omega
        · exact h'
      · have := pixel_lt hN (Nat.pos_of_ne_zero hn0)
        rw [pixel_zero, h] at this
        exact absurd this (lt_irrefl 0)
    · intro h
      have : EscapeTime p.c p.zabs_max p.iter_max (p.start i j) 0 :=
        ⟨Nat.zero_le _, fun k hk => absurd hk (Nat.not_lt_zero k), Or.inr h⟩
      rw [escape_unique hn this, pixel_zero]
  · intro m hm
    rw [escape_unique hm hn]
    unfold pixel
    have h0 : (0:ℝ) ≤ (n:ℝ) / (p.iter_max:ℝ) := by positivity
    rw [← Real.rpow_natCast, ← Real.rpow_mul h0]
    norm_num

/-- **C58.** A zero iteration limit makes `_julia` raise ZeroDivisionError, the array being left as it was. -/
theorem C58_zero_limit {p : JParams} (hN : p.iter_max = 0) (i j : ℕ) (A : Img) (out : Py Img) :
    Julia p i j A out ↔ out = .error .zeroDivisionError := by
  unfold Julia
  simp only [if_pos hN]
  constructor
  · rintro ⟨s, -, h⟩; exact h
  · intro h
    obtain ⟨s, hs, -⟩ := (C58_terminates p.c p.zabs_max p.iter_max (p.start i j)).1
    exact ⟨s, hs, h⟩

theorem orbit_add (c z : ℂ) (n k : ℕ) : orbit c z (n + k) = orbit c (orbit c z n) k := by
  induction k with
  | zero => rfl
  | succ k ih => rw [← Nat.add_assoc, orbit, ih]; rfl

theorem orbit_growth {c z : ℂ} (hc : ‖c‖ ≤ 1) (hz : 2 ≤ ‖z‖) (k : ℕ) : (3 / 2 : ℝ) ^ k * ‖z‖ ≤ ‖orbit c z k‖ := by
  induction k with
  | zero => simp [orbit]
  | succ k ih =>
    have h1 : 2 ≤ ‖orbit c z k‖ := by
      refine le_trans ?_ ih
      have : (1:ℝ) ≤ (3 / 2 : ℝ) ^ k := one_le_pow₀ (by norm_num)
      nlinarith
    have h2 : ‖orbit c z k‖ ^ 2 - ‖c‖ ≤ ‖orbit c z (k + 1)‖ := by
      have := norm_sub_le (orbit c z k ^ 2 + c) c
      rw [add_sub_cancel_right, norm_pow] at this
      rw [orbit]; linarith
    calc (3 / 2 : ℝ) ^ (k + 1) * ‖z‖ = 3 / 2 * ((3 / 2 : ℝ) ^ k * ‖z‖) := by ring
      _ ≤ 3 / 2 * ‖orbit c z k‖ := by linarith
      _ ≤ ‖orbit c z k‖ ^ 2 - ‖c‖ := by nlinarith
      _ ≤ _ := h2

/-- **C58.** The picture is sound: with an escape radius of at least 2 (the library uses 20) a pixel with a value below 1
is not in the filled Julia set of z² + c, for the constants c = 0.8·exp(i·angle) used: its orbit tends to infinity. -/
theorem C58_sound {w h : ℕ} {angle R : ℝ} {N : ℕ} {x1 x2 y1 y2 : ℝ} (hR : 2 ≤ R) (hN : 0 < N) (i j : ℕ) (A B : Img)
    (hj : Julia (fractalParams w h angle R N x1 x2 y1 y2) i j A (.ok B)) (hv : B.at' i j < 1) :
    Filter.Tendsto (fun k => ‖orbit (0.80 * Complex.exp (Complex.I * angle))
      ((fractalParams w h angle R N x1 x2 y1 y2).start i j) k‖) Filter.atTop Filter.atTop := by
  set p := fractalParams w h angle R N x1 x2 y1 y2 with hp
  have hN' : 0 < p.iter_max := hN
  obtain ⟨n, hn, hB⟩ := (julia_iff hN' i j A _).1 hj
  have hB' : B = A.set i j (pixel p.iter_max n) := Except.ok.inj hB
  have hval : B.at' i j = pixel p.iter_max n := by
    rw [hB']; show (if i = i ∧ j = j then _ else _) = _
    rw [if_pos ⟨rfl, rfl⟩]
  rw [hval] at hv
  have hne : n ≠ p.iter_max := by
    rintro h; rw [h, pixel_full hN'] at hv; exact lt_irrefl _ hv
  have hesc : R ≤ ‖orbit p.c (p.start i j) n‖ := by
    rcases hn.2.2 with h | h
    · exact absurd h hne
    · exact h
  have hc : ‖p.c‖ ≤ 1 := by
    show ‖(0.80 : ℂ) * Complex.exp (Complex.I * (angle:ℂ))‖ ≤ 1
    rw [norm_mul, mul_comm Complex.I, Complex.norm_exp_ofReal_mul_I]
    norm_num
  show Filter.Tendsto (fun k => ‖orbit p.c (p.start i j) k‖) Filter.atTop Filter.atTop
  rw [← Filter.tendsto_add_atTop_iff_nat n]
  have h2 : (2:ℝ) ≤ ‖orbit p.c (p.start i j) n‖ := le_trans hR hesc
  refine Filter.tendsto_atTop_mono (f := fun k => (3 / 2 : ℝ) ^ k) (fun k => ?_)
    (tendsto_pow_atTop_atTop_of_one_lt (by norm_num))
  rw [Nat.add_comm, orbit_add]
  refine le_trans ?_ (orbit_growth hc h2 k)
  have : (0:ℝ) ≤ (3 / 2 : ℝ) ^ k := by positivity
  nlinarith

/-! ## C82 -/

/-- A loop over `List.range n` whose body writes one value at row/column `x`. -/
theorem forIn_det {α σ : Type} {body : α → σ → Py σ → Prop} {f : α → σ → σ} (l : List α)
    (hb : ∀ x ∈ l, ∀ s r, body x s r ↔ r = .ok (f x s)) (s : σ) (r : Py σ) :
    ForIn body l s r ↔ r = .ok (l.foldl (fun s x => f x s) s) := by
  induction l generalizing s with
  | nil =>
    constructor
    · intro h; cases h; rfl
    · rintro rfl; exact .nil s
  | cons x l ih =>
    have hb' : ∀ y ∈ l, ∀ s r, body y s r ↔ r = .ok (f y s) := fun y hy => hb y (List.mem_cons_of_mem _ hy)
    constructor
    · intro h
      cases h with
      | raise _ _ _ e h => exact absurd ((hb x List.mem_cons_self s _).1 h) (by simp)
      | step _ _ _ s' _ h1 h2 =>
        have := Except.ok.inj ((hb x List.mem_cons_self s _).1 h1)
        subst this
        exact (ih hb' _).1 h2
    · intro h
      exact .step x l s _ r ((hb x List.mem_cons_self s _).2 rfl) ((ih hb' _).2 h)

theorem fold_cols (v : ℕ → ℝ) (i n : ℕ) (A : Img) :
    (List.range n).foldl (fun A j => A.set i j (v j)) A =
      ⟨A.w, A.h, fun a b => if a = i ∧ b < n then v b else A.at' a b⟩ := by
  induction n with
  | zero => simp
  | succ n ih =>
    rw [List.range_succ, List.foldl_append, ih]
    simp only [List.foldl_cons, List.foldl_nil, Img.set, Img.mk.injEq, true_and]
    funext a b
    by_cases ha : a = i
    · by_cases hb : b = n
      · subst hb; simp [ha]
      · have : (b < n + 1) ↔ b < n := by omega
        simp [ha, hb, this]
    · simp [ha]

theorem fold_rows (v : ℕ → ℕ → ℝ) (n h : ℕ) (A : Img) :
    (List.range n).foldl (fun A i => (List.range h).foldl (fun A j => A.set i j (v i j)) A) A =
      ⟨A.w, A.h, fun a b => if a < n ∧ b < h then v a b else A.at' a b⟩ := by
  induction n with
  | zero => simp
  | succ n ih =>
    rw [List.range_succ, List.foldl_append, ih]
    simp only [List.foldl_cons, List.foldl_nil]
    rw [fold_cols]
    simp only [Img.mk.injEq, true_and]
    funext a b
    by_cases ha : a = n
    · subst ha; by_cases hb : b < h <;> simp [hb]
    · have : (a < n + 1) ↔ a < n := by omega
      simp [ha, this]

/-- **C82.** For a positive iteration limit the image exists, is unique, has the requested size, and pixel (i, j) is the
normalised escape time of its own grid point; it does not depend on any other pixel. -/
theorem C82_image {p : JParams} (hN : 0 < p.iter_max) :
    ∃ A, (∀ out, FractalImg p out ↔ out = .ok A) ∧ A.w = p.w ∧ A.h = p.h ∧
      ∀ i j, i < p.w → j < p.h → ∃ n, EscapeTime p.c p.zabs_max p.iter_max (p.start i j) n ∧
        A.at' i j = ((n:ℝ) / (p.iter_max:ℝ)) ^ (1 / 5 : ℝ) := by
  choose n hn using fun i j => escape_exists p.c p.zabs_max p.iter_max (p.start i j)
  have hj : ∀ i j A out, Julia p i j A out ↔ out = .ok (A.set i j (pixel p.iter_max (n i j))) := by
    intro i j A out
    rw [julia_iff hN]
    constructor
    · rintro ⟨m, hm, h⟩; rw [escape_unique hm (hn i j)] at h; exact h
    · intro h; exact ⟨_, hn i j, h⟩
  refine ⟨(List.range p.w).foldl
      (fun A i => (List.range p.h).foldl (fun A j => A.set i j (pixel p.iter_max (n i j))) A) (Img.zeros p.w p.h),
    fun out => ?_, ?_, ?_, ?_⟩
  · unfold FractalImg
    refine forIn_det (f := fun i (A : Img) => (List.range p.h).foldl (fun (A : Img) j => A.set i j (pixel p.iter_max (n i j))) A) _ ?_ _ _
    intro i _ A r
    exact forIn_det (f := fun j (A : Img) => A.set i j (pixel p.iter_max (n i j))) _ (fun j _ A r => hj i j A r) A r
  · rw [fold_rows]; rfl
  · rw [fold_rows]; rfl
  · intro i j hi hj'
    refine ⟨n i j, hn i j, ?_⟩
    rw [fold_rows]
    show (if i < p.w ∧ j < p.h then _ else _) = _
    rw [if_pos ⟨hi, hj'⟩, pixel]
    norm_num

/-- **C82.** With a zero iteration limit a nonempty image cannot be computed: ZeroDivisionError. -/
theorem C82_zero_limit {p : JParams} (hN : p.iter_max = 0) (hw : 0 < p.w) (hh : 0 < p.h) (out : Py Img) :
    FractalImg p out ↔ out = .error .zeroDivisionError := by
  obtain ⟨w, hw'⟩ : ∃ l, List.range p.w = 0 :: l := by
    cases h : p.w with
    | zero => omega
    | succ w => exact ⟨_, List.range_succ_eq_map⟩
  obtain ⟨l, hl⟩ : ∃ l, List.range p.h = 0 :: l := by
    cases h : p.h with
    | zero => omega
    | succ w => exact ⟨_, List.range_succ_eq_map⟩
  unfold FractalImg
  rw [hw', hl]
  have inner : ∀ i A r, ForIn (fun j A r => Julia p i j A r) (0 :: l) A r ↔ r = .error .zeroDivisionError := by
    intro i A r
    constructor
    · intro h
      cases h with
      | raise _ _ _ e h => exact (C58_zero_limit hN i 0 A _).1 h
      | step _ _ _ s' _ h1 h2 => exact absurd ((C58_zero_limit hN i 0 A _).1 h1) (by simp)
    · rintro rfl; exact .raise _ _ _ _ ((C58_zero_limit hN i 0 A _).2 rfl)
  constructor
  · intro h
    cases h with
    | raise _ _ _ e h => exact (inner _ _ _).1 h
    | step _ _ _ s' _ h1 h2 => exact absurd ((inner _ _ _).1 h1) (by simp)
  · rintro rfl; exact .raise _ _ _ _ ((inner _ _ _).2 rfl)

theorem escape_neg {c : ℂ} {R : ℝ} {N : ℕ} {z : ℂ} {n : ℕ} : EscapeTime c R N (-z) n ↔ EscapeTime c R N z n := by
  have h : ∀ k, ‖orbit c (-z) k‖ = ‖orbit c z k‖ := by
    intro k
    cases k with
    | zero => exact norm_neg z
    | succ k =>
      have : ∀ k, orbit c (-z) (k + 1) = orbit c z (k + 1) := by
        intro k
        induction k with
        | zero => simp [orbit]
        | succ k ih => rw [orbit, ih]; rfl
      rw [this]
  simp only [EscapeTime, h]

/-- **C82.** For ranges symmetric about zero the image has the point symmetry of the Julia set: pixels (i, j) and
(w − i, h − j) have the same value. -/
theorem C82_symmetric {p : JParams} (hN : 0 < p.iter_max) (hx : p.xmin = -p.xmax) (hy : p.ymin = -p.ymax) {A : Img}
    (hA : FractalImg p (.ok A)) (i j : ℕ) (hi : 0 < i) (hiw : i < p.w) (hj : 0 < j) (hjh : j < p.h) :
    A.at' (p.w - i) (p.h - j) = A.at' i j := by
  obtain ⟨B, h1, _, _, h4⟩ := C82_image hN
  have hAB : A = B := Except.ok.inj ((h1 _).1 hA)
  subst hAB
  obtain ⟨n, hn, hv⟩ := h4 i j hiw hjh
  obtain ⟨m, hm, hv'⟩ := h4 (p.w - i) (p.h - j) (by omega) (by omega)
  have hs : p.start (p.w - i) (p.h - j) = -p.start i j := by
    unfold JParams.start
    rw [hx, hy]
    have hw : (p.w:ℝ) ≠ 0 := by
      have : 0 < p.w := by omega
      exact_mod_cast this.ne'
    have hh : (p.h:ℝ) ≠ 0 := by
      have : 0 < p.h := by omega
      exact_mod_cast this.ne'
    have e1 : ((p.w - i : ℕ):ℝ) / p.w * (p.xmax - -p.xmax) + -p.xmax
        = -((i:ℝ) / p.w * (p.xmax - -p.xmax) + -p.xmax) := by
      rw [Nat.cast_sub hiw.le]; field_simp; ring
    have e2 : ((p.h - j : ℕ):ℝ) / p.h * (p.ymax - -p.ymax) + -p.ymax
        = -((j:ℝ) / p.h * (p.ymax - -p.ymax) + -p.ymax) := by
      rw [Nat.cast_sub hjh.le]; field_simp; ring
    rw [e1, e2, Complex.ofReal_neg, Complex.ofReal_neg]
    ring
  rw [hs, escape_neg] at hm
  rw [hv, hv', escape_unique hm hn]

example : ∃ p : JParams, p = fractalParams 384 384 2.75 20 64 (-1.6) 1.6 (-1.6) 1.6 ∧ 0 < p.iter_max ∧ p.xmin = -p.xmax ∧
    p.ymin = -p.ymax ∧ (2:ℝ) ≤ p.zabs_max :=
  ⟨_, rfl, by show 0 < 64; omega, rfl, rfl, by show (2:ℝ) ≤ 20; norm_num⟩

/-- **C82.** Every position of the slider shows exactly one of the traces, and every trace is shown by one position. -/
theorem C82_slider (n : ℕ) : (sliderSteps n).length = n ∧
    ∀ i, i < n → ∃ l, (sliderSteps n)[i]? = some l ∧ l.length = n ∧ ∀ k, k < n → l[k]? = some (decide (k = i)) := by
  refine ⟨by simp [sliderSteps], fun i hi => ⟨sliderStep n i, ?_, by simp [sliderStep], fun k hk => ?_⟩⟩
  · rw [sliderSteps, List.getElem?_map, List.getElem?_range hi]; rfl
  · unfold sliderStep
    rw [List.getElem?_set]
    by_cases h : i = k
    · subst h; simp [hi]
    · rw [if_neg h, List.getElem?_replicate, if_pos hk]
      have : ¬ k = i := fun h' => h h'.symm
      simp [this]

end Einpy.Misc
