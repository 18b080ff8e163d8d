import Verif.Misc.Plot
import Verif.Geodesic.Total

/-!
# C97, C98: the animation, and which coordinates the plotters draw
-/

namespace Einpy.Misc
open Einpy.Coord

/-- Python's `max` of a list of numbers: `ValueError` for the empty list. -/
noncomputable def pyMax : List ℝ → Py ℝ
  | [] => .error .valueError
  | x :: xs => .ok (xs.foldl max x)

/-- Python's `min` of a list of numbers. -/
noncomputable def pyMin : List ℝ → Py ℝ
  | [] => .error .valueError
  | x :: xs => .ok (xs.foldl min x)

/-- static.py:341-350: the limits of one axis, with a margin of a fifth of the extent on both sides. -/
noncomputable def axisLimits (x : List ℝ) : Py (ℝ × ℝ) := do
  let x_max ← pyMax x
  let x_min ← pyMin x
  let margin := (x_max - x_min) * 0.2
  return (x_min - margin, x_max + margin)

/-- What `animate` hands to matplotlib: the axes with the black hole, their limits, the number of frames, and the points
of the line in frame number `num`. -/
structure Animation where
  data : List Trace
  xlim : ℝ × ℝ
  ylim : ℝ × ℝ
  zlim : ℝ × ℝ
  frames : ℕ
  frame : ℕ → List (ℝ × ℝ × ℝ)

/-- static.py:316-368 `animate`.  `FuncAnimation` with the number `N` of frames calls `_update` with `num` = 0, …, N − 1; `_update` shows
`data[:, :num]` (static.py:359-363).  The line shown before the first frame is not modelled. -/
noncomputable def SPlotter.animate (p : SPlotter) (g : GeodesicObj) : Py Animation := do
  let a ← spin g
  let x ← column g 1
  let y ← column g 2
  let z ← column g 3
  let N := x.length
  let xl ← axisLimits x
  let yl ← axisLimits y
  let zl ← axisLimits z
  return ⟨drawBh p.ergo a, xl, yl, zl, N, fun num => (x.zip (y.zip z)).take num⟩

/-- The spatial part of row `n` of the trajectory. -/
def rowPoint (row : List ℝ) : ℝ × ℝ × ℝ := (row.getD 1 0, row.getD 2 0, row.getD 3 0)

/-- `l` and `h` are the smallest and largest of the values of `f` on the list, and `lim` extends the interval between them by a fifth of
its length on both sides. -/
def IsFramed {α : Type} (rows : List α) (f : α → ℝ) (lim : ℝ × ℝ) : Prop :=
  ∃ l h, IsLeast {v | ∃ r ∈ rows, f r = v} l ∧ IsGreatest {v | ∃ r ∈ rows, f r = v} h ∧
    lim = (l - (h - l) / 5, h + (h - l) / 5)

theorem foldl_max : ∀ (xs : List ℝ) (x : ℝ), IsGreatest {v | v ∈ x :: xs} (xs.foldl max x)
  | [], x => ⟨by simp, by intro v hv; simp at hv; exact hv.le⟩
  | y :: ys, x => by
    obtain ⟨h1, h2⟩ := foldl_max ys (max x y)
    rw [List.foldl_cons]
    constructor
    · rcases List.mem_cons.1 h1 with h | h
      · rw [Set.mem_ofPred_eq, h]
        rcases max_choice x y with e | e <;> rw [e] <;> simp
      · simp [h]
    · intro v hv
      have hm : max x y ≤ ys.foldl max (max x y) := h2 List.mem_cons_self
      rcases List.mem_cons.1 hv with h | h
      · rw [h]; exact (le_max_left _ _).trans hm
      · rcases List.mem_cons.1 h with h | h
        · rw [h]; exact (le_max_right _ _).trans hm
        · exact h2 (List.mem_cons_of_mem _ h)

theorem foldl_min : ∀ (xs : List ℝ) (x : ℝ), IsLeast {v | v ∈ x :: xs} (xs.foldl min x)
  | [], x => ⟨by simp, by intro v hv; simp at hv; exact hv.ge⟩
  | y :: ys, x => by
    obtain ⟨h1, h2⟩ := foldl_min ys (min x y)
    rw [List.foldl_cons]
    constructor
    · rcases List.mem_cons.1 h1 with h | h
      · rw [Set.mem_ofPred_eq, h]
        rcases min_choice x y with e | e <;> rw [e] <;> simp
      · simp [h]
    · intro v hv
      have hm : ys.foldl min (min x y) ≤ min x y := h2 List.mem_cons_self
      rcases List.mem_cons.1 hv with h | h
      · rw [h]; exact hm.trans (min_le_left _ _)
      · rcases List.mem_cons.1 h with h | h
        · rw [h]; exact hm.trans (min_le_right _ _)
        · exact h2 (List.mem_cons_of_mem _ h)

theorem axisLimits_ok {x : List ℝ} (hx : x ≠ []) : ∃ lim, axisLimits x = .ok lim ∧ IsFramed x id lim := by
  cases x with
  | nil => exact absurd rfl hx
  | cons v vs =>
    refine ⟨_, rfl, vs.foldl min v, vs.foldl max v, ?_, ?_, ?_⟩
    · convert foldl_min vs v using 2; simp
    · convert foldl_max vs v using 2; simp
    · ext <;> simp <;> ring

/-- The column as the map of the entries. -/
theorem column_map {g : GeodesicObj} (hg : Rows8 g) {i : ℕ} (hi : i < 8) : column g i = .ok (g.rows.map fun row => row.getD i 0) := by
  obtain ⟨l, h1, h2⟩ := column_ok hg hi
  rw [h1]
  congr 1
  have : l.map some = (g.rows.map fun row => row.getD i 0).map some := by
    rw [h2, List.map_map]
    refine List.map_congr_left fun row hr => ?_
    have := hg row hr
    simp [List.getD, List.getElem?_eq_getElem (show i < row.length by omega)]
  exact (List.map_injective_iff.2 (Option.some_injective _)) this

theorem framed_map {α : Type} {rows : List α} {f : α → ℝ} {lim : ℝ × ℝ} (h : IsFramed (rows.map f) id lim) : IsFramed rows f lim := by
  obtain ⟨l, u, h1, h2, h3⟩ := h
  have e : {v | ∃ r ∈ rows.map f, id r = v} = {v | ∃ r ∈ rows, f r = v} := by
    ext v; simp
  rw [e] at h1 h2
  exact ⟨l, u, h1, h2, h3⟩

theorem animate_ok {g : GeodesicObj} (hg : Rows8 g) (hne : g.rows ≠ []) {a : ℝ} {rest : List ℝ} (hp : g.metricParams = a :: rest)
    (p : SPlotter) : ∃ A, p.animate g = .ok A ∧ A.frames = g.rows.length ∧ A.data = drawBh p.ergo a ∧
      (∀ n, A.frame n = (g.rows.take n).map rowPoint) ∧
      IsFramed g.rows (fun r => r.getD 1 0) A.xlim ∧ IsFramed g.rows (fun r => r.getD 2 0) A.ylim ∧
      IsFramed g.rows (fun r => r.getD 3 0) A.zlim := by
  have hs : spin g = .ok a := by unfold spin; rw [hp]
  have hm : ∀ i, g.rows.map (fun row : List ℝ => row.getD i 0) ≠ [] := fun i => by simpa using hne
  obtain ⟨l1, e1, f1⟩ := axisLimits_ok (hm 1)
  obtain ⟨l2, e2, f2⟩ := axisLimits_ok (hm 2)
  obtain ⟨l3, e3, f3⟩ := axisLimits_ok (hm 3)
  unfold SPlotter.animate
  simp only [hs, column_map hg (show 1 < 8 by norm_num), column_map hg (show 2 < 8 by norm_num), column_map hg (show 3 < 8 by norm_num),
    e1, e2, e3, bind, Except.bind, pure, Except.pure]
  refine ⟨_, rfl, by simp, rfl, fun n => ?_, framed_map f1, framed_map f2, framed_map f3⟩
  rw [List.map_take]
  show List.take n _ = _
  congr 1
  induction g.rows with
  | nil => rfl
  | cons r rs ih => simp only [List.map_cons, List.zip_cons_cons, ih]; rfl

/-- A constructed geodesic has at least one row. -/
theorem rows_ne {metric : MetricArg} {params : Option (List ℝ)} {q p : Fin 3 → ℝ} {tl rc : Bool} {kw : GeoKw}
    {g : GeodesicObj} (h : Geodesic.new metric params q p tl rc kw = .ok g) : g.rows ≠ [] := by
  have traj : ∀ (f : MetricFn) (q0 p0 : V4) (coords : String) (st : List Nat) (rows : List (List ℝ)),
      calculateTrajectory f q0 p0 tl coords kw = .ok (st, rows) → rows ≠ [] := by
    intro f q0 p0 coords st rows h
    unfold calculateTrajectory at h
    simp only [bind, Except.bind, pure, Except.pure] at h
    split at h
    · cases h
    · split at h
      · cases h
      · split_ifs at h with h0
        all_goals
          cases h
          simpa using h0
  unfold Geodesic.new at h
  simp only [bind, Except.bind, pure, Except.pure] at h
  repeat' (split at h <;> first | (cases h; done) | skip)
  all_goals
    cases h
    exact traj _ _ _ _ _ _ (by assumption)

/-- **C97.** For every geodesic the constructor can return, `animate` succeeds on every plotter (if the metric has a first parameter), draws the black
hole, chooses the limits of the three axes a fifth of the extent beyond the extreme points of the trajectory, and frame number n shows the
first n points, in order. -/
theorem C97_animate {metric : MetricArg} {params : Option (List ℝ)} {q p : Fin 3 → ℝ} {tl rc : Bool} {kw : GeoKw}
    {g : GeodesicObj} (h : Geodesic.new metric params q p tl rc kw = .ok g) {a : ℝ} {rest : List ℝ}
    (hp : g.metricParams = a :: rest) (pl : SPlotter) :
    ∃ A, pl.animate g = .ok A ∧ A.frames = g.rows.length ∧ A.data = drawBh pl.ergo a ∧
      (∀ n, A.frame n = (g.rows.take n).map rowPoint) ∧
      IsFramed g.rows (fun r => r.getD 1 0) A.xlim ∧ IsFramed g.rows (fun r => r.getD 2 0) A.ylim ∧
      IsFramed g.rows (fun r => r.getD 3 0) A.zlim :=
  animate_ok (C83_rows h) (rows_ne h) hp pl

/-- **C97.** Every point of the trajectory lies within the limits of the axes. -/
theorem C97_visible {α : Type} {rows : List α} {f : α → ℝ} {lim : ℝ × ℝ} (h : IsFramed rows f lim) (r : α) (hr : r ∈ rows) :
    lim.1 ≤ f r ∧ f r ≤ lim.2 := by
  obtain ⟨l, u, h1, h2, h3⟩ := h
  have a1 := h1.2 ⟨r, hr, rfl⟩
  have a2 := h2.2 ⟨r, hr, rfl⟩
  rw [h3]
  constructor <;> linarith

/-- **C97 is false of this commit**: no frame of the animation ever shows the whole trajectory; the last one shows all points but
the last. -/
theorem C97_refuted {metric : MetricArg} {params : Option (List ℝ)} {q p : Fin 3 → ℝ} {tl rc : Bool} {kw : GeoKw}
    {g : GeodesicObj} (h : Geodesic.new metric params q p tl rc kw = .ok g) {a : ℝ} {rest : List ℝ} (hp : g.metricParams = a :: rest)
    (pl : SPlotter) {A : Animation} (hA : pl.animate g = .ok A) :
    (∀ n < A.frames, (A.frame n).length < g.rows.length) ∧ A.frame (A.frames - 1) = g.rows.dropLast.map rowPoint := by
  obtain ⟨A', h1, h2, -, h3, -⟩ := animate_ok (C83_rows h) (rows_ne h) hp pl
  have hne := List.length_pos_iff.2 (rows_ne h)
  rw [hA] at h1
  cases h1
  constructor
  · intro n hn
    rw [h3, List.length_map, List.length_take]
    omega
  · rw [h3, h2, List.dropLast_eq_take]

/-! ## C98 -/

/-- The point of space with the spherical polar coordinates in places 1, 2, 3 of the row. -/
noncomputable def polarPoint (row : List ℝ) : ℝ × ℝ × ℝ :=
  (row.getD 1 0 * Real.sin (row.getD 2 0) * Real.cos (row.getD 3 0), row.getD 1 0 * Real.sin (row.getD 2 0) * Real.sin (row.getD 3 0),
    row.getD 1 0 * Real.cos (row.getD 2 0))

/-- The points of the last object drawn, if all are numbers. -/
def lastCurve (data : List Trace) (pts : List (ℝ × ℝ × ℝ)) : Prop :=
  ∃ t, data.getLast? = some t ∧ t.type = .curve3d ∧ t.pts = pts.map fun q => (.ok q.1, .ok q.2.1, .ok q.2.2)

theorem zip3_map {α : Type} (rows : List α) (f1 f2 f3 : α → ℝ) :
    zip3 (rows.map f1) (rows.map f2) (rows.map f3) = (rows.map fun r => (f1 r, f2 r, f3 r)).map fun q => (.ok q.1, .ok q.2.1, .ok q.2.2) := by
  unfold zip3
  induction rows with
  | nil => rfl
  | cons r rs ih => simp only [List.map_cons, List.zip_cons_cons, ih]

theorem plot_curve {g : GeodesicObj} (hg : Rows8 g) {a : ℝ} {rest : List ℝ} (hp : g.metricParams = a :: rest) (title aspect : String) :
    (aspect ∈ ["auto", "data", "manual", "cube"] → ∀ p : IPlotter, ∃ p', p.plot g title aspect = (.ok (), p') ∧
      lastCurve p'.fig.data (g.rows.map rowPoint)) ∧
    (aspect ∈ ["auto", "equal", "equalxy", "equalyz", "equalxz"] → ∀ p : SPlotter, ∃ p' ax, p.plot g title aspect = (.ok (), p') ∧
      p'.ax = some ax ∧ lastCurve ax.data (g.rows.map rowPoint)) := by
  obtain ⟨x, y, z, hx, hy, hz, h1, h2⟩ := C83_plot hg hp title aspect
  have get : ∀ (i : ℕ) (l : List ℝ), i < 8 → l.map some = g.rows.map (fun row => row[i]?) → l = g.rows.map fun row => row.getD i 0 := by
    intro i l hi hl
    obtain ⟨l', h1, h2⟩ := column_ok hg hi
    have e := column_map hg hi
    rw [h1] at e
    have : l = l' := (List.map_injective_iff.2 (Option.some_injective _)) (hl.trans h2.symm)
    rw [this]; exact Except.ok.inj e
  have ex := get 1 x (by norm_num) hx
  have ey := get 2 y (by norm_num) hy
  have ez := get 3 z (by norm_num) hz
  subst ex ey ez
  constructor
  · intro ha p
    obtain ⟨p', e, -, hd, -⟩ := h1 ha p
    refine ⟨p', e, _, (by rw [hd, List.getLast?_append]; rfl), rfl, zip3_map _ _ _ _⟩
  · intro ha p
    obtain ⟨p', ax, e, hax, -, -, -, -, -, hd⟩ := h2 ha p
    refine ⟨p', ax, e, hax, _, (by rw [hd, List.getLast?_append]; rfl), rfl, zip3_map _ _ _ _⟩

theorem toCartRow_point {row : List ℝ} (h : row.length = 8) : rowPoint (toCartRow row) = polarPoint row := by
  match row, h with
  | [a, b, c, d, e, f, g, i], _ => rfl

/-- **C98 (Cartesian output only)**: a geodesic made with `return_cartesian=True` is drawn at the points of space of the integrated trajectory (the
polar rows of the object made with `return_cartesian=False` from the same arguments), by both plotters. -/
theorem C98_cartesian_partial {m : MetricArg} {ps : Option (List ℝ)} {x p : Fin 3 → ℝ} {tl : Bool} {kw : GeoKw} {oc op : GeodesicObj}
    (hc : Geodesic.new m ps x p tl true kw = .ok oc) (hp : Geodesic.new m ps x p tl false kw = .ok op) {a : ℝ} {rest : List ℝ}
    (ha : oc.metricParams = a :: rest) (title aspect : String) :
    (aspect ∈ ["auto", "data", "manual", "cube"] → ∀ pl : IPlotter, ∃ pl', pl.plot oc title aspect = (.ok (), pl') ∧
      lastCurve pl'.fig.data (op.rows.map polarPoint)) ∧
    (aspect ∈ ["auto", "equal", "equalxy", "equalyz", "equalxz"] → ∀ pl : SPlotter, ∃ pl' ax, pl.plot oc title aspect = (.ok (), pl') ∧
      pl'.ax = some ax ∧ lastCurve ax.data (op.rows.map polarPoint)) := by
  have h := plot_curve (C83_rows hc) ha title aspect
  obtain ⟨-, -, -, -, e, -, -⟩ := (C40_cartesian_rows m ps x p tl kw).2 oc op hc hp
  have e2 : oc.rows.map rowPoint = op.rows.map polarPoint := by
    rw [e, List.map_map]
    refine List.map_congr_left fun row hr => toCartRow_point ?_
    exact C83_rows hp row hr
  rw [e2] at h
  exact h

theorem polar_eq {row : List ℝ} (h : rowPoint row = polarPoint row) :
    row.getD 1 0 = 0 ∧ row.getD 2 0 = 0 ∧ row.getD 3 0 = 0 := by
  unfold rowPoint polarPoint at h
  obtain ⟨h1, h23⟩ := Prod.ext_iff.1 h
  obtain ⟨h2, h3⟩ := Prod.ext_iff.1 h23
  simp only at h1 h2 h3
  generalize row.getD 1 0 = r at *
  generalize row.getD 2 0 = th at *
  generalize row.getD 3 0 = ph at *
  have q1 := Real.sin_sq_add_cos_sq th
  have q2 := Real.sin_sq_add_cos_sq ph
  have e : r ^ 2 + th ^ 2 + ph ^ 2 = r ^ 2 := by
    calc r ^ 2 + th ^ 2 + ph ^ 2 = (r * Real.sin th * Real.cos ph) ^ 2 + (r * Real.sin th * Real.sin ph) ^ 2 + (r * Real.cos th) ^ 2 := by
          rw [← h1, ← h2, ← h3]
      _ = r ^ 2 := by linear_combination r ^ 2 * Real.sin th ^ 2 * q2 + r ^ 2 * q1
  have t0 : th = 0 := by nlinarith [sq_nonneg th, sq_nonneg ph]
  have p0 : ph = 0 := by nlinarith [sq_nonneg th, sq_nonneg ph]
  subst t0 p0
  simp at h1
  exact ⟨h1, rfl, rfl⟩

/-- **C98 is false of this commit**: a geodesic made with `return_cartesian=False` is drawn with r, θ, φ as if they were x, y, z, without an error; the drawn
curve is the spatial path only if every point of it has r = θ = φ = 0. -/
theorem C98_refuted {m : MetricArg} {ps : Option (List ℝ)} {x p : Fin 3 → ℝ} {tl : Bool} {kw : GeoKw} {op : GeodesicObj}
    (hp : Geodesic.new m ps x p tl false kw = .ok op) {a : ℝ} {rest : List ℝ}
    (ha : op.metricParams = a :: rest) (title aspect : String) (has : aspect ∈ ["auto", "data", "manual", "cube"]) (pl : IPlotter) :
    ∃ pl', pl.plot op title aspect = (.ok (), pl') ∧
      (lastCurve pl'.fig.data (op.rows.map polarPoint) ↔
        ∀ row ∈ op.rows, row.getD 1 0 = 0 ∧ row.getD 2 0 = 0 ∧ row.getD 3 0 = 0) := by
  obtain ⟨pl', e, t, h1, h2, h3⟩ := (plot_curve (C83_rows hp) ha title aspect).1 has pl
  refine ⟨pl', e, ?_, ?_⟩
  · rintro ⟨t', h1', -, h3'⟩ row hr
    rw [h1] at h1'
    cases h1'
    rw [h3, List.map_map, List.map_map] at h3'
    have hh := List.map_inj_left.1 h3' row hr
    apply polar_eq
    simp only [Function.comp_apply, Prod.mk.injEq, Except.ok.injEq] at hh
    exact Prod.ext hh.1 (Prod.ext hh.2.1 hh.2.2)
  · intro hz
    refine ⟨t, h1, h2, ?_⟩
    rw [h3]
    congr 1
    refine List.map_congr_left fun row hr => ?_
    obtain ⟨a, b, c⟩ := hz row hr
    unfold rowPoint polarPoint
    rw [a, b, c]; simp

theorem params_of {n : String} {f : List ℝ → Py MetricFn} {ps : List ℝ} {x p : Fin 3 → ℝ} {tl rc : Bool} {kw : GeoKw} {g : GeodesicObj}
    (h : Geodesic.new (.callable n f) (some ps) x p tl rc kw = .ok g) : g.metricParams = ps := by
  unfold Geodesic.new at h
  simp only [bind, Except.bind, pure, Except.pure] at h
  repeat' (split at h <;> first | (cases h; done) | skip)
  all_goals
    cases h
    rename_i e _ _ _ _ _ _ _
    simp_all

/-- Non-vacuity of C97 and C98: there are geodesics of any length with a metric parameter, in both kinds of output, and C97 and C98 apply to
them. -/
example : ∃ (f : List ℝ → Py MetricFn) (x p : Fin 3 → ℝ), ∀ N : Int, 0 < N → ∃ oc op,
    Geodesic.new (.callable "g" f) (some [1 / 2]) x p true true { steps := N, order := 4 } = .ok oc ∧
    Geodesic.new (.callable "g" f) (some [1 / 2]) x p true false { steps := N, order := 4 } = .ok op ∧
    oc.metricParams = [1 / 2] ∧ op.metricParams = [1 / 2] ∧ (oc.rows.length : Int) = N ∧
    ∃ A, (SPlotter.new none true).animate oc = .ok A ∧ (A.frames : Int) = N := by
  have hsm : ∀ i j (x : V4), (exSmoothFn i j).Smooth x := by
    intro i j x
    have : (1 : ℝ) + x 1 * x 1 ≠ 0 := by nlinarith [mul_self_nonneg (x 1)]
    fin_cases i <;> fin_cases j <;> simp [exSmoothFn, Expr.Smooth, Expr.den, this]
  have hsy : ∀ i j (y : V4), (exSmoothFn i j).den y = (exSmoothFn j i).den y := by
    intro i j y
    fin_cases i <;> fin_cases j <;> simp [exSmoothFn, Expr.den]
  refine ⟨fun _ => .ok exSmoothFn, ![1, 2, 3], ![1, 0, 0], fun N hN => ?_⟩
  have hG := evalMetric_regular (g := exSmoothFn) (q := ![0, 1, 2, 3]) fun i j => (hsm i j _).regular
  obtain ⟨P, hP⟩ := (C37_domain exSmoothFn ![0, 1, 2, 3] ![1, 0, 0] true _ hG).mpr (by
    simp [exSmoothFn, Expr.den])
  obtain ⟨oc, h1, h2, -⟩ := C34_total "g" (fun _ => .ok exSmoothFn) [1 / 2] exSmoothFn rfl hsy hsm ![1, 2, 3] ![1, 0, 0] true true
    { steps := N, order := 4 } (Or.inr (Or.inl rfl)) hN P hP
  obtain ⟨op, h3, h4, -⟩ := C34_total "g" (fun _ => .ok exSmoothFn) [1 / 2] exSmoothFn rfl hsy hsm ![1, 2, 3] ![1, 0, 0] true false
    { steps := N, order := 4 } (Or.inr (Or.inl rfl)) hN P hP
  obtain ⟨A, hA, hf, -⟩ := C97_animate h1 (params_of h1) (SPlotter.new none true)
  exact ⟨oc, op, h1, h3, params_of h1, params_of h3, h2, A, hA, by rw [hf]; exact h2⟩

end Einpy.Misc
