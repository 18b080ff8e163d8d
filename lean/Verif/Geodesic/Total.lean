import Verif.Geodesic.Props

/-!
# Complete runs: when a geodesic object is built, and what it satisfies (C34, C37, C40)
-/

namespace Einpy
open Classical

theorem runN_total (c : IntegCfg) (Φ : PS → PS) (δ : ℝ) (hΦ : ∀ s, orderStep c s δ = .ok (Φ s))
    (hG : ∀ q, ∃ G, evalMetric c.metric q = .ok G) (N : Nat) (I : Integ) (hc : I.cfg = c) (hd : I.delta = δ) :
    ∃ I', I.runN N = .ok I' := by
  induction N generalizing I with
  | zero => exact ⟨I, rfl⟩
  | succ N ih =>
    have hstep : ∃ I1, I.step = .ok I1 ∧ I1.cfg = c ∧ I1.delta = δ := by
      unfold Integ.step
      simp only [hc, hd, hΦ, bind, Except.bind]
      cases hw : I.suppressWarnings with
      | true => exact ⟨_, rfl, rfl, rfl⟩
      | false =>
        obtain ⟨G, hG'⟩ := hG (Φ I.resList).q1
        simp only [Bool.false_eq_true, if_false, hG']
        split_ifs <;> exact ⟨_, rfl, rfl, rfl⟩
    obtain ⟨I1, h1, h2, h3⟩ := hstep
    obtain ⟨I', h'⟩ := ih I1 h2 h3
    exact ⟨I', by simp only [Integ.runN, h1, bind, Except.bind]; exact h'⟩

/-- **C34** (complete runs).  If the metric function is smooth at every point and symmetric, the order is supported, at
least one step is requested and the initial momentum exists, then the geodesic is built and has exactly the requested
number of rows. -/
theorem C34_total (n : String) (f : List ℝ → Py MetricFn) (ps : List ℝ) (g : MetricFn) (hf : f ps = .ok g)
    (hs : ∀ i j (y : V4), (g i j).den y = (g j i).den y) (h : ∀ i j (x : V4), (g i j).Smooth x)
    (x p : Fin 3 → ℝ) (tl rc : Bool) (kw : GeoKw)
    (ho : kw.order = 2 ∨ kw.order = 4 ∨ kw.order = 6 ∨ kw.order = 8) (hN : 0 < kw.steps)
    (P : V4) (hP : fourMomentum g ![0, x 0, x 1, x 2] p tl = .ok P) :
    ∃ o, Geodesic.new (.callable n f) (some ps) x p tl rc kw = .ok o ∧ (o.rows.length : Int) = kw.steps ∧
      o.momentum = P := by
  obtain ⟨Φ, hΦ, -⟩ := C31_symplectic_total ⟨g, kw.omega, kw.order⟩ ho hs h kw.delta
  have hG : ∀ q, ∃ G, evalMetric g q = .ok G := fun q => ⟨_, evalMetric_regular fun i j => (h i j q).regular⟩
  have hcond : ¬ (kw.order ≠ 2 ∧ kw.order ≠ 4 ∧ kw.order ≠ 6 ∧ kw.order ≠ 8) := by tauto
  have htraj : ∀ coords, ∃ r, calculateTrajectory g ![0, x 0, x 1, x 2] P tl coords kw = .ok r := by
    intro coords
    unfold calculateTrajectory
    cases h0 : Integ.new ⟨g, kw.omega, kw.order⟩ ![0, x 0, x 1, x 2] P tl kw.delta kw.rtol kw.atol
        kw.suppressWarnings with
    | error e => simp only [Integ.new, hcond, if_false] at h0; cases h0
    | ok I0 =>
      have hI0 : I0.cfg = ⟨g, kw.omega, kw.order⟩ ∧ I0.delta = kw.delta := by
        simp only [Integ.new, hcond, if_false] at h0
        rw [← Except.ok.inj h0]; exact ⟨rfl, rfl⟩
      obtain ⟨I, hI⟩ := runN_total _ Φ kw.delta hΦ hG kw.steps.toNat I0 hI0.1 hI0.2
      have hlen := (C34_rows _ _ _ _ _ _ _ _ _ I0 I h0 hI).1
      have hne : I.results ≠ [] := by
        intro he; rw [he] at hlen; simp at hlen; omega
      simp only [bind, Except.bind, hI, hne, if_false]
      split_ifs <;> exact ⟨_, rfl⟩
  obtain ⟨⟨st, rows⟩, hr⟩ := htraj (if rc then "Cartesian" else "Spherical Polar")
  refine ⟨⟨n, ps, ![0, x 0, x 1, x 2], P, tl, if tl then "Time-like" else "Null-like",
    if rc then "Cartesian" else "Spherical Polar", st, rows⟩, ?_, (C34_trajectory g _ _ tl _ kw st rows hr).2.1, rfl⟩
  simp only [Geodesic.new, bind, Except.bind, hf, hP, hr, pure, Except.pure]

/-- **C37** (objects).  The momentum stored in a successfully built geodesic of one of the three named metrics is
normalised with respect to that metric at the starting point: the table `G` is the value of the named metric function
for the parameters given. -/
theorem C37_object (s : String) (ps : List ℝ) (x p : Fin 3 → ℝ) (tl rc : Bool) (kw : GeoKw) (o : GeodesicObj)
    (h : Geodesic.new (.str s) (some ps) x p tl rc kw = .ok o) :
    ∃ g G, ((s = "Schwarzschild" ∧ g = schFn) ∨ (∃ a l, s = "Kerr" ∧ ps = a :: l ∧ g = kerrFn a) ∨
        (∃ a Q l, s = "KerrNewman" ∧ ps = a :: Q :: l ∧ g = kerrNewmanFn a Q)) ∧
      evalMetric g o.position = .ok G ∧
      (∑ a, ∑ b, G a b * o.momentum a * o.momentum b = if tl then -1 else 0) ∧ 0 ≤ ∑ b, G 0 b * o.momentum b := by
  have key : ∃ g P, ((s = "Schwarzschild" ∧ g = schFn) ∨ (∃ a l, s = "Kerr" ∧ ps = a :: l ∧ g = kerrFn a) ∨
        (∃ a Q l, s = "KerrNewman" ∧ ps = a :: Q :: l ∧ g = kerrNewmanFn a Q)) ∧
      fourMomentum g ![0, x 0, x 1, x 2] p tl = .ok P ∧ o.momentum = P ∧ o.position = ![0, x 0, x 1, x 2] := by
    by_cases h1 : s = "Schwarzschild"
    · subst h1
      cases hP : fourMomentum schFn ![0, x 0, x 1, x 2] p tl with
      | error e => simp only [Geodesic.new, builtinMetric, bind, Except.bind, hP] at h; cases h
      | ok P =>
        refine ⟨schFn, P, Or.inl ⟨rfl, rfl⟩, hP, ?_⟩
        simp only [Geodesic.new, builtinMetric, bind, Except.bind, hP, pure, Except.pure] at h
        split at h
        · cases h
        · rw [← Except.ok.inj h]; exact ⟨rfl, rfl⟩
    by_cases h2 : s = "Kerr"
    · subst h2
      cases ps with
      | nil => rw [(C39_missing_params x p tl rc kw 0).1] at h; cases h
      | cons a l =>
        cases hP : fourMomentum (kerrFn a) ![0, x 0, x 1, x 2] p tl with
        | error e => simp only [Geodesic.new, builtinMetric, bind, Except.bind, hP] at h; cases h
        | ok P =>
          refine ⟨kerrFn a, P, Or.inr (Or.inl ⟨a, l, rfl, rfl, rfl⟩), hP, ?_⟩
          simp only [Geodesic.new, builtinMetric, bind, Except.bind, hP, pure, Except.pure] at h
          split at h
          · cases h
          · split at h
            · cases h
            · split at h
              · cases h
              · rw [← Except.ok.inj h]; exact ⟨rfl, rfl⟩
    by_cases h3 : s = "KerrNewman"
    · subst h3
      cases ps with
      | nil => rw [(C39_missing_params x p tl rc kw 0).2.1] at h; cases h
      | cons a l =>
        cases l with
        | nil => rw [(C39_missing_params x p tl rc kw a).2.2] at h; cases h
        | cons Q l =>
          cases hP : fourMomentum (kerrNewmanFn a Q) ![0, x 0, x 1, x 2] p tl with
          | error e => simp only [Geodesic.new, builtinMetric, bind, Except.bind, hP] at h; cases h
          | ok P =>
            refine ⟨kerrNewmanFn a Q, P, Or.inr (Or.inr ⟨a, Q, l, rfl, rfl, rfl⟩), hP, ?_⟩
            simp only [Geodesic.new, builtinMetric, bind, Except.bind, hP, pure, Except.pure] at h
            split at h
            · cases h
            · split at h
              · cases h
              · split at h
                · cases h
                · rw [← Except.ok.inj h]; exact ⟨rfl, rfl⟩
    · rw [C39_unknown_metric (.str s) (Or.inr ⟨s, rfl, h1, h2, h3⟩)] at h; cases h
  obtain ⟨g, P, hg, hP, hm, hpos⟩ := key
  have hb : g = schFn ∨ (∃ a, g = kerrFn a) ∨ (∃ a Q, g = kerrNewmanFn a Q) := by
    rcases hg with ⟨-, h⟩ | ⟨a, -, -, -, h⟩ | ⟨a, Q, -, -, -, h⟩
    · exact Or.inl h
    · exact Or.inr (Or.inl ⟨a, h⟩)
    · exact Or.inr (Or.inr ⟨a, Q, h⟩)
  obtain ⟨G, e1, -, e2, e3⟩ := C37_builtin g hb _ p tl P hP
  exact ⟨g, G, hg, by rw [hpos]; exact e1, by rw [hm]; exact e2, by rw [hm]; exact e3⟩

/-- Non-vacuity of C34, C37 and C40: a curved metric function for which complete runs of any length exist. -/
example : ∃ (f : List ℝ → Py MetricFn) (x p : Fin 3 → ℝ), ∀ N : Int, 0 < N → ∀ rc, ∃ o,
    Geodesic.new (.callable "g" f) (some []) x p true rc { steps := N, order := 4 } = .ok o ∧
    (o.rows.length : Int) = N := by
  have hsm : ∀ i j (x : V4), (exSmoothFn i j).Smooth x := by
    intro i j x
    have : (1 : ℝ) + x 1 * x 1 ≠ 0 := by nlinarith [mul_self_nonneg (x 1)]
    fin_cases i <;> fin_cases j <;> simp [exSmoothFn, Expr.Smooth, Expr.den, this]
  have hsy : ∀ i j (y : V4), (exSmoothFn i j).den y = (exSmoothFn j i).den y := by
    intro i j y
    fin_cases i <;> fin_cases j <;> simp [exSmoothFn, Expr.den]
  refine ⟨fun _ => .ok exSmoothFn, ![1, 2, 3], ![1, 0, 0], fun N hN rc => ?_⟩
  have hG := evalMetric_regular (g := exSmoothFn) (q := ![0, 1, 2, 3]) fun i j => (hsm i j _).regular
  obtain ⟨P, hP⟩ := (C37_domain exSmoothFn ![0, 1, 2, 3] ![1, 0, 0] true _ hG).mpr (by
    simp [exSmoothFn, Expr.den])
  obtain ⟨o, h1, h2, -⟩ := C34_total "g" (fun _ => .ok exSmoothFn) [] exSmoothFn rfl hsy hsm ![1, 2, 3] ![1, 0, 0] true rc
    { steps := N, order := 4 } (Or.inr (Or.inl rfl)) hN P hP
  exact ⟨o, h1, h2⟩

end Einpy
