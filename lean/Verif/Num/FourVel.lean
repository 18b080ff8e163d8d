import Verif.Num.Props3

/-!
# C50, strengthened: which of the two normalised four-velocities `v0` picks

coordinates/utils.py:224-264.  The theorem is stated for every symmetric metric and every spatial velocity whose spatial
norm is below `c²` (true of every velocity for a metric whose spatial block is negative definite).
-/

set_option linter.unusedSimpArgs false
namespace Einpy.Num
open Classical Topology
variable (k : PhysConst)

/-- **C50**: outside the ergoregion (`g_tt > 0`) `v0` always returns a number, it is positive, and the other normalised
completion of the same spatial velocity runs backwards in time: the answer is *the* future-directed root.  Inside the
ergoregion (`g_tt < 0`) all normalised completions run the same way in time, forwards exactly when the spatial velocity
has `g_{ti} v^i > 0`, and `v0` returns the slower of them. -/
theorem C50_v0_future {g : Mat4} (hg : ∀ i j, g i j = g j i) {v1 v2 v3 : ℝ}
    (hsp : normSq g ![0, v1, v2, v3] < k.c ^ 2) :
    (0 < g 0 0 → ∃ u, v0 k g v1 v2 v3 = .ok u ∧ 0 < u ∧
      ∀ w, normSq g ![w, v1, v2, v3] = k.c ^ 2 → w ≠ u → w < 0) ∧
    (g 0 0 < 0 → ∀ u, v0 k g v1 v2 v3 = .ok u →
      (0 < u ↔ 0 < g 0 1 * v1 + g 0 2 * v2 + g 0 3 * v3) ∧
      ∀ w, normSq g ![w, v1, v2, v3] = k.c ^ 2 → 0 < w * u ∧ u ≤ w) := by
  have hN : ∀ w, normSq g ![w, v1, v2, v3] = g 0 0 * w ^ 2
      + 2 * (g 0 1 * v1 + g 0 2 * v2 + g 0 3 * v3) * w + normSq g ![0, v1, v2, v3] := by
    intro w
    unfold normSq
    simp only [Fin.sum_univ_four]
    rw [show (![w, v1, v2, v3] : Vec4) 0 = w from rfl, show (![w, v1, v2, v3] : Vec4) 1 = v1 from rfl,
      show (![w, v1, v2, v3] : Vec4) 2 = v2 from rfl, show (![w, v1, v2, v3] : Vec4) 3 = v3 from rfl,
      show (![0, v1, v2, v3] : Vec4) 0 = 0 from rfl, show (![0, v1, v2, v3] : Vec4) 1 = v1 from rfl,
      show (![0, v1, v2, v3] : Vec4) 2 = v2 from rfl, show (![0, v1, v2, v3] : Vec4) 3 = v3 from rfl,
      hg 1 0, hg 2 0, hg 3 0, hg 2 1, hg 3 1, hg 3 2]
    ring
  generalize hB : g 0 1 * v1 + g 0 2 * v2 + g 0 3 * v3 = B at *
  generalize hS : normSq g ![0, v1, v2, v3] = S at *
  -- value of v0
  have hval : ∀ u, v0 k g v1 v2 v3 = .ok u → g 0 0 * u + B = Real.sqrt (B ^ 2 - g 0 0 * (S - k.c ^ 2)) := by
    intro u h
    have hC : (g 1 1 * v1 ^ 2 + g 2 2 * v2 ^ 2 + g 3 3 * v3 ^ 2) + 2 * v1 * (g 1 2 * v2 + g 1 3 * v3)
        + 2 * v2 * g 2 3 * v3 + -1 * k.c ^ 2 = S - k.c ^ 2 := by
      rw [← hS]
      unfold normSq
      simp only [Fin.sum_univ_four]
      rw [show (![0, v1, v2, v3] : Vec4) 0 = 0 from rfl, show (![0, v1, v2, v3] : Vec4) 1 = v1 from rfl,
        show (![0, v1, v2, v3] : Vec4) 2 = v2 from rfl, show (![0, v1, v2, v3] : Vec4) 3 = v3 from rfl,
        hg 1 0, hg 2 0, hg 3 0, hg 2 1, hg 3 1, hg 3 2]
      ring
    unfold v0 npSqrt at h
    simp only [bind, Except.bind, pure, Except.pure, hC, hB] at h
    split_ifs at h with h1 h2
    have hu := (Except.ok.inj h).symm
    have e4 : (2 * B) ^ 2 - 4 * g 0 0 * (S - k.c ^ 2) = 2 ^ 2 * (B ^ 2 - g 0 0 * (S - k.c ^ 2)) := by ring
    rw [e4, Real.sqrt_mul (by norm_num), Real.sqrt_sq (by norm_num)] at hu
    have hA : g 0 0 ≠ 0 := fun e => h2 (by rw [e]; ring)
    rw [hu]; field_simp; ring
  refine ⟨fun hA => ?_, fun hA u h => ?_⟩
  · have hpos : B ^ 2 < B ^ 2 - g 0 0 * (S - k.c ^ 2) := by nlinarith
    have hq : |B| < Real.sqrt (B ^ 2 - g 0 0 * (S - k.c ^ 2)) := by
      rw [← Real.sqrt_sq_eq_abs]; exact Real.sqrt_lt_sqrt (sq_nonneg _) hpos
    have hqq := Real.sq_sqrt (le_trans (sq_nonneg B) hpos.le)
    obtain ⟨u, hu⟩ : ∃ u, v0 k g v1 v2 v3 = .ok u := by
      rw [C50_v0_domain k hg]
      refine ⟨hA.ne', (-B + Real.sqrt (B ^ 2 - g 0 0 * (S - k.c ^ 2))) / g 0 0, ?_⟩
      rw [hN]
      field_simp
      nlinarith
    have h1 := hval u hu
    have hu0 : 0 < u := by
      have := le_abs_self B
      have : 0 < g 0 0 * u := by linarith
      exact (mul_pos_iff_of_pos_left hA).mp this
    refine ⟨u, hu, hu0, fun w hw hne => ?_⟩
    have hw' := hN w
    have hu' := hN u
    have hn := (C50_v0_normalises k hg hu).1
    have hprod : (w - u) * (g 0 0 * (w + u) + 2 * B) = 0 := by nlinarith
    have h2 := (mul_eq_zero.mp hprod).resolve_left (sub_ne_zero.mpr hne)
    have h3 : g 0 0 * w + B = -Real.sqrt (B ^ 2 - g 0 0 * (S - k.c ^ 2)) := by linarith
    have := neg_abs_le B
    have : g 0 0 * w < 0 := by linarith
    by_contra hc
    push Not at hc
    nlinarith [mul_nonneg hA.le hc]
  · have h1 := hval u h
    have hn := (C50_v0_normalises k hg h).1
    have hu' := hN u
    have hroot : ∀ w, normSq g ![w, v1, v2, v3] = k.c ^ 2 → w * (g 0 0 * w + 2 * B) = k.c ^ 2 - S := by
      intro w hw
      have := hN w
      nlinarith
    have hs0 := Real.sqrt_nonneg (B ^ 2 - g 0 0 * (S - k.c ^ 2))
    have hur := hroot u hn
    have hne0 : ∀ w, normSq g ![w, v1, v2, v3] = k.c ^ 2 → w ≠ 0 := by
      rintro w hw rfl
      have := hroot 0 hw
      linarith
    refine ⟨⟨fun hu => ?_, fun hBp => ?_⟩, fun w hw => ?_⟩
    · have : 0 < g 0 0 * u + 2 * B := by
        by_contra hc; push Not at hc
        nlinarith
      nlinarith
    · by_contra hc; push Not at hc
      have hlt := lt_of_le_of_ne hc (hne0 u hn)
      have : g 0 0 * u + 2 * B > 0 := by nlinarith
      nlinarith
    · have hwr := hroot w hw
      by_cases hwu : w = u
      · subst hwu
        exact ⟨mul_self_pos.mpr (hne0 w hw), le_refl _⟩
      · have hprod : (w - u) * (g 0 0 * (w + u) + 2 * B) = 0 := by nlinarith
        have h2 := (mul_eq_zero.mp hprod).resolve_left (sub_ne_zero.mpr hwu)
        have h3 : w * u * (-g 0 0) = k.c ^ 2 - S := by linear_combination hur - u * h2
        refine ⟨?_, ?_⟩
        · by_contra hc; push Not at hc
          nlinarith
        · nlinarith
/-- Inside an ergoregion: the hypotheses hold with a cross term, and `v0` returns `2 - √2`. -/
example : normSq (axi (-1) 2 (-1) (-1) (-1)) ![0, 0, 0, 1] < unitConst.c ^ 2 ∧
    v0 unitConst (axi (-1) 2 (-1) (-1) (-1)) 0 0 1 = .ok (2 - Real.sqrt 2) := by
  constructor
  · unfold normSq
    simp [Fin.sum_univ_four, axi, unitConst]
  · have e8 : Real.sqrt 8 = 2 * Real.sqrt 2 := by
      rw [show (8:ℝ) = 2 ^ 2 * 2 by norm_num, Real.sqrt_mul (by norm_num), Real.sqrt_sq (by norm_num)]
    unfold v0 npSqrt
    simp [axi, unitConst, bind, Except.bind, pure, Except.pure]
    norm_num
    try rw [e8]
    try ring

end Einpy.Num
