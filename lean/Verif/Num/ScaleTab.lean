import Verif.Num.Scale

/-!
# The closed forms after a substitution (used by C130, C131)
-/

namespace Einpy.Num
open Classical

/-- The factors of a substitution: lengths and times are multiplied by `l`, and `s0`, `e`, `s3` are signs. -/
def facs (l s0 e s3 : ℝ) : Vec4 := ![l * s0, l, e, s3]

theorem facs_ne {l s0 e s3 : ℝ} (hl : l ≠ 0) (h0 : s0 ^ 2 = 1) (he : e ^ 2 = 1) (h3 : s3 ^ 2 = 1) (i : Fin 4) : facs l s0 e s3 i ≠ 0 := by
  have nz : ∀ {a : ℝ}, a ^ 2 = 1 → a ≠ 0 := fun h h' => by rw [h'] at h; norm_num at h
  exact fin4_cases (P := fun i => facs l s0 e s3 i ≠ 0) (mul_ne_zero hl (nz h0)) hl (nz he) (nz h3) i

theorem scaleMat_axi (κ : ℝ) (σ : Vec4) (A B C D E : ℝ) : scaleMat κ σ (axi A B C D E) =
    axi (κ / (σ 0 * σ 0) * A) (κ / (σ 0 * σ 3) * B) (κ / (σ 1 * σ 1) * C) (κ / (σ 2 * σ 2) * D) (κ / (σ 3 * σ 3) * E) := by
  ext i j
  fin_cases i <;> fin_cases j <;> simp [scaleMat, axi, mul_comm]

theorem scaleD_tabRT (κ : ℝ) (σ : Vec4) (P Q : Mat4) : scaleD κ σ (tabRT P Q) =
    tabRT (scaleMat (κ / σ 1) σ P) (scaleMat (κ / σ 2) σ Q) := by
  funext c i j
  fin_cases c
  · show _ * (0:ℝ) = 0; rw [mul_zero]
  · show κ / (σ 1 * σ i * σ j) * P i j = κ / σ 1 / (σ i * σ j) * P i j
    rw [div_div, mul_assoc]
  · show κ / (σ 2 * σ i * σ j) * Q i j = κ / σ 2 / (σ i * σ j) * Q i j
    rw [div_div, mul_assoc]
  · show _ * (0:ℝ) = 0; rw [mul_zero]

theorem one_or_neg {a : ℝ} (h : a ^ 2 = 1) : a = 1 ∨ a = -1 := by
  have : (a - 1) * (a + 1) = 0 := by linear_combination h
  rcases mul_eq_zero.1 this with h | h
  · exact Or.inl (by linarith)
  · exact Or.inr (by linarith)

theorem al_cases {s0 s3 al : ℝ} (h0 : s0 ^ 2 = 1) (ha : s0 * s3 * al = al) : al = 0 ∨ s3 = s0 := by
  have : al * (s3 - s0) = 0 := by linear_combination s0 * ha - s3 * al * h0
  rcases mul_eq_zero.1 this with h | h
  · exact Or.inl h
  · exact Or.inr (by linarith)

section tables
variable {l s0 e s3 rs al r th th' : ℝ}

theorem sigF_sc (he : e ^ 2 = 1) (hc : Real.cos th' = e * Real.cos th) : sigF (l * al) (l * r) th' = l ^ 2 * sigF al r th := by
  unfold sigF
  rw [hc]
  linear_combination (l ^ 2 * al ^ 2 * Real.cos th ^ 2) * he

theorem delF_sc : delF (l * rs) (l * al) (l * r) = l ^ 2 * delF rs al r := by unfold delF; ring

theorem sin2_sc (hs : Real.sin th' = Real.sin th) (hc : Real.cos th' = e * Real.cos th) :
    Real.sin (2 * th') = e * Real.sin (2 * th) := by
  rw [Real.sin_two_mul, Real.sin_two_mul, hs, hc]; ring

theorem kerrT_sc (c : ℝ) (hl : l ≠ 0) (h0 : s0 ^ 2 = 1) (he : e ^ 2 = 1) (h3 : s3 ^ 2 = 1) (ha : s0 * s3 * al = al)
    (hs : Real.sin th' = Real.sin th) (hc : Real.cos th' = e * Real.cos th) (hS : sigF al r th ≠ 0) (hD : delF rs al r ≠ 0) :
    kerrT c (l * rs) (l * al) (l * r) th' = scaleMat (l ^ 2) (facs l s0 e s3) (kerrT c rs al r th) := by
  unfold kerrT
  rw [scaleMat_axi, sigF_sc he hc, delF_sc, hs]
  have f0 : facs l s0 e s3 0 = l * s0 := rfl
  have f1 : facs l s0 e s3 1 = l := rfl
  have f2 : facs l s0 e s3 2 = e := rfl
  have f3 : facs l s0 e s3 3 = s3 := rfl
  rw [f0, f1, f2, f3]
  generalize sigF al r th = S at *
  generalize delF rs al r = D at *
  generalize Real.sin th = s at *
  have n0 : s0 ≠ 0 := fun h' => by rw [h'] at h0; norm_num at h0
  have n3 : s3 ≠ 0 := fun h' => by rw [h'] at h3; norm_num at h3
  have ne : e ≠ 0 := fun h' => by rw [h'] at he; norm_num at he
  congr 1
  · field_simp
    rw [h0]; ring
  · field_simp
    linear_combination (c * rs * r * s ^ 2) * ha
  · field_simp
  · field_simp
    rw [he]
  · field_simp
    rw [h3]; ring

theorem kerrRcode_sc (c : ℝ) (hl : l ≠ 0) (h0 : s0 ^ 2 = 1) (he : e ^ 2 = 1) (h3 : s3 ^ 2 = 1) (ha : s0 * s3 * al = al)
    (hs : Real.sin th' = Real.sin th) (hc : Real.cos th' = e * Real.cos th) (hS : sigF al r th ≠ 0) (hD : delF rs al r ≠ 0) :
    kerrRcode c (l * rs) (l * al) (l * r) th' = scaleMat (l ^ 2 / l) (facs l s0 e s3) (kerrRcode c rs al r th) := by
  unfold kerrRcode tmpF
  rw [scaleMat_axi, sigF_sc he hc, delF_sc, hs]
  have f0 : facs l s0 e s3 0 = l * s0 := rfl
  have f1 : facs l s0 e s3 1 = l := rfl
  have f2 : facs l s0 e s3 2 = e := rfl
  have f3 : facs l s0 e s3 3 = s3 := rfl
  rw [f0, f1, f2, f3]
  generalize sigF al r th = S at *
  generalize delF rs al r = D at *
  generalize Real.sin (2 * th) = s2 at *
  generalize Real.sin th = s at *
  have n0 : s0 ≠ 0 := fun h' => by rw [h'] at h0; norm_num at h0
  have n3 : s3 ≠ 0 := fun h' => by rw [h'] at h3; norm_num at h3
  have ne : e ≠ 0 := fun h' => by rw [h'] at he; norm_num at he
  rcases al_cases h0 ha with rfl | rfl
  · rcases one_or_neg h0 with rfl | rfl <;> rcases one_or_neg he with rfl | rfl <;> rcases one_or_neg h3 with rfl | rfl <;>
      (congr 1 <;> (try field_simp) <;> (try ring))
  · rcases one_or_neg h0 with rfl | rfl <;> rcases one_or_neg he with rfl | rfl <;>
      (congr 1 <;> (try field_simp) <;> (try ring))

theorem kerrR_sc (c : ℝ) (hl : l ≠ 0) (h0 : s0 ^ 2 = 1) (he : e ^ 2 = 1) (h3 : s3 ^ 2 = 1) (ha : s0 * s3 * al = al)
    (hs : Real.sin th' = Real.sin th) (hc : Real.cos th' = e * Real.cos th) (hS : sigF al r th ≠ 0) (hD : delF rs al r ≠ 0) :
    kerrR c (l * rs) (l * al) (l * r) th' = scaleMat (l ^ 2 / l) (facs l s0 e s3) (kerrR c rs al r th) := by
  unfold kerrR tmpF
  rw [scaleMat_axi, sigF_sc he hc, delF_sc, hs]
  have f0 : facs l s0 e s3 0 = l * s0 := rfl
  have f1 : facs l s0 e s3 1 = l := rfl
  have f2 : facs l s0 e s3 2 = e := rfl
  have f3 : facs l s0 e s3 3 = s3 := rfl
  rw [f0, f1, f2, f3]
  generalize sigF al r th = S at *
  generalize delF rs al r = D at *
  generalize Real.sin (2 * th) = s2 at *
  generalize Real.sin th = s at *
  have n0 : s0 ≠ 0 := fun h' => by rw [h'] at h0; norm_num at h0
  have n3 : s3 ≠ 0 := fun h' => by rw [h'] at h3; norm_num at h3
  have ne : e ≠ 0 := fun h' => by rw [h'] at he; norm_num at he
  rcases al_cases h0 ha with rfl | rfl
  · rcases one_or_neg h0 with rfl | rfl <;> rcases one_or_neg he with rfl | rfl <;> rcases one_or_neg h3 with rfl | rfl <;>
      (congr 1 <;> (try field_simp) <;> (try ring))
  · rcases one_or_neg h0 with rfl | rfl <;> rcases one_or_neg he with rfl | rfl <;>
      (congr 1 <;> (try field_simp) <;> (try ring))

set_option maxHeartbeats 2000000 in
theorem kerrTh_sc (c : ℝ) (hl : l ≠ 0) (h0 : s0 ^ 2 = 1) (he : e ^ 2 = 1) (h3 : s3 ^ 2 = 1) (ha : s0 * s3 * al = al)
    (hs : Real.sin th' = Real.sin th) (hc : Real.cos th' = e * Real.cos th) (hS : sigF al r th ≠ 0) (hD : delF rs al r ≠ 0) :
    kerrTh c (l * rs) (l * al) (l * r) th' = scaleMat (l ^ 2 / e) (facs l s0 e s3) (kerrTh c rs al r th) := by
  unfold kerrTh
  rw [scaleMat_axi, sigF_sc he hc, delF_sc, sin2_sc hs hc, hs]
  have f0 : facs l s0 e s3 0 = l * s0 := rfl
  have f1 : facs l s0 e s3 1 = l := rfl
  have f2 : facs l s0 e s3 2 = e := rfl
  have f3 : facs l s0 e s3 3 = s3 := rfl
  rw [f0, f1, f2, f3]
  generalize sigF al r th = S at *
  generalize delF rs al r = D at *
  generalize Real.sin (2 * th) = s2 at *
  generalize Real.sin th = s at *
  have n0 : s0 ≠ 0 := fun h' => by rw [h'] at h0; norm_num at h0
  have n3 : s3 ≠ 0 := fun h' => by rw [h'] at h3; norm_num at h3
  have ne : e ≠ 0 := fun h' => by rw [h'] at he; norm_num at he
  rcases al_cases h0 ha with rfl | rfl
  · rcases one_or_neg h0 with rfl | rfl <;> rcases one_or_neg he with rfl | rfl <;> rcases one_or_neg h3 with rfl | rfl <;>
      (congr 1 <;> (try field_simp) <;> (try ring))
  · rcases one_or_neg h0 with rfl | rfl <;> rcases one_or_neg he with rfl | rfl <;>
      (congr 1 <;> (try field_simp) <;> (try ring))

set_option maxHeartbeats 2000000 in
theorem emF_sc (rQ : ℝ) (hl : l ≠ 0) (h0 : s0 ^ 2 = 1) (he : e ^ 2 = 1) (h3 : s3 ^ 2 = 1) (ha : s0 * s3 * al = al)
    (hs : Real.sin th' = Real.sin th) (hc : Real.cos th' = e * Real.cos th) (hS : sigF al r th ≠ 0) :
    emF (l * al) (l * rQ) (l * r) th' = scaleMat (l * s0) (facs l s0 e s3) (emF al rQ r th) := by
  have n0 : s0 ≠ 0 := fun h' => by rw [h'] at h0; norm_num at h0
  have n3 : s3 ≠ 0 := fun h' => by rw [h'] at h3; norm_num at h3
  have ne : e ≠ 0 := fun h' => by rw [h'] at he; norm_num at he
  unfold emF
  rw [sigF_sc he hc, sin2_sc hs hc, hs]
  generalize sigF al r th = S at *
  generalize Real.sin (2 * th) = s2 at *
  generalize Real.sin th = s at *
  rcases al_cases h0 ha with rfl | rfl
  · rcases one_or_neg h0 with rfl | rfl <;> rcases one_or_neg he with rfl | rfl <;> rcases one_or_neg h3 with rfl | rfl <;>
      ((ext i j; fin_cases i <;> fin_cases j <;> simp [scaleMat, facs, -mul_eq_mul_left_iff, -mul_eq_mul_right_iff, -div_eq_zero_iff]) <;> (try field_simp) <;> (try ring))
  · rcases one_or_neg h0 with rfl | rfl <;> rcases one_or_neg he with rfl | rfl <;>
      ((ext i j; fin_cases i <;> fin_cases j <;> simp [scaleMat, facs, -mul_eq_mul_left_iff, -mul_eq_mul_right_iff, -div_eq_zero_iff]) <;> (try field_simp) <;> (try ring))

theorem schChl_sc (c : ℝ) (hl : l ≠ 0) (h0 : s0 ^ 2 = 1) (he : e ^ 2 = 1) (h3 : s3 ^ 2 = 1)
    (hs : Real.sin th' = Real.sin th) (hc : Real.cos th' = e * Real.cos th) (hr : r ≠ 0) (hd : rs * r - r ^ 2 ≠ 0) (ht : Real.sin th ≠ 0) :
    schChl c (l * rs) (l * r) th' = scaleTab (facs l s0 e s3) (schChl c rs r th) := by
  have n0 : s0 ≠ 0 := fun h' => by rw [h'] at h0; norm_num at h0
  have n3 : s3 ≠ 0 := fun h' => by rw [h'] at h3; norm_num at h3
  have ne : e ≠ 0 := fun h' => by rw [h'] at he; norm_num at he
  unfold schChl
  rw [show l * rs * (l * r) - (l * r) ^ 2 = l ^ 2 * (rs * r - r ^ 2) by ring, hs, hc]
  generalize rs * r - r ^ 2 = D at *
  generalize Real.sin th = s at *
  generalize Real.cos th = cs at *
  funext i j k
  fin_cases i <;> fin_cases j <;> fin_cases k <;>
    simp [scaleTab, facs, -mul_eq_mul_left_iff, -mul_eq_mul_right_iff, -div_eq_zero_iff, -neg_inj]
  all_goals field_simp
  all_goals first | rw [h0]; ring | rw [he]; ring | rw [h3]; ring

end tables

/-! ### The methods after the substitution -/

variable (k : PhysConst)

/-- The point `x'` is the point `x` with lengths multiplied by `l` and possibly reflected in the equatorial plane. -/
structure SubAt (l e : ℝ) (x x' : Vec4) : Prop where
  r : x' 1 = l * x 1
  sin : Real.sin (x' 2) = Real.sin (x 2)
  cos : Real.cos (x' 2) = e * Real.cos (x 2)

theorem schRad_sc (l M : ℝ) : schwarzschildRadius k (l * M) = l * schwarzschildRadius k M := by unfold schwarzschildRadius; ring
theorem alF_sc (l M a : ℝ) : alF k (l * M) a = l * alF k M a := by unfold alF; ring

theorem alF_sign {M a s0 s3 : ℝ} (h : s0 * s3 = 1 ∨ a = 0) : s0 * s3 * alF k M a = alF k M a := by
  rcases h with h | rfl
  · rw [h, one_mul]
  · unfold alF; ring

theorem rQF_sc {l : ℝ} (hl : 0 < l) (Q : ℝ) : rQF k (l * Q) = l * rQF k Q := by
  unfold rQF
  rw [show (l * Q) ^ 2 * k.G * k.Cc / k.c ^ 4 = l ^ 2 * (Q ^ 2 * k.G * k.Cc / k.c ^ 4) by ring, Real.sqrt_mul (sq_nonneg l),
    Real.sqrt_sq hl.le]

section methods
variable {l s0 e s3 M a : ℝ} {x x' : Vec4}

theorem sch_ch_sub (hl : l ≠ 0) (h0 : s0 ^ 2 = 1) (he : e ^ 2 = 1) (h3 : s3 ^ 2 = 1) (hx : SubAt l e x x') :
    Schwarzschild.christoffels k (Schwarzschild.new k "Spherical" (l * M)) x' =
      (Schwarzschild.christoffels k (Schwarzschild.new k "Spherical" M) x).map (scaleTab (facs l s0 e s3)) := by
  rw [sch_christoffels, sch_christoffels, hx.r, hx.sin, schRad_sc]
  have c : (l * x 1 = 0 ∨ l * schwarzschildRadius k M * (l * x 1) - (l * x 1) ^ 2 = 0 ∨ Real.sin (x 2) = 0) ↔
      (x 1 = 0 ∨ schwarzschildRadius k M * x 1 - x 1 ^ 2 = 0 ∨ Real.sin (x 2) = 0) := by
    rw [show l * schwarzschildRadius k M * (l * x 1) - (l * x 1) ^ 2 = l ^ 2 * (schwarzschildRadius k M * x 1 - x 1 ^ 2) by ring]
    simp [hl]
  by_cases h : x 1 = 0 ∨ schwarzschildRadius k M * x 1 - x 1 ^ 2 = 0 ∨ Real.sin (x 2) = 0
  · rw [if_pos h, if_pos (c.2 h)]; rfl
  · rw [if_neg h, if_neg fun h' => h (c.1 h')]
    push Not at h
    rw [schChl_sc k.c hl h0 he h3 hx.sin hx.cos h.1 h.2.1 h.2.2]; rfl

theorem cond_sub (hl : l ≠ 0) (he : e ^ 2 = 1) (hx : SubAt l e x x') :
    (sigF (alF k (l * M) a) (x' 1) (x' 2) = 0 ∨ delF (schwarzschildRadius k (l * M)) (alF k (l * M) a) (x' 1) = 0) ↔
      (sigF (alF k M a) (x 1) (x 2) = 0 ∨ delF (schwarzschildRadius k M) (alF k M a) (x 1) = 0) := by
  rw [alF_sc, schRad_sc, hx.r, sigF_sc he hx.cos, delF_sc]
  simp [hl]

theorem kerr_metric_sub (hl : l ≠ 0) (h0 : s0 ^ 2 = 1) (he : e ^ 2 = 1) (h3 : s3 ^ 2 = 1) (ha : s0 * s3 = 1 ∨ a = 0) (hx : SubAt l e x x') :
    Kerr.metricCovariant k (Kerr.new k "BoyerLindquist" (l * M) a) x' =
      (Kerr.metricCovariant k (Kerr.new k "BoyerLindquist" M a) x).map (scaleMat (l ^ 2) (facs l s0 e s3)) := by
  rw [kerr_metric, kerr_metric]
  by_cases h1 : 0 ≤ a ∧ a ≤ 1
  · rw [if_pos h1, if_pos h1]
    by_cases h2 : sigF (alF k M a) (x 1) (x 2) = 0 ∨ delF (schwarzschildRadius k M) (alF k M a) (x 1) = 0
    · rw [if_pos h2, if_pos ((cond_sub k hl he hx).2 h2)]; rfl
    · rw [if_neg h2, if_neg fun h' => h2 ((cond_sub k hl he hx).1 h')]
      push Not at h2
      rw [alF_sc, schRad_sc, hx.r, kerrT_sc k.c hl h0 he h3 (alF_sign k ha) hx.sin hx.cos h2.1 h2.2]; rfl
  · rw [if_neg h1, if_neg h1]; rfl

theorem kerr_dgdx_sub (s : String) (hl : l ≠ 0) (h0 : s0 ^ 2 = 1) (he : e ^ 2 = 1) (h3 : s3 ^ 2 = 1) (ha : s0 * s3 = 1 ∨ a = 0)
    (hx : SubAt l e x x') :
    Kerr.dgdxBl k (Kerr.new k s (l * M) a) x' = (Kerr.dgdxBl k (Kerr.new k s M a) x).map (scaleD (l ^ 2) (facs l s0 e s3)) := by
  rw [kerr_dgdx, kerr_dgdx]
  by_cases h1 : 0 ≤ a ∧ a ≤ 1
  · rw [if_pos h1, if_pos h1]
    by_cases h2 : sigF (alF k M a) (x 1) (x 2) = 0 ∨ delF (schwarzschildRadius k M) (alF k M a) (x 1) = 0
    · rw [if_pos h2, if_pos ((cond_sub k hl he hx).2 h2)]; rfl
    · rw [if_neg h2, if_neg fun h' => h2 ((cond_sub k hl he hx).1 h')]
      push Not at h2
      rw [alF_sc, schRad_sc, hx.r, kerrRcode_sc k.c hl h0 he h3 (alF_sign k ha) hx.sin hx.cos h2.1 h2.2,
        kerrTh_sc k.c hl h0 he h3 (alF_sign k ha) hx.sin hx.cos h2.1 h2.2]
      exact congrArg Except.ok (scaleD_tabRT (l ^ 2) (facs l s0 e s3) _ _).symm
  · rw [if_neg h1, if_neg h1]; rfl

theorem kn_metric_sub (Q q Q' q' : ℝ) (hl : l ≠ 0) (h0 : s0 ^ 2 = 1) (he : e ^ 2 = 1) (h3 : s3 ^ 2 = 1) (ha : s0 * s3 = 1 ∨ a = 0)
    (hx : SubAt l e x x') :
    KerrNewman.metricCovariant k (KerrNewman.new k "BoyerLindquist" (l * M) a Q' q') x' =
      (KerrNewman.metricCovariant k (KerrNewman.new k "BoyerLindquist" M a Q q) x).map (scaleMat (l ^ 2) (facs l s0 e s3)) := by
  rw [kn_metric_eq, kn_metric_eq]
  exact kerr_metric_sub k hl h0 he h3 ha hx

theorem kn_dgdx_sub (s : String) (Q q Q' q' : ℝ) (hl : l ≠ 0) (h0 : s0 ^ 2 = 1) (he : e ^ 2 = 1) (h3 : s3 ^ 2 = 1)
    (ha : s0 * s3 = 1 ∨ a = 0) (hx : SubAt l e x x') :
    KerrNewman.dgdxBl k (KerrNewman.new k s (l * M) a Q' q') x' =
      (KerrNewman.dgdxBl k (KerrNewman.new k s M a Q q) x).map (scaleD (l ^ 2) (facs l s0 e s3)) := by
  rw [kn_dgdx, kn_dgdx]
  by_cases h1 : 0 ≤ a ∧ a ≤ 1
  · rw [if_pos h1, if_pos h1]
    by_cases h2 : sigF (alF k M a) (x 1) (x 2) = 0 ∨ delF (schwarzschildRadius k M) (alF k M a) (x 1) = 0
    · rw [if_pos h2, if_pos ((cond_sub k hl he hx).2 h2)]; rfl
    · rw [if_neg h2, if_neg fun h' => h2 ((cond_sub k hl he hx).1 h')]
      push Not at h2
      rw [alF_sc, schRad_sc, hx.r, kerrR_sc k.c hl h0 he h3 (alF_sign k ha) hx.sin hx.cos h2.1 h2.2,
        kerrTh_sc k.c hl h0 he h3 (alF_sign k ha) hx.sin hx.cos h2.1 h2.2]
      exact congrArg Except.ok (scaleD_tabRT (l ^ 2) (facs l s0 e s3) _ _).symm
  · rw [if_neg h1, if_neg h1]; rfl

theorem kn_em_sub (s : String) (Q q q' : ℝ) (hl : 0 < l) (h0 : s0 ^ 2 = 1) (he : e ^ 2 = 1) (h3 : s3 ^ 2 = 1)
    (ha : s0 * s3 = 1 ∨ a = 0) (hx : SubAt l e x x') :
    KerrNewman.emTensorCov k (KerrNewman.new k s (l * M) a (l * Q) q') x' =
      (KerrNewman.emTensorCov k (KerrNewman.new k s M a Q q) x).map (scaleMat (l * s0) (facs l s0 e s3)) := by
  rw [kn_em, kn_em]
  by_cases h1 : 0 ≤ a ∧ a ≤ 1
  · rw [if_pos h1, if_pos h1, alF_sc, hx.r, sigF_sc he hx.cos, rQF_sc k hl]
    by_cases h2 : sigF (alF k M a) (x 1) (x 2) = 0
    · rw [if_pos h2, if_pos (by rw [h2, mul_zero])]; rfl
    · rw [if_neg h2, if_neg (mul_ne_zero (pow_ne_zero 2 hl.ne') h2), emF_sc (rQF k Q) hl.ne' h0 he h3 (alF_sign k ha) hx.sin hx.cos h2]
      rfl
  · rw [if_neg h1, if_neg h1]; rfl

end methods

end Einpy.Num
