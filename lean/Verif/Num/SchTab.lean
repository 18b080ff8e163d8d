import Verif.Num.Exec

/-!
# The Schwarzschild table of Christoffel symbols, entry by entry
-/

set_option linter.unusedSimpArgs false
set_option linter.unusedVariables false
set_option linter.unusedTactic false
set_option linter.unreachableTactic false

namespace Einpy.Num
open Classical Topology

variable (k : PhysConst)

theorem sch_conds {rs r : ℝ} (hr : r ≠ 0) : rs * r - r ^ 2 ≠ 0 ↔ 1 - rs / r ≠ 0 := by
  have e : rs * r - r ^ 2 = -(r ^ 2 * (1 - rs / r)) := by field_simp; ring
  rw [e, neg_ne_zero, mul_ne_zero_iff]
  exact ⟨fun h => h.2, fun h => ⟨pow_ne_zero 2 hr, h⟩⟩

theorem sch_near {M : ℝ} {x : Vec4} (hr : x 1 ≠ 0) (ht : 1 - schwarzschildRadius k M / x 1 ≠ 0) :
    ReturnsNear (Schwarzschild.metricCovariant k (Schwarzschild.new k "Spherical" M))
      (fun y => schT k.c (schwarzschildRadius k M) (y 1) (y 2)) x := by
  have c1 : ContinuousAt (fun y : Vec4 => y 1) x := (continuous_apply 1).continuousAt
  have c2 : ContinuousAt (fun y : Vec4 => 1 - schwarzschildRadius k M / y 1) x :=
    continuousAt_const.sub (continuousAt_const.div c1 hr)
  filter_upwards [c1.eventually_ne hr, c2.eventually_ne ht] with y h1 h2
  rw [sch_metric, if_neg (by push Not; exact ⟨h1, h2⟩)]

noncomputable def schI (c rs r th : ℝ) : Mat4 :=
  axi ((1 - rs / r) * c ^ 2)⁻¹ 0 (-(1 - rs / r)) (-(r ^ 2))⁻¹ (-((r * Real.sin th) ^ 2))⁻¹

theorem schI_mul {c rs r th : ℝ} (hc : c ≠ 0) (hr : r ≠ 0) (ht : 1 - rs / r ≠ 0) (hs : Real.sin th ≠ 0) :
    schI c rs r th * schT c rs r th = 1 := by
  have hA : (1 - rs / r) * c ^ 2 ≠ 0 := mul_ne_zero ht (pow_ne_zero 2 hc)
  have hE : -((r * Real.sin th) ^ 2) ≠ 0 := neg_ne_zero.mpr (pow_ne_zero 2 (mul_ne_zero hr hs))
  have h := axi_mul_inv ((1 - rs / r) * c ^ 2) 0 (-1 / (1 - rs / r)) (-(r ^ 2)) (-((r * Real.sin th) ^ 2))
    (div_ne_zero (by norm_num) ht) (neg_ne_zero.mpr (pow_ne_zero 2 hr))
    (by rw [zero_pow two_ne_zero, sub_zero]; exact mul_ne_zero hA hE)
  have e : schI c rs r th = axi (-((r * Real.sin th) ^ 2) / ((1 - rs / r) * c ^ 2 * -((r * Real.sin th) ^ 2) - 0 ^ 2))
      (-0 / ((1 - rs / r) * c ^ 2 * -((r * Real.sin th) ^ 2) - 0 ^ 2)) (-1 / (1 - rs / r))⁻¹ (-(r ^ 2))⁻¹
      ((1 - rs / r) * c ^ 2 / ((1 - rs / r) * c ^ 2 * -((r * Real.sin th) ^ 2) - 0 ^ 2)) := by
    unfold schI
    generalize (1 - rs / r) * c ^ 2 = A at *
    generalize -((r * Real.sin th) ^ 2) = E at *
    congr 1
    · field_simp; simp
    · simp
    · rw [inv_div, div_neg, div_one]
    · field_simp; simp
  rw [e]; exact h

theorem schChl_eq0 {c rs r th : ℝ} (hc : c ≠ 0) (hr : r ≠ 0) (hr2 : rs * r - r ^ 2 ≠ 0) (hs : Real.sin th ≠ 0) : ∀ j l : Fin 4, schChl c rs r th 0 j l =
    chSymClosed (schI c rs r th) (tabRT (schR c rs r th) (schTh r th)) 0 j l := by
  have ht := (sch_conds hr).mp hr2
  have hr3 : r - rs ≠ 0 := by
    intro h; apply hr2; have : r = rs := by linarith
    rw [this]; ring
  have hr4 : rs - r ≠ 0 := fun h => hr3 (by linarith)
  have e1 : rs * r - r ^ 2 = r * (rs - r) := by ring
  have e2 : 1 - rs / r = (r - rs) / r := by field_simp
  have e3 : rs - r = -(r - rs) := by ring
  generalize hgc : schI c rs r th = gc
  generalize hdg : tabRT (schR c rs r th) (schTh r th) = dg
  refine fin4_cases (fin4_cases ?_ ?_ ?_ ?_) (fin4_cases ?_ ?_ ?_ ?_) (fin4_cases ?_ ?_ ?_ ?_) (fin4_cases ?_ ?_ ?_ ?_)
  · exact Eq.trans (show _ = (0 : ℝ) from rfl) (show (0 : ℝ) = _ from rfl)
  · refine Eq.trans (show _ = -(0.5 * rs / (rs * r - r ^ 2)) from rfl) (Eq.trans ?_ (show 0.5 * (gc 0 0 * (dg 1 0 0 + dg 0 0 1) + gc 0 3 * (dg 1 3 0 + dg 0 3 1)) = _ from rfl))
    subst hgc hdg
    simp only [schI, schR, schTh, tabRT0, tabRT1, tabRT2, tabRT3, axi00, axi01, axi02, axi03, axi10, axi11, axi12, axi13, axi20, axi21, axi22, axi23, axi30, axi31, axi32, axi33]
    first | (rw [e1, e2, e3]; field_simp; done) | (rw [e2, e3]; field_simp; done) | (rw [e2]; field_simp; ring) | (field_simp; done) | (field_simp; ring)
  · refine Eq.trans (show _ = 0 from rfl) (Eq.trans ?_ (show 0.5 * (gc 0 0 * (dg 2 0 0 + dg 0 0 2) + gc 0 3 * (dg 2 3 0 + dg 0 3 2)) = _ from rfl))
    subst hgc hdg
    simp only [schI, schR, schTh, tabRT0, tabRT1, tabRT2, tabRT3, axi00, axi01, axi02, axi03, axi10, axi11, axi12, axi13, axi20, axi21, axi22, axi23, axi30, axi31, axi32, axi33]
    ring
  · exact Eq.trans (show _ = (0 : ℝ) from rfl) (show (0 : ℝ) = _ from rfl)
  · refine Eq.trans (show _ = -(0.5 * rs / (rs * r - r ^ 2)) from rfl) (Eq.trans ?_ (show 0.5 * (gc 0 0 * (dg 1 0 0 + dg 0 0 1) + gc 0 3 * (dg 1 3 0 + dg 0 3 1)) = _ from rfl))
    subst hgc hdg
    simp only [schI, schR, schTh, tabRT0, tabRT1, tabRT2, tabRT3, axi00, axi01, axi02, axi03, axi10, axi11, axi12, axi13, axi20, axi21, axi22, axi23, axi30, axi31, axi32, axi33]
    first | (rw [e1, e2, e3]; field_simp; done) | (rw [e2, e3]; field_simp; done) | (rw [e2]; field_simp; ring) | (field_simp; done) | (field_simp; ring)
  · exact Eq.trans (show _ = (0 : ℝ) from rfl) (show (0 : ℝ) = _ from rfl)
  · exact Eq.trans (show _ = (0 : ℝ) from rfl) (show (0 : ℝ) = _ from rfl)
  · refine Eq.trans (show _ = 0 from rfl) (Eq.trans ?_ (show 0.5 * (gc 0 0 * (dg 3 0 1 + dg 1 0 3) + gc 0 3 * (dg 3 3 1 + dg 1 3 3)) = _ from rfl))
    subst hgc hdg
    simp only [schI, schR, schTh, tabRT0, tabRT1, tabRT2, tabRT3, axi00, axi01, axi02, axi03, axi10, axi11, axi12, axi13, axi20, axi21, axi22, axi23, axi30, axi31, axi32, axi33]
    ring
  · refine Eq.trans (show _ = 0 from rfl) (Eq.trans ?_ (show 0.5 * (gc 0 0 * (dg 2 0 0 + dg 0 0 2) + gc 0 3 * (dg 2 3 0 + dg 0 3 2)) = _ from rfl))
    subst hgc hdg
    simp only [schI, schR, schTh, tabRT0, tabRT1, tabRT2, tabRT3, axi00, axi01, axi02, axi03, axi10, axi11, axi12, axi13, axi20, axi21, axi22, axi23, axi30, axi31, axi32, axi33]
    ring
  · exact Eq.trans (show _ = (0 : ℝ) from rfl) (show (0 : ℝ) = _ from rfl)
  · exact Eq.trans (show _ = (0 : ℝ) from rfl) (show (0 : ℝ) = _ from rfl)
  · refine Eq.trans (show _ = 0 from rfl) (Eq.trans ?_ (show 0.5 * (gc 0 0 * (dg 3 0 2 + dg 2 0 3) + gc 0 3 * (dg 3 3 2 + dg 2 3 3)) = _ from rfl))
    subst hgc hdg
    simp only [schI, schR, schTh, tabRT0, tabRT1, tabRT2, tabRT3, axi00, axi01, axi02, axi03, axi10, axi11, axi12, axi13, axi20, axi21, axi22, axi23, axi30, axi31, axi32, axi33]
    ring
  · exact Eq.trans (show _ = (0 : ℝ) from rfl) (show (0 : ℝ) = _ from rfl)
  · refine Eq.trans (show _ = 0 from rfl) (Eq.trans ?_ (show 0.5 * (gc 0 0 * (dg 3 0 1 + dg 1 0 3) + gc 0 3 * (dg 3 3 1 + dg 1 3 3)) = _ from rfl))
    subst hgc hdg
    simp only [schI, schR, schTh, tabRT0, tabRT1, tabRT2, tabRT3, axi00, axi01, axi02, axi03, axi10, axi11, axi12, axi13, axi20, axi21, axi22, axi23, axi30, axi31, axi32, axi33]
    ring
  · refine Eq.trans (show _ = 0 from rfl) (Eq.trans ?_ (show 0.5 * (gc 0 0 * (dg 3 0 2 + dg 2 0 3) + gc 0 3 * (dg 3 3 2 + dg 2 3 3)) = _ from rfl))
    subst hgc hdg
    simp only [schI, schR, schTh, tabRT0, tabRT1, tabRT2, tabRT3, axi00, axi01, axi02, axi03, axi10, axi11, axi12, axi13, axi20, axi21, axi22, axi23, axi30, axi31, axi32, axi33]
    ring
  · exact Eq.trans (show _ = (0 : ℝ) from rfl) (show (0 : ℝ) = _ from rfl)

theorem schChl_eq1 {c rs r th : ℝ} (hc : c ≠ 0) (hr : r ≠ 0) (hr2 : rs * r - r ^ 2 ≠ 0) (hs : Real.sin th ≠ 0) : ∀ j l : Fin 4, schChl c rs r th 1 j l =
    chSymClosed (schI c rs r th) (tabRT (schR c rs r th) (schTh r th)) 1 j l := by
  have ht := (sch_conds hr).mp hr2
  have hr3 : r - rs ≠ 0 := by
    intro h; apply hr2; have : r = rs := by linarith
    rw [this]; ring
  have hr4 : rs - r ≠ 0 := fun h => hr3 (by linarith)
  have e1 : rs * r - r ^ 2 = r * (rs - r) := by ring
  have e2 : 1 - rs / r = (r - rs) / r := by field_simp
  have e3 : rs - r = -(r - rs) := by ring
  generalize hgc : schI c rs r th = gc
  generalize hdg : tabRT (schR c rs r th) (schTh r th) = dg
  refine fin4_cases (fin4_cases ?_ ?_ ?_ ?_) (fin4_cases ?_ ?_ ?_ ?_) (fin4_cases ?_ ?_ ?_ ?_) (fin4_cases ?_ ?_ ?_ ?_)
  · refine Eq.trans (show _ = 0.5 * rs * (r - rs) * c ^ 2 / r ^ 3 from rfl) (Eq.trans ?_ (show 0.5 * (gc 1 1 * (dg 0 1 0 + dg 0 1 0 - dg 1 0 0)) = _ from rfl))
    subst hgc hdg
    simp only [schI, schR, schTh, tabRT0, tabRT1, tabRT2, tabRT3, axi00, axi01, axi02, axi03, axi10, axi11, axi12, axi13, axi20, axi21, axi22, axi23, axi30, axi31, axi32, axi33]
    first | (rw [e1, e2, e3]; field_simp; done) | (rw [e2, e3]; field_simp; done) | (rw [e2]; field_simp; ring) | (field_simp; done) | (field_simp; ring)
  · exact Eq.trans (show _ = (0 : ℝ) from rfl) (show (0 : ℝ) = _ from rfl)
  · exact Eq.trans (show _ = (0 : ℝ) from rfl) (show (0 : ℝ) = _ from rfl)
  · refine Eq.trans (show _ = 0 from rfl) (Eq.trans ?_ (show 0.5 * (gc 1 1 * (dg 3 1 0 + dg 0 1 3 - dg 1 0 3)) = _ from rfl))
    subst hgc hdg
    simp only [schI, schR, schTh, tabRT0, tabRT1, tabRT2, tabRT3, axi00, axi01, axi02, axi03, axi10, axi11, axi12, axi13, axi20, axi21, axi22, axi23, axi30, axi31, axi32, axi33]
    ring
  · exact Eq.trans (show _ = (0 : ℝ) from rfl) (show (0 : ℝ) = _ from rfl)
  · refine Eq.trans (show _ = 0.5 * rs / (rs * r - r ^ 2) from rfl) (Eq.trans ?_ (show 0.5 * (gc 1 1 * (dg 1 1 1 + dg 1 1 1 - dg 1 1 1)) = _ from rfl))
    subst hgc hdg
    simp only [schI, schR, schTh, tabRT0, tabRT1, tabRT2, tabRT3, axi00, axi01, axi02, axi03, axi10, axi11, axi12, axi13, axi20, axi21, axi22, axi23, axi30, axi31, axi32, axi33]
    first | (rw [e1, e2, e3]; field_simp; done) | (rw [e2, e3]; field_simp; done) | (rw [e2]; field_simp; ring) | (field_simp; done) | (field_simp; ring)
  · refine Eq.trans (show _ = 0 from rfl) (Eq.trans ?_ (show 0.5 * (gc 1 1 * (dg 2 1 1 + dg 1 1 2 - dg 1 1 2)) = _ from rfl))
    subst hgc hdg
    simp only [schI, schR, schTh, tabRT0, tabRT1, tabRT2, tabRT3, axi00, axi01, axi02, axi03, axi10, axi11, axi12, axi13, axi20, axi21, axi22, axi23, axi30, axi31, axi32, axi33]
    ring
  · exact Eq.trans (show _ = (0 : ℝ) from rfl) (show (0 : ℝ) = _ from rfl)
  · exact Eq.trans (show _ = (0 : ℝ) from rfl) (show (0 : ℝ) = _ from rfl)
  · refine Eq.trans (show _ = 0 from rfl) (Eq.trans ?_ (show 0.5 * (gc 1 1 * (dg 2 1 1 + dg 1 1 2 - dg 1 1 2)) = _ from rfl))
    subst hgc hdg
    simp only [schI, schR, schTh, tabRT0, tabRT1, tabRT2, tabRT3, axi00, axi01, axi02, axi03, axi10, axi11, axi12, axi13, axi20, axi21, axi22, axi23, axi30, axi31, axi32, axi33]
    ring
  · refine Eq.trans (show _ = rs - r from rfl) (Eq.trans ?_ (show 0.5 * (gc 1 1 * (dg 2 1 2 + dg 2 1 2 - dg 1 2 2)) = _ from rfl))
    subst hgc hdg
    simp only [schI, schR, schTh, tabRT0, tabRT1, tabRT2, tabRT3, axi00, axi01, axi02, axi03, axi10, axi11, axi12, axi13, axi20, axi21, axi22, axi23, axi30, axi31, axi32, axi33]
    first | (rw [e1, e2, e3]; field_simp; done) | (rw [e2, e3]; field_simp; done) | (rw [e2]; field_simp; ring) | (field_simp; done) | (field_simp; ring)
  · exact Eq.trans (show _ = (0 : ℝ) from rfl) (show (0 : ℝ) = _ from rfl)
  · refine Eq.trans (show _ = 0 from rfl) (Eq.trans ?_ (show 0.5 * (gc 1 1 * (dg 3 1 0 + dg 0 1 3 - dg 1 0 3)) = _ from rfl))
    subst hgc hdg
    simp only [schI, schR, schTh, tabRT0, tabRT1, tabRT2, tabRT3, axi00, axi01, axi02, axi03, axi10, axi11, axi12, axi13, axi20, axi21, axi22, axi23, axi30, axi31, axi32, axi33]
    ring
  · exact Eq.trans (show _ = (0 : ℝ) from rfl) (show (0 : ℝ) = _ from rfl)
  · exact Eq.trans (show _ = (0 : ℝ) from rfl) (show (0 : ℝ) = _ from rfl)
  · refine Eq.trans (show _ = (rs - r) * Real.sin th ^ 2 from rfl) (Eq.trans ?_ (show 0.5 * (gc 1 1 * (dg 3 1 3 + dg 3 1 3 - dg 1 3 3)) = _ from rfl))
    subst hgc hdg
    simp only [schI, schR, schTh, tabRT0, tabRT1, tabRT2, tabRT3, axi00, axi01, axi02, axi03, axi10, axi11, axi12, axi13, axi20, axi21, axi22, axi23, axi30, axi31, axi32, axi33]
    first | (rw [e1, e2, e3]; field_simp; done) | (rw [e2, e3]; field_simp; done) | (rw [e2]; field_simp; ring) | (field_simp; done) | (field_simp; ring)

theorem schChl_eq2 {c rs r th : ℝ} (hc : c ≠ 0) (hr : r ≠ 0) (hr2 : rs * r - r ^ 2 ≠ 0) (hs : Real.sin th ≠ 0) : ∀ j l : Fin 4, schChl c rs r th 2 j l =
    chSymClosed (schI c rs r th) (tabRT (schR c rs r th) (schTh r th)) 2 j l := by
  have ht := (sch_conds hr).mp hr2
  have hr3 : r - rs ≠ 0 := by
    intro h; apply hr2; have : r = rs := by linarith
    rw [this]; ring
  have hr4 : rs - r ≠ 0 := fun h => hr3 (by linarith)
  have e1 : rs * r - r ^ 2 = r * (rs - r) := by ring
  have e2 : 1 - rs / r = (r - rs) / r := by field_simp
  have e3 : rs - r = -(r - rs) := by ring
  generalize hgc : schI c rs r th = gc
  generalize hdg : tabRT (schR c rs r th) (schTh r th) = dg
  refine fin4_cases (fin4_cases ?_ ?_ ?_ ?_) (fin4_cases ?_ ?_ ?_ ?_) (fin4_cases ?_ ?_ ?_ ?_) (fin4_cases ?_ ?_ ?_ ?_)
  · refine Eq.trans (show _ = 0 from rfl) (Eq.trans ?_ (show 0.5 * (gc 2 2 * (dg 0 2 0 + dg 0 2 0 - dg 2 0 0)) = _ from rfl))
    subst hgc hdg
    simp only [schI, schR, schTh, tabRT0, tabRT1, tabRT2, tabRT3, axi00, axi01, axi02, axi03, axi10, axi11, axi12, axi13, axi20, axi21, axi22, axi23, axi30, axi31, axi32, axi33]
    ring
  · exact Eq.trans (show _ = (0 : ℝ) from rfl) (show (0 : ℝ) = _ from rfl)
  · exact Eq.trans (show _ = (0 : ℝ) from rfl) (show (0 : ℝ) = _ from rfl)
  · refine Eq.trans (show _ = 0 from rfl) (Eq.trans ?_ (show 0.5 * (gc 2 2 * (dg 3 2 0 + dg 0 2 3 - dg 2 0 3)) = _ from rfl))
    subst hgc hdg
    simp only [schI, schR, schTh, tabRT0, tabRT1, tabRT2, tabRT3, axi00, axi01, axi02, axi03, axi10, axi11, axi12, axi13, axi20, axi21, axi22, axi23, axi30, axi31, axi32, axi33]
    ring
  · exact Eq.trans (show _ = (0 : ℝ) from rfl) (show (0 : ℝ) = _ from rfl)
  · refine Eq.trans (show _ = 0 from rfl) (Eq.trans ?_ (show 0.5 * (gc 2 2 * (dg 1 2 1 + dg 1 2 1 - dg 2 1 1)) = _ from rfl))
    subst hgc hdg
    simp only [schI, schR, schTh, tabRT0, tabRT1, tabRT2, tabRT3, axi00, axi01, axi02, axi03, axi10, axi11, axi12, axi13, axi20, axi21, axi22, axi23, axi30, axi31, axi32, axi33]
    ring
  · refine Eq.trans (show _ = 1 / r from rfl) (Eq.trans ?_ (show 0.5 * (gc 2 2 * (dg 2 2 1 + dg 1 2 2 - dg 2 1 2)) = _ from rfl))
    subst hgc hdg
    simp only [schI, schR, schTh, tabRT0, tabRT1, tabRT2, tabRT3, axi00, axi01, axi02, axi03, axi10, axi11, axi12, axi13, axi20, axi21, axi22, axi23, axi30, axi31, axi32, axi33]
    first | (rw [e1, e2, e3]; field_simp; done) | (rw [e2, e3]; field_simp; done) | (rw [e2]; field_simp; ring) | (field_simp; done) | (field_simp; ring)
  · exact Eq.trans (show _ = (0 : ℝ) from rfl) (show (0 : ℝ) = _ from rfl)
  · exact Eq.trans (show _ = (0 : ℝ) from rfl) (show (0 : ℝ) = _ from rfl)
  · refine Eq.trans (show _ = 1 / r from rfl) (Eq.trans ?_ (show 0.5 * (gc 2 2 * (dg 2 2 1 + dg 1 2 2 - dg 2 1 2)) = _ from rfl))
    subst hgc hdg
    simp only [schI, schR, schTh, tabRT0, tabRT1, tabRT2, tabRT3, axi00, axi01, axi02, axi03, axi10, axi11, axi12, axi13, axi20, axi21, axi22, axi23, axi30, axi31, axi32, axi33]
    first | (rw [e1, e2, e3]; field_simp; done) | (rw [e2, e3]; field_simp; done) | (rw [e2]; field_simp; ring) | (field_simp; done) | (field_simp; ring)
  · refine Eq.trans (show _ = 0 from rfl) (Eq.trans ?_ (show 0.5 * (gc 2 2 * (dg 2 2 2 + dg 2 2 2 - dg 2 2 2)) = _ from rfl))
    subst hgc hdg
    simp only [schI, schR, schTh, tabRT0, tabRT1, tabRT2, tabRT3, axi00, axi01, axi02, axi03, axi10, axi11, axi12, axi13, axi20, axi21, axi22, axi23, axi30, axi31, axi32, axi33]
    ring
  · exact Eq.trans (show _ = (0 : ℝ) from rfl) (show (0 : ℝ) = _ from rfl)
  · refine Eq.trans (show _ = 0 from rfl) (Eq.trans ?_ (show 0.5 * (gc 2 2 * (dg 3 2 0 + dg 0 2 3 - dg 2 0 3)) = _ from rfl))
    subst hgc hdg
    simp only [schI, schR, schTh, tabRT0, tabRT1, tabRT2, tabRT3, axi00, axi01, axi02, axi03, axi10, axi11, axi12, axi13, axi20, axi21, axi22, axi23, axi30, axi31, axi32, axi33]
    ring
  · exact Eq.trans (show _ = (0 : ℝ) from rfl) (show (0 : ℝ) = _ from rfl)
  · exact Eq.trans (show _ = (0 : ℝ) from rfl) (show (0 : ℝ) = _ from rfl)
  · refine Eq.trans (show _ = -Real.cos th * Real.sin th from rfl) (Eq.trans ?_ (show 0.5 * (gc 2 2 * (dg 3 2 3 + dg 3 2 3 - dg 2 3 3)) = _ from rfl))
    subst hgc hdg
    simp only [schI, schR, schTh, tabRT0, tabRT1, tabRT2, tabRT3, axi00, axi01, axi02, axi03, axi10, axi11, axi12, axi13, axi20, axi21, axi22, axi23, axi30, axi31, axi32, axi33]
    first | (rw [e1, e2, e3]; field_simp; done) | (rw [e2, e3]; field_simp; done) | (rw [e2]; field_simp; ring) | (field_simp; done) | (field_simp; ring)

theorem schChl_eq3 {c rs r th : ℝ} (hc : c ≠ 0) (hr : r ≠ 0) (hr2 : rs * r - r ^ 2 ≠ 0) (hs : Real.sin th ≠ 0) : ∀ j l : Fin 4, schChl c rs r th 3 j l =
    chSymClosed (schI c rs r th) (tabRT (schR c rs r th) (schTh r th)) 3 j l := by
  have ht := (sch_conds hr).mp hr2
  have hr3 : r - rs ≠ 0 := by
    intro h; apply hr2; have : r = rs := by linarith
    rw [this]; ring
  have hr4 : rs - r ≠ 0 := fun h => hr3 (by linarith)
  have e1 : rs * r - r ^ 2 = r * (rs - r) := by ring
  have e2 : 1 - rs / r = (r - rs) / r := by field_simp
  have e3 : rs - r = -(r - rs) := by ring
  generalize hgc : schI c rs r th = gc
  generalize hdg : tabRT (schR c rs r th) (schTh r th) = dg
  refine fin4_cases (fin4_cases ?_ ?_ ?_ ?_) (fin4_cases ?_ ?_ ?_ ?_) (fin4_cases ?_ ?_ ?_ ?_) (fin4_cases ?_ ?_ ?_ ?_)
  · exact Eq.trans (show _ = (0 : ℝ) from rfl) (show (0 : ℝ) = _ from rfl)
  · refine Eq.trans (show _ = 0 from rfl) (Eq.trans ?_ (show 0.5 * (gc 3 0 * (dg 1 0 0 + dg 0 0 1) + gc 3 3 * (dg 1 3 0 + dg 0 3 1)) = _ from rfl))
    subst hgc hdg
    simp only [schI, schR, schTh, tabRT0, tabRT1, tabRT2, tabRT3, axi00, axi01, axi02, axi03, axi10, axi11, axi12, axi13, axi20, axi21, axi22, axi23, axi30, axi31, axi32, axi33]
    ring
  · refine Eq.trans (show _ = 0 from rfl) (Eq.trans ?_ (show 0.5 * (gc 3 0 * (dg 2 0 0 + dg 0 0 2) + gc 3 3 * (dg 2 3 0 + dg 0 3 2)) = _ from rfl))
    subst hgc hdg
    simp only [schI, schR, schTh, tabRT0, tabRT1, tabRT2, tabRT3, axi00, axi01, axi02, axi03, axi10, axi11, axi12, axi13, axi20, axi21, axi22, axi23, axi30, axi31, axi32, axi33]
    ring
  · exact Eq.trans (show _ = (0 : ℝ) from rfl) (show (0 : ℝ) = _ from rfl)
  · refine Eq.trans (show _ = 0 from rfl) (Eq.trans ?_ (show 0.5 * (gc 3 0 * (dg 1 0 0 + dg 0 0 1) + gc 3 3 * (dg 1 3 0 + dg 0 3 1)) = _ from rfl))
    subst hgc hdg
    simp only [schI, schR, schTh, tabRT0, tabRT1, tabRT2, tabRT3, axi00, axi01, axi02, axi03, axi10, axi11, axi12, axi13, axi20, axi21, axi22, axi23, axi30, axi31, axi32, axi33]
    ring
  · exact Eq.trans (show _ = (0 : ℝ) from rfl) (show (0 : ℝ) = _ from rfl)
  · exact Eq.trans (show _ = (0 : ℝ) from rfl) (show (0 : ℝ) = _ from rfl)
  · refine Eq.trans (show _ = 1 / r from rfl) (Eq.trans ?_ (show 0.5 * (gc 3 0 * (dg 3 0 1 + dg 1 0 3) + gc 3 3 * (dg 3 3 1 + dg 1 3 3)) = _ from rfl))
    subst hgc hdg
    simp only [schI, schR, schTh, tabRT0, tabRT1, tabRT2, tabRT3, axi00, axi01, axi02, axi03, axi10, axi11, axi12, axi13, axi20, axi21, axi22, axi23, axi30, axi31, axi32, axi33]
    first | (rw [e1, e2, e3]; field_simp; done) | (rw [e2, e3]; field_simp; done) | (rw [e2]; field_simp; ring) | (field_simp; done) | (field_simp; ring)
  · refine Eq.trans (show _ = 0 from rfl) (Eq.trans ?_ (show 0.5 * (gc 3 0 * (dg 2 0 0 + dg 0 0 2) + gc 3 3 * (dg 2 3 0 + dg 0 3 2)) = _ from rfl))
    subst hgc hdg
    simp only [schI, schR, schTh, tabRT0, tabRT1, tabRT2, tabRT3, axi00, axi01, axi02, axi03, axi10, axi11, axi12, axi13, axi20, axi21, axi22, axi23, axi30, axi31, axi32, axi33]
    ring
  · exact Eq.trans (show _ = (0 : ℝ) from rfl) (show (0 : ℝ) = _ from rfl)
  · exact Eq.trans (show _ = (0 : ℝ) from rfl) (show (0 : ℝ) = _ from rfl)
  · refine Eq.trans (show _ = Real.cos th / Real.sin th from rfl) (Eq.trans ?_ (show 0.5 * (gc 3 0 * (dg 3 0 2 + dg 2 0 3) + gc 3 3 * (dg 3 3 2 + dg 2 3 3)) = _ from rfl))
    subst hgc hdg
    simp only [schI, schR, schTh, tabRT0, tabRT1, tabRT2, tabRT3, axi00, axi01, axi02, axi03, axi10, axi11, axi12, axi13, axi20, axi21, axi22, axi23, axi30, axi31, axi32, axi33]
    first | (rw [e1, e2, e3]; field_simp; done) | (rw [e2, e3]; field_simp; done) | (rw [e2]; field_simp; ring) | (field_simp; done) | (field_simp; ring)
  · exact Eq.trans (show _ = (0 : ℝ) from rfl) (show (0 : ℝ) = _ from rfl)
  · refine Eq.trans (show _ = 1 / r from rfl) (Eq.trans ?_ (show 0.5 * (gc 3 0 * (dg 3 0 1 + dg 1 0 3) + gc 3 3 * (dg 3 3 1 + dg 1 3 3)) = _ from rfl))
    subst hgc hdg
    simp only [schI, schR, schTh, tabRT0, tabRT1, tabRT2, tabRT3, axi00, axi01, axi02, axi03, axi10, axi11, axi12, axi13, axi20, axi21, axi22, axi23, axi30, axi31, axi32, axi33]
    first | (rw [e1, e2, e3]; field_simp; done) | (rw [e2, e3]; field_simp; done) | (rw [e2]; field_simp; ring) | (field_simp; done) | (field_simp; ring)
  · refine Eq.trans (show _ = Real.cos th / Real.sin th from rfl) (Eq.trans ?_ (show 0.5 * (gc 3 0 * (dg 3 0 2 + dg 2 0 3) + gc 3 3 * (dg 3 3 2 + dg 2 3 3)) = _ from rfl))
    subst hgc hdg
    simp only [schI, schR, schTh, tabRT0, tabRT1, tabRT2, tabRT3, axi00, axi01, axi02, axi03, axi10, axi11, axi12, axi13, axi20, axi21, axi22, axi23, axi30, axi31, axi32, axi33]
    first | (rw [e1, e2, e3]; field_simp; done) | (rw [e2, e3]; field_simp; done) | (rw [e2]; field_simp; ring) | (field_simp; done) | (field_simp; ring)
  · exact Eq.trans (show _ = (0 : ℝ) from rfl) (show (0 : ℝ) = _ from rfl)

theorem schClosed_eq (c rs r th : ℝ) (i j l : Fin 4) :
    chSymClosed (schI c rs r th) (tabRT (schR c rs r th) (schTh r th)) i j l =
      christoffelFormula (schI c rs r th) (tabRT (schR c rs r th) (schTh r th)) i j l := by
  unfold schI schR schTh
  rw [← chSymLoops_closed]
  exact chSymLoops_eq _ _ _ _ _ _ _ _ _ _ _ _ _ _ _ i j l

theorem schChl_eq {c rs r th : ℝ} (hc : c ≠ 0) (hr : r ≠ 0) (hr2 : rs * r - r ^ 2 ≠ 0) (hs : Real.sin th ≠ 0) (i j l : Fin 4) : schChl c rs r th i j l =
      christoffelFormula (schI c rs r th) (tabRT (schR c rs r th) (schTh r th)) i j l := by
  rw [← schClosed_eq]
  revert i j l
  exact fin4_cases (schChl_eq0 hc hr hr2 hs) (schChl_eq1 hc hr hr2 hs) (schChl_eq2 hc hr hr2 hs) (schChl_eq3 hc hr hr2 hs)

end Einpy.Num
