import Verif.Predef.KerrGeo

/-!
# The Ricci tensor of the Kerr-Newman line element
-/

set_option linter.unusedSectionVars false

namespace Einpy.Predef
open Geo (Along)

section
variable {K : Type} [Field K] [Algebra ℚ K] {d : Fin 4 → Derivation ℚ K K} {r k s a c P P1 S E w : K}

namespace KN
variable (h : KN d r k s a c P P1 S E w)
include h

theorem stat0 (i j : Fin 4) : d 0 (knGamma r k s a c P P1 S E w 0 i j) = 0 := by
  have h1 := h.dr.h0; have h2 := h.dk.h0; have h3 := h.hs 0; have h4 := h.da.h0; have h5 := h.dc.h0
  have h6 := h.dP.h0; have h7 := h.dP1.h0; have h8 := h.dS.h0; have h9 := h.dE.h0; have h10 := h.dw.h0
  have h11 := (D2.two (d := d) (s := s)).h0
  unfold knGamma
  fin_cases i <;> fin_cases j <;>
    simp [Derivation.leibniz, Derivation.leibniz_div, Derivation.leibniz_pow, h1, h2, h3, h4, h5, h6, h7, h8, h9, h10, h11]

theorem stat3 (i j : Fin 4) : d 3 (knGamma r k s a c P P1 S E w 3 i j) = 0 := by
  have h1 := h.dr.h3; have h2 := h.dk.h3; have h3 := h.hs 3; have h4 := h.da.h3; have h5 := h.dc.h3
  have h6 := h.dP.h3; have h7 := h.dP1.h3; have h8 := h.dS.h3; have h9 := h.dE.h3; have h10 := h.dw.h3
  have h11 := (D2.two (d := d) (s := s)).h3
  have h12 : (3 : Fin 4) ≠ 2 := by decide
  rw [if_neg h12] at h3
  unfold knGamma
  fin_cases i <;> fin_cases j <;>
    simp [Derivation.leibniz, Derivation.leibniz_div, Derivation.leibniz_pow, h1, h2, h3, h4, h5, h6, h7, h8, h9, h10, h11]

theorem ricci_tt : Geo.ricci d (knMetric r a c P S E w) 0 0 = (r * P1 - P) * c ^ 2 / S ^ 2 * ((E + a ^ 2 * w) / S) := by
  have : CharZero K := algebraRat.charZero K
  rw [Geo.ricci_of_table d h.gamma h.trace]
  have L0 : d 0 (knTrace r k s a S w 0) = _ := map_zero _
  have e1 : d 1 (knGamma r k s a c P P1 S E w 1 0 0) = _ := h.d_r00
  have e2 : d 2 (knGamma r k s a c P P1 S E w 2 0 0) = _ := h.d_t00
  simp only [h.trace]
  rw [Fin.sum_univ_four, h.stat0, h.stat3, L0, e1, e2]
  simp only [Fin.sum_univ_four]
  have hss := h.ss
  have S0 := h.S0
  have E0 := h.E0
  have c0 := h.c0
  have w0 := h.w0
  have s0 := h.s0
  have hw := h.w_eq
  have hS := h.hS
  have hE := h.hE
  clear L0 e1 e2 h
  simp [knGamma, knTrace, hss]
  field_simp
  subst hw
  subst hS
  subst hE
  ring1

theorem ricci_tp : Geo.ricci d (knMetric r a c P S E w) 0 3 = (r * P1 - P) * c ^ 2 / S ^ 2 * (-(a * w * (E + (r ^ 2 + a ^ 2))) / (S * c)) := by
  have : CharZero K := algebraRat.charZero K
  rw [Geo.ricci_of_table d h.gamma h.trace]
  have L0 : d 3 (knTrace r k s a S w 0) = _ := map_zero _
  have e1 : d 1 (knGamma r k s a c P P1 S E w 1 0 3) = _ := h.d_r03
  have e2 : d 2 (knGamma r k s a c P P1 S E w 2 0 3) = _ := h.d_t03
  simp only [h.trace]
  rw [Fin.sum_univ_four, h.stat0, h.stat3, L0, e1, e2]
  simp only [Fin.sum_univ_four]
  have hss := h.ss
  have S0 := h.S0
  have E0 := h.E0
  have c0 := h.c0
  have w0 := h.w0
  have s0 := h.s0
  have hw := h.w_eq
  have hS := h.hS
  have hE := h.hE
  clear L0 e1 e2 h
  simp [knGamma, knTrace, hss]
  field_simp
  subst hw
  subst hS
  subst hE
  ring1

theorem ricci_pt : Geo.ricci d (knMetric r a c P S E w) 3 0 = (r * P1 - P) * c ^ 2 / S ^ 2 * (-(a * w * (E + (r ^ 2 + a ^ 2))) / (S * c)) := by
  have : CharZero K := algebraRat.charZero K
  rw [Geo.ricci_of_table d h.gamma h.trace]
  have L0 : d 0 (knTrace r k s a S w 3) = _ := map_zero _
  have e1 : d 1 (knGamma r k s a c P P1 S E w 1 3 0) = _ := h.d_r03
  have e2 : d 2 (knGamma r k s a c P P1 S E w 2 3 0) = _ := h.d_t03
  simp only [h.trace]
  rw [Fin.sum_univ_four, h.stat0, h.stat3, L0, e1, e2]
  simp only [Fin.sum_univ_four]
  have hss := h.ss
  have S0 := h.S0
  have E0 := h.E0
  have c0 := h.c0
  have w0 := h.w0
  have s0 := h.s0
  have hw := h.w_eq
  have hS := h.hS
  have hE := h.hE
  clear L0 e1 e2 h
  simp [knGamma, knTrace, hss]
  field_simp
  subst hw
  subst hS
  subst hE
  ring1

theorem ricci_pp : Geo.ricci d (knMetric r a c P S E w) 3 3 = (r * P1 - P) * c ^ 2 / S ^ 2 * (w * (E * a ^ 2 * w + (r ^ 2 + a ^ 2) ^ 2) / (S * c ^ 2)) := by
  have : CharZero K := algebraRat.charZero K
  rw [Geo.ricci_of_table d h.gamma h.trace]
  have L0 : d 3 (knTrace r k s a S w 3) = _ := map_zero _
  have e1 : d 1 (knGamma r k s a c P P1 S E w 1 3 3) = _ := h.d_r33
  have e2 : d 2 (knGamma r k s a c P P1 S E w 2 3 3) = _ := h.d_t33
  simp only [h.trace]
  rw [Fin.sum_univ_four, h.stat0, h.stat3, L0, e1, e2]
  simp only [Fin.sum_univ_four]
  have hss := h.ss
  have S0 := h.S0
  have E0 := h.E0
  have c0 := h.c0
  have w0 := h.w0
  have s0 := h.s0
  have hw := h.w_eq
  have hS := h.hS
  have hE := h.hE
  clear L0 e1 e2 h
  simp [knGamma, knTrace, hss]
  field_simp
  subst hw
  subst hS
  subst hE
  ring1

theorem ricci_rr : Geo.ricci d (knMetric r a c P S E w) 1 1 = (r * P1 - P) * c ^ 2 / S ^ 2 * (-S / (E * c ^ 2)) := by
  have : CharZero K := algebraRat.charZero K
  rw [Geo.ricci_of_table d h.gamma h.trace]
  have L0 : d 1 (knTrace r k s a S w 1) = _ := h.d_L11
  have e1 : d 1 (knGamma r k s a c P P1 S E w 1 1 1) = _ := h.d_r11
  have e2 : d 2 (knGamma r k s a c P P1 S E w 2 1 1) = _ := h.d_t11
  simp only [h.trace]
  rw [Fin.sum_univ_four, h.stat0, h.stat3, L0, e1, e2]
  simp only [Fin.sum_univ_four]
  have hss := h.ss
  have S0 := h.S0
  have E0 := h.E0
  have c0 := h.c0
  have w0 := h.w0
  have s0 := h.s0
  have hw := h.w_eq
  have hS := h.hS
  have hE := h.hE
  clear L0 e1 e2 h
  simp [knGamma, knTrace, hss]
  field_simp
  subst hw
  subst hS
  subst hE
  ring1

theorem ricci_hh : Geo.ricci d (knMetric r a c P S E w) 2 2 = (r * P1 - P) * c ^ 2 / S ^ 2 * (S / c ^ 2) := by
  have : CharZero K := algebraRat.charZero K
  rw [Geo.ricci_of_table d h.gamma h.trace]
  have L0 : d 2 (knTrace r k s a S w 2) = _ := h.d_L22
  have e1 : d 1 (knGamma r k s a c P P1 S E w 1 2 2) = _ := h.d_r22
  have e2 : d 2 (knGamma r k s a c P P1 S E w 2 2 2) = _ := h.d_t22
  simp only [h.trace]
  rw [Fin.sum_univ_four, h.stat0, h.stat3, L0, e1, e2]
  simp only [Fin.sum_univ_four]
  have hss := h.ss
  have S0 := h.S0
  have E0 := h.E0
  have c0 := h.c0
  have w0 := h.w0
  have s0 := h.s0
  have hw := h.w_eq
  have hS := h.hS
  have hE := h.hE
  clear L0 e1 e2 h
  simp [knGamma, knTrace, hss]
  field_simp
  subst hw
  subst hS
  subst hE
  ring1

theorem ricci_rh : Geo.ricci d (knMetric r a c P S E w) 1 2 = 0 := by
  have : CharZero K := algebraRat.charZero K
  rw [Geo.ricci_of_table d h.gamma h.trace]
  have L0 : d 2 (knTrace r k s a S w 1) = _ := h.d_L12
  have e1 : d 1 (knGamma r k s a c P P1 S E w 1 1 2) = _ := h.d_r12
  have e2 : d 2 (knGamma r k s a c P P1 S E w 2 1 2) = _ := h.d_t12
  simp only [h.trace]
  rw [Fin.sum_univ_four, h.stat0, h.stat3, L0, e1, e2]
  simp only [Fin.sum_univ_four]
  have hss := h.ss
  have S0 := h.S0
  have E0 := h.E0
  have c0 := h.c0
  have w0 := h.w0
  have s0 := h.s0
  have hw := h.w_eq
  have hS := h.hS
  have hE := h.hE
  clear L0 e1 e2 h
  simp [knGamma, knTrace, hss]
  field_simp
  subst hw
  subst hS
  subst hE
  ring1

theorem ricci_hr : Geo.ricci d (knMetric r a c P S E w) 2 1 = 0 := by
  have : CharZero K := algebraRat.charZero K
  rw [Geo.ricci_of_table d h.gamma h.trace]
  have L0 : d 1 (knTrace r k s a S w 2) = _ := h.d_L21
  have e1 : d 1 (knGamma r k s a c P P1 S E w 1 2 1) = _ := h.d_r12
  have e2 : d 2 (knGamma r k s a c P P1 S E w 2 2 1) = _ := h.d_t12
  simp only [h.trace]
  rw [Fin.sum_univ_four, h.stat0, h.stat3, L0, e1, e2]
  simp only [Fin.sum_univ_four]
  have hss := h.ss
  have S0 := h.S0
  have E0 := h.E0
  have c0 := h.c0
  have w0 := h.w0
  have s0 := h.s0
  have hw := h.w_eq
  have hS := h.hS
  have hE := h.hE
  clear L0 e1 e2 h
  simp [knGamma, knTrace, hss]
  field_simp
  subst hw
  subst hS
  subst hE
  ring1

theorem trace_stat (i : Fin 4) : d 0 (knTrace r k s a S w i) = 0 ∧ d 3 (knTrace r k s a S w i) = 0 := by
  have h1 : ∀ j, j ≠ 1 → d j r = 0 := fun j hj => by rw [h.hr j, if_neg hj]
  have h2 : ∀ j, j ≠ 2 → d j k = 0 := fun j hj => by rw [h.hk j, if_neg hj]
  have h3 : ∀ j, j ≠ 2 → d j s = 0 := fun j hj => by rw [h.hs j, if_neg hj]
  unfold knTrace
  fin_cases i
  · exact ⟨map_zero _, map_zero _⟩
  · constructor
    · show d 0 (2 * r / S) = 0
      rw [((D2.two.mul h.dr).div h.dS h.S0).h0]
    · show d 3 (2 * r / S) = 0
      rw [((D2.two.mul h.dr).div h.dS h.S0).h3]
  · exact ⟨(h.odd h.dL2).2.2.1, (h.odd h.dL2).2.2.2⟩
  · exact ⟨map_zero _, map_zero _⟩

theorem ricci_off (i j : Fin 4) (hij : (i = 0 ∨ i = 3) ∧ (j = 1 ∨ j = 2) ∨ (i = 1 ∨ i = 2) ∧ (j = 0 ∨ j = 3)) :
    Geo.ricci d (knMetric r a c P S E w) i j = 0 := by
  rw [Geo.ricci_of_table d h.gamma h.trace]
  have L0 : d j (knTrace r k s a S w i) = 0 := by
    rcases hij with ⟨rfl | rfl, _⟩ | ⟨_, rfl | rfl⟩
    · exact map_zero _
    · exact map_zero _
    · exact (h.trace_stat i).1
    · exact (h.trace_stat i).2
  have e1 : d 1 (knGamma r k s a c P P1 S E w 1 i j) = 0 := by
    rcases hij with ⟨rfl | rfl, rfl | rfl⟩ | ⟨rfl | rfl, rfl | rfl⟩ <;> exact map_zero _
  have e2 : d 2 (knGamma r k s a c P P1 S E w 2 i j) = 0 := by
    rcases hij with ⟨rfl | rfl, rfl | rfl⟩ | ⟨rfl | rfl, rfl | rfl⟩ <;> exact map_zero _
  simp only [h.trace]
  rw [Fin.sum_univ_four, h.stat0, h.stat3, L0, e1, e2]
  simp only [Fin.sum_univ_four]
  clear L0 e1 e2 h
  rcases hij with ⟨rfl | rfl, rfl | rfl⟩ | ⟨rfl | rfl, rfl | rfl⟩ <;> simp [knGamma, knTrace]

/-- The Ricci tensor of the line element. -/
theorem ricci (i j : Fin 4) : Geo.ricci d (knMetric r a c P S E w) i j = (r * P1 - P) * c ^ 2 / S ^ 2 *
    (!![(E + a ^ 2 * w) / S, 0, 0, -(a * w * (E + (r ^ 2 + a ^ 2))) / (S * c);
        0, -S / (E * c ^ 2), 0, 0;
        0, 0, S / c ^ 2, 0;
        -(a * w * (E + (r ^ 2 + a ^ 2))) / (S * c), 0, 0, w * (E * a ^ 2 * w + (r ^ 2 + a ^ 2) ^ 2) / (S * c ^ 2)] :
      Matrix (Fin 4) (Fin 4) K) i j := by
  have z : ∀ x y : K, x = 0 → x = y * 0 := fun x y e => by rw [e, mul_zero]
  revert i j
  refine fin4_cases ?_ ?_ ?_ ?_ <;> refine fin4_cases ?_ ?_ ?_ ?_
  · exact h.ricci_tt
  · exact z _ _ (h.ricci_off 0 1 (by decide))
  · exact z _ _ (h.ricci_off 0 2 (by decide))
  · exact h.ricci_tp
  · exact z _ _ (h.ricci_off 1 0 (by decide))
  · exact h.ricci_rr
  · exact z _ _ h.ricci_rh
  · exact z _ _ (h.ricci_off 1 3 (by decide))
  · exact z _ _ (h.ricci_off 2 0 (by decide))
  · exact z _ _ h.ricci_hr
  · exact h.ricci_hh
  · exact z _ _ (h.ricci_off 2 3 (by decide))
  · exact h.ricci_pt
  · exact z _ _ (h.ricci_off 3 1 (by decide))
  · exact z _ _ (h.ricci_off 3 2 (by decide))
  · exact h.ricci_pp

theorem scalar : Geo.scalar d (knMetric r a c P S E w) = 0 := by
  have : CharZero K := algebraRat.charZero K
  unfold Geo.scalar
  simp only [h.ricci, Matrix.inv_eq_right_inv h.inv_eq, Fin.sum_univ_four]
  have S0 := h.S0
  have E0 := h.E0
  have c0 := h.c0
  have w0 := h.w0
  have hw := h.w_eq
  have hS := h.hS
  have hE := h.hE
  clear h
  simp [knInverse]
  field_simp
  subst hw
  subst hS
  subst hE
  ring1

theorem unit : IsUnit (knMetric r a c P S E w).det := Matrix.isUnit_det_of_right_inverse h.inv_eq

theorem symm : (knMetric r a c P S E w).transpose = knMetric r a c P S E w := by
  unfold knMetric
  ext i j; fin_cases i <;> fin_cases j <;> rfl

end KN

end
end Einpy.Predef
