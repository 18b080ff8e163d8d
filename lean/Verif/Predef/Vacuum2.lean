import Verif.Predef.Vacuum

/-!
# C63 (Minkowski is flat), C64 ((anti-)de Sitter are Einstein spaces), C89 (Ricci scalar of Reissner–Nordström)
-/

set_option linter.unusedSectionVars false

namespace Einpy.Predef
open Geo (Along)

section
variable {K : Type} [Field K] [Algebra ℚ K] {D : String → Derivation ℚ K K} {F : Fns K}

theorem RicciIs.inj {p : Py (MetricV K)} {T T' : Fin 4 → Fin 4 → K} (h : RicciIs D p T) (h' : RicciIs D p T') (i j : Fin 4) :
    T i j = T' i j := by
  obtain ⟨m, ric, e, er, -, -, hT⟩ := h
  obtain ⟨m', ric', e', er', -, -, hT'⟩ := h'
  rw [e] at e'
  have := Except.ok.inj e'
  subst this
  rw [er] at er'
  have := Except.ok.inj er'
  subst this
  rw [← hT, hT']

/-- The Ricci scalar of a diagonal metric from its Ricci tensor. -/
theorem scalarIs_diag {p : Py (MetricV K)} {cs : List String} {h : Fin 4 → K} (hp : Returns p cs (Matrix.diagonal h))
    (hcs : cs.length = 4) (hh : ∀ i, h i ≠ 0) {T : Fin 4 → Fin 4 → K} (hT : RicciIs D p T) :
    ScalarIs D p (T 0 0 / h 0 + T 1 1 / h 1 + T 2 2 / h 2 + T 3 3 / h 3) := by
  have h1 := scalarIs_of (D := D) hp hcs (diag_unit hh) (Matrix.diagonal_transpose _)
  have h2 := ricciIs_of (D := D) hp hcs (diag_unit hh) (Matrix.diagonal_transpose _)
  rw [Geo.scalar_diag _ hh, Fin.sum_univ_four] at h1
  rwa [h2.inj hT, h2.inj hT, h2.inj hT, h2.inj hT] at h1

/-! ## Minkowski -/

/-- C63 (Cartesian coordinates): the Riemann tensor of `MinkowskiCartesian(c)` vanishes for every constant c ≠ 0. -/
theorem C63_cartesian_flat (c : K) (hc : IsConst D ["t", "x", "y", "z"] c) (c0 : c ≠ 0) :
    RiemannVanishes D (minkowskiCartesian c) := by
  have hR := returns_diag (-1) (1 / c ^ 2) (1 / c ^ 2) (1 / c ^ 2) ["t", "x", "y", "z"] "MinkowskiMetric" rfl
  have hcd := const_coordD (cs := ["t", "x", "y", "z"]) rfl hc
  have hc2 : (1 / c ^ 2 : K) ≠ 0 := one_div_ne_zero (pow_ne_zero 2 c0)
  have hh : ∀ i, ![-1, 1 / c ^ 2, 1 / c ^ 2, 1 / c ^ 2] i ≠ 0 := by
    intro i
    fin_cases i
    · exact neg_ne_zero.2 one_ne_zero
    · exact hc2
    · exact hc2
    · exact hc2
  have hd : ∀ i j, coordD D ["t", "x", "y", "z"] 4 i (![-1, 1 / c ^ 2, 1 / c ^ 2, 1 / c ^ 2] j) = 0 := by
    intro i j
    have h1 : coordD D ["t", "x", "y", "z"] 4 i (1 / c ^ 2) = 0 := by
      rw [Derivation.leibniz_div, Derivation.leibniz_pow, hcd, Derivation.map_one_eq_zero]; simp
    fin_cases j
    · show coordD D ["t", "x", "y", "z"] 4 i (-1) = 0
      rw [map_neg, Derivation.map_one_eq_zero, neg_zero]
    · exact h1
    · exact h1
    · exact h1
  have hG : ∀ i j k, Geo.christoffel (coordD D ["t", "x", "y", "z"] 4)
      (Matrix.diagonal ![-1, 1 / c ^ 2, 1 / c ^ 2, 1 / c ^ 2]) i j k = 0 := by
    intro i j k
    rw [Geo.christoffel_diag _ hh]
    simp only [Geo.pF, hd]
    simp
  unfold minkowskiCartesian
  refine riemannVanishes_of hR rfl (diag_unit hh) (Matrix.diagonal_transpose _) fun i j k l => ?_
  unfold Geo.riemann
  simp only [hG, map_zero, mul_zero, sub_zero, Finset.sum_const_zero, add_zero]

/-- The metric dt² and the Euclidean metric in polar coordinates is flat. -/
theorem polar_flat {d : Fin 4 → Derivation ℚ K K} {r c s k : K} (hr : Along d 1 r 1) (hcd : ∀ j, d j c = 0)
    (hs : Along d 2 s k) (hk : Along d 2 k (-s)) (hsq : s ^ 2 + k ^ 2 = 1) (r0 : r ≠ 0) (c0 : c ≠ 0) (s0 : s ≠ 0)
    (hh : ∀ i, ![-1, 1 / c ^ 2, r ^ 2 / c ^ 2, r ^ 2 / c ^ 2 * s ^ 2] i ≠ 0) (i j a b : Fin 4) :
    Geo.riemann d (Matrix.diagonal ![-1, 1 / c ^ 2, r ^ 2 / c ^ 2, r ^ 2 / c ^ 2 * s ^ 2]) i j a b = 0 := by
  have : CharZero K := algebraRat.charZero K
  have hc2 : c ^ 2 ≠ 0 := pow_ne_zero 2 c0
  have c2 : Along d 1 (c ^ 2) 0 := by
    have := Geo.along_pow (Geo.along_const (i := 1) hcd) 2
    simpa using this
  have hA : Along d 1 (-1 : K) 0 := by
    have := Geo.along_neg (Geo.along_one (d := d) (i := 1))
    rwa [neg_zero] at this
  have hB : Along d 1 (1 / c ^ 2 : K) 0 := by
    have := Geo.along_div (Geo.along_one (d := d) (i := 1)) c2 hc2
    simpa using this
  have hC : Along d 1 (r ^ 2 / c ^ 2 : K) (2 * r / c ^ 2) := by
    convert Geo.along_div (Geo.along_pow hr 2) c2 hc2 using 1
    push_cast; field_simp; ring
  have P := Geo.pF_spherical d hA hB hC hs (neg_ne_zero.2 one_ne_zero) (one_div_ne_zero hc2)
    (div_ne_zero (pow_ne_zero 2 r0) hc2) s0
  have q1 : Along d 1 r⁻¹ (-1 / r ^ 2) := by
    rw [← one_div]
    convert Geo.along_div Geo.along_one hr r0 using 1
    ring
  have q2 : Along d 2 (k / s) (-1 / s ^ 2) := by
    convert Geo.along_div hk hs s0 using 1
    rw [← hsq]; ring
  have q3 : Along d 2 (s * k) (k ^ 2 - s ^ 2) := by
    convert Geo.along_mul hs hk using 1
    ring
  have G : ∀ i j l, Geo.christoffel d (Matrix.diagonal ![-1, 1 / c ^ 2, r ^ 2 / c ^ 2, r ^ 2 / c ^ 2 * s ^ 2]) i j l =
      ![(fun _ _ => 0), !![0, 0, 0, 0; 0, 0, 0, 0; 0, 0, -r, 0; 0, 0, 0, -(r * s ^ 2)],
        !![0, 0, 0, 0; 0, 0, r⁻¹, 0; 0, r⁻¹, 0, 0; 0, 0, 0, -(s * k)],
        !![0, 0, 0, 0; 0, 0, 0, r⁻¹; 0, 0, 0, k / s; 0, r⁻¹, k / s, 0]] i j l := by
    intro i j l
    rw [Geo.christoffel_diag _ hh]
    simp only [P]
    fin_cases i <;> fin_cases j <;> fin_cases l <;> simp <;> field_simp
  have q4 : ∀ j, d j (r * s ^ 2) = (if j = 1 then s ^ 2 else 0) + r * (2 * s * (if j = 2 then k else 0)) := by
    intro j
    rw [Derivation.leibniz, Derivation.leibniz_pow, hr j, hs j]
    by_cases h : j = 1 <;> simp [h] <;> ring
  have hk2 : k ^ 2 = 1 - s ^ 2 := by linear_combination hsq
  have key : ∀ i j a b, a < b →
      Geo.riemann d (Matrix.diagonal ![-1, 1 / c ^ 2, r ^ 2 / c ^ 2, r ^ 2 / c ^ 2 * s ^ 2]) i j a b = 0 := by
    intro i j a b hab
    unfold Geo.riemann
    simp only [G]
    clear G P
    fin_cases a <;> fin_cases b <;> first | exact absurd hab (by decide) | skip
    all_goals fin_cases i <;> fin_cases j <;>
      simp [Fin.sum_univ_four, hr _, q1 _, q2 _, q3 _, q4 _]
    all_goals first | done | (field_simp; done) | (field_simp; ring1) | (field_simp; linear_combination hk2) | (field_simp; linear_combination -hk2) | skip
    all_goals done
  rcases lt_trichotomy a b with h | h | h
  · exact key i j a b h
  · subst h; unfold Geo.riemann; simp
  · rw [Geo.riemann_antisymm, key i j b a h, neg_zero]

/-- C63 (polar coordinates): the Riemann tensor of `MinkowskiPolar(c)` vanishes for every constant c ≠ 0. -/
theorem C63_polar_flat (c : K) (hco : IsCoords D F sph) (hth : Trig D F sph "theta") (hc : IsConst D sph c) (c0 : c ≠ 0) :
    RiemannVanishes D (minkowskiPolar F c) := by
  have : CharZero K := algebraRat.charZero K
  obtain ⟨hr, hs, hk, r0, s0⟩ := sph_laws hco hth
  have hR := returns_diag (-1) (1 / c ^ 2) (F.var "r" ^ 2 / c ^ 2) (F.var "r" ^ 2 * F.sin (F.var "theta") ^ 2 / c ^ 2) sph
    "MinkowskiMetricPolar" rfl
  have hsq := hth.sq
  have hcd := const_coordD (cs := sph) rfl hc
  unfold minkowskiPolar
  dsimp only
  generalize F.var "r" = r at *
  generalize F.sin (F.var "theta") = s at *
  generalize F.cos (F.var "theta") = k at *
  have hc2 : c ^ 2 ≠ 0 := pow_ne_zero 2 c0
  have e3 : r ^ 2 * s ^ 2 / c ^ 2 = r ^ 2 / c ^ 2 * s ^ 2 := by ring
  rw [e3] at hR ⊢
  generalize hd : coordD D sph 4 = d at *
  have hh : ∀ i, ![-1, 1 / c ^ 2, r ^ 2 / c ^ 2, r ^ 2 / c ^ 2 * s ^ 2] i ≠ 0 := by
    intro i
    fin_cases i
    · exact neg_ne_zero.2 one_ne_zero
    · exact one_div_ne_zero hc2
    · exact div_ne_zero (pow_ne_zero 2 r0) hc2
    · exact mul_ne_zero (div_ne_zero (pow_ne_zero 2 r0) hc2) (pow_ne_zero 2 s0)
  refine riemannVanishes_of hR rfl (diag_unit hh) (Matrix.diagonal_transpose _) ?_
  rw [hd]
  exact polar_flat hr hcd hs hk hsq r0 c0 s0 hh

theorem traceless_sum {x a b c d : K} (ha : a ≠ 0) (hb : b ≠ 0) (hc : c ≠ 0) (hd : d ≠ 0) :
    1 * x * a / a + 1 * x * b / b + -1 * x * c / c + -1 * x * d / d = 0 := by
  rw [mul_div_cancel_right₀ _ ha, mul_div_cancel_right₀ _ hb, mul_div_cancel_right₀ _ hc, mul_div_cancel_right₀ _ hd]
  ring

/-- C89: the Ricci scalar of the predefined Reissner–Nordström metric vanishes. -/
theorem C89_rn_scalar (c G eps_0 sch Q : K) (hco : IsCoords D F sph) (hth : Trig D F sph "theta") (hc : IsConst D sph c)
    (hG : IsConst D sph G) (he : IsConst D sph eps_0) (hp : IsConst D sph F.pi)
    (hsch : IsConst D sph sch) (hQ : IsConst D sph Q) (c0 : c ≠ 0) :
    ScalarIs D (reissnerNordstorm F c G eps_0 sch Q) 0 := by
  obtain ⟨hr, hs, hk, r0, s0⟩ := sph_laws hco hth
  have hR := returns_diag (1 - sch / F.var "r" + Q ^ 2 * G / (4 * F.pi * eps_0 * c ^ 4) / F.var "r" ^ 2)
    (-1 / ((1 - sch / F.var "r" + Q ^ 2 * G / (4 * F.pi * eps_0 * c ^ 4) / F.var "r" ^ 2) * c ^ 2))
    (-(F.var "r" ^ 2) / c ^ 2) (-(F.var "r" ^ 2) * F.sin (F.var "theta") ^ 2 / c ^ 2) sph "ReissnerNordstormMetric" rfl
  have hric := C89_rn_ricci (F := F) c G eps_0 sch Q hco hth hc hG he hp hsch hQ c0 hR
  have hcd := const_coordD (cs := sph) rfl hc
  have hsd := const_coordD (cs := sph) rfl hsch
  have hqd : ∀ j, coordD D sph 4 j (Q ^ 2 * G / (4 * F.pi * eps_0 * c ^ 4)) = 0 := rn_const hc hG he hp hQ
  have f0 : 1 - sch / F.var "r" + Q ^ 2 * G / (4 * F.pi * eps_0 * c ^ 4) / F.var "r" ^ 2 ≠ 0 := by
    clear hR hric
    generalize Q ^ 2 * G / (4 * F.pi * eps_0 * c ^ 4) = q at *
    intro e; apply quad_ne hr hsd hqd; field_simp at e; linear_combination e
  have hc2 : c ^ 2 ≠ 0 := pow_ne_zero 2 c0
  have hh : ∀ i, ![1 - sch / F.var "r" + Q ^ 2 * G / (4 * F.pi * eps_0 * c ^ 4) / F.var "r" ^ 2,
    -1 / ((1 - sch / F.var "r" + Q ^ 2 * G / (4 * F.pi * eps_0 * c ^ 4) / F.var "r" ^ 2) * c ^ 2),
    -(F.var "r" ^ 2) / c ^ 2, -(F.var "r" ^ 2) * F.sin (F.var "theta") ^ 2 / c ^ 2] i ≠ 0 := by
    intro i
    fin_cases i
    · exact f0
    · exact div_ne_zero (neg_ne_zero.2 one_ne_zero) (mul_ne_zero f0 hc2)
    · exact div_ne_zero (neg_ne_zero.2 (pow_ne_zero 2 r0)) hc2
    · exact div_ne_zero (mul_ne_zero (neg_ne_zero.2 (pow_ne_zero 2 r0)) (pow_ne_zero 2 s0)) hc2
  have h := scalarIs_diag hR rfl hh hric
  have h0 := hh 0
  have h1 := hh 1
  have h2 := hh 2
  have h3 := hh 3
  unfold reissnerNordstorm
  convert h using 1
  exact (traceless_sum h0 h1 h2 h3).symm

end
end Einpy.Predef
