import Verif.Predef.Godel

/-!
# C93: the Ernst metric has vanishing Ricci scalar
-/

set_option linter.unusedSectionVars false

namespace Einpy.Predef
open Geo (Along)

section
variable {K : Type} [Field K] [Algebra ℚ K] {D : String → Derivation ℚ K K} {F : Fns K}

/-- Logarithmic derivatives of the Ernst metric. -/
theorem pF_ernst {d : Fin 4 → Derivation ℚ K K} {B M r s k l w : K} (hr : Along d 1 r 1) (hs : Along d 2 s k)
    (hB : ∀ j, d j B = 0) (hM : ∀ j, d j M = 0) (hl : l = 1 + (B * r * s) ^ 2) (hw : w = 1 - 2 * M / r) (l0 : l ≠ 0)
    (w0 : w ≠ 0) (r0 : r ≠ 0) (s0 : s ≠ 0) (i j : Fin 4) :
    Geo.pF d ![-1 * l ^ 2 * w, l ^ 2 / w, (r * l) ^ 2, (r * s / l) ^ 2] i j =
      ![![0, 0, 0, 0],
        ![2 * B ^ 2 * r * s ^ 2 / l + M / (r ^ 2 * w), 2 * B ^ 2 * r * s ^ 2 / l - M / (r ^ 2 * w),
          1 / r + 2 * B ^ 2 * r * s ^ 2 / l, 1 / r - 2 * B ^ 2 * r * s ^ 2 / l],
        ![2 * B ^ 2 * r ^ 2 * s * k / l, 2 * B ^ 2 * r ^ 2 * s * k / l, 2 * B ^ 2 * r ^ 2 * s * k / l,
          k / s - 2 * B ^ 2 * r ^ 2 * s * k / l],
        ![0, 0, 0, 0]] i j := by
  have : CharZero K := algebraRat.charZero K
  have dl : ∀ i, d i l = if i = 1 then 2 * B ^ 2 * r * s ^ 2 else if i = 2 then 2 * B ^ 2 * r ^ 2 * s * k else 0 := by
    intro i
    rw [hl, map_add, Derivation.map_one_eq_zero, Derivation.leibniz_pow, Derivation.leibniz, Derivation.leibniz, hB, hr i, hs i]
    fin_cases i <;> simp <;> ring
  have dw : ∀ i, d i w = if i = 1 then 2 * M / r ^ 2 else 0 := by
    intro i
    rw [hw, map_sub, Derivation.map_one_eq_zero, Derivation.leibniz_div, Derivation.leibniz, hM, d_two, hr i]
    fin_cases i <;> simp <;> field_simp
  clear hl hw
  unfold Geo.pF
  fin_cases j
  · show d i (-1 * l ^ 2 * w) / (2 * (-1 * l ^ 2 * w)) = _
    rw [Derivation.leibniz, Derivation.leibniz, Derivation.leibniz_pow, map_neg, Derivation.map_one_eq_zero, dl i, dw i]
    fin_cases i <;> simp <;> field_simp <;> ring1
  · show d i (l ^ 2 / w) / (2 * (l ^ 2 / w)) = _
    rw [Derivation.leibniz_div, Derivation.leibniz_pow, dl i, dw i]
    fin_cases i <;> simp <;> field_simp <;> ring1
  · show d i ((r * l) ^ 2) / (2 * (r * l) ^ 2) = _
    rw [Derivation.leibniz_pow, Derivation.leibniz, dl i, hr i]
    fin_cases i <;> simp <;> field_simp <;> ring1
  · show d i ((r * s / l) ^ 2) / (2 * (r * s / l) ^ 2) = _
    rw [Derivation.leibniz_pow, Derivation.leibniz_div, Derivation.leibniz, dl i, hr i, hs i]
    fin_cases i <;> simp <;> field_simp <;> ring1

theorem scalar_ernst {d : Fin 4 → Derivation ℚ K K} {B M r s k l w : K} (hr : Along d 1 r 1) (hs : Along d 2 s k)
    (hk : Along d 2 k (-s)) (hsq : s ^ 2 + k ^ 2 = 1)
    (hB : ∀ j, d j B = 0) (hM : ∀ j, d j M = 0) (hl : l = 1 + (B * r * s) ^ 2) (hw : w = 1 - 2 * M / r) (l0 : l ≠ 0)
    (w0 : w ≠ 0) (r0 : r ≠ 0) (s0 : s ≠ 0) (hh : ∀ i, ![-1 * l ^ 2 * w, l ^ 2 / w, (r * l) ^ 2, (r * s / l) ^ 2] i ≠ 0) :
    Geo.scalar d (Matrix.diagonal ![-1 * l ^ 2 * w, l ^ 2 / w, (r * l) ^ 2, (r * s / l) ^ 2]) = 0 := by
  have : CharZero K := algebraRat.charZero K
  have P := pF_ernst hr hs hB hM hl hw l0 w0 r0 s0
  have dl : ∀ i, d i l = if i = 1 then 2 * B ^ 2 * r * s ^ 2 else if i = 2 then 2 * B ^ 2 * r ^ 2 * s * k else 0 := by
    intro i
    rw [hl, map_add, Derivation.map_one_eq_zero, Derivation.leibniz_pow, Derivation.leibniz, Derivation.leibniz, hB, hr i, hs i]
    fin_cases i <;> simp <;> ring
  have dw : ∀ i, d i w = if i = 1 then 2 * M / r ^ 2 else 0 := by
    intro i
    rw [hw, map_sub, Derivation.map_one_eq_zero, Derivation.leibniz_div, Derivation.leibniz, hM, d_two, hr i]
    fin_cases i <;> simp <;> field_simp
  have hMw : M = r * (1 - w) / 2 := by rw [hw]; field_simp; ring
  have p1 : d 1 (2 * B ^ 2 * r * s ^ 2 / l) = 2 * B ^ 2 * s ^ 2 / l - (2 * B ^ 2 * r * s ^ 2 / l) ^ 2 := by
    rw [Derivation.leibniz_div, Derivation.leibniz, Derivation.leibniz, Derivation.leibniz, Derivation.leibniz_pow,
      Derivation.leibniz_pow, d_two, hB, hr 1, hs 1, dl 1]
    simp
    field_simp
  have u2 : d 2 (2 * B ^ 2 * r ^ 2 * s * k / l) = 2 * B ^ 2 * r ^ 2 * (k ^ 2 - s ^ 2) / l - (2 * B ^ 2 * r ^ 2 * s * k / l) ^ 2 := by
    rw [Derivation.leibniz_div, Derivation.leibniz, Derivation.leibniz, Derivation.leibniz, Derivation.leibniz, Derivation.leibniz_pow,
      Derivation.leibniz_pow, d_two, hB, hr 2, hs 2, hk 2, dl 2]
    simp
    field_simp
    ring
  have q1 : d 1 (M / (r ^ 2 * w)) = -(M * (2 * r * w + 2 * M)) / (r ^ 2 * w) ^ 2 := by
    rw [Derivation.leibniz_div, Derivation.leibniz, Derivation.leibniz_pow, hM, hr 1, dw 1]
    simp
    field_simp
    ring
  have r1 : d 1 (1 / r) = -1 / r ^ 2 := by
    rw [Derivation.leibniz_div, Derivation.map_one_eq_zero, hr 1]
    simp; field_simp
  have k1 : d 2 (k / s) = -1 / s ^ 2 := by
    rw [Derivation.leibniz_div, hk 2, hs 2, ← hsq]
    simp; field_simp; ring
  have hk2 : k ^ 2 = 1 - s ^ 2 := by linear_combination hsq
  rw [Geo.scalar_diag d hh, Fin.sum_univ_four]
  rw [Geo.ricci_diag_on d hh, Geo.ricci_diag_on d hh, Geo.ricci_diag_on d hh, Geo.ricci_diag_on d hh]
  simp only [P, Fin.sum_univ_four]
  clear P hh
  simp
  simp only [← one_div, p1, u2, q1, r1, k1]
  rw [hMw]
  field_simp
  linear_combination (-8 * w * l ^ 2) * hsq

/-- C93: the Ricci scalar of `Ernst(B, M)` vanishes, for all constants B and M. -/
theorem C93_ernst_scalar (B M : K) (hco : IsCoords D F sph) (hth : Trig D F sph "theta") (hB : IsConst D sph B)
    (hM : IsConst D sph M) : ScalarIs D (ernst F B M) 0 := by
  have : CharZero K := algebraRat.charZero K
  obtain ⟨hr, hs, hk, r0, s0⟩ := sph_laws hco hth
  have hR := returns_diag (-1 * (1 + (B * F.var "r" * F.sin (F.var "theta")) ^ 2) ^ 2 * (1 - 2 * M / F.var "r"))
    ((1 + (B * F.var "r" * F.sin (F.var "theta")) ^ 2) ^ 2 / (1 - 2 * M / F.var "r"))
    ((F.var "r" * (1 + (B * F.var "r" * F.sin (F.var "theta")) ^ 2)) ^ 2)
    ((F.var "r" * F.sin (F.var "theta") / (1 + (B * F.var "r" * F.sin (F.var "theta")) ^ 2)) ^ 2) sph "ErnstMetric" rfl
  have hsq := hth.sq
  have hBd := const_coordD (cs := sph) rfl hB
  have hMd := const_coordD (cs := sph) rfl hM
  unfold ernst
  dsimp only
  generalize F.var "r" = r at *
  generalize F.sin (F.var "theta") = s at *
  generalize F.cos (F.var "theta") = k at *
  have l0 : 1 + (B * r * s) ^ 2 ≠ 0 := by
    intro e
    have h1 := congrArg (coordD D sph 4 1) e
    rw [map_add, Derivation.leibniz_pow, Derivation.leibniz, Derivation.leibniz, hBd, hr 1, hs 1, map_zero,
      Derivation.map_one_eq_zero] at h1
    simp [r0, s0] at h1
    rw [h1] at e
    simp at e
  have w0 : 1 - 2 * M / r ≠ 0 := by
    intro e
    field_simp at e
    have h1 := congrArg (coordD D sph 4 1) e
    rw [map_sub, Derivation.leibniz, hMd, hr 1, mul_zero, map_zero, d_two] at h1
    simp at h1
  have hh : ∀ i, ![-1 * (1 + (B * r * s) ^ 2) ^ 2 * (1 - 2 * M / r), (1 + (B * r * s) ^ 2) ^ 2 / (1 - 2 * M / r),
      (r * (1 + (B * r * s) ^ 2)) ^ 2, (r * s / (1 + (B * r * s) ^ 2)) ^ 2] i ≠ 0 := by
    intro i
    fin_cases i
    · exact mul_ne_zero (mul_ne_zero (neg_ne_zero.2 one_ne_zero) (pow_ne_zero 2 l0)) w0
    · exact div_ne_zero (pow_ne_zero 2 l0) w0
    · exact pow_ne_zero 2 (mul_ne_zero r0 l0)
    · exact pow_ne_zero 2 (div_ne_zero (mul_ne_zero r0 s0) l0)
  have h := scalarIs_of (D := D) hR rfl (diag_unit hh) (Matrix.diagonal_transpose _)
  rwa [scalar_ernst hr hs hk hsq hBd hMd rfl rfl l0 w0 r0 s0 hh] at h

end

section
variable {K : Type} [Field K] {F : Fns K}

/-- C93: without magnetic field `Ernst(0, M)` is minus the predefined Schwarzschild metric with r_s = 2M and c = 1. -/
theorem C93_ernst_no_field (M : K) {g h : Matrix (Fin 4) (Fin 4) K}
    (hg : Returns (ernst F 0 M) sph g) (hh : Returns (schwarzschild F 1 (2 * M)) sph h) : g = -h := by
  have e1 := (hg.inj (returns_diag _ _ _ _ sph "ErnstMetric" rfl)).2
  have e2 := (hh.inj (returns_diag _ _ _ _ sph "SchwarzschildMetric" rfl)).2
  rw [e1, e2, Matrix.diagonal_neg]
  congr 1
  funext i
  fin_cases i <;> simp
  rw [neg_div, neg_neg, one_div]

end
end Einpy.Predef
