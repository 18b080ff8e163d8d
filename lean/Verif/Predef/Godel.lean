import Verif.Predef.Sources

/-!
# C92: the Gödel metric
-/

set_option linter.unusedSectionVars false

namespace Einpy.Geo
section
variable {K : Type*} [Field K] [Algebra ℚ K] (d : Fin 4 → Derivation ℚ K K)

/-- Christoffel symbols from an explicit inverse and an explicit table of derivatives of the metric. -/
theorem christoffel_of {g G : Matrix (Fin 4) (Fin 4) K} (hG : g * G = 1) {dg : Fin 4 → Matrix (Fin 4) (Fin 4) K}
    (hdg : ∀ k i j, d k (g i j) = dg k i j) (i j k : Fin 4) :
    christoffel d g i j k = (∑ n, G i n * (dg k n j + dg j n k - dg n j k)) / 2 := by
  unfold christoffel
  rw [half_eq, Matrix.inv_eq_right_inv hG]
  simp only [hdg]

end
end Einpy.Geo

namespace Einpy.Predef
open Geo (Along)

section
variable {K : Type} [Field K] [Algebra ℚ K] {D : String → Derivation ℚ K K} {F : Fns K}

/-- Case distinction on an index. -/
theorem fin4_cases {P : Fin 4 → Prop} (h0 : P 0) (h1 : P 1) (h2 : P 2) (h3 : P 3) : ∀ i, P i := by
  intro i; fin_cases i <;> assumption

theorem godel_dg {d : Fin 4 → Derivation ℚ K K} {e a : K} (he : Along d 1 e (a * e)) (k i j : Fin 4) :
    d k ((!![-1, 0, -e, 0; 0, 1, 0, 0; -e, 0, -(1 / 2) * e ^ 2, 0; 0, 0, 0, 1] : Matrix (Fin 4) (Fin 4) K) i j) =
      if k = 1 then (!![0, 0, -(a * e), 0; 0, 0, 0, 0; -(a * e), 0, -(a * e ^ 2), 0; 0, 0, 0, 0] : Matrix (Fin 4) (Fin 4) K) i j
      else 0 := by
  have : CharZero K := algebraRat.charZero K
  have z : d k 0 = if k = 1 then 0 else 0 := by rw [map_zero, ite_self]
  have o : d k 1 = if k = 1 then 0 else 0 := by rw [Derivation.map_one_eq_zero, ite_self]
  have m : d k (-1) = if k = 1 then 0 else 0 := by rw [map_neg, Derivation.map_one_eq_zero, neg_zero, ite_self]
  have n : d k (-e) = if k = 1 then -(a * e) else 0 := Geo.along_neg he k
  have h1 : d k (-(1 / 2) * e ^ 2) = if k = 1 then -(a * e ^ 2) else 0 := by
    rw [Derivation.leibniz, Derivation.leibniz_pow, map_neg, Derivation.leibniz_div, d_two, Derivation.map_one_eq_zero, he k]
    by_cases h : k = 1
    · rw [if_pos h, if_pos h]; simp; field_simp
    · rw [if_neg h, if_neg h]; simp
  revert i j
  refine fin4_cases ?_ ?_ ?_ ?_ <;> refine fin4_cases ?_ ?_ ?_ ?_
  · exact m
  · exact z
  · exact n
  · exact z
  · exact z
  · exact o
  · exact z
  · exact z
  · exact n
  · exact z
  · exact h1
  · exact z
  · exact z
  · exact z
  · exact z
  · exact o

theorem godel_inv {e : K} (e0 : e ≠ 0) : !![-1, 0, -e, 0; 0, 1, 0, 0; -e, 0, -(1 / 2) * e ^ 2, 0; 0, 0, 0, 1] *
    !![1, 0, -2 / e, 0; 0, 1, 0, 0; -2 / e, 0, 2 / e ^ 2, 0; 0, 0, 0, 1] = (1 : Matrix (Fin 4) (Fin 4) K) := by
  have : CharZero K := algebraRat.charZero K
  ext i j
  rw [Matrix.mul_apply, Fin.sum_univ_four]
  fin_cases i <;> fin_cases j <;> simp <;> field_simp <;> ring1

theorem godel_christoffel {d : Fin 4 → Derivation ℚ K K} {e a : K} (he : Along d 1 e (a * e)) (e0 : e ≠ 0) (i j k : Fin 4) :
    Geo.christoffel d !![-1, 0, -e, 0; 0, 1, 0, 0; -e, 0, -(1 / 2) * e ^ 2, 0; 0, 0, 0, 1] i j k =
      ![!![0, a, 0, 0; a, 0, a * e / 2, 0; 0, a * e / 2, 0, 0; 0, 0, 0, 0],
        !![0, 0, a * e / 2, 0; 0, 0, 0, 0; a * e / 2, 0, a * e ^ 2 / 2, 0; 0, 0, 0, 0],
        !![0, -a / e, 0, 0; -a / e, 0, 0, 0; 0, 0, 0, 0; 0, 0, 0, 0],
        !![0, 0, 0, 0; 0, 0, 0, 0; 0, 0, 0, 0; 0, 0, 0, 0]] i j k := by
  have : CharZero K := algebraRat.charZero K
  rw [Geo.christoffel_of d (godel_inv e0) (dg := fun k => Matrix.of fun i j => if k = 1 then (!![0, 0, -(a * e), 0; 0, 0, 0, 0; -(a * e), 0, -(a * e ^ 2), 0; 0, 0, 0, 0] : Matrix (Fin 4) (Fin 4) K) i j
      else 0) (godel_dg he), Fin.sum_univ_four]
  fin_cases i <;> fin_cases j <;> fin_cases k <;> simp <;> field_simp <;> ring1

theorem godel_ricci {d : Fin 4 → Derivation ℚ K K} {e a : K} (he : Along d 1 e (a * e)) (ha : ∀ j, d j a = 0) (e0 : e ≠ 0)
    (i j : Fin 4) :
    Geo.ricci d !![-1, 0, -e, 0; 0, 1, 0, 0; -e, 0, -(1 / 2) * e ^ 2, 0; 0, 0, 0, 1] i j =
      a ^ 2 * (![-1, 0, -e, 0] i * ![-1, 0, -e, 0] j) := by
  have : CharZero K := algebraRat.charZero K
  have q1 : ∀ j, d j (a * e / 2) = if j = 1 then a ^ 2 * e / 2 else 0 := by
    intro j
    rw [Derivation.leibniz_div, Derivation.leibniz, d_two, ha, he j]
    by_cases h : j = 1
    · rw [if_pos h, if_pos h]; simp; field_simp
    · rw [if_neg h, if_neg h]; simp
  have q2 : ∀ j, d j (a * e ^ 2 / 2) = if j = 1 then a ^ 2 * e ^ 2 else 0 := by
    intro j
    rw [Derivation.leibniz_div, Derivation.leibniz, Derivation.leibniz_pow, d_two, ha, he j]
    by_cases h : j = 1
    · rw [if_pos h, if_pos h]; simp; field_simp
    · rw [if_neg h, if_neg h]; simp
  have q3 : ∀ j, d j (-a / e) = if j = 1 then a ^ 2 / e else 0 := by
    intro j
    rw [Derivation.leibniz_div, map_neg, ha, he j]
    by_cases h : j = 1
    · rw [if_pos h, if_pos h]; simp; field_simp
    · rw [if_neg h, if_neg h]; simp
  unfold Geo.ricci Geo.riemann
  simp only [godel_christoffel he e0]
  fin_cases i <;> fin_cases j <;> simp [Fin.sum_univ_four, q1, q2, q3, ha] <;> field_simp <;> ring1

/-- The laws used for the Gödel metric. -/
structure GodelLaws (D : String → Derivation ℚ K K) (F : Fns K) : Prop where
  coords : IsCoords D F cart
  omega : IsConst D cart (F.var "omega")
  sqrt_const : IsConst D cart (F.sqrt 2)
  sqrt_sq : F.sqrt 2 ^ 2 = 2
  exp : ExpAt D F cart (F.sqrt 2 * F.var "omega" * F.var "x")
  exp_two : F.exp (2 * F.sqrt 2 * F.var "omega" * F.var "x") = F.exp (F.sqrt 2 * F.var "omega" * F.var "x") ^ 2

theorem godel_facts (h : GodelLaws D F) : ∃ e a : K, e ≠ 0 ∧ a ^ 2 = 2 * F.var "omega" ^ 2 ∧
    Along (coordD D cart 4) 1 e (a * e) ∧ (∀ j, coordD D cart 4 j a = 0) ∧
    Returns (godel F) cart !![-1, 0, -e, 0; 0, 1, 0, 0; -e, 0, -(1 / 2) * e ^ 2, 0; 0, 0, 0, 1] := by
  obtain ⟨hco, hw, h2, h22, hE, hE2⟩ := h
  have hR := returns_sym02 (-1) 1 (-(1 / 2) * F.exp (2 * F.sqrt 2 * F.var "omega" * F.var "x")) 1
    (-F.exp (F.sqrt 2 * F.var "omega" * F.var "x")) cart "GodelMetric" rfl
  refine ⟨F.exp (F.sqrt 2 * F.var "omega" * F.var "x"), F.sqrt 2 * F.var "omega", hE.ne, by rw [mul_pow, h22], ?_, ?_, ?_⟩
  · refine along_of (t := "x") rfl cart_nodup hco fun s hs => ?_
    rw [hE.d s hs, Derivation.leibniz, Derivation.leibniz, h2 s hs, hw s hs]
    simp only [smul_eq_mul]
    ring
  · intro j
    rw [Derivation.leibniz, const_coordD rfl h2, const_coordD rfl hw]; simp
  · unfold godel
    dsimp only
    rw [hE2] at hR ⊢
    exact hR

theorem godel_unit {e : K} (e0 : e ≠ 0) :
    IsUnit (!![-1, 0, -e, 0; 0, 1, 0, 0; -e, 0, -(1 / 2) * e ^ 2, 0; 0, 0, 0, 1] : Matrix (Fin 4) (Fin 4) K).det :=
  Matrix.isUnit_det_of_right_inverse (godel_inv e0)

theorem godel_symm (e : K) : (!![-1, 0, -e, 0; 0, 1, 0, 0; -e, 0, -(1 / 2) * e ^ 2, 0; 0, 0, 0, 1] :
    Matrix (Fin 4) (Fin 4) K).transpose = !![-1, 0, -e, 0; 0, 1, 0, 0; -e, 0, -(1 / 2) * e ^ 2, 0; 0, 0, 0, 1] := by
  ext i j; fin_cases i <;> fin_cases j <;> rfl

/-- C92: `Godel()` is a dust solution: its Ricci tensor is 2 ω² u ⊗ u, where u is the unit vector ∂/∂t with lowered index. -/
theorem C92_godel_ricci (h : GodelLaws D F) {g : Matrix (Fin 4) (Fin 4) K} (hg : Returns (godel F) cart g) :
    g 0 0 = -1 ∧ RicciIs D (godel F) fun i j => 2 * F.var "omega" ^ 2 * (g i 0 * g j 0) := by
  obtain ⟨e, a, e0, haw, hA, ha, hR⟩ := godel_facts h
  have hgg := (hg.inj hR).2
  subst hgg
  refine ⟨rfl, (ricciIs_of hR rfl (godel_unit e0) (godel_symm e)).congr fun i j => ?_⟩
  rw [godel_ricci hA ha e0, ← haw]
  fin_cases i <;> fin_cases j <;> rfl

/-- C92: the Ricci scalar of `Godel()` is the constant −2 ω². -/
theorem C92_godel_scalar (h : GodelLaws D F) : ScalarIs D (godel F) (-2 * F.var "omega" ^ 2) := by
  have : CharZero K := algebraRat.charZero K
  obtain ⟨e, a, e0, haw, hA, ha, hR⟩ := godel_facts h
  have hs := scalarIs_of (D := D) hR rfl (godel_unit e0) (godel_symm e)
  have e1 : -2 * F.var "omega" ^ 2 = -a ^ 2 := by rw [haw]; ring
  rw [e1]
  convert hs using 1
  unfold Geo.scalar
  simp only [godel_ricci hA ha e0, Matrix.inv_eq_right_inv (godel_inv e0), Fin.sum_univ_four]
  simp
  field_simp
  ring

end
end Einpy.Predef
