import Verif.Predef.Diag

/-!
# Curvature of diagonal metrics diag(A(r), B(r), C(r), C(r) sin²θ) (helper lemmas)
-/

set_option linter.unusedSectionVars false

namespace Einpy.Geo

section
variable {K : Type*} [Field K] [Algebra ℚ K]
variable (d : Fin 4 → Derivation ℚ K K)

/-- `x'` is the derivative of `x` along coordinate `i`, all other derivatives vanish. -/
def Along (i : Fin 4) (x x' : K) : Prop := ∀ j, d j x = if j = i then x' else 0

variable {d}

theorem along_div {i : Fin 4} {x y x' y' : K} (hx : Along d i x x') (hy : Along d i y y') (h0 : y ≠ 0) :
    Along d i (x / y) ((x' * y - x * y') / y ^ 2) := by
  intro j
  rw [Derivation.leibniz_div, hx j, hy j]
  by_cases h : j = i
  · rw [if_pos h, if_pos h, if_pos h]
    simp only [smul_eq_mul]
    field_simp
    try ring
  · rw [if_neg h, if_neg h, if_neg h]; simp

theorem along_mul {i : Fin 4} {x y x' y' : K} (hx : Along d i x x') (hy : Along d i y y') :
    Along d i (x * y) (x' * y + x * y') := by
  intro j
  rw [Derivation.leibniz, hx j, hy j]
  by_cases h : j = i
  · rw [if_pos h, if_pos h, if_pos h]
    simp only [smul_eq_mul]
    ring
  · rw [if_neg h, if_neg h, if_neg h]; simp

theorem along_add {i : Fin 4} {x y x' y' : K} (hx : Along d i x x') (hy : Along d i y y') :
    Along d i (x + y) (x' + y') := by
  intro j
  rw [map_add, hx j, hy j]
  by_cases h : j = i
  · rw [if_pos h, if_pos h, if_pos h]
  · rw [if_neg h, if_neg h, if_neg h, add_zero]

theorem along_neg {i : Fin 4} {x x' : K} (hx : Along d i x x') : Along d i (-x) (-x') := by
  intro j
  rw [map_neg, hx j]
  by_cases h : j = i
  · rw [if_pos h, if_pos h]
  · rw [if_neg h, if_neg h, neg_zero]

theorem along_sub {i : Fin 4} {x y x' y' : K} (hx : Along d i x x') (hy : Along d i y y') :
    Along d i (x - y) (x' - y') := by
  rw [sub_eq_add_neg, sub_eq_add_neg]
  exact along_add hx (along_neg hy)

theorem along_pow {i : Fin 4} {x x' : K} (hx : Along d i x x') (n : ℕ) : Along d i (x ^ n) (n * x ^ (n - 1) * x') := by
  intro j
  rw [Derivation.leibniz_pow, hx j]
  by_cases h : j = i
  · rw [if_pos h, if_pos h, nsmul_eq_mul, smul_eq_mul]; ring
  · rw [if_neg h, if_neg h]; simp

theorem along_const {i : Fin 4} {x : K} (hx : ∀ j, d j x = 0) : Along d i x 0 := by
  intro j
  rw [hx j]
  by_cases h : j = i
  · rw [if_pos h]
  · rw [if_neg h]

theorem along_nat {i : Fin 4} (n : ℕ) : Along d i (n : K) 0 := along_const fun j => Derivation.map_natCast _ _
theorem along_one {i : Fin 4} : Along d i (1 : K) 0 := along_const fun j => (d j).map_one_eq_zero
theorem along_two {i : Fin 4} : Along d i (2 : K) 0 := by
  have := along_nat (d := d) (i := i) 2
  rwa [Nat.cast_ofNat] at this

variable (d)

theorem sum_if_two (f : Fin 4 → K) (a b : Fin 4) (P : Fin 4 → Prop) [DecidablePred P] :
    ∑ k, (if P k then 0 else f k) = (if P 0 then 0 else f 0) + (if P 1 then 0 else f 1) + (if P 2 then 0 else f 2) +
      (if P 3 then 0 else f 3) := Fin.sum_univ_four _

/-- The logarithmic derivatives of diag(A(r), B(r), C(r), C(r) s²) with s' = k along θ. -/
theorem pF_spherical {A B C s A' B' C' k : K} (hA : Along d 1 A A') (hB : Along d 1 B B') (hC : Along d 1 C C')
    (hs : Along d 2 s k) (h0 : A ≠ 0) (h1 : B ≠ 0) (h2 : C ≠ 0) (h3 : s ≠ 0) (i j : Fin 4) :
    pF d ![A, B, C, C * s ^ 2] i j =
      ![![0, 0, 0, 0], ![A' / (2 * A), B' / (2 * B), C' / (2 * C), C' / (2 * C)], ![0, 0, 0, k / s], ![0, 0, 0, 0]] i j := by
  have ht := two_ne (K := K)
  have hE : ∀ i, d i (C * s ^ 2) = (if i = 1 then C' else 0) * s ^ 2 + C * (2 * s * (if i = 2 then k else 0)) := by
    intro i
    rw [Derivation.leibniz, Derivation.leibniz_pow, hC i, hs i]
    simp only [smul_eq_mul, nsmul_eq_mul]
    push_cast
    ring
  fin_cases j
  · show d i A / (2 * A) = _
    rw [hA i]
    fin_cases i <;> simp
  · show d i B / (2 * B) = _
    rw [hB i]
    fin_cases i <;> simp
  · show d i C / (2 * C) = _
    rw [hC i]
    fin_cases i <;> simp
  · show d i (C * s ^ 2) / (2 * (C * s ^ 2)) = _
    rw [hE i]
    fin_cases i
    · simp
    · simp; field_simp
    · simp; field_simp
    · simp

theorem ricci_spherical {A B C s A' B' C' A'' C'' k : K} (hA : Along d 1 A A') (hB : Along d 1 B B') (hC : Along d 1 C C')
    (hA' : Along d 1 A' A'') (hC' : Along d 1 C' C'') (hB' : ∀ j, j ≠ 1 → d j B' = 0)
    (hs : Along d 2 s k) (hk : Along d 2 k (-s)) (hsk : s ^ 2 + k ^ 2 = 1)
    (h0 : A ≠ 0) (h1 : B ≠ 0) (h2 : C ≠ 0) (h3 : s ≠ 0) (i j : Fin 4) :
    ricci d (Matrix.diagonal ![A, B, C, C * s ^ 2]) i j = Matrix.diagonal ![
      -(A'' / (2 * B)) + A' ^ 2 / (4 * A * B) + A' * B' / (4 * B ^ 2) - A' * C' / (2 * B * C),
      -(A'' / (2 * A)) + A' ^ 2 / (4 * A ^ 2) + A' * B' / (4 * A * B) - C'' / C + C' ^ 2 / (2 * C ^ 2) + B' * C' / (2 * B * C),
      1 - C'' / (2 * B) + C' * B' / (4 * B ^ 2) - A' * C' / (4 * A * B),
      (1 - C'' / (2 * B) + C' * B' / (4 * B ^ 2) - A' * C' / (4 * A * B)) * s ^ 2] i j := by
  haveI : CharZero K := algebraRat.charZero K
  have ht := two_ne (K := K)
  have hh : ∀ i, ![A, B, C, C * s ^ 2] i ≠ 0 := by
    intro i
    fin_cases i
    · exact h0
    · exact h1
    · exact h2
    · exact mul_ne_zero h2 (pow_ne_zero 2 h3)
  have P := pF_spherical d hA hB hC hs h0 h1 h2 h3
  have q0 := along_div hA' (along_mul along_two hA) (mul_ne_zero ht h0)
  have q2 := along_div hC' (along_mul along_two hC) (mul_ne_zero ht h2)
  have q3 := along_div hk hs h3
  have q1 : ∀ j, j ≠ 1 → d j (B' / (2 * B)) = 0 := by
    intro j hj
    rw [Derivation.leibniz_div, hB' j hj, (along_mul along_two hB) j, if_neg hj]
    simp
  by_cases hij : i = j
  · subst hij
    rw [ricci_diag_on d hh, Matrix.diagonal_apply_eq]
    simp only [P, Fin.sum_univ_four]
    have hk2 : k ^ 2 = 1 - s ^ 2 := by linear_combination hsk
    fin_cases i
    · simp [q0 _, q2 _]
      field_simp
      ring
    · simp [q0 _, q2 _]
      field_simp
      ring
    · simp [q0 _, q2 _, q3 _]
      field_simp
      rw [hk2]
      ring
    · simp [q0 _, q2 _, q3 _]
      field_simp
      ring
  · rw [ricci_diag_off d hh i j hij, Matrix.diagonal_apply_ne _ hij]
    simp only [P, Fin.sum_univ_four]
    fin_cases i <;> fin_cases j <;> first
      | exact absurd rfl hij
      | (simp [q0 _, q2 _, q3 _, q1] <;> ring)
end
end Einpy.Geo
