import Verif.Predef.CMetric

/-!
# C103: the Janis–Newman–Winicour metric and its scalar field
-/

set_option linter.unusedSectionVars false

namespace Einpy.Predef
open Geo (Along)

section
variable {K : Type} [Field K] [Algebra ℚ K] {D : String → Derivation ℚ K K} {F : Fns K}

theorem ricci_jnw {d : Fin 4 → Derivation ℚ K K} {r Q gam b c s k : K} (hr : Along d 1 r 1) (hg : ∀ i, d i gam = 0)
    (hb : ∀ i, d i b = 0) (hc : ∀ i, d i c = 0) (hQ : Along d 1 Q (-(gam * b / (r * (r - b))) * Q))
    (hs : Along d 2 s k) (hk : Along d 2 k (-s)) (hsk : s ^ 2 + k ^ 2 = 1)
    (r0 : r ≠ 0) (w0 : r - b ≠ 0) (Q0 : Q ≠ 0) (c0 : c ≠ 0) (s0 : s ≠ 0) (i j : Fin 4) :
    Geo.ricci d (Matrix.diagonal ![-(1 / Q), Q / c ^ 2, r * (r - b) * Q, r * (r - b) * Q * s ^ 2]) i j = Matrix.diagonal ![0,
      (1 - gam ^ 2) * b ^ 2 / (2 * r ^ 2 * (r - b) ^ 2), 1 - c ^ 2, (1 - c ^ 2) * s ^ 2] i j := by
  have : CharZero K := algebraRat.charZero K
  have cg := Geo.along_const (i := 1) hg
  have cb := Geo.along_const (i := 1) hb
  have c2 : Along d 1 (c ^ 2) 0 := by
    have := Geo.along_pow (Geo.along_const (i := 1) hc) 2
    simpa using this
  have hw := Geo.along_sub hr cb
  have hrw := Geo.along_mul hr hw
  have rw0 : r * (r - b) ≠ 0 := mul_ne_zero r0 w0
  have hkk := Geo.along_div (Geo.along_mul cg cb) hrw rw0
  have hA : Along d 1 (-(1 / Q)) (-(gam * b / (r * (r - b)) / Q)) := by
    convert Geo.along_neg (Geo.along_div Geo.along_one hQ Q0) using 1
    field_simp
    ring
  have hA' : Along d 1 (-(gam * b / (r * (r - b)) / Q))
      (-((-(gam * b * (2 * r - b)) / (r * (r - b)) ^ 2 + (gam * b / (r * (r - b))) ^ 2) / Q)) := by
    convert Geo.along_neg (Geo.along_div hkk hQ Q0) using 1
    field_simp
    ring
  have hB : Along d 1 (Q / c ^ 2) (-(gam * b / (r * (r - b))) * Q / c ^ 2) := by
    convert Geo.along_div hQ c2 (pow_ne_zero 2 c0) using 1
    field_simp
    ring
  have hB' : Along d 1 (-(gam * b / (r * (r - b))) * Q / c ^ 2) _ :=
    Geo.along_div (Geo.along_mul (Geo.along_neg hkk) hQ) c2 (pow_ne_zero 2 c0)
  have hC : Along d 1 (r * (r - b) * Q) ((2 * r - b - gam * b) * Q) := by
    convert Geo.along_mul hrw hQ using 1
    field_simp
    ring
  have hC' : Along d 1 ((2 * r - b - gam * b) * Q) (2 * Q - gam * b / (r * (r - b)) * (2 * r - b - gam * b) * Q) := by
    convert Geo.along_mul (Geo.along_sub (Geo.along_sub (Geo.along_mul Geo.along_two hr) cb) (Geo.along_mul cg cb)) hQ using 1
    field_simp
    ring
  have C0 : r * (r - b) * Q ≠ 0 := mul_ne_zero rw0 Q0
  rw [Geo.ricci_spherical d hA hB hC hA' hC' (fun j hj => by rw [hB' j, if_neg hj]) hs hk hsk
    (neg_ne_zero.2 (one_div_ne_zero Q0)) (div_ne_zero Q0 (pow_ne_zero 2 c0)) C0 s0 i j]
  clear hA hB hC hA' hC' hB' hkk hrw hw
  rw [Matrix.diagonal_apply, Matrix.diagonal_apply]
  by_cases hij : i = j
  · rw [if_pos hij, if_pos hij]
    fin_cases i
    · show _ = (0:K)
      simp [-mul_eq_mul_left_iff, -mul_eq_mul_right_iff]
      field_simp
      ring
    · show _ = (1 - gam ^ 2) * b ^ 2 / (2 * r ^ 2 * (r - b) ^ 2)
      simp [-mul_eq_mul_left_iff, -mul_eq_mul_right_iff]
      field_simp
      ring
    · show _ = 1 - c ^ 2
      simp [-mul_eq_mul_left_iff, -mul_eq_mul_right_iff]
      field_simp
      ring
    · show _ = (1 - c ^ 2) * s ^ 2
      simp [-mul_eq_mul_left_iff, -mul_eq_mul_right_iff]
      field_simp
      ring
  · rw [if_neg hij, if_neg hij]

/-- The laws used of powers: with α = 1 − r_s/(γ r), the derivative of α^(−γ), and the power laws α^γ = 1/α^(−γ), α^(1−γ) = α α^(−γ). -/
structure JnwLaws (D : String → Derivation ℚ K K) (F : Fns K) (gam b : K) : Prop where
  p : PowAt D F sph (1 - b / F.var "r") (-gam)
  inv : F.pow (1 - b / F.var "r") gam = 1 / F.pow (1 - b / F.var "r") (-gam)
  mul : F.pow (1 - b / F.var "r") (-gam + 1) = (1 - b / F.var "r") * F.pow (1 - b / F.var "r") (-gam)

theorem jnw_const {c G gam M : K} (hc : IsConst D sph c) (hG : IsConst D sph G) (hg : IsConst D sph gam) (hM : IsConst D sph M) :
    IsConst D sph (2 * G * M / c ^ 2 / gam) := by
  intro s hs
  rw [Derivation.leibniz_div, Derivation.leibniz_div, Derivation.leibniz, Derivation.leibniz, Derivation.leibniz_pow, hc s hs, hG s hs,
    hM s hs, hg s hs, d_two]
  simp

/-- **C103.** With r_s = 2GM/c² and b = r_s/γ, the Ricci tensor of `JanisNewmanWinicour(c, G, gam, M)` has the radial component
(1 − γ²) b² / (2 r² (r − b)²) of a static massless scalar field, and the angular components 1 − c² and (1 − c²) sin²θ. -/
theorem C103_ricci_partial {c G gam M : K} (hco : IsCoords D F sph) (hth : Trig D F sph "theta") (hc : IsConst D sph c) (hG : IsConst D sph G)
    (hg : IsConst D sph gam) (hM : IsConst D sph M) (c0 : c ≠ 0) (g0 : gam ≠ 0) (L : JnwLaws D F gam (2 * G * M / c ^ 2 / gam)) :
    RicciIs D (janisNewmanWinicour F c G gam M) (Matrix.diagonal ![0,
      (1 - gam ^ 2) * (2 * G * M / c ^ 2 / gam) ^ 2 / (2 * F.var "r" ^ 2 * (F.var "r" - 2 * G * M / c ^ 2 / gam) ^ 2),
      1 - c ^ 2, (1 - c ^ 2) * F.sin (F.var "theta") ^ 2]) := by
  have : CharZero K := algebraRat.charZero K
  have hbc := jnw_const hc hG hg hM
  obtain ⟨hr, hs, hk, r0, s0⟩ := sph_laws hco hth
  have w0 : F.var "r" - 2 * G * M / c ^ 2 / gam ≠ 0 := sub_ne_zero.2 (var_ne hco (by decide) hbc)
  have hcd := const_coordD (cs := sph) rfl hc
  have hgd := const_coordD (cs := sph) rfl hg
  have hbd := const_coordD (cs := sph) rfl hbc
  have e : 2 * G * M / c ^ 2 / (gam * F.var "r") = 2 * G * M / c ^ 2 / gam / F.var "r" := (div_div _ _ _).symm
  unfold janisNewmanWinicour
  dsimp only
  rw [e]
  obtain ⟨⟨Q0, hQ⟩, hi, hm⟩ := L
  have hn : sph.Nodup := by decide
  generalize 2 * G * M / c ^ 2 / gam = b at *
  have hQ' : Along (coordD D sph 4) 1 (F.pow (1 - b / F.var "r") (-gam))
      (-(gam * b / (F.var "r" * (F.var "r" - b))) * F.pow (1 - b / F.var "r") (-gam)) := by
    refine along_of (t := "r") rfl hn hco fun s hs => ?_
    have e2 : 1 - b / F.var "r" = (F.var "r" - b) / F.var "r" := by field_simp
    rw [hQ s hs, map_sub, Derivation.leibniz_div, hbc s hs, Derivation.map_one_eq_zero]
    generalize F.pow (1 - b / F.var "r") (-gam) = Q at *
    rw [e2]
    simp only [smul_eq_mul]
    field_simp
    ring
  rw [hi, hm]
  have e3 : ∀ Q, F.var "r" ^ 2 * ((1 - b / F.var "r") * Q) = F.var "r" * (F.var "r" - b) * Q := by
    intro Q; field_simp
  rw [e3, neg_one_mul]
  generalize F.pow (1 - b / F.var "r") (-gam) = Q at *
  have hR := returns_diag (-(1 / Q)) (Q / c ^ 2) (F.var "r" * (F.var "r" - b) * Q) (F.var "r" * (F.var "r" - b) * Q * F.sin (F.var "theta") ^ 2)
    sph "JanisNewmanWinicourMetric" rfl
  have hh : ∀ i, ![-(1 / Q), Q / c ^ 2, F.var "r" * (F.var "r" - b) * Q, F.var "r" * (F.var "r" - b) * Q * F.sin (F.var "theta") ^ 2] i ≠ 0 := by
    intro i
    have C0 : F.var "r" * (F.var "r" - b) * Q ≠ 0 := mul_ne_zero (mul_ne_zero r0 w0) Q0
    fin_cases i
    · exact neg_ne_zero.2 (one_div_ne_zero Q0)
    · exact div_ne_zero Q0 (pow_ne_zero 2 c0)
    · exact C0
    · exact mul_ne_zero C0 (pow_ne_zero 2 s0)
  exact (ricciIs_of hR rfl (diag_unit hh) (Matrix.diagonal_transpose _)).congr
    (ricci_jnw hr hgd hbd hcd hQ' hs hk hth.sq r0 w0 Q0 c0 s0)

/-- **C103 is false of this commit** for a speed of light with c² ≠ 1, the angular components not being divided by c²: the Ricci tensor is purely
radial, as that of a scalar field, exactly if c² = 1. -/
theorem C103_refuted {c G gam M : K} (hco : IsCoords D F sph) (hth : Trig D F sph "theta") (hc : IsConst D sph c) (hG : IsConst D sph G)
    (hg : IsConst D sph gam) (hM : IsConst D sph M) (c0 : c ≠ 0) (g0 : gam ≠ 0) (L : JnwLaws D F gam (2 * G * M / c ^ 2 / gam)) :
    (∃ x, RicciIs D (janisNewmanWinicour F c G gam M) fun i j => if i = 1 ∧ j = 1 then x else 0) ↔ c ^ 2 = 1 := by
  have h := C103_ricci_partial hco hth hc hG hg hM c0 g0 L
  constructor
  · rintro ⟨x, hx⟩
    have := h.inj hx 2 2
    rw [Matrix.diagonal_apply_eq, if_neg (by decide)] at this
    have e : 1 - c ^ 2 = 0 := this
    linear_combination -e
  · intro e
    refine ⟨_, h.congr (T' := fun i j => if i = 1 ∧ j = 1 then
      (1 - gam ^ 2) * (2 * G * M / c ^ 2 / gam) ^ 2 / (2 * F.var "r" ^ 2 * (F.var "r" - 2 * G * M / c ^ 2 / gam) ^ 2) else 0) fun i j => ?_⟩
    rw [sub_eq_zero.2 e.symm, zero_mul]
    fin_cases i <;> fin_cases j <;> simp [Matrix.diagonal]

end
end Einpy.Predef
