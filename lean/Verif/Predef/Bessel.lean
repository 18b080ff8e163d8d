import Verif.Predef.CMetric

/-!
# C102: the Bessel gravitational wave
-/

set_option linter.unusedSectionVars false

namespace Einpy.Predef
open Geo (Along)

section
variable {K : Type} [Field K] [Algebra ℚ K] {D : String → Derivation ℚ K K} {F : Fns K}

/-- The coordinates of `BesselGravitationalWave()`. -/
abbrev bgw : List String := ["t", "rho", "phi", "z"]

/-- The metrics of Einstein and Rosen: `A` stands for e^(−2U), `B` for e^(2W), `E` for e^(2U). -/
abbrev erH (A B E r : K) : Fin 4 → K := ![-1 * A * B, A * B, A * r ^ 2, E]

theorem pF_er {d : Fin 4 → Derivation ℚ K K} {r A B E U W : K} (hr : Along d 1 r 1)
    (hA : ∀ i, d i A = A * (-2 * d i U)) (hB : ∀ i, d i B = B * (2 * d i W)) (hE : ∀ i, d i E = E * (2 * d i U))
    (r0 : r ≠ 0) (A0 : A ≠ 0) (B0 : B ≠ 0) (E0 : E ≠ 0) (i j : Fin 4) :
    Geo.pF d (erH A B E r) i j = ![d i W - d i U, d i W - d i U, (if i = 1 then 1 / r else 0) - d i U, d i U] j := by
  have : CharZero K := algebraRat.charZero K
  unfold Geo.pF
  fin_cases j
  · show d i (-1 * A * B) / (2 * (-1 * A * B)) = d i W - d i U
    rw [Derivation.leibniz, Derivation.leibniz, map_neg, Derivation.map_one_eq_zero, hA i, hB i]
    simp [-mul_eq_mul_left_iff, -mul_eq_mul_right_iff]; field_simp; ring1
  · show d i (A * B) / (2 * (A * B)) = d i W - d i U
    rw [Derivation.leibniz, hA i, hB i]
    simp [-mul_eq_mul_left_iff, -mul_eq_mul_right_iff]; field_simp; ring1
  · show d i (A * r ^ 2) / (2 * (A * r ^ 2)) = (if i = 1 then 1 / r else 0) - d i U
    rw [Derivation.leibniz, Derivation.leibniz_pow, hA i, hr i]
    by_cases hi : i = 1
    · rw [if_pos hi, if_pos hi]; simp [-mul_eq_mul_left_iff, -mul_eq_mul_right_iff]; field_simp; ring1
    · rw [if_neg hi, if_neg hi]; simp [-mul_eq_mul_left_iff, -mul_eq_mul_right_iff]; field_simp
  · show d i E / (2 * E) = d i U
    rw [hE i]
    field_simp

/-- First and second derivatives of a function of t and ρ. -/
structure Fn2 (d : Fin 4 → Derivation ℚ K K) (U U0 U1 U00 U01 U11 : K) : Prop where
  e : ∀ i, d i U = ![U0, U1, 0, 0] i
  e0 : ∀ i, d i U0 = ![U00, U01, 0, 0] i
  e1 : ∀ i, d i U1 = ![U01, U11, 0, 0] i

theorem ricci_er {d : Fin 4 → Derivation ℚ K K} {r A B E U W U0 U1 U00 U01 U11 W0 W1 W00 W01 W11 : K} (hr : Along d 1 r 1)
    (hA : ∀ i, d i A = A * (-2 * d i U)) (hB : ∀ i, d i B = B * (2 * d i W)) (hE : ∀ i, d i E = E * (2 * d i U))
    (hU : Fn2 d U U0 U1 U00 U01 U11) (hW : Fn2 d W W0 W1 W00 W01 W11)
    (r0 : r ≠ 0) (A0 : A ≠ 0) (B0 : B ≠ 0) (E0 : E ≠ 0) (hne : ∀ i, erH A B E r i ≠ 0) (i j : Fin 4) :
    Geo.ricci d (Matrix.diagonal (erH A B E r)) i j =
      !![(W11 - W00) - (U11 - U00) + (W1 - U1) / r - 2 * U0 ^ 2, W0 / r - 2 * U0 * U1, 0, 0;
        W0 / r - 2 * U0 * U1, -(W11 - W00) + (U11 - U00) + (W1 + U1) / r - 2 * U1 ^ 2, 0, 0;
        0, 0, r ^ 2 / B * (U11 + U1 / r - U00), 0;
        0, 0, 0, -(E / (A * B)) * (U11 + U1 / r - U00)] i j := by
  have : CharZero K := algebraRat.charZero K
  have P : ∀ i j, Geo.pF d (erH A B E r) i j =
      ![![W0 - U0, W0 - U0, -U0, U0], ![W1 - U1, W1 - U1, 1 / r - U1, U1], ![0, 0, 0, 0], ![0, 0, 0, 0]] i j := by
    intro i j
    rw [pF_er hr hA hB hE r0 A0 B0 E0, hU.e, hW.e]
    fin_cases i <;> fin_cases j <;> simp
  have a1 : ∀ i, d i (1 / r) = if i = 1 then -1 / r ^ 2 else 0 := by
    intro i
    rw [Derivation.leibniz_div, Derivation.map_one_eq_zero, hr i]
    fin_cases i <;> simp <;> field_simp
  have uA := hU.e0
  have uB := hU.e1
  have wA := hW.e0
  have wB := hW.e1
  by_cases hij : i = j
  · subst hij
    rw [Geo.ricci_diag_on d hne]
    simp only [P, Fin.sum_univ_four]
    clear P hne
    fin_cases i <;> simp [-mul_eq_mul_left_iff, -mul_eq_mul_right_iff] <;>
      simp only [map_sub, map_neg, ← one_div, a1, uA, uB, wA, wB] <;>
      simp [-mul_eq_mul_left_iff, -mul_eq_mul_right_iff] <;> field_simp <;> ring1
  · rw [Geo.ricci_diag_off d hne _ _ hij]
    simp only [P, Fin.sum_univ_four]
    clear P hne
    fin_cases i <;> fin_cases j <;>
    first
    | exact absurd rfl hij
    | (simp; done)
    | (simp [-mul_eq_mul_left_iff, -mul_eq_mul_right_iff]; simp only [map_sub, map_neg, ← one_div, a1, uA, uB, wA, wB]
       simp [-mul_eq_mul_left_iff, -mul_eq_mul_right_iff]; done)
    | (simp [-mul_eq_mul_left_iff, -mul_eq_mul_right_iff]; simp only [map_sub, map_neg, ← one_div, a1, uA, uB, wA, wB]
       simp [-mul_eq_mul_left_iff, -mul_eq_mul_right_iff]; field_simp; ring1)

/-- The function U of the code. -/
abbrev bgU (F : Fns K) (C : K) : K := C * F.besselj (F.var "rho") 0 * F.cos (F.var "t")

/-- The function K of the code. -/
abbrev bgW (F : Fns K) (C : K) : K := (1 / 2) * (C ^ 2) * F.var "rho" * ((F.var "rho" * ((F.besselj (F.var "rho") 0 ^ 2) +
  (F.besselj (F.var "rho") 1 ^ 2))) - (2 * F.besselj (F.var "rho") 0 * F.besselj (F.var "rho") 1 * (F.cos (F.var "t") ^ 2)))

/-- The laws used of everything but the Bessel functions. -/
structure BgwLaws (D : String → Derivation ℚ K K) (F : Fns K) (C : K) : Prop where
  coords : IsCoords D F bgw
  trig : Trig D F bgw "t"
  const : IsConst D bgw C
  p1 : ExpAt D F bgw (-2 * bgU F C)
  p2 : ExpAt D F bgw (2 * bgW F C)
  p3 : ExpAt D F bgw (2 * bgU F C)

/-- The metric the code returns. -/
abbrev bgH (F : Fns K) (C : K) : Fin 4 → K :=
  erH (F.exp (-2 * bgU F C)) (F.exp (2 * bgW F C)) (F.exp (2 * bgU F C)) (F.var "rho")

theorem bgw_returns (C : K) : Returns (besselGravitationalWave F C) bgw (Matrix.diagonal (bgH F C)) :=
  returns_diag _ _ _ _ bgw "BesselGravitationalWaveMetric" rfl

theorem bgw_ne {C : K} (h : BgwLaws D F C) : ∀ i, bgH F C i ≠ 0 := by
  have r0 : F.var "rho" ≠ 0 := var_ne h.coords (by decide) const_zero
  intro i
  fin_cases i
  · exact mul_ne_zero (mul_ne_zero (neg_ne_zero.2 one_ne_zero) h.p1.ne) h.p2.ne
  · exact mul_ne_zero h.p1.ne h.p2.ne
  · exact mul_ne_zero h.p1.ne (pow_ne_zero 2 r0)
  · exact h.p3.ne

theorem bgw_ricci {C U0 U1 U00 U01 U11 W0 W1 W00 W01 W11 : K} (h : BgwLaws D F C)
    (hU : Fn2 (coordD D bgw 4) (bgU F C) U0 U1 U00 U01 U11) (hW : Fn2 (coordD D bgw 4) (bgW F C) W0 W1 W00 W01 W11) :
    RicciIs D (besselGravitationalWave F C) fun i j =>
      !![(W11 - W00) - (U11 - U00) + (W1 - U1) / F.var "rho" - 2 * U0 ^ 2, W0 / F.var "rho" - 2 * U0 * U1, 0, 0;
        W0 / F.var "rho" - 2 * U0 * U1, -(W11 - W00) + (U11 - U00) + (W1 + U1) / F.var "rho" - 2 * U1 ^ 2, 0, 0;
        0, 0, F.var "rho" ^ 2 / F.exp (2 * bgW F C) * (U11 + U1 / F.var "rho" - U00), 0;
        0, 0, 0, -(F.exp (2 * bgU F C) / (F.exp (-2 * bgU F C) * F.exp (2 * bgW F C))) * (U11 + U1 / F.var "rho" - U00)] i j := by
  have hn : bgw.Nodup := by decide
  have r0 : F.var "rho" ≠ 0 := var_ne h.coords (by decide) const_zero
  have hr : Along (coordD D bgw 4) 1 (F.var "rho") 1 := along_of (t := "rho") rfl hn h.coords fun s _ => (one_mul _).symm
  have hmem : ∀ i : Fin 4, bgw.getD (i:ℕ) "" ∈ bgw := by decide
  have hA : ∀ i, coordD D bgw 4 i (F.exp (-2 * bgU F C)) = F.exp (-2 * bgU F C) * (-2 * coordD D bgw 4 i (bgU F C)) := by
    intro i
    have := h.p1.d _ (hmem i)
    rw [Derivation.leibniz, map_neg, d_two] at this
    refine Eq.trans this ?_
    simp [coordD]
  have hB : ∀ i, coordD D bgw 4 i (F.exp (2 * bgW F C)) = F.exp (2 * bgW F C) * (2 * coordD D bgw 4 i (bgW F C)) := by
    intro i
    have := h.p2.d _ (hmem i)
    rw [Derivation.leibniz, d_two] at this
    refine Eq.trans this ?_
    rw [smul_zero, add_zero, smul_eq_mul]
    rfl
  have hE : ∀ i, coordD D bgw 4 i (F.exp (2 * bgU F C)) = F.exp (2 * bgU F C) * (2 * coordD D bgw 4 i (bgU F C)) := by
    intro i
    have := h.p3.d _ (hmem i)
    rw [Derivation.leibniz, d_two] at this
    refine Eq.trans this ?_
    rw [smul_zero, add_zero, smul_eq_mul]
    rfl
  exact (ricciIs_of (bgw_returns C) rfl (diag_unit (bgw_ne h)) (Matrix.diagonal_transpose _)).congr
    (ricci_er hr hA hB hE hU hW r0 h.p1.ne h.p2.ne h.p3.ne (bgw_ne h))

/-- A function with derivatives along t and ρ only. -/
theorem fn2_of {d : Fin 4 → Derivation ℚ K K} {a b : K} {x : K} (h0 : d 0 x = a) (h1 : d 1 x = b) (h2 : d 2 x = 0) (h3 : d 3 x = 0) :
    ∀ i, d i x = ![a, b, 0, 0] i := by
  intro i
  fin_cases i
  · exact h0
  · exact h1
  · exact h2
  · exact h3

section bgcalc
variable {d : Fin 4 → Derivation ℚ K K} {C r s c j0 j1 : K}

theorem bg_U (hC : ∀ i, d i C = 0) (hr : Along d 1 r 1) (hs : Along d 0 s c) (hc : Along d 0 c (-s)) (h0 : Along d 1 j0 (-j1))
    (h1 : Along d 1 j1 (j0 - j1 / r)) :
    Fn2 d (C * j0 * c) (-C * j0 * s) (-C * j1 * c) (-C * j0 * c) (C * j1 * s) (-C * (j0 - j1 / r) * c) := by
  constructor <;> refine fn2_of ?_ ?_ ?_ ?_ <;>
    simp only [Derivation.leibniz, map_neg, hr _, hs _, hc _, h0 _, h1 _, hC, smul_eq_mul] <;>
    simp [-mul_eq_mul_left_iff, -mul_eq_mul_right_iff] <;> first | done | ring1

theorem bg_W (hC : ∀ i, d i C = 0) (hr : Along d 1 r 1) (hs : Along d 0 s c) (hc : Along d 0 c (-s)) (h0 : Along d 1 j0 (-j1))
    (h1 : Along d 1 j1 (j0 - j1 / r)) (r0 : r ≠ 0) (sq : s ^ 2 + c ^ 2 = 1) :
    Fn2 d ((1 / 2) * (C ^ 2) * r * ((r * ((j0 ^ 2) + (j1 ^ 2))) - (2 * j0 * j1 * (c ^ 2))))
      (2 * C ^ 2 * r * j0 * j1 * s * c) (C ^ 2 * r * (j0 ^ 2 * s ^ 2 + j1 ^ 2 * c ^ 2))
      (2 * C ^ 2 * r * j0 * j1 * (c ^ 2 - s ^ 2)) (2 * C ^ 2 * r * (j0 ^ 2 - j1 ^ 2) * s * c)
      (C ^ 2 * (j0 ^ 2 * s ^ 2 + j1 ^ 2 * c ^ 2) + C ^ 2 * r * (-2 * j0 * j1 * s ^ 2 + 2 * j1 * (j0 - j1 / r) * c ^ 2)) := by
  have : CharZero K := algebraRat.charZero K
  have d2 : ∀ i, d i (2:K) = 0 := fun i => d_two _
  have e : s ^ 2 = 1 - c ^ 2 := by linear_combination sq
  constructor <;> refine fn2_of ?_ ?_ ?_ ?_ <;>
    simp only [Derivation.leibniz, Derivation.leibniz_pow, Derivation.leibniz_div, Derivation.map_one_eq_zero, map_neg, map_add, map_sub,
      hr _, hs _, hc _, h0 _, h1 _, hC, d2, smul_eq_mul, nsmul_eq_mul] <;>
    simp [-mul_eq_mul_left_iff, -mul_eq_mul_right_iff] <;> field_simp <;> first | done | ring1 | (rw [e]; ring1)

end bgcalc

/-- **C102 (the intended metric)**: if `besselj(rho, n)` were the Bessel function of order n at rho, so that J₀′ = −J₁ and J₁′ = J₀ − J₁/ρ,
then `BesselGravitationalWave(C)` would be a vacuum solution for every C. -/
theorem C102_intended_partial {C : K} (h : BgwLaws D F C)
    (hJ0 : ∀ s ∈ bgw, D s (F.besselj (F.var "rho") 0) = -F.besselj (F.var "rho") 1 * D s (F.var "rho"))
    (hJ1 : ∀ s ∈ bgw, D s (F.besselj (F.var "rho") 1) =
      (F.besselj (F.var "rho") 0 - F.besselj (F.var "rho") 1 / F.var "rho") * D s (F.var "rho")) :
    RicciIs D (besselGravitationalWave F C) fun _ _ => 0 := by
  have : CharZero K := algebraRat.charZero K
  have hn : bgw.Nodup := by decide
  have r0 : F.var "rho" ≠ 0 := var_ne h.coords (by decide) const_zero
  have hr : Along (coordD D bgw 4) 1 (F.var "rho") 1 := along_of (t := "rho") rfl hn h.coords fun s _ => (one_mul _).symm
  have hs : Along (coordD D bgw 4) 0 (F.sin (F.var "t")) (F.cos (F.var "t")) := along_of (t := "t") rfl hn h.coords h.trig.dsin
  have hc : Along (coordD D bgw 4) 0 (F.cos (F.var "t")) (-F.sin (F.var "t")) := along_of (t := "t") rfl hn h.coords h.trig.dcos
  have h0 : Along (coordD D bgw 4) 1 (F.besselj (F.var "rho") 0) (-F.besselj (F.var "rho") 1) := along_of (t := "rho") rfl hn h.coords hJ0
  have h1 := along_of (i := 1) (t := "rho") rfl hn h.coords hJ1
  have hC : ∀ i, coordD D bgw 4 i C = 0 := const_coordD rfl h.const
  refine (bgw_ricci h (bg_U hC hr hs hc h0 h1) (bg_W hC hr hs hc h0 h1 r0 h.trig.sq)).congr fun i j => ?_
  have sq := h.trig.sq
  clear hs hc h0 h1 hJ0 hJ1 hr hC
  generalize F.exp (2 * bgW F C) = e1
  generalize F.exp (2 * bgU F C) / (F.exp (-2 * bgU F C) * e1) = e2
  generalize F.besselj (F.var "rho") 0 = j0
  generalize F.besselj (F.var "rho") 1 = j1
  generalize F.sin (F.var "t") = s at *
  generalize F.cos (F.var "t") = c at *
  generalize F.var "rho" = r at *
  have e : s ^ 2 = 1 - c ^ 2 := by linear_combination sq
  fin_cases i <;> fin_cases j <;> simp [-mul_eq_mul_left_iff, -mul_eq_mul_right_iff, -mul_eq_zero] <;> field_simp <;>
    first | done | ring1 | (rw [e]; ring1)

/-- **C102 is false of this commit**: `besselj(rho, 0)` is the Bessel function of order rho at 0, which is 0 for ρ > 0.  So the metric of the code
does not depend on the time at all (no wave), U = 0, and with J = `besselj(rho, 1)`, of derivative J′, its Ricci tensor vanishes exactly
if C ρ J (ρ J)′ = 0; it is not a vacuum solution. -/
theorem C102_refuted {C J' J'' : K} (h : BgwLaws D F C) (hJ0 : F.besselj (F.var "rho") 0 = 0)
    (hJ1 : ∀ s ∈ bgw, D s (F.besselj (F.var "rho") 1) = J' * D s (F.var "rho")) (hJ2 : ∀ s ∈ bgw, D s J' = J'' * D s (F.var "rho")) :
    (∀ g, Returns (besselGravitationalWave F C) bgw g → ∀ i j, D "t" (g i j) = 0) ∧
    ((RicciIs D (besselGravitationalWave F C) fun _ _ => 0) ↔
      C * F.besselj (F.var "rho") 1 * (F.besselj (F.var "rho") 1 + F.var "rho" * J') = 0) := by
  have : CharZero K := algebraRat.charZero K
  have hn : bgw.Nodup := by decide
  have r0 : F.var "rho" ≠ 0 := var_ne h.coords (by decide) const_zero
  have hr : Along (coordD D bgw 4) 1 (F.var "rho") 1 := along_of (t := "rho") rfl hn h.coords fun s _ => (one_mul _).symm
  have h1 := along_of (i := 1) (t := "rho") rfl hn h.coords hJ1
  have h2 := along_of (i := 1) (t := "rho") rfl hn h.coords hJ2
  have hC : ∀ i, coordD D bgw 4 i C = 0 := const_coordD rfl h.const
  have d2 : ∀ i, coordD D bgw 4 i (2:K) = 0 := fun i => d_two _
  have eU : bgU F C = 0 := by rw [bgU, hJ0, mul_zero, zero_mul]
  have eW : bgW F C = (1 / 2) * (C ^ 2) * F.var "rho" ^ 2 * F.besselj (F.var "rho") 1 ^ 2 := by rw [bgW, hJ0]; ring
  have U : Fn2 (coordD D bgw 4) (bgU F C) 0 0 0 0 0 := by
    rw [eU]
    constructor <;> refine fn2_of ?_ ?_ ?_ ?_ <;> exact map_zero _
  have W : Fn2 (coordD D bgw 4) (bgW F C) 0 (C ^ 2 * F.var "rho" * F.besselj (F.var "rho") 1 * (F.besselj (F.var "rho") 1 + F.var "rho" * J')) 0 0
      (C ^ 2 * (F.besselj (F.var "rho") 1 + F.var "rho" * J') ^ 2 + C ^ 2 * F.var "rho" * F.besselj (F.var "rho") 1 * (2 * J' + F.var "rho" * J'')) := by
    rw [eW]
    clear eW eU hJ0
    generalize F.besselj (F.var "rho") 1 = j1 at *
    generalize F.var "rho" = r at *
    constructor <;> refine fn2_of ?_ ?_ ?_ ?_ <;>
    simp only [Derivation.leibniz, Derivation.leibniz_pow, Derivation.leibniz_div, Derivation.map_one_eq_zero, map_zero, map_add, map_sub,
      hr _, h1 _, h2 _, hC, d2, smul_eq_mul, nsmul_eq_mul] <;>
    simp [-mul_eq_mul_left_iff, -mul_eq_mul_right_iff] <;> field_simp <;> first | done | ring1
  have hR := bgw_ricci h U W
  constructor
  · intro g hg i j
    rw [(hg.inj (bgw_returns C)).2]
    have ht : "t" ∈ bgw := by decide
    have eW0 : D "t" (bgW F C) = 0 := W.e 0
    have x1 : D "t" (F.exp (-2 * bgU F C)) = 0 := by rw [h.p1.d _ ht, eU]; simp
    have x2 : D "t" (F.exp (2 * bgU F C)) = 0 := by rw [h.p3.d _ ht, eU]; simp
    have x3 : D "t" (F.exp (2 * bgW F C)) = 0 := by
      rw [h.p2.d _ ht, Derivation.leibniz, eW0, d_two]; simp
    have x4 : D "t" (F.var "rho") = 0 := by
      have := h.coords "t" ht "rho" (by decide)
      rwa [if_neg (by decide)] at this
    have x : ∀ i, D "t" (bgH F C i) = 0 := by
      intro i
      fin_cases i
      · show D "t" (-1 * _ * _) = 0
        rw [Derivation.leibniz, Derivation.leibniz, x3, x1, map_neg, Derivation.map_one_eq_zero]; simp
      · show D "t" (_ * _) = 0
        rw [Derivation.leibniz, x3, x1]; simp
      · show D "t" (_ * _ ^ 2) = 0
        rw [Derivation.leibniz, Derivation.leibniz_pow, x4, x1]; simp
      · exact x2
    rw [Matrix.diagonal_apply]
    by_cases c : i = j
    · rw [if_pos c]; exact x i
    · rw [if_neg c, map_zero]
  · constructor
    · intro h0
      have a := h0.inj hR 0 0
      have b := h0.inj hR 1 1
      simp at a b
      have : C * (C * F.besselj (F.var "rho") 1 * (F.besselj (F.var "rho") 1 + F.var "rho" * J')) = 0 := by
        field_simp at a b
        linear_combination (-1 / 2) * a + (-1 / 2) * b
      rcases mul_eq_zero.1 this with e | e
      · rw [e, zero_mul, zero_mul]
      · exact e
    · intro h0
      have z1 : C ^ 2 * F.var "rho" * F.besselj (F.var "rho") 1 * (F.besselj (F.var "rho") 1 + F.var "rho" * J') = 0 := by
        linear_combination C * F.var "rho" * h0
      have z2 : C ^ 2 * (F.besselj (F.var "rho") 1 + F.var "rho" * J') ^ 2 + C ^ 2 * F.var "rho" * F.besselj (F.var "rho") 1 * (2 * J' + F.var "rho" * J'') = 0 := by
        have := W.e1 1
        rw [z1, map_zero] at this
        exact this.symm
      refine hR.congr fun i j => ?_
      rw [z1, z2]
      fin_cases i <;> fin_cases j <;> simp

end
end Einpy.Predef
