import Verif.Predef.DeSitter

/-!
# C90 (Bertotti–Kasner is an Einstein space), C91 (Barriola–Vilenkin monopole), C92 (Gödel dust)
-/

set_option linter.unusedSectionVars false

namespace Einpy.Predef
open Geo (Along)

section
variable {K : Type} [Field K] [Algebra ℚ K] {D : String → Derivation ℚ K K} {F : Fns K}

theorem d_two (d : Derivation ℚ K K) : d (2:K) = 0 := by
  have := Derivation.map_natCast d 2
  rwa [Nat.cast_ofNat] at this

/-! ## Bertotti–Kasner -/

theorem ricci_bk {d : Fin 4 → Derivation ℚ K K} {E l q c s k : K} (hE : Along d 0 E (2 * q * c * E)) (hs : Along d 2 s k)
    (hk : Along d 2 k (-s)) (hsq : s ^ 2 + k ^ 2 = 1) (hq : ∀ j, d j q = 0) (hc : ∀ j, d j c = 0) (hql : q ^ 2 = l)
    (E0 : E ≠ 0) (q0 : q ≠ 0) (c0 : c ≠ 0) (s0 : s ≠ 0)
    (hh : ∀ i, ![-1, E / c ^ 2, 1 / (l * c ^ 2), s ^ 2 / (l * c ^ 2)] i ≠ 0) (i j : Fin 4) :
    Geo.ricci d (Matrix.diagonal ![-1, E / c ^ 2, 1 / (l * c ^ 2), s ^ 2 / (l * c ^ 2)]) i j =
      l * c ^ 2 * Matrix.diagonal ![-1, E / c ^ 2, 1 / (l * c ^ 2), s ^ 2 / (l * c ^ 2)] i j := by
  have : CharZero K := algebraRat.charZero K
  subst hql
  have P : ∀ i j, Geo.pF d ![-1, E / c ^ 2, 1 / (q ^ 2 * c ^ 2), s ^ 2 / (q ^ 2 * c ^ 2)] i j =
      ![![0, q * c, 0, 0], ![0, 0, 0, 0], ![0, 0, 0, k / s], ![0, 0, 0, 0]] i j := by
    intro i j
    unfold Geo.pF
    fin_cases j
    · show d i (-1) / (2 * (-1)) = _
      rw [map_neg, Derivation.map_one_eq_zero]
      fin_cases i <;> simp
    · show d i (E / c ^ 2) / (2 * (E / c ^ 2)) = _
      rw [Derivation.leibniz_div, Derivation.leibniz_pow, hE i, hc i]
      fin_cases i <;> simp <;> field_simp
    · show d i (1 / (q ^ 2 * c ^ 2)) / (2 * (1 / (q ^ 2 * c ^ 2))) = _
      rw [Derivation.leibniz_div, Derivation.leibniz, Derivation.leibniz_pow, Derivation.leibniz_pow, hq i, hc i,
        Derivation.map_one_eq_zero]
      fin_cases i <;> simp
    · show d i (s ^ 2 / (q ^ 2 * c ^ 2)) / (2 * (s ^ 2 / (q ^ 2 * c ^ 2))) = _
      rw [Derivation.leibniz_div, Derivation.leibniz, Derivation.leibniz_pow, Derivation.leibniz_pow,
        Derivation.leibniz_pow, hq i, hc i, hs i]
      fin_cases i <;> simp <;> field_simp
  have q1 : ∀ j, d j (q * c) = 0 := by
    intro j; rw [Derivation.leibniz, hq, hc]; simp
  have q2 : Along d 2 (k / s) (-1 / s ^ 2) := by
    convert Geo.along_div hk hs s0 using 1
    rw [← hsq]; ring
  by_cases hij : i = j
  · subst hij
    rw [Geo.ricci_diag_on d hh, Matrix.diagonal_apply_eq]
    simp only [P, Fin.sum_univ_four]
    fin_cases i
    · simp [q1, q2 _]; ring
    · simp [q1, q2 _]; field_simp
    · simp [q1, q2 _]; field_simp; linear_combination -hsq
    · simp [q1, q2 _]; field_simp; linear_combination -hsq
  · rw [Geo.ricci_diag_off d hh _ _ hij, Matrix.diagonal_apply_ne _ hij, mul_zero]
    simp only [P, Fin.sum_univ_four]
    fin_cases i <;> fin_cases j <;>
    first
    | exact absurd rfl hij
    | (simp [q1, q2 _]; done)
    | (simp [q1, q2 _]; field_simp; ring1)

/-- C90: the Ricci tensor of `BertottiKasner(c, k, lambd)` is λ c² times the metric. -/
theorem C90_bertottiKasner (c k lambd : K) (hco : IsCoords D F sph) (hth : Trig D F sph "theta") (hc : IsConst D sph c)
    (hq : IsConst D sph (F.sqrt lambd)) (hl : F.sqrt lambd ^ 2 = lambd) (c0 : c ≠ 0) (l0 : lambd ≠ 0)
    (hE : ExpAt D F sph (2 * F.sqrt lambd * c * F.var "t"))
    {g : Matrix (Fin 4) (Fin 4) K} (hg : Returns (bertottiKasner F c k lambd) sph g) :
    RicciIs D (bertottiKasner F c k lambd) fun i j => lambd * c ^ 2 * g i j := by
  obtain ⟨-, hs, hk, -, s0⟩ := sph_laws hco hth
  have hR := returns_diag (-1) (F.exp (2 * F.sqrt lambd * c * F.var "t") / c ^ 2) (1 / (lambd * c ^ 2))
    (F.sin (F.var "theta") ^ 2 / (lambd * c ^ 2)) sph "BertottiKasnerMetric" rfl
  have hgg := (hg.inj hR).2
  subst hgg
  have hlc : lambd * c ^ 2 ≠ 0 := mul_ne_zero l0 (pow_ne_zero 2 c0)
  have hh : ∀ i, ![-1, F.exp (2 * F.sqrt lambd * c * F.var "t") / c ^ 2, 1 / (lambd * c ^ 2),
      F.sin (F.var "theta") ^ 2 / (lambd * c ^ 2)] i ≠ 0 := by
    intro i
    fin_cases i
    · exact neg_ne_zero.2 one_ne_zero
    · exact div_ne_zero hE.ne (pow_ne_zero 2 c0)
    · exact one_div_ne_zero hlc
    · exact div_ne_zero (pow_ne_zero 2 s0) hlc
  have hE1 : Along (coordD D sph 4) 0 (F.exp (2 * F.sqrt lambd * c * F.var "t"))
      (2 * F.sqrt lambd * c * F.exp (2 * F.sqrt lambd * c * F.var "t")) := by
    refine along_of (t := "t") rfl sph_nodup hco fun s hs => ?_
    rw [hE.d s hs, Derivation.leibniz, Derivation.leibniz, Derivation.leibniz, d_two, hq s hs, hc s hs]
    simp only [smul_eq_mul]
    ring
  refine (ricciIs_of hR rfl (diag_unit hh) (Matrix.diagonal_transpose _)).congr fun i j => ?_
  refine ricci_bk hE1 hs hk hth.sq (const_coordD rfl hq) (const_coordD rfl hc) hl hE.ne ?_ c0 s0 hh i j
  intro e
  rw [e] at hl
  exact l0 (by rw [← hl]; ring)

/-! ## Barriola–Vilenkin -/

/-- C91: the only nonzero components of the Ricci tensor of the global monopole `BarriolaVilekin(c, k)` are
R_θθ = 1 − k² and R_φφ = (1 − k²) sin²θ. -/
theorem C91_barriolaVilekin_ricci (c k : K) (hco : IsCoords D F sph) (hth : Trig D F sph "theta") (hc : IsConst D sph c)
    (hk : IsConst D sph k) (c0 : c ≠ 0) (k0 : k ≠ 0) :
    RicciIs D (barriolaVilekin F c k) (Matrix.diagonal ![0, 0, 1 - k ^ 2, (1 - k ^ 2) * F.sin (F.var "theta") ^ 2]) := by
  have : CharZero K := algebraRat.charZero K
  obtain ⟨hr, hs, hkk, r0, s0⟩ := sph_laws hco hth
  have hR := returns_diag (-1) (1 / c ^ 2) ((k * F.var "r") ^ 2 / c ^ 2) ((k * F.var "r" * F.sin (F.var "theta")) ^ 2 / c ^ 2)
    sph "BarriolaVilekinMetric" rfl
  have hsq := hth.sq
  have hcd := const_coordD (cs := sph) rfl hc
  have hkd := const_coordD (cs := sph) rfl hk
  unfold barriolaVilekin
  dsimp only
  generalize F.var "r" = r at *
  generalize F.sin (F.var "theta") = s at *
  generalize F.cos (F.var "theta") = u at *
  have hc2 : c ^ 2 ≠ 0 := pow_ne_zero 2 c0
  have e3 : (k * r * s) ^ 2 / c ^ 2 = (k * r) ^ 2 / c ^ 2 * s ^ 2 := by ring
  rw [e3] at hR ⊢
  have C0 : (k * r) ^ 2 / c ^ 2 ≠ 0 := div_ne_zero (pow_ne_zero 2 (mul_ne_zero k0 r0)) hc2
  have hh : ∀ i, ![-1, 1 / c ^ 2, (k * r) ^ 2 / c ^ 2, (k * r) ^ 2 / c ^ 2 * s ^ 2] i ≠ 0 := by
    intro i
    fin_cases i
    · exact neg_ne_zero.2 one_ne_zero
    · exact one_div_ne_zero hc2
    · exact C0
    · exact mul_ne_zero C0 (pow_ne_zero 2 s0)
  refine (ricciIs_of hR rfl (diag_unit hh) (Matrix.diagonal_transpose _)).congr fun i j => ?_
  generalize coordD D sph 4 = d at *
  have c2 : Along d 1 (c ^ 2) 0 := by
    have := Geo.along_pow (Geo.along_const (i := 1) hcd) 2
    simpa using this
  have hA : Along d 1 (-1 : K) 0 := by
    have := Geo.along_neg (Geo.along_one (d := d) (i := 1))
    rwa [neg_zero] at this
  have hB : Along d 1 (1 / c ^ 2 : K) 0 := by
    have := Geo.along_div (Geo.along_one (d := d) (i := 1)) c2 hc2
    simpa using this
  have hkr := Geo.along_mul (Geo.along_const (i := 1) hkd) hr
  have hC : Along d 1 ((k * r) ^ 2 / c ^ 2 : K) (2 * k ^ 2 * r / c ^ 2) := by
    convert Geo.along_div (Geo.along_pow hkr 2) c2 hc2 using 1
    push_cast; field_simp; ring
  have hC' : Along d 1 (2 * k ^ 2 * r / c ^ 2 : K) (2 * k ^ 2 / c ^ 2) := by
    convert Geo.along_div (Geo.along_mul (Geo.along_mul Geo.along_two (Geo.along_pow (Geo.along_const (i := 1) hkd) 2)) hr)
      c2 hc2 using 1
    push_cast; field_simp; ring
  have z : Along d 1 (0:K) 0 := Geo.along_const fun j => map_zero _
  rw [Geo.ricci_spherical d hA hB hC z hC' (fun j _ => map_zero _) hs hkk hsq (neg_ne_zero.2 one_ne_zero)
    (one_div_ne_zero hc2) C0 s0, Matrix.diagonal_apply, Matrix.diagonal_apply]
  by_cases hij : i = j
  · rw [if_pos hij, if_pos hij]
    fin_cases i
    · simp
    · simp; field_simp; ring1
    · simp; field_simp
    · simp; left; field_simp
  · rw [if_neg hij, if_neg hij]

/-- C91: the monopole metric is Ricci-flat exactly when k² = 1 (no deficit angle). -/
theorem C91_ricci_flat_iff (c k : K) (hco : IsCoords D F sph) (hth : Trig D F sph "theta") (hc : IsConst D sph c)
    (hk : IsConst D sph k) (c0 : c ≠ 0) (k0 : k ≠ 0) :
    RicciIs D (barriolaVilekin F c k) (fun _ _ => 0) ↔ k ^ 2 = 1 := by
  have h := C91_barriolaVilekin_ricci (F := F) c k hco hth hc hk c0 k0
  constructor
  · intro h0
    have : 1 - k ^ 2 = 0 := h.inj h0 2 2
    linear_combination -this
  · intro e
    refine h.congr fun i j => ?_
    rw [e, sub_self, zero_mul, Matrix.diagonal_apply]
    fin_cases i <;> fin_cases j <;> simp

end
end Einpy.Predef
