import Verif.Predef.Vacuum2

/-!
# C64: (anti-)de Sitter metrics
-/

set_option linter.unusedSectionVars false

namespace Einpy.Predef
open Geo (Along)

section
variable {K : Type} [Field K] [Algebra ℚ K] {D : String → Derivation ℚ K K} {F : Fns K}

/-- C64 (static form): the Ricci tensor of `AntiDeSitterStatic()` is −3 g. -/
theorem C64_antiDeSitterStatic (hco : IsCoords D F sph) (hth : Trig D F sph "theta") (hhy : Hyp D F sph "r")
    {g : Matrix (Fin 4) (Fin 4) K} (hg : Returns (antiDeSitterStatic F) sph g) :
    RicciIs D (antiDeSitterStatic F) fun i j => -3 * g i j := by
  have : CharZero K := algebraRat.charZero K
  obtain ⟨-, hs, hk, -, s0⟩ := sph_laws hco hth
  have hS : Along (coordD D sph 4) 1 (F.sinh (F.var "r")) (F.cosh (F.var "r")) := along_of rfl sph_nodup hco hhy.dsinh
  have hC : Along (coordD D sph 4) 1 (F.cosh (F.var "r")) (F.sinh (F.var "r")) := along_of rfl sph_nodup hco hhy.dcosh
  have S0 := sinh_ne hco (t := "r") (by decide) hhy
  have C0 := cosh_ne hco (t := "r") (by decide) hhy
  have hsq := hth.sq
  have hSC := hhy.sq
  have hR := returns_diag (-F.cosh (F.var "r") ^ 2) 1 (F.sinh (F.var "r") ^ 2) (F.sinh (F.var "r") ^ 2 * F.sin (F.var "theta") ^ 2)
    sph "AntiDeSitterStaticMetric" rfl
  have hgg := (hg.inj hR).2
  subst hgg
  clear hg
  unfold antiDeSitterStatic
  dsimp only
  generalize F.sin (F.var "theta") = s at *
  generalize F.cos (F.var "theta") = k at *
  generalize F.sinh (F.var "r") = S at *
  generalize F.cosh (F.var "r") = C at *
  refine (ricciIs_of hR rfl (diag_unit ?_) (Matrix.diagonal_transpose _)).congr ?_
  · intro i
    fin_cases i
    · exact neg_ne_zero.2 (pow_ne_zero 2 C0)
    · exact one_ne_zero
    · exact pow_ne_zero 2 S0
    · exact mul_ne_zero (pow_ne_zero 2 S0) (pow_ne_zero 2 s0)
  · have hA : Along (coordD D sph 4) 1 (-C ^ 2) (-2 * C * S) := by
      convert Geo.along_neg (Geo.along_pow hC 2) using 1
      push_cast; ring
    have hA' : Along (coordD D sph 4) 1 (-2 * C * S) (-2 * (S ^ 2 + C ^ 2)) := by
      convert Geo.along_mul (Geo.along_mul (Geo.along_neg Geo.along_two) hC) hS using 1
      ring
    have hCC : Along (coordD D sph 4) 1 (S ^ 2) (2 * S * C) := by
      convert Geo.along_pow hS 2 using 1
      push_cast; ring
    have hCC' : Along (coordD D sph 4) 1 (2 * S * C) (2 * (S ^ 2 + C ^ 2)) := by
      convert Geo.along_mul (Geo.along_mul Geo.along_two hS) hC using 1
      ring
    intro i j
    rw [Geo.ricci_spherical _ hA Geo.along_one hCC hA' hCC' (fun j _ => map_zero _) hs hk hsq
      (neg_ne_zero.2 (pow_ne_zero 2 C0)) one_ne_zero (pow_ne_zero 2 S0) s0, Matrix.diagonal_apply, Matrix.diagonal_apply]
    by_cases hij : i = j
    · subst hij
      rw [if_pos rfl, if_pos rfl]
      fin_cases i
      · simp; field_simp; ring
      · simp; field_simp; ring
      · simp; field_simp; linear_combination (-4:K) * hSC
      · simp; field_simp; linear_combination (-4:K) * hSC
    · rw [if_neg hij, if_neg hij, mul_zero]

/-- The coordinates of `AntiDeSitter()`. -/
abbrev chiSph : List String := ["t", "chi", "theta", "phi"]

theorem ricci_ads {d : Fin 4 → Derivation ℚ K K} {T T' S C s k : K} (hT : Along d 0 T (-T')) (hT' : Along d 0 T' T)
    (hS : Along d 1 S C) (hC : Along d 1 C S) (hs : Along d 2 s k) (hk : Along d 2 k (-s)) (hTT : T' ^ 2 + T ^ 2 = 1)
    (hSC : C ^ 2 = 1 + S ^ 2) (hsq : s ^ 2 + k ^ 2 = 1) (T0 : T ≠ 0) (S0 : S ≠ 0) (s0 : s ≠ 0)
    (hh : ∀ i, ![-1, T ^ 2, T ^ 2 * S ^ 2, T ^ 2 * S ^ 2 * s ^ 2] i ≠ 0) (i j : Fin 4) :
    Geo.ricci d (Matrix.diagonal ![-1, T ^ 2, T ^ 2 * S ^ 2, T ^ 2 * S ^ 2 * s ^ 2]) i j =
      -3 * Matrix.diagonal ![-1, T ^ 2, T ^ 2 * S ^ 2, T ^ 2 * S ^ 2 * s ^ 2] i j := by
  have : CharZero K := algebraRat.charZero K
  have P : ∀ i j, Geo.pF d ![-1, T ^ 2, T ^ 2 * S ^ 2, T ^ 2 * S ^ 2 * s ^ 2] i j =
      ![![0, -T' / T, -T' / T, -T' / T], ![0, 0, C / S, C / S], ![0, 0, 0, k / s], ![0, 0, 0, 0]] i j := by
    intro i j
    unfold Geo.pF
    fin_cases j
    · show d i (-1) / (2 * (-1)) = _
      rw [map_neg, Derivation.map_one_eq_zero]
      fin_cases i <;> simp
    · show d i (T ^ 2) / (2 * T ^ 2) = _
      rw [Derivation.leibniz_pow, hT i]
      fin_cases i <;> simp <;> field_simp
    · show d i (T ^ 2 * S ^ 2) / (2 * (T ^ 2 * S ^ 2)) = _
      rw [Derivation.leibniz, Derivation.leibniz_pow, Derivation.leibniz_pow, hT i, hS i]
      fin_cases i <;> simp <;> field_simp
    · show d i (T ^ 2 * S ^ 2 * s ^ 2) / (2 * (T ^ 2 * S ^ 2 * s ^ 2)) = _
      rw [Derivation.leibniz, Derivation.leibniz, Derivation.leibniz_pow, Derivation.leibniz_pow, Derivation.leibniz_pow,
        hT i, hS i, hs i]
      fin_cases i <;> simp <;> field_simp
  have q0 : Along d 0 (-T' / T) (-1 / T ^ 2) := by
    convert Geo.along_div (Geo.along_neg hT') hT T0 using 1
    rw [← hTT]; ring
  have q1 : Along d 1 (C / S) (-1 / S ^ 2) := by
    convert Geo.along_div hC hS S0 using 1
    rw [show C * C = 1 + S ^ 2 by rw [← hSC]; ring]; ring
  have q2 : Along d 2 (k / s) (-1 / s ^ 2) := by
    convert Geo.along_div hk hs s0 using 1
    rw [← hsq]; ring
  by_cases hij : i = j
  · subst hij
    rw [Geo.ricci_diag_on d hh, Matrix.diagonal_apply_eq]
    simp only [P, Fin.sum_univ_four]
    fin_cases i
    · simp [q0 _, q1 _, q2 _]
      field_simp
      linear_combination (-3:K) * hTT
    · simp [q0 _, q1 _, q2 _]
      field_simp
      linear_combination 3 * S ^ 2 * hTT - 2 * hSC
    · simp [q0 _, q1 _, q2 _]
      field_simp
      linear_combination 3 * S ^ 2 * s ^ 2 * hTT - 2 * s ^ 2 * hSC - hsq
    · simp [q0 _, q1 _, q2 _]
      field_simp
      linear_combination 3 * S ^ 2 * s ^ 2 * hTT - 2 * s ^ 2 * hSC - hsq
  · rw [Geo.ricci_diag_off d hh _ _ hij, Matrix.diagonal_apply_ne _ hij, mul_zero]
    simp only [P, Fin.sum_univ_four]
    fin_cases i <;> fin_cases j <;>
    first
    | exact absurd rfl hij
    | (simp [q0 _, q1 _, q2 _]; done)
    | (simp [q0 _, q1 _, q2 _]; field_simp; ring)

/-- C64 (comoving form): the Ricci tensor of `AntiDeSitter()` is −3 g. -/
theorem C64_antiDeSitter (hco : IsCoords D F chiSph) (hth : Trig D F chiSph "theta") (htt : Trig D F chiSph "t")
    (hhy : Hyp D F chiSph "chi") {g : Matrix (Fin 4) (Fin 4) K} (hg : Returns (antiDeSitter F) chiSph g) :
    RicciIs D (antiDeSitter F) fun i j => -3 * g i j := by
  have hR := returns_diag (-1) (F.cos (F.var "t") ^ 2) (F.cos (F.var "t") ^ 2 * F.sinh (F.var "chi") ^ 2)
    (F.cos (F.var "t") ^ 2 * F.sinh (F.var "chi") ^ 2 * F.sin (F.var "theta") ^ 2) chiSph "AntiDeSitterMetric" rfl
  have hgg := (hg.inj hR).2
  subst hgg
  have hn : chiSph.Nodup := by decide
  have T0 := cos_ne hco (t := "t") (by decide) htt
  have S0 := sinh_ne hco (t := "chi") (by decide) hhy
  have s0 := sin_ne hco (t := "theta") (by decide) hth
  have hh : ∀ i, ![-1, F.cos (F.var "t") ^ 2, F.cos (F.var "t") ^ 2 * F.sinh (F.var "chi") ^ 2,
    F.cos (F.var "t") ^ 2 * F.sinh (F.var "chi") ^ 2 * F.sin (F.var "theta") ^ 2] i ≠ 0 := by
    intro i
    fin_cases i
    · exact neg_ne_zero.2 one_ne_zero
    · exact pow_ne_zero 2 T0
    · exact mul_ne_zero (pow_ne_zero 2 T0) (pow_ne_zero 2 S0)
    · exact mul_ne_zero (mul_ne_zero (pow_ne_zero 2 T0) (pow_ne_zero 2 S0)) (pow_ne_zero 2 s0)
  refine (ricciIs_of hR rfl (diag_unit hh) (Matrix.diagonal_transpose _)).congr fun i j => ?_
  refine ricci_ads (T' := F.sin (F.var "t")) (C := F.cosh (F.var "chi")) (k := F.cos (F.var "theta"))
    (along_of (t := "t") rfl hn hco htt.dcos) (along_of (t := "t") rfl hn hco htt.dsin)
    (along_of (t := "chi") rfl hn hco hhy.dsinh) (along_of (t := "chi") rfl hn hco hhy.dcosh)
    (along_of (t := "theta") rfl hn hco hth.dsin) (along_of (t := "theta") rfl hn hco hth.dcos) htt.sq hhy.sq hth.sq T0 S0 s0
    hh i j

/-! ## de Sitter -/

/-- exp(x): its derivatives, and it does not vanish. -/
structure ExpAt (D : String → Derivation ℚ K K) (F : Fns K) (cs : List String) (x : K) : Prop where
  ne : F.exp x ≠ 0
  d : ∀ s ∈ cs, D s (F.exp x) = F.exp x * D s x

/-- The coordinates of the Cartesian predefined metrics. -/
abbrev cart : List String := ["t", "x", "y", "z"]

theorem cart_nodup : cart.Nodup := by decide

theorem ricci_desitter {d : Fin 4 → Derivation ℚ K K} {E al : K} (n : Fin 4) (hE : Along d n E (2 / al * E)) (E0 : E ≠ 0)
    (hal : ∀ j, d j al = 0) (al0 : al ≠ 0) (hn : n = 0 ∨ n = 1) (i j : Fin 4) :
    Geo.ricci d (Matrix.diagonal ![-1, E, E, E]) i j =
      Matrix.diagonal (if n = 0 then ![-3 / al ^ 2, 3 / al ^ 2 * E, 3 / al ^ 2 * E, 3 / al ^ 2 * E]
        else ![0, 0, -1 / al ^ 2, -1 / al ^ 2]) i j := by
  have : CharZero K := algebraRat.charZero K
  have hh : ∀ i, ![-1, E, E, E] i ≠ 0 := by
    intro i
    fin_cases i
    · exact neg_ne_zero.2 one_ne_zero
    · exact E0
    · exact E0
    · exact E0
  have P : ∀ i j, Geo.pF d ![-1, E, E, E] i j = if i = n ∧ j ≠ 0 then 1 / al else 0 := by
    intro i j
    have hE2 : d i E / (2 * E) = if i = n then 1 / al else 0 := by
      rw [hE i]
      by_cases h : i = n
      · rw [if_pos h, if_pos h]; field_simp
      · rw [if_neg h, if_neg h, zero_div]
    unfold Geo.pF
    fin_cases j
    · show d i (-1) / (2 * (-1)) = _
      rw [map_neg, Derivation.map_one_eq_zero]
      simp
    · show d i E / (2 * E) = _
      rw [hE2]; simp
    · show d i E / (2 * E) = _
      rw [hE2]; simp
    · show d i E / (2 * E) = _
      rw [hE2]; simp
  have q : ∀ i (p : Prop) [Decidable p], d i (if p then 1 / al else 0) = 0 := by
    intro i p _
    by_cases hp : p
    · rw [if_pos hp, Derivation.leibniz_div, hal, Derivation.map_one_eq_zero]; simp
    · rw [if_neg hp, map_zero]
  by_cases hij : i = j
  · subst hij
    rw [Geo.ricci_diag_on d hh, Matrix.diagonal_apply_eq]
    simp only [P, q, Fin.sum_univ_four]
    rcases hn with h | h <;> subst h <;> fin_cases i <;> simp <;> field_simp <;> ring1
  · rw [Geo.ricci_diag_off d hh _ _ hij, Matrix.diagonal_apply_ne _ hij]
    simp only [P, q, Fin.sum_univ_four]
    rcases hn with h | h <;> subst h <;> fin_cases i <;> fin_cases j <;>
    first
    | exact absurd rfl hij
    | (simp; done)
    | (simp; field_simp; done)
    | (simp; field_simp; ring1)

theorem along_exp {a b c d : String} {i : Fin 4} {t : String} {al : K} (ht : t = ![a, b, c, d] i)
    (hn : List.Nodup [a, b, c, d]) (hco : IsCoords D F [a, b, c, d]) (hal : IsConst D [a, b, c, d] al) (al0 : al ≠ 0)
    (hE : ExpAt D F [a, b, c, d] (2 * F.var t / al)) :
    Along (coordD D [a, b, c, d] 4) i (F.exp (2 * F.var t / al)) (2 / al * F.exp (2 * F.var t / al)) := by
  refine along_of ht hn hco fun s hs => ?_
  have h2 : D s (2:K) = 0 := by
    have := Derivation.map_natCast (D s) 2
    rwa [Nat.cast_ofNat] at this
  rw [hE.d s hs, Derivation.leibniz_div, Derivation.leibniz, h2, hal s hs]
  simp only [smul_eq_mul]
  field_simp
  simp
  ring

/-- C64 (de Sitter): the Ricci tensor of the metric that `DeSitter()` returns is diag(0, 0, −1/α², −1/α²). -/
theorem C64_deSitter_ricci (hco : IsCoords D F cart) (hal : IsConst D cart (F.var "alpha")) (al0 : F.var "alpha" ≠ 0)
    (hE : ExpAt D F cart (2 * F.var "x" / F.var "alpha")) :
    RicciIs D (deSitter F) (Matrix.diagonal ![0, 0, -1 / F.var "alpha" ^ 2, -1 / F.var "alpha" ^ 2]) := by
  have hR := returns_diag (-1) (F.exp (2 * F.var "x" / F.var "alpha")) (F.exp (2 * F.var "x" / F.var "alpha"))
    (F.exp (2 * F.var "x" / F.var "alpha")) cart "DeSitterMetric" rfl
  have h1 := along_exp (i := 1) (t := "x") rfl cart_nodup hco hal al0 hE
  refine (ricciIs_of hR rfl (diag_unit ?_) (Matrix.diagonal_transpose _)).congr fun i j => ?_
  · intro i
    fin_cases i
    · exact neg_ne_zero.2 one_ne_zero
    · exact hE.ne
    · exact hE.ne
    · exact hE.ne
  · rw [ricci_desitter 1 h1 hE.ne (const_coordD rfl hal) al0 (Or.inr rfl)]
    rfl

/-- C64 is false of `DeSitter()`: its Ricci tensor is no multiple of the metric.  The variable called t in the code is x. -/
theorem C64_refuted (hco : IsCoords D F cart) (hal : IsConst D cart (F.var "alpha")) (al0 : F.var "alpha" ≠ 0)
    (hE : ExpAt D F cart (2 * F.var "x" / F.var "alpha")) :
    ¬ ∃ (lam : K) (g : Matrix (Fin 4) (Fin 4) K), Returns (deSitter F) cart g ∧
      RicciIs D (deSitter F) fun i j => lam * g i j := by
  rintro ⟨lam, g, hg, hr⟩
  have hR := returns_diag (-1) (F.exp (2 * F.var "x" / F.var "alpha")) (F.exp (2 * F.var "x" / F.var "alpha"))
    (F.exp (2 * F.var "x" / F.var "alpha")) cart "DeSitterMetric" rfl
  have hgg := (hg.inj hR).2
  subst hgg
  have h := (C64_deSitter_ricci hco hal al0 hE).inj hr
  have h0 : (0:K) = lam * -1 := h 0 0
  have h2 : -1 / F.var "alpha" ^ 2 = lam * F.exp (2 * F.var "x" / F.var "alpha") := h 2 2
  have : lam = 0 := by linear_combination h0
  rw [this, zero_mul] at h2
  exact div_ne_zero (neg_ne_zero.2 one_ne_zero) (pow_ne_zero 2 al0) h2

/-- What was meant: with `t = coords[0]` the metric would be an Einstein space, Ricci = (3/α²) g. -/
theorem C64_deSitter_intended_partial (hco : IsCoords D F cart) (hal : IsConst D cart (F.var "alpha")) (al0 : F.var "alpha" ≠ 0)
    (hE : ExpAt D F cart (2 * F.var "t" / F.var "alpha")) :
    RicciIs D (metricTensor (diag [-1, F.exp (2 * F.var "t" / F.var "alpha"), F.exp (2 * F.var "t" / F.var "alpha"),
      F.exp (2 * F.var "t" / F.var "alpha")]) cart "DeSitterMetric") fun i j => 3 / F.var "alpha" ^ 2 *
        Matrix.diagonal ![-1, F.exp (2 * F.var "t" / F.var "alpha"), F.exp (2 * F.var "t" / F.var "alpha"),
          F.exp (2 * F.var "t" / F.var "alpha")] i j := by
  have hR := returns_diag (-1) (F.exp (2 * F.var "t" / F.var "alpha")) (F.exp (2 * F.var "t" / F.var "alpha"))
    (F.exp (2 * F.var "t" / F.var "alpha")) cart "DeSitterMetric" rfl
  have h1 := along_exp (i := 0) (t := "t") rfl cart_nodup hco hal al0 hE
  refine (ricciIs_of hR rfl (diag_unit ?_) (Matrix.diagonal_transpose _)).congr fun i j => ?_
  · intro i
    fin_cases i
    · exact neg_ne_zero.2 one_ne_zero
    · exact hE.ne
    · exact hE.ne
    · exact hE.ne
  · rw [ricci_desitter 0 h1 hE.ne (const_coordD rfl hal) al0 (Or.inl rfl), if_pos rfl, Matrix.diagonal_apply,
      Matrix.diagonal_apply]
    by_cases hij : i = j
    · rw [if_pos hij, if_pos hij]
      fin_cases i
      · show -3 / F.var "alpha" ^ 2 = 3 / F.var "alpha" ^ 2 * -1
        ring
      · rfl
      · rfl
      · rfl
    · rw [if_neg hij, if_neg hij, mul_zero]

end
end Einpy.Predef
