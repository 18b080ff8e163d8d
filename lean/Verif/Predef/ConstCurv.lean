import Verif.Curv.Space
import Verif.Predef.Instance

/-!
# C118: the anti-de Sitter metrics (and the intended de Sitter metric) have constant curvature
-/

set_option linter.unusedSectionVars false
set_option linter.unusedSimpArgs false

namespace Einpy.Geo
variable {K : Type*} [Field K] [Algebra ℚ K]
variable (d : Fin 4 → Derivation ℚ K K) {h : Fin 4 → K}

/-- the curvature of a diagonal metric in the planes through one direction -/
theorem riemann_diag_off (hh : ∀ i, h i ≠ 0) (a b c : Fin 4) (hab : a ≠ b) (hac : a ≠ c) (hbc : b ≠ c) :
    riemann d (Matrix.diagonal h) a b a c =
      pF d h c b * pF d h b a + pF d h b c * pF d h c a - pF d h b a * pF d h c a - d c (pF d h b a) := by
  have h0 := hh 0
  have h1 := hh 1
  have h2 := hh 2
  have h3 := hh 3
  unfold riemann
  simp only [christoffel_diag d hh]
  fin_cases a <;> fin_cases b <;>
  first
  | exact absurd rfl hab
  | (fin_cases c <;>
     first
     | exact absurd rfl hac
     | exact absurd rfl hbc
     | (simp [Fin.sum_univ_four]; ring1))

/-- its sectional curvatures -/
theorem riemann_diag_on (hh : ∀ i, h i ≠ 0) (a b : Fin 4) (hab : a ≠ b) :
    riemann d (Matrix.diagonal h) a b a b =
      pF d h b b * pF d h b a - pF d h b a ^ 2 - d b (pF d h b a)
        - h b / h a * (d a (pF d h a b) + pF d h a b ^ 2 - pF d h a b * pF d h a a)
        - ∑ l, (if l = a ∨ l = b then 0 else h b / h l * pF d h l b * pF d h l a) := by
  have h0 := hh 0
  have h1 := hh 1
  have h2 := hh 2
  have h3 := hh 3
  unfold riemann
  simp only [christoffel_diag d hh]
  simp only [map_add, map_sub]
  fin_cases a <;> fin_cases b <;>
  first
  | exact absurd rfl hab
  | (simp [Fin.sum_univ_four, d_q d hh]
     field_simp
     ring1)

/-- four different indices -/
theorem riemann_diag_zero (hh : ∀ i, h i ≠ 0) (a b c e : Fin 4) (h1 : a ≠ b) (h2 : a ≠ c) (h3 : a ≠ e) (h4 : b ≠ c)
    (h5 : b ≠ e) (h6 : c ≠ e) : riemann d (Matrix.diagonal h) a b c e = 0 := by
  unfold riemann
  simp only [christoffel_diag d hh]
  simp only [if_neg h1, if_neg h2, if_neg h3, if_neg h4, if_neg h5]
  simp only [zero_add, sub_zero, map_zero]
  refine Finset.sum_eq_zero fun p _ => ?_
  by_cases pb : p = b
  · subst pb
    simp [h1, h2, h3, h4, h5, h6]
  by_cases pc : p = c
  · subst pc
    simp [h1, h2, h3, h4, h5, h6, pb]
  by_cases pe : p = e
  · subst pe
    simp [h1, h2, h3, h4, h5, h6, pb, pc, Ne.symm h6]
  by_cases pa : p = a
  · subst pa
    simp [h1, h2, h3, h4, h5, h6]
  · simp [h1, h2, h3, h4, h5, h6, pa, pb, pc, pe, Ne.symm pa]

/-- A diagonal metric has constant curvature `κ` when its curvature in the coordinate planes is `κ`. -/
theorem const_of_diag (hd : ∀ i j x, d i (d j x) = d j (d i x)) (hh : ∀ i, h i ≠ 0) (κ : K)
    (ho : ∀ a b c, a ≠ b → a ≠ c → b ≠ c → pF d h c b * pF d h b a + pF d h b c * pF d h c a - pF d h b a * pF d h c a
      - d c (pF d h b a) = 0)
    (hs : ∀ a b, a ≠ b → pF d h b b * pF d h b a - pF d h b a ^ 2 - d b (pF d h b a)
        - h b / h a * (d a (pF d h a b) + pF d h a b ^ 2 - pF d h a b * pF d h a a)
        - ∑ l, (if l = a ∨ l = b then 0 else h b / h l * pF d h l b * pF d h l a) = κ * h b) (i k l q : Fin 4) :
    riemannLow d (Matrix.diagonal h) i k l q = κ * (Matrix.diagonal h i l * Matrix.diagonal h k q
      - Matrix.diagonal h i q * Matrix.diagonal h k l) := by
  have hsy : (Matrix.diagonal h).transpose = Matrix.diagonal h := Matrix.diagonal_transpose _
  have hu : IsUnit (Matrix.diagonal h).det := by
    rw [Matrix.det_diagonal, isUnit_iff_ne_zero]
    exact Finset.prod_ne_zero_iff.2 fun i _ => hh i
  have x := riemannLow_antisymm12 d (Matrix.diagonal h) hd hsy hu
  have y := riemannLow_antisymm34 d (Matrix.diagonal h)
  have low : ∀ a s r n, riemannLow d (Matrix.diagonal h) a s r n = h a * riemann d (Matrix.diagonal h) a s r n := by
    intro a s r n
    rw [riemannLow, Finset.sum_eq_single a]
    · rw [Matrix.diagonal_apply_eq]
    · intro t _ ht; rw [Matrix.diagonal_apply_ne _ (Ne.symm ht), zero_mul]
    · intro hn; exact absurd (Finset.mem_univ a) hn
  have base : ∀ a b c, a ≠ b → a ≠ c → riemannLow d (Matrix.diagonal h) a b a c = κ * (h a * Matrix.diagonal h b c) := by
    intro a b c hab hac
    by_cases hbc : b = c
    · subst hbc
      rw [low, riemann_diag_on d hh a b hab, hs a b hab, Matrix.diagonal_apply_eq]; ring
    · rw [low, riemann_diag_off d hh a b c hab hac hbc, ho a b c hab hac hbc, Matrix.diagonal_apply_ne _ hbc]; ring
  have : CharZero K := algebraRat.charZero K
  by_cases e1 : i = k
  · subst e1
    rw [self_eq_neg.mp (x i i l q)]; ring
  by_cases e2 : l = q
  · subst e2
    rw [self_eq_neg.mp (y i k l l)]; ring
  by_cases e3 : i = l
  · subst e3
    rw [base i k q e1 e2, Matrix.diagonal_apply_eq, Matrix.diagonal_apply_ne _ e2]; ring
  by_cases e4 : i = q
  · subst e4
    rw [y, base i k l e1 e3, Matrix.diagonal_apply_eq, Matrix.diagonal_apply_ne _ e3]; ring
  by_cases e5 : k = l
  · subst e5
    rw [x, base k i q (Ne.symm e1) e2, Matrix.diagonal_apply_eq, Matrix.diagonal_apply_ne _ e3]; ring
  by_cases e6 : k = q
  · subst e6
    rw [x, y, base k i l (Ne.symm e1) e5, Matrix.diagonal_apply_eq, Matrix.diagonal_apply_ne _ e4]; ring
  · rw [low, riemann_diag_zero d hh i k l q e1 e3 e4 e5 e6 e2, Matrix.diagonal_apply_ne _ e3, Matrix.diagonal_apply_ne _ e4]
    ring
end Einpy.Geo

namespace Einpy.Predef
open Geo (Along)

section
variable {K : Type} [Field K] [Algebra ℚ K] {D : String → Derivation ℚ K K} {F : Fns K}

variable (D) in
/-- The predefined function `p` returns a metric with components `g`, the lowered Riemann tensor the library computes for it is
`κ (g_il g_kq − g_iq g_kl)`, and the Weyl tensor it computes is zero. -/
def ConstCurvature (p : Py (MetricV K)) (κ : K) : Prop :=
  ∃ m rm rl w, p = .ok m ∧ riemannFromMetric D m = .ok rm ∧ rm.changeConfig ['l', 'l', 'l', 'l'] none = .ok rl ∧
    weylFromMetric D m = .ok w ∧ rl.arr.shape = [4, 4, 4, 4] ∧ (∀ g, Returns p m.syms g → ∀ i k l q : Fin 4,
      rl.arr.get [(i : Nat), k, l, q] = κ * (g i l * g k q - g i q * g k l)) ∧
    ∀ i k l q : Fin 4, w.arr.get [(i : Nat), k, l, q] = 0

theorem constCurvature_of {p : Py (MetricV K)} {cs : List String} {h : Fin 4 → K} (hp : Returns p cs (Matrix.diagonal h))
    (hcs : cs.length = 4) (hh : ∀ i, h i ≠ 0) (hd : Commuting D cs 4) (κ : K)
    (hR : ∀ i k l q, Geo.riemannLow (coordD D cs 4) (Matrix.diagonal h) i k l q = κ * (Matrix.diagonal h i l * Matrix.diagonal h k q
      - Matrix.diagonal h i q * Matrix.diagonal h k l)) : ConstCurvature D p κ := by
  obtain ⟨m, e, hm, hsy⟩ := space_of hp hcs (diag_unit hh) (Matrix.diagonal_transpose _)
  subst hsy
  obtain ⟨rm, e1, rl, e2, rc, -, s, -, G, -, P, -, w, e3, hc, -⟩ := C118_constant_curvature D m _ hm hd (by norm_num)
  obtain ⟨b, e', hb, hb'⟩ := riemann_ok D m _ hm
  obtain ⟨u, eu, -, -, hus, hu⟩ := riemann_low_ok D _ m.syms _
    (reps_riemann D hm.syms (some m) (nm := some "RiemannCurvatureTensor") hb hb') none m rfl hm.reps
  have hu := (comp_four _ _).mp hu
  rw [e'] at e1
  cases e1
  rw [eu] at e2
  cases e2
  have key : ∀ i k l q : Fin 4, rl.arr.get [(i : Nat), k, l, q] = κ * (Matrix.diagonal h i l * Matrix.diagonal h k q
      - Matrix.diagonal h i q * Matrix.diagonal h k l) := fun i k l q => by rw [hu]; exact hR i k l q
  refine ⟨m, _, rl, w, e, e', eu, e3, hus, fun g hg => ?_, (hc κ key).2.2.2.2.1⟩
  rw [(hg.inj hp).2]
  exact key

/-- comoving anti-de Sitter: the curvature formula -/
theorem riemann_ads {d : Fin 4 → Derivation ℚ K K} {T T' S C s k : K} (hd : ∀ i j x, d i (d j x) = d j (d i x))
    (hT : Along d 0 T (-T')) (hT' : Along d 0 T' T)
    (hS : Along d 1 S C) (hC : Along d 1 C S) (hs : Along d 2 s k) (hk : Along d 2 k (-s)) (hTT : T' ^ 2 + T ^ 2 = 1)
    (hSC : C ^ 2 = 1 + S ^ 2) (hsq : s ^ 2 + k ^ 2 = 1) (T0 : T ≠ 0) (S0 : S ≠ 0) (s0 : s ≠ 0)
    (hh : ∀ i, ![-1, T ^ 2, T ^ 2 * S ^ 2, T ^ 2 * S ^ 2 * s ^ 2] i ≠ 0) (i j l q : Fin 4) :
    Geo.riemannLow d (Matrix.diagonal ![-1, T ^ 2, T ^ 2 * S ^ 2, T ^ 2 * S ^ 2 * s ^ 2]) i j l q =
      -1 * (Matrix.diagonal ![-1, T ^ 2, T ^ 2 * S ^ 2, T ^ 2 * S ^ 2 * s ^ 2] i l
          * Matrix.diagonal ![-1, T ^ 2, T ^ 2 * S ^ 2, T ^ 2 * S ^ 2 * s ^ 2] j q
        - Matrix.diagonal ![-1, T ^ 2, T ^ 2 * S ^ 2, T ^ 2 * S ^ 2 * s ^ 2] i q
          * Matrix.diagonal ![-1, T ^ 2, T ^ 2 * S ^ 2, T ^ 2 * S ^ 2 * s ^ 2] j l) := by
  have : CharZero K := algebraRat.charZero K
  have P : ∀ i j, Geo.pF d ![-1, T ^ 2, T ^ 2 * S ^ 2, T ^ 2 * S ^ 2 * s ^ 2] i j =
      ![![0, -T' / T, -T' / T, -T' / T], ![0, 0, C / S, C / S], ![0, 0, 0, k / s], ![0, 0, 0, 0]] i j := by
    intro i j
    unfold Geo.pF
    fin_cases j
    · show d i (-1) / (2 * (-1)) = _
      rw [map_neg, Derivation.map_one_eq_zero]
      fin_cases i <;> simp
    · show d i (T ^ 2) / (2 * T ^ 2) = _
      rw [Derivation.leibniz_pow, hT i]
      fin_cases i <;> simp <;> field_simp
    · show d i (T ^ 2 * S ^ 2) / (2 * (T ^ 2 * S ^ 2)) = _
      rw [Derivation.leibniz, Derivation.leibniz_pow, Derivation.leibniz_pow, hT i, hS i]
      fin_cases i <;> simp <;> field_simp
    · show d i (T ^ 2 * S ^ 2 * s ^ 2) / (2 * (T ^ 2 * S ^ 2 * s ^ 2)) = _
      rw [Derivation.leibniz, Derivation.leibniz, Derivation.leibniz_pow, Derivation.leibniz_pow, Derivation.leibniz_pow,
        hT i, hS i, hs i]
      fin_cases i <;> simp <;> field_simp
  have q0 : Along d 0 (-T' / T) (-1 / T ^ 2) := by
    convert Geo.along_div (Geo.along_neg hT') hT T0 using 1
    rw [← hTT]; ring
  have q1 : Along d 1 (C / S) (-1 / S ^ 2) := by
    convert Geo.along_div hC hS S0 using 1
    rw [show C * C = 1 + S ^ 2 by rw [← hSC]; ring]; ring
  have q2 : Along d 2 (k / s) (-1 / s ^ 2) := by
    convert Geo.along_div hk hs s0 using 1
    rw [← hsq]; ring
  refine Geo.const_of_diag _ hd hh _ ?_ ?_ i j l q
  · intro a b c hab hac hbc
    simp only [P]
    fin_cases a <;> fin_cases b <;>
    first
    | exact absurd rfl hab
    | (fin_cases c <;>
       first
       | exact absurd rfl hac
       | exact absurd rfl hbc
       | (simp [q0 _, q1 _, q2 _]; done)
       | (simp [q0 _, q1 _, q2 _]; field_simp; ring))
  · intro a b hab
    simp only [P, Fin.sum_univ_four]
    fin_cases a <;> fin_cases b <;>
    first
    | exact absurd rfl hab
    | (simp [q0 _, q1 _, q2 _]
       field_simp
       first
       | ring1
       | linear_combination hTT
       | linear_combination (-1 : K) * hTT
       | linear_combination S ^ 2 * hTT
       | linear_combination (S ^ 2 + 1) * hTT - hSC
       | linear_combination S ^ 2 * hTT - hSC
       | linear_combination S ^ 2 * s ^ 2 * hTT - s ^ 2 * hSC
       | linear_combination (s ^ 2 * S ^ 2 + 1) * hTT - s ^ 2 * hSC - hsq
       | linear_combination S ^ 2 * s ^ 2 * hTT - s ^ 2 * hSC - hsq)

/-- **C118** (comoving anti-de Sitter).  `AntiDeSitter()` has constant curvature −1 and is conformally flat. -/
theorem C118_antiDeSitter (hco : IsCoords D F chiSph) (hth : Trig D F chiSph "theta") (htt : Trig D F chiSph "t")
    (hhy : Hyp D F chiSph "chi") (hd : Commuting D chiSph 4) : ConstCurvature D (antiDeSitter F) (-1) := by
  have hn : chiSph.Nodup := by decide
  have T0 := cos_ne hco (t := "t") (by decide) htt
  have S0 := sinh_ne hco (t := "chi") (by decide) hhy
  have s0 := sin_ne hco (t := "theta") (by decide) hth
  have hh : ∀ i, ![-1, F.cos (F.var "t") ^ 2, F.cos (F.var "t") ^ 2 * F.sinh (F.var "chi") ^ 2,
    F.cos (F.var "t") ^ 2 * F.sinh (F.var "chi") ^ 2 * F.sin (F.var "theta") ^ 2] i ≠ 0 := by
    intro i
    fin_cases i
    · exact neg_ne_zero.2 one_ne_zero
    · exact pow_ne_zero 2 T0
    · exact mul_ne_zero (pow_ne_zero 2 T0) (pow_ne_zero 2 S0)
    · exact mul_ne_zero (mul_ne_zero (pow_ne_zero 2 T0) (pow_ne_zero 2 S0)) (pow_ne_zero 2 s0)
  refine constCurvature_of (returns_diag _ _ _ _ chiSph "AntiDeSitterMetric" rfl) rfl hh hd _ ?_
  exact riemann_ads (T' := F.sin (F.var "t")) (C := F.cosh (F.var "chi")) (k := F.cos (F.var "theta")) hd
    (along_of (t := "t") rfl hn hco htt.dcos) (along_of (t := "t") rfl hn hco htt.dsin)
    (along_of (t := "chi") rfl hn hco hhy.dsinh) (along_of (t := "chi") rfl hn hco hhy.dcosh)
    (along_of (t := "theta") rfl hn hco hth.dsin) (along_of (t := "theta") rfl hn hco hth.dcos) htt.sq hhy.sq hth.sq T0 S0 s0 hh

/-- static anti-de Sitter: the curvature formula -/
theorem riemann_ads_static {d : Fin 4 → Derivation ℚ K K} {S C s k : K} (hd : ∀ i j x, d i (d j x) = d j (d i x))
    (hS : Along d 1 S C) (hC : Along d 1 C S) (hs : Along d 2 s k) (hk : Along d 2 k (-s))
    (hSC : C ^ 2 = 1 + S ^ 2) (hsq : s ^ 2 + k ^ 2 = 1) (C0 : C ≠ 0) (S0 : S ≠ 0) (s0 : s ≠ 0)
    (hh : ∀ i, ![-C ^ 2, 1, S ^ 2, S ^ 2 * s ^ 2] i ≠ 0) (i j l q : Fin 4) :
    Geo.riemannLow d (Matrix.diagonal ![-C ^ 2, 1, S ^ 2, S ^ 2 * s ^ 2]) i j l q =
      -1 * (Matrix.diagonal ![-C ^ 2, 1, S ^ 2, S ^ 2 * s ^ 2] i l * Matrix.diagonal ![-C ^ 2, 1, S ^ 2, S ^ 2 * s ^ 2] j q
        - Matrix.diagonal ![-C ^ 2, 1, S ^ 2, S ^ 2 * s ^ 2] i q * Matrix.diagonal ![-C ^ 2, 1, S ^ 2, S ^ 2 * s ^ 2] j l) := by
  have : CharZero K := algebraRat.charZero K
  have P : ∀ i j, Geo.pF d ![-C ^ 2, 1, S ^ 2, S ^ 2 * s ^ 2] i j =
      ![![0, 0, 0, 0], ![S / C, 0, C / S, C / S], ![0, 0, 0, k / s], ![0, 0, 0, 0]] i j := by
    intro i j
    unfold Geo.pF
    fin_cases j
    · show d i (-C ^ 2) / (2 * (-C ^ 2)) = _
      rw [map_neg, Derivation.leibniz_pow, hC i]
      fin_cases i <;> simp <;> field_simp
    · show d i 1 / (2 * 1) = _
      rw [Derivation.map_one_eq_zero]
      fin_cases i <;> simp
    · show d i (S ^ 2) / (2 * S ^ 2) = _
      rw [Derivation.leibniz_pow, hS i]
      fin_cases i <;> simp <;> field_simp
    · show d i (S ^ 2 * s ^ 2) / (2 * (S ^ 2 * s ^ 2)) = _
      rw [Derivation.leibniz, Derivation.leibniz_pow, Derivation.leibniz_pow, hS i, hs i]
      fin_cases i <;> simp <;> field_simp
  have q0 : Along d 1 (S / C) (1 / C ^ 2) := by
    convert Geo.along_div hS hC C0 using 1
    rw [show C * C = 1 + S ^ 2 by rw [← hSC]; ring]; ring
  have q1 : Along d 1 (C / S) (-1 / S ^ 2) := by
    convert Geo.along_div hC hS S0 using 1
    rw [show C * C = 1 + S ^ 2 by rw [← hSC]; ring]; ring
  have q2 : Along d 2 (k / s) (-1 / s ^ 2) := by
    convert Geo.along_div hk hs s0 using 1
    rw [← hsq]; ring
  refine Geo.const_of_diag _ hd hh _ ?_ ?_ i j l q
  · intro a b c hab hac hbc
    simp only [P]
    fin_cases a <;> fin_cases b <;>
    first
    | exact absurd rfl hab
    | (fin_cases c <;>
       first
       | exact absurd rfl hac
       | exact absurd rfl hbc
       | (simp [q0 _, q1 _, q2 _]; done)
       | (simp [q0 _, q1 _, q2 _]; field_simp; ring))
  · intro a b hab
    simp only [P, Fin.sum_univ_four]
    fin_cases a <;> fin_cases b <;>
    first
    | exact absurd rfl hab
    | (simp [q0 _, q1 _, q2 _]
       field_simp
       done)
    | (simp [q0 _, q1 _, q2 _]
       field_simp
       first
       | ring1
       | linear_combination hSC
       | linear_combination (-1 : K) * hSC
       | linear_combination S ^ 2 * hSC
       | linear_combination (-s ^ 2) * hSC - hsq)

/-- **C118** (static anti-de Sitter).  `AntiDeSitterStatic()` has constant curvature −1 and is conformally flat. -/
theorem C118_antiDeSitterStatic (hco : IsCoords D F sph) (hth : Trig D F sph "theta") (hhy : Hyp D F sph "r")
    (hd : Commuting D sph 4) : ConstCurvature D (antiDeSitterStatic F) (-1) := by
  have C0 := cosh_ne hco (t := "r") (by decide) hhy
  have S0 := sinh_ne hco (t := "r") (by decide) hhy
  have s0 := sin_ne hco (t := "theta") (by decide) hth
  have hh : ∀ i, ![-F.cosh (F.var "r") ^ 2, 1, F.sinh (F.var "r") ^ 2, F.sinh (F.var "r") ^ 2 * F.sin (F.var "theta") ^ 2] i ≠ 0 := by
    intro i
    fin_cases i
    · exact neg_ne_zero.2 (pow_ne_zero 2 C0)
    · exact one_ne_zero
    · exact pow_ne_zero 2 S0
    · exact mul_ne_zero (pow_ne_zero 2 S0) (pow_ne_zero 2 s0)
  refine constCurvature_of (returns_diag _ _ _ _ sph "AntiDeSitterStaticMetric" rfl) rfl hh hd _ ?_
  exact riemann_ads_static (k := F.cos (F.var "theta")) hd
    (along_of (t := "r") rfl sph_nodup hco hhy.dsinh) (along_of (t := "r") rfl sph_nodup hco hhy.dcosh)
    (along_of (t := "theta") rfl sph_nodup hco hth.dsin) (along_of (t := "theta") rfl sph_nodup hco hth.dcos) hhy.sq hth.sq C0 S0 s0 hh

/-- **C118** (de Sitter as intended).  With t in the exponent the metric has constant curvature 1/α².  Missing: the code has x. -/
theorem C118_deSitter_intended_partial (hco : IsCoords D F cart) (hal : IsConst D cart (F.var "alpha")) (al0 : F.var "alpha" ≠ 0)
    (hE : ExpAt D F cart (2 * F.var "t" / F.var "alpha")) (hd : Commuting D cart 4) :
    ConstCurvature D (metricTensor (diag [-1, F.exp (2 * F.var "t" / F.var "alpha"), F.exp (2 * F.var "t" / F.var "alpha"),
      F.exp (2 * F.var "t" / F.var "alpha")]) cart "DeSitterMetric") (1 / F.var "alpha" ^ 2) := by
  have : CharZero K := algebraRat.charZero K
  have hA := along_exp (i := 0) (t := "t") rfl cart_nodup hco hal al0 hE
  have E0 := hE.ne
  have hald := const_coordD rfl hal
  have hR := returns_diag (-1) (F.exp (2 * F.var "t" / F.var "alpha")) (F.exp (2 * F.var "t" / F.var "alpha"))
    (F.exp (2 * F.var "t" / F.var "alpha")) cart "DeSitterMetric" rfl
  generalize F.exp (2 * F.var "t" / F.var "alpha") = E at *
  generalize F.var "alpha" = al at *
  have hh : ∀ i, ![-1, E, E, E] i ≠ 0 := by
    intro i
    fin_cases i
    · exact neg_ne_zero.2 one_ne_zero
    · exact E0
    · exact E0
    · exact E0
  refine constCurvature_of hR rfl hh hd _ ?_
  have hd' : ∀ i j x, coordD D cart 4 i (coordD D cart 4 j x) = coordD D cart 4 j (coordD D cart 4 i x) := hd
  generalize coordD D cart 4 = d at *
  have P : ∀ i j, Geo.pF d ![-1, E, E, E] i j = if i = 0 ∧ j ≠ 0 then 1 / al else 0 := by
    intro i j
    have hE2 : d i E / (2 * E) = if i = 0 then 1 / al else 0 := by
      rw [hA i]
      by_cases h : i = 0
      · rw [if_pos h, if_pos h]; field_simp
      · rw [if_neg h, if_neg h, zero_div]
    unfold Geo.pF
    fin_cases j
    · show d i (-1) / (2 * (-1)) = _
      rw [map_neg, Derivation.map_one_eq_zero]
      simp
    · show d i E / (2 * E) = _
      rw [hE2]; simp
    · show d i E / (2 * E) = _
      rw [hE2]; simp
    · show d i E / (2 * E) = _
      rw [hE2]; simp
  have q : ∀ i (p : Prop) [Decidable p], d i (if p then 1 / al else 0) = 0 := by
    intro i p _
    by_cases hp : p
    · rw [if_pos hp, Derivation.leibniz_div, hald, Derivation.map_one_eq_zero]; simp
    · rw [if_neg hp, map_zero]
  refine Geo.const_of_diag _ hd' hh _ ?_ ?_
  · intro a b c hab hac hbc
    simp only [P, q]
    fin_cases a <;> fin_cases b <;>
    first
    | exact absurd rfl hab
    | (fin_cases c <;>
       first
       | exact absurd rfl hac
       | exact absurd rfl hbc
       | (simp; done))
  · intro a b hab
    simp only [P, q, Fin.sum_univ_four]
    fin_cases a <;> fin_cases b <;>
    first
    | exact absurd rfl hab
    | (simp; done)
    | (simp; field_simp; done)

/-- **C118 is false of `DeSitter()`**, whose exponent contains x instead of t: it is no space of constant curvature. -/
theorem C118_refuted_deSitter (hco : IsCoords D F cart) (hal : IsConst D cart (F.var "alpha")) (al0 : F.var "alpha" ≠ 0)
    (hE : ExpAt D F cart (2 * F.var "x" / F.var "alpha")) (hd : Commuting D cart 4) (κ : K) :
    ¬ ConstCurvature D (deSitter F) κ := by
  rintro ⟨m, rm, rl, w, e, e1, e2, -, -, hR, -⟩
  have hE0 := hE.ne
  have hh : ∀ i, ![-1, F.exp (2 * F.var "x" / F.var "alpha"), F.exp (2 * F.var "x" / F.var "alpha"),
      F.exp (2 * F.var "x" / F.var "alpha")] i ≠ 0 := by
    intro i; fin_cases i
    · exact neg_ne_zero.2 one_ne_zero
    · exact hE0
    · exact hE0
    · exact hE0
  have hp : Returns (deSitter F) cart _ := returns_diag _ _ _ _ cart "DeSitterMetric" rfl
  obtain ⟨m', e', hm, hsy⟩ := space_of hp rfl (diag_unit hh) (Matrix.diagonal_transpose _)
  rw [e] at e'
  cases e'
  rw [← hsy] at hd hp
  obtain ⟨_, f1, _, f2, rc, f3, _, -, _, -, _, -, _, -, hc, -⟩ := C118_constant_curvature D m _ hm hd (by norm_num)
  rw [e1] at f1; cases f1
  rw [e2] at f2; cases f2
  have h4 := (hc κ (hR _ hp)).1
  refine C64_refuted hco hal al0 hE ⟨((4 : ℚ) - 1) • κ, _, hsy ▸ hp, m, rc, e, f3, ?_⟩
  obtain ⟨a, f4, ha, -⟩ := ricci_ok D m _ hm
  rw [f3] at f4
  cases f4
  refine ⟨rfl, ha, fun i j => ?_⟩
  rw [h4 i j]
  exact (smul_mul_assoc _ _ _).symm

end

/-! ## Concrete cases -/

noncomputable section

/-- a derivation that kills the constants and the generators is zero -/
theorem deriv_zero (E : Derivation ℚ Rat0 Rat0) (h0 : ∀ x : ℝ, E (algebraMap ℝ Rat0 x) = 0) (h1 : ∀ s, E (gen s) = 0)
    (x : Rat0) : E x = 0 := by
  have hp : ∀ p : Poly, E (algebraMap Poly Rat0 p) = 0 := by
    intro p
    induction p using MvPolynomial.induction_on with
    | C a => exact h0 a
    | add p q hp hq => rw [map_add, map_add, hp, hq, add_zero]
    | mul_X p s hp => rw [map_mul, Derivation.leibniz, hp, smul_zero, show algebraMap Poly Rat0 (MvPolynomial.X s) = gen s from rfl,
        h1, smul_zero, add_zero]
  obtain ⟨p, q, -, rfl⟩ := IsFractionRing.div_surjective (A := Poly) x
  rw [Derivation.leibniz_div, hp, hp]
  simp

/-- the generators on which the derivative by `s` does not vanish -/
def uses (s : String) : List String := [s, "ta:" ++ s, "th:" ++ s, "ex:" ++ s]

theorem exD_other (s g : String) (h : g ∉ uses s) : exD s (gen g) = 0 := by
  simp only [uses, List.mem_cons, List.not_mem_nil, not_or, or_false] at h
  rw [exD_var s g h.2.1 h.2.2.1 h.2.2.2, if_neg (Ne.symm h.1)]

theorem exD_twice (s t : String) (h : ∀ g ∈ uses s, g ∉ uses t) (ha : "alpha" ∉ uses t) (g : String) :
    exD t (exD s (gen g)) = 0 := by
  by_cases hg : g ∈ uses s
  · have h0 := exD_other t g (h g hg)
    have hA := exD_other t "alpha" ha
    have h2 : exD t (2:Rat0) = 0 := by
      have := Derivation.map_natCast (exD t) 2
      rwa [Nat.cast_ofNat] at this
    conv_lhs => arg 2; rw [exD, mkD_gen]
    split_ifs
    · exact Derivation.map_one_eq_zero _
    · rw [Derivation.leibniz_div, map_add, Derivation.leibniz_pow, h0, h2, Derivation.map_one_eq_zero]; simp
    · rw [Derivation.leibniz_div, map_sub, Derivation.leibniz_pow, h0, h2, Derivation.map_one_eq_zero]; simp
    · rw [Derivation.leibniz, Derivation.leibniz_div, h0, h2, hA]; simp
    · exact map_zero _
  · rw [exD_other s g hg, map_zero]

/-- partial derivatives by symbols whose names do not collide commute -/
theorem exD_comm (s t : String) (h : s = t ∨ (∀ g ∈ uses s, g ∉ uses t) ∧ "alpha" ∉ uses s ∧ "alpha" ∉ uses t) (x : Rat0) :
    exD s (exD t x) = exD t (exD s x) := by
  rcases h with rfl | ⟨h1, h2, h3⟩
  · rfl
  have key := deriv_zero ⁅exD s, exD t⁆ ?_ ?_ x
  · rw [Derivation.commutator_apply] at key
    exact sub_eq_zero.mp key
  · intro x
    rw [Derivation.commutator_apply]
    unfold exD
    rw [mkD_real, mkD_real, map_zero, map_zero, sub_zero]
  · intro g
    rw [Derivation.commutator_apply, exD_twice s t h1 h3, exD_twice t s (fun g hg hg' => h1 g hg' hg) h2, sub_zero]

theorem exD_commuting {a b c d : String} (h : ∀ s ∈ [a, b, c, d], ∀ t ∈ [a, b, c, d],
      s = t ∨ (∀ g ∈ uses s, g ∉ uses t) ∧ "alpha" ∉ uses s ∧ "alpha" ∉ uses t) : Commuting exD [a, b, c, d] 4 := by
  intro i j x
  refine exD_comm _ _ (h _ ?_ _ ?_) x
  · fin_cases i <;> simp
  · fin_cases j <;> simp

/-- The hypotheses hold: both anti-de Sitter metrics, and the de Sitter metric as it is coded, in a field of functions. -/
example : ConstCurvature exD (antiDeSitter exF) (-1) ∧ ConstCurvature exD (antiDeSitterStatic exF) (-1) ∧
    ∀ κ, ¬ ConstCurvature exD (deSitter exF) κ :=
  ⟨C118_antiDeSitter (exF_coords chiSph) (exF_theta chiSph) (exF_t chiSph) (exF_chi chiSph) (exD_commuting (by decide)),
    C118_antiDeSitterStatic (exF_coords sph) (exF_theta sph) (exF_r sph) (exD_commuting (by decide)),
    C118_refuted_deSitter (exF_coords cart) (exF_const cart "alpha") (gen_ne "alpha") exF_exp (exD_commuting (by decide))⟩

end
end Einpy.Predef
