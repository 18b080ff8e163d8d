import Verif.Predef.Davidson

/-!
# C101: the C-metric, its Ricci tensor, and when it is a vacuum solution
-/

set_option linter.unusedSectionVars false

namespace Einpy.Predef
open Geo (Along)

section
variable {K : Type} [Field K] [Algebra ℚ K] {D : String → Derivation ℚ K K} {F : Fns K}

/-- The coordinates of `CMetric()`. -/
abbrev cmc : List String := ["t", "x", "y", "phi"]

/-- The components of the C-metric. -/
abbrev cmH (x y f h : K) : Fin 4 → K := ![-h / (x + y) ^ 2, 1 / ((x + y) ^ 2 * f), 1 / ((x + y) ^ 2 * h), f / (x + y) ^ 2]

theorem pF_cm {d : Fin 4 → Derivation ℚ K K} {x y f h f1 h1 : K} (hx : Along d 1 x 1) (hy : Along d 2 y 1)
    (hf : Along d 1 f f1) (hh : Along d 2 h h1) (S0 : x + y ≠ 0) (f0 : f ≠ 0) (h0 : h ≠ 0) (i j : Fin 4) :
    Geo.pF d (cmH x y f h) i j =
      ![![0, 0, 0, 0],
        ![-(1 / (x + y)), -(1 / (x + y)) - f1 / (2 * f), -(1 / (x + y)), -(1 / (x + y)) + f1 / (2 * f)],
        ![-(1 / (x + y)) + h1 / (2 * h), -(1 / (x + y)), -(1 / (x + y)) - h1 / (2 * h), -(1 / (x + y))], ![0, 0, 0, 0]] i j := by
  have : CharZero K := algebraRat.charZero K
  unfold Geo.pF
  fin_cases j
  · show d i (-h / (x + y) ^ 2) / (2 * (-h / (x + y) ^ 2)) = _
    rw [Derivation.leibniz_div, map_neg, Derivation.leibniz_pow, map_add, hx i, hy i, hh i]
    fin_cases i <;> simp [-mul_eq_mul_left_iff, -mul_eq_mul_right_iff] <;> field_simp <;> ring1
  · show d i (1 / ((x + y) ^ 2 * f)) / (2 * (1 / ((x + y) ^ 2 * f))) = _
    rw [Derivation.leibniz_div, Derivation.map_one_eq_zero, Derivation.leibniz, Derivation.leibniz_pow, map_add, hx i, hy i, hf i]
    fin_cases i <;> simp [-mul_eq_mul_left_iff, -mul_eq_mul_right_iff] <;> field_simp <;> ring1
  · show d i (1 / ((x + y) ^ 2 * h)) / (2 * (1 / ((x + y) ^ 2 * h))) = _
    rw [Derivation.leibniz_div, Derivation.map_one_eq_zero, Derivation.leibniz, Derivation.leibniz_pow, map_add, hx i, hy i, hh i]
    fin_cases i <;> simp [-mul_eq_mul_left_iff, -mul_eq_mul_right_iff] <;> field_simp <;> ring1
  · show d i (f / (x + y) ^ 2) / (2 * (f / (x + y) ^ 2)) = _
    rw [Derivation.leibniz_div, Derivation.leibniz_pow, map_add, hx i, hy i, hf i]
    fin_cases i <;> simp [-mul_eq_mul_left_iff, -mul_eq_mul_right_iff] <;> field_simp <;> ring1

/-- The two factors of the Ricci tensor: of the (x, φ) block and of the (t, y) block. -/
theorem ricci_cm {d : Fin 4 → Derivation ℚ K K} {x y f h f1 h1 f2 h2 : K} (hx : Along d 1 x 1) (hy : Along d 2 y 1)
    (hf : Along d 1 f f1) (hh : Along d 2 h h1) (hf1 : Along d 1 f1 f2) (hh1 : Along d 2 h1 h2)
    (S0 : x + y ≠ 0) (f0 : f ≠ 0) (h0 : h ≠ 0) (hne : ∀ i, cmH x y f h i ≠ 0) (i j : Fin 4) :
    Geo.ricci d (Matrix.diagonal (cmH x y f h)) i j =
      (if i = 1 ∨ i = 3 then -((x + y) ^ 2 * f2) / 2 + (x + y) * (2 * f1 + h1) - 3 * (f + h)
        else -((x + y) ^ 2 * h2) / 2 + (x + y) * (f1 + 2 * h1) - 3 * (f + h)) * Matrix.diagonal (cmH x y f h) i j := by
  have : CharZero K := algebraRat.charZero K
  have P := pF_cm hx hy hf hh S0 f0 h0
  have a1 : ∀ i, d i (1 / (x + y)) = if i = 1 ∨ i = 2 then -1 / (x + y) ^ 2 else 0 := by
    intro i
    rw [Derivation.leibniz_div, Derivation.map_one_eq_zero, map_add, hx i, hy i]
    fin_cases i <;> simp [-mul_eq_mul_left_iff, -mul_eq_mul_right_iff] <;> field_simp
  have a2 : ∀ i, d i (f1 / (2 * f)) = if i = 1 then (f2 * f - f1 ^ 2) / (2 * f ^ 2) else 0 := by
    intro i
    rw [Derivation.leibniz_div, Derivation.leibniz, d_two, hf i, hf1 i]
    fin_cases i <;> simp [-mul_eq_mul_left_iff, -mul_eq_mul_right_iff] <;> field_simp
  have a3 : ∀ i, d i (h1 / (2 * h)) = if i = 2 then (h2 * h - h1 ^ 2) / (2 * h ^ 2) else 0 := by
    intro i
    rw [Derivation.leibniz_div, Derivation.leibniz, d_two, hh i, hh1 i]
    fin_cases i <;> simp [-mul_eq_mul_left_iff, -mul_eq_mul_right_iff] <;> field_simp
  by_cases hij : i = j
  · subst hij
    rw [Geo.ricci_diag_on d hne, Matrix.diagonal_apply_eq]
    simp only [P, Fin.sum_univ_four]
    clear P hne
    fin_cases i <;> simp [-mul_eq_mul_left_iff, -mul_eq_mul_right_iff] <;>
      simp only [map_add, map_sub, map_neg, ← one_div, a1, a2, a3] <;>
      simp [-mul_eq_mul_left_iff, -mul_eq_mul_right_iff] <;> field_simp <;> ring1
  · rw [Geo.ricci_diag_off d hne _ _ hij, Matrix.diagonal_apply_ne _ hij, mul_zero]
    simp only [P, Fin.sum_univ_four]
    clear P hne
    fin_cases i <;> fin_cases j <;>
    first
    | exact absurd rfl hij
    | (simp; done)
    | (simp [-mul_eq_mul_left_iff, -mul_eq_mul_right_iff]; simp only [map_add, map_sub, map_neg, ← one_div, a1, a2, a3]
       simp [-mul_eq_mul_left_iff, -mul_eq_mul_right_iff]; done)
    | (simp [-mul_eq_mul_left_iff, -mul_eq_mul_right_iff]; simp only [map_add, map_sub, map_neg, ← one_div, a1, a2, a3]
       simp [-mul_eq_mul_left_iff, -mul_eq_mul_right_iff]; field_simp; ring1)

/-- `Function(name)(t)` of one coordinate `t`, with all its derivatives: `fs n` is the n-th one, a function of `t` alone. -/
structure FnOf (D : String → Derivation ℚ K K) (F : Fns K) (cs : List String) (name t : String) (fs : ℕ → K) : Prop where
  val : F.fn name (F.var t) = fs 0
  d : ∀ n, ∀ s ∈ cs, D s (fs n) = fs (n + 1) * D s (F.var t)
  ne : fs 0 ≠ 0

/-- The two factors of the Ricci tensor. -/
def cmLam (x y : K) (f h : ℕ → K) : K := -((x + y) ^ 2 * f 2) / 2 + (x + y) * (2 * f 1 + h 1) - 3 * (f 0 + h 0)

theorem cm_sum_ne (hco : IsCoords D F cmc) : F.var "x" + F.var "y" ≠ 0 := by
  intro e
  have h1 := hco "x" (by decide) "x" (by decide)
  have h2 := hco "x" (by decide) "y" (by decide)
  have := congrArg (D "x") e
  rw [map_add, map_zero, h1, h2, if_pos rfl, if_neg (by decide), add_zero] at this
  exact one_ne_zero this

theorem cm_facts {f h : ℕ → K} (hco : IsCoords D F cmc) (hf : FnOf D F cmc "f" "x" f) (hh : FnOf D F cmc "h" "y" h) :
    (∀ i, cmH (F.var "x") (F.var "y") (f 0) (h 0) i ≠ 0) ∧
    Returns (cMetric F) cmc (Matrix.diagonal (cmH (F.var "x") (F.var "y") (f 0) (h 0))) ∧
    RicciIs D (cMetric F) fun i j => (if i = 1 ∨ i = 3 then cmLam (F.var "x") (F.var "y") f h else cmLam (F.var "x") (F.var "y") h f) *
      Matrix.diagonal (cmH (F.var "x") (F.var "y") (f 0) (h 0)) i j := by
  have hn : cmc.Nodup := by decide
  have S0 := cm_sum_ne hco
  have hx : Along (coordD D cmc 4) 1 (F.var "x") 1 := along_of (t := "x") rfl hn hco fun s _ => (one_mul _).symm
  have hy : Along (coordD D cmc 4) 2 (F.var "y") 1 := along_of (t := "y") rfl hn hco fun s _ => (one_mul _).symm
  have af : ∀ n, Along (coordD D cmc 4) 1 (f n) (f (n + 1)) := fun n => along_of (t := "x") rfl hn hco (hf.d n)
  have ah : ∀ n, Along (coordD D cmc 4) 2 (h n) (h (n + 1)) := fun n => along_of (t := "y") rfl hn hco (hh.d n)
  have hne : ∀ i, cmH (F.var "x") (F.var "y") (f 0) (h 0) i ≠ 0 := by
    intro i
    have f0 := hf.ne
    have h0 := hh.ne
    fin_cases i
    · exact div_ne_zero (neg_ne_zero.2 h0) (pow_ne_zero 2 S0)
    · exact one_div_ne_zero (mul_ne_zero (pow_ne_zero 2 S0) f0)
    · exact one_div_ne_zero (mul_ne_zero (pow_ne_zero 2 S0) h0)
    · exact div_ne_zero f0 (pow_ne_zero 2 S0)
  have hR : Returns (cMetric F) cmc (Matrix.diagonal (cmH (F.var "x") (F.var "y") (f 0) (h 0))) := by
    have := returns_diag (-F.fn "h" (F.var "y") / (F.var "x" + F.var "y") ^ 2) (1 / ((F.var "x" + F.var "y") ^ 2 * F.fn "f" (F.var "x")))
      (1 / ((F.var "x" + F.var "y") ^ 2 * F.fn "h" (F.var "y"))) (F.fn "f" (F.var "x") / (F.var "x" + F.var "y") ^ 2) cmc "CMetric" rfl
    rw [hf.val, hh.val] at this
    show Returns (metricTensor (diag [-F.fn "h" (F.var "y") / (F.var "x" + F.var "y") ^ 2, 1 / ((F.var "x" + F.var "y") ^ 2 * F.fn "f" (F.var "x")),
      1 / ((F.var "x" + F.var "y") ^ 2 * F.fn "h" (F.var "y")), F.fn "f" (F.var "x") / (F.var "x" + F.var "y") ^ 2]) cmc "CMetric") _ _
    rw [hf.val, hh.val]
    exact this
  refine ⟨hne, hR, (ricciIs_of hR rfl (diag_unit hne) (Matrix.diagonal_transpose _)).congr fun i j => ?_⟩
  rw [ricci_cm hx hy (af 0) (ah 0) (af 1) (ah 1) S0 hf.ne hh.ne hne i j]
  congr 1
  unfold cmLam
  by_cases c : i = 1 ∨ i = 3
  · rw [if_pos c, if_pos c]
  · rw [if_neg c, if_neg c]; ring

/-- **C101.** For arbitrary functions f(x), h(y) the Ricci tensor of `CMetric()` is a multiple of the metric on the (x, φ) block and on the (t, y)
block; with S = x + y the factors are −S² f″/2 + S (2f′ + h′) − 3 (f + h) and −S² h″/2 + S (f′ + 2h′) − 3 (f + h). -/
theorem C101_ricci {f h : ℕ → K} (hco : IsCoords D F cmc) (hf : FnOf D F cmc "f" "x" f) (hh : FnOf D F cmc "h" "y" h)
    {g : Matrix (Fin 4) (Fin 4) K} (hg : Returns (cMetric F) cmc g) :
    RicciIs D (cMetric F) fun i j => (if i = 1 ∨ i = 3
      then -((F.var "x" + F.var "y") ^ 2 * f 2) / 2 + (F.var "x" + F.var "y") * (2 * f 1 + h 1) - 3 * (f 0 + h 0)
      else -((F.var "x" + F.var "y") ^ 2 * h 2) / 2 + (F.var "x" + F.var "y") * (f 1 + 2 * h 1) - 3 * (f 0 + h 0)) * g i j := by
  obtain ⟨-, hR, hric⟩ := cm_facts hco hf hh
  rw [(hg.inj hR).2]
  refine hric.congr fun i j => ?_
  unfold cmLam
  by_cases c : i = 1 ∨ i = 3
  · rw [if_pos c, if_pos c]
  · rw [if_neg c, if_neg c]; ring

theorem cm_vacuum_iff_lam {f h : ℕ → K} (hco : IsCoords D F cmc) (hf : FnOf D F cmc "f" "x" f) (hh : FnOf D F cmc "h" "y" h) :
    (RicciIs D (cMetric F) fun _ _ => 0) ↔
      cmLam (F.var "x") (F.var "y") f h = 0 ∧ cmLam (F.var "x") (F.var "y") h f = 0 := by
  obtain ⟨hne, -, hric⟩ := cm_facts hco hf hh
  constructor
  · intro h0
    have e1 := h0.inj hric 1 1
    have e0 := h0.inj hric 0 0
    rw [if_pos (Or.inl rfl), Matrix.diagonal_apply_eq] at e1
    rw [if_neg (by decide), Matrix.diagonal_apply_eq] at e0
    exact ⟨(mul_eq_zero.1 e1.symm).resolve_right (hne 1), (mul_eq_zero.1 e0.symm).resolve_right (hne 0)⟩
  · rintro ⟨e1, e0⟩
    refine hric.congr fun i j => ?_
    rw [e1, e0, ite_self, zero_mul]

/-- **C101.** `CMetric()` is a vacuum solution exactly if f is a cubic polynomial in x and h is the associated cubic −f(−y), with constant
coefficients. -/
theorem C101_vacuum_iff {f h : ℕ → K} (hco : IsCoords D F cmc) (hf : FnOf D F cmc "f" "x" f) (hh : FnOf D F cmc "h" "y" h) :
    (RicciIs D (cMetric F) fun _ _ => 0) ↔ ∃ a b c e : K, IsConst D cmc a ∧ IsConst D cmc b ∧ IsConst D cmc c ∧ IsConst D cmc e ∧
      F.fn "f" (F.var "x") = a + b * F.var "x" + c * F.var "x" ^ 2 + e * F.var "x" ^ 3 ∧
      F.fn "h" (F.var "y") = -(a + b * (-F.var "y") + c * (-F.var "y") ^ 2 + e * (-F.var "y") ^ 3) := by
  have : CharZero K := algebraRat.charZero K
  have S0 := cm_sum_ne hco
  have d2 : ∀ s, D s (2:K) = 0 := fun s => d_two _
  have d3 : ∀ s, D s (3:K) = 0 := fun s => by
    have := Derivation.map_natCast (D s) 3
    rwa [Nat.cast_ofNat] at this
  have d6 : ∀ s, D s (6:K) = 0 := fun s => by
    have := Derivation.map_natCast (D s) 6
    rwa [Nat.cast_ofNat] at this
  rw [cm_vacuum_iff_lam hco hf hh, hf.val, hh.val]
  have xx : D "x" (F.var "x") = 1 := by have := hco "x" (by decide) "x" (by decide); rwa [if_pos rfl] at this
  have xy : D "x" (F.var "y") = 0 := by have := hco "x" (by decide) "y" (by decide); rwa [if_neg (by decide)] at this
  have yx : D "y" (F.var "x") = 0 := by have := hco "y" (by decide) "x" (by decide); rwa [if_neg (by decide)] at this
  have yy : D "y" (F.var "y") = 1 := by have := hco "y" (by decide) "y" (by decide); rwa [if_pos rfl] at this
  have fx : ∀ n, D "x" (f n) = f (n + 1) := fun n => by rw [hf.d n "x" (by decide), xx, mul_one]
  have fy : ∀ n, D "y" (f n) = 0 := fun n => by rw [hf.d n "y" (by decide), yx, mul_zero]
  have hx : ∀ n, D "x" (h n) = 0 := fun n => by rw [hh.d n "x" (by decide), xy, mul_zero]
  have hy : ∀ n, D "y" (h n) = h (n + 1) := fun n => by rw [hh.d n "y" (by decide), yy, mul_one]
  generalize hX : F.var "x" = x at *
  generalize hY : F.var "y" = y at *
  constructor
  · rintro ⟨e1, e2⟩
    have e3 : 2 * (f 1 - h 1) - (x + y) * (f 2 - h 2) = 0 := by
      have : (x + y) * (2 * (f 1 - h 1) - (x + y) * (f 2 - h 2)) = 0 := by
        unfold cmLam at e1 e2
        linear_combination 2 * e1 - 2 * e2
      exact (mul_eq_zero.1 this).resolve_left S0
    have e4 : f 2 + h 2 - (x + y) * f 3 = 0 := by
      have := congrArg (D "x") e3
      simp only [map_sub, map_zero, Derivation.leibniz, map_add, fx, hx, xx, xy, d2, smul_eq_mul] at this
      linear_combination this
    have e5 : f 4 = 0 := by
      have := congrArg (D "x") e4
      simp only [map_sub, map_zero, Derivation.leibniz, map_add, fx, hx, xx, xy, smul_eq_mul] at this
      have : (x + y) * f 4 = 0 := by linear_combination -this
      exact (mul_eq_zero.1 this).resolve_left S0
    have e6 : h 3 = f 3 := by
      have := congrArg (D "y") e4
      simp only [map_sub, map_zero, Derivation.leibniz, map_add, fy, hy, yx, yy, smul_eq_mul] at this
      linear_combination this
    refine ⟨f 0 - f 1 * x + f 2 * x ^ 2 / 2 - f 3 * x ^ 3 / 6, f 1 - f 2 * x + f 3 * x ^ 2 / 2, (f 2 - f 3 * x) / 2, f 3 / 6, ?_, ?_, ?_, ?_, ?_, ?_⟩
    · intro s hs
      simp only [map_sub, map_add, Derivation.leibniz_div, Derivation.leibniz, Derivation.leibniz_pow, hf.d _ s hs, d2, d6, smul_eq_mul, hX, e5]
      simp
      field_simp
      ring
    · intro s hs
      simp only [map_sub, map_add, Derivation.leibniz_div, Derivation.leibniz, Derivation.leibniz_pow, hf.d _ s hs, d2, d6, smul_eq_mul, hX, e5]
      simp
      field_simp
      ring
    · intro s hs
      simp only [map_sub, map_add, Derivation.leibniz_div, Derivation.leibniz, Derivation.leibniz_pow, hf.d _ s hs, d2, d6, smul_eq_mul, hX, e5]
      simp
    · intro s hs
      simp only [map_sub, map_add, Derivation.leibniz_div, Derivation.leibniz, Derivation.leibniz_pow, hf.d _ s hs, d2, d6, smul_eq_mul, hX, e5]
      simp
    · ring
    · unfold cmLam at e1
      linear_combination (-1 / 3) * e1 - (x + y) / 6 * e3 + (x + y) ^ 2 / 6 * e4
  · rintro ⟨a, b, c, e, ha, hb, hc, he, ef, eh⟩
    have f1 : f 1 = b + 2 * c * x + 3 * e * x ^ 2 := by
      rw [← fx 0, ef]
      simp [Derivation.leibniz, Derivation.leibniz_pow, ha "x" (by decide), hb "x" (by decide), hc "x" (by decide), he "x" (by decide), xx]
      ring
    have f2 : f 2 = 2 * c + 6 * e * x := by
      rw [← fx 1, f1]
      simp [Derivation.leibniz, Derivation.leibniz_pow, hb "x" (by decide), hc "x" (by decide), he "x" (by decide), xx, d2, d3]
      ring
    have h1 : h 1 = b - 2 * c * y + 3 * e * y ^ 2 := by
      rw [← hy 0, eh]
      simp [Derivation.leibniz, Derivation.leibniz_pow, ha "y" (by decide), hb "y" (by decide), hc "y" (by decide), he "y" (by decide), yy]
      ring
    have h2 : h 2 = -2 * c + 6 * e * y := by
      rw [← hy 1, h1]
      simp [Derivation.leibniz, Derivation.leibniz_pow, hb "y" (by decide), hc "y" (by decide), he "y" (by decide), yy, d2, d3]
      ring
    unfold cmLam
    rw [ef, eh, f1, f2, h1, h2]
    constructor <;> ring

end
end Einpy.Predef
