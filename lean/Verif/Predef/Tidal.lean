import Verif.Predef.ConstCurv

/-!
# C125: the complete curvature of the static spherical predefined metrics
-/

namespace Einpy.Geo
section
variable {K : Type*} [Field K] [Algebra ℚ K] (d : Fin 4 → Derivation ℚ K K) {h : Fin 4 → K}

/-- The curvature of a diagonal metric whose planes of coordinates carry the curvatures `κ`. -/
theorem pair_of_diag (hd : ∀ i j x, d i (d j x) = d j (d i x)) (hh : ∀ i, h i ≠ 0) (κ : Fin 4 → Fin 4 → K) (hκ : ∀ a b, κ a b = κ b a)
    (ho : ∀ a b c, a ≠ b → a ≠ c → b ≠ c → pF d h c b * pF d h b a + pF d h b c * pF d h c a - pF d h b a * pF d h c a
      - d c (pF d h b a) = 0)
    (hs : ∀ a b, a ≠ b → pF d h b b * pF d h b a - pF d h b a ^ 2 - d b (pF d h b a)
        - h b / h a * (d a (pF d h a b) + pF d h a b ^ 2 - pF d h a b * pF d h a a)
        - ∑ l, (if l = a ∨ l = b then 0 else h b / h l * pF d h l b * pF d h l a) = κ a b * h b) (i k l q : Fin 4) :
    riemannLow d (Matrix.diagonal h) i k l q = κ i k * (Matrix.diagonal h i l * Matrix.diagonal h k q
      - Matrix.diagonal h i q * Matrix.diagonal h k l) := by
  have hsy : (Matrix.diagonal h).transpose = Matrix.diagonal h := Matrix.diagonal_transpose _
  have hu : IsUnit (Matrix.diagonal h).det := by
    rw [Matrix.det_diagonal, isUnit_iff_ne_zero]
    exact Finset.prod_ne_zero_iff.2 fun i _ => hh i
  have x := riemannLow_antisymm12 d (Matrix.diagonal h) hd hsy hu
  have y := riemannLow_antisymm34 d (Matrix.diagonal h)
  have low : ∀ a s r n, riemannLow d (Matrix.diagonal h) a s r n = h a * riemann d (Matrix.diagonal h) a s r n := by
    intro a s r n
    rw [riemannLow, Finset.sum_eq_single a]
    · rw [Matrix.diagonal_apply_eq]
    · intro t _ ht; rw [Matrix.diagonal_apply_ne _ (Ne.symm ht), zero_mul]
    · intro hn; exact absurd (Finset.mem_univ a) hn
  have base : ∀ a b c, a ≠ b → a ≠ c → riemannLow d (Matrix.diagonal h) a b a c = κ a b * (h a * Matrix.diagonal h b c) := by
    intro a b c hab hac
    by_cases hbc : b = c
    · subst hbc
      rw [low, riemann_diag_on d hh a b hab, hs a b hab, Matrix.diagonal_apply_eq]; ring
    · rw [low, riemann_diag_off d hh a b c hab hac hbc, ho a b c hab hac hbc, Matrix.diagonal_apply_ne _ hbc]; ring
  have : CharZero K := algebraRat.charZero K
  by_cases e1 : i = k
  · subst e1
    rw [self_eq_neg.mp (x i i l q)]; ring
  by_cases e2 : l = q
  · subst e2
    rw [self_eq_neg.mp (y i k l l)]; ring
  by_cases e3 : i = l
  · subst e3
    rw [base i k q e1 e2, Matrix.diagonal_apply_eq, Matrix.diagonal_apply_ne _ e2]; ring
  by_cases e4 : i = q
  · subst e4
    rw [y, base i k l e1 e3, Matrix.diagonal_apply_eq, Matrix.diagonal_apply_ne _ e3]; ring
  by_cases e5 : k = l
  · subst e5
    rw [x, base k i q (Ne.symm e1) e2, Matrix.diagonal_apply_eq, Matrix.diagonal_apply_ne _ e3, hκ k i]; ring
  by_cases e6 : k = q
  · subst e6
    rw [x, y, base k i l (Ne.symm e1) e5, Matrix.diagonal_apply_eq, Matrix.diagonal_apply_ne _ e4, hκ k i]; ring
  · rw [low, riemann_diag_zero d hh i k l q e1 e3 e4 e5 e6 e2, Matrix.diagonal_apply_ne _ e3, Matrix.diagonal_apply_ne _ e4]
    ring

variable {d} {κ : Fin 4 → Fin 4 → K} (hh : ∀ i, h i ≠ 0)
  (hR : ∀ i k l q, riemannLow d (Matrix.diagonal h) i k l q = κ i k * (Matrix.diagonal h i l * Matrix.diagonal h k q
      - Matrix.diagonal h i q * Matrix.diagonal h k l))

/-- `Σ_{t ≠ a} κ(t, a)` -/
def rho (κ : Fin 4 → Fin 4 → K) (a : Fin 4) : K := ∑ t, if t = a then 0 else κ t a

include hh hR

theorem pair_up (a b c e : Fin 4) : riemann d (Matrix.diagonal h) a b c e = κ a b * (Matrix.diagonal h a c * Matrix.diagonal h b e
      - Matrix.diagonal h a e * Matrix.diagonal h b c) / h a := by
  rw [← hR, eq_div_iff (hh a), riemannLow, Finset.sum_eq_single a]
  · rw [Matrix.diagonal_apply_eq]; ring
  · intro t _ ht; rw [Matrix.diagonal_apply_ne _ (Ne.symm ht), zero_mul]
  · intro hn; exact absurd (Finset.mem_univ a) hn

theorem pair_ricci (a b : Fin 4) : ricci d (Matrix.diagonal h) a b = rho κ a * Matrix.diagonal h a b := by
  unfold ricci rho
  rw [Finset.sum_mul]
  refine Finset.sum_congr rfl fun t _ => ?_
  rw [pair_up hh hR, Matrix.diagonal_apply_eq]
  have := hh t
  by_cases ht : t = a
  · subst ht
    rw [if_pos rfl, Matrix.diagonal_apply_eq]
    ring
  · rw [if_neg ht, Matrix.diagonal_apply_ne _ (Ne.symm ht)]
    field_simp
    ring

theorem pair_scalar : scalar d (Matrix.diagonal h) = ∑ a, rho κ a := by
  unfold scalar
  refine Finset.sum_congr rfl fun a _ => ?_
  rw [diag_inv hh, Finset.sum_eq_single a]
  · rw [pair_ricci hh hR, Matrix.diagonal_apply_eq, Matrix.diagonal_apply_eq]
    have := hh a
    field_simp
  · intro t _ ht; rw [Matrix.diagonal_apply_ne _ (Ne.symm ht), zero_mul]
  · intro hn; exact absurd (Finset.mem_univ a) hn

theorem pair_weyl (i k l q : Fin 4) : weyl d (Matrix.diagonal h) i k l q =
    (κ i k - (rho κ i + rho κ k) / 2 + (∑ a, rho κ a) / 6) * (Matrix.diagonal h i l * Matrix.diagonal h k q
      - Matrix.diagonal h i q * Matrix.diagonal h k l) := by
  have : CharZero K := algebraRat.charZero K
  unfold weyl
  simp only [hR, pair_ricci hh hR, pair_scalar hh hR, Fintype.card_fin]
  have e1 : ((((4:ℕ):ℚ) - 2)⁻¹ : ℚ) = 1 / 2 := by norm_num
  have e2 : (((((4:ℕ):ℚ) - 1) * (((4:ℕ):ℚ) - 2))⁻¹ : ℚ) = 1 / 6 := by norm_num
  rw [e1, e2, Algebra.smul_def, Algebra.smul_def]
  simp only [map_div₀, map_one, map_ofNat]
  by_cases a1 : i = l <;> by_cases a2 : k = q <;> by_cases a3 : i = q <;> by_cases a4 : k = l <;>
  simp only [Matrix.diagonal_apply, a1, a2, a3, a4, if_true, if_false] <;> ring

/-- all indices raised -/
theorem pair_uuuu (a b c e : Fin 4) : ∑ s, ∑ r, ∑ n, (Matrix.diagonal h)⁻¹ b s * (Matrix.diagonal h)⁻¹ c r * (Matrix.diagonal h)⁻¹ e n *
      riemann d (Matrix.diagonal h) a s r n = κ a b * ((if a = c then 1 else 0) * (if b = e then 1 else 0)
      - (if a = e then 1 else 0) * (if b = c then 1 else 0)) / (h a * h b) := by
  rw [diag_inv hh, Finset.sum_eq_single b, Finset.sum_eq_single c, Finset.sum_eq_single e]
  · rw [pair_up hh hR]
    simp only [Matrix.diagonal_apply, if_true]
    have ha := hh a
    have hb := hh b
    have hc := hh c
    have he := hh e
    by_cases a1 : a = c
    · subst a1
      by_cases a2 : b = e
      · subst a2
        by_cases a3 : a = b
        · subst a3
          simp
        · simp [a3, Ne.symm a3]; field_simp
      · by_cases a3 : a = e
        · subst a3; simp [a2]
        · simp [a2, a3]
    · by_cases a3 : a = e
      · subst a3
        by_cases a4 : b = c
        · subst a4; simp [a1]; field_simp
        · simp [a1, a4]
      · simp [a1, a3]
  all_goals first
    | (intro t _ ht
       simp [Matrix.diagonal_apply, Ne.symm ht])
    | (intro hn; exact absurd (Finset.mem_univ _) hn)

theorem pair_kretschmann : ∑ a, ∑ b, ∑ c, ∑ e, riemannLow d (Matrix.diagonal h) a b c e *
      ∑ s, ∑ r, ∑ n, (Matrix.diagonal h)⁻¹ b s * (Matrix.diagonal h)⁻¹ c r * (Matrix.diagonal h)⁻¹ e n * riemann d (Matrix.diagonal h) a s r n
    = ∑ a, ∑ b, if a = b then 0 else 2 * κ a b ^ 2 := by
  refine Finset.sum_congr rfl fun a _ => Finset.sum_congr rfl fun b _ => ?_
  simp only [pair_uuuu hh hR, hR]
  have ha := hh a
  have hb := hh b
  have key : ∀ c e : Fin 4, κ a b * (Matrix.diagonal h a c * Matrix.diagonal h b e - Matrix.diagonal h a e * Matrix.diagonal h b c) *
      (κ a b * ((if a = c then 1 else 0) * (if b = e then 1 else 0) - (if a = e then 1 else 0) * (if b = c then 1 else 0)) / (h a * h b))
      = κ a b ^ 2 * ((if a = c then 1 else 0) * (if b = e then 1 else 0) - (if a = e then 1 else 0) * (if b = c then 1 else 0)) ^ 2 := by
    intro c e
    simp only [Matrix.diagonal_apply]
    split_ifs <;> field_simp <;> ring
  simp only [key]
  simp only [← Finset.mul_sum]
  by_cases hab : a = b
  · subst hab
    rw [if_pos rfl]
    refine mul_eq_zero_of_right _ (Finset.sum_eq_zero fun c _ => Finset.sum_eq_zero fun e _ => ?_)
    ring
  · rw [if_neg hab, mul_comm]
    congr 1
    clear key hR ha hb
    fin_cases a <;> fin_cases b <;>
    first
    | exact absurd rfl hab
    | (simp [Fin.sum_univ_four]; try norm_num)
end
end Einpy.Geo

namespace Einpy.Predef
open Geo (Along)

section
variable {K : Type} [Field K] [Algebra ℚ K] {D : String → Derivation ℚ K K} {F : Fns K}

/-- The curvatures of the coordinate planes of a static spherical space: `α` for `(t, r)`, `β` for `(θ, φ)`, `μ` for the four mixed
planes. -/
def planes (α β μ : K) : Fin 4 → Fin 4 → K := ![![0, α, μ, μ], ![α, 0, μ, μ], ![μ, μ, 0, β], ![μ, μ, β, 0]]

variable (D) in
/-- The predefined function `p` returns a metric with components `g`; the lowered Riemann tensor the library computes for it is
`κ_ik (g_il g_kq − g_iq g_kl)`, the Weyl tensor is `ω_ik (g_il g_kq − g_iq g_kl)`, and the contraction of the Riemann tensor with all
indices lowered with the one with all indices raised (the Kretschmann scalar) is `kr`. -/
def FullCurvature (p : Py (MetricV K)) (κ ω : Fin 4 → Fin 4 → K) (kr : K) : Prop :=
  ∃ m rm rl ru w g, p = .ok m ∧ Returns p m.syms g ∧ riemannFromMetric D m = .ok rm ∧
    rm.changeConfig ['l', 'l', 'l', 'l'] none = .ok rl ∧ rm.changeConfig ['u', 'u', 'u', 'u'] none = .ok ru ∧
    weylFromMetric D m = .ok w ∧
    (∀ i k l q : Fin 4, rl.arr.get [(i : Nat), k, l, q] = κ i k * (g i l * g k q - g i q * g k l)) ∧
    (∀ i k l q : Fin 4, w.arr.get [(i : Nat), k, l, q] = ω i k * (g i l * g k q - g i q * g k l)) ∧
    ∑ i : Fin 4, ∑ k : Fin 4, ∑ l : Fin 4, ∑ q : Fin 4, rl.arr.get [(i : Nat), k, l, q] * ru.arr.get [(i : Nat), k, l, q] = kr

theorem riemann_up_ok (m : MetricV K) (g : Matrix (Fin 4) (Fin 4) K) (h : IsSpace m g) :
    ∃ rm ru, riemannFromMetric D m = .ok rm ∧ rm.changeConfig ['u', 'u', 'u', 'u'] none = .ok ru ∧
      ∀ a b c e : Fin 4, ru.arr.get [(a : Nat), b, c, e] =
        ∑ s, ∑ r, ∑ n, g⁻¹ b s * g⁻¹ c r * g⁻¹ e n * Geo.riemann (coordD D m.syms 4) g a s r n := by
  obtain ⟨b, e', hb, hb'⟩ := riemann_ok D m g h
  obtain ⟨t', e, h', hc, -⟩ := changeConfig_reps (reps_riemann D h.syms (some m) (nm := some "RiemannCurvatureTensor") hb hb') rfl none m rfl
    h.reps valid_ulll ['u', 'u', 'u', 'u'] rfl (by intro c hc; simp at hc; tauto)
  refine ⟨_, t', e', e, fun a b c e => ?_⟩
  have := congrFun h'.comp ![a, b, c, e]
  simp only [NDArr.comp, multiIx_four] at this
  refine this.trans ?_
  have hF : (fun s : Fin 4 => slotMatrix g ((['u', 'l', 'l', 'l'] : Config).getD s 'l') (t'.config.getD s 'l')) =
      fun s => Function.update (fun _ => (1 : Matrix (Fin 4) (Fin 4) K)) 1 g⁻¹ s *
        ((Function.update (fun _ => (1 : Matrix (Fin 4) (Fin 4) K)) 2 g⁻¹ s) * (Function.update (fun _ => (1 : Matrix (Fin 4) (Fin 4) K)) 3 g⁻¹ s)) := by
    rw [hc]
    funext s
    fin_cases s <;> simp [slotMatrix]
  rw [hF, ← applySlots_comp, ← applySlots_comp, applySlots_single, applySlots_single, applySlots_single]
  simp only [tns4, Finset.mul_sum]
  refine Finset.sum_congr rfl fun s _ => Finset.sum_congr rfl fun r _ => Finset.sum_congr rfl fun n _ => ?_
  simp [mul_assoc]

theorem fullCurvature_of {p : Py (MetricV K)} {cs : List String} {h : Fin 4 → K} (hp : Returns p cs (Matrix.diagonal h))
    (hcs : cs.length = 4) (hh : ∀ i, h i ≠ 0) (κ ω : Fin 4 → Fin 4 → K) (kr : K)
    (hR : ∀ i k l q, Geo.riemannLow (coordD D cs 4) (Matrix.diagonal h) i k l q = κ i k * (Matrix.diagonal h i l * Matrix.diagonal h k q
      - Matrix.diagonal h i q * Matrix.diagonal h k l))
    (hω : ∀ i k, i ≠ k → ω i k = κ i k - (Geo.rho κ i + Geo.rho κ k) / 2 + (∑ a, Geo.rho κ a) / 6)
    (hkr : kr = ∑ a, ∑ b, if a = b then 0 else 2 * κ a b ^ 2) : FullCurvature D p κ ω kr := by
  obtain ⟨m, e, hm, hsy⟩ := space_of hp hcs (diag_unit hh) (Matrix.diagonal_transpose _)
  subst hsy
  obtain ⟨b, e', hb, hb'⟩ := riemann_ok D m _ hm
  obtain ⟨u, eu, -, -, hus, hu⟩ := riemann_low_ok D _ m.syms _
    (reps_riemann D hm.syms (some m) (nm := some "RiemannCurvatureTensor") hb hb') none m rfl hm.reps
  have hu := (comp_four _ _).mp hu
  obtain ⟨rm, ru, e1, e2, hru⟩ := riemann_up_ok (D := D) m _ hm
  rw [e'] at e1
  cases e1
  obtain ⟨w, ew, -, hw⟩ := weyl_ok D m _ hm (by norm_num)
  have hw := (comp_four _ _).mp hw
  refine ⟨m, _, u, ru, _, Matrix.diagonal h, e, hp, e', eu, e2, ew, fun i k l q => by rw [hu]; exact hR i k l q, fun i k l q => ?_, ?_⟩
  · refine (hw i k l q).trans ?_
    rw [Geo.pair_weyl hh hR]
    by_cases hik : i = k
    · subst hik; ring
    · rw [hω i k hik]
  · simp only [hu, hru]
    rw [hkr]
    exact Geo.pair_kretschmann hh hR

/-- static spherical metric `f dt² − (dr²/f + r² dΩ)/c²`: the curvature formula -/
theorem riemann_static {d : Fin 4 → Derivation ℚ K K} {f f' f'' r c s k : K} (hd : ∀ i j x, d i (d j x) = d j (d i x))
    (hf : Along d 1 f f') (hf' : Along d 1 f' f'') (hr : Along d 1 r 1) (hc : ∀ j, d j c = 0) (hs : Along d 2 s k) (hk : Along d 2 k (-s))
    (hsq : s ^ 2 + k ^ 2 = 1) (f0 : f ≠ 0) (r0 : r ≠ 0) (c0 : c ≠ 0) (s0 : s ≠ 0)
    (hh : ∀ i, ![f, -1 / (f * c ^ 2), -(r ^ 2) / c ^ 2, -(r ^ 2) / c ^ 2 * s ^ 2] i ≠ 0) (i j l q : Fin 4) :
    Geo.riemannLow d (Matrix.diagonal ![f, -1 / (f * c ^ 2), -(r ^ 2) / c ^ 2, -(r ^ 2) / c ^ 2 * s ^ 2]) i j l q =
      planes (c ^ 2 * f'' / 2) (c ^ 2 * (f - 1) / r ^ 2) (c ^ 2 * f' / (2 * r)) i j *
      (Matrix.diagonal ![f, -1 / (f * c ^ 2), -(r ^ 2) / c ^ 2, -(r ^ 2) / c ^ 2 * s ^ 2] i l
          * Matrix.diagonal ![f, -1 / (f * c ^ 2), -(r ^ 2) / c ^ 2, -(r ^ 2) / c ^ 2 * s ^ 2] j q
        - Matrix.diagonal ![f, -1 / (f * c ^ 2), -(r ^ 2) / c ^ 2, -(r ^ 2) / c ^ 2 * s ^ 2] i q
          * Matrix.diagonal ![f, -1 / (f * c ^ 2), -(r ^ 2) / c ^ 2, -(r ^ 2) / c ^ 2 * s ^ 2] j l) := by
  have : CharZero K := algebraRat.charZero K
  have hcA : Along d 1 (c ^ 2) 0 := by
    convert Geo.along_pow (Geo.along_const (i := 1) hc) 2 using 1
    ring
  have hB : Along d 1 (-1 / (f * c ^ 2)) (f' / (f ^ 2 * c ^ 2)) := by
    convert Geo.along_div (Geo.along_neg Geo.along_one) (Geo.along_mul hf hcA) (mul_ne_zero f0 (pow_ne_zero 2 c0)) using 1
    field_simp
    ring
  have hC : Along d 1 (-(r ^ 2) / c ^ 2) (-(2 * r) / c ^ 2) := by
    convert Geo.along_div (Geo.along_neg (Geo.along_pow hr 2)) hcA (pow_ne_zero 2 c0) using 1
    push_cast
    field_simp
    ring
  have P : ∀ i j, Geo.pF d ![f, -1 / (f * c ^ 2), -(r ^ 2) / c ^ 2, -(r ^ 2) / c ^ 2 * s ^ 2] i j =
      ![![0, 0, 0, 0], ![f' / (2 * f), -f' / (2 * f), 1 / r, 1 / r], ![0, 0, 0, k / s], ![0, 0, 0, 0]] i j := by
    intro i j
    rw [Geo.pF_spherical d hf hB hC hs (hh 0) (hh 1) (hh 2) s0]
    fin_cases i <;> fin_cases j <;> simp <;> field_simp
  have q0 : Along d 1 (f' / (2 * f)) ((f'' * f - f' ^ 2) / (2 * f ^ 2)) := by
    convert Geo.along_div hf' (Geo.along_mul Geo.along_two hf) (mul_ne_zero two_ne_zero f0) using 1
    field_simp; ring
  have q0' : Along d 1 (-f' / (2 * f)) (-(f'' * f - f' ^ 2) / (2 * f ^ 2)) := by
    convert Geo.along_div (Geo.along_neg hf') (Geo.along_mul Geo.along_two hf) (mul_ne_zero two_ne_zero f0) using 1
    field_simp; ring
  have q1 : Along d 1 (1 / r) (-1 / r ^ 2) := by
    convert Geo.along_div Geo.along_one hr r0 using 1
    ring
  have q1' : Along d 1 (r⁻¹) (-1 / r ^ 2) := by rw [← one_div]; exact q1
  have q2 : Along d 2 (k / s) (-1 / s ^ 2) := by
    convert Geo.along_div hk hs s0 using 1
    rw [← hsq]; ring
  refine Geo.pair_of_diag _ hd hh _ ?_ ?_ ?_ i j l q
  · intro a b; fin_cases a <;> fin_cases b <;> rfl
  · intro a b c hab hac hbc
    simp only [P]
    fin_cases a <;> fin_cases b <;>
    first
    | exact absurd rfl hab
    | (fin_cases c <;>
       first
       | exact absurd rfl hac
       | exact absurd rfl hbc
       | (simp [q0 _, q0' _, q1 _, q1' _, q2 _]; done)
       | (simp [q0 _, q0' _, q1 _, q1' _, q2 _]; field_simp; ring))
  · intro a b hab
    simp only [P, Fin.sum_univ_four]
    fin_cases a <;> fin_cases b <;>
    first
    | exact absurd rfl hab
    | (simp [q0 _, q0' _, q1 _, q1' _, q2 _, planes]
       done)
    | (simp [q0 _, q0' _, q1 _, q1' _, q2 _, planes]
       field_simp
       first
       | done
       | ring1
       | linear_combination hsq
       | linear_combination (-1 : K) * hsq
       | linear_combination c ^ 2 * hsq)


theorem static_diag_ne {f r c s : K} (f0 : f ≠ 0) (r0 : r ≠ 0) (c0 : c ≠ 0) (s0 : s ≠ 0) (i : Fin 4) :
    ![f, -1 / (f * c ^ 2), -(r ^ 2) / c ^ 2, -(r ^ 2) / c ^ 2 * s ^ 2] i ≠ 0 := by
  have hc2 : c ^ 2 ≠ 0 := pow_ne_zero 2 c0
  fin_cases i
  · exact f0
  · exact div_ne_zero (by norm_num) (mul_ne_zero f0 hc2)
  · exact div_ne_zero (neg_ne_zero.2 (pow_ne_zero 2 r0)) hc2
  · exact mul_ne_zero (div_ne_zero (neg_ne_zero.2 (pow_ne_zero 2 r0)) hc2) (pow_ne_zero 2 s0)

/-- C125 (Reissner–Nordström): the complete Riemann and Weyl tensors and the Kretschmann scalar, with `q = Q² G/(4 π ε₀ c⁴)`. -/
theorem C125_reissnerNordstorm (c G eps_0 sch Q : K) (hco : IsCoords D F sph) (hth : Trig D F sph "theta") (hc : IsConst D sph c)
    (hG : IsConst D sph G) (he : IsConst D sph eps_0) (hp : IsConst D sph F.pi)
    (hsch : IsConst D sph sch) (hQ : IsConst D sph Q) (c0 : c ≠ 0) (hcm : Commuting D sph 4) (q r : K)
    (hq : q = Q ^ 2 * G / (4 * F.pi * eps_0 * c ^ 4)) (hr : r = F.var "r") :
    FullCurvature D (reissnerNordstorm F c G eps_0 sch Q)
      (planes (c ^ 2 * (3 * q / r ^ 4 - sch / r ^ 3)) (c ^ 2 * (q / r ^ 4 - sch / r ^ 3)) (c ^ 2 * (sch / (2 * r ^ 3) - q / r ^ 4)))
      (planes (-2 * (c ^ 2 * (sch / (2 * r ^ 3) - q / r ^ 4))) (-2 * (c ^ 2 * (sch / (2 * r ^ 3) - q / r ^ 4)))
        (c ^ 2 * (sch / (2 * r ^ 3) - q / r ^ 4)))
      (c ^ 4 * (12 * sch ^ 2 / r ^ 6 - 48 * sch * q / r ^ 7 + 56 * q ^ 2 / r ^ 8)) := by
  have : CharZero K := algebraRat.charZero K
  have hR := returns_diag (1 - sch / F.var "r" + Q ^ 2 * G / (4 * F.pi * eps_0 * c ^ 4) / F.var "r" ^ 2)
    (-1 / ((1 - sch / F.var "r" + Q ^ 2 * G / (4 * F.pi * eps_0 * c ^ 4) / F.var "r" ^ 2) * c ^ 2))
    (-(F.var "r" ^ 2) / c ^ 2) (-(F.var "r" ^ 2) * F.sin (F.var "theta") ^ 2 / c ^ 2) sph "ReissnerNordstormMetric" rfl
  obtain ⟨hr', hs, hk, r0, s0⟩ := sph_laws hco hth
  have hsq := hth.sq
  have hcd := const_coordD rfl hc
  have hsd := const_coordD rfl hsch
  have hqd : ∀ j, coordD D sph 4 j (Q ^ 2 * G / (4 * F.pi * eps_0 * c ^ 4)) = 0 := rn_const hc hG he hp hQ
  unfold reissnerNordstorm
  dsimp only
  rw [← hq, ← hr] at *
  generalize F.sin (F.var "theta") = s at *
  generalize F.cos (F.var "theta") = k at *
  clear hq hr hco hth
  have f0 : 1 - sch / r + q / r ^ 2 ≠ 0 := by
    intro e; apply quad_ne hr' hsd hqd; field_simp at e; linear_combination e
  have hf : Along (coordD D sph 4) 1 (1 - sch / r + q / r ^ 2) (sch / r ^ 2 - 2 * q / r ^ 3) := by
    convert Geo.along_add (Geo.along_sub Geo.along_one (Geo.along_div (Geo.along_const (i := 1) hsd) hr' r0))
      (Geo.along_div (Geo.along_const (i := 1) hqd) (Geo.along_pow hr' 2) (pow_ne_zero 2 r0)) using 1
    field_simp; norm_num; ring
  have hf' : Along (coordD D sph 4) 1 (sch / r ^ 2 - 2 * q / r ^ 3) (-2 * sch / r ^ 3 + 6 * q / r ^ 4) := by
    convert Geo.along_sub (Geo.along_div (Geo.along_const (i := 1) hsd) (Geo.along_pow hr' 2) (pow_ne_zero 2 r0))
      (Geo.along_div (Geo.along_mul Geo.along_two (Geo.along_const (i := 1) hqd)) (Geo.along_pow hr' 3)
        (pow_ne_zero 3 r0)) using 1
    field_simp; norm_num; ring
  have e3 : -(r ^ 2) * s ^ 2 / c ^ 2 = -(r ^ 2) / c ^ 2 * s ^ 2 := by ring
  rw [e3] at hR ⊢
  have hh := static_diag_ne f0 r0 c0 s0
  have hRi := riemann_static hcm hf hf' hr' hcd hs hk hsq f0 r0 c0 s0 hh
  have k1 : c ^ 2 * (-2 * sch / r ^ 3 + 6 * q / r ^ 4) / 2 = c ^ 2 * (3 * q / r ^ 4 - sch / r ^ 3) := by field_simp; ring
  have k2 : c ^ 2 * (1 - sch / r + q / r ^ 2 - 1) / r ^ 2 = c ^ 2 * (q / r ^ 4 - sch / r ^ 3) := by field_simp; ring
  have k3 : c ^ 2 * (sch / r ^ 2 - 2 * q / r ^ 3) / (2 * r) = c ^ 2 * (sch / (2 * r ^ 3) - q / r ^ 4) := by field_simp
  rw [k1, k2, k3] at hRi
  refine fullCurvature_of hR rfl hh _ _ _ hRi ?_ ?_
  · intro i j hij
    fin_cases i <;> fin_cases j <;>
    first
    | exact absurd rfl hij
    | (simp [planes, Geo.rho, Fin.sum_univ_four]; field_simp; ring)
  · simp [planes, Fin.sum_univ_four]
    field_simp
    ring

theorem schwarzschild_core (c sch : K) (hco : IsCoords D F sph) (hth : Trig D F sph "theta") (hc : IsConst D sph c)
    (hsch : IsConst D sph sch) (c0 : c ≠ 0) (hcm : Commuting D sph 4) : ∃ h : Fin 4 → K, (∀ i, h i ≠ 0) ∧
    Returns (schwarzschild F c sch) sph (Matrix.diagonal h) ∧
    ∀ i k l q, Geo.riemannLow (coordD D sph 4) (Matrix.diagonal h) i k l q =
      planes (-2 * (c ^ 2 * sch / (2 * F.var "r" ^ 3))) (-2 * (c ^ 2 * sch / (2 * F.var "r" ^ 3)))
        (c ^ 2 * sch / (2 * F.var "r" ^ 3)) i k * (Matrix.diagonal h i l * Matrix.diagonal h k q
      - Matrix.diagonal h i q * Matrix.diagonal h k l) := by
  have : CharZero K := algebraRat.charZero K
  have hR := returns_diag (1 - sch / F.var "r") (-1 / ((1 - sch / F.var "r") * c ^ 2)) (-(F.var "r" ^ 2) / c ^ 2)
    (-((F.var "r" * F.sin (F.var "theta")) ^ 2) / c ^ 2) sph "SchwarzschildMetric" rfl
  obtain ⟨hr', hs, hk, r0, s0⟩ := sph_laws hco hth
  have hsq := hth.sq
  have hcd := const_coordD rfl hc
  have hsd := const_coordD rfl hsch
  have f0 : 1 - sch / F.var "r" ≠ 0 := by
    intro e
    refine var_ne hco (t := "r") (by decide) hsch ?_
    field_simp at e
    linear_combination e
  unfold schwarzschild
  dsimp only
  generalize F.var "r" = r at *
  generalize F.sin (F.var "theta") = s at *
  generalize F.cos (F.var "theta") = k at *
  clear hco hth
  have hf : Along (coordD D sph 4) 1 (1 - sch / r) (sch / r ^ 2) := by
    convert Geo.along_sub Geo.along_one (Geo.along_div (Geo.along_const (i := 1) hsd) hr' r0) using 1
    ring
  have hf' : Along (coordD D sph 4) 1 (sch / r ^ 2) (-2 * sch / r ^ 3) := by
    convert Geo.along_div (Geo.along_const (i := 1) hsd) (Geo.along_pow hr' 2) (pow_ne_zero 2 r0) using 1
    push_cast; field_simp; ring
  have e3 : -((r * s) ^ 2) / c ^ 2 = -(r ^ 2) / c ^ 2 * s ^ 2 := by ring
  rw [e3] at hR ⊢
  have hh := static_diag_ne f0 r0 c0 s0
  have hRi := riemann_static hcm hf hf' hr' hcd hs hk hsq f0 r0 c0 s0 hh
  have k1 : c ^ 2 * (-2 * sch / r ^ 3) / 2 = -2 * (c ^ 2 * sch / (2 * r ^ 3)) := by field_simp
  have k2 : c ^ 2 * (1 - sch / r - 1) / r ^ 2 = -2 * (c ^ 2 * sch / (2 * r ^ 3)) := by field_simp; ring
  have k3 : c ^ 2 * (sch / r ^ 2) / (2 * r) = c ^ 2 * sch / (2 * r ^ 3) := by field_simp
  rw [k1, k2, k3] at hRi
  exact ⟨_, hh, hR, hRi⟩

/-- C125 (Schwarzschild): the complete Riemann and Weyl tensors and the Kretschmann scalar `12 c⁴ r_s²/r⁶`. -/
theorem C125_schwarzschild (c sch : K) (hco : IsCoords D F sph) (hth : Trig D F sph "theta") (hc : IsConst D sph c)
    (hsch : IsConst D sph sch) (c0 : c ≠ 0) (hcm : Commuting D sph 4) (μ r : K) (hr : r = F.var "r")
    (hμ : μ = c ^ 2 * sch / (2 * r ^ 3)) :
    FullCurvature D (schwarzschild F c sch) (planes (-2 * μ) (-2 * μ) μ) (planes (-2 * μ) (-2 * μ) μ) (12 * c ^ 4 * sch ^ 2 / r ^ 6) := by
  have : CharZero K := algebraRat.charZero K
  obtain ⟨h, hh, hR, hRi⟩ := schwarzschild_core c sch hco hth hc hsch c0 hcm
  have r0 : r ≠ 0 := by rw [hr]; exact var_ne hco (by decide) const_zero
  rw [← hr, ← hμ] at hRi
  refine fullCurvature_of hR rfl hh _ _ _ hRi ?_ ?_
  · intro i j hij
    fin_cases i <;> fin_cases j <;>
    first
    | exact absurd rfl hij
    | (simp [planes, Geo.rho, Fin.sum_univ_four]; field_simp; ring)
  · simp [planes, Fin.sum_univ_four]
    rw [hμ]
    field_simp
    ring

/-- C125: the Schwarzschild metric is flat only without mass, and has no tidal (Weyl) curvature only without mass. -/
theorem C125_flat_iff (c sch : K) (hco : IsCoords D F sph) (hth : Trig D F sph "theta") (hc : IsConst D sph c)
    (hsch : IsConst D sph sch) (c0 : c ≠ 0) (hcm : Commuting D sph 4) :
    ∃ m w, schwarzschild F c sch = .ok m ∧ weylFromMetric D m = .ok w ∧
      ((∀ i k l q : Fin 4, w.arr.get [(i : Nat), k, l, q] = 0) ↔ sch = 0) ∧
      (RiemannVanishes D (schwarzschild F c sch) ↔ sch = 0) := by
  have : CharZero K := algebraRat.charZero K
  have r0 : F.var "r" ≠ 0 := var_ne hco (by decide) const_zero
  obtain ⟨h, hh, hR, hRi⟩ := schwarzschild_core c sch hco hth hc hsch c0 hcm
  obtain ⟨m, -, -, -, w, g, e, hg, -, -, -, ew, -, hw, -⟩ := C125_schwarzschild c sch hco hth hc hsch c0 hcm _ _ rfl rfl
  obtain rfl := (hg.inj hR).2
  have z : ∀ x : K, -2 * (c ^ 2 * sch / (2 * F.var "r" ^ 3)) * x = 0 → x ≠ 0 → sch = 0 := by
    intro x hx x0
    have := (mul_eq_zero.mp hx).resolve_right x0
    have := (mul_eq_zero.mp this).resolve_left (by norm_num)
    rw [div_eq_zero_iff] at this
    have := this.resolve_right (mul_ne_zero two_ne_zero (pow_ne_zero 3 r0))
    exact (mul_eq_zero.mp this).resolve_left (pow_ne_zero 2 c0)
  have p0 : ∀ i k, sch = 0 → planes (-2 * (c ^ 2 * sch / (2 * F.var "r" ^ 3))) (-2 * (c ^ 2 * sch / (2 * F.var "r" ^ 3)))
        (c ^ 2 * sch / (2 * F.var "r" ^ 3)) i k = 0 := by
    rintro i k rfl
    fin_cases i <;> fin_cases k <;> simp [planes]
  refine ⟨m, w, e, ew, ⟨fun H => ?_, fun hz i k l q => by rw [hw, p0 i k hz, zero_mul]⟩, ?_⟩
  · have := H 0 1 0 1
    rw [hw] at this
    refine z (h 0 * h 1) ?_ (mul_ne_zero (hh 0) (hh 1))
    simpa [planes] using this
  · obtain ⟨m', em, hm, hsy⟩ := space_of hR rfl (diag_unit hh) (Matrix.diagonal_transpose _)
    obtain ⟨b, e', hb, hb'⟩ := riemann_ok D m' _ hm
    have hb' := (comp_four _ _).mp hb'
    rw [hsy] at hb'
    constructor
    · rintro ⟨m'', rm, e1, e2, -, H⟩
      rw [em] at e1; cases e1
      rw [e'] at e2; cases e2
      have := hRi 0 1 0 1
      rw [Geo.riemannLow, Finset.sum_eq_zero fun t _ => by rw [← hb' t 1 0 1, H, mul_zero]] at this
      refine z (h 0 * h 1) ?_ (mul_ne_zero (hh 0) (hh 1))
      simpa [planes] using this
    · intro hz
      refine ⟨m', _, em, e', hb, fun i j k l => (hb' i j k l).trans ?_⟩
      rw [Geo.pair_up hh hRi, p0 _ _ hz]
      simp

/-- The hypotheses hold in a field of functions, with the mass parameter and the charge non-zero constants. -/
example : FullCurvature exD (schwarzschild exF (gen "c") (gen "M")) (planes (-2 * (gen "c" ^ 2 * gen "M" / (2 * gen "r" ^ 3)))
    (-2 * (gen "c" ^ 2 * gen "M" / (2 * gen "r" ^ 3))) (gen "c" ^ 2 * gen "M" / (2 * gen "r" ^ 3)))
    (planes (-2 * (gen "c" ^ 2 * gen "M" / (2 * gen "r" ^ 3)))
    (-2 * (gen "c" ^ 2 * gen "M" / (2 * gen "r" ^ 3))) (gen "c" ^ 2 * gen "M" / (2 * gen "r" ^ 3)))
    (12 * gen "c" ^ 4 * gen "M" ^ 2 / gen "r" ^ 6) :=
  C125_schwarzschild _ _ (exF_coords sph) (exF_theta sph) (exF_const sph "c") (exF_const sph "M") (gen_ne "c")
    (exD_commuting (by decide)) _ _ rfl rfl

end
end Einpy.Predef
