import Verif.Curv.Props4

/-!
# Property C118: Einstein spaces and spaces of constant curvature
-/

set_option linter.unusedSectionVars false

namespace Einpy.Geo
open Matrix Finset
variable {ι R : Type*} [Fintype ι] [DecidableEq ι] [CommRing R] [Algebra ℚ R]
variable (d : ι → Derivation ℚ R R) (g : Matrix ι ι R)

section
variable (hs : g.transpose = g) (hu : IsUnit g.det)
include hs hu

/-- contracting the metric with its inverse and another metric -/
theorem tr2_two (b c : ι) : tr2 g (fun a r => g a b * g r c) = g b c := by
  have h : tr2 g (fun a r => g a b * g r c) = (g.transpose * g⁻¹ * g) b c := by
    simp only [tr2, Matrix.mul_apply, Finset.sum_mul, Matrix.transpose_apply]
    rw [Finset.sum_comm]
    exact Finset.sum_congr rfl fun a _ => Finset.sum_congr rfl fun r _ => by ring
  rw [h, hs, Matrix.mul_assoc, Matrix.nonsing_inv_mul g hu, Matrix.mul_one]

/-- the Ricci tensor of a space of constant curvature -/
theorem ricci_const (K : R) (h : ∀ i k l m, riemannLow d g i k l m = K * (g i l * g k m - g i m * g k l)) (a b : ι) :
    ricci d g a b = ((Fintype.card ι : ℚ) - 1) • (K * g a b) := by
  have e : (fun x r => riemannLow d g x a r b) = fun x r => K * (g a b * g x r - g x b * g r a) := by
    funext x r
    rw [h, g_symm g hs a r]; ring
  rw [ricci_low d g hs hu, e, tr2_mul_left, tr2_sub, tr2_mul_left g _ g, tr2_g g hu hs, tr2_two g hs hu, g_symm g hs b a,
    sub_smul, one_smul, Algebra.smul_def, map_natCast]
  ring

/-- the scalar curvature of an Einstein space -/
theorem scalar_einstein (lam : R) (h : ∀ a b, ricci d g a b = lam * g a b) : scalar d g = (Fintype.card ι : ℚ) • lam := by
  have e : ricci d g = fun a b => lam * g a b := by funext a b; exact h a b
  rw [scalar_eq, e, tr2_mul_left g _ g, tr2_g g hu hs, Algebra.smul_def, map_natCast, mul_comm]

/-- divergence of a multiple of the metric -/
theorem div2_mul_g (lam : R) (b : ι) : div2 d g (fun a b => lam * g a b) b = d b lam := by
  have e : ∀ k a, cov2 d g (fun a b => lam * g a b) k a b = d k lam * g a b := by
    intro k a
    have h := cov2_g d g hs hu k a b
    unfold cov2 at h ⊢
    have e1 : ∑ m, christoffel d g m k a * (lam * g m b) = lam * ∑ m, christoffel d g m k a * g m b := by
      rw [Finset.mul_sum]; exact Finset.sum_congr rfl fun _ _ => by ring
    have e2 : ∑ m, christoffel d g m k b * (lam * g a m) = lam * ∑ m, christoffel d g m k b * g a m := by
      rw [Finset.mul_sum]; exact Finset.sum_congr rfl fun _ _ => by ring
    rw [e1, e2, Derivation.leibniz, smul_eq_mul, smul_eq_mul]
    linear_combination lam * h
  unfold div2
  simp only [e]
  have : ∀ k, ∑ a, g⁻¹ k a * (d k lam * g a b) = d k lam * (1 : Matrix ι ι R) k b := by
    intro k
    rw [← Matrix.nonsing_inv_mul g hu, Matrix.mul_apply, Finset.mul_sum]
    exact Finset.sum_congr rfl fun _ _ => by ring
  simp only [this, Matrix.one_apply, mul_ite, mul_one, mul_zero, Finset.sum_ite_eq', Finset.mem_univ, if_true]

/-- **Schur's lemma**: outside two dimensions the factor of an Einstein space is constant. -/
theorem schur (hd : ∀ i j x, d i (d j x) = d j (d i x)) (hn : Fintype.card ι ≠ 2) (lam : R)
    (h : ∀ a b, ricci d g a b = lam * g a b) (k : ι) : d k lam = 0 := by
  have e : ricci d g = fun a b => lam * g a b := by funext a b; exact h a b
  have b := div_ricci d g hd hs hu k
  rw [scalar_einstein d g hs hu lam h, e, div2_mul_g d g hs hu, Derivation.map_smul] at b
  have c : ((2 : ℚ) - Fintype.card ι) • d k lam = 0 := by
    rw [sub_smul, ← b, Algebra.smul_def, map_ofNat, sub_self]
  have c0 : (2 : ℚ) - Fintype.card ι ≠ 0 := by
    rw [sub_ne_zero]; exact fun h => hn (by exact_mod_cast h.symm)
  have := congrArg (((2 : ℚ) - Fintype.card ι)⁻¹ • ·) c
  simpa [smul_smul, inv_mul_cancel₀ c0] using this

/-- Einstein tensor of an Einstein space -/
theorem einstein_einstein (lam : R) (h : ∀ a b, ricci d g a b = lam * g a b) (a b : ι) :
    einstein d g a b = (1 - (Fintype.card ι : ℚ) / 2) • (lam * g a b) := by
  rw [einstein, h, scalar_einstein d g hs hu lam h, sub_smul, one_smul, half, smul_mul_assoc, smul_smul]
  congr 2
  ring

/-- a vanishing Einstein tensor means a vanishing Ricci tensor, outside two dimensions -/
theorem ricci_of_einstein (hn : Fintype.card ι ≠ 2) (h : ∀ a b, einstein d g a b = 0) (a b : ι) : ricci d g a b = 0 := by
  have e : ∀ a b, ricci d g a b = half (scalar d g) * g a b := by
    intro a b
    rw [sub_eq_zero.mp (h a b), half, half, smul_mul_assoc]
  have s := scalar_einstein d g hs hu _ e
  have c : ((2 : ℚ) - Fintype.card ι) • scalar d g = 0 := by
    have s2 : (2 : ℚ) • scalar d g = (Fintype.card ι : ℚ) • scalar d g := by
      conv_lhs => rw [s]
      rw [half, smul_smul, smul_smul]
      congr 1
      ring
    rw [sub_smul, s2, sub_self]
  have c0 : (2 : ℚ) - Fintype.card ι ≠ 0 := by
    rw [sub_ne_zero]; exact fun h => hn (by exact_mod_cast h.symm)
  have z : scalar d g = 0 := by
    have := congrArg (((2 : ℚ) - Fintype.card ι)⁻¹ • ·) c
    simpa [smul_smul, inv_mul_cancel₀ c0] using this
  rw [e, z, half, smul_zero, zero_mul]

/-- Weyl tensor of an Einstein space -/
theorem weyl_einstein (hn : 3 ≤ Fintype.card ι) (lam : R) (h : ∀ a b, ricci d g a b = lam * g a b) (i k l m : ι) :
    weyl d g i k l m = riemannLow d g i k l m - ((Fintype.card ι : ℚ) - 1)⁻¹ • (lam * (g i l * g k m - g i m * g k l)) := by
  have hc : (3 : ℚ) ≤ (Fintype.card ι : ℚ) := by exact_mod_cast hn
  simp only [weyl, h, scalar_einstein d g hs hu lam h]
  generalize (Fintype.card ι : ℚ) = c at *
  have c1 : c - 1 ≠ 0 := by linarith
  have c2 : c - 2 ≠ 0 := by linarith
  have e1 : lam * g i m * g k l - lam * g i l * g k m + lam * g k l * g i m - lam * g k m * g i l
      = (-2 : ℚ) • (lam * (g i l * g k m - g i m * g k l)) := by
    rw [Algebra.smul_def, map_neg, map_ofNat]; ring
  have e2 : (c - 2)⁻¹ * -2 + ((c - 1) * (c - 2))⁻¹ * c = -(c - 1)⁻¹ := by
    field_simp
    ring
  rw [e1, smul_mul_assoc, smul_smul, smul_smul, add_assoc, ← add_smul, e2, neg_smul]
  exact (sub_eq_add_neg _ _).symm

/-- Schouten tensor of an Einstein space -/
theorem schouten_einstein (hn : 3 ≤ Fintype.card ι) (lam : R) (h : ∀ a b, ricci d g a b = lam * g a b) (a b : ι) :
    schouten d g a b = (2 * ((Fintype.card ι : ℚ) - 1))⁻¹ • (lam * g a b) := by
  have hc : (3 : ℚ) ≤ (Fintype.card ι : ℚ) := by exact_mod_cast hn
  simp only [schouten, h, scalar_einstein d g hs hu lam h]
  generalize (Fintype.card ι : ℚ) = c at *
  have c1 : c - 1 ≠ 0 := by linarith
  have c2 : c - 2 ≠ 0 := by linarith
  rw [smul_mul_assoc, smul_smul]
  conv_lhs => rw [← one_smul ℚ (lam * g a b), smul_smul, ← sub_smul, smul_smul]
  congr 1
  field_simp
  ring

end
end Einpy.Geo

namespace Einpy
open Classical

section
variable {R : Type*} [CommRing R] [Algebra ℚ R] {n : Nat} (D : String → Derivation ℚ R R)

/-- **C118** (Einstein spaces).  Outside two dimensions: if the Ricci tensor that the library returns is `lam g`, the Ricci scalar
is `n lam`, the Einstein tensor is `(1 − n/2) lam g`, and `lam` is constant (Schur); the Einstein tensor vanishes exactly when the
Ricci tensor does. -/
theorem C118_einstein_space (m : MetricV R) (g : Matrix (Fin n) (Fin n) R) (h : IsSpace m g) (hd : Commuting D m.syms n)
    (hn : n ≠ 2) :
    Returns (ricciFromMetric D m) fun Rc => Returns (scalarFromMetric D m) fun S => Returns (einsteinFromMetric D m) fun G =>
      (∀ lam : R, (∀ a b : Fin n, Rc.arr.get [(a : Nat), b] = lam * g a b) →
        S.expr = (n : ℚ) • lam ∧ (∀ a b : Fin n, G.arr.get [(a : Nat), b] = (1 - (n : ℚ) / 2) • (lam * g a b)) ∧
        ∀ k : Fin n, coordD D m.syms n k lam = 0) ∧
      ((∀ a b : Fin n, G.arr.get [(a : Nat), b] = 0) ↔ ∀ a b : Fin n, Rc.arr.get [(a : Nat), b] = 0) := by
  obtain ⟨c, e'', hcc, hc'⟩ := ricci_ok D m g h
  obtain ⟨s, es, hs1, hs2⟩ := scalar_ok D m g h
  obtain ⟨G, eG, hG1, hG2⟩ := einstein_ok D m g h
  have hr := (comp_two _ _).mp hc'
  have hG := (comp_two _ _).mp hG2
  have hn' : Fintype.card (Fin n) ≠ 2 := by rwa [Fintype.card_fin]
  have hU := h.reps.2.1
  refine ⟨_, e'', _, es, _, eG, fun lam hl => ?_, ?_⟩
  · simp only [hr] at hl
    refine ⟨?_, fun a b => ?_, ?_⟩
    · show s.get [] = _
      rw [hs2, Geo.scalar_einstein _ g h.symm hU lam hl, Fintype.card_fin]
    · show G.get _ = _
      rw [hG, Geo.einstein_einstein _ g h.symm hU lam hl, Fintype.card_fin]
    · exact Geo.schur _ g h.symm hU hd hn' lam hl
  · show (∀ a b : Fin n, G.get _ = 0) ↔ ∀ a b : Fin n, c.get _ = 0
    simp only [hG, hr]
    refine ⟨fun z => Geo.ricci_of_einstein _ g h.symm hU hn' z, fun z a b => ?_⟩
    rw [Geo.einstein_einstein _ g h.symm hU 0 (fun a b => by rw [z, zero_mul]), zero_mul, smul_zero]

/-- `WeylTensor.from_metric` in three and more dimensions -/
theorem weyl_ok3 (m : MetricV R) (g : Matrix (Fin n) (Fin n) R) (h : IsSpace m g) (hd : Commuting D m.syms n) (hn : 3 ≤ n) :
    ∃ W, weylFromMetric D m = .ok W ∧ ∀ i k l q : Fin n, W.arr.get [(i : Nat), k, l, q] =
      Geo.weyl (coordD D m.syms n) g i k l q := by
  rcases Nat.lt_or_eq_of_le hn with h3 | h3
  · obtain ⟨W, eW, hW1, hW2⟩ := weyl_ok D m g h h3
    exact ⟨_, eW, fun i k l q => (comp_four _ _).mp hW2 i k l q⟩
  · subst h3
    refine ⟨⟨.weyl, ⟨[3, 3, 3, 3], fun _ => 0⟩, ['l', 'l', 'l', 'l'], 4, m.syms, some m, some "WeylTensor"⟩, ?_,
      fun i k l q => ?_⟩
    · unfold weylFromMetric
      rw [if_neg (by rw [h.syms]; omega), if_pos h.syms]
      exact mkKind_cube (n := 3) .weyl _ ['l', 'l', 'l', 'l'] m.syms _ _ valid_llll rfl h.syms rfl
    · exact (Geo.weyl_three (coordD D m.syms 3) g hd h.symm h.reps.2.1 i k l q).symm

/-- **C118** (constant curvature).  In `n ≥ 3` dimensions, about the objects that the library returns: if the lowered Riemann
tensor is `K (g_il g_kq − g_iq g_kl)`, the Ricci tensor is `(n−1) K g`, the scalar `n (n−1) K`, the Einstein tensor
`−½ (n−1)(n−2) K g`, the Schouten tensor `½ K g`, the Weyl tensor zero and `K` constant.  Conversely an Einstein space with zero
Weyl tensor has constant curvature, and in vacuum the Weyl tensor is the lowered Riemann tensor. -/
theorem C118_constant_curvature (m : MetricV R) (g : Matrix (Fin n) (Fin n) R) (h : IsSpace m g) (hd : Commuting D m.syms n)
    (hn : 3 ≤ n) :
    Returns (riemannFromMetric D m) fun Rm => Returns (Rm.changeConfig ['l', 'l', 'l', 'l'] none) fun Rl =>
    Returns (ricciFromMetric D m) fun Rc => Returns (scalarFromMetric D m) fun S => Returns (einsteinFromMetric D m) fun G =>
    Returns (schoutenFromMetric D m) fun P => Returns (weylFromMetric D m) fun W =>
      (∀ K : R, (∀ i k l q : Fin n, Rl.arr.get [(i : Nat), k, l, q] = K * (g i l * g k q - g i q * g k l)) →
        (∀ a b : Fin n, Rc.arr.get [(a : Nat), b] = ((n : ℚ) - 1) • (K * g a b)) ∧
        S.expr = ((n : ℚ) * ((n : ℚ) - 1)) • K ∧
        (∀ a b : Fin n, G.arr.get [(a : Nat), b] = (-(((n : ℚ) - 1) * ((n : ℚ) - 2) / 2)) • (K * g a b)) ∧
        (∀ a b : Fin n, P.arr.get [(a : Nat), b] = (1 / 2 : ℚ) • (K * g a b)) ∧
        (∀ i k l q : Fin n, W.arr.get [(i : Nat), k, l, q] = 0) ∧
        ∀ k : Fin n, coordD D m.syms n k K = 0) ∧
      (∀ lam : R, (∀ a b : Fin n, Rc.arr.get [(a : Nat), b] = lam * g a b) →
        (∀ i k l q : Fin n, W.arr.get [(i : Nat), k, l, q] = 0) →
        ∀ i k l q : Fin n, Rl.arr.get [(i : Nat), k, l, q] = ((n : ℚ) - 1)⁻¹ • (lam * (g i l * g k q - g i q * g k l))) ∧
      ((∀ a b : Fin n, Rc.arr.get [(a : Nat), b] = 0) →
        ∀ i k l q : Fin n, W.arr.get [(i : Nat), k, l, q] = Rl.arr.get [(i : Nat), k, l, q]) := by
  obtain ⟨b, e', hb, hb'⟩ := riemann_ok D m g h
  obtain ⟨u, eu, -, -, -, hu⟩ := riemann_low_ok D _ m.syms g
    (reps_riemann D h.syms (some m) (nm := some "RiemannCurvatureTensor") hb hb') none m rfl h.reps
  obtain ⟨c, e'', hcc, hc'⟩ := ricci_ok D m g h
  obtain ⟨s, es, hs1, hs2⟩ := scalar_ok D m g h
  obtain ⟨G, eG, hG1, hG2⟩ := einstein_ok D m g h
  obtain ⟨P, eP, hP1, hP2⟩ := schouten_ok D m g h hn
  obtain ⟨W, eW, hW⟩ := weyl_ok3 D m g h hd hn
  have hu := (comp_four _ _).mp hu
  have hr := (comp_two _ _).mp hc'
  have hG := (comp_two _ _).mp hG2
  have hP := (comp_two _ _).mp hP2
  have hU := h.reps.2.1
  have hn' : 3 ≤ Fintype.card (Fin n) := by rwa [Fintype.card_fin]
  have hq : (3 : ℚ) ≤ n := by exact_mod_cast hn
  have q1 : (n : ℚ) - 1 ≠ 0 := by linarith
  refine ⟨_, e', u, eu, _, e'', _, es, _, eG, _, eP, W, eW, fun K hK => ?_, fun lam hl hz => ?_, fun hz => ?_⟩
  · simp only [hu] at hK
    have hr0 := Geo.ricci_const _ g h.symm hU K hK
    have hE : ∀ a b, Geo.ricci (coordD D m.syms n) g a b = (((n : ℚ) - 1) • K) * g a b := by
      intro a b; rw [hr0, Fintype.card_fin, smul_mul_assoc]
    refine ⟨fun a b => ?_, ?_, fun a b => ?_, fun a b => ?_, fun i k l q => ?_, fun k => ?_⟩
    · show c.get _ = _
      rw [hr, hr0, Fintype.card_fin]
    · show s.get [] = _
      rw [hs2, Geo.scalar_einstein _ g h.symm hU _ hE, Fintype.card_fin, smul_smul]
    · show G.get _ = _
      rw [hG, Geo.einstein_einstein _ g h.symm hU _ hE, Fintype.card_fin, smul_mul_assoc, smul_smul]
      congr 1
      ring
    · show P.get _ = _
      rw [hP, Geo.schouten_einstein _ g h.symm hU hn' _ hE, Fintype.card_fin, smul_mul_assoc, smul_smul]
      congr 1
      field_simp
    · rw [hW, Geo.weyl_einstein _ g h.symm hU hn' _ hE, hK, Fintype.card_fin, smul_mul_assoc, smul_smul,
        inv_mul_cancel₀ q1, one_smul, sub_self]
    · have := Geo.schur _ g h.symm hU hd (by omega) _ hE k
      rw [Derivation.map_smul] at this
      have := congrArg (((n : ℚ) - 1)⁻¹ • ·) this
      simpa [smul_smul, inv_mul_cancel₀ q1] using this
  · simp only [hr] at hl
    intro i k l q
    have := Geo.weyl_einstein _ g h.symm hU hn' lam hl i k l q
    rw [← hW, hz, Fintype.card_fin] at this
    rw [hu]
    exact (sub_eq_zero.mp this.symm)
  · simp only [hr] at hz
    intro i k l q
    rw [hW, hu, Geo.weyl_einstein _ g h.symm hU hn' 0 (fun a b => by rw [hz, zero_mul]), zero_mul, smul_zero, sub_zero]

/-- **C118** (three dimensions).  In three dimensions an Einstein space has constant curvature; a vacuum is flat. -/
theorem C118_three_dimensions (m : MetricV R) (g : Matrix (Fin 3) (Fin 3) R) (h : IsSpace m g) (hd : Commuting D m.syms 3) :
    Returns (riemannFromMetric D m) fun Rm => Returns (Rm.changeConfig ['l', 'l', 'l', 'l'] none) fun Rl =>
    Returns (ricciFromMetric D m) fun Rc =>
      (∀ lam : R, (∀ a b : Fin 3, Rc.arr.get [(a : Nat), b] = lam * g a b) → ∀ i k l q : Fin 3,
        Rl.arr.get [(i : Nat), k, l, q] = (1 / 2 : ℚ) • (lam * (g i l * g k q - g i q * g k l))) ∧
      ((∀ a b : Fin 3, Rc.arr.get [(a : Nat), b] = 0) →
        ∀ i k l q : Fin 3, Rm.arr.get [(i : Nat), k, l, q] = 0) := by
  obtain ⟨b, e', hb, hb'⟩ := riemann_ok D m g h
  obtain ⟨u, eu, -, -, -, hu⟩ := riemann_low_ok D _ m.syms g
    (reps_riemann D h.syms (some m) (nm := some "RiemannCurvatureTensor") hb hb') none m rfl h.reps
  obtain ⟨c, e'', hcc, hc'⟩ := ricci_ok D m g h
  have hu := (comp_four _ _).mp hu
  have hR := (comp_four _ _).mp hb'
  have hr := (comp_two _ _).mp hc'
  have hU := h.reps.2.1
  have key : ∀ lam : R, (∀ a b : Fin 3, Geo.ricci (coordD D m.syms 3) g a b = lam * g a b) → ∀ i k l q : Fin 3,
      Geo.riemannLow (coordD D m.syms 3) g i k l q = (1 / 2 : ℚ) • (lam * (g i l * g k q - g i q * g k l)) := by
    intro lam hl i k l q
    have := Geo.weyl_einstein _ g h.symm hU (by simp) lam hl i k l q
    rw [Geo.weyl_three _ g hd h.symm hU, Fintype.card_fin] at this
    rw [sub_eq_zero.mp this.symm]
    norm_num
  refine ⟨_, e', u, eu, _, e'', fun lam hl i k l q => ?_, fun hz i k l q => ?_⟩
  · simp only [hr] at hl
    rw [hu]; exact key lam hl i k l q
  · simp only [hr] at hz
    show b.get _ = 0
    rw [hR, ← Geo.raise_low _ g hU]
    refine Finset.sum_eq_zero fun j _ => ?_
    rw [key 0 (fun a b => by rw [hz, zero_mul]), zero_mul, smul_zero, mul_zero]

end
end Einpy
