import Mathlib.LinearAlgebra.Matrix.Adjugate
import Mathlib.RingTheory.PowerSeries.Derivative
import Mathlib.RingTheory.PowerSeries.Inverse
import Verif.Curv.Example
import Verif.Curv.Props2
import Verif.Curv.Conformal

/-!
# Properties C111 (second Bianchi identity), C112 (two dimensions) and C113 (conformal rescaling)
-/

set_option linter.unusedSectionVars false

namespace Einpy.Geo
open Matrix Finset
variable {R : Type*} [CommRing R] [Algebra ℚ R] (d : Fin 2 → Derivation ℚ R R) (g : Matrix (Fin 2) (Fin 2) R)

/-- In two dimensions the Ricci tensor is `R_0101 g_ab / det g`. -/
theorem ricci_two (hd : ∀ i j x, d i (d j x) = d j (d i x)) (hs : g.transpose = g) (hu : IsUnit g.det) (a b : Fin 2) :
    g.det * ricci d g a b = riemannLow d g 0 1 0 1 * g a b := by
  have x := riemannLow_antisymm12 d g hd hs hu
  have y := riemannLow_antisymm34 d g
  have z12 : ∀ i k m, riemannLow d g i i k m = 0 := fun i k m => eq_zero_of_eq_neg (x i i k m)
  have z34 : ∀ i j k, riemannLow d g i j k k = 0 := fun i j k => eq_zero_of_eq_neg (y i j k k)
  have e1 : riemannLow d g 1 0 0 1 = - riemannLow d g 0 1 0 1 := x 1 0 0 1
  have e2 : riemannLow d g 0 1 1 0 = - riemannLow d g 0 1 0 1 := y 0 1 1 0
  have e3 : riemannLow d g 1 0 1 0 = riemannLow d g 0 1 0 1 := by rw [x 1 0 1 0, e2, neg_neg]
  obtain ⟨v, hv⟩ := hu.exists_right_inv
  have hinv : ∀ i j, g.det * g⁻¹ i j = g.adjugate i j := by
    intro i j
    have h1 : g.det • g⁻¹ = g.adjugate := by
      rw [Matrix.inv_def, smul_smul, Ring.mul_inverse_cancel _ hu, one_smul]
    rw [← h1]; rfl
  rw [ricci_low d g hs hu]
  simp only [tr2, mul_sum, ← mul_assoc, hinv]
  rw [Matrix.adjugate_fin_two]
  have s := g_symm g hs 1 0
  fin_cases a <;> fin_cases b <;> simp [Fin.sum_univ_two, z12, z34, e1, e2, e3, s] <;> ring

theorem scalar_two (hd : ∀ i j x, d i (d j x) = d j (d i x)) (hs : g.transpose = g) (hu : IsUnit g.det) :
    g.det * scalar d g = 2 * riemannLow d g 0 1 0 1 := by
  have e : g.det * scalar d g = tr2 g (fun a b => riemannLow d g 0 1 0 1 * g a b) := by
    rw [scalar_eq]
    rw [← tr2_mul_left]
    congr 1
    funext a b
    exact ricci_two d g hd hs hu a b
  rw [e, tr2_const g hs hu, Fintype.card_fin, two_mul]
  push_cast
  rw [two_smul]

/-- In two dimensions the Einstein tensor vanishes. -/
theorem einstein_two (hd : ∀ i j x, d i (d j x) = d j (d i x)) (hs : g.transpose = g) (hu : IsUnit g.det) (a b : Fin 2) :
    einstein d g a b = 0 := by
  have h1 := ricci_two d g hd hs hu a b
  have h2 := scalar_two d g hd hs hu
  have h3 := two_half (scalar d g * g a b)
  have : g.det * (2 * einstein d g a b) = 0 := by
    unfold einstein
    linear_combination 2 * h1 - h2 * g a b - g.det * h3
  exact eq_zero_of_two_mul ((hu.mul_right_eq_zero).mp this)

end Einpy.Geo

namespace Einpy
open Classical

section
variable {R : Type*} [CommRing R] [Algebra ℚ R] {n : Nat} (D : String → Derivation ℚ R R)

/-- `∇_k T_asrq = ∂_k T_asrq − Σ_i (Γ^i_ka T_isrq + Γ^i_ks T_airq + Γ^i_kr T_asiq + Γ^i_kq T_asri)` with the components of
the objects `Γ` and `T` returned by the library. -/
def covDeriv4 (d : Fin n → Derivation ℚ R R) (Γ T : NDArr R) (k a s r q : Fin n) : R :=
  d k (T.get [(a : Nat), s, r, q]) - ∑ i : Fin n,
    (Γ.get [(i : Nat), k, a] * T.get [(i : Nat), s, r, q] + Γ.get [(i : Nat), k, s] * T.get [(a : Nat), i, r, q]
      + Γ.get [(i : Nat), k, r] * T.get [(a : Nat), s, i, q] + Γ.get [(i : Nat), k, q] * T.get [(a : Nat), s, r, i])

/-- **C111**.  The lowered Riemann tensor satisfies the second Bianchi identity with the Christoffel symbols of the library. -/
theorem C111_second_bianchi (m : MetricV R) (g : Matrix (Fin n) (Fin n) R) (h : IsSpace m g) (hd : Commuting D m.syms n) :
    Returns (christoffelFromMetric D m) fun Γ => Returns (riemannFromMetric D m) fun t =>
    Returns (t.changeConfig ['l', 'l', 'l', 'l'] none) fun u => ∀ k a s r q : Fin n,
      covDeriv4 (coordD D m.syms n) Γ.arr u.arr k a s r q + covDeriv4 (coordD D m.syms n) Γ.arr u.arr r a s q k
        + covDeriv4 (coordD D m.syms n) Γ.arr u.arr q a s k r = 0 := by
  obtain ⟨c, ec, hc, hv⟩ := christoffel_ok D m g h
  obtain ⟨b, e', hb, hb'⟩ := riemann_ok D m g h
  obtain ⟨u, eu, -, -, -, hu⟩ := riemann_low_ok D _ m.syms g
    (reps_riemann D h.syms (some m) (nm := some "RiemannCurvatureTensor") hb hb') none m rfl h.reps
  have hu := (comp_four _ _).mp hu
  have hv := (comp_three _ _).mp hv
  refine ⟨_, ec, _, e', u, eu, fun k a s r q => ?_⟩
  have key : ∀ k a s r q : Fin n, covDeriv4 (coordD D m.syms n) c u.arr k a s r q =
      Geo.covLow (coordD D m.syms n) g k a s r q := by
    intro k a s r q
    simp only [covDeriv4, hu, hv, Geo.covLow, Geo.cov2, Finset.sum_add_distrib]
    ring
  show covDeriv4 (coordD D m.syms n) c u.arr k a s r q + covDeriv4 (coordD D m.syms n) c u.arr r a s q k
        + covDeriv4 (coordD D m.syms n) c u.arr q a s k r = 0
  rw [key, key, key]
  exact Geo.bianchi2 _ g hd h.symm h.reps.2.1 k a s r q

/-- **C112**.  In two dimensions the Einstein tensor vanishes, the Ricci tensor is `½ R g_ab`, and the Ricci scalar is twice the
Gaussian curvature `R_0101 / det g`. -/
theorem C112_two_dimensions (m : MetricV R) (g : Matrix (Fin 2) (Fin 2) R) (h : IsSpace m g) (hd : Commuting D m.syms 2) :
    Returns (riemannFromMetric D m) fun t => Returns (t.changeConfig ['l', 'l', 'l', 'l'] none) fun u =>
    Returns (ricciFromMetric D m) fun Rc => Returns (scalarFromMetric D m) fun S =>
    Returns (einsteinFromMetric D m) fun G =>
      (∀ a b : Fin 2, G.arr.get [(a : Nat), b] = 0) ∧
      (∀ a b : Fin 2, Rc.arr.get [(a : Nat), b] = (2 : ℚ)⁻¹ • (S.expr * g a b)) ∧
      (g 0 0 * g 1 1 - g 0 1 * g 1 0) * S.expr = 2 * u.arr.get [0, 1, 0, 1] := by
  obtain ⟨b, e', hb, hb'⟩ := riemann_ok D m g h
  obtain ⟨u, eu, -, -, -, hu⟩ := riemann_low_ok D _ m.syms g
    (reps_riemann D h.syms (some m) (nm := some "RiemannCurvatureTensor") hb hb') none m rfl h.reps
  obtain ⟨c, e'', hcc, hc'⟩ := ricci_ok D m g h
  obtain ⟨s, es, hs1, hs2⟩ := scalar_ok D m g h
  obtain ⟨G, eG, hG1, hG2⟩ := einstein_ok D m g h
  have hu := (comp_four _ _).mp hu 0 1 0 1
  have hr := (comp_two _ _).mp hc'
  have hG := (comp_two _ _).mp hG2
  have hz := Geo.einstein_two (coordD D m.syms 2) g hd h.symm h.reps.2.1
  refine ⟨_, e', u, eu, _, e'', _, es, _, eG, fun a b => ?_, fun a b => ?_, ?_⟩
  · show G.get _ = 0
    rw [hG]; exact hz a b
  · show c.get _ = (2 : ℚ)⁻¹ • (s.get [] * g a b)
    rw [hr, hs2]
    exact sub_eq_zero.mp (hz a b)
  · show _ * s.get [] = 2 * u.arr.get [((0 : Fin 2) : Nat), ((1 : Fin 2) : Nat), ((0 : Fin 2) : Nat), ((1 : Fin 2) : Nat)]
    rw [hs2, hu, ← Matrix.det_fin_two]
    exact Geo.scalar_two (coordD D m.syms 2) g hd h.symm h.reps.2.1

/-- raising the first index of the Weyl tensor -/
theorem weyl_up_ok (m : MetricV R) (g : Matrix (Fin n) (Fin n) R) (h : IsSpace m g) (a : NDArr R) (ha : a.IsCube 4 n)
    (hT : a.comp 4 n = tns4 (Geo.weyl (coordD D m.syms n) g)) :
    ∃ t', Obj.changeConfig (⟨.weyl, a, ['l', 'l', 'l', 'l'], 4, m.syms, some m, some "WeylTensor"⟩ : Obj R)
        ['u', 'l', 'l', 'l'] none = .ok t' ∧
      ∀ i k l q : Fin n, t'.arr.get [(i : Nat), k, l, q] = ∑ j : Fin n, g⁻¹ i j * Geo.weyl (coordD D m.syms n) g j k l q := by
  have h0 : Reps (⟨.weyl, a, ['l', 'l', 'l', 'l'], 4, m.syms, some m, some "WeylTensor"⟩ : Obj R) .weyl m.syms g
      ['l', 'l', 'l', 'l'] (tns4 (Geo.weyl (coordD D m.syms n) g)) :=
    Reps.of .weyl a _ m.syms _ _ g _ ha valid_llll rfl h.syms rfl hT
  obtain ⟨t', e, h', hc, -⟩ := changeConfig_reps h0 rfl none m rfl h.reps valid_llll ['u', 'l', 'l', 'l'] rfl valid_ulll
  refine ⟨t', e, ?_⟩
  have hF : (fun s : Fin 4 => slotMatrix g ((['l', 'l', 'l', 'l'] : Config).getD s 'l')
      (t'.config.getD s 'l')) = Function.update (fun _ => 1) 0 g⁻¹ := by
    rw [hc]
    funext s
    fin_cases s <;> simp [slotMatrix]
  have hcomp := h'.comp
  rw [hF, applySlots_single] at hcomp
  have hcomp2 : t'.arr.comp 4 n = tns4 fun i k l q => ∑ j : Fin n, g⁻¹ i j * Geo.weyl (coordD D m.syms n) g j k l q := by
    rw [hcomp]
    funext i
    simp only [tns4]
    refine Finset.sum_congr rfl fun k _ => ?_
    simp
  exact (comp_four _ _).mp hcomp2

/-- the logarithmic derivative of a conformal factor -/
theorem conf_factor (d : Fin n → Derivation ℚ R R) (hd : ∀ i j x, d i (d j x) = d j (d i x)) (u : R) (hun : IsUnit u) :
    ∃ w : Fin n → R, (∀ a, d a u = 2 * (u * w a)) ∧ ∀ a b, d a (w b) = d b (w a) := by
  obtain ⟨v, huv⟩ := hun.exists_right_inv
  have hdv : ∀ a, d a v = -(v * v * d a u) := by
    intro a
    have h1 := congrArg (d a) huv
    rw [Derivation.leibniz, Derivation.map_one_eq_zero, smul_eq_mul, smul_eq_mul] at h1
    linear_combination v * h1 - (d a v) * huv
  refine ⟨fun a => Geo.half (v * d a u), fun a => ?_, fun a b => ?_⟩
  · have h2 := Geo.two_half (v * d a u)
    linear_combination (-(d a u)) * huv - u * h2
  · show d a (Geo.half (v * d b u)) = d b (Geo.half (v * d a u))
    unfold Geo.half
    rw [Derivation.map_smul, Derivation.map_smul, Derivation.leibniz, Derivation.leibniz, hdv, hdv, hd a b]
    simp only [smul_eq_mul]
    congr 1
    ring

/-- **C113** (Weyl tensor).  If the metric is multiplied by an arbitrary invertible function `u`, the covariant Weyl tensor is
multiplied by `u`, and the Weyl tensor with the first index raised is unchanged. -/
theorem C113_conformal_weyl (m m' : MetricV R) (g : Matrix (Fin n) (Fin n) R) (u : R) (hun : IsUnit u) (h : IsSpace m g)
    (h' : IsSpace m' (u • g)) (hs : m'.syms = m.syms) (hd : Commuting D m.syms n) (h4 : 3 < n) :
    Returns (weylFromMetric D m) fun W => Returns (weylFromMetric D m') fun W' =>
      (∀ i k l q : Fin n, W'.arr.get [(i : Nat), k, l, q] = u * W.arr.get [(i : Nat), k, l, q]) ∧
      Returns (W.changeConfig ['u', 'l', 'l', 'l'] none) fun V => Returns (W'.changeConfig ['u', 'l', 'l', 'l'] none) fun V' =>
        ∀ i k l q : Fin n, V'.arr.get [(i : Nat), k, l, q] = V.arr.get [(i : Nat), k, l, q] := by
  obtain ⟨a, e, ha, hv⟩ := weyl_ok D m g h h4
  obtain ⟨b, f, hb, hw⟩ := weyl_ok D m' (u • g) h' h4
  obtain ⟨V, eV, hV⟩ := weyl_up_ok D m g h a ha hv
  obtain ⟨V', eV', hV'⟩ := weyl_up_ok D m' (u • g) h' b hb hw
  obtain ⟨w, hw1, hw2⟩ := conf_factor (coordD D m.syms n) hd u hun
  obtain ⟨v, huv⟩ := hun.exists_right_inv
  have hv := (comp_four _ _).mp hv
  have hw := (comp_four _ _).mp hw
  have key : ∀ i k l q : Fin n, Geo.weyl (coordD D m'.syms n) (u • g) i k l q = u * Geo.weyl (coordD D m.syms n) g i k l q := by
    intro i k l q
    rw [hs]
    exact Geo.conf_weyl _ g w h.symm h.reps.2.1 u hun hw1 hw2 (by rw [Fintype.card_fin]; omega) i k l q
  refine ⟨_, e, _, f, fun i k l q => ?_, V, eV, V', eV', fun i k l q => ?_⟩
  · show b.get _ = u * a.get _
    rw [hv, hw, key]
  · rw [hV, hV']
    refine Finset.sum_congr rfl fun j _ => ?_
    rw [key, Geo.conf_inv g h.symm h.reps.2.1 u v huv, Matrix.smul_apply, smul_eq_mul]
    linear_combination (g⁻¹ i j * Geo.weyl (coordD D m.syms n) g j k l q) * huv

/-- **C113** (constant factor).  If the metric is multiplied by an invertible constant, the Christoffel symbols, the Riemann
tensor, the Ricci tensor and the Einstein tensor are unchanged and the Ricci scalar is divided by the constant. -/
theorem C113_constant_factor (m m' : MetricV R) (g : Matrix (Fin n) (Fin n) R) (u : R) (hun : IsUnit u) (h : IsSpace m g)
    (h' : IsSpace m' (u • g)) (hs : m'.syms = m.syms) (hc : ∀ i, coordD D m.syms n i u = 0) :
    SameTensor 3 n (christoffelFromMetric D m) (christoffelFromMetric D m') ∧
    SameTensor 4 n (riemannFromMetric D m) (riemannFromMetric D m') ∧
    SameTensor 2 n (ricciFromMetric D m) (ricciFromMetric D m') ∧
    SameTensor 2 n (einsteinFromMetric D m) (einsteinFromMetric D m') ∧
    Returns (scalarFromMetric D m) fun S => Returns (scalarFromMetric D m') fun S' => u * S'.expr = S.expr := by
  obtain ⟨v, huv⟩ := hun.exists_right_inv
  have hC : Geo.christoffel (coordD D m.syms n) (u • g) = Geo.christoffel (coordD D m.syms n) g := by
    funext i j k
    unfold Geo.christoffel
    rw [Geo.conf_inv g h.symm h.reps.2.1 u v huv]
    congr 1
    refine Finset.sum_congr rfl fun a _ => ?_
    simp only [Matrix.smul_apply, smul_eq_mul, Derivation.leibniz, hc, mul_zero, add_zero]
    linear_combination (g⁻¹ i a * (coordD D m.syms n k (g a j) + coordD D m.syms n j (g a k) - coordD D m.syms n a (g j k))) * huv
  have hR : Geo.riemann (coordD D m.syms n) (u • g) = Geo.riemann (coordD D m.syms n) g := by
    funext i j k l
    unfold Geo.riemann
    rw [hC]
  have hRc : Geo.ricci (coordD D m.syms n) (u • g) = Geo.ricci (coordD D m.syms n) g := by
    funext i j
    unfold Geo.ricci
    rw [hR]
  have hS : u * Geo.scalar (coordD D m.syms n) (u • g) = Geo.scalar (coordD D m.syms n) g := by
    unfold Geo.scalar
    rw [hRc, Geo.conf_inv g h.symm h.reps.2.1 u v huv]
    simp only [Finset.mul_sum, Matrix.smul_apply, smul_eq_mul]
    refine Finset.sum_congr rfl fun a _ => Finset.sum_congr rfl fun b _ => ?_
    linear_combination (g⁻¹ a b * Geo.ricci (coordD D m.syms n) g a b) * huv
  have hE : Geo.einstein (coordD D m.syms n) (u • g) = Geo.einstein (coordD D m.syms n) g := by
    funext i j
    unfold Geo.einstein
    rw [hRc, ← hS, Matrix.smul_apply, smul_eq_mul]
    congr 2
    ring
  refine ⟨?_, ?_, ?_, ?_, ?_⟩
  · obtain ⟨a, e, ha, hv⟩ := christoffel_ok D m g h
    obtain ⟨b, f, hb, hw⟩ := christoffel_ok D m' _ h'
    exact sameTensor_of e f hs.symm ha hb (by rw [hv, hw, hs, hC])
  · obtain ⟨a, e, ha, hv⟩ := riemann_ok D m g h
    obtain ⟨b, f, hb, hw⟩ := riemann_ok D m' _ h'
    exact sameTensor_of e f hs.symm ha hb (by rw [hv, hw, hs, hR])
  · obtain ⟨a, e, ha, hv⟩ := ricci_ok D m g h
    obtain ⟨b, f, hb, hw⟩ := ricci_ok D m' _ h'
    exact sameTensor_of e f hs.symm ha hb (by rw [hv, hw, hs, hRc])
  · obtain ⟨a, e, ha, hv⟩ := einstein_ok D m g h
    obtain ⟨b, f, hb, hw⟩ := einstein_ok D m' _ h'
    exact sameTensor_of e f hs.symm ha hb (by rw [hv, hw, hs, hE])
  · obtain ⟨a, e, ha, hv⟩ := scalar_ok D m g h
    obtain ⟨b, f, hb, hw⟩ := scalar_ok D m' _ h'
    refine ⟨_, e, _, f, ?_⟩
    show u * b.get [] = a.get []
    rw [hv, hw, hs]
    exact hS

end

/-! ## Concrete cases -/

/-- the second Bianchi identity for a curved four-dimensional space -/
example : Returns (christoffelFromMetric polD exM4) fun Γ => Returns (riemannFromMetric polD exM4) fun t =>
    Returns (t.changeConfig ['l', 'l', 'l', 'l'] none) fun u => ∀ k a s r q : Fin 4,
      covDeriv4 (coordD polD exM4.syms 4) Γ.arr u.arr k a s r q + covDeriv4 (coordD polD exM4.syms 4) Γ.arr u.arr r a s q k
        + covDeriv4 (coordD polD exM4.syms 4) Γ.arr u.arr q a s k r = 0 :=
  C111_second_bianchi polD exM4 exG4 exM4_space fun _ _ x => polD_comm _ _ x

/-- a curved surface -/
noncomputable def exG2 : Matrix (Fin 2) (Fin 2) Pol := !![1, polP; polP, 1 + polP ^ 2]
/-- and its metric object -/
noncomputable def exM2 : MetricV Pol := ⟨NDArr.ofMatrix exG2, ['l', 'l'], ["t", "x"], none⟩

theorem exG2_det : exG2.det = 1 := by rw [Matrix.det_fin_two]; simp [exG2]; ring

theorem exM2_space : IsSpace exM2 exG2 :=
  ⟨⟨rfl, by rw [exG2_det]; exact isUnit_one, Or.inl ⟨rfl, toMatrix_ofMatrix _⟩⟩, rfl,
    by ext i j; fin_cases i <;> fin_cases j <;> rfl⟩

example : Returns (einsteinFromMetric polD exM2) fun G => ∀ a b : Fin 2, G.arr.get [(a : Nat), b] = 0 := by
  obtain ⟨_, -, _, -, _, -, _, -, G, eG, h, -⟩ := C112_two_dimensions polD exM2 exG2 exM2_space fun _ _ x => polD_comm _ _ x
  exact ⟨G, eG, h⟩

/-! Conformal factors that are not constant need an invertible non-constant function: in power series in `t` such a function is
`1 + t`.  The space is `dt² + (1+t)² dx² + (1+t) dy² + dz²`. -/

/-- `sympy.diff` on power series in `t` -/
noncomputable def serD : String → Derivation ℚ (PowerSeries ℚ) (PowerSeries ℚ) :=
  fun s => if s = "t" then PowerSeries.derivative ℚ else 0

/-- the conformal factor `1 + t` -/
noncomputable def serU : PowerSeries ℚ := 1 + PowerSeries.X

theorem serU_unit : IsUnit serU := by
  rw [PowerSeries.isUnit_iff_constantCoeff]
  simp [serU]

/-- a curved space over power series -/
noncomputable def serG : Matrix (Fin 4) (Fin 4) (PowerSeries ℚ) := Matrix.diagonal ![1, serU ^ 2, serU, 1]

theorem serG_unit : IsUnit serG.det := by
  rw [serG, Matrix.det_diagonal, Fin.prod_univ_four]
  simp only [Matrix.cons_val]
  exact ((isUnit_one.mul (serU_unit.pow 2)).mul serU_unit).mul isUnit_one

/-- metric object of a multiple of `serG` -/
noncomputable def serM (u : PowerSeries ℚ) : MetricV (PowerSeries ℚ) :=
  ⟨NDArr.ofMatrix (u • serG), ['l', 'l'], ["t", "x", "y", "z"], none⟩

theorem serM_space (u : PowerSeries ℚ) (hu : IsUnit u) : IsSpace (serM u) (u • serG) :=
  ⟨⟨rfl, by rw [Matrix.det_smul]; exact (hu.pow _).mul serG_unit, Or.inl ⟨rfl, toMatrix_ofMatrix _⟩⟩, rfl,
    by rw [Matrix.transpose_smul, serG, Matrix.diagonal_transpose]⟩

theorem serD_comm (s t : String) (x : PowerSeries ℚ) : serD s (serD t x) = serD t (serD s x) := by
  unfold serD
  by_cases h1 : s = "t" <;> by_cases h2 : t = "t" <;> simp [h1, h2]

/-- the conformal factor is not constant -/
example : serD "t" serU ≠ 0 := by
  simp [serD, serU]

example : Returns (weylFromMetric serD (serM 1)) fun W => Returns (weylFromMetric serD (serM serU)) fun W' =>
    ∀ i k l q : Fin 4, W'.arr.get [(i : Nat), k, l, q] = serU * W.arr.get [(i : Nat), k, l, q] := by
  have h1 := serM_space 1 isUnit_one
  rw [one_smul] at h1
  obtain ⟨W, e, W', e', h, -⟩ := C113_conformal_weyl serD (serM 1) (serM serU) serG serU serU_unit h1
    (serM_space serU serU_unit) rfl (fun _ _ x => serD_comm _ _ x) (by norm_num)
  exact ⟨W, e, W', e', h⟩

end Einpy
