import Verif.Curv.Props

/-!
# Properties C21, C22 and concrete cases for C13 – C22
-/

set_option linter.unusedSectionVars false

namespace Einpy
open Classical

section
variable {R : Type*} [CommRing R] [Algebra ℚ R] {n : Nat} (D : String → Derivation ℚ R R)

/-! ## C21 -/

/-- The constants do not depend on the coordinates, and `8πG` can be divided by. -/
structure Consts.Admissible (K : Consts R) (d : Fin n → Derivation ℚ R R) : Prop where
  c : ∀ i, d i K.c = 0
  G : ∀ i, d i K.G = 0
  Lam : ∀ i, d i K.Lam = 0
  pi : ∀ i, d i K.pi = 0
  unit : IsUnit (8 * K.pi * K.G)

theorem deriv_ringInverse (d : Derivation ℚ R R) (x : R) (hx : IsUnit x) (h : d x = 0) :
    d (Ring.inverse x) = 0 := by
  have h1 : x * Ring.inverse x = 1 := Ring.mul_inverse_cancel x hx
  have h2 := congrArg d h1
  rw [Derivation.leibniz, h, smul_zero, add_zero, Derivation.map_one_eq_zero, smul_eq_mul] at h2
  exact (hx.mul_right_eq_zero).mp h2

theorem div2_const_mul (d : Fin n → Derivation ℚ R R) (g : Matrix (Fin n) (Fin n) R) (k : R)
    (hk : ∀ i, d i k = 0) (T : Fin n → Fin n → R) (b : Fin n) :
    Geo.div2 d g (fun a b => k * T a b) b = k * Geo.div2 d g T b := by
  have h : ∀ i a b, Geo.cov2 d g (fun a b => k * T a b) i a b = k * Geo.cov2 d g T i a b := by
    intro i a b
    unfold Geo.cov2
    rw [Derivation.leibniz, hk, smul_zero, add_zero, smul_eq_mul, mul_sub, mul_sub, Finset.mul_sum,
      Finset.mul_sum]
    congr 1
    · congr 1; exact Finset.sum_congr rfl fun _ _ => by ring
    · exact Finset.sum_congr rfl fun _ _ => by ring
  unfold Geo.div2
  simp only [h, Finset.mul_sum]
  exact Finset.sum_congr rfl fun _ _ => Finset.sum_congr rfl fun _ _ => by ring

theorem stress_ok (K : Consts R) (m : MetricV R) (g : Matrix (Fin n) (Fin n) R) (h : IsSpace m g) :
    ∃ a : NDArr R, stressEnergyFromMetric D K m =
      .ok ⟨.stressEnergy, a, ['l', 'l'], 2, m.syms, some m, some "StressEnergyMomentumTensor"⟩ ∧
      a.IsCube 2 n ∧ a.comp 2 n = tns2 fun i j => (K.c ^ 4 * Ring.inverse (8 * K.pi * K.G)) *
        (Geo.einstein (coordD D m.syms n) g i j - K.Lam * g i j) := by
  obtain ⟨lo, up, e1, e2, s1, s2, g1, g2, -, -⟩ := metric_dict m g h.reps
  obtain ⟨b, e', hb, hc'⟩ := einstein_ok D m g h
  obtain ⟨z, ez, zc, zv⟩ := zip2_ok (fun e x => (K.c ^ 4 * Ring.inverse (8 * K.pi * K.G)) *
      (e - K.Lam * x)) b lo.arr _ g hb s1 hc'
    (fun i j => by rw [← g1]; rfl)
  refine ⟨z, ?_, zc, zv⟩
  unfold stressEnergyFromMetric
  simp only [e', bind, Except.bind, e1, ez]
  exact mkKind_cube .stressEnergy z ['l', 'l'] m.syms _ _ valid_ll zc h.syms rfl

/-- **C21** (what holds).  The stress-energy tensor is symmetric, has zero covariant divergence, and satisfies the
field equations with the sign of the cosmological term reversed: `(8πG) T_ab = c⁴ (R_ab − ½ R g_ab − Λ g_ab)`.
Missing from the full claim: the documented sign `+Λ`, see `C21_documented_iff` and `C21_documented_refuted`. -/
theorem C21_stress_energy_partial (K : Consts R) (m : MetricV R) (g : Matrix (Fin n) (Fin n) R)
    (h : IsSpace m g) (hd : Commuting D m.syms n) (hK : K.Admissible (coordD D m.syms n)) :
    Returns (ricciFromMetric D m) fun Rc => Returns (scalarFromMetric D m) fun S =>
    Returns (stressEnergyFromMetric D K m) fun T =>
      T.kind = .stressEnergy ∧ T.config = ['l', 'l'] ∧ T.arr.shape = [n, n] ∧ T.parent = some m ∧
      (∀ a b : Fin n, (8 * K.pi * K.G) * T.arr.get [(a : Nat), b] =
        K.c ^ 4 * (Rc.arr.get [(a : Nat), b] - (2 : ℚ)⁻¹ • (S.expr * g a b) - K.Lam * g a b)) ∧
      (∀ a b : Fin n, T.arr.get [(a : Nat), b] = T.arr.get [(b : Nat), a]) ∧
      ∀ b : Fin n, Geo.div2 (coordD D m.syms n) g (fun a b => T.arr.get [(a : Nat), b]) b = 0 := by
  obtain ⟨c, e'', hcc, hc'⟩ := ricci_ok D m g h
  obtain ⟨s, es, hs1, hs2⟩ := scalar_ok D m g h
  obtain ⟨T, eT, hT1, hT2⟩ := stress_ok D K m g h
  have hr := (comp_two _ _).mp hc'
  have hT := (comp_two _ _).mp hT2
  refine ⟨_, e'', _, es, _, eT, rfl, rfl, hT1, rfl, ?_, ?_, ?_⟩
  · intro a b
    simp only [hT, hr, Obj.expr, hs2]
    rw [show Geo.einstein (coordD D m.syms n) g a b = Geo.ricci (coordD D m.syms n) g a b -
      (2 : ℚ)⁻¹ • (Geo.scalar (coordD D m.syms n) g * g a b) from rfl]
    linear_combination (K.c ^ 4 * (Geo.ricci (coordD D m.syms n) g a b -
      (2 : ℚ)⁻¹ • (Geo.scalar (coordD D m.syms n) g * g a b) - K.Lam * g a b)) *
      Ring.mul_inverse_cancel _ hK.unit
  · intro a b
    simp only [hT]
    rw [Geo.einstein_symm _ g hd h.symm h.reps.2.1 a b, Geo.g_symm g h.symm a b]
  · intro b
    simp only [hT]
    have hk : ∀ i, coordD D m.syms n i (K.c ^ 4 * Ring.inverse (8 * K.pi * K.G)) = 0 := by
      intro i
      have e8 : coordD D m.syms n i (8 * K.pi * K.G) = 0 := by
        have h8 : coordD D m.syms n i (8 : R) = 0 := by
          rw [← map_ofNat (algebraMap ℚ R) 8]; exact Derivation.map_algebraMap _ _
        rw [Derivation.leibniz, Derivation.leibniz, hK.pi, hK.G, h8]; simp
      rw [Derivation.leibniz, deriv_ringInverse _ _ hK.unit e8, Derivation.leibniz_pow, hK.c]
      simp
    rw [div2_const_mul _ g _ hk, Geo.div2_sub, Geo.div2_scalar_g _ g h.symm h.reps.2.1, hK.Lam]
    rw [show Geo.div2 (coordD D m.syms n) g (fun a b => Geo.einstein (coordD D m.syms n) g a b) b = 0 from
      Geo.div_einstein _ g hd h.symm h.reps.2.1 b]
    simp

/-- **C21** (the documented equation).  With `c` and `8πG` invertible, the tensor the library returns satisfies the
documented equation `c⁴ (R_ab − ½ R g_ab + Λ g_ab) = 8πG T_ab` if and only if the cosmological constant is zero. -/
theorem C21_documented_iff (K : Consts R) (m : MetricV R) (g : Matrix (Fin n) (Fin n) R)
    (h : IsSpace m g) (hn : 0 < n) (hu : IsUnit (8 * K.pi * K.G)) (hc : IsUnit K.c) :
    Returns (ricciFromMetric D m) fun Rc => Returns (scalarFromMetric D m) fun S =>
    Returns (stressEnergyFromMetric D K m) fun T =>
      ((∀ a b : Fin n, K.c ^ 4 * (Rc.arr.get [(a : Nat), b] - (2 : ℚ)⁻¹ • (S.expr * g a b)
          + K.Lam * g a b) = (8 * K.pi * K.G) * T.arr.get [(a : Nat), b]) ↔ K.Lam = 0) := by
  obtain ⟨c, e'', hcc, hc'⟩ := ricci_ok D m g h
  obtain ⟨s, es, hs1, hs2⟩ := scalar_ok D m g h
  obtain ⟨T, eT, hT1, hT2⟩ := stress_ok D K m g h
  have hr := (comp_two _ _).mp hc'
  have hT := (comp_two _ _).mp hT2
  refine ⟨_, e'', _, es, _, eT, ?_⟩
  simp only [hT, hr, Obj.expr, hs2]
  have key : ∀ a b, (K.c ^ 4 * (Geo.ricci (coordD D m.syms n) g a b -
      (2 : ℚ)⁻¹ • (Geo.scalar (coordD D m.syms n) g * g a b) + K.Lam * g a b)
      - 8 * K.pi * K.G * (K.c ^ 4 * Ring.inverse (8 * K.pi * K.G) *
        (Geo.einstein (coordD D m.syms n) g a b - K.Lam * g a b)))
      = K.c ^ 4 * (2 * (K.Lam * g a b)) := by
    intro a b
    rw [show Geo.einstein (coordD D m.syms n) g a b = Geo.ricci (coordD D m.syms n) g a b -
      (2 : ℚ)⁻¹ • (Geo.scalar (coordD D m.syms n) g * g a b) from rfl]
    linear_combination (-(K.c ^ 4 * (Geo.ricci (coordD D m.syms n) g a b -
      (2 : ℚ)⁻¹ • (Geo.scalar (coordD D m.syms n) g * g a b) - K.Lam * g a b))) *
      Ring.mul_inverse_cancel _ hu
  constructor
  · intro hall
    have hz : ∀ a b, K.Lam * g a b = 0 := by
      intro a b
      have := key a b
      rw [hall a b, sub_self] at this
      exact Geo.eq_zero_of_two_mul (((hc.pow 4).mul_right_eq_zero).mp this.symm)
    have h1 : ((1 : Matrix (Fin n) (Fin n) R) ⟨0, hn⟩ ⟨0, hn⟩) = 1 := by simp
    rw [← Matrix.mul_nonsing_inv g h.reps.2.1, Matrix.mul_apply] at h1
    calc K.Lam = K.Lam * 1 := by ring
      _ = ∑ j, K.Lam * g ⟨0, hn⟩ j * g⁻¹ j ⟨0, hn⟩ := by
        rw [← h1, Finset.mul_sum]; exact Finset.sum_congr rfl fun _ _ => by ring
      _ = 0 := Finset.sum_eq_zero fun j _ => by rw [hz, zero_mul]
  · intro h0 a b
    have := key a b
    rw [h0] at this ⊢
    linear_combination this

/-! ## C22 -/

/-- Two calls return tensors with the same configuration and the same components. -/
def SameTensor (r n : Nat) (x y : Py (Obj R)) : Prop :=
  ∃ t u, x = .ok t ∧ y = .ok u ∧ t.config = u.config ∧ t.syms = u.syms ∧
    t.arr.shape = List.replicate r n ∧ u.arr.shape = List.replicate r n ∧
    ∀ i : Fin r → Fin n, t.arr.get (multiIx i) = u.arr.get (multiIx i)

theorem sameTensor_of {r n : Nat} {x y : Py (Obj R)} {k k' : Kind} {a b : NDArr R} {c : Config}
    {o : Nat} {s s' : List String} {p p' : Option (MetricV R)} {nm nm' : Option String}
    (hx : x = .ok ⟨k, a, c, o, s, p, nm⟩) (hy : y = .ok ⟨k', b, c, o, s', p', nm'⟩) (hs : s = s')
    (ha : a.IsCube r n) (hb : b.IsCube r n) (h : a.comp r n = b.comp r n) : SameTensor r n x y :=
  ⟨_, _, hx, hy, rfl, hs, ha, hb, fun i => congrFun h i⟩

/-- **C22**.  Two metric objects of the same space with the same coordinates — in particular the covariant and the
contravariant one — give the same Christoffel symbols, Riemann, Ricci, scalar, Einstein, stress-energy, Schouten and
Weyl tensors. -/
theorem C22_metric_supply (K : Consts R) (m m' : MetricV R) (g : Matrix (Fin n) (Fin n) R)
    (h : IsSpace m g) (h' : IsSpace m' g) (hs : m.syms = m'.syms) :
    SameTensor 3 n (christoffelFromMetric D m) (christoffelFromMetric D m') ∧
    SameTensor 4 n (riemannFromMetric D m) (riemannFromMetric D m') ∧
    SameTensor 2 n (ricciFromMetric D m) (ricciFromMetric D m') ∧
    SameTensor 0 n (scalarFromMetric D m) (scalarFromMetric D m') ∧
    SameTensor 2 n (einsteinFromMetric D m) (einsteinFromMetric D m') ∧
    SameTensor 2 n (stressEnergyFromMetric D K m) (stressEnergyFromMetric D K m') ∧
    (3 ≤ n → SameTensor 2 n (schoutenFromMetric D m) (schoutenFromMetric D m')) ∧
    (3 ≤ n → SameTensor 4 n (weylFromMetric D m) (weylFromMetric D m')) := by
  refine ⟨?_, ?_, ?_, ?_, ?_, ?_, fun hn => ?_, fun hn => ?_⟩
  · obtain ⟨a, e, ha, hv⟩ := christoffel_ok D m g h
    obtain ⟨b, f, hb, hw⟩ := christoffel_ok D m' g h'
    exact sameTensor_of e f hs ha hb (by rw [hv, hw, hs])
  · obtain ⟨a, e, ha, hv⟩ := riemann_ok D m g h
    obtain ⟨b, f, hb, hw⟩ := riemann_ok D m' g h'
    exact sameTensor_of e f hs ha hb (by rw [hv, hw, hs])
  · obtain ⟨a, e, ha, hv⟩ := ricci_ok D m g h
    obtain ⟨b, f, hb, hw⟩ := ricci_ok D m' g h'
    exact sameTensor_of e f hs ha hb (by rw [hv, hw, hs])
  · obtain ⟨a, e, ha, hv⟩ := scalar_ok D m g h
    obtain ⟨b, f, hb, hw⟩ := scalar_ok D m' g h'
    exact sameTensor_of e f hs ha hb (by funext i; simp only [NDArr.comp, multiIx_zero, hv, hw, hs])
  · obtain ⟨a, e, ha, hv⟩ := einstein_ok D m g h
    obtain ⟨b, f, hb, hw⟩ := einstein_ok D m' g h'
    exact sameTensor_of e f hs ha hb (by rw [hv, hw, hs])
  · obtain ⟨a, e, ha, hv⟩ := stress_ok D K m g h
    obtain ⟨b, f, hb, hw⟩ := stress_ok D K m' g h'
    exact sameTensor_of e f hs ha hb (by rw [hv, hw, hs])
  · obtain ⟨a, e, ha, hv⟩ := schouten_ok D m g h hn
    obtain ⟨b, f, hb, hw⟩ := schouten_ok D m' g h' hn
    exact sameTensor_of e f hs ha hb (by rw [hv, hw, hs])
  · rcases Nat.lt_or_ge 3 n with h4 | h4
    · obtain ⟨a, e, ha, hv⟩ := weyl_ok D m g h h4
      obtain ⟨b, f, hb, hw⟩ := weyl_ok D m' g h' h4
      exact sameTensor_of e f hs ha hb (by rw [hv, hw, hs])
    · obtain rfl : n = 3 := by omega
      have e : ∀ m : MetricV R, m.syms.length = 3 → weylFromMetric D m = .ok ⟨.weyl, ⟨[3, 3, 3, 3],
          fun _ => 0⟩, ['l', 'l', 'l', 'l'], 4, m.syms, some m, some "WeylTensor"⟩ := by
        intro m hm
        unfold weylFromMetric
        rw [if_neg (by rw [hm]; omega), if_pos hm]
        exact mkKind_cube (n := 3) .weyl _ ['l', 'l', 'l', 'l'] m.syms _ _ valid_llll rfl hm rfl
      exact sameTensor_of (e m h.syms) (e m' h'.syms) hs rfl rfl rfl

/-- **C22** (inverse).  `metric.inv()` of a covariant metric is such a contravariant metric object. -/
theorem C22_inverse_same_space (m : MetricV R) (g : Matrix (Fin n) (Fin n) R) (h : IsSpace m g)
    (hc : m.config = ['l', 'l']) :
    Returns m.inv fun m' => m'.config = ['u', 'u'] ∧ IsSpace m' g ∧ m'.syms = m.syms := by
  obtain ⟨hs, hu, h1⟩ := h.reps
  have hg : m.arr.toMatrix n = g := by
    rcases h1 with h1 | h1
    · exact h1.2
    · rw [hc] at h1; exact absurd h1.1 (by decide)
  refine ⟨⟨NDArr.ofMatrix g⁻¹, ['u', 'u'], m.syms, changeName m.name ("__" ++ String.ofList ['u', 'u'])⟩,
    ?_, rfl, ⟨⟨rfl, hu, Or.inr ⟨rfl, toMatrix_ofMatrix _⟩⟩, h.syms, h.symm⟩, rfl⟩
  simp only [MetricV.inv, hc, MetricV.changeConfig]
  rw [NDArr.inv_ok m.arr hs (by rw [hg]; exact hu), hg]
  simp

end

/-! ## concrete cases

The curved polynomial space of `Verif/Curv/Example.lean` meets the hypotheses of every theorem above. -/

theorem exCommuting (syms : List String) (n : Nat) : Commuting polD syms n :=
  fun i j x => polD_comm _ _ x

/-- constants with a non-zero cosmological constant -/
noncomputable def exConsts : Consts Pol := ⟨1, 1, 1, 1⟩

theorem exConsts_admissible : exConsts.Admissible (coordD polD exM4.syms 4) := by
  refine ⟨fun i => ?_, fun i => ?_, fun i => ?_, fun i => ?_, ?_⟩
  iterate 4 exact Derivation.map_one_eq_zero _
  simp only [exConsts, mul_one]
  rw [← map_ofNat (algebraMap ℚ Pol) 8]
  exact (isUnit_iff_ne_zero.mpr (by norm_num)).map _

/-- **C21** (refutation).  In the example space with `c = G = Λ = π = 1` (as formal constants) the returned tensor does
not satisfy the documented field equations. -/
theorem C21_documented_refuted :
    Returns (ricciFromMetric polD exM4) fun Rc => Returns (scalarFromMetric polD exM4) fun S =>
    Returns (stressEnergyFromMetric polD exConsts exM4) fun T =>
      ¬ ∀ a b : Fin 4, exConsts.c ^ 4 * (Rc.arr.get [(a : Nat), b] - (2 : ℚ)⁻¹ • (S.expr * exG4 a b)
          + exConsts.Lam * exG4 a b) = (8 * exConsts.pi * exConsts.G) * T.arr.get [(a : Nat), b] := by
  obtain ⟨a, e, b, f, c, k, h⟩ := C21_documented_iff polD exConsts exM4 exG4 exM4_space (by decide)
    exConsts_admissible.unit isUnit_one
  exact ⟨a, e, b, f, c, k, fun hh => one_ne_zero (h.mp hh)⟩

example := C13_christoffel_formula polD exM4 exG4 exM4_space
example := C14_metric_compatible polD exM4u exG4 exM4u_space
example := C15_riemann_formula polD exM4 exG4 exM4_space
example := C16_lowered_riemann_symmetries polD exM4 exG4 exM4_space (exCommuting _ _)
example := C17_ricci_paths polD exM4 exG4 exM4_space (exCommuting _ _)
example := C17_scalar_paths polD exM4u exG4 exM4u_space
example := C18_einstein polD exM4 exG4 exM4_space (exCommuting _ _)
example := C19_weyl polD exM4 exG4 exM4_space (exCommuting _ _) (by decide)
example := C19_weyl_three polD exM3 exG3 exM3_space (exCommuting _ _)
example := C20_schouten polD exM3 exG3 exM3_space (exCommuting _ _) (by decide)
example := C21_stress_energy_partial polD exConsts exM4 exG4 exM4_space (exCommuting _ _) exConsts_admissible
example := C22_metric_supply polD exConsts exM4 exM4u exG4 exM4_space exM4u_space rfl

/-- the Christoffel symbols of the example do not all vanish -/
example : ∃ i j k, Geo.christoffel (coordD polD exM4.syms 4) exG4 i j k ≠ 0 := by
  by_contra hcon
  push Not at hcon
  apply exM4_nonconstant
  have := Geo.metric_compat (coordD polD exM4.syms 4) exG4 exM4_space.symm exM4_space.reps.2.1 0 0 1
  rw [this]
  simp [hcon]

/-- singular metric -/
example : Raises (christoffelFromMetric polD
    (⟨NDArr.ofMatrix (0 : Matrix (Fin 2) (Fin 2) Pol), ['l', 'l'], ["t", "x"], none⟩ : MetricV Pol)) .nonInvertible :=
  C13_christoffel_singular (n := 2) polD _ rfl (Or.inl rfl) (by
    rw [toMatrix_ofMatrix]; simp)

end Einpy
