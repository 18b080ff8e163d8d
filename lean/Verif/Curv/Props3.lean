import Mathlib.LinearAlgebra.Matrix.Block
import Verif.Curv.Props2
import Verif.Curv.Covariance

/-!
# Property C110: the curvature computed by the library does not depend on the coordinates

`m` is a metric object in old coordinates `x^i` (symbols `m.syms`, expressions in `R`, `sympy.diff` = `D`), `m'` one in new
coordinates `x'^a` (symbols `m'.syms`, expressions in `S`, `sympy.diff` = `E`).  `φ` substitutes the old coordinates by their
expressions `x i` in the new ones, and `m'` holds the components `g'_ab = Σ ∂x^i/∂x'^a ∂x^j/∂x'^b g_ij`.
-/

set_option linter.unusedSectionVars false

namespace Einpy
open Classical

/-- `m'` describes in the coordinates `m'.syms` the space that `m` describes in the coordinates `m.syms`:
the coordinates are related by an invertible substitution obeying the chain rule, and the components of the metrics by the
tensor transformation law. -/
structure SameSpaceIn {R S : Type*} [CommRing R] [Algebra ℚ R] [CommRing S] [Algebra ℚ S] {n : Nat}
    (D : String → Derivation ℚ R R) (E : String → Derivation ℚ S S) (m : MetricV R) (m' : MetricV S)
    (g : Matrix (Fin n) (Fin n) R) (φ : R →+* S) (x : Fin n → S) : Prop where
  old : IsSpace m g
  new : IsSpace m' (Matrix.of fun a b : Fin n =>
    ∑ i, ∑ j, coordD E m'.syms n a (x i) * coordD E m'.syms n b (x j) * φ (g i j))
  comm : Commuting E m'.syms n
  chain : ∀ a f, coordD E m'.syms n a (φ f) = ∑ i, coordD E m'.syms n a (x i) * φ (coordD D m.syms n i f)
  jac : IsUnit (Matrix.of fun i a => coordD E m'.syms n a (x i)).det

section
variable {R S : Type*} [CommRing R] [Algebra ℚ R] [CommRing S] [Algebra ℚ S] {n : Nat}
  {D : String → Derivation ℚ R R} {E : String → Derivation ℚ S S} {m : MetricV R} {m' : MetricV S}
  {g : Matrix (Fin n) (Fin n) R} {φ : R →+* S} {x : Fin n → S}

theorem SameSpaceIn.change (h : SameSpaceIn D E m m' g φ x) :
    Geo.CoordChange (coordD D m.syms n) (coordD E m'.syms n) φ x := ⟨h.comm, h.chain, h.jac⟩

theorem SameSpaceIn.new' (h : SameSpaceIn D E m m' g φ x) : IsSpace m' (Geo.pullMetric (coordD E m'.syms n) φ x g) := h.new

/-- **C110** (scalar).  The Ricci scalar computed in the new coordinates is the Ricci scalar computed in the old ones, with the
coordinates substituted. -/
theorem C110_scalar_invariant (h : SameSpaceIn D E m m' g φ x) :
    Returns (scalarFromMetric D m) fun s => Returns (scalarFromMetric E m') fun s' => s'.expr = φ s.expr := by
  obtain ⟨a, e, ha, hv⟩ := scalar_ok D m g h.old
  obtain ⟨b, e', hb, hw⟩ := scalar_ok E m' _ h.new'
  refine ⟨_, e, _, e', ?_⟩
  show b.get [] = φ (a.get [])
  rw [hv, hw]
  exact Geo.scalar_change h.change h.old.symm h.old.reps.2.1

/-- **C110** (rank two).  The Ricci and Einstein tensors, and for `n ≥ 3` the Schouten tensor, transform as covariant tensors. -/
theorem C110_rank_two (h : SameSpaceIn D E m m' g φ x) :
    (Returns (ricciFromMetric D m) fun t => Returns (ricciFromMetric E m') fun t' => ∀ a b : Fin n,
      t'.arr.get [(a : Nat), b] = ∑ i : Fin n, ∑ j : Fin n,
        coordD E m'.syms n a (x i) * coordD E m'.syms n b (x j) * φ (t.arr.get [(i : Nat), j])) ∧
    (Returns (einsteinFromMetric D m) fun t => Returns (einsteinFromMetric E m') fun t' => ∀ a b : Fin n,
      t'.arr.get [(a : Nat), b] = ∑ i : Fin n, ∑ j : Fin n,
        coordD E m'.syms n a (x i) * coordD E m'.syms n b (x j) * φ (t.arr.get [(i : Nat), j])) ∧
    (3 ≤ n → Returns (schoutenFromMetric D m) fun t => Returns (schoutenFromMetric E m') fun t' => ∀ a b : Fin n,
      t'.arr.get [(a : Nat), b] = ∑ i : Fin n, ∑ j : Fin n,
        coordD E m'.syms n a (x i) * coordD E m'.syms n b (x j) * φ (t.arr.get [(i : Nat), j])) := by
  refine ⟨?_, ?_, fun h3 => ?_⟩
  · obtain ⟨a, e, ha, hv⟩ := ricci_ok D m g h.old
    obtain ⟨b, e', hb, hw⟩ := ricci_ok E m' _ h.new'
    have hv := (comp_two _ _).mp hv
    have hw := (comp_two _ _).mp hw
    refine ⟨_, e, _, e', fun i j => ?_⟩
    simp only [hv, hw]
    exact Geo.ricci_change h.change h.old.symm h.old.reps.2.1 i j
  · obtain ⟨a, e, ha, hv⟩ := einstein_ok D m g h.old
    obtain ⟨b, e', hb, hw⟩ := einstein_ok E m' _ h.new'
    have hv := (comp_two _ _).mp hv
    have hw := (comp_two _ _).mp hw
    refine ⟨_, e, _, e', fun i j => ?_⟩
    simp only [hv, hw]
    exact Geo.einstein_change h.change h.old.symm h.old.reps.2.1 i j
  · obtain ⟨a, e, ha, hv⟩ := schouten_ok D m g h.old h3
    obtain ⟨b, e', hb, hw⟩ := schouten_ok E m' _ h.new' h3
    have hv := (comp_two _ _).mp hv
    have hw := (comp_two _ _).mp hw
    refine ⟨_, e, _, e', fun i j => ?_⟩
    simp only [hv, hw]
    exact Geo.schouten_change h.change h.old.symm h.old.reps.2.1 i j

/-- **C110** (stress-energy).  With constants that correspond under the substitution the stress-energy tensor transforms as a
covariant tensor. -/
theorem C110_stress_energy (h : SameSpaceIn D E m m' g φ x) (K : Consts R) (hu : IsUnit (8 * K.pi * K.G)) :
    Returns (stressEnergyFromMetric D K m) fun t =>
    Returns (stressEnergyFromMetric E ⟨φ K.c, φ K.G, φ K.Lam, φ K.pi⟩ m') fun t' => ∀ a b : Fin n,
      t'.arr.get [(a : Nat), b] = ∑ i : Fin n, ∑ j : Fin n,
        coordD E m'.syms n a (x i) * coordD E m'.syms n b (x j) * φ (t.arr.get [(i : Nat), j]) := by
  obtain ⟨a, e, ha, hv⟩ := stress_ok D K m g h.old
  obtain ⟨b, e', hb, hw⟩ := stress_ok E ⟨φ K.c, φ K.G, φ K.Lam, φ K.pi⟩ m' _ h.new'
  have hv := (comp_two _ _).mp hv
  have hw := (comp_two _ _).mp hw
  refine ⟨_, e, _, e', fun i j => ?_⟩
  simp only [hv, hw]
  have hinv : Ring.inverse (8 * φ K.pi * φ K.G) = φ (Ring.inverse (8 * K.pi * K.G)) := by
    have h1 : (8 * φ K.pi * φ K.G) = φ (8 * K.pi * K.G) := by rw [map_mul, map_mul, map_ofNat]
    have h2 : φ (8 * K.pi * K.G) * φ (Ring.inverse (8 * K.pi * K.G)) = 1 := by
      rw [← map_mul, Ring.mul_inverse_cancel _ hu, map_one]
    rw [h1]
    calc Ring.inverse (φ (8 * K.pi * K.G))
        = Ring.inverse (φ (8 * K.pi * K.G)) * (φ (8 * K.pi * K.G) * φ (Ring.inverse (8 * K.pi * K.G))) := by rw [h2, mul_one]
      _ = _ := by rw [← mul_assoc, Ring.inverse_mul_cancel _ (hu.map φ), one_mul]
  rw [hinv, Geo.einstein_change h.change h.old.symm h.old.reps.2.1 i j, Geo.pull2, Geo.pullMetric]
  simp only [Finset.mul_sum, ← Finset.sum_sub_distrib]
  refine Finset.sum_congr rfl fun k _ => Finset.sum_congr rfl fun l _ => ?_
  simp only [map_mul, map_sub, map_pow]
  ring

/-- **C110** (Christoffel symbols).  They obey the transformation law of a connection:
`Σ_a ∂x^t/∂x'^a Γ'^a_bc = ∂²x^t/∂x'^b∂x'^c + Σ ∂x^j/∂x'^b ∂x^k/∂x'^c Γ^t_jk`. -/
theorem C110_christoffel (h : SameSpaceIn D E m m' g φ x) :
    Returns (christoffelFromMetric D m) fun Γ => Returns (christoffelFromMetric E m') fun Γ' => ∀ t b c : Fin n,
      ∑ a : Fin n, coordD E m'.syms n a (x t) * Γ'.arr.get [(a : Nat), b, c] =
        coordD E m'.syms n c (coordD E m'.syms n b (x t)) + ∑ j : Fin n, ∑ k : Fin n,
          coordD E m'.syms n b (x j) * coordD E m'.syms n c (x k) * φ (Γ.arr.get [(t : Nat), j, k]) := by
  obtain ⟨a, e, ha, hv⟩ := christoffel_ok D m g h.old
  obtain ⟨b, e', hb, hw⟩ := christoffel_ok E m' _ h.new'
  have hv := (comp_three _ _).mp hv
  have hw := (comp_three _ _).mp hw
  refine ⟨_, e, _, e', fun t j k => ?_⟩
  simp only [hv, hw]
  exact Geo.christoffel_change h.change h.old.symm h.old.reps.2.1 t j k

/-- **C110** (Riemann tensor).  The Riemann tensor `R^t_srn` transforms as a tensor:
`Σ_a ∂x^t/∂x'^a R'^a_srk = Σ ∂x^i/∂x'^s ∂x^j/∂x'^r ∂x^l/∂x'^k R^t_ijl`. -/
theorem C110_riemann (h : SameSpaceIn D E m m' g φ x) :
    Returns (riemannFromMetric D m) fun t => Returns (riemannFromMetric E m') fun t' => ∀ p s r k : Fin n,
      ∑ a : Fin n, coordD E m'.syms n a (x p) * t'.arr.get [(a : Nat), s, r, k] =
        ∑ i : Fin n, ∑ j : Fin n, ∑ l : Fin n, coordD E m'.syms n s (x i) * coordD E m'.syms n r (x j) *
          coordD E m'.syms n k (x l) * φ (t.arr.get [(p : Nat), i, j, l]) := by
  obtain ⟨a, e, ha, hv⟩ := riemann_ok D m g h.old
  obtain ⟨b, e', hb, hw⟩ := riemann_ok E m' _ h.new'
  have hv := (comp_four _ _).mp hv
  have hw := (comp_four _ _).mp hw
  refine ⟨_, e, _, e', fun t j k l => ?_⟩
  simp only [hv, hw]
  exact Geo.riemann_change h.change h.old.symm h.old.reps.2.1 t j k l

/-- **C110** (Weyl tensor).  For `n > 3` the Weyl tensor transforms as a covariant tensor of rank four. -/
theorem C110_weyl (h : SameSpaceIn D E m m' g φ x) (h4 : 3 < n) :
    Returns (weylFromMetric D m) fun t => Returns (weylFromMetric E m') fun t' => ∀ a b c d : Fin n,
      t'.arr.get [(a : Nat), b, c, d] = ∑ i : Fin n, ∑ j : Fin n, ∑ k : Fin n, ∑ l : Fin n,
        coordD E m'.syms n a (x i) * coordD E m'.syms n b (x j) * coordD E m'.syms n c (x k) *
          coordD E m'.syms n d (x l) * φ (t.arr.get [(i : Nat), j, k, l]) := by
  obtain ⟨a, e, ha, hv⟩ := weyl_ok D m g h.old h4
  obtain ⟨b, e', hb, hw⟩ := weyl_ok E m' _ h.new' h4
  have hv := (comp_four _ _).mp hv
  have hw := (comp_four _ _).mp hw
  refine ⟨_, e, _, e', fun t j k l => ?_⟩
  simp only [hv, hw]
  exact Geo.weyl_change h.change h.old.symm h.old.reps.2.1 t j k l

/-- **C110** (flatness).  A space whose Riemann tensor vanishes in one coordinate system has vanishing Riemann tensor in every
other. -/
theorem C110_flat (h : SameSpaceIn D E m m' g φ x)
    (hz : ∀ t, riemannFromMetric D m = .ok t → ∀ i j k l : Fin n, t.arr.get [(i : Nat), j, k, l] = 0) :
    Returns (riemannFromMetric E m') fun t' => ∀ i j k l : Fin n, t'.arr.get [(i : Nat), j, k, l] = 0 := by
  obtain ⟨t, e, t', e', hr⟩ := C110_riemann h
  refine ⟨t', e', fun i s r k => ?_⟩
  set J : Matrix (Fin n) (Fin n) S := Matrix.of fun i a => coordD E m'.syms n a (x i) with hJ
  have h0 : J.mulVec (fun a : Fin n => t'.arr.get [(a : Nat), s, r, k]) = 0 := by
    funext p
    show ∑ a : Fin n, coordD E m'.syms n a (x p) * t'.arr.get [(a : Nat), s, r, k] = 0
    rw [hr]
    simp only [hz t e, map_zero, mul_zero, Finset.sum_const_zero]
  have h1 : J⁻¹.mulVec (J.mulVec (fun a : Fin n => t'.arr.get [(a : Nat), s, r, k])) = 0 := by rw [h0, Matrix.mulVec_zero]
  rw [Matrix.mulVec_mulVec, Matrix.nonsing_inv_mul _ h.jac, Matrix.one_mulVec] at h1
  exact congrFun h1 i

end

/-! ## A concrete change of coordinates -/

/-- the substitution `t ↦ t + x²` -/
noncomputable def shearPhi : Pol →ₐ[ℚ] Pol :=
  MvPolynomial.aeval fun s => if s = "t" then MvPolynomial.X "t" + MvPolynomial.X "x" ^ 2 else MvPolynomial.X s

/-- the old coordinates in terms of the new ones -/
noncomputable def shearX : Fin 4 → Pol :=
  ![MvPolynomial.X "t" + MvPolynomial.X "x" ^ 2, MvPolynomial.X "x", MvPolynomial.X "y", MvPolynomial.X "z"]

/-- `MetricTensor` object of the example space in the new coordinates -/
noncomputable def shearM : MetricV Pol :=
  ⟨NDArr.ofMatrix (Geo.pullMetric (coordD polD ["t", "x", "y", "z"] 4) shearPhi.toRingHom shearX exG4), ['l', 'l'],
    ["t", "x", "y", "z"], none⟩

theorem shear_sum (F : Fin 4 → Pol) : ∑ i, F i = F 0 + F 1 + F 2 + F 3 := Fin.sum_univ_four F

theorem shear_coord (k : Fin 4) (f : Pol) :
    coordD polD ["t", "x", "y", "z"] 4 k f = MvPolynomial.pderiv ((["t", "x", "y", "z"] : List String).getD k "") f := rfl

theorem shear_var (k : Fin 4) (s : String) : coordD polD ["t", "x", "y", "z"] 4 k (shearPhi (MvPolynomial.X s)) =
    ∑ i, coordD polD ["t", "x", "y", "z"] 4 k (shearX i) *
      shearPhi (coordD polD ["t", "x", "y", "z"] 4 i (MvPolynomial.X s)) := by
  rw [shear_sum]
  simp only [shear_coord, shearX, shearPhi, MvPolynomial.aeval_X]
  by_cases h1 : s = "t"
  · subst h1
    simp
  · by_cases h2 : s = "x"
    · subst h2
      simp
    · by_cases h3 : s = "y"
      · subst h3
        simp
      · by_cases h4 : s = "z"
        · subst h4
          simp
        · have e : ∀ i : Fin 4, (MvPolynomial.pderiv ((["t", "x", "y", "z"] : List String).getD i "")) (MvPolynomial.X s : Pol)
              = 0 := by
            intro i
            refine MvPolynomial.pderiv_X_of_ne ?_
            fin_cases i
            · exact h1
            · exact h2
            · exact h3
            · exact h4
          simp only [if_neg h1, e, map_zero, mul_zero, add_zero]

theorem shear_chain (k : Fin 4) (f : Pol) : coordD polD ["t", "x", "y", "z"] 4 k (shearPhi f) =
    ∑ i, coordD polD ["t", "x", "y", "z"] 4 k (shearX i) * shearPhi (coordD polD ["t", "x", "y", "z"] 4 i f) := by
  induction f using MvPolynomial.induction_on with
  | C c =>
    have e : ∀ i, coordD polD ["t", "x", "y", "z"] 4 i (MvPolynomial.C c) = 0 := fun i => by
      rw [shear_coord]; exact MvPolynomial.pderiv_C
    have e2 : shearPhi (MvPolynomial.C c) = MvPolynomial.C c := MvPolynomial.aeval_C _ c
    rw [e2]
    simp only [e, map_zero, mul_zero, Finset.sum_const_zero]
  | add p q hp hq => simp only [map_add, hp, hq, mul_add, Finset.sum_add_distrib]
  | mul_X p s hp =>
    simp only [map_mul, Derivation.leibniz, smul_eq_mul, hp, shear_var k s, map_add, mul_add, Finset.sum_add_distrib,
      Finset.mul_sum]
    congr 1 <;> exact Finset.sum_congr rfl fun i _ => by ring

theorem shear_jac : (Matrix.of fun i a => coordD polD ["t", "x", "y", "z"] 4 a (shearX i)).det = 1 := by
  rw [Matrix.det_of_isUpperTriangular]
  · rw [Fin.prod_univ_four]
    simp [shear_coord, shearX]
  · intro i j hij
    fin_cases i <;> fin_cases j <;> simp [shear_coord, shearX] at hij ⊢

theorem shear_change : Geo.CoordChange (coordD polD ["t", "x", "y", "z"] 4) (coordD polD ["t", "x", "y", "z"] 4)
    shearPhi.toRingHom shearX :=
  ⟨fun _ _ y => polD_comm _ _ y, fun a f => shear_chain a f, by rw [shear_jac]; exact isUnit_one⟩

/-- A concrete, non-linear change of coordinates of a curved four-dimensional space. -/
theorem shear_same : SameSpaceIn polD polD exM4 shearM exG4 shearPhi.toRingHom shearX where
  old := exM4_space
  new := ⟨⟨rfl, Geo.pull_det shear_change (by rw [exG4_det]; exact isUnit_one), Or.inl ⟨rfl, toMatrix_ofMatrix _⟩⟩, rfl,
    Geo.pull_symm exG4_symm⟩
  comm := shear_change.comm
  chain := shear_change.chain
  jac := shear_change.jac

/-- the hypotheses of the C110 theorems hold for it -/
example : Returns (scalarFromMetric polD exM4) fun s => Returns (scalarFromMetric polD shearM) fun s' =>
    s'.expr = shearPhi s.expr := C110_scalar_invariant shear_same

/-- and the change of coordinates is not the identity -/
example : shearPhi (MvPolynomial.X "t") ≠ MvPolynomial.X "t" := by
  intro h
  have h2 : (MvPolynomial.X "x" : Pol) ^ 2 = 0 := by
    have : shearPhi (MvPolynomial.X "t") = MvPolynomial.X "t" + MvPolynomial.X "x" ^ 2 := by simp [shearPhi]
    rw [this] at h
    simp at h
  exact MvPolynomial.X_ne_zero "x" (pow_eq_zero_iff (two_ne_zero) |>.mp h2)

end Einpy
