import Verif.Curv.Space
import Verif.Curv.Example
import Verif.Curv.Specialise

/-!
# C123: curvature does not depend on symbols on which the metric does not depend
-/

namespace Einpy.Geo

variable {ι R : Type*} [Fintype ι] [DecidableEq ι] [CommRing R] [Algebra ℚ R]
variable {d : ι → Derivation ℚ R R} {δ : Derivation ℚ R R} {g : Matrix ι ι R}

theorem inv_indep (hu : IsUnit g.det) (hg : ∀ i j, δ (g i j) = 0) (i j : ι) : δ (g⁻¹ i j) = 0 := by
  have h1 : ∀ a b, ∑ c, g a c * δ (g⁻¹ c b) = 0 := by
    intro a b
    have := congrArg (fun M : Matrix ι ι R => δ (M a b)) (Matrix.mul_nonsing_inv g hu)
    simp only [Matrix.mul_apply, map_sum, Derivation.leibniz, hg, smul_eq_mul, mul_zero, add_zero] at this
    rw [this, Matrix.one_apply]
    split_ifs
    · exact Derivation.map_one_eq_zero δ
    · exact map_zero δ
  have h2 : g * Matrix.of (fun c b => δ (g⁻¹ c b)) = 0 := by
    ext a b
    rw [Matrix.mul_apply]
    exact h1 a b
  have h3 : Matrix.of (fun c b => δ (g⁻¹ c b)) = 0 := by
    have := congrArg (g⁻¹ * ·) h2
    simpa only [← Matrix.mul_assoc, Matrix.nonsing_inv_mul g hu, Matrix.one_mul, Matrix.mul_zero] using this
  exact congrFun (congrFun h3 i) j

variable (hd : ∀ i x, δ (d i x) = d i (δ x)) (hu : IsUnit g.det) (hg : ∀ i j, δ (g i j) = 0)
include hd hu hg

theorem christoffel_indep (i j k : ι) : δ (christoffel d g i j k) = 0 := by
  unfold christoffel half
  simp [inv_indep hu hg, hd, hg, Derivation.leibniz]

theorem riemann_indep (a b c e : ι) : δ (riemann d g a b c e) = 0 := by
  unfold riemann
  simp [christoffel_indep hd hu hg, hd, Derivation.leibniz]

theorem riemannLow_indep (a b c e : ι) : δ (riemannLow d g a b c e) = 0 := by
  unfold riemannLow
  simp [riemann_indep hd hu hg, hg, Derivation.leibniz]

theorem ricci_indep (a b : ι) : δ (ricci d g a b) = 0 := by
  unfold ricci
  simp [riemann_indep hd hu hg]

theorem scalar_indep : δ (scalar d g) = 0 := by
  unfold scalar
  simp [ricci_indep hd hu hg, inv_indep hu hg, Derivation.leibniz]

theorem einstein_indep (a b : ι) : δ (einstein d g a b) = 0 := by
  unfold einstein half
  simp [ricci_indep hd hu hg, scalar_indep hd hu hg, hg, Derivation.leibniz]

theorem schouten_indep (a b : ι) : δ (schouten d g a b) = 0 := by
  unfold schouten
  simp [ricci_indep hd hu hg, scalar_indep hd hu hg, hg, Derivation.leibniz]

theorem weyl_indep (a b c e : ι) : δ (weyl d g a b c e) = 0 := by
  unfold weyl
  simp [riemannLow_indep hd hu hg, ricci_indep hd hu hg, scalar_indep hd hu hg, hg, Derivation.leibniz]

end Einpy.Geo

namespace Einpy

variable {R : Type*} [CommRing R] [Algebra ℚ R] {n : Nat} (D : String → Derivation ℚ R R)

/-- The construction succeeds and every component has zero derivative with respect to the symbol `s`. -/
def Independent (s : String) (x : Py (Obj R)) : Prop :=
  ∃ t, x = .ok t ∧ ∀ idx, List.Forall₂ (· < ·) idx t.arr.shape → D s (t.arr.get idx) = 0

variable {D} in
theorem independent_of {s : String} {x : Py (Obj R)} {t : Obj R} (e : x = .ok t) {r : Nat} (hs : t.arr.IsCube r n)
    (h : ∀ i : Fin r → Fin n, D s (t.arr.comp r n i) = 0) : Independent D s x := by
  refine ⟨t, e, fun idx hi => ?_⟩
  rw [hs] at hi
  obtain ⟨i, rfl⟩ := cube_forall hi
  exact h i

/-- **C123.** If the components of the metric do not depend on a symbol `s` — a cyclic coordinate such as the time of a static
metric, or any other symbol — then no component of any curvature object depends on `s`. -/
theorem C123_cyclic (s : String) (m : MetricV R) (g : Matrix (Fin n) (Fin n) R) (h : IsSpace m g)
    (hd : ∀ c ∈ m.syms, ∀ x, D s (D c x) = D c (D s x)) (hs : ∀ i j, D s (g i j) = 0) :
    Independent D s (christoffelFromMetric D m) ∧ Independent D s (riemannFromMetric D m) ∧ Independent D s (ricciFromMetric D m) ∧
    Independent D s (scalarFromMetric D m) ∧ Independent D s (einsteinFromMetric D m) ∧
    (3 ≤ n → Independent D s (schoutenFromMetric D m)) ∧ (3 < n → Independent D s (weylFromMetric D m)) := by
  have hd' : ∀ (k : Fin n) x, D s (coordD D m.syms n k x) = coordD D m.syms n k (D s x) := by
    intro k x
    have hk : (k : Nat) < m.syms.length := by rw [h.syms]; exact k.2
    have := hd m.syms[k] (List.getElem_mem hk) x
    simpa [coordD, List.getD_eq_getElem?_getD, List.getElem?_eq_getElem hk] using this
  have hu := h.reps.2.1
  refine ⟨?_, ?_, ?_, ?_, ?_, ?_, ?_⟩
  · obtain ⟨a, e, ha, hc⟩ := christoffel_ok D m g h
    exact independent_of e ha fun i => by rw [hc]; exact Geo.christoffel_indep hd' hu hs _ _ _
  · obtain ⟨a, e, ha, hc⟩ := riemann_ok D m g h
    exact independent_of e ha fun i => by rw [hc]; exact Geo.riemann_indep hd' hu hs _ _ _ _
  · obtain ⟨a, e, ha, hc⟩ := ricci_ok D m g h
    exact independent_of e ha fun i => by rw [hc]; exact Geo.ricci_indep hd' hu hs _ _
  · obtain ⟨a, e, ha, hc⟩ := scalar_ok D m g h
    refine independent_of (n := n) (r := 0) e ha fun i => ?_
    show D s (a.get (multiIx i)) = 0
    rw [multiIx_zero, hc]
    exact Geo.scalar_indep hd' hu hs
  · obtain ⟨a, e, ha, hc⟩ := einstein_ok D m g h
    exact independent_of e ha fun i => by rw [hc]; exact Geo.einstein_indep hd' hu hs _ _
  · intro h3
    obtain ⟨a, e, ha, hc⟩ := schouten_ok D m g h h3
    exact independent_of e ha fun i => by rw [hc]; exact Geo.schouten_indep hd' hu hs _ _
  · intro h4
    obtain ⟨a, e, ha, hc⟩ := weyl_ok D m g h h4
    exact independent_of e ha fun i => by rw [hc]; exact Geo.weyl_indep hd' hu hs _ _ _ _

/-- The hypotheses are met: the example metric does not depend on its last coordinate. -/
example : IsSpace exM4 exG4 ∧ "z" ∈ exM4.syms ∧ (∀ c ∈ exM4.syms, ∀ x, polD "z" (polD c x) = polD c (polD "z" x)) ∧
    (∀ i j, polD "z" (exG4 i j) = 0) ∧ polD "t" (exG4 0 1) ≠ 0 := by
  refine ⟨exM4_space, by simp [exM4], fun c _ x => polD_comm _ _ x, fun i j => ?_, ?_⟩
  · have hp : polD "z" polP = 0 := by
      unfold polP polD
      rw [Derivation.leibniz, MvPolynomial.pderiv_X_of_ne (by decide), MvPolynomial.pderiv_X_of_ne (by decide)]
      simp
    fin_cases i <;> fin_cases j <;> simp [exG4, hp, Derivation.leibniz_pow]
  · exact exM4_nonconstant

end Einpy
