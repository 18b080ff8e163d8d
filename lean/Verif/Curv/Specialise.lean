import Verif.Curv.Space
import Verif.Predef.Model
import Verif.Curv.Example

/-!
# C122: substituting parameters (and renaming coordinates) commutes with the curvature constructors
-/

namespace Einpy.Geo

variable {ι R R' : Type*} [Fintype ι] [DecidableEq ι] [CommRing R] [Algebra ℚ R] [CommRing R'] [Algebra ℚ R']
variable {d : ι → Derivation ℚ R R} {d' : ι → Derivation ℚ R' R'} {φ : R →ₐ[ℚ] R'} {g : Matrix ι ι R}

theorem inv_map (hu : IsUnit g.det) : (g.map φ)⁻¹ = (g⁻¹).map φ := by
  refine Matrix.inv_eq_right_inv ?_
  rw [← Matrix.map_mul, Matrix.mul_nonsing_inv _ hu]
  exact Matrix.map_one φ (map_zero φ) (map_one φ)

theorem inv_map' (hu : IsUnit g.det) (i j : ι) : (g.map φ)⁻¹ i j = φ (g⁻¹ i j) := by rw [inv_map hu]; rfl

theorem det_map_unit (hu : IsUnit g.det) : IsUnit (g.map φ).det := by
  have : (g.map φ).det = φ g.det := (φ.toRingHom.map_det g).symm
  rw [this]
  exact hu.map φ

variable (hφ : ∀ k x, d' k (φ x) = φ (d k x)) (hu : IsUnit g.det)
include hφ hu

theorem christoffel_map (i j k : ι) : christoffel d' (g.map φ) i j k = φ (christoffel d g i j k) := by
  unfold christoffel half
  simp only [inv_map' hu, Matrix.map_apply, hφ, map_smul, map_sum, map_mul, map_add, map_sub]

theorem riemann_map (a b c e : ι) : riemann d' (g.map φ) a b c e = φ (riemann d g a b c e) := by
  unfold riemann
  simp only [christoffel_map hφ hu, hφ, map_sum, map_mul, map_add, map_sub]

theorem riemannLow_map (a b c e : ι) : riemannLow d' (g.map φ) a b c e = φ (riemannLow d g a b c e) := by
  unfold riemannLow
  simp only [riemann_map hφ hu, Matrix.map_apply, map_sum, map_mul]

theorem ricci_map (a b : ι) : ricci d' (g.map φ) a b = φ (ricci d g a b) := by
  unfold ricci
  simp only [riemann_map hφ hu, map_sum]

theorem scalar_map : scalar d' (g.map φ) = φ (scalar d g) := by
  unfold scalar
  simp only [ricci_map hφ hu, inv_map' hu, map_sum, map_mul]

theorem einstein_map (a b : ι) : einstein d' (g.map φ) a b = φ (einstein d g a b) := by
  unfold einstein half
  simp only [ricci_map hφ hu, scalar_map hφ hu, Matrix.map_apply, map_sub, map_smul, map_mul]

theorem schouten_map (a b : ι) : schouten d' (g.map φ) a b = φ (schouten d g a b) := by
  unfold schouten
  simp only [ricci_map hφ hu, scalar_map hφ hu, Matrix.map_apply, map_sub, map_smul, map_mul]

theorem weyl_map (a b c e : ι) : weyl d' (g.map φ) a b c e = φ (weyl d g a b c e) := by
  unfold weyl
  simp only [riemannLow_map hφ hu, ricci_map hφ hu, scalar_map hφ hu, Matrix.map_apply, map_sub, map_smul, map_mul, map_add]

end Einpy.Geo

namespace Einpy

variable {R R' : Type*} [CommRing R] [Algebra ℚ R] [CommRing R'] [Algebra ℚ R'] {n : Nat}
variable (D : String → Derivation ℚ R R) (D' : String → Derivation ℚ R' R')

/-- Both constructions succeed, the classes, configurations and array shapes agree, and every component of the second is the image
under `φ` of the same component of the first. -/
def Specialises (φ : R → R') (x : Py (Obj R)) (x' : Py (Obj R')) : Prop :=
  ∃ t t', x = .ok t ∧ x' = .ok t' ∧ t'.kind = t.kind ∧ t'.config = t.config ∧ t'.arr.shape = t.arr.shape ∧
    ∀ idx, List.Forall₂ (· < ·) idx t.arr.shape → t'.arr.get idx = φ (t.arr.get idx)

/-- `φ` does not touch the coordinates: differentiating along the `k`-th coordinate before or after it is the same. -/
def KeepsCoordinates (φ : R → R') (syms syms' : List String) : Prop :=
  ∀ (k : Nat) (s s' : String), syms[k]? = some s → syms'[k]? = some s' → ∀ x, D' s' (φ x) = φ (D s x)

theorem cube_forall {r : Nat} {idx : List Nat} (h : List.Forall₂ (· < ·) idx (List.replicate r n)) :
    ∃ i : Fin r → Fin n, idx = multiIx i := by
  induction r generalizing idx with
  | zero =>
    cases h
    exact ⟨Fin.elim0, by simp [multiIx]⟩
  | succ r ih =>
    rw [List.replicate_succ] at h
    cases h with
    | cons h1 h2 =>
      obtain ⟨i, rfl⟩ := ih h2
      refine ⟨Fin.cons ⟨_, h1⟩ i, ?_⟩
      simp [multiIx, List.ofFn_succ]

omit [CommRing R] [Algebra ℚ R] [CommRing R'] [Algebra ℚ R'] in
theorem specialises_of {φ : R → R'} {x : Py (Obj R)} {x' : Py (Obj R')} {t : Obj R} {t' : Obj R'} (e : x = .ok t) (e' : x' = .ok t')
    (hk : t'.kind = t.kind) (hc : t'.config = t.config) {r : Nat} (hs : t.arr.IsCube r n) (hs' : t'.arr.IsCube r n)
    (h : ∀ i : Fin r → Fin n, t'.arr.comp r n i = φ (t.arr.comp r n i)) : Specialises φ x x' := by
  refine ⟨t, t', e, e', hk, hc, hs'.trans hs.symm, fun idx hi => ?_⟩
  rw [hs] at hi
  obtain ⟨i, rfl⟩ := cube_forall hi
  exact h i

/-- **C122.** Let `φ` be a substitution of parameters (any ring homomorphism that keeps the coordinates, which may also be renamed),
`m` a metric with covariant components `g` and `m'` the metric with components `φ(g)`, each given in covariant or contravariant form.
Then every curvature object computed for `m'` is the `φ`-image of the one computed for `m`. -/
theorem C122_specialise (φ : R →ₐ[ℚ] R') (m : MetricV R) (m' : MetricV R') (g : Matrix (Fin n) (Fin n) R) (h : IsSpace m g)
    (h' : m'.Represents (g.map φ)) (hl : m'.syms.length = n) (hφ : KeepsCoordinates D D' φ m.syms m'.syms) :
    Specialises φ (christoffelFromMetric D m) (christoffelFromMetric D' m') ∧
    Specialises φ (riemannFromMetric D m) (riemannFromMetric D' m') ∧
    Specialises φ (ricciFromMetric D m) (ricciFromMetric D' m') ∧
    Specialises φ (scalarFromMetric D m) (scalarFromMetric D' m') ∧
    Specialises φ (einsteinFromMetric D m) (einsteinFromMetric D' m') ∧
    (3 ≤ n → Specialises φ (schoutenFromMetric D m) (schoutenFromMetric D' m')) ∧
    (3 < n → Specialises φ (weylFromMetric D m) (weylFromMetric D' m')) := by
  have hS : IsSpace m' (g.map φ) := ⟨h', hl, by rw [← Matrix.transpose_map, h.symm]⟩
  have hd : ∀ k x, coordD D' m'.syms n k (φ x) = φ (coordD D m.syms n k x) := by
    intro k x
    have hk : (k : Nat) < m.syms.length := by rw [h.syms]; exact k.2
    have hk' : (k : Nat) < m'.syms.length := by rw [hl]; exact k.2
    have := hφ k m.syms[k] m'.syms[k] (List.getElem?_eq_getElem hk) (List.getElem?_eq_getElem hk') x
    simpa [coordD, List.getD_eq_getElem?_getD, List.getElem?_eq_getElem hk, List.getElem?_eq_getElem hk'] using this
  have hu := h.reps.2.1
  refine ⟨?_, ?_, ?_, ?_, ?_, ?_, ?_⟩
  · obtain ⟨a, e, ha, hc⟩ := christoffel_ok D m g h
    obtain ⟨a', e', ha', hc'⟩ := christoffel_ok D' m' _ hS
    exact specialises_of e e' rfl rfl ha ha' fun i => by rw [hc, hc']; exact Geo.christoffel_map hd hu _ _ _
  · obtain ⟨a, e, ha, hc⟩ := riemann_ok D m g h
    obtain ⟨a', e', ha', hc'⟩ := riemann_ok D' m' _ hS
    exact specialises_of e e' rfl rfl ha ha' fun i => by rw [hc, hc']; exact Geo.riemann_map hd hu _ _ _ _
  · obtain ⟨a, e, ha, hc⟩ := ricci_ok D m g h
    obtain ⟨a', e', ha', hc'⟩ := ricci_ok D' m' _ hS
    exact specialises_of e e' rfl rfl ha ha' fun i => by rw [hc, hc']; exact Geo.ricci_map hd hu _ _
  · obtain ⟨a, e, ha, hc⟩ := scalar_ok D m g h
    obtain ⟨a', e', ha', hc'⟩ := scalar_ok D' m' _ hS
    refine specialises_of (n := n) (r := 0) e e' rfl rfl ha ha' fun i => ?_
    show a'.get (multiIx i) = φ (a.get (multiIx i))
    rw [multiIx_zero, hc, hc']
    exact Geo.scalar_map hd hu
  · obtain ⟨a, e, ha, hc⟩ := einstein_ok D m g h
    obtain ⟨a', e', ha', hc'⟩ := einstein_ok D' m' _ hS
    exact specialises_of e e' rfl rfl ha ha' fun i => by rw [hc, hc']; exact Geo.einstein_map hd hu _ _
  · intro h3
    obtain ⟨a, e, ha, hc⟩ := schouten_ok D m g h h3
    obtain ⟨a', e', ha', hc'⟩ := schouten_ok D' m' _ hS h3
    exact specialises_of e e' rfl rfl ha ha' fun i => by rw [hc, hc']; exact Geo.schouten_map hd hu _ _
  · intro h4
    obtain ⟨a, e, ha, hc⟩ := weyl_ok D m g h h4
    obtain ⟨a', e', ha', hc'⟩ := weyl_ok D' m' _ hS h4
    exact specialises_of e e' rfl rfl ha ha' fun i => by rw [hc, hc']; exact Geo.weyl_map hd hu _ _ _ _

/-- **C122** for `subs`.  Substituting in a covariant metric and building a metric from the substituted array gives the metric with
the substituted components: `MetricTensor(m.subs(...).tensor(), syms)` has every curvature object substituted. -/
theorem C122_subs {R : Type} [CommRing R] [Algebra ℚ R] (D : String → Derivation ℚ R R) (σ : R →ₐ[ℚ] R) (m : MetricV R) (g : Matrix (Fin n) (Fin n) R) (h : IsSpace m g) (hm : m.config = ['l', 'l'])
    (hσ : KeepsCoordinates D D σ m.syms m.syms) (o : Obj R) (ho : o.arr = m.arr) (nm : String) :
    ∃ t m', o.subs σ = .ok t ∧ Predef.metricTensor t.arr m.syms nm = .ok m' ∧ IsSpace m' (g.map σ) ∧
    Specialises σ (christoffelFromMetric D m) (christoffelFromMetric D m') ∧
    Specialises σ (riemannFromMetric D m) (riemannFromMetric D m') ∧
    Specialises σ (ricciFromMetric D m) (ricciFromMetric D m') ∧
    Specialises σ (scalarFromMetric D m) (scalarFromMetric D m') ∧
    Specialises σ (einsteinFromMetric D m) (einsteinFromMetric D m') ∧
    (3 ≤ n → Specialises σ (schoutenFromMetric D m) (schoutenFromMetric D m')) ∧
    (3 < n → Specialises σ (weylFromMetric D m) (weylFromMetric D m')) := by
  have hs := h.reps.1
  have hg : m.arr.toMatrix n = g := by
    rcases h.reps.2.2 with ⟨-, e⟩ | ⟨e, -⟩
    · exact e
    · rw [hm] at e; exact absurd e (by decide)
  have e1 : o.subs σ = .ok ⟨.tensor, m.arr.map σ, ['l', 'l'], 2, [], none, none⟩ := by
    unfold Obj.subs
    rw [ho]
    simp [mkTensor, NDArr.map, hs]
    rfl
  have e2 : Predef.metricTensor (m.arr.map σ) m.syms nm = .ok ⟨m.arr.map σ, ['l', 'l'], m.syms, some nm⟩ := by
    unfold Predef.metricTensor
    have := mkKind_cube (n := n) .metric (m.arr.map σ) ['l', 'l'] m.syms none (some nm) valid_ll (by rw [NDArr.IsCube]; exact hs) h.syms rfl
    rw [this]
    rfl
  have hr : MetricV.Represents ⟨m.arr.map σ, ['l', 'l'], m.syms, some nm⟩ (g.map σ) :=
    ⟨hs, Geo.det_map_unit h.reps.2.1, Or.inl ⟨rfl, by rw [← hg]; rfl⟩⟩
  exact ⟨_, _, e1, e2, ⟨hr, h.syms, by rw [← Matrix.transpose_map, h.symm]⟩, C122_specialise D D σ m _ g h hr h.syms hσ⟩

/-- Substituting the number 5 for the symbol `t`. -/
noncomputable def exSigma : Pol →ₐ[ℚ] Pol := MvPolynomial.aeval fun s => if s = "t" then MvPolynomial.C 5 else MvPolynomial.X s

/-- The hypotheses are met: in the metric `(dx + t x dy)² + dy² + …` with coordinates `x, y, z, w` the symbol `t` is a parameter (the
Gauss curvature of the first two is `-t²`), which may be replaced by 5. -/
example : IsSpace (⟨NDArr.ofMatrix exG4, ['l', 'l'], ["x", "y", "z", "w"], none⟩ : MetricV Pol) exG4 ∧
    KeepsCoordinates polD polD exSigma ["x", "y", "z", "w"] ["x", "y", "z", "w"] ∧ exSigma (exG4 0 1) ≠ exG4 0 1 := by
  refine ⟨⟨⟨rfl, by rw [exG4_det]; exact isUnit_one, Or.inl ⟨rfl, toMatrix_ofMatrix _⟩⟩, rfl, exG4_symm⟩, ?_, ?_⟩
  · intro k s s' h1 h2 x
    obtain rfl : s = s' := by rw [h1] at h2; exact Option.some.inj h2
    have hs : s ≠ "t" := by
      rintro rfl
      have := List.mem_of_getElem? h1
      revert this; decide
    induction x using MvPolynomial.induction_on with
    | C a => simp [exSigma, polD]
    | add p q hp hq => simp only [map_add, hp, hq]
    | mul_X p i hp =>
      simp only [map_mul, Derivation.leibniz, hp, smul_eq_mul, map_add]
      congr 2
      by_cases hi : i = "t"
      · subst hi
        have : exSigma (MvPolynomial.X "t") = MvPolynomial.C 5 := by simp [exSigma]
        rw [this]
        simp [polD, MvPolynomial.pderiv_X, hs]
      · have : exSigma (MvPolynomial.X i) = MvPolynomial.X i := by simp [exSigma, hi]
        rw [this]
        simp only [polD, MvPolynomial.pderiv_X, Pi.single_apply]
        split_ifs <;> simp
  · have h2 : exG4 0 1 = MvPolynomial.X "t" * MvPolynomial.X "x" := by simp [exG4, polP]
    have h1 : exSigma (exG4 0 1) = MvPolynomial.C 5 * MvPolynomial.X "x" := by
      rw [h2, map_mul]
      simp [exSigma]
    rw [h1, h2]
    intro h
    have := congrArg (MvPolynomial.eval (fun _ => (1:ℚ))) h
    rw [map_mul, map_mul, MvPolynomial.eval_C, MvPolynomial.eval_X, MvPolynomial.eval_X] at this
    norm_num at this

end Einpy
