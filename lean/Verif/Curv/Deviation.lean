import Verif.Curv.Geo
import Verif.Curv.Functions
import Mathlib.Analysis.SpecialFunctions.Trigonometric.Deriv

/-!
# C141: the Riemann tensor is the tidal field
-/

namespace Einpy.Geo

variable {ι R S : Type*} [Fintype ι] [DecidableEq ι] [CommRing R] [Algebra ℚ R] [CommRing S] [Algebra ℚ S]

/-- Components along a surface `x : ι → S`: covariant derivative `D V^i = ∂V^i + Γ^i_jk ∂x^j V^k` in the direction `e`. -/
noncomputable def covAlong (d : ι → Derivation ℚ R R) (g : Matrix ι ι R) (φ : R →+* S) (x : ι → S) (e : Derivation ℚ S S) (V : ι → S) (i : ι) : S :=
  e (V i) + ∑ j, ∑ k, φ (christoffel d g i j k) * e (x j) * V k

variable {d : ι → Derivation ℚ R R} {g : Matrix ι ι R} {φ : R →+* S} {x : ι → S} {e f : Derivation ℚ S S}

theorem covAlong_half (he : ∀ r, e (φ r) = ∑ l, φ (d l r) * e (x l)) (V : ι → S) (i : ι) :
    covAlong d g φ x e (covAlong d g φ x f V) i =
      (e (f (V i)) + ∑ j, ∑ k, φ (christoffel d g i j k) * e (f (x j)) * V k) +
      (∑ j, ∑ k, φ (christoffel d g i j k) * f (x j) * e (V k) + ∑ j, ∑ k, φ (christoffel d g i j k) * e (x j) * f (V k)) +
      (∑ j, ∑ k, ∑ l, φ (d k (christoffel d g i l j)) * V j * e (x k) * f (x l) +
        ∑ j, ∑ k, ∑ l, ∑ p, φ (christoffel d g p l j) * φ (christoffel d g i k p) * V j * e (x k) * f (x l)) := by
  have e1 : e (∑ j, ∑ k, φ (christoffel d g i j k) * f (x j) * V k) =
      ∑ j, ∑ k, φ (christoffel d g i j k) * e (f (x j)) * V k + ∑ j, ∑ k, φ (christoffel d g i j k) * f (x j) * e (V k) +
        ∑ j, ∑ k, ∑ l, φ (d k (christoffel d g i l j)) * V j * e (x k) * f (x l) := by
    have h1 : ∑ j, ∑ k, ∑ l, φ (d k (christoffel d g i l j)) * V j * e (x k) * f (x l) =
        ∑ j, ∑ k, (∑ l, φ (d l (christoffel d g i j k)) * e (x l)) * f (x j) * V k := by
      simp only [Finset.sum_mul]
      rw [Finset.sum_comm' (t' := Finset.univ) (s' := fun _ => Finset.univ) (by simp)]
      rw [show (∑ j, ∑ k, ∑ l, φ (d l (christoffel d g i j k)) * e (x l) * f (x j) * V k) =
        ∑ l, ∑ k, ∑ j, φ (d l (christoffel d g i j k)) * e (x l) * f (x j) * V k from ?_]
      · refine Finset.sum_congr rfl fun l _ => Finset.sum_congr rfl fun k _ => Finset.sum_congr rfl fun j _ => by ring
      · calc _ = ∑ j, ∑ l, ∑ k, φ (d l (christoffel d g i j k)) * e (x l) * f (x j) * V k :=
              Finset.sum_congr rfl fun j _ => Finset.sum_comm
          _ = ∑ l, ∑ j, ∑ k, φ (d l (christoffel d g i j k)) * e (x l) * f (x j) * V k := Finset.sum_comm
          _ = _ := Finset.sum_congr rfl fun l _ => Finset.sum_comm
    rw [h1]
    simp only [map_sum, ← Finset.sum_add_distrib]
    refine Finset.sum_congr rfl fun j _ => Finset.sum_congr rfl fun k _ => ?_
    simp only [Derivation.leibniz, smul_eq_mul, he]
    ring
  have e2 : ∑ j, ∑ k, φ (christoffel d g i j k) * e (x j) * (∑ a, ∑ b, φ (christoffel d g k a b) * f (x a) * V b) =
      ∑ j, ∑ k, ∑ l, ∑ p, φ (christoffel d g p l j) * φ (christoffel d g i k p) * V j * e (x k) * f (x l) := by
    calc _ = ∑ k, ∑ p, ∑ l, ∑ j, φ (christoffel d g p l j) * φ (christoffel d g i k p) * V j * e (x k) * f (x l) := by
          refine Finset.sum_congr rfl fun j _ => Finset.sum_congr rfl fun k _ => ?_
          simp only [Finset.mul_sum]
          refine Finset.sum_congr rfl fun a _ => Finset.sum_congr rfl fun b _ => by ring
      _ = ∑ k, ∑ l, ∑ p, ∑ j, φ (christoffel d g p l j) * φ (christoffel d g i k p) * V j * e (x k) * f (x l) :=
          Finset.sum_congr rfl fun k _ => Finset.sum_comm
      _ = ∑ k, ∑ l, ∑ j, ∑ p, φ (christoffel d g p l j) * φ (christoffel d g i k p) * V j * e (x k) * f (x l) :=
          Finset.sum_congr rfl fun k _ => Finset.sum_congr rfl fun l _ => Finset.sum_comm
      _ = ∑ k, ∑ j, ∑ l, ∑ p, φ (christoffel d g p l j) * φ (christoffel d g i k p) * V j * e (x k) * f (x l) :=
          Finset.sum_congr rfl fun k _ => Finset.sum_comm
      _ = _ := Finset.sum_comm
  have e3 : covAlong d g φ x e (covAlong d g φ x f V) i = e (f (V i)) + e (∑ j, ∑ k, φ (christoffel d g i j k) * f (x j) * V k) +
      (∑ j, ∑ k, φ (christoffel d g i j k) * e (x j) * f (V k) +
        ∑ j, ∑ k, φ (christoffel d g i j k) * e (x j) * (∑ a, ∑ b, φ (christoffel d g k a b) * f (x a) * V b)) := by
    unfold covAlong
    rw [map_add]
    congr 1
    simp only [← Finset.sum_add_distrib]
    refine Finset.sum_congr rfl fun j _ => Finset.sum_congr rfl fun k _ => ?_
    rw [mul_add]
  rw [e3, e2, e1]
  abel

/-- Covariant derivatives along a surface commute up to the Riemann tensor (Ricci identity). -/
theorem ricci_identity (hs : g.transpose = g) (he : ∀ r, e (φ r) = ∑ l, φ (d l r) * e (x l)) (hf : ∀ r, f (φ r) = ∑ l, φ (d l r) * f (x l))
    (hc : ∀ y, e (f y) = f (e y)) (V : ι → S) (i : ι) :
    covAlong d g φ x e (covAlong d g φ x f V) i - covAlong d g φ x f (covAlong d g φ x e V) i =
      ∑ j, ∑ k, ∑ l, φ (riemann d g i j k l) * V j * e (x k) * f (x l) := by
  have c1 := christoffel_symm d g hs
  rw [covAlong_half he, covAlong_half hf]
  have h1 : ∑ j, ∑ k, ∑ l, φ (riemann d g i j k l) * V j * e (x k) * f (x l) =
      (∑ j, ∑ k, ∑ l, φ (d k (christoffel d g i l j)) * V j * e (x k) * f (x l) +
        ∑ j, ∑ k, ∑ l, ∑ p, φ (christoffel d g p l j) * φ (christoffel d g i k p) * V j * e (x k) * f (x l)) -
      (∑ j, ∑ k, ∑ l, φ (d k (christoffel d g i l j)) * V j * f (x k) * e (x l) +
        ∑ j, ∑ k, ∑ l, ∑ p, φ (christoffel d g p l j) * φ (christoffel d g i k p) * V j * f (x k) * e (x l)) := by
    have s1 : ∑ j, ∑ k, ∑ l, φ (d k (christoffel d g i l j)) * V j * f (x k) * e (x l) =
        ∑ j, ∑ k, ∑ l, φ (d l (christoffel d g i k j)) * V j * f (x l) * e (x k) := Finset.sum_congr rfl fun j _ => Finset.sum_comm
    have s2 : ∑ j, ∑ k, ∑ l, ∑ p, φ (christoffel d g p l j) * φ (christoffel d g i k p) * V j * f (x k) * e (x l) =
        ∑ j, ∑ k, ∑ l, ∑ p, φ (christoffel d g p k j) * φ (christoffel d g i l p) * V j * f (x l) * e (x k) :=
      Finset.sum_congr rfl fun j _ => Finset.sum_comm
    rw [s1, s2]
    simp only [← Finset.sum_add_distrib, ← Finset.sum_sub_distrib]
    refine Finset.sum_congr rfl fun j _ => Finset.sum_congr rfl fun k _ => Finset.sum_congr rfl fun l _ => ?_
    unfold riemann
    rw [c1 i l j, c1 i k j]
    simp only [map_add, map_sub, map_sum, map_mul, Finset.sum_sub_distrib, ← Finset.sum_mul, fun p => c1 p l j, fun p => c1 p k j,
      fun p => c1 i k p, fun p => c1 i l p]
    ring
  rw [h1]
  simp only [hc]
  abel

/-- The two mixed covariant derivatives of the surface agree (no torsion). -/
theorem mixed (hs : g.transpose = g) (hc : ∀ y, e (f y) = f (e y)) (i : ι) :
    covAlong d g φ x e (fun j => f (x j)) i = covAlong d g φ x f (fun j => e (x j)) i := by
  unfold covAlong
  rw [hc, Finset.sum_comm]
  congr 1
  refine Finset.sum_congr rfl fun j _ => Finset.sum_congr rfl fun k _ => ?_
  rw [christoffel_symm d g hs]
  ring

/-- Geodesic deviation. -/
theorem deviation (hs : g.transpose = g) (he : ∀ r, e (φ r) = ∑ l, φ (d l r) * e (x l)) (hf : ∀ r, f (φ r) = ∑ l, φ (d l r) * f (x l))
    (hc : ∀ y, e (f y) = f (e y)) (hgeo : ∀ i, covAlong d g φ x e (fun j => e (x j)) i = 0) (i : ι) :
    covAlong d g φ x e (covAlong d g φ x e fun j => f (x j)) i = -∑ j, ∑ k, ∑ l, φ (riemann d g i j k l) * e (x j) * f (x k) * e (x l) := by
  have h1 : covAlong d g φ x e (fun j => f (x j)) = covAlong d g φ x f (fun j => e (x j)) := funext (mixed hs hc)
  have h2 : covAlong d g φ x e (fun j => e (x j)) = 0 := funext hgeo
  have h3 : covAlong d g φ x f (0 : ι → S) i = 0 := by simp [covAlong]
  have h4 := ricci_identity (e := f) (f := e) hs hf he (fun y => (hc y).symm) (fun j => e (x j)) i
  rw [h1]
  rw [h2, h3, zero_sub] at h4
  rw [← h4, neg_neg]

end Einpy.Geo

namespace Einpy.Fn
open Classical
open scoped Topology ContDiff

/-! ## specification -/

/-- The value at the point `y` of the component `idx` of a tensor object whose components are smooth functions on `U`. -/
noncomputable def value {n : ℕ} {U : TopologicalSpace.Opens (Fin n → ℝ)} (t : Obj (SmoothFn U)) (idx : List ℕ) (y : Fin n → ℝ) : ℝ :=
  ext U (t.arr.get idx).1 y

/-- The values of the Christoffel symbols. -/
noncomputable def symbols {n : ℕ} {U : TopologicalSpace.Opens (Fin n → ℝ)} (c : Obj (SmoothFn U)) (i j k : Fin n) : (Fin n → ℝ) → ℝ :=
  value c [(i : ℕ), j, k]

/-- Tangent vector of the surface `q` in the direction of parameter number `a`. -/
noncomputable def tangent {n : ℕ} (q : (Fin 2 → ℝ) → Fin n → ℝ) (a : Fin 2) (i : Fin n) : (Fin 2 → ℝ) → ℝ := pd (fun z => q z i) a

/-- Covariant derivative of a vector field `V` along the surface `q` (two real parameters), in the direction of parameter number `a`:
`∂_a V^i + Γ^i_jk ∂_a q^j V^k`. -/
noncomputable def covDeriv {n : ℕ} (Γ : Fin n → Fin n → Fin n → (Fin n → ℝ) → ℝ) (q : (Fin 2 → ℝ) → Fin n → ℝ) (a : Fin 2)
    (V : Fin n → (Fin 2 → ℝ) → ℝ) (i : Fin n) (z : Fin 2 → ℝ) : ℝ :=
  pd (V i) a z + ∑ j, ∑ k, Γ i j k (q z) * pd (fun z => q z j) a z * V k z

/-! ## proofs -/

variable {n : ℕ} {U : TopologicalSpace.Opens (Fin n → ℝ)} {W : TopologicalSpace.Opens (Fin 2 → ℝ)} {q : (Fin 2 → ℝ) → Fin n → ℝ}

/-- restriction of functions to the surface -/
noncomputable def pullback (hq : ∀ i, ContDiffOn ℝ ∞ (fun z => q z i) W) (hU : ∀ z ∈ W, q z ∈ U) : SmoothFn U →+* SmoothFn W where
  toFun f := ofFn (fun z => ext U f.1 (q z)) (ContDiffOn.comp (t := (U : Set (Fin n → ℝ))) (g := ext U f.1) (f := q) f.2 (contDiffOn_pi.mpr hq) hU)
  map_one' := Subtype.ext (funext fun z => ext_of (f := (1 : SmoothFn U).1) ⟨q z, hU z z.2⟩)
  map_zero' := Subtype.ext (funext fun z => ext_of (f := (0 : SmoothFn U).1) ⟨q z, hU z z.2⟩)
  map_add' f g := Subtype.ext (funext fun z => by
    show ext U (f + g).1 (q z) = ext U f.1 (q z) + ext U g.1 (q z)
    rw [ext_of (f := f.1) ⟨q z, hU z z.2⟩, ext_of (f := g.1) ⟨q z, hU z z.2⟩, ext_of (f := (f + g).1) ⟨q z, hU z z.2⟩]
    rfl)
  map_mul' f g := Subtype.ext (funext fun z => by
    show ext U (f * g).1 (q z) = ext U f.1 (q z) * ext U g.1 (q z)
    rw [ext_of (f := f.1) ⟨q z, hU z z.2⟩, ext_of (f := g.1) ⟨q z, hU z z.2⟩, ext_of (f := (f * g).1) ⟨q z, hU z z.2⟩]
    rfl)

variable (hq : ∀ i, ContDiffOn ℝ ∞ (fun z => q z i) W) (hU : ∀ z ∈ W, q z ∈ U)

/-- the surface -/
def surf (i : Fin n) : SmoothFn W := ofFn (fun z => q z i) (hq i)

theorem chain (a : Fin 2) (f : SmoothFn U) :
    partialD W a (pullback hq hU f) = ∑ l, pullback hq hU (partialD U l f) * partialD W a (surf hq l) := by
  refine Subtype.ext (funext fun z => ?_)
  have hf := ((smoothAt f ⟨q z, hU z z.2⟩).differentiableAt (by simp)).hasFDerivAt
  have hqi : ∀ i, DifferentiableAt ℝ (fun z => q z i) z := fun i =>
    ((hq i).contDiffAt (W.isOpen.mem_nhds z.2)).differentiableAt (by simp)
  have hqd : HasFDerivAt q (ContinuousLinearMap.pi fun i => fderiv ℝ (fun z => q z i) z) z :=
    hasFDerivAt_pi.mpr fun i => (hqi i).hasFDerivAt
  have h1 : (partialD W a (pullback hq hU f)).1 z = fderiv ℝ (fun z => ext U f.1 (q z)) z (Pi.single a 1) := by
    rw [partialD_val, slope_of (pullback hq hU f) (fun z => ext U f.1 (q z)) (fun z => rfl)]
  have h2 := (hf.comp (z : Fin 2 → ℝ) hqd).fderiv
  have h3 : (∑ l, pullback hq hU (partialD U l f) * partialD W a (surf hq l)).1 z =
      ∑ l, (pullback hq hU (partialD U l f)).1 z * (partialD W a (surf hq l)).1 z := map_sum (ev z) _ _
  have h4 : ∀ l, (partialD W a (surf hq l)).1 z = fderiv ℝ (fun z => q z l) z (Pi.single a 1) := fun l => by
    rw [partialD_val, slope_of (surf hq l) (fun z => q z l) (fun z => rfl)]
  have h5 : ∀ l, (pullback hq hU (partialD U l f)).1 z = fderiv ℝ (ext U f.1) (q z) (Pi.single l 1) := fun l => by
    show ext U (partialD U l f).1 (q z) = _
    rw [ext_of (f := (partialD U l f).1) ⟨q z, hU z z.2⟩]
    rfl
  rw [h3, h1]
  simp only [h4, h5]
  change fderiv ℝ (ext U f.1 ∘ q) z (Pi.single a 1) = _
  rw [h2, ContinuousLinearMap.comp_apply]
  set v := (ContinuousLinearMap.pi fun i => fderiv ℝ (fun z => q z i) z) (Pi.single a 1) with hv
  have hv' : v = ∑ l, v l • (Pi.single l (1 : ℝ) : Fin n → ℝ) := by
    funext i
    simp [Finset.sum_apply, Pi.single_apply]
  rw [hv', map_sum]
  refine Finset.sum_congr rfl fun l _ => ?_
  rw [map_smul, smul_eq_mul, mul_comm]
  rfl

section
variable {g : Matrix (Fin n) (Fin n) (SmoothFn U)} {Γ : Fin n → Fin n → Fin n → (Fin n → ℝ) → ℝ}
  (hΓ : ∀ i j k, ∀ y ∈ U, Γ i j k y = ext U (Geo.christoffel (partialD U) g i j k).1 y)
include hΓ

theorem cov_val (a : Fin 2) (V : Fin n → SmoothFn W) (V' : Fin n → (Fin 2 → ℝ) → ℝ) (hV : ∀ i (z : W), (V i).1 z = V' i z) (i : Fin n) (z : W) :
    (Geo.covAlong (partialD U) g (pullback hq hU) (surf hq) (partialD W a) V i).1 z = covDeriv Γ q a V' i z := by
  unfold Geo.covAlong covDeriv
  have h1 : ∀ F : Fin n → Fin n → SmoothFn W, ev z (∑ j, ∑ k, F j k) = ∑ j, ∑ k, ev z (F j k) := fun F => by simp only [map_sum]
  show ev z (partialD W a (V i) + _) = _
  rw [map_add, h1]
  congr 1
  · exact partialD_pd (V i) _ (hV i) a z
  · refine Finset.sum_congr rfl fun j _ => Finset.sum_congr rfl fun k _ => ?_
    rw [map_mul, map_mul]
    congr 1
    · congr 1
      · rw [hΓ i j k _ (hU z z.2)]
        rfl
      · exact partialD_pd (surf hq j) _ (fun _ => rfl) a z
    · exact hV k z

end

/-- **C141** (geodesic deviation).  `q(t, s)` is a smooth family of geodesics (one for every `s`) of the connection
`ChristoffelSymbols.from_metric(m)`, with velocity `T = ∂q/∂t` and separation `J = ∂q/∂s`.  Then the relative acceleration of neighbouring geodesics is
`D²J^i/dt² = -R^i_jkl T^j J^k T^l` with the components of `RiemannCurvatureTensor.from_metric(m)`. -/
theorem C141_deviation (m : MetricV (SmoothFn U)) (G : Fin n → Fin n → (Fin n → ℝ) → ℝ) (h : Describes m G)
    (hq : ∀ i, ContDiffOn ℝ ∞ (fun z => q z i) W) (hU : ∀ z ∈ W, q z ∈ U) :
    Returns (christoffelFromMetric (diffD U m.syms) m) fun c => Returns (riemannFromMetric (diffD U m.syms) m) fun r =>
      (∀ z ∈ W, ∀ i, pd (tangent q 0 i) 0 z = -∑ j, ∑ k, symbols c i j k (q z) * tangent q 0 j z * tangent q 0 k z) →
      ∀ z ∈ W, ∀ i : Fin n, covDeriv (symbols c) q 0 (covDeriv (symbols c) q 0 (tangent q 1)) i z =
        -∑ j : Fin n, ∑ k : Fin n, ∑ l : Fin n, value r [(i : ℕ), j, k, l] (q z) * tangent q 0 j z * tangent q 1 k z * tangent q 0 l z := by
  obtain ⟨hn, g, hS, hG⟩ := h
  have hD : coordD (diffD U m.syms) m.syms n = partialD U := funext (coordD_diffD hS.syms hn)
  obtain ⟨a, e, -, hc⟩ := christoffel_ok (diffD U m.syms) m g hS
  obtain ⟨b, e', -, hc'⟩ := riemann_ok (diffD U m.syms) m g hS
  have hc := (comp_three _ _).mp hc
  have hc' := (comp_four _ _).mp hc'
  rw [hD] at hc hc'
  refine ⟨_, e, _, e', fun hgeo z hz i => ?_⟩
  generalize hΓ' : symbols (U := U) _ = Γ at hgeo ⊢
  set T := tangent q 0 with hT'
  set J := tangent q 1 with hJ'
  have hΓ : ∀ i j k, ∀ y ∈ U, Γ i j k y = ext U (Geo.christoffel (partialD U) g i j k).1 y := fun i j k y _ => by
    rw [← hΓ']
    show ext U (a.get _).1 y = _
    rw [hc]
  have hT : ∀ i (z : W), (partialD W 0 (surf hq i)).1 z = T i z := fun i z => partialD_pd (surf hq i) _ (fun _ => rfl) 0 z
  have hJ : ∀ i (z : W), (partialD W 1 (surf hq i)).1 z = J i z := fun i z => partialD_pd (surf hq i) _ (fun _ => rfl) 1 z
  have hdev := Geo.deviation (d := partialD U) (φ := pullback hq hU) (x := surf hq) (e := partialD W 0) (f := partialD W 1) hS.symm
    (chain hq hU 0) (chain hq hU 1) (partialD_comm 0 1) (fun i => ?_) i
  · have h1 := congrArg (fun f : SmoothFn W => f.1 ⟨z, hz⟩) hdev
    rw [cov_val hq hU hΓ 0 _ (covDeriv Γ q 0 J) (fun i z => cov_val hq hU hΓ 0 _ J hJ i z) i ⟨z, hz⟩] at h1
    rw [h1]
    change ev ⟨z, hz⟩ (-_) = _
    rw [map_neg]
    simp only [map_sum, map_mul]
    refine congrArg Neg.neg (Finset.sum_congr rfl fun j _ => Finset.sum_congr rfl fun k _ => Finset.sum_congr rfl fun l _ => ?_)
    have e1 : ev (⟨z, hz⟩ : W) (pullback hq hU (Geo.riemann (partialD U) g i j k l)) = value (U := U) ⟨.riemann, b, ['u', 'l', 'l', 'l'], 4, m.syms, some m, some "RiemannCurvatureTensor"⟩ [(i : ℕ), j, k, l] (q z) := by
      show ext U _ (q z) = ext U (b.get _).1 (q z)
      rw [hc']
    have e2 : ∀ i, ev (⟨z, hz⟩ : W) (partialD W 0 (surf hq i)) = T i z := fun i => hT i ⟨z, hz⟩
    have e3 : ∀ i, ev (⟨z, hz⟩ : W) (partialD W 1 (surf hq i)) = J i z := fun i => hJ i ⟨z, hz⟩
    rw [e1, e2, e2, e3]
  · refine Subtype.ext (funext fun z => ?_)
    rw [cov_val hq hU hΓ 0 _ T hT i z]
    show pd (T i) 0 z + ∑ j, ∑ k, Γ i j k (q z) * T j z * T k z = 0
    rw [hgeo z z.2 i]
    ring

/-- **C141** (Ricci identity).  For every smooth vector field `V` along every smooth two-parameter surface `q(t, s)` in `U`, the covariant derivatives with
`ChristoffelSymbols.from_metric(m)` in the two parameter directions commute up to `R^i_jkl V^j (∂q/∂t)^k (∂q/∂s)^l`, with the components of
`RiemannCurvatureTensor.from_metric(m)`. -/
theorem C141_commutator (m : MetricV (SmoothFn U)) (G : Fin n → Fin n → (Fin n → ℝ) → ℝ) (h : Describes m G)
    (hq : ∀ i, ContDiffOn ℝ ∞ (fun z => q z i) W) (hU : ∀ z ∈ W, q z ∈ U) (V : Fin n → (Fin 2 → ℝ) → ℝ) (hV : ∀ i, ContDiffOn ℝ ∞ (V i) W) :
    Returns (christoffelFromMetric (diffD U m.syms) m) fun c => Returns (riemannFromMetric (diffD U m.syms) m) fun r =>
      ∀ z ∈ W, ∀ i : Fin n, covDeriv (symbols c) q 0 (covDeriv (symbols c) q 1 V) i z - covDeriv (symbols c) q 1 (covDeriv (symbols c) q 0 V) i z =
        ∑ j : Fin n, ∑ k : Fin n, ∑ l : Fin n, value r [(i : ℕ), j, k, l] (q z) * V j z * tangent q 0 k z * tangent q 1 l z := by
  obtain ⟨hn, g, hS, hG⟩ := h
  have hD : coordD (diffD U m.syms) m.syms n = partialD U := funext (coordD_diffD hS.syms hn)
  obtain ⟨a, e, -, hc⟩ := christoffel_ok (diffD U m.syms) m g hS
  obtain ⟨b, e', -, hc'⟩ := riemann_ok (diffD U m.syms) m g hS
  have hc := (comp_three _ _).mp hc
  have hc' := (comp_four _ _).mp hc'
  rw [hD] at hc hc'
  refine ⟨_, e, _, e', fun z hz i => ?_⟩
  generalize hΓ' : symbols (U := U) _ = Γ
  have hΓ : ∀ i j k, ∀ y ∈ U, Γ i j k y = ext U (Geo.christoffel (partialD U) g i j k).1 y := fun i j k y _ => by
    rw [← hΓ']
    show ext U (a.get _).1 y = _
    rw [hc]
  have hdev := Geo.ricci_identity (d := partialD U) (φ := pullback hq hU) (x := surf hq) (e := partialD W 0) (f := partialD W 1) hS.symm
    (chain hq hU 0) (chain hq hU 1) (partialD_comm 0 1) (fun j => ofFn (V j) (hV j)) i
  have h1 := congrArg (ev (⟨z, hz⟩ : W)) hdev
  have hV' : ∀ i (z : W), (ofFn (V i) (hV i)).1 z = V i z := fun _ _ => rfl
  rw [map_sub] at h1
  have f1 := cov_val hq hU hΓ 0 _ (covDeriv Γ q 1 V) (fun i z => cov_val hq hU hΓ 1 _ V hV' i z) i ⟨z, hz⟩
  have f2 := cov_val hq hU hΓ 1 _ (covDeriv Γ q 0 V) (fun i z => cov_val hq hU hΓ 0 _ V hV' i z) i ⟨z, hz⟩
  rw [← f1, ← f2]
  refine h1.trans ?_
  simp only [map_sum, map_mul]
  refine Finset.sum_congr rfl fun j _ => Finset.sum_congr rfl fun k _ => Finset.sum_congr rfl fun l _ => ?_
  have e1 : ev (⟨z, hz⟩ : W) (pullback hq hU (Geo.riemann (partialD U) g i j k l)) = value (U := U) ⟨.riemann, b, ['u', 'l', 'l', 'l'], 4, m.syms, some m, some "RiemannCurvatureTensor"⟩ [(i : ℕ), j, k, l] (q z) := by
    show ext U _ (q z) = ext U (b.get _).1 (q z)
    rw [hc']
  have e2 : ∀ a i, ev (⟨z, hz⟩ : W) (partialD W a (surf hq i)) = tangent q a i z := fun a i =>
    partialD_pd (surf hq i) _ (fun _ => rfl) a ⟨z, hz⟩
  rw [e1, e2, e2]
  rfl

/-! ## the hypotheses are met: the meridians of the unit sphere -/

/-- the sphere without its poles -/
def sphOpen : TopologicalSpace.Opens (Fin 2 → ℝ) := ⟨{x | Real.sin (x 0) ≠ 0}, isOpen_ne_fun (by fun_prop) (by fun_prop)⟩

/-- `dθ² + sin²θ dφ²` -/
noncomputable def sphG (i j : Fin 2) (x : Fin 2 → ℝ) : ℝ := !![1, 0; 0, Real.sin (x 0) ^ 2] i j

theorem sphG_smooth (i j : Fin 2) : ContDiffOn ℝ ∞ (sphG i j) sphOpen := by
  unfold sphG
  fin_cases i <;> fin_cases j <;> simp <;> fun_prop

/-- the metric object -/
noncomputable def sphMetric : MetricV (SmoothFn sphOpen) :=
  ⟨NDArr.ofMatrix (Matrix.of fun i j => ofFn (sphG i j) (sphG_smooth i j)), ['l', 'l'], ["theta", "phi"], none⟩

theorem sphMetric_describes : Describes sphMetric sphG := by
  refine describes_of _ _ ?_ ?_ _ rfl (by decide)
  · intro i j x _
    fin_cases i <;> fin_cases j <;> rfl
  · intro x hx
    have hx : Real.sin (x 0) ≠ 0 := hx
    simp [Matrix.det_fin_two, sphG, hx]

theorem sph_christoffel (i : Fin 2) (x : Fin 2 → ℝ) : christoffel sphG i 0 0 x = 0 := by
  have h : ∀ l k, pd (sphG l 0) k x = 0 := fun l k => by
    unfold pd sphG
    fin_cases l <;> simp
  unfold christoffel
  simp [h]

/-- The meridians `θ = t, φ = s` are geodesics with `J = ∂φ`, so the deviation theorem applies to them: the hypotheses of `C141_deviation` hold. -/
theorem sph_meridians : Returns (christoffelFromMetric (diffD sphOpen sphMetric.syms) sphMetric) fun c =>
    Returns (riemannFromMetric (diffD sphOpen sphMetric.syms) sphMetric) fun r =>
    (∀ i, ContDiffOn ℝ ∞ (fun z : Fin 2 → ℝ => z i) sphOpen) ∧ (∀ z ∈ sphOpen, z ∈ sphOpen) ∧
    (∀ z ∈ sphOpen, ∀ i, pd (tangent (fun z => z) 0 i) 0 z =
      -∑ j, ∑ k, symbols c i j k z * tangent (fun z => z) 0 j z * tangent (fun z => z) 0 k z) ∧
    ∀ z ∈ sphOpen, covDeriv (symbols c) (fun z => z) 0 (covDeriv (symbols c) (fun z => z) 0 (tangent (fun z => z) 1)) 1 z =
      -value r [1, 0, 1, 0] z := by
  have ht : ∀ (a i : Fin 2), tangent (fun z : Fin 2 → ℝ => z) a i = fun _ => if i = a then 1 else 0 := fun a i => by
    funext z
    unfold tangent pd
    fin_cases a <;> fin_cases i <;> simp
  obtain ⟨c, e, hc⟩ := (C139_functions sphMetric sphG sphMetric_describes).1
  obtain ⟨c', e', r, er, hdev⟩ := C141_deviation (W := sphOpen) (q := fun z => z) sphMetric sphG sphMetric_describes (fun i => by fun_prop) (fun z hz => hz)
  have : c = c' := by rw [e] at e'; exact Except.ok.inj e'
  subst this
  have hgeo : ∀ z ∈ sphOpen, ∀ i, pd (tangent (fun z => z) 0 i) 0 z =
      -∑ j, ∑ k, symbols c i j k z * tangent (fun z => z) 0 j z * tangent (fun z => z) 0 k z := by
    intro z hz i
    have h0 : symbols c i 0 0 z = 0 := by
      show ext sphOpen _ z = 0
      rw [ext_of ⟨z, hz⟩]
      exact (hc i 0 0 ⟨z, hz⟩).trans (sph_christoffel i z)
    simp [ht, h0, pd]
  refine ⟨c, e, r, er, fun i => by fun_prop, fun z hz => hz, hgeo, fun z hz => ?_⟩
  rw [hdev hgeo z hz 1]
  simp [ht]

end Einpy.Fn
