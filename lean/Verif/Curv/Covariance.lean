import Verif.Curv.Geo3

/-!
# General covariance: how the curvature tensors behave under a change of coordinates
-/

set_option linter.unusedSectionVars false

namespace Einpy.Geo
open Matrix Finset

variable {ι R S : Type*} [Fintype ι] [DecidableEq ι] [CommRing R] [Algebra ℚ R] [CommRing S] [Algebra ℚ S]

/-- A change of coordinates.  `φ` substitutes the old coordinates by their expressions `x i` in the new ones; `d` and `e` are
the partial derivatives in the old and the new coordinates.  `chain` is the chain rule, `jac` says that the Jacobian matrix
`∂x^i/∂x'^a` is invertible. -/
structure CoordChange (d : ι → Derivation ℚ R R) (e : ι → Derivation ℚ S S) (φ : R →+* S) (x : ι → S) : Prop where
  comm : ∀ a b y, e a (e b y) = e b (e a y)
  chain : ∀ a f, e a (φ f) = ∑ i, e a (x i) * φ (d i f)
  jac : IsUnit (Matrix.of fun i a => e a (x i)).det

/-- the Jacobian matrix `∂x^i/∂x'^a` -/
def jacM (e : ι → Derivation ℚ S S) (x : ι → S) : Matrix ι ι S := Matrix.of fun i a => e a (x i)

/-- the metric in the new coordinates: `g'_ab = Σ ∂x^i/∂x'^a ∂x^j/∂x'^b g_ij(x(x'))` -/
def pullMetric (e : ι → Derivation ℚ S S) (φ : R →+* S) (x : ι → S) (g : Matrix ι ι R) : Matrix ι ι S :=
  fun a b => ∑ i, ∑ j, e a (x i) * e b (x j) * φ (g i j)

theorem half_map (φ : R →+* S) (y : R) : φ (half y) = half (φ y) := by
  have h1 : (2 : S) * φ (half y) = φ y := by rw [← map_ofNat φ 2, ← map_mul, two_half]
  have h2 := two_half (φ y)
  have h3 : (2 : S) * (φ (half y) - half (φ y)) = 0 := by rw [mul_sub, h1, h2, sub_self]
  exact sub_eq_zero.mp (eq_zero_of_two_mul h3)

/-- The Levi-Civita connection is the only torsion free connection compatible with the metric. -/
theorem levi_civita_unique (d : ι → Derivation ℚ R R) (g : Matrix ι ι R) (hs : g.transpose = g) (hu : IsUnit g.det)
    (C : ι → Matrix ι ι R) (ht : ∀ c t p, C c t p = C p t c) (hc : ∀ c, dM d c g = (C c).transpose * g + g * C c) (c : ι) :
    C c = A d g c := by
  have hL : ∀ k i j, d k (g i j) = (g * C k) j i + (g * C k) i j := by
    intro k i j
    have h := congrFun (congrFun (hc k) i) j
    rw [dM_apply, Matrix.add_apply] at h
    rw [h]
    congr 1
    simp only [Matrix.mul_apply, Matrix.transpose_apply]
    exact sum_congr rfl fun t _ => by rw [g_symm g hs t j]; ring
  have hsy : ∀ i j k, (g * C k) i j = (g * C j) i k := by
    intro i j k
    simp only [Matrix.mul_apply]
    exact sum_congr rfl fun t _ => by rw [ht k t j]
  ext t p
  have e1 : ∀ n, d c (g n p) + d p (g n c) - d n (g p c) = 2 * (g * C c) n p := by
    intro n
    rw [hL c n p, hL p n c, hL n p c, hsy p n c, hsy c n p, hsy n c p]
    ring
  have e2 : C c t p = ∑ n, g⁻¹ t n * (g * C c) n p := by
    rw [← Matrix.mul_apply, ← Matrix.mul_assoc, Matrix.nonsing_inv_mul g hu, Matrix.one_mul]
  rw [A, christoffel, e2]
  simp only [e1]
  have e3 : ∑ n, g⁻¹ t n * (2 * (g * C c) n p) = 2 * ∑ n, g⁻¹ t n * (g * C c) n p := by
    rw [mul_sum]; exact sum_congr rfl fun n _ => by ring
  rw [e3]
  unfold half
  rw [two_mul, smul_add, ← add_smul]
  norm_num

section Change
variable {d : ι → Derivation ℚ R R} {e : ι → Derivation ℚ S S} {φ : R →+* S} {x : ι → S}
variable (h : CoordChange d e φ x) {g : Matrix ι ι R}

local notation "J" => jacM e x

theorem jacM_apply (i a : ι) : jacM e x i a = e a (x i) := rfl

theorem pullMetric_eq : pullMetric e φ x g = (J).transpose * g.map φ * J := by
  ext a b
  simp only [pullMetric, Matrix.mul_apply, Matrix.transpose_apply, Matrix.map_apply, jacM_apply, sum_mul]
  rw [sum_comm]
  exact sum_congr rfl fun j _ => sum_congr rfl fun i _ => by ring

theorem pull_symm (hs : g.transpose = g) : (pullMetric e φ x g).transpose = pullMetric e φ x g := by
  rw [pullMetric_eq, Matrix.transpose_mul, Matrix.transpose_mul, Matrix.transpose_transpose, ← Matrix.transpose_map, hs,
    Matrix.mul_assoc]

include h

theorem jac_unit : IsUnit (J).det := h.jac

theorem jac_closed (i a b : ι) : e a (J i b) = e b (J i a) := h.comm a b (x i)

theorem dM_pull (c : ι) (M : Matrix ι ι R) : dM e c (M.map φ) = ∑ k, J k c • (dM d k M).map φ := by
  ext i j
  rw [dM_apply, Matrix.map_apply, h.chain, Matrix.sum_apply]
  exact sum_congr rfl fun k _ => rfl

theorem pull_det (hu : IsUnit g.det) : IsUnit (pullMetric e φ x g).det := by
  rw [pullMetric_eq, Matrix.det_mul, Matrix.det_mul, Matrix.det_transpose]
  have h1 : IsUnit (g.map φ).det := by
    have := (RingHom.map_det φ g).symm
    rw [show g.map φ = φ.mapMatrix g from rfl, this]
    exact hu.map φ
  exact ((jac_unit h).mul h1).mul (jac_unit h)

omit h in
/-- `Σ_k J^k_c A_k`, the connection along the new coordinate lines -/
noncomputable def pullA (d : ι → Derivation ℚ R R) (e : ι → Derivation ℚ S S) (φ : R →+* S) (x : ι → S) (g : Matrix ι ι R) (c : ι) :
    Matrix ι ι S := ∑ k, jacM e x k c • (A d g k).map φ

/-- **Transformation of the connection.** -/
theorem connection_change (hs : g.transpose = g) (hu : IsUnit g.det) (c : ι) :
    A e (pullMetric e φ x g) c = (J)⁻¹ * (pullA d e φ x g c * J + dM e c J) := by
  have hP : J * (J)⁻¹ = 1 := Matrix.mul_nonsing_inv _ (jac_unit h)
  have hcomp : ∀ c, dM e c (g.map φ) = (pullA d e φ x g c).transpose * g.map φ + g.map φ * pullA d e φ x g c := by
    intro c
    rw [dM_pull h]
    unfold pullA
    rw [Matrix.transpose_sum, Finset.sum_mul, Finset.mul_sum, ← sum_add_distrib]
    refine sum_congr rfl fun k _ => ?_
    rw [compatM d g hs hu k, Matrix.transpose_smul, Matrix.smul_mul, Matrix.mul_smul, ← smul_add]
    congr 1
    rw [Matrix.map_add _ (map_add φ), Matrix.map_mul, Matrix.map_mul, Matrix.transpose_map]
  refine (levi_civita_unique e _ (pull_symm hs) (pull_det h hu)
    (fun c => (J)⁻¹ * (pullA d e φ x g c * J + dM e c J)) ?_ ?_ c).symm
  · intro c t p
    simp only [Matrix.mul_apply (M := (J)⁻¹)]
    refine sum_congr rfl fun i _ => ?_
    congr 1
    simp only [Matrix.add_apply, dM_apply, jac_closed h i c p]
    congr 1
    simp only [Matrix.mul_apply, pullA, Matrix.sum_apply, Matrix.smul_apply, Matrix.map_apply, sum_mul, smul_eq_mul, A]
    rw [sum_comm]
    refine sum_congr rfl fun j _ => sum_congr rfl fun k _ => ?_
    rw [christoffel_symm d g hs i j k]
    ring
  · intro c
    rw [pullMetric_eq, dM_mul, dM_mul, dM_transpose, hcomp c]
    have e1 : (J).transpose * g.map φ * J * ((J)⁻¹ * (pullA d e φ x g c * J + dM e c J)) =
        (J).transpose * g.map φ * (pullA d e φ x g c * J + dM e c J) := by
      rw [Matrix.mul_assoc _ J, ← Matrix.mul_assoc J, hP, Matrix.one_mul]
    have e2 : ((J)⁻¹ * (pullA d e φ x g c * J + dM e c J)).transpose * ((J).transpose * g.map φ * J) =
        (pullA d e φ x g c * J + dM e c J).transpose * (g.map φ * J) := by
      rw [Matrix.transpose_mul, Matrix.mul_assoc, Matrix.mul_assoc (J).transpose, ← Matrix.mul_assoc ((J)⁻¹).transpose,
        ← Matrix.transpose_mul, hP, Matrix.transpose_one, Matrix.one_mul]
    rw [e1, e2, Matrix.transpose_add, Matrix.transpose_mul]
    noncomm_ring

/-- **Transformation of the curvature.** -/
theorem curvature_change (hs : g.transpose = g) (hu : IsUnit g.det) (c b : ι) :
    F e (pullMetric e φ x g) c b = (J)⁻¹ * (∑ k, ∑ l, (J k c * J l b) • (F d g k l).map φ) * J := by
  have hP : J * (J)⁻¹ = 1 := Matrix.mul_nonsing_inv _ (jac_unit h)
  have hP' : (J)⁻¹ * J = 1 := Matrix.nonsing_inv_mul _ (jac_unit h)
  have hdi : ∀ c, dM e c (J)⁻¹ = -((J)⁻¹ * dM e c J * (J)⁻¹) := by
    intro c
    have h3 := dM_mul e c (J)⁻¹ J
    rw [hP', dM_one] at h3
    have h4 : dM e c (J)⁻¹ * J = -((J)⁻¹ * dM e c J) := eq_neg_of_add_eq_zero_left h3.symm
    calc dM e c (J)⁻¹ = dM e c (J)⁻¹ * J * (J)⁻¹ := by rw [Matrix.mul_assoc, hP, Matrix.mul_one]
      _ = _ := by rw [h4, Matrix.neg_mul]
  -- the half that is antisymmetrised
  have key : ∀ c b, dM e c (A e (pullMetric e φ x g) b) + A e (pullMetric e φ x g) c * A e (pullMetric e φ x g) b =
      (J)⁻¹ * (dM e c (pullA d e φ x g b) * J + pullA d e φ x g b * dM e c J + dM e c (dM e b J) +
        pullA d e φ x g c * pullA d e φ x g b * J + pullA d e φ x g c * dM e b J) := by
    intro c b
    rw [connection_change h hs hu c, connection_change h hs hu b, dM_mul, hdi, dM_add, dM_mul]
    have e1 : (J)⁻¹ * (pullA d e φ x g c * J + dM e c J) * ((J)⁻¹ * (pullA d e φ x g b * J + dM e b J)) =
        (J)⁻¹ * (pullA d e φ x g c * (J * (J)⁻¹) + dM e c J * (J)⁻¹) * (pullA d e φ x g b * J + dM e b J) := by
      noncomm_ring
    rw [e1, hP]
    noncomm_ring
  have hG : ∀ c b, dM e c (pullA d e φ x g b) = ∑ l, e c (J l b) • (A d g l).map φ +
      ∑ k, ∑ l, (J k c * J l b) • (dM d k (A d g l)).map φ := by
    intro c b
    have e1 : dM e c (pullA d e φ x g b) = ∑ l, (e c (J l b) • (A d g l).map φ + J l b • dM e c ((A d g l).map φ)) := by
      ext i j
      simp only [dM_apply, pullA, Matrix.sum_apply, Matrix.add_apply, Matrix.smul_apply, map_sum, smul_eq_mul, Derivation.leibniz]
      exact sum_congr rfl fun l _ => by ring
    rw [e1, sum_add_distrib]
    congr 1
    rw [sum_comm]
    refine sum_congr rfl fun l _ => ?_
    rw [dM_pull h, smul_sum]
    exact sum_congr rfl fun k _ => by rw [smul_smul, mul_comm]
  have hGG : ∀ c b, pullA d e φ x g c * pullA d e φ x g b = ∑ k, ∑ l, (J k c * J l b) • ((A d g k).map φ * (A d g l).map φ) := by
    intro c b
    unfold pullA
    rw [Finset.sum_mul_sum]
    exact sum_congr rfl fun k _ => sum_congr rfl fun l _ => by rw [Matrix.smul_mul, Matrix.mul_smul, smul_smul]
  rw [F_eq]
  have k1 := key c b
  have k2 := key b c
  have e1 : dM e c (A e (pullMetric e φ x g) b) - dM e b (A e (pullMetric e φ x g) c) +
      A e (pullMetric e φ x g) c * A e (pullMetric e φ x g) b - A e (pullMetric e φ x g) b * A e (pullMetric e φ x g) c =
      (dM e c (A e (pullMetric e φ x g) b) + A e (pullMetric e φ x g) c * A e (pullMetric e φ x g) b) -
      (dM e b (A e (pullMetric e φ x g) c) + A e (pullMetric e φ x g) b * A e (pullMetric e φ x g) c) := by abel
  rw [e1, k1, k2, dM_comm e h.comm b c]
  have e2 : (J)⁻¹ * (dM e c (pullA d e φ x g b) * J + pullA d e φ x g b * dM e c J + dM e c (dM e b J) +
        pullA d e φ x g c * pullA d e φ x g b * J + pullA d e φ x g c * dM e b J) -
      (J)⁻¹ * (dM e b (pullA d e φ x g c) * J + pullA d e φ x g c * dM e b J + dM e c (dM e b J) +
        pullA d e φ x g b * pullA d e φ x g c * J + pullA d e φ x g b * dM e c J) =
      (J)⁻¹ * ((dM e c (pullA d e φ x g b) + pullA d e φ x g c * pullA d e φ x g b) -
        (dM e b (pullA d e φ x g c) + pullA d e φ x g b * pullA d e φ x g c)) * J := by noncomm_ring
  rw [e2]
  congr 2
  rw [hG c b, hG b c, hGG c b, hGG b c]
  have e3 : ∑ l, e c (J l b) • (A d g l).map φ = ∑ l, e b (J l c) • (A d g l).map φ :=
    sum_congr rfl fun l _ => by rw [jac_closed h l c b]
  rw [e3]
  have sw : ∀ X : ι → ι → Matrix ι ι S, ∑ k, ∑ l, (J k b * J l c) • X k l = ∑ k, ∑ l, (J k c * J l b) • X l k := by
    intro X
    rw [sum_comm]
    exact sum_congr rfl fun k _ => sum_congr rfl fun l _ => by rw [mul_comm]
  rw [sw, sw]
  have e4 : ∀ k l, (F d g k l).map φ = (dM d k (A d g l)).map φ - (dM d l (A d g k)).map φ +
      (A d g k).map φ * (A d g l).map φ - (A d g l).map φ * (A d g k).map φ := by
    intro k l
    rw [F_eq, ← Matrix.map_mul, ← Matrix.map_mul]
    ext i j
    simp only [Matrix.map_apply, Matrix.add_apply, Matrix.sub_apply, map_add, map_sub]
  simp only [e4, smul_add, smul_sub, sum_add_distrib, sum_sub_distrib]
  abel

omit h in
/-- covariant components in the new coordinates of a covariant tensor of rank 2 -/
def pull2 (e : ι → Derivation ℚ S S) (φ : R →+* S) (x : ι → S) (T : ι → ι → R) (a b : ι) : S :=
  ∑ i, ∑ j, e a (x i) * e b (x j) * φ (T i j)

omit h in
/-- covariant components in the new coordinates of a covariant tensor of rank 4 -/
def pull4 (e : ι → Derivation ℚ S S) (φ : R →+* S) (x : ι → S) (T : ι → ι → ι → ι → R) (a b c d : ι) : S :=
  ∑ i, ∑ j, ∑ k, ∑ l, e a (x i) * e b (x j) * e c (x k) * e d (x l) * φ (T i j k l)

omit h in
theorem pull2_eq (T : Matrix ι ι R) : Matrix.of (pull2 e φ x T) = (J).transpose * T.map φ * J :=
  pullMetric_eq (g := T)

omit h in
theorem pull2_metric (a b : ι) : pull2 e φ x g a b = pullMetric e φ x g a b := rfl

/-- the inverse metric in the new coordinates -/
theorem inverse_change (hu : IsUnit g.det) : (pullMetric e φ x g)⁻¹ = (J)⁻¹ * g⁻¹.map φ * ((J)⁻¹).transpose := by
  have hP : J * (J)⁻¹ = 1 := Matrix.mul_nonsing_inv _ (jac_unit h)
  refine Matrix.inv_eq_right_inv ?_
  have h1 : g.map φ * g⁻¹.map φ = 1 := by
    rw [← Matrix.map_mul, Matrix.mul_nonsing_inv g hu, Matrix.map_one _ (map_zero φ) (map_one φ)]
  rw [pullMetric_eq]
  calc (J).transpose * g.map φ * J * ((J)⁻¹ * g⁻¹.map φ * ((J)⁻¹).transpose)
      = (J).transpose * (g.map φ * (J * (J)⁻¹) * g⁻¹.map φ) * ((J)⁻¹).transpose := by noncomm_ring
    _ = 1 := by rw [hP, Matrix.mul_one, h1, Matrix.mul_one, ← Matrix.transpose_mul, Matrix.nonsing_inv_mul _ (jac_unit h),
        Matrix.transpose_one]

theorem riemannLow_change (hs : g.transpose = g) (hu : IsUnit g.det) (a s r n : ι) :
    riemannLow e (pullMetric e φ x g) a s r n = pull4 e φ x (riemannLow d g) a s r n := by
  have hP : J * (J)⁻¹ = 1 := Matrix.mul_nonsing_inv _ (jac_unit h)
  rw [riemannLow_eq, curvature_change h hs hu, pullMetric_eq]
  have e1 : (J).transpose * g.map φ * J * ((J)⁻¹ * (∑ k, ∑ l, (J k r * J l n) • (F d g k l).map φ) * J) =
      (J).transpose * (∑ k, ∑ l, (J k r * J l n) • (g * F d g k l).map φ) * J := by
    have e2 : (∑ k, ∑ l, (J k r * J l n) • (g * F d g k l).map φ) =
        g.map φ * ∑ k, ∑ l, (J k r * J l n) • (F d g k l).map φ := by
      simp only [Finset.mul_sum, Matrix.mul_smul, Matrix.map_mul]
    rw [e2]
    calc _ = (J).transpose * (g.map φ * (J * (J)⁻¹) * ∑ k, ∑ l, (J k r * J l n) • (F d g k l).map φ) * J := by noncomm_ring
      _ = _ := by rw [hP, Matrix.mul_one]
  have e3 : ∀ M : Matrix ι ι S, ((J).transpose * M * J) a s = ∑ i, ∑ j, J i a * J j s * M i j := by
    intro M
    simp only [Matrix.mul_apply, Matrix.transpose_apply, sum_mul]
    rw [sum_comm]
    exact sum_congr rfl fun i _ => sum_congr rfl fun j _ => by ring
  rw [e1, e3]
  simp only [pull4, Matrix.sum_apply, Matrix.smul_apply, Matrix.map_apply, smul_eq_mul, jacM_apply, mul_sum, riemannLow_eq]
  exact sum_congr rfl fun i _ => sum_congr rfl fun j _ => sum_congr rfl fun k _ => sum_congr rfl fun l _ => by ring

theorem riemann_change (hs : g.transpose = g) (hu : IsUnit g.det) (t s r n : ι) :
    ∑ a, e a (x t) * riemann e (pullMetric e φ x g) a s r n =
      ∑ j, ∑ k, ∑ l, e s (x j) * e r (x k) * e n (x l) * φ (riemann d g t j k l) := by
  have hP : J * (J)⁻¹ = 1 := Matrix.mul_nonsing_inv _ (jac_unit h)
  have e1 : ∑ a, e a (x t) * riemann e (pullMetric e φ x g) a s r n = (J * F e (pullMetric e φ x g) r n) t s := rfl
  rw [e1, curvature_change h hs hu, ← Matrix.mul_assoc, ← Matrix.mul_assoc, hP, Matrix.one_mul]
  simp only [Matrix.mul_apply, Matrix.sum_apply, Matrix.smul_apply, Matrix.map_apply, smul_eq_mul, jacM_apply, sum_mul, F]
  exact sum_congr rfl fun j _ => sum_congr rfl fun k _ => sum_congr rfl fun l _ => by ring

theorem christoffel_change (hs : g.transpose = g) (hu : IsUnit g.det) (t b c : ι) :
    ∑ a, e a (x t) * christoffel e (pullMetric e φ x g) a b c =
      e c (e b (x t)) + ∑ j, ∑ k, e b (x j) * e c (x k) * φ (christoffel d g t j k) := by
  have hP : J * (J)⁻¹ = 1 := Matrix.mul_nonsing_inv _ (jac_unit h)
  have e1 : ∑ a, e a (x t) * christoffel e (pullMetric e φ x g) a b c = (J * A e (pullMetric e φ x g) c) t b := rfl
  rw [e1, connection_change h hs hu, ← Matrix.mul_assoc, hP, Matrix.one_mul, Matrix.add_apply, dM_apply, add_comm]
  congr 1
  simp only [pullA, Matrix.mul_apply, Matrix.sum_apply, Matrix.smul_apply, Matrix.map_apply, smul_eq_mul, jacM_apply, sum_mul, A]
  exact sum_congr rfl fun j _ => sum_congr rfl fun k _ => by ring

theorem ricci_change (hs : g.transpose = g) (hu : IsUnit g.det) (a b : ι) :
    ricci e (pullMetric e φ x g) a b = pull2 e φ x (ricci d g) a b := by
  have hP : J * (J)⁻¹ = 1 := Matrix.mul_nonsing_inv _ (jac_unit h)
  have e0 : ricci e (pullMetric e φ x g) a b = ∑ t, F e (pullMetric e φ x g) t b t a := rfl
  rw [e0]
  simp only [curvature_change h hs hu]
  have e1 : ∀ t, ((J)⁻¹ * (∑ k, ∑ l, (J k t * J l b) • (F d g k l).map φ) * J) t a =
      ∑ k, ∑ l, J l b * (J k t * ((J)⁻¹ * (F d g k l).map φ * J) t a) := by
    intro t
    simp only [Finset.mul_sum, Finset.sum_mul, Matrix.mul_smul, Matrix.smul_mul, Matrix.sum_apply, Matrix.smul_apply, smul_eq_mul]
    exact sum_congr rfl fun k _ => sum_congr rfl fun l _ => by ring
  simp only [e1]
  rw [sum_comm]
  have e2 : ∀ k, ∑ t, ∑ l, J l b * (J k t * ((J)⁻¹ * (F d g k l).map φ * J) t a) =
      ∑ l, J l b * ((F d g k l).map φ * J) k a := by
    intro k
    rw [sum_comm]
    refine sum_congr rfl fun l _ => ?_
    rw [← mul_sum, ← Matrix.mul_apply, ← Matrix.mul_assoc, ← Matrix.mul_assoc, hP, Matrix.one_mul]
  simp only [e2]
  simp only [pull2, ricci, map_sum, Matrix.mul_apply, Matrix.map_apply, F, jacM_apply, mul_sum]
  -- Σ_k Σ_l Σ_m  =  Σ_m Σ_l Σ_k
  rw [sum_comm (s := univ) (t := univ) (f := fun i j => ∑ t, e a (x i) * e b (x j) * φ (riemann d g t i t j))]
  rw [sum_comm]
  refine sum_congr rfl fun l _ => ?_
  rw [sum_comm]
  exact sum_congr rfl fun m _ => sum_congr rfl fun k _ => by ring

/-- **The Ricci scalar does not depend on the coordinates.** -/
theorem scalar_change (hs : g.transpose = g) (hu : IsUnit g.det) :
    scalar e (pullMetric e φ x g) = φ (scalar d g) := by
  have hP : J * (J)⁻¹ = 1 := Matrix.mul_nonsing_inv _ (jac_unit h)
  rw [scalar_eq, scalar_eq]
  have e0 : tr2 g (ricci d g) = (g⁻¹ * (Matrix.of (ricci d g)).transpose).trace := tr2_eq g (Matrix.of (ricci d g))
  have e0' : tr2 (pullMetric e φ x g) (ricci e (pullMetric e φ x g)) =
      ((pullMetric e φ x g)⁻¹ * (Matrix.of (ricci e (pullMetric e φ x g))).transpose).trace :=
    tr2_eq (pullMetric e φ x g) (Matrix.of (ricci e (pullMetric e φ x g)))
  rw [e0, e0']
  have e1 : Matrix.of (ricci e (pullMetric e φ x g)) = (J).transpose * (Matrix.of (ricci d g)).map φ * J := by
    rw [← pull2_eq]
    ext a b
    exact ricci_change h hs hu a b
  rw [e1, inverse_change h hu]
  set Q : Matrix ι ι R := Matrix.of (ricci d g)
  have e2 : (J)⁻¹ * g⁻¹.map φ * ((J)⁻¹).transpose * ((J).transpose * Q.map φ * J).transpose =
      (J)⁻¹ * (g⁻¹.map φ * (((J)⁻¹).transpose * (J).transpose) * (Q.map φ).transpose * J) := by
    simp only [Matrix.transpose_mul, Matrix.transpose_transpose]
    noncomm_ring
  rw [e2, ← Matrix.transpose_mul, hP, Matrix.transpose_one, Matrix.mul_one, Matrix.trace_mul_comm, Matrix.mul_assoc, hP,
    Matrix.mul_one, ← Matrix.transpose_map, ← Matrix.map_mul]
  simp only [Matrix.trace, Matrix.diag_apply, Matrix.map_apply, map_sum]

omit h in
theorem ratMap_smul (φ : R →+* S) (c : ℚ) (y : R) : φ (c • y) = c • φ y := by
  have : φ (algebraMap ℚ R c) = algebraMap ℚ S c := by
    have : φ.comp (algebraMap ℚ R) = algebraMap ℚ S := Subsingleton.elim _ _
    exact congrArg (fun f : ℚ →+* S => f c) this
  rw [Algebra.smul_def, map_mul, this, Algebra.smul_def]

theorem einstein_change (hs : g.transpose = g) (hu : IsUnit g.det) (a b : ι) :
    einstein e (pullMetric e φ x g) a b = pull2 e φ x (einstein d g) a b := by
  rw [einstein, ricci_change h hs hu, scalar_change h hs hu]
  simp only [pull2, einstein, pullMetric, map_sub, half_map, map_mul, mul_sub, sum_sub_distrib, mul_sum, smul_sum, half, mul_smul_comm]
  congr 1
  exact sum_congr rfl fun i _ => sum_congr rfl fun j _ => by congr 1; ring

theorem schouten_change (hs : g.transpose = g) (hu : IsUnit g.det) (a b : ι) :
    schouten e (pullMetric e φ x g) a b = pull2 e φ x (schouten d g) a b := by
  rw [schouten, ricci_change h hs hu, scalar_change h hs hu]
  simp only [pull2, schouten, pullMetric, map_sub, ratMap_smul, map_mul, mul_sub, sum_sub_distrib, mul_sum, smul_sum, mul_smul_comm,
    smul_sub]
  congr 1
  exact sum_congr rfl fun i _ => sum_congr rfl fun j _ => by congr 2; ring

omit h in
theorem pull4_add (T U : ι → ι → ι → ι → R) (a b c k : ι) :
    pull4 e φ x (fun i j k l => T i j k l + U i j k l) a b c k = pull4 e φ x T a b c k + pull4 e φ x U a b c k := by
  simp only [pull4, map_add, mul_add, sum_add_distrib]

omit h in
theorem pull4_smul (q : ℚ) (T : ι → ι → ι → ι → R) (a b c k : ι) :
    pull4 e φ x (fun i j k l => q • T i j k l) a b c k = q • pull4 e φ x T a b c k := by
  simp only [pull4, ratMap_smul, mul_smul_comm, smul_sum]

omit h in
theorem pull4_mul (r : R) (T : ι → ι → ι → ι → R) (a b c k : ι) :
    pull4 e φ x (fun i j k l => r * T i j k l) a b c k = φ r * pull4 e φ x T a b c k := by
  simp only [pull4, map_mul, mul_sum]
  exact sum_congr rfl fun i _ => sum_congr rfl fun j _ => sum_congr rfl fun k _ => sum_congr rfl fun l _ => by ring

omit h in
theorem pull4_sub (T U : ι → ι → ι → ι → R) (a b c k : ι) :
    pull4 e φ x (fun i j k l => T i j k l - U i j k l) a b c k = pull4 e φ x T a b c k - pull4 e φ x U a b c k := by
  simp only [pull4, map_sub, mul_sub, sum_sub_distrib]

omit h in
theorem pull4_il_km (T U : ι → ι → R) (a b c k : ι) :
    pull4 e φ x (fun i j k l => T i k * U j l) a b c k = pull2 e φ x T a c * pull2 e φ x U b k := by
  simp only [pull4, pull2, map_mul]
  rw [sum_mul_sum]
  refine sum_congr rfl fun i _ => sum_congr rfl fun j _ => ?_
  rw [sum_mul_sum]
  exact sum_congr rfl fun _ _ => sum_congr rfl fun _ _ => by ring

omit h in
theorem pull4_im_kl (T U : ι → ι → R) (a b c k : ι) :
    pull4 e φ x (fun i j k l => T i l * U j k) a b c k = pull2 e φ x T a k * pull2 e φ x U b c := by
  simp only [pull4, pull2, map_mul]
  rw [sum_mul_sum]
  refine sum_congr rfl fun i _ => sum_congr rfl fun j _ => ?_
  rw [sum_mul_sum, sum_comm]
  exact sum_congr rfl fun _ _ => sum_congr rfl fun _ _ => by ring

theorem weyl_change (hs : g.transpose = g) (hu : IsUnit g.det) (a b c k : ι) :
    weyl e (pullMetric e φ x g) a b c k = pull4 e φ x (weyl d g) a b c k := by
  have hw : weyl d g = fun i k l m => riemannLow d g i k l m
      + ((Fintype.card ι : ℚ) - 2)⁻¹ • (ricci d g i m * g k l - ricci d g i l * g k m + g i m * ricci d g k l - g i l * ricci d g k m)
      + (((Fintype.card ι : ℚ) - 1) * ((Fintype.card ι : ℚ) - 2))⁻¹ • (scalar d g * (g i l * g k m - g i m * g k l)) := by
    funext i k l m
    simp only [weyl, mul_comm (ricci d g k l), mul_comm (ricci d g k m)]
  rw [hw]
  have r1 := pull4_im_kl (e := e) (φ := φ) (x := x) (ricci d g) g a b c k
  have r2 := pull4_il_km (e := e) (φ := φ) (x := x) (ricci d g) g a b c k
  have r3 := pull4_im_kl (e := e) (φ := φ) (x := x) g (ricci d g) a b c k
  have r4 := pull4_il_km (e := e) (φ := φ) (x := x) g (ricci d g) a b c k
  have r5 := pull4_il_km (e := e) (φ := φ) (x := x) g g a b c k
  have r6 := pull4_im_kl (e := e) (φ := φ) (x := x) g g a b c k
  simp only [pull4_add, pull4_smul, pull4_sub, pull4_mul]
  rw [r1, r2, r3, r4, r5, r6]
  simp only [weyl, riemannLow_change h hs hu, scalar_change h hs hu, ricci_change h hs hu, ← pull2_metric]
  congr 2
  congr 1
  ring

end Change

end Einpy.Geo
