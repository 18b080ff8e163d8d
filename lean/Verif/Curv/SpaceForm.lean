import Verif.Curv.Quadric
import Verif.Curv.Schur

/-!
# C149: constant curvature exactly for the metrics of hyperquadrics (spheres, hyperbolic spaces, (anti-)de Sitter space)
-/

namespace Einpy.Geo
open Matrix Finset
variable {ι R : Type*} [Fintype ι] [DecidableEq ι] [CommRing R]
variable {l : Type*} [Fintype l] [DecidableEq l]

theorem frame_entry {g : Matrix ι ι R} (hu : IsUnit g.det) {k c : R} (hc : k * c = 1) (M : Matrix l (Unit ⊕ ι) R) (s : l → R) (A B : l) :
    (M * ((quadForm g c)⁻¹ * M.transpose * Matrix.diagonal s)) A B = quadProd g k (M A (.inl ())) (M B (.inl ())) (fun a => M A (.inr a)) (fun a => M B (.inr a)) * s B := by
  rw [quadForm_inv hu hc, ← Matrix.mul_assoc, ← Matrix.mul_assoc, Matrix.mul_diagonal]
  congr 1
  rw [Matrix.mul_assoc, Matrix.mul_apply, sum_qd]
  simp only [Matrix.mul_apply, sum_qd, Matrix.transpose_apply, quadForm, Matrix.fromBlocks_apply₁₁, Matrix.fromBlocks_apply₁₂, Matrix.fromBlocks_apply₂₁,
    Matrix.fromBlocks_apply₂₂, Matrix.of_apply, Matrix.zero_apply, zero_mul, sum_const_zero, add_zero, zero_add]
  unfold quadProd tr2
  congr 1
  · ring
  · refine sum_congr rfl fun a _ => ?_
    rw [mul_sum]
    exact sum_congr rfl fun b _ => by ring
end Einpy.Geo

namespace Einpy.Fn
open scoped Topology ContDiff

variable {n : ℕ} {U : TopologicalSpace.Opens (Fin n → ℝ)} {m : MetricV (SmoothFn U)} {G : Fin n → Fin n → (Fin n → ℝ) → ℝ}

/-- `V` lies in the quadric `Σ_a s_a φ_a² = 1/K` of an `n+1`-dimensional flat space with coordinates `φ_a`: smooth functions, one to one, and the metric is the one
induced from `Σ_a s_a (dφ_a)²`, with signs `s_a`. -/
structure QuadricCoordinates (G : Fin n → Fin n → (Fin n → ℝ) → ℝ) (V : Set (Fin n → ℝ)) (K : ℝ) (φ : Fin (n + 1) → (Fin n → ℝ) → ℝ) (s : Fin (n + 1) → ℝ) : Prop where
  smooth : ∀ a, ContDiffOn ℝ ∞ (φ a) V
  inj : Set.InjOn (fun x a => φ a x) V
  sign : ∀ a, s a = -1 ∨ s a = 1
  quadric : ∀ x ∈ V, ∑ a, s a * φ a x * φ a x = 1 / K
  metric : ∀ x ∈ V, ∀ i j, G i j x = ∑ a, s a * pd (φ a) i x * pd (φ a) j x

/-- a constant -/
noncomputable def constFn (U : TopologicalSpace.Opens (Fin n → ℝ)) (c : ℝ) : SmoothFn U := ofFn (fun _ => c) contDiffOn_const

theorem constFn_val (c : ℝ) (x : U) : ev x (constFn U c) = c := rfl

theorem constFn_d (c : ℝ) (i : Fin n) : partialD U i (constFn U c) = 0 := fn_ext fun x => by
  refine (partialD_pd _ (fun _ => c) (fun _ => rfl) i x).trans ?_
  simp [pd]

/-- the labels -/
def labels (n : ℕ) : Fin (n + 1) ≃ Unit ⊕ Fin n := (finCongr (Nat.add_comm n 1)).trans ((finSumFinEquiv (m := 1) (n := n)).symm.trans (Equiv.sumCongr finOneEquiv (Equiv.refl _)))

/-- a metric induced on a quadric has constant curvature -/
theorem quadric_riemann (h : Describes m G) {K : ℝ} (hK : K ≠ 0) {φ : Fin (n + 1) → (Fin n → ℝ) → ℝ} {s : Fin (n + 1) → ℝ} (hq : QuadricCoordinates G U K φ s) :
    ∀ y ∈ U, ∀ t a i j, riemann G t a i j y = K * ((if t = i then 1 else 0) * G a j y - (if t = j then 1 else 0) * G a i y) := by
  obtain ⟨-, g, hS, hG⟩ := h
  have hu := hS.reps.2.1
  obtain ⟨Φ, hΦ⟩ : ∃ Φ : Fin (n + 1) → SmoothFn U, ∀ A, (∀ x : U, ev x (Φ A) = φ A x) ∧ ∀ i (x : U), ev x (partialD U i (Φ A)) = pd (φ A) i x :=
    ⟨fun A => ofFn (φ A) (hq.smooth A), fun A => ⟨fun x => rfl, fun i x => partialD_pd _ _ (fun _ => rfl) i x⟩⟩
  have hgv : ∀ i j (x : U), ev x (g i j) = G i j x := fun i j x => hG i j x
  have key := Geo.quad_riemann (d := partialD U) (g := g) (k := constFn U K) (c := constFn U (1 / K)) partialD_comm hS.symm hu
    (fn_ext fun x => by rw [map_mul, constFn_val, constFn_val, map_one]; field_simp) (constFn_d _) (labels n) (fun A => constFn U (s A)) Φ (fun i A => constFn_d _ i)
    (fn_ext fun x => by
      simp only [map_sum, map_mul, constFn_val, (hΦ _).1]
      exact hq.quadric x x.2)
    (fun i j => fn_ext fun x => by
      simp only [map_sum, map_mul, constFn_val, (hΦ _).2, hgv]
      exact hq.metric x x.2 i j)
  intro y hy t a i j
  have e := congrArg (ev (⟨y, hy⟩ : U)) (key t a i j)
  rw [riemann_val hu hG] at e
  rw [e]
  have e1 : ∀ i j, ev (⟨y, hy⟩ : U) ((1 : Matrix (Fin n) (Fin n) (SmoothFn U)) i j) = if i = j then 1 else 0 := fun i j => by
    rw [Matrix.one_apply, apply_ite (ev _), map_one, map_zero]
  simp only [map_mul, map_sub, constFn_val, e1, hgv]

/-- functions whose derivatives at a point make the metric there are one to one near the point -/
theorem immersion_inj {V : Set (Fin n → ℝ)} (hV : IsOpen V) {x0 : Fin n → ℝ} (hx0 : x0 ∈ V) {N : ℕ} (φ : Fin N → (Fin n → ℝ) → ℝ) (hφ : ∀ a, ContDiffOn ℝ ∞ (φ a) V) (s : Fin N → ℝ)
    (η : Matrix (Fin n) (Fin n) ℝ) (hη : η.det ≠ 0) (hm : ∀ i j, η i j = ∑ a, s a * pd (φ a) i x0 * pd (φ a) j x0) :
    ∃ W : Set (Fin n → ℝ), IsOpen W ∧ x0 ∈ W ∧ Set.InjOn (fun x a => φ a x) W := by
  set L : Fin n → Fin N → ℝ := fun b a => ∑ i, η⁻¹ b i * s a * pd (φ a) i x0 with hL
  have hd : ∀ a, DifferentiableAt ℝ (φ a) x0 := fun a => ((hφ a).contDiffAt (hV.mem_nhds hx0)).differentiableAt (by simp)
  have hcd : ContDiffAt ℝ ∞ (fun x b => ∑ a, L b a * φ a x) x0 :=
    contDiffAt_pi.mpr fun b => ContDiffAt.sum fun a _ => contDiffAt_const.mul ((hφ a).contDiffAt (hV.mem_nhds hx0))
  have hfd : HasFDerivAt (fun x b => ∑ a, L b a * φ a x) ((ContinuousLinearEquiv.refl ℝ (Fin n → ℝ) : (Fin n → ℝ) →L[ℝ] (Fin n → ℝ))) x0 := by
    refine hasFDerivAt_pi'.mpr fun b => ?_
    refine (HasFDerivAt.fun_sum fun a _ => (hd a).hasFDerivAt.const_mul (L b a)).congr_fderiv (ContinuousLinearMap.ext fun u => ?_)
    simp only [sum_apply, smul_apply, smul_eq_mul, fderiv_pd (hd _)]
    have e1 : ∀ j, ∑ a, L b a * pd (φ a) j x0 = if b = j then 1 else 0 := fun j => by
      have h1 := congrFun (congrFun (Matrix.nonsing_inv_mul η (isUnit_iff_ne_zero.mpr hη)) b) j
      rw [Matrix.mul_apply, Matrix.one_apply] at h1
      rw [← h1]
      simp only [hL, hm, Finset.sum_mul, Finset.mul_sum]
      rw [Finset.sum_comm]
      exact Finset.sum_congr rfl fun i _ => Finset.sum_congr rfl fun a _ => by ring
    have e2 : ∑ a, L b a * ∑ j, u j * pd (φ a) j x0 = ∑ j, u j * ∑ a, L b a * pd (φ a) j x0 := by
      simp only [Finset.mul_sum]
      rw [Finset.sum_comm]
      exact Finset.sum_congr rfl fun i _ => Finset.sum_congr rfl fun a _ => by ring
    rw [e2]
    simp [e1]
  have hst := hcd.hasStrictFDerivAt' hfd (by simp)
  refine ⟨hst.toOpenPartialHomeomorph.source, hst.toOpenPartialHomeomorph.open_source, hst.mem_toOpenPartialHomeomorph_source, fun x hx y hy hxy => ?_⟩
  refine hst.toOpenPartialHomeomorph.injOn hx hy ?_
  show (fun b => ∑ a, L b a * φ a x) = fun b => ∑ a, L b a * φ a y
  funext b
  exact Finset.sum_congr rfl fun a _ => by rw [show φ a x = φ a y from congrFun hxy a]

set_option maxHeartbeats 1000000 in
/-- where the curvature is a constant `K ≠ 0` the metric is locally that of a quadric -/
theorem exists_quadric (h : Describes m G) {K : ℝ} (hK : K ≠ 0)
    (hR : ∀ y ∈ U, ∀ t a i j, riemann G t a i j y = K * ((if t = i then 1 else 0) * G a j y - (if t = j then 1 else 0) * G a i y)) {x0 : Fin n → ℝ} (hx0 : x0 ∈ U) :
    ∃ V : TopologicalSpace.Opens (Fin n → ℝ), x0 ∈ V ∧ V ≤ U ∧ ∃ φ s, QuadricCoordinates G V K φ s := by
  have hKc : K * (1 / K) = 1 := by field_simp
  obtain ⟨-, g, hS, hG⟩ := id h
  obtain ⟨Kc, hKv, hKd⟩ : ∃ Kc : SmoothFn U, (∀ x : U, ev x Kc = K) ∧ ∀ i, partialD U i Kc = 0 := ⟨constFn U K, fun x => rfl, constFn_d K⟩
  have hflat := Geo.quadConn_flat (d := partialD U) (g := g) (k := Kc) hS.symm hS.reps.2.1 hKd fun t a i j => fn_ext fun x => by
    have e1 : ∀ i j, ev x ((1 : Matrix (Fin n) (Fin n) (SmoothFn U)) i j) = if i = j then 1 else 0 := fun i j => by
      rw [Matrix.one_apply, apply_ite (ev _), map_one, map_zero]
    have hgv : ∀ i j, ev x (g i j) = G i j x := fun i j => hG i j x
    rw [riemann_val hS.reps.2.1 hG, hR x x.2]
    simp only [map_mul, map_sub, hKv, e1, hgv]
  obtain ⟨Ω, hΩ, hΩs⟩ : ∃ Ω : Fin n → Unit ⊕ Fin n → Unit ⊕ Fin n → (Fin n → ℝ) → ℝ, (∀ i α β (x : U), Ω i α β x = ev x (Geo.quadConn (partialD U) g Kc i α β)) ∧
      ∀ i α β, ContDiffOn ℝ ∞ (Ω i α β) U := ⟨fun i α β => ext U (Geo.quadConn (partialD U) g Kc i α β).1, fun i α β x => ext_of x, fun i α β => (Geo.quadConn (partialD U) g Kc i α β).2⟩
  have hF : ∀ p ∈ U, ∀ i j α β, pd (Ω j α β) i p + ∑ γ, Ω j α γ p * Ω i γ β p = pd (Ω i α β) j p + ∑ γ, Ω i α γ p * Ω j γ β p := fun p hp i j α β => by
    have e := congrArg (ev (⟨p, hp⟩ : U)) (hflat i j α β)
    have e1 : ∀ i j, ev (⟨p, hp⟩ : U) (partialD U i (Geo.quadConn (partialD U) g Kc j α β)) = pd (Ω j α β) i p := fun i j =>
      partialD_pd _ _ (fun x => (hΩ j α β x).symm) i ⟨p, hp⟩
    simp only [map_add, map_sum, map_mul, e1, ← hΩ] at e
    exact e
  -- an orthonormal frame at the point
  set q := labels n with hqdef
  have hη0 : (Geo.quadForm (Matrix.of fun i j => G i j x0) (1 / K)).det ≠ 0 :=
    (Geo.quadForm_unit (isUnit_iff_ne_zero.mpr (describes_det h hx0)) (isUnit_iff_ne_zero.mpr (one_div_ne_zero hK))).ne_zero
  obtain ⟨s, P, hs, hP⟩ := sylvester ((Geo.quadForm (Matrix.of fun i j => G i j x0) (1 / K)).submatrix q q) (fun i j => by
      have hsym : ∀ α β, Geo.quadForm (Matrix.of fun i j => G i j x0) (1 / K) α β = Geo.quadForm (Matrix.of fun i j => G i j x0) (1 / K) β α := fun α β => by
        rcases α with _ | a <;> rcases β with _ | b <;> simp [Geo.quadForm, describes_symm h _ _ hx0]
      exact hsym _ _) (by rw [Matrix.det_submatrix_equiv_self]; exact hη0)
  choose ε hε hbU e hes he0 he using fun A : Fin (n + 1) => exists_section (Ω := Ω) hΩs hF hx0 (fun α => P A (q.symm α))
  obtain ⟨A0, hA0⟩ := Finite.exists_min ε
  have hsub : ∀ A, Metric.ball x0 (ε A0) ⊆ Metric.ball x0 (ε A) := fun A => Metric.ball_subset_ball (hA0 A)
  obtain ⟨V, hVdef⟩ : ∃ V : TopologicalSpace.Opens (Fin n → ℝ), (V : Set (Fin n → ℝ)) = Metric.ball x0 (ε A0) := ⟨⟨_, Metric.isOpen_ball⟩, rfl⟩
  have hVb : ∀ x ∈ V, ∀ A, x ∈ Metric.ball x0 (ε A) := fun x hx A => hsub A (hVdef ▸ (show x ∈ (V : Set _) from hx))
  have hxV : x0 ∈ V := show x0 ∈ (V : Set _) by rw [hVdef]; exact Metric.mem_ball_self (hε A0)
  have hVU : V ≤ U := fun x hx => hbU A0 (hVb x hx A0)
  have hVc : IsPreconnected (V : Set (Fin n → ℝ)) := by rw [hVdef]; exact (convex_ball _ _).isPreconnected
  obtain ⟨mV, hmV⟩ := describes_restrict h hVU
  obtain ⟨-, gV, hSV, hGV⟩ := id hmV
  have huV := hSV.reps.2.1
  obtain ⟨KV, hKVv, hKVd⟩ : ∃ Kc : SmoothFn V, (∀ x : V, ev x Kc = K) ∧ ∀ i, partialD V i Kc = 0 := ⟨constFn V K, fun x => rfl, constFn_d K⟩
  have hesV : ∀ A α, ContDiffOn ℝ ∞ (e A α) V := fun A α => (hes A α).mono fun x hx => hVb x hx A
  obtain ⟨E, hEv, hEd⟩ : ∃ E : Fin (n + 1) → Unit ⊕ Fin n → SmoothFn V, (∀ A α (x : V), ev x (E A α) = e A α x) ∧
      ∀ A α i (x : V), ev x (partialD V i (E A α)) = ∑ β, Ω i α β x * e A β x :=
    ⟨fun A α => ofFn (e A α) (hesV A α), fun A α x => rfl, fun A α i x => (partialD_pd _ (e A α) (fun _ => rfl) i x).trans (he A α i x (hVb x x.2 A))⟩
  have hgv : ∀ (x : V) i j, ev x (gV i j) = G i j x := fun x i j => hGV i j x
  have hgu : ∀ (x : V) i j, ev (⟨x, hVU x.2⟩ : U) (g i j) = G i j x := fun x i j => hG i j ⟨x, hVU x.2⟩
  have hcv : ∀ (x : V) i j k, ev x (Geo.christoffel (partialD V) gV i j k) = christoffel G i j k x := fun x i j k => christoffel_val huV hGV i j k x
  have hcu : ∀ (x : V) i j k, ev (⟨x, hVU x.2⟩ : U) (Geo.christoffel (partialD U) g i j k) = christoffel G i j k x := fun x i j k => christoffel_val hS.reps.2.1 hG i j k ⟨x, hVU x.2⟩
  have hiv : ∀ (x : V) i j, ev x (gV⁻¹ i j) = (Matrix.of fun a b => G a b x)⁻¹ i j := fun x i j => inv_val huV hGV i j x
  have hΩV : ∀ i α β (x : V), Ω i α β x = ev (⟨x, hVU x.2⟩ : U) (Geo.quadConn (partialD U) g Kc i α β) := fun i α β x => hΩ i α β ⟨x, hVU x.2⟩
  have h1 : ∀ A i, partialD V i (E A (.inl ())) = E A (.inr i) := fun A i => fn_ext fun x => by
    rw [hEd, Geo.sum_qd, hEv]
    simp only [hΩV, Geo.quadConn, map_zero, zero_mul, zero_add, Matrix.one_apply, apply_ite (ev _), map_one, ite_mul, one_mul, Finset.sum_ite_eq, Finset.mem_univ, if_true]
  have h2 : ∀ A i a, partialD V i (E A (.inr a)) = ∑ m, Geo.christoffel (partialD V) gV m i a * E A (.inr m) - KV * gV i a * E A (.inl ()) := fun A i a => fn_ext fun x => by
    rw [hEd, Geo.sum_qd]
    simp only [hΩV, Geo.quadConn, map_neg, map_sub, map_sum, map_mul, hEv, hcv, hcu, hgv, hgu, hKv, hKVv]
    ring
  -- products of sections are constant
  have hprod : ∀ A B (x : V), Geo.quadProd (Matrix.of fun i j => G i j x) K (e A (.inl ()) x) (e B (.inl ()) x) (fun a => e A (.inr a) x) (fun a => e B (.inr a) x) =
      Geo.quadProd (Matrix.of fun i j => G i j x0) K (e A (.inl ()) x0) (e B (.inl ()) x0) (fun a => e A (.inr a) x0) (fun a => e B (.inr a) x0) := fun A B x => by
    have hc := const_of_partialD hVc _ (fun i => Geo.d_quadProd hSV.symm huV hKVd (h1 A) (h1 B) (h2 A) (h2 B) i) x ⟨x0, hxV⟩
    have hv : ∀ y : V, ev y (Geo.quadProd gV KV (E A (.inl ())) (E B (.inl ())) (fun i => E A (.inr i)) fun i => E B (.inr i)) =
        Geo.quadProd (Matrix.of fun i j => G i j y) K (e A (.inl ()) y) (e B (.inl ()) y) (fun a => e A (.inr a) y) (fun a => e B (.inr a) y) := fun y => by
      unfold Geo.quadProd Geo.tr2
      simp only [map_add, map_mul, map_sum, hKVv, hEv, hiv]
    rw [hv, hv] at hc
    exact hc
  have hdet : ∀ x ∈ V, IsUnit (Matrix.of fun i j => G i j x).det := fun x hx => isUnit_iff_ne_zero.mpr (describes_det h (hVU hx))
  have hform : ∀ x ∈ V, IsUnit (Geo.quadForm (Matrix.of fun i j => G i j x) (1 / K)).det := fun x hx => Geo.quadForm_unit (hdet x hx) (isUnit_iff_ne_zero.mpr (one_div_ne_zero hK))
  have hM0 : (Matrix.of fun A α => e A α x0).transpose * Matrix.diagonal s * (Matrix.of fun A α => e A α x0) = Geo.quadForm (Matrix.of fun i j => G i j x0) (1 / K) := by
    ext α β
    have := hP (q.symm α) (q.symm β)
    rw [Matrix.submatrix_apply, Equiv.apply_symm_apply, Equiv.apply_symm_apply] at this
    rw [this, Matrix.mul_apply]
    simp only [Matrix.mul_diagonal, Matrix.transpose_apply, Matrix.of_apply, he0]
    exact Finset.sum_congr rfl fun A _ => by ring
  have hM : ∀ x ∈ V, (Matrix.of fun A α => e A α x).transpose * Matrix.diagonal s * (Matrix.of fun A α => e A α x) = Geo.quadForm (Matrix.of fun i j => G i j x) (1 / K) := fun x hx => by
    rw [Geo.frame_iff q _ _ _ (hform x hx)]
    rw [Geo.frame_iff q _ _ _ (hform x0 hxV)] at hM0
    rw [← hM0]
    ext A B
    rw [Geo.frame_entry (hdet x hx) hKc, Geo.frame_entry (hdet x0 hxV) hKc]
    exact congrArg (· * s B) (hprod A B ⟨x, hx⟩)
  have hpd : ∀ A i, ∀ x ∈ V, pd (e A (.inl ())) i x = e A (.inr i) x := fun A i x hx => by
    have e1 := congrArg (ev (⟨x, hx⟩ : V)) (h1 A i)
    rw [hEv, hEd, ← he A (.inl ()) i x (hVb x hx A)] at e1
    exact e1
  have hmet : ∀ x ∈ V, ∀ i j, G i j x = ∑ A, s A * pd (e A (.inl ())) i x * pd (e A (.inl ())) j x := fun x hx i j => by
    have e1 := congrFun (congrFun (hM x hx) (.inr i)) (.inr j)
    rw [Matrix.mul_apply, Geo.quadForm, Matrix.fromBlocks_apply₂₂, Matrix.of_apply] at e1
    rw [← e1]
    refine Finset.sum_congr rfl fun A _ => ?_
    rw [hpd A i x hx, hpd A j x hx, Matrix.mul_diagonal, Matrix.transpose_apply, Matrix.of_apply, Matrix.of_apply]
    ring
  obtain ⟨W, hWo, hxW, hWi⟩ := immersion_inj V.isOpen hxV (fun A => e A (.inl ())) (fun A => hesV A _) s (Matrix.of fun i j => G i j x0) (describes_det h hx0) (hmet x0 hxV)
  refine ⟨⟨V ∩ W, V.isOpen.inter hWo⟩, ⟨hxV, hxW⟩, fun x hx => hVU hx.1, fun A => e A (.inl ()), s,
    fun A => (hesV A _).mono fun x hx => hx.1, hWi.mono fun x hx => hx.2, hs, fun x hx => ?_, fun x hx => hmet x hx.1⟩
  have e1 := congrFun (congrFun (hM x hx.1) (.inl ())) (.inl ())
  rw [Matrix.mul_apply, Geo.quadForm, Matrix.fromBlocks_apply₁₁, Matrix.of_apply] at e1
  rw [← e1]
  refine Finset.sum_congr rfl fun A _ => ?_
  rw [Matrix.mul_diagonal, Matrix.transpose_apply, Matrix.of_apply]
  ring

/-- **C149.**  For `K ≠ 0` the tensor `RiemannCurvatureTensor.from_metric(m)` returns is that of the constant curvature `K` on `U`,
`R^i_jkl = K (δ^i_k g_jl − δ^i_l g_jk)`, exactly when every point of `U` has a neighbourhood on which the metric is that of the quadric `Σ_a s_a φ_a² = 1/K` in a flat
space of one more dimension. -/
theorem C149_constant_curvature_iff (m : MetricV (SmoothFn U)) (G : Fin n → Fin n → (Fin n → ℝ) → ℝ) (h : Describes m G) (K : ℝ) (hK : K ≠ 0) :
    Returns (riemannFromMetric (diffD U m.syms) m) fun r =>
      (∀ i j k l : Fin n, ∀ y ∈ U, value r [(i : ℕ), j, k, l] y = K * ((if i = k then 1 else 0) * G j l y - (if i = l then 1 else 0) * G j k y)) ↔
        ∀ x ∈ U, ∃ V : TopologicalSpace.Opens (Fin n → ℝ), x ∈ V ∧ V ≤ U ∧ ∃ φ s, QuadricCoordinates G V K φ s := by
  obtain ⟨r, e, hr⟩ := (C139_functions m G h).2.1
  have hv : ∀ i j k l : Fin n, ∀ y ∈ U, value r [(i : ℕ), j, k, l] y = riemann G i j k l y := fun i j k l y hy =>
    (ext_of (⟨y, hy⟩ : U)).trans (hr i j k l ⟨y, hy⟩)
  refine ⟨r, e, fun hR x hx => exists_quadric h hK (fun y hy t a i j => by rw [← hv _ _ _ _ y hy]; exact hR t a i j y hy) hx, fun hF i j k l y hy => ?_⟩
  obtain ⟨V, hyV, hVU, φ, s, hc⟩ := hF y hy
  obtain ⟨m', hm'⟩ := describes_restrict h hVU
  rw [hv i j k l y hy]
  exact quadric_riemann hm' hK hc y hyV i j k l

/-! ## the hypotheses are met: hyperbolic space, `K = −1` -/

/-- hyperbolic space is locally the hyperboloid -/
theorem hyp_quadric : ∀ x ∈ hypOpen, ∃ V : TopologicalSpace.Opens (Fin 4 → ℝ), x ∈ V ∧ V ≤ hypOpen ∧ ∃ φ s, QuadricCoordinates hypG V (-1) φ s := by
  obtain ⟨r, e, hr⟩ := C149_constant_curvature_iff hypMetric hypG hypMetric_describes (-1) (by norm_num)
  obtain ⟨r', e', hr'⟩ := hyp_schur
  rw [e] at e'
  obtain rfl := Except.ok.inj e'
  exact hr.mp hr'

end Einpy.Fn
