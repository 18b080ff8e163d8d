import Verif.Curv.Deviation
import Mathlib.Analysis.Calculus.MeanValue
import Mathlib.Analysis.Calculus.Deriv.Prod
import Mathlib.Analysis.SpecialFunctions.Trigonometric.Deriv
import Mathlib.Analysis.SpecialFunctions.Trigonometric.Basic

/-!
# C142: parallel transport and Killing fields
-/

namespace Einpy.Fn
open scoped Topology ContDiff

/-! ## specification -/

/-- The vector field `V` along the curve `q` is parallel for the connection `Γ` at the times in `I`: `dV^i/dt = -Γ^i_jk dq^j/dt V^k`. -/
def IsParallel {n : ℕ} (Γ : Fin n → Fin n → Fin n → (Fin n → ℝ) → ℝ) (q V : ℝ → Fin n → ℝ) (I : Set ℝ) : Prop :=
  ∀ t ∈ I, ∀ i, HasDerivAt (fun t => V t i) (-∑ j, ∑ k, Γ i j k (q t) * deriv (fun t => q t j) t * V t k) t

/-- The vector field `X` is a Killing field of the metric `G` on `U`: the Lie derivative of the metric along it vanishes. -/
def IsKilling {n : ℕ} (U : Set (Fin n → ℝ)) (G : Fin n → Fin n → (Fin n → ℝ) → ℝ) (X : Fin n → (Fin n → ℝ) → ℝ) : Prop :=
  ∀ x ∈ U, ∀ i j, ∑ l, (X l x * pd (G i j) l x + G l j x * pd (X l) i x + G i l x * pd (X l) j x) = 0

/-- The product `G_ij V^i W^j` at the point `x`. -/
def product {n : ℕ} (G : Fin n → Fin n → (Fin n → ℝ) → ℝ) (x V W : Fin n → ℝ) : ℝ := ∑ i, ∑ j, G i j x * V i * W j

/-! ## proofs -/

variable {n : ℕ} {U : TopologicalSpace.Opens (Fin n → ℝ)}

theorem pd_fderiv {F : (Fin n → ℝ) → ℝ} {x : Fin n → ℝ} (h : DifferentiableAt ℝ F x) (k : Fin n) : pd F k x = fderiv ℝ F x (Pi.single k 1) := by
  have h1 : HasDerivAt (fun s => Function.update x k s) (Pi.single k 1) (x k) := hasDerivAt_update x k (x k)
  have h2 : HasFDerivAt F (fderiv ℝ F x) (Function.update x k (x k)) := by rw [Function.update_eq_self]; exact h.hasFDerivAt
  exact (h2.comp_hasDerivAt (x k) h1).deriv

theorem along_curve {F : (Fin n → ℝ) → ℝ} {q : ℝ → Fin n → ℝ} {t : ℝ} (h : DifferentiableAt ℝ F (q t)) (hq : ∀ i, DifferentiableAt ℝ (fun t => q t i) t) :
    HasDerivAt (fun t => F (q t)) (∑ k, pd F k (q t) * deriv (fun t => q t k) t) t := by
  have hqd : HasDerivAt q (fun i => deriv (fun t => q t i) t) t := hasDerivAt_pi.mpr fun i => (hq i).hasDerivAt
  refine (h.hasFDerivAt.comp_hasDerivAt t hqd).congr_deriv ?_
  set v : Fin n → ℝ := fun i => deriv (fun t => q t i) t with hv
  have hv' : v = ∑ l, v l • (Pi.single l (1 : ℝ) : Fin n → ℝ) := by
    funext i
    simp [Finset.sum_apply, Pi.single_apply]
  conv_lhs => rw [hv', map_sum]
  refine Finset.sum_congr rfl fun l _ => ?_
  rw [map_smul, smul_eq_mul, mul_comm, pd_fderiv h]

section
variable {m : MetricV (SmoothFn U)} {G : Fin n → Fin n → (Fin n → ℝ) → ℝ}

theorem describes_differentiable (h : Describes m G) (i j : Fin n) {x : Fin n → ℝ} (hx : x ∈ U) : DifferentiableAt ℝ (G i j) x := by
  obtain ⟨-, g, -, hG⟩ := h
  exact (((smoothAt (g i j) ⟨x, hx⟩).differentiableAt (by simp)).congr_of_eventuallyEq (ext_eventually (hG i j) ⟨x, hx⟩).symm)

theorem describes_symm (h : Describes m G) (i j : Fin n) {x : Fin n → ℝ} (hx : x ∈ U) : G i j x = G j i x := by
  obtain ⟨-, g, hS, hG⟩ := h
  rw [← hG i j ⟨x, hx⟩, ← hG j i ⟨x, hx⟩, Geo.g_symm g hS.symm]

theorem lower_val (h : Describes m G) (i j k : Fin n) {x : Fin n → ℝ} (hx : x ∈ U) :
    2 * ∑ a, G i a x * christoffel G a j k x = pd (G i j) k x + pd (G i k) j x - pd (G j k) i x := by
  obtain ⟨-, g, hS, hG⟩ := h
  have hu := hS.reps.2.1
  have h1 := congrArg (ev (⟨x, hx⟩ : U)) (Geo.lower_christoffel (partialD U) g hu i j k)
  unfold Geo.half at h1
  rw [ev_smul] at h1
  simp only [map_sum, map_mul, map_add, map_sub] at h1
  have e1 : ∀ a, ev (⟨x, hx⟩ : U) (Geo.christoffel (partialD U) g a j k) = christoffel G a j k x := fun a => christoffel_val hu hG a j k ⟨x, hx⟩
  have e2 : ∀ a b, ev (⟨x, hx⟩ : U) (g a b) = G a b x := fun a b => hG a b ⟨x, hx⟩
  have e3 : ∀ a b k, ev (⟨x, hx⟩ : U) (partialD U k (g a b)) = pd (G a b) k x := fun a b k => partialD_pd (g a b) _ (hG a b) k ⟨x, hx⟩
  simp only [e1, e2, e3] at h1
  rw [h1]
  push_cast
  ring

theorem compat_val (h : Describes m G) (i j k : Fin n) {x : Fin n → ℝ} (hx : x ∈ U) :
    pd (G i j) k x = ∑ a, (christoffel G a k i x * G a j x + christoffel G a k j x * G i a x) := by
  obtain ⟨-, g, hS, hG⟩ := h
  have hu := hS.reps.2.1
  have h1 := congrArg (ev (⟨x, hx⟩ : U)) (Geo.metric_compat (partialD U) g hS.symm hu k i j)
  have e1 : ∀ a j k, ev (⟨x, hx⟩ : U) (Geo.christoffel (partialD U) g a j k) = christoffel G a j k x := fun a j k => christoffel_val hu hG a j k ⟨x, hx⟩
  have e2 : ∀ a b, ev (⟨x, hx⟩ : U) (g a b) = G a b x := fun a b => hG a b ⟨x, hx⟩
  have e3 : ∀ a b k, ev (⟨x, hx⟩ : U) (partialD U k (g a b)) = pd (G a b) k x := fun a b k => partialD_pd (g a b) _ (hG a b) k ⟨x, hx⟩
  simp only [map_sum, map_mul, map_add, e1, e2, e3] at h1
  rw [h1, Finset.sum_add_distrib]

theorem product_deriv (h : Describes m G) {q V W : ℝ → Fin n → ℝ} {t : ℝ} (hU : q t ∈ U) (hq : ∀ i, DifferentiableAt ℝ (fun t => q t i) t)
    {V' W' : Fin n → ℝ} (hV : ∀ i, HasDerivAt (fun t => V t i) (V' i - ∑ j, ∑ k, christoffel G i j k (q t) * deriv (fun t => q t j) t * V t k) t)
    (hW : ∀ i, HasDerivAt (fun t => W t i) (W' i - ∑ j, ∑ k, christoffel G i j k (q t) * deriv (fun t => q t j) t * W t k) t) :
    HasDerivAt (fun t => product G (q t) (V t) (W t)) (product G (q t) V' (W t) + product G (q t) (V t) W') t := by
  unfold product
  set T : Fin n → ℝ := fun j => deriv (fun t => q t j) t with hT
  set A : Fin n → ℝ := fun i => ∑ j, ∑ k, christoffel G i j k (q t) * T j * V t k with hA
  set B : Fin n → ℝ := fun i => ∑ j, ∑ k, christoffel G i j k (q t) * T j * W t k with hB
  have h1 : ∀ i j, HasDerivAt (fun t => G i j (q t) * V t i * W t j)
      (((∑ k, pd (G i j) k (q t) * T k) * V t i + G i j (q t) * (V' i - A i)) * W t j + G i j (q t) * V t i * (W' j - B j)) t := fun i j =>
    ((along_curve (describes_differentiable h i j hU) hq).fun_mul (hV i)).fun_mul (hW j)
  refine (HasDerivAt.fun_sum fun i _ => HasDerivAt.fun_sum fun j _ => h1 i j).congr_deriv ?_
  have e1 : ∑ i, ∑ j, (∑ k, pd (G i j) k (q t) * T k) * V t i * W t j = ∑ i, ∑ j, G i j (q t) * A i * W t j + ∑ i, ∑ j, G i j (q t) * V t i * B j := by
    have f1 : ∀ i j, (∑ k, pd (G i j) k (q t) * T k) * V t i * W t j =
        ∑ k, ∑ a, christoffel G a k i (q t) * T k * V t i * G a j (q t) * W t j + ∑ k, ∑ a, christoffel G a k j (q t) * T k * W t j * G i a (q t) * V t i := by
      intro i j
      rw [Finset.sum_mul, Finset.sum_mul, ← Finset.sum_add_distrib]
      refine Finset.sum_congr rfl fun k _ => ?_
      rw [compat_val h i j k hU, Finset.sum_mul, Finset.sum_mul, Finset.sum_mul, ← Finset.sum_add_distrib]
      exact Finset.sum_congr rfl fun a _ => by ring
    simp only [f1, Finset.sum_add_distrib]
    congr 1
    · calc ∑ i, ∑ j, ∑ k, ∑ a, christoffel G a k i (q t) * T k * V t i * G a j (q t) * W t j
          = ∑ i, ∑ k, ∑ a, ∑ j, christoffel G a k i (q t) * T k * V t i * G a j (q t) * W t j := by
            refine Finset.sum_congr rfl fun i _ => ?_
            rw [Finset.sum_comm]
            exact Finset.sum_congr rfl fun k _ => Finset.sum_comm
        _ = ∑ k, ∑ i, ∑ a, ∑ j, christoffel G a k i (q t) * T k * V t i * G a j (q t) * W t j := Finset.sum_comm
        _ = ∑ k, ∑ a, ∑ i, ∑ j, christoffel G a k i (q t) * T k * V t i * G a j (q t) * W t j := Finset.sum_congr rfl fun k _ => Finset.sum_comm
        _ = ∑ a, ∑ k, ∑ i, ∑ j, christoffel G a k i (q t) * T k * V t i * G a j (q t) * W t j := Finset.sum_comm
        _ = ∑ a, ∑ j, G a j (q t) * A a * W t j := by
            refine Finset.sum_congr rfl fun a _ => ?_
            calc _ = ∑ k, ∑ j, ∑ i, christoffel G a k i (q t) * T k * V t i * G a j (q t) * W t j := Finset.sum_congr rfl fun k _ => Finset.sum_comm
              _ = ∑ j, ∑ k, ∑ i, christoffel G a k i (q t) * T k * V t i * G a j (q t) * W t j := Finset.sum_comm
              _ = _ := by
                refine Finset.sum_congr rfl fun j _ => ?_
                simp only [hA, Finset.mul_sum, Finset.sum_mul]
                exact Finset.sum_congr rfl fun k _ => Finset.sum_congr rfl fun i _ => by ring
    · refine Finset.sum_congr rfl fun i _ => ?_
      calc ∑ j, ∑ k, ∑ a, christoffel G a k j (q t) * T k * W t j * G i a (q t) * V t i
          = ∑ j, ∑ a, ∑ k, christoffel G a k j (q t) * T k * W t j * G i a (q t) * V t i := Finset.sum_congr rfl fun j _ => Finset.sum_comm
        _ = ∑ a, ∑ j, ∑ k, christoffel G a k j (q t) * T k * W t j * G i a (q t) * V t i := Finset.sum_comm
        _ = ∑ a, ∑ k, ∑ j, christoffel G a k j (q t) * T k * W t j * G i a (q t) * V t i := Finset.sum_congr rfl fun a _ => Finset.sum_comm
        _ = _ := by
          refine Finset.sum_congr rfl fun a _ => ?_
          simp only [hB, Finset.mul_sum]
          exact Finset.sum_congr rfl fun k _ => Finset.sum_congr rfl fun j _ => by ring
  have e2 : ∀ i j, ((∑ k, pd (G i j) k (q t) * T k) * V t i + G i j (q t) * (V' i - A i)) * W t j + G i j (q t) * V t i * (W' j - B j) =
      (∑ k, pd (G i j) k (q t) * T k) * V t i * W t j + (G i j (q t) * V' i * W t j + G i j (q t) * V t i * W' j) -
        (G i j (q t) * A i * W t j + G i j (q t) * V t i * B j) := fun i j => by ring
  simp only [e2, Finset.sum_sub_distrib, Finset.sum_add_distrib, e1]
  ring

theorem const_on {f : ℝ → ℝ} {I : Set ℝ} (hI : IsOpen I) (hc : IsPreconnected I) (h : ∀ t ∈ I, HasDerivAt f 0 t) {s t : ℝ} (hs : s ∈ I) (ht : t ∈ I) : f s = f t :=
  hI.is_const_of_deriv_eq_zero hc (fun t ht => (h t ht).differentiableAt.differentiableWithinAt) (fun t ht => (h t ht).deriv) hs ht

end

/-- **C142** (parallel transport).  `ChristoffelSymbols.from_metric(m)` is the connection whose parallel transport, along every differentiable curve in `U`,
preserves all scalar products measured with `m`. -/
theorem C142_transport (m : MetricV (SmoothFn U)) (G : Fin n → Fin n → (Fin n → ℝ) → ℝ) (h : Describes m G) (I : Set ℝ) (hI : IsOpen I)
    (hc : IsPreconnected I) (q : ℝ → Fin n → ℝ) (hU : ∀ t ∈ I, q t ∈ U) (hq : ∀ t ∈ I, ∀ i, DifferentiableAt ℝ (fun t => q t i) t) :
    Returns (christoffelFromMetric (diffD U m.syms) m) fun c => ∀ V W : ℝ → Fin n → ℝ,
      IsParallel (symbols c) q V I → IsParallel (symbols c) q W I → ∀ s ∈ I, ∀ t ∈ I, product G (q s) (V s) (W s) = product G (q t) (V t) (W t) := by
  obtain ⟨c, e, hΓ⟩ := (C139_functions m G h).1
  refine ⟨c, e, fun V W hV hW s hs t ht => const_on (f := fun t => product G (q t) (V t) (W t)) hI hc (fun t ht => ?_) hs ht⟩
  have hs : ∀ i j k, symbols c i j k (q t) = christoffel G i j k (q t) := fun i j k => (ext_of ⟨q t, hU t ht⟩).trans (hΓ i j k ⟨q t, hU t ht⟩)
  have h1 := product_deriv h (V := V) (W := W) (V' := fun _ => 0) (W' := fun _ => 0) (hU t ht) (hq t ht) (fun i => by
    refine (hV t ht i).congr_deriv ?_
    simp only [hs, zero_sub]) (fun i => by
    refine (hW t ht i).congr_deriv ?_
    simp only [hs, zero_sub])
  refine h1.congr_deriv ?_
  simp [product]

/-- **C142** (conserved quantities).  Along every geodesic of `ChristoffelSymbols.from_metric(m)` the product of the velocity with every Killing field of the
metric is constant. -/
theorem C142_killing (m : MetricV (SmoothFn U)) (G : Fin n → Fin n → (Fin n → ℝ) → ℝ) (h : Describes m G) (I : Set ℝ) (hI : IsOpen I)
    (hc : IsPreconnected I) (q : ℝ → Fin n → ℝ) (hU : ∀ t ∈ I, q t ∈ U) (hq : ∀ t ∈ I, ∀ i, DifferentiableAt ℝ (fun t => q t i) t)
    (X : Fin n → (Fin n → ℝ) → ℝ) (hX : ∀ i, DifferentiableOn ℝ (X i) U) (hK : IsKilling U G X) :
    Returns (christoffelFromMetric (diffD U m.syms) m) fun c =>
      IsParallel (symbols c) q (fun t i => deriv (fun t => q t i) t) I → ∀ s ∈ I, ∀ t ∈ I,
        product G (q s) (fun i => X i (q s)) (fun i => deriv (fun t => q t i) s) = product G (q t) (fun i => X i (q t)) (fun i => deriv (fun t => q t i) t) := by
  obtain ⟨c, e, hΓ⟩ := (C139_functions m G h).1
  refine ⟨c, e, fun hV s hs t ht => const_on (f := fun t => product G (q t) (fun i => X i (q t)) (fun i => deriv (fun t => q t i) t)) hI hc (fun t ht => ?_) hs ht⟩
  have hs : ∀ i j k, symbols c i j k (q t) = christoffel G i j k (q t) := fun i j k => (ext_of ⟨q t, hU t ht⟩).trans (hΓ i j k ⟨q t, hU t ht⟩)
  set T : Fin n → ℝ := fun i => deriv (fun t => q t i) t with hT
  have h1 := product_deriv h (V := fun t i => X i (q t)) (W := fun t i => deriv (fun t => q t i) t)
    (V' := fun i => ∑ k, (pd (X i) k (q t) * T k) + ∑ j, ∑ k, christoffel G i j k (q t) * T j * X k (q t)) (W' := fun _ => 0) (hU t ht) (hq t ht) (fun i => by
    refine (along_curve ((hX i).differentiableAt (U.isOpen.mem_nhds (hU t ht))) (hq t ht)).congr_deriv ?_
    simp only [hT]
    ring) (fun i => by
    refine (hV t ht i).congr_deriv ?_
    simp only [hs, zero_sub])
  refine h1.congr_deriv ?_
  simp only [product, mul_zero, Finset.sum_const_zero, add_zero]
  set P : Fin n → Fin n → ℝ := fun j k => ∑ i, G i j (q t) * pd (X i) k (q t) with hP
  set Q : Fin n → Fin n → ℝ := fun j k => ∑ a, X a (q t) * pd (G j k) a (q t) with hQ
  set R : Fin n → Fin n → ℝ := fun j k => ∑ a, X a (q t) * pd (G j a) k (q t) with hR
  have sw : ∀ M : Fin n → Fin n → ℝ, ∑ j, ∑ k, T j * T k * M k j = ∑ j, ∑ k, T j * T k * M j k := fun M => by
    rw [Finset.sum_comm]
    exact Finset.sum_congr rfl fun j _ => Finset.sum_congr rfl fun k _ => by ring
  have k1 : ∑ j, ∑ k, T j * T k * (Q j k + P k j + P j k) = 0 := by
    refine Finset.sum_eq_zero fun j _ => Finset.sum_eq_zero fun k _ => ?_
    have := hK (q t) (hU t ht) j k
    rw [Finset.sum_add_distrib, Finset.sum_add_distrib] at this
    have e : P j k = ∑ l, G j l (q t) * pd (X l) k (q t) := Finset.sum_congr rfl fun l _ => by rw [describes_symm h l j (hU t ht)]
    rw [e]
    simp only [hQ, hP]
    rw [this, mul_zero]
  have k2 : ∀ j k, 2 * ∑ i, G i j (q t) * ∑ a, christoffel G i k a (q t) * X a (q t) = Q j k + R j k - R k j := fun j k => by
    have : ∑ i, G i j (q t) * ∑ a, christoffel G i k a (q t) * X a (q t) = ∑ a, X a (q t) * ∑ i, G j i (q t) * christoffel G i k a (q t) := by
      simp only [Finset.mul_sum]
      rw [Finset.sum_comm]
      exact Finset.sum_congr rfl fun a _ => Finset.sum_congr rfl fun i _ => by rw [describes_symm h i j (hU t ht)]; ring
    rw [this, Finset.mul_sum]
    simp only [hQ, hR, ← Finset.sum_add_distrib, ← Finset.sum_sub_distrib]
    refine Finset.sum_congr rfl fun a _ => ?_
    rw [mul_left_comm, lower_val h j k a (hU t ht)]
    ring
  have k3 : ∑ i, ∑ j, G i j (q t) * (∑ k, pd (X i) k (q t) * T k + ∑ j, ∑ k, christoffel G i j k (q t) * T j * X k (q t)) * T j =
      ∑ j, ∑ k, T j * T k * (P j k + ∑ i, G i j (q t) * ∑ a, christoffel G i k a (q t) * X a (q t)) := by
    rw [Finset.sum_comm]
    refine Finset.sum_congr rfl fun j _ => ?_
    have : ∀ k, T j * T k * (P j k + ∑ i, G i j (q t) * ∑ a, christoffel G i k a (q t) * X a (q t)) =
        ∑ i, T j * T k * (G i j (q t) * pd (X i) k (q t) + G i j (q t) * ∑ a, christoffel G i k a (q t) * X a (q t)) := fun k => by
      rw [← Finset.mul_sum, Finset.sum_add_distrib]
    simp only [this]
    rw [Finset.sum_comm]
    refine Finset.sum_congr rfl fun i _ => ?_
    rw [← Finset.sum_add_distrib, Finset.mul_sum, Finset.sum_mul]
    refine Finset.sum_congr rfl fun k _ => ?_
    have : ∑ a, christoffel G i k a (q t) * T k * X a (q t) = T k * ∑ a, christoffel G i k a (q t) * X a (q t) := by
      rw [Finset.mul_sum]
      exact Finset.sum_congr rfl fun a _ => by ring
    rw [this]
    ring
  rw [k3]
  have k4 : 2 * ∑ j, ∑ k, T j * T k * (P j k + ∑ i, G i j (q t) * ∑ a, christoffel G i k a (q t) * X a (q t)) =
      ∑ j, ∑ k, T j * T k * (Q j k + P k j + P j k) + (∑ j, ∑ k, T j * T k * P j k - ∑ j, ∑ k, T j * T k * P k j) +
        (∑ j, ∑ k, T j * T k * R j k - ∑ j, ∑ k, T j * T k * R k j) := by
    simp only [Finset.mul_sum (s := Finset.univ) (a := (2 : ℝ)), ← Finset.sum_add_distrib, ← Finset.sum_sub_distrib]
    refine Finset.sum_congr rfl fun j _ => Finset.sum_congr rfl fun k _ => ?_
    have := k2 j k
    linear_combination T j * T k * this
  rw [k1, sw P, sw R] at k4
  linarith

/-- **C142** (cyclic coordinates).  If the metric components do not depend on the coordinate number `k`, every geodesic of
`ChristoffelSymbols.from_metric(m)` has a constant covariant velocity component `G_kj dq^j/dt`; and every geodesic has constant length
`G_ij dq^i/dt dq^j/dt`. -/
theorem C142_cyclic (m : MetricV (SmoothFn U)) (G : Fin n → Fin n → (Fin n → ℝ) → ℝ) (h : Describes m G) (I : Set ℝ) (hI : IsOpen I)
    (hc : IsPreconnected I) (q : ℝ → Fin n → ℝ) (hU : ∀ t ∈ I, q t ∈ U) (hq : ∀ t ∈ I, ∀ i, DifferentiableAt ℝ (fun t => q t i) t) :
    Returns (christoffelFromMetric (diffD U m.syms) m) fun c =>
      IsParallel (symbols c) q (fun t i => deriv (fun t => q t i) t) I →
        (∀ k : Fin n, (∀ i j, ∀ x ∈ U, ∀ s, Function.update x k s ∈ U → G i j (Function.update x k s) = G i j x) → ∀ s ∈ I, ∀ t ∈ I,
          ∑ j, G k j (q s) * deriv (fun t => q t j) s = ∑ j, G k j (q t) * deriv (fun t => q t j) t) ∧
        ∀ s ∈ I, ∀ t ∈ I, product G (q s) (fun i => deriv (fun t => q t i) s) (fun i => deriv (fun t => q t i) s) =
          product G (q t) (fun i => deriv (fun t => q t i) t) (fun i => deriv (fun t => q t i) t) := by
  obtain ⟨c, e, h1⟩ := C142_transport m G h I hI hc q hU hq
  refine ⟨c, e, fun hV => ⟨fun k hk s hs t ht => ?_, h1 _ _ hV hV⟩⟩
  have hK : IsKilling U G (fun i _ => if i = k then 1 else 0) := by
    intro x hx i j
    have z : ∀ l a, pd (fun _ : Fin n → ℝ => (if l = k then (1 : ℝ) else 0)) a x = 0 := fun l a => by simp [pd]
    have z' : pd (G i j) k x = 0 := by
      unfold pd
      have : (fun s => G i j (Function.update x k s)) =ᶠ[𝓝 (x k)] fun _ => G i j x := by
        have hc : Continuous fun s => Function.update x k s := continuous_const.update k continuous_id
        have : ∀ᶠ s in 𝓝 (x k), Function.update x k s ∈ U := hc.continuousAt.preimage_mem_nhds (U.isOpen.mem_nhds (by
          rw [Function.update_eq_self]; exact hx))
        filter_upwards [this] with s hs using hk i j x hx s hs
      rw [this.deriv_eq, deriv_const]
    simp [z, z']
  obtain ⟨c', e', h2⟩ := C142_killing m G h I hI hc q hU hq _ (fun i => differentiableOn_const _) hK
  have : c = c' := by rw [e] at e'; exact Except.ok.inj e'
  subst this
  have := h2 hV s hs t ht
  simpa [product] using this

/-! ## the hypotheses are met: an equatorial great circle of the unit sphere -/

/-- The equator of the unit sphere is a geodesic, along which the northward unit vector is parallel; `∂φ` and the rotation
`sin φ ∂θ + cot θ cos φ ∂φ` are Killing fields. -/
theorem sph_equator : Returns (christoffelFromMetric (diffD sphOpen sphMetric.syms) sphMetric) fun c =>
    (∀ t : ℝ, (![Real.pi / 2, t] : Fin 2 → ℝ) ∈ sphOpen) ∧
    IsParallel (symbols c) (fun t => ![Real.pi / 2, t]) (fun t i => deriv (fun t : ℝ => (![Real.pi / 2, t] : Fin 2 → ℝ) i) t) Set.univ ∧
    IsParallel (symbols c) (fun t => ![Real.pi / 2, t]) (fun _ => ![1, 0]) Set.univ ∧
    IsKilling sphOpen sphG (fun i x => ![Real.sin (x 1), Real.cos (x 0) / Real.sin (x 0) * Real.cos (x 1)] i) := by
  obtain ⟨c, e, hΓ⟩ := (C139_functions sphMetric sphG sphMetric_describes).1
  have hU : ∀ t : ℝ, (![Real.pi / 2, t] : Fin 2 → ℝ) ∈ sphOpen := fun t => by
    show Real.sin (Real.pi / 2) ≠ 0
    simp
  have hp1 : ∀ x : Fin 2 → ℝ, pd (sphG 1 1) 0 x = 2 * Real.sin (x 0) * Real.cos (x 0) := fun x => by
    simp [pd, sphG]
  have hp0 : ∀ i j k (x : Fin 2 → ℝ), (i, j, k) ≠ (1, 1, 0) → pd (sphG i j) k x = 0 := fun i j k x hk => by
    unfold pd sphG
    fin_cases i <;> fin_cases j <;> fin_cases k <;> simp at hk ⊢
  have hp : ∀ i j k t, pd (sphG i j) k ![Real.pi / 2, t] = 0 := fun i j k t => by
    by_cases hk : (i, j, k) = (1, 1, 0)
    · obtain ⟨rfl, rfl, rfl⟩ := by simpa using hk
      rw [hp1]
      simp
    · exact hp0 i j k _ hk
  have h0 : ∀ i j k t, symbols c i j k ![Real.pi / 2, t] = 0 := fun i j k t => by
    rw [show symbols c i j k ![Real.pi / 2, t] = christoffel sphG i j k ![Real.pi / 2, t] from (ext_of ⟨_, hU t⟩).trans (hΓ i j k ⟨_, hU t⟩)]
    unfold christoffel
    simp [hp]
  refine ⟨c, e, hU, fun t _ i => ?_, fun t _ i => ?_, fun x hx i j => ?_⟩
  · simp only [h0]
    have : (fun t => deriv (fun t : ℝ => (![Real.pi / 2, t] : Fin 2 → ℝ) i) t) = fun _ => (![0, 1] : Fin 2 → ℝ) i := by
      funext t
      fin_cases i <;> simp
    rw [this]
    simpa using hasDerivAt_const t _
  · simp only [h0]
    simpa using hasDerivAt_const t _
  · have hx : Real.sin (x 0) ≠ 0 := hx
    have d0 : pd (fun x : Fin 2 → ℝ => Real.sin (x 1)) 0 x = 0 := by simp [pd]
    have d1 : pd (fun x : Fin 2 → ℝ => Real.sin (x 1)) 1 x = Real.cos (x 1) := by simp [pd]
    have d2 : pd (fun x : Fin 2 → ℝ => Real.cos (x 0) / Real.sin (x 0) * Real.cos (x 1)) 0 x = -(1 / Real.sin (x 0) ^ 2) * Real.cos (x 1) := by
      have := (((Real.hasDerivAt_cos (x 0)).fun_div (Real.hasDerivAt_sin (x 0)) hx).mul_const (Real.cos (x 1))).deriv
      have e : pd (fun x : Fin 2 → ℝ => Real.cos (x 0) / Real.sin (x 0) * Real.cos (x 1)) 0 x = deriv (fun s => Real.cos s / Real.sin s * Real.cos (x 1)) (x 0) := by
        simp [pd]
      rw [e, this]
      field_simp
      linear_combination (-Real.cos (x 1)) * Real.sin_sq_add_cos_sq (x 0)
    have d3 : pd (fun x : Fin 2 → ℝ => Real.cos (x 0) / Real.sin (x 0) * Real.cos (x 1)) 1 x = Real.cos (x 0) / Real.sin (x 0) * -Real.sin (x 1) := by
      have := ((Real.hasDerivAt_cos (x 1)).const_mul (Real.cos (x 0) / Real.sin (x 0))).deriv
      have e : pd (fun x : Fin 2 → ℝ => Real.cos (x 0) / Real.sin (x 0) * Real.cos (x 1)) 1 x = deriv (fun s => Real.cos (x 0) / Real.sin (x 0) * Real.cos s) (x 1) := by
        simp [pd]
      rw [e, this]
    rw [Fin.sum_univ_two]
    have q0 := hp0 0 0 0 x (by decide)
    have q1 := hp0 0 0 1 x (by decide)
    have q2 := hp0 0 1 0 x (by decide)
    have q3 := hp0 0 1 1 x (by decide)
    have q4 := hp0 1 0 0 x (by decide)
    have q5 := hp0 1 0 1 x (by decide)
    have q6 := hp0 1 1 1 x (by decide)
    fin_cases i <;> fin_cases j <;> simp [d0, d1, d2, d3, q0, q1, q2, q3, q4, q5, q6, hp1, sphG] <;> field_simp <;> ring

end Einpy.Fn
