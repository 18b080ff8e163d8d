import Mathlib.Analysis.Calculus.Deriv.Pi
import Mathlib.Analysis.Calculus.FDeriv.Pi
import Mathlib.Analysis.Calculus.FDeriv.Add
import Mathlib.Analysis.Calculus.Deriv.Add
import Mathlib.Analysis.Calculus.Deriv.Mul
import Mathlib.Analysis.Calculus.Deriv.Comp
import Mathlib.Analysis.Calculus.Deriv.Prod
import Mathlib.Tactic.Ring
import Mathlib.Tactic.LinearCombination
import Verif.Num.Spec

/-!
# Geodesics of the Levi-Civita connection keep the norm of their velocity
-/

namespace Einpy.Num

/-- Chain rule through the coordinates. -/
theorem hasDerivAt_along {G : (Fin 4 → ℝ) → Matrix (Fin 4) (Fin 4) ℝ} {dG : Fin 4 → Fin 4 → Fin 4 → ℝ}
    {X : ℝ → Fin 4 → ℝ} {V : Fin 4 → ℝ} {t : ℝ} (hX : HasDerivAt X V t) (hG : HasPartials G dG (X t)) (i j : Fin 4)
    (hd : DifferentiableAt ℝ (fun y => G y i j) (X t)) :
    HasDerivAt (fun s => G (X s) i j) (∑ k, dG k i j * V k) t := by
  have h := hd.hasFDerivAt.comp_hasDerivAt t hX
  refine h.congr_deriv ?_
  have hk : ∀ k, fderiv ℝ (fun y => G y i j) (X t) (Pi.single k 1) = dG k i j := by
    intro k
    have hu : HasDerivAt (fun s => Function.update (X t) k s) (Pi.single k (1 : ℝ)) (X t k) :=
      hasDerivAt_update (X t) k (X t k)
    have hd' : HasFDerivAt (fun y => G y i j) (fderiv ℝ (fun y => G y i j) (X t)) (Function.update (X t) k (X t k)) := by
      rw [Function.update_eq_self]; exact hd.hasFDerivAt
    have h2 := hd'.comp_hasDerivAt (X t k) hu
    exact h2.unique (hG k i j)
  have hV : V = ∑ k, V k • (Pi.single k (1 : ℝ) : Fin 4 → ℝ) := by
    funext l
    simp [Finset.sum_apply, Pi.single_apply]
  conv_lhs => rw [hV]
  rw [map_sum]
  refine Finset.sum_congr rfl fun k _ => ?_
  rw [map_smul, hk, smul_eq_mul, mul_comm]

/-- `½ (∂_l g_{ik} + ∂_k g_{il} - ∂_i g_{kl})`, lowered symbols. -/
theorem lowered {g Gi : Matrix (Fin 4) (Fin 4) ℝ} (h : Gi * g = 1) (dG : Fin 4 → Fin 4 → Fin 4 → ℝ) (i k l : Fin 4) :
    ∑ j, g i j * christoffelFormula Gi dG j k l = 1 / 2 * (dG l i k + dG k i l - dG i k l) := by
  have h' : g * Gi = 1 := mul_eq_one_comm.mp h
  have e : ∀ m, ∑ j, g i j * Gi j m = if i = m then 1 else 0 := by
    intro m
    have := congrFun (congrFun h' i) m
    rw [Matrix.mul_apply, Matrix.one_apply] at this
    exact this
  unfold christoffelFormula
  calc ∑ j, g i j * (1 / 2 * ∑ m, Gi j m * (dG l m k + dG k m l - dG m k l))
      = 1 / 2 * ∑ m, (∑ j, g i j * Gi j m) * (dG l m k + dG k m l - dG m k l) := by
        rw [Finset.mul_sum]
        simp only [Finset.mul_sum, Finset.sum_mul]
        rw [Finset.sum_comm]
        refine Finset.sum_congr rfl fun m _ => Finset.sum_congr rfl fun j _ => ?_
        ring
    _ = _ := by
        simp only [e]
        simp

/-- `∑ dG k i j V k V i V j` -/
noncomputable def cubic (dG : Fin 4 → Fin 4 → Fin 4 → ℝ) (V : Fin 4 → ℝ) : ℝ := ∑ k, ∑ i, ∑ j, dG k i j * V k * V i * V j

/-- `g(V, A)` for the acceleration built from a table of derivatives. -/
theorem inner_accel {g Gi : Matrix (Fin 4) (Fin 4) ℝ} (h : Gi * g = 1) (dG : Fin 4 → Fin 4 → Fin 4 → ℝ)
    (V : Fin 4 → ℝ) :
    ∑ i, ∑ j, g i j * V i * geodesicAccel (christoffelFormula Gi dG) V j = -(1 / 2) * cubic dG V := by
  have e1 : ∑ i, ∑ j, g i j * V i * geodesicAccel (christoffelFormula Gi dG) V j
      = -∑ i, ∑ k, ∑ l, (∑ j, g i j * christoffelFormula Gi dG j k l) * V i * V k * V l := by
    rw [← Finset.sum_neg_distrib]
    refine Finset.sum_congr rfl fun i _ => ?_
    unfold geodesicAccel
    simp only [mul_neg, Finset.mul_sum, Finset.sum_mul, Finset.sum_neg_distrib]
    congr 1
    rw [Finset.sum_comm]
    refine Finset.sum_congr rfl fun k _ => ?_
    rw [Finset.sum_comm]
    refine Finset.sum_congr rfl fun l _ => Finset.sum_congr rfl fun j _ => ?_
    ring
  rw [e1]
  simp only [lowered h]
  have a1 : ∑ i, ∑ k, ∑ l, dG l i k * V i * V k * V l = cubic dG V := by
    unfold cubic
    rw [show (∑ k, ∑ i, ∑ j, dG k i j * V k * V i * V j) = ∑ i, ∑ k, ∑ j, dG k i j * V k * V i * V j from Finset.sum_comm]
    refine Finset.sum_congr rfl fun i _ => ?_
    rw [Finset.sum_comm]
    refine Finset.sum_congr rfl fun k _ => Finset.sum_congr rfl fun l _ => ?_
    ring
  have a2 : ∑ i, ∑ k, ∑ l, dG k i l * V i * V k * V l = cubic dG V := by
    unfold cubic
    rw [Finset.sum_comm]
    refine Finset.sum_congr rfl fun i _ => Finset.sum_congr rfl fun k _ => Finset.sum_congr rfl fun l _ => ?_
    ring
  have a3 : ∑ i, ∑ k, ∑ l, dG i k l * V i * V k * V l = cubic dG V := rfl
  have : ∑ i, ∑ k, ∑ l, 1 / 2 * (dG l i k + dG k i l - dG i k l) * V i * V k * V l
      = 1 / 2 * (∑ i, ∑ k, ∑ l, dG l i k * V i * V k * V l + ∑ i, ∑ k, ∑ l, dG k i l * V i * V k * V l
        - ∑ i, ∑ k, ∑ l, dG i k l * V i * V k * V l) := by
    simp only [Finset.mul_sum, ← Finset.sum_add_distrib, ← Finset.sum_sub_distrib]
    refine Finset.sum_congr rfl fun i _ => Finset.sum_congr rfl fun k _ => Finset.sum_congr rfl fun l _ => ?_
    ring
  rw [this, a1, a2, a3]; ring

/-- Derivative of `g(V,V)` along a curve whose acceleration comes from the (possibly wrong) derivative table `dH`. -/
theorem normSq_deriv {G : (Fin 4 → ℝ) → Matrix (Fin 4) (Fin 4) ℝ} {dG dH : Fin 4 → Fin 4 → Fin 4 → ℝ}
    {Gi : Matrix (Fin 4) (Fin 4) ℝ} {X V : ℝ → Fin 4 → ℝ} {t : ℝ}
    (hs : ∀ i j, G (X t) i j = G (X t) j i) (hd : ∀ i j, DifferentiableAt ℝ (fun y => G y i j) (X t))
    (hG : HasPartials G dG (X t)) (hi : Gi * G (X t) = 1)
    (hX : HasDerivAt X (V t) t) (hV : HasDerivAt V (geodesicAccel (christoffelFormula Gi dH) (V t)) t) :
    HasDerivAt (fun s => normSq (G (X s)) (V s)) (cubic dG (V t) - cubic dH (V t)) t := by
  have hVi : ∀ i, HasDerivAt (fun s => V s i) (geodesicAccel (christoffelFormula Gi dH) (V t) i) t := by
    intro i; exact (hasDerivAt_pi.mp hV) i
  have h := HasDerivAt.fun_sum (u := Finset.univ) fun i _ => HasDerivAt.fun_sum (u := Finset.univ) fun j _ =>
    ((hasDerivAt_along hX hG i j (hd i j)).mul (hVi i)).mul (hVi j)
  refine h.congr_deriv ?_
  generalize hA : geodesicAccel (christoffelFormula Gi dH) (V t) = A at *
  have e1 : ∑ i, ∑ j, G (X t) i j * V t i * A j = -(1 / 2) * cubic dH (V t) := by
    rw [← hA]; exact inner_accel hi dH (V t)
  have e2 : ∑ i, ∑ j, G (X t) i j * A i * V t j = -(1 / 2) * cubic dH (V t) := by
    rw [← e1, Finset.sum_comm]
    refine Finset.sum_congr rfl fun i _ => Finset.sum_congr rfl fun j _ => ?_
    rw [hs j i]; ring
  have e3 : ∑ i, ∑ j, (∑ k, dG k i j * V t k) * V t i * V t j = cubic dG (V t) := by
    unfold cubic
    simp only [Finset.sum_mul]
    rw [Finset.sum_comm' (s := Finset.univ) (t := fun _ => Finset.univ) (t' := Finset.univ) (s' := fun _ => Finset.univ) (by simp)]
    rw [Finset.sum_comm]
    rw [show (∑ k, ∑ i, ∑ j, dG k i j * V t k * V t i * V t j) = ∑ i, ∑ k, ∑ j, dG k i j * V t k * V t i * V t j from Finset.sum_comm]
    refine Finset.sum_congr rfl fun i _ => ?_
    rw [Finset.sum_comm]
  have : ∀ i j, ((∑ k, dG k i j * V t k) * V t i + G (X t) i j * A i) * V t j + G (X t) i j * V t i * A j
      = (∑ k, dG k i j * V t k) * V t i * V t j + G (X t) i j * A i * V t j + G (X t) i j * V t i * A j := by
    intro i j; ring
  simp only [Pi.mul_apply, this]
  simp only [Finset.sum_add_distrib, e1, e2, e3]
  ring

theorem normSq_const {G : (Fin 4 → ℝ) → Matrix (Fin 4) (Fin 4) ℝ} {Γ : Fin 4 → Fin 4 → Fin 4 → ℝ}
    {X V : ℝ → Fin 4 → ℝ} {t : ℝ}
    (hs : ∀ i j, G (X t) i j = G (X t) j i) (hd : ∀ i j, DifferentiableAt ℝ (fun y => G y i j) (X t))
    (hG : IsLeviCivita G (X t) Γ) (hX : HasDerivAt X (V t) t) (hV : HasDerivAt V (geodesicAccel Γ (V t)) t) :
    HasDerivAt (fun s => normSq (G (X s)) (V s)) 0 t := by
  obtain ⟨dG, Gi, h1, h2, h3⟩ := hG
  have : Γ = christoffelFormula Gi dG := by funext i k l; exact h3 i k l
  rw [this] at hV
  exact (normSq_deriv hs hd h1 h2 hX hV).congr_deriv (sub_self _)

end Einpy.Num
