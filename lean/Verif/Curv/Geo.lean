import Verif.Curv.Spec
import Mathlib.Tactic.Ring
import Mathlib.Tactic.LinearCombination
import Mathlib.Tactic.NoncommRing
import Mathlib.Tactic.Module

/-!
# Identities of the curvature tensors

Proved for every commutative ring of functions containing ℚ with commuting derivations.
-/

set_option linter.unusedSectionVars false

namespace Einpy.Geo

variable {ι R : Type*} [Fintype ι] [DecidableEq ι] [CommRing R] [Algebra ℚ R]
variable (d : ι → Derivation ℚ R R) (g : Matrix ι ι R)

theorem two_half (x : R) : 2 * half x = x := by
  rw [two_mul, half, ← add_smul]
  norm_num

/-! ## derivations and matrices -/

/-- entrywise derivative of a matrix -/
def dM (k : ι) (M : Matrix ι ι R) : Matrix ι ι R := M.map (d k)

theorem dM_apply (k : ι) (M : Matrix ι ι R) (i j : ι) : dM d k M i j = d k (M i j) := rfl

theorem dM_add (k : ι) (M N : Matrix ι ι R) : dM d k (M + N) = dM d k M + dM d k N := by
  ext i j; simp [dM]

theorem dM_sub (k : ι) (M N : Matrix ι ι R) : dM d k (M - N) = dM d k M - dM d k N := by
  ext i j; simp [dM]

theorem dM_mul (k : ι) (M N : Matrix ι ι R) : dM d k (M * N) = dM d k M * N + M * dM d k N := by
  ext i j
  simp only [dM_apply, Matrix.mul_apply, Matrix.add_apply, map_sum, Derivation.leibniz, smul_eq_mul]
  rw [← Finset.sum_add_distrib]
  refine Finset.sum_congr rfl fun x _ => ?_
  ring

theorem dM_one (k : ι) : dM d k (1 : Matrix ι ι R) = 0 := by
  ext i j
  rw [dM_apply, Matrix.one_apply]
  split_ifs <;> simp

theorem dM_transpose (k : ι) (M : Matrix ι ι R) : dM d k M.transpose = (dM d k M).transpose := by
  ext i j; rfl

theorem dM_comm (hd : ∀ i j x, d i (d j x) = d j (d i x)) (k l : ι) (M : Matrix ι ι R) :
    dM d k (dM d l M) = dM d l (dM d k M) := by
  ext i j; exact hd _ _ _

/-- connection matrices `(A_r)_{tp} = Γ^t_{pr}` -/
noncomputable def A (r : ι) : Matrix ι ι R := fun t p => christoffel d g t p r

/-- curvature matrices `(F_{rn})_{ts} = R^t_{srn}` -/
noncomputable def F (r n : ι) : Matrix ι ι R := fun t s => riemann d g t s r n

theorem F_eq (r n : ι) :
    F d g r n = dM d r (A d g n) - dM d n (A d g r) + A d g r * A d g n - A d g n * A d g r := by
  ext t s
  simp only [F, riemann, Matrix.sub_apply, Matrix.add_apply, dM_apply, Matrix.mul_apply, A,
    Finset.sum_sub_distrib]
  rw [add_sub_assoc]
  congr 1
  congr 1
  · exact Finset.sum_congr rfl fun p _ => mul_comm _ _
  · exact Finset.sum_congr rfl fun p _ => mul_comm _ _

section Sym
variable (hs : g.transpose = g) (hu : IsUnit g.det)
include hs

theorem g_symm (i j : ι) : g i j = g j i := by
  conv_lhs => rw [← hs]
  rfl

theorem ginv_symm (i j : ι) : g⁻¹ i j = g⁻¹ j i := by
  have : (g⁻¹).transpose = g⁻¹ := by rw [Matrix.transpose_nonsing_inv, hs]
  conv_lhs => rw [← this]
  rfl

/-- **torsion free** -/
theorem christoffel_symm (i j k : ι) : christoffel d g i j k = christoffel d g i k j := by
  unfold christoffel
  congr 1
  refine Finset.sum_congr rfl fun n _ => ?_
  rw [g_symm g hs j k]
  ring

include hu

omit hs in
/-- lowered Christoffel symbols -/
theorem lower_christoffel (i j k : ι) :
    ∑ t, g i t * christoffel d g t j k = half (d k (g i j) + d j (g i k) - d i (g j k)) := by
  unfold christoffel half
  simp only [mul_smul_comm, ← Finset.smul_sum, Finset.mul_sum]
  congr 1
  rw [Finset.sum_comm]
  have : ∀ n, ∑ t, g i t * (g⁻¹ t n * (d k (g n j) + d j (g n k) - d n (g j k)))
      = (1 : Matrix ι ι R) i n * (d k (g n j) + d j (g n k) - d n (g j k)) := by
    intro n
    rw [← Matrix.mul_nonsing_inv g hu, Matrix.mul_apply, Finset.sum_mul]
    exact Finset.sum_congr rfl fun t _ => by ring
  simp only [this, Matrix.one_apply, ite_mul, one_mul, zero_mul]
  simp

/-- **metric compatibility**, index form -/
theorem metric_compat (k i j : ι) :
    d k (g i j) = ∑ m, christoffel d g m k i * g m j + ∑ m, christoffel d g m k j * g i m := by
  have h1 : ∑ m, christoffel d g m k i * g m j
      = half (d i (g j k) + d k (g j i) - d j (g k i)) := by
    rw [← lower_christoffel d g hu j k i]
    exact Finset.sum_congr rfl fun m _ => by rw [g_symm g hs m j]; ring
  have h2 : ∑ m, christoffel d g m k j * g i m
      = half (d j (g i k) + d k (g i j) - d i (g k j)) := by
    rw [← lower_christoffel d g hu i k j]
    exact Finset.sum_congr rfl fun m _ => by ring
  rw [h1, h2, g_symm g hs j k, g_symm g hs j i, g_symm g hs i k]
  unfold half
  module

/-- **metric compatibility**, matrix form -/
theorem compatM (k : ι) : dM d k g = (A d g k).transpose * g + g * A d g k := by
  ext i j
  rw [dM_apply, metric_compat d g hs hu k i j, Matrix.add_apply, Matrix.mul_apply, Matrix.mul_apply]
  congr 1
  · exact Finset.sum_congr rfl fun m _ => by
      rw [Matrix.transpose_apply, A, christoffel_symm d g hs]
  · exact Finset.sum_congr rfl fun m _ => by
      rw [A, christoffel_symm d g hs]; ring

/-- derivative of the inverse metric -/
theorem compatInv (k : ι) :
    dM d k g⁻¹ = -(g⁻¹ * (A d g k).transpose) - A d g k * g⁻¹ := by
  have h1 : g⁻¹ * g = 1 := Matrix.nonsing_inv_mul g hu
  have h2 : g * g⁻¹ = 1 := Matrix.mul_nonsing_inv g hu
  have h3 := dM_mul d k g⁻¹ g
  rw [h1, dM_one, compatM d g hs hu] at h3
  have h4 : dM d k g⁻¹ * g = -(g⁻¹ * ((A d g k).transpose * g + g * A d g k)) :=
    eq_neg_of_add_eq_zero_left h3.symm
  calc dM d k g⁻¹ = dM d k g⁻¹ * g * g⁻¹ := by rw [Matrix.mul_assoc, h2, Matrix.mul_one]
    _ = -(g⁻¹ * (A d g k).transpose * (g * g⁻¹)) - (g⁻¹ * g) * A d g k * g⁻¹ := by
        rw [h4]; noncomm_ring
    _ = _ := by rw [h1, h2, Matrix.mul_one, Matrix.one_mul]

end Sym

/-! ## Riemann -/

theorem riemann_antisymm (t s r n : ι) : riemann d g t s r n = - riemann d g t s n r := by
  unfold riemann
  rw [Finset.sum_sub_distrib, Finset.sum_sub_distrib]
  ring

theorem F_antisymm (r n : ι) : F d g r n = - F d g n r := by
  ext t s; exact riemann_antisymm d g t s r n

/-- **first Bianchi identity** -/
theorem bianchi1 (hs : g.transpose = g) (t s r n : ι) :
    riemann d g t s r n + riemann d g t r n s + riemann d g t n s r = 0 := by
  unfold riemann
  simp only [Finset.sum_sub_distrib]
  have c1 := christoffel_symm d g hs
  have e1 : ∑ p, christoffel d g p r s * christoffel d g t p n
      = ∑ p, christoffel d g p s r * christoffel d g t p n :=
    Finset.sum_congr rfl fun p _ => by rw [c1 p r s]
  have e2 : ∑ p, christoffel d g p n s * christoffel d g t p r
      = ∑ p, christoffel d g p s n * christoffel d g t p r :=
    Finset.sum_congr rfl fun p _ => by rw [c1 p n s]
  have e3 : ∑ p, christoffel d g p n r * christoffel d g t p s
      = ∑ p, christoffel d g p r n * christoffel d g t p s :=
    Finset.sum_congr rfl fun p _ => by rw [c1 p n r]
  rw [e1, e2, e3, c1 t s r, c1 t s n, c1 t r n]
  ring

theorem riemannLow_eq (a s r n : ι) : riemannLow d g a s r n = (g * F d g r n) a s := by
  rw [riemannLow, Matrix.mul_apply]; rfl

theorem riemannLow_antisymm34 (a s r n : ι) :
    riemannLow d g a s r n = - riemannLow d g a s n r := by
  rw [riemannLow_eq, riemannLow_eq, F_antisymm d g r n, Matrix.mul_neg, Matrix.neg_apply]

theorem riemannLow_bianchi1 (hs : g.transpose = g) (a s r n : ι) :
    riemannLow d g a s r n + riemannLow d g a r n s + riemannLow d g a n s r = 0 := by
  unfold riemannLow
  rw [← Finset.sum_add_distrib, ← Finset.sum_add_distrib]
  refine Finset.sum_eq_zero fun t _ => ?_
  rw [← mul_add, ← mul_add, bianchi1 d g hs, mul_zero]

section Full
variable (hd : ∀ i j x, d i (d j x) = d j (d i x)) (hs : g.transpose = g) (hu : IsUnit g.det)
include hd hs hu

theorem lowF_skew (r n : ι) : (F d g r n).transpose * g + g * F d g r n = 0 := by
  have h := dM_comm d hd r n g
  rw [compatM d g hs hu n, compatM d g hs hu r] at h
  simp only [dM_add, dM_mul, dM_transpose, compatM d g hs hu n, compatM d g hs hu r] at h
  rw [F_eq]
  simp only [Matrix.transpose_sub, Matrix.transpose_add, Matrix.transpose_mul]
  rw [← sub_eq_zero] at h
  rw [← h]
  noncomm_ring

theorem riemannLow_antisymm12 (a s r n : ι) :
    riemannLow d g a s r n = - riemannLow d g s a r n := by
  have h := congrFun (congrFun (lowF_skew d g hd hs hu r n) a) s
  rw [Matrix.add_apply, ← riemannLow_eq] at h
  have : ((F d g r n).transpose * g) a s = riemannLow d g s a r n := by
    rw [riemannLow_eq]
    rw [Matrix.mul_apply, Matrix.mul_apply]
    exact Finset.sum_congr rfl fun m _ => by
      rw [Matrix.transpose_apply, g_symm g hs m s]; ring
  rw [this] at h
  exact eq_neg_of_add_eq_zero_right h

omit [Fintype ι] [DecidableEq ι] hd hs hu in
theorem pair_of_symm (T : ι → ι → ι → ι → R) (x : ∀ a s r n, T a s r n = - T s a r n)
    (y : ∀ a s r n, T a s r n = - T a s n r)
    (b : ∀ a s r n, T a s r n + T a r n s + T a n s r = 0) (a s r n : ι) :
    T a s r n = T r n a s := by
  have b1 := b a s r n
  have b2 := b s r n a
  have b3 := b r n a s
  have b4 := b n a s r
  rw [y s r n a, x s n a r, x s a r n, y n s a r] at b2
  rw [x r a s n, y a r s n, x r s n a, y s r n a] at b3
  rw [x n a s r, y n s r a, x n r a s, y n s a r] at b4
  rw [y n s r a] at b2 b4
  have key : 2 * T a s r n = 2 * T r n a s := by
    linear_combination b1 - b2 - b3 + b4
  have := congrArg half key
  rw [show half (2 * T a s r n) = 2 * half (T a s r n) by
      unfold half; rw [mul_smul_comm], show half (2 * T r n a s)
      = 2 * half (T r n a s) by unfold half; rw [mul_smul_comm],
      two_half, two_half] at this
  exact this

/-- **pair exchange** -/
theorem riemannLow_pair (a s r n : ι) : riemannLow d g a s r n = riemannLow d g r n a s :=
  pair_of_symm _ (riemannLow_antisymm12 d g hd hs hu) (riemannLow_antisymm34 d g)
    (riemannLow_bianchi1 d g hs) a s r n

end Full

end Einpy.Geo
